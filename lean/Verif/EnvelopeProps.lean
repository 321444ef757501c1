import Verif.EnvelopeModel

/-!
# C81: the payload of an envelope is documented with the type of what the route passes

The specification executes helper and constructor on values.
-/

namespace Verif.Envelope

open Verif.Common

/-! ## Specification -/

/-- Values: structs, and the rest. -/
inductive V
  | atom (n : Nat)
  | struct (fs : List (String × V))

/-- The declared functions, and what literals stand for. -/
structure Lang where
  funcs : List Decl
  lit : Str → V

mutual
/-- The value of an expression; addresses are followed. -/
inductive Ev (L : Lang) : (String → V) → Exp → V → Prop
  | var (env : String → V) (x : String) (ty info : Str) : Ev L env (.var x ty info) (env x)
  | lit (env : String → V) (raw : Str) : Ev L env (.lit raw) (L.lit raw)
  | addr {env : String → V} {e : Exp} {v : V} : Ev L env e v → Ev L env (.addr e) v
  | paren {env : String → V} {e : Exp} {v : V} : Ev L env e v → Ev L env (.paren e) v
  | comp {env : String → V} {ty : Str} {fields : List (String × Exp)} {fs : List (String × V)} :
      EvFields L env fields fs → Ev L env (.comp ty fields) (.struct fs)
  | call {env : String → V} {pkg name : String} {args : List Exp} {ty info : Str} {rs : List V} {v : V} :
      Results L env pkg name args rs → rs.head? = some v → Ev L env (.call pkg name args ty info) v
inductive EvFields (L : Lang) : (String → V) → List (String × Exp) → List (String × V) → Prop
  | nil (env : String → V) : EvFields L env [] []
  | cons {env : String → V} {f : String} {e : Exp} {v : V} {r : List (String × Exp)} {vs : List (String × V)} :
      Ev L env e v → EvFields L env r vs → EvFields L env ((f, e) :: r) ((f, v) :: vs)
inductive EvArgs (L : Lang) : (String → V) → List Exp → List V → Prop
  | nil (env : String → V) : EvArgs L env [] []
  | cons {env : String → V} {e : Exp} {v : V} {r : List Exp} {vs : List V} :
      Ev L env e v → EvArgs L env r vs → EvArgs L env (e :: r) (v :: vs)
/-- The results of a call: those of one of the return statements of the function, executed after its assignments.
A function whose code is not there may give anything. -/
inductive Results (L : Lang) : (String → V) → String → String → List Exp → List V → Prop
  | declared {env env₀ env₁ : String → V} {d : Decl} {args : List Exp} {vs rs : List V} {r : List Exp} :
      d ∈ L.funcs → EvArgs L env args vs → vs.length = d.params.length →
      (∀ (i : Nat) (p : String) (v : V), d.params[i]? = some p → vs[i]? = some v → env₀ p = v) →
      Run L env₀ d.body env₁ → r ∈ d.rets → EvArgs L env₁ r rs → Results L env d.pkg d.name args rs
  | foreign {env : String → V} {pkg name : String} {args : List Exp} {rs : List V} :
      (∀ d ∈ L.funcs, ¬ (d.pkg = pkg ∧ d.name = name)) → Results L env pkg name args rs
/-- The statements one after the other. -/
inductive Run (L : Lang) : (String → V) → List Stmt → (String → V) → Prop
  | nil (env : String → V) : Run L env [] env
  | call {env env₁ env₂ : String → V} {lhs : List String} {pkg name : String} {args : List Exp} {ty info : Str}
      {ss : List Stmt} {rs : List V} : Results L env pkg name args rs →
      (∀ (i : Nat) (x : String), lhs[i]? = some x → x ≠ "_" → rs[i]? = some (env₁ x)) → (∀ y, y ∉ lhs → env₁ y = env y) →
      Run L env₁ ss env₂ → Run L env (⟨lhs, .call pkg name args ty info⟩ :: ss) env₂
  | plain {env env₁ env₂ : String → V} {s : Stmt} {ss : List Stmt} {v : V} :
      (∀ pkg name args ty info, s.rhs ≠ .call pkg name args ty info) → Ev L env s.rhs v →
      (∀ x, s.lhs.head? = some x → x ≠ "_" → env₁ x = v) → (∀ y, y ∉ s.lhs → env₁ y = env y) →
      Run L env₁ ss env₂ → Run L env (s :: ss) env₂
end

/-- Functions are told apart by package and name. -/
def Distinct (funcs : List Decl) : Prop :=
  ∀ d ∈ funcs, ∀ g ∈ funcs, d.pkg = g.pkg → d.name = g.name → d = g

/-- A type text as Go writes it: it begins with no `&` and has no blanks at its ends. -/
def Text (t : Str) : Prop :=
  t ≠ [] ∧ t.head? ≠ some '&' ∧ ∀ c, t.head? = some c ∨ t.getLast? = some c → c ∉ [' ', '\t', '\n', '\r']

/-- The recorded type of an argument is that of its value (`has t v`), unless it is an interface that says
nothing. -/
def Recorded (has : Str → V → Prop) (e : Exp) (v : V) : Prop :=
  match e with
  | .var _ ty _ => ty ≠ [] ∧ Text ty ∧ has ty v
  | .call _ _ _ ty _ => ty ≠ [] ∧ Text ty ∧ has ty v
  | .comp ty _ => Text ty ∧ has ty v
  | .addr (.comp ty _) => Text ty ∧ has ty v
  | _ => False

/-- A helper that makes an envelope with a constructor: `x` gets the result number `i` of
`ctor(args…)`, by the statement after `pre`, and is encoded after `mid`. -/
structure Pattern (L : Lang) where
  helper : Decl
  ctor : Decl
  x : String
  i : Nat
  lhs : List String
  args : List Exp
  ty : Str
  info : Str
  pre : List Stmt
  mid : List Stmt
  post : List Stmt
  /-- What the constructor returns at that position: `&Envelope{…}`. -/
  made : Exp
  helper_mem : helper ∈ L.funcs
  ctor_mem : ctor ∈ L.funcs
  named : ctor.name ≠ "" ∧ ctor.pkg ≠ "" ∧ x ≠ "_"
  body : helper.body = pre ++ ⟨lhs, .call ctor.pkg ctor.name args ty info⟩ :: (mid ++ post)
  here : ∀ j, lhs[j]? = some x ↔ j = i
  last : ∀ s ∈ mid ++ post, x ∉ s.lhs
  returns : ctor.rets ≠ [] ∧ ∀ r ∈ ctor.rets, r[i]? = some made
  /-- Neither function assigns to its parameters. -/
  ctor_keeps : ∀ s ∈ ctor.body, ∀ p ∈ ctor.params, p ∉ s.lhs
  helper_keeps : ∀ s ∈ pre, ∀ p ∈ helper.params, p ∉ s.lhs
  ctor_params : ctor.params.Nodup

/-- `T{…}`, `&T{…}`, `(T{…})`. -/
inductive Literal (ty : Str) (fields : List (String × Exp)) : Exp → Prop
  | bare : Literal ty fields (.comp ty fields)
  | addr {e} : Literal ty fields e → Literal ty fields (.addr e)
  | paren {e} : Literal ty fields e → Literal ty fields (.paren e)

/-- The constructor puts its argument `e` of this call into the field `f`. -/
def Carries {L : Lang} (P : Pattern L) (f : String) (e : Exp) : Prop :=
  ∃ ty fields p t i, ∃ k : Nat, Literal ty fields P.made ∧ (f, Exp.var p t i) ∈ fields ∧ P.ctor.params[k]? = some p ∧ P.args[k]? = some e

/-- The field is declared `any`, `interface{}` or a pointer to it. -/
def Generic (envelope : List Field) (f : String) : Prop :=
  ∃ d ∈ envelope, d.name = f ∧
    (d.ty = "any".toList ∨ d.ty = "interface{}".toList ∨ d.ty = "*any".toList ∨ d.ty = "*interface{}".toList)

/-- The route enters the helper with the arguments `cargs`, whose values are `cvs`. -/
structure Entered {L : Lang} (P : Pattern L) (cargs : List Exp) (callerEnv env₀ env₁ : String → V) where
  cvs : List V
  args : EvArgs L callerEnv cargs cvs
  arity : cvs.length = P.helper.params.length
  bound : ∀ (i : Nat) (p : String) (v : V), P.helper.params[i]? = some p → cvs[i]? = some v → env₀ p = v
  run : Run L env₀ (P.pre ++ ⟨P.lhs, .call P.ctor.pkg P.ctor.name P.args P.ty P.info⟩ :: P.mid) env₁

/-- The type recorded for a variable or a call is that of its value. -/
def Declared (has : Str → V → Prop) (e : Exp) (v : V) : Prop :=
  ∀ ty, ((∃ x i, e = .var x ty i) ∨ (∃ p n a i, e = .call p n a ty i)) → ty ≠ [] → Text ty ∧ has ty v

/-- A type text that says what the value is: a qualified or composite type or one of the basic types. -/
def Concrete (t : Str) : Prop :=
  t ≠ [] ∧ t.head? ≠ some '*' ∧ t ≠ "any".toList ∧ t ≠ "interface{}".toList ∧ ¬ "untyped ".toList <+: t ∧
    ('.' ∈ t ∨ '/' ∈ t ∨ '[' ∈ t ∨
      t ∈ ["string".toList, "bool".toList, "int".toList, "int8".toList, "int16".toList, "int32".toList, "int64".toList,
        "uint".toList, "uint8".toList, "uint16".toList, "uint32".toList, "uint64".toList, "float32".toList,
        "float64".toList, "byte".toList, "rune".toList, "error".toList])

/-- The name of a field in JSON: that of its tag, or its own. -/
def Field.shown (d : Field) : String := if d.tag = "" then d.name else d.tag

/-! ## Lemmas -/

theorem literal_strip {ty : Str} {fields : List (String × Exp)} {e : Exp} (h : Literal ty fields e) :
    strip e = .comp ty fields := by
  induction h with
  | bare => rfl
  | addr _ ih => exact ih
  | paren _ ih => exact ih

theorem strip_literal {ty : Str} {fields : List (String × Exp)} : ∀ {e : Exp}, strip e = .comp ty fields → Literal ty fields e
  | .addr e, h => .addr (strip_literal (e := e) h)
  | .paren e, h => .paren (strip_literal (e := e) h)
  | .comp _ _, h => by simp [strip] at h; obtain ⟨rfl, rfl⟩ := h; exact .bare
  | .var .., h => by simp [strip] at h
  | .call .., h => by simp [strip] at h
  | .lit .., h => by simp [strip] at h

theorem find_unique {funcs : List Decl} (hd : Distinct funcs) {d : Decl} (h : d ∈ funcs) :
    findFunction funcs d.pkg d.name = some d := by
  unfold findFunction
  cases hf : funcs.find? (fun f => decide (f.pkg = d.pkg) && decide (f.name = d.name)) with
  | none =>
    rw [List.find?_eq_none] at hf
    exact absurd (by simp) (hf d h)
  | some g =>
    have h1 := List.mem_of_find?_eq_some hf
    have h2 := List.find?_some hf
    simp at h2
    rw [hd g h1 d h h2.1 h2.2]

theorem record_nil {s : Stmt} {x : String} (h : x ∉ s.lhs) : record s x = [] := by
  unfold record
  split
  · have : s.lhs.zipIdx.filter (fun p => decide (p.1 = x) && decide (p.1 ≠ "_")) = [] := by
      rw [List.filter_eq_nil_iff]
      rintro ⟨y, k⟩ hm
      have := List.fst_mem_of_mem_zipIdx hm
      have hne : y ≠ x := fun e => h (e ▸ this)
      simp [hne]
    rw [this]
    rfl
  · rw [if_neg]
    rintro ⟨h1, -⟩
    exact h (List.mem_of_mem_head? h1)

theorem zipIdx_filter (p : String → Bool) (x : String) : ∀ (l : List String) (i k : Nat),
    (∀ y, p y = true ↔ y = x) → (∀ j, l[j]? = some x ↔ j = i) →
    (l.zipIdx k).filter (fun q => p q.1) = [(x, i + k)]
  | [], i, k, _, h => by
    have := (h i).2 rfl
    simp at this
  | a :: l, i, k, hp, h => by
    rw [List.zipIdx_cons]
    cases i with
    | zero =>
      have ha : a = x := by simpa using (h 0).2 rfl
      have hr : (l.zipIdx (k + 1)).filter (fun q => p q.1) = [] := by
        rw [List.filter_eq_nil_iff]
        rintro ⟨y, n⟩ hm
        have hy := List.fst_mem_of_mem_zipIdx hm
        intro hpy
        have := (hp y).1 hpy
        subst this
        obtain ⟨j, hj⟩ := List.mem_iff_getElem?.1 hy
        have := (h (j + 1)).1 (by simpa using hj)
        simp at this
      rw [List.filter_cons, if_pos ((hp a).2 ha), hr, ha]
      simp
    | succ i =>
      have ha : a ≠ x := by
        intro e
        have := (h 0).1 (by simp [e])
        simp at this
      rw [List.filter_cons, if_neg (by intro e; exact ha ((hp a).1 e))]
      rw [zipIdx_filter p x l i (k + 1) hp fun j => by simpa using h (j + 1)]
      simp [Nat.add_comm, Nat.add_left_comm]

theorem assignments_last {L : Lang} (P : Pattern L) :
    (P.helper.assignments P.x).getLast? = some ⟨P.ctor.name, P.ctor.pkg, P.i, .call P.ctor.pkg P.ctor.name P.args P.ty P.info⟩ := by
  unfold Decl.assignments
  rw [P.body, List.flatMap_append, List.flatMap_cons]
  have h1 : (P.mid ++ P.post).flatMap (record · P.x) = [] := by
    rw [List.flatMap_eq_nil_iff]
    intro s hs
    exact record_nil (P.last s hs)
  have h2 : record ⟨P.lhs, .call P.ctor.pkg P.ctor.name P.args P.ty P.info⟩ P.x =
      [⟨P.ctor.name, P.ctor.pkg, P.i, .call P.ctor.pkg P.ctor.name P.args P.ty P.info⟩] := by
    unfold record
    dsimp only
    have := zipIdx_filter (fun y => decide (y = P.x) && decide (y ≠ "_")) P.x P.lhs P.i 0
      (by intro y; have := P.named.2.2; simp; rintro rfl; exact this) P.here
    rw [this]
    rfl
  rw [h1, h2]
  simp

theorem returnVars_mem : ∀ {rs : List (List Exp)}, rs ≠ [] → returnVars rs ∈ rs
  | [], h => absurd rfl h
  | r :: rs, _ => by
    unfold returnVars
    split
    · rename_i hl
      refine List.mem_cons_of_mem _ (returnVars_mem ?_)
      rintro rfl
      simp [returnVars] at hl
    · exact List.mem_cons_self ..

theorem mem_mset {κ β : Type} [DecidableEq κ] (m : List (κ × β)) (k : κ) (v : β) (e : κ × β) (h : e ∈ mset m k v) :
    e ∈ m ∨ e = (k, v) := by
  induction m with
  | nil => simp [mset] at h; exact Or.inr h
  | cons a m ih =>
    unfold mset at h
    split at h
    · rcases List.mem_cons.1 h with h | h
      · exact Or.inr h
      · exact Or.inl (List.mem_cons_of_mem _ h)
    · rcases List.mem_cons.1 h with h | h
      · exact Or.inl (by rw [h]; exact List.mem_cons_self ..)
      · rcases ih h with h | h
        · exact Or.inl (List.mem_cons_of_mem _ h)
        · exact Or.inr h

theorem mem_fold_mset {κ β : Type} [DecidableEq κ] : ∀ (l : List (κ × β)) (m : List (κ × β)) (e : κ × β),
    e ∈ l.foldl (fun m f => mset m f.1 f.2) m → e ∈ m ∨ e ∈ l
  | [], m, e, h => Or.inl h
  | a :: l, m, e, h => by
    rw [List.foldl_cons] at h
    rcases mem_fold_mset l _ e h with h | h
    · rcases mem_mset _ _ _ _ h with h | h
      · exact Or.inl h
      · exact Or.inr (by rw [h]; exact List.mem_cons_self ..)
    · exact Or.inr (List.mem_cons_of_mem _ h)

theorem fold_mset_mget {κ β : Type} [DecidableEq κ] : ∀ (l : List (κ × β)) (m : List (κ × β)) (k : κ) (v : β),
    (l.map Prod.fst).Nodup → (k, v) ∈ l → mget (l.foldl (fun m f => mset m f.1 f.2) m) k = some v
  | [], _, _, _, _, h => by simp at h
  | a :: l, m, k, v, hn, h => by
    rw [List.map_cons, List.nodup_cons] at hn
    rw [List.foldl_cons]
    rcases List.mem_cons.1 h with rfl | h
    · have : ∀ (l : List (κ × β)) (m : List (κ × β)), k ∉ l.map Prod.fst →
          mget (l.foldl (fun m f => mset m f.1 f.2) m) k = mget m k := by
        intro l
        induction l with
        | nil => intro m _; rfl
        | cons b l ih =>
          intro m hk
          rw [List.map_cons, List.mem_cons, not_or] at hk
          rw [List.foldl_cons, ih _ hk.2, mget_mset_ne _ _ hk.1]
      rw [this _ _ hn.1, mget_mset_self]
    · exact fold_mset_mget l _ k v hn.2 h

theorem fieldParams_sound {params : List String} {e : Exp} {f p : String} (h : (f, p) ∈ fieldParams params e) :
    ∃ ty fields t i, strip e = .comp ty fields ∧ (f, .var p t i) ∈ fields ∧ p ∈ params := by
  unfold fieldParams at h
  split at h
  · rename_i ty fields hs
    rcases mem_fold_mset _ _ _ h with h | h
    · simp at h
    · rw [List.mem_filterMap] at h
      obtain ⟨⟨g, e'⟩, hm, h⟩ := h
      dsimp only at h
      split at h
      · rename_i q t i
        split at h
        · rename_i hc
          simp only [Option.some.injEq, Prod.mk.injEq] at h
          obtain ⟨rfl, rfl⟩ := h
          exact ⟨ty, fields, t, i, hs, hm, hc.2.2⟩
        · simp at h
      · simp at h
  · simp at h

theorem filterMap_keys {α β : Type} (g : String × α → Option (String × β))
    (hg : ∀ a b, g a = some b → b.1 = a.1) : ∀ (l : List (String × α)), (l.map Prod.fst).Nodup →
    ((l.filterMap g).map Prod.fst).Nodup ∧ ∀ k ∈ (l.filterMap g).map Prod.fst, k ∈ l.map Prod.fst
  | [], _ => by simp
  | a :: l, h => by
    rw [List.map_cons, List.nodup_cons] at h
    obtain ⟨h1, h2⟩ := filterMap_keys g hg l h.2
    rw [List.filterMap_cons]
    cases hga : g a with
    | none =>
      exact ⟨h1, fun k hk => List.mem_cons_of_mem _ (h2 k hk)⟩
    | some b =>
      have := hg a b hga
      dsimp only
      rw [List.map_cons, List.nodup_cons, this]
      refine ⟨⟨fun hk => h.1 (h2 _ hk), h1⟩, ?_⟩
      intro k hk
      rcases List.mem_cons.1 hk with rfl | hk
      · simp
      · exact List.mem_cons_of_mem _ (h2 k hk)

theorem fieldParams_complete {params : List String} {e : Exp} {f p : String} {ty : Str} {fields : List (String × Exp)}
    {t i : Str} (hs : strip e = .comp ty fields) (hn : (fields.map Prod.fst).Nodup)
    (hm : (f, .var p t i) ∈ fields) (hf : f ≠ "") (hp : p ≠ "") (hpp : p ∈ params) : (f, p) ∈ fieldParams params e := by
  unfold fieldParams
  rw [hs]
  dsimp only
  apply mem_of_mget
  apply fold_mset_mget
  · refine (filterMap_keys _ ?_ fields hn).1
    rintro ⟨a, ae⟩ b h
    dsimp only at h
    split at h
    · split at h
      · simp only [Option.some.injEq] at h
        rw [← h]
      · simp at h
    · simp at h
  · rw [List.mem_filterMap]
    refine ⟨_, hm, ?_⟩
    dsimp only
    rw [if_pos ⟨hf, hp, hpp⟩]

theorem lookupArg_some : ∀ {args : List Exp} {ps : List String} {p : String} {e : Exp}, lookupArg args ps p = some e →
    ∃ k : Nat, ps[k]? = some p ∧ args[k]? = some e
  | args, [], _, _, h => by unfold lookupArg at h; simp at h
  | [], q :: ps, _, _, h => by unfold lookupArg at h; simp at h
  | a :: as, q :: ps, p, e, h => by
    unfold lookupArg at h
    dsimp only at h
    split at h
    · rename_i hq
      exact ⟨0, by simp [hq], by simpa using h⟩
    · obtain ⟨k, h1, h2⟩ := lookupArg_some h
      exact ⟨k + 1, by simpa using h1, by simpa using h2⟩

theorem lookupArg_get : ∀ {args : List Exp} {ps : List String} {p : String} {e : Exp} {k : Nat}, ps.Nodup →
    ps[k]? = some p → args[k]? = some e → lookupArg args ps p = some e
  | args, [], _, _, _, _, h, _ => by simp at h
  | [], q :: ps, _, _, _, _, _, h => by simp at h
  | a :: as, q :: ps, p, e, k, hn, h1, h2 => by
    rw [List.nodup_cons] at hn
    unfold lookupArg
    dsimp only
    cases k with
    | zero =>
      simp at h1 h2
      rw [if_pos h1, h2]
    | succ k =>
      simp at h1 h2
      rw [if_neg (fun e => hn.1 (by rw [e]; exact List.mem_of_getElem? h1))]
      exact lookupArg_get hn.2 h1 h2

theorem evArgs_get {L : Lang} {env : String → V} : ∀ {es : List Exp} {vs : List V}, EvArgs L env es vs →
    ∀ {k : Nat} {e : Exp}, es[k]? = some e → ∃ v, vs[k]? = some v ∧ Ev L env e v
  | [], _, _, _, _, h => by simp at h
  | a :: es, _, h, k, e, he => by
    cases h with
    | @cons _ _ v _ vs h1 h2 =>
      cases k with
      | zero =>
        simp at he
        subst he
        exact ⟨v, rfl, h1⟩
      | succ k =>
        simp at he
        simpa using evArgs_get h2 he

theorem evFields_mem {L : Lang} {env : String → V} : ∀ {es : List (String × Exp)} {vs : List (String × V)},
    EvFields L env es vs → ∀ {f : String} {e : Exp}, (f, e) ∈ es → ∃ v, (f, v) ∈ vs ∧ Ev L env e v
  | [], _, _, _, _, h => by simp at h
  | a :: es, _, h, f, e, he => by
    cases h with
    | @cons _ g e' v _ vs h1 h2 =>
      rcases List.mem_cons.1 he with he | he
      · simp only [Prod.mk.injEq] at he
        obtain ⟨rfl, rfl⟩ := he
        exact ⟨v, List.mem_cons_self .., h1⟩
      · obtain ⟨w, h3, h4⟩ := evFields_mem h2 he
        exact ⟨w, List.mem_cons_of_mem _ h3, h4⟩

theorem ev_strip {L : Lang} {env : String → V} : ∀ {e : Exp} {v : V}, Ev L env e v → Ev L env (strip e) v
  | .addr e, v, h => by cases h with | addr h => exact ev_strip (e := e) h
  | .paren e, v, h => by cases h with | paren h => exact ev_strip (e := e) h
  | .var .., v, h => h
  | .call .., v, h => h
  | .lit .., v, h => h
  | .comp .., v, h => h

theorem run_append {L : Lang} : ∀ {a b : List Stmt} {env env₂ : String → V}, Run L env (a ++ b) env₂ →
    ∃ env₁, Run L env a env₁ ∧ Run L env₁ b env₂
  | [], b, env, env₂, h => ⟨env, .nil env, h⟩
  | s :: a, b, env, env₂, h => by
    rw [List.cons_append] at h
    cases h with
    | call h1 h2 h3 h4 =>
      obtain ⟨m, h5, h6⟩ := run_append h4
      exact ⟨m, .call h1 h2 h3 h5, h6⟩
    | plain h0 h1 h2 h3 h4 =>
      obtain ⟨m, h5, h6⟩ := run_append h4
      exact ⟨m, .plain h0 h1 h2 h3 h5, h6⟩

theorem run_keeps {L : Lang} {y : String} : ∀ {ss : List Stmt} {env env₁ : String → V}, Run L env ss env₁ →
    (∀ s ∈ ss, y ∉ s.lhs) → env₁ y = env y
  | [], _, _, h, _ => by cases h; rfl
  | s :: ss, env, env₂, h, hy => by
    cases h with
    | call h1 h2 h3 h4 =>
      rw [run_keeps h4 fun s hs => hy s (List.mem_cons_of_mem _ hs)]
      exact h3 y (hy _ (List.mem_cons_self ..))
    | plain h0 h1 h2 h3 h4 =>
      rw [run_keeps h4 fun s hs => hy s (List.mem_cons_of_mem _ hs)]
      exact h3 y (hy _ (List.mem_cons_self ..))

theorem run_call {L : Lang} {lhs : List String} {pkg name : String} {args : List Exp} {ty info : Str}
    {ss : List Stmt} {env env₂ : String → V} (h : Run L env (⟨lhs, .call pkg name args ty info⟩ :: ss) env₂) :
    ∃ rs env₁, Results L env pkg name args rs ∧
      (∀ (i : Nat) (x : String), lhs[i]? = some x → x ≠ "_" → rs[i]? = some (env₁ x)) ∧ Run L env₁ ss env₂ := by
  generalize hs : (⟨lhs, .call pkg name args ty info⟩ : Stmt) = s at h
  cases h with
  | call h1 h2 h3 h4 =>
    simp at hs
    obtain ⟨rfl, rfl, rfl, rfl, -, -⟩ := hs
    exact ⟨_, _, h1, h2, h4⟩
  | plain h0 =>
    rw [← hs] at h0
    exact absurd rfl (h0 _ _ _ _ _)

theorem results_declared {L : Lang} (hd : Distinct L.funcs) {d : Decl} (hm : d ∈ L.funcs) {env : String → V}
    {args : List Exp} {rs : List V} (h : Results L env d.pkg d.name args rs) :
    ∃ vs env₀ env₁ r, EvArgs L env args vs ∧ vs.length = d.params.length ∧
      (∀ (i : Nat) (p : String) (v : V), d.params[i]? = some p → vs[i]? = some v → env₀ p = v) ∧
      Run L env₀ d.body env₁ ∧ r ∈ d.rets ∧ EvArgs L env₁ r rs := by
  generalize hp : d.pkg = p at h
  generalize hn : d.name = n at h
  cases h with
  | @declared _ env₀ env₁ d' _ vs _ r h1 h2 h3 h4 h5 h6 h7 =>
    have : d' = d := hd d' h1 d hm hp.symm hn.symm
    subst this
    exact ⟨vs, env₀, env₁, r, h2, h3, h4, h5, h6, h7⟩
  | foreign h => exact absurd ⟨hp, hn⟩ (h d hm)

/-- The execution of the pattern: the envelope is a struct, and a field bound to a parameter of the constructor has
the value of the constructor's argument. -/
theorem pattern_value {L : Lang} (hd : Distinct L.funcs) (P : Pattern L) {env₀ env₁ : String → V}
    (hrun : Run L env₀ (P.pre ++ ⟨P.lhs, .call P.ctor.pkg P.ctor.name P.args P.ty P.info⟩ :: P.mid) env₁)
    {ty : Str} {fields : List (String × Exp)} (hs : strip P.made = .comp ty fields) :
    ∃ fs m, env₁ P.x = .struct fs ∧ Run L env₀ P.pre m ∧
      ∀ f p t i, (f, Exp.var p t i) ∈ fields → p ∈ P.ctor.params → ∀ (k : Nat) (e : Exp), P.ctor.params[k]? = some p →
        P.args[k]? = some e → ∃ v, (f, v) ∈ fs ∧ Ev L m e v := by
  obtain ⟨m, h1, h2⟩ := run_append hrun
  obtain ⟨rs, m', h3, h4, h5⟩ := run_call h2
  have hx : env₁ P.x = m' P.x := run_keeps h5 fun s hs => P.last s (List.mem_append_left _ hs)
  have hri := h4 P.i P.x ((P.here P.i).2 rfl) P.named.2.2
  obtain ⟨vs, e0, e1, r, h6, h7, h8, h9, h10, h11⟩ := results_declared hd P.ctor_mem h3
  obtain ⟨v, hv, hev⟩ := evArgs_get h11 (P.returns.2 r h10)
  rw [hri] at hv
  have hvx : v = m' P.x := by simpa using hv.symm
  have := ev_strip hev
  rw [hs] at this
  cases this with
  | comp hf =>
    rename_i fs
    refine ⟨fs, m, by rw [hx, ← hvx], h1, ?_⟩
    intro f p t i hmem hp k e hk he
    obtain ⟨w, hw, hwe⟩ := evFields_mem hf hmem
    obtain ⟨u, hu, hue⟩ := evArgs_get h6 he
    have hwv : w = e1 p := by cases hwe; rfl
    have : e1 p = e0 p := run_keeps h9 fun s hs => P.ctor_keeps s hs p hp
    refine ⟨w, hw, ?_⟩
    rw [hwv, this, h8 k p u hk hu]
    exact hue

theorem trim_text {t : Str} (h : Text t) : trimPrefix '&' (trimSpace t) = t := by
  obtain ⟨hne, ha, hb⟩ := h
  have hd : ∀ (p : Char → Bool) (l : Str), (∀ c, l.head? = some c → p c = false) → l.dropWhile p = l := by
    intro p l h
    cases l with
    | nil => rfl
    | cons a l => simp [h a rfl]
  have hblank : ∀ c : Char, c ∉ [' ', '\t', '\n', '\r'] →
      (c == ' ' || c == '\t' || c == '\n' || c == '\r') = false := by
    intro c hc
    simp at hc
    simp [hc]
  have h1 : trimSpace t = t := by
    unfold trimSpace
    dsimp only
    rw [hd _ t fun c hc => hblank c (hb c (Or.inl hc))]
    rw [hd _ t.reverse fun c hc => hblank c (hb c (Or.inr (by rw [List.head?_reverse] at hc; exact hc))), List.reverse_reverse]
  rw [h1]
  cases t with
  | nil => rfl
  | cons a l =>
    have hne : a ≠ '&' := fun e => ha (by simp [e])
    show (if a = '&' then l else a :: l) = a :: l
    rw [if_neg hne]

/-- What cleaning leaves is the text, without one star. -/
theorem clean_text {t u : Str} (h : Text t) (hu : cleanOverrideType t = u) (hne : u ≠ []) : u = t ∨ t = '*' :: u := by
  unfold cleanOverrideType at hu
  rw [trim_text h] at hu
  dsimp only at hu
  have : u = trimPrefix '*' t := by
    split at hu
    · exact absurd hu.symm hne
    · split at hu
      · exact absurd hu.symm hne
      · split at hu
        · exact absurd hu.symm hne
        · exact hu.symm
  rw [this]
  cases t with
  | nil => exact Or.inl rfl
  | cons a l =>
    show (if a = '*' then l else a :: l) = a :: l ∨ a :: l = '*' :: (if a = '*' then l else a :: l)
    by_cases e : a = '*'
    · right; rw [if_pos e, e]
    · left; rw [if_neg e]

theorem star_text {t : Str} (h : Text t) : Text ('*' :: t) := by
  obtain ⟨hne, ha, hb⟩ := h
  refine ⟨by simp, by simp, ?_⟩
  intro c hc
  rcases hc with hc | hc
  · simp at hc; subst hc; decide
  · cases t with
    | nil => exact absurd rfl hne
    | cons a l =>
      rw [List.getLast?_cons_cons] at hc
      exact hb c (Or.inr hc)

theorem recorded_has {has : Str → V → Prop} (hstar : ∀ t v, has ('*' :: t) v ↔ has t v) {e : Exp} {v : V}
    (h : Recorded has e v) {u : Str} (hu : cleanOverrideType (callerArgType e) = u) (hne : u ≠ []) : has u v := by
  have key : ∀ t, Text t → has t v → cleanOverrideType t = u → has u v := by
    intro t ht hv hc
    rcases clean_text ht hc hne with e | e
    · rw [e]; exact hv
    · rw [e] at hv; exact (hstar _ _).1 hv
  unfold Recorded at h
  split at h
  · rename_i x ty i
    obtain ⟨h1, h2, h3⟩ := h
    have : callerArgType (.var x ty i) = ty := by unfold callerArgType Exp.type; rw [if_pos h1]
    rw [this] at hu
    exact key ty h2 h3 hu
  · rename_i p n a ty i
    obtain ⟨h1, h2, h3⟩ := h
    have : callerArgType (.call p n a ty i) = ty := by unfold callerArgType Exp.type; rw [if_pos h1]
    rw [this] at hu
    exact key ty h2 h3 hu
  · exact key _ h.1 h.2 hu
  · exact key _ (star_text h.1) ((hstar _ _).2 h.2) hu
  · exact h.elim

theorem overrides_eq {L : Lang} (hd : Distinct L.funcs) (P : Pattern L) (parent : ParentEdge) (ty info : Str) :
    collectWrapperOverrides L.funcs P.helper.pkg P.helper.name parent (.var P.x ty info) =
      (fieldParams P.ctor.params P.made).filterMap fun b =>
        match lookupArg P.args P.ctor.params b.2 with
        | none => none
        | some e => if resolveOverrideGoType parent e = [] then none else some (b.1, resolveOverrideGoType parent e) := by
  unfold collectWrapperOverrides
  simp only [find_unique hd P.helper_mem, assignments_last P]
  rw [if_neg (fun h => h.elim (fun h => P.named.1 h) (fun h => P.named.2.1 h))]
  simp only [find_unique hd P.ctor_mem]
  have : (returnVars P.ctor.rets)[P.i]? = some P.made := P.returns.2 _ (returnVars_mem P.returns.1)
  simp only [this]
  rfl

theorem clean_nil : cleanOverrideType [] = [] := by decide

theorem zip_mget : ∀ {ps : List String} {cs : List Exp} {y : String} {c : Exp}, mget (ps.zip cs) y = some c →
    ∃ j : Nat, ps[j]? = some y ∧ cs[j]? = some c
  | [], _, _, _, h => by simp at h
  | p :: ps, [], _, _, h => by simp at h
  | p :: ps, c' :: cs, y, c, h => by
    rw [List.zip_cons_cons, mget_cons] at h
    split at h
    · rename_i e
      exact ⟨0, by simp [e], by simpa using h⟩
    · obtain ⟨j, h1, h2⟩ := zip_mget h
      exact ⟨j + 1, by simpa using h1, by simpa using h2⟩

theorem zip_mget_get : ∀ {ps : List String} {cs : List Exp} {y : String} {c : Exp} {j : Nat}, ps.Nodup →
    ps[j]? = some y → cs[j]? = some c → mget (ps.zip cs) y = some c
  | [], _, _, _, _, _, h, _ => by simp at h
  | p :: ps, [], _, _, _, _, _, h => by simp at h
  | p :: ps, c' :: cs, y, c, j, hn, h1, h2 => by
    rw [List.nodup_cons] at hn
    rw [List.zip_cons_cons, mget_cons]
    cases j with
    | zero =>
      simp at h1 h2
      rw [if_pos h1, h2]
    | succ j =>
      simp at h1 h2
      rw [if_neg (fun e => hn.1 (by rw [e]; exact List.mem_of_getElem? h1))]
      exact zip_mget_get hn.2 h1 h2

theorem isGeneric_sound {envelope : List Field} {f : String} (h : isGeneric envelope f = true) : Generic envelope f := by
  unfold isGeneric at h
  split at h
  · rename_i d hd
    have h1 := List.mem_of_find?_eq_some hd
    have h2 := List.find?_some hd
    simp at h2 h
    refine ⟨d, h1, h2, ?_⟩
    cases ht : d.ty with
    | nil => rw [ht] at h; exact absurd h (by decide)
    | cons a l =>
      rw [ht] at h
      have e : trimPrefix '*' (a :: l) = if a = '*' then l else a :: l := rfl
      rw [e] at h
      by_cases ha : a = '*'
      · rw [if_pos ha] at h
        rcases h with h | h
        · rw [h, ha]; exact Or.inr (Or.inr (Or.inr (by decide)))
        · rw [h, ha]; exact Or.inr (Or.inr (Or.inl (by decide)))
      · rw [if_neg ha] at h
        rcases h with h | h
        · rw [h]; exact Or.inr (Or.inl (by decide))
        · rw [h]; exact Or.inl (by decide)
  · simp at h

/-- The properties are made of overrides, one after the other. -/
theorem specialise_eq {S : Type} (fields : List Field) (mapType : Str → Option S) (overrides : List (String × Str)) :
    specialise fields mapType overrides =
      (overrides.filterMap fun o =>
        if !isGeneric fields o.1 then none
        else if jsonName fields o.1 = "" then none
        else (mapType o.2).map fun s => (jsonName fields o.1, s)).foldl (fun m f => mset m f.1 f.2) [] := by
  unfold specialise
  generalize ([] : List (String × S)) = m
  induction overrides generalizing m with
  | nil => rfl
  | cons o l ih =>
    rw [List.foldl_cons, List.filterMap_cons]
    by_cases h1 : (!isGeneric fields o.1) = true
    · rw [if_pos h1, if_pos h1]
      exact ih m
    · rw [if_neg h1, if_neg h1]
      by_cases h2 : jsonName fields o.1 = ""
      · rw [if_pos h2, if_pos h2]
        exact ih m
      · rw [if_neg h2, if_neg h2]
        cases h3 : mapType o.2 with
        | none => simpa using ih m
        | some s =>
          dsimp only [Option.map]
          rw [List.foldl_cons]
          exact ih _

/-! ## C81 -/

/-- **C81** (partial: what is missing is below).  In the pattern of helper and constructor, each property laid over the
envelope's schema is the schema of a type that the value of that field has, for the route that enters the helper with these
arguments.  `has t v`: the value `v` is of the type written `t`. -/
theorem C81_payload_partial {S : Type} {L : Lang} (hd : Distinct L.funcs) (P : Pattern L) (has : Str → V → Prop)
    (hstar : ∀ t v, has ('*' :: t) v ↔ has t v) (envelope : List Field) (mapType : Str → Option S)
    {cargs : List Exp} {callerEnv env₀ env₁ : String → V} (E : Entered P cargs callerEnv env₀ env₁)
    (hcaller : ∀ f y t i c v, ∀ j : Nat, Generic envelope f → Carries P f (.var y t i) → P.helper.params[j]? = some y → cargs[j]? = some c →
      Ev L callerEnv c v → Recorded has c v)
    (hown : ∀ f e env v, Generic envelope f → Carries P f e → Ev L env e v → Declared has e v)
    (ty info : Str) (name : String) (s : S)
    (h : (name, s) ∈ specialise envelope mapType
      (collectWrapperOverrides L.funcs P.helper.pkg P.helper.name (some (P.helper.params.zip cargs)) (.var P.x ty info))) :
    ∃ fs, env₁ P.x = .struct fs ∧ ∃ f v t, Generic envelope f ∧ name = jsonName envelope f ∧ (f, v) ∈ fs ∧ has t v ∧ mapType t = some s := by
  rw [specialise_eq] at h
  rcases mem_fold_mset _ _ _ h with h | h
  · simp at h
  rw [List.mem_filterMap] at h
  obtain ⟨⟨f, t⟩, ho, h⟩ := h
  dsimp only at h
  split at h
  · simp at h
  rename_i hg
  split at h
  · simp at h
  cases hm : mapType t with
  | none => rw [hm] at h; simp at h
  | some s' =>
  rw [hm] at h
  simp only [Option.map_some, Option.some.injEq, Prod.mk.injEq] at h
  obtain ⟨hname, rfl⟩ := h
  have hgen : Generic envelope f := isGeneric_sound (by simpa using hg)
  rw [overrides_eq hd P, List.mem_filterMap] at ho
  obtain ⟨⟨f', p⟩, hb, ho⟩ := ho
  dsimp only at ho
  cases hl : lookupArg P.args P.ctor.params p with
  | none => rw [hl] at ho; simp at ho
  | some e =>
  rw [hl] at ho
  dsimp only at ho
  split at ho
  · simp at ho
  rename_i hne
  simp only [Option.some.injEq, Prod.mk.injEq] at ho
  obtain ⟨rfl, rfl⟩ := ho
  obtain ⟨cty, fields, t', i', hs, hmem, hp⟩ := fieldParams_sound hb
  obtain ⟨k, hk, he⟩ := lookupArg_some hl
  obtain ⟨fs, m, hx, hpre, hval⟩ := pattern_value hd P E.run hs
  obtain ⟨v, hv, hev⟩ := hval _ p t' i' hmem hp k e hk he
  have hcar : Carries P f' e := ⟨cty, fields, p, t', i', k, strip_literal hs, hmem, hk, he⟩
  refine ⟨fs, hx, f', v, _, hgen, hname.symm, hv, ?_, hm⟩
  have own : ∀ ty', ((∃ x i, e = .var x ty' i) ∨ (∃ p n a i, e = .call p n a ty' i)) →
      cleanOverrideType ty' ≠ [] → has (cleanOverrideType ty') v := by
    intro ty' hty hc
    have hn : ty' ≠ [] := by
      rintro rfl
      exact hc (by decide)
    obtain ⟨h1, h2⟩ := hown f' e m v hgen hcar hev ty' hty hn
    rcases clean_text h1 rfl hc with e | e
    · rw [e]; exact h2
    · rw [e] at h2; exact (hstar _ _).1 h2
  cases e with
  | var y ty' i =>
    unfold resolveOverrideGoType at hne ⊢
    dsimp only at hne ⊢
    cases hz : mget (P.helper.params.zip cargs) y with
    | none =>
      rw [hz] at hne
      exact own ty' (Or.inl ⟨y, i, rfl⟩) hne
    | some c =>
      rw [hz] at hne
      dsimp only at hne ⊢
      split at hne
      · rename_i hc
        rw [if_pos hc]
        obtain ⟨j, hj, hcj⟩ := zip_mget hz
        obtain ⟨w, hw, hwe⟩ := evArgs_get E.args hcj
        have hy : m y = env₀ y := run_keeps hpre fun s hs => P.helper_keeps s hs y (List.mem_of_getElem? hj)
        have hvw : v = w := by
          cases hev with
          | var => rw [hy]; exact E.bound j y w hj hw
        rw [hvw]
        exact recorded_has hstar (hcaller f' y ty' i c w j hgen hcar hj hcj hwe) rfl hc
      · rename_i hc
        rw [if_neg hc]
        exact own ty' (Or.inl ⟨y, i, rfl⟩) hne
  | call p n a ty' i => exact own ty' (Or.inr ⟨p, n, a, i, rfl⟩) hne
  | lit raw => exact absurd clean_nil hne
  | comp ty fields => exact absurd clean_nil hne
  | addr e => exact absurd clean_nil hne
  | paren e => exact absurd clean_nil hne

theorem basic_primitive : ∀ t ∈ ["string".toList, "bool".toList, "int".toList, "int8".toList, "int16".toList, "int32".toList,
        "int64".toList, "uint".toList, "uint8".toList, "uint16".toList, "uint32".toList, "uint64".toList, "float32".toList,
        "float64".toList, "byte".toList, "rune".toList, "error".toList], isPrimitive t = true := by decide

theorem clean_concrete {ty t : Str} (ht : Text ty) (hc : Concrete t) (h : ty = t ∨ ty = '*' :: t) : cleanOverrideType ty = t := by
  obtain ⟨h1, h2, h3, h4, h5, h6⟩ := hc
  have e : trimPrefix '*' ty = t := by
    rcases h with rfl | rfl
    · cases ty with
      | nil => rfl
      | cons a l =>
        show (if a = '*' then l else a :: l) = a :: l
        rw [if_neg fun e => h2 (by simp [e])]
    · show (if '*' = '*' then t else '*' :: t) = t
      rw [if_pos rfl]
  unfold cleanOverrideType
  rw [trim_text ht, e]
  dsimp only
  rw [if_neg (by
                  rintro (e | e | e)
                  · exact h1 e
                  · exact h4 e
                  · exact h3 e)]
  rw [if_neg (by intro e; exact h5 (List.isPrefixOf_iff_prefix.1 e))]
  rw [if_neg]
  intro hb
  rw [Bool.and_eq_true] at hb
  obtain ⟨hb1, hb2⟩ := hb
  have hany : ∀ c ∈ t, ¬ (c = '.' ∨ c = '/' ∨ c = '[') := by
    intro c hc hcc
    have : (t.any fun c => c == '.' || c == '/' || c == '[') = true := by
      rw [List.any_eq_true]
      refine ⟨c, hc, ?_⟩
      rcases hcc with rfl | rfl | rfl <;> decide
    rw [this] at hb1
    exact absurd hb1 (by decide)
  rcases h6 with h6 | h6 | h6 | h6
  · exact hany _ h6 (Or.inl rfl)
  · exact hany _ h6 (Or.inr (Or.inl rfl))
  · exact hany _ h6 (Or.inr (Or.inr rfl))
  · have : isPrimitive t = true := basic_primitive t h6
    rw [this] at hb2
    exact absurd hb2 (by decide)

theorem fold_mset_nodup {κ β : Type} [DecidableEq κ] : ∀ (l : List (κ × β)) (m : List (κ × β)), (m.map Prod.fst).Nodup →
    ((l.foldl (fun m f => mset m f.1 f.2) m).map Prod.fst).Nodup
  | [], _, h => h
  | a :: l, m, h => fold_mset_nodup l _ (nodup_mset _ _ _ h)

theorem fieldParams_nodup (params : List String) (e : Exp) : ((fieldParams params e).map Prod.fst).Nodup := by
  unfold fieldParams
  split
  · exact fold_mset_nodup _ _ (by simp)
  · simp

theorem filterMap_nodup {α β : Type} (g : String × α → Option (String × β))
    (hg : ∀ a a' b b', g a = some b → g a' = some b' → b.1 = b'.1 → a.1 = a'.1) : ∀ (l : List (String × α)),
    (l.map Prod.fst).Nodup → ((l.filterMap g).map Prod.fst).Nodup
  | [], _ => by simp
  | a :: l, h => by
    rw [List.map_cons, List.nodup_cons] at h
    have ih := filterMap_nodup g hg l h.2
    rw [List.filterMap_cons]
    cases hga : g a with
    | none => exact ih
    | some b =>
      dsimp only
      rw [List.map_cons, List.nodup_cons]
      refine ⟨?_, ih⟩
      intro hk
      rw [List.mem_map] at hk
      obtain ⟨b', hb', e⟩ := hk
      rw [List.mem_filterMap] at hb'
      obtain ⟨a', ha', hga'⟩ := hb'
      apply h.1
      rw [hg a a' b b' hga hga' e.symm]
      exact List.mem_map_of_mem ha'

theorem find_field {envelope : List Field} (hn : (envelope.map Field.name).Nodup) {d : Field} (hd : d ∈ envelope) :
    envelope.find? (fun g => decide (g.name = d.name)) = some d := by
  induction envelope with
  | nil => simp at hd
  | cons a l ih =>
    rw [List.map_cons, List.nodup_cons] at hn
    rcases List.mem_cons.1 hd with rfl | hd
    · simp
    · rw [List.find?_cons_of_neg (by simp; intro e; exact hn.1 (e ▸ List.mem_map_of_mem hd))]
      exact ih hn.2 hd

theorem isGeneric_complete {envelope : List Field} (hn : (envelope.map Field.name).Nodup) {f : String}
    (h : Generic envelope f) : isGeneric envelope f = true := by
  obtain ⟨d, hd, rfl, h⟩ := h
  unfold isGeneric
  rw [find_field hn hd]
  dsimp only
  rcases h with h | h | h | h <;> rw [h] <;> decide

theorem jsonName_shown {envelope : List Field} (hn : (envelope.map Field.name).Nodup) {d : Field} (hd : d ∈ envelope) :
    jsonName envelope d.name = d.shown := by
  unfold jsonName Field.shown
  rw [find_field hn hd]
  dsimp only
  by_cases e : d.tag = ""
  · rw [if_neg (by simp [e]), if_pos e]
  · rw [if_pos e, if_neg e]

/-- **C81** (partial).  A payload field is documented: when the constructor puts a parameter into an `any` field, the helper passes its own
parameter on, and the route passes a variable or a call of a concrete type, the property of that field is the schema
of that type. -/
theorem C81_documented_partial {S : Type} {L : Lang} (hd : Distinct L.funcs) (P : Pattern L) (envelope : List Field)
    (mapType : Str → Option S) (cargs : List Exp)
    (names : (envelope.map Field.name).Nodup) (shown : ∀ d ∈ envelope, ∀ g ∈ envelope, d.shown = g.shown → d = g)
    (d : Field) (mem : d ∈ envelope) (generic : Generic envelope d.name) (named : d.name ≠ "")
    (lty : Str) (fields : List (String × Exp)) (lit : Literal lty fields P.made) (once : (fields.map Prod.fst).Nodup)
    (p : String) (pty pinfo : Str) (hp : (d.name, Exp.var p pty pinfo) ∈ fields) (hpne : p ≠ "")
    (k : Nat) (hk : P.ctor.params[k]? = some p) (y : String) (yty yinfo : Str) (hy : P.args[k]? = some (.var y yty yinfo))
    (hparams : P.helper.params.Nodup) (j : Nat) (hj : P.helper.params[j]? = some y)
    (c : Exp) (cty : Str) (hc : cargs[j]? = some c) (htype : (∃ x i, c = .var x cty i) ∨ (∃ p n a i, c = .call p n a cty i))
    (htext : Text cty) (t : Str) (hconc : Concrete t) (ht : cty = t ∨ cty = '*' :: t)
    (s : S) (hs : mapType t = some s) (ty info : Str) :
    mget (specialise envelope mapType
      (collectWrapperOverrides L.funcs P.helper.pkg P.helper.name (some (P.helper.params.zip cargs)) (.var P.x ty info))) d.shown = some s := by
  have hcall : cleanOverrideType (callerArgType c) = t := by
    have : callerArgType c = cty := by
      rcases htype with ⟨x, i, rfl⟩ | ⟨q, n, a, i, rfl⟩ <;> (unfold callerArgType Exp.type; rw [if_pos htext.1])
    rw [this]
    exact clean_concrete htext hconc ht
  have hres : resolveOverrideGoType (some (P.helper.params.zip cargs)) (.var y yty yinfo) = t := by
    unfold resolveOverrideGoType
    dsimp only
    rw [zip_mget_get hparams hj hc]
    dsimp only
    rw [if_pos (by rw [hcall]; exact hconc.1), hcall]
  have hov : (d.name, t) ∈ collectWrapperOverrides L.funcs P.helper.pkg P.helper.name (some (P.helper.params.zip cargs)) (.var P.x ty info) := by
    rw [overrides_eq hd P, List.mem_filterMap]
    refine ⟨(d.name, p), fieldParams_complete (literal_strip lit) once hp named hpne (List.mem_of_getElem? hk), ?_⟩
    dsimp only
    rw [lookupArg_get P.ctor_params hk hy]
    dsimp only
    rw [hres, if_neg hconc.1]
  have hno : ((collectWrapperOverrides L.funcs P.helper.pkg P.helper.name (some (P.helper.params.zip cargs)) (.var P.x ty info)).map Prod.fst).Nodup := by
    rw [overrides_eq hd P]
    refine (filterMap_keys _ ?_ _ (fieldParams_nodup _ _)).1
    intro a b h
    split at h
    · simp at h
    · split at h
      · simp at h
      · simp only [Option.some.injEq] at h
        rw [← h]
  rw [specialise_eq]
  apply fold_mset_mget
  · refine filterMap_nodup _ ?_ _ hno
    intro a a' b b' h h' e
    have key : ∀ (a : String × Str) (b : String × S), (if (!isGeneric envelope a.1) = true then none
        else if jsonName envelope a.1 = "" then none
        else (mapType a.2).map fun s => (jsonName envelope a.1, s)) = some b →
        ∃ g ∈ envelope, g.name = a.1 ∧ b.1 = g.shown := by
      intro a b h
      split at h
      · simp at h
      · rename_i hg
        split at h
        · simp at h
        · rw [Option.map_eq_some_iff] at h
          obtain ⟨s, -, h⟩ := h
          obtain ⟨g, hg1, hg2, -⟩ := isGeneric_sound (f := a.1) (by simpa using hg)
          refine ⟨g, hg1, hg2, ?_⟩
          rw [← h, ← hg2, jsonName_shown names hg1]
    obtain ⟨g, h1, h2, h3⟩ := key a b h
    obtain ⟨g', h1', h2', h3'⟩ := key a' b' h'
    have := shown g h1 g' h1' (by rw [← h3, ← h3', e])
    rw [← h2, ← h2', this]
  · rw [List.mem_filterMap]
    refine ⟨_, hov, ?_⟩
    dsimp only
    have hne : d.shown ≠ "" := by
      unfold Field.shown
      split
      · exact named
      · assumption
    rw [if_neg (by simp [isGeneric_complete names generic]), jsonName_shown names mem, if_neg hne, hs]
    rfl

/-! ## Witnesses

```go
func NewEnvelope(data any, msg string) *Envelope { return &Envelope{Data: data, Message: msg} }
func respond(w http.ResponseWriter, data any) { env := NewEnvelope(data, "ok"); json.NewEncoder(w).Encode(env) }
func show(w http.ResponseWriter, r *http.Request) { respond(w, order) }
```
-/

def demoMade : Exp :=
  .addr (.comp "api-->Envelope".toList [("Data", .var "data" "any".toList []), ("Message", .var "msg" "string".toList [])])

def demoCtor : Decl := { pkg := "api", name := "NewEnvelope", params := ["data", "msg"], body := [], rets := [[demoMade]] }

def demoCall : Exp := .call "api" "NewEnvelope" [.var "data" "any".toList [], .lit "\"ok\"".toList] "*api.Envelope".toList []

def demoHelper : Decl :=
  { pkg := "api", name := "respond", params := ["w", "data"], body := [⟨["env"], demoCall⟩], rets := [] }

def demoLang : Lang := { funcs := [demoCtor, demoHelper], lit := fun _ => .atom 0 }

def demoEnvelope : List Field := [⟨"Data", "any".toList, "data"⟩, ⟨"Message", "string".toList, "message"⟩]

def demoPattern : Pattern demoLang where
  helper := demoHelper
  ctor := demoCtor
  x := "env"
  i := 0
  lhs := ["env"]
  args := [.var "data" "any".toList [], .lit "\"ok\"".toList]
  ty := "*api.Envelope".toList
  info := []
  pre := []
  mid := []
  post := []
  made := demoMade
  helper_mem := by simp [demoLang]
  ctor_mem := by simp [demoLang]
  named := by decide
  body := rfl
  here := by intro j; cases j <;> simp
  last := by simp
  returns := by simp [demoCtor]
  ctor_keeps := by simp [demoCtor]
  helper_keeps := by simp
  ctor_params := by decide

theorem demo_distinct : Distinct demoLang.funcs := by
  intro d hd g hg _ hn
  simp [demoLang] at hd hg
  rcases hd with rfl | rfl <;> rcases hg with rfl | rfl <;> first | rfl | exact absurd hn (by decide)

def demoArgs (e : Exp) : List Exp := [.var "w" "http.ResponseWriter".toList [], e]

/-- The environments of the route and of the helper before and after its statement. -/
def demoCaller : String → V := fun x => if x = "order" then .atom 1 else .atom 9
def demoBefore : String → V := fun x => if x = "data" then .atom 1 else .atom 9
def demoAfter : String → V := fun x =>
  if x = "env" then .struct [("Data", .atom 1), ("Message", .atom 0)] else demoBefore x
def demoInner : String → V := fun x => if x = "data" then .atom 1 else .atom 0

theorem demo_results : Results demoLang demoBefore "api" "NewEnvelope" [.var "data" "any".toList [], .lit "\"ok\"".toList]
    [.struct [("Data", .atom 1), ("Message", .atom 0)]] := by
  refine Results.declared (d := demoCtor) (vs := [.atom 1, .atom 0]) (env₀ := demoInner) (env₁ := demoInner)
    (r := [demoMade]) (by simp [demoLang]) ?_ rfl ?_ (.nil _) (by simp [demoCtor]) ?_
  · exact .cons (.var demoBefore "data" _ _) (.cons (.lit demoBefore _) (.nil _))
  · intro i p v h1 h2
    rcases i with _ | _ | i
    · simp [demoCtor] at h1 h2; rw [← h1, ← h2]; rfl
    · simp [demoCtor] at h1 h2; rw [← h1, ← h2]; rfl
    · simp at h2
  · exact .cons (.addr (.comp (.cons (.var demoInner "data" _ _) (.cons (.var demoInner "msg" _ _) (.nil _))))) (.nil _)

theorem demo_run : Run demoLang demoBefore [⟨["env"], demoCall⟩] demoAfter := by
  refine .call demo_results ?_ ?_ (.nil _)
  · intro i x h _
    cases i with
    | zero => simp at h; subst h; rfl
    | succ i => simp at h
  · intro y hy
    simp at hy
    unfold demoAfter
    rw [if_neg hy]

def demoEntered : Entered demoPattern (demoArgs (.var "order" "store.Order".toList [])) demoCaller demoBefore demoAfter where
  cvs := [.atom 9, .atom 1]
  args := .cons (.var demoCaller "w" _ _) (.cons (.var demoCaller "order" _ _) (.nil _))
  arity := rfl
  bound := by
    intro i p v h1 h2
    rcases i with _ | _ | i
    · simp [demoPattern, demoHelper] at h1 h2; rw [← h1, ← h2]; rfl
    · simp [demoPattern, demoHelper] at h1 h2; rw [← h1, ← h2]; rfl
    · simp at h2
  run := demo_run

/-- Non-vacuity: the property `data` of this route is that of `store.Order`. -/
example : mget (specialise demoEnvelope some (collectWrapperOverrides demoLang.funcs "api" "respond"
    (some (["w", "data"].zip (demoArgs (.var "order" "store.Order".toList [])))) (.var "env" [] []))) "data" =
      some "store.Order".toList :=
  C81_documented_partial demo_distinct demoPattern demoEnvelope some (demoArgs (.var "order" "store.Order".toList []))
    (by decide) (by
      intro d hd g hg h
      simp [demoEnvelope] at hd hg
      rcases hd with rfl | rfl <;> rcases hg with rfl | rfl <;> first | rfl | exact absurd h (by decide))
    ⟨"Data", "any".toList, "data"⟩ (by simp [demoEnvelope]) ⟨_, List.mem_cons_self .., rfl, Or.inl rfl⟩ (by decide)
    _ _ (.addr .bare) (by decide) "data" _ _ (List.mem_cons_self ..) (by decide) 0 rfl "data" _ _ rfl (by decide) 1 rfl
    _ "store.Order".toList rfl (Or.inl ⟨_, _, rfl⟩)
    ⟨by decide, by decide, by
      intro c hc
      rcases hc with hc | hc
      · have : c = 's' := by have h : ("store.Order".toList).head? = some 's' := by decide
                             rw [h] at hc; simpa using hc.symm
        subst this; decide
      · have : c = 'r' := by have h : ("store.Order".toList).getLast? = some 'r' := by decide
                             rw [h] at hc; simpa using hc.symm
        subst this; decide⟩
    "store.Order".toList ⟨by decide, by decide, by decide, by decide, by decide, Or.inl (by decide)⟩ (Or.inl rfl) _ rfl [] []

/-- What is of the type `store.Order`, or a pointer to it, is the value `1`. -/
def demoHas (t : Str) (v : V) : Prop := t.dropWhile (· == '*') = "store.Order".toList → v = .atom 1

theorem order_text : Text "store.Order".toList := by
  refine ⟨by decide, by decide, ?_⟩
  intro c hc
  have h1 : ("store.Order".toList).head? = some 's' := by decide
  have h2 : ("store.Order".toList).getLast? = some 'r' := by decide
  rw [h1, h2] at hc
  rcases hc with hc | hc <;> (simp only [Option.some.injEq] at hc; subst hc; decide)

theorem any_text : Text "any".toList := by
  refine ⟨by decide, by decide, ?_⟩
  intro c hc
  have h1 : ("any".toList).head? = some 'a' := by decide
  have h2 : ("any".toList).getLast? = some 'y' := by decide
  rw [h1, h2] at hc
  rcases hc with hc | hc <;> (simp only [Option.some.injEq] at hc; subst hc; decide)

theorem demo_carries {f : String} {e : Exp} (hg : Generic demoEnvelope f) (h : Carries demoPattern f e) :
    e = .var "data" "any".toList [] := by
  have hf : f = "Data" := by
    obtain ⟨d, hd, rfl, ht⟩ := hg
    simp only [demoEnvelope, List.mem_cons, List.not_mem_nil, or_false] at hd
    rcases hd with rfl | rfl
    · rfl
    · dsimp only at ht
      rcases ht with ht | ht | ht | ht <;> exact absurd ht (by decide)
  subst hf
  obtain ⟨ty, fields, p, t, i, k, h1, h2, h3, h4⟩ := h
  have hl := literal_strip h1
  have : strip demoPattern.made = .comp "api-->Envelope".toList
    [("Data", .var "data" "any".toList []), ("Message", .var "msg" "string".toList [])] := rfl
  rw [this, Exp.comp.injEq] at hl
  rw [← hl.2] at h2
  simp only [List.mem_cons, Prod.mk.injEq, Exp.var.injEq, List.not_mem_nil, or_false] at h2
  rcases h2 with ⟨-, rfl, -⟩ | ⟨h2, -⟩
  · rcases k with _ | _ | k
    · simp [demoPattern] at h4
      exact h4.symm
    · simp [demoPattern, demoCtor] at h3
    · simp [demoPattern, demoCtor] at h3
  · exact absurd h2 (by decide)

/-- Non-vacuity of `C81_payload_partial`: this route meets its hypotheses. -/
example (name : String) (s : Str) (h : (name, s) ∈ specialise demoEnvelope some (collectWrapperOverrides demoLang.funcs "api" "respond"
    (some (["w", "data"].zip (demoArgs (.var "order" "store.Order".toList [])))) (.var "env" [] []))) :
    ∃ fs, demoAfter "env" = .struct fs ∧ ∃ f v t, Generic demoEnvelope f ∧ name = jsonName demoEnvelope f ∧ (f, v) ∈ fs ∧
      demoHas t v ∧ some t = some s := by
  refine C81_payload_partial demo_distinct demoPattern demoHas ?_ demoEnvelope some demoEntered ?_ ?_ [] [] name s h
  · intro t v
    unfold demoHas
    simp
  · intro f y t i c v j hg hc hy hj hv
    have := demo_carries hg hc
    rw [Exp.var.injEq] at this
    obtain ⟨rfl, rfl, rfl⟩ := this
    rcases j with _ | _ | j
    · simp [demoPattern, demoHelper] at hy
    · simp only [demoArgs, List.getElem?_cons_succ, List.getElem?_cons_zero, Option.some.injEq] at hj
      subst hj
      refine ⟨by decide, order_text, ?_⟩
      intro _
      cases hv
      rfl
    · simp [demoArgs] at hj
  · intro f e env v hg hc hv ty hty hne
    have := demo_carries hg hc
    subst this
    have e : ty = "any".toList := by
      rcases hty with ⟨x, i, e⟩ | ⟨p, n, a, i, e⟩
      · rw [Exp.var.injEq] at e; exact e.2.1.symm
      · cases e
    subst e
    exact ⟨any_text, fun h => absurd h (by decide)⟩

/-- The overrides of the route that passes `e` to `respond`. -/
def demoOverrides (e : Exp) : List (String × Str) :=
  collectWrapperOverrides demoLang.funcs "api" "respond" (some (["w", "data"].zip (demoArgs e))) (.var "env" [] [])

/-- A payload of a type of the package itself has its type recorded as the bare name (`Order`), and is not
documented. -/
theorem C81_same_package_lost {S : Type} (mapType : Str → Option S) :
    specialise demoEnvelope mapType (demoOverrides (.var "order" "Order".toList [])) = [] := by
  have : demoOverrides (.var "order" "Order".toList []) = [("Message", [])].filter (fun _ => false) := by decide
  rw [this]
  rfl

/-- A text with a full stop passed as the payload, `respond(w, "Done.")`, is taken for the name of a type: the
property `data` is documented as the type `Done.`. -/
theorem C81_sentence_wrong {S : Type} (mapType : Str → Option S) (s : S) (h : mapType "Done.".toList = some s) :
    mget (specialise demoEnvelope mapType (demoOverrides (.lit "\"Done.\"".toList))) "data" = some s := by
  have : demoOverrides (.lit "\"Done.\"".toList) = [("Data", "Done.".toList)] := by decide
  rw [this]
  generalize "Done.".toList = t at h
  have hg : isGeneric demoEnvelope "Data" = true := by decide
  have hj : jsonName demoEnvelope "Data" = "data" := by decide
  unfold specialise
  simp [hg, hj, h, mset, mget]

/-- A second helper in between, `func ok(w, data any) { respond(w, data) }`, loses the payload. -/
theorem C81_two_hops_lost {S : Type} (mapType : Str → Option S) :
    specialise demoEnvelope mapType (demoOverrides (.var "data" "any".toList [])) = [] := by
  have : demoOverrides (.var "data" "any".toList []) = [] := by decide
  rw [this]
  rfl

/-- `func respond(w, data any) { data = redact(data); env := NewEnvelope(data, "ok"); … }` -/
def demoRedact : Decl := { demoHelper with body := [⟨["data"], .call "lib" "redact" [.var "data" "any".toList []] "any".toList []⟩, ⟨["env"], demoCall⟩] }

/-- A helper that assigns to its parameter before: the field holds something else, and is documented as what the
route passed. -/
theorem C81_reassigned_wrong : ∃ env₁ fs v, Run ⟨[demoCtor, demoRedact], fun _ => .atom 0⟩ demoBefore demoRedact.body env₁ ∧
    env₁ "env" = .struct fs ∧ ("Data", v) ∈ fs ∧ v ≠ demoCaller "order" ∧
    collectWrapperOverrides [demoCtor, demoRedact] "api" "respond"
      (some (["w", "data"].zip (demoArgs (.var "order" "store.Order".toList [])))) (.var "env" [] []) = [("Data", "store.Order".toList)] := by
  let e1 : String → V := fun x => if x = "data" then .atom 5 else .atom 9
  let e2 : String → V := fun x => if x = "env" then .struct [("Data", .atom 5), ("Message", .atom 0)] else e1 x
  let inner : String → V := fun x => if x = "data" then .atom 5 else .atom 0
  refine ⟨e2, [("Data", .atom 5), ("Message", .atom 0)], .atom 5, ?_, rfl, by simp, by simp [demoCaller], by decide⟩
  refine .call (rs := [.atom 5]) (env₁ := e1) (.foreign ?_) ?_ ?_ ?_
  · intro d hd
    simp at hd
    rcases hd with rfl | rfl <;> simp [demoCtor, demoRedact, demoHelper]
  · intro i x h _
    cases i with
    | zero => simp at h; subst h; rfl
    | succ i => simp at h
  · intro y hy
    simp at hy
    simp [e1, demoBefore, hy]
  · refine .call (rs := [.struct [("Data", .atom 5), ("Message", .atom 0)]]) (env₁ := e2) ?_ ?_ ?_ (.nil _)
    · refine Results.declared (d := demoCtor) (vs := [.atom 5, .atom 0]) (env₀ := inner) (env₁ := inner)
        (r := [demoMade]) (by simp) ?_ rfl ?_ (.nil _) (by simp [demoCtor]) ?_
      · exact .cons (.var e1 "data" _ _) (.cons (.lit (L := ⟨_, fun _ => .atom 0⟩) e1 _) (.nil _))
      · intro i p v h1 h2
        rcases i with _ | _ | i
        · simp [demoCtor] at h1 h2; rw [← h1, ← h2]; rfl
        · simp [demoCtor] at h1 h2; rw [← h1, ← h2]; rfl
        · simp at h2
      · exact .cons (.addr (.comp (.cons (.var inner "data" _ _) (.cons (.var inner "msg" _ _) (.nil _))))) (.nil _)
    · intro i x h _
      cases i with
      | zero => simp at h; subst h; rfl
      | succ i => simp at h
    · intro y hy
      simp at hy
      simp [e2, hy]

/-- A constructor with an early return, `if data == nil { return &Envelope{} }`: only the first of the return
statements with the most values is read, and the payload is not documented. -/
theorem C81_early_return_lost (parent : ParentEdge) :
    collectWrapperOverrides [{ demoCtor with rets := [[.addr (.comp "api-->Envelope".toList [])], [demoMade]] }, demoHelper]
      "api" "respond" parent (.var "env" [] []) = [] := rfl

/-- `env := NewEnvelope(data, "ok"); encode(env); env = NewEnvelope(store.Audit(), "ok"); log(env)`: the last
assignment is read, also for the encoding that comes before it. -/
theorem C81_later_assignment_wrong :
    (collectWrapperOverrides [demoCtor, { demoHelper with body := [⟨["env"], demoCall⟩, ⟨["env"],
        .call "api" "NewEnvelope" [.call "store" "Audit" [] "store.Log".toList [], .lit "\"ok\"".toList] "*api.Envelope".toList []⟩] }]
      "api" "respond" (some (["w", "data"].zip (demoArgs (.var "order" "store.Order".toList [])))) (.var "env" [] [])) =
      [("Data", "store.Log".toList)] := by decide

end Verif.Envelope
