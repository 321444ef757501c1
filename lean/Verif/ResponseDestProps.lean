import Verif.BodySourceProps

/-!
# C73: what is encoded is a response unless it is written to something that is not the response writer

As in C72 the specification executes the function: it keeps track of the variables that hold the response
writer, or something made of it, and of the type of what is written to.  The code searches backwards.
-/

namespace Verif.Provenance

/-! ## Specification -/

/-- A parameter is the response writer if its type, or the type of what the callers pass for it, is
configured as one. -/
def WriterParam (W : World) (c : RespCfg) (Γ : String → String) (x : String) : Prop :=
  c.writer (Γ x) = true ∨
    ∃ t r, W.origin x = some (t, r) ∧ (c.writer t = true ∨ (r ≠ "" ∧ c.writer r = true))

/-- The value of the expression is the response writer or made of it, when the variables that hold it are
those in `env`: such a variable, a struct with it in a field, a field of that, or the result of a function
that was given it. -/
inductive Carries (env : String → Prop) : Arg → Prop
  | var {x} (i t r) : env x → Carries env (.ident i x t r)
  | wrapped {a} (w) : Carries env a → Carries env (.wrap w a)
  | elem {e es} (i ty t r) : e ∈ es → Carries env e → Carries env (.lit i ty es t r)
  | field {v} (i k) : Carries env v → Carries env (.kv i k v)
  | read {a} (i n t r) : Carries env a → Carries env (.sel i a n t r)
  | passed {e as} (i f t r) : e ∈ as → Carries env e → Carries env (.call i f as t r)

/-- Which variables hold the writer after the assignments have been executed one after the other. -/
def holding : (String → Prop) → List (String × Asg) → String → Prop
  | env, [] => env
  | env, (x, a) :: body => holding (fun y => if y = x then Carries env a.value else env y) body

/-- The type of what is written to: of a variable that was assigned, that of the value assigned, if it is
known.  `info` renders the type of an expression that carries none. -/
inductive Leaf (Γ : String → String) (info : Arg → String) (body : List (String × Asg)) : Arg → String → Prop
  | wrapped {a t} (w) : Leaf Γ info body a t → Leaf Γ info body (.wrap w a) t
  | param {x} (i t r) : x ∉ body.map (·.1) → Leaf Γ info body (.ident i x t r) (Γ x)
  | assigned {x a t} (i t' r') : (x, a) ∈ body → Leaf Γ info body a.value t → t ≠ "" →
      Leaf Γ info body (.ident i x t' r') t
  | declared {x a} (i t' r') : (x, a) ∈ body → Leaf Γ info body a.value "" →
      Leaf Γ info body (.ident i x t' r') (Γ x)
  | sel {t} (i x n ty rty) : rty ≠ "" ∧ t = rty ∨ rty = "" ∧ ty ≠ "" ∧ t = ty ∨
      rty = "" ∧ ty = "" ∧ t = info (.sel i x n ty rty) → Leaf Γ info body (.sel i x n ty rty) t
  | call {t} (i f as ty rty) : rty ≠ "" ∧ t = rty ∨ rty = "" ∧ ty ≠ "" ∧ t = ty ∨
      rty = "" ∧ ty = "" ∧ t = info (.call i f as ty rty) → Leaf Γ info body (.call i f as ty rty) t
  | lit {t} (i typ es ty rty) : rty ≠ "" ∧ t = rty ∨ rty = "" ∧ ty ≠ "" ∧ t = ty ∨
      rty = "" ∧ ty = "" ∧ t = info (.lit i typ es ty rty) → Leaf Γ info body (.lit i typ es ty rty) t
  | kv (i k v) : Leaf Γ info body (.kv i k v) ""
  | other (i ty rty) : Leaf Γ info body (.other i ty rty) ""
  | nil : Leaf Γ info body .nil ""

/-- `b` is a part of an expression. -/
inductive Sub (b : Arg) : Arg → Prop
  | refl : Sub b b
  | sel {x} (i n t r) : Sub b x → Sub b (.sel i x n t r)
  | fn {f} (i as t r) : Sub b f → Sub b (.call i f as t r)
  | arg {e as} (i f t r) : e ∈ as → Sub b e → Sub b (.call i f as t r)
  | wrap {x} (w) : Sub b x → Sub b (.wrap w x)
  | litType {ty} (i es t r) : Sub b ty → Sub b (.lit i ty es t r)
  | elt {e es} (i ty t r) : e ∈ es → Sub b e → Sub b (.lit i ty es t r)
  | key {k} (i v) : Sub b k → Sub b (.kv i k v)
  | value {v} (i k) : Sub b v → Sub b (.kv i k v)

/-- The roots: the expression written to and everything assigned. -/
def Root (body : List (String × Asg)) (src a : Arg) : Prop := a = src ∨ ∃ s ∈ body, s.2.value = a

/-- Different expressions in the function have different ids. -/
def Faithful (body : List (String × Asg)) (src : Arg) : Prop :=
  ∀ a b, (∃ r, Root body src r ∧ Sub a r) → (∃ r, Root body src r ∧ Sub b r) → a.id = b.id →
    (∀ w x, a ≠ .wrap w x) → (∀ w x, b ≠ .wrap w x) → a ≠ .nil → b ≠ .nil → a = b

/-- The expressions that are searched: no keyed elements; nothing read from a field of a variable; the types
of literals are no variables.  `T` says what is no variable of the function. -/
inductive Followed (T : String → Prop) : Arg → Prop
  | nil : Followed T .nil
  | ident (i x t r) : Followed T (.ident i x t r)
  | other (i t r) : Followed T (.other i t r)
  | sel {x} (i n t r) : (∀ y, Occurs y x → T y) → Followed T (.sel i x n t r)
  | wrap {x} (w) : Followed T x → Followed T (.wrap w x)
  | call {as} (i f t r) : (∀ e ∈ as, Followed T e) → Followed T (.call i f as t r)
  | lit {ty es} (i t r) : Followed T ty → (∀ y, Occurs y ty → T y) → (∀ e ∈ es, Followed T e) →
      Followed T (.lit i ty es t r)

/-- Neither a writer nor assigned in the function. -/
def Inert (W : World) (c : RespCfg) (Γ : String → String) (body : List (String × Asg)) (y : String) : Prop :=
  ¬ WriterParam W c Γ y ∧ y ∉ body.map (·.1)

/-! ## The search as a graph search -/

/-- Where the search goes on. -/
def kids (W : World) : Arg → List Arg
  | .ident _ x _ _ => if x = "" then [] else (W.latest x).toList
  | .lit _ ty es _ _ => es ++ [ty]
  | .kv _ k _ => [k]
  | .call _ _ as _ _ => as
  | _ => []

/-- Where it ends. -/
def seed (W : World) (c : RespCfg) : Arg → Bool
  | .ident _ x t r => decide (x ≠ "") && (W.latest x).isNone && paramIsWriter W c x t r
  | _ => false

instance decNil : (b : Arg) → Decidable (b = .nil)
  | .nil => isTrue rfl
  | .wrap .. | .ident .. | .sel .. | .call .. | .lit .. | .kv .. | .other .. => isFalse (by simp)

theorem stripAll_ne_wrap : ∀ a w x, stripAll a ≠ .wrap w x
  | .wrap _ y, w, x => by rw [stripAll]; exact stripAll_ne_wrap y w x
  | .nil, _, _ | .ident .., _, _ | .sel .., _, _ | .call .., _, _ | .lit .., _, _ | .kv .., _, _ | .other .., _, _ => by
    simp [stripAll]

theorem reachesWriter_succ (W : World) (c : RespCfg) (n : Nat) (vis : List String) (a : Arg) :
    reachesWriter W c (n + 1) vis a =
      if stripAll a = .nil ∨ (stripAll a).id ∈ vis then some (false, vis)
      else if seed W c (stripAll a) then some (true, (stripAll a).id :: vis)
      else anyReach (reachesWriter W c n) ((stripAll a).id :: vis) (kids W (stripAll a)) := by
  rw [reachesWriter]
  have hw := stripAll_ne_wrap a
  generalize stripAll a = b at hw
  cases b with
  | nil => simp
  | wrap w x => exact absurd rfl (hw w x)
  | ident i x t r =>
    simp only [Arg.id, reduceCtorEq, false_or, seed, kids]
    by_cases h : i ∈ vis
    · simp [h]
    · simp only [h, if_false]
      by_cases hx : x = ""
      · simp [hx, anyReach]
      · simp only [hx, if_false]
        cases hl : W.latest x with
        | none =>
          cases hp : paramIsWriter W c x t r <;> simp [anyReach, hx]
        | some rhs =>
          simp only [Option.isNone_some, Bool.and_false, Bool.false_and, Bool.false_eq_true, if_false, Option.toList_some, anyReach]
          cases hr : reachesWriter W c n (i :: vis) rhs with
          | none => rfl
          | some p => obtain ⟨b, v⟩ := p; cases b <;> rfl
  | sel i x nm t r => simp [seed, kids, anyReach]
  | call i f as t r => simp only [Arg.id, reduceCtorEq, false_or, seed, kids]; split <;> simp
  | lit i ty es t r => simp only [Arg.id, reduceCtorEq, false_or, seed, kids]; split <;> simp
  | kv i k v => simp only [Arg.id, reduceCtorEq, false_or, seed, kids]; split <;> simp
  | other i t r => simp [seed, kids, anyReach]

/-- What the search finds. -/
inductive Reach (W : World) (c : RespCfg) : Arg → Prop
  | seed {a} : seed W c (stripAll a) = true → Reach W c a
  | kid {a k} : k ∈ kids W (stripAll a) → Reach W c k → Reach W c a

theorem anyReach_true {f : List String → Arg → Option (Bool × List String)} : ∀ {l vis v},
    anyReach f vis l = some (true, v) → ∃ a ∈ l, ∃ vis' v', f vis' a = some (true, v')
  | [], vis, v, h => by simp [anyReach] at h
  | a :: l, vis, v, h => by
    rw [anyReach] at h
    split at h
    · simp at h
    · next v' e => exact ⟨a, by simp, _, _, e⟩
    · next v' e =>
      obtain ⟨b, hb, r⟩ := anyReach_true h
      exact ⟨b, by simp [hb], r⟩

theorem reaches_true {W : World} {c : RespCfg} : ∀ {n vis a v}, reachesWriter W c n vis a = some (true, v) → Reach W c a
  | 0, _, _, _, h => by simp [reachesWriter] at h
  | n + 1, vis, a, v, h => by
    rw [reachesWriter_succ] at h
    split at h
    · simp at h
    split at h
    · next hs => exact .seed hs
    · obtain ⟨k, hk, _, _, e⟩ := anyReach_true h
      exact .kid hk (reaches_true e)

/-- A node that was looked at without finding anything, all of whose successors were looked at. -/
def Closed (W : World) (c : RespCfg) (N : Arg → Prop) (v : List String) (i : String) : Prop :=
  ∃ b, N b ∧ b.id = i ∧ seed W c b = false ∧ ∀ k ∈ kids W b, stripAll k = .nil ∨ (stripAll k).id ∈ v

theorem Closed.mono {W : World} {c : RespCfg} {N : Arg → Prop} {v v' : List String} {i : String}
    (h : Closed W c N v i) (hv : ∀ j ∈ v, j ∈ v') : Closed W c N v' i := by
  obtain ⟨b, h1, h2, h3, h4⟩ := h
  exact ⟨b, h1, h2, h3, fun k hk => (h4 k hk).imp id (hv _)⟩

theorem anyReach_false {W : World} {c : RespCfg} {N : Arg → Prop} {f : List String → Arg → Option (Bool × List String)}
    (hf : ∀ vis a v, (stripAll a ≠ .nil → N (stripAll a)) → f vis a = some (false, v) →
      (∀ j ∈ vis, j ∈ v) ∧ (stripAll a = .nil ∨ (stripAll a).id ∈ v) ∧ ∀ j ∈ v, j ∈ vis ∨ Closed W c N v j) :
    ∀ {l vis v}, (∀ a ∈ l, stripAll a ≠ .nil → N (stripAll a)) → anyReach f vis l = some (false, v) →
      (∀ j ∈ vis, j ∈ v) ∧ (∀ a ∈ l, stripAll a = .nil ∨ (stripAll a).id ∈ v) ∧ ∀ j ∈ v, j ∈ vis ∨ Closed W c N v j
  | [], vis, v, _, h => by
    simp only [anyReach, Option.some.injEq, Prod.mk.injEq, true_and] at h
    subst h; exact ⟨fun _ h => h, by simp, fun _ h => Or.inl h⟩
  | a :: l, vis, v, hN, h => by
    rw [anyReach] at h
    split at h
    · simp at h
    · simp at h
    · next v' e =>
      obtain ⟨a1, a2, a3⟩ := hf _ _ _ (hN a (by simp)) e
      obtain ⟨b1, b2, b3⟩ := anyReach_false hf (fun b hb => hN b (by simp [hb])) h
      refine ⟨fun j hj => b1 _ (a1 _ hj), ?_, ?_⟩
      · intro x hx
        rcases List.mem_cons.1 hx with rfl | hx
        · exact a2.imp id (b1 _)
        · exact b2 x hx
      · intro j hj
        rcases b3 j hj with h | h
        · rcases a3 j h with h | h
          · exact Or.inl h
          · exact Or.inr (h.mono b1)
        · exact Or.inr h

theorem reaches_false {W : World} {c : RespCfg} {N : Arg → Prop}
    (hN : ∀ b k, N b → k ∈ kids W b → stripAll k ≠ .nil → N (stripAll k)) :
    ∀ n vis a v, (stripAll a ≠ .nil → N (stripAll a)) → reachesWriter W c n vis a = some (false, v) →
      (∀ j ∈ vis, j ∈ v) ∧ (stripAll a = .nil ∨ (stripAll a).id ∈ v) ∧ ∀ j ∈ v, j ∈ vis ∨ Closed W c N v j
  | 0, _, _, _, _, h => by simp [reachesWriter] at h
  | n + 1, vis, a, v, ha, h => by
    rw [reachesWriter_succ] at h
    split at h
    · next hc =>
      simp only [Option.some.injEq, Prod.mk.injEq, true_and] at h
      subst h
      exact ⟨fun j hj => hj, hc, fun j hj => Or.inl hj⟩
    · next hc =>
      simp only [not_or] at hc
      split at h
      · simp at h
      · next hs =>
        obtain ⟨h1, h2, h3⟩ := anyReach_false (reaches_false hN n) (fun k hk => hN _ k (ha hc.1) hk) h
        refine ⟨fun j hj => h1 _ (by simp [hj]), Or.inr (h1 _ (by simp)), ?_⟩
        intro j hj
        rcases h3 j hj with e | e
        · rcases List.mem_cons.1 e with e | e
          · exact Or.inr ⟨_, ha hc.1, e.symm, by simpa using hs, h2⟩
          · exact Or.inl e
        · exact Or.inr e

/-- A closed set of nodes does not reach the writer. -/
theorem closed_not_reach {W : World} {c : RespCfg} {N : Arg → Prop} {v : List String}
    (hN : ∀ b k, N b → k ∈ kids W b → stripAll k ≠ .nil → N (stripAll k))
    (hid : ∀ a b, N a → N b → a.id = b.id → a = b) (hv : ∀ j ∈ v, Closed W c N v j) {a : Arg} (h : Reach W c a) :
    (stripAll a ≠ .nil → N (stripAll a)) → (stripAll a = .nil ∨ (stripAll a).id ∈ v) → False := by
  induction h with
  | seed hs =>
    intro h1 h2
    rcases h2 with h2 | h2
    · rw [h2] at hs; simp [Provenance.seed] at hs
    · obtain ⟨b, e1, e2, e3, _⟩ := hv _ h2
      have hn := h1 (by intro e; rw [e] at hs; simp [Provenance.seed] at hs)
      rw [hid _ _ e1 hn e2, hs] at e3
      simp at e3
  | kid hk _ ih =>
    intro h1 h2
    rcases h2 with h2 | h2
    · rw [h2] at hk; simp [kids] at hk
    · obtain ⟨b, e1, e2, _, e4⟩ := hv _ h2
      have hn := h1 (by intro e; rw [e] at hk; simp [kids] at hk)
      have he := hid _ _ e1 hn e2
      subst he
      exact ih (hN _ _ e1 hk) (e4 _ hk)

/-! ## Execution and the single assignment -/

theorem Carries.mono {e₁ e₂ : String → Prop} {a : Arg} (h : Carries e₁ a)
    (he : ∀ y, Occurs y a → e₁ y → e₂ y) : Carries e₂ a := by
  induction h with
  | var i t r hx => exact .var i t r (he _ ⟨t, r, .here i⟩ hx)
  | wrapped w _ ih => exact .wrapped w (ih fun y ⟨t, r, h⟩ => he y ⟨t, r, .wrap w h⟩)
  | elem i ty t r hm _ ih => exact .elem i ty t r hm (ih fun y ⟨t', r', h⟩ => he y ⟨t', r', .litElt _ _ _ _ hm h⟩)
  | field i k _ ih => exact .field i k (ih fun y ⟨t, r, h⟩ => he y ⟨t, r, .value _ _ h⟩)
  | read i n t r _ ih => exact .read i n t r (ih fun y ⟨t, r, h⟩ => he y ⟨t, r, .sel _ _ _ _ h⟩)
  | passed i f t r hm _ ih => exact .passed i f t r hm (ih fun y ⟨t', r', h⟩ => he y ⟨t', r', .callArg _ _ _ _ hm h⟩)

theorem Carries.occurs {env : String → Prop} {a : Arg} (h : Carries env a) : ∃ y, Occurs y a ∧ env y := by
  induction h with
  | var i t r hx => exact ⟨_, ⟨t, r, .here i⟩, hx⟩
  | wrapped w _ ih => obtain ⟨y, ⟨t, r, h⟩, e⟩ := ih; exact ⟨y, ⟨t, r, .wrap w h⟩, e⟩
  | elem i ty t r hm _ ih => obtain ⟨y, ⟨t, r, h⟩, e⟩ := ih; exact ⟨y, ⟨t, r, .litElt _ _ _ _ hm h⟩, e⟩
  | field i k _ ih => obtain ⟨y, ⟨t, r, h⟩, e⟩ := ih; exact ⟨y, ⟨t, r, .value _ _ h⟩, e⟩
  | read i n t r _ ih => obtain ⟨y, ⟨t, r, h⟩, e⟩ := ih; exact ⟨y, ⟨t, r, .sel _ _ _ _ h⟩, e⟩
  | passed i f t r hm _ ih => obtain ⟨y, ⟨t, r, h⟩, e⟩ := ih; exact ⟨y, ⟨t, r, .callArg _ _ _ _ hm h⟩, e⟩

theorem holding_other (body : List (String × Asg)) (env : String → Prop) {y : String}
    (h : y ∉ body.map (·.1)) : holding env body y ↔ env y := by
  induction body generalizing env with
  | nil => exact Iff.rfl
  | cons s b ih =>
    obtain ⟨x, a⟩ := s
    simp only [List.map_cons, List.mem_cons, not_or] at h
    rw [holding, ih _ h.2, if_neg h.1]

theorem holding_append (b₁ b₂ : List (String × Asg)) (env : String → Prop) :
    holding env (b₁ ++ b₂) = holding (holding env b₁) b₂ := by
  induction b₁ generalizing env with
  | nil => rfl
  | cons s b ih => obtain ⟨x, a⟩ := s; simp only [List.cons_append, holding]; exact ih _

theorem holding_once {before later : List (String × Asg)} {src : Arg} (h : Once before later src) (env : String → Prop)
    {x : String} {a : Asg} (hx : (x, a) ∈ before) :
    holding env before x ↔ Carries (holding env before) a.value := by
  obtain ⟨pre, post, e⟩ := List.append_of_mem hx
  have hn : x ∉ post.map (·.1) := by
    have := h.once
    rw [e] at this
    simp only [List.append_assoc, List.cons_append, List.map_append, List.map_cons] at this
    have := (List.nodup_append.1 this).2.1
    rw [List.nodup_cons] at this
    intro hc; exact this.1 (by simp only [List.mem_append]; exact Or.inl hc)
  have hu : ∀ y, Occurs y a.value → y ∉ ((x, a) :: post).map (·.1) := fun y hy hc =>
    h.order pre x a post e y hy (by rw [List.map_append]; exact List.mem_append.2 (Or.inl hc))
  have h1 : holding env before x ↔ Carries (holding env pre) a.value := by
    rw [e, holding_append, holding, holding_other _ _ hn, if_pos rfl]
  have h2 : ∀ y, Occurs y a.value → (holding env before y ↔ holding env pre y) := by
    intro y hy
    rw [e, holding_append, holding_other _ _ (hu y hy)]
  rw [h1]
  exact ⟨fun hb => hb.mono fun y hy => (h2 y hy).2, fun hb => hb.mono fun y hy => (h2 y hy).1⟩

/-! ## The variables -/

theorem amap_nil {W : World} {body : List (String × Asg)} (h : Written W body) : W.edge.amap = [] := by
  cases h <;> assumption

/-- The type the code finds for a variable is its type. -/
theorem identTypeDest_eq {W : World} {body : List (String × Asg)} (hw : Written W body) {Γ : String → String}
    (hu : ∀ y, Γ y = "" → W.origin y = none) {x t r : String} (h : (if r ≠ "" then r else t) = Γ x) :
    identTypeDest W x t r = Γ x := by
  have hk : knownType W x t r = Γ x := by
    rw [← h, knownType, amap_nil hw]
    by_cases hr : r = ""
    · by_cases ht : t = ""
      · simp [hr, ht, AMap.get]
      · simp [hr, ht]
    · simp [hr]
  rw [identTypeDest, hk]
  by_cases hg : Γ x = ""
  · simp [hg, hu x hg]
  · simp [hg]

theorem paramIsWriter_sound {W : World} {c : RespCfg} {body : List (String × Asg)} (hw : Written W body) {Γ : String → String}
    (hu : ∀ y, Γ y = "" → W.origin y = none) {x t r : String} (h : (if r ≠ "" then r else t) = Γ x)
    (hp : paramIsWriter W c x t r = true) : WriterParam W c Γ x := by
  rw [paramIsWriter, identTypeDest_eq hw hu h, Bool.or_eq_true, Bool.and_eq_true] at hp
  rcases hp with hp | ⟨_, hp⟩
  · exact Or.inl hp
  · split at hp
    · simp at hp
    · next o ho =>
      simp only [Bool.or_eq_true, Bool.and_eq_true, decide_eq_true_eq] at hp
      exact Or.inr ⟨o.1, o.2, ho, hp.elim (fun h => Or.inr h) Or.inl⟩

theorem paramIsWriter_complete {W : World} {c : RespCfg} {body : List (String × Asg)} (hw : Written W body) {Γ : String → String}
    (hu : ∀ y, Γ y = "" → W.origin y = none) (hs : W.origin W.edge.callerName = none) {x t r : String}
    (h : (if r ≠ "" then r else t) = Γ x) (hp : WriterParam W c Γ x) : paramIsWriter W c x t r = true := by
  rw [paramIsWriter, identTypeDest_eq hw hu h]
  rcases hp with hp | ⟨a, b, ho, hp⟩
  · simp [hp]
  · have hne : x ≠ W.edge.callerName := by rintro rfl; rw [hs] at ho; simp at ho
    simp only [ho, hne, ne_eq, not_false_eq_true, decide_true, Bool.true_and, Bool.or_eq_true, Bool.and_eq_true,
      decide_eq_true_eq]
    rcases hp with hp | hp
    · exact Or.inr (Or.inr hp)
    · exact Or.inr (Or.inl hp)

/-! ## What is found and what is carried -/

/-- What is known of an expression on the way. -/
structure Ok (W : World) (c : RespCfg) (Γ : String → String) (before later : List (String × Asg)) (a : Arg) : Prop where
  scope : ∀ y, Occurs y a → y ∉ later.map (·.1)
  typed : ∀ y t r, IdentIn y t r a → (if r ≠ "" then r else t) = Γ y
  followed : Followed (Inert W c Γ (before ++ later)) a

theorem Ok.strip {W : World} {c : RespCfg} {Γ : String → String} {before later : List (String × Asg)} :
    ∀ {a : Arg}, Ok W c Γ before later a → Ok W c Γ before later (stripAll a)
  | .wrap w x, h => by
    rw [stripAll]
    refine Ok.strip ⟨fun y ⟨t, r, hy⟩ => h.scope y ⟨t, r, .wrap w hy⟩, fun y t r hy => h.typed y t r (.wrap w hy), ?_⟩
    cases h.followed; assumption
  | .nil, h | .ident .., h | .sel .., h | .call .., h | .lit .., h | .kv .., h | .other .., h => by simpa [stripAll] using h

theorem carries_strip {env : String → Prop} : ∀ {a : Arg}, Carries env (stripAll a) ↔ Carries env a
  | .wrap w x => by
    rw [stripAll, carries_strip]
    exact ⟨.wrapped w, fun h => by cases h; assumption⟩
  | .nil | .ident .. | .sel .. | .call .. | .lit .. | .kv .. | .other .. => by simp [stripAll]

/-- The hypotheses on a function, a call in it and the expression it writes to. -/
structure Setting (W : World) (c : RespCfg) (Γ : String → String) (before later : List (String × Asg)) (src : Arg) : Prop where
  written : Written W (before ++ later)
  once : Once before later src
  typed : Typed W Γ (before ++ later) src
  followed : ∀ a, Root (before ++ later) src a → Followed (Inert W c Γ (before ++ later)) a

section
variable {W : World} {c : RespCfg} {Γ : String → String} {before later : List (String × Asg)} {src : Arg}

theorem Setting.src_ok (S : Setting W c Γ before later src) : Ok W c Γ before later src :=
  ⟨S.once.src, fun y t r h => S.typed.node src (Or.inl rfl) y t r h, S.followed src (Or.inl rfl)⟩

theorem Setting.rhs_ok (S : Setting W c Γ before later src) {x : String} {a : Asg} (hx : (x, a) ∈ before) :
    Ok W c Γ before later a.value := by
  obtain ⟨pre, post, e⟩ := List.append_of_mem hx
  have hb : (x, a) ∈ before ++ later := List.mem_append.2 (Or.inl hx)
  refine ⟨fun y hy hc => S.once.order pre x a post e y hy ?_, fun y t r h => S.typed.node _ (Or.inr ⟨_, hb, rfl⟩) y t r h,
    S.followed _ (Or.inr ⟨_, hb, rfl⟩)⟩
  rw [List.map_append]; exact List.mem_append.2 (Or.inr hc)

/-- A variable in scope was assigned before the call, or never. -/
theorem Setting.var (S : Setting W c Γ before later src) {x : String} (hx : x ∉ later.map (·.1)) :
    (∃ a, (x, a) ∈ before ∧ x ≠ "" ∧ W.latest x = some a.value) ∨
    (x ∉ (before ++ later).map (·.1) ∧ W.latest x = none) := by
  by_cases h : x ∈ before.map (·.1)
  · obtain ⟨⟨y, a⟩, hm, rfl⟩ := List.mem_map.1 h
    have hb : (y, a) ∈ before ++ later := List.mem_append.2 (Or.inl hm)
    have hne := S.once.named _ hb
    exact Or.inl ⟨a, hm, hne, (latest_once S.written S.once.once hne).1 a hb⟩
  · have hn : x ∉ (before ++ later).map (·.1) := by
      rw [List.map_append, List.mem_append]; exact fun e => e.elim h hx
    refine Or.inr ⟨hn, ?_⟩
    by_cases he : x = ""
    · simp [World.latest, latestAssignment, assignmentsAt, he]
    · exact (latest_once S.written S.once.once he).2 fun a ha => hn (List.mem_map.2 ⟨_, ha, rfl⟩)

/-- Soundness: what is found is carried. -/
theorem reach_carries (S : Setting W c Γ before later src) {a : Arg} (h : Reach W c a) :
    Ok W c Γ before later a → Carries (holding (WriterParam W c Γ) before) a := by
  induction h with
  | @seed a hs =>
    intro ho
    rw [← carries_strip]
    have ho := ho.strip
    generalize stripAll a = b at hs ho
    cases b with
    | ident i x t r =>
      simp only [seed, Bool.and_eq_true, decide_eq_true_eq, Option.isNone_iff_eq_none] at hs
      obtain ⟨⟨hx, hl⟩, hp⟩ := hs
      refine .var _ _ _ ?_
      rcases S.var (ho.scope x ⟨t, r, .here i⟩) with ⟨a, _, _, e⟩ | ⟨hn, _⟩
      · rw [e] at hl; simp at hl
      · rw [holding_other _ _ (by intro h; exact hn (by rw [List.map_append]; exact List.mem_append.2 (Or.inl h)))]
        exact paramIsWriter_sound S.written S.typed.untyped (ho.typed x t r (.here i)) hp
    | _ => simp [seed] at hs
  | @kid a k hk _ ih =>
    intro ho
    rw [← carries_strip]
    have ho := ho.strip
    generalize stripAll a = b at hk ho
    cases b with
    | ident i x t r =>
      simp only [kids] at hk
      split at hk
      · simp at hk
      · rcases S.var (ho.scope x ⟨t, r, .here i⟩) with ⟨a, ha, _, e⟩ | ⟨hn, e⟩
        · rw [e] at hk
          simp only [Option.toList_some, List.mem_singleton] at hk
          subst hk
          exact .var _ _ _ ((holding_once S.once _ ha).2 (ih (S.rhs_ok ha)))
        · rw [e] at hk; simp at hk
    | lit i ty es t r =>
      simp only [kids, List.mem_append, List.mem_singleton] at hk
      have hf := ho.followed
      cases hf with
      | lit _ _ _ f1 f2 f3 =>
        rcases hk with hk | rfl
        · exact .elem _ _ _ _ hk (ih ⟨fun y ⟨t, r, h⟩ => ho.scope y ⟨t, r, .litElt _ _ _ _ hk h⟩,
            fun y t r h => ho.typed y t r (.litElt _ _ _ _ hk h), f3 _ hk⟩)
        · obtain ⟨y, hy, hh⟩ := (ih ⟨fun y ⟨t, r, h⟩ => ho.scope y ⟨t, r, .litType _ _ _ _ h⟩,
            fun y t r h => ho.typed y t r (.litType _ _ _ _ h), f1⟩).occurs
          have hin := f2 y hy
          rw [holding_other _ _ (by intro h; exact hin.2 (by rw [List.map_append]; exact List.mem_append.2 (Or.inl h)))] at hh
          exact absurd hh hin.1
    | kv i ky v => have hf := ho.followed; cases hf
    | call i f as t r =>
      simp only [kids] at hk
      have hf := ho.followed
      cases hf with
      | call _ _ _ _ f1 =>
        exact .passed _ _ _ _ hk (ih ⟨fun y ⟨t, r, h⟩ => ho.scope y ⟨t, r, .callArg _ _ _ _ hk h⟩,
          fun y t r h => ho.typed y t r (.callArg _ _ _ _ hk h), f1 _ hk⟩)
    | _ => simp [kids] at hk

/-- A variable through which the writer is found. -/
def ReachVar (W : World) (c : RespCfg) (Γ : String → String) (y : String) : Prop :=
  (y ≠ "" ∧ ∃ rhs, W.latest y = some rhs ∧ Reach W c rhs) ∨ (W.latest y = none ∧ WriterParam W c Γ y)

theorem Reach.wrap (w : Wrap) {a : Arg} (h : Reach W c a) : Reach W c (.wrap w a) := by
  cases h with
  | seed h => exact .seed (by rwa [stripAll])
  | kid h1 h2 => exact .kid (by rwa [stripAll]) h2

theorem carries_reach (hw : Written W (before ++ later)) (hu : ∀ y, Γ y = "" → W.origin y = none)
    (hs : W.origin W.edge.callerName = none) (hne : ¬ WriterParam W c Γ "")
    {env : String → Prop} {a : Arg} (h : Carries env a) :
    (∀ y, Occurs y a → env y → ReachVar W c Γ y) →
    (∀ y t r, IdentIn y t r a → (if r ≠ "" then r else t) = Γ y) →
    Followed (Inert W c Γ (before ++ later)) a → Reach W c a := by
  induction h with
  | @var x i t r hx =>
    intro hE hT _
    rcases hE x ⟨t, r, .here i⟩ hx with ⟨hn, rhs, hl, hr⟩ | ⟨hl, hp⟩
    · exact .kid (k := rhs) (by simp [stripAll, kids, hn, hl]) hr
    · refine .seed ?_
      have hn : x ≠ "" := by rintro rfl; exact hne hp
      simp [stripAll, Provenance.seed, hn, hl, paramIsWriter_complete hw hu hs (hT x t r (.here i)) hp]
  | wrapped w _ ih =>
    intro hE hT hF
    cases hF with
    | wrap _ hF =>
      exact (ih (fun y ⟨t, r, h⟩ => hE y ⟨t, r, .wrap w h⟩) (fun y t r h => hT y t r (.wrap w h)) hF).wrap w
  | @elem e es i ty t r hm _ ih =>
    intro hE hT hF
    cases hF with
    | lit _ _ _ _ _ hF =>
      exact .kid (k := e) (by simp [stripAll, kids, hm])
        (ih (fun y ⟨t, r, h⟩ => hE y ⟨t, r, .litElt _ _ _ _ hm h⟩) (fun y t r h => hT y t r (.litElt _ _ _ _ hm h)) (hF _ hm))
  | field i k _ ih => intro hE hT hF; cases hF
  | read i n t r hc _ =>
    intro hE hT hF
    cases hF with
    | sel _ _ _ _ hF =>
      obtain ⟨y, ⟨t', r', hy⟩, he⟩ := hc.occurs
      have hin := hF y ⟨t', r', hy⟩
      rcases hE y ⟨t', r', .sel _ _ _ _ hy⟩ he with ⟨hn, rhs, hl, _⟩ | ⟨_, hp⟩
      · rw [(latest_none hw hin.2)] at hl; simp at hl
      · exact absurd hp hin.1
  | @passed e as i f t r hm _ ih =>
    intro hE hT hF
    cases hF with
    | call _ _ _ _ hF =>
      exact .kid (k := e) (by simp [stripAll, kids, hm])
        (ih (fun y ⟨t, r, h⟩ => hE y ⟨t, r, .callArg _ _ _ _ hm h⟩) (fun y t r h => hT y t r (.callArg _ _ _ _ hm h)) (hF _ hm))
where
  latest_none {W : World} {body : List (String × Asg)} (hw : Written W body) {y : String} (hy : y ∉ body.map (·.1)) :
      W.latest y = none := by
    by_cases he : y = ""
    · simp [World.latest, latestAssignment, assignmentsAt, he]
    · rw [latest_written hw he]
      have : (body.filter (fun s => decide (s.1 = y))) = [] := by
        rw [List.filter_eq_nil_iff]; rintro ⟨z, a⟩ hs
        simp only [decide_eq_true_eq]; rintro rfl
        exact hy (List.mem_map.2 ⟨_, hs, rfl⟩)
      rw [this]; rfl

/-- Completeness: what is carried is found. -/
theorem holding_reach (S : Setting W c Γ before later src) (hs : W.origin W.edge.callerName = none)
    (hne : ¬ WriterParam W c Γ "") : ∀ (k : Nat) (P Q : List (String × Asg)), P.length = k → before = P ++ Q →
    ∀ y, y ∉ (Q ++ later).map (·.1) → holding (WriterParam W c Γ) P y → ReachVar W c Γ y := by
  intro k
  induction k with
  | zero =>
    intro P Q hk hb y hy h
    have : P = [] := List.length_eq_zero_iff.1 hk
    subst this
    simp only [List.nil_append] at hb
    subst hb
    exact Or.inr ⟨carries_reach.latest_none S.written hy, h⟩
  | succ k ih =>
    intro P Q hk hb y hy h
    obtain ⟨P, z, rfl⟩ : ∃ P' z, P = P' ++ [z] := by
      have : P ≠ [] := by intro e; subst e; simp at hk
      exact ⟨P.dropLast, P.getLast this, (List.dropLast_concat_getLast this).symm⟩
    obtain ⟨x, a⟩ := z
    simp only [List.length_append, List.length_singleton, Nat.add_right_cancel_iff] at hk
    have hb' : before = P ++ (x, a) :: Q := by rw [hb]; simp
    have hm : (x, a) ∈ before := by rw [hb']; simp
    rw [holding_append] at h
    simp only [holding] at h
    split at h
    · next e =>
      subst e
      have hne' := S.once.named _ (List.mem_append.2 (Or.inl hm))
      refine Or.inl ⟨hne', a.value, (latest_once S.written S.once.once hne').1 a (List.mem_append.2 (Or.inl hm)), ?_⟩
      have ho := S.rhs_ok hm
      refine carries_reach S.written S.typed.untyped hs hne h (fun w hw hh => ?_) ho.typed ho.followed
      exact ih P ((y, a) :: Q) hk hb' w (S.once.order P y a Q hb' w hw) hh
    · next e =>
      refine ih P ((x, a) :: Q) hk hb' y ?_ h
      simp only [List.cons_append, List.map_cons, List.mem_cons, not_or]
      exact ⟨e, hy⟩

theorem reach_iff (S : Setting W c Γ before later src) (hs : W.origin W.edge.callerName = none)
    (hne : ¬ WriterParam W c Γ "") : Reach W c src ↔ Carries (holding (WriterParam W c Γ) before) src := by
  refine ⟨fun h => reach_carries S h S.src_ok, fun h => ?_⟩
  refine carries_reach S.written S.typed.untyped hs hne h (fun y hy hh => ?_) S.src_ok.typed S.src_ok.followed
  exact holding_reach S hs hne _ before [] rfl (by simp) y (by simpa using S.once.src y hy) hh

/-! ## The nodes of the search -/

theorem Sub.trans {a b d : Arg} (h1 : Sub a b) (h2 : Sub b d) : Sub a d := by
  induction h2 with
  | refl => exact h1
  | sel i n t r _ ih => exact .sel i n t r ih
  | fn i as t r _ ih => exact .fn i as t r ih
  | arg i f t r hm _ ih => exact .arg i f t r hm ih
  | wrap w _ ih => exact .wrap w ih
  | litType i es t r _ ih => exact .litType i es t r ih
  | elt i ty t r hm _ ih => exact .elt i ty t r hm ih
  | key i v _ ih => exact .key i v ih
  | value i k _ ih => exact .value i k ih

theorem sub_strip : ∀ a : Arg, Sub (stripAll a) a
  | .wrap w x => by rw [stripAll]; exact .wrap w (sub_strip x)
  | .nil | .ident .. | .sel .. | .call .. | .lit .. | .kv .. | .other .. => by simp only [stripAll]; exact .refl

/-- A node of the search in a set of roots that is closed under assignments. -/
def Node (R : Arg → Prop) (b : Arg) : Prop := (∃ r, R r ∧ Sub b r) ∧ (∀ w x, b ≠ .wrap w x) ∧ b ≠ .nil

theorem node_kids {R : Arg → Prop} (hR : ∀ x rhs, W.latest x = some rhs → R rhs) {b k : Arg} (hb : ∃ r, R r ∧ Sub b r)
    (hk : k ∈ kids W b) : ∃ r, R r ∧ Sub k r := by
  obtain ⟨r, hr, hs⟩ := hb
  cases b with
  | ident i x t rt =>
    simp only [kids] at hk
    split at hk
    · simp at hk
    · rw [Option.mem_toList] at hk
      exact ⟨k, hR _ _ hk, .refl⟩
  | lit i ty es t rt =>
    simp only [kids, List.mem_append, List.mem_singleton] at hk
    rcases hk with hk | rfl
    · exact ⟨r, hr, (Sub.elt _ _ _ _ hk .refl).trans hs⟩
    · exact ⟨r, hr, (Sub.litType _ _ _ _ .refl).trans hs⟩
  | kv i ky v =>
    simp only [kids, List.mem_singleton] at hk
    subst hk
    exact ⟨r, hr, (Sub.key _ _ .refl).trans hs⟩
  | call i f as t rt => simp only [kids] at hk; exact ⟨r, hr, (Sub.arg _ _ _ _ hk .refl).trans hs⟩
  | nil => simp [kids] at hk
  | wrap => simp [kids] at hk
  | sel => simp [kids] at hk
  | other => simp [kids] at hk

theorem node_strip {R : Arg → Prop} {a : Arg} (h : ∃ r, R r ∧ Sub a r) : ∃ r, R r ∧ Sub (stripAll a) r := by
  obtain ⟨r, hr, hs⟩ := h
  exact ⟨r, hr, (sub_strip a).trans hs⟩

theorem latest_root (S : Setting W c Γ before later src) (x : String) (rhs : Arg) (h : W.latest x = some rhs) :
    Root (before ++ later) src rhs := by
  have hx : x ≠ "" := by rintro rfl; simp [World.latest, latestAssignment, assignmentsAt] at h
  rw [latest_written S.written hx] at h
  have := List.mem_of_getLast? h
  obtain ⟨s, hs, e⟩ := List.mem_map.1 this
  exact Or.inr ⟨s, (List.mem_filter.1 hs).1, e⟩

/-- The search answers whether the writer can be found. -/
theorem reaches_iff (S : Setting W c Γ before later src) (hd : Faithful (before ++ later) src) {n : Nat} {b : Bool} {v : List String}
    (h : reachesWriter W c n [] src = some (b, v)) : b = true ↔ Reach W c src := by
  constructor
  · rintro rfl; exact reaches_true h
  · intro hr
    cases b with
    | true => rfl
    | false =>
      have hR := latest_root S
      have hN : ∀ b k, Node (Root (before ++ later) src) b → k ∈ kids W b → stripAll k ≠ .nil →
          Node (Root (before ++ later) src) (stripAll k) := fun b k hb hk hne =>
        ⟨node_strip (node_kids hR hb.1 hk), stripAll_ne_wrap k, hne⟩
      have hsrc : stripAll src ≠ .nil → Node (Root (before ++ later) src) (stripAll src) := fun hne =>
        ⟨node_strip ⟨src, Or.inl rfl, .refl⟩, stripAll_ne_wrap src, hne⟩
      obtain ⟨_, h2, h3⟩ := reaches_false hN n [] src v hsrc h
      refine absurd ?_ not_false
      refine closed_not_reach hN (fun a b ha hb e => hd a b ha.1 hb.1 e ha.2.1 hb.2.1 ha.2.2 hb.2.2)
        (fun j hj => (h3 j hj).elim (fun h => by simp at h) id) hr hsrc h2

/-! ## The type of the destination -/

theorem leaf_sound (S : Setting W c Γ before later src) (hd : Faithful (before ++ later) src) {info : Arg → String} :
    ∀ (n : Nat) (P Q : List (String × Asg)) (vis : List String) (a : Arg) (t : String), before = P ++ Q →
    (∃ r, Root (before ++ later) src r ∧ Sub a r) →
    (∀ y, Occurs y a → y ∉ (Q ++ later).map (·.1)) →
    (∀ y t r, IdentIn y t r a → (if r ≠ "" then r else t) = Γ y) →
    (∀ j ∈ vis, ∃ i z t r, (∃ rt, Root (before ++ later) src rt ∧ Sub (.ident i z t r) rt) ∧ i = j ∧ z ∈ Q.map (·.1)) →
    leafType W info n vis a = some t → Leaf Γ info (before ++ later) a t := by
  intro n
  induction n with
  | zero => intro P Q vis a t _ _ _ _ _ h; simp [leafType] at h
  | succ n ih =>
    intro P Q vis a t hb hr hsc hty hv h
    have hstrip : Leaf Γ info (before ++ later) (stripAll a) t → Leaf Γ info (before ++ later) a t := strip a t
    apply hstrip
    rw [leafType] at h
    have hr' := node_strip hr
    have hsc' : ∀ y, Occurs y (stripAll a) → y ∉ (Q ++ later).map (·.1) := fun y hy => hsc y (occ hy)
    have hty' : ∀ y t r, IdentIn y t r (stripAll a) → (if r ≠ "" then r else t) = Γ y := fun y t r hy => hty y t r (idn hy)
    have hnw := stripAll_ne_wrap a
    generalize stripAll a = b at h hr' hsc' hty' hnw
    clear hstrip hsc hty hr
    have nt : ∀ {b ty rty}, nodeType info b ty rty = t →
        rty ≠ "" ∧ t = rty ∨ rty = "" ∧ ty ≠ "" ∧ t = ty ∨ rty = "" ∧ ty = "" ∧ t = info b := by
      intro b ty rty e
      rw [nodeType] at e
      split at e
      · next h => exact Or.inl ⟨h, e.symm⟩
      · next h =>
        split at e
        · next h' => exact Or.inr (Or.inl ⟨by simpa using h, h', e.symm⟩)
        · next h' => exact Or.inr (Or.inr ⟨by simpa using h, by simpa using h', e.symm⟩)
    cases b with
    | nil => simp only [Option.some.injEq] at h; subst h; exact .nil
    | wrap w x => exact absurd rfl (hnw w x)
    | kv i k v => simp only [Option.some.injEq] at h; subst h; exact .kv ..
    | other i ty r => simp only [Option.some.injEq] at h; subst h; exact .other ..
    | sel i x nm ty r => simp only [Option.some.injEq] at h; exact .sel _ _ _ _ _ (nt h)
    | call i f as ty r => simp only [Option.some.injEq] at h; exact .call _ _ _ _ _ (nt h)
    | lit i ty' es ty r => simp only [Option.some.injEq] at h; exact .lit _ _ _ _ _ (nt h)
    | ident i x ty r =>
      dsimp only at h
      have hT := identTypeDest_eq S.written S.typed.untyped (hty' x ty r (.here i))
      have hxs := hsc' x ⟨ty, r, .here i⟩
      have hxl : x ∉ later.map (·.1) := fun hc => hxs (by rw [List.map_append]; exact List.mem_append.2 (Or.inr hc))
      rcases S.var hxl with ⟨a, ha, hne, hl⟩ | ⟨hn, hl⟩
      · have hiv : i ∉ vis := by
          intro hc
          obtain ⟨i', z, t', r', hnode, e, hz⟩ := hv i hc
          subst e
          have := hd _ _ hnode hr' rfl (by simp) (by simp) (by simp) (by simp)
          simp only [Arg.ident.injEq, true_and] at this
          obtain ⟨rfl, _⟩ := this
          exact hxs (by rw [List.map_append]; exact List.mem_append.2 (Or.inl hz))
        rw [if_neg hiv, hl] at h
        dsimp only at h
        have haP : (x, a) ∈ P := by
          rw [hb] at ha
          rcases List.mem_append.1 ha with h | h
          · exact h
          · exact absurd (List.mem_map.2 ⟨_, h, rfl⟩) (fun hc => hxs (by rw [List.map_append]; exact List.mem_append.2 (Or.inl hc)))
        obtain ⟨P1, P2, rfl⟩ := List.append_of_mem haP
        have hb' : before = P1 ++ ((x, a) :: P2 ++ Q) := by rw [hb]; simp
        have hbl : (x, a) ∈ before ++ later := List.mem_append.2 (Or.inl ha)
        cases hlt : leafType W info n (i :: vis) a.value with
        | none => rw [hlt] at h; simp at h
        | some t' =>
          have hleaf := ih P1 ((x, a) :: P2 ++ Q) (i :: vis) a.value t' hb' ⟨_, Or.inr ⟨_, hbl, rfl⟩, .refl⟩
            (S.once.order P1 x a (P2 ++ Q) hb')
            (S.rhs_ok ha).typed
            (by
              intro j hj
              rcases List.mem_cons.1 hj with rfl | hj
              · exact ⟨_, x, ty, r, hr', rfl, by simp⟩
              · obtain ⟨i', z, t'', r'', h1, h2, h3⟩ := hv j hj
                exact ⟨i', z, t'', r'', h1, h2, by rw [List.map_append]; exact List.mem_append.2 (Or.inr h3)⟩) hlt
          rw [hlt] at h
          dsimp only at h
          split at h
          · next hne' =>
            simp only [Option.some.injEq] at h; subst h
            exact .assigned _ _ _ hbl hleaf hne'
          · next hne' =>
            simp only [Option.some.injEq] at h; subst h
            rw [hT]
            have : t' = "" := by simpa using hne'
            subst this
            exact .declared _ _ _ hbl hleaf
      · have : t = Γ x := by
          rw [← hT]
          split at h
          · exact (Option.some.inj h).symm
          · rw [hl] at h; exact (Option.some.inj h).symm
        subst this
        exact .param _ _ _ hn
where
  strip : ∀ (a : Arg) (t : String), Leaf Γ info (before ++ later) (stripAll a) t → Leaf Γ info (before ++ later) a t
    | .wrap w x, t, h => by rw [stripAll] at h; exact .wrapped w (strip x t h)
    | .nil, t, h | .ident .., t, h | .sel .., t, h | .call .., t, h | .lit .., t, h | .kv .., t, h | .other .., t, h => by
      simpa [stripAll] using h
  idn : ∀ {a : Arg} {y t r : String}, IdentIn y t r (stripAll a) → IdentIn y t r a
    | .wrap w x, _, _, _, h => by rw [stripAll] at h; exact .wrap w (idn h)
    | .nil, _, _, _, h | .ident .., _, _, _, h | .sel .., _, _, _, h | .call .., _, _, _, h | .lit .., _, _, _, h
    | .kv .., _, _, _, h | .other .., _, _, _, h => by simpa [stripAll] using h
  occ {a : Arg} {y : String} : Occurs y (stripAll a) → Occurs y a
    | ⟨t, r, h⟩ => ⟨t, r, idn h⟩

/-! ## The decision -/

/-- **Dropped.**  What is encoded is dropped only if it is not written to the response writer, or anything
made of it, and the type of what it is written to is known and not an interface the writer satisfies. -/
theorem C73_dropped_partial (S : Setting W c Γ before later src) (hd : Faithful (before ++ later) src)
    (hs : W.origin W.edge.callerName = none) (hne : ¬ WriterParam W c Γ "") {info : Arg → String} {n : Nat}
    (h : shouldDrop W c info n src = some true) :
    ¬ Carries (holding (WriterParam W c Γ) before) src ∧
    ∃ t, Leaf Γ info (before ++ later) src t ∧ t ≠ "" ∧ c.compat t = false := by
  rw [shouldDrop] at h
  split at h
  · simp at h
  · simp at h
  · next v hr =>
    rw [← reach_iff S hs hne, ← reaches_iff S hd hr]
    refine ⟨by simp, ?_⟩
    rw [Option.map_eq_some_iff] at h
    obtain ⟨t, ht, e⟩ := h
    refine ⟨t, leaf_sound S hd n before [] [] src t (by simp) ⟨src, Or.inl rfl, .refl⟩
      (by simpa using S.once.src) S.src_ok.typed (by simp) ht, ?_⟩
    simpa using e

/-- **Kept.**  What is encoded is kept only if it is written to the response writer, or something made of it,
or to something whose type is not known or an interface the writer satisfies. -/
theorem C73_kept_partial (S : Setting W c Γ before later src) (hd : Faithful (before ++ later) src)
    (hs : W.origin W.edge.callerName = none) (hne : ¬ WriterParam W c Γ "") {info : Arg → String} {n : Nat}
    (h : shouldDrop W c info n src = some false) :
    Carries (holding (WriterParam W c Γ) before) src ∨
    ∃ t, Leaf Γ info (before ++ later) src t ∧ (t = "" ∨ c.compat t = true) := by
  rw [shouldDrop] at h
  split at h
  · simp at h
  · next v hr => exact Or.inl ((reach_iff S hs hne).1 ((reaches_iff S hd hr).1 rfl))
  · next v hr =>
    rw [Option.map_eq_some_iff] at h
    obtain ⟨t, ht, e⟩ := h
    refine Or.inr ⟨t, leaf_sound S hd n before [] [] src t (by simp) ⟨src, Or.inl rfl, .refl⟩
      (by simpa using S.once.src) S.src_ok.typed (by simp) ht, ?_⟩
    by_cases h0 : t = ""
    · exact Or.inl h0
    · exact Or.inr (by simpa [h0] using e)

end

/-! ## Termination -/

theorem finite_list {l : List Arg} (h : ∀ e ∈ l, ∃ L : List String, ∀ b, Sub b e → b.id ∈ L) :
    ∃ L : List String, ∀ e ∈ l, ∀ b, Sub b e → b.id ∈ L := by
  induction l with
  | nil => exact ⟨[], by simp⟩
  | cons e l ih =>
    obtain ⟨L1, h1⟩ := h e (by simp)
    obtain ⟨L2, h2⟩ := ih fun e he => h e (by simp [he])
    refine ⟨L1 ++ L2, fun x hx b hb => ?_⟩
    rcases List.mem_cons.1 hx with rfl | hx
    · exact List.mem_append.2 (Or.inl (h1 b hb))
    · exact List.mem_append.2 (Or.inr (h2 x hx b hb))

/-- An expression has finitely many parts. -/
theorem finite_sub : ∀ (n : Nat) (a : Arg), sizeOf a < n → ∃ L : List String, ∀ b, Sub b a → b.id ∈ L := by
  intro n
  induction n with
  | zero => intro a h; omega
  | succ n ih =>
    intro a ha
    cases a with
    | nil => exact ⟨[""], fun b hb => by cases hb; simp [Arg.id]⟩
    | ident i x t r => exact ⟨[i], fun b hb => by cases hb; simp [Arg.id]⟩
    | other i t r => exact ⟨[i], fun b hb => by cases hb; simp [Arg.id]⟩
    | sel i x nm t r =>
      obtain ⟨L, hL⟩ := ih x (by simp at ha; omega)
      refine ⟨i :: L, fun b hb => ?_⟩
      cases hb with
      | refl => simp [Arg.id]
      | sel _ _ _ _ h => simp [hL b h]
    | wrap w x =>
      obtain ⟨L, hL⟩ := ih x (by simp at ha; omega)
      refine ⟨"" :: L, fun b hb => ?_⟩
      cases hb with
      | refl => simp [Arg.id]
      | wrap _ h => simp [hL b h]
    | kv i k v =>
      obtain ⟨L, hL⟩ := ih k (by simp at ha; omega)
      obtain ⟨L', hL'⟩ := ih v (by simp at ha; omega)
      refine ⟨i :: L ++ L', fun b hb => ?_⟩
      cases hb with
      | refl => simp [Arg.id]
      | key _ _ h => simp [hL b h]
      | value _ _ h => simp [hL' b h]
    | call i f as t r =>
      obtain ⟨L, hL⟩ := ih f (by simp at ha; omega)
      obtain ⟨L', hL'⟩ := finite_list (l := as) fun e he => ih e (by
        have := List.sizeOf_lt_of_mem he; simp at ha; omega)
      refine ⟨i :: L ++ L', fun b hb => ?_⟩
      cases hb with
      | refl => simp [Arg.id]
      | fn _ _ _ _ h => simp [hL b h]
      | arg _ _ _ _ he h => simp [hL' _ he b h]
    | lit i ty es t r =>
      obtain ⟨L, hL⟩ := ih ty (by simp at ha; omega)
      obtain ⟨L', hL'⟩ := finite_list (l := es) fun e he => ih e (by
        have := List.sizeOf_lt_of_mem he; simp at ha; omega)
      refine ⟨i :: L ++ L', fun b hb => ?_⟩
      cases hb with
      | refl => simp [Arg.id]
      | litType _ _ _ _ h => simp [hL b h]
      | elt _ _ _ _ he h => simp [hL' _ he b h]

theorem unseen_mono {U vis v : List String} (h : ∀ j ∈ vis, j ∈ v) : unseen U v ≤ unseen U vis := by
  induction U with
  | nil => simp [unseen]
  | cons u U ih =>
    simp only [unseen]
    by_cases h1 : u ∈ vis
    · simp [h1, h u h1]; exact ih
    · by_cases h2 : u ∈ v
      · simp [h1, h2]; omega
      · simp [h1, h2]; exact ih

/-- Every node the search can come to. -/
def InWorld (W : World) (src a : Arg) : Prop := ∃ r, (r = src ∨ r ∈ allRhs W) ∧ Sub a r

theorem anyReach_total {U : List String} {n : Nat} {f : List String → Arg → Option (Bool × List String)} {M : Arg → Prop}
    (hf : ∀ vis a, M a → unseen U vis < n → ∃ r v, f vis a = some (r, v) ∧ ∀ j ∈ vis, j ∈ v) :
    ∀ {l vis}, (∀ a ∈ l, M a) → unseen U vis < n → ∃ r v, anyReach f vis l = some (r, v) ∧ ∀ j ∈ vis, j ∈ v
  | [], vis, _, _ => ⟨false, vis, rfl, fun _ h => h⟩
  | a :: l, vis, hl, hn => by
    obtain ⟨r, v, h, hs⟩ := hf vis a (hl a (by simp)) hn
    rw [anyReach, h]
    cases r with
    | true => exact ⟨true, v, rfl, hs⟩
    | false =>
      obtain ⟨r', v', h', hs'⟩ := anyReach_total hf (l := l) (vis := v) (fun b hb => hl b (by simp [hb]))
        (Nat.lt_of_le_of_lt (unseen_mono hs) hn)
      exact ⟨r', v', h', fun j hj => hs' j (hs j hj)⟩

theorem reaches_total {W : World} {c : RespCfg} {src : Arg} {U : List String} (hU : ∀ a, InWorld W src a → a.id ∈ U) :
    ∀ n vis a, InWorld W src a → unseen U vis < n → ∃ r v, reachesWriter W c n vis a = some (r, v) ∧ ∀ j ∈ vis, j ∈ v
  | 0, _, _, _, h => by omega
  | n + 1, vis, a, ha, hn => by
    rw [reachesWriter_succ]
    have hR : ∀ x rhs, W.latest x = some rhs → (fun r => r = src ∨ r ∈ allRhs W) rhs := fun x rhs h => Or.inr (latest_mem h)
    have hs : InWorld W src (stripAll a) := node_strip ha
    split
    · exact ⟨_, _, rfl, fun _ h => h⟩
    · next hc =>
      simp only [not_or] at hc
      split
      · exact ⟨_, _, rfl, fun j hj => by simp [hj]⟩
      · obtain ⟨r, v, h, hv⟩ := anyReach_total (U := U) (n := n) (M := InWorld W src)
          (fun vis a ha hn => reaches_total hU n vis a ha hn) (l := kids W (stripAll a)) (vis := (stripAll a).id :: vis)
          (fun k hk => node_kids hR hs hk) (by have := unseen_lt (hU _ hs) hc.2; omega)
        exact ⟨r, v, h, fun j hj => hv j (by simp [hj])⟩

theorem leaf_total {W : World} {info : Arg → String} {src : Arg} {U : List String} (hU : ∀ a, InWorld W src a → a.id ∈ U) :
    ∀ n vis a, InWorld W src a → unseen U vis < n → (leafType W info n vis a).isSome
  | 0, _, _, _, h => by omega
  | n + 1, vis, a, ha, hn => by
    rw [leafType]
    have hs : InWorld W src (stripAll a) := node_strip ha
    generalize stripAll a = b at hs
    cases b with
    | ident i x t r =>
      dsimp only
      split
      · rfl
      · next hc =>
        split
        · rfl
        · next rhs hl =>
          have := leaf_total (info := info) hU n (i :: vis) rhs ⟨rhs, Or.inr (latest_mem hl), .refl⟩
            (by have := unseen_lt (hU _ hs) hc; simp only [Arg.id] at this; omega)
          obtain ⟨t, ht⟩ := Option.isSome_iff_exists.1 this
          rw [ht]; dsimp only
          split <;> rfl
    | _ => rfl

theorem finite_world (W : World) (src : Arg) : ∃ U : List String, ∀ a, InWorld W src a → a.id ∈ U := by
  obtain ⟨L, hL⟩ := finite_list (l := src :: allRhs W) fun e _ => finite_sub _ e (Nat.lt_succ_self _)
  exact ⟨L, fun a ⟨r, hr, hs⟩ => hL r (List.mem_cons.2 hr) a hs⟩

/-- **Termination.**  Whatever the assignments, the question is answered. -/
theorem C73_terminates (W : World) (c : RespCfg) (info : Arg → String) (a : Arg) :
    ∃ n, ∀ m, n ≤ m → (shouldDrop W c info m a).isSome = true := by
  obtain ⟨U, hU⟩ := finite_world W a
  refine ⟨unseen U [] + 1, fun m hm => ?_⟩
  obtain ⟨r, v, h, _⟩ := reaches_total (c := c) hU m [] a ⟨a, Or.inl rfl, .refl⟩ (by omega)
  rw [shouldDrop, h]
  cases r with
  | true => rfl
  | false =>
    dsimp only
    rw [Option.isSome_map]
    exact leaf_total hU m [] a ⟨a, Or.inl rfl, .refl⟩ (by omega)

theorem anyReach_mono {f g : List String → Arg → Option (Bool × List String)}
    (hf : ∀ vis a r, f vis a = some r → g vis a = some r) : ∀ {l vis r}, anyReach f vis l = some r → anyReach g vis l = some r
  | [], _, _, h => h
  | a :: l, vis, r, h => by
    rw [anyReach] at h ⊢
    split at h
    · simp at h
    · next v e => rw [hf _ _ _ e]; exact h
    · next v e => rw [hf _ _ _ e]; exact anyReach_mono hf h

theorem reaches_mono (W : World) (c : RespCfg) : ∀ n vis a r, reachesWriter W c n vis a = some r →
    reachesWriter W c (n + 1) vis a = some r
  | 0, _, _, _, h => by simp [reachesWriter] at h
  | n + 1, vis, a, r, h => by
    rw [reachesWriter_succ] at h ⊢
    split at h
    · next hc => rw [if_pos hc]; exact h
    · next hc =>
      rw [if_neg hc]
      split at h
      · next hs => rw [if_pos hs]; exact h
      · next hs => rw [if_neg hs]; exact anyReach_mono (reaches_mono W c n) h

theorem leaf_mono (W : World) (info : Arg → String) : ∀ n vis a r, leafType W info n vis a = some r →
    leafType W info (n + 1) vis a = some r
  | 0, _, _, _, h => by simp [leafType] at h
  | n + 1, vis, a, r, h => by
    rw [leafType] at h ⊢
    generalize stripAll a = b at h
    cases b with
    | ident i x t rt =>
      dsimp only at h ⊢
      split at h
      · next hc => rw [if_pos hc]; exact h
      · next hc =>
        rw [if_neg hc]
        split at h
        · exact h
        · next rhs hl =>
          cases hlt : leafType W info n (i :: vis) rhs with
          | none => rw [hlt] at h; simp at h
          | some t' => rw [leaf_mono W info n _ _ _ hlt]; rw [hlt] at h; exact h
    | _ => exact h

theorem drop_mono (W : World) (c : RespCfg) (info : Arg → String) (n : Nat) (a : Arg) (b : Bool)
    (h : shouldDrop W c info n a = some b) : shouldDrop W c info (n + 1) a = some b := by
  rw [shouldDrop] at h ⊢
  split at h
  · simp at h
  · next v e => rw [reaches_mono W c _ _ _ _ e]; exact h
  · next v e =>
    rw [reaches_mono W c _ _ _ _ e]
    rw [Option.map_eq_some_iff] at h
    obtain ⟨t, ht, rfl⟩ := h
    dsimp only
    rw [leaf_mono W info _ _ _ _ ht]; rfl

/-- There is one answer. -/
theorem C73_answer_unique (W : World) (c : RespCfg) (info : Arg → String) (a : Arg) {n m : Nat} {x y : Bool}
    (h1 : shouldDrop W c info n a = some x) (h2 : shouldDrop W c info m a = some y) : x = y := by
  have up : ∀ k n b, shouldDrop W c info n a = some b → shouldDrop W c info (n + k) a = some b := by
    intro k; induction k with
    | zero => intro n r h; exact h
    | succ k ih => intro n r h; exact drop_mono W c info _ _ _ (ih n r h)
  have a1 := up m n x h1
  have a2 := up n m y h2
  rw [Nat.add_comm m n, a1] at a2
  exact Option.some.inj a2

/-- **The response is not lost.**  What is written to the response writer, or something made of it, is kept. -/
theorem C73_response_kept_partial {W : World} {c : RespCfg} {Γ : String → String} {before later : List (String × Asg)} {src : Arg}
    (S : Setting W c Γ before later src) (hd : Faithful (before ++ later) src)
    (hs : W.origin W.edge.callerName = none) (hne : ¬ WriterParam W c Γ "") (info : Arg → String)
    (h : Carries (holding (WriterParam W c Γ) before) src) :
    ∃ n, ∀ m, n ≤ m → shouldDrop W c info m src = some false := by
  obtain ⟨n, hn⟩ := C73_terminates W c info src
  refine ⟨n, fun m hm => ?_⟩
  obtain ⟨b, hb⟩ := Option.isSome_iff_exists.1 (hn m hm)
  cases b with
  | false => exact hb
  | true => exact absurd h (C73_dropped_partial S hd hs hne hb).1

theorem anyArg_cons (W : World) (c : RespCfg) (info : Arg → String) (n : Nat) (a : Arg) (as : List Arg) (ha : a ≠ .nil) :
    anyArgReachesWriter W c info n (a :: as) =
      match shouldDrop W c info n a with
      | none => none
      | some false => some true
      | some true => anyArgReachesWriter W c info n as := by
  rw [anyArgReachesWriter.eq_3 _ _ _ _ _ _ ha, shouldDrop]
  cases reachesWriter W c n [] a with
  | none => rfl
  | some p =>
    obtain ⟨b, v⟩ := p
    cases b with
    | true => rfl
    | false =>
      dsimp only
      cases leafType W info n [] a with
      | none => rfl
      | some t =>
        by_cases h : t = "" <;> by_cases h' : c.compat t = true <;> simp [h, h']

/-- **Helpers without a fixed place for the writer.**  A call that only looks like a response is one if some
argument of it is the response writer, made of it, or may be it; and if none is, it is not. -/
theorem C73_any_argument_partial {W : World} {c : RespCfg} {Γ : String → String} {before later : List (String × Asg)} {args : List Arg}
    (S : ∀ a ∈ args, a ≠ .nil → Setting W c Γ before later a) (hd : ∀ a ∈ args, a ≠ .nil → Faithful (before ++ later) a)
    (hs : W.origin W.edge.callerName = none) (hne : ¬ WriterParam W c Γ "") {info : Arg → String} {n : Nat} {b : Bool}
    (h : anyArgReachesWriter W c info n args = some b) :
    (b = true → ∃ a ∈ args, Carries (holding (WriterParam W c Γ) before) a ∨
      ∃ t, Leaf Γ info (before ++ later) a t ∧ (t = "" ∨ c.compat t = true)) ∧
    (b = false → ∀ a ∈ args, ¬ Carries (holding (WriterParam W c Γ) before) a) := by
  induction args with
  | nil => simp only [anyArgReachesWriter, Option.some.injEq] at h; subst h; simp
  | cons a as ih =>
    have ih' := ih (fun x hx => S x (by simp [hx])) (fun x hx => hd x (by simp [hx]))
    by_cases ha : a = .nil
    · subst ha
      rw [anyArgReachesWriter] at h
      obtain ⟨h1, h2⟩ := ih' h
      refine ⟨fun e => ?_, fun e x hx => ?_⟩
      · obtain ⟨x, hx, r⟩ := h1 e; exact ⟨x, by simp [hx], r⟩
      · rcases List.mem_cons.1 hx with rfl | hx
        · intro hc; cases hc
        · exact h2 e x hx
    · rw [anyArg_cons W c info n a as ha] at h
      split at h
      · simp at h
      · next hk =>
        simp only [Option.some.injEq] at h; subst h
        refine ⟨fun _ => ⟨a, by simp, ?_⟩, by simp⟩
        exact C73_kept_partial (S a (by simp) ha) (hd a (by simp) ha) hs hne hk
      · next hk =>
        obtain ⟨h1, h2⟩ := ih' h
        refine ⟨fun e => ?_, fun e x hx => ?_⟩
        · obtain ⟨x, hx, r⟩ := h1 e; exact ⟨x, by simp [hx], r⟩
        · rcases List.mem_cons.1 hx with rfl | hx
          · exact (C73_dropped_partial (S x (by simp) ha) (hd x (by simp) ha) hs hne hk).1
          · exact h2 e x hx

/-! ## A handler that meets the hypotheses, and handlers that do not -/

/-- net/http: the writer is a `http.ResponseWriter`, which satisfies `io.Writer`. -/
def httpResp : RespCfg := ⟨fun t => decide (t = "net/http.ResponseWriter"), fun t => decide (t = "io.Writer")⟩

/-- The parameter `w http.ResponseWriter`. -/
def wArg (p : String) : Arg := .ident ("w@" ++ p) "w" "net/http.ResponseWriter" ""

/-- A variable of a type. -/
def tvar (x t p : String) : Arg := .ident (x ++ "@" ++ p) x t ""

/-- `lw := &loggingWriter{w}; dst := wrap(lw); buf := new(bytes.Buffer) … json.NewEncoder(dst)` -/
def exDest : List (String × Asg) :=
  [("lw", ⟨.wrap .unary (.lit "lit@2" (.ident "T@2" "loggingWriter" "api.loggingWriter" "") [wArg "2"] "" ""), ""⟩),
   ("dst", ⟨.call "wrap@3" (.ident "f@3" "wrap" "" "") [tvar "lw" "*api.loggingWriter" "3"] "api.wrapped" "", ""⟩),
   ("buf", ⟨.call "new@4" (.ident "f@4" "new" "" "") [.other "bytes.Buffer@4" "" ""] "*bytes.Buffer" "", ""⟩)]

def exDstΓ (y : String) : String :=
  match y with
  | "w" => "net/http.ResponseWriter"
  | "lw" => "*api.loggingWriter"
  | "dst" => "api.wrapped"
  | "buf" => "*bytes.Buffer"
  | "loggingWriter" => "api.loggingWriter"
  | _ => ""

def noInfo : Arg → String := fun _ => ""

mutual
/-- All identifiers, listed. -/
def idents : Arg → List (String × String × String)
  | .nil => []
  | .ident _ x t r => [(x, t, r)]
  | .sel _ x _ _ _ => idents x
  | .call _ f as _ _ => idents f ++ identsL as
  | .wrap _ x => idents x
  | .lit _ ty es _ _ => idents ty ++ identsL es
  | .kv _ k v => idents k ++ idents v
  | .other .. => []
def identsL : List Arg → List (String × String × String)
  | [] => []
  | a :: as => idents a ++ identsL as
end

mutual
/-- All parts but operators, listed. -/
def parts : Arg → List Arg
  | .nil => []
  | .ident i x t r => [.ident i x t r]
  | .sel i x n t r => .sel i x n t r :: parts x
  | .call i f as t r => .call i f as t r :: parts f ++ partsL as
  | .wrap _ x => parts x
  | .lit i ty es t r => .lit i ty es t r :: parts ty ++ partsL es
  | .kv i k v => .kv i k v :: parts k ++ parts v
  | .other i t r => [.other i t r]
def partsL : List Arg → List Arg
  | [] => []
  | a :: as => parts a ++ partsL as
end

theorem identsL_mem {e : Arg} {p} : ∀ {as : List Arg}, e ∈ as → p ∈ idents e → p ∈ identsL as
  | a :: as, he, hp => by
    rw [identsL]
    rcases List.mem_cons.1 he with rfl | he
    · simp [hp]
    · simp [identsL_mem he hp]

theorem idents_mem {y t r : String} {a : Arg} (h : IdentIn y t r a) : (y, t, r) ∈ idents a := by
  induction h with
  | here i => simp [idents]
  | sel i n a b _ ih => simpa [idents] using ih
  | callFn i as a b _ ih => simp [idents, ih]
  | callArg i f a b he _ ih => simp [idents, identsL_mem he ih]
  | wrap w _ ih => simpa [idents] using ih
  | litType i es a b _ ih => simp [idents, ih]
  | litElt i ty a b he _ ih => simp [idents, identsL_mem he ih]
  | key i v _ ih => simp [idents, ih]
  | value i k _ ih => simp [idents, ih]

theorem partsL_mem {e p : Arg} : ∀ {as : List Arg}, e ∈ as → p ∈ parts e → p ∈ partsL as
  | a :: as, he, hp => by
    rw [partsL]
    rcases List.mem_cons.1 he with rfl | he
    · simp [hp]
    · simp [partsL_mem he hp]

theorem parts_mem {b a : Arg} (h : Sub b a) (hw : ∀ w x, b ≠ .wrap w x) (hn : b ≠ .nil) : b ∈ parts a := by
  induction h with
  | refl => cases b <;> simp_all [parts]
  | sel i n a b _ ih => simp [parts, ih]
  | fn i as a b _ ih => simp [parts, ih]
  | arg i f a b he _ ih => simp [parts, partsL_mem he ih]
  | wrap w _ ih => simpa [parts] using ih
  | litType i es a b _ ih => simp [parts, ih]
  | elt i ty a b he _ ih => simp [parts, partsL_mem he ih]
  | key i v _ ih => simp [parts, ih]
  | value i k _ ih => simp [parts, ih]

theorem nodup_inj {l : List Arg} (h : (l.map Arg.id).Nodup) {a b : Arg} (ha : a ∈ l) (hb : b ∈ l) (e : a.id = b.id) : a = b := by
  induction l with
  | nil => simp at ha
  | cons x l ih =>
    simp only [List.map_cons, List.nodup_cons] at h
    rcases List.mem_cons.1 ha with rfl | ha <;> rcases List.mem_cons.1 hb with rfl | hb
    · rfl
    · exact absurd (List.mem_map.2 ⟨b, hb, e.symm⟩) h.1
    · exact absurd (List.mem_map.2 ⟨a, ‹a ∈ l›, e⟩) h.1
    · exact ih h.2 ha hb

/-- The hypotheses of the theorems, by inspection of the lists. -/
theorem faithful_of {body : List (String × Asg)} {src : Arg}
    (h : (((src :: body.map (·.2.value)).flatMap parts).map Arg.id).Nodup) : Faithful body src := by
  rintro a b ⟨r, hr, ha⟩ ⟨r', hr', hb⟩ e aw bw an bn
  have root : ∀ {r}, Root body src r → r ∈ src :: body.map (·.2.value) := by
    rintro r (rfl | ⟨s, hs, rfl⟩)
    · simp
    · exact List.mem_cons.2 (Or.inr (List.mem_map.2 ⟨s, hs, rfl⟩))
  exact nodup_inj h (List.mem_flatMap.2 ⟨r, root hr, parts_mem ha aw an⟩)
    (List.mem_flatMap.2 ⟨r', root hr', parts_mem hb bw bn⟩) e

/-- Every variable is used only when it was assigned: checked from the end. -/
def ordered (later : List String) : List (String × Asg) → Bool
  | [] => true
  | (x, a) :: post =>
    (idents a.value).all (fun p => !decide (p.1 ∈ x :: (post.map (·.1) ++ later))) && ordered later post

theorem ordered_spec {later : List String} : ∀ {before : List (String × Asg)}, ordered later before = true →
    ∀ pre x a post, before = pre ++ (x, a) :: post → ∀ y, Occurs y a.value → y ∉ x :: (post.map (·.1) ++ later)
  | [], _, pre, x, a, post, e, _, _ => by simp at e
  | s :: b, h, [], x, a, post, e, y, ⟨t, r, hy⟩ => by
    simp only [List.nil_append, List.cons.injEq] at e
    obtain ⟨rfl, rfl⟩ := e
    simp only [ordered, Bool.and_eq_true, List.all_eq_true] at h
    simpa using h.1 _ (idents_mem hy)
  | s :: b, h, z :: pre, x, a, post, e, y, hy => by
    simp only [List.cons_append, List.cons.injEq] at e
    obtain ⟨rfl, rfl⟩ := e
    obtain ⟨z1, z2⟩ := s
    simp only [ordered, Bool.and_eq_true] at h
    exact ordered_spec h.2 pre x a post rfl y hy

theorem once_of {before later : List (String × Asg)} {src : Arg}
    (h1 : ∀ s ∈ (before ++ later).map (·.1), s ≠ "") (h2 : ((before ++ later).map (·.1)).Nodup)
    (h3 : ordered (later.map (·.1)) before = true) (h4 : ∀ p ∈ idents src, p.1 ∉ later.map (·.1)) :
    Once before later src where
  named := fun s hs => h1 _ (List.mem_map.2 ⟨s, hs, rfl⟩)
  once := h2
  order := by
    intro pre x a post e y hy
    simpa using ordered_spec h3 pre x a post e y hy
  src := fun y ⟨t, r, hy⟩ => h4 _ (idents_mem hy)

theorem typed_of {W : World} {Γ : String → String} {body : List (String × Asg)} {src : Arg}
    (h : ∀ p ∈ (src :: body.map (·.2.value)).flatMap idents, (if p.2.2 ≠ "" then p.2.2 else p.2.1) = Γ p.1)
    (ho : ∀ y, W.origin y = none) : Typed W Γ body src where
  node := by
    intro a ha y t r hy
    refine h (y, t, r) (List.mem_flatMap.2 ⟨a, ?_, idents_mem hy⟩)
    rcases ha with rfl | ⟨s, hs, rfl⟩
    · simp
    · exact List.mem_cons.2 (Or.inr (List.mem_map.2 ⟨s, hs, rfl⟩))
  untyped := fun y _ => ho y

theorem writerParam_ex {body : List (String × Asg)} {y : String} :
    WriterParam (inCreate body) httpResp exDstΓ y ↔ exDstΓ y = "net/http.ResponseWriter" := by
  simp [WriterParam, inCreate, httpResp]

theorem exDest_followed (p : String) : ∀ x t, ∀ a, Root (exDest ++ []) (tvar x t p) a →
    Followed (Inert (inCreate (exDest ++ [])) httpResp exDstΓ (exDest ++ [])) a := by
  rintro x t a (rfl | ⟨s, hs, rfl⟩)
  · exact .ident ..
  · simp only [exDest, List.append_nil, List.mem_cons, List.not_mem_nil, or_false] at hs
    rcases hs with rfl | rfl | rfl
    · refine .wrap _ (.lit _ _ _ (.ident ..) ?_ ?_)
      · rintro y ⟨t, r, h⟩
        cases h
        exact ⟨by rw [writerParam_ex]; decide, by decide⟩
      · intro e he
        rw [List.mem_singleton.1 he]; exact .ident ..
    · refine .call _ _ _ _ ?_
      intro e he
      rw [List.mem_singleton.1 he]; exact .ident ..
    · refine .call _ _ _ _ ?_
      intro e he
      rw [List.mem_singleton.1 he]; exact .other ..

theorem exDst_setting : Setting (inCreate (exDest ++ [])) httpResp exDstΓ exDest [] (tvar "dst" "api.wrapped" "5") :=
  ⟨inCreate_written _, once_of (by decide) (by decide) (by decide) (by decide), typed_of (by decide) (fun _ => rfl),
    exDest_followed _ _ _⟩

theorem exBuf_setting : Setting (inCreate (exDest ++ [])) httpResp exDstΓ exDest [] (tvar "buf" "*bytes.Buffer" "5") :=
  ⟨inCreate_written _, once_of (by decide) (by decide) (by decide) (by decide), typed_of (by decide) (fun _ => rfl),
    exDest_followed _ _ _⟩

/-- The hypotheses hold of a function that wraps the writer twice; what it encodes to the wrapper is kept … -/
example : ∃ n, ∀ m, n ≤ m → shouldDrop (inCreate (exDest ++ [])) httpResp noInfo m (tvar "dst" "api.wrapped" "5") = some false := by
  refine C73_response_kept_partial exDst_setting (faithful_of (by decide)) rfl (by rw [writerParam_ex]; decide) noInfo ?_
  refine .var _ _ _ ?_
  rw [holding_once exDst_setting.once _ (x := "dst") (List.mem_cons_of_mem _ (List.mem_cons_self ..))]
  refine .passed _ _ _ _ (List.mem_cons_self ..) (.var _ _ _ ?_)
  rw [holding_once exDst_setting.once _ (x := "lw") (List.mem_cons_self ..)]
  refine .wrapped _ (.elem _ _ _ _ (List.mem_cons_self ..) (.var _ _ _ ?_))
  rw [holding_other _ _ (by decide), writerParam_ex]; rfl

/-- … and to a buffer is dropped, which does not hold the writer. -/
example : ¬ Carries (holding (WriterParam (inCreate (exDest ++ [])) httpResp exDstΓ) exDest) (tvar "buf" "*bytes.Buffer" "5") :=
  (C73_dropped_partial (info := noInfo) (n := 9) exBuf_setting (faithful_of (by decide)) rfl (by rw [writerParam_ex]; decide) (by decide)).1

/-- The same function and a call with the buffer and the wrapper, in that order: it may be a response. -/
example : anyArgReachesWriter (inCreate (exDest ++ [])) httpResp noInfo 9
    [tvar "buf" "*bytes.Buffer" "5", tvar "dst" "api.wrapped" "6"] = some true ∧
    anyArgReachesWriter (inCreate (exDest ++ [])) httpResp noInfo 9 [tvar "buf" "*bytes.Buffer" "5"] = some false := by decide

/-- Kept for its type: a parameter `out io.Writer` of a helper. -/
example : shouldDrop (inCreate []) httpResp noInfo 9 (tvar "out" "io.Writer" "5") = some false := by decide

/-- **A field with a name.**  `json.NewEncoder(&loggingWriter{out: w}).Encode(v)` writes the response, but is
dropped: of an element with a key only the key is looked at, not the value.  (It is found if the field's own
type is `http.ResponseWriter`, because the key is then taken for a variable of that type.) -/
theorem C73_named_field_lost :
    Carries (fun x => x = "w") (.wrap .unary (.lit "lit@2" (.ident "T@2" "loggingWriter" "" "")
      [.kv "kv@2" (.ident "out@2" "out" "io.Writer" "") (wArg "2")] "api.loggingWriter" "")) ∧
    shouldDrop (inCreate []) httpResp noInfo 9 (.wrap .unary (.lit "lit@2" (.ident "T@2" "loggingWriter" "" "")
      [.kv "kv@2" (.ident "out@2" "out" "io.Writer" "") (wArg "2")] "api.loggingWriter" "")) = some true :=
  ⟨.wrapped _ (.elem _ _ _ _ (List.mem_cons_self ..) (.field _ _ (.var _ _ _ rfl))), by decide⟩

/-- And the other way round: `&recorder{ResponseWriter: httptest.NewRecorder()}` holds no part of the
response writer, but what is encoded to it is documented as a response. -/
theorem C73_named_field_wrong :
    (∀ env, ¬ Carries env (.lit "lit@2" (.ident "T@2" "recorder" "" "")
      [.kv "kv@2" (.ident "key@2" "ResponseWriter" "net/http.ResponseWriter" "")
        (.call "new@2" (.sel "f@2" (.ident "p@2" "httptest" "" "") "NewRecorder" "" "") [] "*httptest.ResponseRecorder" "")]
      "api.recorder" "")) ∧
    shouldDrop (inCreate []) httpResp noInfo 9 (.lit "lit@2" (.ident "T@2" "recorder" "" "")
      [.kv "kv@2" (.ident "key@2" "ResponseWriter" "net/http.ResponseWriter" "")
        (.call "new@2" (.sel "f@2" (.ident "p@2" "httptest" "" "") "NewRecorder" "" "") [] "*httptest.ResponseRecorder" "")]
      "api.recorder" "") = some false := by
  refine ⟨fun env h => ?_, by decide⟩
  cases h with
  | elem _ _ _ _ he h =>
    rw [List.mem_singleton.1 he] at h
    cases h with
    | field _ _ h => cases h with
      | passed _ _ _ _ he _ => simp at he

/-- **A writer that wraps itself.**  `w = newLoggingWriter(w); json.NewEncoder(w).Encode(v)` writes the response,
but the search goes round in a circle and the response is dropped. -/
theorem C73_rewrapped_lost :
    Carries (holding (fun x => x = "w") [("w", ⟨.call "c@2" (.ident "f@2" "newLoggingWriter" "" "") [wArg "2"] "*api.loggingWriter" "", ""⟩)])
      (wArg "3") ∧
    shouldDrop (inCreate [("w", ⟨.call "c@2" (.ident "f@2" "newLoggingWriter" "" "") [wArg "2"] "*api.loggingWriter" "", ""⟩)])
      httpResp noInfo 9 (wArg "3") = some true := by
  refine ⟨.var _ _ _ ?_, by decide⟩
  simp only [holding, if_true]
  exact .passed _ _ _ _ (List.mem_cons_self ..) (.var _ _ _ rfl)

/-- **A writer in a field.**  `s := responder{w}; json.NewEncoder(s.out).Encode(v)` writes the response, but
nothing is known of fields, and the type `http.ResponseWriter` of the field is no reason to keep it. -/
theorem C73_field_lost :
    Carries (holding (fun x => x = "w") [("s", ⟨.lit "lit@2" (.ident "T@2" "responder" "" "") [wArg "2"] "api.responder" "", ""⟩)])
      (.sel "s.out@3" (tvar "s" "api.responder" "3") "out" "net/http.ResponseWriter" "") ∧
    shouldDrop (inCreate [("s", ⟨.lit "lit@2" (.ident "T@2" "responder" "" "") [wArg "2"] "api.responder" "", ""⟩)])
      httpResp noInfo 9 (.sel "s.out@3" (tvar "s" "api.responder" "3") "out" "net/http.ResponseWriter" "") = some true := by
  refine ⟨.read _ _ _ _ (.var _ _ _ ?_), by decide⟩
  simp only [holding, if_true]
  exact .elem _ _ _ _ (List.mem_cons_self ..) (.var _ _ _ rfl)

/-- **Assigned again afterwards.**  `dst := w; json.NewEncoder(dst).Encode(v); dst = &buf`: the response is
dropped, because the last assignment in the function counts, … -/
theorem C73_assigned_later_lost :
    Carries (holding (fun x => x = "w") [("dst", ⟨wArg "2", ""⟩)]) (tvar "dst" "io.Writer" "3") ∧
    shouldDrop (inCreate ([("dst", ⟨wArg "2", ""⟩)] ++ [("dst", ⟨.wrap .unary (tvar "buf" "bytes.Buffer" "4"), ""⟩)]))
      httpResp noInfo 9 (tvar "dst" "io.Writer" "3") = some true := by
  refine ⟨.var _ _ _ ?_, by decide⟩
  simp only [holding, if_true]
  exact .var _ _ _ rfl

/-- … and the other way round, what was written to a buffer is documented as a response. -/
theorem C73_assigned_later_wrong :
    ¬ Carries (holding (fun x => x = "w") [("dst", ⟨tvar "buf" "bytes.Buffer" "2", ""⟩)]) (tvar "dst" "io.Writer" "3") ∧
    shouldDrop (inCreate ([("dst", ⟨tvar "buf" "bytes.Buffer" "2", ""⟩)] ++ [("dst", ⟨wArg "4", ""⟩)]))
      httpResp noInfo 9 (tvar "dst" "io.Writer" "3") = some false := by
  refine ⟨fun h => ?_, by decide⟩
  cases h with
  | var _ _ _ h =>
    simp only [holding, if_true] at h
    cases h with
    | var _ _ _ h => revert h; decide

/-- Written to the wrapper: kept.  Written to the buffer: dropped. -/
example : shouldDrop (inCreate exDest) httpResp noInfo 9 (tvar "dst" "api.wrapped" "5") = some false ∧
    shouldDrop (inCreate exDest) httpResp noInfo 9 (tvar "buf" "*bytes.Buffer" "5") = some true := by decide

/-! ### A variable without a type of its own -/

/-- **C73.** A variable that is not assigned and has no type of its own, traced to a value of type `t` (`r` once
generic parameters are resolved; `""`: nothing to resolve) that is no response writer: the response is dropped when
that type, the resolved one first, is known and no writer could have it. -/
theorem C73_traced_type (W : World) (c : RespCfg) (info : Arg → String) (n : Nat) (i name t r : String) (hn : name ≠ "")
    (hl : W.latest name = none) (hm : ∀ a ∈ W.edge.amap.get name, a.concrete = "") (ho : W.origin name = some (t, r))
    (ht : c.writer t = false) (hr : c.writer r = false) :
    shouldDrop W c info (n + 1) (.ident i name "" "") =
      some (if r = "" then decide (t ≠ "") && !c.compat t else !c.compat r) := by
  have hk : knownType W name "" "" = "" := by
    have : (W.edge.amap.get name).reverse.find? (fun a => decide (a.concrete ≠ "")) = none := by
      rw [List.find?_eq_none]
      intro a ha
      simp [hm a (List.mem_reverse.1 ha)]
    rw [knownType, if_neg (by simp), if_neg (by simp), this]
    rfl
  have hd : identTypeDest W name "" "" = if r = "" then t else r := by
    rw [identTypeDest, hk, ho]
    by_cases h : r = "" <;> simp [h]
  have hp : paramIsWriter W c name "" "" = false := by
    rw [paramIsWriter, hd, ho]
    by_cases h : r = "" <;> simp [h, ht, hr]
  have h1 : reachesWriter W c (n + 1) [] (.ident i name "" "") = some (false, [i]) := by
    simp [reachesWriter, stripAll, hn, hl, hp]
  have h2 : leafType W info (n + 1) [] (.ident i name "" "") = some (if r = "" then t else r) := by
    simp [leafType, stripAll, hl, hd]
  simp only [shouldDrop, h1, h2, Option.map_some]
  by_cases h : r = ""
  · simp [h]
  · simp [h]

/-- `func write[T io.Writer](dst T) { json.NewEncoder(dst).Encode(v) }`, instantiated with a buffer. -/
example : shouldDrop { inCreate [] with origin := fun _ => some ("T", "*bytes.Buffer") } httpResp noInfo 3 (.ident "dst@3" "dst" "" "") = some true :=
  (C73_traced_type _ _ _ 2 _ _ _ _ (by decide) (by decide) (by decide) rfl (by decide) (by decide)).trans (by decide)

end Verif.Provenance
