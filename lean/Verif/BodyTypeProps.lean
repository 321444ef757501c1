import Verif.BodyTypeModel
/-!
# C100: a body held in an interface variable is documented as what it holds
-/

namespace Verif.BodyType
open Verif.Common

/-! ## Specification: running the function -/

/-- The dynamic type of an assigned value (`none`: a nil interface).  An expression of a concrete type gives
that type, one of an interface type gives anything. -/
inductive Gives (iface : String → Bool) : STy → Nat → Option String → Prop
  | concrete (n i) (h : iface n = false) : Gives iface (.one n) i (some n)
  | iface (n i d) (h : iface n = true) : Gives iface (.one n) i d
  | tupleConcrete (ns i n) (hn : ns[i]? = some n) (h : iface n = false) : Gives iface (.tuple ns) i (some n)
  | tupleIface (ns i n d) (hn : ns[i]? = some n) (h : iface n = true) : Gives iface (.tuple ns) i d
  | nil (i) : Gives iface .nil i none

/-- `Run iface v p a b seen`: running `p` with dynamic type `a` in the variable `v` can end with `b` in it,
after the call was made with the types `seen` in it. -/
inductive Run (iface : String → Bool) (v : String) : Prog → Option String → Option String → List (Option String) → Prop
  | skip (a) : Run iface v .skip a a []
  | seq {p q a b c l m} (hp : Run iface v p a b l) (hq : Run iface v q b c m) : Run iface v (.seq p q) a c (l ++ m)
  | left {p q a b l} (h : Run iface v p a b l) : Run iface v (.ite p q) a b l
  | right {p q a b l} (h : Run iface v q a b l) : Run iface v (.ite p q) a b l
  | done (p a) : Run iface v (.loop p) a a []
  | again {p a b c l m} (hp : Run iface v p a b l) (hq : Run iface v (.loop p) b c m) : Run iface v (.loop p) a c (l ++ m)
  | set {t i b} (a) (h : Gives iface t i b) : Run iface v (.set v t i) a b []
  | other {w} (t i a) (h : w ≠ v) : Run iface v (.set w t i) a a []
  | use (a) : Run iface v .use a a [a]

/-- `Assigns p v t i`: the text of `p` has an assignment to `v` of static type `t`. -/
inductive Assigns (v : String) (t : STy) (i : Nat) : Prog → Prop
  | set : Assigns v t i (.set v t i)
  | seqL {p q} (h : Assigns v t i p) : Assigns v t i (.seq p q)
  | seqR {p q} (h : Assigns v t i q) : Assigns v t i (.seq p q)
  | iteL {p q} (h : Assigns v t i p) : Assigns v t i (.ite p q)
  | iteR {p q} (h : Assigns v t i q) : Assigns v t i (.ite p q)
  | loop {p} (h : Assigns v t i p) : Assigns v t i (.loop p)

/-- The types a document allows. -/
inductive Allows : Doc → String → Prop
  | one (t) : Allows (.one t) t
  | oneOf {ts t} (h : t ∈ ts) : Allows (.oneOf ts) t

/-! ## Proofs -/

theorem mem_record {p : Prog} {v x : String} : (v, x) ∈ p.record ↔ ∃ t i, Assigns v t i p ∧ t.text = x := by
  induction p with
  | skip => simp only [Prog.record, List.not_mem_nil, false_iff]; rintro ⟨t, i, h, _⟩; cases h
  | use => simp only [Prog.record, List.not_mem_nil, false_iff]; rintro ⟨t, i, h, _⟩; cases h
  | set w t i =>
    simp only [Prog.record, List.mem_singleton, Prod.mk.injEq]
    constructor
    · rintro ⟨rfl, rfl⟩; exact ⟨t, i, .set, rfl⟩
    · rintro ⟨t', i', h, rfl⟩; cases h; exact ⟨rfl, rfl⟩
  | seq a b iha ihb =>
    simp only [Prog.record, List.mem_append, iha, ihb]
    constructor
    · rintro (⟨t, i, h, e⟩ | ⟨t, i, h, e⟩)
      · exact ⟨t, i, .seqL h, e⟩
      · exact ⟨t, i, .seqR h, e⟩
    · rintro ⟨t, i, h, e⟩
      cases h with
      | seqL h => exact .inl ⟨t, i, h, e⟩
      | seqR h => exact .inr ⟨t, i, h, e⟩
  | ite a b iha ihb =>
    simp only [Prog.record, List.mem_append, iha, ihb]
    constructor
    · rintro (⟨t, i, h, e⟩ | ⟨t, i, h, e⟩)
      · exact ⟨t, i, .iteL h, e⟩
      · exact ⟨t, i, .iteR h, e⟩
    · rintro ⟨t, i, h, e⟩
      cases h with
      | iteL h => exact .inl ⟨t, i, h, e⟩
      | iteR h => exact .inr ⟨t, i, h, e⟩
  | loop a ih =>
    rw [Prog.record, ih]
    constructor
    · rintro ⟨t, i, h, e⟩; exact ⟨t, i, .loop h, e⟩
    · rintro ⟨t, i, h, e⟩; cases h with | loop h => exact ⟨t, i, h, e⟩

/-- Whatever is in the variable comes from the start or from an assignment. -/
theorem run_from {iface : String → Bool} {v : String} {p : Prog} {a b : Option String} {l : List (Option String)} (h : Run iface v p a b l) :
    ∀ d, d = b ∨ d ∈ l → d = a ∨ ∃ t i, Assigns v t i p ∧ Gives iface t i d := by
  induction h with
  | skip a => rintro d (h | h); exact .inl h; cases h
  | use a => rintro d (h | h); exact .inl h; exact .inl (List.mem_singleton.1 h)
  | done p a => rintro d (h | h); exact .inl h; cases h
  | other t i a h => rintro d (h | h); exact .inl h; cases h
  | set a h => rintro d (rfl | h'); exact .inr ⟨_, _, .set, h⟩; cases h'
  | left h ih => intro d hd; rcases ih d hd with h | ⟨t, i, h, g⟩; exact .inl h; exact .inr ⟨t, i, .iteL h, g⟩
  | right h ih => intro d hd; rcases ih d hd with h | ⟨t, i, h, g⟩; exact .inl h; exact .inr ⟨t, i, .iteR h, g⟩
  | @seq p q a b c l m hp hq ih1 ih2 =>
    have hb : ∀ d, d = b ∨ d ∈ l → d = a ∨ ∃ t i, Assigns v t i (.seq p q) ∧ Gives iface t i d := by
      intro d hd; rcases ih1 d hd with h | ⟨t, i, h, g⟩; exact .inl h; exact .inr ⟨t, i, .seqL h, g⟩
    intro d hd
    rcases hd with h | h
    · rcases ih2 d (.inl h) with h | ⟨t, i, h, g⟩
      · exact hb d (.inl h)
      · exact .inr ⟨t, i, .seqR h, g⟩
    · rcases List.mem_append.1 h with h | h
      · exact hb d (.inr h)
      · rcases ih2 d (.inr h) with h | ⟨t, i, h, g⟩
        · exact hb d (.inl h)
        · exact .inr ⟨t, i, .seqR h, g⟩
  | @again p a b c l m hp hq ih1 ih2 =>
    have hb : ∀ d, d = b ∨ d ∈ l → d = a ∨ ∃ t i, Assigns v t i (.loop p) ∧ Gives iface t i d := by
      intro d hd; rcases ih1 d hd with h | ⟨t, i, h, g⟩; exact .inl h; exact .inr ⟨t, i, .loop h, g⟩
    intro d hd
    rcases hd with h | h
    · rcases ih2 d (.inl h) with h | h
      · exact hb d (.inl h)
      · exact .inr h
    · rcases List.mem_append.1 h with h | h
      · exact hb d (.inr h)
      · rcases ih2 d (.inr h) with h | h
        · exact hb d (.inl h)
        · exact .inr h

/-- The function the call is in: declared under its own name in its package, the only one of that name there. -/
structure Encloses (s : Site) (f : Fn) : Prop where
  mem : f ∈ s.fns
  unique : ∀ g ∈ s.fns, g.pkg = f.pkg → g.name = f.name → g = f
  pkg : s.callerPkg = f.pkg
  name : s.callerName = f.name
  named : f.name ≠ ""

theorem find_enclosing {s : Site} {f : Fn} (h : Encloses s f) : findFn s.fns s.callerPkg s.callerName = some f := by
  obtain ⟨hm, hu, hp, hn, hne⟩ := h
  rw [findFn, hp, hn, if_neg hne]
  cases hf : s.fns.find? (fun g => decide (g.pkg = f.pkg) && decide (g.name = f.name)) with
  | none => exact absurd (List.find?_eq_none.1 hf f hm) (by simp)
  | some g =>
    have h1 := List.find?_some hf
    simp only [Bool.and_eq_true, decide_eq_true_eq] at h1
    rw [hu g (List.mem_of_find?_eq_some hf) h1.1 h1.2]

theorem mem_set {s : Site} {f : Fn} {v orig : String} (h : Encloses s f) (ho : s.iface orig = true) (x : String) :
    x ∈ concreteSet s v orig ↔ (∃ t i, Assigns v t i f.body ∧ t.text = x) ∧ x ≠ "" ∧ s.iface x = false := by
  rw [concreteSet, ho, find_enclosing h]
  simp only [Bool.not_true, Bool.false_eq_true, if_false, mem_sortStrings, mem_dedup, List.mem_filter, List.mem_filterMap, Bool.and_eq_true, decide_eq_true_eq,
    Bool.not_eq_true']
  constructor
  · rintro ⟨⟨⟨w, y⟩, hr, hy⟩, h1, h2⟩
    split at hy <;> cases hy
    next e => exact ⟨mem_record.1 (by rw [← e]; exact hr), h1, h2⟩
  · rintro ⟨hr, h1, h2⟩
    exact ⟨⟨(v, x), mem_record.2 hr, if_pos rfl⟩, h1, h2⟩

theorem set_sorted (s : Site) (v orig : String) : (concreteSet s v orig).Nodup := by
  rw [concreteSet]
  split
  · exact List.nodup_nil
  · split
    · exact List.nodup_nil
    · exact ((isort_perm strLe _).nodup_iff).2 (dedup_nodup _)

theorem set_not_orig {s : Site} {v orig x : String} (ho : s.iface orig = true) (h : x ∈ concreteSet s v orig) : x ≠ "" ∧ s.iface x = false := by
  rw [concreteSet, ho] at h
  simp only [Bool.not_true, Bool.false_eq_true, if_false] at h
  split at h
  · cases h
  · simp only [mem_sortStrings, mem_dedup, List.mem_filter, Bool.and_eq_true, decide_eq_true_eq, Bool.not_eq_true'] at h
    exact h.2

/-- What is documented for an interface variable that is no parameter and is not assigned by the call. -/
theorem document_eq {s : Site} {v orig : String} (ho : s.iface orig = true) (hc : ∀ t ∈ s.onCall, t = "") (hb : s.bound = "") :
    document s v orig = match concreteSet s v orig with
      | [] => .one orig
      | [t] => .one t
      | l => if (l.filter s.hasSchema).length < 2 then .one orig else .oneOf (l.filter s.hasSchema) := by
  have hfind : s.onCall.find? (fun t => decide (t ≠ "")) = none := List.find?_eq_none.2 fun t ht => by simp [hc t ht]
  have hmem := fun x => @set_not_orig s v orig x ho
  have horig : origin s v orig = match concreteSet s v orig with | [t] => t | _ => orig := by
    simp only [origin, hfind, concreteOne, hb]
    match hs : concreteSet s v orig with
    | [] => simp
    | [t] => simp only; rw [if_pos (hmem t (by rw [hs]; exact List.mem_cons_self ..)).1]
    | a :: b :: l => simp
  have hamb : ambiguous s v orig = if (concreteSet s v orig).length < 2 then [] else concreteSet s v orig := rfl
  match hs : concreteSet s v orig with
  | [] =>
    rw [hs] at horig hamb
    simp [document, show origin s v orig = orig from horig, show ambiguous s v orig = [] from hamb]
  | [t] =>
    rw [hs] at horig hamb
    simp [document, show origin s v orig = t from horig, show ambiguous s v orig = [] from hamb]
  | a :: b :: l =>
    rw [hs] at horig hamb
    have hamb : ambiguous s v orig = a :: b :: l := by rw [hamb]; exact if_neg (by simp)
    simp only [document, show origin s v orig = orig from horig, hamb, if_true]
    rw [if_neg (by simp)]

/-- **C100 (partial).**  A body passed in an interface variable of a function is documented as the types it can
hold: in every run of the function, whatever branches and loops are taken, the dynamic type of the variable
when the call is made is the documented type or one of those listed.  The variable is local (at first nil), and
every assignment to it is of a concrete type.  Missing: the cases refuted below. -/
theorem C100_covers_partial (s : Site) (f : Fn) (v orig : String) (hf : Encloses s f)
    (ho : s.iface orig = true) (hc : s.onCall = []) (hb : s.bound = "")
    (hall : ∀ t i, Assigns v t i f.body → ∃ n, t = .one n ∧ n ≠ "" ∧ s.iface n = false ∧ s.hasSchema n = true)
    (b : Option String) (seen : List (Option String)) (hr : Run s.iface v f.body none b seen)
    (d : String) (hd : some d ∈ seen) : Allows (document s v orig) d := by
  rcases run_from hr (some d) (.inr hd) with h | ⟨t, i, ha, hg⟩
  · cases h
  obtain ⟨n, rfl, hn, hi, _⟩ := hall t i ha
  have hdn : d = n := by
    cases hg with
    | concrete _ _ _ => rfl
    | iface _ _ _ h => rw [hi] at h; cases h
  subst hdn
  have hmem : d ∈ concreteSet s v orig := (mem_set hf ho d).2 ⟨⟨_, i, ha, rfl⟩, hn, hi⟩
  rw [document_eq ho (by rw [hc]; exact fun _ h => by cases h) hb]
  have hschema : ∀ x ∈ concreteSet s v orig, s.hasSchema x = true := by
    intro x hx
    obtain ⟨⟨t, j, ha, e⟩, _⟩ := (mem_set hf ho x).1 hx
    obtain ⟨n, rfl, _, _, h⟩ := hall t j ha
    exact e ▸ h
  match hs : concreteSet s v orig with
  | [] => rw [hs] at hmem; cases hmem
  | [x] => rw [hs] at hmem; rw [List.mem_singleton.1 hmem]; exact .one x
  | x :: y :: l =>
    rw [hs] at hmem hschema
    have hfil : (x :: y :: l).filter s.hasSchema = x :: y :: l := List.filter_eq_self.2 hschema
    simp only
    rw [hfil, if_neg (by simp)]
    exact .oneOf hmem

/-- **C100, nothing is invented.**  What is documented is the declared type of the variable or the recorded type of one of
the assignments to it. -/
theorem C100_assigned (s : Site) (f : Fn) (v orig : String) (hf : Encloses s f)
    (ho : s.iface orig = true) (hc : s.onCall = []) (hb : s.bound = "") (d : String) (hd : Allows (document s v orig) d) :
    d = orig ∨ ∃ t i, Assigns v t i f.body ∧ t.text = d ∧ s.iface d = false := by
  rw [document_eq ho (by rw [hc]; exact fun _ h => by cases h) hb] at hd
  have key : ∀ x ∈ concreteSet s v orig, ∃ t i, Assigns v t i f.body ∧ t.text = x ∧ s.iface x = false := by
    intro x hx
    obtain ⟨⟨t, i, h, e⟩, _, h2⟩ := (mem_set hf ho x).1 hx
    exact ⟨t, i, h, e, h2⟩
  match hs : concreteSet s v orig with
  | [] => rw [hs] at hd; cases hd; exact .inl rfl
  | [x] => rw [hs] at hd key; cases hd; exact .inr (key d (List.mem_cons_self ..))
  | x :: y :: l =>
    rw [hs] at hd key
    simp only at hd
    split at hd
    · cases hd; exact .inl rfl
    · cases hd with
      | oneOf h => exact .inr (key d (List.mem_filter.1 h).1)

/-- **C100, one concrete type.**  If all assignments of a concrete type are of the same type, that type is
documented and not the interface. -/
theorem C100_narrowed (s : Site) (f : Fn) (v orig n : String) (hf : Encloses s f)
    (ho : s.iface orig = true) (hc : s.onCall = []) (hb : s.bound = "") (i : Nat) (ha : Assigns v (.one n) i f.body) (hn : n ≠ "") (hi : s.iface n = false)
    (hsame : ∀ t j, Assigns v t j f.body → t = .one n ∨ ∃ m, t = .one m ∧ s.iface m = true) : document s v orig = .one n := by
  rw [document_eq ho (by rw [hc]; exact fun _ h => by cases h) hb]
  have hm : ∀ x, x ∈ concreteSet s v orig ↔ x = n := by
    intro x
    rw [mem_set hf ho]
    constructor
    · rintro ⟨⟨t, j, h, e⟩, _, hx⟩
      rcases hsame t j h with rfl | ⟨m, rfl, hm⟩
      · exact e.symm
      · rw [← e] at hx; exact absurd hm (by rw [show s.iface m = false from hx]; decide)
    · rintro rfl; exact ⟨⟨_, i, ha, rfl⟩, hn, hi⟩
  have hnd := set_sorted s v orig
  match hs : concreteSet s v orig with
  | [] => rw [hs] at hm; exact absurd ((hm n).2 rfl) (by simp)
  | [x] => rw [hs] at hm; simp only; rw [(hm x).1 (List.mem_cons_self ..)]
  | x :: y :: l =>
    rw [hs] at hm hnd
    have h1 := (hm x).1 (by simp)
    have h2 := (hm y).1 (by simp)
    rw [h1, h2] at hnd
    simp at hnd

/-- **C100, several types.**  With assignments of two different types, all the types are listed, each once and
in alphabetical order. -/
theorem C100_listed (s : Site) (f : Fn) (v orig n m : String) (hf : Encloses s f)
    (ho : s.iface orig = true) (hc : s.onCall = []) (hb : s.bound = "")
    (hall : ∀ t i, Assigns v t i f.body → ∃ n, t = .one n ∧ n ≠ "" ∧ s.iface n = false ∧ s.hasSchema n = true)
    (i j : Nat) (hn : Assigns v (.one n) i f.body) (hm : Assigns v (.one m) j f.body) (hne : n ≠ m) :
    ∃ l, document s v orig = .oneOf l ∧ l.Nodup ∧ l.Pairwise (fun a b => a ≤ b) ∧ ∀ x, x ∈ l ↔ ∃ i, Assigns v (.one x) i f.body := by
  have hset : ∀ x, x ∈ concreteSet s v orig ↔ ∃ i, Assigns v (.one x) i f.body := by
    intro x
    rw [mem_set hf ho]
    constructor
    · rintro ⟨⟨t, j, h, e⟩, _⟩
      obtain ⟨k, rfl, _⟩ := hall t j h
      rw [← e]; exact ⟨j, h⟩
    · rintro ⟨i, h⟩
      obtain ⟨k, e, h1, h2, _⟩ := hall _ _ h
      cases e
      exact ⟨⟨_, i, h, rfl⟩, h1, h2⟩
  have hsort : (concreteSet s v orig).Pairwise (fun a b => a ≤ b) := by
    rw [concreteSet]
    split
    · exact .nil
    · split
      · exact .nil
      · exact sortStrings_sorted _
  have hschema : ∀ x ∈ concreteSet s v orig, s.hasSchema x = true := by
    intro x hx
    obtain ⟨i, h⟩ := (hset x).1 hx
    obtain ⟨k, e, _, _, h⟩ := hall _ _ h
    cases e; exact h
  refine ⟨concreteSet s v orig, ?_, set_sorted s v orig, hsort, hset⟩
  rw [document_eq ho (by rw [hc]; exact fun _ h => by cases h) hb]
  have h1 := (hset n).2 ⟨i, hn⟩
  have h2 := (hset m).2 ⟨j, hm⟩
  match hs : concreteSet s v orig with
  | [] => rw [hs] at h1; cases h1
  | [x] => rw [hs] at h1 h2; exact absurd ((List.mem_singleton.1 h1).trans (List.mem_singleton.1 h2).symm) hne
  | x :: y :: l =>
    rw [hs] at hschema
    have hfil : (x :: y :: l).filter s.hasSchema = x :: y :: l := List.filter_eq_self.2 hschema
    simp only
    rw [hfil, if_neg (by simp)]

/-! ## A handler with two kinds of animal -/

/-- `var a Animal; if q { a = Dog{} } else { a = Cat{} }; json.NewEncoder(w).Encode(a)` -/
def demoFn : Fn := ⟨"app", "getAnimal", .seq (.ite (.set "a" (.one "app.Dog") 0) (.set "a" (.one "app.Cat") 0)) .use⟩
def demoIface (t : String) : Bool := decide (t = "app.Animal")
def demoSite (f : Fn) : Site := ⟨[f], demoIface, f.pkg, f.name, [], "", fun _ => true⟩

theorem demo_encloses (f : Fn) (h : f.name ≠ "") : Encloses (demoSite f) f :=
  ⟨List.mem_cons_self .., fun g hg _ _ => List.mem_singleton.1 hg, rfl, rfl, h⟩

theorem demo_assigns : ∀ t i, Assigns "a" t i demoFn.body → t = .one "app.Dog" ∨ t = .one "app.Cat" := by
  intro t i h
  cases h with
  | seqL h => cases h with
    | iteL h => cases h; exact .inl rfl
    | iteR h => cases h; exact .inr rfl
  | seqR h => cases h

example : document (demoSite demoFn) "a" "app.Animal" = .oneOf ["app.Cat", "app.Dog"] := by decide +kernel

example : ∃ seen, some "app.Dog" ∈ seen ∧ Run demoIface "a" demoFn.body none (some "app.Dog") seen ∧ Allows (document (demoSite demoFn) "a" "app.Animal") "app.Dog" := by
  have hr : Run demoIface "a" demoFn.body none (some "app.Dog") ([] ++ [some "app.Dog"]) :=
    .seq (.left (.set none (.concrete _ _ rfl))) (.use _)
  refine ⟨_, List.mem_cons_self .., hr, ?_⟩
  exact C100_covers_partial (demoSite demoFn) demoFn "a" "app.Animal" (demo_encloses _ (by decide)) rfl rfl rfl
    (fun t i h => by rcases demo_assigns t i h with rfl | rfl <;> exact ⟨_, rfl, by decide, rfl, rfl⟩) _ _ hr _ (List.mem_cons_self ..)

example : ∃ l, document (demoSite demoFn) "a" "app.Animal" = .oneOf l ∧ l.Nodup ∧ l.Pairwise (fun a b => a ≤ b) ∧ ∀ x, x ∈ l ↔ ∃ i, Assigns "a" (.one x) i demoFn.body :=
  C100_listed (demoSite demoFn) demoFn "a" "app.Animal" "app.Dog" "app.Cat" (demo_encloses _ (by decide)) rfl rfl rfl
    (fun t i h => by rcases demo_assigns t i h with rfl | rfl <;> exact ⟨_, rfl, by decide, rfl, rfl⟩) 0 0 (.seqL (.iteL .set)) (.seqL (.iteR .set)) (by decide)

/-! ## Where it fails -/

/-- `var a Animal = Dog{}; if q { a = load() }; Encode(a)` with `func load() Animal`. -/
def loadFn : Fn := ⟨"app", "getAnimal", .seq (.set "a" (.one "app.Dog") 0) (.seq (.ite (.set "a" (.one "app.Animal") 0) .skip) .use)⟩

/-- **C100 fails for assignments of an interface type**: they are passed over, so a variable that also takes the
result of `load() Animal` is documented as a `Dog`, and a run sends a `Cat`. -/
theorem C100_interface_assignment : document (demoSite loadFn) "a" "app.Animal" = .one "app.Dog" ∧
    ∃ b seen, Run demoIface "a" loadFn.body none b seen ∧ some "app.Cat" ∈ seen :=
  ⟨by decide +kernel, _, [] ++ ([] ++ [some "app.Cat"]), .seq (.set none (.concrete _ _ rfl)) (.seq (.left (.set _ (.iface "app.Animal" 0 (some "app.Cat") rfl))) (.use _)), List.mem_cons_self ..⟩

/-- `a, err := load(); Encode(a)` with `func load() (Animal, error)`. -/
def pairFn : Fn := ⟨"app", "getAnimal", .seq (.seq (.set "a" (.tuple ["app.Animal", "error"]) 0) (.set "err" (.tuple ["app.Animal", "error"]) 1)) .use⟩

/-- **C100 fails for calls of several results**: the type recorded is that of the whole call, and the body is
documented as `(app.Animal, error)`. -/
theorem C100_tuple : document (demoSite pairFn) "a" "app.Animal" = .one "(app.Animal, error)" := by decide +kernel

/-- `var a Animal = Dog{}; if q { a = nil }; Encode(a)` -/
def nilFn : Fn := ⟨"app", "getAnimal", .seq (.set "a" (.one "app.Dog") 0) (.seq (.ite (.set "a" .nil 0) .skip) .use)⟩

/-- **C100 fails for nil**: it is listed as a type of its own. -/
theorem C100_nil : document (demoSite nilFn) "a" "app.Animal" = .oneOf ["app.Dog", "untyped nil"] := by decide +kernel

/-- **C100 fails for methods**: the assignments of a method are not found.  The interface is documented; if
another package declares a function of the same name, the types assigned there are. -/
theorem C100_method (s : Site) (v orig : String) (ho : s.iface orig = true) (hc : s.onCall = []) (hb : s.bound = "")
    (hno : ∀ f ∈ s.fns, f.name ≠ s.callerName) : document s v orig = .one orig := by
  rw [document_eq ho (by rw [hc]; exact fun _ h => by cases h) hb]
  have : concreteSet s v orig = [] := by
    have hfn : findFn s.fns s.callerPkg s.callerName = none := by
      rw [findFn]
      split
      · rfl
      · rw [List.find?_eq_none.2 (fun f hf => by simp [hno f hf])]
        exact List.find?_eq_none.2 (fun f hf => by simp [hno f hf])
    rw [concreteSet, ho, hfn]; rfl
  rw [this]

/-- The method `getAnimal` of a type in package `web`, where the variable holds a `Cat`; package `app` has the function above. -/
theorem C100_foreign_function : document { demoSite loadFn with callerPkg := "web" } "a" "app.Animal" = .one "app.Dog" := by decide +kernel

/-- **C100 fails for `any`**: only interfaces declared in the analyzed packages are looked into.  A variable of
type `any` (or `interface{}`, or an interface of a library) is documented as that, whatever is assigned to it. -/
theorem C100_any (s : Site) (v orig : String) (ho : s.iface orig = false) (hc : s.onCall = []) : document s v orig = .one orig := by
  have hs : concreteSet s v orig = [] := by rw [concreteSet, ho]; rfl
  have h1 : origin s v orig = orig := by simp [origin, hc, concreteOne, hs, ho]
  simp [document, h1, ambiguous, hs]

/-- `var v any = Dog{}; Encode(v)` -/
def anyFn : Fn := ⟨"app", "getAnimal", .seq (.set "v" (.one "app.Dog") 0) .use⟩
example : document (demoSite anyFn) "v" "any" = .one "any" ∧ Run (fun t => decide (t = "any")) "v" anyFn.body none (some "app.Dog") ([] ++ [some "app.Dog"]) :=
  ⟨C100_any _ _ _ rfl rfl, .seq (.set none (.concrete _ _ rfl)) (.use _)⟩

/-- `var a Animal = Dog{}; Encode(a); a = Cat{}` -/
def lateFn : Fn := ⟨"app", "getAnimal", .seq (.set "a" (.one "app.Dog") 0) (.seq .use (.set "a" (.one "app.Cat") 0))⟩

/-- **C100 fails for assignments after the call**: they are listed, although no run sends them. -/
theorem C100_after_call : document (demoSite lateFn) "a" "app.Animal" = .oneOf ["app.Cat", "app.Dog"] ∧
    ∀ b seen, Run demoIface "a" lateFn.body none b seen → some "app.Cat" ∉ seen := by
  refine ⟨by decide +kernel, fun b seen h hm => ?_⟩
  cases h with
  | seq h1 h2 =>
    cases h1 with
    | other _ _ _ h => exact h rfl
    | set _ g =>
      cases g with
      | iface _ _ _ h => exact absurd h (by decide)
      | concrete =>
        cases h2 with
        | seq h3 h4 =>
          cases h3
          cases h4 with
          | other _ _ _ h => exact h rfl
          | set _ g => simp at hm

end Verif.BodyType
