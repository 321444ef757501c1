import Verif.WrapperModel

/-!
# C84: which arguments count as supplied by the caller

`indexOf` decides whether an argument of a registration "comes from" a parameter of
the enclosing method.  This file says exactly when it does.
-/

namespace Verif.Wrappers
open Verif.Common

/-! ## Specification -/

/-- `x` is a name that occurs in `e`, at most `d` levels deep. -/
inductive Occurs : Nat → Expr → String → Prop where
  | here (d : Nat) (x : String) (ks : List Expr) : x ≠ "" → Occurs (d + 1) (.node x ks) x
  | inside (d : Nat) (n x : String) (ks : List Expr) (k : Expr) : k ∈ ks → Occurs d k x → Occurs (d + 1) (.node n ks) x

/-- `x` occurs in `e`, or in a value assigned to a name that does, and so on through
at most `n` assignments; `sets y v` says that `v` is assigned to `y`. -/
inductive Reaches (sets : String → Expr → Prop) : Nat → Expr → String → Prop where
  | occurs (n : Nat) (e : Expr) (x : String) : Occurs 6 e x → Reaches sets n e x
  | assigned (n : Nat) (e v : Expr) (y x : String) : Occurs 6 e y → sets y v → Reaches sets n v x → Reaches sets (n + 1) e x

/-- One method of one name per type, and no function of the name of a method. -/
structure Declared (P : Prog) : Prop where
  unique : ∀ m ∈ P.meths, ∀ m' ∈ P.meths, m.id = m'.id → m = m'
  apart : ∀ m ∈ P.meths, ∀ f ∈ P.funcs, f.name ≠ m.id.name

/-! ## Helper lemmas -/

mutual
theorem mem_idents : ∀ (d : Nat) (e : Expr) (x : String), x ∈ idents d e ↔ Occurs d e x
  | 0, _, x => by
    constructor
    · intro h; simp only [idents, List.not_mem_nil] at h
    · intro h; cases h
  | d + 1, .node n ks, x => by
    have ih := mem_identsAll d ks x
    simp only [idents, List.mem_append]
    rw [ih]
    constructor
    · rintro (h | ⟨k, hk, ho⟩)
      · by_cases hn : n = ""
        · simp [hn] at h
        · simp [hn] at h
          subst h
          exact .here d x ks hn
      · exact .inside d n x ks k hk ho
    · intro h
      cases h with
      | here _ _ _ hx => exact .inl (by simp [hx])
      | inside _ _ _ _ k hk ho => exact .inr ⟨k, hk, ho⟩
theorem mem_identsAll : ∀ (d : Nat) (ks : List Expr) (x : String), x ∈ identsAll d ks ↔ ∃ k ∈ ks, Occurs d k x
  | d, [], x => by simp [identsAll]
  | d, k :: ks, x => by
    have h1 := mem_idents d k x
    have h2 := mem_identsAll d ks x
    simp only [identsAll, List.mem_append]
    rw [h1, h2]
    constructor
    · rintro (h | ⟨k', hk, h⟩)
      · exact ⟨k, .head _, h⟩
      · exact ⟨k', .tail _ hk, h⟩
    · rintro ⟨k', hk, h⟩
      cases hk with
      | head => exact .inl h
      | tail _ hk => exact .inr ⟨k', hk, h⟩
end

theorem occurs_ne {d : Nat} {e : Expr} {x : String} (h : Occurs d e x) : x ≠ "" := by
  induction h with
  | here _ _ _ h => exact h
  | inside _ _ _ _ _ _ _ ih => exact ih

theorem matchParam_some {params : List String} : ∀ {names : List String} {i : Nat}, matchParam params names = some i →
    ∃ x ∈ names, params[i]? = some x
  | [], i, h => by simp [matchParam] at h
  | n :: ns, i, h => by
    unfold matchParam at h
    split at h
    · obtain ⟨x, hx, e⟩ := matchParam_some h
      exact ⟨x, .tail _ hx, e⟩
    · split at h
      · rename_i j hj
        cases h
        rw [List.findIdx?_eq_some_iff_getElem] at hj
        obtain ⟨hlt, hp, _⟩ := hj
        have : params[i] = n := by simpa using hp
        exact ⟨n, .head _, by rw [List.getElem?_eq_getElem hlt, this]⟩
      · obtain ⟨x, hx, e⟩ := matchParam_some h
        exact ⟨x, .tail _ hx, e⟩

theorem matchParam_none {params : List String} : ∀ {names : List String}, matchParam params names = none →
    ∀ x ∈ names, x ≠ "" → x ∉ params
  | [], _, x, hx, _ => by simp at hx
  | n :: ns, h, x, hx, hne => by
    unfold matchParam at h
    split at h
    · rename_i hn
      cases hx with
      | head => exact absurd hn hne
      | tail _ hx => exact matchParam_none h x hx hne
    · split at h
      · cases h
      · rename_i hj
        cases hx with
        | head =>
          rw [List.findIdx?_eq_none_iff] at hj
          intro hc
          simpa using hj _ hc
        | tail _ hx => exact matchParam_none h x hx hne

/-- As `Reaches`, from a name. -/
inductive From (asg : String → List Expr) : Nat → String → String → Prop where
  | same (x : String) : x ≠ "" → From asg 0 x x
  | next (n : Nat) (y z x : String) (v : Expr) : y ≠ "" → v ∈ asg y → z ∈ idents 6 v → From asg n z x → From asg (n + 1) y x

theorem hop_next (asg : String → List Expr) : ∀ (names seen : List String) (z : String), z ∈ (hop asg names seen).1 →
    ∃ y ∈ names, y ≠ "" ∧ ∃ v ∈ asg y, z ∈ idents 6 v
  | [], seen, z, h => by simp [hop] at h
  | n :: ns, seen, z, h => by
    unfold hop at h
    split at h
    · obtain ⟨y, hy, r⟩ := hop_next asg ns seen z h
      exact ⟨y, .tail _ hy, r⟩
    · rename_i hn
      simp only [List.mem_append, List.mem_flatMap] at h
      rcases h with ⟨v, hv, hz⟩ | h
      · exact ⟨n, .head _, fun e => hn (.inl e), v, hv, hz⟩
      · obtain ⟨y, hy, r⟩ := hop_next asg ns (n :: seen) z h
        exact ⟨y, .tail _ hy, r⟩

theorem hop_all (asg : String → List Expr) : ∀ (names seen : List String) (y z : String) (v : Expr), y ∈ names → y ≠ "" →
    y ∉ seen → v ∈ asg y → z ∈ idents 6 v → z ∈ (hop asg names seen).1
  | [], seen, y, z, v, h, _, _, _, _ => by simp at h
  | n :: ns, seen, y, z, v, h, hne, hs, hv, hz => by
    unfold hop
    by_cases hyn : y = n
    · subst hyn
      rw [if_neg (by rintro (e | e); exact hne e; exact hs e)]
      simp only [List.mem_append, List.mem_flatMap]
      exact .inl ⟨v, hv, hz⟩
    · have hy : y ∈ ns := by cases h with | head => exact absurd rfl hyn | tail _ h => exact h
      split
      · exact hop_all asg ns seen y z v hy hne hs hv hz
      · simp only [List.mem_append]
        exact .inr (hop_all asg ns (n :: seen) y z v hy hne (by
          intro h
          cases h with
          | head => exact hyn rfl
          | tail _ h => exact hs h) hv hz)

theorem hop_seen (asg : String → List Expr) : ∀ (names seen : List String) (s : String), s ∈ (hop asg names seen).2 →
    s ∈ seen ∨ (s ∈ names ∧ s ≠ "")
  | [], seen, s, h => .inl h
  | n :: ns, seen, s, h => by
    unfold hop at h
    split at h
    · rcases hop_seen asg ns seen s h with h | ⟨h, e⟩
      · exact .inl h
      · exact .inr ⟨.tail _ h, e⟩
    · rename_i hn
      rcases hop_seen asg ns (n :: seen) s h with h | ⟨h, e⟩
      · cases h with
        | head => exact .inr ⟨.head _, fun e => hn (.inl e)⟩
        | tail _ h => exact .inl h
      · exact .inr ⟨.tail _ h, e⟩

theorem hops_sound {params : List String} {asg : String → List Expr} : ∀ (left : Nat) (names seen : List String) (i : Nat),
    "" ∉ names → hops params asg left names seen = some i →
    ∃ y ∈ names, ∃ n x, n < left ∧ From asg n y x ∧ params[i]? = some x
  | 0, names, seen, i, _, h => by simp [hops] at h
  | left + 1, names, seen, i, hne, h => by
    unfold hops at h
    split at h
    · rename_i j hj
      cases h
      obtain ⟨x, hx, e⟩ := matchParam_some hj
      exact ⟨x, hx, 0, x, by omega, .same x (fun c => hne (c ▸ hx)), e⟩
    · obtain ⟨y, hy, n, x, hn, hf, e⟩ := hops_sound left _ _ i (by
        intro hc
        obtain ⟨_, _, _, v, _, hz⟩ := hop_next asg names seen _ hc
        exact occurs_ne ((mem_idents 6 v _).mp hz) rfl) h
      obtain ⟨y0, hy0, hne0, v, hv, hz⟩ := hop_next asg names seen y hy
      exact ⟨y0, hy0, n + 1, x, by omega, .next n y0 y x v hne0 hv hz hf, e⟩

/-- What has been seen leads no further than what is still to be looked at. -/
def Covered (params : List String) (asg : String → List Expr) (names seen : List String) : Prop :=
  ∀ s ∈ seen, s ≠ "" → ∀ v ∈ asg s, ∀ z ∈ idents 6 v, ∀ k x, x ∈ params → From asg k z x →
    ∃ y ∈ names, ∃ k', k' ≤ k ∧ From asg k' y x

theorem hop_progress {params : List String} {asg : String → List Expr} {names seen : List String}
    (hc : Covered params asg names seen) (hnone : ∀ x ∈ names, x ≠ "" → x ∉ params) : ∀ (k : Nat) (y x : String),
    y ∈ names → x ∈ params → From asg k y x → ∃ y' ∈ (hop asg names seen).1, ∃ k', k' + 1 ≤ k ∧ From asg k' y' x := by
  intro k
  induction k using Nat.strongRecOn with
  | ind k ih =>
    intro y x hy hx hf
    cases hf with
    | same _ hne => exact absurd hx (hnone _ hy hne)
    | next n _ z _ v hne hv hz hf =>
      by_cases hs : y ∈ seen
      · obtain ⟨y', hy', k', hk', hf'⟩ := hc y hs hne v hv z hz n x hx hf
        obtain ⟨y'', hy'', k'', hk'', hf''⟩ := ih k' (by omega) y' x hy' hx hf'
        exact ⟨y'', hy'', k'', by omega, hf''⟩
      · exact ⟨z, hop_all asg names seen y z v hy hne hs hv hz, n, by omega, hf⟩

theorem hops_complete {params : List String} {asg : String → List Expr} : ∀ (left : Nat) (names seen : List String),
    Covered params asg names seen → ∀ (k : Nat) (y x : String), k < left → y ∈ names → x ∈ params → From asg k y x →
    ∃ i, hops params asg left names seen = some i
  | 0, _, _, _, _, _, _, h, _, _, _ => absurd h (Nat.not_lt_zero _)
  | left + 1, names, seen, hc, k, y, x, hk, hy, hx, hf => by
    unfold hops
    split
    · exact ⟨_, rfl⟩
    · rename_i hnone
      have hnone := matchParam_none hnone
      obtain ⟨y', hy', k', hk', hf'⟩ := hop_progress hc hnone k y x hy hx hf
      refine hops_complete left _ _ ?_ k' y' x (by omega) hy' hx hf'
      intro s hs hne v hv z hz j x' hx' hfz
      have hreach : ∃ y ∈ names, ∃ j', j' ≤ j + 1 ∧ From asg j' y x' := by
        rcases hop_seen asg names seen s hs with h | ⟨h, _⟩
        · obtain ⟨y, hy, j', hj', h⟩ := hc s h hne v hv z hz j x' hx' hfz
          exact ⟨y, hy, j', by omega, h⟩
        · exact ⟨s, h, j + 1, Nat.le_refl _, .next j s z x' v hne hv hz hfz⟩
      obtain ⟨y, hy, j', hj', h⟩ := hreach
      obtain ⟨y', hy', j'', hj'', h⟩ := hop_progress hc hnone j' y x' hy hx' h
      exact ⟨y', hy', j'', by omega, h⟩

theorem reaches_of_from {asg : String → List Expr} {n : Nat} {e : Expr} {y x : String} (hy : Occurs 6 e y)
    (h : From asg n y x) : Reaches (fun a v => v ∈ asg a) n e x := by
  induction h generalizing e with
  | same _ _ => exact .occurs _ _ _ hy
  | next n y z x v _ hv hz _ ih => exact .assigned _ _ v y x hy hv (ih ((mem_idents 6 v z).mp hz))

theorem from_of_reaches {asg : String → List Expr} {n : Nat} {e : Expr} {x : String}
    (h : Reaches (fun a v => v ∈ asg a) n e x) : ∃ y k, k ≤ n ∧ Occurs 6 e y ∧ From asg k y x := by
  induction h with
  | occurs n e x h => exact ⟨x, 0, Nat.zero_le _, h, .same x (occurs_ne h)⟩
  | assigned n e v y x hy hv _ ih =>
    obtain ⟨z, k, hk, hz, hf⟩ := ih
    exact ⟨y, k + 1, by omega, hy, .next k y z x v (occurs_ne hy) hv ((mem_idents 6 v z).mpr hz) hf⟩

theorem reaches_mono {s t : String → Expr → Prop} (hst : ∀ y v, s y v → t y v) {n : Nat} {e : Expr} {x : String}
    (h : Reaches s n e x) : Reaches t n e x := by
  induction h with
  | occurs n e x h => exact .occurs n e x h
  | assigned n e v y x hy hv _ ih => exact .assigned n e v y x hy (hst y v hv) ih

theorem methodOf_eq {P : Prog} (hu : Declared P) {m : Meth} (hm : m ∈ P.meths) : methodOf P m.id = some m := by
  unfold methodOf
  cases h : P.meths.find? (fun x => x.id == m.id) with
  | none =>
    rw [List.find?_eq_none] at h
    simpa using h m hm
  | some x =>
    have := List.find?_some h
    have hx := List.mem_of_find?_eq_some h
    rw [hu.unique x hx m hm (by simpa using this)]

theorem paramsOf_eq {P : Prog} (hu : Declared P) {m : Meth} (hm : m ∈ P.meths) :
    paramsOf P m.id = m.params.map (·.1) := by
  unfold paramsOf
  rw [methodOf_eq hu hm]

theorem mem_assigned (as : List (String × Expr)) (x : String) (v : Expr) : v ∈ assigned as x ↔ (x, v) ∈ as := by
  unfold assigned
  simp only [List.mem_map, List.mem_filter]
  constructor
  · rintro ⟨⟨y, w⟩, ⟨h, e⟩, rfl⟩
    have e : y = x := by simpa using e
    subst e
    exact h
  · exact fun h => ⟨(x, v), ⟨h, by simp⟩, rfl⟩

theorem mem_assignmentsOf {P : Prog} (hu : Declared P) {m : Meth} (hm : m ∈ P.meths) (x : String) (v : Expr) :
    v ∈ assignmentsOf P m.id x ↔ (x, v) ∈ m.assigns := by
  have hf : findFunc P m.id.pkg m.id.name = none := by
    unfold findFunc
    split
    · rename_i f h
      have h1 := List.find?_some h
      have h2 := List.mem_of_find?_eq_some h
      simp only [Bool.and_eq_true, beq_iff_eq] at h1
      exact absurd h1.2 (hu.apart m hm f h2)
    · rw [List.find?_eq_none]
      intro f h c
      exact hu.apart m hm f h (by simpa using c)
  unfold assignmentsOf
  rw [methodOf_eq hu hm, hf]
  simp only
  split
  · rename_i h
    rw [← mem_assigned]
    simp only [List.isEmpty_iff] at h
    rw [h]
  · exact mem_assigned _ _ _

theorem indexOf_sound {P : Prog} (hu : Declared P) {m : Meth} (hm : m ∈ P.meths) {a : Expr} {i : Nat}
    (h : indexOf P m.id (some a) = some i) :
    ∃ x k, m.params[i]? = some (x, k) ∧ Reaches (fun y v => (y, v) ∈ m.assigns) 3 a x := by
  unfold indexOf at h
  simp only at h
  split at h
  · cases h
  · obtain ⟨y, hy, n, x, hn, hf, e⟩ := hops_sound _ _ _ _ (by
      intro hc; exact occurs_ne ((mem_idents 6 a _).mp hc) rfl) h
    rw [paramsOf_eq hu hm, List.getElem?_map] at e
    cases hp : m.params[i]? with
    | none => rw [hp] at e; cases e
    | some p =>
      rw [hp] at e
      cases e
      obtain ⟨y', k', hk', hy', hf'⟩ : ∃ y k, k ≤ 3 ∧ Occurs 6 a y ∧ From (assignmentsOf P m.id) k y p.1 :=
        ⟨y, n, by omega, (mem_idents 6 a y).mp hy, hf⟩
      have hr := reaches_of_from hy' hf'
      have hr3 : Reaches (fun y v => v ∈ assignmentsOf P m.id y) 3 a p.1 := by
        have mono : ∀ {n : Nat} {e : Expr} {x : String}, Reaches (fun y v => v ∈ assignmentsOf P m.id y) n e x →
            ∀ n', n ≤ n' → Reaches (fun y v => v ∈ assignmentsOf P m.id y) n' e x := by
          intro n e x h
          induction h with
          | occurs n e x h => exact fun n' _ => .occurs n' e x h
          | assigned n e v y x hy hv _ ih =>
            intro n' hn'
            cases n' with
            | zero => omega
            | succ n' => exact .assigned n' e v y x hy hv (ih n' (by omega))
        exact mono hr 3 hk'
      exact ⟨p.1, p.2, rfl, reaches_mono (fun y v hv => (mem_assignmentsOf hu hm y v).mp hv) hr3⟩

theorem indexOf_complete {P : Prog} (hu : Declared P) {m : Meth} (hm : m ∈ P.meths) {a : Expr} {x : String} {k : Kind}
    (hx : (x, k) ∈ m.params) (h : Reaches (fun y v => (y, v) ∈ m.assigns) 3 a x) :
    ∃ i, indexOf P m.id (some a) = some i := by
  have hp : x ∈ paramsOf P m.id := by
    rw [paramsOf_eq hu hm]
    exact List.mem_map.mpr ⟨(x, k), hx, rfl⟩
  unfold indexOf
  simp only
  rw [if_neg (by
    intro c
    simp only [List.isEmpty_iff] at c
    rw [c] at hp
    cases hp)]
  obtain ⟨y, j, hj, hy, hf⟩ := from_of_reaches (reaches_mono (fun y v hv => (mem_assignmentsOf hu hm y v).mpr hv) h)
  exact hops_complete 4 _ _ (fun s hs => by cases hs) j y x (by omega) ((mem_idents 6 a y).mpr hy) hp hf

/-! ## Theorems -/

/-- **C84.** An argument counts as supplied by the caller exactly when it mentions a
parameter of the method, or a variable to which, through at most three assignments,
something that mentions a parameter is assigned.  Otherwise the method made the value
up itself. -/
theorem C84_supplied_iff {P : Prog} (hu : Declared P) {m : Meth} (hm : m ∈ P.meths) (a : Expr) :
    (∃ i, indexOf P m.id (some a) = some i) ↔
      ∃ x k, (x, k) ∈ m.params ∧ Reaches (fun y v => (y, v) ∈ m.assigns) 3 a x := by
  constructor
  · rintro ⟨i, h⟩
    obtain ⟨x, k, hp, hr⟩ := indexOf_sound hu hm h
    exact ⟨x, k, List.mem_of_getElem? hp, hr⟩
  · rintro ⟨x, k, hx, hr⟩
    exact indexOf_complete hu hm hx hr

/-- **C84.** The position reported is that of such a parameter. -/
theorem C84_supplied_position {P : Prog} (hu : Declared P) {m : Meth} (hm : m ∈ P.meths) {a : Expr} {i : Nat}
    (h : indexOf P m.id (some a) = some i) :
    ∃ x k, m.params[i]? = some (x, k) ∧ Reaches (fun y v => (y, v) ∈ m.assigns) 3 a x :=
  indexOf_sound hu hm h

/-- **C84.** A parameter handed over as it is is found at its own position. -/
theorem C84_supplied_plain {P : Prog} (hu : Declared P) {m : Meth} (hm : m ∈ P.meths) {i : Nat} {x : String} {k : Kind}
    (hx : m.params[i]? = some (x, k)) (hne : x ≠ "") (hone : ∀ i' k', m.params[i']? = some (x, k') → i' = i) :
    indexOf P m.id (some (.node x [])) = some i := by
  have hid : idents 6 (.node x []) = [x] := by simp [idents, identsAll, hne]
  have hp : paramsOf P m.id = m.params.map (·.1) := paramsOf_eq hu hm
  obtain ⟨hlt, hget⟩ := List.getElem?_eq_some_iff.mp hx
  have hfi : (m.params.map (·.1)).findIdx? (· == x) = some i := by
    rw [List.findIdx?_eq_some_iff_getElem]
    refine ⟨by simpa using hlt, by simp [hget], ?_⟩
    intro j hj
    have hjl : j < m.params.length := Nat.lt_trans hj hlt
    simp only [List.getElem_map, beq_iff_eq]
    intro c
    have := hone j (m.params[j]).2 (by rw [List.getElem?_eq_getElem hjl, ← c])
    omega
  unfold indexOf
  simp only [hid, hp]
  rw [if_neg (by
    intro c
    simp only [List.isEmpty_iff, List.map_eq_nil_iff] at c
    rw [c] at hlt
    simp at hlt)]
  show (match matchParam (m.params.map (·.1)) [x] with
    | some i => some i
    | none => _) = some i
  have : matchParam (m.params.map (·.1)) [x] = some i := by
    simp only [matchParam, if_neg hne, hfi]
  rw [this]

/-- `func (r *Router) Get(pattern string, h ...any)`: `r.mux.Get(r.getPattern(pattern),
handlerFunc)` after `fn := h[len(h)-1]` and `handlerFunc = fn`. -/
def getMeth : Meth :=
  { id := ⟨"app/web", "Router", "Get"⟩
    params := [("pattern", .string), ("h", .other)]
    assigns := [("fn", .node "" [.id "h", .node "" [.id "len", .id "h"]]), ("handlerFunc", .id "fn")] }

def getProg : Prog := { module := "app", meths := [getMeth], edges := [] }

theorem getProg_declared : Declared getProg where
  unique := by
    intro m hm m' hm' _
    simp only [getProg, List.mem_singleton] at hm hm'
    rw [hm, hm']
  apart := by intro m _ f hf; simp [getProg] at hf

example : indexOf getProg getMeth.id (some (.node "" [.node "" [.id "r", .id "getPattern"], .id "pattern"])) = some 0 := by
  decide +kernel
example : indexOf getProg getMeth.id (some (.id "handlerFunc")) = some 1 := by decide +kernel
example : indexOf getProg getMeth.id (some .lit) = none := by decide +kernel
example : Reaches (fun y v => (y, v) ∈ getMeth.assigns) 3 (.id "handlerFunc") "h" :=
  .assigned 2 _ (.id "fn") "handlerFunc" "h" (.here _ _ _ (by decide)) (by simp [getMeth])
    (.assigned 1 _ (.node "" [.id "h", .node "" [.id "len", .id "h"]]) "fn" "h" (.here _ _ _ (by decide)) (by simp [getMeth])
      (.occurs _ _ _ (.inside _ _ _ _ (.id "h") (by simp) (.here _ _ _ (by decide)))))

/-- **C84.** Mentioning is not forwarding.  Arguments built from several names count
for the first of them: with the parameters `flag, pattern`, `choose(flag, pattern)`
reports `flag`; with a parameter `list`, the method value `s.list` of the method's own
receiver counts as supplied by the caller. -/
theorem C84_mention_wrong :
    (let m : Meth := { id := ⟨"app", "R", "Add"⟩, params := [("flag", .other), ("pattern", .string)] }
     indexOf { module := "app", meths := [m], edges := [] } m.id
      (some (.node "" [.id "choose", .id "flag", .id "pattern"])) = some 0) ∧
    (let m : Meth := { id := ⟨"app", "S", "Routes"⟩, params := [("list", .other)] }
     indexOf { module := "app", meths := [m], edges := [] } m.id (some (.node "" [.id "s", .id "list"])) = some 0) := by
  decide +kernel

/-- **C84.** When the method assigns nothing to a name, the assignments of any function
that bears the name of the method are used: one in another package makes a fixed path
count as supplied by the caller. -/
theorem C84_other_function_wrong :
    (let m : Meth := { id := ⟨"app", "Server", "Handle"⟩, params := [("pattern", .string)] }
     let P : Prog := { module := "app", meths := [m], edges := [] }
     let arg : Expr := .node "" [.id "paths", .id "Users"]
     indexOf P m.id (some arg) = none ∧
     indexOf { P with funcs := [⟨"app/other", "Handle", [("paths", .id "pattern")]⟩] } m.id (some arg) = some 0) := by
  decide +kernel

/-- **C84.** Four assignments are too many: a parameter that reaches the registration
through four local variables is not seen. -/
theorem C84_far_lost :
    (let m : Meth :=
      { id := ⟨"app", "R", "Get"⟩
        params := [("p", .string)]
        assigns := [("a", .id "p"), ("b", .id "a"), ("c", .id "b"), ("d", .id "c")] }
     let P : Prog := { module := "app", meths := [m], edges := [] }
     indexOf P m.id (some (.id "c")) = some 0 ∧ indexOf P m.id (some (.id "d")) = none) := by
  decide +kernel

end Verif.Wrappers
