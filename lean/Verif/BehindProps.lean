import Verif.BehindModel
/-!
# C125: the interface shown behind a call is one that the type implements
-/

namespace Verif.Behind

/-! ### Specification -/

/-- A name of Go. -/
def Ident (t : Text) : Prop := t ≠ [] ∧ '.' ∉ t ∧ '*' ∉ t ∧ ∀ c ∈ t, c.isWhitespace = false

/-- What is recorded: types have names and packages, no two have both the same, and interfaces are implemented by
qualified names. -/
structure Recorded (ts : List Ty) : Prop where
  name : ∀ t ∈ ts, Ident t.name
  pkg : ∀ t ∈ ts, t.pkg ≠ []
  one : ∀ t ∈ ts, ∀ u ∈ ts, t.pkg = u.pkg → t.name = u.name → t = u
  qualified : ∀ t ∈ ts, ∀ q ∈ t.implements_, ∃ p n, Ident n ∧ q = p ++ ['.'] ++ n

/-- The interface is recorded under this qualified name. -/
def At (ts : List Ty) (q : Text) (i : Ty) : Prop := i ∈ ts ∧ q = i.pkg ++ ['.'] ++ i.name

/-- The receiver of a call: the name of the type, or a pointer to it. -/
def Receiver (recv : Text) (t : Ty) : Prop := recv = t.name ∨ recv = '*' :: t.name

/-! ### Lemmas -/

theorem split_dot (a b x y : Text) (hx : '.' ∉ x) (hy : '.' ∉ y) (h : a ++ '.' :: x = b ++ '.' :: y) : a = b ∧ x = y := by
  rcases List.append_eq_append_iff.1 h with ⟨c, e1, e2⟩ | ⟨c, e1, e2⟩
  · cases c with
    | nil => simp at e1 e2; exact ⟨e1.symm, e2⟩
    | cons z c =>
      simp only [List.cons_append, List.cons.injEq] at e2
      rw [e2.2] at hx; simp at hx
  · cases c with
    | nil => simp at e1 e2; exact ⟨e1, e2.symm⟩
    | cons z c =>
      simp only [List.cons_append, List.cons.injEq] at e2
      rw [e2.2] at hy; simp at hy

theorem look_cons (m : Index) (k k' : Text) (t : Ty) : look ((k', t) :: m) k = if k' = k then some t else look m k := by
  unfold look
  by_cases h : k' = k
  · rw [List.find?_cons_of_pos (by simpa using h), if_pos h]; rfl
  · rw [List.find?_cons_of_neg (by simpa using h), if_neg h]

/-- Adding a type, at a name without dots. -/
theorem look_bare (m : Index) (t : Ty) (ht : Ident t.name) (k : Text) (hk : '.' ∉ k) :
    look (add m t) k = (look m k).or (if t.name = k then some t else none) := by
  have hq : t.pkg ++ '.' :: t.name ≠ k := fun e => hk (by rw [← e]; simp)
  unfold add
  rw [if_neg ht.1]
  have h1 : look (if (look m t.name).isNone then (t.name, t) :: m else m) k = (look m k).or (if t.name = k then some t else none) := by
    split
    · next h =>
      rw [look_cons]
      by_cases e : t.name = k
      · rw [if_pos e, if_pos e]
        rw [e] at h
        rw [Option.isNone_iff_eq_none.1 h]; rfl
      · rw [if_neg e, if_neg e, Option.or_none]
    · next h =>
      by_cases e : t.name = k
      · rw [e] at h
        cases hl : look m k with
        | none => rw [hl] at h; exact absurd rfl h
        | some u => rfl
      · rw [if_neg e, Option.or_none]
  simp only
  split
  · rw [look_cons, if_neg hq, h1]
  · exact h1

/-- Adding a type, at a qualified name. -/
theorem look_qualified (m : Index) (t : Ty) (ht : Ident t.name) (hp : t.pkg ≠ []) (p n : Text) (hn : '.' ∉ n) :
    look (add m t) (p ++ '.' :: n) = if t.pkg = p ∧ t.name = n then some t else look m (p ++ '.' :: n) := by
  have hb : t.name ≠ p ++ '.' :: n := fun e => ht.2.1 (by rw [e]; simp)
  unfold add
  rw [if_neg ht.1]
  simp only
  rw [if_pos hp, look_cons]
  have h1 : look (if (look m t.name).isNone then (t.name, t) :: m else m) (p ++ '.' :: n) = look m (p ++ '.' :: n) := by
    split
    · rw [look_cons, if_neg hb]
    · rfl
  rw [h1]
  by_cases e : t.pkg = p ∧ t.name = n
  · rw [if_pos e, if_pos (by rw [e.1, e.2])]
  · rw [if_neg e, if_neg (fun h => e (split_dot _ _ _ _ ht.2.1 hn h))]

theorem fold_bare (ts : List Ty) (hn : ∀ t ∈ ts, Ident t.name) (k : Text) (hk : '.' ∉ k) : ∀ (m : Index),
    look (ts.foldl add m) k = (look m k).or (ts.find? (fun t => decide (t.name = k))) := by
  induction ts with
  | nil => intro m; simp
  | cons t ts ih =>
    intro m
    rw [List.foldl_cons, ih (fun u hu => hn u (List.mem_cons_of_mem _ hu)), look_bare m t (hn t List.mem_cons_self) k hk, Option.or_assoc]
    congr 1
    by_cases e : t.name = k
    · rw [if_pos e, List.find?_cons_of_pos (by simpa using e)]; rfl
    · rw [if_neg e, List.find?_cons_of_neg (by simpa using e)]; rfl

theorem fold_qualified (ts : List Ty) (hn : ∀ t ∈ ts, Ident t.name) (hp : ∀ t ∈ ts, t.pkg ≠ []) (p n : Text) (hk : '.' ∉ n) : ∀ (m : Index),
    (look (ts.foldl add m) (p ++ '.' :: n) = look m (p ++ '.' :: n) ∧ ∀ t ∈ ts, ¬(t.pkg = p ∧ t.name = n)) ∨
    ∃ t ∈ ts, t.pkg = p ∧ t.name = n ∧ look (ts.foldl add m) (p ++ '.' :: n) = some t := by
  induction ts with
  | nil => intro m; exact .inl ⟨rfl, fun t h => by cases h⟩
  | cons t ts ih =>
    intro m
    rw [List.foldl_cons]
    rcases ih (fun u hu => hn u (List.mem_cons_of_mem _ hu)) (fun u hu => hp u (List.mem_cons_of_mem _ hu)) (add m t) with ⟨h1, h2⟩ | ⟨u, hu, h1, h2, h3⟩
    · rw [look_qualified m t (hn t List.mem_cons_self) (hp t List.mem_cons_self) p n hk] at h1
      by_cases e : t.pkg = p ∧ t.name = n
      · rw [if_pos e] at h1
        exact .inr ⟨t, List.mem_cons_self, e.1, e.2, h1⟩
      · rw [if_neg e] at h1
        refine .inl ⟨h1, fun u hu => ?_⟩
        rcases List.mem_cons.1 hu with rfl | hu
        · exact e
        · exact h2 u hu
    · exact .inr ⟨u, List.mem_cons_of_mem _ hu, h1, h2, h3⟩

/-- The index at a qualified name is what is recorded under it. -/
theorem index_at (ts : List Ty) (hr : Recorded ts) (q p n : Text) (hn : Ident n) (hq : q = p ++ ['.'] ++ n) (i : Ty) :
    look (typeIndex ts) q = some i ↔ At ts q i := by
  have hq' : q = p ++ '.' :: n := by simpa using hq
  unfold At typeIndex
  rw [hq']
  rcases fold_qualified ts hr.name hr.pkg p n hn.2.1 [] with ⟨h1, h2⟩ | ⟨t, ht, rfl, rfl, h3⟩
  · rw [h1]
    refine ⟨fun h => by simp [look] at h, ?_⟩
    rintro ⟨hi, e⟩
    rw [List.append_assoc] at e
    obtain ⟨e1, e2⟩ := split_dot _ _ _ _ hn.2.1 (hr.name i hi).2.1 e
    exact absurd ⟨e1.symm, e2.symm⟩ (h2 i hi)
  · rw [h3]
    constructor
    · intro h
      cases h
      exact ⟨ht, by simp⟩
    · rintro ⟨hi, e⟩
      rw [List.append_assoc] at e
      obtain ⟨e1, e2⟩ := split_dot _ _ _ _ hn.2.1 (hr.name i hi).2.1 e
      rw [hr.one t ht i hi e1 e2]

theorem index_bare (ts : List Ty) (hr : Recorded ts) (t : Ty) (ht : t ∈ ts) (hu : ∀ u ∈ ts, u.name = t.name → u = t) :
    look (typeIndex ts) t.name = some t := by
  unfold typeIndex
  rw [fold_bare ts hr.name _ (hr.name t ht).2.1]
  have : look [] t.name = none := rfl
  rw [this, Option.none_or]
  cases h : ts.find? (fun u => decide (u.name = t.name)) with
  | none =>
    rw [List.find?_eq_none] at h
    exact absurd (decide_eq_true rfl) (h t ht)
  | some u =>
    have h1 := List.find?_some h
    simp only [decide_eq_true_eq] at h1
    rw [hu u (List.mem_of_find?_eq_some h) h1]

theorem dropWhile_none (s : Text) (h : ∀ c ∈ s, c.isWhitespace = false) : s.dropWhile Char.isWhitespace = s := by
  cases s with
  | nil => rfl
  | cons x xs => rw [List.dropWhile_cons_of_neg (by rw [h x List.mem_cons_self]; simp)]

theorem trimSpace_none (s : Text) (h : ∀ c ∈ s, c.isWhitespace = false) : trimSpace s = s := by
  unfold trimSpace
  rw [dropWhile_none s h, dropWhile_none s.reverse (fun c hc => h c (List.mem_reverse.1 hc)), List.reverse_reverse]

theorem receiver_name (recv : Text) (t : Ty) (hi : Ident t.name) (h : Receiver recv t) : trimStar (trimSpace recv) = t.name := by
  rcases h with rfl | rfl
  · rw [trimSpace_none _ hi.2.2.2]
    unfold trimStar
    split
    · next e => exact absurd (by rw [e]; simp) hi.2.2.1
    · rfl
  · rw [trimSpace_none]
    · rfl
    · intro c hc
      rcases List.mem_cons.1 hc with rfl | hc
      · decide
      · exact hi.2.2.2 c hc

/-- What the loop over the interfaces finds. -/
structure Best (look : Text → Option Ty) (start : Text × Nat) (qs : List Text) (r : Text × Nat) : Prop where
  most : start.2 ≤ r.2 ∧ ∀ q ∈ qs, ∀ i, look q = some i → i.implementedBy.length ≤ r.2
  which : r = start ∨ ∃ a q b i, qs = a ++ q :: b ∧ look q = some i ∧ r = (i.name, i.implementedBy.length) ∧ start.2 < r.2 ∧
    ∀ q' ∈ a, ∀ i', look q' = some i' → i'.implementedBy.length < r.2

theorem best_fold (m : Index) (qs : List Text) : ∀ start, Best (look m) start qs (qs.foldl (step m) start) := by
  induction qs with
  | nil => intro start; exact ⟨⟨Nat.le_refl _, fun q h => by cases h⟩, .inl rfl⟩
  | cons q qs ih =>
    intro start
    rw [List.foldl_cons]
    have hs : start.2 ≤ (step m start q).2 := by
      unfold step
      split
      · exact Nat.le_refl _
      · split
        · next h => exact Nat.le_of_lt h
        · exact Nat.le_refl _
    have hq : ∀ i, look m q = some i → i.implementedBy.length ≤ (step m start q).2 := by
      intro i hi
      unfold step
      rw [hi]
      simp only
      split
      · exact Nat.le_refl _
      · next h => omega
    obtain ⟨⟨h1, h2⟩, h3⟩ := ih (step m start q)
    refine ⟨⟨Nat.le_trans hs h1, ?_⟩, ?_⟩
    · intro q' hq' i hi
      rcases List.mem_cons.1 hq' with rfl | hq'
      · exact Nat.le_trans (hq i hi) h1
      · exact h2 q' hq' i hi
    · rcases h3 with h3 | ⟨a, q', b, i, e, hi, hr, hlt, ha⟩
      · rw [h3]
        unfold step
        split
        · exact .inl rfl
        · next i hi =>
          split
          · next h => exact .inr ⟨[], q, qs, i, rfl, hi, rfl, h, fun q' hq' => by cases hq'⟩
          · exact .inl rfl
      · refine .inr ⟨q :: a, q', b, i, by rw [e]; rfl, hi, hr, Nat.lt_of_le_of_lt hs hlt, ?_⟩
        intro q'' hq'' i' hi'
        rcases List.mem_cons.1 hq'' with rfl | hq''
        · exact Nat.lt_of_le_of_lt (hq i' hi') hlt
        · exact ha q'' hq'' i' hi'

theorem resolved_fold (ts : List Ty) (hr : Recorded ts) (recv : Text) (t : Ty) (ht : t ∈ ts) (hu : ∀ u ∈ ts, u.name = t.name → u = t) (hv : Receiver recv t) :
    resolvedInterface ts recv = t.implements_.foldl (step (typeIndex ts)) ([], 0) := by
  have hi := hr.name t ht
  unfold resolvedInterface
  simp only [receiver_name recv t hi hv, if_neg hi.1, index_bare ts hr t ht hu]

/-! ### Properties -/

/-- Nothing is shown only if no interface that the type implements has implementations recorded; otherwise it is one of
them, with the number of its implementations; none has more, and of those with as many it is the first. -/
theorem C125_interface_partial (ts : List Ty) (hr : Recorded ts) (recv : Text) (t : Ty) (ht : t ∈ ts) (hu : ∀ u ∈ ts, u.name = t.name → u = t)
    (hv : Receiver recv t) :
    (resolvedInterface ts recv = ([], 0) ∧ ∀ q ∈ t.implements_, ∀ i, At ts q i → i.implementedBy = []) ∨
    ∃ a q b i, t.implements_ = a ++ q :: b ∧ At ts q i ∧ resolvedInterface ts recv = (i.name, i.implementedBy.length) ∧ i.implementedBy ≠ [] ∧
      (∀ q' ∈ t.implements_, ∀ i', At ts q' i' → i'.implementedBy.length ≤ i.implementedBy.length) ∧
      ∀ q' ∈ a, ∀ i', At ts q' i' → i'.implementedBy.length < i.implementedBy.length := by
  rw [resolved_fold ts hr recv t ht hu hv]
  obtain ⟨⟨_, h2⟩, h3⟩ := best_fold (typeIndex ts) t.implements_ ([], 0)
  have hat : ∀ q ∈ t.implements_, ∀ i, look (typeIndex ts) q = some i ↔ At ts q i := by
    intro q hq i
    obtain ⟨p, n, hn, e⟩ := hr.qualified t ht q hq
    exact index_at ts hr q p n hn e i
  rcases h3 with h3 | ⟨a, q, b, i, e, hi, hres, hlt, ha⟩
  · refine .inl ⟨h3, fun q hq i hi => ?_⟩
    have := h2 q hq i ((hat q hq i).2 hi)
    rw [h3] at this
    exact List.length_eq_zero_iff.1 (by simpa using this)
  · refine .inr ⟨a, q, b, i, e, (hat q (by rw [e]; simp) i).1 hi, hres, ?_, ?_, ?_⟩
    · rw [hres] at hlt
      intro h
      rw [h] at hlt
      exact absurd hlt (by simp)
    · intro q' hq' i' hi'
      have := h2 q' hq' i' ((hat q' hq' i').2 hi')
      rwa [hres] at this
    · intro q' hq' i' hi'
      have := ha q' hq' i' ((hat q' (by rw [e]; exact List.mem_append_left _ hq') i').2 hi')
      rwa [hres] at this

/-- The order in which the types are read makes no difference if no other type has the name. -/
theorem C125_order_partial (ts ts' : List Ty) (hp : ts.Perm ts') (hr : Recorded ts) (recv : Text) (t : Ty) (ht : t ∈ ts) (hu : ∀ u ∈ ts, u.name = t.name → u = t)
    (hv : Receiver recv t) : resolvedInterface ts recv = resolvedInterface ts' recv := by
  have hr' : Recorded ts' := ⟨fun u h => hr.name u (hp.mem_iff.2 h), fun u h => hr.pkg u (hp.mem_iff.2 h),
    fun u h v h' => hr.one u (hp.mem_iff.2 h) v (hp.mem_iff.2 h'), fun u h => hr.qualified u (hp.mem_iff.2 h)⟩
  rw [resolved_fold ts hr recv t ht hu hv, resolved_fold ts' hr' recv t (hp.mem_iff.1 ht) (fun u h => hu u (hp.mem_iff.2 h)) hv]
  have hq : ∀ q ∈ t.implements_, look (typeIndex ts) q = look (typeIndex ts') q := by
    intro q hq
    obtain ⟨p, n, hn, e⟩ := hr.qualified t ht q hq
    apply Option.ext
    intro i
    refine (index_at ts hr q p n hn e i).trans (Iff.trans ?_ (index_at ts' hr' q p n hn e i).symm)
    unfold At
    rw [hp.mem_iff]
  generalize t.implements_ = qs at hq
  generalize (([], 0) : Text × Nat) = start
  induction qs generalizing start with
  | nil => rfl
  | cons q qs ih =>
    rw [List.foldl_cons, List.foldl_cons]
    have : step (typeIndex ts) start q = step (typeIndex ts') start q := by
      unfold step
      rw [hq q List.mem_cons_self]
    rw [this]
    exact ih (fun q' h => hq q' (List.mem_cons_of_mem _ h)) _

/-- A type that is not recorded has nothing shown. -/
theorem C125_unknown (ts : List Ty) (hn : ∀ t ∈ ts, Ident t.name) (name : Text) (hi : Ident name) (h : ∀ t ∈ ts, t.name ≠ name) :
    resolvedInterface ts name = ([], 0) ∧ resolvedInterface ts ('*' :: name) = ([], 0) := by
  have hl : look (typeIndex ts) name = none := by
    unfold typeIndex
    rw [fold_bare ts hn _ hi.2.1]
    have : look [] name = none := rfl
    rw [this, Option.none_or, List.find?_eq_none]
    intro t ht
    simpa using h t ht
  have key : ∀ recv, trimStar (trimSpace recv) = name → resolvedInterface ts recv = ([], 0) := by
    intro recv e
    unfold resolvedInterface
    simp only [e, if_neg hi.1, hl]
  exact ⟨key _ (receiver_name name ⟨name, [], [], []⟩ hi (.inl rfl)), key _ (receiver_name _ ⟨name, [], [], []⟩ hi (.inr rfl))⟩

/-! ### Cases that meet the hypotheses -/

abbrev c (s : String) : Text := s.toList

def loader : Ty := ⟨c "Loader", c "shop/db", [], [c "shop/db.Store", c "shop/db.Cache"]⟩
def closer : Ty := ⟨c "Closer", c "shop/db", [], [c "shop/db.Store", c "shop/db.Cache", c "shop/db.File"]⟩
def pinger : Ty := ⟨c "Pinger", c "shop/mail", [], [c "shop/mail.Store"]⟩
def store : Ty := ⟨c "Store", c "shop/db", [c "io.Reader", c "shop/db.Loader", c "shop/db.Closer"], []⟩
def mailStore : Ty := ⟨c "Store", c "shop/mail", [c "shop/mail.Pinger"], []⟩

example : resolvedInterface [loader, closer, store] (c "*Store") = (c "Closer", 3) := by decide +kernel

def identB (t : Text) : Bool := decide (t ≠ []) && decide ('.' ∉ t) && decide ('*' ∉ t) && t.all (fun c => !c.isWhitespace)

theorem identB_ident (t : Text) (h : identB t = true) : Ident t := by
  unfold identB at h
  simp only [Bool.and_eq_true, decide_eq_true_eq, List.all_eq_true, Bool.not_eq_true'] at h
  exact ⟨h.1.1.1, h.1.1.2, h.1.2, h.2⟩

theorem recorded : Recorded [loader, closer, store] := by
  refine ⟨fun t ht => identB_ident _ ?_, by decide +kernel, by decide +kernel, ?_⟩
  · revert t
    decide +kernel
  · have key : ∀ q ∈ store.implements_, ∃ p n, Ident n ∧ q = p ++ ['.'] ++ n := by
      intro q hq
      have hq' : q = c "io" ++ ['.'] ++ c "Reader" ∨ q = c "shop/db" ++ ['.'] ++ c "Loader" ∨ q = c "shop/db" ++ ['.'] ++ c "Closer" := by
        revert q
        decide +kernel
      rcases hq' with h | h | h
      · exact ⟨_, _, identB_ident _ (by decide +kernel), h⟩
      · exact ⟨_, _, identB_ident _ (by decide +kernel), h⟩
      · exact ⟨_, _, identB_ident _ (by decide +kernel), h⟩
    intro t ht q hq
    simp only [List.mem_cons, List.not_mem_nil, or_false] at ht
    rcases ht with rfl | rfl | rfl
    · cases hq
    · cases hq
    · exact key q hq

/-- The hypotheses of `C125_interface_partial` and `C125_order_partial` are met. -/
example : Recorded [loader, closer, store] ∧ store ∈ [loader, closer, store] ∧ (∀ u ∈ [loader, closer, store], u.name = store.name → u = store) ∧ Receiver (c "*Store") store :=
  ⟨recorded, by simp, by decide +kernel, .inr rfl⟩

/-- The interface with the most implementations is shown, whichever was called. -/
theorem C125_not_called : resolvedInterface [loader, closer, store] (c "*Store") = (c "Closer", 3) ∧
    (c "shop/db.Loader") ∈ store.implements_ ∧ loader.implementedBy.length = 2 := by decide +kernel

/-- If two packages have a type of this name, the order in which they are read decides whose interface is shown. -/
theorem C125_same_name : ∃ ts ts' : List Ty, ts.Perm ts' ∧ resolvedInterface ts (c "*Store") = (c "Closer", 3) ∧ resolvedInterface ts' (c "*Store") = (c "Pinger", 1) :=
  ⟨[store, mailStore, loader, closer, pinger], [mailStore, store, loader, closer, pinger], .swap _ _ _, by decide +kernel, by decide +kernel⟩

end Verif.Behind
