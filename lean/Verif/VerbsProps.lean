import Verif.VerbsModel
/-!
# C122: the overview lists each handler that serves several methods, with its methods
-/

namespace Verif.Verbs

/-! ### Specification -/

/-- The function has an arm for the method. -/
def Serves (f : Fn) (x : Text) : Prop := x ≠ [] ∧ ∃ arm ∈ f.arms, x ∈ arm

/-- It serves at least two methods. -/
def Split (f : Fn) : Prop := ∃ x y, Serves f x ∧ Serves f y ∧ x ≠ y

/-- What is after the last slash of a path. -/
def Last (path s : Text) : Prop := '/' ∉ s ∧ (path = s ∨ ∃ q, path = q ++ '/' :: s)

/-- How a function is called in the list. -/
def Called (f : Fn) (t : Text) : Prop :=
  (f.pkg = [] ∧ t = f.name) ∨ (f.pkg ≠ [] ∧ ∃ s, Last f.pkg s ∧ t = s ++ ['.'] ++ f.name)

/-- The texts with a property, each once and in order. -/
structure Lists (le : Text → Text → Prop) (l : List Text) (P : Text → Prop) : Prop where
  once : l.Nodup
  ordered : l.Pairwise le
  exactly : ∀ t, t ∈ l ↔ P t

/-- A row says how the function is called and which methods it serves. -/
def Says (le : Text → Text → Prop) (r : Row) (f : Fn) : Prop := Called f r.handler ∧ Lists le r.methods (Serves f)

def Sorts (le : α → α → Prop) (sort : List α → List α) : Prop := ∀ l, (sort l).Perm l ∧ (sort l).Pairwise le

/-- Rows are sorted by the name of the handler. -/
def ByHandler (le : Text → Text → Prop) (a b : Row) : Prop := le a.handler b.handler

/-! ### Lemmas -/

theorem add_mem (ms : List Text) (x t : Text) : t ∈ add ms x ↔ t ∈ ms ∨ (t = x ∧ x ≠ []) := by
  unfold add
  split
  · next h => simp only [List.mem_append, List.mem_singleton]; grind
  · next h => grind

theorem add_nodup (ms : List Text) (x : Text) (h : ms.Nodup) : (add ms x).Nodup := by
  unfold add
  split
  · next hx => rw [List.nodup_append]; refine ⟨h, by simp, ?_⟩; intro a ha b hb; grind
  · exact h

theorem arm_mem (arm : List Text) : ∀ (ms : List Text) (t : Text), t ∈ arm.foldl add ms ↔ t ∈ ms ∨ (t ∈ arm ∧ t ≠ []) := by
  induction arm with
  | nil => intro ms t; simp
  | cons x xs ih => intro ms t; rw [List.foldl_cons, ih, add_mem, List.mem_cons]; grind

theorem arm_nodup (arm : List Text) : ∀ ms : List Text, ms.Nodup → (arm.foldl add ms).Nodup := by
  induction arm with
  | nil => intro ms h; exact h
  | cons x xs ih => intro ms h; exact ih _ (add_nodup ms x h)

theorem arms_mem (arms : List (List Text)) : ∀ (ms : List Text) (t : Text),
    t ∈ arms.foldl (fun ms arm => arm.foldl add ms) ms ↔ t ∈ ms ∨ (t ≠ [] ∧ ∃ arm ∈ arms, t ∈ arm) := by
  induction arms with
  | nil => intro ms t; simp
  | cons x xs ih => intro ms t; rw [List.foldl_cons, ih, arm_mem]; simp only [List.mem_cons, exists_eq_or_imp]; grind

theorem arms_nodup (arms : List (List Text)) : ∀ ms : List Text, ms.Nodup → (arms.foldl (fun ms arm => arm.foldl add ms) ms).Nodup := by
  induction arms with
  | nil => intro ms h; exact h
  | cons x xs ih => intro ms h; exact ih _ (arm_nodup x ms h)

theorem collect_mem (f : Fn) (t : Text) : t ∈ collect f ↔ Serves f t := by
  unfold collect Serves
  rw [arms_mem]
  simp

theorem collect_nodup (f : Fn) : (collect f).Nodup := arms_nodup _ _ List.nodup_nil

theorem two_le (l : List Text) (hn : l.Nodup) : 2 ≤ l.length ↔ ∃ x y, x ∈ l ∧ y ∈ l ∧ x ≠ y := by
  match l, hn with
  | [], _ => simp
  | [a], _ => simp
  | a :: b :: l, hn =>
    refine ⟨fun _ => ⟨a, b, by simp, by simp, ?_⟩, fun _ => by simp⟩
    intro e
    subst e
    simp at hn

theorem collect_split (f : Fn) : 2 ≤ (collect f).length ↔ Split f := by
  rw [two_le _ (collect_nodup f)]
  simp only [collect_mem, Split]

theorem last_segment (p : Text) : Last p (lastSegment p) := by
  induction p with
  | nil => exact ⟨by simp [lastSegment], .inl rfl⟩
  | cons x xs ih =>
    unfold lastSegment
    split
    · next h =>
      refine ⟨ih.1, .inr ?_⟩
      rcases ih.2 with e | ⟨q, e⟩
      · exact absurd (e ▸ h) ih.1
      · exact ⟨x :: q, by rw [List.cons_append, ← e]⟩
    · next h =>
      split
      · next e => exact ⟨h, .inr ⟨[], by rw [e]; rfl⟩⟩
      · next e => exact ⟨by simp only [List.mem_cons, not_or]; exact ⟨fun e' => e e'.symm, h⟩, .inl rfl⟩

theorem last_one (p s t : Text) (h : Last p s) (h' : Last p t) : s = t := by
  obtain ⟨hs, h⟩ := h
  obtain ⟨ht, h'⟩ := h'
  rcases h with rfl | ⟨q, rfl⟩
  · rcases h' with h' | ⟨q, h'⟩
    · exact h'
    · rw [h'] at hs; simp at hs
  · rcases h' with h' | ⟨q', h'⟩
    · rw [← h'] at ht; simp at ht
    · rcases List.append_eq_append_iff.1 h' with ⟨a, e1, e2⟩ | ⟨a, e1, e2⟩
      · cases a with
        | nil => simpa using e2
        | cons y a =>
          simp only [List.cons_append, List.cons.injEq] at e2
          rw [e2.2] at hs; simp at hs
      · cases a with
        | nil => simpa using e2.symm
        | cons y a =>
          simp only [List.cons_append, List.cons.injEq] at e2
          rw [e2.2] at ht; simp at ht

theorem label_called (f : Fn) : Called f (label f) := by
  unfold label
  split
  · next h => exact .inl ⟨h, rfl⟩
  · next h => exact .inr ⟨h, _, last_segment _, by simp⟩

theorem called_one (f : Fn) (s t : Text) (h : Called f s) (h' : Called f t) : s = t := by
  rcases h with ⟨e, rfl⟩ | ⟨e, a, ha, rfl⟩
  · rcases h' with ⟨_, rfl⟩ | ⟨e', _⟩
    · rfl
    · exact absurd e e'
  · rcases h' with ⟨e', _⟩ | ⟨_, b, hb, rfl⟩
    · exact absurd e' e
    · rw [last_one _ _ _ ha hb]

theorem lists_one (le : Text → Text → Prop) (anti : ∀ a b, le a b → le b a → a = b) (l l' : List Text) (P : Text → Prop)
    (h : Lists le l P) (h' : Lists le l' P) : l = l' :=
  List.Perm.eq_of_pairwise (le := le) (fun a b _ _ => anti a b) h.ordered h'.ordered
    ((List.perm_ext_iff_of_nodup h.once h'.once).2 (fun t => (h.exactly t).trans (h'.exactly t).symm))

variable {le : Text → Text → Prop} {sort : List Text → List Text} {sortRows : List Row → List Row}

theorem row_some (hs : Sorts le sort) (f : Fn) (r : Row) (h : row sort f = some r) : Split f ∧ Says le r f := by
  unfold row at h
  split at h
  · cases h
  · split at h
    · cases h
    · next h2 =>
      cases h
      refine ⟨(collect_split f).1 (by omega), label_called f, ?_, (hs _).2, fun t => ?_⟩
      · exact (hs _).1.nodup_iff.2 (collect_nodup f)
      · exact (hs _).1.mem_iff.trans (collect_mem f t)

theorem row_none (f : Fn) (h : row sort f = none) : ¬ Split f := by
  unfold row at h
  split at h
  · next e =>
    rintro ⟨x, _, ⟨_, arm, ha, _⟩, _⟩
    rw [List.length_eq_zero_iff.1 e] at ha
    cases ha
  · split at h
    · next h2 => intro hf; have := (collect_split f).2 hf; omega
    · cases h

/-- A list of rows beside the list of their functions. -/
inductive Beside (le : Text → Text → Prop) : List Row → List Fn → Prop
  | nil : Beside le [] []
  | cons {r f rs fs} : Says le r f → Beside le rs fs → Beside le (r :: rs) (f :: fs)

theorem beside_perm {rs rs' : List Row} (h : rs'.Perm rs) : ∀ fs, Beside le rs fs → ∃ fs', fs'.Perm fs ∧ Beside le rs' fs' := by
  induction h with
  | nil => intro fs h; exact ⟨fs, .refl _, h⟩
  | cons x _ ih =>
    intro fs h
    cases h with
    | cons h1 h2 =>
      obtain ⟨fs', hp, hb⟩ := ih _ h2
      exact ⟨_ :: fs', hp.cons _, .cons h1 hb⟩
  | swap x y l =>
    intro fs h
    cases h with
    | cons h1 h2 =>
      cases h2 with
      | cons h3 h4 => exact ⟨_, .swap _ _ _, .cons h3 (.cons h1 h4)⟩
  | trans _ _ ih1 ih2 =>
    intro fs h
    obtain ⟨f2, p2, b2⟩ := ih2 fs h
    obtain ⟨f1, p1, b1⟩ := ih1 f2 b2
    exact ⟨f1, p1.trans p2, b1⟩

theorem beside_rows (hs : Sorts le sort) (l : List Fn) [DecidablePred Split] : Beside le (l.filterMap (row sort)) (l.filter (fun f => decide (Split f))) := by
  induction l with
  | nil => exact .nil
  | cons f l ih =>
    cases h : row sort f with
    | none =>
      rw [List.filterMap_cons_none h, List.filter_cons_of_neg (by simpa using row_none f h)]
      exact ih
    | some r =>
      obtain ⟨h1, h2⟩ := row_some hs f r h
      rw [List.filterMap_cons_some h, List.filter_cons_of_pos (by simpa using h1)]
      exact .cons h2 ih

theorem beside_get {rs : List Row} {fs : List Fn} (h : Beside le rs fs) :
    rs.length = fs.length ∧ ∀ (i : Nat) (r : Row) (f : Fn), rs[i]? = some r → fs[i]? = some f → Says le r f := by
  induction h with
  | nil => exact ⟨rfl, fun i r f h => by simp at h⟩
  | cons h1 _ ih =>
    refine ⟨by simp [ih.1], fun i r f hr hf => ?_⟩
    cases i with
    | zero => simp only [List.getElem?_cons_zero, Option.some.injEq] at hr hf; exact hr ▸ hf ▸ h1
    | succ i => exact ih.2 i r f (by simpa using hr) (by simpa using hf)

theorem rows_flatten (m : Meta) :
    (m.flatMap fun files => files.flatMap fun fns => fns.filterMap (row sort)) = m.flatten.flatten.filterMap (row sort) := by
  induction m with
  | nil => rfl
  | cons p m ih =>
    rw [List.flatMap_cons, ih, List.flatten_cons, List.flatten_append, List.filterMap_append]
    congr 1
    induction p with
    | nil => rfl
    | cons f p ih' => rw [List.flatMap_cons, ih', List.flatten_cons, List.filterMap_append]

open Classical in
theorem dispatch_beside (hs : Sorts le sort) (hr : Sorts (ByHandler le) sortRows) (m : Meta) :
    ∃ fs, fs.Perm (m.flatten.flatten.filter (fun f => decide (Split f))) ∧ Beside le (verbDispatch sort sortRows m) fs := by
  unfold verbDispatch
  rw [rows_flatten]
  exact beside_perm (hr _).1 _ (beside_rows hs _)

/-! ### Properties -/

open Classical in
/-- The rows are those of the functions that serve at least two methods: one row for each of them, which says how it is
called and lists its methods, each once and in order. -/
theorem C122_rows (hs : Sorts le sort) (hr : Sorts (ByHandler le) sortRows) (m : Meta) :
    ∃ fs : List Fn, fs.Perm (m.flatten.flatten.filter (fun f => decide (Split f))) ∧
      (verbDispatch sort sortRows m).length = fs.length ∧
      ∀ (i : Nat) (r : Row) (f : Fn), (verbDispatch sort sortRows m)[i]? = some r → fs[i]? = some f → Says le r f := by
  obtain ⟨fs, hp, hb⟩ := dispatch_beside hs hr m
  exact ⟨fs, hp, beside_get hb⟩

/-- They are sorted by the name of the handler. -/
theorem C122_ordered (hr : Sorts (ByHandler le) sortRows) (m : Meta) :
    (verbDispatch sort sortRows m).Pairwise (fun a b => le a.handler b.handler) := (hr _).2

/-- Every row is that of a declared function that serves at least two methods. -/
theorem C122_only (hs : Sorts le sort) (hr : Sorts (ByHandler le) sortRows) (m : Meta) (r : Row) (h : r ∈ verbDispatch sort sortRows m) :
    ∃ pkg ∈ m, ∃ file ∈ pkg, ∃ f ∈ file, Split f ∧ Says le r f := by
  unfold verbDispatch at h
  rw [(hr _).1.mem_iff] at h
  simp only [List.mem_flatMap, List.mem_filterMap] at h
  obtain ⟨p, hp, fl, hf, f, hff, e⟩ := h
  exact ⟨p, hp, fl, hf, f, hff, row_some hs f r e⟩

/-- If no two of the functions listed are called the same, the order in which the maps are read makes no difference. -/
theorem C122_one_order (anti : ∀ a b, le a b → le b a → a = b) (hs : Sorts le sort) {sort' : List Text → List Text} (hs' : Sorts le sort')
    (hr : Sorts (ByHandler le) sortRows) {sortRows' : List Row → List Row} (hr' : Sorts (ByHandler le) sortRows') (m m' : Meta)
    (hm : m.flatten.flatten.Perm m'.flatten.flatten)
    (hd : ∀ f ∈ m.flatten.flatten, ∀ g ∈ m.flatten.flatten, Split f → Split g → ∀ t, Called f t → Called g t → f = g) :
    verbDispatch sort sortRows m = verbDispatch sort' sortRows' m' := by
  have heq : ∀ f, row sort' f = row sort f := by
    intro f
    cases h : row sort f with
    | none =>
      cases h' : row sort' f with
      | none => rfl
      | some r => exact absurd (row_some hs' f r h').1 (row_none f h)
    | some r =>
      cases h' : row sort' f with
      | none => exact absurd (row_some hs f r h).1 (row_none f h')
      | some r' =>
        have a := (row_some hs f r h).2
        have b := (row_some hs' f r' h').2
        have e1 := called_one f _ _ a.1 b.1
        have e2 := lists_one le anti _ _ _ a.2 b.2
        obtain ⟨x, y⟩ := r
        obtain ⟨x', y'⟩ := r'
        simp only at e1 e2
        rw [e1, e2]
  have hfun : row sort' = row sort := funext heq
  have hp : (verbDispatch sort sortRows m).Perm (verbDispatch sort' sortRows' m') := by
    unfold verbDispatch
    refine (hr _).1.trans (List.Perm.trans ?_ (hr' _).1.symm)
    rw [rows_flatten, rows_flatten, hfun]
    exact hm.filterMap _
  refine List.Perm.eq_of_pairwise (le := ByHandler le) ?_ (hr _).2 (hr' _).2 hp
  intro a b ha hb hab hba
  have hb' := hp.mem_iff.2 hb
  have e : a.handler = b.handler := anti _ _ hab hba
  have key : ∀ r ∈ verbDispatch sort sortRows m, ∃ f ∈ m.flatten.flatten, row sort f = some r := by
    intro r h
    unfold verbDispatch at h
    rw [(hr _).1.mem_iff, rows_flatten] at h
    exact List.mem_filterMap.1 h
  obtain ⟨f, hf, ef⟩ := key a ha
  obtain ⟨g, hg, eg⟩ := key b hb'
  have sf := row_some hs f a ef
  have sg := row_some hs g b eg
  have := hd f hf g hg sf.1 sg.1 a.handler sf.2.1 (e ▸ sg.2.1)
  subst this
  rw [ef] at eg
  exact Option.some.inj eg

/-! ### Cases that meet the hypotheses -/

abbrev c (s : String) : Text := s.toList

/-- The order of texts by character. -/
def leB : Text → Text → Bool
  | [], _ => true
  | _ :: _, [] => false
  | x :: xs, y :: ys => decide (x.toNat < y.toNat) || (decide (x = y) && leB xs ys)

def put (le : α → α → Bool) (x : α) : List α → List α
  | [] => [x]
  | y :: ys => if le x y then x :: y :: ys else y :: put le x ys

def insertionSort (le : α → α → Bool) : List α → List α
  | [] => []
  | x :: xs => put le x (insertionSort le xs)

theorem put_perm (le : α → α → Bool) (x : α) (l : List α) : (put le x l).Perm (x :: l) := by
  induction l with
  | nil => exact .refl _
  | cons y ys ih =>
    unfold put
    split
    · exact .refl _
    · exact (ih.cons y).trans (.swap _ _ _)

theorem insertion_perm (le : α → α → Bool) (l : List α) : (insertionSort le l).Perm l := by
  induction l with
  | nil => exact .refl _
  | cons x xs ih => exact (put_perm le x _).trans (ih.cons x)

theorem put_sorted (le : α → α → Bool) (total : ∀ a b, le a b = true ∨ le b a = true) (trans : ∀ a b c, le a b = true → le b c = true → le a c = true)
    (x : α) (l : List α) (h : l.Pairwise (fun a b => le a b = true)) : (put le x l).Pairwise (fun a b => le a b = true) := by
  induction l with
  | nil => exact List.pairwise_singleton _ _
  | cons y ys ih =>
    obtain ⟨h1, h2⟩ := List.pairwise_cons.1 h
    unfold put
    split
    · next hxy =>
      refine List.pairwise_cons.2 ⟨fun z hz => ?_, h⟩
      rcases List.mem_cons.1 hz with rfl | hz
      · exact hxy
      · exact trans _ _ _ hxy (h1 z hz)
    · next hxy =>
      refine List.pairwise_cons.2 ⟨fun z hz => ?_, ih h2⟩
      rcases List.mem_cons.1 ((put_perm le x ys).mem_iff.1 hz) with rfl | hz
      · exact (total z y).resolve_left hxy
      · exact h1 z hz

theorem insertion_sorts (le : α → α → Bool) (total : ∀ a b, le a b = true ∨ le b a = true) (trans : ∀ a b c, le a b = true → le b c = true → le a c = true) :
    Sorts (fun a b => le a b = true) (insertionSort le) := by
  intro l
  refine ⟨insertion_perm le l, ?_⟩
  induction l with
  | nil => exact .nil
  | cons x xs ih => exact put_sorted le total trans x _ ih

theorem leB_total : ∀ a b : Text, leB a b = true ∨ leB b a = true
  | [], _ => .inl (by simp [leB])
  | _ :: _, [] => .inr (by simp [leB])
  | x :: xs, y :: ys => by
    have ih := leB_total xs ys
    simp only [leB, Bool.or_eq_true, decide_eq_true_eq, Bool.and_eq_true]
    rcases Nat.lt_trichotomy x.toNat y.toNat with h | h | h
    · exact .inl (.inl h)
    · have e : x = y := Char.toNat_inj.1 h
      subst e
      rcases ih with h | h
      · exact .inl (.inr ⟨rfl, h⟩)
      · exact .inr (.inr ⟨rfl, h⟩)
    · exact .inr (.inl h)

theorem leB_trans : ∀ a b c : Text, leB a b = true → leB b c = true → leB a c = true
  | [], _, _, _, _ => by simp [leB]
  | _ :: _, [], _, h, _ => by simp [leB] at h
  | _ :: _, _ :: _, [], _, h => by simp [leB] at h
  | x :: xs, y :: ys, z :: zs, h, h' => by
    have ih := leB_trans xs ys zs
    simp only [leB, Bool.or_eq_true, decide_eq_true_eq, Bool.and_eq_true] at h h' ⊢
    rcases h with h | ⟨rfl, h⟩
    · rcases h' with h' | ⟨rfl, h'⟩
      · exact .inl (by omega)
      · exact .inl h
    · rcases h' with h' | ⟨rfl, h'⟩
      · exact .inl h'
      · exact .inr ⟨rfl, ih h h'⟩

theorem leB_anti : ∀ a b : Text, leB a b = true → leB b a = true → a = b
  | [], [], _, _ => rfl
  | [], _ :: _, _, h => by simp [leB] at h
  | _ :: _, [], h, _ => by simp [leB] at h
  | x :: xs, y :: ys, h, h' => by
    have ih := leB_anti xs ys
    simp only [leB, Bool.or_eq_true, decide_eq_true_eq, Bool.and_eq_true] at h h'
    rcases h with h | ⟨rfl, h⟩
    · rcases h' with h' | ⟨rfl, h'⟩
      · omega
      · omega
    · rcases h' with h' | ⟨_, h'⟩
      · omega
      · rw [ih h h']

def sortT := insertionSort leB
def sortR := insertionSort (fun a b : Row => leB a.handler b.handler)

theorem sortT_sorts : Sorts (fun a b => leB a b = true) sortT := insertion_sorts _ leB_total leB_trans
theorem sortR_sorts : Sorts (ByHandler (fun a b => leB a b = true)) sortR :=
  insertion_sorts (fun a b : Row => leB a.handler b.handler) (fun a b => leB_total _ _) (fun a b c => leB_trans _ _ _)

def items : Fn := ⟨c "Items", c "shop/api/v1", [[c "POST"], [c "GET", c "HEAD"], [c ""]]⟩
def health : Fn := ⟨c "Health", c "shop/api/v1", [[c "GET"], [c "GET"]]⟩
def carts : Fn := ⟨c "Carts", c "shop", [[c "PUT"], [c "DELETE", c "PUT"]]⟩
def items2 : Fn := ⟨c "Items", c "shop/admin/v1", [[c "GET"], [c "DELETE"]]⟩

example : verbDispatch sortT sortR [[[items, health]], [[], [carts]]] =
    [⟨c "shop.Carts", [c "DELETE", c "PUT"]⟩, ⟨c "v1.Items", [c "GET", c "HEAD", c "POST"]⟩] := by decide

example : Split items := (collect_split items).1 (by decide)
example : Split items2 := (collect_split items2).1 (by decide)
/-- Two arms for one method are no split. -/
example : ¬ Split health := fun h => absurd ((collect_split health).2 h) (by decide)

/-- The hypotheses of `C122_one_order` are met by two orders of three functions. -/
example : verbDispatch sortT sortR [[[items, health]], [[], [carts]]] = verbDispatch sortT sortR [[[carts]], [[health, items]]] := by
  refine C122_one_order leB_anti sortT_sorts sortT_sorts sortR_sorts sortR_sorts _ _ (by decide) ?_
  intro f hf g hg _ _ t h h'
  have e : label f = label g := (called_one f _ _ (label_called f) h).trans (called_one g _ _ h' (label_called g))
  have hf' : f ∈ [items, health, carts] := hf
  have hg' : g ∈ [items, health, carts] := hg
  have := (by decide : ∀ f ∈ [items, health, carts], ∀ g ∈ [items, health, carts], label f = label g → f = g)
  exact this f hf' g hg' e

/-- Two functions of different packages can be called the same; then two rows have one name, and which comes first depends
on the order in which the packages are read. -/
theorem C122_same_name : ∃ m m' : Meta, m.Perm m' ∧ Sorts (fun a b => leB a b = true) sortT ∧ Sorts (ByHandler (fun a b => leB a b = true)) sortR ∧
    verbDispatch sortT sortR m = [⟨c "v1.Items", [c "GET", c "HEAD", c "POST"]⟩, ⟨c "v1.Items", [c "DELETE", c "GET"]⟩] ∧
    verbDispatch sortT sortR m' = [⟨c "v1.Items", [c "DELETE", c "GET"]⟩, ⟨c "v1.Items", [c "GET", c "HEAD", c "POST"]⟩] :=
  ⟨[[[items]], [[items2]]], [[[items2]], [[items]]], .swap _ _ _, sortT_sorts, sortR_sorts, by decide, by decide⟩

end Verif.Verbs
