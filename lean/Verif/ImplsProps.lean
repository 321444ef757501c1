import Verif.ImplsModel
/-!
# C127: at a call of an interface, a trace goes on in the methods of the types that implement it
-/

namespace Verif.Impls

/-! ### Specification -/

/-- The package declares an interface of this name, and the type of this path and name implements it. -/
def Implements (m : Meta) (pkg iface path type : Text) : Prop :=
  ∃ files, (pkg, files) ∈ m.packages ∧ ∃ f ∈ files, ∃ t, (iface, t) ∈ f ∧ t.kind = "interface".toList ∧ path ++ ['.'] ++ type ∈ t.implementedBy

/-- Calls are recorded in the function. -/
def HasCalls (m : Meta) (id : Text) : Prop := ∃ n, (id, n) ∈ m.callers ∧ 0 < n

/-- Each key of a map is there once. -/
def OnceKeys (l : List (Text × α)) : Prop := (l.map (·.1)).Nodup

structure Maps (m : Meta) : Prop where
  packages : OnceKeys m.packages
  files : ∀ p ∈ m.packages, ∀ f ∈ p.2, OnceKeys f
  callers : OnceKeys m.callers

/-- Types are recorded as a path and a name without dots. -/
def Qualified (m : Meta) : Prop :=
  ∀ p ∈ m.packages, ∀ f ∈ p.2, ∀ t ∈ f, ∀ q ∈ t.2.implementedBy, ∃ path type, path ≠ [] ∧ type ≠ [] ∧ '.' ∉ type ∧ q = path ++ ['.'] ++ type

/-! ### Lemmas -/

theorem look_iff (l : List (Text × α)) (h : OnceKeys l) (k : Text) (v : α) : look l k = some v ↔ (k, v) ∈ l := by
  induction l with
  | nil => simp [look]
  | cons e l ih =>
    obtain ⟨k', v'⟩ := e
    unfold OnceKeys at h ih
    rw [List.map_cons, List.nodup_cons] at h
    have ih := ih h.2
    unfold look at ih ⊢
    by_cases hk : k' = k
    · rw [List.find?_cons_of_pos (by simpa using hk)]
      subst hk
      constructor
      · intro e
        simp only [Option.map_some, Option.some.injEq] at e
        rw [e]; exact List.mem_cons_self
      · intro hm
        rcases List.mem_cons.1 hm with e | hm
        · cases e; rfl
        · exact absurd (List.mem_map.2 ⟨_, hm, rfl⟩) h.1
    · rw [List.find?_cons_of_neg (by simpa using hk), ih, List.mem_cons]
      constructor
      · exact .inr
      · rintro (e | h)
        · cases e; exact absurd rfl hk
        · exact h

theorem lastDot_none (s : Text) (h : '.' ∉ s) : lastDot s = none := by
  induction s with
  | nil => rfl
  | cons x s ih =>
    simp only [List.mem_cons, not_or] at h
    unfold lastDot
    rw [ih h.2]
    simp only
    rw [if_neg (fun e => h.1 e.symm)]

theorem lastDot_at (p t : Text) (h : '.' ∉ t) : lastDot (p ++ '.' :: t) = some (p, t) := by
  induction p with
  | nil =>
    show lastDot ('.' :: t) = _
    unfold lastDot
    rw [lastDot_none t h]
    rfl
  | cons x p ih =>
    rw [List.cons_append]
    unfold lastDot
    rw [ih]

theorem insert_mem (l : List Text) : ∀ (out : List Text) (x : Text), x ∈ l.foldl insert out ↔ x ∈ out ∨ x ∈ l := by
  induction l with
  | nil => intro out x; simp
  | cons y l ih =>
    intro out x
    rw [List.foldl_cons, ih]
    unfold insert
    split
    · next h => rw [List.mem_cons]; grind
    · rw [List.mem_cons, List.mem_cons]; grind

theorem insert_nodup (l : List Text) : ∀ (out : List Text), out.Nodup → (l.foldl insert out).Nodup := by
  induction l with
  | nil => intro out h; exact h
  | cons y l ih =>
    intro out h
    rw [List.foldl_cons]
    refine ih _ ?_
    unfold insert
    split
    · exact h
    · next hy => exact List.nodup_cons.2 ⟨hy, h⟩

theorem calls_iff (m : Meta) (h : OnceKeys m.callers) (id : Text) : (look m.callers id).getD 0 > 0 ↔ HasCalls m id := by
  unfold HasCalls
  constructor
  · intro hg
    cases hl : look m.callers id with
    | none => rw [hl] at hg; simp at hg
    | some n => exact ⟨n, (look_iff _ h _ _).1 hl, by simpa [hl] using hg⟩
  · rintro ⟨n, hm, hn⟩
    rw [(look_iff _ h _ _).2 hm]
    exact hn

theorem concrete_iff (m : Meta) (h : OnceKeys m.callers) (name p t : Text) (hp : p ≠ []) (ht : t ≠ []) (hd : '.' ∉ t) (id : Text) :
    concrete m name (p ++ ['.'] ++ t) = some id ↔ id = p ++ ['.'] ++ t ++ ['.'] ++ name ∧ HasCalls m id := by
  have e : p ++ ['.'] ++ t = p ++ '.' :: t := by simp
  have e2 : p ++ '.' :: t ++ '.' :: name = p ++ ['.'] ++ t ++ ['.'] ++ name := by simp
  unfold concrete
  rw [e, lastDot_at p t hd]
  simp only
  rw [if_neg (by simp [hp, ht]), e2, ← e]
  by_cases hc : HasCalls m (p ++ ['.'] ++ t ++ ['.'] ++ name)
  · rw [if_pos ((calls_iff m h _).2 hc), Option.some.injEq]
    exact ⟨fun e => ⟨e.symm, e ▸ hc⟩, fun e => e.1.symm⟩
  · rw [if_neg (fun h' => hc ((calls_iff m h _).1 h'))]
    exact ⟨fun e => (by cases e), fun e => absurd (e.1 ▸ e.2) hc⟩

theorem result_mem (m : Meta) (hm : Maps m) (hq : Qualified m) (pkg recv name : Text) (hp : pkg ≠ []) (hr : recv ≠ []) (hn : name ≠ []) (id : Text) :
    id ∈ resolveImplementers m pkg recv name ↔
      ∃ path type, Implements m pkg recv path type ∧ path ≠ [] ∧ type ≠ [] ∧ '.' ∉ type ∧ id = path ++ ['.'] ++ type ++ ['.'] ++ name ∧ HasCalls m id := by
  unfold resolveImplementers
  rw [if_neg (by simp [hp, hr, hn])]
  cases hl : look m.packages pkg with
  | none =>
    refine ⟨fun h => (by cases h), ?_⟩
    rintro ⟨path, type, ⟨files, hf, _⟩, _⟩
    rw [(look_iff _ hm.packages _ _).2 hf] at hl
    cases hl
  | some files =>
    have hf := (look_iff _ hm.packages _ _).1 hl
    simp only
    rw [insert_mem]
    simp only [List.not_mem_nil, false_or, List.mem_flatMap]
    constructor
    · rintro ⟨f, hff, hid⟩
      unfold fileImpls at hid
      cases ht : look f recv with
      | none => rw [ht] at hid; cases hid
      | some t =>
        rw [ht] at hid
        simp only at hid
        split at hid
        · next hk =>
          obtain ⟨q, hqm, hc⟩ := List.mem_filterMap.1 hid
          have htm := (look_iff _ (hm.files _ hf f hff) _ _).1 ht
          obtain ⟨path, type, h1, h2, h3, rfl⟩ := hq _ hf f hff _ htm q hqm
          obtain ⟨e, hcalls⟩ := (concrete_iff m hm.callers name path type h1 h2 h3 id).1 hc
          exact ⟨path, type, ⟨files, hf, f, hff, t, htm, hk, hqm⟩, h1, h2, h3, e, hcalls⟩
        · cases hid
    · rintro ⟨path, type, ⟨files', hf', f, hff, t, htm, hk, hqm⟩, h1, h2, h3, e, hcalls⟩
      have : files' = files := Option.some.inj (((look_iff _ hm.packages _ _).2 hf').symm.trans hl)
      subst this
      refine ⟨f, hff, ?_⟩
      unfold fileImpls
      rw [(look_iff _ (hm.files _ hf' f hff) _ _).2 htm]
      simp only
      rw [if_pos hk]
      exact List.mem_filterMap.2 ⟨_, hqm, (concrete_iff m hm.callers name path type h1 h2 h3 id).2 ⟨e, hcalls⟩⟩

/-! ### Properties -/

/-- The trace goes on exactly in the methods of the name called of the types that implement the interface, as far as calls
are recorded in them; each is there once. -/
theorem C127_methods (m : Meta) (hm : Maps m) (hq : Qualified m) (pkg recv name : Text) (hp : pkg ≠ []) (hr : recv ≠ []) (hn : name ≠ []) :
    (resolveImplementers m pkg recv name).Nodup ∧
    ∀ id, id ∈ resolveImplementers m pkg recv name ↔ ∃ path type, Implements m pkg recv path type ∧ '.' ∉ type ∧ id = path ++ ['.'] ++ type ++ ['.'] ++ name ∧ HasCalls m id := by
  refine ⟨?_, fun id => ?_⟩
  · unfold resolveImplementers
    rw [if_neg (by simp [hp, hr, hn])]
    split
    · exact List.nodup_nil
    · exact insert_nodup _ _ List.nodup_nil
  · rw [result_mem m hm hq pkg recv name hp hr hn]
    constructor
    · rintro ⟨p, t, h, _, _, h3, h4⟩
      exact ⟨p, t, h, h3, h4⟩
    · rintro ⟨p, t, h, h3, h4⟩
      obtain ⟨files, hf, f, hff, ty, htm, hk, hqm⟩ := h
      obtain ⟨p', t', h1, h2, h3', e⟩ := hq _ hf f hff _ htm _ hqm
      have e' : lastDot (p ++ '.' :: t) = lastDot (p' ++ '.' :: t') := by
        have : p ++ '.' :: t = p' ++ '.' :: t' := by simpa using e
        rw [this]
      rw [lastDot_at p t h3, lastDot_at p' t' h3'] at e'
      cases e'
      exact ⟨p, t, ⟨files, hf, f, hff, ty, htm, hk, hqm⟩, h1, h2, h3, h4⟩

/-- A call of what is no interface of the package goes nowhere else. -/
theorem C127_no_interface (m : Meta) (hm : Maps m) (hq : Qualified m) (pkg recv name : Text)
    (h : ∀ files, (pkg, files) ∈ m.packages → ∀ f ∈ files, ∀ t, (recv, t) ∈ f → t.kind ≠ "interface".toList) : resolveImplementers m pkg recv name = [] := by
  by_cases h0 : recv = [] ∨ pkg = [] ∨ name = []
  · unfold resolveImplementers; rw [if_pos h0]
  · simp only [not_or] at h0
    rw [List.eq_nil_iff_forall_not_mem]
    intro id hid
    obtain ⟨p, t, ⟨files, hf, f, hff, ty, htm, hk, _⟩, _⟩ := (result_mem m hm hq pkg recv name h0.2.1 h0.1 h0.2.2 id).1 hid
    exact h files hf f hff ty htm hk

/-! ### Cases that meet the hypotheses -/

abbrev c (s : String) : Text := s.toList

def shop : Meta :=
  ⟨[(c "shop/db", [[(c "Loader", ⟨c "interface", [c "shop/db.Store", c "shop/cache.Cache", c "shop/db.Empty"]⟩), (c "Store", ⟨c "struct", []⟩)]]), (c "shop/cache", [])],
    [(c "shop/db.Store.Load", 2), (c "shop/cache.Cache.Load", 1), (c "shop/db.Store.Close", 1)]⟩

example : (resolveImplementers shop (c "shop/db") (c "Loader") (c "Load")) = [c "shop/cache.Cache.Load", c "shop/db.Store.Load"] := by decide +kernel
example : resolveImplementers shop (c "shop/db") (c "Store") (c "Load") = [] := by decide +kernel

theorem shop_maps : Maps shop := by
  refine ⟨by unfold OnceKeys; decide +kernel, ?_, by unfold OnceKeys; decide +kernel⟩
  unfold OnceKeys
  intro p hp f hf
  simp only [shop, List.mem_cons, List.not_mem_nil, or_false] at hp
  rcases hp with rfl | rfl
  · simp only [List.mem_cons, List.not_mem_nil, or_false] at hf
    subst hf
    decide +kernel
  · cases hf

/-- The hypotheses are met. -/
example : Maps shop ∧ Qualified shop := by
  refine ⟨shop_maps, ?_⟩
  intro p hp f hf t ht q hq
  simp only [shop, List.mem_cons, List.not_mem_nil, or_false] at hp
  rcases hp with rfl | rfl
  · simp only [List.mem_cons, List.not_mem_nil, or_false] at hf
    subst hf
    simp only [List.mem_cons, List.not_mem_nil, or_false] at ht
    rcases ht with rfl | rfl
    · simp only [List.mem_cons, List.not_mem_nil, or_false] at hq
      rcases hq with rfl | rfl | rfl
      · exact ⟨c "shop/db", c "Store", by decide, by decide, by decide, by decide⟩
      · exact ⟨c "shop/cache", c "Cache", by decide, by decide, by decide, by decide⟩
      · exact ⟨c "shop/db", c "Empty", by decide, by decide, by decide, by decide⟩
    · cases hq
  · cases hf

/-- Only methods that make calls are found: a type whose method makes none implements the interface and is not shown. -/
theorem C127_no_calls : ∃ m : Meta, Maps m ∧ Implements m (c "shop/db") (c "Loader") (c "shop/db") (c "Empty") ∧
    c "shop/db.Empty.Load" ∉ resolveImplementers m (c "shop/db") (c "Loader") (c "Load") :=
  ⟨shop, shop_maps, ⟨_, .head _, _, .head _, _, .head _, rfl, by decide⟩, by decide +kernel⟩

end Verif.Impls
