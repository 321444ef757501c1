import Verif.FieldLookupModel
/-!
# C111: the type of a selected field is the type of the field Go selects
-/

namespace Verif.FieldLookup
open Verif.Common

/-! ### Specification -/

/-- A type, by package and name; predeclared types have no package. -/
abbrev Ty := Str × Str

/-- How an embedded type is spelled: a name, with its package, maybe behind a pointer. -/
def Spells (e : Str) (t : Ty) : Prop :=
  '.' ∉ t.2 ∧ t.2 ≠ [] ∧ ∃ n : Str, n = (if t.1 = [] then t.2 else t.1 ++ '.' :: t.2) ∧ n.head? ≠ some '*' ∧ (e = n ∨ e = '*' :: n)

/-- What holds of recorded structs: each is recorded once, names are identifiers, the fields of a struct differ and have
types, embedded types are spelled as above. -/
structure Proper (m : Meta) : Prop where
  once : (m.map (·.1)).Nodup
  names : ∀ e ∈ m, e.1.1 ≠ [] ∧ e.1.2 ≠ []
  fields : ∀ e ∈ m, (e.2.fields.map (·.1)).Nodup ∧ ∀ f ∈ e.2.fields, f.2 ≠ []
  embeds : ∀ e ∈ m, ∀ s ∈ e.2.embeds, ∃ t, Spells s t

/-- A field of type `ty` at the depth: declared by the struct, or by an embedded one. -/
inductive At (m : Meta) (field : Str) : Ty → Nat → Str → Prop
  | own (t : Ty) (r : StructRec) (ty : Str) : (t, r) ∈ m → (field, ty) ∈ r.fields → At m field t 0 ty
  | promoted (t : Ty) (r : StructRec) (s : Str) (e : Ty) (d : Nat) (ty : Str) :
      (t, r) ∈ m → s ∈ r.embeds → Spells s e → At m field e d ty → At m field t (d + 1) ty

/-- The field Go selects: the one at the smallest depth, which has to be the only one there. -/
def Selects (m : Meta) (field : Str) (t : Ty) (ty : Str) : Prop :=
  ∃ d, At m field t d ty ∧ ∀ d' ty', At m field t d' ty' → d ≤ d' ∧ (d' = d → ty' = ty)

/-- No struct embeds itself, not even through others. -/
def NoCycle (m : Meta) (rank : Ty → Nat) : Prop :=
  ∀ t r s e, (t, r) ∈ m → s ∈ r.embeds → Spells s e → rank e < rank t

/-! ### Lemmas -/

theorem mget_of_mem {κ β : Type} [DecidableEq κ] : ∀ (m : List (κ × β)) (k : κ) (v : β), (m.map (·.1)).Nodup → (k, v) ∈ m → mget m k = some v := by
  intro m k v
  induction m with
  | nil => intro _ h; cases h
  | cons e m ih =>
    obtain ⟨a, b⟩ := e
    intro hn hm
    rw [List.map_cons, List.nodup_cons] at hn
    rw [mget_cons]
    rcases List.mem_cons.1 hm with h | h
    · cases h; rw [if_pos rfl]
    · rw [if_neg, ih hn.2 h]
      rintro rfl
      exact hn.1 (List.mem_map.mpr ⟨_, h, rfl⟩)

theorem mem_of_mget {κ β : Type} [DecidableEq κ] : ∀ (m : List (κ × β)) (k : κ) (v : β), mget m k = some v → (k, v) ∈ m := by
  intro m k v
  induction m with
  | nil => intro h; cases h
  | cons e m ih =>
    obtain ⟨a, b⟩ := e
    intro h
    rw [mget_cons] at h
    split at h
    · next he => cases h; subst he; exact List.mem_cons_self
    · exact List.mem_cons_of_mem _ (ih h)

theorem take_drop (l r : Str) (h : '.' ∉ l) :
    (l ++ '.' :: r).dropWhile (fun c => decide (c ≠ '.')) = '.' :: r ∧ (l ++ '.' :: r).takeWhile (fun c => decide (c ≠ '.')) = l := by
  induction l with
  | nil => simp
  | cons c l ih =>
    have hc : c ≠ '.' := fun he => h (he ▸ List.mem_cons_self)
    have ih := ih (fun hm => h (List.mem_cons_of_mem _ hm))
    rw [List.cons_append, List.dropWhile_cons, List.takeWhile_cons, if_pos (by simpa using hc), if_pos (by simpa using hc)]
    exact ⟨ih.1, by rw [ih.2]⟩

theorem drop_all (l : Str) (h : '.' ∉ l) : l.dropWhile (fun c => decide (c ≠ '.')) = [] := by
  induction l with
  | nil => rfl
  | cons c l ih =>
    have hc : c ≠ '.' := fun he => h (he ▸ List.mem_cons_self)
    rw [List.dropWhile_cons, if_pos (by simpa using hc), ih (fun hm => h (List.mem_cons_of_mem _ hm))]

theorem strip_plain (n : Str) (h : n.head? ≠ some '*') : stripPointer n = n := by
  unfold stripPointer
  split
  · simp at h
  · rfl

theorem split_spells (e : Str) (t : Ty) (h : Spells e t) : splitPkgType (stripPointer e) = t := by
  obtain ⟨hd, _, n, hn, hh, he⟩ := h
  have hs : stripPointer e = n := by
    rcases he with rfl | rfl
    · exact strip_plain _ hh
    · rfl
  rw [hs, hn]
  unfold splitPkgType
  by_cases hp : t.1 = []
  · rw [if_pos hp, drop_all t.2.reverse (by simpa using hd)]
    dsimp only
    rw [← hp]
  · rw [if_neg hp]
    have hr : (t.1 ++ '.' :: t.2).reverse = t.2.reverse ++ '.' :: t.1.reverse := by simp
    obtain ⟨h1, h2⟩ := take_drop t.2.reverse t.1.reverse (by simpa using hd)
    rw [hr, h1]
    dsimp only
    rw [h2]
    simp

theorem spells_inj (e : Str) (s t : Ty) (hs : Spells e s) (ht : Spells e t) : s = t := by
  rw [← split_spells e s hs, ← split_spells e t ht]

theorem find_mem (m : Meta) (hm : Proper m) (t : Ty) (r : StructRec) : findType m t.1 t.2 = some r ↔ (t, r) ∈ m := by
  unfold findType
  constructor
  · intro h
    split at h
    · cases h
    · exact mem_of_mget m _ r h
  · intro h
    have := hm.names _ h
    rw [if_neg (by simp [this.1, this.2])]
    exact mget_of_mem m _ r hm.once h

theorem one_rec (m : Meta) (hm : Proper m) (t : Ty) (r r' : StructRec) (h : (t, r) ∈ m) (h' : (t, r') ∈ m) : r = r' := by
  have h1 := (find_mem m hm t r).mpr h
  rw [(find_mem m hm t r').mpr h'] at h1
  exact (Option.some.inj h1).symm

theorem find_field (l : List (Str × Str)) (hn : (l.map (·.1)).Nodup) (k ty : Str) (h : (k, ty) ∈ l) :
    l.find? (fun f => decide (f.1 = k)) = some (k, ty) := by
  induction l with
  | nil => cases h
  | cons e l ih =>
    obtain ⟨a, b⟩ := e
    rw [List.map_cons, List.nodup_cons] at hn
    rcases List.mem_cons.1 h with h1 | h1
    · cases h1; simp
    · have hne : a ≠ k := by rintro rfl; exact hn.1 (List.mem_map.mpr ⟨_, h1, rfl⟩)
      rw [List.find?_cons_of_neg (by simpa using hne)]
      exact ih hn.2 h1

theorem first_sound (f : Str → Str → Option Str) : ∀ (es : List Str) (r : Str), firstEmbed f es = some r → r ≠ [] →
    ∃ e ∈ es, f (splitPkgType (stripPointer e)).1 (splitPkgType (stripPointer e)).2 = some r := by
  intro es
  induction es with
  | nil => intro r h hr; cases h; exact absurd rfl hr
  | cons e es ih =>
    intro r h hr
    unfold firstEmbed at h
    dsimp only at h
    split at h
    · obtain ⟨x, hx, h1⟩ := ih r h hr
      exact ⟨x, List.mem_cons_of_mem _ hx, h1⟩
    · split at h
      · cases h
      · next r' hr' =>
        split at h
        · obtain ⟨x, hx, h1⟩ := ih r h hr
          exact ⟨x, List.mem_cons_of_mem _ hx, h1⟩
        · cases h
          exact ⟨e, List.mem_cons_self, hr'⟩

theorem first_total (f : Str → Str → Option Str) : ∀ (es : List Str), (∀ e ∈ es, ∃ r, f (splitPkgType (stripPointer e)).1 (splitPkgType (stripPointer e)).2 = some r) →
    (∀ e ∈ es, (splitPkgType (stripPointer e)).2 ≠ []) →
    ∃ r, firstEmbed f es = some r ∧ (r = [] → ∀ e ∈ es, f (splitPkgType (stripPointer e)).1 (splitPkgType (stripPointer e)).2 = some []) := by
  intro es
  induction es with
  | nil => intro _ _; exact ⟨[], rfl, fun _ _ h => by cases h⟩
  | cons e es ih =>
    intro hf hn
    obtain ⟨r, h1, h2⟩ := ih (fun x hx => hf x (List.mem_cons_of_mem _ hx)) (fun x hx => hn x (List.mem_cons_of_mem _ hx))
    obtain ⟨a, ha⟩ := hf e List.mem_cons_self
    unfold firstEmbed
    dsimp only
    rw [if_neg (hn e List.mem_cons_self), ha]
    dsimp only
    by_cases h0 : a = []
    · rw [if_pos h0]
      refine ⟨r, h1, fun hr x hx => ?_⟩
      rcases List.mem_cons.1 hx with rfl | hx
      · rw [ha, h0]
      · exact h2 hr x hx
    · rw [if_neg h0]
      exact ⟨a, rfl, fun h => absurd h h0⟩

theorem look_none (m : Meta) (field : Str) (fuel : Nat) (t : Ty) (h : findType m t.1 t.2 = none) : lookupFieldType m field (fuel + 1) t.1 t.2 = some [] := by
  unfold lookupFieldType; rw [h]

theorem look_own (m : Meta) (field : Str) (fuel : Nat) (t : Ty) (r : StructRec) (f : Str × Str) (h : findType m t.1 t.2 = some r)
    (hf : r.fields.find? (fun f => decide (f.1 = field)) = some f) : lookupFieldType m field (fuel + 1) t.1 t.2 = some f.2 := by
  unfold lookupFieldType; rw [h]; dsimp only; rw [hf]

theorem look_embeds (m : Meta) (field : Str) (fuel : Nat) (t : Ty) (r : StructRec) (h : findType m t.1 t.2 = some r)
    (hf : r.fields.find? (fun f => decide (f.1 = field)) = none) : lookupFieldType m field (fuel + 1) t.1 t.2 = firstEmbed (lookupFieldType m field fuel) r.embeds := by
  conv => lhs; unfold lookupFieldType
  rw [h]; dsimp only; rw [hf]

/-! ### The properties -/

/-- A field the struct declares itself: its type is found at once, whatever the embedded structs contain. -/
theorem C111_own (m : Meta) (hm : Proper m) (field : Str) (fuel : Nat) (t : Ty) (r : StructRec) (ty : Str) (h : (t, r) ∈ m) (hf : (field, ty) ∈ r.fields) :
    Selects m field t ty ∧ lookupFieldType m field (fuel + 1) t.1 t.2 = some ty := by
  have hfind := find_field r.fields (hm.fields _ h).1 field ty hf
  constructor
  · refine ⟨0, .own t r ty h hf, fun d' ty' hat => ⟨Nat.zero_le _, fun h0 => ?_⟩⟩
    subst h0
    cases hat with
    | own _ r' _ h' hf' =>
      rw [← one_rec m hm t r r' h h'] at hf'
      have := find_field r.fields (hm.fields _ h).1 field ty' hf'
      rw [hfind] at this
      injection this with this
      injection this with _ this
      exact this.symm
  · exact look_own m field fuel t r (field, ty) ((find_mem m hm t r).mpr h) hfind

/-- Whatever is found is the type of a field of that name, of the struct or of one embedded in it. -/
theorem C111_sound (m : Meta) (hm : Proper m) (field : Str) : ∀ (fuel : Nat) (t : Ty) (ty : Str), lookupFieldType m field fuel t.1 t.2 = some ty → ty ≠ [] →
    ∃ d, At m field t d ty := by
  intro fuel
  induction fuel with
  | zero => intro t ty h; cases h
  | succ fuel ih =>
    intro t ty h hne
    cases hf : findType m t.1 t.2 with
    | none => rw [look_none m field fuel t hf] at h; cases h; exact absurd rfl hne
    | some r =>
      have hr := (find_mem m hm t r).mp hf
      cases hx : r.fields.find? (fun f => decide (f.1 = field)) with
      | some f =>
        rw [look_own m field fuel t r f hf hx] at h
        cases h
        have h1 := List.find?_some hx
        have h2 := List.mem_of_find?_eq_some hx
        refine ⟨0, .own t r f.2 hr ?_⟩
        have h3 : f.1 = field := by simpa using h1
        rw [← h3]; exact h2
      | none =>
        rw [look_embeds m field fuel t r hf hx] at h
        obtain ⟨s, hs, h1⟩ := first_sound _ _ _ h hne
        obtain ⟨e, he⟩ := hm.embeds _ hr s hs
        rw [split_spells s e he] at h1
        obtain ⟨d, hd⟩ := ih e ty h1 hne
        exact ⟨d + 1, .promoted t r s e d ty hr hs he hd⟩

/-- Without cycles of embedding the search ends, and it finds a type exactly if there is a field of that name. -/
theorem C111_found_partial (m : Meta) (hm : Proper m) (field : Str) (rank : Ty → Nat) (hr : NoCycle m rank) :
    ∀ (fuel : Nat) (t : Ty), rank t < fuel → ∃ ty, lookupFieldType m field fuel t.1 t.2 = some ty ∧ (ty ≠ [] ↔ ∃ d ty', At m field t d ty') := by
  intro fuel
  induction fuel with
  | zero => intro t h; exact absurd h (Nat.not_lt_zero _)
  | succ fuel ih =>
    intro t hlt
    cases hf : findType m t.1 t.2 with
    | none =>
      refine ⟨[], look_none m field fuel t hf, fun h => absurd rfl h, ?_⟩
      rintro ⟨d, ty', hat⟩
      have : ∃ r, (t, r) ∈ m := by cases hat with
        | own _ r _ h _ => exact ⟨r, h⟩
        | promoted _ r _ _ _ _ h _ _ _ => exact ⟨r, h⟩
      obtain ⟨r, h⟩ := this
      rw [(find_mem m hm t r).mpr h] at hf; cases hf
    | some r =>
      have hmem := (find_mem m hm t r).mp hf
      cases hx : r.fields.find? (fun f => decide (f.1 = field)) with
      | some f =>
        have h2 := List.mem_of_find?_eq_some hx
        have h3 : f.1 = field := by have h1 := List.find?_some hx; simpa using h1
        refine ⟨f.2, look_own m field fuel t r f hf hx, fun _ => ⟨0, f.2, .own t r f.2 hmem (h3 ▸ h2)⟩, fun _ => (hm.fields _ hmem).2 f h2⟩
      | none =>
        obtain ⟨ty, h1, h2⟩ := first_total (lookupFieldType m field fuel) r.embeds (by
          intro s hs
          obtain ⟨e, he⟩ := hm.embeds _ hmem s hs
          rw [split_spells s e he]
          obtain ⟨x, hx, _⟩ := ih e (Nat.lt_of_lt_of_le (hr t r s e hmem hs he) (Nat.le_of_lt_succ hlt))
          exact ⟨x, hx⟩) (by
          intro s hs
          obtain ⟨e, he⟩ := hm.embeds _ hmem s hs
          rw [split_spells s e he]
          exact he.2.1)
        have hlook := look_embeds m field fuel t r hf hx
        rw [h1] at hlook
        refine ⟨ty, hlook, fun hne => ?_, ?_⟩
        · obtain ⟨d, hd⟩ := C111_sound m hm field (fuel + 1) t ty hlook hne
          exact ⟨d, ty, hd⟩
        · rintro ⟨d, ty', hat⟩ h0
          cases hat with
          | own _ r' _ h' hf' =>
            rw [← one_rec m hm t r r' hmem h'] at hf'
            rw [find_field r.fields (hm.fields _ hmem).1 field ty' hf'] at hx
            cases hx
          | promoted _ r' s e d' _ h' hs he hat' =>
            rw [← one_rec m hm t r r' hmem h'] at hs
            have h3 := h2 h0 s hs
            rw [split_spells s e he] at h3
            obtain ⟨x, hx1, hx2⟩ := ih e (Nat.lt_of_lt_of_le (hr t r s e hmem hs he) (Nat.le_of_lt_succ hlt))
            rw [h3] at hx1
            cases hx1
            exact hx2.mpr ⟨d', ty', hat'⟩ rfl

/-- The type is the one of the field Go selects, if no struct embeds itself and all fields of that name have one type.
Missing: fields of one name at several depths, `C111_depth_wrong`, and cycles, `C111_cycle_never_ends`. -/
theorem C111_selects_partial (m : Meta) (hm : Proper m) (field : Str) (rank : Ty → Nat) (hr : NoCycle m rank) (t : Ty) (ty : Str)
    (hsel : Selects m field t ty) (hone : ∀ d d' ty' ty'', At m field t d ty' → At m field t d' ty'' → ty' = ty'') :
    lookupFieldType m field (rank t + 1) t.1 t.2 = some ty := by
  obtain ⟨x, h1, h2⟩ := C111_found_partial m hm field rank hr (rank t + 1) t (Nat.lt_succ_self _)
  obtain ⟨d, hd, _⟩ := hsel
  obtain ⟨d', hd'⟩ := C111_sound m hm field _ t x h1 (h2.mpr ⟨d, ty, hd⟩)
  rw [h1, hone d' d x ty hd' hd]

/-! ### Instances and what does not hold -/

abbrev c (s : String) : Str := s.toList

theorem spells_key (p n e : String) (hd : '.' ∉ n.toList) (hn : n.toList ≠ []) (hp : p.toList ≠ []) (h0 : (p.toList ++ '.' :: n.toList).head? ≠ some '*')
    (he : e.toList = p.toList ++ '.' :: n.toList ∨ e.toList = '*' :: (p.toList ++ '.' :: n.toList)) : Spells e.toList (p.toList, n.toList) :=
  ⟨hd, hn, _, rfl, by rw [if_neg hp]; exact h0, by rw [if_neg hp]; exact he⟩

/-- `Page` embeds `Audit`, which embeds `Base`, and `Meta`; `Base` and `Meta` both have an `ID`. -/
abbrev demo : Meta :=
  [((c "app", c "Page"), ⟨[(c "Title", c "string")], [c "app.Audit", c "*app.Meta"]⟩),
   ((c "app", c "Audit"), ⟨[(c "By", c "app.User")], [c "app.Base"]⟩),
   ((c "app", c "Base"), ⟨[(c "ID", c "int")], []⟩),
   ((c "app", c "Meta"), ⟨[(c "ID", c "string")], []⟩)]

theorem sp1 : Spells (c "app.Audit") (c "app", c "Audit") := spells_key "app" "Audit" "app.Audit" (by decide) (by decide) (by decide) (by decide) (by decide)
theorem sp2 : Spells (c "*app.Meta") (c "app", c "Meta") := spells_key "app" "Meta" "*app.Meta" (by decide) (by decide) (by decide) (by decide) (by decide)
theorem sp3 : Spells (c "app.Base") (c "app", c "Base") := spells_key "app" "Base" "app.Base" (by decide) (by decide) (by decide) (by decide) (by decide)

theorem demo_proper : Proper demo where
  once := by decide
  names := by decide
  fields := by decide
  embeds := by
    intro e he s hs
    simp only [demo, List.mem_cons, List.not_mem_nil, or_false] at he
    rcases he with rfl | rfl | rfl | rfl <;> simp only [List.mem_cons, List.not_mem_nil, or_false] at hs
    · rcases hs with rfl | rfl
      · exact ⟨_, sp1⟩
      · exact ⟨_, sp2⟩
    · subst hs; exact ⟨_, sp3⟩

/-- The depth of embedding of the demo. -/
abbrev demoRank (t : Ty) : Nat := if t.2 = c "Page" then 2 else if t.2 = c "Audit" then 1 else 0

theorem demo_nocycle : NoCycle demo demoRank := by
  intro t r s e hm hs he
  simp only [demo, List.mem_cons, List.not_mem_nil, or_false] at hm
  rcases hm with h | h | h | h <;> cases h <;> simp only [List.mem_cons, List.not_mem_nil, or_false] at hs
  · rcases hs with rfl | rfl
    · rw [spells_inj _ _ _ he sp1]; decide
    · rw [spells_inj _ _ _ he sp2]; decide
  · subst hs
    rw [spells_inj _ _ _ he sp3]; decide

example : lookupFieldType demo (c "By") 3 (c "app") (c "Page") = some (c "app.User") ∧ lookupFieldType demo (c "Gone") 3 (c "app") (c "Page") = some [] := by decide

/-- The fields called `ID` of the demo. -/
theorem demo_at (t : Ty) (d : Nat) (ty : Str) (h : At demo (c "ID") t d ty) :
    (t = (c "app", c "Base") ∧ d = 0 ∧ ty = c "int") ∨ (t = (c "app", c "Meta") ∧ d = 0 ∧ ty = c "string") ∨
    (t = (c "app", c "Audit") ∧ d = 1 ∧ ty = c "int") ∨ (t = (c "app", c "Page") ∧ ((d = 2 ∧ ty = c "int") ∨ (d = 1 ∧ ty = c "string"))) := by
  induction h with
  | own t r ty hm hf =>
    simp only [demo, List.mem_cons, List.not_mem_nil, or_false] at hm
    rcases hm with h | h | h | h <;> cases h <;> simp only [List.mem_cons, List.not_mem_nil, or_false, Prod.mk.injEq] at hf
    · exact absurd hf.1 (by decide)
    · exact absurd hf.1 (by decide)
    · exact Or.inl ⟨rfl, rfl, hf.2⟩
    · exact Or.inr (Or.inl ⟨rfl, rfl, hf.2⟩)
  | promoted t r s e d ty hm hs he _ ih =>
    simp only [demo, List.mem_cons, List.not_mem_nil, or_false] at hm
    rcases hm with h | h | h | h <;> cases h <;> simp only [List.mem_cons, List.not_mem_nil, or_false] at hs
    · rcases hs with rfl | rfl
      · have := spells_inj _ _ _ he sp1
        subst this
        rcases ih with ⟨h, _⟩ | ⟨h, _⟩ | ⟨_, h1, h2⟩ | ⟨h, _⟩
        · exact absurd h (by decide)
        · exact absurd h (by decide)
        · exact Or.inr (Or.inr (Or.inr ⟨rfl, Or.inl ⟨by rw [h1], h2⟩⟩))
        · exact absurd h (by decide)
      · have := spells_inj _ _ _ he sp2
        subst this
        rcases ih with ⟨h, _⟩ | ⟨_, h1, h2⟩ | ⟨h, _⟩ | ⟨h, _⟩
        · exact absurd h (by decide)
        · exact Or.inr (Or.inr (Or.inr ⟨rfl, Or.inr ⟨by rw [h1], h2⟩⟩))
        · exact absurd h (by decide)
        · exact absurd h (by decide)
    · subst hs
      have := spells_inj _ _ _ he sp3
      subst this
      rcases ih with ⟨_, h1, h2⟩ | ⟨h, _⟩ | ⟨h, _⟩ | ⟨h, _⟩
      · exact Or.inr (Or.inr (Or.inl ⟨rfl, by rw [h1], h2⟩))
      · exact absurd h (by decide)
      · exact absurd h (by decide)
      · exact absurd h (by decide)

/-- The embedded structs are searched one after the other, not level by level: Go selects the `ID` of `Meta`, a string,
and the `ID` of `Base` is found, an integer, which is deeper. -/
theorem C111_depth_wrong : Selects demo (c "ID") (c "app", c "Page") (c "string") ∧
    lookupFieldType demo (c "ID") 3 (c "app") (c "Page") = some (c "int") := by
  refine ⟨⟨1, ?_, ?_⟩, by decide⟩
  · exact .promoted _ _ _ _ 0 _ List.mem_cons_self (List.mem_cons_of_mem _ List.mem_cons_self) sp2
      (.own _ _ _ (List.mem_cons_of_mem _ (List.mem_cons_of_mem _ (List.mem_cons_of_mem _ List.mem_cons_self))) List.mem_cons_self)
  · intro d' ty' h
    rcases demo_at _ _ _ h with ⟨h, _⟩ | ⟨h, _⟩ | ⟨h, _⟩ | ⟨_, ⟨h1, h2⟩ | ⟨h1, h2⟩⟩
    · exact absurd h (by decide)
    · exact absurd h (by decide)
    · exact absurd h (by decide)
    · exact ⟨by omega, by omega⟩
    · exact ⟨by omega, fun _ => h2⟩

/-- A struct that embeds a pointer to itself, and another one. -/
abbrev loop : Meta :=
  [((c "app", c "Node"), ⟨[], [c "*app.Node", c "app.Base"]⟩),
   ((c "app", c "Base"), ⟨[(c "ID", c "int")], []⟩)]

theorem sp4 : Spells (c "*app.Node") (c "app", c "Node") := spells_key "app" "Node" "*app.Node" (by decide) (by decide) (by decide) (by decide) (by decide)

/-- There Go selects the `ID` of `Base`; the search never ends. -/
theorem C111_cycle_never_ends : Proper loop ∧ Selects loop (c "ID") (c "app", c "Node") (c "int") ∧
    ∀ fuel, lookupFieldType loop (c "ID") fuel (c "app") (c "Node") = none := by
  refine ⟨⟨by decide, by decide, by decide, ?_⟩, ⟨1, ?_, ?_⟩, ?_⟩
  · intro e he s hs
    simp only [loop, List.mem_cons, List.not_mem_nil, or_false] at he
    rcases he with rfl | rfl <;> simp only [List.mem_cons, List.not_mem_nil, or_false] at hs
    rcases hs with rfl | rfl
    · exact ⟨_, sp4⟩
    · exact ⟨_, sp3⟩
  · exact .promoted _ _ _ _ 0 _ List.mem_cons_self (List.mem_cons_of_mem _ List.mem_cons_self) sp3
      (.own _ _ _ (List.mem_cons_of_mem _ List.mem_cons_self) List.mem_cons_self)
  · have all : ∀ t d ty, At loop (c "ID") t d ty → ty = c "int" ∧ (t = (c "app", c "Node") → 1 ≤ d) := by
      intro t d ty h
      induction h with
      | own t r ty hm hf =>
        simp only [loop, List.mem_cons, List.not_mem_nil, or_false] at hm
        rcases hm with h | h <;> cases h <;> simp only [List.mem_cons, List.not_mem_nil, or_false, Prod.mk.injEq] at hf
        exact ⟨hf.2, fun h => absurd h (by decide)⟩
      | promoted t r s e d ty hm hs he _ ih => exact ⟨ih.1, fun _ => by omega⟩
    intro d' ty' h
    exact ⟨(all _ _ _ h).2 rfl, fun _ => (all _ _ _ h).1⟩
  · intro fuel
    induction fuel with
    | zero => rfl
    | succ fuel ih =>
      have h1 := look_embeds loop (c "ID") fuel (c "app", c "Node") ⟨[], [c "*app.Node", c "app.Base"]⟩ (by rfl) (by rfl)
      have h2 : firstEmbed (lookupFieldType loop (c "ID") fuel) [c "*app.Node", c "app.Base"] = none := by
        unfold firstEmbed
        rw [split_spells _ _ sp4]
        dsimp only
        rw [if_neg (by decide), ih]
      exact h1.trans h2

end Verif.FieldLookup
