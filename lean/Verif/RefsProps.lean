import Verif.RefsLemmas
/-!
# Properties C01, C02, C03: references and their repair

The specification vocabulary (`RefersTo`, `Defines`, `serialDoc`) is in `RefsSpec`.
-/

namespace Verif.Refs
open Verif.Common

/-- **C01.** After repair, every component schema the document refers to — from any
place, through any chain of schema-valued fields, cyclic or not — is defined. -/
theorem C01_no_dangling_refs (goTypes : String → String) (d : Doc) (hw : WellFormed d) (name : String)
    (h : RefersTo (repair goTypes d).1 name) : Defines (repair goTypes d).1 name := by
  rcases repair_fst goTypes d with ⟨he, hm⟩ | he
  · rw [he] at h ⊢
    apply Classical.not_not.mp
    intro hd
    have := (mem_missingNames d name).mpr ⟨h, hd⟩
    rw [hm] at this
    simp at this
  · have h0 := refersTo_of_repaired goTypes d hw name _ he h
    rw [he]
    by_cases hd : Defines d name
    · obtain ⟨c, p, hc, hp⟩ := hd
      refine ⟨_, p, rfl, ?_⟩
      simp [hc, hp]
    · have hmem := (mem_missingNames d name).mpr ⟨h0, hd⟩
      obtain ⟨i, hi, hget⟩ := List.mem_iff_getElem.mp hmem
      refine ⟨_, some (d.heap.length + i), rfl, ?_⟩
      apply List.mem_append_right
      rw [List.mem_map]
      refine ⟨(name, d.heap.length + i), ?_, rfl⟩
      rw [List.mk_mem_zipIdx_iff_le_and_getElem?_sub]
      simp [hi, hget]

/-- The walk that feeds the repair visits exactly the names the document refers to. -/
theorem C01_walk_visits_every_reference (d : Doc) (name : String) :
    name ∈ refNames d ↔ RefersTo d name := mem_refNames d name

/-- **C02 (what is kept).** Repair leaves paths, every existing schema cell, and all
other component sections as they are; the components it had come first, unchanged. -/
theorem C02_repair_keeps_everything (goTypes : String → String) (d : Doc) :
    (repair goTypes d).1.paths = d.paths ∧
    d.heap <+: (repair goTypes d).1.heap ∧
    (∀ c, d.components = some c → ∃ c', (repair goTypes d).1.components = some c' ∧
      c.schemas <+: c'.schemas ∧ c'.responses = c.responses ∧ c'.parameters = c.parameters ∧
      c'.requestBodies = c.requestBodies ∧ c'.headers = c.headers) := by
  rcases repair_fst goTypes d with ⟨he, _⟩ | he
  · rw [he]
    exact ⟨rfl, List.prefix_refl _, fun c hc => ⟨c, hc, List.prefix_refl _, rfl, rfl, rfl, rfl⟩⟩
  · rw [he]
    refine ⟨rfl, List.prefix_append _ _, fun c hc => ?_⟩
    simp only [hc, Option.getD_some]
    exact ⟨_, rfl, List.prefix_append _ _, rfl, rfl, rfl, rfl⟩

/-- **C02 (what is added).** The names defined afterwards are those defined before and
those that were referred to without being defined, and each new entry is a schema
without references. -/
theorem C02_repair_adds_exactly_missing (goTypes : String → String) (d : Doc) (name : String) :
    Defines (repair goTypes d).1 name ↔ Defines d name ∨ (RefersTo d name ∧ ¬ Defines d name) := by
  rw [← mem_missingNames]
  rcases repair_fst goTypes d with ⟨he, hm⟩ | he
  · rw [he, hm]; simp
  · rw [he]
    unfold Defines
    constructor
    · rintro ⟨_, p, hc, hp⟩
      simp only [Option.some.injEq] at hc
      subst hc
      simp only [List.mem_append, List.mem_map, Prod.mk.injEq, Prod.exists] at hp
      rcases hp with (h | ⟨a, b, h1, h2, h3⟩)
      · left
        cases hc : d.components with
        | none => rw [hc] at h; simp at h
        | some c => rw [hc] at h; exact ⟨c, p, rfl, h⟩
      · right
        subst h2
        exact List.fst_mem_of_mem_zipIdx h1
    · rintro (⟨c, p, hc, h⟩ | h)
      · exact ⟨_, p, rfl, List.mem_append_left _ (by rw [hc]; exact h)⟩
      · obtain ⟨i, hi, hget⟩ := List.mem_iff_getElem.mp h
        refine ⟨_, some (d.heap.length + i), rfl, List.mem_append_right _
          (List.mem_map.mpr ⟨(name, d.heap.length + i), ?_, rfl⟩)⟩
        rw [List.mk_mem_zipIdx_iff_le_and_getElem?_sub]
        simp [hi, hget]

/-- Added schemas are placeholders: objects without any reference. -/
theorem C02_added_are_placeholders (goTypes : String → String) (d : Doc) (c' : Components) (name : String)
    (p : Ptr) (hc : (repair goTypes d).1.components = some c') (hp : (name, p) ∈ c'.schemas)
    (hnew : ¬ Defines d name) :
    ∃ a s, p = some a ∧ (repair goTypes d).1.heap[a]? = some s ∧ s = placeholder (described goTypes name) ∧
      s.ref = [] ∧ kids s = [none, none, none] := by
  rcases repair_fst goTypes d with ⟨he, hm⟩ | he
  · rw [he] at hc
    exact absurd ⟨c', p, hc, hp⟩ hnew
  · rw [he] at hc ⊢
    simp only [Option.some.injEq] at hc
    subst hc
    simp only [List.mem_append, List.mem_map, Prod.mk.injEq, Prod.exists] at hp
    rcases hp with h | ⟨x, i, h1, h2, h3⟩
    · exfalso
      apply hnew
      cases hc : d.components with
      | none => rw [hc] at h; simp at h
      | some c => rw [hc] at h; exact ⟨c, p, hc, h⟩
    · subst h2 h3
      refine ⟨i, placeholder (described goTypes x), rfl, ?_, rfl, rfl, rfl⟩
      have hle := List.le_snd_of_mem_zipIdx h1
      simp only at hle
      rw [List.getElem?_append_right hle, List.getElem?_map]
      rw [List.mk_mem_zipIdx_iff_le_and_getElem?_sub] at h1
      rw [h1.2]
      rfl

/-- **C02 (report).** The report lists exactly the names that were referred to without
being defined, each once, in ascending order. -/
theorem C02_report_exact (goTypes : String → String) (d : Doc) :
    (∀ name, name ∈ (repair goTypes d).2.map UnresolvedRef.component ↔ RefersTo d name ∧ ¬ Defines d name) ∧
    ((repair goTypes d).2.map UnresolvedRef.component).Pairwise (· < ·) := by
  have key : (repair goTypes d).2.map UnresolvedRef.component = missingNames d := by
    unfold repair
    split
    · rename_i h
      simp [missingNames, h, dedup, dedupBy, dedupGo, sortStrings, isort]
    · dsimp only
      split
      · rename_i h; simp [h]
      · simp [List.map_map, Function.comp_def]
  rw [key]
  refine ⟨fun name => mem_missingNames d name, ?_⟩
  have h1 : (missingNames d).Pairwise (fun a b => a ≤ b) := sortStrings_sorted _
  have h2 : (missingNames d).Pairwise (fun a b => a ≠ b) := missingNames_nodup d
  refine (h1.and h2).imp ?_
  intro a b h
  exact Decidable.byContradiction fun hlt => h.2 (String.le_antisymm h.1 (by simpa using hlt))

/-- **C02 (site counts).** Whenever the serialized document is finite, the number of
sites reported for a component is the number of times the serialized document mentions it. -/
theorem C02_sites_exact (goTypes : String → String) (d : Doc) (n : Nat)
    (hfin : ∀ p, Root d p → finite d.heap n p = true) (u : UnresolvedRef) (hu : u ∈ (repair goTypes d).2) :
    u.sites = (serialDoc d n).count u.component ∧ u.goType = goTypes u.component := by
  unfold repair at hu
  split at hu
  · simp at hu
  · dsimp only at hu
    split at hu
    · simp at hu
    · simp only [List.mem_map] at hu
      obtain ⟨nm, _, rfl⟩ := hu
      exact ⟨refNames_count d n nm hfin, rfl⟩

/-- **C02 (no news).** A document without dangling references is returned as is, with an
empty report. -/
theorem C02_complete_document_untouched (goTypes : String → String) (d : Doc)
    (h : ∀ name, RefersTo d name → Defines d name) : repair goTypes d = (d, []) := by
  have hm : missingNames d = [] := by
    apply List.eq_nil_iff_forall_not_mem.mpr
    intro n hn
    have := (mem_missingNames d n).mp hn
    exact this.2 (h n this.1)
  unfold repair
  split
  · rfl
  · simp [hm]

/-- **C02 (idempotence).** Repairing a repaired document does nothing and reports nothing. -/
theorem C02_repair_idempotent (goTypes goTypes' : String → String) (d : Doc) (hw : WellFormed d) :
    repair goTypes' (repair goTypes d).1 = ((repair goTypes d).1, []) :=
  C02_complete_document_untouched goTypes' _ fun name h => C01_no_dangling_refs goTypes d hw name h

/-- The Go type reported for a component name is `t` exactly when `t` is a used
type (up to a pointer star) with that component name and no other used type has it. -/
theorem reported_type_iff (mangle : List Char → String) (used : List (List Char)) (name : String)
    (t : List Char) :
    goTypeByComponentName mangle used name = some t ↔
      ((∃ u ∈ used, bareType u = t) ∧ mangle t = name ∧ ∀ u ∈ used, mangle (bareType u) = name → bareType u = t) := by
  obtain ⟨h1, h2⟩ := goInv_all mangle used name
  unfold goTypeByComponentName
  simp only [h1]
  constructor
  · intro h
    split at h
    · simp at h
    · rename_i hna
      rw [h2] at hna
      have hm := List.mem_of_find?_eq_some h
      have hn : mangle t = name := by simpa using List.find?_some h
      refine ⟨by simpa using hm, hn, ?_⟩
      intro u hu hmu
      by_cases e : bareType u = t
      · exact e
      · exact absurd ⟨t, h, bareType u, List.mem_map_of_mem hu, hmu, e⟩ hna
  · rintro ⟨⟨u, hu, rfl⟩, hmt, hall⟩
    have hsome : ∃ b1, firstFor mangle (used.map bareType) name = some b1 := by
      cases hf : firstFor mangle (used.map bareType) name with
      | some b => exact ⟨b, rfl⟩
      | none =>
        have := List.find?_eq_none.mp hf (bareType u) (List.mem_map_of_mem hu)
        simp [hmt] at this
    obtain ⟨b1, hb1⟩ := hsome
    have hb1m := List.mem_of_find?_eq_some hb1
    have hb1n : mangle b1 = name := by simpa using List.find?_some hb1
    obtain ⟨v, hv, rfl⟩ := List.mem_map.mp hb1m
    have e1 := hall v hv hb1n
    rw [if_neg, hb1, e1]
    rw [h2]
    rintro ⟨b2, hb2, b, hb, hmb, hne⟩
    rw [hb1] at hb2
    simp only [Option.some.injEq] at hb2
    obtain ⟨w, hw, rfl⟩ := List.mem_map.mp hb
    exact hne ((hall w hw hmb).trans (e1.symm.trans hb2))

theorem bareOf_iff (u t : List Char) : BareOf u t ↔ bareType u = t := by
  unfold BareOf
  match u with
  | [] => simp [bareType]; grind
  | c :: cs =>
    by_cases hc : c = '*'
    · subst hc
      simp only [bareType, List.cons.injEq, true_and]
      constructor
      · rintro (h | ⟨h, hne⟩)
        · exact h
        · subst h; simp at hne
      · exact Or.inl
    · have hb : bareType (c :: cs) = c :: cs := by
        unfold bareType
        split
        · rename_i h; simp at h; exact absurd h.1 hc
        · rfl
      rw [hb]
      constructor
      · rintro (h | ⟨h, _⟩)
        · simp at h; exact absurd h.1 hc
        · exact h
      · rintro rfl; exact Or.inr ⟨rfl, by simpa using hc⟩

/-- **C03.** The Go type reported for a component name is `t` exactly when `t` is a used
type (up to one pointer star) with that component name and no other used type has it. -/
theorem C03_reported_type_unique (mangle : List Char → String) (used : List (List Char)) (name : String)
    (t : List Char) :
    goTypeByComponentName mangle used name = some t ↔
      ((∃ u ∈ used, BareOf u t) ∧ mangle t = name ∧
        ∀ u ∈ used, ∀ t', BareOf u t' → mangle t' = name → t' = t) := by
  rw [reported_type_iff]
  simp only [bareOf_iff]
  constructor
  · rintro ⟨h1, h2, h3⟩; exact ⟨h1, h2, fun u hu t' e hm => by subst e; exact h3 u hu hm⟩
  · rintro ⟨h1, h2, h3⟩; exact ⟨h1, h2, fun u hu hm => h3 u hu _ rfl hm⟩

/-- **C03 (order).** The reported type does not depend on the order the used-type table
is walked in. -/
theorem C03_order_independent (mangle : List Char → String) (used used' : List (List Char))
    (hp : used.Perm used') (name : String) :
    goTypeByComponentName mangle used name = goTypeByComponentName mangle used' name := by
  apply Option.ext
  intro t
  rw [reported_type_iff, reported_type_iff]
  simp only [hp.mem_iff]

/-! ## Concrete cases meeting the hypotheses -/

/-- A document with a self-referential schema, a shared schema, two uses of the missing
`pkg_B`, one defined component, and a parameter-level reference. -/
def exDoc : Doc where
  heap := [
    { properties := [("self", some 0), ("b", some 1)] },
    { ref := "#/components/schemas/pkg_B".toList },
    { ref := "#/components/schemas/pkg_A".toList, items := some 1 }]
  paths := [("/x", { get := some { responses := [("200", { content := [("application/json", ⟨some 2⟩)] })] },
                     parameters := [{ ref := "#/components/schemas/pkg_C".toList }] })]
  components := some { schemas := [("pkg_A", some 0)] }

example : missingNames exDoc = ["pkg_B", "pkg_C"] := by decide
example : (repair (fun _ => "") exDoc).2 = [⟨"pkg_B", "", 2⟩, ⟨"pkg_C", "", 1⟩] := by decide

theorem exDoc_wf : WellFormed exDoc := by
  constructor
  · intro p hp a ha
    subst ha
    have : (a = 0 ∨ a = 2) := by
      simp [Root, exDoc, ItemParam, ItemOp, ResponseHolds] at hp
      grind
    rcases this with rfl | rfl <;> decide
  · intro a s p hs hh b hb
    subst hb
    have : a = 0 ∨ a = 1 ∨ a = 2 ∨ 3 ≤ a := by omega
    rcases this with rfl | rfl | rfl | h3
    · simp [exDoc] at hs; subst hs; simp [Holds] at hh
      have : b = 0 ∨ b = 1 := by grind
      rcases this with rfl | rfl <;> decide
    · simp [exDoc] at hs; subst hs; simp [Holds] at hh
    · simp [exDoc] at hs; subst hs; simp [Holds] at hh; subst hh; decide
    · have : exDoc.heap[a]? = none := by
        rw [List.getElem?_eq_none_iff]; exact h3
      rw [this] at hs; cases hs

/-- `RefersTo` holds of the repaired example, so C01's hypothesis is met. -/
example : RefersTo (repair (fun _ => "") exDoc).1 "pkg_B" :=
  (mem_refNames _ _).mp (by decide)

/-- A finite document for the site-count theorem: `pkg_B` is mentioned twice through one
shared schema. -/
def exFinite : Doc where
  heap := [{ ref := "#/components/schemas/pkg_B".toList }, { allOf := [some 0], items := some 0 }]
  paths := [("/x", { parameters := [{ schema := some 1 }] })]

example : finite exFinite.heap 2 (some 1) = true ∧ (serialDoc exFinite 2).count "pkg_B" = 2 ∧
    (repair (fun _ => "") exFinite).2 = [⟨"pkg_B", "", 2⟩] := by decide

/-- Two types that mangle to one name: no type is reported; a pointer spelling is no clash. -/
example : goTypeByComponentName (fun s => String.ofList (s.map fun c => if c = '.' then '_' else c))
      ["a.b".toList, "a_b".toList] "a_b" = none ∧
    goTypeByComponentName (fun s => String.ofList (s.map fun c => if c = '.' then '_' else c))
      ["a.b".toList, "*a.b".toList] "a_b" = some "a.b".toList := by decide

end Verif.Refs
