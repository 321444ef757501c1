import Verif.MappingModel
/-!
# Properties: type mappings, external types and the registry
-/

namespace Verif.MappingModel
open Verif.Common

/-! ## Specification -/

/-- The short name of a type: the part after the last slash. -/
inductive Short : Str → Str → Prop
  | whole {s} : '/' ∉ s → Short s s
  | after (p : Str) {s} : '/' ∉ s → Short (p ++ '/' :: s) s

/-- A slice, array, pointer or map type. -/
inductive Container : Str → Prop
  | slice (t) : Container ('[' :: t)
  | pointer (t) : Container ('*' :: t)
  | map (t) : Container ('m' :: 'a' :: 'p' :: '[' :: t)

/-- An entry for a named type applies to a named type by short name. -/
def Near (entry goType : Str) : Prop := ¬ Container entry ∧ ¬ Container goType ∧ ∃ n, Short entry n ∧ Short goType n

/-- The first element of a list with a property: it has it, and none before it. -/
inductive FirstWith {α : Type} (P : α → Prop) : List α → α → Prop
  | here {a l} : P a → FirstWith P (a :: l) a
  | later {a b l} : ¬ P b → FirstWith P l a → FirstWith P (b :: l) a

/-! ## Proofs -/

theorem shortFrom_free (b : Str) : ∀ s : Str, '/' ∉ s → shortFrom b s = b
  | [], _ => rfl
  | c :: cs, h => by
    rw [shortFrom, if_neg (fun e => h (by rw [e]; exact List.mem_cons_self ..))]
    exact shortFrom_free b cs fun hm => h (List.mem_cons_of_mem _ hm)

theorem shortFrom_after (s : Str) (hs : '/' ∉ s) : ∀ (p b : Str), shortFrom b (p ++ '/' :: s) = s
  | [], b => by rw [List.nil_append, shortFrom, if_pos rfl, shortFrom_free s s hs]
  | c :: p, b => by
    rw [List.cons_append, shortFrom]
    split
    · exact shortFrom_after s hs p _
    · exact shortFrom_after s hs p b

theorem short_eq {s n : Str} (h : Short s n) : shortTypeName s = n := by
  cases h with
  | whole h => exact shortFrom_free s s h
  | after p h => exact shortFrom_after n h p _

theorem short_exists (s : Str) : Short s (shortTypeName s) := by
  have : ∃ n, Short s n := by
    induction s with
    | nil => exact ⟨[], .whole (by simp)⟩
    | cons c s ih =>
      obtain ⟨n, hn⟩ := ih
      cases hn with
      | whole h =>
        by_cases hc : c = '/'
        · exact ⟨s, hc ▸ .after [] h⟩
        · exact ⟨c :: s, .whole fun hm => by rcases List.mem_cons.mp hm with e | e; exact hc e.symm; exact h e⟩
      | after p h => exact ⟨n, .after (c :: p) h⟩
  obtain ⟨n, hn⟩ := this
  rw [short_eq hn]
  exact hn

theorem bare_iff (s : Str) : isBareTypeName s = true ↔ ¬ Container s := by
  constructor
  · intro h hc
    cases hc with
    | slice t => simp [isBareTypeName, List.isPrefixOf] at h
    | pointer t => simp [isBareTypeName, List.isPrefixOf] at h
    | map t => simp [isBareTypeName, List.isPrefixOf] at h
  · intro h
    unfold isBareTypeName
    have h1 : ['['].isPrefixOf s = false := by
      cases hp : ['['].isPrefixOf s with
      | false => rfl
      | true => obtain ⟨t, rfl⟩ := List.isPrefixOf_iff_prefix.mp hp; exact absurd (.slice t) h
    have h2 : ['*'].isPrefixOf s = false := by
      cases hp : ['*'].isPrefixOf s with
      | false => rfl
      | true => obtain ⟨t, rfl⟩ := List.isPrefixOf_iff_prefix.mp hp; exact absurd (.pointer t) h
    have h3 : ['m', 'a', 'p', '['].isPrefixOf s = false := by
      cases hp : ['m', 'a', 'p', '['].isPrefixOf s with
      | false => rfl
      | true => obtain ⟨t, rfl⟩ := List.isPrefixOf_iff_prefix.mp hp; exact absurd (.map t) h
    rw [h1, h2, h3]; rfl

theorem near_iff (e t : Str) : shortNameMatchesBare e t = true ↔ Near e t := by
  unfold shortNameMatchesBare Near
  rw [Bool.and_eq_true, Bool.and_eq_true, bare_iff, bare_iff, decide_eq_true_eq]
  constructor
  · rintro ⟨⟨h1, h2⟩, h3⟩
    exact ⟨h1, h2, shortTypeName e, short_exists e, h3 ▸ short_exists t⟩
  · rintro ⟨h1, h2, n, h3, h4⟩
    exact ⟨⟨h1, h2⟩, (short_eq h3).trans (short_eq h4).symm⟩

theorem find_first {α : Type} (p : α → Bool) (P : α → Prop) (h : ∀ a, p a = true ↔ P a) (l : List α) (a : α) : l.find? p = some a ↔ FirstWith P l a := by
  induction l with
  | nil => exact ⟨fun h => (by cases h), fun h => (by cases h)⟩
  | cons b l ih =>
    rw [List.find?_cons]
    cases hb : p b with
    | true =>
      constructor
      · intro e; injection e with e; subst e; exact .here ((h b).mp hb)
      · intro hf
        cases hf with
        | here _ => rfl
        | later hn _ => exact absurd ((h b).mp hb) hn
    | false =>
      have hn : ¬ P b := fun x => by rw [(h b).mpr x] at hb; cases hb
      constructor
      · intro e; exact .later hn (ih.mp e)
      · intro hf
        cases hf with
        | here hp => exact absurd hp hn
        | later _ hf => exact ih.mpr hf

theorem find_none {α : Type} (p : α → Bool) (P : α → Prop) (h : ∀ a, p a = true ↔ P a) (l : List α) : l.find? p = none ↔ ∀ a ∈ l, ¬ P a := by
  rw [List.find?_eq_none]
  exact ⟨fun hl a ha hp => hl a ha ((h a).mpr hp), fun hl a ha hp => hl a ha ((h a).mp hp)⟩

/-- **C52.** The mapping of a type is that of the first entry with its very name; without such an entry,
that of the first entry with its short name, if neither is a slice, array, pointer or map; else there is
none. -/
theorem C52_lookup {σ : Type} (ms : List (Str × σ)) (t : Str) (s : σ) : lookupConfigSchema ms t = some s ↔
    (∃ e, FirstWith (fun m => m.1 = t) ms e ∧ e.2 = s) ∨ ((∀ m ∈ ms, m.1 ≠ t) ∧ ∃ e, FirstWith (fun m => Near m.1 t) ms e ∧ e.2 = s) := by
  unfold lookupConfigSchema
  have k1 := find_first (fun m : Str × σ => decide (m.1 = t)) (fun m => m.1 = t) (fun a => decide_eq_true_iff) ms
  have k0 := find_none (fun m : Str × σ => decide (m.1 = t)) (fun m => m.1 = t) (fun a => decide_eq_true_iff) ms
  have k2 := find_first (fun m : Str × σ => shortNameMatchesBare m.1 t) (fun m => Near m.1 t) (fun a => near_iff _ _) ms
  cases h1 : ms.find? fun m => decide (m.1 = t) with
  | some e =>
    have hf := (k1 e).mp h1
    constructor
    · intro h; injection h with h; exact .inl ⟨e, hf, h⟩
    · rintro (⟨e', hf', rfl⟩ | ⟨hn, _⟩)
      · have := (k1 e').mpr hf'
        rw [h1] at this
        injection this with this
        rw [this]
      · rw [k0.mpr hn] at h1; cases h1
  | none =>
    have hn := k0.mp h1
    have no : ∀ e, ¬ FirstWith (fun m : Str × σ => m.1 = t) ms e := fun e hf => by rw [(k1 e).mpr hf] at h1; cases h1
    simp only
    cases h2 : ms.find? fun m => shortNameMatchesBare m.1 t with
    | some e =>
      have hf := (k2 e).mp h2
      constructor
      · intro h; injection h with h; exact .inr ⟨hn, e, hf, h⟩
      · rintro (⟨e', hf', _⟩ | ⟨_, e', hf', rfl⟩)
        · exact absurd hf' (no e')
        · have := (k2 e').mpr hf'
          rw [h2] at this
          injection this with this
          rw [this]
    | none =>
      constructor
      · intro h; cases h
      · rintro (⟨e', hf', _⟩ | ⟨_, e', hf', _⟩)
        · exact absurd hf' (no e')
        · rw [(k2 e').mpr hf'] at h2; cases h2

example : lookupConfigSchema [("uuid.UUID".toList, 1), ("github.com/google/uuid.UUID".toList, 2)] "github.com/google/uuid.UUID".toList = some 2 ∧
    lookupConfigSchema [("uuid.UUID".toList, 1)] "github.com/google/uuid.UUID".toList = some 1 ∧
    lookupConfigSchema [("uuid.UUID".toList, 1)] "[]github.com/google/uuid.UUID".toList = none := by decide

/-- **C52 (exact beats short).** An entry with the very name wins wherever it is; of several, the first. -/
theorem C52_exact_wins {σ : Type} (before after : List (Str × σ)) (t : Str) (s : σ) (h : ∀ m ∈ before, m.1 ≠ t) : lookupConfigSchema (before ++ (t, s) :: after) t = some s := by
  rw [C52_lookup]
  left
  refine ⟨(t, s), ?_, rfl⟩
  induction before with
  | nil => exact .here rfl
  | cons b before ih => exact .later (h b (List.mem_cons_self ..)) (ih fun m hm => h m (List.mem_cons_of_mem _ hm))

/-- **C52 (containers).** A mapping never applies to a slice, array, pointer or map unless it names that very
type. -/
theorem C52_containers {σ : Type} (ms : List (Str × σ)) (t : Str) (hc : Container t) (h : ∀ m ∈ ms, m.1 ≠ t) : lookupConfigSchema ms t = none := by
  cases hl : lookupConfigSchema ms t with
  | none => rfl
  | some s =>
    exfalso
    rw [C52_lookup] at hl
    rcases hl with ⟨e, hf, _⟩ | ⟨_, e, hf, _⟩
    · have : ∀ l e, FirstWith (fun m : Str × σ => m.1 = t) l e → (∀ m ∈ l, m.1 ≠ t) → False := by
        clear hf h
        intro l e hf
        induction hf with
        | here hp => exact fun h => h _ (List.mem_cons_self ..) hp
        | later _ _ ih => exact fun h => ih fun m hm => h m (List.mem_cons_of_mem _ hm)
      exact this ms e hf h
    · have : ∀ l e, FirstWith (fun m : Str × σ => Near m.1 t) l e → False := by
        intro l e hf
        induction hf with
        | here hp => exact hp.2.1 hc
        | later _ _ ih => exact ih
      exact this ms e hf

example : Container "map[string]uuid.UUID".toList ∧ Container "*uuid.UUID".toList ∧ Container "[16]uuid.UUID".toList := ⟨.map _, .pointer _, .slice _⟩

/-- And a mapping for a container applies to nothing but that very type. -/
theorem C52_container_entry {σ : Type} (e t : Str) (s : σ) (hc : Container e) (h : e ≠ t) : lookupConfigSchema [(e, s)] t = none := by
  cases hl : lookupConfigSchema [(e, s)] t with
  | none => rfl
  | some s' =>
    exfalso
    rw [C52_lookup] at hl
    rcases hl with ⟨_, hf, _⟩ | ⟨_, _, hf, _⟩
    · cases hf with
      | here hp => exact h hp
      | later _ hf => cases hf
    · cases hf with
      | here hp => exact hp.1 hc
      | later _ hf => cases hf

/-- **C52 (external types).** The same two passes for declared external types. -/
theorem C52_external (names : List Str) (t : Str) : configHasExternalType names t = true ↔ t ∈ names ∨ ∃ n ∈ names, Near n t := by
  unfold configHasExternalType
  split
  · next h =>
    refine ⟨fun _ => ?_, fun _ => rfl⟩
    obtain ⟨n, hn, he⟩ := List.any_eq_true.mp h
    exact .inl (of_decide_eq_true he ▸ hn)
  · next h =>
    rw [List.any_eq_true]
    constructor
    · rintro ⟨n, hn, he⟩; exact .inr ⟨n, hn, (near_iff _ _).mp he⟩
    · rintro (ht | ⟨n, hn, he⟩)
      · exact absurd (List.any_eq_true.mpr ⟨t, ht, decide_eq_true rfl⟩) h
      · exact ⟨n, hn, (near_iff _ _).mpr he⟩

/-- **C52 (arguments).** The short name of an instance of a generic type starts inside its type argument:
a mapping for one generic type applies to another one with an argument of that short name. -/
theorem C52_generic_argument : lookupConfigSchema [("app/opt.Option[app/models.User]".toList, 1)] "app/page.Page[other/models.User]".toList = some 1 := by decide

/-- **C52 (channels).** Other type constructors are not containers here: the mapping of a type applies to a
channel of it. -/
theorem C52_channel : lookupConfigSchema [("uuid.UUID".toList, 1)] "chan github.com/google/uuid.UUID".toList = some 1 := by decide

/-! ## External types -/

/-- **C61 (registry).** The registry and the facts decide only named types the user has not declared as
external; the entry with the full name comes before that with the short name, the registry before the
facts. -/
theorem C61_resolve {σ : Type} (prim : Str → Bool) (reg : List (Str × σ)) (ext : List Str) (facts : List (Str × Fact)) (t : Str) (n : Str) (hn : Short t n) :
    (Container t ∨ t ∈ ext ∨ (∃ e ∈ ext, Near e t) → resolveExternalType prim reg ext facts t = .unhandled) ∧
    (¬ Container t → t ∉ ext → (∀ e ∈ ext, ¬ Near e t) →
      (∀ s, mget reg t = some s → resolveExternalType prim reg ext facts t = .registry s) ∧
      (∀ s, mget reg t = none → mget reg n = some s → resolveExternalType prim reg ext facts t = .registry s) ∧
      (mget reg t = none → mget reg n = none → mget facts t = none → mget facts n = none → resolveExternalType prim reg ext facts t = .unhandled) ∧
      (∀ f, mget reg t = none → mget reg n = none → (mget facts t = some f ∨ (mget facts t = none ∧ mget facts n = some f)) →
        (f.marshaler = .text → resolveExternalType prim reg ext facts t = .text) ∧
        (f.marshaler = .json → resolveExternalType prim reg ext facts t = .guessed) ∧
        (f.marshaler = .none → prim f.underlying = true → f.underlying ≠ [] → f.underlying ≠ t → f.underlying ≠ n → resolveExternalType prim reg ext facts t = .primitive f.underlying) ∧
        (f.marshaler = .none → (prim f.underlying = false ∨ f.underlying = [] ∨ f.underlying = t ∨ f.underlying = n) → resolveExternalType prim reg ext facts t = .unhandled))) := by
  have hs := short_eq hn
  subst hs
  constructor
  · intro h
    unfold resolveExternalType
    split
    · rfl
    · next hb =>
      rcases h with h | h
      · have := (bare_iff t).mp (by simpa using hb)
        exact absurd h this
      · rw [if_pos ((C52_external ext t).mpr h)]
  · intro hc h1 h2
    have hb : (!isBareTypeName t) = false := by rw [(bare_iff t).mpr hc]; rfl
    have he : configHasExternalType ext t = false := by
      cases h : configHasExternalType ext t with
      | false => rfl
      | true =>
        rcases (C52_external ext t).mp h with h | ⟨e, he, hn⟩
        · exact absurd h h1
        · exact absurd hn (h2 e he)
    unfold resolveExternalType
    rw [hb, he]
    simp only [Bool.false_eq_true, if_false]
    refine ⟨?_, ?_, ?_, ?_⟩
    · intro s h; rw [h]
    · intro s h h'; rw [h, h']
    · intro h h' h3 h4; rw [h, h', h3, h4]
    · intro f h h' hf
      rw [h, h']
      have key : ∀ (r : Res σ), byFact prim t f = r →
          (match mget facts t with
            | some f => byFact prim t f
            | none => match mget facts (shortTypeName t) with
              | some f => byFact prim t f
              | none => Res.unhandled) = r := by
        intro r hr
        rcases hf with hf | ⟨hf, hf'⟩
        · rw [hf]; exact hr
        · rw [hf, hf']; exact hr
      refine ⟨?_, ?_, ?_, ?_⟩
      · intro hm; exact key _ (by rw [byFact, hm])
      · intro hm; exact key _ (by rw [byFact, hm])
      · intro hm hp h1 h2 h3; exact key _ (by rw [byFact, hm]; exact if_pos ⟨h1, h2, h3, hp⟩)
      · intro hm hx
        refine key _ ?_
        rw [byFact, hm]
        refine if_neg ?_
        rintro ⟨h1, h2, h3, hp⟩
        rcases hx with hx | hx | hx | hx
        · rw [hp] at hx; cases hx
        · exact h1 hx
        · exact h2 hx
        · exact h3 hx

example : resolveExternalType (fun _ => false) wellKnown [] [("github.com/x/ulid.ULID".toList, ⟨.text, []⟩)] "github.com/x/ulid.ULID".toList = .text ∧
    resolveExternalType (fun _ => false) wellKnown [] [] "github.com/gofrs/uuid.UUID".toList = .registry "uuid" ∧
    resolveExternalType (fun _ => false) wellKnown ["uuid.UUID".toList] [] "github.com/gofrs/uuid.UUID".toList = .unhandled := by decide

/-- **C61 (own types).** A type of the analysed project itself, in a package called `uuid` or `decimal`, is
taken for the well-known one, whatever its declaration. -/
theorem C61_own_type (prim : Str → Bool) (facts : List (Str × Fact)) : resolveExternalType prim wellKnown [] facts "app/internal/decimal.Decimal".toList = .registry "decimal" := by
  unfold resolveExternalType
  rw [if_neg (by decide), if_neg (by decide), show mget wellKnown "app/internal/decimal.Decimal".toList = none by decide,
    show mget wellKnown (shortTypeName "app/internal/decimal.Decimal".toList) = some "decimal" by decide]

end Verif.MappingModel
