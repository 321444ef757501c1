/-
C97: which functions the built-in entrypoint patterns make roots, and what applying them does to a
configuration.
-/
import Verif.PresetProps

namespace Verif.Preset
open Verif.RegexModel

/-! ## Specification -/

/-- The import paths of a module: unversioned, or with any major version. -/
def Versioned (path tail : String) (s : Str) : Prop :=
  s = path.toList ++ tail.toList ∨ ∃ v : Str, v ≠ [] ∧ (∀ c ∈ v, c.isDigit = true) ∧ s = path.toList ++ "/v".toList ++ v ++ tail.toList

/-- The packages of the command libraries. -/
def UrfavePkg (s : Str) : Prop := Versioned "github.com/urfave/cli" "" s ∨ s = "github.com/codegangsta/cli".toList
def CobraPkg (s : Str) : Prop := s = "github.com/spf13/cobra".toList
def FfcliPkg (s : Str) : Prop := Versioned "github.com/peterbourgon/ff" "/ffcli" s

/-- The command bodies and hooks of each library: the type, with its package, and the field. -/
def UrfaveEntry (owner field : Str) : Prop :=
  field ∈ ["Action", "Before", "After"].map String.toList ∧
  ∃ org ∈ ["urfave", "codegangsta"], ∃ t ∈ ["Command", "App"], Versioned ("github.com/" ++ org ++ "/cli") ("." ++ t) owner

def CobraEntry (owner field : Str) : Prop :=
  field ∈ ["Run", "RunE", "PreRun", "PreRunE", "PostRun", "PostRunE", "PersistentPreRun", "PersistentPreRunE"].map String.toList ∧
  owner = "github.com/spf13/cobra.Command".toList

def FfcliEntry (owner field : Str) : Prop := field = "Exec".toList ∧ Versioned "github.com/peterbourgon/ff" "/ffcli.Command" owner

/-! ## Lemmas -/

theorem spells_version (u v s : Str) : Spells false (u.map .chr ++ Atom.number :: v.map .chr) s ↔ ∃ d, d ≠ [] ∧ (∀ c ∈ d, c.isDigit = true) ∧ s = u ++ d ++ v := by
  rw [spells_append]
  constructor
  · rintro ⟨a, b, rfl, h1, d, t, rfl, hd, hc, h2⟩
    rw [spells_exact] at h1 h2
    exact ⟨d, hd, hc, by rw [h1, h2]; simp⟩
  · rintro ⟨d, hd, hc, rfl⟩
    exact ⟨u, d ++ v, by simp, (spells_exact _ _).2 rfl, d, v, rfl, hd, hc, (spells_exact _ _).2 rfl⟩

/-- The words of a versioned path. -/
def versionWords (path tail : String) : List (List Atom) :=
  [(path ++ tail).toList.map .chr, (path ++ "/v").toList.map .chr ++ Atom.number :: tail.toList.map .chr]

theorem versionWords_iff (path tail : String) (s : Str) : (∃ w ∈ versionWords path tail, Spells false w s) ↔ Versioned path tail s := by
  unfold versionWords Versioned
  simp only [List.mem_cons, List.not_mem_nil, or_false, exists_eq_or_imp, exists_eq_left, spells_exact, spells_version]
  simp only [String.toList_append]

theorem versioned_iff {pattern path tail : String} (h : anchored false pattern = some (versionWords path tail)) (s : Str) : rxMatch pattern s = true ↔ Versioned path tail s := by
  rw [anchored_iff h, versionWords_iff]

theorem urfave_owner (s : Str) : rxMatch "^github\\.com/(urfave|codegangsta)/cli(/v\\d+)?\\.(Command|App)$" s = true ↔
    ∃ org ∈ ["urfave", "codegangsta"], ∃ t ∈ ["Command", "App"], Versioned ("github.com/" ++ org ++ "/cli") ("." ++ t) s := by
  have h : anchored false "^github\\.com/(urfave|codegangsta)/cli(/v\\d+)?\\.(Command|App)$" =
      some (["urfave", "codegangsta"].flatMap fun org => [
        ("github.com/" ++ org ++ "/cli.Command").toList.map .chr, ("github.com/" ++ org ++ "/cli.App").toList.map .chr,
        ("github.com/" ++ org ++ "/cli/v").toList.map .chr ++ Atom.number :: ".Command".toList.map .chr,
        ("github.com/" ++ org ++ "/cli/v").toList.map .chr ++ Atom.number :: ".App".toList.map .chr]) := by decide +kernel
  have e : ∀ org t : String, (∃ w ∈ versionWords ("github.com/" ++ org ++ "/cli") ("." ++ t), Spells false w s) ↔ Versioned ("github.com/" ++ org ++ "/cli") ("." ++ t) s :=
    fun org t => versionWords_iff _ _ s
  rw [anchored_iff h]
  simp only [← e]
  have hw : ∀ w : List Atom, (w ∈ (["urfave", "codegangsta"].flatMap fun org => [
        ("github.com/" ++ org ++ "/cli.Command").toList.map .chr, ("github.com/" ++ org ++ "/cli.App").toList.map .chr,
        ("github.com/" ++ org ++ "/cli/v").toList.map .chr ++ Atom.number :: ".Command".toList.map .chr,
        ("github.com/" ++ org ++ "/cli/v").toList.map .chr ++ Atom.number :: ".App".toList.map .chr])) ↔
      ∃ org ∈ ["urfave", "codegangsta"], ∃ t ∈ ["Command", "App"], w ∈ versionWords ("github.com/" ++ org ++ "/cli") ("." ++ t) := by
    intro w
    have e1 : ∀ org : String, "github.com/" ++ org ++ "/cli.Command" = "github.com/" ++ org ++ "/cli" ++ ".Command" := by
      intro org; rw [String.append_assoc (s₁ := "github.com/" ++ org) (s₂ := "/cli")]; rfl
    have e2 : ∀ org : String, "github.com/" ++ org ++ "/cli.App" = "github.com/" ++ org ++ "/cli" ++ ".App" := by
      intro org; rw [String.append_assoc (s₁ := "github.com/" ++ org) (s₂ := "/cli")]; rfl
    have e3 : ∀ org : String, "github.com/" ++ org ++ "/cli/v" = "github.com/" ++ org ++ "/cli" ++ "/v" := by
      intro org; rw [String.append_assoc (s₁ := "github.com/" ++ org) (s₂ := "/cli")]; rfl
    have e4 : "." ++ "Command" = ".Command" := by decide
    have e5 : "." ++ "App" = ".App" := by decide
    simp only [List.mem_flatMap, versionWords, List.mem_cons, List.not_mem_nil, or_false, exists_eq_or_imp, exists_eq_left, e1, e2, e3, e4, e5]
    grind
  constructor
  · rintro ⟨w, hm, hs⟩
    obtain ⟨org, ho, t, ht, hv⟩ := (hw w).1 hm
    exact ⟨org, ho, t, ht, w, hv, hs⟩
  · rintro ⟨org, ho, t, ht, w, hv, hs⟩
    exact ⟨w, (hw w).2 ⟨org, ho, t, ht, hv⟩, hs⟩

theorem addMissing_prefix : ∀ (ps cfg : List EntryPat), cfg <+: addMissing cfg ps
  | [], cfg => List.prefix_refl _
  | p :: ps, cfg => by
    rw [addMissing]
    split
    · exact addMissing_prefix ps cfg
    · exact (List.prefix_append _ _).trans (addMissing_prefix ps _)

theorem addMissing_mem : ∀ (ps cfg : List EntryPat) (q : EntryPat), q ∈ addMissing cfg ps ↔ q ∈ cfg ∨ q ∈ ps
  | [], cfg, q => by simp [addMissing]
  | p :: ps, cfg, q => by
    rw [addMissing, addMissing_mem ps]
    split
    · rename_i h
      rw [List.contains_iff_mem] at h
      simp only [List.mem_cons]
      constructor
      · rintro (h1 | h1)
        · exact .inl h1
        · exact .inr (.inr h1)
      · rintro (h1 | rfl | h1)
        · exact .inl h1
        · exact .inl h
        · exact .inr h1
    · simp only [List.mem_append, List.mem_cons, List.not_mem_nil, or_false, or_assoc]

theorem addMissing_fixed : ∀ (ps cfg : List EntryPat), (∀ p ∈ ps, p ∈ cfg) → addMissing cfg ps = cfg
  | [], cfg, _ => rfl
  | p :: ps, cfg, h => by
    rw [addMissing, if_pos (List.contains_iff_mem.2 (h p (by simp)))]
    exact addMissing_fixed ps cfg fun q hq => h q (by simp [hq])

theorem addMissing_nodup : ∀ (ps cfg : List EntryPat), cfg.Nodup → (addMissing cfg ps).Nodup
  | [], cfg, h => h
  | p :: ps, cfg, h => by
    rw [addMissing]
    split
    · exact addMissing_nodup ps cfg h
    · rename_i hc
      refine addMissing_nodup ps _ ?_
      rw [List.nodup_append]
      refine ⟨h, by simp, ?_⟩
      rintro a ha b hb rfl
      rw [List.mem_singleton] at hb
      subst hb
      exact hc (List.contains_iff_mem.2 ha)

def stepB (imports : List Str) (cfg : List EntryPat) (b : Bundle) : List EntryPat :=
  if b.patterns = [] ∨ anyImport imports b.imports = false then cfg else addMissing cfg b.patterns

theorem fold_mem (imports : List Str) : ∀ (bs : List Bundle) (cfg : List EntryPat) (q : EntryPat),
    q ∈ bs.foldl (stepB imports) cfg ↔ q ∈ cfg ∨ ∃ b ∈ bs, anyImport imports b.imports = true ∧ q ∈ b.patterns
  | [], cfg, q => by simp
  | b :: bs, cfg, q => by
    rw [List.foldl_cons, fold_mem imports bs]
    have : q ∈ stepB imports cfg b ↔ q ∈ cfg ∨ (anyImport imports b.imports = true ∧ q ∈ b.patterns) := by
      unfold stepB
      split
      · rename_i h
        constructor
        · exact .inl
        · rintro (h1 | ⟨h1, h2⟩)
          · exact h1
          · rcases h with h | h
            · rw [h] at h2; cases h2
            · rw [h] at h1; cases h1
      · rename_i h
        rw [addMissing_mem]
        have : anyImport imports b.imports = true := by
          cases hx : anyImport imports b.imports with
          | true => rfl
          | false => exact absurd (.inr hx) h
        simp [this]
    rw [this]
    simp only [List.mem_cons]
    grind

theorem fold_prefix (imports : List Str) : ∀ (bs : List Bundle) (cfg : List EntryPat), cfg <+: bs.foldl (stepB imports) cfg
  | [], cfg => List.prefix_refl _
  | b :: bs, cfg => by
    rw [List.foldl_cons]
    refine List.IsPrefix.trans ?_ (fold_prefix imports bs _)
    unfold stepB
    split
    · exact List.prefix_refl _
    · exact addMissing_prefix _ _

theorem fold_fixed (imports : List Str) : ∀ (bs : List Bundle) (cfg : List EntryPat),
    (∀ b ∈ bs, anyImport imports b.imports = true → ∀ p ∈ b.patterns, p ∈ cfg) → bs.foldl (stepB imports) cfg = cfg
  | [], cfg, _ => rfl
  | b :: bs, cfg, h => by
    rw [List.foldl_cons]
    have : stepB imports cfg b = cfg := by
      unfold stepB
      split
      · rfl
      · rename_i hn
        refine addMissing_fixed _ _ (h b (by simp) ?_)
        cases hx : anyImport imports b.imports with
        | true => rfl
        | false => exact absurd (.inr hx) hn
    rw [this]
    exact fold_fixed imports bs cfg fun b' hb => h b' (by simp [hb])

theorem applyPresets_eq (imports : List Str) (cfg : List EntryPat) : applyPresets imports cfg = bundles.foldl (stepB imports) cfg := by
  unfold applyPresets
  split
  · rename_i h
    subst h
    exact (fold_fixed [] bundles cfg (by intro b _ h; cases h)).symm
  · rfl

theorem anyImport_iff {imports : List Str} {rxs : List String} {P : Str → Prop} (h : ∀ s, (∃ r ∈ rxs, rxMatch r s = true) ↔ P s) :
    anyImport imports rxs = true ↔ ∃ i ∈ imports, P i := by
  unfold anyImport
  simp only [List.any_eq_true, h]

theorem urfave_import (s : Str) : (∃ r ∈ ["^github\\.com/urfave/cli(/v\\d+)?$", "^github\\.com/codegangsta/cli$"], rxMatch r s = true) ↔ UrfavePkg s := by
  simp only [List.mem_cons, List.not_mem_nil, or_false, exists_eq_or_imp, exists_eq_left]
  rw [versioned_iff (path := "github.com/urfave/cli") (tail := "") (by decide +kernel), name_iff (n := "github.com/codegangsta/cli") (by decide +kernel)]
  rfl

theorem cobra_import (s : Str) : (∃ r ∈ ["^github\\.com/spf13/cobra$"], rxMatch r s = true) ↔ CobraPkg s := by
  simp only [List.mem_singleton, exists_eq_left]
  rw [name_iff (n := "github.com/spf13/cobra") (by decide +kernel)]
  rfl

theorem ffcli_import (s : Str) : (∃ r ∈ ["^github\\.com/peterbourgon/ff(/v\\d+)?/ffcli$"], rxMatch r s = true) ↔ FfcliPkg s := by
  simp only [List.mem_singleton, exists_eq_left]
  rw [versioned_iff (path := "github.com/peterbourgon/ff") (tail := "/ffcli") (by decide +kernel)]
  rfl

theorem entry_split {p : EntryPat} {owner field : Str} (hf : p.field ≠ "") (hr : p.recvRegex ≠ "") :
    entryOk owner field p = true ↔ rxMatch p.field field = true ∧ rxMatch p.recvRegex owner = true := by
  unfold entryOk
  rw [Bool.and_eq_true, if_pos hr]
  simp [hf]

/-! ## The property -/

/-- **C97, the patterns of the user.**  Applying the presets keeps the patterns of the configuration,
first and in order, adds none twice, and is the same done once or twice; a configuration of a program
that imports none of the libraries is unchanged. -/
theorem C97_additive (imports : List Str) (cfg : List EntryPat) :
    cfg <+: applyPresets imports cfg ∧
    (cfg.Nodup → (applyPresets imports cfg).Nodup) ∧
    applyPresets imports (applyPresets imports cfg) = applyPresets imports cfg ∧
    ((∀ i ∈ imports, ¬ UrfavePkg i ∧ ¬ CobraPkg i ∧ ¬ FfcliPkg i) → applyPresets imports cfg = cfg) := by
  simp only [applyPresets_eq]
  refine ⟨fold_prefix _ _ _, ?_, ?_, ?_⟩
  · have : ∀ (bs : List Bundle) (cfg : List EntryPat), cfg.Nodup → (bs.foldl (stepB imports) cfg).Nodup := by
      intro bs
      induction bs with
      | nil => intro cfg h; exact h
      | cons b bs ih =>
        intro cfg h
        rw [List.foldl_cons]
        refine ih _ ?_
        unfold stepB
        split
        · exact h
        · exact addMissing_nodup _ _ h
    exact this _ _
  · exact fold_fixed _ _ _ fun b hb hi p hp => (fold_mem _ _ _ _).2 (.inr ⟨b, hb, hi, hp⟩)
  · intro h
    refine fold_fixed _ _ _ fun b hb hi p hp => ?_
    exfalso
    simp only [bundles, List.mem_cons, List.not_mem_nil, or_false] at hb
    rcases hb with rfl | rfl | rfl | rfl
    · obtain ⟨i, him, hx⟩ := (anyImport_iff urfave_import).1 hi; exact (h i him).1 hx
    · obtain ⟨i, him, hx⟩ := (anyImport_iff cobra_import).1 hi; exact (h i him).2.1 hx
    · obtain ⟨i, him, hx⟩ := (anyImport_iff ffcli_import).1 hi; exact (h i him).2.2 hx
    · cases hp

/-- **C97, what is an entrypoint.**  With the presets applied, a field is an entrypoint exactly when a
pattern of the user says so, or the program imports one of the libraries and the field is a command body
or hook of a command of that library. -/
theorem C97_entrypoints (imports : List Str) (cfg : List EntryPat) (owner field : Str) (ho : owner ≠ []) (hf : field ≠ []) :
    matchesEntrypoint (applyPresets imports cfg) owner field = true ↔
      matchesEntrypoint cfg owner field = true ∨
      ((∃ i ∈ imports, UrfavePkg i) ∧ UrfaveEntry owner field) ∨
      ((∃ i ∈ imports, CobraPkg i) ∧ CobraEntry owner field) ∨
      ((∃ i ∈ imports, FfcliPkg i) ∧ FfcliEntry owner field) := by
  have hany : ∀ ps, matchesEntrypoint ps owner field = true ↔ ∃ p ∈ ps, entryOk owner field p = true := by
    intro ps
    unfold matchesEntrypoint
    rw [if_neg (by simp [ho, hf]), List.any_eq_true]
  have h1 : entryOk owner field { field := "^(Action|Before|After)$", recvRegex := "^github\\.com/(urfave|codegangsta)/cli(/v\\d+)?\\.(Command|App)$" } = true ↔ UrfaveEntry owner field := by
    rw [entry_split (by decide) (by decide), exact_iff (ws := ["Action", "Before", "After"]) (by decide +kernel), urfave_owner]
    rfl
  have h2 : entryOk owner field { field := "^(Run|RunE|PreRun|PreRunE|PostRun|PostRunE|PersistentPreRun|PersistentPreRunE)$", recvRegex := "^github\\.com/spf13/cobra\\.Command$" } = true ↔ CobraEntry owner field := by
    rw [entry_split (by decide) (by decide), exact_iff (ws := ["Run", "RunE", "PreRun", "PreRunE", "PostRun", "PostRunE", "PersistentPreRun", "PersistentPreRunE"]) (by decide +kernel),
      name_iff (n := "github.com/spf13/cobra.Command") (by decide +kernel)]
    rfl
  have h3 : entryOk owner field { field := "^Exec$", recvRegex := "^github\\.com/peterbourgon/ff(/v\\d+)?/ffcli\\.Command$" } = true ↔ FfcliEntry owner field := by
    rw [entry_split (by decide) (by decide), name_iff (n := "Exec") (by decide +kernel),
      versioned_iff (path := "github.com/peterbourgon/ff") (tail := "/ffcli.Command") (by decide +kernel)]
    rfl
  rw [hany, hany, applyPresets_eq]
  simp only [fold_mem]
  rw [← h1, ← h2, ← h3, ← anyImport_iff urfave_import, ← anyImport_iff cobra_import, ← anyImport_iff ffcli_import]
  constructor
  · rintro ⟨p, hp | ⟨b, hb, hi, hp⟩, hm⟩
    · exact .inl ⟨p, hp, hm⟩
    · simp only [bundles, List.mem_cons, List.not_mem_nil, or_false] at hb
      rcases hb with rfl | rfl | rfl | rfl
      · rw [List.mem_singleton] at hp; subst hp; exact .inr (.inl ⟨hi, hm⟩)
      · rw [List.mem_singleton] at hp; subst hp; exact .inr (.inr (.inl ⟨hi, hm⟩))
      · rw [List.mem_singleton] at hp; subst hp; exact .inr (.inr (.inr ⟨hi, hm⟩))
      · cases hp
  · rintro (⟨p, hp, hm⟩ | ⟨hi, hm⟩ | ⟨hi, hm⟩ | ⟨hi, hm⟩)
    · exact ⟨p, .inl hp, hm⟩
    · exact ⟨_, .inr ⟨_, List.mem_cons_self .., hi, List.mem_singleton.2 rfl⟩, hm⟩
    · exact ⟨_, .inr ⟨_, List.mem_cons_of_mem _ (List.mem_cons_self ..), hi, List.mem_singleton.2 rfl⟩, hm⟩
    · exact ⟨_, .inr ⟨_, List.mem_cons_of_mem _ (List.mem_cons_of_mem _ (List.mem_cons_self ..)), hi, List.mem_singleton.2 rfl⟩, hm⟩

/-- **C97, unscoped patterns.**  A pattern that does not say which type the field belongs to makes no
function an entrypoint. -/
theorem C97_unscoped (field : String) (owner f : Str) : matchesEntrypoint [{ field := field }] owner f = false := by
  unfold matchesEntrypoint
  split
  · rfl
  · simp [entryOk]

/-- **C97 misses two of cobra's hooks.**  `PersistentPostRun` and `PersistentPostRunE` are hooks like the
others, but no preset makes them entrypoints. -/
theorem C97_cobra_hooks_missed (imports : List Str) :
    matchesEntrypoint (applyPresets imports []) "github.com/spf13/cobra.Command".toList "PersistentPostRun".toList = false ∧
    matchesEntrypoint (applyPresets imports []) "github.com/spf13/cobra.Command".toList "PersistentPostRunE".toList = false := by
  have hu : ∀ f : Str, ¬ UrfaveEntry "github.com/spf13/cobra.Command".toList f := by
    rintro f ⟨_, h⟩
    rw [← urfave_owner] at h
    revert h; decide +kernel
  have hx : ∀ f ∈ ["PersistentPostRun", "PersistentPostRunE"], matchesEntrypoint (applyPresets imports []) "github.com/spf13/cobra.Command".toList f.toList = false := by
    intro f hf
    cases hm : matchesEntrypoint (applyPresets imports []) "github.com/spf13/cobra.Command".toList f.toList with
    | false => rfl
    | true =>
      exfalso
      simp only [List.mem_cons, List.not_mem_nil, or_false] at hf
      rw [C97_entrypoints imports [] _ _ (by decide) (by rcases hf with rfl | rfl <;> decide)] at hm
      rcases hm with hm | ⟨_, hm⟩ | ⟨_, hm⟩ | ⟨_, hm⟩
      · unfold matchesEntrypoint at hm
        split at hm <;> simp at hm
      · exact hu _ hm
      · have := hm.1
        revert this
        rcases hf with rfl | rfl <;> decide
      · have := hm.1
        revert this
        rcases hf with rfl | rfl <;> decide
  exact ⟨hx _ (by simp), hx _ (by simp)⟩

/-- Non-vacuity: a cobra program, and a program on urfave/cli v12. -/
example : matchesEntrypoint (applyPresets ["github.com/spf13/cobra".toList] []) "github.com/spf13/cobra.Command".toList "RunE".toList = true ∧
    matchesEntrypoint (applyPresets ["github.com/urfave/cli/v12".toList] []) "github.com/urfave/cli/v12.Command".toList "Action".toList = true ∧
    matchesEntrypoint (applyPresets ["fmt".toList] []) "github.com/spf13/cobra.Command".toList "RunE".toList = false := by decide +kernel

end Verif.Preset
