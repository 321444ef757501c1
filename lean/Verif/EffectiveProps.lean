import Verif.EffectiveModel
import Verif.FiltersProps
/-!
# C109: the configuration that is written repeats the run
-/

namespace Verif.FiltersModel
open Verif.RegexModel Verif.GitignoreModel

/-! ### Specification -/

/-- The same options without any pattern on the command line. -/
def bare (f : Filters) : Filters := { f with incFiles := [], excFiles := [], incPkgs := [], excPkgs := [] }

/-- Two lists with the same members. -/
def Same (a b : List Str) : Prop := ∀ x, x ∈ a ↔ x ∈ b

/-! ### Lemmas -/

theorem same_nil {a b : List Str} (h : Same a b) : a = [] ↔ b = [] := by
  rw [List.eq_nil_iff_forall_not_mem, List.eq_nil_iff_forall_not_mem]
  exact ⟨fun g x hx => g x ((h x).mpr hx), fun g x hx => g x ((h x).mp hx)⟩

theorem hitPkg_same (e : Env) {a b : List Str} (h : Same a b) (pkg : Str) : HitPkg e a pkg ↔ HitPkg e b pkg := by
  unfold HitPkg
  constructor
  · rintro ⟨p, hp, hh⟩; exact ⟨p, (h p).mp hp, hh⟩
  · rintro ⟨p, hp, hh⟩; exact ⟨p, (h p).mpr hp, hh⟩

theorem hitFile_same (e : Env) {a b : List Str} (h : Same a b) (file : Str) : HitFile e a file ↔ HitFile e b file := by
  unfold HitFile
  constructor
  · rintro ⟨p, hp, hh⟩; exact ⟨p, (h p).mp hp, hh⟩
  · rintro ⟨p, hp, hh⟩; exact ⟨p, (h p).mpr hp, hh⟩

/-- Filters that mean the same. -/
structure Equal (f g : Filters) : Prop where
  incFiles : Same f.incFiles g.incFiles
  excFiles : Same f.excFiles g.excFiles
  incPkgs : Same f.incPkgs g.incPkgs
  excPkgs : Same f.excPkgs g.excPkgs
  cgo : f.skipCGO = g.skipCGO
  tests : f.autoTests = g.autoTests
  mocks : f.autoMocks = g.autoMocks

theorem equal_pkg (e : Env) {f g : Filters} (h : Equal f g) (pkg : Str) : shouldIncludePackage e f pkg = shouldIncludePackage e g pkg := by
  rw [Bool.eq_iff_iff, C30_package, C30_package, hitPkg_same e h.excPkgs, hitPkg_same e h.incPkgs, same_nil h.incPkgs]
  unfold AutoExcludedPkg
  rw [h.cgo, h.tests, h.mocks]

theorem equal_file (e : Env) {f g : Filters} (h : Equal f g) (file : Str) : shouldIncludeFile e f file = shouldIncludeFile e g file := by
  rw [Bool.eq_iff_iff, C30_file, C30_file, hitFile_same e h.excFiles, hitFile_same e h.incFiles, same_nil h.incFiles]
  unfold AutoExcludedFile
  rw [h.tests, h.mocks]

theorem equal_keep (e : Env) {f g : Filters} (h : Equal f g) : ∀ files syn : List Str, keepFiles e f files syn = keepFiles e g files syn
  | [], _ => rfl
  | file :: files, syn => by
    unfold keepFiles
    rw [equal_keep e h files syn.tail, equal_file e h]

theorem equal_load (e : Env) {f g : Filters} (h : Equal f g) (pkgs : List Pkg) : loadFiltered e f pkgs = loadFiltered e g pkgs := by
  unfold loadFiltered
  congr 1
  funext p
  rw [equal_pkg e h, equal_keep e h]

theorem run_fst (e : Env) (auto : Bool) (modPath : Str) (deps : List Pkg → List Str) (c c' : Option Patterns) (pkgs : List Pkg) (f g : Filters)
    (h : Equal (applyConfigFilters f c) (applyConfigFilters g c')) : (run e auto modPath deps c pkgs f).1 = (run e auto modPath deps c' pkgs g).1 := by
  unfold run
  dsimp only
  rw [equal_load e h]
  cases auto <;> rfl

theorem mem_union (base extras : List Str) (x : Str) : x ∈ unionStrings base extras ↔ x ∈ base ∨ x ∈ extras := (C30_union base extras).2.1 x

/-! ### The properties -/

/-- What is written are the patterns the run filtered by, and with automatic inclusion also the framework packages;
nothing else.  A configuration file is not looked at when a configuration is handed over. -/
theorem C109_written (e : Env) (auto : Bool) (modPath : Str) (deps : List Pkg → List Str) (direct file : Option Patterns) (hfile : file = none ∨ direct.isSome = true)
    (pkgs : List Pkg) (f : Filters) :
    let w := written e auto modPath deps direct file pkgs f
    let c := direct.getD {}
    Same w.incFiles (f.incFiles ++ c.incFiles) ∧ Same w.excFiles (f.excFiles ++ c.excFiles) ∧ Same w.excPkgs (f.excPkgs ++ c.excPkgs) ∧
    ∀ x, x ∈ w.incPkgs ↔ x ∈ f.incPkgs ++ c.incPkgs ∨
      (auto = true ∧ x ∈ deps ((loadFiltered e (applyConfigFilters f direct) pkgs).filter fun p => !p.bad)) := by
  cases direct with
  | none =>
    have hfile : file = none := by rcases hfile with h | h; exact h; cases h
    subst hfile
    cases auto <;>
    · simp only [written, chosenConfig, mergePatterns, run, applyConfigFilters, Option.getD_none, Option.getD_some, List.nil_append, List.append_nil, Same]
      simp [mem_union]
  | some c =>
    cases auto <;>
    · simp only [written, chosenConfig, mergePatterns, run, applyConfigFilters, Option.getD_some, Same]
      simp [mem_union]
      grind

/-- Handing the written configuration to a later run, without patterns on the command line, analyses the same packages
as repeating the first run, if that was without automatic inclusion.  With it this is false: `C109_auto_narrows`. -/
theorem C109_replay_partial (e : Env) (auto' : Bool) (modPath : Str) (deps : List Pkg → List Str) (direct : Option Patterns) (pkgs pkgs' : List Pkg) (f : Filters) :
    (run e auto' modPath deps (some (written e false modPath deps direct none pkgs f)) pkgs' (bare f)).1 = (run e auto' modPath deps direct pkgs' f).1 := by
  apply run_fst
  obtain ⟨h1, h2, h3, h4⟩ := C109_written e false modPath deps direct none (Or.inl rfl) pkgs f
  obtain ⟨g1, g2, g3, g4, g5, g6, g7⟩ := C30_apply (bare f) (written e false modPath deps direct none pkgs f)
  have h4' : ∀ x, x ∈ (written e false modPath deps direct none pkgs f).incPkgs ↔ x ∈ f.incPkgs ++ (direct.getD {}).incPkgs := fun x => by
    rw [h4 x]; simp
  have key : ∀ (x : Str) (l : List Str), x ∈ ([] : List Str) ∨ x ∈ l ↔ x ∈ l := fun x l => by simp
  cases direct with
  | none =>
    refine ⟨fun x => ?_, fun x => ?_, fun x => ?_, fun x => ?_, g5, g6, g7⟩
    · rw [g1 x, show (bare f).incFiles = [] from rfl, key, h1 x]; simp [applyConfigFilters]
    · rw [g2 x, show (bare f).excFiles = [] from rfl, key, h2 x]; simp [applyConfigFilters]
    · rw [g3 x, show (bare f).incPkgs = [] from rfl, key, h4' x]; simp [applyConfigFilters]
    · rw [g4 x, show (bare f).excPkgs = [] from rfl, key, h3 x]; simp [applyConfigFilters]
  | some c =>
    obtain ⟨k1, k2, k3, k4, _, _, _⟩ := C30_apply f c
    refine ⟨fun x => ?_, fun x => ?_, fun x => ?_, fun x => ?_, g5, g6, g7⟩
    · rw [g1 x, show (bare f).incFiles = [] from rfl, key, h1 x, k1 x, List.mem_append]; rfl
    · rw [g2 x, show (bare f).excFiles = [] from rfl, key, h2 x, k2 x, List.mem_append]; rfl
    · rw [g3 x, show (bare f).incPkgs = [] from rfl, key, h4' x, k3 x, List.mem_append]; rfl
    · rw [g4 x, show (bare f).excPkgs = [] from rfl, key, h3 x, k4 x, List.mem_append]; rfl

/-! ### Instances and what does not hold -/

abbrev demoPkgs : List Pkg :=
  [⟨"acme/api".toList, ["a.go".toList], ["a.go".toList], false⟩, ⟨"acme/store".toList, ["s.go".toList], ["s.go".toList], false⟩,
   ⟨"acme/old".toList, ["o.go".toList], ["o.go".toList], false⟩]

/-- A pattern of the command line and one of the configuration. -/
example : (run env0 false "acme".toList (fun _ => []) (some { excPkgs := ["acme/old".toList] }) demoPkgs { excPkgs := ["acme/store".toList] }).1 = ["acme/api".toList] ∧
    (written env0 false "acme".toList (fun _ => []) (some { excPkgs := ["acme/old".toList] }) none demoPkgs { excPkgs := ["acme/store".toList] }).excPkgs =
      ["acme/old".toList, "acme/store".toList, "acme/old".toList] := by decide

/-- With automatic inclusion the written configuration, handed to a later run, leaves out project packages that do not use the
framework. -/
theorem C109_auto_narrows : ∃ deps : List Pkg → List Str,
    (run env0 true "acme".toList deps none demoPkgs {}).1 = ["acme/api".toList, "acme/store".toList, "acme/old".toList] ∧
    (run env0 true "acme".toList deps (some (written env0 true "acme".toList deps none none demoPkgs {})) demoPkgs (bare {})).1 = ["acme/api".toList] :=
  ⟨fun _ => ["acme/api".toList], by decide⟩

/-- The patterns of a configuration file are written as if they were in effect, although the run did not filter by
them. -/
theorem C109_file_claims : ∃ c : Patterns,
    (run env0 false "acme".toList (fun _ => []) none demoPkgs {}).1 = ["acme/api".toList, "acme/store".toList, "acme/old".toList] ∧
    (run env0 false "acme".toList (fun _ => []) (some (written env0 false "acme".toList (fun _ => []) none (some c) demoPkgs {})) demoPkgs (bare {})).1 =
      ["acme/api".toList, "acme/store".toList] :=
  ⟨{ excPkgs := ["acme/old".toList] }, by decide⟩

/-- Patterns of a configuration that is handed over are written twice. -/
theorem C109_repeated (e : Env) (modPath : Str) (deps : List Pkg → List Str) (p : Str) (pkgs : List Pkg) :
    (written e false modPath deps (some { excPkgs := [p] }) none pkgs {}).excPkgs = [p, p] := by
  simp [written, chosenConfig, mergePatterns, run, applyConfigFilters, unionStrings]

end Verif.FiltersModel
