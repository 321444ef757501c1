import Verif.FiltersModel
import Verif.GitignoreProps
/-!
# Properties: which packages and files are analysed (C30, C54)
-/

namespace Verif.FiltersModel
open Verif.RegexModel Verif.GitignoreModel

/-! ## Specification -/

/-- What the documentation of `--skip-cgo` lists: a pattern, and the text that excludes a package
wherever it occurs. -/
def cgoTable : List (Str × Str) :=
  [("*/tensorflow/*".toList, "tensorflow/*".toList), ("*/govips/*".toList, "govips/*".toList), ("*/opencv/*".toList, "opencv/*".toList),
   ("*/ffmpeg/*".toList, "ffmpeg/*".toList), ("*/sqlite3".toList, "sqlite3".toList), ("*/go-sqlite3".toList, "go-sqlite3".toList),
   ("*/graft/tensorflow".toList, "graft/tensorflow".toList)]

/-- The built-in exclusions of packages. -/
def AutoExcludedPkg (e : Env) (f : Filters) (pkg : Str) : Prop :=
  (f.skipCGO = true ∧ ∃ r ∈ cgoTable, Match e.posix r.1 pkg = true ∨ r.2 <:+: pkg) ∨
  (f.autoTests = true ∧ ∃ s ∈ ["_test", "_tests"], s.toList <:+ e.lower pkg) ∨
  (f.autoMocks = true ∧ ∃ s ∈ ["mock", "mocks", "fake", "fakes", "stub", "stubs"], s.toList <:+ e.lower pkg)

/-- The built-in exclusions of files. -/
def AutoExcludedFile (e : Env) (f : Filters) (file : Str) : Prop :=
  (f.autoTests = true ∧ ("test.go".toList <:+ e.lower file ∨ "/test/".toList <:+: e.lower file ∨ "/tests/".toList <:+: e.lower file)) ∨
  (f.autoMocks = true ∧ ∃ s ∈ ["mock.go", "mocks.go", "fake.go", "fakes.go", "stub.go", "stubs.go"], s.toList <:+ e.lower file)

/-- `x` is the last segment of the slash-separated path `s`. -/
def LastSegment (x s : Str) : Prop := '/' ∉ x ∧ (s = x ∨ ∃ dir, s = dir ++ '/' :: x)

/-- A pattern of the list applies to the package: to its path or to its last segment. -/
def HitPkg (e : Env) (l : List Str) (pkg : Str) : Prop :=
  ∃ p ∈ l, Match e.posix p pkg = true ∨ ∃ x, LastSegment x pkg ∧ Match e.posix p x = true

/-- A pattern of the list applies to the file. -/
def HitFile (e : Env) (l : List Str) (file : Str) : Prop := ∃ p ∈ l, Match e.posix p file = true

/-! ## The string tests -/

theorem hasSuffix_iff (p s : Str) : hasSuffix p s = true ↔ p <:+ s := by
  simp [hasSuffix, List.reverse_prefix]

theorem contains_iff (p : Str) : ∀ s : Str, contains p s = true ↔ p <:+: s
  | [] => by simp [contains]
  | c :: s => by
    rw [contains, Bool.or_eq_true, contains_iff p s, List.infix_cons_iff, hasPrefix, List.isPrefixOf_iff_prefix]

theorem lastPart_spec (s : Str) : LastSegment (lastPart s) s := by
  have hspan : lastPart s = (s.reverse.takeWhile (· ≠ '/')).reverse := by
    unfold lastPart; rfl
  have hsplit : s = (s.reverse.dropWhile (· ≠ '/')).reverse ++ (s.reverse.takeWhile (· ≠ '/')).reverse := by
    rw [← List.reverse_append, List.takeWhile_append_dropWhile, List.reverse_reverse]
  rw [hspan]
  refine ⟨fun h => ?_, ?_⟩
  · have := List.all_takeWhile (p := fun x => decide (x ≠ '/')) (l := s.reverse)
    rw [List.all_eq_true] at this
    simpa using this _ (List.mem_reverse.mp h)
  · cases hd : s.reverse.dropWhile (· ≠ '/') with
    | nil => rw [hd] at hsplit; exact .inl (by simpa using hsplit)
    | cons c r =>
      have hc : c = '/' := by
        have := List.head?_dropWhile_not (p := fun x => decide (x ≠ '/')) (l := s.reverse)
        rw [hd] at this; simpa using this
      refine .inr ⟨r.reverse, ?_⟩
      rw [hd, hc] at hsplit
      simpa using hsplit

theorem lastSegment_unique {x y s : Str} (hx : LastSegment x s) (hy : LastSegment y s) : x = y := by
  obtain ⟨hx0, hx⟩ := hx
  obtain ⟨hy0, hy⟩ := hy
  have key : ∀ {d d' x y : Str}, '/' ∉ x → '/' ∉ y → d ++ '/' :: x = d' ++ '/' :: y → x = y := by
    intro d d' x y hx hy h
    rcases List.append_eq_append_iff.mp h with ⟨a, h1, h2⟩ | ⟨a, h1, h2⟩
    · cases a with
      | nil => simpa using h2
      | cons c a => exact absurd (by injection h2 with _ h3; rw [h3]; simp) hx
    · cases a with
      | nil => simpa using h2.symm
      | cons c a => exact absurd (by injection h2 with _ h3; rw [h3]; simp) hy
  rcases hx with hx | ⟨d, hx⟩ <;> rcases hy with hy | ⟨d', hy⟩
  · exact hx.symm.trans hy
  · exact absurd (by rw [← hx, hy]; simp) hx0
  · exact absurd (by rw [← hy, hx]; simp) hy0
  · exact key hx0 hy0 (hx.symm.trans hy)

theorem cgoHit_iff (e : Env) (pkg : Str) : cgoHit e pkg = true ↔ ∃ r ∈ cgoTable, Match e.posix r.1 pkg = true ∨ r.2 <:+: pkg := by
  have hp : cgoPatterns.map (fun p => (p, dropFirstStarSlash p)) = cgoTable := by decide
  rw [← hp]
  simp only [cgoHit, List.any_eq_true, List.mem_map, Bool.or_eq_true, contains_iff, matches']
  constructor
  · rintro ⟨p, hm, h⟩; exact ⟨_, ⟨p, hm, rfl⟩, h⟩
  · rintro ⟨_, ⟨p, hm, rfl⟩, h⟩; exact ⟨p, hm, h⟩

theorem testPkg_iff (l : Str) : testPkg l = true ↔ ∃ s ∈ ["_test", "_tests"], s.toList <:+ l := by
  simp only [testPkg, Bool.or_eq_true, hasSuffix_iff, List.mem_cons, List.not_mem_nil, or_false, exists_eq_or_imp, exists_eq_left]

theorem mockPkg_iff (l : Str) : mockPkg l = true ↔ ∃ s ∈ ["mock", "mocks", "fake", "fakes", "stub", "stubs"], s.toList <:+ l := by
  simp only [mockPkg, Bool.or_eq_true, hasSuffix_iff, List.mem_cons, List.not_mem_nil, or_false, exists_eq_or_imp, exists_eq_left, or_assoc]

theorem testFile_iff (l : Str) : testFile l = true ↔ "test.go".toList <:+ l ∨ "/test/".toList <:+: l ∨ "/tests/".toList <:+: l := by
  simp only [testFile, Bool.or_eq_true, hasSuffix_iff, contains_iff, or_assoc]

theorem mockFile_iff (l : Str) : mockFile l = true ↔
    ∃ s ∈ ["mock.go", "mocks.go", "fake.go", "fakes.go", "stub.go", "stubs.go"], s.toList <:+ l := by
  simp only [mockFile, Bool.or_eq_true, hasSuffix_iff, List.mem_cons, List.not_mem_nil, or_false, exists_eq_or_imp, exists_eq_left]
  constructor
  · rintro (((((h | h) | h) | h) | h) | h) <;> simp only [h, true_or, or_true]
  · rintro (h | h | h | h | h | h) <;> simp only [h, true_or, or_true]

/-! ## Single packages and files -/

theorem any_pkgHit {e : Env} {l : List Str} {pkg : Str} : l.any (pkgHit e pkg) = true ↔ HitPkg e l pkg := by
  simp only [HitPkg, pkgHit, matches', List.any_eq_true, Bool.or_eq_true]
  constructor
  · rintro ⟨p, hm, h⟩
    exact ⟨p, hm, h.imp id fun h => ⟨_, lastPart_spec pkg, h⟩⟩
  · rintro ⟨p, hm, h⟩
    refine ⟨p, hm, h.imp id ?_⟩
    rintro ⟨x, hx, h⟩
    rw [lastSegment_unique (lastPart_spec pkg) hx]; exact h

theorem any_fileHit {e : Env} {l : List Str} {file : Str} : (l.any fun p => matches' e p file) = true ↔ HitFile e l file := by
  simp [HitFile, matches', List.any_eq_true]

theorem ite_false_iff {c : Prop} [Decidable c] {b : Bool} : (if c then false else b) = true ↔ ¬ c ∧ b = true := by
  by_cases h : c <;> simp [h]

/-- **C30 (packages).** A package is analysed exactly when no built-in exclusion applies, no
exclude pattern applies, and some include pattern applies if there are any. -/
theorem C30_package (e : Env) (f : Filters) (pkg : Str) :
    shouldIncludePackage e f pkg = true ↔
      ¬ AutoExcludedPkg e f pkg ∧ ¬ HitPkg e f.excPkgs pkg ∧ (f.incPkgs = [] ∨ HitPkg e f.incPkgs pkg) := by
  unfold shouldIncludePackage AutoExcludedPkg
  rw [ite_false_iff, ite_false_iff, ite_false_iff]
  simp only [Bool.and_eq_true, not_or, cgoHit_iff, testPkg_iff, mockPkg_iff]
  have hrest : (if f.incFiles = [] ∧ f.excFiles = [] ∧ f.incPkgs = [] ∧ f.excPkgs = [] then true
      else if f.excPkgs.any (pkgHit e pkg) then false else includeHalf (pkgHit e pkg) f.incPkgs) = true ↔
      ¬ HitPkg e f.excPkgs pkg ∧ (f.incPkgs = [] ∨ HitPkg e f.incPkgs pkg) := by
    split
    · next h =>
      refine ⟨fun _ => ⟨?_, .inl h.2.2.1⟩, fun _ => rfl⟩
      rw [h.2.2.2]; simp [HitPkg]
    · rw [ite_false_iff, any_pkgHit]
      unfold includeHalf
      split
      · next h => simp [h]
      · next h => simp [h, ← any_pkgHit]
  rw [hrest, and_assoc, and_assoc]

/-- **C30 (files).** The same for files. -/
theorem C30_file (e : Env) (f : Filters) (file : Str) :
    shouldIncludeFile e f file = true ↔
      ¬ AutoExcludedFile e f file ∧ ¬ HitFile e f.excFiles file ∧ (f.incFiles = [] ∨ HitFile e f.incFiles file) := by
  unfold shouldIncludeFile AutoExcludedFile
  rw [ite_false_iff, ite_false_iff]
  simp only [Bool.and_eq_true, not_or, testFile_iff, mockFile_iff]
  have hrest : (if f.incFiles = [] ∧ f.excFiles = [] then true
      else if (f.excFiles.any fun p => matches' e p file) then false else includeHalf (fun p => matches' e p file) f.incFiles) = true ↔
      ¬ HitFile e f.excFiles file ∧ (f.incFiles = [] ∨ HitFile e f.incFiles file) := by
    split
    · next h =>
      refine ⟨fun _ => ⟨?_, .inl h.1⟩, fun _ => rfl⟩
      rw [h.2]; simp [HitFile]
    · rw [ite_false_iff, any_fileHit]
      unfold includeHalf
      split
      · next h => simp [h]
      · next h => simp [h, ← any_fileHit]
  rw [hrest, and_assoc]

/-- **C30 (the pattern package).** Filtering a list of paths keeps, in order, exactly the paths
some include pattern matches (all of them if there are none) and no exclude pattern matches. -/
theorem C30_filter_paths (posix : Str → Option ((Char → Bool) × Str)) (paths inc exc : List Str) :
    (Filter posix paths inc exc).Sublist paths ∧
    ∀ x, x ∈ Filter posix paths inc exc ↔ x ∈ paths ∧
      (inc = [] ∨ ∃ p ∈ inc, Match posix p x = true) ∧ ¬ ∃ p ∈ exc, Match posix p x = true := by
  refine ⟨List.filter_sublist, fun x => ?_⟩
  rw [Filter, List.mem_filter, Bool.and_eq_true, Bool.or_eq_true, List.isEmpty_iff, Bool.not_eq_true',
    ← Bool.not_eq_true]
  simp only [MatchAny, List.any_eq_true]

example : Filter (fun _ => none) ["a.go".toList, "b_gen.go".toList, "c.txt".toList] ["*.go".toList] ["*_gen.go".toList] = ["a.go".toList] := by
  decide

/-! ## Whole loads -/

/-- The loader's parses are those of the files, in order (no cgo). -/
def Parallel (parseOf : Str → Str) (p : Pkg) : Prop := p.syn = p.files.map parseOf

theorem keepFiles_parallel (e : Env) (f : Filters) (parseOf : Str → Str) : ∀ l : List Str,
    keepFiles e f l (l.map parseOf) = (l.filter (shouldIncludeFile e f), (l.filter (shouldIncludeFile e f)).map parseOf)
  | [] => rfl
  | x :: l => by
    rw [List.map_cons, keepFiles, List.tail_cons, keepFiles_parallel e f parseOf l]
    simp only [List.head?_cons, Option.toList_some]
    split
    · next h => rw [List.filter_cons_of_pos h]; rfl
    · next h => rw [List.filter_cons_of_neg h]

theorem zip_self_filterMap (e : Env) (f : Filters) (parseOf : Str → Str) (path : Str) (l : List Str) (x : Str × Str × Str) :
    x ∈ (l.zip (l.map parseOf)).filterMap (fun fs => if shouldIncludeFile e f fs.1 then some (path, fs.1, fs.2) else none) ↔
      x.1 = path ∧ x.2.1 ∈ l ∧ x.2.2 = parseOf x.2.1 ∧ shouldIncludeFile e f x.2.1 = true := by
  have hz : ∀ l : List Str, l.zip (l.map parseOf) = l.map fun a => (a, parseOf a) := by
    intro l; induction l with
    | nil => rfl
    | cons a l ih => rw [List.map_cons, List.zip_cons_cons, ih]; rfl
  rw [hz, List.mem_filterMap]
  constructor
  · rintro ⟨⟨a, b⟩, hm, hx⟩
    obtain ⟨y, hy, hyy⟩ := List.mem_map.mp hm
    injection hyy with h1 h2; subst h1; subst h2
    simp only at hx
    split at hx
    · next h => cases hx; exact ⟨rfl, hy, rfl, h⟩
    · cases hx
  · obtain ⟨a, b, c⟩ := x
    simp only
    rintro ⟨rfl, h1, rfl, h3⟩
    exact ⟨(b, parseOf b), List.mem_map.mpr ⟨b, h1, rfl⟩, by simp only; rw [if_pos h3]⟩

/-- **C30 (what is analysed), partial.** When the loader's parses line up with the files, the
files analysed are exactly those passing the file filter in the error-free packages passing the
package filter, each with its own parse.  Missing: packages using cgo, where the lists do not line
up — `C30_cgo_misaligned`. -/
theorem C30_analysed_partial (e : Env) (f : Filters) (pkgs : List Pkg) (parseOf : Str → Str) (hp : ∀ p ∈ pkgs, Parallel parseOf p)
    (path file parse : Str) :
    (path, file, parse) ∈ analysed e f pkgs ↔
      parse = parseOf file ∧ shouldIncludePackage e f path = true ∧ shouldIncludeFile e f file = true ∧
      ∃ p ∈ pkgs, p.path = path ∧ p.bad = false ∧ file ∈ p.files := by
  unfold analysed loadFiltered
  simp only [List.mem_flatMap, List.mem_filter, List.mem_filterMap]
  constructor
  · rintro ⟨q, ⟨⟨p, hm, hq⟩, hb⟩, hx⟩
    split at hq
    · cases hq
    · next hip =>
      rw [show p.syn = p.files.map parseOf from hp p hm, keepFiles_parallel] at hq
      simp only at hq
      split at hq
      · cases hq
      · cases hq
        simp only at hx hb
        rw [if_neg hip, zip_self_filterMap] at hx
        obtain ⟨h1, h2, h3, h4⟩ := hx
        simp only at h1 h2 h3 h4
        subst h1
        exact ⟨h3, by simpa using hip, h4, p, hm, rfl, by simpa using hb, (List.mem_filter.mp h2).1⟩
  · rintro ⟨rfl, hip, hif, p, hm, rfl, hb, hf⟩
    have hkept : file ∈ p.files.filter (shouldIncludeFile e f) := List.mem_filter.mpr ⟨hf, hif⟩
    refine ⟨{ p with files := p.files.filter (shouldIncludeFile e f), syn := (p.files.filter (shouldIncludeFile e f)).map parseOf }, ⟨⟨p, hm, ?_⟩, by simpa using hb⟩, ?_⟩
    · rw [if_neg (by simp [hip]), show p.syn = p.files.map parseOf from hp p hm, keepFiles_parallel]
      simp only
      rw [if_neg (fun h0 => by rw [h0] at hkept; simp at hkept)]
    · simp only
      rw [if_neg (by simp [hip]), zip_self_filterMap]
      exact ⟨rfl, hkept, rfl, hif⟩

/-! ## Combining pattern lists -/

theorem union_fold : ∀ (extras base : List Str), ∃ l, unionStrings base extras = base ++ l ∧ l.Sublist extras ∧
    l.Nodup ∧ (∀ x ∈ l, x ∉ base) ∧ ∀ x ∈ extras, x ∈ base ++ l
  | [], base => ⟨[], by simp [unionStrings], by simp, by simp, by simp, by simp⟩
  | a :: extras, base => by
    have hstep : unionStrings base (a :: extras) = unionStrings (if a ∈ base then base else base ++ [a]) extras := rfl
    rw [hstep]
    by_cases h : a ∈ base
    · rw [if_pos h]
      obtain ⟨l, h1, h2, h3, h4, h5⟩ := union_fold extras base
      exact ⟨l, h1, h2.cons a, h3, h4, fun x hx => (List.mem_cons.mp hx).elim (fun e => by rw [e]; exact List.mem_append_left _ h) (h5 x)⟩
    · rw [if_neg h]
      obtain ⟨l, h1, h2, h3, h4, h5⟩ := union_fold extras (base ++ [a])
      refine ⟨a :: l, by rw [h1]; simp, h2.cons_cons a, ?_, ?_, ?_⟩
      · exact List.nodup_cons.mpr ⟨fun hm => h4 a hm (by simp), h3⟩
      · intro x hx
        rcases List.mem_cons.mp hx with e | hx
        · rw [e]; exact h
        · exact fun hb => h4 x hx (List.mem_append_left _ hb)
      · intro x hx
        rcases List.mem_cons.mp hx with e | hx
        · rw [e]; simp
        · have := h5 x hx; simpa [List.append_assoc] using this

theorem union_noop : ∀ (extras base : List Str), (∀ x ∈ extras, x ∈ base) → unionStrings base extras = base
  | [], base, _ => rfl
  | a :: extras, base, h => by
    have hstep : unionStrings base (a :: extras) = unionStrings (if a ∈ base then base else base ++ [a]) extras := rfl
    rw [hstep, if_pos (h a (by simp))]
    exact union_noop extras base fun x hx => h x (List.mem_cons_of_mem _ hx)

/-- **C30 (combining).** Combining two pattern lists keeps the first as it is, appends what is
new in the second once each and in order, loses nothing, and doing it again changes nothing. -/
theorem C30_union (base extras : List Str) :
    (∃ l, unionStrings base extras = base ++ l ∧ l.Sublist extras ∧ l.Nodup ∧ ∀ x ∈ l, x ∉ base) ∧
    (∀ x, x ∈ unionStrings base extras ↔ x ∈ base ∨ x ∈ extras) ∧
    unionStrings (unionStrings base extras) extras = unionStrings base extras := by
  obtain ⟨l, h1, h2, h3, h4, h5⟩ := union_fold extras base
  refine ⟨⟨l, h1, h2, h3, h4⟩, fun x => ?_, ?_⟩
  · rw [h1, List.mem_append]
    exact ⟨fun h => h.imp id (fun h => h2.subset h), fun h => h.elim .inl (fun h => List.mem_append.mp (h5 x h))⟩
  · rw [h1]; exact union_noop extras _ h5

/-- **C30 (configured patterns).** Each list holds afterwards exactly the engine's own patterns
and the configured ones of the same kind, and the switches are untouched. -/
theorem C30_apply (f : Filters) (c : Patterns) :
    (∀ x, x ∈ (applyConfigFilters f (some c)).incFiles ↔ x ∈ f.incFiles ∨ x ∈ c.incFiles) ∧
    (∀ x, x ∈ (applyConfigFilters f (some c)).excFiles ↔ x ∈ f.excFiles ∨ x ∈ c.excFiles) ∧
    (∀ x, x ∈ (applyConfigFilters f (some c)).incPkgs ↔ x ∈ f.incPkgs ∨ x ∈ c.incPkgs) ∧
    (∀ x, x ∈ (applyConfigFilters f (some c)).excPkgs ↔ x ∈ f.excPkgs ∨ x ∈ c.excPkgs) ∧
    (applyConfigFilters f (some c)).skipCGO = f.skipCGO ∧ (applyConfigFilters f (some c)).autoTests = f.autoTests ∧
    (applyConfigFilters f (some c)).autoMocks = f.autoMocks :=
  ⟨(C30_union _ _).2.1, (C30_union _ _).2.1, (C30_union _ _).2.1, (C30_union _ _).2.1, rfl, rfl, rfl⟩

/-- **C30 (configured patterns).** Folding configured patterns in twice is folding them once. -/
theorem C30_apply_idempotent (f : Filters) (c : Option Patterns) :
    applyConfigFilters (applyConfigFilters f c) c = applyConfigFilters f c := by
  cases c with
  | none => rfl
  | some c => simp only [applyConfigFilters, (C30_union _ _).2.2]

/-! ## Repeated runs (C54) -/

/-- `n` runs one after the other: what each analysed. -/
def runs (e : Env) (auto : Bool) (modPath : Str) (deps : List Pkg → List Str) (cfg : Option Patterns) (pkgs : List Pkg) : Nat → Filters → List (List Str)
  | 0, _ => []
  | n + 1, f => (run e auto modPath deps cfg pkgs f).1 :: runs e auto modPath deps cfg pkgs n (run e auto modPath deps cfg pkgs f).2

/-- **C54, partial.** Without automatic inclusion of framework packages, however often the
analysis is run on one configuration it analyses the same packages.  Missing: with automatic
inclusion it is false — `C54_second_run_differs`. -/
theorem C54_rerun_partial (e : Env) (modPath : Str) (deps : List Pkg → List Str) (cfg : Option Patterns) (pkgs : List Pkg) :
    ∀ (n : Nat) (f : Filters), ∀ r ∈ runs e false modPath deps cfg pkgs n f, r = (run e false modPath deps cfg pkgs f).1
  | 0, _, r, hr => by simp [runs] at hr
  | n + 1, f, r, hr => by
    rw [runs] at hr
    rcases List.mem_cons.mp hr with e1 | hr
    · exact e1
    · rw [C54_rerun_partial e modPath deps cfg pkgs n _ r hr]
      simp only [run, Bool.false_eq_true, if_false, C30_apply_idempotent]

/-! ## Concrete cases and disagreements -/

def env0 : Env := ⟨fun _ => none, id⟩

example : shouldIncludePackage env0 { excPkgs := ["**/internal/**".toList], incPkgs := ["acme/**".toList] } "acme/api".toList = true ∧
    shouldIncludePackage env0 { excPkgs := ["**/internal/**".toList], incPkgs := ["acme/**".toList] } "acme/internal/db".toList = false ∧
    shouldIncludePackage env0 { incPkgs := ["acme/**".toList] } "other/x".toList = false := by decide

example : Parallel (fun s => s ++ "!".toList) ⟨"p".toList, ["a.go".toList, "b.go".toList], ["a.go!".toList, "b.go!".toList], false⟩ := by
  show _ = _; decide +kernel

/-- **C30, negation.** In a package using cgo the loader's parses (of the compiled files: the
generated ones first) do not line up with the file list, and excluding one file drops the parse of
another: the excluded file's parse is analysed. -/
theorem C30_cgo_misaligned :
    ∃ p : Pkg, ∃ f : Filters, shouldIncludeFile env0 f "gen.go".toList = false ∧
      ∃ x ∈ analysed env0 f [p], x.2.2 = "gen.go".toList :=
  ⟨⟨"p".toList, ["a.go".toList, "gen.go".toList], ["gen.go".toList, "a.go".toList], false⟩, { excFiles := ["gen.go".toList] }, by decide,
    ("p".toList, "a.go".toList, "gen.go".toList), by decide, rfl⟩

/-- **C30, negation.** Patterns that arrive in a configuration file (rather than as an object)
are ignored: whatever the file says, the analysis filters the same, and so analyses a package the
file excludes. -/
theorem C30_config_file_ignored :
    (∀ f d file file', filtersUsed f d file = filtersUsed f d file') ∧
    ∃ c : Patterns, shouldIncludePackage env0 (applyConfigFilters {} (some c)) "acme/legacy".toList = false ∧
      shouldIncludePackage env0 (filtersUsed {} none (some c)) "acme/legacy".toList = true :=
  ⟨fun _ _ _ _ => rfl, { excPkgs := ["acme/legacy".toList] }, by decide⟩

/-- **C30, note.** The built-in cgo list misses the package it names and hits unrelated ones: the
TensorFlow binding is analysed, a package with `sqlite3` anywhere in its path is not. -/
theorem C30_cgo_list :
    shouldIncludePackage env0 { skipCGO := true } "github.com/tensorflow/tensorflow/tensorflow/go".toList = true ∧
    shouldIncludePackage env0 { skipCGO := true } "acme/sqlite3viewer/api".toList = false := by decide

/-- **C54, negation.** With automatic inclusion, the first run leaves the framework packages it
found as include patterns, and the second run analyses only those: a project package that does not
import the framework is analysed by the first run and not by the second. -/
theorem C54_second_run_differs :
    ∃ (deps : List Pkg → List Str) (pkgs : List Pkg),
      runs env0 true "acme".toList deps none pkgs 2 {} = [["acme/api".toList, "acme/store".toList], ["acme/api".toList]] :=
  ⟨fun _ => ["acme/api".toList],
   [⟨"acme/api".toList, ["a.go".toList], ["a.go".toList], false⟩, ⟨"acme/store".toList, ["s.go".toList], ["s.go".toList], false⟩], by decide⟩

end Verif.FiltersModel
