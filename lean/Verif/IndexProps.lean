import Verif.IndexModel
/-!
# Properties: lookups answer like a fresh scan (C56)
-/

namespace Verif.IndexModel
open Verif.Common

/-! ## Specification: the scans -/

/-- What `file` declares `name` as; missing and nil files declare nothing. -/
def declaredBy (get : File → List (String × Nat)) (p : Package) (file name : String) : Option Nat :=
  ((mget p file).bind id).bind fun f => mget (get f) name

/-- The first of the files that declares `name`. -/
def scan (get : File → List (String × Nat)) (p : Package) (name : String) : List String → Option Nat
  | [] => none
  | file :: files =>
    match declaredBy get p file name with
    | some d => some d
    | none => scan get p name files

/-- The declaration of `name` in the first file, by name, that has one. -/
def declared (get : File → List (String × Nat)) (m : Meta) (pkg name : String) : Option Nat :=
  match mget m.packages pkg with
  | none => none
  | some p => scan get p name (sortStrings (p.map Prod.fst))

/-- … in the first package, by name, that has one. -/
def declaredIn (m : Meta) (name : String) : List String → Option Nat
  | [] => none
  | pkg :: pkgs =>
    match declared File.funcs m pkg name with
    | some d => some d
    | none => declaredIn m name pkgs

/-! ## The index is the scan -/

theorem mget_snoc {κ β : Type} [DecidableEq κ] (l : List (κ × β)) (k k' : κ) (v : β) :
    mget (l ++ [(k, v)]) k' = match mget l k' with | some x => some x | none => if k = k' then some v else none := by
  induction l with
  | nil => rfl
  | cons x r ih =>
    obtain ⟨a, b⟩ := x
    rw [List.cons_append, mget_cons, mget_cons, ih]
    split <;> rfl

theorem fill_get : ∀ (ds idx : List (String × Nat)) (name : String),
    mget (fill idx ds) name = match mget idx name with | some d => some d | none => mget ds name
  | [], idx, name => by
    rw [fill]
    cases mget idx name <;> rfl
  | (n, d) :: ds, idx, name => by
    rw [fill, fill_get ds _ name, mget_cons]
    cases hn : mget idx n with
    | some x =>
      simp only
      cases hx : mget idx name with
      | some y => rfl
      | none =>
        simp only
        rw [if_neg]
        intro e; subst e; rw [hn] at hx; cases hx
    | none =>
      simp only
      rw [mget_snoc]
      cases hx : mget idx name with
      | some y => rfl
      | none =>
        by_cases e : n = name
        · simp only [if_pos e]
        · simp only [if_neg e]

theorem declsOf_get (get : File → List (String × Nat)) (p : Package) (file name : String) :
    mget (declsOf get p file) name = declaredBy get p file name := by
  unfold declsOf declaredBy
  rcases h : mget p file with _ | _ | f <;> rfl

theorem build_get (get : File → List (String × Nat)) (p : Package) : ∀ (files : List String) (idx : List (String × Nat)) (name : String),
    mget (build get p idx files) name = match mget idx name with | some d => some d | none => scan get p name files
  | [], idx, name => by
    rw [build, scan]
    cases mget idx name <;> rfl
  | f :: fs, idx, name => by
    rw [build, build_get get p fs _ name, fill_get, scan, declsOf_get]
    cases mget idx name <;> rfl

/-! ## Growth -/

def Shape.le (a b : Shape) : Prop := a.files ≤ b.files ∧ a.types ≤ b.types ∧ a.funcs ≤ b.funcs

theorem Shape.le_trans {a b c : Shape} (h : a.le b) (h' : b.le c) : a.le c :=
  ⟨Nat.le_trans h.1 h'.1, Nat.le_trans h.2.1 h'.2.1, Nat.le_trans h.2.2 h'.2.2⟩

theorem Shape.le_antisymm {a b : Shape} (h : a.le b) (h' : b.le a) : a = b := by
  obtain ⟨_, _, _⟩ := a; obtain ⟨_, _, _⟩ := b
  simp only [Shape.le] at h h'
  simp only [Shape.mk.injEq]; omega

/-- A package that has only been added to. -/
def Grows (p p' : Package) : Prop := (shapeOf p).le (shapeOf p') ∧ (shapeOf p = shapeOf p' → p = p') ∧ (p.length = p'.length → p.map Prod.fst = p'.map Prod.fst)

theorem Grows.refl (p : Package) : Grows p p := ⟨⟨Nat.le_refl _, Nat.le_refl _, Nat.le_refl _⟩, fun _ => rfl, fun _ => rfl⟩

theorem mset_same {κ β : Type} [DecidableEq κ] {m : List (κ × β)} {k : κ} {v : β} (h : mget m k = some v) : mset m k v = m := by
  induction m with
  | nil => cases h
  | cons x r ih =>
    obtain ⟨a, b⟩ := x
    rw [mget_cons] at h
    unfold mset
    by_cases e : a = k
    · rw [if_pos e] at h; cases h; rw [if_pos e, e]
    · rw [if_neg e] at h; rw [if_neg e, ih h]

theorem mset_keys {κ β : Type} [DecidableEq κ] {m : List (κ × β)} {k : κ} {v w : β} (h : mget m k = some v) : (mset m k w).map Prod.fst = m.map Prod.fst := by
  induction m with
  | nil => cases h
  | cons x r ih =>
    obtain ⟨a, b⟩ := x
    rw [mget_cons] at h
    unfold mset
    by_cases e : a = k
    · rw [if_pos e]; simp [e]
    · rw [if_neg e] at h; rw [if_neg e, List.map_cons, List.map_cons, ih h]

theorem mset_sum {κ β : Type} [DecidableEq κ] (w : κ × β → Nat) {m : List (κ × β)} {k : κ} {v v' : β} (h : mget m k = some v) :
    ((mset m k v').map w).sum + w (k, v) = (m.map w).sum + w (k, v') := by
  induction m with
  | nil => cases h
  | cons x r ih =>
    obtain ⟨a, b⟩ := x
    rw [mget_cons] at h
    unfold mset
    by_cases e : a = k
    · rw [if_pos e] at h; cases h; rw [if_pos e]; subst e
      simp only [List.map_cons, List.sum_cons]; omega
    · rw [if_neg e] at h; rw [if_neg e]
      have := ih h
      simp only [List.map_cons, List.sum_cons]; omega

theorem mset_length {κ β : Type} [DecidableEq κ] {m : List (κ × β)} {k : κ} {v w : β} (h : mget m k = some v) : (mset m k w).length = m.length := by
  have := congrArg List.length (mset_keys (w := w) h)
  rwa [List.length_map, List.length_map] at this

theorem grows_addFile (p : Package) (file : String) (f : Option File) : Grows p (addFileTo p file f) := by
  unfold addFileTo
  cases mget p file with
  | some _ => exact Grows.refl p
  | none =>
    refine ⟨?_, fun h => ?_, fun h => ?_⟩
    · simp only [Shape.le, shapeOf, List.length_append, List.map_append, List.sum_append]
      omega
    · have := congrArg Shape.files h
      simp only [shapeOf, List.length_append, List.length_cons, List.length_nil] at this
      omega
    · simp only [List.length_append, List.length_cons, List.length_nil] at h
      omega

theorem addNew_length (l : List (String × Nat)) (name : String) (d : Nat) :
    l.length ≤ (addNew l name d).length ∧ ((addNew l name d).length = l.length → addNew l name d = l) := by
  unfold addNew
  cases mget l name with
  | some _ => exact ⟨Nat.le_refl _, fun _ => rfl⟩
  | none =>
    refine ⟨by simp, fun h => ?_⟩
    simp only [List.length_append, List.length_cons, List.length_nil] at h
    omega

theorem grows_withFile (p : Package) (file : String) (g : File → File)
    (hg : ∀ f, f.types.length ≤ (g f).types.length ∧ f.funcs.length ≤ (g f).funcs.length ∧
      ((g f).types.length = f.types.length → (g f).funcs.length = f.funcs.length → g f = f)) : Grows p (withFile p file g) := by
  unfold withFile
  split
  · next f hf =>
    have h1 := mset_sum (count File.types) (v' := some (g f)) hf
    have h2 := mset_sum (count File.funcs) (v' := some (g f)) hf
    have h3 := mset_length (w := some (g f)) hf
    obtain ⟨g1, g2, g3⟩ := hg f
    simp only [count] at h1 h2
    refine ⟨?_, fun h => ?_, fun _ => (mset_keys hf).symm⟩
    · simp only [Shape.le, shapeOf]
      omega
    · have e1 := congrArg Shape.types h
      have e2 := congrArg Shape.funcs h
      simp only [shapeOf] at e1 e2
      have := g3 (by omega) (by omega)
      rw [this, mset_same hf]
  · exact Grows.refl p

/-! ## The caches are right -/

/-- An index entry was built for what the package was, and is right if the package is still that. -/
def EntryOk (get : File → List (String × Nat)) (p : Package) (e : List (String × Nat) × Shape) : Prop :=
  e.2.le (shapeOf p) ∧ (e.2 = shapeOf p → ∀ name, mget e.1 name = scan get p name (sortStrings (p.map Prod.fst)))

def NamesOk (p : Package) (e : List String × Nat) : Prop := e.2 ≤ p.length ∧ (e.2 = p.length → e.1 = sortStrings (p.map Prod.fst))

/-- The per-package caches say nothing wrong. -/
structure Ok (m : Meta) : Prop where
  names : ∀ pkg e, mget m.sortedFiles pkg = some e → ∃ p, mget m.packages pkg = some p ∧ NamesOk p e
  types : ∀ pkg e, mget m.typeIndex pkg = some e → ∃ p, mget m.packages pkg = some p ∧ EntryOk File.types p e
  funcs : ∀ pkg e, mget m.funcIndex pkg = some e → ∃ p, mget m.packages pkg = some p ∧ EntryOk File.funcs p e

theorem Ok.start : Ok {} where
  names := by intro pkg e h; cases h
  types := by intro pkg e h; cases h
  funcs := by intro pkg e h; cases h

theorem NamesOk.grow {p p' : Package} {e : List String × Nat} (h : NamesOk p e) (hg : Grows p p') : NamesOk p' e := by
  have hl : p.length ≤ p'.length := hg.1.1
  refine ⟨Nat.le_trans h.1 hl, fun he => ?_⟩
  have : p.length = p'.length := by have := h.1; omega
  rw [h.2 (by omega), hg.2.2 this]

theorem EntryOk.grow {get : File → List (String × Nat)} {p p' : Package} {e : List (String × Nat) × Shape} (h : EntryOk get p e) (hg : Grows p p') : EntryOk get p' e := by
  refine ⟨Shape.le_trans h.1 hg.1, fun he => ?_⟩
  have hs : shapeOf p = shapeOf p' := Shape.le_antisymm hg.1 (he ▸ h.1)
  have := hg.2.1 hs
  subst this
  exact h.2 he

/-- Additions keep the caches right. -/
theorem Ok.with {m : Meta} (h : Ok m) (pkg : String) (g : Package → Package) (hg : ∀ p, Grows p (g p)) : Ok (withPackage m pkg g) := by
  unfold withPackage
  cases hp : mget m.packages pkg with
  | none => exact h
  | some p =>
    have look : ∀ q p0, mget m.packages q = some p0 → ∃ p', mget (mset m.packages pkg (g p)) q = some p' ∧ Grows p0 p' := by
      intro q p0 hq
      by_cases e : q = pkg
      · subst e; rw [hp] at hq; cases hq
        exact ⟨g p, mget_mset_self .., hg p⟩
      · exact ⟨p0, by rw [mget_mset_ne _ _ e, hq], Grows.refl p0⟩
    constructor
    · intro q e he
      obtain ⟨p0, h1, h2⟩ := h.names q e he
      obtain ⟨p', h3, h4⟩ := look q p0 h1
      exact ⟨p', h3, h2.grow h4⟩
    · intro q e he
      obtain ⟨p0, h1, h2⟩ := h.types q e he
      obtain ⟨p', h3, h4⟩ := look q p0 h1
      exact ⟨p', h3, h2.grow h4⟩
    · intro q e he
      obtain ⟨p0, h1, h2⟩ := h.funcs q e he
      obtain ⟨p', h3, h4⟩ := look q p0 h1
      exact ⟨p', h3, h2.grow h4⟩

theorem Ok.store {m : Meta} (h : Ok m) {pkg : String} {p : Package} (hp : mget m.packages pkg = some p) : Ok (storeNames m pkg p) where
  names := by
    intro q e he
    simp only [storeNames, mget_mset] at he
    split at he
    · next eq => cases he; subst eq; exact ⟨p, hp, Nat.le_refl _, fun _ => rfl⟩
    · exact h.names q e he
  types := h.types
  funcs := h.funcs

/-- Asking for the file names: they are right, and nothing else changes. -/
theorem sortedFiles_ok {m : Meta} (h : Ok m) (pkg : String) :
    Ok (sortedFileNames m pkg).1 ∧ (sortedFileNames m pkg).1.packages = m.packages ∧ (sortedFileNames m pkg).1.anywhere = m.anywhere ∧
    (sortedFileNames m pkg).1.sortedPkgs = m.sortedPkgs ∧ ∀ p, mget m.packages pkg = some p → (sortedFileNames m pkg).2 = sortStrings (p.map Prod.fst) := by
  unfold sortedFileNames
  cases hp : mget m.packages pkg with
  | none => exact ⟨h, rfl, rfl, rfl, fun p e => by cases e⟩
  | some p =>
    simp only
    cases hs : mget m.sortedFiles pkg with
    | none => exact ⟨h.store hp, rfl, rfl, rfl, fun q e => by cases e; rfl⟩
    | some e =>
      obtain ⟨names, n⟩ := e
      simp only
      split
      · next hn =>
        obtain ⟨p0, h1, h2⟩ := h.names pkg _ hs
        rw [hp] at h1; cases h1
        exact ⟨h, rfl, rfl, rfl, fun q e => by cases e; exact h2.2 hn⟩
      · exact ⟨h.store hp, rfl, rfl, rfl, fun q e => by cases e; rfl⟩

theorem build_entry (get : File → List (String × Nat)) (p : Package) : EntryOk get p (build get p [] (sortStrings (p.map Prod.fst)), shapeOf p) :=
  ⟨⟨Nat.le_refl _, Nat.le_refl _, Nat.le_refl _⟩, fun _ name => by rw [build_get]; rfl⟩

theorem type_ok {m : Meta} (h : Ok m) (pkg name : String) :
    Ok (typeInPackage m pkg name).1 ∧ (typeInPackage m pkg name).1.packages = m.packages ∧ (typeInPackage m pkg name).1.anywhere = m.anywhere ∧
    (typeInPackage m pkg name).1.sortedPkgs = m.sortedPkgs ∧ (typeInPackage m pkg name).2 = declared File.types m pkg name := by
  obtain ⟨hs1, hs2, hs3, hs4, hs5⟩ := sortedFiles_ok h pkg
  unfold typeInPackage declared
  cases hp : mget m.packages pkg with
  | none => exact ⟨h, rfl, rfl, rfl, rfl⟩
  | some p =>
    simp only
    have fresh : Ok (storeTypes (sortedFileNames m pkg).1 pkg p (build File.types p [] (sortedFileNames m pkg).2)) := by
      rw [hs5 p hp]
      refine ⟨hs1.names, ?_, hs1.funcs⟩
      intro q e he
      simp only [storeTypes, mget_mset] at he
      split at he
      · next eq => cases he; subst eq; exact ⟨p, by simp only [storeTypes]; rw [hs2, hp], build_entry File.types p⟩
      · exact hs1.types q e he
    have ans : mget (build File.types p [] (sortedFileNames m pkg).2) name = scan File.types p name (sortStrings (p.map Prod.fst)) := by
      rw [hs5 p hp, build_get]; rfl
    cases hi : mget m.typeIndex pkg with
    | none => exact ⟨fresh, hs2, hs3, hs4, ans⟩
    | some e =>
      obtain ⟨idx, sh⟩ := e
      simp only
      split
      · next hsh =>
        obtain ⟨p0, h1, h2⟩ := h.types pkg _ hi
        rw [hp] at h1; cases h1
        exact ⟨h, rfl, rfl, rfl, h2.2 hsh name⟩
      · exact ⟨fresh, hs2, hs3, hs4, ans⟩

theorem func_ok {m : Meta} (h : Ok m) (pkg name : String) :
    Ok (functionInPackage m pkg name).1 ∧ (functionInPackage m pkg name).1.packages = m.packages ∧ (functionInPackage m pkg name).1.anywhere = m.anywhere ∧
    (functionInPackage m pkg name).1.sortedPkgs = m.sortedPkgs ∧ (functionInPackage m pkg name).2 = declared File.funcs m pkg name := by
  obtain ⟨hs1, hs2, hs3, hs4, hs5⟩ := sortedFiles_ok h pkg
  unfold functionInPackage declared
  cases hp : mget m.packages pkg with
  | none => exact ⟨h, rfl, rfl, rfl, rfl⟩
  | some p =>
    simp only
    have fresh : Ok (storeFuncs (sortedFileNames m pkg).1 pkg p (build File.funcs p [] (sortedFileNames m pkg).2)) := by
      rw [hs5 p hp]
      refine ⟨hs1.names, hs1.types, ?_⟩
      intro q e he
      simp only [storeFuncs, mget_mset] at he
      split at he
      · next eq => cases he; subst eq; exact ⟨p, by simp only [storeFuncs]; rw [hs2, hp], build_entry File.funcs p⟩
      · exact hs1.funcs q e he
    have ans : mget (build File.funcs p [] (sortedFileNames m pkg).2) name = scan File.funcs p name (sortStrings (p.map Prod.fst)) := by
      rw [hs5 p hp, build_get]; rfl
    cases hi : mget m.funcIndex pkg with
    | none => exact ⟨fresh, hs2, hs3, hs4, ans⟩
    | some e =>
      obtain ⟨idx, sh⟩ := e
      simp only
      split
      · next hsh =>
        obtain ⟨p0, h1, h2⟩ := h.funcs pkg _ hi
        rw [hp] at h1; cases h1
        exact ⟨h, rfl, rfl, rfl, h2.2 hsh name⟩
      · exact ⟨fresh, hs2, hs3, hs4, ans⟩

/-! ### The program-wide index -/

theorem buildAll_ok : ∀ (pkgs : List String) (m : Meta) (idx : List (String × Nat)), Ok m →
    Ok (buildAll m idx pkgs).1 ∧ (buildAll m idx pkgs).1.packages = m.packages ∧ (buildAll m idx pkgs).1.sortedPkgs = m.sortedPkgs ∧
    ∀ name, mget (buildAll m idx pkgs).2 name = match mget idx name with | some d => some d | none => declaredIn m name pkgs
  | [], m, idx, h => by
    rw [buildAll]
    refine ⟨h, rfl, rfl, fun name => ?_⟩
    rw [declaredIn]
    cases mget idx name <;> rfl
  | pkg :: pkgs, m, idx, h => by
    obtain ⟨hs1, hs2, hs3, hs4, hs5⟩ := sortedFiles_ok h pkg
    rw [buildAll]
    cases hp : mget m.packages pkg with
    | none =>
      simp only
      obtain ⟨h1, h2, h3, h4⟩ := buildAll_ok pkgs m idx h
      refine ⟨h1, h2, h3, fun name => ?_⟩
      rw [h4, declaredIn]
      simp only [declared, hp]
    | some p =>
      simp only
      obtain ⟨h1, h2, h3, h4⟩ := buildAll_ok pkgs (sortedFileNames m pkg).1 (build File.funcs p idx (sortedFileNames m pkg).2) hs1
      refine ⟨h1, h2.trans hs2, h3.trans hs4, fun name => ?_⟩
      have hd : ∀ l, declaredIn (sortedFileNames m pkg).1 name l = declaredIn m name l := by
        intro l
        induction l with
        | nil => rfl
        | cons x xs ih => simp only [declaredIn, declared, hs2, ih]
      rw [h4, hd, build_get, hs5 p hp, declaredIn]
      simp only [declared, hp]
      cases mget idx name <;> rfl

theorem pkgs_ok {m : Meta} (h : Ok m) (hfresh : m.sortedPkgs = none ∨ m.sortedPkgs = some (sortStrings (m.packages.map Prod.fst))) :
    Ok (sortedPackageNames m).1 ∧ (sortedPackageNames m).1.packages = m.packages ∧
    (sortedPackageNames m).1.sortedPkgs = some (sortStrings (m.packages.map Prod.fst)) ∧
    (sortedPackageNames m).2 = sortStrings (m.packages.map Prod.fst) := by
  unfold sortedPackageNames
  rcases hfresh with h1 | h1
  · rw [h1]; exact ⟨⟨h.names, h.types, h.funcs⟩, rfl, rfl, rfl⟩
  · rw [h1]; exact ⟨h, rfl, h1, rfl⟩

/-- What FunctionAnywhere should answer. -/
def declaredAnywhere (m : Meta) (name : String) : Option Nat := declaredIn m name (sortStrings (m.packages.map Prod.fst))

/-- The program-wide caches are unset or right. -/
def Fresh (m : Meta) : Prop :=
  (m.sortedPkgs = none ∨ m.sortedPkgs = some (sortStrings (m.packages.map Prod.fst))) ∧
  (m.anywhere = none ∨ ∃ idx, m.anywhere = some idx ∧ ∀ name, mget idx name = declaredAnywhere m name)

theorem any_ok {m : Meta} (h : Ok m) : ∀ name, Ok (functionAnywhere m name).1 ∧ (functionAnywhere m name).1.packages = m.packages := by
  intro name
  unfold functionAnywhere
  split
  · exact ⟨h, rfl⟩
  · have hp : Ok (sortedPackageNames m).1 ∧ (sortedPackageNames m).1.packages = m.packages := by
      unfold sortedPackageNames
      split
      · exact ⟨h, rfl⟩
      · exact ⟨⟨h.names, h.types, h.funcs⟩, rfl⟩
    obtain ⟨h1, h2, _, _⟩ := buildAll_ok (sortedPackageNames m).2 (sortedPackageNames m).1 [] hp.1
    exact ⟨⟨h1.names, h1.types, h1.funcs⟩, h2.trans hp.2⟩

theorem any_fresh {m : Meta} (h : Ok m) (hf : Fresh m) (name : String) :
    Fresh (functionAnywhere m name).1 ∧ (functionAnywhere m name).2 = declaredAnywhere m name := by
  obtain ⟨hf1, hf2⟩ := hf
  unfold functionAnywhere
  rcases hf2 with h2 | ⟨idx, h2, h3⟩
  · rw [h2]
    simp only
    obtain ⟨p1, p2, p3, p4⟩ := pkgs_ok h hf1
    obtain ⟨b1, b2, b3, b4⟩ := buildAll_ok (sortedPackageNames m).2 (sortedPackageNames m).1 [] p1
    have hd : ∀ n l, declaredIn (sortedPackageNames m).1 n l = declaredIn m n l := by
      intro n l
      induction l with
      | nil => rfl
      | cons x xs ih => simp only [declaredIn, declared, p2, ih]
    have ans : ∀ n, mget (buildAll (sortedPackageNames m).1 [] (sortedPackageNames m).2).2 n = declaredAnywhere m n := by
      intro n
      rw [b4, hd, p4]; rfl
    have hk : (buildAll (sortedPackageNames m).1 [] (sortedPackageNames m).2).1.packages = m.packages := b2.trans p2
    refine ⟨⟨.inr ?_, .inr ⟨_, rfl, fun n => ?_⟩⟩, ans name⟩
    · show (buildAll (sortedPackageNames m).1 [] (sortedPackageNames m).2).1.sortedPkgs = _
      rw [b3, p3]
      show _ = some (sortStrings ((buildAll (sortedPackageNames m).1 [] (sortedPackageNames m).2).1.packages.map Prod.fst))
      rw [hk]
    · rw [ans]
      have hd' : ∀ l, declaredIn m n l = declaredIn (storeAnywhere (buildAll (sortedPackageNames m).1 [] (sortedPackageNames m).2) name).1 n l := by
        intro l
        induction l with
        | nil => rfl
        | cons x xs ih =>
          have e : (storeAnywhere (buildAll (sortedPackageNames m).1 [] (sortedPackageNames m).2) name).1.packages = m.packages := hk
          simp only [declaredIn, declared, e, ih]
      unfold declaredAnywhere
      rw [hd']
      show _ = declaredIn _ n (sortStrings ((buildAll (sortedPackageNames m).1 [] (sortedPackageNames m).2).1.packages.map Prod.fst))
      rw [hk]
  · rw [h2]
    exact ⟨⟨hf1, .inr ⟨idx, h2, h3⟩⟩, h3 name⟩

/-! ## C56 -/

theorem apply_ok {m : Meta} (h : Ok m) : ∀ op, Ok (apply m op)
  | .addPackage pkg => by
    show Ok (addPackageTo m pkg)
    unfold addPackageTo
    cases hp : mget m.packages pkg with
    | some _ => exact h
    | none =>
      have look : ∀ q p0, mget m.packages q = some p0 → mget (m.packages ++ [(pkg, [])]) q = some p0 := by
        intro q p0 hq; rw [mget_snoc, hq]
      constructor
      · intro q e he
        obtain ⟨p0, h1, h2⟩ := h.names q e he
        exact ⟨p0, look q p0 h1, h2⟩
      · intro q e he
        obtain ⟨p0, h1, h2⟩ := h.types q e he
        exact ⟨p0, look q p0 h1, h2⟩
      · intro q e he
        obtain ⟨p0, h1, h2⟩ := h.funcs q e he
        exact ⟨p0, look q p0 h1, h2⟩
  | .addFile pkg file f => h.with pkg _ fun p => grows_addFile p file f
  | .addType pkg file name d => h.with pkg _ fun p => grows_withFile p file _ fun f => by
      have := addNew_length f.types name d
      refine ⟨this.1, Nat.le_refl _, fun h1 _ => ?_⟩
      rw [this.2 h1]
  | .addFunc pkg file name d => h.with pkg _ fun p => grows_withFile p file _ fun f => by
      have := addNew_length f.funcs name d
      refine ⟨Nat.le_refl _, this.1, fun _ h1 => ?_⟩
      rw [this.2 h1]
  | .askType pkg name => (type_ok h pkg name).1
  | .askFunc pkg name => (func_ok h pkg name).1
  | .askFiles pkg => (sortedFiles_ok h pkg).1
  | .askAnywhere name => (any_ok h name).1

theorem run_ok : ∀ (ops : List Op) {m : Meta}, Ok m → Ok (run m ops)
  | [], _, h => h
  | op :: ops, _, h => run_ok ops (apply_ok h op)

/-- **C56 (types).** However the metadata grew and whatever was asked before, looking up a type in a
package gives the declaration in the first of the package's current files, by name, that declares it. -/
theorem C56_types (ops : List Op) (pkg name : String) :
    (typeInPackage (run {} ops) pkg name).2 = declared File.types (run {} ops) pkg name := (type_ok (run_ok ops Ok.start) pkg name).2.2.2.2

/-- **C56 (functions).** -/
theorem C56_functions (ops : List Op) (pkg name : String) :
    (functionInPackage (run {} ops) pkg name).2 = declared File.funcs (run {} ops) pkg name := (func_ok (run_ok ops Ok.start) pkg name).2.2.2.2

/-- **C56 (files).** The sorted file names are those of the current files. -/
theorem C56_files (ops : List Op) (pkg : String) (p : Package) (h : mget (run {} ops).packages pkg = some p) :
    (sortedFileNames (run {} ops) pkg).2 = sortStrings (p.map Prod.fst) := (sortedFiles_ok (run_ok ops Ok.start) pkg).2.2.2.2 p h

def Op.asks : Op → Prop
  | .askType _ _ | .askFunc _ _ | .askFiles _ | .askAnywhere _ => True
  | _ => False

def Op.notAnywhere : Op → Prop
  | .askAnywhere _ => False
  | _ => True

theorem apply_packages {m : Meta} (h : Ok m) : ∀ op, Op.asks op → (apply m op).packages = m.packages
  | .askType pkg name, _ => (type_ok h pkg name).2.1
  | .askFunc pkg name, _ => (func_ok h pkg name).2.1
  | .askFiles pkg, _ => (sortedFiles_ok h pkg).2.1
  | .askAnywhere name, _ => (any_ok h name).2
  | .addPackage _, h | .addFile _ _ _, h | .addType _ _ _ _, h | .addFunc _ _ _ _, h => absurd h id

theorem declaredAnywhere_congr {m m' : Meta} (h : m'.packages = m.packages) (name : String) : declaredAnywhere m' name = declaredAnywhere m name := by
  unfold declaredAnywhere
  rw [h]
  have : ∀ l, declaredIn m' name l = declaredIn m name l := by
    intro l
    induction l with
    | nil => rfl
    | cons x xs ih => simp only [declaredIn, declared, h, ih]
  rw [this]

theorem Fresh.congr {m m' : Meta} (hf : Fresh m) (h1 : m'.packages = m.packages) (h2 : m'.sortedPkgs = m.sortedPkgs) (h3 : m'.anywhere = m.anywhere) : Fresh m' := by
  refine ⟨by rw [h2, h1]; exact hf.1, ?_⟩
  rw [h3]
  rcases hf.2 with h | ⟨idx, h, h'⟩
  · exact .inl h
  · exact .inr ⟨idx, h, fun name => by rw [h', declaredAnywhere_congr h1]⟩

theorem apply_fresh {m : Meta} (h : Ok m) (hf : Fresh m) : ∀ op, Op.asks op → Fresh (apply m op)
  | .askType pkg name, _ => let t := type_ok h pkg name; hf.congr t.2.1 t.2.2.2.1 t.2.2.1
  | .askFunc pkg name, _ => let t := func_ok h pkg name; hf.congr t.2.1 t.2.2.2.1 t.2.2.1
  | .askFiles pkg, _ => let t := sortedFiles_ok h pkg; hf.congr t.2.1 t.2.2.2.1 t.2.2.1
  | .askAnywhere name, _ => (any_fresh h hf name).1
  | .addPackage _, h | .addFile _ _ _, h | .addType _ _ _ _, h | .addFunc _ _ _ _, h => absurd h id

theorem unset_apply {m : Meta} (h : Ok m) (hu : m.sortedPkgs = none ∧ m.anywhere = none) :
    ∀ op, Op.notAnywhere op → (apply m op).sortedPkgs = none ∧ (apply m op).anywhere = none
  | .askType pkg name, _ => let t := type_ok h pkg name; ⟨t.2.2.2.1.trans hu.1, t.2.2.1.trans hu.2⟩
  | .askFunc pkg name, _ => let t := func_ok h pkg name; ⟨t.2.2.2.1.trans hu.1, t.2.2.1.trans hu.2⟩
  | .askFiles pkg, _ => let t := sortedFiles_ok h pkg; ⟨t.2.2.2.1.trans hu.1, t.2.2.1.trans hu.2⟩
  | .askAnywhere _, hn => absurd hn id
  | .addPackage pkg, _ => by
    show (addPackageTo m pkg).sortedPkgs = none ∧ (addPackageTo m pkg).anywhere = none
    unfold addPackageTo
    cases mget m.packages pkg <;> exact hu
  | .addFile pkg _ _, _ | .addType pkg _ _ _, _ | .addFunc pkg _ _ _, _ => by
    show (withPackage m pkg _).sortedPkgs = none ∧ (withPackage m pkg _).anywhere = none
    unfold withPackage
    cases mget m.packages pkg <;> exact hu

/-- **C56, partial (anywhere).** If everything is added before the first program-wide lookup, looking
up a function by its bare name gives the declaration in the first package, by name, that has one.
Missing: additions after the first such lookup — `C56_anywhere_stale`. -/
theorem C56_anywhere_partial (ops asks : List Op) (h : ∀ op ∈ ops, Op.notAnywhere op) (ha : ∀ op ∈ asks, Op.asks op) (name : String) :
    (functionAnywhere (run (run {} ops) asks) name).2 = declaredAnywhere (run (run {} ops) asks) name := by
  have first : ∀ (ops : List Op) (m : Meta), Ok m → (m.sortedPkgs = none ∧ m.anywhere = none) → (∀ op ∈ ops, Op.notAnywhere op) →
      (run m ops).sortedPkgs = none ∧ (run m ops).anywhere = none := by
    intro ops
    induction ops with
    | nil => intro m _ hu _; exact hu
    | cons op ops ih => intro m hm hu ho; exact ih _ (apply_ok hm op) (unset_apply hm hu op (ho op (by simp))) fun o h => ho o (List.mem_cons_of_mem _ h)
  have second : ∀ (ops : List Op) (m : Meta), Ok m → Fresh m → (∀ op ∈ ops, Op.asks op) → Fresh (run m ops) := by
    intro ops
    induction ops with
    | nil => intro m _ hf _; exact hf
    | cons op ops ih => intro m hm hf ho; exact ih _ (apply_ok hm op) (apply_fresh hm hf op (ho op (by simp))) fun o h => ho o (List.mem_cons_of_mem _ h)
  have hu := first ops {} Ok.start ⟨rfl, rfl⟩ h
  have hf := second asks _ (run_ok ops Ok.start) ⟨.inl hu.1, .inl hu.2⟩ ha
  exact (any_fresh (run_ok asks (run_ok ops Ok.start)) hf name).2

/-- A program with two packages that both declare `Serve`. -/
def twoPackages : List Op :=
  [.addPackage "b", .addFile "b" "y.go" (some ⟨[("T", 1)], [("Serve", 2)]⟩), .askType "b" "T", .askFunc "b" "Serve",
   .addFile "b" "x.go" (some ⟨[("T", 3)], []⟩), .addType "b" "x.go" "U" 4, .addFile "b" "z.go" none,
   .addPackage "a", .addFile "a" "s.go" (some ⟨[], []⟩), .addFunc "a" "s.go" "Serve" 5]

example : (typeInPackage (run {} twoPackages) "b" "T").2 = some 3 ∧ (typeInPackage (run {} twoPackages) "b" "U").2 = some 4 ∧
    (functionInPackage (run {} twoPackages) "b" "Serve").2 = some 2 ∧ (functionAnywhere (run {} twoPackages) "Serve").2 = some 5 ∧
    (sortedFileNames (run {} twoPackages) "b").2 = ["x.go", "y.go", "z.go"] := by decide

/-- **C56, negation.** A function added after a program-wide lookup is never found by one. -/
theorem C56_anywhere_stale :
    (functionAnywhere (run {} (twoPackages ++ [.askAnywhere "Serve", .addFunc "a" "s.go" "Late" 9])) "Late").2 = none ∧
    declaredAnywhere (run {} (twoPackages ++ [.askAnywhere "Serve", .addFunc "a" "s.go" "Late" 9])) "Late" = some 9 := by decide

/-! ## C56: the call graph -/

theorem bucket_get {κ : Type} [DecidableEq κ] (m : List (κ × List Edge)) (k k' : κ) (e : Edge) :
    (mget (bucket m k e) k').getD [] = (mget m k').getD [] ++ if k' = k then [e] else [] := by
  unfold bucket
  cases h : mget m k with
  | some l =>
    simp only [mget_mset]
    by_cases ek : k' = k
    · subst ek; simp [h]
    · simp [ek]
  | none =>
    simp only [mget_mset]
    by_cases ek : k' = k
    · subst ek; simp [h]
    · simp [ek]

theorem indexBy_get {κ : Type} [DecidableEq κ] (key : Edge → κ) : ∀ (es : List Edge) (m : List (κ × List Edge)) (k : κ),
    (mget (indexBy key m es) k).getD [] = (mget m k).getD [] ++ es.filter fun e => decide (key e = k)
  | [], m, k => by rw [indexBy]; simp
  | e :: es, m, k => by
    rw [indexBy, indexBy_get key es _ k, bucket_get, List.append_assoc]
    congr 1
    rw [List.filter_cons]
    by_cases ek : k = key e
    · subst ek; simp
    · rw [if_neg ek, if_neg (by simpa using fun h => ek h.symm)]; simp

/-- An index refuses, or answers for exactly the edges there are. -/
def GraphOk (g : Graph) : Prop :=
  g.builtFor ≤ g.edges.length ∧
  ∀ m, g.byName = some m → g.builtFor = g.edges.length →
    ∀ name pkg, (mget m (name, pkg)).getD [] = g.edges.filter fun e => decide ((e.name, e.pkg) = (name, pkg))

theorem gapply_ok {g : Graph} (h : GraphOk g) : ∀ op, GraphOk (gapply g op)
  | .add e => by
    refine ⟨?_, fun m _ hb => ?_⟩
    · have := h.1
      simp only [gapply, List.length_append, List.length_cons, List.length_nil]; omega
    · have := h.1
      simp only [gapply, List.length_append, List.length_cons, List.length_nil] at hb; omega
  | .build => by
    refine ⟨Nat.le_refl _, fun m hm _ name pkg => ?_⟩
    cases hm
    rw [indexBy_get]; rfl
  | .askRoots => by
    unfold gapply callGraphRoots
    cases g.roots <;> exact h

/-- **C56 (callees).** Whenever the index of calls by callee answers, it answers with exactly the
calls of that function recorded so far, in the order they were recorded. -/
theorem C56_callees (ops : List GOp) (name pkg : Nat) (l : List Edge) (h : calleeEdges (grun {} ops) name pkg = some l) :
    l = (grun {} ops).edges.filter fun e => decide ((e.name, e.pkg) = (name, pkg)) := by
  have hok : ∀ (ops : List GOp) (g : Graph), GraphOk g → GraphOk (grun g ops) := by
    intro ops
    induction ops with
    | nil => intro g h; exact h
    | cons op ops ih => intro g h; exact ih _ (gapply_ok h op)
  have := hok ops {} ⟨Nat.le_refl _, fun m hm => by cases hm⟩
  unfold calleeEdges at h
  split at h
  · cases h
  · next m hm =>
    split at h
    · next hb => cases h; exact this.2 m hm hb name pkg
    · cases h

theorem mget_bucket_isSome {κ : Type} [DecidableEq κ] (m : List (κ × List Edge)) (k k' : κ) (e : Edge) :
    (mget (bucket m k e) k').isSome = ((mget m k').isSome || decide (k' = k)) := by
  unfold bucket
  cases h : mget m k with
  | some l =>
    simp only [mget_mset]
    by_cases ek : k' = k
    · subst ek; simp [h]
    · simp [ek]
  | none =>
    simp only [mget_mset]
    by_cases ek : k' = k
    · subst ek; simp [h]
    · simp [ek]

theorem indexBy_isSome {κ : Type} [DecidableEq κ] (key : Edge → κ) : ∀ (es : List Edge) (m : List (κ × List Edge)) (k : κ),
    (mget (indexBy key m es) k).isSome = ((mget m k).isSome || es.any fun e => decide (key e = k))
  | [], m, k => by rw [indexBy]; simp
  | e :: es, m, k => by
    rw [indexBy, indexBy_isSome key es _ k, mget_bucket_isSome, List.any_cons, Bool.or_assoc]
    congr 2
    exact decide_eq_decide.mpr ⟨Eq.symm, Eq.symm⟩

theorem bucketArgs_isSome (e : Edge) : ∀ (as : List String) (m : List (String × List Edge)) (k : String),
    (mget (as.foldl (fun m a => bucket m a e) m) k).isSome = ((mget m k).isSome || decide (k ∈ as))
  | [], m, k => by simp
  | a :: as, m, k => by
    rw [List.foldl_cons, bucketArgs_isSome e as _ k, mget_bucket_isSome, Bool.or_assoc]
    congr 1
    rw [← Bool.decide_or]
    exact decide_eq_decide.mpr List.mem_cons.symm

theorem indexArgs_isSome : ∀ (es : List Edge) (m : List (String × List Edge)) (k : String),
    (mget (indexArgs m es) k).isSome = ((mget m k).isSome || es.any fun e => decide (k ∈ e.args))
  | [], m, k => by rw [indexArgs]; simp
  | e :: es, m, k => by
    rw [indexArgs, indexArgs_isSome es _ k, bucketArgs_isSome, List.any_cons, Bool.or_assoc]

/-- An edge starts at a root: its caller is called main, or is neither called nor passed anywhere. -/
def RootEdge (edges : List Edge) (e : Edge) : Prop :=
  e.isMain = true ∨ ∀ x ∈ edges, x.callee ≠ e.caller ∧ e.caller ∉ x.args

instance (edges : List Edge) (e : Edge) : Decidable (RootEdge edges e) := by unfold RootEdge; infer_instance

theorem isRoot_iff (edges : List Edge) (e : Edge) (r : List Edge) :
    isRoot { buildMaps { edges := edges } with roots := r } e = true ↔ RootEdge edges e := by
  unfold isRoot RootEdge buildMaps
  simp only
  have h1 := indexBy_isSome Edge.callee edges [] e.caller
  have h2 := indexArgs_isSome edges [] e.caller
  rw [Bool.or_eq_true, Bool.and_eq_true]
  refine or_congr Iff.rfl ?_
  rw [← Option.not_isSome, ← Option.not_isSome, h1, h2]
  simp only [mget_nil, Option.isSome_none, Bool.false_or, Bool.not_eq_true', List.any_eq_false, decide_eq_true_eq]
  exact ⟨fun h x hx => ⟨h.1 x hx, h.2 x hx⟩, fun h => ⟨fun x hx => (h x hx).1, fun x hx => (h x hx).2⟩⟩

/-- **C56, partial (roots).** If the roots are first asked for after the graph is complete and indexed,
they are exactly the edges whose caller is main or is neither called nor passed as an argument — and
asking again gives the same.  Missing: growth after the first question — `C56_roots_stale`. -/
theorem C56_roots_partial (edges : List Edge) :
    (callGraphRoots (buildMaps { edges := edges })).2 = edges.filter (fun e => decide (RootEdge edges e)) ∧
    (callGraphRoots (callGraphRoots (buildMaps { edges := edges })).1).2 = edges.filter (fun e => decide (RootEdge edges e)) := by
  have key : ∀ r, edges.filter (isRoot { buildMaps { edges := edges } with roots := r }) = edges.filter (fun e => decide (RootEdge edges e)) := by
    intro r
    apply List.filter_congr
    intro e _
    rw [Bool.eq_iff_iff, isRoot_iff, decide_eq_true_eq]
  have h1 : callGraphRoots (buildMaps { edges := edges }) =
      ({ buildMaps { edges := edges } with roots := edges.filter (fun e => decide (RootEdge edges e)) }, edges.filter (fun e => decide (RootEdge edges e))) := by
    rw [← key []]; rfl
  rw [h1]
  refine ⟨rfl, ?_⟩
  unfold callGraphRoots
  cases hr : edges.filter (fun e => decide (RootEdge edges e)) with
  | nil =>
    simp only
    rw [← hr]
    exact key []
  | cons x xs => rfl

def mainCalls : Edge := ⟨"main.main", "main.setup", 1, 1, true, []⟩
def orphanCalls : Edge := ⟨"api.Serve", "api.log", 2, 1, false, []⟩
def setupPasses : Edge := ⟨"main.setup", "mux.Handle", 3, 2, false, ["api.Serve"]⟩

example : (callGraphRoots (buildMaps { edges := [mainCalls, orphanCalls, setupPasses] })).2 = [mainCalls] := by decide
example : calleeEdges (grun {} [.add mainCalls, .build, .add orphanCalls, .build]) 2 1 = some [orphanCalls] := by decide
example : calleeEdges (grun {} [.add mainCalls, .build, .add orphanCalls]) 2 1 = none := by decide

/-- **C56, negation.** Roots asked for once are kept, although the function turns out to be passed as an
argument; asked for before the graph is indexed, every edge is a root. -/
theorem C56_roots_stale :
    (callGraphRoots (grun {} [.add mainCalls, .add orphanCalls, .build, .askRoots, .add setupPasses, .build])).2 = [mainCalls, orphanCalls] ∧
    (callGraphRoots (grun {} [.add mainCalls, .add orphanCalls, .add setupPasses, .askRoots, .build])).2 = [mainCalls, orphanCalls, setupPasses] ∧
    ¬ RootEdge [mainCalls, orphanCalls, setupPasses] orphanCalls := by decide

end Verif.IndexModel
