import Verif.FnFileModel
/-!
# C130: the file that is read for a function called is the one that declares it
-/

namespace Verif.FnFile

/-! ### Specification -/

/-- The package declares the function in the file. -/
def DeclaresFunction (fs : List File) (fn file : Text) : Prop := ∃ f ∈ fs, fn ∈ f.functions ∧ f.name = file

/-- The package has a method of this name in the file, whose receiver is the type or a pointer to it. -/
def DeclaresMethod (fs : List File) (recv fn file : Text) : Prop :=
  ∃ f ∈ fs, ∃ t ∈ f.types, ∃ m ∈ t.2, m.name = fn ∧ (m.receiver = recv ∨ m.receiver = '*' :: recv) ∧ m.file = file

/-- The package has a method of this name in the file. -/
def SomeMethod (fs : List File) (fn file : Text) : Prop := ∃ f ∈ fs, ∃ t ∈ f.types, ∃ m ∈ t.2, m.name = fn ∧ m.file = file

/-- A type is named by a text that is not empty and does not begin with a star. -/
def TypeName (s : Text) : Prop := s ≠ [] ∧ s.head? ≠ some '*'

/-! ### Lemmas -/

theorem trim_plain (s : Text) (h : s.head? ≠ some '*') : trimStar s = s := by
  unfold trimStar
  split
  · exact absurd rfl h
  · rfl

theorem trim_iff (s r : Text) (h : TypeName r) : trimStar s = r ↔ s = r ∨ s = '*' :: r := by
  constructor
  · intro e
    unfold trimStar at e
    split at e
    · exact .inr (by rw [e])
    · exact .inl e
  · rintro (rfl | rfl)
    · exact trim_plain _ h.2
    · rfl

/-- The method is the one asked for. -/
def Hit (fn recv : Text) (m : Method) : Prop := m.name = fn ∧ recv ≠ [] ∧ trimStar m.receiver = recv

theorem methods_spec (fn recv : Text) (ms : List Method) : ∀ s,
    (∀ f, methods fn recv s ms = .inl f → ∃ m ∈ ms, Hit fn recv m ∧ m.file = f) ∧
    (∀ s', methods fn recv s ms = .inr s' → (∀ m ∈ ms, ¬ Hit fn recv m) ∧ s'.func = s.func ∧
      (∀ f, s'.meth = some f → s.meth = some f ∨ ∃ m ∈ ms, m.name = fn ∧ m.file = f) ∧
      (s'.meth = none → s.meth = none ∧ ∀ m ∈ ms, m.name ≠ fn)) := by
  induction ms with
  | nil =>
    intro s
    refine ⟨fun f h => (by cases h), fun s' h => ?_⟩
    cases h
    exact ⟨fun m h => (by cases h), rfl, fun f h => .inl h, fun h => ⟨h, fun m h => (by cases h)⟩⟩
  | cons m ms ih =>
    intro s
    unfold methods
    by_cases hn : m.name = fn
    · rw [if_neg (fun h => h hn)]
      by_cases hh : recv ≠ [] ∧ trimStar m.receiver = recv
      · rw [if_pos hh]
        refine ⟨fun f h => ?_, fun s' h => (by cases h)⟩
        cases h
        exact ⟨m, .head _, ⟨hn, hh⟩, rfl⟩
      · rw [if_neg hh]
        obtain ⟨i1, i2⟩ := ih (if s.meth = none then { s with meth := some m.file } else s)
        refine ⟨fun f h => ?_, fun s' h => ?_⟩
        · obtain ⟨m', hm', h'⟩ := i1 f h
          exact ⟨m', .tail _ hm', h'⟩
        · obtain ⟨a, b, c, d⟩ := i2 s' h
          refine ⟨fun m' hm' => ?_, ?_, fun f hf => ?_, fun hf => ?_⟩
          · rcases List.mem_cons.1 hm' with rfl | hm'
            · exact fun h' => hh h'.2
            · exact a m' hm'
          · rw [b]; split <;> rfl
          · rcases c f hf with h' | ⟨m', hm', h'⟩
            · split at h'
              · exact .inr ⟨m, .head _, hn, Option.some.inj h'⟩
              · exact .inl h'
            · exact .inr ⟨m', .tail _ hm', h'⟩
          · have := (d hf).1
            split at this
            · cases this
            · next h' => exact absurd this h'
    · rw [if_pos hn]
      obtain ⟨i1, i2⟩ := ih s
      refine ⟨fun f h => ?_, fun s' h => ?_⟩
      · obtain ⟨m', hm', h'⟩ := i1 f h
        exact ⟨m', .tail _ hm', h'⟩
      · obtain ⟨a, b, c, d⟩ := i2 s' h
        refine ⟨fun m' hm' => ?_, b, fun f hf => ?_, fun hf => ⟨(d hf).1, fun m' hm' => ?_⟩⟩
        · rcases List.mem_cons.1 hm' with rfl | hm'
          · exact fun h' => hn h'.1
          · exact a m' hm'
        · exact (c f hf).imp id (fun ⟨m', hm', h'⟩ => ⟨m', .tail _ hm', h'⟩)
        · rcases List.mem_cons.1 hm' with rfl | hm'
          · exact hn
          · exact (d hf).2 m' hm'

theorem types_spec (fn recv : Text) (ts : List (Text × List Method)) : ∀ s,
    (∀ f, types fn recv s ts = .inl f → ∃ t ∈ ts, ∃ m ∈ t.2, Hit fn recv m ∧ m.file = f) ∧
    (∀ s', types fn recv s ts = .inr s' → (∀ t ∈ ts, ∀ m ∈ t.2, ¬ Hit fn recv m) ∧ s'.func = s.func ∧
      (∀ f, s'.meth = some f → s.meth = some f ∨ ∃ t ∈ ts, ∃ m ∈ t.2, m.name = fn ∧ m.file = f) ∧
      (s'.meth = none → s.meth = none ∧ ∀ t ∈ ts, ∀ m ∈ t.2, m.name ≠ fn)) := by
  induction ts with
  | nil =>
    intro s
    refine ⟨fun f h => (by cases h), fun s' h => ?_⟩
    cases h
    exact ⟨fun m h => (by cases h), rfl, fun f h => .inl h, fun h => ⟨h, fun m h => (by cases h)⟩⟩
  | cons t ts ih =>
    intro s
    obtain ⟨m1, m2⟩ := methods_spec fn recv t.2 s
    unfold types
    cases hm : methods fn recv s t.2 with
    | inl f =>
      refine ⟨fun f' h => ?_, fun s' h => (by cases h)⟩
      cases h
      obtain ⟨m, h1, h2⟩ := m1 f hm
      exact ⟨t, .head _, m, h1, h2⟩
    | inr s1 =>
      obtain ⟨i1, i2⟩ := ih s1
      obtain ⟨a, b, c, d⟩ := m2 s1 hm
      refine ⟨fun f h => ?_, fun s' h => ?_⟩
      · obtain ⟨t', ht', h'⟩ := i1 f h
        exact ⟨t', .tail _ ht', h'⟩
      · obtain ⟨a', b', c', d'⟩ := i2 s' h
        refine ⟨fun t' ht' => ?_, b'.trans b, fun f hf => ?_, fun hf => ?_⟩
        · rcases List.mem_cons.1 ht' with rfl | ht'
          · exact a
          · exact a' t' ht'
        · rcases c' f hf with h' | ⟨t', ht', h'⟩
          · exact (c f h').imp id (fun ⟨m, h1, h2⟩ => ⟨t, .head _, m, h1, h2⟩)
          · exact .inr ⟨t', .tail _ ht', h'⟩
        · obtain ⟨e1, e2⟩ := d' hf
          obtain ⟨e3, e4⟩ := d e1
          refine ⟨e3, fun t' ht' => ?_⟩
          rcases List.mem_cons.1 ht' with rfl | ht'
          · exact e4
          · exact e2 t' ht'

theorem files_spec (fn recv : Text) (fs : List File) : ∀ s,
    (∀ f, files fn recv s fs = .inl f → (recv = [] ∧ DeclaresFunction fs fn f) ∨ ∃ g ∈ fs, ∃ t ∈ g.types, ∃ m ∈ t.2, Hit fn recv m ∧ m.file = f) ∧
    (∀ s', files fn recv s fs = .inr s' → (∀ g ∈ fs, ∀ t ∈ g.types, ∀ m ∈ t.2, ¬ Hit fn recv m) ∧ (recv = [] → ∀ g ∈ fs, fn ∉ g.functions) ∧
      (∀ f, s'.func = some f → s.func = some f ∨ DeclaresFunction fs fn f) ∧ (s'.func = none → s.func = none ∧ ∀ g ∈ fs, fn ∉ g.functions) ∧
      (∀ f, s'.meth = some f → s.meth = some f ∨ SomeMethod fs fn f) ∧
      (s'.meth = none → s.meth = none ∧ ∀ g ∈ fs, ∀ t ∈ g.types, ∀ m ∈ t.2, m.name ≠ fn)) := by
  induction fs with
  | nil =>
    intro s
    refine ⟨fun f h => (by cases h), fun s' h => ?_⟩
    cases h
    exact ⟨fun m h => (by cases h), fun _ m h => (by cases h), fun f h => .inl h, fun h => ⟨h, fun m h => (by cases h)⟩, fun f h => .inl h,
      fun h => ⟨h, fun m h => (by cases h)⟩⟩
  | cons g fs ih =>
    intro s
    unfold files
    by_cases h0 : fn ∈ g.functions ∧ recv = []
    · rw [if_pos h0]
      refine ⟨fun f h => ?_, fun s' h => (by cases h)⟩
      cases h
      exact .inl ⟨h0.2, g, .head _, h0.1, rfl⟩
    · rw [if_neg h0]
      simp only
      generalize hs1 : (if fn ∈ g.functions ∧ s.func = none then { s with func := some g.name } else s) = s1
      have k1 : ∀ f, s1.func = some f → s.func = some f ∨ (fn ∈ g.functions ∧ g.name = f) := by
        intro f hf
        rw [← hs1] at hf
        split at hf
        · next h' => exact .inr ⟨h'.1, Option.some.inj hf⟩
        · exact .inl hf
      have k2 : s1.func = none → s.func = none ∧ fn ∉ g.functions := by
        intro hf
        rw [← hs1] at hf
        split at hf
        · cases hf
        · next h' => exact ⟨hf, fun hm => h' ⟨hm, hf⟩⟩
      have k3 : s1.meth = s.meth := by rw [← hs1]; split <;> rfl
      obtain ⟨t1, t2⟩ := types_spec fn recv g.types s1
      cases ht : types fn recv s1 g.types with
      | inl f =>
        refine ⟨fun f' h => ?_, fun s' h => (by cases h)⟩
        cases h
        exact .inr ⟨g, .head _, t1 f ht⟩
      | inr s2 =>
        obtain ⟨i1, i2⟩ := ih s2
        obtain ⟨a, b, c, d⟩ := t2 s2 ht
        refine ⟨fun f h => ?_, fun s' h => ?_⟩
        · rcases i1 f h with ⟨h1, g', hg', h2⟩ | ⟨g', hg', h2⟩
          · exact .inl ⟨h1, g', .tail _ hg', h2⟩
          · exact .inr ⟨g', .tail _ hg', h2⟩
        · obtain ⟨a', b', c', d', e', f'⟩ := i2 s' h
          refine ⟨fun g' hg' => ?_, fun hr g' hg' => ?_, fun f hf => ?_, fun hf => ?_, fun f hf => ?_, fun hf => ?_⟩
          · rcases List.mem_cons.1 hg' with rfl | hg'
            · exact a
            · exact a' g' hg'
          · rcases List.mem_cons.1 hg' with rfl | hg'
            · exact fun hm => h0 ⟨hm, hr⟩
            · exact b' hr g' hg'
          · rcases c' f hf with h' | ⟨g', hg', h'⟩
            · rw [b] at h'
              exact (k1 f h').imp id (fun h' => ⟨g, .head _, h'⟩)
            · exact .inr ⟨g', .tail _ hg', h'⟩
          · obtain ⟨x1, x2⟩ := d' hf
            rw [b] at x1
            obtain ⟨y1, y2⟩ := k2 x1
            refine ⟨y1, fun g' hg' => ?_⟩
            rcases List.mem_cons.1 hg' with rfl | hg'
            · exact y2
            · exact x2 g' hg'
          · rcases e' f hf with h' | ⟨g', hg', h'⟩
            · rcases c f h' with h' | h'
              · rw [k3] at h'; exact .inl h'
              · exact .inr ⟨g, .head _, h'⟩
            · exact .inr ⟨g', .tail _ hg', h'⟩
          · obtain ⟨x1, x2⟩ := f' hf
            obtain ⟨y1, y2⟩ := d x1
            rw [k3] at y1
            refine ⟨y1, fun g' hg' => ?_⟩
            rcases List.mem_cons.1 hg' with rfl | hg'
            · exact y2
            · exact x2 g' hg'

/-! ### Properties -/

/-- For a function the file is one that declares it, if there is one. -/
theorem C130_function (fs : List File) (fn : Text) (h : ∃ file, DeclaresFunction fs fn file) : ∃ file, astFileFromFn (some fs) fn [] = some file ∧ DeclaresFunction fs fn file := by
  unfold astFileFromFn
  simp only
  have e : trimStar [] = [] := rfl
  rw [e]
  obtain ⟨f1, f2⟩ := files_spec fn [] fs ⟨none, none⟩
  cases hf : files fn [] ⟨none, none⟩ fs with
  | inl f =>
    rcases f1 f hf with ⟨_, h'⟩ | ⟨_, _, _, _, _, _, h', _⟩
    · exact ⟨f, rfl, h'⟩
    · exact absurd rfl h'.2.1
  | inr s =>
    obtain ⟨_, g, hg, hm, _⟩ := h
    exact absurd hm ((f2 s hf).2.1 rfl g hg)

/-- For a method of a type, or of a pointer to it, the file is one that declares a method of this type and name, if there
is one, whatever other types and functions have the name. -/
theorem C130_method (fs : List File) (fn recv : Text) (hr : TypeName recv) (asked : Text) (ha : asked = recv ∨ asked = '*' :: recv)
    (h : ∃ file, DeclaresMethod fs recv fn file) : ∃ file, astFileFromFn (some fs) fn asked = some file ∧ DeclaresMethod fs recv fn file := by
  unfold astFileFromFn
  simp only
  rw [(trim_iff asked recv hr).2 ha]
  obtain ⟨f1, f2⟩ := files_spec fn recv fs ⟨none, none⟩
  cases hf : files fn recv ⟨none, none⟩ fs with
  | inl f =>
    rcases f1 f hf with ⟨h', _⟩ | ⟨g, hg, t, ht, m, hm, h', e⟩
    · exact absurd h' hr.1
    · exact ⟨f, rfl, g, hg, t, ht, m, hm, h'.1, (trim_iff _ _ hr).1 h'.2.2, e⟩
  | inr s =>
    obtain ⟨_, g, hg, t, ht, m, hm, h1, h2, _⟩ := h
    exact absurd ⟨h1, hr.1, (trim_iff _ _ hr).2 h2⟩ ((f2 s hf).1 g hg t ht m hm)

/-- Whatever is asked, the file declares a function or method of the name; there is none exactly if the package has none. -/
theorem C130_some (fs : List File) (fn recv : Text) :
    (∀ file, astFileFromFn (some fs) fn recv = some file → DeclaresFunction fs fn file ∨ SomeMethod fs fn file) ∧
    (astFileFromFn (some fs) fn recv = none ↔ ∀ file, ¬ DeclaresFunction fs fn file ∧ ¬ SomeMethod fs fn file) := by
  unfold astFileFromFn
  simp only
  obtain ⟨f1, f2⟩ := files_spec fn (trimStar recv) fs ⟨none, none⟩
  have key : ∀ r : Text, (DeclaresFunction fs fn r ∨ SomeMethod fs fn r) → ¬ (∀ file, ¬ DeclaresFunction fs fn file ∧ ¬ SomeMethod fs fn file) :=
    fun r h h' => h.elim (h' r).1 (h' r).2
  cases hf : files fn (trimStar recv) ⟨none, none⟩ fs with
  | inl f =>
    have : DeclaresFunction fs fn f ∨ SomeMethod fs fn f := by
      rcases f1 f hf with ⟨_, h'⟩ | ⟨g, hg, t, ht, m, hm, h', e⟩
      · exact .inl h'
      · exact .inr ⟨g, hg, t, ht, m, hm, h'.1, e⟩
    refine ⟨fun file e => ?_, fun e => (by cases e), fun h => absurd h (key f this)⟩
    cases e
    exact this
  | inr s =>
    obtain ⟨_, _, c, d, e, g⟩ := f2 s hf
    simp only
    cases hm : s.meth with
    | some x =>
      have : SomeMethod fs fn x := (e x hm).elim (fun h => by cases h) id
      rw [if_pos (by simp)]
      refine ⟨fun file e => ?_, fun e => (by cases e), fun h => absurd h (key x (.inr this))⟩
      cases e
      exact .inr this
    | none =>
      rw [if_neg (by simp)]
      refine ⟨fun file e' => ?_, fun e' file => ?_, fun h => ?_⟩
      · exact .inl ((c file e').elim (fun h => by cases h) id)
      · exact ⟨fun ⟨g', hg', h', _⟩ => (d e').2 g' hg' h', fun ⟨g', hg', t, ht, m, hm', h', _⟩ => (g hm).2 g' hg' t ht m hm' h'⟩
      · cases hs : s.func with
        | none => rfl
        | some x => exact absurd ((c x hs).elim (fun h => by cases h) id) (h x).1

/-! ### Cases that meet the hypotheses -/

abbrev c (s : String) : Text := s.toList

def shop : List File :=
  [⟨c "a.go", [c "Open"], [(c "Cache", [⟨c "Name", c "*Cache", c "a.go"⟩])]⟩, ⟨c "b.go", [c "Name"], [(c "Store", [⟨c "Name", c "*Store", c "c.go"⟩, ⟨c "Load", c "Store", c "b.go"⟩])]⟩]

example : astFileFromFn (some shop) (c "Name") [] = some (c "b.go") := by decide +kernel
example : astFileFromFn (some shop) (c "Name") (c "*Store") = some (c "c.go") := by decide +kernel
example : astFileFromFn (some shop) (c "Close") (c "*Store") = none := by decide +kernel
example : DeclaresFunction shop (c "Name") (c "b.go") := ⟨_, .tail _ (.head _), .head _, rfl⟩
example : TypeName (c "Store") ∧ DeclaresMethod shop (c "Store") (c "Name") (c "c.go") :=
  ⟨⟨by decide, by decide⟩, _, .tail _ (.head _), _, .head _, _, .head _, rfl, .inr rfl, rfl⟩

/-- For a method that the type does not declare the file of a method of another type is read. -/
theorem C130_other_type : ∃ fs : List File, (∀ file, ¬ DeclaresMethod fs (c "Store") (c "Name") file) ∧ DeclaresMethod fs (c "Cache") (c "Name") (c "a.go") ∧
    astFileFromFn (some fs) (c "Name") (c "*Store") = some (c "a.go") := by
  refine ⟨[⟨c "a.go", [], [(c "Cache", [⟨c "Name", c "*Cache", c "a.go"⟩])]⟩], ?_, ⟨_, .head _, _, .head _, _, .head _, rfl, .inr rfl, rfl⟩, by decide +kernel⟩
  rintro file ⟨f, hf, t, ht, m, hm, _, hr, _⟩
  cases hf with
  | tail _ h => cases h
  | head =>
    cases ht with
    | tail _ h => cases h
    | head =>
      cases hm with
      | tail _ h => cases h
      | head => exact hr.elim (by decide) (by decide)

end Verif.FnFile
