import Verif.SaveModel

/-!
# C89: saving does not destroy files
-/
namespace Verif.SaveModel

open Verif.SourceModel (Path Str)

/-- A job that may open its file later. -/
def Active (x : Phase) : Prop := x = .checked ∨ ∃ n, x = .opened n

theorem setFile_ne {d : Path → Option Str} {p q : Path} {c : Option Str} (h : q ≠ p) : setFile d p c q = d q := by simp [setFile, h]
theorem setFile_eq {d : Path → Option Str} {p : Path} {c : Option Str} : setFile d p c p = c := by simp [setFile]
theorem setPhase_eq {f : Nat → Phase} {i : Nat} {x : Phase} : setPhase f i x i = x := by simp [setPhase]
theorem setPhase_ne {f : Nat → Phase} {i j : Nat} {x : Phase} (h : j ≠ i) : setPhase f i x j = f j := by simp [setPhase, h]

/-- **C89**: a file that exists is never altered by saves that were not told to overwrite it: for any number of them,
in any interleaving, with other saves going on elsewhere, and wherever the execution ends. -/
theorem C89_not_clobbered {jobs : Nat → Job} {s t : State} (hr : Run jobs s t) {p : Path} {old : Str} (ho : s.disk p = some old)
    (hg : ∀ i, (jobs i).path = p → (jobs i).guarded = true) (hs : ∀ i, (jobs i).path = p → ¬ Active (s.phase i)) :
    t.disk p = some old ∧ ∀ i, (jobs i).path = p → ¬ Active (t.phase i) := by
  induction hr with
  | refl => exact ⟨ho, hs⟩
  | @step b c _ hst ih =>
    obtain ⟨hd, ha⟩ := ih
    have key : ∀ (i : Nat) (x : Phase), ¬ Active x → ∀ j, (jobs j).path = p → ¬ Active (setPhase b.phase i x j) := by
      intro i x hx j hj
      by_cases h : j = i
      · subst h; rw [setPhase_eq]; exact hx
      · rw [setPhase_ne h]; exact ha j hj
    have key2 : ∀ (i : Nat) (x : Phase), (jobs i).path ≠ p → ∀ j, (jobs j).path = p → ¬ Active (setPhase b.phase i x j) := by
      intro i x hx j hj
      have h : j ≠ i := fun e => hx (by rw [← e]; exact hj)
      rw [setPhase_ne h]; exact ha j hj
    have hna : ¬ Active .refused := by rintro (h | ⟨n, h⟩) <;> cases h
    have hok : ¬ Active .ok := by rintro (h | ⟨n, h⟩) <;> cases h
    cases hst with
    | reject i h => exact ⟨hd, key _ _ hna⟩
    | conflict i h h1 h2 => exact ⟨hd, key _ _ hna⟩
    | check i h h1 =>
      refine ⟨hd, key2 _ _ (fun e => ?_)⟩
      have := h1 (hg i e)
      rw [e, hd] at this; cases this
    | unrendered i h h1 h2 => exact ⟨hd, key _ _ hna⟩
    | noOpen i h => exact ⟨hd, key _ _ hna⟩
    | «open» i h h1 =>
      have hp : (jobs i).path ≠ p := fun e => ha i e (.inl h)
      exact ⟨by simp only [setFile_ne (Ne.symm hp)]; exact hd, key2 _ _ hp⟩
    | fail i n h => exact ⟨hd, key _ _ hna⟩
    | write i n k doc old' h h1 h2 h3 =>
      have hp : (jobs i).path ≠ p := fun e => ha i e (.inr ⟨n, h⟩)
      exact ⟨by simp only [setFile_ne (Ne.symm hp)]; exact hd, key2 _ _ hp⟩
    | finish i doc h h1 => exact ⟨hd, key _ _ hok⟩

theorem writeAt_prefix {doc : Str} {n k : Nat} (h : n + k ≤ doc.length) : writeAt (doc.take n) n ((doc.drop n).take k) = doc.take (n + k) := by
  unfold writeAt
  have h1 : (doc.take n).length = n := by rw [List.length_take]; omega
  rw [h1, Nat.sub_self, List.replicate_zero, List.append_nil, List.take_take, Nat.min_self, List.take_add]
  rw [List.drop_eq_nil_of_le (as := doc.take n) (by rw [h1]; omega), List.append_nil]

/-- What a file holds that one job writes: what was there, until it is opened; then as much of the document as is written. -/
def Holds (j : Job) (old : Option Str) (disk : Option Str) : Phase → Prop
  | .waiting => disk = old
  | .checked => disk = old
  | .opened n => ∃ doc, disk = some (doc.take n) ∧ (j.doc = some doc ∧ n ≤ doc.length ∨ j.doc = none ∧ n = 0)
  | .ok => ∃ doc, j.doc = some doc ∧ disk = some doc
  | .refused => disk = old ∨ ∃ doc n, disk = some (doc.take n) ∧ (j.doc = some doc ∨ j.doc = none ∧ n = 0)

theorem holds_run {jobs : Nat → Job} {s t : State} (hr : Run jobs s t) {i : Nat} (hw : s.phase i = .waiting)
    (hone : ∀ j, (jobs j).path = (jobs i).path → j = i) :
    Holds (jobs i) (s.disk (jobs i).path) (t.disk (jobs i).path) (t.phase i) := by
  induction hr with
  | refl => rw [hw]; rfl
  | @step b c _ hst ih =>
    cases hst with
    | reject j h =>
      by_cases hj : i = j
      · subst hj; rw [h] at ih; simp only [setPhase_eq]; exact .inl ih
      · simp only [setPhase_ne hj]; exact ih
    | conflict j h h1 h2 =>
      by_cases hj : i = j
      · subst hj; rw [h] at ih; simp only [setPhase_eq]; exact .inl ih
      · simp only [setPhase_ne hj]; exact ih
    | check j h h1 =>
      by_cases hj : i = j
      · subst hj; rw [h] at ih; simp only [setPhase_eq]; exact ih
      · simp only [setPhase_ne hj]; exact ih
    | unrendered j h h1 h2 =>
      by_cases hj : i = j
      · subst hj; rw [h] at ih; simp only [setPhase_eq]; exact .inl ih
      · simp only [setPhase_ne hj]; exact ih
    | noOpen j h =>
      by_cases hj : i = j
      · subst hj; rw [h] at ih; simp only [setPhase_eq]; exact .inl ih
      · simp only [setPhase_ne hj]; exact ih
    | «open» j h h1 =>
      by_cases hj : i = j
      · subst hj
        simp only [setPhase_eq, setFile_eq]
        cases hd : (jobs i).doc with
        | none => exact ⟨[], rfl, .inr ⟨hd, rfl⟩⟩
        | some doc => exact ⟨doc, by simp, .inl ⟨hd, by omega⟩⟩
      · have hp : (jobs i).path ≠ (jobs j).path := fun e => hj (hone j e.symm).symm
        simp only [setPhase_ne hj, setFile_ne hp]; exact ih
    | fail j n h =>
      by_cases hj : i = j
      · subst hj
        rw [h] at ih
        obtain ⟨doc, h1, h2⟩ := ih
        simp only [setPhase_eq]
        exact .inr ⟨doc, n, h1, h2.imp And.left id⟩
      · simp only [setPhase_ne hj]; exact ih
    | write j n k doc old h h1 h2 h3 =>
      by_cases hj : i = j
      · subst hj
        rw [h] at ih
        obtain ⟨doc', e1, e2⟩ := ih
        simp only [setPhase_eq, setFile_eq]
        rcases e2 with ⟨e2, e3⟩ | ⟨e2, -⟩
        · rw [h1] at e2; cases e2
          rw [h3] at e1; cases e1
          exact ⟨doc, by rw [writeAt_prefix h2], .inl ⟨h1, h2⟩⟩
        · rw [h1] at e2; cases e2
      · have hp : (jobs i).path ≠ (jobs j).path := fun e => hj (hone j e.symm).symm
        simp only [setPhase_ne hj, setFile_ne hp]; exact ih
    | finish j doc h h1 =>
      by_cases hj : i = j
      · subst hj
        rw [h1] at ih
        obtain ⟨doc', e1, e2⟩ := ih
        simp only [setPhase_eq]
        rcases e2 with ⟨e2, -⟩ | ⟨e2, -⟩
        · rw [h] at e2; cases e2; exact ⟨doc, h, by rw [e1, List.take_length]⟩
        · rw [h] at e2; cases e2
      · simp only [setPhase_ne hj]; exact ih

/-- **C89** (partial: nobody else writes the same file at the same time): once a save is answered "ok", the file holds
exactly the document, whatever else is saved meanwhile. -/
theorem C89_saved_partial {jobs : Nat → Job} {s t : State} (hr : Run jobs s t) {i : Nat} (hw : s.phase i = .waiting)
    (hone : ∀ j, (jobs j).path = (jobs i).path → j = i) (hok : t.phase i = .ok) :
    ∃ doc, (jobs i).doc = some doc ∧ t.disk (jobs i).path = some doc := by
  have := holds_run hr hw hone
  rw [hok] at this
  exact this

/-- **C89** (partial: as above): wherever the execution ends, the file holds what it held before or a beginning of the new document;
after a failure that came before the file was opened, it is untouched. -/
theorem C89_interrupted_partial {jobs : Nat → Job} {s t : State} (hr : Run jobs s t) {i : Nat} (hw : s.phase i = .waiting)
    (hone : ∀ j, (jobs j).path = (jobs i).path → j = i) :
    t.disk (jobs i).path = s.disk (jobs i).path ∨ t.disk (jobs i).path = some [] ∨
      ∃ doc rest written, (jobs i).doc = some doc ∧ doc = written ++ rest ∧ t.disk (jobs i).path = some written := by
  have h := holds_run hr hw hone
  have pre : ∀ doc n, t.disk (jobs i).path = some (List.take n doc) → (jobs i).doc = some doc ∨ (jobs i).doc = none ∧ n = 0 →
      t.disk (jobs i).path = some [] ∨ ∃ doc rest written, (jobs i).doc = some doc ∧ doc = written ++ rest ∧ t.disk (jobs i).path = some written := by
    rintro doc n e (h | ⟨h, rfl⟩)
    · exact .inr ⟨doc, doc.drop n, doc.take n, h, (List.take_append_drop n doc).symm, e⟩
    · exact .inl (by simpa using e)
  cases hp : t.phase i with
  | waiting => rw [hp] at h; exact .inl h
  | checked => rw [hp] at h; exact .inl h
  | opened n => rw [hp] at h; obtain ⟨doc, h1, h2⟩ := h; exact .inr (pre doc n h1 (h2.imp And.left id))
  | ok => rw [hp] at h; obtain ⟨doc, h1, h2⟩ := h; exact .inr (.inr ⟨doc, [], doc, h1, by simp, h2⟩)
  | refused => rw [hp] at h; rcases h with h | ⟨doc, n, h1, h2⟩; exact .inl h; exact .inr (pre doc n h1 h2)

theorem early_run {jobs : Nat → Job} {s t : State} (hr : Run jobs s t) {i : Nat} (hw : s.phase i = .waiting)
    (he : (jobs i).early = true) (hd : (jobs i).doc = none) : ∀ n, t.phase i ≠ .opened n := by
  induction hr with
  | refl => intro n; rw [hw]; simp
  | @step b c _ hst ih =>
    have key : ∀ (j : Nat) (x : Phase), (j = i → ∀ n, x ≠ .opened n) → ∀ n, setPhase b.phase j x i ≠ .opened n := by
      intro j x hx n
      by_cases h : i = j
      · subst h; rw [setPhase_eq]; exact hx rfl n
      · rw [setPhase_ne h]; exact ih n
    cases hst with
    | reject j h => exact key _ _ (fun _ n => by simp)
    | conflict j h h1 h2 => exact key _ _ (fun _ n => by simp)
    | check j h h1 => exact key _ _ (fun _ n => by simp)
    | unrendered j h h1 h2 => exact key _ _ (fun _ n => by simp)
    | noOpen j h => exact key _ _ (fun _ n => by simp)
    | «open» j h h1 => exact key _ _ (fun e => by subst e; have := h1 he; rw [hd] at this; cases this)
    | fail j n h => exact key _ _ (fun _ n => by simp)
    | write j n k doc old h h1 h2 h3 => exact key _ _ (fun e => by subst e; rw [hd] at h1; cases h1)
    | finish j doc h h1 => exact key _ _ (fun _ n => by simp)

/-- **C89**: a configuration that cannot be rendered touches no file, with or without permission to overwrite, and is not answered "ok". -/
theorem C89_unrendered {jobs : Nat → Job} {s t : State} (hr : Run jobs s t) {i : Nat} (hw : s.phase i = .waiting)
    (he : (jobs i).early = true) (hd : (jobs i).doc = none) (hone : ∀ j, (jobs j).path = (jobs i).path → j = i) :
    t.disk (jobs i).path = s.disk (jobs i).path ∧ t.phase i ≠ .ok := by
  induction hr with
  | refl => exact ⟨rfl, by rw [hw]; simp⟩
  | @step b c hr' hst ih =>
    have hno := early_run hr' hw he hd
    obtain ⟨h1, h2⟩ := ih
    have key : ∀ (j : Nat) (x : Phase), (j = i → x ≠ .ok) → setPhase b.phase j x i ≠ .ok := by
      intro j x hx
      by_cases h : i = j
      · subst h; rw [setPhase_eq]; exact hx rfl
      · rw [setPhase_ne h]; exact h2
    cases hst with
    | reject j h => exact ⟨h1, key _ _ (fun _ => by simp)⟩
    | conflict j h h3 h4 => exact ⟨h1, key _ _ (fun _ => by simp)⟩
    | check j h h3 => exact ⟨h1, key _ _ (fun _ => by simp)⟩
    | unrendered j h h3 h4 => exact ⟨h1, key _ _ (fun _ => by simp)⟩
    | noOpen j h => exact ⟨h1, key _ _ (fun _ => by simp)⟩
    | «open» j h h3 =>
      by_cases hj : i = j
      · subst hj; have := h3 he; rw [hd] at this; cases this
      · have hp : (jobs i).path ≠ (jobs j).path := fun e => hj (hone j e.symm).symm
        exact ⟨by simp only [setFile_ne hp]; exact h1, key _ _ (fun e => absurd e.symm hj)⟩
    | fail j n h => exact ⟨h1, key _ _ (fun _ => by simp)⟩
    | write j n k doc old h h3 h4 h5 =>
      by_cases hj : i = j
      · subst hj; rw [hd] at h3; cases h3
      · have hp : (jobs i).path ≠ (jobs j).path := fun e => hj (hone j e.symm).symm
        exact ⟨by simp only [setFile_ne hp]; exact h1, key _ _ (fun e => absurd e.symm hj)⟩
    | finish j doc h h3 =>
      exact ⟨h1, key _ _ (fun e => by subst e; rw [hd] at h; cases h)⟩

/-! ## What goes wrong -/

namespace Example

def a : Path := [['a']]

/-- Two saves of the same new file, neither told to overwrite. -/
def two : Nat → Job := fun i => if i = 0 then ⟨a, true, true, some ['x', 'x', 'x']⟩ else if i = 1 then ⟨a, true, true, some ['y']⟩ else ⟨[], true, true, none⟩

def start (d : Path → Option Str) : State := ⟨d, fun _ => .waiting⟩

/-- A save over an existing file. -/
def over : Nat → Job := fun i => if i = 0 then ⟨a, false, true, some ['n', 'e', 'w']⟩ else ⟨[], true, true, none⟩

/-- The command, with a document that cannot be encoded. -/
def bad : Nat → Job := fun i => if i = 0 then ⟨a, false, false, none⟩ else ⟨[], true, true, none⟩

end Example

open Example in
/-- **C89** fails for simultaneous saves: the check and the writing are two steps.  Two saves of the same new file, neither told to
overwrite, are both answered "ok", and the file holds a mixture: what the second wrote with the rest of what the first wrote. -/
theorem C89_race_clobbers : ∃ jobs t, (∀ i, (jobs i).guarded = true) ∧ Run jobs (start fun _ => none) t ∧ t.phase 0 = .ok ∧ t.phase 1 = .ok ∧
    (jobs 0).path = (jobs 1).path ∧ t.disk (jobs 0).path = some ['y', 'x', 'x'] ∧ (jobs 0).doc = some ['x', 'x', 'x'] ∧ (jobs 1).doc = some ['y'] := by
  refine ⟨two, _, ?_, (.step (.step (.step (.step (.step (.step (.step (.step .refl
      (.check 0 rfl (fun _ => rfl)))
      (.check 1 rfl (fun _ => rfl)))
      (.open 0 rfl (fun _ => rfl)))
      (.open 1 rfl (fun _ => rfl)))
      (.write 0 0 3 ['x', 'x', 'x'] [] rfl rfl (by decide) rfl))
      (.write 1 0 1 ['y'] ['x', 'x', 'x'] rfl rfl (by decide) rfl))
      (.finish 0 ['x', 'x', 'x'] rfl rfl))
      (.finish 1 ['y'] rfl rfl)), rfl, rfl, rfl, rfl, rfl, rfl⟩
  intro i; unfold two; split; rfl; split <;> rfl

open Example in
/-- **C89** fails for interruptions: the file is emptied before it is written, so a crash (or a full disk) loses the old contents without
leaving the new. -/
theorem C89_crash_loses : ∃ jobs t, Run jobs (start fun _ => some ['o', 'l', 'd']) t ∧ t.phase 0 = .refused ∧
    t.disk (jobs 0).path = some ['n'] ∧ (jobs 0).doc = some ['n', 'e', 'w'] := by
  exact ⟨over, _, (.step (.step (.step (.step .refl
      (.check 0 rfl (fun h => by cases h)))
      (.open 0 rfl (fun _ => rfl)))
      (.write 0 0 1 ['n', 'e', 'w'] [] rfl rfl (by decide) rfl))
      (.fail 0 1 rfl)), rfl, rfl, rfl⟩

open Example in
/-- **C89**: the command empties its output file before it encodes the document; if that fails, the earlier document is gone. -/
theorem C89_encode_failure_loses : ∃ jobs t, Run jobs (start fun _ => some ['o', 'l', 'd']) t ∧ t.phase 0 = .refused ∧
    (jobs 0).early = false ∧ t.disk (jobs 0).path = some [] ∧ (jobs 0).doc = none := by
  exact ⟨bad, _, (.step (.step (.step .refl
      (.check 0 rfl (fun h => by cases h)))
      (.open 0 rfl (fun h => by cases h)))
      (.fail 0 0 rfl)), rfl, rfl, rfl, rfl⟩

open Example in
/-- The hypotheses of C89_saved_partial are met by a save over an existing file that comes to its end. -/
example : ∃ t, Run over (start fun _ => some ['o', 'l', 'd']) t ∧ t.phase 0 = .ok ∧ t.disk a = some ['n', 'e', 'w'] ∧
    ∀ j, (over j).path = (over 0).path → j = 0 := by
  refine ⟨_, .step (.step (.step (.step (.step .refl
      (.check 0 rfl (fun h => by cases h)))
      (.open 0 rfl (fun _ => rfl)))
      (.write 0 0 1 ['n', 'e', 'w'] [] rfl rfl (by decide) rfl))
      (.write 0 1 2 ['n', 'e', 'w'] ['n'] rfl rfl (by decide) rfl))
      (.finish 0 ['n', 'e', 'w'] rfl rfl), rfl, rfl, ?_⟩
  intro j h
  unfold over at h
  split at h
  · assumption
  · cases h

open Example in
/-- The hypotheses of C89_not_clobbered are met: two guarded saves of an existing file, both refused. -/
example : ∃ t, Run two (start fun p => if p = a then some ['o', 'l', 'd'] else none) t ∧ t.phase 0 = .refused ∧ t.phase 1 = .refused ∧
    (∀ i, (two i).path = a → (two i).guarded = true) ∧ ∀ i, ¬ Active ((start fun _ => none).phase i) := by
  refine ⟨_, .step (.step .refl (.conflict 1 rfl rfl rfl)) (.conflict 0 rfl rfl rfl), rfl, rfl, ?_, ?_⟩
  · intro i _; unfold two; split; rfl; split <;> rfl
  · intro i; rintro (h | ⟨n, h⟩) <;> cases h

end Verif.SaveModel
