import Verif.PosModel
import Verif.IdsProps
/-!
# C126: the position that is recorded is where the node is written
-/

namespace Verif.Pos

open Verif.IdsModel (Str Pool get getString newPool)

/-! ### Specification -/

/-- `file:line:column`, without what is not there. -/
inductive Reads (num : Nat → Str) : Place → Str → Prop
  | all (file line column) (hf : file ≠ []) (hc : column ≠ 0) : Reads num ⟨file, line, column⟩ (file ++ [':'] ++ num line ++ [':'] ++ num column)
  | noColumn (file line) (hf : file ≠ []) : Reads num ⟨file, line, 0⟩ (file ++ [':'] ++ num line)
  | noFile (line column) (hc : column ≠ 0) : Reads num ⟨[], line, column⟩ (num line ++ [':'] ++ num column)
  | line (line) : Reads num ⟨[], line, 0⟩ (num line)

/-- All positions of the history are of one file set. -/
def OneSet (fs : FileSet) (ops : List Op) : Prop := ∀ pos fset, Op.place pos fset ∈ ops → fset = some fs ∨ fset = none

/-! ### Lemmas -/

theorem format_reads (num : Nat → Str) (p : Place) (h : p.line ≠ 0) : Reads num p (formatPosition num p) := by
  obtain ⟨file, line, column⟩ := p
  unfold formatPosition
  rw [if_neg h]
  by_cases hf : file = []
  · by_cases hc : column = 0
    · subst hf; subst hc; simpa using Reads.line (num := num) line
    · subst hf; simpa [hc] using Reads.noFile (num := num) line column hc
  · by_cases hc : column = 0
    · subst hc; simpa [hf] using Reads.noColumn (num := num) file line hf
    · simpa [hf, hc] using Reads.all (num := num) file line column hf hc

theorem reads_one (num : Nat → Str) (p : Place) (s t : Str) (h : Reads num p s) (h' : Reads num p t) : s = t := by
  cases h <;> cases h' <;> first | rfl | contradiction

theorem format_ne (num : Nat → Str) (hn : ∀ n, num n ≠ []) (p : Place) (h : p.line ≠ 0) : formatPosition num p ≠ [] := by
  unfold formatPosition
  rw [if_neg h]
  intro e
  exact hn _ (List.append_eq_nil_iff.1 (List.append_eq_nil_iff.1 e).1).2

/-- The pool has the text at the index. -/
def Has (p : Pool) (i : Int) (t : Str) : Prop := 0 ≤ i ∧ p.values[i.toNat]? = some t

theorem has_get {p : Pool} (hp : Verif.IdsModel.Ok p) (s : Str) (i : Int) (t : Str) (h : Has p i t) : Has (get p s).1 i t := by
  obtain ⟨x, hx⟩ := Verif.IdsModel.step_prefix hp (.intern s)
  have hx' : (get p s).1.values = p.values ++ x := hx
  refine ⟨h.1, ?_⟩
  rw [hx', List.getElem?_append_left (List.getElem?_eq_some_iff.1 h.2).1]
  exact h.2

structure Inv (num : Nat → Str) (fs : FileSet) (s : State) : Prop where
  pool : Verif.IdsModel.Ok s.pool
  cache : ∀ pos i, cached s pos = some i → (fs pos).line ≠ 0 ∧ Has s.pool i (formatPosition num (fs pos))

theorem cached_cons (p : Pool) (c : List (Nat × Int)) (k : Nat) (i : Int) (pos : Nat) :
    cached ⟨p, (k, i) :: c⟩ pos = if k = pos then some i else cached ⟨p, c⟩ pos := by
  unfold cached
  by_cases h : k = pos
  · rw [List.find?_cons_of_pos (by simpa using h), if_pos h]; rfl
  · rw [List.find?_cons_of_neg (by simpa using h), if_neg h]

variable {num : Nat → Str}

theorem ok_intern {p : Pool} (h : Verif.IdsModel.Ok p) (s : Str) : Verif.IdsModel.Ok (get p s).1 := Verif.IdsModel.ok_step h (.intern s)

theorem inv_place (hn : ∀ n, num n ≠ []) (fs : FileSet) (s : State) (h : Inv num fs s) (pos : Nat) :
    Inv num fs (positionIndex num s pos (some fs)).1 := by
  unfold positionIndex
  simp only
  split
  · exact h
  · split
    · exact h
    · split
      · exact h
      · next hl =>
        refine ⟨ok_intern h.pool _, fun pos' i hi => ?_⟩
        rw [cached_cons] at hi
        split at hi
        · next e =>
          cases hi
          subst e
          exact ⟨hl, Verif.IdsModel.get_at h.pool _ (format_ne num hn _ hl)⟩
        · obtain ⟨h1, h2⟩ := h.cache pos' i hi
          exact ⟨h1, has_get h.pool _ _ _ h2⟩

theorem inv_step (hn : ∀ n, num n ≠ []) (fs : FileSet) (s : State) (h : Inv num fs s) (o : Op) (ho : ∀ pos fset, o = .place pos fset → fset = some fs ∨ fset = none) :
    Inv num fs (step num s o) := by
  cases o with
  | intern t => exact ⟨ok_intern h.pool t, fun pos i hi => ⟨(h.cache pos i hi).1, has_get h.pool _ _ _ (h.cache pos i hi).2⟩⟩
  | place pos fset =>
    rcases ho pos fset rfl with rfl | rfl
    · exact inv_place hn fs s h pos
    · exact h

theorem inv_run (hn : ∀ n, num n ≠ []) (fs : FileSet) (ops : List Op) (ho : OneSet fs ops) : Inv num fs (run num ops) := by
  unfold run
  suffices ∀ s, Inv num fs s → Inv num fs (ops.foldl (step num) s) from
    this _ ⟨Verif.IdsModel.ok_new, fun pos i h => by simp [cached] at h⟩
  induction ops with
  | nil => intro s h; exact h
  | cons o ops ih =>
    intro s h
    exact ih (fun pos fset hm => ho pos fset (List.mem_cons_of_mem _ hm)) _ (inv_step hn fs s h o (fun pos fset e => ho pos fset (by rw [← e]; exact List.mem_cons_self)))

/-- Later the index still has the text. -/
theorem later_has (ops : List Op) : ∀ (s : State), Verif.IdsModel.Ok s.pool → ∀ (i : Int) (t : Str), Has s.pool i t →
    Has (ops.foldl (step num) s).pool i t := by
  induction ops with
  | nil => intro s _ i t h; exact h
  | cons o ops ih =>
    intro s hs i t h
    rw [List.foldl_cons]
    cases o with
    | intern x => exact ih _ (ok_intern hs x) i t (has_get hs x i t h)
    | place pos fset =>
      have key : Verif.IdsModel.Ok (positionIndex num s pos fset).1.pool ∧ Has (positionIndex num s pos fset).1.pool i t := by
        unfold positionIndex
        split
        · exact ⟨hs, h⟩
        · split
          · exact ⟨hs, h⟩
          · split
            · exact ⟨hs, h⟩
            · split
              · exact ⟨hs, h⟩
              · exact ⟨ok_intern hs _, has_get hs _ _ _ h⟩
      exact ih _ key.1 i t key.2

theorem place_has (hn : ∀ n, num n ≠ []) (fs : FileSet) (s : State) (h : Inv num fs s) (pos : Nat) (h0 : pos ≠ 0) (hl : (fs pos).line ≠ 0) :
    Has (positionIndex num s pos (some fs)).1.pool (positionIndex num s pos (some fs)).2 (formatPosition num (fs pos)) := by
  unfold positionIndex
  simp only [if_neg h0, if_neg hl]
  split
  · next i hi => exact (h.cache pos i hi).2
  · exact Verif.IdsModel.get_at h.pool _ (format_ne num hn _ hl)

/-! ### Properties -/

/-- Whatever was recorded before in positions of this file set, and whatever is recorded afterwards, the index that is
given for a position in a file reads as its file, line and column. -/
theorem C126_place_partial (hn : ∀ n, num n ≠ []) (fs : FileSet) (before after : List Op) (ho : OneSet fs before) (pos : Nat) (h0 : pos ≠ 0) (hl : (fs pos).line ≠ 0) :
    Reads num (fs pos) (getString (run num (before ++ [.place pos (some fs)] ++ after)).pool (positionIndex num (run num before) pos (some fs)).2) := by
  have hi := inv_run hn fs before ho
  have h1 := place_has hn fs _ hi pos h0 hl
  have h2 := later_has (num := num) after _ (inv_place hn fs _ hi pos).pool _ _ h1
  have e : run num (before ++ [.place pos (some fs)] ++ after) = after.foldl (step num) (positionIndex num (run num before) pos (some fs)).1 := by
    unfold run
    rw [List.foldl_append, List.foldl_append]
    rfl
  rw [e, Verif.IdsModel.getString_at h2.1 h2.2]
  exact format_reads num _ hl

/-- What is no position, or is in no file of the set, has no index. -/
theorem C126_nowhere_partial (hn : ∀ n, num n ≠ []) (fs : FileSet) (before : List Op) (ho : OneSet fs before) (pos : Nat) (h : pos = 0 ∨ (fs pos).line = 0) :
    (positionIndex num (run num before) pos (some fs)).2 = -1 ∧ (positionString num (run num before) pos (some fs)).2 = [] := by
  have h1 : (positionIndex num (run num before) pos (some fs)).2 = -1 := by
    unfold positionIndex
    simp only
    split
    · rfl
    · next h0 =>
      have hl := h.resolve_left h0
      split
      · next i hi => exact absurd hl ((inv_run hn fs before ho).cache pos i hi).1
      · rw [if_pos hl]
  refine ⟨h1, ?_⟩
  unfold positionString
  simp only [h1]
  rfl

/-- Asked as a text, the position is the same text. -/
theorem C126_string_partial (hn : ∀ n, num n ≠ []) (fs : FileSet) (before : List Op) (ho : OneSet fs before) (pos : Nat) (h0 : pos ≠ 0) (hl : (fs pos).line ≠ 0) :
    Reads num (fs pos) (positionString num (run num before) pos (some fs)).2 := by
  have h1 := place_has hn fs _ (inv_run hn fs before ho) pos h0 hl
  unfold positionString
  simp only
  rw [if_neg (by have := h1.1; omega), Verif.IdsModel.getString_at h1.1 h1.2]
  exact format_reads num _ hl

/-- A position always gets the same index, and two positions that read the same get one index. -/
theorem C126_same_partial (hn : ∀ n, num n ≠ []) (fs : FileSet) (before after : List Op) (ho : OneSet fs (before ++ after)) (pos pos' : Nat) (h0 : pos ≠ 0) (h0' : pos' ≠ 0)
    (hl : (fs pos).line ≠ 0) (e : fs pos' = fs pos) :
    (positionIndex num (run num before) pos (some fs)).2 = (positionIndex num (run num (before ++ [.place pos (some fs)] ++ after)) pos' (some fs)).2 := by
  have ho1 : OneSet fs before := fun p f h => ho p f (List.mem_append_left _ h)
  have ho2 : OneSet fs (before ++ [.place pos (some fs)] ++ after) := by
    intro p f h
    simp only [List.mem_append, List.mem_singleton] at h
    rcases h with (h | h) | h
    · exact ho p f (List.mem_append_left _ h)
    · cases h; exact .inl rfl
    · exact ho p f (List.mem_append_right _ h)
  have hi := inv_run hn fs before ho1
  have hi2 := inv_run hn fs _ ho2
  have h1 := place_has hn fs _ hi pos h0 hl
  have h2 := later_has (num := num) after _ (inv_place hn fs _ hi pos).pool _ _ h1
  have er : run num (before ++ [.place pos (some fs)] ++ after) = after.foldl (step num) (positionIndex num (run num before) pos (some fs)).1 := by
    unfold run
    rw [List.foldl_append, List.foldl_append]
    rfl
  rw [← er] at h2
  generalize run num (before ++ [.place pos (some fs)] ++ after) = s at hi2 h2
  have h3 := place_has hn fs s hi2 pos' h0' (by rw [e]; exact hl)
  rw [e] at h3
  have h4 : Has (positionIndex num s pos' (some fs)).1.pool (positionIndex num (run num before) pos (some fs)).2 (formatPosition num (fs pos)) :=
    later_has (num := num) [.place pos' (some fs)] s hi2.pool _ _ h2
  have hok := (inv_place hn fs s hi2 pos').pool
  have l4 := List.getElem?_eq_some_iff.1 h4.2
  have l3 := List.getElem?_eq_some_iff.1 h3.2
  obtain ⟨b4, e4⟩ := l4
  obtain ⟨b3, e3⟩ := l3
  have := (List.getElem_inj (h₀ := b4) (h₁ := b3) hok.nodup).1 (e4.trans e3.symm)
  have a1 := h4.1
  have a2 := h3.1
  omega

/-! ### Cases that meet the hypotheses, and what does not hold -/

abbrev c (s : String) : Str := s.toList


def main : FileSet := fun pos => if pos = 7 then ⟨c "main.go", 2, 3⟩ else ⟨[], 0, 0⟩
def other : FileSet := fun pos => if pos = 7 then ⟨c "other.go", 5, 1⟩ else ⟨[], 0, 0⟩

/-- Numbers as strokes. -/
def tally (n : Nat) : Str := List.replicate (n + 1) 'i'

theorem tally_ne (n : Nat) : tally n ≠ [] := by simp [tally, List.replicate_succ]

example : (positionString tally (run tally [.intern (c "x"), .place 7 (some main)]) 7 (some main)).2 = c "main.go:iii:iiii" := by decide

/-- The hypotheses are met. -/
example : (∀ n, tally n ≠ []) ∧ OneSet main [.intern (c "x"), .place 7 (some main), .place 9 none] ∧ (main 7).line ≠ 0 ∧ (main 8).line = 0 := by
  refine ⟨tally_ne, ?_, by decide, by decide⟩
  intro pos fset h
  simp only [List.mem_cons, List.not_mem_nil, or_false] at h
  rcases h with h | h | h
  · cases h
  · cases h; exact .inl rfl
  · cases h; exact .inr rfl

/-- The cache does not know file sets: after a position of one set, the same number in another set reads as the place in
the first, although the other set has another place for it or none. -/
theorem C126_two_sets : (positionString tally (run tally [.place 7 (some main)]) 7 (some other)).2 = c "main.go:iii:iiii" ∧
    (positionString tally (run tally []) 7 (some other)).2 = c "other.go:iiiiii:ii" ∧
    (positionString tally (run tally [.place 7 (some main)]) 7 (some fun _ => ⟨[], 0, 0⟩)).2 = c "main.go:iii:iiii" := by decide

end Verif.Pos
