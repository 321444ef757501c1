import Verif.GitignoreModel
import Verif.GitignoreSpec
/-!
# Properties: ignore patterns (C29)
-/

namespace Verif.GitignoreModel
open Verif.RegexModel
open Verif.GitignoreSpec hiding Str

/-! ### Reading what is emitted -/

/-- What follows an atom is not a repetition operator. -/
def Safe (s : Str) : Prop := ∀ c, s.head? = some c → isRep c = false

/-- `txt` is read, in front of anything, as an expression whose language is `A`. -/
def Reads (posix : Str → Option ((Char → Bool) × Str)) (grp : Str → Option (Re × Str)) (txt : Str) (A : Str → Prop) : Prop :=
  (∀ rest, Safe rest → Safe (txt ++ rest)) ∧
  ∃ (k : Nat) (F : Re → Re), k ≤ txt.length ∧
    (∀ n rest, Safe rest → readSeq posix grp (n + k) (txt ++ rest) = (readSeq posix grp n rest).map fun r => (F r.1, r.2)) ∧
    ∀ R s, '\n' ∉ s → (Lang (F R) s ↔ ∃ x y, s = x ++ y ∧ A x ∧ Lang R y)

variable {posix : Str → Option ((Char → Bool) × Str)} {grp : Str → Option (Re × Str)}

theorem Reads.nil : Reads posix grp [] (fun s => s = []) := by
  refine ⟨fun _ h => h, 0, id, Nat.le_refl _, fun n rest _ => ?_, fun R s _ => ?_⟩
  · simp
  · constructor
    · intro h; exact ⟨[], s, rfl, rfl, h⟩
    · rintro ⟨x, y, rfl, rfl, h⟩; exact h

theorem Reads.append {t1 t2 : Str} {A1 A2 : Str → Prop} (h1 : Reads posix grp t1 A1) (h2 : Reads posix grp t2 A2) :
    Reads posix grp (t1 ++ t2) (fun s => ∃ x y, s = x ++ y ∧ A1 x ∧ A2 y) := by
  obtain ⟨s1, k1, F1, l1, r1, a1⟩ := h1
  obtain ⟨s2, k2, F2, l2, r2, a2⟩ := h2
  refine ⟨fun rest h => ?_, k2 + k1, fun R => F1 (F2 R), ?_, fun n rest h => ?_, fun R s hs => ?_⟩
  · rw [List.append_assoc]; exact s1 _ (s2 _ h)
  · rw [List.length_append]; omega
  · rw [List.append_assoc, ← Nat.add_assoc, r1 _ _ (s2 _ h), r2 _ _ h, Option.map_map]; rfl
  · rw [a1 _ _ hs]
    constructor
    · rintro ⟨x, y, rfl, hx, hy⟩
      obtain ⟨u, v, rfl, hu, hv⟩ := (a2 R y (fun h => hs (List.mem_append_right _ h))).mp hy
      exact ⟨x ++ u, v, by rw [List.append_assoc], ⟨x, u, rfl, hx, hu⟩, hv⟩
    · rintro ⟨x, y, rfl, ⟨u, v, rfl, hu, hv⟩, hy⟩
      refine ⟨u, v ++ y, by rw [List.append_assoc], hu, (a2 R _ (fun h => hs ?_)).mpr ⟨v, y, rfl, hv, hy⟩⟩
      rw [List.append_assoc]; exact List.mem_append_right _ h

theorem Reads.congr {t : Str} {A B : Str → Prop} (h : Reads posix grp t A) (hAB : ∀ s, '\n' ∉ s → (A s ↔ B s)) : Reads posix grp t B := by
  obtain ⟨s1, k1, F1, l1, r1, a1⟩ := h
  refine ⟨s1, k1, F1, l1, r1, fun R s hs => ?_⟩
  rw [a1 R s hs]
  constructor
  · rintro ⟨x, y, rfl, hx, hy⟩; exact ⟨x, y, rfl, (hAB x (fun h => hs (List.mem_append_left _ h))).mp hx, hy⟩
  · rintro ⟨x, y, rfl, hx, hy⟩; exact ⟨x, y, rfl, (hAB x (fun h => hs (List.mem_append_left _ h))).mpr hx, hy⟩

theorem lang_cat_cls {p : Char → Bool} {R : Re} {s : Str} :
    Lang (.cat (.cls p) R) s ↔ ∃ x y, s = x ++ y ∧ (∃ c, x = [c] ∧ p c = true) ∧ Lang R y := by
  rw [lang_cat]
  constructor
  · rintro ⟨x, y, e, h1, h2⟩
    obtain ⟨c, hc, rfl⟩ := lang_cls.mp h1
    exact ⟨_, y, e, ⟨c, rfl, hc⟩, h2⟩
  · rintro ⟨x, y, e, ⟨c, rfl, hc⟩, h2⟩; exact ⟨_, y, e, .cls hc, h2⟩

theorem isRep_iff {c : Char} : isRep c = false ↔ c ≠ '*' ∧ c ≠ '?' ∧ c ≠ '+' := by
  simp [isRep, and_assoc]

theorem repNext_safe {s : Str} (h : Safe s) : repNext s = false := by
  cases s with
  | nil => rfl
  | cons c s => exact h c rfl

theorem repDone_safe {r : Re} {s : Str} (h : Safe s) : repDone r s = some (r, s) := by
  unfold repDone
  rw [if_neg, repNext_safe h]
  · rfl
  · intro he; have := h _ he; revert this; decide

theorem readRep_safe {r : Re} {s : Str} (h : Safe s) : readRep r s = some (r, s) := by
  unfold readRep
  cases s with
  | nil => rfl
  | cons c s =>
    have := isRep_iff.mp (h c rfl)
    simp only
    rw [if_neg this.1, if_neg this.2.1, if_neg this.2.2]

theorem readRep_star {r : Re} {s : Str} (h : Safe s) : readRep r ('*' :: s) = some (.star r, s) := by
  unfold readRep
  simp only
  rw [if_pos trivial, repDone_safe h]

theorem readRep_opt {r : Re} {s : Str} (h : Safe s) : readRep r ('?' :: s) = some (.alt .eps r, s) := by
  unfold readRep
  simp only
  rw [if_neg (by decide), if_pos trivial, repDone_safe h]

/-- One step of the reader on an atom. -/
theorem readSeq_atom (n : Nat) {c : Char} {t u v : Str} {a b : Re} (hc : c ∉ [')', '|', '$'])
    (hatom : readAtom posix grp c t = some (a, u)) (hrep : readRep a u = some (b, v)) :
    readSeq posix grp (n + 1) (c :: t) = (readSeq posix grp n v).map fun r => (Re.cat b r.1, r.2) := by
  simp only [List.mem_cons, List.not_mem_nil, or_false, not_or] at hc
  rw [readSeq, if_neg (by simp [hc]), hatom]
  simp only
  rw [hrep]

theorem safe_cons {c : Char} {s : Str} (h : isRep c = false) : Safe (c :: s) := by
  intro d hd; cases hd; exact h

/-- A literal character, escaped when it has to be. -/
theorem Reads.lit {c : Char} (h : c ∉ ['*', '?', '[']) :
    Reads posix grp (if c ∈ specials then ['\\', c] else [c]) (fun s => s = [c]) := by
  have hcls : ∀ R s, '\n' ∉ s → (Lang (.cat (.cls fun x => x == c) R) s ↔ ∃ x y, s = x ++ y ∧ x = [c] ∧ Lang R y) := by
    intro R s _
    rw [lang_cat_cls]
    constructor
    · rintro ⟨x, y, e, ⟨d, rfl, hd⟩, hy⟩; exact ⟨_, y, e, by rw [show d = c from by simpa using hd], hy⟩
    · rintro ⟨x, y, e, rfl, hy⟩; exact ⟨_, y, e, ⟨c, rfl, by simp⟩, hy⟩
  split
  · next hs =>
    refine ⟨fun _ _ => safe_cons (by decide), 1, fun R => .cat (.cls fun x => x == c) R, by simp, fun n rest hr => ?_, hcls⟩
    have hp : isPunct c = true := by
      simp only [specials, List.mem_cons, List.not_mem_nil, or_false] at hs
      rcases hs with rfl | rfl | rfl | rfl | rfl | rfl | rfl | rfl | rfl | rfl <;> decide
    rw [show ['\\', c] ++ rest = '\\' :: (c :: rest) from rfl]
    refine readSeq_atom n (by decide) ?_ (readRep_safe hr)
    unfold readAtom
    rw [if_neg (by decide), if_pos rfl]
    simp only
    rw [if_pos hp]
  · next hs =>
    simp only [specials, List.mem_cons, List.not_mem_nil, or_false, not_or] at hs h
    refine ⟨fun _ _ => safe_cons (by simp [isRep, h, hs]), 1, fun R => .cat (.cls fun x => x == c) R, by simp, fun n rest hr => ?_, hcls⟩
    rw [show [c] ++ rest = c :: rest from rfl]
    refine readSeq_atom n (by simp [hs]) ?_ (readRep_safe hr)
    unfold readAtom
    rw [if_neg (by simp [hs]), if_neg (by simp [hs]), if_neg (by simp [h]), if_neg (by simp [hs]), if_neg (by simp [isRep, h, hs])]

theorem Reads.slash : Reads posix grp ['/'] (fun s => s = ['/']) := by
  have := Reads.lit (posix := posix) (grp := grp) (c := '/') (by decide)
  rwa [if_neg (by decide)] at this

theorem readAtom_notSlash (rest : Str) :
    readAtom posix grp '[' ('^' :: '/' :: ']' :: rest) = some (.cls fun x => !(x == '/' || false), rest) := by
  unfold readAtom
  rw [if_neg (by decide), if_neg (by decide), if_pos rfl]
  simp [readClass, classItems, readItem, readRange, classChar]

theorem Reads.any : Reads posix grp fAny (fun s => ∃ c, s = [c] ∧ c ≠ '/') := by
  refine ⟨fun _ _ => safe_cons (by decide), 1, fun R => .cat (.cls fun x => !(x == '/' || false)) R, by decide, fun n rest hr => ?_, fun R s _ => ?_⟩
  · rw [show fAny ++ rest = '[' :: ('^' :: '/' :: ']' :: rest) from rfl]
    exact readSeq_atom n (by decide) (readAtom_notSlash rest) (readRep_safe hr)
  · rw [lang_cat_cls]
    simp

theorem lang_star_of {p : Char → Bool} {A : Str → Prop} {R : Re} {s : Str} (h : ∀ x, x <+: s → ((∀ c ∈ x, p c = true) ↔ A x)) :
    Lang (.cat (.star (.cls p)) R) s ↔ ∃ x y, s = x ++ y ∧ A x ∧ Lang R y := by
  rw [lang_cat]
  constructor
  · rintro ⟨x, y, rfl, h1, h2⟩; exact ⟨x, y, rfl, (h x ⟨y, rfl⟩).mp (lang_star_cls.mp h1), h2⟩
  · rintro ⟨x, y, rfl, h1, h2⟩; exact ⟨x, y, rfl, lang_star_cls.mpr ((h x ⟨y, rfl⟩).mpr h1), h2⟩

theorem Reads.star : Reads posix grp fStar (fun s => '/' ∉ s) := by
  refine ⟨fun _ _ => safe_cons (by decide), 1, fun R => .cat (.star (.cls fun x => !(x == '/' || false))) R, by decide, fun n rest hr => ?_, fun R s _ => ?_⟩
  · rw [show fStar ++ rest = '[' :: ('^' :: '/' :: ']' :: '*' :: rest) from rfl]
    exact readSeq_atom n (by decide) (readAtom_notSlash _) (readRep_star hr)
  · refine lang_star_of fun x _ => ?_
    constructor
    · intro h hm; have := h _ hm; simp at this
    · intro h c hc
      have : c ≠ '/' := fun e => h (e ▸ hc)
      simp [this]

theorem Reads.all : Reads posix grp fAll (fun _ => True) := by
  refine ⟨fun _ _ => safe_cons (by decide), 1, fun R => .cat (.star (.cls fun x => x != '\n')) R, by decide, fun n rest hr => ?_, fun R s hs => ?_⟩
  · rw [show fAll ++ rest = '.' :: ('*' :: rest) from rfl]
    refine readSeq_atom n (by decide) ?_ (readRep_star hr)
    unfold readAtom
    rw [if_pos rfl]
  · refine lang_star_of fun x hx => ⟨fun _ => trivial, fun _ c hc => ?_⟩
    have : c ≠ '\n' := fun e => hs (hx.subset (e ▸ hc))
    simp [this]

/-- A reader of groups with room for two alternatives. -/
def GroupReader (posix : Str → Option ((Char → Bool) × Str)) (grp : Str → Option (Re × Str)) : Prop :=
  ∃ m, grp = readGroup posix (m + 2)

def rAnyDir : Re := .cat (.star (.cls fun x => x != '\n')) (.cat (.cls fun x => x == '/') .eps)
def rBelow : Re := .cat (.cls fun x => x == '/') (.cat (.star (.cls fun x => x != '\n')) .eps)

theorem group_anyDir (hg : GroupReader posix grp) (u : Str) : grp ('.' :: '*' :: '/' :: ')' :: u) = some (rAnyDir, u) := by
  obtain ⟨m, rfl⟩ := hg
  simp [readGroup, readSeq, readAtom, readRep, repDone, repNext, isRep, rAnyDir]

theorem group_deepDir (hg : GroupReader posix grp) (u : Str) : grp ('.' :: '*' :: '?' :: '/' :: ')' :: u) = some (rAnyDir, u) := by
  obtain ⟨m, rfl⟩ := hg
  simp [readGroup, readSeq, readAtom, readRep, repDone, repNext, isRep, rAnyDir]

theorem group_below (hg : GroupReader posix grp) (u : Str) : grp ('/' :: '.' :: '*' :: ')' :: u) = some (rBelow, u) := by
  obtain ⟨m, rfl⟩ := hg
  simp [readGroup, readSeq, readAtom, readRep, repDone, repNext, isRep, rBelow]

theorem group_dirOr (hg : GroupReader posix grp) (u : Str) : grp ('|' :: '/' :: '.' :: '*' :: ')' :: u) = some (.alt .eps rBelow, u) := by
  obtain ⟨m, rfl⟩ := hg
  simp [readGroup, readSeq, readAtom, readRep, repDone, repNext, isRep, rBelow]

theorem readAtom_group (t : Str) {r : Re} {u : Str} (h : grp t = some (r, u)) : readAtom posix grp '(' ('?' :: ':' :: t) = some (r, u) := by
  unfold readAtom
  rw [if_neg (by decide), if_neg (by decide), if_neg (by decide), if_pos rfl]
  exact h

theorem lang_opt {r R : Re} {s : Str} : Lang (.cat (.alt .eps r) R) s ↔ ∃ x y, s = x ++ y ∧ (x = [] ∨ Lang r x) ∧ Lang R y := by
  rw [lang_cat]
  simp only [lang_alt, lang_eps]

theorem lang_anyDir {x : Str} (hx : '\n' ∉ x) : Lang rAnyDir x ↔ ∃ d, x = d ++ ['/'] := by
  rw [rAnyDir, lang_star_of (A := fun _ => True)]
  · constructor
    · rintro ⟨a, b, rfl, _, h⟩
      obtain ⟨c, d, rfl, ⟨e, rfl, he⟩, h2⟩ := lang_cat_cls.mp h
      rw [lang_eps] at h2
      exact ⟨a, by rw [h2, show e = '/' from by simpa using he]; simp⟩
    · rintro ⟨d, rfl⟩
      exact ⟨d, ['/'], rfl, trivial, lang_cat_cls.mpr ⟨['/'], [], rfl, ⟨'/', rfl, by simp⟩, .eps⟩⟩
  · intro y hy
    refine ⟨fun _ => trivial, fun _ c hc => ?_⟩
    have : c ≠ '\n' := fun e => hx (hy.subset (e ▸ hc))
    simp [this]

theorem lang_below {x : Str} (hx : '\n' ∉ x) : Lang rBelow x ↔ ∃ d, x = '/' :: d := by
  rw [rBelow, lang_cat_cls]
  constructor
  · rintro ⟨a, b, rfl, ⟨c, rfl, hc⟩, _⟩; exact ⟨b, by rw [show c = '/' from by simpa using hc]; rfl⟩
  · rintro ⟨d, rfl⟩
    refine ⟨['/'], d, rfl, ⟨'/', rfl, by simp⟩, (lang_star_of (A := fun _ => True) ?_).mpr ⟨d, [], by simp, trivial, .eps⟩⟩
    intro y hy
    refine ⟨fun _ => trivial, fun _ c hc => ?_⟩
    have : c ≠ '\n' := fun e => hx (List.mem_cons_of_mem _ (hy.subset (e ▸ hc)))
    simp [this]

theorem Reads.anyDir (hg : GroupReader posix grp) : Reads posix grp fAnyDir (fun s => s = [] ∨ ∃ d, s = d ++ ['/']) := by
  refine ⟨fun _ _ => safe_cons (by decide), 1, fun R => .cat (.alt .eps rAnyDir) R, by decide, fun n rest hr => ?_, fun R s hs => ?_⟩
  · rw [show fAnyDir ++ rest = '(' :: ('?' :: ':' :: '.' :: '*' :: '/' :: ')' :: '?' :: rest) from rfl]
    exact readSeq_atom n (by decide) (readAtom_group _ (group_anyDir hg _)) (readRep_opt hr)
  · rw [lang_opt]
    constructor
    · rintro ⟨x, y, rfl, h, hy⟩; exact ⟨x, y, rfl, h.imp id (lang_anyDir fun h => hs (List.mem_append_left _ h)).mp, hy⟩
    · rintro ⟨x, y, rfl, h, hy⟩; exact ⟨x, y, rfl, h.imp id (lang_anyDir fun h => hs (List.mem_append_left _ h)).mpr, hy⟩

theorem Reads.deepDir (hg : GroupReader posix grp) : Reads posix grp fDeepDir (fun s => s = [] ∨ ∃ d, s = d ++ ['/']) := by
  refine ⟨fun _ _ => safe_cons (by decide), 1, fun R => .cat (.alt .eps rAnyDir) R, by decide, fun n rest hr => ?_, fun R s hs => ?_⟩
  · rw [show fDeepDir ++ rest = '(' :: ('?' :: ':' :: '.' :: '*' :: '?' :: '/' :: ')' :: '?' :: rest) from rfl]
    exact readSeq_atom n (by decide) (readAtom_group _ (group_deepDir hg _)) (readRep_opt hr)
  · rw [lang_opt]
    constructor
    · rintro ⟨x, y, rfl, h, hy⟩; exact ⟨x, y, rfl, h.imp id (lang_anyDir fun h => hs (List.mem_append_left _ h)).mp, hy⟩
    · rintro ⟨x, y, rfl, h, hy⟩; exact ⟨x, y, rfl, h.imp id (lang_anyDir fun h => hs (List.mem_append_left _ h)).mpr, hy⟩

theorem Reads.below (hg : GroupReader posix grp) : Reads posix grp fBelow (fun s => s = [] ∨ ∃ d, s = '/' :: d) := by
  refine ⟨fun _ _ => safe_cons (by decide), 1, fun R => .cat (.alt .eps rBelow) R, by decide, fun n rest hr => ?_, fun R s hs => ?_⟩
  · rw [show fBelow ++ rest = '(' :: ('?' :: ':' :: '/' :: '.' :: '*' :: ')' :: '?' :: rest) from rfl]
    exact readSeq_atom n (by decide) (readAtom_group _ (group_below hg _)) (readRep_opt hr)
  · rw [lang_opt]
    constructor
    · rintro ⟨x, y, rfl, h, hy⟩; exact ⟨x, y, rfl, h.imp id (lang_below fun h => hs (List.mem_append_left _ h)).mp, hy⟩
    · rintro ⟨x, y, rfl, h, hy⟩; exact ⟨x, y, rfl, h.imp id (lang_below fun h => hs (List.mem_append_left _ h)).mpr, hy⟩

theorem Reads.dirOr (hg : GroupReader posix grp) : Reads posix grp fDirOr (fun s => s = [] ∨ ∃ d, s = '/' :: d) := by
  refine ⟨fun _ _ => safe_cons (by decide), 1, fun R => .cat (.alt .eps rBelow) R, by decide, fun n rest hr => ?_, fun R s hs => ?_⟩
  · rw [show fDirOr ++ rest = '(' :: ('?' :: ':' :: '|' :: '/' :: '.' :: '*' :: ')' :: rest) from rfl]
    exact readSeq_atom n (by decide) (readAtom_group _ (group_dirOr hg _)) (readRep_safe hr)
  · rw [lang_opt]
    constructor
    · rintro ⟨x, y, rfl, h, hy⟩; exact ⟨x, y, rfl, h.imp id (lang_below fun h => hs (List.mem_append_left _ h)).mp, hy⟩
    · rintro ⟨x, y, rfl, h, hy⟩; exact ⟨x, y, rfl, h.imp id (lang_below fun h => hs (List.mem_append_left _ h)).mpr, hy⟩

/-! ### Bracket classes -/

theorem escBack_id : ∀ {s : Str}, '\\' ∉ s → escBack s = s
  | [], _ => rfl
  | c :: s, h => by
    simp only [List.mem_cons, not_or] at h
    rw [escBack, if_neg (Ne.symm h.1), escBack_id h.2]

theorem readItem_plain {c : Char} {t : Str} (h : c ≠ '[' ∧ c ≠ '\\') : readItem posix c t = readRange c t := by
  unfold readItem
  rw [if_neg (by simp [h])]
  simp only [classChar]
  rw [if_neg h.2]

theorem classItems_simple : ∀ (m : Nat) (inner : Str), inner.length ≤ m → (∀ c ∈ inner, c ∉ ['[', ']', '\\']) →
    (∀ pre a b post, inner = pre ++ a :: '-' :: b :: post → a ≤ b) → ∀ (first : Bool) (n : Nat) (rest : Str),
    (inner = [] → first = false) → inner.length < n →
    ∃ p, classItems posix n first (inner ++ ']' :: rest) = some (p, rest) ∧ ∀ c, p c = true ↔ Member inner c := by
  intro m
  induction m with
  | zero =>
    intro inner hm _ _ first n rest hf hn
    obtain rfl := List.eq_nil_of_length_eq_zero (by omega : inner.length = 0)
    obtain ⟨k, rfl⟩ : ∃ k, n = k + 1 := ⟨n - 1, by simp at hn; omega⟩
    refine ⟨fun _ => false, ?_, fun c => by simp [Member]⟩
    rw [List.nil_append, classItems, if_pos ⟨rfl, hf rfl⟩]
  | succ m ih =>
    intro inner hm hch hasc first n rest hf hn
    obtain ⟨k, rfl⟩ : ∃ k, n = k + 1 := ⟨n - 1, by omega⟩
    cases inner with
    | nil =>
      refine ⟨fun _ => false, ?_, fun c => by simp [Member]⟩
      rw [List.nil_append, classItems, if_pos ⟨rfl, hf rfl⟩]
    | cons a t =>
      have ha := hch a (by simp)
      simp only [List.mem_cons, List.not_mem_nil, or_false, not_or] at ha
      rw [List.cons_append, classItems, if_neg (by simp [ha]), readItem_plain ⟨ha.1, ha.2.2⟩]
      have hsingle : ∀ (hne : ∀ b post, t ≠ '-' :: b :: post), (t ++ ']' :: rest).head? = some '-' ∧ (t ++ ']' :: rest).tail ≠ [] ∧
          (t ++ ']' :: rest).tail.head? ≠ some ']' → False := by
        intro hne
        match t, hne with
        | [], _ => simp
        | [x], _ => simp
        | x :: b :: post, hne =>
          rintro ⟨h1, _⟩
          simp only [List.cons_append, List.head?_cons, Option.some.injEq] at h1
          exact hne b post (by rw [h1])
      by_cases hr : ∃ b post, t = '-' :: b :: post
      · obtain ⟨b, post, rfl⟩ := hr
        have hb := hch b (by simp)
        simp only [List.mem_cons, List.not_mem_nil, or_false, not_or] at hb
        have hle := hasc [] a b post rfl
        obtain ⟨p, hp1, hp2⟩ := ih post (by simp at hm; omega) (fun c hc => hch c (by simp [hc]))
          (fun pre x y q he => hasc (a :: '-' :: b :: pre) x y q (by rw [he]; rfl)) false k rest (fun _ => rfl) (by simp at hn; omega)
        refine ⟨fun x => (decide (a ≤ x) && decide (x ≤ b)) || p x, ?_, fun c => ?_⟩
        · unfold readRange
          rw [if_pos (by simp [hb])]
          simp only [List.cons_append, List.tail_cons, classChar]
          rw [if_neg hb.2.2]
          simp only
          rw [if_neg (Char.not_lt.mpr hle)]
          simp only
          rw [hp1]
          rfl
        · simp only [Bool.or_eq_true, Bool.and_eq_true, decide_eq_true_eq, hp2]
          rw [Member]
      · have hne : ∀ b post, t ≠ '-' :: b :: post := fun b post he => hr ⟨b, post, he⟩
        obtain ⟨p, hp1, hp2⟩ := ih t (by simp at hm; omega) (fun c hc => hch c (by simp [hc]))
          (fun pre x y q he => hasc (a :: pre) x y q (by rw [he]; rfl)) false k rest (fun _ => rfl) (by simp at hn; omega)
        refine ⟨fun x => x == a || p x, ?_, fun c => ?_⟩
        · unfold readRange
          rw [if_neg (hsingle hne)]
          simp only
          rw [hp1]
          rfl
        · simp only [Bool.or_eq_true, beq_iff_eq, hp2]
          rw [Member]
          exact fun b post he => hne b post he

theorem Reads.cls {inner : Str} (h : SimpleClass inner) :
    Reads posix grp ('[' :: (escBack inner ++ [']'])) (fun s => ∃ c, s = [c] ∧ Member inner c) := by
  obtain ⟨h0, hch, _, hasc⟩ := h
  have hsub : ∀ c ∈ inner, c ∉ ['[', ']', '\\'] := by
    intro c hc
    have := hch c hc
    simp only [List.mem_cons, List.not_mem_nil, or_false, not_or] at this ⊢
    exact ⟨this.1, this.2.1, this.2.2.1⟩
  have hid : escBack inner = inner := escBack_id fun hm => hsub _ hm (by simp)
  rw [hid]
  have key : ∀ rest, ∃ p, readAtom posix grp '[' (inner ++ ']' :: rest) = some (.cls p, rest) ∧ ∀ c, p c = true ↔ Member inner c := by
    intro rest
    obtain ⟨p, hp1, hp2⟩ := classItems_simple (posix := posix) _ inner (Nat.le_refl _) hsub hasc true ((inner ++ ']' :: rest).length + 1) rest
      (fun e => absurd e h0) (by simp; omega)
    refine ⟨p, ?_, hp2⟩
    unfold readAtom
    rw [if_neg (by decide), if_neg (by decide), if_pos rfl]
    have : readClass posix (inner ++ ']' :: rest) = classItems posix ((inner ++ ']' :: rest).length + 1) true (inner ++ ']' :: rest) := by
      unfold readClass
      split
      · next t he =>
        exfalso
        cases inner with
        | nil => exact h0 rfl
        | cons a t' =>
          injection he with he
          have := hch a (by simp)
          rw [he] at this; exact this (by decide)
      · rfl
    rw [this, hp1]; rfl
  refine ⟨fun _ _ => safe_cons (by decide), 1, fun R => .cat (.cls fun c => (Classical.propDecidable (Member inner c)).decide) R, by simp, fun n rest hr => ?_, fun R s _ => ?_⟩
  · obtain ⟨p, hp1, hp2⟩ := key rest
    rw [show '[' :: (inner ++ [']']) ++ rest = '[' :: (inner ++ ']' :: rest) by simp]
    have : p = fun c => (Classical.propDecidable (Member inner c)).decide := by
      funext c
      rw [Bool.eq_iff_iff, hp2]; simp
    rw [this] at hp1
    exact readSeq_atom n (by decide) hp1 (readRep_safe hr)
  · rw [lang_cat_cls]
    simp

/-! ### Segments -/

theorem upTo_eq {x : Char} : ∀ {inner : Str} (p : Str), x ∉ inner → upTo x (inner ++ x :: p) = some inner
  | [], p, _ => by rw [List.nil_append, upTo, if_pos rfl]
  | c :: inner, p, h => by
    simp only [List.mem_cons, not_or] at h
    rw [List.cons_append, upTo, if_neg (Ne.symm h.1), upTo_eq p h.2]; rfl

theorem emitGo_skip : ∀ (a b : Str) (prev : Option Char) (res : Str), emitGo a.length prev res (a ++ b) = emitGo 0 (a.getLast?.or prev) res b
  | [], b, prev, res => by simp
  | c :: a, b, prev, res => by
    rw [List.cons_append, List.length_cons, emitGo, emitGo_skip a b (some c) res]
    congr 1
    rw [List.getLast?_cons]; cases a.getLast? <;> rfl

/-- What comes after a segment. -/
def SegEnd (rest : Str) : Prop := rest = [] ∨ rest.head? = some '/'

/-- A clean segment is emitted as text that reads as the segment's glob, and never matches a
slash. -/
theorem seg_ok {g : Str} (h : CleanSeg g) : ∃ txt, (∀ prev res rest, SegEnd rest → ∃ prev', emitGo 0 prev res (g ++ rest) = emitGo 0 prev' (res ++ txt) rest) ∧
    Reads posix grp txt (fun s => Glob g s ∧ '/' ∉ s) := by
  induction h with
  | nil =>
    refine ⟨[], fun prev res rest _ => ⟨prev, by simp⟩, Reads.nil.congr fun s _ => ?_⟩
    constructor
    · rintro rfl; exact ⟨.nil, by simp⟩
    · rintro ⟨h, _⟩; cases h; rfl
  | @lit c p hc _ ih =>
    obtain ⟨txt, he, hr⟩ := ih
    simp only [List.mem_cons, List.not_mem_nil, or_false, not_or] at hc
    refine ⟨(if c ∈ specials then ['\\', c] else [c]) ++ txt, fun prev res rest hrest => ?_, ((Reads.lit (by simp [hc])).append hr).congr fun s _ => ?_⟩
    · obtain ⟨prev', h'⟩ := he (some c) (res ++ (if c ∈ specials then ['\\', c] else [c])) rest hrest
      refine ⟨prev', ?_⟩
      rw [List.cons_append, emitGo, if_neg hc.1, if_neg hc.2.1, if_neg hc.2.2.1, if_neg hc.2.2.2, ← List.append_assoc, ← h']
      split <;> rfl
    · constructor
      · rintro ⟨x, y, rfl, rfl, hy, hs⟩
        refine ⟨.lit (by simp [hc]) hy, ?_⟩
        simp only [List.cons_append, List.nil_append, List.mem_cons, not_or]
        exact ⟨fun e => hc.2.2.2 e.symm, hs⟩
      · rintro ⟨hg, hs⟩
        cases hg with
        | lit _ hg => exact ⟨[c], _, rfl, rfl, hg, fun hm => hs (List.mem_cons_of_mem _ hm)⟩
        | any => exact absurd rfl hc.2.1
        | star => exact absurd rfl hc.1
        | cls => exact absurd rfl hc.2.2.1
  | @any p _ ih =>
    obtain ⟨txt, he, hr⟩ := ih
    refine ⟨fAny ++ txt, fun prev res rest hrest => ?_, (Reads.any.append hr).congr fun s _ => ?_⟩
    · obtain ⟨prev', h'⟩ := he (some '?') (res ++ fAny) rest hrest
      refine ⟨prev', ?_⟩
      rw [List.cons_append, emitGo, if_neg (by decide), if_pos rfl, ← List.append_assoc, ← h']
    · constructor
      · rintro ⟨x, y, rfl, ⟨c, rfl, hc⟩, hy, hs⟩
        refine ⟨.any hy, ?_⟩
        simp only [List.cons_append, List.nil_append, List.mem_cons, not_or]
        exact ⟨hc.symm, hs⟩
      · rintro ⟨hg, hs⟩
        cases hg with
        | lit h _ => exact absurd (by decide) h
        | @any c _ s hg =>
          simp only [List.mem_cons, not_or] at hs
          exact ⟨[c], s, rfl, ⟨c, rfl, Ne.symm hs.1⟩, hg, hs.2⟩
  | @star p hp _ ih =>
    obtain ⟨txt, he, hr⟩ := ih
    refine ⟨fStar ++ txt, fun prev res rest hrest => ?_, (Reads.star.append hr).congr fun s _ => ?_⟩
    · obtain ⟨prev', h'⟩ := he (some '*') (res ++ fStar) rest hrest
      refine ⟨prev', ?_⟩
      rw [List.cons_append, emitGo, if_pos rfl, if_neg, ← List.append_assoc, ← h']
      cases p with
      | nil =>
        rcases hrest with rfl | hrest
        · simp
        · rw [List.nil_append, hrest]; decide
      | cons d p => simpa using hp
    · constructor
      · rintro ⟨x, y, rfl, hx, hy, hs⟩
        exact ⟨.star hy, fun hm => (List.mem_append.mp hm).elim hx hs⟩
      · rintro ⟨hg, hs⟩
        cases hg with
        | lit h _ => exact absurd (by decide) h
        | @star _ s t hg =>
          exact ⟨s, t, rfl, fun hm => hs (List.mem_append_left _ hm), hg, fun hm => hs (List.mem_append_right _ hm)⟩
  | @cls inner p hcl _ ih =>
    obtain ⟨txt, he, hr⟩ := ih
    have hnb : ']' ∉ inner := fun hm => hcl.2.1 _ hm (by decide)
    refine ⟨'[' :: (escBack inner ++ [']']) ++ txt, fun prev res rest hrest => ?_, ((Reads.cls hcl).append hr).congr fun s _ => ?_⟩
    · obtain ⟨prev', h'⟩ := he ((inner ++ [']']).getLast?.or (some '[')) (res ++ '[' :: (escBack inner ++ [']'])) rest hrest
      refine ⟨prev', ?_⟩
      rw [List.cons_append, List.append_assoc, List.cons_append, emitGo, if_neg (by decide), if_neg (by decide), if_pos rfl, upTo_eq _ hnb]
      simp only
      rw [← List.append_assoc, ← h', show inner ++ ']' :: (p ++ rest) = (inner ++ [']']) ++ (p ++ rest) by simp,
        ← emitGo_skip (inner ++ [']'])]
      simp
    · constructor
      · rintro ⟨x, y, rfl, ⟨c, rfl, hc⟩, hy, hs⟩
        refine ⟨.cls hnb hc hy, ?_⟩
        simp only [List.cons_append, List.nil_append, List.mem_cons, not_or]
        exact ⟨fun e => hcl.2.2.1 (e ▸ hc), hs⟩
      · rintro ⟨hg, hs⟩
        generalize hq : '[' :: (inner ++ ']' :: p) = q at hg
        cases hg with
        | nil => cases hq
        | lit h _ => injection hq with h1 _; subst h1; exact absurd (by decide) h
        | any => injection hq with h1 _; exact absurd h1 (by decide)
        | star => injection hq with h1 _; exact absurd h1 (by decide)
        | @cls inner' c p' s hnb' hm hg =>
          injection hq with _ h2
          obtain ⟨rfl, rfl⟩ : inner = inner' ∧ p = p' := by
            have e1 := upTo_eq (x := ']') p hnb
            rw [h2, upTo_eq p' hnb'] at e1
            injection e1 with e1
            subst e1
            refine ⟨rfl, ?_⟩
            have := List.append_cancel_left h2
            injection this
          simp only [List.mem_cons, not_or] at hs
          exact ⟨[c], s, rfl, ⟨c, rfl, hm⟩, hg, hs.2⟩

/-! ### Cutting at slashes -/

def joinSlash : List Str → Str
  | [] => []
  | [x] => x
  | x :: y :: r => x ++ '/' :: joinSlash (y :: r)

theorem splitSlash_ne : ∀ s : Str, splitSlash s ≠ []
  | [] => by simp [splitSlash]
  | c :: s => by
    unfold splitSlash
    split
    · simp
    · split <;> simp

theorem splitSlash_cons {c : Char} {s : Str} (h : c ≠ '/') : ∃ x xs, splitSlash s = x :: xs ∧ splitSlash (c :: s) = (c :: x) :: xs := by
  cases hs : splitSlash s with
  | nil => exact absurd hs (splitSlash_ne s)
  | cons x xs => exact ⟨x, xs, rfl, by rw [splitSlash, if_neg h, hs]⟩

theorem splitSlash_one : ∀ {x : Str}, '/' ∉ x → splitSlash x = [x]
  | [], _ => rfl
  | c :: x, h => by
    simp only [List.mem_cons, not_or] at h
    rw [splitSlash, if_neg (Ne.symm h.1), splitSlash_one h.2]

theorem splitSlash_append : ∀ (a b : Str), splitSlash (a ++ '/' :: b) = splitSlash a ++ splitSlash b
  | [], b => by simp [splitSlash]
  | c :: a, b => by
    rw [List.cons_append]
    by_cases h : c = '/'
    · rw [splitSlash, if_pos h, splitSlash_append a b, splitSlash, if_pos h]; rfl
    · obtain ⟨x, xs, h1, h2⟩ := splitSlash_cons (s := a) h
      obtain ⟨y, ys, h3, h4⟩ := splitSlash_cons (s := a ++ '/' :: b) h
      rw [h2, h4]
      rw [splitSlash_append a b, h1] at h3
      injection h3 with e1 e2
      rw [← e1, ← e2]; rfl

theorem joinSlash_cons (c : Char) (x : Str) (xs : List Str) : joinSlash ((c :: x) :: xs) = c :: joinSlash (x :: xs) := by
  cases xs <;> rfl

theorem join_split : ∀ s : Str, joinSlash (splitSlash s) = s
  | [] => rfl
  | c :: s => by
    by_cases h : c = '/'
    · rw [splitSlash, if_pos h]
      cases hs : splitSlash s with
      | nil => exact absurd hs (splitSlash_ne s)
      | cons x xs =>
        have := join_split s
        rw [hs] at this
        rw [joinSlash, this, h]; rfl
    · obtain ⟨x, xs, h1, h2⟩ := splitSlash_cons (s := s) h
      have := join_split s
      rw [h1] at this
      rw [h2, joinSlash_cons, this]

theorem split_noslash : ∀ (s : Str), ∀ x ∈ splitSlash s, '/' ∉ x
  | [], x, hx => by simp [splitSlash] at hx; simp [hx]
  | c :: s, x, hx => by
    by_cases h : c = '/'
    · rw [splitSlash, if_pos h] at hx
      rcases List.mem_cons.mp hx with e | hx
      · simp [e]
      · exact split_noslash s x hx
    · obtain ⟨y, ys, h1, h2⟩ := splitSlash_cons (s := s) h
      rw [h2] at hx
      rcases List.mem_cons.mp hx with e | hx
      · rw [e]
        simp only [List.mem_cons, not_or]
        exact ⟨Ne.symm h, split_noslash s y (by rw [h1]; simp)⟩
      · exact split_noslash s x (by rw [h1]; simp [hx])

theorem split_join : ∀ {l : List Str}, l ≠ [] → (∀ x ∈ l, '/' ∉ x) → splitSlash (joinSlash l) = l
  | [], h, _ => absurd rfl h
  | [x], _, h => splitSlash_one (h x (by simp))
  | x :: y :: r, _, h => by
    rw [joinSlash, splitSlash_append, splitSlash_one (h x (by simp)), split_join (by simp) (fun z hz => h z (by simp [List.mem_cons.mp hz]))]
    rfl

theorem join_append : ∀ {a b : List Str}, a ≠ [] → b ≠ [] → joinSlash (a ++ b) = joinSlash a ++ '/' :: joinSlash b
  | [], _, h, _ => absurd rfl h
  | [x], b, _, hb => by
    cases b with
    | nil => exact absurd rfl hb
    | cons y r => rfl
  | x :: y :: r, b, _, hb => by
    rw [List.cons_append, List.cons_append, joinSlash, ← List.cons_append, join_append (by simp) hb, joinSlash, List.append_assoc]; rfl

/-- Cutting a path in two at a slash, and cutting its list of segments in two, are the same. -/
theorem split_cut {s : Str} {ys xs : List Str} (h : splitSlash s = ys ++ xs) (hx : xs ≠ []) (hy : ys ≠ []) :
    s = joinSlash ys ++ '/' :: joinSlash xs ∧ splitSlash (joinSlash xs) = xs ∧ splitSlash (joinSlash ys) = ys := by
  have hn := split_noslash s
  rw [h] at hn
  refine ⟨?_, split_join hx fun x hm => hn x (List.mem_append_right _ hm), split_join hy fun x hm => hn x (List.mem_append_left _ hm)⟩
  rw [← join_append hy hx, ← h, join_split]

/-! ### Matching segments -/

theorem pm_nil {gs : List Str} : PathMatch gs [] → ∀ g ∈ gs, g = deep := by
  intro h
  generalize hp : ([] : List Str) = ps at h
  induction h with
  | done => simp
  | seg => cases hp
  | deep _ ih =>
    obtain ⟨rfl, rfl⟩ := List.append_eq_nil_iff.mp hp.symm
    intro g hg
    rcases List.mem_cons.mp hg with e | hg
    · exact e
    · exact ih rfl g hg

theorem pm_deep {gs ps : List Str} : PathMatch (deep :: gs) ps ↔ ∃ ys xs, ps = ys ++ xs ∧ PathMatch gs xs := by
  constructor
  · intro h
    generalize hg : deep :: gs = q at h
    cases h with
    | done => cases hg
    | seg h _ _ => injection hg with e; exact absurd e.symm h
    | deep h => injection hg with _ e; subst e; exact ⟨_, _, rfl, h⟩
  · rintro ⟨ys, xs, rfl, h⟩; exact .deep h

theorem pm_seg {g : Str} {gs ps : List Str} (hg : g ≠ deep) : PathMatch (g :: gs) ps ↔ ∃ x xs, ps = x :: xs ∧ Glob g x ∧ PathMatch gs xs := by
  constructor
  · intro h
    generalize hq : g :: gs = q at h
    cases h with
    | done => cases hq
    | seg _ h1 h2 => injection hq with e1 e2; subst e1; subst e2; exact ⟨_, _, rfl, h1, h2⟩
    | deep h => injection hq with e; exact absurd e hg
  · rintro ⟨x, xs, rfl, h1, h2⟩; exact .seg hg h1 h2

theorem pm_all {gs : List Str} (h0 : gs ≠ []) (h : ∀ g ∈ gs, g = deep) (ps : List Str) : PathMatch gs ps := by
  induction gs with
  | nil => exact absurd rfl h0
  | cons g gs ih =>
    rw [h g (by simp)]
    by_cases hg : gs = []
    · subst hg; exact pm_deep.mpr ⟨ps, [], by simp, .done⟩
    · exact pm_deep.mpr ⟨[], ps, rfl, ih hg fun x hx => h x (List.mem_cons_of_mem _ hx)⟩

theorem pm_below : ∀ {gs ps : List Str}, PathMatch (gs ++ [deep]) ps ↔ ∃ xs ys, ps = xs ++ ys ∧ PathMatch gs xs
  | [], ps => by
    rw [List.nil_append, pm_deep]
    constructor
    · rintro ⟨ys, xs, rfl, h⟩; exact ⟨[], ys ++ xs, rfl, .done⟩
    · rintro ⟨xs, ys, rfl, h⟩; exact ⟨xs ++ ys, [], by simp, .done⟩
  | g :: gs, ps => by
    rw [List.cons_append]
    by_cases hg : g = deep
    · subst hg
      rw [pm_deep]
      constructor
      · rintro ⟨a, b, rfl, h⟩
        obtain ⟨xs, ys, rfl, h'⟩ := pm_below.mp h
        exact ⟨a ++ xs, ys, by simp, .deep h'⟩
      · rintro ⟨xs, ys, rfl, h⟩
        obtain ⟨a, b, rfl, h'⟩ := pm_deep.mp h
        exact ⟨a, b ++ ys, by simp, pm_below.mpr ⟨b, ys, rfl, h'⟩⟩
    · rw [pm_seg hg]
      constructor
      · rintro ⟨x, r, rfl, h1, h⟩
        obtain ⟨xs, ys, rfl, h'⟩ := pm_below.mp h
        exact ⟨x :: xs, ys, rfl, .seg hg h1 h'⟩
      · rintro ⟨xs, ys, rfl, h⟩
        obtain ⟨x, r, rfl, h1, h'⟩ := (pm_seg hg).mp h
        exact ⟨x, r ++ ys, rfl, h1, pm_below.mpr ⟨r, ys, rfl, h'⟩⟩

/-- Lists of segments that the translation handles. -/
def Okay (gs : List Str) : Prop := (∀ g ∈ gs, g = deep ∨ CleanSeg g) ∧ ∀ pre, gs ≠ pre ++ [deep, deep]

theorem Okay.tail {g : Str} {gs : List Str} (h : Okay (g :: gs)) : Okay gs :=
  ⟨fun x hx => h.1 x (List.mem_cons_of_mem _ hx), fun pre e => h.2 (g :: pre) (by rw [e]; rfl)⟩

theorem okay_nonempty : ∀ {gs : List Str}, Okay gs → gs ≠ [] → gs ≠ [deep] → ¬ PathMatch gs []
  | [], _, h, _ => absurd rfl h
  | [g], _, _, h => fun hp => h (by rw [pm_nil hp g (by simp)])
  | [a, b], h, _, _ => fun hp => h.2 [] (by rw [pm_nil hp a (by simp), pm_nil hp b (by simp)]; rfl)
  | a :: b :: c :: r, h, _, _ => fun hp => by
    have ha := pm_nil hp a (by simp)
    rw [ha] at hp
    obtain ⟨ys, xs, e, hx⟩ := pm_deep.mp hp
    obtain ⟨_, rfl⟩ := List.append_eq_nil_iff.mp e.symm
    exact okay_nonempty h.tail (by simp) (by simp) hx

theorem emit_deepDir (prev : Option Char) (res t : Str) : emitGo 0 prev res ('*' :: '*' :: '/' :: t) = emitGo 0 (some '/') (res ++ fDeepDir) t := by
  simp [emitGo]

theorem emit_endDeep (prev : Option Char) (res : Str) : emitGo 0 prev res deep = endDeep prev res := by
  simp [emitGo, deep]

theorem pm_deep_split {gs : List Str} (hn : ¬ PathMatch gs []) (s : Str) :
    (∃ x y, s = x ++ y ∧ (x = [] ∨ ∃ d, x = d ++ ['/']) ∧ PathMatch gs (splitSlash y)) ↔ PathMatch (deep :: gs) (splitSlash s) := by
  rw [pm_deep]
  constructor
  · rintro ⟨x, y, rfl, rfl | ⟨d, rfl⟩, h⟩
    · exact ⟨[], splitSlash y, rfl, h⟩
    · exact ⟨splitSlash d, splitSlash y, by rw [List.append_assoc]; exact splitSlash_append d y, h⟩
  · rintro ⟨ys, xs, e, h⟩
    have hx : xs ≠ [] := by rintro rfl; exact hn h
    by_cases hy : ys = []
    · subst hy; exact ⟨[], s, rfl, .inl rfl, by rw [e]; exact h⟩
    · obtain ⟨h1, h2, _⟩ := split_cut e hx hy
      exact ⟨joinSlash ys ++ ['/'], joinSlash xs, by rw [h1]; simp, .inr ⟨_, rfl⟩, by rw [h2]; exact h⟩

theorem pm_one {g s : Str} (hg : g ≠ deep) : (Glob g s ∧ '/' ∉ s) ↔ PathMatch [g] (splitSlash s) := by
  rw [pm_seg hg]
  constructor
  · rintro ⟨h1, h2⟩; exact ⟨s, [], splitSlash_one h2, h1, .done⟩
  · rintro ⟨x, xs, e, h1, h2⟩
    cases h2
    have hs := join_split s
    rw [e] at hs
    have hx := split_noslash s x (by rw [e]; simp)
    rw [joinSlash] at hs
    subst hs
    exact ⟨h1, hx⟩

theorem list_ok (hgr : GroupReader posix grp) : ∀ (gs : List Str), gs ≠ [] → gs ≠ [deep] → Okay gs →
    ∃ txt, (∀ prev res, emitGo 0 prev res (joinSlash gs) = res ++ txt) ∧ Reads posix grp txt (fun s => PathMatch gs (splitSlash s))
  | [], h, _, _ => absurd rfl h
  | [g], _, hd, hok => by
    have hg : g ≠ deep := fun e => hd (by rw [e])
    obtain ⟨txt, he, hr⟩ := seg_ok (posix := posix) (grp := grp) ((hok.1 g (by simp)).resolve_left hg)
    refine ⟨txt, fun prev res => ?_, hr.congr fun s _ => pm_one hg⟩
    obtain ⟨prev', h'⟩ := he prev res [] (.inl rfl)
    rw [List.append_nil] at h'
    rw [joinSlash, h', emitGo]
  | a :: b :: r, _, _, hok => by
    by_cases ha : a = deep
    · subst ha
      have hbd : b :: r ≠ [deep] := fun e => hok.2 [] (by rw [e]; rfl)
      obtain ⟨txt, he, hr⟩ := list_ok hgr (b :: r) (by simp) hbd hok.tail
      have hn := okay_nonempty hok.tail (by simp) hbd
      refine ⟨fDeepDir ++ txt, fun prev res => ?_, ((Reads.deepDir hgr).append hr).congr fun s _ => pm_deep_split hn s⟩
      rw [joinSlash, show deep ++ '/' :: joinSlash (b :: r) = '*' :: '*' :: '/' :: joinSlash (b :: r) from rfl, emit_deepDir, he, List.append_assoc]
    · obtain ⟨ta, hea, hra⟩ := seg_ok (posix := posix) (grp := grp) ((hok.1 a (by simp)).resolve_left ha)
      have hslash : ∀ prev res rest, ∃ prev', emitGo 0 prev res (a ++ '/' :: rest) = emitGo 0 prev' (res ++ ta) ('/' :: rest) :=
        fun prev res rest => hea prev res ('/' :: rest) (.inr rfl)
      by_cases hbd : b :: r = [deep]
      · rw [hbd]
        refine ⟨ta ++ fBelow, fun prev res => ?_, (hra.append (Reads.below hgr)).congr fun s _ => ?_⟩
        · obtain ⟨prev', h'⟩ := hslash prev res deep
          rw [joinSlash, joinSlash, h', emitGo, if_neg (by decide), if_neg (by decide), if_neg (by decide), if_pos rfl]
          rw [emit_endDeep, endDeep, if_pos rfl, if_pos (by simp), List.dropLast_concat, List.append_assoc]
        · rw [pm_seg ha]
          constructor
          · rintro ⟨x, y, rfl, ⟨h1, h2⟩, rfl | ⟨d, rfl⟩⟩
            · exact ⟨x, [], by rw [List.append_nil, splitSlash_one h2], h1, pm_all (by simp) (by simp) _⟩
            · exact ⟨x, splitSlash d, by rw [splitSlash_append, splitSlash_one h2]; rfl, h1, pm_all (by simp) (by simp) _⟩
          · rintro ⟨x, xs, e, h1, _⟩
            have hx := split_noslash s x (by rw [e]; simp)
            by_cases hxs : xs = []
            · subst hxs
              have hs := join_split s
              rw [e, joinSlash] at hs
              exact ⟨x, [], by rw [hs]; simp, ⟨h1, hx⟩, .inl rfl⟩
            · obtain ⟨h3, _, _⟩ := split_cut (ys := [x]) e hxs (by simp)
              exact ⟨x, '/' :: joinSlash xs, h3, ⟨h1, hx⟩, .inr ⟨_, rfl⟩⟩
      · obtain ⟨txt, he, hr⟩ := list_ok hgr (b :: r) (by simp) hbd hok.tail
        have hn := okay_nonempty hok.tail (by simp) hbd
        refine ⟨ta ++ (['/'] ++ txt), fun prev res => ?_, (hra.append (Reads.slash.append hr)).congr fun s _ => ?_⟩
        · obtain ⟨prev', h'⟩ := hslash prev res (joinSlash (b :: r))
          rw [joinSlash, h', emitGo, if_neg (by decide), if_neg (by decide), if_neg (by decide), if_pos rfl, he]
          simp
        · rw [pm_seg ha]
          constructor
          · rintro ⟨x, y, rfl, ⟨h1, h2⟩, u, v, rfl, rfl, h3⟩
            exact ⟨x, splitSlash v, by rw [show x ++ (['/'] ++ v) = x ++ '/' :: v from rfl, splitSlash_append, splitSlash_one h2]; rfl, h1, h3⟩
          · rintro ⟨x, xs, e, h1, h2⟩
            have hx := split_noslash s x (by rw [e]; simp)
            have hxs : xs ≠ [] := by rintro rfl; exact hn h2
            obtain ⟨h3, h4, _⟩ := split_cut (ys := [x]) e hxs (by simp)
            exact ⟨x, '/' :: joinSlash xs, h3, ⟨h1, hx⟩, ['/'], joinSlash xs, rfl, rfl, by rw [h4]; exact h2⟩

theorem trimSlash_eq (s : Str) : trimSlash s = unrooted s := by
  cases s with
  | nil => rfl
  | cons c s =>
    rw [trimSlash]
    unfold unrooted
    split
    · next h => subst h; rfl
    · next h =>
      split
      · next e => injection e with e; exact absurd e h
      · rfl

theorem slash_opening (b : Str) : ('/' ∉ trimSlash b ∧ b.head? ≠ some '/') ↔ (splitSlash b).length = 1 := by
  constructor
  · rintro ⟨h1, h2⟩
    have : '/' ∉ b := by
      cases b with
      | nil => simp
      | cons c b =>
        have hc : c ≠ '/' := fun e => h2 (by rw [e]; rfl)
        rw [trimSlash, if_neg hc] at h1
        exact h1
    rw [splitSlash_one this]; rfl
  · intro h
    have hb : '/' ∉ b := by
      intro hm
      obtain ⟨x, y, rfl⟩ := List.append_of_mem hm
      rw [splitSlash_append, List.length_append] at h
      have h1 := List.length_pos_iff.mpr (splitSlash_ne x)
      have h2 := List.length_pos_iff.mpr (splitSlash_ne y)
      omega
    constructor
    · intro hm
      apply hb
      cases b with
      | nil => exact hm
      | cons c b =>
        rw [trimSlash] at hm
        split at hm
        · exact List.mem_cons_of_mem _ hm
        · exact hm
    · intro e
      cases b with
      | nil => cases e
      | cons c b => injection e with e; exact hb (by rw [e]; simp)

theorem body_ok (hgr : GroupReader posix grp) (b : Str) (hok : Okay (splitSlash b)) :
    ∃ txt, emitGo 0 none (opening b) b = '^' :: txt ∧
      Reads posix grp txt (fun s => PathMatch (if (splitSlash b).length = 1 then deep :: splitSlash b else splitSlash b) (splitSlash s)) := by
  have hj := join_split b
  have hlen := slash_opening b
  unfold opening
  by_cases h1 : (splitSlash b).length = 1
  · rw [if_pos (hlen.mpr h1)]
    simp only [if_pos h1]
    by_cases hd : splitSlash b = [deep]
    · rw [hd, joinSlash] at hj
      refine ⟨fAnyDir ++ fAll, ?_, ((Reads.anyDir hgr).append Reads.all).congr fun s _ => ?_⟩
      · rw [← hj, emit_endDeep, endDeep, if_neg (by decide)]; rfl
      · rw [hd]
        exact ⟨fun _ => pm_all (by simp) (by simp) _, fun _ => ⟨[], s, rfl, .inl rfl, trivial⟩⟩
    · obtain ⟨txt, he, hr⟩ := list_ok hgr _ (splitSlash_ne b) hd hok
      have hn := okay_nonempty hok (splitSlash_ne b) hd
      refine ⟨fAnyDir ++ txt, ?_, ((Reads.anyDir hgr).append hr).congr fun s _ => pm_deep_split hn s⟩
      rw [hj] at he
      rw [he]; rfl
  · rw [if_neg (fun h => h1 (hlen.mp h))]
    simp only [if_neg h1]
    obtain ⟨txt, he, hr⟩ := list_ok hgr _ (splitSlash_ne b) (fun e => h1 (by rw [e]; rfl)) hok
    rw [hj] at he
    exact ⟨txt, by rw [he]; rfl, hr⟩

theorem dir_split {gs : List Str} (h0 : gs ≠ []) (s : Str) :
    (∃ x y, s = x ++ y ∧ PathMatch gs (splitSlash x) ∧ (y = [] ∨ ∃ d, y = '/' :: d)) ↔ PathMatch (gs ++ [deep]) (splitSlash s) := by
  rw [pm_below]
  constructor
  · rintro ⟨x, y, rfl, h, rfl | ⟨d, rfl⟩⟩
    · exact ⟨splitSlash x, [], by simp, h⟩
    · exact ⟨splitSlash x, splitSlash d, splitSlash_append x d, h⟩
  · rintro ⟨xs, ys, e, h⟩
    by_cases hx : xs = []
    · subst hx
      exact ⟨s, [], by simp, pm_all h0 (pm_nil h) _, .inl rfl⟩
    · by_cases hy : ys = []
      · subst hy
        rw [List.append_nil] at e
        exact ⟨s, [], by simp, by rw [e]; exact h, .inl rfl⟩
      · obtain ⟨h1, _, h2⟩ := split_cut e hy hx
        exact ⟨joinSlash xs, '/' :: joinSlash ys, h1, by rw [h2]; exact h, .inr ⟨_, rfl⟩⟩

theorem compile_ok {txt : Str} {A : Str → Prop} (h : ∀ grp, GroupReader posix grp → Reads posix grp txt A) :
    ∃ r, compile posix ('^' :: (txt ++ ['$'])) = some r ∧ ∀ s, '\n' ∉ s → (Lang r s ↔ A s) := by
  obtain ⟨_, k, F, hk, hr, ha⟩ := h (readGroup posix ((txt ++ ['$']).length + 1)) ⟨txt.length, by simp⟩
  refine ⟨F .eps, ?_, fun s hs => ?_⟩
  · unfold compile
    simp only
    have hrd := hr ((txt ++ ['$']).length + 1 - k) ['$'] (safe_cons (by decide))
    rw [show (txt ++ ['$']).length + 1 - k + k = (txt ++ ['$']).length + 1 by simp; omega] at hrd
    rw [hrd]
    obtain ⟨m, hm⟩ : ∃ m, (txt ++ ['$']).length + 1 - k = m + 1 := ⟨(txt ++ ['$']).length - k, by simp; omega⟩
    rw [hm, readSeq, if_pos (by simp)]
    rfl
  · rw [ha _ _ hs]
    constructor
    · rintro ⟨x, y, rfl, h1, h2⟩
      rw [lang_eps.mp h2, List.append_nil]; exact h1
    · intro h; exact ⟨s, [], by simp, h, .eps⟩

theorem matchBody_ok (posix : Str → Option ((Char → Bool) × Str)) (p path : Str) (hc : Clean p) (hn : '\n' ∉ path) :
    matchBody posix p path = true ↔ PathMatch (segments p) (splitSlash path) := by
  have hok : Okay (splitSlash (body p)) := hc
  have hcomp : ∃ r, compile posix (patternToRegex p) = some r ∧ ∀ s, '\n' ∉ s → (Lang r s ↔ PathMatch (segments p) (splitSlash s)) := by
    unfold patternToRegex segments
    simp only
    unfold body at hok ⊢
    by_cases hd : p.getLast? = some '/'
    · simp only [if_pos hd] at hok ⊢
      have hb : ∀ grp, GroupReader posix grp → ∃ txt, emitGo 0 none (opening p.dropLast) p.dropLast = '^' :: txt ∧ _ := fun grp hg =>
        body_ok hg p.dropLast hok
      obtain ⟨txt, he, _⟩ := hb _ ⟨0, rfl⟩
      rw [he, List.cons_append, ← List.append_assoc]
      refine compile_ok fun grp hg => ?_
      obtain ⟨txt', he', hr⟩ := hb grp hg
      rw [he] at he'
      injection he' with _ he'
      subst he'
      refine (hr.append (Reads.dirOr hg)).congr fun s _ => dir_split ?_ s
      split
      · simp
      · exact splitSlash_ne _
    · simp only [if_neg hd] at hok ⊢
      have hb : ∀ grp, GroupReader posix grp → ∃ txt, emitGo 0 none (opening p) p = '^' :: txt ∧ _ := fun grp hg => body_ok hg p hok
      obtain ⟨txt, he, _⟩ := hb _ ⟨0, rfl⟩
      rw [he, List.cons_append, List.append_nil]
      refine compile_ok fun grp hg => ?_
      obtain ⟨txt', he', hr⟩ := hb grp hg
      rw [he] at he'
      injection he' with _ he'
      subst he'
      exact hr
  obtain ⟨r, h1, h2⟩ := hcomp
  unfold matchBody
  rw [h1]
  simp only
  rw [accepts_iff]
  exact h2 path hn

/-- The pattern that is compiled: without the negation mark and one leading slash. -/
def effective : Str → Str
  | '!' :: p => unrooted p
  | p => unrooted p

/-- **C29, partial.** On the supported fragment — segments that are `**` or combine literal
characters, `*`, `?` and simple bracket classes, not ending in `**/**` — and for paths without
line breaks, a pattern matches exactly what gitignore's segment-wise reading says.  Missing,
and false in general: see the witnesses below. -/
theorem C29_gitignore_partial (posix : Str → Option ((Char → Bool) × Str)) (p path : Str) (hc : Clean (effective p)) (hn : '\n' ∉ path) :
    Match posix p path = true ↔ Ignores p path := by
  have hn' : '\n' ∉ trimSlash path := by
    intro hm
    apply hn
    cases path with
    | nil => exact hm
    | cons c s =>
      rw [trimSlash] at hm
      split at hm
      · exact List.mem_cons_of_mem _ hm
      · exact hm
  cases p with
  | nil => simp [Match, Ignores]
  | cons c q =>
    by_cases hb : c = '!'
    · subst hb
      cases q with
      | nil => simp [Match, Ignores]
      | cons d q =>
        have hc' : Clean (unrooted (d :: q)) := hc
        have key := matchBody_ok posix _ (trimSlash path) hc' hn'
        unfold Match
        rw [if_pos (c := ('!' :: d :: q).head? = some '!') rfl, if_neg (by simp), List.tail_cons, trimSlash_eq (d :: q)]
        have hI : Ignores ('!' :: d :: q) path ↔ ¬ Hits (d :: q) path := Iff.rfl
        rw [hI, Hits, ← trimSlash_eq path, ← key]
        simp
    · have he : effective (c :: q) = unrooted (c :: q) := by
        unfold effective
        split
        · next e => injection e with e; exact absurd e hb
        · rfl
      rw [he] at hc
      have key := matchBody_ok posix _ (trimSlash path) hc hn'
      have hI : Ignores (c :: q) path ↔ Hits (c :: q) path := by
        unfold Ignores
        split
        · next e => cases e
        · next e => injection e with e; exact absurd e hb
        · next e => injection e with e; exact absurd e hb
        · rfl
      unfold Match
      rw [if_neg (by simpa using hb), if_neg (by simp), trimSlash_eq (c :: q), hI, Hits, ← trimSlash_eq path, ← key]

/-! ### Consequences in plain terms -/

/-- No character with a meaning of its own. -/
def PlainName (p : Str) : Prop := p ≠ [] ∧ p.head? ≠ some '!' ∧ ∀ c ∈ p, c ∉ ['*', '?', '[', '/']

theorem plain_clean : ∀ {p : Str}, (∀ c ∈ p, c ∉ ['*', '?', '[', '/']) → CleanSeg p
  | [], _ => .nil
  | c :: p, h => .lit (h c (by simp)) (plain_clean fun d hd => h d (List.mem_cons_of_mem _ hd))

theorem plain_glob : ∀ {p s : Str}, (∀ c ∈ p, c ∉ ['*', '?', '[', '/']) → (Glob p s ↔ s = p)
  | [], s, _ => ⟨fun h => by cases h; rfl, fun h => h ▸ .nil⟩
  | c :: p, s, h => by
    have hc := h c (by simp)
    simp only [List.mem_cons, List.not_mem_nil, or_false, not_or] at hc
    have ih := fun s => plain_glob (p := p) (s := s) fun d hd => h d (List.mem_cons_of_mem _ hd)
    constructor
    · intro hg
      cases hg with
      | lit _ hg => rw [(ih _).mp hg]
      | any => exact absurd rfl hc.2.1
      | star => exact absurd rfl hc.1
      | cls => exact absurd rfl hc.2.2.1
    · rintro rfl; exact .lit (by simp [hc]) ((ih p).mpr rfl)

theorem plain_body {p : Str} (h : ∀ c ∈ p, c ∉ ['*', '?', '[', '/']) : '/' ∉ p ∧ p.getLast? ≠ some '/' ∧ p ≠ deep ∧ body p = p := by
  have h1 : '/' ∉ p := fun hm => h _ hm (by decide)
  have h2 : p.getLast? ≠ some '/' := fun e => h1 (List.mem_of_getLast? e)
  exact ⟨h1, h2, fun e => h '*' (by rw [e]; decide) (by decide), if_neg h2⟩

theorem unrooted_of {p : Str} (h : '/' ∉ p) : unrooted p = p := by
  unfold unrooted
  split
  · simp at h
  · rfl

theorem effective_of {p : Str} (h : p.head? ≠ some '!') : effective p = unrooted p := by
  unfold effective
  split
  · simp at h
  · rfl

theorem ignores_of {p path : Str} (h0 : p ≠ []) (h : p.head? ≠ some '!') : Ignores p path ↔ Hits p path := by
  unfold Ignores
  split
  · exact absurd rfl h0
  · simp at h
  · simp at h
  · rfl

/-- **C29 (plain names).** A plain name matches the paths whose last segment is that name. -/
theorem C29_plain_name (posix : Str → Option ((Char → Bool) × Str)) (p path : Str) (hp : PlainName p) (hn : '\n' ∉ path) :
    Match posix p path = true ↔ unrooted path = p ∨ ∃ d, unrooted path = d ++ '/' :: p := by
  obtain ⟨h0, h1, h2⟩ := hp
  obtain ⟨a1, a2, a3, a4⟩ := plain_body h2
  have hu := unrooted_of a1
  have hcl : Clean (effective p) := by
    rw [effective_of h1, hu, Clean, a4, splitSlash_one a1]
    refine ⟨fun g hg => .inr (by rw [List.mem_singleton.mp hg]; exact plain_clean h2), fun gs e => ?_⟩
    have := congrArg List.length e
    simp at this
  rw [C29_gitignore_partial posix p path hcl hn, ignores_of h0 h1, Hits, hu]
  have hseg : segments p = [deep, p] := by
    unfold segments
    simp only
    rw [a4, splitSlash_one a1, if_neg a2]
    rfl
  have hnm : ¬ PathMatch [p] [] := fun h => a3 (pm_nil h p (by simp))
  rw [hseg, ← pm_deep_split hnm]
  constructor
  · rintro ⟨x, y, e, hx, hy⟩
    rw [← pm_one a3, plain_glob h2] at hy
    rcases hx with rfl | ⟨d, rfl⟩
    · left; rw [e, hy.1]; rfl
    · right; exact ⟨d, by rw [e, hy.1]; simp⟩
  · rintro (e | ⟨d, e⟩)
    · exact ⟨[], p, e, .inl rfl, by rw [← pm_one a3, plain_glob h2]; exact ⟨rfl, a1⟩⟩
    · exact ⟨d ++ ['/'], p, by rw [e]; simp, .inr ⟨d, rfl⟩, by rw [← pm_one a3, plain_glob h2]; exact ⟨rfl, a1⟩⟩

/-- **C29 (plain directories).** A plain name with a trailing slash matches the paths that have
a segment of that name: the directory itself and everything below it. -/
theorem C29_plain_directory (posix : Str → Option ((Char → Bool) × Str)) (p path : Str) (hp : PlainName p) (hn : '\n' ∉ path) :
    Match posix (p ++ ['/']) path = true ↔ p ∈ splitSlash (unrooted path) := by
  obtain ⟨h0, h1, h2⟩ := hp
  obtain ⟨a1, a2, a3, a4⟩ := plain_body h2
  have hne : p ++ ['/'] ≠ [] := by simp
  have hh : (p ++ ['/']).head? = p.head? := by cases p with | nil => exact absurd rfl h0 | cons c p => rfl
  have hu : unrooted (p ++ ['/']) = p ++ ['/'] := by
    cases p with
    | nil => exact absurd rfl h0
    | cons c p =>
      have hc : c ≠ '/' := fun e => a1 (by rw [e]; simp)
      rw [List.cons_append]
      unfold unrooted
      split
      · next e => injection e with e; exact absurd e hc
      · rfl
  have hb : body (p ++ ['/']) = p := by
    unfold body
    rw [if_pos (by simp), List.dropLast_concat]
  have hcl : Clean (effective (p ++ ['/'])) := by
    rw [effective_of (by rw [hh]; exact h1), hu, Clean, hb, splitSlash_one a1]
    refine ⟨fun g hg => .inr (by rw [List.mem_singleton.mp hg]; exact plain_clean h2), fun gs e => ?_⟩
    have := congrArg List.length e
    simp at this
  rw [C29_gitignore_partial posix _ path hcl hn, ignores_of hne (by rw [hh]; exact h1), Hits, hu]
  have hseg : segments (p ++ ['/']) = [deep, p] ++ [deep] := by
    unfold segments
    simp only
    rw [hb, splitSlash_one a1, if_pos (by simp), if_pos (c := (p ++ ['/']).getLast? = some '/') (by simp)]
  rw [hseg, pm_below]
  constructor
  · rintro ⟨xs, ys, e, h⟩
    obtain ⟨us, vs, rfl, h'⟩ := pm_deep.mp h
    obtain ⟨x, ws, rfl, hg, _⟩ := (pm_seg a3).mp h'
    rw [plain_glob h2] at hg
    rw [e, hg]; simp
  · intro hm
    obtain ⟨us, vs, e⟩ := List.append_of_mem hm
    exact ⟨us ++ [p], vs, by rw [e]; simp, pm_deep.mpr ⟨us, [p], rfl, .seg a3 ((plain_glob h2).mpr rfl) .done⟩⟩

/-- **C29 (negation).** A leading `!` reverses the answer, for every pattern and path. -/
theorem C29_negation (posix : Str → Option ((Char → Bool) × Str)) (p path : Str) (h0 : p ≠ []) (h1 : p.head? ≠ some '!') :
    Match posix ('!' :: p) path = !Match posix p path := by
  unfold Match
  rw [if_pos (c := ('!' :: p).head? = some '!') rfl, if_neg h1, if_neg h0, List.tail_cons, if_neg h0]

theorem pm_length : ∀ {gs ps : List Str}, (∀ g ∈ gs, g ≠ deep) → PathMatch gs ps → gs.length = ps.length
  | [], ps, _, h => by cases h; rfl
  | g :: gs, ps, hd, h => by
    obtain ⟨x, xs, rfl, _, h2⟩ := (pm_seg (hd g (by simp))).mp h
    rw [List.length_cons, List.length_cons, pm_length (fun g hg => hd g (List.mem_cons_of_mem _ hg)) h2]

/-- **C29 (single stars stay inside a segment).** A pattern with a slash and without `**` only
matches paths with as many segments as it has. -/
theorem C29_star_stays (posix : Str → Option ((Char → Bool) × Str)) (p path : Str) (hc : Clean (unrooted p)) (hn : '\n' ∉ path)
    (h1 : p.head? ≠ some '!') (h2 : 2 ≤ (splitSlash (unrooted p)).length) (h3 : (unrooted p).getLast? ≠ some '/')
    (h4 : ∀ g ∈ splitSlash (unrooted p), g ≠ deep) (h : Match posix p path = true) :
    (splitSlash (unrooted path)).length = (splitSlash (unrooted p)).length := by
  have h0 : p ≠ [] := by rintro rfl; simp [unrooted, splitSlash] at h2
  rw [C29_gitignore_partial posix p path (by rw [effective_of h1]; exact hc) hn, ignores_of h0 h1, Hits] at h
  have hseg : segments (unrooted p) = splitSlash (unrooted p) := by
    unfold segments
    simp only
    rw [show body (unrooted p) = unrooted p from if_neg h3, if_neg (by omega), if_neg h3, List.append_nil]
  rw [hseg] at h
  exact (pm_length h4 h).symm

/-! ## Concrete cases and disagreements -/

/-- Matching with the POSIX names left out. -/
def M (p s : String) : Bool := Match (fun _ => none) p.toList s.toList

/-- `src/**/v[0-9]*.go` is in the supported fragment. -/
theorem ex_clean : Clean ("src/**/v[0-9]*.go".toList) := by
  refine ⟨?_, ?_⟩
  · rw [show splitSlash (body "src/**/v[0-9]*.go".toList) = [['s', 'r', 'c'], deep, ['v', '[', '0', '-', '9', ']', '*', '.', 'g', 'o']] by decide]
    intro g hg
    simp only [List.mem_cons, List.not_mem_nil, or_false] at hg
    rcases hg with rfl | rfl | rfl
    · exact .inr (plain_clean (by decide))
    · exact .inl rfl
    · right
      refine .lit (by decide) (.cls (inner := ['0', '-', '9']) ?_ (.star (by decide) (plain_clean (by decide))))
      refine ⟨by decide, by decide, by simp [Member], ?_⟩
      intro pre a b post e
      match pre, e with
      | [], e => injection e with e1 e; injection e with _ e; injection e with e2 _; subst e1; subst e2; decide
      | [_], e => simp at e
      | [_, _], e => simp at e
      | [_, _, _], e => simp at e
      | _ :: _ :: _ :: _ :: _, e => simp at e
  · intro gs e
    rw [show splitSlash (body "src/**/v[0-9]*.go".toList) = [['s', 'r', 'c'], deep, ['v', '[', '0', '-', '9', ']', '*', '.', 'g', 'o']] by decide] at e
    have := congrArg List.getLast? e
    rw [show gs ++ [deep, deep] = (gs ++ [deep]) ++ [deep] by simp, List.getLast?_concat] at this
    revert this; decide

example : M "src/**/v[0-9]*.go" "src/a/b/v2x.go" = true ∧ M "src/**/v[0-9]*.go" "src/v2.go" = true ∧
    M "src/**/v[0-9]*.go" "src/a/vx.go" = false ∧ M "src/**/v[0-9]*.go" "x/src/v2.go" = false := by decide
example : PlainName "vendor".toList := ⟨by decide, by decide, by decide⟩
example : M "vendor" "a/vendor" = true ∧ M "vendor" "a/vendor/b" = false ∧ M "vendor/" "a/vendor/b" = true ∧ M "!vendor" "a" = true := by decide

/-- **C29, negation.** A second trailing `**` makes the pattern match almost nothing: `a/**/**`
does not match `a/x`, nor `**/**` anything with a name. -/
theorem C29_double_deep : M "a/**" "a/x" = true ∧ M "a/**/**" "a/x" = false ∧ M "**/**" "x" = false ∧ M "**/**" "a/x" = false := by decide

/-- **C29, negation.** A leading slash does not anchor a pattern to the root. -/
theorem C29_leading_slash : M "/build" "build" = true ∧ M "/build" "src/build" = true := by decide

/-- **C29, negation.** `[!a]` is not a negated class: it matches `a` and not `b`. -/
theorem C29_class_negation : M "[!a]" "a" = true ∧ M "[!a]" "b" = false := by decide

/-- **C29, negation.** A negated class matches the slash, so a pattern without `**` crosses
directories. -/
theorem C29_class_crosses : M "x/a[^b]c" "x/a/c" = true := by decide

/-- **C29, negation.** A class that starts with `]` swallows the text emitted for what follows:
in `[]*]` the star becomes the class `][^/` repeated, and matches slashes. -/
theorem C29_class_swallows : M "[]*]" "//]" = true ∧ M "[]*]" "]a]" = false := by decide

/-- **C29, negation.** A backslash in a class is a member of it rather than an escape. -/
theorem C29_class_backslash : M "x[\\a]" "x\\" = true ∧ M "x[\\a]" "xa" = true := by decide

/-- **C29, negation.** `**` does not cross a line break. -/
theorem C29_line_break : M "a/**" "a/b\nc" = false := by decide

end Verif.GitignoreModel
