import Verif.HandlerDocModel

/-!
# C70: no part of a doc comment is lost; annotations are told apart from prose
-/

namespace Verif.HandlerDoc

/-! ## Specification -/

def AllSpace (s : Str) : Prop := ∀ c ∈ s, isSpace c = true

def NoSpace (s : Str) : Prop := ∀ c ∈ s, isSpace c = false

/-- The text consists of these words, with white space between and around them. -/
inductive Spaced : List Str → Str → Prop where
  | nil {s} : AllSpace s → Spaced [] s
  | cons {a w r ws} : AllSpace a → w ≠ [] → NoSpace w →
      (∀ c, r.head? = some c → isSpace c = true) → Spaced ws r → Spaced (w :: ws) (a ++ w ++ r)

/-- The white space is blanks, tabs and line ends. -/
def Ordinary (s : Str) : Prop := ∀ c ∈ s, isSpace c = true → c ∈ [' ', '\t', '\n', '\r']

/-- No white space at either end. -/
def Clean (t : Str) : Prop :=
  (∀ c, t.head? = some c → isSpace c = false) ∧ ∀ c, t.getLast? = some c → isSpace c = false

/-! ## Text -/

theorem isBlank_space {c : Char} (h : isBlank c = true) : isSpace c = true := by
  simp only [isBlank, List.mem_cons, List.not_mem_nil, or_false, decide_eq_true_eq] at h
  rcases h with rfl | rfl | rfl | rfl <;> decide

theorem space_isBlank {s : Str} (hp : Ordinary s) {c : Char} (hc : c ∈ s) :
    isBlank c = isSpace c := by
  cases h : isSpace c with
  | true => simpa [isBlank] using hp c hc h
  | false =>
    cases hb : isBlank c with
    | true => rw [isBlank_space hb] at h; cases h
    | false => rfl

theorem dropWhile_all {p : Char → Bool} {a b : Str} (ha : ∀ c ∈ a, p c = true) :
    (a ++ b).dropWhile p = b.dropWhile p := by
  induction a with
  | nil => rfl
  | cons c a ih =>
    rw [List.cons_append, List.dropWhile_cons, if_pos (ha c List.mem_cons_self)]
    exact ih fun x hx => ha x (List.mem_cons_of_mem _ hx)

theorem dropWhile_head {p : Char → Bool} {b : Str} (hb : ∀ c, b.head? = some c → p c = false) :
    b.dropWhile p = b := by
  cases b with
  | nil => rfl
  | cons c b => rw [List.dropWhile_cons, hb c rfl]; rfl

theorem spaced_skip {w : Str} {ws : List Str} {s : Str} (h : Spaced (w :: ws) s)
    (hp : Ordinary s) : Spaced ws (skipWord s) := by
  cases h with
  | @cons a _ r _ ha hw hn hr hs =>
    have e1 : (a ++ w ++ r).dropWhile isBlank = w ++ r := by
      rw [List.append_assoc, dropWhile_all, dropWhile_head]
      · intro c hc
        cases w with
        | nil => exact absurd rfl hw
        | cons d w =>
          simp only [List.cons_append, List.head?_cons, Option.some.injEq] at hc
          subst hc
          rw [space_isBlank hp (by simp)]; exact hn _ List.mem_cons_self
      · intro c hc
        rw [space_isBlank hp (by simp [hc])]; exact ha c hc
    have e2 : (w ++ r).dropWhile (fun c => !isBlank c) = r := by
      rw [dropWhile_all, dropWhile_head]
      · intro c hc
        have := hr c hc
        rw [space_isBlank hp (by
          have : c ∈ r := List.mem_of_head? hc
          simp [this]), this]; rfl
      · intro c hc
        rw [space_isBlank hp (by simp [hc]), hn c hc]; rfl
    unfold skipWord
    rw [e1, e2]; exact hs

theorem skip_suffix (s : Str) : ∃ a, s = a ++ skipWord s := by
  unfold skipWord
  obtain ⟨a, ha⟩ := List.dropWhile_suffix (p := isBlank) (l := s)
  obtain ⟨b, hb⟩ := List.dropWhile_suffix (p := fun c => !isBlank c) (l := s.dropWhile isBlank)
  exact ⟨a ++ b, by rw [List.append_assoc, hb, ha]⟩

theorem skips_suffix : ∀ (n : Nat) (s : Str), ∃ a, s = a ++ skipWords n s
  | 0, s => ⟨[], rfl⟩
  | n + 1, s => by
    obtain ⟨a, ha⟩ := skip_suffix s
    obtain ⟨b, hb⟩ := skips_suffix n (skipWord s)
    refine ⟨a ++ b, ?_⟩
    simp only [skipWords]
    rw [List.append_assoc, ← hb, ← ha]

theorem skip_space {s : Str} (h : AllSpace s) (hp : Ordinary s) : skipWord s = [] := by
  unfold skipWord
  have : s.dropWhile isBlank = [] := by
    have := dropWhile_all (p := isBlank) (a := s) (b := [])
      (fun c hc => by rw [space_isBlank hp hc]; exact h c hc)
    simpa using this
  rw [this]; rfl

theorem ordinary_suffix {a s : Str} (h : Ordinary (a ++ s)) : Ordinary s :=
  fun c hc => h c (List.mem_append_right _ hc)

theorem spaced_skips : ∀ (n : Nat) {ws : List Str} {s : Str}, Spaced ws s → Ordinary s →
    Spaced (ws.drop n) (skipWords n s)
  | 0, ws, s, h, _ => h
  | n + 1, ws, s, h, hp => by
    obtain ⟨a, ha⟩ := skip_suffix s
    have hp' : Ordinary (skipWord s) := by rw [ha] at hp; exact ordinary_suffix hp
    cases ws with
    | nil =>
      cases h with
      | nil h =>
        have e := skip_space h hp
        have : Spaced ([] : List Str) (skipWord s) := by
          rw [e]; exact .nil (by intro c hc; cases hc)
        simpa [skipWords] using spaced_skips n this hp'
    | cons w ws => simpa [skipWords] using spaced_skips n (spaced_skip h hp) hp'

/-! ### Trimming -/

theorem trimRight_nil {sp : Char → Bool} {s : Str} : trimRight sp s = [] ↔ ∀ c ∈ s, sp c = true := by
  induction s with
  | nil => simp [trimRight]
  | cons c s ih =>
    simp only [trimRight]
    split
    · rename_i h
      have := ih.1 h
      split <;> simp_all
    · rename_i r h
      constructor
      · intro e; cases e
      · intro e
        exact absurd (ih.2 fun x hx => e x (List.mem_cons_of_mem _ hx)) h

theorem trimRight_append {sp : Char → Bool} {s b : Str} (hb : ∀ c ∈ b, sp c = true)
    (hs : ∀ c, s.getLast? = some c → sp c = false) : trimRight sp (s ++ b) = s := by
  induction s with
  | nil => exact trimRight_nil.2 hb
  | cons c s ih =>
    cases s with
    | nil =>
      simp only [List.cons_append, List.nil_append, trimRight]
      rw [trimRight_nil.2 hb]
      simp [hs c rfl]
    | cons d s =>
      have := ih (fun x hx => hs x (by simpa [List.getLast?_cons_cons] using hx))
      simp only [List.cons_append, trimRight] at this ⊢
      rw [this]

theorem trimRight_split (sp : Char → Bool) (s : Str) :
    ∃ b, s = trimRight sp s ++ b ∧ (∀ c ∈ b, sp c = true) ∧
      ∀ c, (trimRight sp s).getLast? = some c → sp c = false := by
  induction s with
  | nil => exact ⟨[], rfl, by simp, by simp [trimRight]⟩
  | cons c s ih =>
    obtain ⟨b, h1, h2, h3⟩ := ih
    simp only [trimRight]
    split
    · rename_i h
      have hs := trimRight_nil.1 h
      split
      · rename_i hc
        exact ⟨c :: s, rfl, by simpa [hc] using hs, by simp⟩
      · rename_i hc
        exact ⟨s, rfl, hs, by simp at hc ⊢; exact hc⟩
    · rename_i r h
      refine ⟨b, by rw [List.cons_append, ← h1], h2, ?_⟩
      intro x hx
      refine h3 x ?_
      cases hr : trimRight sp s with
      | nil => exact absurd hr h
      | cons d t => rw [hr] at hx; simpa [List.getLast?_cons_cons] using hx

theorem trimSpace_pad {a t b : Str} (ha : AllSpace a) (hb : AllSpace b) (ht : Clean t) :
    trimSpace (a ++ t ++ b) = t := by
  unfold trimSpace
  rw [List.append_assoc, dropWhile_all ha]
  cases t with
  | nil =>
    have := dropWhile_all (p := isSpace) (a := b) (b := []) hb
    simp only [List.append_nil] at this
    simp [this, trimRight]
  | cons c t =>
    rw [dropWhile_head (by intro d hd; exact ht.1 d (by simpa using hd)),
      trimRight_append hb ht.2]

theorem dropWhile_split {p : Char → Bool} (s : Str) :
    ∃ a, s = a ++ s.dropWhile p ∧ (∀ c ∈ a, p c = true) ∧
      ∀ c, (s.dropWhile p).head? = some c → p c = false := by
  induction s with
  | nil => exact ⟨[], rfl, by simp, by simp⟩
  | cons c s ih =>
    obtain ⟨a, h1, h2, h3⟩ := ih
    rw [List.dropWhile_cons]
    split
    · rename_i hc
      exact ⟨c :: a, by rw [List.cons_append, ← h1], by simpa [hc] using h2, h3⟩
    · rename_i hc
      exact ⟨[], rfl, by simp, by simpa using hc⟩

theorem trimSpace_split (s : Str) :
    ∃ a b, s = a ++ trimSpace s ++ b ∧ AllSpace a ∧ AllSpace b ∧ Clean (trimSpace s) := by
  obtain ⟨a, h1, h2, h3⟩ := dropWhile_split (p := isSpace) s
  obtain ⟨b, h4, h5, h6⟩ := trimRight_split isSpace (s.dropWhile isSpace)
  refine ⟨a, b, ?_, h2, h5, ?_, h6⟩
  · unfold trimSpace
    rw [List.append_assoc, ← h4, ← h1]
  · intro c hc
    refine h3 c ?_
    unfold trimSpace at hc
    rw [h4]
    cases hr : trimRight isSpace (s.dropWhile isSpace) with
    | nil => rw [hr] at hc; cases hc
    | cons d t => rw [hr] at hc; simpa using hc

theorem spaced_drop_left {ws : List Str} {a s : Str} (ha : AllSpace a) (h : Spaced ws (a ++ s)) :
    Spaced ws s := by
  generalize he : a ++ s = x at h
  cases h with
  | nil h => exact .nil fun c hc => h c (by rw [← he]; exact List.mem_append_right _ hc)
  | @cons a' w r ws ha' hw hn hr hs =>
    rw [List.append_assoc] at he
    rcases List.append_eq_append_iff.1 he with ⟨b, h1, h2⟩ | ⟨b, h1, h2⟩
    · rw [h2, ← List.append_assoc]
      exact .cons (fun c hc => ha' c (by rw [h1]; exact List.mem_append_right _ hc)) hw hn hr hs
    · cases b with
      | nil =>
        simp only [List.nil_append] at h2
        rw [← h2]
        exact Spaced.cons (a := []) (by intro c hc; cases hc) hw hn hr hs
      | cons d b =>
        exfalso
        cases w with
        | nil => exact hw rfl
        | cons e w =>
          simp only [List.cons_append, List.cons.injEq] at h2
          have h3 := ha d (by rw [h1]; simp)
          rw [← h2.1, hn e List.mem_cons_self] at h3
          cases h3

theorem spaced_drop_right {ws : List Str} {s b : Str} (hb : AllSpace b) (h : Spaced ws (s ++ b)) :
    Spaced ws s := by
  generalize he : s ++ b = x at h
  induction h generalizing s with
  | nil h => exact .nil fun c hc => h c (by rw [← he]; exact List.mem_append_left _ hc)
  | @cons a w r ws ha hw hn hr hs ih =>
    rcases List.append_eq_append_iff.1 he with ⟨d, h1, h2⟩ | ⟨d, h1, h2⟩
    · -- the word would lie, at least in part, in the white space
      cases d with
      | nil =>
        simp only [List.append_nil] at h1
        rw [← h1]
        have : Spaced ws [] := ih (by simpa using h2)
        have := Spaced.cons ha hw hn (r := []) (by intro c hc; cases hc) this
        simpa using this
      | cons e d =>
        exfalso
        obtain ⟨w', l, hl⟩ : ∃ w' l, w = w' ++ [l] := ⟨w.dropLast, w.getLast hw, (List.dropLast_concat_getLast hw).symm⟩
        obtain ⟨d', l', hl'⟩ : ∃ d' l', e :: d = d' ++ [l'] :=
          ⟨(e :: d).dropLast, (e :: d).getLast (by simp), (List.dropLast_concat_getLast (by simp)).symm⟩
        rw [hl, hl', ← List.append_assoc, ← List.append_assoc] at h1
        have := List.append_inj_right' h1 rfl
        simp only [List.cons.injEq, and_true] at this
        have h3 := hb l' (by rw [h2, hl']; simp)
        rw [← this, hn l (by rw [hl]; simp)] at h3
        cases h3
    · subst h1
      refine .cons ha hw hn ?_ (ih h2.symm)
      intro c hc
      refine hr c ?_
      rw [h2]
      cases d with
      | nil => cases hc
      | cons e d => simpa using hc

theorem spaced_trim {ws : List Str} {s : Str} (h : Spaced ws s) : Spaced ws (trimSpace s) := by
  obtain ⟨a, b, e, ha, hb, _⟩ := trimSpace_split s
  rw [e] at h
  exact spaced_drop_left ha (by
    have := spaced_drop_right hb h
    exact this)

/-! ### Words -/

theorem words_space {a s : Str} (ha : AllSpace a) : words isSpace (a ++ s) = words isSpace s := by
  induction a with
  | nil => rfl
  | cons c a ih =>
    rw [List.cons_append, words.eq_def]; dsimp only; rw [if_pos (ha c List.mem_cons_self)]
    exact ih fun x hx => ha x (List.mem_cons_of_mem _ hx)

theorem words_word {w r : Str} (hw : w ≠ []) (hn : NoSpace w)
    (hr : ∀ c, r.head? = some c → isSpace c = true) :
    words isSpace (w ++ r) = w :: words isSpace r := by
  induction w with
  | nil => exact absurd rfl hw
  | cons c w ih =>
    have hc := hn c List.mem_cons_self
    cases w with
    | nil =>
      cases r with
      | nil => simp [words, hc]
      | cons d r =>
        have hd := hr d rfl
        simp only [List.cons_append, List.nil_append]
        rw [words]
        simp [hc, hd]
    | cons d w =>
      have := ih (by simp) fun x hx => hn x (List.mem_cons_of_mem _ hx)
      have hd : isSpace d = false := hn d (by simp)
      simp only [List.cons_append] at this ⊢
      rw [words.eq_def]
      simp [hc, hd, this]

theorem spaced_words {ws : List Str} {s : Str} (h : Spaced ws s) : words isSpace s = ws := by
  induction h with
  | nil h => have := words_space (s := []) h; simpa [words] using this
  | cons ha hw hn hr hs ih => rw [List.append_assoc, words_space ha, words_word hw hn hr, ih]

/-! ## The first sentence and the rest -/

/-- **C70, splitting a comment.**  If white space is ordinary, the summary is the first
sentence and the description consists of the words after as many words as the first
sentence has, formatted as in the comment. -/
theorem C70_split_partial {syn : Str → Str} {text : Str} {ws us : List Str}
    (hp : Ordinary text) (hw : Spaced ws text) (hs : Spaced us (syn text)) (hne : syn text ≠ []) :
    (splitSynopsis syn text).1 = syn text ∧
    Spaced (ws.drop us.length) (splitSynopsis syn text).2 ∧
    ∃ a b, text = a ++ (splitSynopsis syn text).2 ++ b ∧ AllSpace b := by
  have hu := spaced_words hs
  unfold splitSynopsis
  simp only [if_neg hne, hu]
  obtain ⟨a, ha⟩ := skips_suffix us.length text
  obtain ⟨a', b, e, _, hb, _⟩ := trimSpace_split (skipWords us.length text)
  refine ⟨trivial, spaced_trim (spaced_skips _ hw hp), a ++ a', b, ?_, hb⟩
  rw [List.append_assoc a, List.append_assoc a, ← e, ← ha]

/-- In particular no word is lost and none is repeated if the first sentence has the
words the comment begins with. -/
theorem C70_words_partial {syn : Str → Str} {text : Str} {us vs : List Str}
    (hp : Ordinary text) (hw : Spaced (us ++ vs) text) (hs : Spaced us (syn text))
    (hne : syn text ≠ []) :
    Spaced us (splitSynopsis syn text).1 ∧ Spaced vs (splitSynopsis syn text).2 := by
  obtain ⟨h1, h2, _⟩ := C70_split_partial hp hw hs hne
  rw [h1]
  exact ⟨hs, by simpa using h2⟩

example : splitSynopsis (fun _ => "Get a user.".toList) "Get a\n user.\n\n  - one\n  - two".toList =
    ("Get a user.".toList, "- one\n  - two".toList) := by decide

/-- The hypotheses hold of that comment's beginning. -/
example : Ordinary "Get a.\nB".toList ∧ Spaced ["Get".toList, "a.".toList, "B".toList] "Get a.\nB".toList := by
  refine ⟨by unfold Ordinary; decide, ?_⟩
  refine Spaced.cons (a := []) (w := "Get".toList) (r := " a.\nB".toList) (by intro c h; cases h)
    (by decide) (by unfold NoSpace; decide) (by intro c h; cases h; decide) ?_
  refine Spaced.cons (a := [' ']) (w := "a.".toList) (r := "\nB".toList) (by unfold AllSpace; decide)
    (by decide) (by unfold NoSpace; decide) (by intro c h; cases h; decide) ?_
  exact Spaced.cons (a := ['\n']) (w := ['B']) (r := []) (by unfold AllSpace; decide)
    (by decide) (by unfold NoSpace; decide) (by intro c h; cases h) (.nil (by intro c h; cases h))

/-- A character given by its number. -/
abbrev chr (n : Nat) : Char := Char.ofNat n

theorem docParts_split {syn : Str → Str} {a t : Str} (h1 : (splitLines t).all (fun l =>
    (trimSpace l).head? ≠ some '@') = true) (ha : a ≠ []) (ht : t ≠ []) (hs : syn t = a) :
    docParts syn t = (a, trimSpace (skipWords (words isSpace a).length t)) := by
  have key : ∀ (ls : List Str) (s : DocSt), s.ok = false → ls.all (fun l =>
      (trimSpace l).head? ≠ some '@') = true → (ls.foldl docStep s).ok = false := by
    intro ls
    induction ls with
    | nil => intro s h _; exact h
    | cons l ls ih =>
      intro s h hl
      simp only [List.all_cons, Bool.and_eq_true, decide_eq_true_eq] at hl
      rw [List.foldl_cons]
      refine ih _ ?_ hl.2
      unfold docStep
      simp only [if_neg hl.1]
      split
      · exact h
      · unfold proseStep
        split
        · exact h
        · exact h
        · split <;> exact h
  have h2 : swaggoDoc syn t = none := by
    unfold swaggoDoc
    simp [key _ {} rfl h1]
  unfold docParts
  rw [if_neg ht, h2]
  simp only [splitSynopsis, hs, if_neg ha]
  exact if_pos ha

/-- **C70, the failure for text without blanks between sentences.**  The full stop of
Chinese and Japanese text ends a sentence, and no blank follows: the words are not
separated there, and the second sentence is in neither part. -/
theorem C70_second_sentence_lost :
    let first := [chr 0x83b7, chr 0x53d6, chr 0x3002]
    let second := [chr 0x8fd4, chr 0x56de, chr 0x3002]
    ∀ syn : Str → Str, syn (first ++ second) = first →
      docParts syn (first ++ second) = (first, []) := by
  intro first second syn h
  exact docParts_split (by decide) (by decide) (by decide) h

/-- **C70, the failure for other white space.**  A no-break space separates words for
one count and not for the other: the word after the first sentence is lost. -/
theorem C70_word_lost :
    let first := ['A', chr 0xa0, 'b', '.']
    ∀ syn : Str → Str, syn (first ++ [' ', 'C', ' ', 'd', '.']) = first →
      docParts syn (first ++ [' ', 'C', ' ', 'd', '.']) = (first, ['d', '.']) := by
  intro first syn h
  exact docParts_split (by decide) (by decide) (by decide) h

/-! ## Annotations -/

/-- A line of prose: its text, or nothing. -/
def ProseLine (line t : Str) : Prop :=
  ∃ a b, line = a ++ t ++ b ∧ AllSpace a ∧ AllSpace b ∧ Clean t ∧ t.head? ≠ some '@'

/-- Lines of prose and the texts of those that are not empty. -/
inductive Prose : List Str → List Str → Prop where
  | nil : Prose [] []
  | blank {l ls ts} : ProseLine l [] → Prose ls ts → Prose (l :: ls) ts
  | text {l t ls ts} : ProseLine l t → t ≠ [] → Prose ls ts → Prose (l :: ls) (t :: ts)

/-- An annotation: its name with the `@`, what follows on the line, and the texts of
the lines after it. -/
structure Annot where
  name : Str
  text : Str
  more : List Str

/-- The line an annotation starts with. -/
def AnnotLine (line name text : Str) : Prop :=
  ∃ a g b, line = a ++ name ++ g ++ text ++ b ∧ AllSpace a ∧ AllSpace g ∧ AllSpace b ∧
    name.head? = some '@' ∧ NoSpace name ∧ Clean text ∧ (text ≠ [] → g ≠ [])

inductive Blocks : List Str → List Annot → Prop where
  | nil : Blocks [] []
  | cons {l ls ls' n as} {a : Annot} : AnnotLine l n a.text → a.name = n → Prose ls a.more →
      Blocks ls' as → Blocks (l :: (ls ++ ls')) (a :: as)

/-- The character is the given one or its capital; Unicode has two more capitals of
ASCII letters, the dotted I and the Kelvin sign. -/
def SameLetter (k c : Char) : Prop :=
  c = k ∨ ('A' ≤ c ∧ c ≤ 'Z' ∧ k.toNat = c.toNat + 32) ∨ (k = 'i' ∧ c.toNat = 0x130) ∨
    (k = 'k' ∧ c.toNat = 0x212a)

/-- The same name up to capitals. -/
def SameName : Str → Str → Prop
  | [], [] => True
  | k :: ks, c :: cs => SameLetter k c ∧ SameName ks cs
  | _, _ => False

instance (k c : Char) : Decidable (SameLetter k c) := by unfold SameLetter; infer_instance

instance : (ks cs : Str) → Decidable (SameName ks cs)
  | [], [] => isTrue trivial
  | [], _ :: _ => isFalse id
  | _ :: _, [] => isFalse id
  | k :: ks, c :: cs => by
    have := instDecidableSameName ks cs
    unfold SameName; infer_instance

/-- What the annotations of one name say. -/
def said (key : Str) (as : List Annot) : List Str :=
  as.flatMap fun a => if SameName key a.name then [a.text].filter (· ≠ []) ++ a.more else []

/-- Texts with a separator between them. -/
def between (sep : Str) (ts : List Str) : Str := (ts.intersperse sep).flatten

theorem join_between (sep : Str) : ∀ ts : List Str, join sep ts = between sep ts
  | [] => rfl
  | [a] => by simp [join, between]
  | a :: b :: r => by
    rw [join, join_between sep (b :: r)]
    simp [between, List.intersperse]

/-- The comment's text: lines, none of which contains a line end. -/
def Lines (ls : List Str) (text : Str) : Prop :=
  ls ≠ [] ∧ (∀ l ∈ ls, '\n' ∉ l) ∧ text = between ['\n'] ls

theorem splitLines_ne (s : Str) : splitLines s ≠ [] := by
  cases s with
  | nil => simp [splitLines]
  | cons c s =>
    simp only [splitLines]
    split
    · simp
    · split <;> simp

theorem splitLines_line {l : Str} (h : '\n' ∉ l) : splitLines l = [l] := by
  induction l with
  | nil => rfl
  | cons c l ih =>
    simp only [List.mem_cons, not_or] at h
    rw [splitLines, if_neg (fun e => h.1 e.symm), ih h.2]

theorem splitLines_cons {l s : Str} (h : '\n' ∉ l) :
    splitLines (l ++ '\n' :: s) = l :: splitLines s := by
  induction l with
  | nil => simp [splitLines]
  | cons c l ih =>
    simp only [List.mem_cons, not_or] at h
    rw [List.cons_append, splitLines, if_neg (fun e => h.1 e.symm), ih h.2]

theorem splitLines_lines {ls : List Str} {text : Str} (h : Lines ls text) : splitLines text = ls := by
  obtain ⟨h1, h2, rfl⟩ := h
  induction ls with
  | nil => exact absurd rfl h1
  | cons a r ih =>
    cases r with
    | nil => simpa [between] using splitLines_line (h2 a List.mem_cons_self)
    | cons b r =>
      have := ih (by simp) fun l hl => h2 l (List.mem_cons_of_mem _ hl)
      rw [← join_between] at this ⊢
      rw [join, List.append_assoc]
      rw [List.singleton_append, splitLines_cons (h2 a List.mem_cons_self), this]

theorem lines_splitLines (text : Str) : Lines (splitLines text) text := by
  refine ⟨splitLines_ne text, ?_, ?_⟩
  · induction text with
    | nil => simp [splitLines]
    | cons c s ih =>
      simp only [splitLines]
      split
      · simpa using ih
      · rename_i hc
        split
        · simpa using fun e => hc e.symm
        · rename_i l ls e
          rw [e] at ih
          intro x hx
          rcases List.mem_cons.1 hx with rfl | hx
          · simp only [List.mem_cons, not_or]
            exact ⟨fun e => hc e.symm, ih l List.mem_cons_self⟩
          · exact ih x (List.mem_cons_of_mem _ hx)
  · rw [← join_between]
    induction text with
    | nil => rfl
    | cons c s ih =>
      simp only [splitLines]
      split
      · rename_i hc
        cases e : splitLines s with
        | nil => exact absurd e (splitLines_ne s)
        | cons l ls => rw [join, ← e, ← ih, hc]; rfl
      · split
        · rename_i e; exact absurd e (splitLines_ne s)
        · rename_i l ls e
          rw [e] at ih
          cases ls with
          | nil => simp only [join] at ih ⊢; rw [ih]
          | cons m ls => simp only [join] at ih ⊢; rw [ih]; simp

/-! ### Names -/

theorem lowerChar_iff {k c : Char} (hk : ¬ ('A' ≤ k ∧ k ≤ 'Z') ∧ k.toNat < 0x80) :
    lowerChar c = k ↔ SameLetter k c := by
  have cap : ('A' ≤ c ∧ c ≤ 'Z') ↔ (65 ≤ c.toNat ∧ c.toNat ≤ 90) := by
    simp only [Char.le_def, UInt32.le_iff_toNat_le]; rfl
  have inj : ∀ {a b : Char}, a.toNat = b.toNat → a = b := by
    intro a b h
    exact Char.ext (UInt32.toNat_inj.1 h)
  unfold lowerChar SameLetter
  by_cases hc : 'A' ≤ c ∧ c ≤ 'Z'
  · rw [if_pos hc]
    have h2 := cap.1 hc
    have hn : (Char.ofNat (c.toNat + 32)).toNat = c.toNat + 32 := by
      have hv : (c.toNat + 32).isValidChar := Or.inl (by omega)
      unfold Char.ofNat
      rw [dif_pos hv]
      rfl
    constructor
    · intro h; right; left
      exact ⟨hc.1, hc.2, by rw [← h, hn]⟩
    · rintro (rfl | ⟨_, _, h⟩ | ⟨_, h⟩ | ⟨_, h⟩)
      · exact absurd hc hk.1
      · exact inj (by rw [hn, h])
      · omega
      · omega
  · rw [if_neg hc]
    by_cases hi : c.toNat = 0x130
    · rw [if_pos hi]
      constructor
      · intro h; exact Or.inr (Or.inr (Or.inl ⟨h.symm, hi⟩))
      · rintro (rfl | ⟨h1, h2, _⟩ | ⟨h, _⟩ | ⟨_, h⟩)
        · omega
        · exact absurd ⟨h1, h2⟩ hc
        · exact h.symm
        · omega
    · rw [if_neg hi]
      by_cases hq : c.toNat = 0x212a
      · rw [if_pos hq]
        constructor
        · intro h; exact Or.inr (Or.inr (Or.inr ⟨h.symm, hq⟩))
        · rintro (rfl | ⟨h1, h2, _⟩ | ⟨_, h⟩ | ⟨h, _⟩)
          · omega
          · exact absurd ⟨h1, h2⟩ hc
          · exact absurd h hi
          · exact h.symm
      · rw [if_neg hq]
        constructor
        · exact Or.inl
        · rintro (h | ⟨h1, h2, _⟩ | ⟨_, h⟩ | ⟨_, h⟩)
          · exact h
          · exact absurd ⟨h1, h2⟩ hc
          · exact absurd h hi
          · exact absurd h hq

theorem sameName_iff {key name : Str} (hk : ∀ k ∈ key, ¬ ('A' ≤ k ∧ k ≤ 'Z') ∧ k.toNat < 0x80) :
    name.map lowerChar = key ↔ SameName key name := by
  induction key generalizing name with
  | nil => cases name <;> simp [SameName]
  | cons k ks ih =>
    cases name with
    | nil => simp [SameName]
    | cons c cs =>
      simp only [List.map_cons, List.cons.injEq, SameName]
      rw [lowerChar_iff (hk k List.mem_cons_self), ih fun x hx => hk x (List.mem_cons_of_mem _ hx)]

def sKey : Str := "@summary".toList
def dKey : Str := "@description".toList

theorem sKey_iff (name : Str) : name.map lowerChar = summaryKey ↔ SameName sKey name :=
  sameName_iff (by decide)

theorem dKey_iff (name : Str) : name.map lowerChar = descriptionKey ↔ SameName dKey name :=
  sameName_iff (by decide)

/-! ### One line -/

theorem docStep_blank {s : DocSt} {l : Str} (h : ProseLine l []) : docStep s l = s := by
  obtain ⟨a, b, e, ha, hb, hc, _⟩ := h
  unfold docStep
  rw [e, trimSpace_pad ha hb hc]
  simp

theorem docStep_text {s : DocSt} {l t : Str} (h : ProseLine l t) (ht : t ≠ []) :
    docStep s l = proseStep s t := by
  obtain ⟨a, b, e, ha, hb, hc, hn⟩ := h
  unfold docStep
  rw [e, trimSpace_pad ha hb hc]
  simp only [if_neg hn, if_neg ht]

theorem clean_annot {n g t : Str} (hn : n.head? = some '@') (hs : NoSpace n) (hc : Clean t)
    (ht : t ≠ []) : Clean (n ++ g ++ t) := by
  constructor
  · intro c h
    cases n with
    | nil => cases hn
    | cons d n =>
      simp only [List.cons_append, List.head?_cons, Option.some.injEq] at h
      exact h ▸ hs d List.mem_cons_self
  · intro c h
    refine hc.2 c ?_
    rw [List.getLast?_append] at h
    cases e : t.getLast? with
    | none => exact absurd (List.getLast?_eq_none_iff.1 e) ht
    | some x => rw [e] at h; simpa using h

theorem docStep_annot {s : DocSt} {l n t : Str} (h : AnnotLine l n t) :
    docStep s l =
      if SameName sKey n then
        { s with ok := true, sect := .summary, sum := s.sum ++ [t].filter (· ≠ []) }
      else if SameName dKey n then
        { s with ok := true, sect := .description, desc := s.desc ++ [t].filter (· ≠ []) }
      else { s with ok := true, sect := .none } := by
  obtain ⟨a, g, b, e, ha, hg, hb, hn, hs, hc, hgt⟩ := h
  have hne : n ≠ [] := by rintro rfl; cases hn
  have key : ∃ u, trimSpace l = n ++ u ∧ (∀ c, u.head? = some c → isSpace c = true) ∧
      trimSpace u = t := by
    by_cases ht : t = []
    · subst ht
      refine ⟨[], ?_, (by intro c h; cases h), (by decide)⟩
      have e' : l = a ++ n ++ (g ++ b) := by simpa [List.append_assoc] using e
      rw [e', trimSpace_pad ha, List.append_nil]
      · intro c hc'
        rcases List.mem_append.1 hc' with h | h
        · exact hg c h
        · exact hb c h
      · refine ⟨fun c h => hs c (List.mem_of_head? h), fun c h => hs c (List.mem_of_getLast? h)⟩
    · refine ⟨g ++ t, ?_, ?_, ?_⟩
      · have e' : l = a ++ (n ++ g ++ t) ++ b := by simpa [List.append_assoc] using e
        rw [e', trimSpace_pad ha hb (clean_annot hn hs hc ht), List.append_assoc]
      · intro c h
        cases g with
        | nil => exact absurd rfl (hgt ht)
        | cons d g =>
          simp only [List.cons_append, List.head?_cons, Option.some.injEq] at h
          exact h ▸ hg d List.mem_cons_self
      · have := trimSpace_pad (b := []) hg (by intro c h; cases h) hc
        simpa using this
  obtain ⟨u, hu, hh, htr⟩ := key
  have hw : (words isSpace (n ++ u)).headD [] = n := by rw [words_word hne hs hh]; rfl
  have hhead : (n ++ u).head? = some '@' := by
    cases n with
    | nil => cases hn
    | cons d n => simpa using hn
  unfold docStep
  rw [hu]
  simp only [if_pos hhead]
  unfold annotStep
  simp only [hw, List.drop_left, htr, toLower, sKey_iff, dKey_iff]
  have hadd : ∀ ls : List Str, addText ls t = ls ++ [t].filter (· ≠ []) := by
    intro ls
    unfold addText
    by_cases ht : t = [] <;> simp [ht]
  simp only [hadd]

/-! ### All lines -/

theorem fold_lead {ls ts : List Str} (h : Prose ls ts) :
    ∀ s : DocSt, s.ok = false → s.sect = .none →
      ls.foldl docStep s = { s with lead := s.lead ++ ts } := by
  induction h with
  | nil => intro s _ _; simp
  | blank hl _ ih => intro s h1 h2; rw [List.foldl_cons, docStep_blank hl]; exact ih s h1 h2
  | @text l t ls ts hl ht _ ih =>
    intro s h1 h2
    obtain ⟨ok, sect, lead, sum, desc⟩ := s
    simp only at h1 h2
    subst h1 h2
    rw [List.foldl_cons, docStep_text hl ht]
    have e : proseStep ⟨false, .none, lead, sum, desc⟩ t = ⟨false, .none, lead ++ [t], sum, desc⟩ := rfl
    rw [e, ih _ rfl rfl]
    simp [List.append_assoc]

/-- What prose does after an annotation. -/
def more (s : DocSt) (ts : List Str) : DocSt :=
  match s.sect with
  | .summary => { s with sum := s.sum ++ ts }
  | .description => { s with desc := s.desc ++ ts }
  | .none => s

theorem more_nil (s : DocSt) : more s [] = s := by
  obtain ⟨ok, sect, lead, sum, desc⟩ := s
  unfold more; cases sect <;> simp

theorem fold_more {ls ts : List Str} (h : Prose ls ts) :
    ∀ s : DocSt, s.ok = true → ls.foldl docStep s = more s ts := by
  induction h with
  | nil => intro s _; exact (more_nil s).symm
  | blank hl _ ih => intro s h1; rw [List.foldl_cons, docStep_blank hl]; exact ih s h1
  | @text l t ls ts hl ht _ ih =>
    intro s h1
    rw [List.foldl_cons, docStep_text hl ht]
    obtain ⟨ok, sect, lead, sum, desc⟩ := s
    simp only at h1
    subst h1
    cases sect with
    | summary =>
      have e : proseStep ⟨true, .summary, lead, sum, desc⟩ t =
        ⟨true, .summary, lead, sum ++ [t], desc⟩ := rfl
      rw [e, ih _ rfl]; simp [more]
    | description =>
      have e : proseStep ⟨true, .description, lead, sum, desc⟩ t =
        ⟨true, .description, lead, sum, desc ++ [t]⟩ := rfl
      rw [e, ih _ rfl]; simp [more]
    | none => exact ih _ rfl

theorem fold_blocks {ls : List Str} {as : List Annot} (h : Blocks ls as) :
    ∀ s : DocSt,
      (ls.foldl docStep s).sum = s.sum ++ said sKey as ∧
      (ls.foldl docStep s).desc = s.desc ++ said dKey as ∧
      (ls.foldl docStep s).lead = s.lead ∧
      (ls.foldl docStep s).ok = (s.ok || !as.isEmpty) := by
  induction h with
  | nil => intro s; simp [said]
  | @cons l ls ls' n as a hl hn hp _ ih =>
    intro s
    rw [List.foldl_cons, List.foldl_append]
    have hstep := docStep_annot (s := s) hl
    have hok : (docStep s l).ok = true := by
      rw [hstep]
      split
      · rfl
      · split <;> rfl
    rw [fold_more hp _ hok]
    obtain ⟨i1, i2, i3, i4⟩ := ih (more (docStep s l) a.more)
    rw [i1, i2, i3, i4]
    subst hn
    rw [hstep]
    by_cases h1 : SameName sKey a.name
    · have h2 : ¬ SameName dKey a.name := by
        rw [← dKey_iff, (sKey_iff _).2 h1]; decide
      rw [if_pos h1]
      refine ⟨?_, ?_, rfl, by simp [more]⟩
      · simp only [more, said, List.flatMap_cons, if_pos h1, List.append_assoc]
      · simp only [more, said, List.flatMap_cons, if_neg h2, List.nil_append]
    · rw [if_neg h1]
      by_cases h2 : SameName dKey a.name
      · rw [if_pos h2]
        refine ⟨?_, ?_, rfl, by simp [more]⟩
        · simp only [more, said, List.flatMap_cons, if_neg h1, List.nil_append]
        · simp only [more, said, List.flatMap_cons, if_pos h2, List.append_assoc]
      · rw [if_neg h2]
        refine ⟨?_, ?_, rfl, by simp [more]⟩
        · simp only [more, said, List.flatMap_cons, if_neg h1, List.nil_append]
        · simp only [more, said, List.flatMap_cons, if_neg h2, List.nil_append]

/-- **C70, annotated comments.**  The description is what the `@Description` annotations
say and the lines after them; the summary is what the `@Summary` annotations say, or the
first sentence of the prose before the annotations if they say nothing; no other
annotation contributes. -/
theorem C70_annotations {syn : Str → Str} {text : Str} {l1 l2 lead : List Str} {as : List Annot}
    (hl : Lines (l1 ++ l2) text) (h1 : Prose l1 lead) (h2 : Blocks l2 as) (ha : as ≠ []) :
    docParts syn text =
      (if between [' '] (said "@summary".toList as) ≠ [] then
          between [' '] (said "@summary".toList as)
        else if lead ≠ [] then syn (between ['\n'] lead) else [],
       between ['\n'] (said "@description".toList as)) := by
  show _ = (if between [' '] (said sKey as) ≠ [] then between [' '] (said sKey as)
        else if lead ≠ [] then syn (between ['\n'] lead) else [],
       between ['\n'] (said dKey as))
  have hne : text ≠ [] := by
    rintro rfl
    have e := splitLines_lines hl
    simp only [splitLines] at e
    have hempty : docStep {} [] = {} := by decide
    have hf := congrArg (List.foldl docStep {}) e
    rw [List.foldl_append, fold_lead h1 {} rfl rfl] at hf
    obtain ⟨_, _, _, i4⟩ := fold_blocks h2 { ({} : DocSt) with lead := [] ++ lead }
    have hok := congrArg DocSt.ok hf
    simp only [List.foldl_cons, List.foldl_nil, hempty] at hok
    rw [i4] at hok
    cases as with
    | nil => exact ha rfl
    | cons a as => simp at hok
  have hsw : swaggoDoc syn text = some (if between [' '] (said sKey as) ≠ [] then
        between [' '] (said sKey as)
        else if lead ≠ [] then syn (between ['\n'] lead) else [],
       between ['\n'] (said dKey as)) := by
    unfold swaggoDoc
    simp only [splitLines_lines hl, List.foldl_append]
    rw [fold_lead h1 {} rfl rfl]
    obtain ⟨i1, i2, i3, i4⟩ := fold_blocks h2 { ({} : DocSt) with lead := [] ++ lead }
    have hok : (as.isEmpty) = false := by cases as with | nil => exact absurd rfl ha | cons _ _ => rfl
    rw [i1, i2, i3, i4]
    simp only [hok, List.nil_append, join_between]
    simp only [Bool.not_false, Bool.or_true, Bool.not_true, Bool.false_eq_true, if_false]
    by_cases hs : between [' '] (said sKey as) = []
    · by_cases hd : lead = []
      · simp [hs, hd]
      · have : (splitSynopsis syn (between ['\n'] lead)).1 = syn (between ['\n'] lead) := by
          unfold splitSynopsis
          by_cases hq : syn (between ['\n'] lead) = [] <;> simp [hq]
        simp [hs, hd, this]
    · simp [hs]
  unfold docParts
  rw [if_neg hne, hsw]

/-- **C70, plain comments.**  Without annotations the comment is split as above, or is
the summary as a whole if it has no first sentence. -/
theorem C70_plain {syn : Str → Str} {text : Str} {ls ts : List Str} (hl : Lines ls text)
    (h : Prose ls ts) (hne : text ≠ []) :
    docParts syn text = if syn text = [] then (text, []) else splitSynopsis syn text := by
  have hsw : swaggoDoc syn text = none := by
    unfold swaggoDoc
    rw [splitLines_lines hl, fold_lead h {} rfl rfl]
    rfl
  unfold docParts
  rw [if_neg hne, hsw]
  unfold splitSynopsis
  by_cases hs : syn text = [] <;> simp [hs]

/-! ### Every comment is of one of the two forms -/

theorem line_cases (l : Str) : (∃ t, ProseLine l t) ∨ ∃ n t, AnnotLine l n t := by
  obtain ⟨a, b, e, ha, hb, hc⟩ := trimSpace_split l
  by_cases hh : (trimSpace l).head? = some '@'
  · right
    generalize trimSpace l = t at e hc hh
    obtain ⟨u, e1, h1, h2⟩ := dropWhile_split (p := fun c => !isSpace c) t
    generalize t.dropWhile (fun c => !isSpace c) = r at e1 h2
    obtain ⟨g, e2, h3, h4⟩ := dropWhile_split (p := isSpace) r
    generalize r.dropWhile isSpace = x at e2 h4
    refine ⟨u, x, a, g, b, ?_, ha, h3, hb, ?_, fun c h => by simpa using h1 c h, ⟨h4, ?_⟩, ?_⟩
    · rw [e, e1, e2]; simp [List.append_assoc]
    · cases u with
      | nil =>
        simp only [List.nil_append] at e1
        subst e1
        have := h2 '@' hh
        exact absurd this (by decide)
      | cons d u => rw [e1] at hh; simpa using hh
    · intro c h
      refine hc.2 c ?_
      rw [e1, e2, List.getLast?_append, List.getLast?_append, h]; rfl
    · rintro hx rfl
      simp only [List.nil_append] at e2
      subst e2
      cases r with
      | nil => exact hx rfl
      | cons d r =>
        have p1 := h2 d rfl
        have p2 := h4 d rfl
        simp only [Bool.not_eq_false'] at p1
        rw [p1] at p2; cases p2
  · exact Or.inl ⟨_, a, b, e, ha, hb, hc, hh⟩

theorem lines_cases (ls : List Str) : ∃ l1 l2 lead as, ls = l1 ++ l2 ∧ Prose l1 lead ∧
    Blocks l2 as := by
  induction ls with
  | nil => exact ⟨[], [], [], [], rfl, .nil, .nil⟩
  | cons l ls ih =>
    obtain ⟨l1, l2, lead, as, rfl, h1, h2⟩ := ih
    rcases line_cases l with ⟨t, ht⟩ | ⟨n, t, ht⟩
    · by_cases he : t = []
      · subst he; exact ⟨l :: l1, l2, lead, as, rfl, .blank ht h1, h2⟩
      · exact ⟨l :: l1, l2, t :: lead, as, rfl, .text ht he h1, h2⟩
    · exact ⟨[], l :: (l1 ++ l2), [], ⟨n, t, lead⟩ :: as, rfl, .nil,
        .cons (a := ⟨n, t, lead⟩) ht rfl h1 h2⟩

/-- **C70, totality.**  Every comment consists of lines of prose and, possibly,
annotations after them: one of the two theorems above applies. -/
theorem C70_every_comment (text : Str) : ∃ l1 l2 lead as, Lines (l1 ++ l2) text ∧
    Prose l1 lead ∧ Blocks l2 as := by
  obtain ⟨l1, l2, lead, as, e, h1, h2⟩ := lines_cases (splitLines text)
  exact ⟨l1, l2, lead, as, e ▸ lines_splitLines text, h1, h2⟩

/-- A comment with annotations, some of which are not for the operation's text. -/
example : docParts (fun _ => []) "List godoc\n@Summary List\n all\n@Tags x\nhidden\n@description  One.\n".toList
    = ("List all".toList, "One.".toList) := by decide

theorem allSpace_nil : AllSpace [] := by intro c h; cases h

theorem clean_one {c : Char} (h : isSpace c = false) : Clean [c] :=
  ⟨fun d hd => by cases hd; exact h, fun d hd => by cases hd; exact h⟩

/-- The hypotheses of `C70_annotations` hold of a small one. -/
example : Lines ([['A']] ++ ["@Tags b".toList]) "A\n@Tags b".toList ∧ Prose [['A']] [['A']] ∧
    Blocks ["@Tags b".toList] [⟨"@Tags".toList, ['b'], []⟩] := by
  refine ⟨⟨by decide, by decide, by decide⟩, ?_, ?_⟩
  · exact .text (t := ['A']) ⟨[], [], rfl, allSpace_nil, allSpace_nil, clean_one (by decide),
      (by decide)⟩ (by decide) .nil
  · exact Blocks.cons (ls := []) (ls' := []) (a := ⟨"@Tags".toList, ['b'], []⟩)
      ⟨[], [' '], [], (by decide), allSpace_nil, (by unfold AllSpace; decide),
        allSpace_nil, (by decide), (by unfold NoSpace; decide), clean_one (by decide), (by decide)⟩
      rfl .nil .nil

/-- What the user's other sources say is not overwritten, field by field. -/
theorem C70_own_text (own doc : Str × Str) :
    (own.1 ≠ [] → (operationText own doc).1 = own.1) ∧
    (own.1 = [] → (operationText own doc).1 = doc.1) ∧
    (own.2 ≠ [] → (operationText own doc).2 = own.2) ∧
    (own.2 = [] → (operationText own doc).2 = doc.2) := by
  unfold operationText
  refine ⟨fun h => by simp [h], fun h => by simp [h], fun h => by simp [h], fun h => by simp [h]⟩

end Verif.HandlerDoc
