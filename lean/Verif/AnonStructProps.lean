import Verif.AnonStructModel

/-!
# C77: the fields of an inline struct are read back as `go/types` prints them
-/

namespace Verif.AnonStruct

/-! ## Specification -/

/-- Characters with a meaning to the scans. -/
def specials : List Char := ['"', '{', '}', '[', ']', '(', ')']

/-- The inside of a double-quoted string: a quote or backslash has a backslash before it. -/
inductive Quoted : List Char → Prop where
  | nil : Quoted []
  | char {c r} : c ≠ '"' → c ≠ '\\' → Quoted r → Quoted (c :: r)
  | esc {c r} : Quoted r → Quoted ('\\' :: c :: r)

/-- A text in which brackets match and quotes are closed.  `P` is what is allowed outside
all brackets. -/
inductive Text : (Char → Prop) → List Char → Prop where
  | nil {P} : Text P []
  | char {P c r} : c ∉ specials → P c → Text P r → Text P (c :: r)
  | quoted {P u r} : P '"' → Quoted u → Text P r → Text P ('"' :: (u ++ '"' :: r))
  | group {P o c i r} : (o, c) ∈ [('{', '}'), ('[', ']'), ('(', ')')] → Text (fun _ => True) i →
      Text P r → Text P (o :: (i ++ c :: r))

/-- A field of an inline struct; no name: an embedded type. -/
structure Field where
  name : Option (List Char)
  ty : List Char
  tag : Option (List Char)

/-- The text of a type: brackets match, quotes and semicolons are in brackets, and no
blank at either end. -/
def TypeText (t : List Char) : Prop :=
  Text (fun c => c ≠ ';' ∧ c ≠ '"') t ∧ (∃ c r, t = c :: r ∧ isSpace c = false) ∧
  ∃ c r, t = r ++ [c] ∧ isSpace c = false

/-- The text of a name: not empty, and no blank, bracket, quote or semicolon in it. -/
def NameText (n : List Char) : Prop :=
  n ≠ [] ∧ ∀ c ∈ n, c ∉ specials ∧ isSpace c = false ∧ c ≠ ';'

/-- A field as `go/types` writes it: `Name Type "tag"`. -/
def Field.print (quote : List Char → List Char) (f : Field) : List Char :=
  (match f.name with | some n => n ++ [' '] | none => []) ++ f.ty ++
  (match f.tag with | some t => ' ' :: quote t | none => [])

/-- The fields with `; ` in between. -/
def printFields (quote : List Char → List Char) : List Field → List Char
  | [] => []
  | [f] => f.print quote
  | f :: g :: r => f.print quote ++ [';', ' '] ++ printFields quote (g :: r)

/-- `struct{…}`. -/
def printStruct (quote : List Char → List Char) (fs : List Field) : List Char :=
  ['s', 't', 'r', 'u', 'c', 't', '{'] ++ printFields quote fs ++ ['}']

/-- What `strconv.Quote` and `strconv.Unquote` do. -/
structure Quoting (quote : List Char → List Char) (unquote : List Char → Option (List Char)) :
    Prop where
  form : ∀ t, ∃ u, Quoted u ∧ quote t = '"' :: (u ++ ['"'])
  back : ∀ t, unquote (quote t) = some t

/-- The fields of a struct as they can be written. -/
def Writable (f : Field) : Prop := TypeText f.ty ∧ ∀ n, f.name = some n → NameText n

/-! ## Proof -/

theorem special_iff (c : Char) : c ∉ specials ↔ c ≠ '"' ∧ (c ≠ '{' ∧ c ≠ '[' ∧ c ≠ '(') ∧
    c ≠ '}' ∧ c ≠ ']' ∧ c ≠ ')' := by
  simp only [specials, List.mem_cons, List.not_mem_nil, or_false, not_or]
  constructor
  · rintro ⟨a, b, c, d, e, f, g⟩; exact ⟨a, ⟨b, d, f⟩, c, e, g⟩
  · rintro ⟨a, ⟨b, d, f⟩, c, e, g⟩; exact ⟨a, b, c, d, e, f, g⟩

theorem next_char {d : Int} {c : Char} (h : c ∉ specials) : next ⟨d, .plain⟩ c = ⟨d, .plain⟩ := by
  obtain ⟨h1, ⟨h2, h3, h4⟩, h5, h6, h7⟩ := (special_iff c).1 h
  simp [next, h1, h2, h3, h4, h5, h6, h7]

theorem next_open {d : Int} {o c : Char} (h : (o, c) ∈ [('{', '}'), ('[', ']'), ('(', ')')]) :
    next ⟨d, .plain⟩ o = ⟨d + 1, .plain⟩ ∧ next ⟨d + 1, .plain⟩ c = ⟨d, .plain⟩ ∧ o ≠ '}' ∧
      o ≠ '"' ∧ o ≠ ';' ∧ c ≠ '"' ∧ c ≠ ';' := by
  simp only [List.mem_cons, Prod.mk.injEq, List.not_mem_nil, or_false] at h
  rcases h with ⟨rfl, rfl⟩ | ⟨rfl, rfl⟩ | ⟨rfl, rfl⟩ <;>
    refine ⟨by simp [next], by simp [next], ?_⟩ <;> decide

theorem body_quoted {d : Int} {u r : List Char} (h : Quoted u) :
    bodyScan ⟨d, .quote⟩ (u ++ '"' :: r) = (bodyScan ⟨d, .plain⟩ r).map (u ++ '"' :: ·) := by
  induction h with
  | nil => simp [bodyScan, next]
  | char h1 h2 _ ih => simp [bodyScan, next, h1, h2, ih, Function.comp_def]
  | esc _ ih => simp [bodyScan, next, ih, Function.comp_def]

theorem body_text {P : Char → Prop} {t : List Char} (h : Text P t) :
    ∀ {d : Int}, 1 ≤ d → ∀ r, bodyScan ⟨d, .plain⟩ (t ++ r) =
      (bodyScan ⟨d, .plain⟩ r).map (t ++ ·) := by
  induction h with
  | nil => intro d _ r; simp
  | @char P c t h _ _ ih =>
    intro d hd r
    have hc : c ≠ '}' := ((special_iff c).1 h).2.2.1
    simp [bodyScan, hc, next_char h, ih hd, Function.comp_def]
  | @quoted P u t _ hu _ ih =>
    intro d hd r
    have e : next ⟨d, .plain⟩ '"' = ⟨d, .quote⟩ := by simp [next]
    simp [bodyScan, e, body_quoted hu, ih hd, Function.comp_def]
  | @group P o c i t hp _ _ ih1 ih2 =>
    intro d hd r
    obtain ⟨e1, e2, h1, _⟩ := next_open (d := d) hp
    have hn : ¬ (d + 1 - 1 = 0) := by omega
    simp only [List.cons_append, List.append_assoc, bodyScan, h1, false_and, and_false,
      if_false, e1, ih1 (show (1 : Int) ≤ d + 1 by omega), hn, e2, ih2 hd, Option.map_map]
    simp [Function.comp_def]

theorem parts_ne_nil (sep : Char) (s : State) (t : List Char) : parts sep s t ≠ [] := by
  cases t with
  | nil => simp [parts]
  | cons c cs =>
    unfold parts
    split
    · simp
    · cases parts sep (next s c) cs <;> simp [onHead]

/-- Put a text in front of the first part. -/
def onHeads (t : List Char) : List (List Char) → List (List Char)
  | [] => [t]
  | p :: ps => (t ++ p) :: ps

theorem onHead_onHeads (c : Char) (t : List Char) (ps : List (List Char)) (h : ps ≠ []) :
    onHead c (onHeads t ps) = onHeads (c :: t) ps := by
  cases ps with
  | nil => exact absurd rfl h
  | cons p ps => rfl

theorem onHeads_append (a b : List Char) (ps : List (List Char)) :
    onHeads a (onHeads b ps) = onHeads (a ++ b) ps := by
  cases ps <;> simp [onHeads]

theorem onHeads_nil (ps : List (List Char)) (h : ps ≠ []) : onHeads [] ps = ps := by
  cases ps with
  | nil => exact absurd rfl h
  | cons p ps => rfl

theorem parts_quoted {sep : Char} {d : Int} {u r : List Char} (h : Quoted u) :
    parts sep ⟨d, .quote⟩ (u ++ '"' :: r) = onHeads (u ++ ['"']) (parts sep ⟨d, .plain⟩ r) := by
  induction h with
  | nil =>
    simp only [List.nil_append, parts, next]
    have := parts_ne_nil sep ⟨d, .plain⟩ r
    cases hp : parts sep ⟨d, .plain⟩ r with
    | nil => exact absurd hp this
    | cons p ps => simp [onHead, onHeads, hp]
  | char h1 h2 _ ih =>
    simp only [List.cons_append, parts, next, h1, h2, if_false, ih, reduceCtorEq, false_and]
    rw [onHead_onHeads _ _ _ (parts_ne_nil _ _ _)]
  | esc _ ih =>
    simp only [List.cons_append, parts, next, if_true, ih, reduceCtorEq, false_and, if_false]
    rw [onHead_onHeads _ _ _ (parts_ne_nil _ _ _), onHead_onHeads _ _ _ (parts_ne_nil _ _ _)]

theorem parts_text {P : Char → Prop} {t : List Char} (h : Text P t) :
    ∀ {d : Int}, 0 ≤ d → (d = 0 → ∀ c, P c → c ≠ ';') → ∀ r,
      parts ';' ⟨d, .plain⟩ (t ++ r) = onHeads t (parts ';' ⟨d, .plain⟩ r) := by
  induction h with
  | nil => intro d _ _ r; rw [onHeads_nil _ (parts_ne_nil _ _ _)]; rfl
  | @char P c t h hP _ ih =>
    intro d hd hs r
    have hc : ¬ (c = ';' ∧ d = 0) := fun ⟨h1, h2⟩ => hs h2 c hP h1
    simp only [List.cons_append, parts, next_char h, true_and, hc, if_false, ih hd hs]
    rw [onHead_onHeads _ _ _ (parts_ne_nil _ _ _)]
  | @quoted P u t _ hu _ ih =>
    intro d hd hs r
    have e : next ⟨d, .plain⟩ '"' = ⟨d, .quote⟩ := by simp [next]
    have hc : ¬ ('"' = ';') := by decide
    simp only [List.cons_append, List.append_assoc, parts, e, hc, false_and, and_false, if_false,
      parts_quoted hu, ih hd hs]
    rw [onHeads_append, onHead_onHeads _ _ _ (parts_ne_nil _ _ _)]
    simp
  | @group P o c i t hp _ _ ih1 ih2 =>
    intro d hd hs r
    obtain ⟨e1, e2, _, _, h1, _, h2⟩ := next_open (d := d) hp
    simp only [List.cons_append, List.append_assoc, parts, e1, h1, h2, false_and, and_false,
      if_false, ih1 (show (0 : Int) ≤ d + 1 by omega) (fun h => by omega), e2, ih2 hd hs]
    rw [onHead_onHeads _ _ _ (parts_ne_nil _ _ _), onHeads_append, onHead_onHeads _ _ _ (parts_ne_nil _ _ _)]

theorem tag_quoted {d : Int} {u r : List Char} (h : Quoted u) :
    tagScan ⟨d, .quote⟩ (u ++ '"' :: r) =
      (u ++ '"' :: (tagScan ⟨d, .plain⟩ r).1, (tagScan ⟨d, .plain⟩ r).2) := by
  induction h with
  | nil => simp [tagScan, next]
  | char h1 h2 _ ih => simp [tagScan, next, h1, h2, ih]
  | esc _ ih => simp [tagScan, next, ih]

theorem tag_text {P : Char → Prop} {t : List Char} (h : Text P t) :
    ∀ {d : Int}, 0 ≤ d → (d = 0 → ¬ P '"') → ∀ r, tagScan ⟨d, .plain⟩ (t ++ r) =
      (t ++ (tagScan ⟨d, .plain⟩ r).1, (tagScan ⟨d, .plain⟩ r).2) := by
  induction h with
  | nil => intro d _ _ r; rfl
  | @char P c t h hP _ ih =>
    intro d hd hs r
    have hc : c ≠ '"' := ((special_iff c).1 h).1
    simp [tagScan, hc, next_char h, ih hd hs]
  | @quoted P u t hq hu _ ih =>
    intro d hd hs r
    have e : next ⟨d, .plain⟩ '"' = ⟨d, .quote⟩ := by simp [next]
    have hd' : ¬ d = 0 := fun h => hs h hq
    simp only [List.cons_append, List.append_assoc, tagScan, hd', and_false, if_false, e,
      tag_quoted hu, ih hd hs]
  | @group P o c i t hp _ _ ih1 ih2 =>
    intro d hd hs r
    obtain ⟨e1, e2, _, h1, _, h2, _⟩ := next_open (d := d) hp
    simp only [List.cons_append, List.append_assoc, tagScan, h1, h2, false_and, and_false, if_false,
      e1, ih1 (show (0 : Int) ≤ d + 1 by omega) (fun h => by omega), e2, ih2 hd hs]

theorem text_append {P : Char → Prop} {a b : List Char} (ha : Text P a) (hb : Text P b) :
    Text P (a ++ b) := by
  induction ha with
  | nil => exact hb
  | char h1 h2 _ ih => exact .char h1 h2 (ih hb)
  | quoted h1 h2 _ ih =>
    simp only [List.cons_append, List.append_assoc]; exact .quoted h1 h2 (ih hb)
  | group h1 h2 _ _ ih =>
    simp only [List.cons_append, List.append_assoc]; exact .group h1 h2 (ih hb)

theorem text_mono {P Q : Char → Prop} (h : ∀ c, P c → Q c) {t : List Char} (ht : Text P t) :
    Text Q t := by
  induction ht with
  | nil => exact .nil
  | char h1 h2 _ ih => exact .char h1 (h _ h2) (ih h)
  | quoted h1 h2 _ ih => exact .quoted (h _ h1) h2 (ih h)
  | group h1 h2 _ _ ih => exact .group h1 h2 (ih h)

theorem text_name {P : Char → Prop} {n : List Char} (h : ∀ c ∈ n, c ∉ specials ∧ P c) :
    Text P n := by
  induction n with
  | nil => exact .nil
  | cons c r ih =>
    exact .char (h c (List.mem_cons_self ..)).1 (h c (List.mem_cons_self ..)).2
      (ih fun c hc => h c (List.mem_cons_of_mem _ hc))

/-- Name and type, without the tag. -/
def front (f : Field) : List Char :=
  (match f.name with | some n => n ++ [' '] | none => []) ++ f.ty

theorem front_text {f : Field} (h : Writable f) :
    Text (fun c => c ≠ ';' ∧ c ≠ '"') (front f) := by
  unfold front
  cases hn : f.name with
  | none => exact h.1.1
  | some n =>
    refine text_append (text_append (text_name ?_) (.char (by decide) (by decide) .nil)) h.1.1
    intro c hc
    obtain ⟨h1, _, h2⟩ := (h.2 n hn).2 c hc
    exact ⟨h1, h2, ((special_iff c).1 h1).1⟩

theorem print_eq (quote : List Char → List Char) (f : Field) :
    f.print quote = front f ++ (match f.tag with | some t => ' ' :: quote t | none => []) := rfl

theorem print_text {quote unquote} (hq : Quoting quote unquote) {f : Field} (h : Writable f) :
    Text (fun c => c ≠ ';') (f.print quote) := by
  rw [print_eq]
  refine text_append (text_mono (fun c h => h.1) (front_text h)) ?_
  cases f.tag with
  | none => exact .nil
  | some t =>
    obtain ⟨u, hu, e⟩ := hq.form t
    dsimp only
    rw [e]
    exact .char (by decide) (by decide) (.quoted (by decide) hu .nil)

theorem printFields_text {quote unquote} (hq : Quoting quote unquote) : ∀ {fs : List Field},
    (∀ f ∈ fs, Writable f) → Text (fun _ => True) (printFields quote fs)
  | [], _ => .nil
  | [f], h => text_mono (fun _ _ => trivial) (print_text hq (h f (List.mem_cons_self ..)))
  | f :: g :: r, h => by
    unfold printFields
    refine text_append (text_append (text_mono (fun _ _ => trivial)
      (print_text hq (h f (List.mem_cons_self ..)))) ?_)
      (printFields_text hq fun x hx => h x (List.mem_cons_of_mem _ hx))
    exact .char (by decide) trivial (.char (by decide) trivial .nil)

theorem trim_id {t : List Char} (h1 : ∃ c r, t = c :: r ∧ isSpace c = false)
    (h2 : ∃ c r, t = r ++ [c] ∧ isSpace c = false) : trim t = t := by
  obtain ⟨c, r, h, hc⟩ := h1
  obtain ⟨c', r', h', hc'⟩ := h2
  unfold trim
  rw [show t.dropWhile isSpace = t by rw [h]; simp [hc]]
  rw [h']
  simp [hc']

theorem trim_space_left {t : List Char} : trim (' ' :: t) = trim t := by
  unfold trim
  simp [isSpace]

theorem trim_space_right {t : List Char} (h : ∃ c r, t = r ++ [c] ∧ isSpace c = false) :
    trim (t ++ [' ']) = trim t := by
  obtain ⟨c, r, rfl, hc⟩ := h
  unfold trim
  have h1 : ∀ x : List Char, (r ++ [c] ++ x).dropWhile isSpace = (r ++ [c]).dropWhile isSpace ++ x := by
    intro x
    induction r with
    | nil => simp [hc]
    | cons a r ih =>
      simp only [List.cons_append, List.dropWhile_cons]
      split
      · exact ih
      · simp
  rw [h1]
  simp [isSpace]

theorem front_ends {f : Field} (h : Writable f) :
    (∃ c r, front f = c :: r ∧ isSpace c = false) ∧ ∃ c r, front f = r ++ [c] ∧ isSpace c = false := by
  obtain ⟨⟨_, h1, h2⟩, hn⟩ := h
  obtain ⟨c', r', h2, hc'⟩ := h2
  unfold front
  constructor
  · cases hf : f.name with
    | none => simpa using h1
    | some n =>
      obtain ⟨hne, hall⟩ := hn n hf
      cases n with
      | nil => exact absurd rfl hne
      | cons c r =>
        refine ⟨c, r ++ [' '] ++ f.ty, by simp, (hall c (List.mem_cons_self ..)).2.1⟩
  · exact ⟨c', _ ++ r', by rw [h2, List.append_assoc], hc'⟩

theorem print_ends {quote unquote} (hq : Quoting quote unquote) {f : Field} (h : Writable f) :
    (∃ c r, f.print quote = c :: r ∧ isSpace c = false) ∧
      ∃ c r, f.print quote = r ++ [c] ∧ isSpace c = false := by
  obtain ⟨⟨c, r, h1, hc⟩, h2⟩ := front_ends h
  rw [print_eq]
  refine ⟨⟨c, _, by rw [h1]; rfl, hc⟩, ?_⟩
  cases f.tag with
  | none => simpa using h2
  | some t =>
    obtain ⟨u, _, e⟩ := hq.form t
    exact ⟨'"', front f ++ ' ' :: '"' :: u, by simp [e], by decide⟩

theorem parts_fields {quote unquote} (hq : Quoting quote unquote) : ∀ (f : Field) (fs : List Field),
    (∀ g ∈ f :: fs, Writable g) → ∀ pre : List Char, pre = [] ∨ pre = [' '] →
    (parts ';' ⟨0, .plain⟩ (pre ++ printFields quote (f :: fs))).map trim =
      (f :: fs).map (Field.print quote)
  | f, [], h, pre, hp => by
    have hf := h f (List.mem_cons_self ..)
    have e : parts ';' ⟨0, .plain⟩ (pre ++ f.print quote) = [pre ++ f.print quote] := by
      have : Text (fun c => c ≠ ';') (pre ++ f.print quote) := by
        refine text_append ?_ (print_text hq hf)
        rcases hp with rfl | rfl
        · exact .nil
        · exact .char (by decide) (by decide) .nil
      have := parts_text this (d := 0) (by omega) (fun _ c h => h) []
      simpa [parts, onHeads] using this
    obtain ⟨h1, h2⟩ := print_ends hq hf
    simp only [printFields, e, List.map_cons, List.map_nil]
    rcases hp with rfl | rfl
    · rw [List.nil_append, trim_id h1 h2]
    · rw [List.singleton_append, trim_space_left, trim_id h1 h2]
  | f, g :: r, h, pre, hp => by
    have hf := h f (List.mem_cons_self ..)
    have ht : Text (fun c => c ≠ ';') (pre ++ f.print quote) := by
      refine text_append ?_ (print_text hq hf)
      rcases hp with rfl | rfl
      · exact .nil
      · exact .char (by decide) (by decide) .nil
    obtain ⟨h1, h2⟩ := print_ends hq hf
    have ih := parts_fields hq g r (fun x hx => h x (List.mem_cons_of_mem _ hx)) [' '] (Or.inr rfl)
    have e := parts_text ht (d := 0) (by omega) (fun _ c h => h)
      (';' :: ([' '] ++ printFields quote (g :: r)))
    have e2 : parts ';' ⟨0, .plain⟩ (';' :: ([' '] ++ printFields quote (g :: r))) =
        [] :: parts ';' ⟨0, .plain⟩ ([' '] ++ printFields quote (g :: r)) := by
      simp [parts]
    rw [e2] at e
    have e3 : pre ++ printFields quote (f :: g :: r) =
        (pre ++ f.print quote) ++ ';' :: ([' '] ++ printFields quote (g :: r)) := by
      simp [printFields]
    rw [e3, e]
    simp only [onHeads, List.append_nil, List.map_cons, ih]
    congr 1
    rcases hp with rfl | rfl
    · rw [List.nil_append, trim_id h1 h2]
    · rw [List.singleton_append, trim_space_left, trim_id h1 h2]

/-- What is to be read of a field. -/
def Field.read (f : Field) : Option Read := f.name.map fun n => ⟨n, f.ty, f.tag.getD []⟩

theorem nameAndType_front {f : Field} (h : Writable f)
    (he : f.name = none → ' ' ∉ f.ty) (tag : List Char) :
    nameAndType (front f) tag = f.name.map fun n => ⟨n, f.ty, tag⟩ := by
  unfold nameAndType front
  cases hn : f.name with
  | none => simp [he hn]
  | some n =>
    have hnm := h.2 n hn
    have hns : ∀ c ∈ n, c ≠ ' ' := by
      intro c hc e
      have := (hnm.2 c hc).2.1
      simp [e, isSpace] at this
    have e1 : (n ++ [' '] ++ f.ty).takeWhile (· ≠ ' ') = n := by
      rw [List.append_assoc]
      rw [List.takeWhile_append_of_pos (by intro c hc; simpa using hns c hc)]
      simp
    have e2 : (n ++ [' '] ++ f.ty).dropWhile (· ≠ ' ') = ' ' :: f.ty := by
      rw [List.append_assoc]
      rw [List.dropWhile_append_of_pos (by intro c hc; simpa using hns c hc)]
      simp
    have e3 : ' ' ∈ n ++ [' '] ++ f.ty := by simp
    simp only [e1, e2, e3, if_true, List.drop_succ_cons, List.drop_zero, Option.map_some]
    rw [trim_id h.1.2.1 h.1.2.2]

theorem parse_print {quote unquote} (hq : Quoting quote unquote) {f : Field} (h : Writable f)
    (he : f.name = none → ' ' ∉ f.ty) :
    parseAnonField unquote (f.print quote) = f.read := by
  obtain ⟨h1, h2⟩ := print_ends hq h
  obtain ⟨f1, f2⟩ := front_ends h
  unfold parseAnonField Field.read
  rw [trim_id h1 h2, print_eq]
  have hno : (0 : Int) = 0 → ¬ (fun c => c ≠ ';' ∧ c ≠ '"') '"' := fun _ h => h.2 rfl
  rw [tag_text (front_text h) (d := 0) (by omega) hno]
  cases hg : f.tag with
  | none =>
    simp only [tagScan, List.append_nil, Option.getD_none]
    exact nameAndType_front h he []
  | some t =>
    obtain ⟨u, hu, e⟩ := hq.form t
    have : tagScan ⟨0, .plain⟩ (' ' :: quote t) = ([' '], some (quote t)) := by
      rw [e]
      simp [tagScan, next]
    simp only [this, hq.back t, Option.getD_some]
    rw [trim_space_right f2, trim_id f1 f2]
    exact nameAndType_front h he t

theorem afterStruct_first : ∀ {pre rest : List Char},
    (∀ a b, pre ++ ['s', 't', 'r', 'u', 'c', 't'] ≠ a ++ ['s', 't', 'r', 'u', 'c', 't', '{'] ++ b) →
    afterStruct (pre ++ ['s', 't', 'r', 'u', 'c', 't', '{'] ++ rest) = some rest
  | [], rest, _ => by simp [afterStruct, structOpen]
  | c :: pre, rest, h => by
    have ih := afterStruct_first (pre := pre) (rest := rest)
      (fun a b e => h (c :: a) b (by simp [e]))
    simp only [List.cons_append, afterStruct]
    split
    · rename_i hp
      exfalso
      rw [List.isPrefixOf_iff_prefix] at hp
      obtain ⟨t, ht⟩ := hp
      simp only [structOpen, List.cons_append, List.nil_append, List.append_assoc,
        List.cons.injEq] at ht
      obtain ⟨rfl, ht⟩ := ht
      rcases pre with _ | ⟨c1, pre⟩
      · simp at ht
      simp only [List.cons_append, List.cons.injEq] at ht
      obtain ⟨rfl, ht⟩ := ht
      rcases pre with _ | ⟨c2, pre⟩
      · simp at ht
      simp only [List.cons_append, List.cons.injEq] at ht
      obtain ⟨rfl, ht⟩ := ht
      rcases pre with _ | ⟨c3, pre⟩
      · simp at ht
      simp only [List.cons_append, List.cons.injEq] at ht
      obtain ⟨rfl, ht⟩ := ht
      rcases pre with _ | ⟨c4, pre⟩
      · simp at ht
      simp only [List.cons_append, List.cons.injEq] at ht
      obtain ⟨rfl, ht⟩ := ht
      rcases pre with _ | ⟨c5, pre⟩
      · simp at ht
      simp only [List.cons_append, List.cons.injEq] at ht
      obtain ⟨rfl, ht⟩ := ht
      rcases pre with _ | ⟨c6, pre⟩
      · simp at ht
      simp only [List.cons_append, List.cons.injEq] at ht
      obtain ⟨rfl, ht⟩ := ht
      exact h [] (pre ++ ['s', 't', 'r', 'u', 'c', 't']) (by simp)
    · simpa using ih

theorem filterMap_congr_mem {α β} {f g : α → Option β} : ∀ {l : List α},
    (∀ x ∈ l, f x = g x) → l.filterMap f = l.filterMap g
  | [], _ => rfl
  | a :: l, h => by
    rw [List.filterMap_cons, List.filterMap_cons, h a (List.mem_cons_self ..),
      filterMap_congr_mem fun x hx => h x (List.mem_cons_of_mem _ hx)]

/-! ## Theorems -/

/-- **C77.**  From the text of an inline struct, with anything before it that does not
itself contain one and anything after it, exactly the named fields are read, in order,
each with its type and its tag, however types and tags nest; embedded types are left out,
if there is no blank in their text. -/
theorem C77_fields_partial {quote : List Char → List Char} {unquote : List Char → Option (List Char)}
    (hq : Quoting quote unquote) {fs : List Field} (hw : ∀ f ∈ fs, Writable f)
    (he : ∀ f ∈ fs, f.name = none → ' ' ∉ f.ty) {pre post : List Char}
    (hp : ∀ a b, pre ++ ['s', 't', 'r', 'u', 'c', 't'] ≠
      a ++ ['s', 't', 'r', 'u', 'c', 't', '{'] ++ b) :
    fields unquote (pre ++ printStruct quote fs ++ post) =
      some (fs.filterMap fun f => f.name.map fun n => ⟨n, f.ty, f.tag.getD []⟩) := by
  have e : pre ++ printStruct quote fs ++ post =
      pre ++ ['s', 't', 'r', 'u', 'c', 't', '{'] ++ (printFields quote fs ++ '}' :: post) := by
    simp [printStruct]
  have e2 : bodyScan ⟨1, .plain⟩ (printFields quote fs ++ '}' :: post) =
      some (printFields quote fs) := by
    rw [body_text (printFields_text hq hw) (by omega)]
    simp [bodyScan]
  unfold fields anonStructBody
  rw [e, afterStruct_first hp]
  simp only [Option.bind_some, e2, Option.map_some, Option.some.injEq]
  unfold splitTopLevel
  cases fs with
  | nil => simp [printFields, parts, trim, parseAnonField, tagScan, nameAndType]
  | cons f r =>
    have := parts_fields hq f r hw [] (Or.inl rfl)
    rw [List.nil_append] at this
    rw [this, List.filterMap_map]
    exact filterMap_congr_mem fun x hx => parse_print hq (hw x hx) (he x hx)

/-! ### The hypotheses are met -/

/-- `strconv.Quote`, as far as a tag needs it. -/
def exQuote (t : List Char) : List Char :=
  '"' :: (t.flatMap (fun c => if c = '"' ∨ c = '\\' then ['\\', c] else [c]) ++ ['"'])

def exUnesc : List Char → List Char
  | '\\' :: c :: r => c :: exUnesc r
  | c :: r => c :: exUnesc r
  | [] => []

def exUnquote (q : List Char) : Option (List Char) := some (exUnesc (q.drop 1).dropLast)

example : Quoting exQuote exUnquote where
  form t := by
    refine ⟨_, ?_, rfl⟩
    induction t with
    | nil => exact .nil
    | cons c r ih =>
      rw [List.flatMap_cons]
      split
      · exact .esc ih
      · rename_i h
        exact .char (fun e => h (Or.inl e)) (fun e => h (Or.inr e)) ih
  back t := by
    unfold exUnquote exQuote
    rw [List.drop_succ_cons, List.drop_zero, List.dropLast_concat]
    congr 1
    induction t with
    | nil => rfl
    | cons c r ih =>
      rw [List.flatMap_cons]
      split
      · simp [exUnesc, ih]
      · rename_i h
        have : c ≠ '\\' := fun e => h (Or.inr e)
        simp [exUnesc, ih, this]

/-- `Items []struct{ID int "json:\"id\""; Tags map[string]string}` with a tag. -/
def exItems : Field where
  name := some "Items".toList
  ty := "[]struct{ID int \"json:\\\"id\\\"\"; Tags map[string]string}".toList
  tag := some "json:\"items\" validate:\"min=1\"".toList

/-- An embedded `*shop.Base`. -/
def exBase : Field where
  name := none
  ty := "*shop.Base".toList
  tag := none

example : fields exUnquote ("pkg.".toList ++ printStruct exQuote [exItems, exBase] ++ ")".toList) =
    some [⟨"Items".toList, exItems.ty, "json:\"items\" validate:\"min=1\"".toList⟩] := by
  decide +kernel

/-- Such fields are writable: `Rows []struct{A int; B string}`. -/
example : Writable ⟨some "Rows".toList, "[]struct{A int; B string}".toList, none⟩ := by
  refine ⟨⟨?_, ⟨'[', "]struct{A int; B string}".toList, by decide, by decide⟩,
    ⟨'}', "[]struct{A int; B string".toList, by decide, by decide⟩⟩, ?_⟩
  · have h1 : Text (fun c => c ≠ ';' ∧ c ≠ '"') "struct".toList := text_name (by decide)
    have h2 : Text (fun _ => True) "A int; B string".toList :=
      text_name (by intro c hc; exact ⟨(show ∀ c ∈ "A int; B string".toList, c ∉ specials by decide) c hc, trivial⟩)
    have h3 := Text.group (P := fun c => c ≠ ';' ∧ c ≠ '"') (o := '{') (c := '}') (by decide) h2 .nil
    have h4 := Text.group (P := fun c => c ≠ ';' ∧ c ≠ '"') (o := '[') (c := ']') (by decide)
      (Text.nil (P := fun _ => True)) (text_append h1 h3)
    exact h4
  · intro n hn
    simp only [Option.some.injEq] at hn
    subst hn
    exact ⟨by decide, by decide⟩

/-! ### Where the code falls short -/

/-- **C77, the failure for generic embedded types.**  An embedded `Base[struct{A int}]` is
taken for a field called `Base[struct{A`. -/
theorem C77_embedded_generic :
    fields exUnquote (printStruct exQuote [⟨none, "Base[struct{A int}]".toList, none⟩]) =
      some [⟨"Base[struct{A".toList, "int}]".toList, []⟩] := by
  decide +kernel

end Verif.AnonStruct
