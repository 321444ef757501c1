import Verif.TagsModel
/-!
# Properties: JSON names (C49)
-/

namespace Verif.TagsModel

/-! ## Specification -/

/-- One `key:"value"` of a conventional tag. -/
structure Pair where
  key : List Char
  value : List Char

/-- Keys are nonempty and of key characters; values are written without quotes and backslashes. -/
def Pair.ok (p : Pair) : Prop := p.key ≠ [] ∧ (∀ c ∈ p.key, keyChar c = true) ∧ (∀ c ∈ p.value, c ≠ '"' ∧ c ≠ '\\')

def Pair.text (p : Pair) : List Char := p.key ++ ':' :: '"' :: p.value ++ ['"']

/-- The conventional tag: pairs separated by spaces. -/
def tagText : List Pair → List Char
  | [] => []
  | [p] => p.text
  | p :: q :: ps => p.text ++ ' ' :: tagText (q :: ps)

/-- The value of the first pair with a key. -/
def valueOf (key : List Char) : List Pair → Option (List Char)
  | [] => none
  | p :: ps => if p.key = key then some p.value else valueOf key ps

/-- encoding/json: `-` omits the field; otherwise the part before the comma is the name, if there is one. -/
def jsonProperty (field : List Char) : Option (List Char) → Option (List Char)
  | none => some field
  | some v => if v = ['-'] then none else some (if v.takeWhile (· != ',') = [] then field else v.takeWhile (· != ','))

/-- `sub` is somewhere in `s`. -/
def Within (sub s : List Char) : Prop := ∃ a b, s = a ++ sub ++ b

/-! ## Lookup -/

theorem dropWhile_append_stop {α : Type} (p : α → Bool) : ∀ (a : List α) (c : α) (b : List α), (∀ x ∈ a, p x = true) → p c = false →
    (a ++ c :: b).dropWhile p = c :: b ∧ (a ++ c :: b).takeWhile p = a
  | [], c, b, _, hc => by simp [hc]
  | x :: a, c, b, ha, hc => by
    obtain ⟨h1, h2⟩ := dropWhile_append_stop p a c b (fun y hy => ha y (List.mem_cons_of_mem _ hy)) hc
    have hx := ha x (List.mem_cons_self ..)
    simp [hx, h1, h2]

theorem dropWhile_all {α : Type} (p : α → Bool) : ∀ (a : List α), (∀ x ∈ a, p x = true) → a.dropWhile p = []
  | [], _ => rfl
  | x :: a, h => by rw [List.dropWhile_cons_of_pos (h x (List.mem_cons_self ..))]; exact dropWhile_all p a (fun y hy => h y (List.mem_cons_of_mem _ hy))

theorem scanQuoted_plain : ∀ (v rest : List Char), (∀ c ∈ v, c ≠ '"' ∧ c ≠ '\\') → scanQuoted (v ++ '"' :: rest) = some (v ++ ['"'], rest)
  | [], rest, _ => rfl
  | c :: v, rest, h => by
    have hc := h c (List.mem_cons_self ..)
    have ih := scanQuoted_plain v rest (fun x hx => h x (List.mem_cons_of_mem _ hx))
    rw [List.cons_append, scanQuoted.eq_4 _ _ hc.1 (fun _ _ e => absurd e hc.2), ih]
    rfl

theorem keyChar_space : keyChar ' ' = false := by decide
theorem keyChar_colon : keyChar ':' = false := by decide

theorem nextPair_text (sp : List Char) (p : Pair) (rest : List Char) (hsp : ∀ c ∈ sp, c = ' ') (hp : p.ok) :
    nextPair (sp ++ (p.text ++ rest)) = some (p.key, '"' :: (p.value ++ ['"']), rest) := by
  obtain ⟨hk, hkc, hv⟩ := hp
  obtain ⟨k, ks, hks⟩ : ∃ k ks, p.key = k :: ks := by
    cases h : p.key with
    | nil => exact absurd h hk
    | cons k ks => exact ⟨k, ks, rfl⟩
  have hk1 : (k == ' ') = false := by
    have h1 := hkc k (by rw [hks]; exact List.mem_cons_self ..)
    cases h2 : k == ' ' with
    | false => rfl
    | true => rw [eq_of_beq h2, keyChar_space] at h1; cases h1
  have e : sp ++ (p.text ++ rest) = sp ++ k :: (ks ++ ':' :: '"' :: (p.value ++ '"' :: rest)) := by
    rw [Pair.text, hks]; simp
  have d : (sp ++ (p.text ++ rest)).dropWhile (· == ' ') = p.key ++ ':' :: '"' :: (p.value ++ '"' :: rest) := by
    rw [e, (dropWhile_append_stop (· == ' ') sp k _ (fun c hc => by simp [hsp c hc]) hk1).1, hks]
    rfl
  have d2 := dropWhile_append_stop keyChar p.key ':' ('"' :: (p.value ++ '"' :: rest)) hkc keyChar_colon
  rw [nextPair, d, d2.1, d2.2]
  simp only
  rw [if_neg hk, scanQuoted_plain _ _ hv]
  rfl

theorem tagText_cons (p : Pair) : ∀ (ps : List Pair), ∃ sp, (∀ c ∈ sp, c = ' ') ∧ tagText (p :: ps) = p.text ++ (sp ++ tagText ps)
  | [] => ⟨[], fun _ h => absurd h (List.not_mem_nil), by simp [tagText]⟩
  | q :: ps => ⟨[' '], fun c h => by simpa using h, by simp [tagText]⟩

theorem text_length (p : Pair) : 1 ≤ p.text.length := by simp only [Pair.text, List.length_append, List.length_cons]; omega

/-- Lookup finds the value of the key in a conventional tag. -/
theorem lookupF_tag (unquote : List Char → Option (List Char)) (hq : ∀ v, (∀ c ∈ v, c ≠ '"' ∧ c ≠ '\\') → unquote ('"' :: (v ++ ['"'])) = some v)
    (key : List Char) : ∀ (ps : List Pair) (sp : List Char) (n : Nat), (∀ c ∈ sp, c = ' ') → (∀ p ∈ ps, p.ok) → (tagText ps).length ≤ n →
      lookupF unquote key n (sp ++ tagText ps) = valueOf key ps
  | [], sp, n, hsp, _, hn => by
    cases n with
    | zero => rfl
    | succ n =>
      have : nextPair (sp ++ tagText []) = none := by
        have : (sp ++ tagText []).dropWhile (· == ' ') = [] := by
          rw [tagText, List.append_nil]
          exact dropWhile_all _ sp (fun x hx => by simp [hsp x hx])
        rw [nextPair, this]; rfl
      rw [lookupF, this]; rfl
  | p :: ps, sp, n, hsp, hps, hn => by
    obtain ⟨sp', hsp', e⟩ := tagText_cons p ps
    cases n with
    | zero => rw [e, List.length_append] at hn; have := text_length p; omega
    | succ n =>
      have ih := lookupF_tag unquote hq key ps sp' n hsp' (fun q hq => hps q (List.mem_cons_of_mem _ hq)) (by
        rw [e, List.length_append, List.length_append] at hn; have := text_length p; omega)
      rw [lookupF, e, nextPair_text sp p _ hsp (hps p (List.mem_cons_self ..))]
      simp only
      rw [valueOf, ih]
      split
      · rw [hq _ (hps p (List.mem_cons_self ..)).2.2]
      · rfl

theorem lookup_tag (unquote : List Char → Option (List Char)) (hq : ∀ v, (∀ c ∈ v, c ≠ '"' ∧ c ≠ '\\') → unquote ('"' :: (v ++ ['"'])) = some v)
    (key : List Char) (ps : List Pair) (hps : ∀ p ∈ ps, p.ok) : lookup unquote key (tagText ps) = valueOf key ps :=
  lookupF_tag unquote hq key ps [] _ (fun _ h => absurd h List.not_mem_nil) hps (Nat.le_refl _)

/-! ## Cutting -/

theorem cut_none {sep : List Char} (hs : sep ≠ []) : ∀ {s : List Char}, ¬ Within sep s → cut sep s = none
  | [], _ => by rw [cut, if_neg hs]
  | c :: cs, h => by
    rw [cut, if_neg, cut_none hs]
    · rfl
    · rintro ⟨a, b, e⟩; exact h ⟨c :: a, b, by rw [e]; rfl⟩
    · intro hp
      obtain ⟨t, ht⟩ := List.isPrefixOf_iff_prefix.mp hp
      exact h ⟨[], t, by rw [← ht]; rfl⟩

/-- The first occurrence is after `pre`, which has none and ends with a character that is not in `sep`. -/
theorem cut_at {sep : List Char} (hs : sep ≠ []) : ∀ (pre post : List Char), ¬ Within sep pre → (∀ c, pre.getLast? = some c → c ∉ sep) →
    cut sep (pre ++ (sep ++ post)) = some (pre, post)
  | [], post, _, _ => by
    obtain ⟨x, xs, rfl⟩ : ∃ x xs, sep = x :: xs := by cases sep with | nil => exact absurd rfl hs | cons x xs => exact ⟨x, xs, rfl⟩
    rw [List.nil_append, List.cons_append, cut, if_pos]
    · simp
    · rw [List.isPrefixOf_iff_prefix, ← List.cons_append]; exact List.prefix_append ..
  | c :: pre, post, h, hl => by
    have np : ¬ sep.isPrefixOf (c :: (pre ++ (sep ++ post))) = true := by
      intro hp
      obtain ⟨t, ht⟩ := List.isPrefixOf_iff_prefix.mp hp
      have ht : sep ++ t = (c :: pre) ++ (sep ++ post) := ht
      rcases List.append_eq_append_iff.mp ht with ⟨a, ha, _⟩ | ⟨a, ha, _⟩
      · exact h ⟨[], a, ha⟩
      · obtain ⟨z, hz⟩ : ∃ z, (c :: pre).getLast? = some z := ⟨_, List.getLast?_cons ..⟩
        exact hl z hz (by rw [ha]; exact List.mem_append_left _ (List.mem_of_getLast? hz))
    have ih := cut_at hs pre post (by rintro ⟨a, b, e⟩; exact h ⟨c :: a, b, by rw [e]; rfl⟩) (by
      intro z hz
      apply hl z
      cases pre with
      | nil => cases hz
      | cons y ys => simpa using hz)
    rw [List.cons_append, cut, if_neg np, ih]
    rfl

theorem cut_some {sep : List Char} : ∀ {s : List Char} {r : List Char × List Char}, cut sep s = some r → s = r.1 ++ sep ++ r.2
  | [], r, h => by
    rw [cut] at h
    split at h
    · next e => cases h; simp [e]
    · cases h
  | c :: cs, r, h => by
    rw [cut] at h
    split at h
    · next hp =>
      obtain ⟨t, ht⟩ := List.isPrefixOf_iff_prefix.mp hp
      cases h
      simp only [List.nil_append]
      rw [← ht, List.drop_left]
    · cases hc : cut sep cs with
      | none => rw [hc] at h; cases h
      | some r' =>
        rw [hc] at h
        cases h
        simp only [List.cons_append]
        rw [← cut_some hc]

theorem takeWhile_all {α : Type} (p : α → Bool) : ∀ (a b : List α), (∀ x ∈ a, p x = true) → (b = [] ∨ ∃ c r, b = c :: r ∧ p c = false) → (a ++ b).takeWhile p = a
  | [], b, _, hb => by
    rcases hb with rfl | ⟨c, r, rfl, hc⟩
    · rfl
    · rw [List.nil_append, List.takeWhile_cons_of_neg]; simp [hc]
  | x :: a, b, ha, hb => by
    rw [List.cons_append, List.takeWhile_cons_of_pos (ha x (List.mem_cons_self ..)), takeWhile_all p a b (fun y hy => ha y (List.mem_cons_of_mem _ hy)) hb]

theorem jsonColon_eq : jsonColon = jsonKey ++ [':'] := rfl
theorem jsonColon_ne : jsonColon ≠ [] := by decide

/-- Up to the first space, the part after `json:` is the quoted value. -/
theorem part_value (w rest : List Char) (hw : ∀ c ∈ w, c ≠ ' ') (hj : ¬ Within jsonColon w) (hr : rest = [] ∨ ∃ r, rest = ' ' :: r) :
    upTo ' ' (before jsonColon (w ++ rest)) = w := by
  unfold before
  have hw' : ∀ x ∈ w, (fun c => c != ' ') x = true := fun x hx => by simp [hw x hx]
  cases hc : cut jsonColon (w ++ rest) with
  | none =>
    refine takeWhile_all _ w rest hw' ?_
    rcases hr with h | ⟨r, h⟩
    · exact .inl h
    · exact .inr ⟨' ', r, h, rfl⟩
  | some x =>
    have e := cut_some hc
    rw [List.append_assoc] at e
    simp only
    rcases List.append_eq_append_iff.mp e with ⟨a, ha, hb⟩ | ⟨a, ha, hb⟩
    · rw [ha]
      refine takeWhile_all _ w a hw' ?_
      cases a with
      | nil => exact .inl rfl
      | cons c a =>
        rcases hr with rfl | ⟨r, rfl⟩
        · cases hb
        · injection hb with h1 h2
          exact .inr ⟨c, a, rfl, by rw [← h1]; rfl⟩
    · rcases List.append_eq_append_iff.mp hb with ⟨b, hb1, hb2⟩ | ⟨b, hb1, hb2⟩
      · exact absurd ⟨x.1, b, by rw [ha, hb1, List.append_assoc]⟩ hj
      · cases b with
        | nil => exact absurd ⟨x.1, [], by rw [ha, hb1]; simp⟩ hj
        | cons c b =>
          rcases hr with rfl | ⟨r, rfl⟩
          · cases hb2
          · injection hb2 with h1 h2
            exfalso
            have : ' ' ∈ jsonColon := by rw [hb1, h1]; exact List.mem_append_right _ (List.mem_cons_self ..)
            exact absurd this (by decide)

theorem dropWhile_head {α : Type} (p : α → Bool) (c : α) (r : List α) (h : p c = false) : (c :: r).dropWhile p = c :: r := by
  rw [List.dropWhile_cons_of_neg]; simp [h]

theorem trimQuotes_value (v : List Char) (hv : ∀ c ∈ v, c ≠ '"') : trimQuotes ('"' :: (v ++ ['"'])) = v := by
  unfold trimQuotes
  have q : ∀ c, c ≠ '"' → (c == '"') = false := fun c h => by simp [h]
  rw [List.dropWhile_cons_of_pos (a := '"') (by rfl)]
  cases v with
  | nil => rfl
  | cons c v =>
    rw [List.cons_append, dropWhile_head (· == '"') _ _ (q c (hv c (List.mem_cons_self ..))), ← List.cons_append, List.reverse_append]
    rw [show (['"'] : List Char).reverse = ['"'] from rfl, List.singleton_append, List.dropWhile_cons_of_pos (a := '"') (by rfl)]
    rcases List.eq_nil_or_concat (c :: v) with h | ⟨l, z, h⟩
    · cases h
    · rw [List.concat_eq_append] at h
      rw [h, List.reverse_append, show ([z] : List Char).reverse = [z] from rfl, List.singleton_append, dropWhile_head (· == '"') _ _ (q z (hv z (by rw [h]; simp)))]
      simp

/-- A tag split at one of its pairs. -/
theorem tagText_split (p : Pair) (post : List Pair) : ∀ (pre : List Pair), ∃ sp rest, tagText (pre ++ p :: post) = (tagText pre ++ sp) ++ (p.text ++ rest) ∧
    (pre = [] → sp = []) ∧ (pre ≠ [] → sp = [' ']) ∧ (rest = [] ∨ ∃ r, rest = ' ' :: r)
  | [] => by
    cases post with
    | nil => exact ⟨[], [], by simp [tagText], fun _ => rfl, fun h => absurd rfl h, .inl rfl⟩
    | cons q post => exact ⟨[], ' ' :: tagText (q :: post), by simp [tagText], fun _ => rfl, fun h => absurd rfl h, .inr ⟨_, rfl⟩⟩
  | [x] => by
    obtain ⟨sp, rest, h1, h2, h3, h4⟩ := tagText_split p post []
    refine ⟨[' '], rest, ?_, fun h => absurd h (by simp), fun _ => rfl, h4⟩
    rw [List.nil_append] at h1
    show x.text ++ ' ' :: tagText (p :: post) = _
    rw [h1, h2 rfl]; simp [tagText]
  | x :: y :: pre => by
    obtain ⟨sp, rest, h1, h2, h3, h4⟩ := tagText_split p post (y :: pre)
    refine ⟨sp, rest, ?_, fun h => absurd h (by simp), fun _ => h3 (by simp), h4⟩
    show x.text ++ ' ' :: tagText ((y :: pre) ++ p :: post) = _
    rw [h1]; simp [tagText]

theorem within_key {p : Pair} (hp : p.key = jsonKey) : Within jsonColon p.text := ⟨[], '"' :: p.value ++ ['"'], by rw [Pair.text, hp]; rfl⟩

theorem within_tag {p : Pair} {ps : List Pair} (h : p ∈ ps) (hp : p.key = jsonKey) : Within jsonColon (tagText ps) := by
  obtain ⟨a, b, rfl⟩ := List.append_of_mem h
  obtain ⟨sp, rest, e, _⟩ := tagText_split p b a
  obtain ⟨x, y, e'⟩ := within_key hp
  exact ⟨tagText a ++ sp ++ x, y ++ rest, by rw [e, e']; simp⟩

theorem valueOf_none {key : List Char} : ∀ {ps : List Pair}, (∀ p ∈ ps, p.key ≠ key) → valueOf key ps = none
  | [], _ => rfl
  | p :: ps, h => by
    rw [valueOf, if_neg (h p (List.mem_cons_self ..))]
    exact valueOf_none fun q hq => h q (List.mem_cons_of_mem _ hq)

theorem valueOf_split {key : List Char} (p : Pair) (post : List Pair) (hp : p.key = key) : ∀ {pre : List Pair}, (∀ q ∈ pre, q.key ≠ key) → valueOf key (pre ++ p :: post) = some p.value
  | [], _ => by rw [List.nil_append, valueOf, if_pos hp]
  | q :: pre, h => by
    rw [List.cons_append, valueOf, if_neg (h q (List.mem_cons_self ..))]
    exact valueOf_split p post hp fun r hr => h r (List.mem_cons_of_mem _ hr)

/-- What extractJSONName finds. -/
theorem extract_split (pre post : List Pair) (p : Pair) (hp : p.ok) (hk : p.key = jsonKey) (hpre : ¬ Within jsonColon (tagText pre))
    (hsp : ' ' ∉ p.value) (hj : ¬ Within jsonColon p.value) :
    extractJSONName (tagText (pre ++ p :: post)) = if p.value.takeWhile (· != ',') = ['-'] then [] else p.value.takeWhile (· != ',') := by
  obtain ⟨sp, rest, e, h1, h2, h3⟩ := tagText_split p post pre
  have hw : ∀ c ∈ '"' :: (p.value ++ ['"']), c ≠ ' ' := by
    intro c hc
    rcases List.mem_cons.mp hc with rfl | hc
    · decide
    · rcases List.mem_append.mp hc with hc | hc
      · intro e; rw [e] at hc; exact hsp hc
      · rw [List.mem_singleton.mp hc]; decide
  have hjw : ¬ Within jsonColon ('"' :: (p.value ++ ['"'])) := by
    rintro ⟨a, b, ab⟩
    cases a with
    | nil => rw [jsonColon] at ab; injection ab with x _; exact absurd x (by decide)
    | cons x a =>
      injection ab with _ ab
      have ab : p.value ++ ['"'] = a ++ jsonColon ++ b := ab
      rcases List.eq_nil_or_concat b with rfl | ⟨l, z, rfl⟩
      · have := congrArg List.getLast? ab
        rw [List.append_nil, List.getLast?_append, List.getLast?_append] at this
        simp [jsonColon] at this
      · rw [List.concat_eq_append, ← List.append_assoc] at ab
        have := (List.append_inj' ab rfl).1
        exact hj ⟨a, l, this⟩
  have hpre' : ¬ Within jsonColon (tagText pre ++ sp) := by
    rcases Decidable.em (pre = []) with h | h
    · rw [h1 h, List.append_nil]; exact hpre
    · rw [h2 h]
      rintro ⟨a, b, ab⟩
      rcases List.eq_nil_or_concat b with rfl | ⟨l, z, rfl⟩
      · have := congrArg List.getLast? ab
        rw [List.append_nil, List.getLast?_append, List.getLast?_append] at this
        simp [jsonColon] at this
      · rw [List.concat_eq_append, ← List.append_assoc] at ab
        exact hpre ⟨a, l, (List.append_inj' ab rfl).1⟩
  have hlast : ∀ c, (tagText pre ++ sp).getLast? = some c → c ∉ jsonColon := by
    intro c hc
    rcases Decidable.em (pre = []) with h | h
    · rw [h1 h, h] at hc; cases hc
    · rw [h2 h, List.getLast?_append] at hc
      have : c = ' ' := by simpa using hc.symm
      rw [this]; decide
  have e2 : tagText (pre ++ p :: post) = (tagText pre ++ sp) ++ (jsonColon ++ (('"' :: (p.value ++ ['"'])) ++ rest)) := by
    rw [e, Pair.text, hk, jsonColon_eq]; simp
  unfold extractJSONName second
  rw [e2, cut_at jsonColon_ne _ _ hpre' hlast]
  simp only [Option.map_some]
  unfold nameIn
  rw [part_value _ _ hw hjw h3, trimQuotes_value _ (fun c hc => (hp.2.2 c hc).1)]
  rfl

/-- Go's Unquote on text without quotes and backslashes. -/
def PlainUnquote (unquote : List Char → Option (List Char)) : Prop :=
  ∀ v, (∀ c ∈ v, c ≠ '"' ∧ c ≠ '\\') → unquote ('"' :: (v ++ ['"'])) = some v

/-- **C49 (omitted).** A field has no property exactly when its json tag is `-`, whatever the other tags are. -/
theorem C49_omitted (unquote : List Char → Option (List Char)) (hq : PlainUnquote unquote) (field : List Char) (ps : List Pair) (hps : ∀ p ∈ ps, p.ok) :
    property unquote field (tagText ps) = none ↔ valueOf jsonKey ps = some ['-'] := by
  unfold property jsonFieldOmitted
  rw [lookup_tag unquote hq jsonKey ps hps]
  by_cases h : valueOf jsonKey ps = some ['-']
  · simp [h]
  · simp [h]

/-- **C49 (name, partial).** A field's property is what encoding/json makes of its json tag.  Missing: names
with spaces, the name `-`, and tags whose text has `json:` before or inside the json value. -/
theorem C49_name_partial (unquote : List Char → Option (List Char)) (hq : PlainUnquote unquote) (field : List Char) (pre post : List Pair) (p : Pair)
    (hps : ∀ q ∈ pre ++ p :: post, q.ok) (hk : p.key = jsonKey) (hpre : ¬ Within jsonColon (tagText pre))
    (hsp : ' ' ∉ p.value) (hj : ¬ Within jsonColon p.value) (hd : p.value.takeWhile (· != ',') = ['-'] → p.value = ['-']) :
    property unquote field (tagText (pre ++ p :: post)) = jsonProperty field (valueOf jsonKey (pre ++ p :: post)) := by
  have hv : valueOf jsonKey (pre ++ p :: post) = some p.value := valueOf_split p post hk fun q hq e => hpre (within_tag hq e)
  have hx := extract_split pre post p (hps p (by simp)) hk hpre hsp hj
  unfold property jsonFieldOmitted
  rw [lookup_tag unquote hq jsonKey _ hps, hv, hx, jsonProperty]
  by_cases h : p.value = ['-']
  · simp [h]
  · have h' : ¬ p.value.takeWhile (· != ',') = ['-'] := fun e => h (hd e)
    rw [if_neg h', if_neg h, if_neg (by simpa using h)]

/-- **C49 (no tag).** Without `json:` in its tag, a field keeps its name. -/
theorem C49_no_tag (unquote : List Char → Option (List Char)) (hq : PlainUnquote unquote) (field : List Char) (ps : List Pair) (hps : ∀ p ∈ ps, p.ok)
    (h : ¬ Within jsonColon (tagText ps)) :
    property unquote field (tagText ps) = some field ∧ valueOf jsonKey ps = none := by
  have hv : valueOf jsonKey ps = none := valueOf_none fun p hp e => h (within_tag hp e)
  refine ⟨?_, hv⟩
  unfold property jsonFieldOmitted
  rw [lookup_tag unquote hq jsonKey ps hps, hv]
  unfold extractJSONName second
  rw [cut_none jsonColon_ne h]
  rfl

/-- An unquote that is Go's on plain text. -/
def dropQuotes (q : List Char) : Option (List Char) := some (q.drop 1).dropLast

theorem dropQuotes_plain : PlainUnquote dropQuotes := by
  intro v _
  show some (v ++ ['"']).dropLast = some v
  rw [List.dropLast_concat]

/-- Non-vacuity: a field with a database tag before and a validation tag after. -/
def userTags : List Pair := [⟨"db".toList, "user_id".toList⟩, ⟨"json".toList, "id,omitempty".toList⟩, ⟨"validate".toList, "required".toList⟩]

example : tagText userTags = "db:\"user_id\" json:\"id,omitempty\" validate:\"required\"".toList := by decide
example : property dropQuotes "ID".toList (tagText userTags) = some "id".toList := by decide
example : property dropQuotes "ID".toList (tagText [⟨"json".toList, "-".toList⟩]) = none := by decide

/-- **C49, negation (other tags).** A key that merely ends with `json` and stands first decides the name. -/
theorem C49_other_key :
    property dropQuotes "ID".toList (tagText [⟨"myjson".toList, "internal".toList⟩, ⟨"json".toList, "id".toList⟩]) = some "internal".toList ∧
    jsonProperty "ID".toList (valueOf jsonKey [⟨"myjson".toList, "internal".toList⟩, ⟨"json".toList, "id".toList⟩]) = some "id".toList := by decide

/-- **C49, negation (spaces).** encoding/json allows spaces in names; the property loses what follows. -/
theorem C49_space :
    property dropQuotes "FirstName".toList (tagText [⟨"json".toList, "first name".toList⟩]) = some "first".toList ∧
    jsonProperty "FirstName".toList (valueOf jsonKey [⟨"json".toList, "first name".toList⟩]) = some "first name".toList := by decide

/-- **C49, negation (dash).** `json:"-,"` names the field `-`; the property keeps the Go name. -/
theorem C49_dash :
    property dropQuotes "Dash".toList (tagText [⟨"json".toList, "-,".toList⟩]) = some "Dash".toList ∧
    jsonProperty "Dash".toList (valueOf jsonKey [⟨"json".toList, "-,".toList⟩]) = some "-".toList := by decide

/-- **C49, negation (interpreted literals).** A tag written as an interpreted string is recorded with its
escapes: the json name is not found in it. -/
theorem C49_interpreted :
    property dropQuotes "ID".toList (getFieldTag "\"json:\\\"id\\\"\"".toList) = some "\\\"id\\".toList ∧
    property dropQuotes "ID".toList (getFieldTag "`json:\"id\"`".toList) = some "id".toList := by decide

end Verif.TagsModel
