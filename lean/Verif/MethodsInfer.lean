import Verif.MethodsProps
/-!
# Properties: methods inferred from names, verbs in arguments, operations (C32, C33, C55)
-/

namespace Verif.MethodsModel
open Verif.Common Verif.MethodsSpec

/-! ## The sort of the mapping table -/

theorem pass_perm : ∀ (k : Nat) (l : List Mapping), (pass k l).Perm l
  | 0, l => by cases l with | nil => exact .refl _ | cons a t => exact .refl _
  | k + 1, [] => .refl _
  | k + 1, [a] => .refl _
  | k + 1, a :: b :: t => by
    rw [pass]
    split
    · exact ((pass_perm k (a :: t)).cons b).trans (List.Perm.swap a b t)
    · exact (pass_perm k (b :: t)).cons a

theorem pass_filter (p : Int) : ∀ (k : Nat) (l : List Mapping),
    (pass k l).filter (fun m => decide (m.priority = p)) = l.filter fun m => decide (m.priority = p)
  | 0, l => by cases l with | nil => rfl | cons a t => rfl
  | k + 1, [] => rfl
  | k + 1, [a] => rfl
  | k + 1, a :: b :: t => by
    rw [pass]
    split
    · next h =>
      rw [List.filter_cons, pass_filter p k (a :: t), List.filter_cons, List.filter_cons (x := a), List.filter_cons (x := b)]
      by_cases h1 : a.priority = p
      · have h2 : b.priority ≠ p := by omega
        simp [h1, h2]
      · simp [h1]
    · rw [List.filter_cons, pass_filter p k (b :: t), List.filter_cons (x := a) (xs := b :: t)]

/-- A pass over a prefix leaves the rest alone and brings a least element of the prefix to its end. -/
theorem pass_least : ∀ (k : Nat) (x y : List Mapping), x.length = k + 1 →
    ∃ w m, pass k (x ++ y) = w ++ m :: y ∧ (w ++ [m]).Perm x ∧ ∀ z ∈ w, m.priority ≤ z.priority
  | 0, x, y, h => by
    obtain ⟨a, rfl⟩ : ∃ a, x = [a] := by
      match x, h with
      | [a], _ => exact ⟨a, rfl⟩
    exact ⟨[], a, rfl, .refl _, by simp⟩
  | k + 1, x, y, h => by
    obtain ⟨a, b, t, rfl⟩ : ∃ a b t, x = a :: b :: t := by
      match x, h with
      | a :: b :: t, _ => exact ⟨a, b, t, rfl⟩
    rw [List.cons_append, List.cons_append, pass]
    split
    · next hlt =>
      obtain ⟨w, m, h1, h2, h3⟩ := pass_least k (a :: t) y (by simpa using h)
      rw [List.cons_append] at h1
      refine ⟨b :: w, m, by rw [h1]; rfl, (h2.cons b).trans (List.Perm.swap a b t), ?_⟩
      intro z hz
      rcases List.mem_cons.mp hz with rfl | hz
      · have ha : a ∈ w ++ [m] := h2.mem_iff.mpr (by simp)
        rcases List.mem_append.mp ha with ha | ha
        · have := h3 a ha; omega
        · rw [List.mem_singleton] at ha; subst ha; omega
      · exact h3 z hz
    · next hge =>
      obtain ⟨w, m, h1, h2, h3⟩ := pass_least k (b :: t) y (by simpa using h)
      rw [List.cons_append] at h1
      refine ⟨a :: w, m, by rw [h1]; rfl, h2.cons a, ?_⟩
      intro z hz
      rcases List.mem_cons.mp hz with rfl | hz
      · have hb : b ∈ w ++ [m] := h2.mem_iff.mpr (by simp)
        rcases List.mem_append.mp hb with hb | hb
        · have := h3 b hb; omega
        · rw [List.mem_singleton] at hb; subst hb; omega
      · exact h3 z hz

theorem bubbleGo_perm : ∀ (k : Nat) (l : List Mapping), (bubbleGo k l).Perm l
  | 0, _ => .refl _
  | k + 1, l => (bubbleGo_perm k _).trans (pass_perm (k + 1) l)

theorem bubbleGo_filter (p : Int) : ∀ (k : Nat) (l : List Mapping),
    (bubbleGo k l).filter (fun m => decide (m.priority = p)) = l.filter fun m => decide (m.priority = p)
  | 0, _ => rfl
  | k + 1, l => (bubbleGo_filter p k _).trans (pass_filter p (k + 1) l)

theorem bubbleGo_sorted : ∀ (k : Nat) (x y : List Mapping), x.length = k + 1 →
    y.Pairwise (fun a b => b.priority ≤ a.priority) → (∀ a ∈ x, ∀ b ∈ y, b.priority ≤ a.priority) →
    (bubbleGo k (x ++ y)).Pairwise fun a b => b.priority ≤ a.priority
  | 0, x, y, h, hy, hxy => by
    obtain ⟨a, rfl⟩ : ∃ a, x = [a] := by
      match x, h with
      | [a], _ => exact ⟨a, rfl⟩
    exact List.pairwise_cons.mpr ⟨fun b hb => hxy a (by simp) b hb, hy⟩
  | k + 1, x, y, h, hy, hxy => by
    rw [bubbleGo]
    obtain ⟨w, m, h1, h2, h3⟩ := pass_least (k + 1) x y h
    rw [h1]
    have hmem : ∀ a, a ∈ w ∨ a = m ↔ a ∈ x := fun a => by rw [← h2.mem_iff]; simp
    refine bubbleGo_sorted k w (m :: y) ?_ ?_ ?_
    · have := h2.length_eq; simp at this; omega
    · exact List.pairwise_cons.mpr ⟨fun b hb => hxy m ((hmem m).mp (.inr rfl)) b hb, hy⟩
    · intro a ha b hb
      rcases List.mem_cons.mp hb with rfl | hb
      · exact h3 a ha
      · exact hxy a ((hmem a).mp (.inl ha)) b hb

theorem bubble_sorted (l : List Mapping) : (bubble l).Pairwise fun a b => b.priority ≤ a.priority := by
  unfold bubble
  cases l with
  | nil => simp [bubbleGo]
  | cons a t =>
    have := bubbleGo_sorted ((a :: t).length - 1) (a :: t) [] (by simp) List.Pairwise.nil (by simp)
    rwa [List.append_nil] at this

/-- Choosing the first match in the sorted table. -/
theorem find_best (P : Mapping → Bool) (l : List Mapping) (m : Mapping) :
    (bubble l).find? P = some m ↔ Best (fun x => P x = true) l m := by
  have hfind : ∀ m, (bubble l).find? P = some m → Best (fun x => P x = true) l m := by
    intro m h
    obtain ⟨hP, a, b, hs, ha⟩ := List.find?_eq_some_iff_append.mp h
    have hsort := bubble_sorted l
    have hperm : (bubble l).Perm l := bubbleGo_perm _ l
    have hfil : (bubble l).filter (fun x => decide (x.priority = m.priority)) = l.filter fun x => decide (x.priority = m.priority) :=
      bubbleGo_filter _ _ l
    rw [hs] at hsort hperm hfil
    have hle : ∀ x ∈ l, P x = true → x.priority ≤ m.priority := by
      intro x hx hPx
      rcases List.mem_append.mp (hperm.mem_iff.mpr hx) with hxa | hxb
      · have := ha x hxa; rw [hPx] at this; cases this
      · rcases List.mem_cons.mp hxb with rfl | hxb
        · omega
        · exact (List.pairwise_cons.mp (List.pairwise_append.mp hsort).2.1).1 x hxb
    -- among equal priorities the order is the listed one
    have h1 : (l.filter fun x => decide (x.priority = m.priority)).find? P = some m := by
      rw [← hfil, List.filter_append, List.filter_cons_of_pos (by simp)]
      rw [List.find?_append, List.find?_cons_of_pos hP]
      rw [List.find?_eq_none.mpr fun x hx => by have := ha x (List.mem_filter.mp hx).1; simpa using this]
      rfl
    rw [List.find?_filter] at h1
    obtain ⟨_, pre, post, e, hpre⟩ := List.find?_eq_some_iff_append.mp h1
    refine ⟨pre, post, e, hP, fun x hx hPx => ?_, fun x hx hPx => ?_⟩
    · have h2 := hle x (by rw [e]; exact List.mem_append_left _ hx) hPx
      have h3 := hpre x hx
      simp [hPx] at h3
      omega
    · exact hle x (by rw [e]; exact List.mem_append_right _ (List.mem_cons_of_mem _ hx)) hPx
  constructor
  · exact hfind m
  · rintro ⟨pre, post, e, hP, h1, h2⟩
    cases hf : (bubble l).find? P with
    | none =>
      rw [List.find?_eq_none] at hf
      exact absurd hP (hf m ((bubbleGo_perm _ l).mem_iff.mpr (by rw [e]; simp)))
    | some m' =>
      obtain ⟨pre', post', e', hP', h1', h2'⟩ := hfind m' hf
      rcases List.append_eq_append_iff.mp (e.symm.trans e') with ⟨t, ht1, ht2⟩ | ⟨t, ht1, ht2⟩
      · cases t with
        | nil => injection ht2 with ht2 _; rw [ht2]
        | cons t0 t =>
          injection ht2 with ht2 ht3
          subst ht2
          have := h1' m (by rw [ht1]; simp) hP
          have := h2 m' (by rw [ht3]; simp) hP'
          omega
      · cases t with
        | nil => injection ht2 with ht2 _; rw [ht2]
        | cons t0 t =>
          injection ht2 with ht2 ht3
          subst ht2
          have := h1 m' (by rw [ht1]; simp) hP'
          have := h2' m (by rw [ht3]; simp) hP
          omega

theorem find_none (P : Mapping → Bool) (l : List Mapping) : (bubble l).find? P = none ↔ ∀ m ∈ l, ¬ P m = true := by
  rw [List.find?_eq_none]
  exact ⟨fun h m hm => h m ((bubbleGo_perm _ l).mem_iff.mpr hm), fun h m hm => h m ((bubbleGo_perm _ l).mem_iff.mp hm)⟩

/-! ## C33 -/

theorem norm_same (u : Uni) (c : Extraction) (a b : Str) : norm u c a = norm u c b ↔ Same u c a b := by
  unfold norm Same
  cases c.caseSensitive <;> simp

theorem leadHit_iff (u : Uni) (c : Extraction) (name : Str) (m : Mapping) :
    (c.usePrefix = true ∧ leadHit u c ((splitNameWords u name).map (norm u c)) m = true) ↔ LeadsWith u c name m := by
  unfold LeadsWith leadHit
  refine and_congr_right fun _ => ?_
  constructor
  · intro h
    cases hs : splitNameWords u name with
    | nil => rw [hs] at h; cases h
    | cons w ws =>
      rw [hs, List.map_cons] at h
      simp only [List.any_eq_true, beq_iff_eq] at h
      obtain ⟨p, hp, e⟩ := h
      obtain ⟨pre, post, e1, hw, hpre⟩ := (C33_leading_word u name w).mp (by rw [hs]; rfl)
      exact ⟨pre, w, post, e1, hw, hpre, p, hp, (norm_same u c w p).mp e⟩
  · rintro ⟨pre, w, post, e, hw, hpre, p, hp, hs⟩
    have := (C33_leading_word u name w).mpr ⟨pre, post, e, hw, hpre⟩
    obtain ⟨ws, hws⟩ : ∃ ws, splitNameWords u name = w :: ws := by
      cases h : splitNameWords u name with
      | nil => rw [h] at this; cases this
      | cons a ws => rw [h] at this; cases this; exact ⟨ws, rfl⟩
    rw [hws, List.map_cons]
    simp only [List.any_eq_true, beq_iff_eq]
    exact ⟨p, hp, (norm_same u c w p).mpr hs⟩

theorem anyHit_iff (u : Uni) (c : Extraction) (name : Str) (m : Mapping) :
    (c.useContains = true ∧ anyHit u c ((splitNameWords u name).map (norm u c)) m = true) ↔ Mentions u c name m := by
  unfold Mentions anyHit
  refine and_congr_right fun _ => ?_
  simp only [List.any_eq_true, List.mem_map, beq_iff_eq]
  constructor
  · rintro ⟨p, hp, _, ⟨w, hw, rfl⟩, e⟩
    obtain ⟨pre, post, e1, hw⟩ := (C33_words u name w).mp hw
    exact ⟨pre, w, post, e1, hw, p, hp, (norm_same u c w p).mp e⟩
  · rintro ⟨pre, w, post, e, hw, p, hp, hs⟩
    exact ⟨p, hp, _, ⟨w, (C33_words u name w).mpr ⟨pre, post, e, hw⟩, rfl⟩, (norm_same u c w p).mpr hs⟩

theorem find_guard {l : List Mapping} {b : Bool} {P : Mapping → Bool} :
    (if b then l.find? P else none) = l.find? fun m => b && P m := by
  cases b with
  | true => simp
  | false => simp [eq_comm (a := none)]

theorem best_congr {P Q : Mapping → Prop} (h : ∀ m, P m ↔ Q m) (l : List Mapping) (m : Mapping) : Best P l m ↔ Best Q l m := by
  unfold Best; simp only [h]

/-- **C33.** The method inferred from a name: the mapping with the leading word among its keywords
decides — highest priority first, then the first listed; if there is none, the mapping with any
word of the name among its keywords, chosen the same way; otherwise the default, reported as not
inferred. -/
theorem C33_inferred (u : Uni) (c : Extraction) (name : Str) (hn : name ≠ []) :
    (∀ m, Best (LeadsWith u c name) c.mappings m → methodFromName u c name = (m.method, true)) ∧
    ((∀ m ∈ c.mappings, ¬ LeadsWith u c name m) →
      (∀ m, Best (Mentions u c name) c.mappings m → methodFromName u c name = (m.method, true)) ∧
      ((∀ m ∈ c.mappings, ¬ Mentions u c name m) → methodFromName u c name = (c.defaultMethod, false))) := by
  have hL : ∀ m, ((c.usePrefix && leadHit u c ((splitNameWords u name).map (norm u c)) m) = true) ↔ LeadsWith u c name m := by
    intro m; rw [Bool.and_eq_true]; exact leadHit_iff u c name m
  have hA : ∀ m, ((c.useContains && anyHit u c ((splitNameWords u name).map (norm u c)) m) = true) ↔ Mentions u c name m := by
    intro m; rw [Bool.and_eq_true]; exact anyHit_iff u c name m
  unfold methodFromName
  simp only [if_neg hn, find_guard]
  refine ⟨fun m hm => ?_, fun hno => ⟨fun m hm => ?_, fun hno2 => ?_⟩⟩
  · rw [(find_best _ c.mappings m).mpr ((best_congr hL _ _).mpr hm)]
  · rw [(find_none _ c.mappings).mpr fun x hx h => hno x hx ((hL x).mp h)]
    rw [(find_best _ c.mappings m).mpr ((best_congr hA _ _).mpr hm)]
  · rw [(find_none _ c.mappings).mpr fun x hx h => hno x hx ((hL x).mp h)]
    rw [(find_none _ c.mappings).mpr fun x hx h => hno2 x hx ((hA x).mp h)]

/-- The three cases of `C33_inferred` cover every name: when some mapping qualifies, one is best. -/
theorem C33_best_exists (P : Mapping → Prop) (l : List Mapping) (h : ∃ m ∈ l, P m) : ∃ m, Best P l m := by
  classical
  obtain ⟨m, hm, hP⟩ := h
  cases hf : (bubble l).find? (fun x => decide (P x)) with
  | none => exact absurd (decide_eq_true hP) ((find_none _ l).mp hf m hm)
  | some m' => exact ⟨m', (best_congr (fun x => by simp) l m').mp ((find_best _ l m').mp hf)⟩

/-- ASCII letters. -/
def ascii : Uni where
  letter c := c.isAlpha
  upper c := c.isUpper
  lower c := c.isLower
  toLower s := s.map Char.toLower

example : splitNameWords ascii "handleHTTPDelete_widget".toList = ["handle".toList, "HTTP".toList, "Delete".toList, "widget".toList] := by decide
example : methodFromName ascii defaultExtraction "deleteWidget".toList = ("DELETE".toList, true) := by decide
example : methodFromName ascii defaultExtraction "handleUserDelete".toList = ("DELETE".toList, true) := by decide
example : methodFromName ascii defaultExtraction "widget".toList = ("GET".toList, false) := by decide
/-- Every registrar method of a router names its own verb. -/
example : ["Get", "Post", "Put", "Delete", "Patch", "Options", "Head"].all (fun n =>
    decide (methodFromName ascii defaultExtraction n.toList = (n.toList.map Char.toUpper, true))) = true := by decide

/-! ## C32: verbs in an argument -/

theorem splitComma_join : ∀ (ps : List Str), ps ≠ [] → (∀ p ∈ ps, ',' ∉ p) → splitComma (commaJoin ps) = ps
  | [], h, _ => absurd rfl h
  | [p], hnil, h => by
    have hp := h p (by simp)
    rw [commaJoin]
    clear h hnil
    induction p with
    | nil => rfl
    | cons c p ih =>
      rw [splitComma, if_neg (fun e => hp (by rw [e]; simp)), ih fun hm => hp (List.mem_cons_of_mem _ hm)]
  | p :: q :: ps, hnil, h => by
    have ih := splitComma_join (q :: ps) (by simp) fun x hx => h x (List.mem_cons_of_mem _ hx)
    have hp := h p (by simp)
    rw [commaJoin]
    clear h hnil
    induction p with
    | nil => rw [List.nil_append, splitComma, if_pos rfl, ih]
    | cons c p ihp =>
      rw [List.cons_append, splitComma, if_neg (fun e => hp (by rw [e]; simp)), ihp fun hm => hp (List.mem_cons_of_mem _ hm)]

theorem dropWhile_all {p : Char → Bool} {a b : Str} (ha : ∀ c ∈ a, p c = true) (hb : ∀ c, b.head? = some c → p c = false) :
    (a ++ b).dropWhile p = b := by
  induction a with
  | nil =>
    cases b with
    | nil => rfl
    | cons c b => rw [List.nil_append, List.dropWhile_cons_of_neg (by simp [hb c rfl])]
  | cons x a ih =>
    rw [List.cons_append, List.dropWhile_cons_of_pos (ha x (by simp))]
    exact ih fun c hc => ha c (List.mem_cons_of_mem _ hc)

theorem trimBy_pad {p : Char → Bool} {a w b : Str} (ha : ∀ c ∈ a, p c = true) (hb : ∀ c ∈ b, p c = true)
    (h1 : ∀ c, w.head? = some c → p c = false) (h2 : ∀ c, w.getLast? = some c → p c = false) (hw : w ≠ []) :
    trimBy p (a ++ (w ++ b)) = w := by
  unfold trimBy
  rw [dropWhile_all ha (fun c hc => h1 c (by
    rw [List.head?_append] at hc
    cases w with
    | nil => exact absurd rfl hw
    | cons x w => simpa using hc)), List.reverse_append,
    dropWhile_all (fun c hc => hb c (List.mem_reverse.mp hc)) (fun c hc => h2 c (by rwa [List.head?_reverse] at hc)), List.reverse_reverse]

theorem head_of_append {a b : Str} (P : Char → Prop) (ha : ∀ c ∈ a, P c) (hb : ∀ c, b.head? = some c → P c) :
    ∀ c, (a ++ b).head? = some c → P c := by
  intro c hc
  cases a with
  | nil => exact hb c hc
  | cons x a => cases hc; exact ha _ (by simp)

theorem last_of_append {a b : Str} (P : Char → Prop) (hb : ∀ c ∈ b, P c) (ha : ∀ c, a.getLast? = some c → P c) :
    ∀ c, (a ++ b).getLast? = some c → P c := by
  intro c hc
  rw [List.getLast?_append] at hc
  cases h : b.getLast? with
  | none => rw [h] at hc; exact ha c (by simpa using hc)
  | some d => rw [h] at hc; cases hc; exact hb _ (List.mem_of_getLast? h)

theorem quote_blank {c : Char} (h : c ∈ [' ', '\t', '\n', '\r', '\x0b', '\x0c']) : isBlank c = true ∧ isQuote c = false := by
  simp only [List.mem_cons, List.not_mem_nil, or_false] at h
  rcases h with rfl | rfl | rfl | rfl | rfl | rfl <;> decide

theorem quote_quote {c : Char} (h : c = '"' ∨ c = '\'') : isQuote c = true := by
  rcases h with rfl | rfl <;> decide

theorem word_char {c : Char} (h : c ∉ ['"', '\'', ' ', '\t', '\n', '\r', '\x0b', '\x0c', ',']) : isQuote c = false ∧ isBlank c = false := by
  simp only [List.mem_cons, List.not_mem_nil, or_false, not_or] at h
  simp [isQuote, isBlank, h]

theorem verbOf_piece (upper : Str → Str) (p : Piece) : verbOf upper p.text = upper p.word := by
  obtain ⟨hq, hb, hw, hne⟩ := p.ok
  have hq1 : ∀ c ∈ p.q, isQuote c = true := fun c hc => quote_quote (hq c (List.mem_append_left _ hc))
  have hq2 : ∀ c ∈ p.q', isQuote c = true := fun c hc => quote_quote (hq c (List.mem_append_right _ hc))
  have hb1 : ∀ c ∈ p.b, isBlank c = true ∧ isQuote c = false := fun c hc => quote_blank (hb c (List.mem_append_left _ hc))
  have hb2 : ∀ c ∈ p.b', isBlank c = true ∧ isQuote c = false := fun c hc => quote_blank (hb c (List.mem_append_right _ hc))
  have hw1 : ∀ c ∈ p.word, isQuote c = false ∧ isBlank c = false := fun c hc => word_char (hw c hc)
  unfold verbOf Piece.text
  have e : p.q ++ (p.b ++ (p.word ++ (p.b' ++ p.q'))) = p.q ++ ((p.b ++ (p.word ++ p.b')) ++ p.q') := by simp
  rw [e, trimBy_pad hq1 hq2 ?_ ?_ (by simp [hne]), trimBy_pad (fun c hc => (hb1 c hc).1) (fun c hc => (hb2 c hc).1) ?_ ?_ hne]
  · exact fun c hc => (hw1 c (List.mem_of_mem_head? hc)).2
  · exact fun c hc => (hw1 c (List.mem_of_getLast? hc)).2
  · refine head_of_append (fun c => isQuote c = false) (fun c hc => (hb1 c hc).2) ?_
    exact head_of_append (fun c => isQuote c = false) (fun c hc => (hw1 c hc).1) fun c hc => (hb2 c (List.mem_of_mem_head? hc)).2
  · intro c hc
    rw [← List.append_assoc] at hc
    refine last_of_append (fun c => isQuote c = false) (fun c hc => (hb2 c hc).2) ?_ c hc
    exact last_of_append (fun c => isQuote c = false) (fun c hc => (hw1 c hc).1) fun c hc => (hb1 c (List.mem_of_getLast? hc)).2

theorem validMethods_iff (v : Str) : v ∈ validMethods ↔ Verb v := by
  unfold validMethods Verb
  simp only [List.map_cons, List.map_nil, List.mem_cons, List.not_mem_nil, or_false]
  grind

theorem verb_nonempty {v : Str} (h : Verb v) : v ≠ [] := by
  rintro rfl; exact absurd h (by unfold Verb; decide)

theorem verbsGo_some (upper : Str → Str) (hu : ∀ s, upper (upper s) = upper s) : ∀ (ps : List Str) (l acc r : List Str),
    FirstMentions l acc → (verbsGo upper acc ps = some r ↔
      (∀ p ∈ ps, Verb (verbOf upper p)) ∧ r = (ps.map (verbOf upper)).foldl (fun acc m => if m ∈ acc then acc else acc ++ [m]) acc)
  | [], l, acc, r, h => by simp [verbsGo, eq_comm]
  | p :: ps, l, acc, r, h => by
    rw [verbsGo]
    have hv : ¬ (verbOf upper p = [] ∨ isValid upper (verbOf upper p) = false) ↔ Verb (verbOf upper p) := by
      have hup : upper (verbOf upper p) = verbOf upper p := hu _
      unfold isValid
      rw [hup, not_or, decide_eq_false_iff_not, validMethods_iff, Classical.not_not]
      exact ⟨fun h => h.2, fun h => ⟨verb_nonempty h, h⟩⟩
    split
    · next hbad =>
      constructor
      · intro e; cases e
      · rintro ⟨h1, _⟩; exact absurd (hv.mpr (h1 p (by simp))) (fun hc => hc hbad)
    · next hok =>
      rw [verbsGo_some upper hu ps (l ++ [verbOf upper p]) _ r (h.step _)]
      simp only [List.forall_mem_cons, List.map_cons, List.foldl_cons]
      exact ⟨fun ⟨h1, h2⟩ => ⟨⟨hv.mp hok, h1⟩, h2⟩, fun ⟨⟨_, h1⟩, h2⟩ => ⟨h1, h2⟩⟩

theorem commaJoin_ne : ∀ (ps : List Piece), ps ≠ [] → commaJoin (ps.map Piece.text) ≠ []
  | [], h => absurd rfl h
  | [p], _ => by
    rw [List.map_cons, List.map_nil, commaJoin]
    simp [Piece.text, p.ok.2.2.2]
  | p :: q :: ps, _ => by
    rw [List.map_cons, List.map_cons, commaJoin]; simp

theorem piece_no_comma (p : Piece) : ',' ∉ p.text := by
  obtain ⟨hq, hb, hw, _⟩ := p.ok
  intro h
  simp only [Piece.text, List.mem_append] at h
  rcases h with h | h | h | h | h
  · have := hq _ (List.mem_append_left _ h); simp at this
  · have := hb _ (List.mem_append_left _ h); simp at this
  · exact hw _ h (by simp)
  · have := hb _ (List.mem_append_right _ h); simp at this
  · have := hq _ (List.mem_append_right _ h); simp at this

/-- **C32 (verbs in an argument).** An argument listing words separated by commas — with blanks
and quotes around them — gives, if every word is a verb in some case, exactly those verbs, each once
in order of first mention; if some word is not a verb it gives nothing. -/
theorem C32_verbs_in_argument (upper : Str → Str) (hu : ∀ s, upper (upper s) = upper s) (ps : List Piece) (hne : ps ≠ []) :
    ((∀ p ∈ ps, Verb (upper p.word)) →
      FirstMentions (ps.map fun p => upper p.word) (verbsFromArg upper (some (commaJoin (ps.map Piece.text))))) ∧
    ((∃ p ∈ ps, ¬ Verb (upper p.word)) → verbsFromArg upper (some (commaJoin (ps.map Piece.text))) = []) := by
  have hs : splitComma (commaJoin (ps.map Piece.text)) = ps.map Piece.text :=
    splitComma_join _ (by simpa using hne) (by
      intro x hx
      obtain ⟨p, _, rfl⟩ := List.mem_map.mp hx
      exact piece_no_comma p)
  have hmap : (ps.map Piece.text).map (verbOf upper) = ps.map fun p => upper p.word := by
    rw [List.map_map]; exact List.map_congr_left fun p _ => verbOf_piece upper p
  unfold verbsFromArg
  simp only
  rw [if_neg (commaJoin_ne ps hne), hs]
  constructor
  · intro h
    have := (verbsGo_some upper hu (ps.map Piece.text) [] [] _ .nil).mpr ⟨by
      intro x hx
      obtain ⟨p, hp, rfl⟩ := List.mem_map.mp hx
      rw [verbOf_piece]; exact h p hp, rfl⟩
    rw [this, hmap]
    exact mentions_fold _ .nil
  · rintro ⟨p, hp, hbad⟩
    cases hv : verbsGo upper [] (ps.map Piece.text) with
    | none => rfl
    | some r =>
      have := ((verbsGo_some upper hu (ps.map Piece.text) [] [] r .nil).mp hv).1 p.text (List.mem_map_of_mem hp)
      rw [verbOf_piece] at this
      exact absurd this hbad

example : verbsFromArg (List.map Char.toUpper) (some "\"get, POST,GET\"".toList) = ["GET".toList, "POST".toList] := by decide
example : verbsFromArg (List.map Char.toUpper) (some "GET,everything".toList) = [] := by decide

/-! ## C32: operations -/

theorem slotOf_some (v : Str) : (∃ s, slotOf v = some s) ↔ Verb v ∧ v ≠ "TRACE".toList ∧ v ≠ "CONNECT".toList := by
  constructor
  · rintro ⟨s, h⟩
    unfold slotOf at h
    repeat' split at h
    all_goals first
      | (rename_i e; rw [e]; exact ⟨by unfold Verb; decide, by decide, by decide⟩)
      | cases h
  · rintro ⟨hv, h1, h2⟩
    unfold Verb at hv
    simp only [List.map_cons, List.map_nil, List.mem_cons, List.not_mem_nil, or_false] at hv
    rcases hv with rfl | rfl | rfl | rfl | rfl | rfl | rfl | rfl | rfl
    · exact ⟨.get, by decide⟩
    · exact ⟨.head, by decide⟩
    · exact ⟨.post, by decide⟩
    · exact ⟨.put, by decide⟩
    · exact ⟨.patch, by decide⟩
    · exact ⟨.delete, by decide⟩
    · exact absurd rfl h2
    · exact ⟨.options, by decide⟩
    · exact absurd rfl h1

theorem slotOf_inj {a b : Str} {s : Slot} (ha : slotOf a = some s) (hb : slotOf b = some s) : a = b := by
  unfold slotOf at ha hb
  repeat' split at ha
  all_goals first | (cases ha; done) | skip
  all_goals (cases ha; repeat' split at hb)
  all_goals first | (cases hb; done) | (simp_all; done)

theorem buildPaths_last (upper : Str → Str) (path : Str) (s : Slot) : ∀ (rs : List Route) (paths : List (Str × PathItem)) (op : Op),
    opAt (rs.foldl (fun paths r => mset paths r.path (setOp upper ((mget paths r.path).getD []) r.method ⟨operationId r, r⟩)) paths) path s = some op ↔
      (∃ pre r post, rs = pre ++ r :: post ∧ r.path = path ∧ slotOf (upper r.method) = some s ∧
        (∀ r' ∈ post, ¬ (r'.path = path ∧ slotOf (upper r'.method) = some s)) ∧ op = ⟨operationId r, r⟩) ∨
      ((∀ r ∈ rs, ¬ (r.path = path ∧ slotOf (upper r.method) = some s)) ∧ opAt paths path s = some op)
  | [], paths, op => by simp
  | r :: rs, paths, op => by
    rw [List.foldl_cons, buildPaths_last upper path s rs]
    have hstep : opAt (mset paths r.path (setOp upper ((mget paths r.path).getD []) r.method ⟨operationId r, r⟩)) path s =
        if r.path = path ∧ slotOf (upper r.method) = some s then some ⟨operationId r, r⟩ else opAt paths path s := by
      unfold opAt
      rw [mget_mset]
      by_cases hp : path = r.path
      · subst hp
        rw [if_pos rfl]
        simp only [Option.bind_some, true_and]
        unfold setOp
        cases hs : slotOf (upper r.method) with
        | none =>
          simp only [reduceCtorEq, if_false]
          cases mget paths r.path <;> rfl
        | some s' =>
          simp only
          rw [mget_mset]
          by_cases hss : s = s'
          · subst hss; simp
          · rw [if_neg hss, if_neg (by intro e; cases e; exact hss rfl)]
            cases mget paths r.path <;> rfl
      · rw [if_neg hp, if_neg (fun h => hp h.1.symm)]
    rw [hstep]
    constructor
    · rintro (⟨pre, x, post, e, h1, h2, h3, h4⟩ | ⟨h1, h2⟩)
      · exact .inl ⟨r :: pre, x, post, by rw [e]; rfl, h1, h2, h3, h4⟩
      · split at h2
        · next hc => cases h2; exact .inl ⟨[], r, rs, rfl, hc.1, hc.2, h1, rfl⟩
        · next hc =>
          refine .inr ⟨fun x hx => ?_, h2⟩
          rcases List.mem_cons.mp hx with rfl | hx
          · exact hc
          · exact h1 x hx
    · rintro (⟨pre, x, post, e, h1, h2, h3, h4⟩ | ⟨h1, h2⟩)
      · cases pre with
        | nil =>
          injection e with e1 e2
          subst e1; subst e2
          right
          rw [if_pos ⟨h1, h2⟩]
          exact ⟨h3, by rw [h4]⟩
        | cons y pre =>
          injection e with e1 e2
          exact .inl ⟨pre, x, post, e2, h1, h2, h3, h4⟩
      · right
        rw [if_neg (h1 r (by simp))]
        exact ⟨fun x hx => h1 x (List.mem_cons_of_mem _ hx), h2⟩

/-- **C32 (operations).** The document has an operation for a path and a verb exactly when some
route has them, and it is built from the last such route. -/
theorem C32_operations (upper : Str → Str) (rs : List Route) (path : Str) (s : Slot) (op : Op) :
    opAt (buildPaths upper rs) path s = some op ↔
      ∃ pre r post, rs = pre ++ r :: post ∧ r.path = path ∧ slotOf (upper r.method) = some s ∧
        (∀ r' ∈ post, ¬ (r'.path = path ∧ slotOf (upper r'.method) = some s)) ∧ op = ⟨operationId r, r⟩ := by
  unfold buildPaths
  rw [buildPaths_last]
  constructor
  · rintro (h | ⟨_, h⟩)
    · exact h
    · cases h
  · exact .inl

theorem last_match {P : Route → Prop} [DecidablePred P] : ∀ {l : List Route}, (∃ r ∈ l, P r) →
    ∃ pre r post, l = pre ++ r :: post ∧ P r ∧ ∀ x ∈ post, ¬ P x
  | [], h => by simp at h
  | a :: l, h => by
    by_cases hl : ∃ r ∈ l, P r
    · obtain ⟨pre, r, post, e, h1, h2⟩ := last_match hl
      exact ⟨a :: pre, r, post, by rw [e]; rfl, h1, h2⟩
    · obtain ⟨r, hr, hP⟩ := h
      rcases List.mem_cons.mp hr with rfl | hr
      · exact ⟨[], r, l, rfl, hP, fun x hx hx' => hl ⟨x, hx, hx'⟩⟩
      · exact absurd ⟨r, hr, hP⟩ hl

/-- **C32, partial.** Every verb but TRACE and CONNECT that a registration names in its method
argument is documented at the registration's path, whatever else is registered and whatever the
handler does.  Missing: TRACE and CONNECT — `C32_trace_lost`. -/
theorem C32_every_verb_partial (upper : Str → Str) (hu : ∀ s, upper (upper s) = upper s)
    (lookup : Str → Str → Option (List Branch × Str)) (pre post : List Route) (r : Route) (ps : List Piece)
    (hps : ∀ p ∈ ps, Verb (upper p.word)) (p : Piece) (hp : p ∈ ps)
    (hv : upper p.word ≠ "TRACE".toList ∧ upper p.word ≠ "CONNECT".toList) :
    ∃ s op, slotOf (upper p.word) = some s ∧
      opAt (buildPaths upper (splitAll lookup (expandMulti
        (pre ++ registered upper (some (commaJoin (ps.map Piece.text))) r :: post)))) r.path s = some op := by
  obtain ⟨s, hs⟩ := (slotOf_some (upper p.word)).mpr ⟨hps p hp, hv⟩
  have hF := (C32_verbs_in_argument upper hu ps (List.ne_nil_of_mem hp)).1 hps
  have hmem : upper p.word ∈ verbsFromArg upper (some (commaJoin (ps.map Piece.text))) :=
    (hF.mem _).mpr (List.mem_map_of_mem hp)
  -- the route for this verb after expansion
  have hexp : ∃ r' ∈ expandRoute (registered upper (some (commaJoin (ps.map Piece.text))) r),
      r'.path = r.path ∧ r'.method = upper p.word ∧ r'.explicit = true := by
    unfold registered
    cases hvs : verbsFromArg upper (some (commaJoin (ps.map Piece.text))) with
    | nil => rw [hvs] at hmem; simp at hmem
    | cons m ms =>
      rw [hvs] at hmem
      simp only
      unfold expandRoute
      split
      · next hx =>
        simp only at hx
        subst hx
        exact ⟨_, List.mem_singleton.mpr rfl, rfl, (List.mem_singleton.mp hmem).symm, rfl⟩
      · refine ⟨_, List.mem_map_of_mem hmem, rfl, rfl, rfl⟩
  obtain ⟨r', hr', h1, h2, h3⟩ := hexp
  have hin : r' ∈ expandMulti (pre ++ registered upper (some (commaJoin (ps.map Piece.text))) r :: post) := by
    unfold expandMulti
    exact List.mem_flatMap.mpr ⟨_, by simp, hr'⟩
  have hin2 : r' ∈ splitAll lookup (expandMulti (pre ++ registered upper (some (commaJoin (ps.map Piece.text))) r :: post)) := by
    obtain ⟨a, b, e⟩ := List.append_of_mem hin
    rw [e, C31_explicit_not_split lookup a b r' (.inl h3)]
    simp
  obtain ⟨a, x, b, e, hx, hlast⟩ := last_match (P := fun x => x.path = r.path ∧ slotOf (upper x.method) = some s)
    ⟨r', hin2, h1, by rw [h2, hu]; exact hs⟩
  exact ⟨s, ⟨operationId x, x⟩, hs, (C32_operations upper _ _ _ _).mpr ⟨a, x, b, e, hx.1, hx.2, hlast, rfl⟩⟩

def toPiece (w : Str) (h : (∀ c ∈ w, c ∉ ['"', '\'', ' ', '\t', '\n', '\r', '\x0b', '\x0c', ',']) ∧ w ≠ []) : Piece :=
  ⟨[], [], w, [], [], by simp, by simp, h.1, h.2⟩

example : Verb (id (toPiece "GET".toList (by decide)).word) := by unfold Verb; decide

/-- **C32, negation.** TRACE and CONNECT are accepted as verbs of a registration, and the document
has no operation for them: the path is left with none. -/
theorem C32_trace_lost :
    verbsFromArg id (some "TRACE".toList) = ["TRACE".toList] ∧ verbsFromArg id (some "CONNECT".toList) = ["CONNECT".toList] ∧
    ∀ v ∈ ["TRACE".toList, "CONNECT".toList],
      buildPaths id [{ method := v, explicit := true, path := "/x".toList, pkg := "p".toList, fn := "h".toList }] = [("/x".toList, [])] := by
  decide

/-- **C32, note.** Of two registrations of the same verb and path with different handlers, only
the last is documented. -/
theorem C32_last_wins :
    ∃ r1 r2 : Route, r1.fn ≠ r2.fn ∧ (opAt (buildPaths id [r1, r2]) r1.path .get).map (·.route.fn) = some r2.fn :=
  ⟨{ method := "GET".toList, explicit := true, path := "/x".toList, pkg := "p".toList, fn := "a".toList },
   { method := "GET".toList, explicit := true, path := "/x".toList, pkg := "p".toList, fn := "b".toList }, by decide, by decide⟩

/-! ## C55: operation ids -/

/-- The id without its suffix. -/
def baseId (r : Route) : Str := operationId { r with suffix := [] }

theorem operationId_eq (r : Route) : operationId r = if r.suffix = [] then baseId r else baseId r ++ '_' :: r.suffix := by
  unfold baseId operationId
  simp

theorem append_sep_inj {a b c d : Str} (hb : '_' ∉ b) (hd : '_' ∉ d) (h : a ++ '_' :: b = c ++ '_' :: d) : a = c ∧ b = d := by
  rcases List.append_eq_append_iff.mp h with ⟨t, h1, h2⟩ | ⟨t, h1, h2⟩
  · cases t with
    | nil => injection h2 with _ h2; exact ⟨by simpa using h1.symm, h2⟩
    | cons x t => injection h2 with _ h2; exact absurd (by rw [h2]; simp) hb
  · cases t with
    | nil => injection h2 with _ h2; exact ⟨by simpa using h1, h2.symm⟩
    | cons x t => injection h2 with _ h2; exact absurd (by rw [h2]; simp) hd

theorem verb_no_sep {v : Str} (h : Verb v) : '_' ∉ v := by
  unfold Verb at h
  simp only [List.map_cons, List.map_nil, List.mem_cons, List.not_mem_nil, or_false] at h
  rcases h with rfl | rfl | rfl | rfl | rfl | rfl | rfl | rfl | rfl <;> decide

theorem nodup_map {α β : Type} {f : α → β} : ∀ {l : List α}, l.Nodup → (∀ a ∈ l, ∀ b ∈ l, f a = f b → a = b) → (l.map f).Nodup
  | [], _, _ => List.nodup_nil
  | a :: l, h, hf => by
    obtain ⟨h1, h2⟩ := List.nodup_cons.mp h
    refine List.nodup_cons.mpr ⟨fun hm => ?_, nodup_map h2 fun x hx y hy => hf x (List.mem_cons_of_mem _ hx) y (List.mem_cons_of_mem _ hy)⟩
    obtain ⟨b, hb, e⟩ := List.mem_map.mp hm
    have := hf b (List.mem_cons_of_mem _ hb) a (by simp) e
    exact h1 (this ▸ hb)

/-- **C55 (one registration).** The operations one registration becomes — several verbs in its
argument, or a handler dispatching on the method — have different ids. -/
theorem C55_one_registration (lookup : Str → Str → Option (List Branch × Str)) (r : Route)
    (hx : (r.method :: r.extra).Nodup ∧ (r.extra ≠ [] → ∀ m ∈ r.method :: r.extra, Verb m))
    (hb : ∀ bs file, lookup r.pkg r.fn = some (bs, file) → ∀ b ∈ bs, ∀ m ∈ b.methods, Verb m) :
    ((expandRoute r).map operationId).Nodup ∧ (r.extra = [] → ((splitAll lookup [r]).map operationId).Nodup) := by
  constructor
  · unfold expandRoute
    split
    · simp
    · next hne =>
      rw [List.map_map]
      refine nodup_map hx.1 fun a ha b hb' e => ?_
      have hva := hx.2 hne a ha
      have hvb := hx.2 hne b hb'
      simp only [Function.comp, operationId_eq] at e
      rw [if_neg (verb_nonempty hva), if_neg (verb_nonempty hvb)] at e
      exact (append_sep_inj (verb_no_sep hva) (verb_no_sep hvb) e).2
  · intro _
    unfold splitAll
    rw [List.flatMap_cons, List.flatMap_nil, List.append_nil]
    split
    · simp
    · next hne =>
      unfold splitRoute
      split
      · simp
      · have hl : lookup r.pkg r.fn = some (dispatchOf lookup r) := by
          unfold dispatchOf at hne ⊢
          split at hne
          · exact absurd rfl hne
          · next h1 =>
            split at hne
            · exact absurd rfl hne
            · next h2 =>
              rw [if_neg h1, if_neg h2]
              cases hl : lookup r.pkg r.fn with
              | none => rw [hl] at hne; exact absurd rfl hne
              | some x =>
                obtain ⟨bs, file⟩ := x
                rw [hl] at hne
                simp only at hne ⊢
                split at hne
                · exact absurd rfl hne
                · next h3 => rw [if_neg h3]
        rw [List.map_map]
        refine nodup_map (mentions_spec _).nodup fun a ha b hb' e => ?_
        have hv : ∀ m ∈ mentions (dispatchOf lookup r).1, Verb m := by
          intro m hm
          obtain ⟨br, hbr, hmm⟩ := (mem_mentions _ m).mp hm
          exact hb _ _ hl br hbr m hmm
        have hva := hv a ha
        have hvb := hv b hb'
        simp only [Function.comp, operationId_eq, routeFor] at e
        rw [if_neg (verb_nonempty hva), if_neg (verb_nonempty hvb)] at e
        exact (append_sep_inj (verb_no_sep hva) (verb_no_sep hvb) e).2

theorem replaceFirst_here (old new t : Str) (h : old ≠ []) : replaceFirst old new (old ++ t) = new ++ t := by
  cases old with
  | nil => exact absurd rfl h
  | cons c old =>
    rw [List.cons_append, replaceFirst, if_pos (by simp)]
    simp

theorem replaceFirst_sep (new t : Str) : ∀ (p : Str), '>' ∉ p → replaceFirst typeSep new (p ++ (typeSep ++ t)) = p ++ (new ++ t)
  | [], _ => replaceFirst_here typeSep new t (by decide)
  | c :: p, h => by
    have ih := replaceFirst_sep new t p fun hm => h (List.mem_cons_of_mem _ hm)
    rw [List.cons_append, replaceFirst, if_neg, ih, List.cons_append]
    intro hp
    match p, h, hp with
    | [], _, hp => simp [typeSep, List.isPrefixOf] at hp
    | [x], _, hp => simp [typeSep, List.isPrefixOf] at hp
    | x :: y :: p, h, hp =>
      simp only [typeSep, List.cons_append, List.isPrefixOf, Bool.and_eq_true, beq_iff_eq] at hp
      exact h (by rw [← hp.2.2.1]; simp)

theorem baseId_name (r : Route) (f : Str) (hp : r.pkg ≠ []) (hg : '>' ∉ r.pkg) (hf : r.fn = r.pkg ++ (typeSep ++ f)) :
    baseId r = r.pkg ++ '.' :: f := by
  unfold baseId operationId
  simp only [if_neg hp, if_true]
  rw [hf, replaceFirst_sep _ _ _ hg, ← List.append_assoc, replaceFirst_here _ _ _ (by simp)]
  simp

/-- **C55 (the id).** The id of the operation of handler `f` of package `pkg` is `pkg.f`, followed
by `_VERB` when the registration has several verbs or the handler dispatches on the method. -/
theorem C55_id (r : Route) (f : Str) (hp : r.pkg ≠ []) (hg : '>' ∉ r.pkg) (hf : r.fn = r.pkg ++ "-->".toList ++ f) :
    (r.suffix = [] → operationId r = r.pkg ++ '.' :: f) ∧
    (r.suffix ≠ [] → operationId r = r.pkg ++ '.' :: f ++ '_' :: r.suffix) := by
  have hb := baseId_name r f hp hg (by rw [hf]; simp [typeSep])
  rw [operationId_eq, hb]
  exact ⟨fun h => if_pos h, fun h => if_neg h⟩

example : operationId { method := [], explicit := false, path := [], pkg := "x.org/api".toList, suffix := "GET".toList, fn := "x.org/api-->Server.List".toList } =
    "x.org/api.Server.List_GET".toList := by decide

/-- **C55, partial.** Handlers with different full names `pkg.f` have operations with different
ids, when the names contain no underscore.  Missing: one handler registered for several paths or by
several calls — `C55_shared_handler`; names with underscores — `C55_underscore`. -/
theorem C55_distinct_handlers_partial (r r' : Route) (f f' : Str) (hp : r.pkg ≠ [] ∧ r'.pkg ≠ []) (hg : '>' ∉ r.pkg ∧ '>' ∉ r'.pkg)
    (hf : r.fn = r.pkg ++ "-->".toList ++ f) (hf' : r'.fn = r'.pkg ++ "-->".toList ++ f')
    (hne : r.pkg ++ '.' :: f ≠ r'.pkg ++ '.' :: f')
    (hs : (r.suffix = [] ∨ Verb r.suffix) ∧ (r'.suffix = [] ∨ Verb r'.suffix))
    (hu : '_' ∉ r.pkg ++ '.' :: f ∧ '_' ∉ r'.pkg ++ '.' :: f') : operationId r ≠ operationId r' := by
  have hsep : ∀ {s : Str}, s = [] ∨ Verb s → '_' ∉ s := fun h => by
    rcases h with rfl | h
    · simp
    · exact verb_no_sep h
  have hb := baseId_name r f hp.1 hg.1 (by rw [hf]; simp [typeSep])
  have hb' := baseId_name r' f' hp.2 hg.2 (by rw [hf']; simp [typeSep])
  rw [operationId_eq, operationId_eq, hb, hb']
  intro e
  split at e <;> split at e
  · exact hne e
  · exact hu.1 (by rw [e]; simp)
  · exact hu.2 (by rw [← e]; simp)
  · exact hne (append_sep_inj (hsep hs.1) (hsep hs.2) e).1

example : ∃ r r' : Route, operationId r ≠ operationId r' ∧ r.pkg = r'.pkg ∧ Verb r.suffix ∧ '_' ∉ r.pkg ++ '.' :: "List".toList :=
  ⟨{ method := "GET".toList, explicit := false, path := [], pkg := "api".toList, suffix := "GET".toList, fn := "api-->List".toList },
   { method := "GET".toList, explicit := false, path := [], pkg := "api".toList, fn := "api-->Show".toList },
   by decide, rfl, by unfold Verb; decide, by decide⟩

/-- **C55, negation.** A handler `list_GET` and the GET branch of a handler `list` get the same id. -/
theorem C55_underscore :
    ∃ r r' : Route, r.fn = "api-->list_GET".toList ∧ r'.fn = "api-->list".toList ∧ operationId r = operationId r' :=
  ⟨{ method := "GET".toList, explicit := false, path := [], pkg := "api".toList, fn := "api-->list_GET".toList },
   { method := "GET".toList, explicit := false, path := [], pkg := "api".toList, suffix := "GET".toList, fn := "api-->list".toList },
   rfl, rfl, by decide⟩

/-- **C55, negation.** One handler registered for two paths, or for two verbs of one path by two
calls, gives two operations with the same id. -/
theorem C55_shared_handler :
    ∃ r1 r2 r3 : Route, (buildPaths id [r1, r2]).map (fun x => x.2.map (·.2.id)) = [["p.h".toList], ["p.h".toList]] ∧
      (buildPaths id [r1, r3]).map (fun x => x.2.map (·.2.id)) = [["p.h".toList, "p.h".toList]] :=
  ⟨{ method := "GET".toList, explicit := true, path := "/x".toList, pkg := "p".toList, fn := "h".toList },
   { method := "GET".toList, explicit := true, path := "/y".toList, pkg := "p".toList, fn := "h".toList },
   { method := "POST".toList, explicit := true, path := "/x".toList, pkg := "p".toList, fn := "h".toList }, by decide, by decide⟩

end Verif.MethodsModel
