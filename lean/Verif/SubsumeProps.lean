import Verif.PathsProps
/-! # Property C09: collapsing duplicate discoveries; C53: ServeMux patterns -/

namespace Verif.Paths
open Verif.Common

/-! ## C09 -/

theorem subseqLoop_iff [DecidableEq α] : ∀ (a b : List α), subseqLoop a b = true ↔ a.Sublist b
  | [], b => by simp [subseqLoop]
  | a :: as, [] => by simp [subseqLoop]
  | a :: as, b :: bs => by
    unfold subseqLoop
    by_cases h : b = a
    · subst h
      rw [if_pos rfl, subseqLoop_iff as bs, List.cons_sublist_cons]
    · rw [if_neg h, subseqLoop_iff (a :: as) bs]
      constructor
      · intro hs; exact .cons _ hs
      · intro hs
        cases hs with
        | cons _ hs => exact hs
        | cons_cons _ hs => exact absurd rfl h

/-- `r` is a strictly less mounted discovery of the same registration as `s`: same handler,
method and path, and the mount segments of `r` are a strictly shorter ordered selection of
those of `s`. -/
def LessMounted {ε} (r s : Route ε) : Prop :=
  r.fn = s.fn ∧ r.method = s.method ∧ r.path = s.path ∧
  (mountSegments r.mount).Sublist (mountSegments s.mount) ∧
  (mountSegments r.mount).length < (mountSegments s.mount).length

theorem subsumedBy_iff {ε} (r s : Route ε) : subsumedBy r s = true ↔ LessMounted r s := by
  simp only [subsumedBy, isSubsequence, Bool.and_eq_true, decide_eq_true_eq, subseqLoop_iff, LessMounted,
    Route.key, Prod.mk.injEq]
  constructor
  · rintro ⟨⟨⟨h1, h2, h3⟩, h4⟩, h5⟩; exact ⟨h1, h2, h3, h5, h4⟩
  · rintro ⟨h1, h2, h3, h5, h4⟩; exact ⟨⟨⟨h1, h2, h3⟩, h4⟩, h5⟩

theorem isDropped_iff {ε} (rs : List (Route ε)) (r : Route ε) :
    isDropped rs r = true ↔ ∃ s ∈ rs, LessMounted r s := by
  simp [isDropped, subsumedBy_iff]

theorem LessMounted.trans {ε} {r s t : Route ε} (h1 : LessMounted r s) (h2 : LessMounted s t) :
    LessMounted r t :=
  ⟨h1.1.trans h2.1, h1.2.1.trans h2.2.1, h1.2.2.1.trans h2.2.2.1, h1.2.2.2.1.trans h2.2.2.2.1,
    Nat.lt_trans h1.2.2.2.2 h2.2.2.2.2⟩

/-- A bound on the number of segments gives a maximal superset. -/
theorem exists_survivor {ε} (rs : List (Route ε)) (B : Nat)
    (hB : ∀ s ∈ rs, (mountSegments s.mount).length ≤ B) :
    ∀ (k : Nat) (r : Route ε), r ∈ rs → B - (mountSegments r.mount).length ≤ k →
      isDropped rs r = true → ∃ s ∈ rs, isDropped rs s = false ∧ LessMounted r s := by
  intro k
  induction k with
  | zero =>
    intro r hr hk hd
    obtain ⟨s, hs, hl⟩ := (isDropped_iff rs r).mp hd
    have := hB s hs
    have := hl.2.2.2.2
    have := hB r hr
    omega
  | succ k ih =>
    intro r hr hk hd
    obtain ⟨s, hs, hl⟩ := (isDropped_iff rs r).mp hd
    cases hds : isDropped rs s with
    | false => exact ⟨s, hs, hds, hl⟩
    | true =>
      have h1 := hl.2.2.2.2
      have h2 := hB s hs
      obtain ⟨t, ht, htd, htl⟩ := ih s hs (by omega) hds
      exact ⟨t, ht, htd, hl.trans htl⟩

theorem exists_bound {ε} (rs : List (Route ε)) : ∃ B, ∀ s ∈ rs, (mountSegments s.mount).length ≤ B := by
  induction rs with
  | nil => exact ⟨0, by simp⟩
  | cons r rs ih =>
    obtain ⟨B, hB⟩ := ih
    refine ⟨max B (mountSegments r.mount).length, ?_⟩
    intro s hs
    rcases List.mem_cons.mp hs with rfl | hs
    · omega
    · have := hB s hs; omega

/-- The identifying part of a route (everything but its extraction). -/
def Route.ident {ε} (r : Route ε) : Str × Str × Str × Str := (r.fn, r.method, r.path, r.mount)

/-- **C09 (survivors).** The routes that remain are, in their original order, exactly the
discoveries for which no more mounted discovery of the same registration exists. -/
theorem C09_survivors_exact {ε} (merge : ε → ε → ε) (rs : List (Route ε)) :
    (dropSubsumed merge rs).map Route.ident =
      (rs.filter fun r => !isDropped rs r).map Route.ident ∧
    ∀ r ∈ rs, isDropped rs r = true ↔ ∃ s ∈ rs, LessMounted r s := by
  refine ⟨?_, fun r _ => isDropped_iff rs r⟩
  simp [dropSubsumed, List.map_map, Function.comp_def, Route.ident]

/-- **C09 (order).** Survivors keep their relative order. -/
theorem C09_order_kept {ε} (merge : ε → ε → ε) (rs : List (Route ε)) :
    ((dropSubsumed merge rs).map Route.ident).Sublist (rs.map Route.ident) := by
  rw [(C09_survivors_exact merge rs).1]
  exact List.Sublist.map _ List.filter_sublist

/-- **C09 (nothing lost).** Every discovery either survives or a strictly more mounted
discovery of the same registration survives. -/
theorem C09_every_route_represented {ε} (merge : ε → ε → ε) (rs : List (Route ε)) (r : Route ε) (hr : r ∈ rs) :
    ∃ s ∈ dropSubsumed merge rs, s.ident = r.ident ∨ LessMounted r s := by
  have lift : ∀ t ∈ rs, isDropped rs t = false → ∃ s ∈ dropSubsumed merge rs, s.ident = t.ident := by
    intro t ht hd
    refine ⟨_, List.mem_map_of_mem (List.mem_filter.mpr ⟨ht, by simp [hd]⟩), rfl⟩
  cases hd : isDropped rs r with
  | false =>
    obtain ⟨s, hs, e⟩ := lift r hr hd
    exact ⟨s, hs, Or.inl e⟩
  | true =>
    obtain ⟨B, hB⟩ := exists_bound rs
    obtain ⟨t, ht, htd, htl⟩ := exists_survivor rs B hB _ r hr (Nat.le_refl _) hd
    obtain ⟨s, hs, e⟩ := lift t ht htd
    refine ⟨s, hs, Or.inr ?_⟩
    simp only [Route.ident, Prod.mk.injEq] at e
    obtain ⟨e1, e2, e3, e4⟩ := e
    unfold LessMounted at htl ⊢
    rw [e1, e2, e3, e4]; exact htl

/-- **C09 (antichain).** No surviving route is a less mounted discovery of another one. -/
theorem C09_survivors_incomparable {ε} (merge : ε → ε → ε) (rs : List (Route ε)) (r s : Route ε)
    (hr : r ∈ dropSubsumed merge rs) (hs : s ∈ dropSubsumed merge rs) : ¬ LessMounted r s := by
  intro hl
  obtain ⟨r0, hr0, rfl⟩ := List.mem_map.mp hr
  obtain ⟨s0, hs0, rfl⟩ := List.mem_map.mp hs
  obtain ⟨hr0, hrd⟩ := List.mem_filter.mp hr0
  obtain ⟨hs0, _⟩ := List.mem_filter.mp hs0
  have : isDropped rs r0 = true := (isDropped_iff rs r0).mpr ⟨s0, hs0, hl⟩
  simp [this] at hrd

/-- **C09 (contributions kept).** Any fact about an extraction that merging preserves from
both sides, and that holds of a dropped route's extraction, holds of the extraction of every
surviving route with the same handler, method and path. -/
theorem C09_contribution_kept {ε} (merge : ε → ε → ε) (P : ε → Prop)
    (hl : ∀ a b, P a → P (merge a b)) (hrr : ∀ a b, P b → P (merge a b))
    (rs : List (Route ε)) (r : Route ε) (hr : r ∈ rs) (hd : ∃ s ∈ rs, LessMounted r s) (hP : P r.ext)
    (s : Route ε) (hs : s ∈ dropSubsumed merge rs) (hk : s.key = r.key) : P s.ext := by
  obtain ⟨s0, hs0, rfl⟩ := List.mem_map.mp hs
  have fold : ∀ (l : List ε) (e : ε), (P e ∨ ∃ x ∈ l, P x) → P (l.foldl merge e) := by
    intro l
    induction l with
    | nil => intro e h; simpa using h
    | cons x xs ih =>
      intro e h
      simp only [List.foldl_cons]
      apply ih
      rcases h with h | ⟨y, hy, hPy⟩
      · exact Or.inl (hl _ _ h)
      · rcases List.mem_cons.mp hy with rfl | hy
        · exact Or.inl (hrr _ _ hPy)
        · exact Or.inr ⟨y, hy, hPy⟩
  apply fold
  right
  refine ⟨r.ext, List.mem_map_of_mem (List.mem_filter.mpr ⟨hr, ?_⟩), hP⟩
  have hk' : r.key = s0.key := hk.symm
  simp [(isDropped_iff rs r).mpr hd, hk']

/-- **C09 (stable).** Collapsing a collapsed list removes nothing more. -/
theorem C09_idempotent {ε} (merge : ε → ε → ε) (rs : List (Route ε)) :
    dropSubsumed merge (dropSubsumed merge rs) = dropSubsumed merge rs := by
  have hnone : ∀ r ∈ dropSubsumed merge rs, isDropped (dropSubsumed merge rs) r = false := by
    intro r hr
    cases h : isDropped (dropSubsumed merge rs) r with
    | false => rfl
    | true =>
      obtain ⟨s, hs, hl⟩ := (isDropped_iff _ _).mp h
      exact absurd hl (C09_survivors_incomparable merge rs r s hr hs)
  generalize dropSubsumed merge rs = out at hnone
  unfold dropSubsumed
  have h1 : (out.filter fun r => !isDropped out r) = out := by
    rw [List.filter_eq_self]; intro r hr; simp [hnone r hr]
  rw [h1]
  conv => rhs; rw [← List.map_id out]
  apply List.map_congr_left
  intro r _
  have h2 : (out.filter fun s => isDropped out s && decide (s.key = r.key)) = [] := by
    rw [List.filter_eq_nil_iff]; intro s hs; simp [hnone s hs]
  simp [h2]

/-- The README situation: only the fully mounted discovery survives, and two genuine mounts
of one sub-router both do. -/
example :
    (dropSubsumed (· ++ ·) [⟨"h".toList, "GET".toList, "/{id}".toList, "/api/user".toList, [1]⟩,
      ⟨"h".toList, "GET".toList, "/{id}".toList, "/api".toList, [2]⟩,
      ⟨"h".toList, "GET".toList, "/{id}".toList, "".toList, [3]⟩,
      ⟨"h".toList, "GET".toList, "/{id}".toList, "/v2".toList, [4]⟩]) =
    [⟨"h".toList, "GET".toList, "/{id}".toList, "/api/user".toList, [1, 2, 3]⟩,
      ⟨"h".toList, "GET".toList, "/{id}".toList, "/v2".toList, [4, 2, 3]⟩] := by decide

/-- **appendUniqueStrings**: with extras, no duplicates, first-seen order, and exactly the
elements of both lists. -/
theorem C09_appendUnique [DecidableEq α] (base extras : List α) (h : extras ≠ []) :
    (appendUnique base extras).Nodup ∧ (appendUnique base extras).Sublist (base ++ extras) ∧
    ∀ x, x ∈ appendUnique base extras ↔ x ∈ base ∨ x ∈ extras := by
  unfold appendUnique
  rw [if_neg h]
  exact ⟨dedup_nodup _, dedup_sublist _, by simp⟩

/-! ## C53: Go 1.22 ServeMux patterns -/

/-- Pieces of a ServeMux path. -/
inductive MuxPiece
  | lit (c : Char)      -- text
  | seg (name : Str)    -- `{name}`
  | rest (name : Str)   -- `{name...}`
  | anchor              -- `{$}`

def MuxPiece.Ok : MuxPiece → Prop
  | .lit c => c ≠ '{'
  | .seg n => Ident n
  | .rest n => Ident n
  | .anchor => True

def MuxPiece.text : MuxPiece → Str
  | .lit c => [c]
  | .seg n => '{' :: n ++ ['}']
  | .rest n => '{' :: n ++ ['.', '.', '.', '}']
  | .anchor => ['{', '$', '}']

def MuxPiece.openapi : MuxPiece → Str
  | .lit c => [c]
  | .seg n => '{' :: n ++ ['}']
  | .rest n => '{' :: n ++ ['}']
  | .anchor => []

def MuxPiece.mid : MuxPiece → Str
  | .lit c => [c]
  | .seg n => '{' :: n ++ ['}']
  | .rest n => '{' :: n ++ ['}']
  | .anchor => ['{', '$', '}']

theorem ident_all {n : Str} (h : Ident n) : ∀ x ∈ n, isIdChar x = true := by
  obtain ⟨c, cs, rfl, h1, h2⟩ := h
  have hc : isIdChar c = true := by
    simp only [isIdStart, Bool.or_eq_true] at h1
    simp only [isIdChar, Char.isAlphanum, Bool.or_eq_true]
    rcases h1 with h1 | h1
    · exact Or.inl (Or.inl h1)
    · exact Or.inr h1
  intro x hx
  rcases List.mem_cons.mp hx with e | hx
  · rw [e]; exact hc
  · exact h2 x hx

theorem takeWhile_append_stop {p : Char → Bool} (n : Str) (c : Char) (r : Str) (h : ∀ x ∈ n, p x = true)
    (hc : p c = false) : (n ++ c :: r).takeWhile p = n ∧ (n ++ c :: r).dropWhile p = c :: r := by
  induction n with
  | nil => simp [hc]
  | cons a as ih =>
    have := ih fun x hx => h x (by simp [hx])
    simp [h a (by simp), this.1, this.2]

theorem wildcardAt_rest {n : Str} (h : Ident n) (r : Str) :
    wildcardAt (n ++ ['.', '.', '.', '}'] ++ r) = some (n, r) := by
  obtain ⟨c, cs, rfl, h1, h2⟩ := h
  have := takeWhile_append_stop (p := isIdChar) cs '.' (['.', '.', '}'] ++ r) h2 (by decide)
  simp only [List.cons_append, List.nil_append, List.append_assoc] at this ⊢
  simp [wildcardAt, h1, this.1, this.2]

theorem wildcardAt_seg {n : Str} (h : Ident n) (r : Str) : wildcardAt (n ++ '}' :: r) = none := by
  obtain ⟨c, cs, rfl, h1, h2⟩ := h
  have := takeWhile_append_stop (p := isIdChar) cs '}' r h2 (by decide)
  simp [wildcardAt, h1, this.2]

theorem wildcardAt_length : ∀ (s n r : Str), wildcardAt s = some (n, r) → r.length < s.length := by
  intro s n r h
  cases s with
  | nil => simp [wildcardAt] at h
  | cons c cs =>
    simp only [wildcardAt] at h
    split at h
    · split at h
      · rename_i rest hdw
        simp only [Option.some.injEq, Prod.mk.injEq] at h
        have : (cs.dropWhile isIdChar).length ≤ cs.length := (List.dropWhile_sublist _).length_le
        rw [hdw] at this
        simp [← h.2] at this ⊢
        omega
      · simp at h
    · simp at h

theorem wildcardLoop_fuel : ∀ (f g : Nat) (s : Str), s.length ≤ f → s.length ≤ g →
    wildcardLoop f s = wildcardLoop g s
  | 0, g, s, hf, _ => by
    have : s = [] := List.length_eq_zero_iff.mp (by omega)
    subst this
    cases g <;> simp [wildcardLoop]
  | f + 1, 0, s, _, hg => by
    have : s = [] := List.length_eq_zero_iff.mp (by omega)
    subst this
    simp [wildcardLoop]
  | f + 1, g + 1, [], _, _ => by simp [wildcardLoop]
  | f + 1, g + 1, c :: cs, hf, hg => by
    simp only [List.length_cons] at hf hg
    simp only [wildcardLoop]
    split
    · cases h : wildcardAt cs with
      | none => simp only; rw [wildcardLoop_fuel f g cs (by omega) (by omega)]
      | some ir =>
        obtain ⟨i, r⟩ := ir
        have := wildcardAt_length _ _ _ h
        simp only
        rw [wildcardLoop_fuel f g r (by omega) (by omega)]
    · rw [wildcardLoop_fuel f g cs (by omega) (by omega)]

def wild (s : Str) : Str := wildcardLoop s.length s

theorem wild_lits (n s : Str) (h : '{' ∉ n) : wild (n ++ s) = n ++ wild s := by
  induction n with
  | nil => rfl
  | cons c cs ih =>
    simp only [List.mem_cons, not_or] at h
    have hc : c ≠ '{' := fun e => h.1 e.symm
    rw [List.cons_append, List.cons_append, ← ih h.2]
    simp [wild, wildcardLoop, hc]

theorem wild_open_none (s : Str) (h : wildcardAt s = none) : wild ('{' :: s) = '{' :: wild s := by
  simp [wild, wildcardLoop, h]

theorem wild_open_some (s n r : Str) (h : wildcardAt s = some (n, r)) :
    wild ('{' :: s) = '{' :: n ++ '}' :: wild r := by
  have hl := wildcardAt_length _ _ _ h
  simp only [wild, List.length_cons, wildcardLoop, if_true, h]
  rw [wildcardLoop_fuel s.length r.length r (by omega) (Nat.le_refl _)]

theorem wild_pieces (ps : List MuxPiece) (h : ∀ p ∈ ps, p.Ok) :
    wild (ps.flatMap MuxPiece.text) = ps.flatMap MuxPiece.mid := by
  induction ps with
  | nil => rfl
  | cons p ps ih =>
    have hp := h p (by simp)
    have ih := ih fun q hq => h q (by simp [hq])
    simp only [List.flatMap_cons]
    cases p with
    | lit c =>
      simp only [MuxPiece.text, MuxPiece.mid]
      rw [wild_lits [c] _ (by simp; exact fun e => hp e.symm), ih]
    | seg n =>
      have hn := ident_noBrace hp
      simp only [MuxPiece.text, MuxPiece.mid, List.cons_append, List.append_assoc, List.nil_append]
      rw [wild_open_none _ (wildcardAt_seg hp _)]
      have e : n ++ '}' :: ps.flatMap MuxPiece.text = (n ++ ['}']) ++ ps.flatMap MuxPiece.text := by simp
      rw [e, wild_lits _ _ (by simp [hn.1]), ih]
      simp
    | rest n =>
      have := wildcardAt_rest hp (ps.flatMap MuxPiece.text)
      simp only [MuxPiece.text, MuxPiece.mid, List.cons_append]
      rw [wild_open_some _ _ _ this, ih]
      simp
    | anchor =>
      simp only [MuxPiece.text, MuxPiece.mid, List.cons_append, List.nil_append]
      rw [wild_open_none _ (by simp [wildcardAt, show isIdStart '$' = false from by decide])]
      have e : '$' :: '}' :: ps.flatMap MuxPiece.text = ['$', '}'] ++ ps.flatMap MuxPiece.text := by simp
      rw [e, wild_lits _ _ (by decide), ih]
      simp

theorem dropAnchor_cons (c : Char) (s : Str) (h : c ≠ '{' ∨ s.head? ≠ some '$') :
    dropAnchor (c :: s) = c :: dropAnchor s := by
  rw [dropAnchor.eq_2]
  intro rest e1 e2
  rcases h with h | h
  · exact h e1
  · rw [e2] at h; simp at h

theorem dropAnchor_lits (n s : Str) (h : '{' ∉ n) : dropAnchor (n ++ s) = n ++ dropAnchor s := by
  induction n with
  | nil => rfl
  | cons c cs ih =>
    simp only [List.mem_cons, not_or] at h
    rw [List.cons_append, dropAnchor_cons _ _ (Or.inl fun e => h.1 e.symm), ih h.2, List.cons_append]

theorem dropAnchor_pieces (ps : List MuxPiece) (h : ∀ p ∈ ps, p.Ok) :
    dropAnchor (ps.flatMap MuxPiece.mid) = ps.flatMap MuxPiece.openapi := by
  induction ps with
  | nil => rfl
  | cons p ps ih =>
    have hp := h p (by simp)
    have ih := ih fun q hq => h q (by simp [hq])
    have named : ∀ n, Ident n → dropAnchor (('{' :: n ++ ['}']) ++ ps.flatMap MuxPiece.mid) =
        ('{' :: n ++ ['}']) ++ ps.flatMap MuxPiece.openapi := by
      intro n hn
      have hnb := ident_noBrace hn
      obtain ⟨c, cs, rfl, h1, h2⟩ := hn
      have hc : c ≠ '$' := by rintro rfl; exact absurd h1 (by decide)
      rw [List.cons_append, List.cons_append, dropAnchor_cons _ _ (Or.inr (by simp [hc])),
        dropAnchor_lits _ _ (by simp at hnb ⊢; exact hnb.1), ih]
      simp
    simp only [List.flatMap_cons]
    cases p with
    | lit c =>
      simp only [MuxPiece.openapi, MuxPiece.mid]
      rw [dropAnchor_lits [c] _ (by simp; exact fun e => hp e.symm), ih]
    | seg n => exact named n hp
    | rest n => exact named n hp
    | anchor =>
      simp only [MuxPiece.openapi, MuxPiece.mid, List.cons_append, List.nil_append, dropAnchor]
      exact ih

/-- **C53 (syntax).** A ServeMux path is normalised piece by piece: `{name...}` becomes
`{name}`, `{$}` disappears, everything else is unchanged. -/
theorem C53_servemux_normalised (ps : List MuxPiece) (h : ∀ p ∈ ps, p.Ok) :
    normalizeServeMux (ps.flatMap MuxPiece.text) = ps.flatMap MuxPiece.openapi := by
  unfold normalizeServeMux
  have := wild_pieces ps h
  unfold wild at this
  rw [this, dropAnchor_pieces ps h]

example : normalizeServeMux "/files/{path...}".toList = "/files/{path}".toList ∧
    normalizeServeMux "/{id}/{$}".toList = "/{id}/".toList := by decide

theorem dropWhile_of_head {p : Char → Bool} (s : Str) (h : ∀ c, s.head? = some c → p c = false) :
    s.dropWhile p = s := by
  cases s with
  | nil => rfl
  | cons c cs => simp [h c rfl]

/-- Neither end of `s` satisfies `p`. -/
def NoEnds (p : Char → Bool) (s : Str) : Prop :=
  (∀ c, s.head? = some c → p c = false) ∧ (∀ c, s.getLast? = some c → p c = false)

theorem trim_of_noEnds {p : Char → Bool} (s : Str) (h : NoEnds p s) :
    ((s.dropWhile p).reverse.dropWhile p).reverse = s := by
  rw [dropWhile_of_head s h.1, dropWhile_of_head, List.reverse_reverse]
  intro c hc
  rw [List.head?_reverse] at hc
  exact h.2 c hc

theorem dropWhile_all_append {p : Char → Bool} (a s : Str) (ha : ∀ c ∈ a, p c = true)
    (hs : ∀ c, s.head? = some c → p c = false) : (a ++ s).dropWhile p = s := by
  induction a with
  | nil => exact dropWhile_of_head s hs
  | cons x a ih =>
    rw [List.cons_append, List.dropWhile_cons_of_pos (ha x (by simp)), ih (fun c hc => ha c (by simp [hc]))]

theorem trim_pad {p : Char → Bool} (a s b : Str) (hne : s ≠ []) (h : NoEnds p s) (ha : ∀ c ∈ a, p c = true)
    (hb : ∀ c ∈ b, p c = true) : (((a ++ (s ++ b)).dropWhile p).reverse.dropWhile p).reverse = s := by
  rw [dropWhile_all_append a (s ++ b) ha, List.reverse_append, dropWhile_all_append, List.reverse_reverse]
  · intro c hc; exact hb c (List.mem_reverse.1 hc)
  · intro c hc; rw [List.head?_reverse] at hc; exact h.2 c hc
  · intro c hc
    cases s with
    | nil => exact absurd rfl hne
    | cons x s => exact h.1 c (by simpa using hc)

/-- The nine methods net/http knows. -/
def httpMethods : List Str :=
  ["GET".toList, "HEAD".toList, "POST".toList, "PUT".toList, "PATCH".toList, "DELETE".toList,
   "CONNECT".toList, "OPTIONS".toList, "TRACE".toList]

theorem isHTTPMethod_iff (m : Str) : isHTTPMethod m = true ↔ m ∈ httpMethods := by
  unfold isHTTPMethod httpMethods
  simp only [List.map_cons, List.map_nil, decide_eq_true_eq, List.mem_cons, List.not_mem_nil, or_false]
  generalize "GET".toList = a1
  generalize "HEAD".toList = a2
  generalize "POST".toList = a3
  generalize "PUT".toList = a4
  generalize "PATCH".toList = a5
  generalize "DELETE".toList = a6
  generalize "CONNECT".toList = a7
  generalize "OPTIONS".toList = a8
  generalize "TRACE".toList = a9
  grind

/-- **C53 (method).** A pattern `METHOD path`, quoted or not, with any amount of white space
around the path, whose method is one of the nine HTTP methods in any letter case, is
split into that method in upper case and the path. -/
theorem C53_method_split (q m sp path sp' q' : Str) (hm : m.map Char.toUpper ∈ httpMethods)
    (hms : ∀ c ∈ m, isSpace c = false ∧ isQuote c = false)
    (hq : ∀ c ∈ q, isQuote c = true) (hq' : ∀ c ∈ q', isQuote c = true)
    (hsp : ∀ c ∈ sp, isSpace c = true) (hsp' : ∀ c ∈ sp', isSpace c = true)
    (hp : NoEnds isSpace path) (hpq : ∀ c, path.getLast? = some c → isQuote c = false) (hne : path ≠ []) :
    splitMethodFromPath (q ++ ((m ++ ' ' :: (sp ++ (path ++ sp'))) ++ q')) = (m.map Char.toUpper, path) := by
  rw [← isHTTPMethod_iff] at hm
  have hmne : m ≠ [] := by rintro rfl; revert hm; decide
  have hsq : ∀ c, isSpace c = true → isQuote c = false := by
    intro c hc
    simp only [isSpace, isQuote, Bool.or_eq_true, beq_iff_eq] at *
    rcases hc with ((((rfl | rfl) | rfl) | rfl) | rfl) | rfl <;> decide
  have hlast : ∀ c, (path ++ sp').getLast? = some c → isQuote c = false := by
    intro c hc
    rw [List.getLast?_append] at hc
    cases hl : sp'.getLast? with
    | none => rw [hl] at hc; exact hpq c (by simpa using hc)
    | some d =>
      rw [hl] at hc
      simp at hc
      exact hsq c (hsp' c (hc ▸ List.mem_of_getLast? hl))
  have hends : NoEnds isQuote (m ++ ' ' :: (sp ++ (path ++ sp'))) := by
    constructor
    · intro c hc
      cases m with
      | nil => exact absurd rfl hmne
      | cons a as => simp at hc; rw [← hc]; exact (hms a (by simp)).2
    · intro c hc
      apply hlast c
      rw [show m ++ ' ' :: (sp ++ (path ++ sp')) = (m ++ ' ' :: sp) ++ (path ++ sp') by simp, List.getLast?_append] at hc
      cases hl : (path ++ sp').getLast? with
      | none => rw [List.getLast?_eq_none_iff] at hl; simp at hl; exact absurd hl.1 hne
      | some d => rw [hl] at hc; simpa using hc
  have htq : trimQuotes (q ++ ((m ++ ' ' :: (sp ++ (path ++ sp'))) ++ q')) = m ++ ' ' :: (sp ++ (path ++ sp')) :=
    trim_pad _ _ _ (by simp) hends hq hq'
  have htk := takeWhile_append_stop (p := fun c => decide (c ≠ ' ')) m ' ' (sp ++ (path ++ sp'))
    (by intro x hx; have := (hms x hx).1; simp; rintro rfl; exact absurd this (by decide)) (by simp)
  have hts : trimSpace m = m := trim_of_noEnds _
    ⟨fun c hc => (hms c (List.mem_of_mem_head? hc)).1, fun c hc => (hms c (List.mem_of_getLast? hc)).1⟩
  have htp : trimSpace (sp ++ (path ++ sp')) = path := trim_pad _ _ _ hne hp hsp hsp'
  unfold splitMethodFromPath
  simp only [htq, htk.1, hts, hm]
  have hd : (m ++ ' ' :: (sp ++ (path ++ sp'))).drop (m.length + 1) = sp ++ (path ++ sp') := by
    rw [show m ++ ' ' :: (sp ++ (path ++ sp')) = (m ++ [' ']) ++ (sp ++ (path ++ sp')) by simp]
    exact List.drop_left' (by simp)
  simp only [hd, htp]
  simp [hmne]

/-- **C53 (no method).** A pattern without a space passes through, up to surrounding quotes. -/
theorem C53_no_method (path : Str) (h : ' ' ∉ path) (hq : NoEnds isQuote path) :
    splitMethodFromPath path = ([], path) := by
  have htq : trimQuotes path = path := trim_of_noEnds _ hq
  have htk : path.takeWhile (fun c => decide (c ≠ ' ')) = path := by
    clear htq hq
    induction path with
    | nil => rfl
    | cons c cs ih =>
      simp only [List.mem_cons, not_or] at h
      rw [List.takeWhile_cons_of_pos (by simp; exact fun e => h.1 e.symm), ih h.2]
  unfold splitMethodFromPath
  simp only [htq, htk]
  simp

/-- **C53 (not a verb).** A first word that is no HTTP method is not taken for one. -/
theorem C53_host_not_method (raw : Str) (m p : Str) (h : splitMethodFromPath raw = (m, p)) :
    m = [] ∨ m ∈ httpMethods := by
  rw [← isHTTPMethod_iff]
  unfold splitMethodFromPath at h
  simp only at h
  split at h
  · simp at h; exact Or.inl h.1
  · split at h
    · simp at h; exact Or.inl h.1
    · rename_i h2
      simp only [Prod.mk.injEq] at h
      rw [← h.1]
      right; simpa using h2

example : splitMethodFromPath "\"HEAD \t/x \"".toList = ("HEAD".toList, "/x".toList) := by decide
example : splitMethodFromPath "get /users/{id}".toList = ("GET".toList, "/users/{id}".toList) ∧
    splitMethodFromPath "example.com /x".toList = ([], "example.com /x".toList) := by decide

end Verif.Paths
