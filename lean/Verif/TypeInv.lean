import Verif.TypeSpec
/-!
# Lemmas about reading and writing type strings
-/

namespace Verif.TypeModel
open Verif.TypeSpec

/-! ### Prefixes -/

theorem strip_some : ∀ {p s r : Str}, strip p s = some r ↔ s = p ++ r
  | [], s, r => by simp [strip]
  | a :: p, [], r => by simp [strip]
  | a :: p, c :: s, r => by
    unfold strip
    split
    · next h => rw [strip_some, h]; simp
    · next h =>
      simp only [List.cons_append, List.cons.injEq, reduceCtorEq, false_iff]
      exact fun e => h e.1.symm

theorem strip_none {p s : Str} : strip p s = none ↔ ¬ p <+: s := by
  constructor
  · rintro h ⟨r, rfl⟩
    rw [strip_some.mpr rfl] at h
    simp at h
  · intro h
    cases hs : strip p s with
    | none => rfl
    | some r => exact absurd ⟨r, (strip_some.mp hs).symm⟩ h

/-! ### Nesting -/

theorem nesting_append : ∀ (a b : Str) (k : Nat), nesting k (a ++ b) = (nesting k a).bind fun j => nesting j b
  | [], b, k => rfl
  | c :: a, b, k => by
    simp only [List.cons_append, nesting]
    split
    · exact nesting_append a b _
    · split
      · split
        · rfl
        · exact nesting_append a b _
      · split
        · rfl
        · exact nesting_append a b _

theorem nesting_shift : ∀ (a : Str) (k j m : Nat), nesting k a = some j → nesting (k + m) a = some (j + m)
  | [], k, j, m, h => by simp only [nesting, Option.some.injEq] at h ⊢; omega
  | c :: a, k, j, m, h => by
    simp only [nesting] at h ⊢
    split
    · next hc => rw [if_pos hc] at h; have := nesting_shift a _ _ m h; rwa [show k + m + 1 = k + 1 + m by omega]
    · next hc =>
      rw [if_neg hc] at h
      split
      · next hd =>
        rw [if_pos hd] at h
        split at h
        · simp at h
        · next hk =>
          rw [if_neg (by omega)]
          have := nesting_shift a _ _ m h
          rwa [show k + m - 1 = k - 1 + m by omega]
      · next hd =>
        rw [if_neg hd] at h
        split at h
        · simp at h
        · next hk =>
          rw [if_neg (fun e => hk ⟨e.1, by omega⟩)]
          exact nesting_shift a _ _ m h

theorem squares_append : ∀ (a b : Str) (k : Nat), squares k (a ++ b) = (squares k a).bind fun j => squares j b
  | [], b, k => rfl
  | c :: a, b, k => by
    simp only [List.cons_append, squares]
    split
    · exact squares_append a b _
    · split
      · split
        · rfl
        · exact squares_append a b _
      · exact squares_append a b _

theorem squares_shift : ∀ (a : Str) (k j m : Nat), squares k a = some j → squares (k + m) a = some (j + m)
  | [], k, j, m, h => by simp only [squares, Option.some.injEq] at h ⊢; omega
  | c :: a, k, j, m, h => by
    simp only [squares] at h ⊢
    split
    · next hc => rw [if_pos hc] at h; have := squares_shift a _ _ m h; rwa [show k + m + 1 = k + 1 + m by omega]
    · next hc =>
      rw [if_neg hc] at h
      split
      · next hd =>
        rw [if_pos hd] at h
        split at h
        · simp at h
        · next hk =>
          rw [if_neg (by omega)]
          have := squares_shift a _ _ m h
          rwa [show k + m - 1 = k - 1 + m by omega]
      · next hd => rw [if_neg hd] at h; exact squares_shift a _ _ m h

/-- A balanced text is collected whole. -/
theorem splitGo_nesting : ∀ (a r cur : Str) (k j : Nat), nesting k a = some j →
    splitGo k cur (a ++ r) = splitGo j (cur ++ a) r
  | [], r, cur, k, j, h => by
    simp only [nesting, Option.some.injEq] at h
    subst h; simp
  | c :: a, r, cur, k, j, h => by
    simp only [nesting] at h
    simp only [List.cons_append, splitGo]
    have happ : cur ++ c :: a = cur ++ [c] ++ a := by simp
    split
    · next hc =>
      rw [if_pos hc] at h
      rw [happ, ← splitGo_nesting a r _ _ _ h]
      rfl
    · next hc =>
      rw [if_neg hc] at h
      split
      · next hd =>
        rw [if_pos hd] at h
        split at h
        · simp at h
        · next hk =>
          rw [happ, ← splitGo_nesting a r _ _ _ h]
          congr 1
          omega
      · next hd =>
        rw [if_neg hd] at h
        split at h
        · simp at h
        · next hk =>
          rw [if_neg (fun e => hk ⟨e.1, by omega⟩), happ]
          exact splitGo_nesting a r _ _ _ h

/-- A balanced text does not close the bracket. -/
theorem closeBracket_squares : ∀ (a r : Str) (k j : Nat), squares k a = some j →
    closeBracket (k + 1) (a ++ r) = (closeBracket (j + 1) r).map fun x => (a ++ x.1, x.2)
  | [], r, k, j, h => by
    simp only [squares, Option.some.injEq] at h
    subst h; simp
  | c :: a, r, k, j, h => by
    simp only [squares] at h
    simp only [List.cons_append, closeBracket]
    split
    · next hc =>
      rw [if_pos hc] at h
      rw [closeBracket_squares a r _ _ h, Option.map_map]; rfl
    · next hc =>
      rw [if_neg hc] at h
      split
      · next hd =>
        rw [if_pos hd] at h
        split at h
        · simp at h
        · next hk =>
          rw [if_neg (by omega), show k + 1 - 1 = k - 1 + 1 by omega, closeBracket_squares a r _ _ h, Option.map_map]; rfl
      · next hd =>
        rw [if_neg hd] at h
        rw [closeBracket_squares a r _ _ h, Option.map_map]; rfl

theorem closeBracket_item (a r : Str) (h : squares 0 a = some 0) : closeBracket 1 (a ++ ']' :: r) = some (a, r) := by
  have := closeBracket_squares a (']' :: r) 0 0 h
  rw [this]
  simp [closeBracket]

theorem closeBracket_eq : ∀ (s : Str) (d : Nat) (a b : Str), closeBracket d s = some (a, b) → s = a ++ ']' :: b
  | [], d, a, b, h => by simp [closeBracket] at h
  | c :: s, d, a, b, h => by
    simp only [closeBracket] at h
    have key : ∀ d', (closeBracket d' s).map (fun r => (c :: r.1, r.2)) = some (a, b) → c :: s = a ++ ']' :: b := by
      intro d' h
      obtain ⟨⟨x, y⟩, hx, he⟩ := Option.map_eq_some_iff.mp h
      simp only [Prod.mk.injEq] at he
      rw [← he.1, ← he.2, closeBracket_eq s d' x y hx]; simp
    split at h
    · exact key _ h
    · split at h
      · next hc =>
        split at h
        · simp only [Option.some.injEq, Prod.mk.injEq] at h
          rw [← h.1, ← h.2, hc]; rfl
        · exact key _ h
      · exact key _ h

/-! ### Trimming -/

theorem trim_tight {s : Str} (h : Tight s) : trim s = s := by
  obtain ⟨c, d, hc, hd, h1, h2⟩ := h
  cases s with
  | nil => simp at hc
  | cons x s =>
    simp only [List.head?_cons, Option.some.injEq] at hc
    subst hc
    unfold trim
    rw [List.dropWhile_cons, if_neg (by simp [h1])]
    have hl : (x :: s).reverse.head? = some d := by rw [List.head?_reverse]; exact hd
    cases hr : (x :: s).reverse with
    | nil => rw [hr] at hl; simp at hl
    | cons y t =>
      rw [hr] at hl
      simp only [List.head?_cons, Option.some.injEq] at hl
      subst hl
      rw [List.dropWhile_cons, if_neg (by simp [h2]), ← hr, List.reverse_reverse]

theorem dropWhile_length (p : Char → Bool) : ∀ s : Str, (s.dropWhile p).length ≤ s.length
  | [] => Nat.le_refl _
  | c :: s => by
    rw [List.dropWhile_cons]
    split
    · exact Nat.le_trans (dropWhile_length p s) (Nat.le_succ _)
    · exact Nat.le_refl _

theorem trim_length (s : Str) : (trim s).length ≤ s.length := by
  unfold trim
  rw [List.length_reverse]
  refine Nat.le_trans (dropWhile_length _ _) ?_
  rw [List.length_reverse]
  exact dropWhile_length _ _

theorem tight_ne {s : Str} (h : Tight s) : s ≠ [] := by
  rintro rfl
  obtain ⟨c, _, hc, _⟩ := h
  simp at hc

theorem tight_append {a b : Str} (ha : ∃ c, a.head? = some c ∧ isSpace c = false) (hb : ∃ d, b.getLast? = some d ∧ isSpace d = false) :
    Tight (a ++ b) := by
  obtain ⟨c, hc, h1⟩ := ha
  obtain ⟨d, hd, h2⟩ := hb
  refine ⟨c, d, ?_, ?_, h1, h2⟩
  · cases a with
    | nil => simp at hc
    | cons x a => simpa using hc
  · cases b with
    | nil => simp at hd
    | cons x b => rw [List.getLast?_append, hd]; rfl

/-! ### Cutting -/

theorem cutAt_some : ∀ {x : Char} {s a b : Str}, cutAt x s = some (a, b) ↔ s = a ++ x :: b ∧ x ∉ a
  | x, [], a, b => by simp [cutAt]
  | x, c :: s, a, b => by
    unfold cutAt
    split
    · next h =>
      subst h
      simp only [Option.some.injEq, Prod.mk.injEq]
      constructor
      · rintro ⟨rfl, rfl⟩; simp
      · rintro ⟨h1, h2⟩
        cases a with
        | nil => simp at h1; exact ⟨rfl, h1⟩
        | cons y a => simp only [List.cons_append, List.cons.injEq] at h1; rw [h1.1] at h2; simp at h2
    · next h =>
      rw [Option.map_eq_some_iff]
      constructor
      · rintro ⟨⟨a', b'⟩, h1, h2⟩
        simp only [Prod.mk.injEq] at h2
        obtain ⟨e1, e2⟩ := cutAt_some.mp h1
        rw [← h2.1, ← h2.2]
        exact ⟨by rw [e1]; rfl, by simp only [List.mem_cons, not_or]; exact ⟨fun e => h e.symm, e2⟩⟩
      · rintro ⟨h1, h2⟩
        cases a with
        | nil => simp only [List.nil_append, List.cons.injEq] at h1; exact absurd h1.1 h
        | cons y a =>
          simp only [List.cons_append, List.cons.injEq] at h1
          simp only [List.mem_cons, not_or] at h2
          exact ⟨(a, b), cutAt_some.mpr ⟨h1.2, h2.2⟩, by rw [h1.1]⟩

theorem cutAt_none {x : Char} : ∀ {s : Str}, cutAt x s = none ↔ x ∉ s
  | [] => by simp [cutAt]
  | c :: s => by
    unfold cutAt
    split
    · next h => simp [h]
    · next h =>
      rw [Option.map_eq_none_iff, cutAt_none]
      simp only [List.mem_cons, not_or]
      exact ⟨fun hh => ⟨fun e => h e.symm, hh⟩, fun hh => hh.2⟩

theorem cutSep_none : ∀ {s : Str}, ¬ sep <:+: s → cutSep s = none
  | [], _ => rfl
  | c :: s, h => by
    unfold cutSep
    have h1 : strip sep (c :: s) = none := strip_none.mpr fun hp => h hp.isInfix
    rw [h1]
    simp only [Option.map_eq_none_iff]
    exact cutSep_none fun hi => h (hi.trans (List.suffix_cons c s).isInfix)

theorem cutSep_append : ∀ {a b : Str}, ¬ sep <:+: a → cutSep (a ++ (sep ++ b)) = some (a, b)
  | [], b, _ => by simp [cutSep, sep, strip]
  | c :: a, b, h => by
    rw [List.cons_append]
    unfold cutSep
    have h1 : strip sep (c :: (a ++ (sep ++ b))) = none := by
      refine strip_none.mpr fun hp => h ?_
      obtain ⟨r, hr⟩ := hp
      unfold sep at hr ⊢
      cases a with
      | nil => simp at hr
      | cons d a =>
        cases a with
        | nil => simp at hr
        | cons e a =>
          simp only [List.cons_append, List.nil_append, List.cons.injEq] at hr
          exact ⟨[], a, by simp only [List.nil_append, List.cons_append, List.cons.injEq, and_true]; exact ⟨hr.1, hr.2.1, hr.2.2.1⟩⟩
    rw [h1]
    simp only
    rw [cutSep_append fun hi => h (hi.trans (List.suffix_cons c a).isInfix)]
    rfl

theorem cutSep_length : ∀ {s a b : Str}, cutSep s = some (a, b) → b.length < s.length ∧ a.length < s.length
  | [], a, b, h => by simp [cutSep] at h
  | c :: s, a, b, h => by
    unfold cutSep at h
    split at h
    · next r hr =>
      simp only [Option.some.injEq, Prod.mk.injEq] at h
      have := congrArg List.length (strip_some.mp hr)
      rw [← h.2, ← h.1]
      simp only [List.length_cons, List.length_append, sep, List.length_nil] at this ⊢
      omega
    · obtain ⟨⟨x, y⟩, hx, he⟩ := Option.map_eq_some_iff.mp h
      simp only [Prod.mk.injEq] at he
      have := cutSep_length hx
      rw [← he.1, ← he.2]
      simp only [List.length_cons]
      omega

theorem splitSep_none {s : Str} (h : ¬ sep <:+: s) : ∀ n, splitSep n s = [s]
  | 0 => rfl
  | n + 1 => by unfold splitSep; rw [cutSep_none h]

theorem splitSep_length : ∀ (n : Nat) (s : Str), ∀ x ∈ splitSep n s, x.length ≤ s.length
  | 0, s, x, h => by simp [splitSep] at h; rw [h]; exact Nat.le_refl _
  | n + 1, s, x, h => by
    unfold splitSep at h
    split at h
    · simp at h; rw [h]; exact Nat.le_refl _
    · next a b hc =>
      have hl := cutSep_length hc
      rcases List.mem_cons.mp h with h | h
      · rw [h]; omega
      · have := splitSep_length n b x h; omega

theorem cutLastDot_none : ∀ {s : Str}, '.' ∉ s → cutLastDot s = none
  | [], _ => rfl
  | c :: s, h => by
    simp only [List.mem_cons, not_or] at h
    unfold cutLastDot
    rw [cutLastDot_none h.2]
    simp only
    rw [if_neg (fun e => h.1 e.symm)]

theorem cutLastDot_append : ∀ (a b : Str), '.' ∉ b → cutLastDot (a ++ '.' :: b) = some (a, b)
  | [], b, h => by simp only [List.nil_append]; unfold cutLastDot; rw [cutLastDot_none h]; simp
  | c :: a, b, h => by
    rw [List.cons_append]
    unfold cutLastDot
    rw [cutLastDot_append a b h]

theorem cutLastDot_length : ∀ {s a b : Str}, cutLastDot s = some (a, b) → a.length < s.length ∧ b.length < s.length
  | [], a, b, h => by simp [cutLastDot] at h
  | c :: s, a, b, h => by
    unfold cutLastDot at h
    split at h
    · next r hr =>
      simp only [Option.some.injEq, Prod.mk.injEq] at h
      have := cutLastDot_length (a := r.1) (b := r.2) hr
      rw [← h.1, ← h.2]
      simp only [List.length_cons]; omega
    · split at h
      · simp only [Option.some.injEq, Prod.mk.injEq] at h
        rw [← h.1, ← h.2]; simp
      · simp at h

/-! ### The recursive calls are on shorter strings -/

theorem splitGo_length : ∀ (s cur : Str) (d : Int), ∀ x ∈ splitGo d cur s, x.length ≤ cur.length + s.length
  | [], cur, d, x, h => by
    unfold splitGo at h
    split at h
    · simp at h
    · simp at h; rw [h]; exact Nat.le_trans (trim_length _) (Nat.le_add_right _ _)
  | c :: s, cur, d, x, h => by
    unfold splitGo at h
    have key : ∀ d', x ∈ splitGo d' (cur ++ [c]) s → x.length ≤ cur.length + (c :: s).length := by
      intro d' h
      have := splitGo_length s _ _ x h
      simp only [List.length_append, List.length_cons, List.length_nil] at this ⊢
      omega
    split at h
    · exact key _ h
    · split at h
      · exact key _ h
      · split at h
        · rcases List.mem_cons.mp h with h | h
          · rw [h]; exact Nat.le_trans (trim_length _) (Nat.le_add_right _ _)
          · have := splitGo_length s _ _ x h
            simp only [List.length_cons, List.length_nil] at this ⊢
            omega
        · exact key _ h

theorem parseArg_congr {r r' : Str → Ty} {a : Str} (h : r a = r' a) : parseArg r a = parseArg r' a := by
  unfold parseArg; split
  · rfl
  · exact h

theorem map_parseArg_congr {r r' : Str → Ty} {l : List Str} (h : ∀ a ∈ l, r a = r' a) :
    l.map (parseArg r) = l.map (parseArg r') :=
  List.map_congr_left fun a ha => parseArg_congr (h a ha)

theorem nameOf_congr {r r' : Str → Ty} {b : Str} {args : List Ty} (h : ∀ u, u.length < b.length → r u = r' u) :
    nameOf r b args = nameOf r' b args := by
  unfold nameOf
  split
  · next pkg rest hc =>
    have hl := cutSep_length hc
    split
    · rfl
    · next name segs hs =>
      have : segs.map (parseArg r) = segs.map (parseArg r') := by
        refine map_parseArg_congr fun a ha => h a ?_
        have := splitSep_length rest.length rest a (by rw [hs]; exact List.mem_cons_of_mem _ ha)
        omega
      rw [this]
  · rfl

theorem parseNamed_congr {r r' : Str → Ty} {s : Str} (h : ∀ u, u.length < s.length → r u = r' u) :
    parseNamed r s = parseNamed r' s := by
  unfold parseNamed cutArgs
  cases hc : cutAt '[' s with
  | none => simp only; exact nameOf_congr h
  | some x =>
    obtain ⟨base, rest⟩ := x
    have hs := congrArg List.length (cutAt_some.mp hc).1
    simp only [List.length_append, List.length_cons] at hs
    simp only
    split
    · next h1 =>
      split at h1
      · cases h1; exact nameOf_congr h
      · split at h1
        · cases h1
        · cases h1; exact nameOf_congr h
    · next inner h1 =>
      split at h1
      · cases h1
      · split at h1
        · cases h1
          rw [nameOf_congr (fun u hu => h u (by omega)), map_parseArg_congr]
          intro a ha
          have := splitGo_length _ _ _ a ha
          simp only [List.length_nil, List.length_dropLast] at this
          exact h a (by omega)
        · cases h1

theorem closeBracket_length {d : Nat} {s a b : Str} (h : closeBracket d s = some (a, b)) : a.length + b.length < s.length := by
  have := congrArg List.length (closeBracket_eq s d a b h)
  simp only [List.length_append, List.length_cons] at this
  omega

theorem parseStep_congr {r r' : Str → Ty} {s : Str} (h : ∀ u, u.length < s.length → r u = r' u) :
    parseStep r s = parseStep r' s := by
  have hs : ∀ {p u : Str}, p ≠ [] → strip p s = some u → r u = r' u := by
    intro p u hp hu
    have := congrArg List.length (strip_some.mp hu)
    have hp := List.length_pos_iff.mpr hp
    simp only [List.length_append] at this
    exact h u (by omega)
  have hl : ∀ {p u : Str}, strip p s = some u → u.length ≤ s.length := by
    intro p u hu
    have := congrArg List.length (strip_some.mp hu)
    simp only [List.length_append] at this
    omega
  unfold parseStep
  split
  · rfl
  · split
    · next r0 hr => rw [hs (by simp) hr]
    · split
      · next hr => rw [hs (by simp) hr]
      · split
        · next hr =>
          unfold parseMap
          split
          · exact parseNamed_congr h
          · next key elem hc =>
            have h1 := closeBracket_length hc
            have h2 := hl hr
            rw [h key (by omega), h elem (by omega), parseNamed_congr h]
        · split
          · next hr => rw [hs (by simp [kSend]) hr]
          · split
            · next hr => rw [hs (by simp [kRecv]) hr]
            · split
              · next hr => rw [hs (by simp [kChan]) hr]
              · split
                · next hr =>
                  unfold parseArr
                  split
                  · exact parseNamed_congr h
                  · next len elem hc =>
                    have h1 := closeBracket_length hc
                    have h2 := hl hr
                    rw [h elem (by omega), parseNamed_congr h]
                · exact parseNamed_congr h

theorem parseF_stable : ∀ (n m : Nat) (s : Str), s.length < n → s.length < m → parseF n s = parseF m s
  | 0, _, s, h, _ => absurd h (Nat.not_lt_zero _)
  | n + 1, 0, s, _, h => absurd h (Nat.not_lt_zero _)
  | n + 1, m + 1, s, h1, h2 => by
    unfold parseF
    exact parseStep_congr fun u hu => parseF_stable n m u (by omega) (by omega)

theorem parse_eq (s : Str) : parse s = parseStep parse s := by
  show parseStep (parseF s.length) s = parseStep parse s
  exact parseStep_congr fun u hu => parseF_stable _ _ u (by omega) (by omega)

end Verif.TypeModel
