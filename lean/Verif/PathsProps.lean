import Verif.PathsSpec
/-! # Properties C04, C05, C06, C09, C53: paths -/

namespace Verif.Paths
open Verif.Common

/-! ## Trimming -/

theorem trimL_append (x y : Str) : trimL (x ++ y) = if trimL x = [] then trimL y else trimL x ++ y := by
  unfold trimL
  rw [List.dropWhile_append]
  simp [List.isEmpty_iff]

theorem trimR_append (x y : Str) : trimR (x ++ y) = if trimR y = [] then trimR x else x ++ trimR y := by
  unfold trimR
  rw [List.reverse_append, List.dropWhile_append]
  by_cases h : List.dropWhile (fun c => c == '/') y.reverse = []
  · simp [h]
  · simp [h]

theorem trimR_cons (c : Char) (cs : Str) :
    trimR (c :: cs) = if trimR cs = [] then (if c = '/' then [] else [c]) else c :: trimR cs := by
  have := trimR_append [c] cs
  simp only [List.singleton_append] at this
  rw [this]
  congr 1
  unfold trimR
  by_cases h : c = '/' <;> simp [h]

theorem trimL_cons (c : Char) (cs : Str) : trimL (c :: cs) = if c = '/' then trimL cs else c :: cs := by
  unfold trimL
  by_cases h : c = '/' <;> simp [h]

@[simp] theorem trimL_nil : trimL [] = [] := rfl
@[simp] theorem trimR_nil : trimR [] = [] := rfl

theorem trimL_idem (s : Str) : trimL (trimL s) = trimL s := by
  induction s with
  | nil => rfl
  | cons c cs ih =>
    rw [trimL_cons]
    split
    · exact ih
    · rename_i h; rw [trimL_cons, if_neg h]

theorem trimR_idem (s : Str) : trimR (trimR s) = trimR s := by
  induction s with
  | nil => rfl
  | cons c cs ih =>
    rw [trimR_cons]
    split
    · split
      · rfl
      · rename_i h; simp [trimR_cons, h]
    · rename_i h; rw [trimR_cons, ih, if_neg h]

theorem trim_comm (s : Str) : trimL (trimR s) = trimR (trimL s) := by
  induction s with
  | nil => rfl
  | cons c cs ih =>
    by_cases h : c = '/'
    · subst h
      rw [trimL_cons, if_pos rfl, ← ih, trimR_cons]
      split
      · rename_i h2; rw [h2]; simp
      · rw [trimL_cons, if_pos rfl]
    · rw [trimL_cons, if_neg h, trimR_cons]
      split
      · simp [h, trimL_cons]
      · rw [trimL_cons, if_neg h]

theorem joinPaths_eq (a b : Str) : joinPaths a b = trimR a ++ '/' :: trimL b := by
  unfold joinPaths
  by_cases h : trimR a = [] <;> simp [h]

/-- `trimR` removes slashes only, and leaves no trailing slash. -/
theorem trimR_spec (s : Str) : ∃ n, s = trimR s ++ List.replicate n '/' := by
  induction s with
  | nil => exact ⟨0, rfl⟩
  | cons c cs ih =>
    obtain ⟨n, hn⟩ := ih
    rw [trimR_cons]
    split
    · rename_i h
      rw [h] at hn
      split
      · rename_i hc; subst hc
        exact ⟨n + 1, by rw [List.replicate_succ]; simpa using hn⟩
      · exact ⟨n, by simpa using hn⟩
    · exact ⟨n, by rw [List.cons_append, ← hn]⟩

theorem trimL_spec (s : Str) : ∃ n, s = List.replicate n '/' ++ trimL s := by
  induction s with
  | nil => exact ⟨0, rfl⟩
  | cons c cs ih =>
    obtain ⟨n, hn⟩ := ih
    rw [trimL_cons]
    split
    · rename_i hc; subst hc
      exact ⟨n + 1, by rw [List.replicate_succ]; simpa using hn⟩
    · exact ⟨0, rfl⟩

theorem trimL_head (s : Str) : (trimL s).head? ≠ some '/' := by
  induction s with
  | nil => simp
  | cons c cs ih =>
    rw [trimL_cons]
    split
    · exact ih
    · rename_i h; simpa using h

theorem trimR_last (s : Str) : (trimR s).getLast? ≠ some '/' := by
  have := trimL_head s.reverse
  unfold trimL at this
  unfold trimR
  rw [List.getLast?_reverse]
  exact this

/-! ## C04 -/

/-- **C04 (seam).** Joining strips slashes at the seam and puts exactly one there: the
left part does not end with a slash, the right part does not start with one. -/
theorem C04_one_slash_at_seam (a b : Str) : ∃ l r m n,
    a = l ++ List.replicate m '/' ∧ b = List.replicate n '/' ++ r ∧
    l.getLast? ≠ some '/' ∧ r.head? ≠ some '/' ∧ joinPaths a b = l ++ '/' :: r := by
  obtain ⟨m, hm⟩ := trimR_spec a
  obtain ⟨n, hn⟩ := trimL_spec b
  exact ⟨trimR a, trimL b, m, n, hm, hn, trimR_last a, trimL_head b, joinPaths_eq a b⟩

/-- **C04 (rooted).** The joined path starts with '/' if the prefix is empty or does. -/
theorem C04_rooted (a b : Str) (h : a = [] ∨ a.head? = some '/') : (joinPaths a b).head? = some '/' := by
  rw [joinPaths_eq]
  rcases h with rfl | h
  · rfl
  · cases a with
    | nil => simp at h
    | cons c cs =>
      simp only [List.head?_cons, Option.some.injEq] at h
      subst h
      rw [trimR_cons]
      split <;> simp

/-- **C04 (associativity).** Grouping of nested joins does not matter. -/
theorem C04_join_assoc (a b c : Str) : joinPaths (joinPaths a b) c = joinPaths a (joinPaths b c) := by
  simp only [joinPaths_eq]
  rw [trimR_append, trimR_cons, trimL_append, trim_comm, trimL_cons, if_pos rfl, trimL_idem]
  by_cases h : trimR (trimL b) = []
  · simp [h, trimR_idem]
  · simp [h]

example : joinPaths "/api/".toList "/users".toList = "/api/users".toList ∧
    joinPaths [] "users".toList = "/users".toList := by decide

/-! ## C05 -/

theorem segsFrom_slash (cur x y : Str) : segsFrom cur (x ++ '/' :: y) = segsFrom cur x ++ segs y := by
  induction x generalizing cur with
  | nil => simp [segsFrom, segs]
  | cons c cs ih =>
    simp only [List.cons_append, segsFrom]
    split
    · rw [ih, List.append_assoc]
    · rw [ih]

theorem segs_replicate (n : Nat) : segs (List.replicate n '/') = [] := by
  induction n with
  | zero => rfl
  | succ n ih => rw [List.replicate_succ]; simpa [segs, segsFrom] using ih

theorem segsFrom_trimR (cur s : Str) : segsFrom cur (trimR s) = segsFrom cur s := by
  obtain ⟨n, hn⟩ := trimR_spec s
  cases n with
  | zero => rw [List.replicate_zero, List.append_nil] at hn; rw [← hn]
  | succ n =>
    conv => rhs; rw [hn, List.replicate_succ, segsFrom_slash, segs_replicate, List.append_nil]

theorem segs_trimL (s : Str) : segs (trimL s) = segs s := by
  induction s with
  | nil => rfl
  | cons c cs ih =>
    rw [trimL_cons]
    split
    · rename_i h; subst h; rw [ih]; simp [segs, segsFrom]
    · rfl

/-- Joining concatenates the segments. -/
theorem segs_join (a b : Str) : segs (joinPaths a b) = segs a ++ segs b := by
  rw [joinPaths_eq]
  show segsFrom [] _ = _
  rw [segsFrom_slash, segsFrom_trimR, segs_trimL]
  rfl

theorem mountChain_append (ps : List Str) (p : Str) :
    mountChain (ps ++ [p]) = mountStep (mountChain ps) p := by
  simp [mountChain]

/-- The suffix shortcut does not fire at any mount of the chain. -/
def NoShortcut : Str → List Str → Prop
  | _, [] => True
  | cur, p :: ps => (p = [] ∨ cur = [] ∨ ¬ p <:+ cur) ∧ NoShortcut (mountStep cur p) ps

theorem segs_mountStep (cur p : Str) (h : p = [] ∨ cur = [] ∨ ¬ p <:+ cur) :
    segs (mountStep cur p) = segs cur ++ segs p := by
  unfold mountStep
  by_cases hp : p = []
  · subst hp; simp [segs, segsFrom]
  · have hc : cur = [] ∨ ¬ (p.isSuffixOf cur = true) := by
      rcases h with h | h | h
      · exact absurd h hp
      · exact Or.inl h
      · exact Or.inr (by rw [List.isSuffixOf_iff_suffix]; exact h)
    rw [if_pos hp, if_pos hc, segs_join]

theorem segs_mountFold : ∀ (ps : List Str) (cur : Str), NoShortcut cur ps →
    segs (ps.foldl mountStep cur) = segs cur ++ ps.flatMap segs
  | [], cur, _ => by simp
  | p :: ps, cur, h => by
    simp only [List.foldl_cons, List.flatMap_cons]
    rw [segs_mountFold ps _ h.2, segs_mountStep _ _ h.1, List.append_assoc]

theorem segs_routeMount (m own : Str) : segs (routeMount m own) = segs m ++ segs own := by
  unfold routeMount
  by_cases h : m = []
  · subst h; simp [segs, segsFrom]
  · rw [if_pos h, segs_join]

/-- **C05, the part that holds.** If no mount prefix is literally a suffix of the path
accumulated above it, the documented path consists of the segments of every prefix, outermost
first, followed by those of the route.  What is missing: chains where the suffix shortcut
of `handleMountNode` fires (see `C05_repeated_prefix_lost`). -/
theorem C05_nested_mounts_partial (prefixes : List Str) (own path : Str) (h : NoShortcut [] prefixes) :
    segs (documentedRaw prefixes own path) = prefixes.flatMap segs ++ segs own ++ segs path := by
  unfold documentedRaw rawPath mountChain
  rw [segs_join, segs_routeMount, segs_mountFold _ _ h]
  simp [segs, segsFrom]

/-- A prefix as people write it: "/x/y" — starts with a slash, does not end with one. -/
def CleanPrefix (p : Str) : Prop := p.head? = some '/' ∧ p.getLast? ≠ some '/'

theorem trimR_of_last (p : Str) (h : p.getLast? ≠ some '/') : trimR p = p := by
  induction p with
  | nil => rfl
  | cons c cs ih =>
    rw [trimR_cons]
    cases cs with
    | nil => simp at h; simp [h]
    | cons d ds =>
      rw [List.getLast?_cons_cons] at h
      rw [ih h]; simp

theorem clean_trimL (p : Str) (h : CleanPrefix p) (h2 : p.tail.head? ≠ some '/') :
    '/' :: trimL p = p := by
  cases p with
  | nil => simp [CleanPrefix] at h
  | cons c cs =>
    have hc : c = '/' := by simpa [CleanPrefix] using h.1
    subst hc
    rw [trimL_cons, if_pos rfl]
    cases cs with
    | nil => simp
    | cons d ds =>
      have hd : d ≠ '/' := by simpa using h2
      rw [trimL_cons, if_neg hd]

/-- **C05, exact text.** For clean prefixes the documented raw path is their concatenation
followed by the route path. -/
theorem C05_nested_mounts_text_partial (prefixes : List Str) (path : Str)
    (hc : ∀ p ∈ prefixes, CleanPrefix p ∧ p.tail.head? ≠ some '/') (h : NoShortcut [] prefixes) :
    documentedRaw prefixes [] path = prefixes.flatten ++ '/' :: trimL path := by
  have key : ∀ (ps : List Str) (cur : Str), (∀ p ∈ ps, CleanPrefix p ∧ p.tail.head? ≠ some '/') →
      NoShortcut cur ps → trimR cur = cur → ps.foldl mountStep cur = cur ++ ps.flatten ∧
        trimR (cur ++ ps.flatten) = cur ++ ps.flatten := by
    intro ps
    induction ps with
    | nil => intro cur _ _ ht; simpa using ht
    | cons p ps ih =>
      intro cur hc hn ht
      have hp := hc p (by simp)
      have hpne : p ≠ [] := by rintro rfl; simp [CleanPrefix] at hp
      have hstep : mountStep cur p = cur ++ p := by
        unfold mountStep
        have hcond : cur = [] ∨ ¬ (p.isSuffixOf cur = true) := by
          rcases hn.1 with h | h | h
          · exact absurd h hpne
          · exact Or.inl h
          · exact Or.inr (by rw [List.isSuffixOf_iff_suffix]; exact h)
        rw [if_pos hpne, if_pos hcond, joinPaths_eq, ht, clean_trimL p hp.1 hp.2]
      have htp : trimR (cur ++ p) = cur ++ p := by
        rw [trimR_append, trimR_of_last p hp.1.2, if_neg hpne]
      have hn2 := hn.2
      rw [hstep] at hn2
      obtain ⟨h1, h2⟩ := ih (cur ++ p) (fun q hq => hc q (by simp [hq])) hn2 htp
      simp only [List.foldl_cons, hstep, List.flatten_cons]
      rw [List.append_assoc] at h1 h2
      exact ⟨h1, h2⟩
  obtain ⟨h1, h2⟩ := key prefixes [] hc h rfl
  simp only [List.nil_append] at h1 h2
  unfold documentedRaw rawPath routeMount mountChain
  rw [h1]
  by_cases he : prefixes.flatten = []
  · simp [he, joinPaths_eq]
  · rw [if_pos he, joinPaths_eq, joinPaths_eq, trimL_nil, trimR_append, trimR_idem, trimR_cons]
    simp [h2]

/-- The full claim of C05 fails for the shipped code: mounting "/a" inside "/a" documents
"/a/x", not "/a/a/x". -/
theorem C05_repeated_prefix_lost :
    ¬ ∀ (prefixes : List Str) (path : Str),
      segs (documentedRaw prefixes [] path) = prefixes.flatMap segs ++ segs path := by
  intro h
  have := h ["/a".toList, "/a".toList] "/x".toList
  revert this
  decide

/-- Hypotheses of the partial theorems are met by an ordinary chain. -/
example : NoShortcut [] ["/api".toList, "/v1".toList, "/users".toList] ∧
    documentedRaw ["/api".toList, "/v1".toList, "/users".toList] [] "/{id}".toList
      = "/api/v1/users/{id}".toList := by
  refine ⟨⟨by decide, by decide, by decide, trivial⟩, by decide⟩

/-! ## C06 -/

theorem closeBrace_balanced {b : Str} (hb : Balanced b) : ∀ (d : Nat) (r : Str), 1 ≤ d →
    closeBrace d (b ++ r) = (closeBrace d r).map fun (i, s) => (b ++ i, s) := by
  induction hb with
  | nil => intro d r _; cases h : closeBrace d r <;> simp [h]
  | @char c s h1 h2 _ ih =>
    intro d r hd
    simp only [List.cons_append, closeBrace, h1, h2, if_false, ih d r hd, Option.map_map]
    rfl
  | @braces s t _ _ ih1 ih2 =>
    intro d r hd
    have e : '{' :: (s ++ '}' :: t) ++ r = '{' :: (s ++ ('}' :: (t ++ r))) := by simp
    have hne : ('}' : Char) ≠ '{' := by decide
    have hd2 : d + 1 ≠ 1 := by omega
    rw [e]
    simp only [closeBrace, if_true]
    rw [ih1 (d + 1) _ (by omega)]
    simp only [closeBrace, hne, if_false, if_true, hd2]
    have : d + 1 - 1 = d := by omega
    rw [this, ih2 d r hd]
    cases closeBrace d r <;> simp

theorem balanced_of_simple {s : Str} (h1 : '{' ∉ s) (h2 : '}' ∉ s) : Balanced s := by
  induction s with
  | nil => exact .nil
  | cons c cs ih =>
    simp only [List.mem_cons, not_or] at h1 h2
    exact .char (fun e => h1.1 e.symm) (fun e => h2.1 e.symm) (ih h1.2 h2.2)

theorem balanced_append {s t : Str} (hs : Balanced s) (ht : Balanced t) : Balanced (s ++ t) := by
  induction hs with
  | nil => exact ht
  | char h1 h2 _ ih => exact .char h1 h2 ih
  | @braces s1 t1 h1 _ _ ih2 =>
    have : '{' :: (s1 ++ '}' :: t1) ++ t = '{' :: (s1 ++ '}' :: (t1 ++ t)) := by simp
    rw [this]; exact .braces h1 ih2

theorem closeBrace_inner {b : Str} (hb : Balanced b) (r : Str) :
    closeBrace 1 (b ++ '}' :: r) = some (b, r) := by
  rw [closeBrace_balanced hb 1 _ (by omega)]
  simp [closeBrace]

theorem nameOfInner_simple {n : Str} (h : ':' ∉ n) : nameOfInner n = n := by
  unfold nameOfInner
  induction n with
  | nil => rfl
  | cons c cs ih =>
    simp only [List.mem_cons, not_or] at h
    have : (c ≠ ':') := fun e => h.1 e.symm
    rw [List.takeWhile_cons_of_pos (by simpa using this), ih h.2]

theorem nameOfInner_colon {n p : Str} (h : ':' ∉ n) : nameOfInner (n ++ ':' :: p) = n := by
  induction n with
  | nil => simp [nameOfInner]
  | cons c cs ih =>
    simp only [List.mem_cons, not_or] at h
    have : (c ≠ ':') := fun e => h.1 e.symm
    have ih := ih h.2
    simp only [nameOfInner] at ih ⊢
    rw [List.cons_append, List.takeWhile_cons_of_pos (by simpa using this), ih]

theorem patternOfInner_simple {n : Str} (h : ':' ∉ n) : patternOfInner n = [] := by
  unfold patternOfInner
  induction n with
  | nil => rfl
  | cons c cs ih =>
    simp only [List.mem_cons, not_or] at h
    have : (c ≠ ':') := fun e => h.1 e.symm
    rw [List.dropWhile_cons_of_pos (by simpa using this)]
    exact ih h.2

theorem patternOfInner_colon {n p : Str} (h : ':' ∉ n) : patternOfInner (n ++ ':' :: p) = p := by
  induction n with
  | nil => simp [patternOfInner]
  | cons c cs ih =>
    simp only [List.mem_cons, not_or] at h
    have : (c ≠ ':') := fun e => h.1 e.symm
    have ih := ih h.2
    simp only [patternOfInner] at ih ⊢
    rw [List.cons_append, List.dropWhile_cons_of_pos (by simpa using this), ih]

/-- What a piece looks like after the brace pass. -/
def Piece.stripped : Piece → Str
  | .lit c => [c]
  | .colon n => ':' :: n
  | .plain n => '{' :: n ++ ['}']
  | .regex n _ => '{' :: n ++ ['}']

theorem stripLoop_noBrace : ∀ (s : Str) (fuel : Nat) (r : Str), '{' ∉ s →
    stripLoop (s.length + fuel) (s ++ r) = s ++ stripLoop fuel r
  | [], fuel, r, _ => by simp
  | c :: cs, fuel, r, h => by
    simp only [List.mem_cons, not_or] at h
    have hc : c ≠ '{' := fun e => h.1 e.symm
    have : (c :: cs).length + fuel = (cs.length + fuel) + 1 := by simp; omega
    rw [this]
    simp only [List.cons_append, stripLoop, hc, ne_eq, not_false_eq_true, if_true]
    rw [stripLoop_noBrace cs fuel r h.2]

/-- More fuel than characters makes no difference. -/
theorem closeBrace_length : ∀ (d : Nat) (s i r : Str), closeBrace d s = some (i, r) → r.length < s.length
  | _, [], _, _, h => by simp [closeBrace] at h
  | d, c :: cs, i, r, h => by
    unfold closeBrace at h
    split at h
    · simp only [Option.map_eq_some_iff] at h
      obtain ⟨⟨i', r'⟩, h1, h2⟩ := h
      have := closeBrace_length _ _ _ _ h1
      simp only [Prod.mk.injEq] at h2
      simp [← h2.2]; omega
    · split at h
      · split at h
        · simp only [Option.some.injEq, Prod.mk.injEq] at h
          simp [← h.2]
        · simp only [Option.map_eq_some_iff] at h
          obtain ⟨⟨i', r'⟩, h1, h2⟩ := h
          have := closeBrace_length _ _ _ _ h1
          simp only [Prod.mk.injEq] at h2
          simp [← h2.2]; omega
      · simp only [Option.map_eq_some_iff] at h
        obtain ⟨⟨i', r'⟩, h1, h2⟩ := h
        have := closeBrace_length _ _ _ _ h1
        simp only [Prod.mk.injEq] at h2
        simp [← h2.2]; omega

theorem stripLoop_fuel : ∀ (f g : Nat) (s : Str), s.length ≤ f → s.length ≤ g → stripLoop f s = stripLoop g s
  | 0, g, s, hf, _ => by
    have : s = [] := List.length_eq_zero_iff.mp (by omega)
    subst this
    cases g <;> simp [stripLoop]
  | f + 1, 0, s, _, hg => by
    have : s = [] := List.length_eq_zero_iff.mp (by omega)
    subst this
    simp [stripLoop]
  | f + 1, g + 1, [], _, _ => by simp [stripLoop]
  | f + 1, g + 1, c :: cs, hf, hg => by
    simp only [List.length_cons] at hf hg
    simp only [stripLoop]
    split
    · rw [stripLoop_fuel f g cs (by omega) (by omega)]
    · cases h : closeBrace 1 cs with
      | none => rfl
      | some ir =>
        obtain ⟨i, r⟩ := ir
        have := closeBrace_length _ _ _ _ h
        simp only
        rw [stripLoop_fuel f g r (by omega) (by omega)]

/-- The brace pass with enough fuel. -/
def strip (s : Str) : Str := stripLoop s.length s

theorem strip_cons_lit (c : Char) (s : Str) (h : c ≠ '{') : strip (c :: s) = c :: strip s := by
  simp [strip, stripLoop, h]

theorem strip_lits (n s : Str) (h : '{' ∉ n) : strip (n ++ s) = n ++ strip s := by
  induction n with
  | nil => rfl
  | cons c cs ih =>
    simp only [List.mem_cons, not_or] at h
    rw [List.cons_append, strip_cons_lit _ _ (fun e => h.1 e.symm), ih h.2, List.cons_append]

theorem strip_brace (b r : Str) (hb : Balanced b) :
    strip ('{' :: (b ++ '}' :: r)) = '{' :: nameOfInner b ++ '}' :: strip r := by
  unfold strip
  simp only [List.length_cons, stripLoop, ne_eq, not_true, if_false, closeBrace_inner hb r]
  rw [stripLoop_fuel _ r.length r (by simp; omega) (Nat.le_refl _)]

theorem stripParamPatterns_eq (s : Str) : stripParamPatterns s = strip s := by
  unfold stripParamPatterns
  split
  · rename_i h
    have := strip_lits s [] h
    simp only [List.append_nil] at this
    rw [this]; simp [strip, stripLoop]
  · rfl

theorem ident_noBrace {n : Str} (h : Ident n) : '{' ∉ n ∧ '}' ∉ n ∧ ':' ∉ n := by
  obtain ⟨c, cs, rfl, h1, h2⟩ := h
  have hc : isIdChar c = true := by
    simp only [isIdStart, Bool.or_eq_true] at h1
    simp only [isIdChar, Char.isAlphanum, Bool.or_eq_true]
    rcases h1 with h1 | h1
    · exact Or.inl (Or.inl h1)
    · exact Or.inr h1
  have hall : ∀ x ∈ c :: cs, isIdChar x = true := by
    intro x hx
    rcases List.mem_cons.mp hx with e | hx
    · rw [e]; exact hc
    · exact h2 x hx
  exact ⟨fun hm => absurd (hall _ hm) (by decide), fun hm => absurd (hall _ hm) (by decide),
    fun hm => absurd (hall _ hm) (by decide)⟩

theorem strip_pieces (ps : List Piece) (h : ∀ p ∈ ps, p.Ok) :
    strip (routerText ps) = ps.flatMap Piece.stripped := by
  induction ps with
  | nil => rfl
  | cons p ps ih =>
    have hp := h p (by simp)
    have ih := ih fun q hq => h q (by simp [hq])
    simp only [routerText, List.flatMap_cons] at ih ⊢
    cases p with
    | lit c =>
      simp only [Piece.text, Piece.stripped, List.singleton_append]
      rw [strip_cons_lit _ _ hp.1, ih]
    | colon n =>
      have hn := ident_noBrace hp
      simp only [Piece.text, Piece.stripped, List.cons_append]
      rw [strip_cons_lit _ _ (by decide), strip_lits _ _ hn.1, ih]
    | plain n =>
      simp only [Piece.text, Piece.stripped, List.cons_append, List.append_assoc, List.nil_append]
      rw [strip_brace n _ (balanced_of_simple hp.1 hp.2.1), nameOfInner_simple hp.2.2, ih]
      simp
    | regex n pat =>
      obtain ⟨hs, hb⟩ := hp
      have e : (Piece.regex n pat).text ++ ps.flatMap Piece.text =
          '{' :: ((n ++ ':' :: pat) ++ '}' :: ps.flatMap Piece.text) := by
        simp [Piece.text]
      rw [e, strip_brace (n ++ ':' :: pat) _ (balanced_append (balanced_of_simple hs.1 hs.2.1)
        (.char (by decide) (by decide) hb)), nameOfInner_colon hs.2.2, ih]
      simp [Piece.stripped]

theorem colonScan_out_lits (n s : Str) (h : ':' ∉ n) : colonScan .out (n ++ s) = n ++ colonScan .out s := by
  induction n with
  | nil => rfl
  | cons c cs ih =>
    simp only [List.mem_cons, not_or] at h
    have hc : c ≠ ':' := fun e => h.1 e.symm
    simp [colonScan, hc, ih h.2]

theorem colonScan_name (n s : Str) (h : ∀ x ∈ n, isIdChar x = true) :
    colonScan .name (n ++ s) = n ++ colonScan .name s := by
  induction n with
  | nil => rfl
  | cons c cs ih =>
    simp [colonScan, h c (by simp), ih fun x hx => h x (by simp [hx])]

theorem colonScan_name_end (s : Str) (h : ∀ c, s.head? = some c → isIdChar c = false) :
    colonScan .name s = '}' :: colonScan .out s := by
  cases s with
  | nil => rfl
  | cons c cs =>
    have := h c rfl
    simp only [colonScan, this, Bool.false_eq_true, if_false]
    split <;> rfl

theorem stripped_head (ps : List Piece) (c : Char)
    (hc : (ps.flatMap Piece.stripped).head? = some c) :
    (∃ ps', ps = .lit c :: ps') ∨ c = ':' ∨ c = '{' := by
  cases ps with
  | nil => simp at hc
  | cons p ps =>
    cases p <;> simp [Piece.stripped] at hc
    · left; exact ⟨ps, by rw [hc]⟩
    · right; left; exact hc.symm
    · right; right; exact hc.symm
    · right; right; exact hc.symm

theorem separated_tail {p : Piece} {ps : List Piece} (h : Separated (p :: ps)) : Separated ps := by
  unfold Separated at h
  split at h
  · rename_i e; cases e
  · rename_i e
    simp only [List.cons.injEq] at e
    rw [e.2]; exact h.2
  · rename_i e
    simp only [List.cons.injEq] at e
    rw [e.2]; exact h

theorem colon_pieces (ps : List Piece) (h : ∀ p ∈ ps, p.Ok) (hs : Separated ps) :
    colonScan .out (ps.flatMap Piece.stripped) = openapiText ps := by
  induction ps with
  | nil => rfl
  | cons p ps ih =>
    have hp := h p (by simp)
    have ih := ih (fun q hq => h q (by simp [hq])) (separated_tail hs)
    simp only [openapiText, List.flatMap_cons] at ih ⊢
    cases p with
    | lit c =>
      have hc := hp.2.2
      rw [colonScan_out_lits _ _ (by simp [Piece.stripped]; exact fun e => hc e.symm), ih]
      rfl
    | plain n =>
      have := hp.2.2
      rw [colonScan_out_lits _ _ (by simp [Piece.stripped, this]), ih]
      rfl
    | regex n pat =>
      have := hp.1.2.2
      rw [colonScan_out_lits _ _ (by simp [Piece.stripped, this]), ih]
      rfl
    | colon n =>
      obtain ⟨c, cs, rfl, h1, h2⟩ := hp
      simp only [Piece.stripped, Piece.openapi, List.cons_append, colonScan, if_true, h1]
      rw [colonScan_name _ _ h2, colonScan_name_end, ih]
      · simp
      · intro d hd
        rcases stripped_head ps d hd with ⟨ps', rfl⟩ | rfl | rfl
        · exact hs.1
        · decide
        · decide

/-- **C06 (conversion).** A route path made of literal text, `:name`, `{name}` and
`{name:pattern}` pieces — in any number and order, with patterns containing any balanced
braces — is converted piece by piece: literal text is unchanged and every parameter
becomes `{name}`. -/
theorem C06_convert (ps : List Piece) (h : ∀ p ∈ ps, p.Ok) (hs : Separated ps) :
    convertPath (routerText ps) = openapiText ps := by
  unfold convertPath
  rw [stripParamPatterns_eq, strip_pieces ps h, colon_pieces ps h hs]

/-- The converted form of a piece, as a piece. -/
def Piece.converted : Piece → Piece
  | .lit c => .lit c
  | .colon n => .plain n
  | .plain n => .plain n
  | .regex n _ => .plain n

theorem routerText_converted (ps : List Piece) : routerText (ps.map Piece.converted) = openapiText ps := by
  induction ps with
  | nil => rfl
  | cons p ps ih =>
    simp only [routerText, openapiText, List.map_cons, List.flatMap_cons] at ih ⊢
    rw [ih]
    cases p <;> rfl

theorem separated_converted (ps : List Piece) : Separated (ps.map Piece.converted) := by
  induction ps with
  | nil => trivial
  | cons p ps ih =>
    cases p <;> simpa [Separated, Piece.converted] using ih

/-- **C06 (idempotence).** Converting a converted path changes nothing. -/
theorem C06_convert_idempotent (ps : List Piece) (h : ∀ p ∈ ps, p.Ok) (hs : Separated ps) :
    convertPath (convertPath (routerText ps)) = convertPath (routerText ps) := by
  rw [C06_convert ps h hs, ← routerText_converted, C06_convert, routerText_converted]
  · rw [← routerText_converted, ← routerText_converted]
    congr 1
    rw [List.map_map]
    apply List.map_congr_left
    intro p _
    cases p <;> rfl
  · intro q hq
    obtain ⟨p, hp, rfl⟩ := List.mem_map.mp hq
    have := h p hp
    cases p with
    | lit c => exact this
    | colon n => exact ident_noBrace this
    | plain n => exact this
    | regex n pat => exact this.1
  · exact separated_converted ps

/-- Head of a scan that has just read a ':' is never an identifier start. -/
theorem colonScan_colon_head (s : Str) (c : Char) (cs : Str) (h : colonScan .colon s = c :: cs) :
    isIdStart c = false := by
  cases s with
  | nil => simp [colonScan] at h; rw [← h.1]; decide
  | cons d ds =>
    simp only [colonScan] at h
    split at h
    · simp at h; rw [← h.1]; decide
    · split at h <;> (simp at h; rw [← h.1]; decide)

/-- Decidable form of `NoColonParam`. -/
def clean : Str → Bool
  | [] => true
  | [_] => true
  | a :: b :: s => !(a == ':' && isIdStart b) && clean (b :: s)

theorem clean_cons (a : Char) (s : Str) : clean (a :: s) = true ↔
    clean s = true ∧ ∀ b t, s = b :: t → a = ':' → isIdStart b = false := by
  cases s with
  | nil => simp [clean]
  | cons b t =>
    simp only [clean, Bool.and_eq_true, Bool.not_eq_true', Bool.and_eq_false_iff, beq_eq_false_iff_ne,
      List.cons.injEq]
    constructor
    · rintro ⟨h1, h2⟩
      refine ⟨h2, ?_⟩
      rintro b' t' ⟨rfl, rfl⟩ ha
      rcases h1 with h1 | h1
      · exact absurd ha h1
      · exact h1
    · rintro ⟨h1, h2⟩
      refine ⟨?_, h1⟩
      by_cases ha : a = ':'
      · exact Or.inr (h2 b t ⟨rfl, rfl⟩ ha)
      · exact Or.inl ha

theorem clean_iff (s : Str) : clean s = true ↔ NoColonParam s := by
  induction s with
  | nil => simp [clean, NoColonParam]
  | cons a s ih =>
    rw [clean_cons, ih]
    constructor
    · rintro ⟨h1, h2⟩ pre c post e
      cases pre with
      | nil =>
        simp only [List.nil_append, List.cons.injEq] at e
        exact h2 c post e.2 e.1
      | cons p ps =>
        simp only [List.cons_append, List.cons.injEq] at e
        exact h1 ps c post e.2
    · intro h
      refine ⟨fun pre c post e => h (a :: pre) c post (by simp [e]), ?_⟩
      intro b t e ha
      exact h [] b t (by simp [e, ha])

theorem clean_colonScan : ∀ (s : Str) (st : ColonState), clean (colonScan st s) = true
  | [], st => by cases st <;> rfl
  | c :: cs, .out => by
    simp only [colonScan]
    split
    · exact clean_colonScan cs _
    · rename_i h
      rw [clean_cons]
      exact ⟨clean_colonScan cs _, fun _ _ _ hc => absurd hc h⟩
  | c :: cs, .colon => by
    simp only [colonScan]
    split
    · rename_i h
      rw [clean_cons, clean_cons]
      refine ⟨⟨clean_colonScan cs _, ?_⟩, fun _ _ _ hc => absurd hc (by decide)⟩
      intro _ _ _ hc; subst hc; exact absurd h (by decide)
    · split
      · rw [clean_cons]
        refine ⟨clean_colonScan cs _, fun b t e _ => colonScan_colon_head cs b t e⟩
      · rename_i h1 h2
        rw [clean_cons, clean_cons]
        refine ⟨⟨clean_colonScan cs _, fun _ _ _ hc => absurd hc h2⟩, ?_⟩
        intro b t e _
        simp only [List.cons.injEq] at e
        rw [← e.1]; simpa using h1
  | c :: cs, .name => by
    simp only [colonScan]
    split
    · rename_i h
      rw [clean_cons]
      exact ⟨clean_colonScan cs _, fun _ _ _ hc => by subst hc; exact absurd h (by decide)⟩
    · split
      · rw [clean_cons]
        exact ⟨clean_colonScan cs _, fun _ _ _ hc => absurd hc (by decide)⟩
      · rename_i h1 h2
        rw [clean_cons, clean_cons]
        exact ⟨⟨clean_colonScan cs _, fun _ _ _ hc => absurd hc h2⟩, fun _ _ _ hc => absurd hc (by decide)⟩

/-- **C06 (no leftovers, every string).** Whatever the input, no `:name` is left. -/
theorem C06_no_colon_params_left (path : Str) : NoColonParam (convertPath path) :=
  (clean_iff _).mp (clean_colonScan _ _)

/-- **C06 (literal paths).** A path without braces and colons is unchanged. -/
theorem C06_literal_unchanged (path : Str) (h1 : '{' ∉ path) (h2 : ':' ∉ path) : convertPath path = path := by
  unfold convertPath stripParamPatterns
  rw [if_pos h1]
  have := colonScan_out_lits path [] h2
  simpa [colonScan] using this

/-- Idempotence fails for arbitrary strings: nested braces in a parameter name are cut in
the middle, and a second conversion reads the result differently. -/
theorem C06_idempotence_fails_on_nested_names :
    ¬ ∀ path : Str, convertPath (convertPath path) = convertPath path := by
  intro h
  have := h "{a{b:c}}/x:9}".toList
  revert this
  decide

/-- The hypotheses are met by a path using every kind of piece. -/
example : convertPath "/u/:id/x/{n:[0-9]{3}}/{p}".toList = "/u/{id}/x/{n}/{p}".toList ∧
    (∀ p ∈ [Piece.lit '/', .colon "id".toList, .lit '/', .regex "n".toList "[0-9]{3}".toList], p.Ok) ∧
    Separated [Piece.lit '/', .colon "id".toList, .lit '/', .regex "n".toList "[0-9]{3}".toList] := by
  refine ⟨by decide, ?_, ?_⟩
  · intro p hp
    simp only [List.mem_cons, List.not_mem_nil, or_false] at hp
    rcases hp with rfl | rfl | rfl | rfl
    · unfold Piece.Ok; decide
    · exact ⟨'i', ['d'], rfl, by decide, by decide⟩
    · unfold Piece.Ok; decide
    · refine ⟨by unfold Simple; decide, ?_⟩
      have : "[0-9]{3}".toList = "[0-9]".toList ++ '{' :: (['3'] ++ '}' :: []) := by decide
      rw [this]
      exact balanced_append (balanced_of_simple (by decide) (by decide))
        (.braces (balanced_of_simple (by decide) (by decide)) .nil)
  · simp [Separated]; decide

/-- Gin/echo `*name` catch-alls are not converted (documented limitation). -/
example : convertPath "/files/*filepath".toList = "/files/*filepath".toList := by decide

/-- **C06 (names and patterns).** For the same grammar, the scanner that feeds parameter
names and constraints reports exactly the brace parameters, in order, with their patterns. -/
theorem C06_params_found (ps : List Piece) (h : ∀ p ∈ ps, p.Ok) :
    pathParams (routerText ps) = ps.filterMap fun
      | .plain n => some (n, [])
      | .regex n p => some (n, p)
      | _ => none := by
  have fuel : ∀ (f g : Nat) (s : Str), s.length ≤ f → s.length ≤ g → pathParamsLoop f s = pathParamsLoop g s := by
    intro f
    induction f with
    | zero =>
      intro g s hf hg
      have : s = [] := List.length_eq_zero_iff.mp (by omega)
      subst this; cases g <;> simp [pathParamsLoop]
    | succ f ih =>
      intro g s hf hg
      cases g with
      | zero =>
        have : s = [] := List.length_eq_zero_iff.mp (by omega)
        subst this; simp [pathParamsLoop]
      | succ g =>
        cases s with
        | nil => simp [pathParamsLoop]
        | cons c cs =>
          simp only [List.length_cons] at hf hg
          simp only [pathParamsLoop]
          split
          · exact ih g cs (by omega) (by omega)
          · cases hcb : closeBrace 1 cs with
            | none => rfl
            | some ir =>
              obtain ⟨i, r⟩ := ir
              have := closeBrace_length _ _ _ _ hcb
              simp only
              rw [ih g r (by omega) (by omega)]
  have lit : ∀ (n s : Str), '{' ∉ n → pathParams (n ++ s) = pathParams s := by
    intro n s hn
    induction n with
    | nil => rfl
    | cons c cs ih =>
      simp only [List.mem_cons, not_or] at hn
      have hc : c ≠ '{' := fun e => hn.1 e.symm
      rw [← ih hn.2]
      simp [pathParams, pathParamsLoop, hc]
  have brace : ∀ (b r : Str), Balanced b →
      pathParams ('{' :: (b ++ '}' :: r)) = (nameOfInner b, patternOfInner b) :: pathParams r := by
    intro b r hb
    unfold pathParams
    simp only [List.length_cons, pathParamsLoop, ne_eq, not_true, if_false, closeBrace_inner hb r]
    rw [fuel _ r.length r (by simp; omega) (Nat.le_refl _)]
  induction ps with
  | nil => rfl
  | cons p ps ih =>
    have hp := h p (by simp)
    have ih := ih fun q hq => h q (by simp [hq])
    simp only [routerText, List.flatMap_cons] at ih ⊢
    cases p with
    | lit c =>
      simp only [Piece.text]
      rw [lit [c] _ (by simp; exact fun e => hp.1 e.symm), ih]; simp
    | colon n =>
      have hn := ident_noBrace hp
      simp only [Piece.text]
      rw [lit (':' :: n) _ (by simp [hn.1]), ih]; simp
    | plain n =>
      simp only [Piece.text, List.cons_append, List.append_assoc, List.nil_append]
      rw [brace n _ (balanced_of_simple hp.1 hp.2.1), nameOfInner_simple hp.2.2, ih]
      have := patternOfInner_simple hp.2.2
      simp [this]
    | regex n pat =>
      obtain ⟨hs, hb⟩ := hp
      have e : (Piece.regex n pat).text ++ ps.flatMap Piece.text =
          '{' :: ((n ++ ':' :: pat) ++ '}' :: ps.flatMap Piece.text) := by
        simp [Piece.text]
      rw [e, brace (n ++ ':' :: pat) _ (balanced_append (balanced_of_simple hs.1 hs.2.1)
        (.char (by decide) (by decide) hb)), nameOfInner_colon hs.2.2, patternOfInner_colon hs.2.2, ih]
      simp

end Verif.Paths
