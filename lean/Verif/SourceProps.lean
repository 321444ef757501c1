import Verif.SourceModel
import Verif.FuncFieldIndexProps

/-!
# C88: the source view shows files of the project and its dependencies only
-/
namespace Verif.SourceModel

open Verif.ValidateModel
open Verif.FuncField (splitC_mid splitC_ne)

/-! ## Specification -/

/-- A component of a path as a directory lists it. -/
def Plain (c : Str) : Prop := c ≠ [] ∧ c ≠ ['.'] ∧ c ≠ ['.', '.'] ∧ '/' ∉ c

def PlainPath (p : Path) : Prop := ∀ c ∈ p, Plain c

/-- `q` is `dir` or lies somewhere below it. -/
def Under (dir q : Path) : Prop := ∃ rest, q = dir ++ rest

def NoLinks (fs : Disk) : Prop := ∀ p t, fs p ≠ .link t

/-- What exists lies in a directory. -/
def Tree (fs : Disk) : Prop := ∀ p c rest, fs (p ++ c :: rest) ≠ .missing → p = [] ∨ fs p = .dir

/-- The absolute path a text names by its letters: `Named cwd text p`. -/
inductive Spelled : Path → List Str → Path → Prop
  | nil {p} : Spelled p [] p
  | empty {p cs q} : Spelled p cs q → Spelled p ([] :: cs) q
  | dot {p cs q} : Spelled p cs q → Spelled p (['.'] :: cs) q
  | up {p c cs q} : Spelled p cs q → Spelled (p ++ [c]) (['.', '.'] :: cs) q
  | top {cs q} : Spelled [] cs q → Spelled [] (['.', '.'] :: cs) q
  | down {p c cs q} : Plain c → Spelled (p ++ [c]) cs q → Spelled p (c :: cs) q

/-- `text` names `p`: from the root if it begins with `/`, else from the working directory. -/
def Names (cwd : Path) (text : Str) (p : Path) : Prop :=
  ∃ cs, splitC '/' text = cs ∧ ((∃ t, text = '/' :: t) ∧ Spelled [] cs p ∨ (∀ t, text ≠ '/' :: t) ∧ Spelled cwd cs p)

/-- The directories whose sources may be shown: the module of the project (the nearest directory above
the project directory with a `go.mod`, or the project directory if there is none), GOROOT and the module cache. -/
inductive Root (w : World) (inputDir : Str) : Path → Prop
  | module {p rest dir} : Names w.cwd inputDir p → p = dir ++ rest → w.fs (dir ++ [goMod]) ≠ .missing →
      (∀ a b, rest = a ++ b → a ≠ [] → w.fs (dir ++ a ++ [goMod]) = .missing) → Root w inputDir dir
  | project {p} : Names w.cwd inputDir p → inputDir ≠ [] → (∀ a b, p = a ++ b → w.fs (a ++ [goMod]) = .missing) → Root w inputDir p
  | goroot {p} : w.goroot ≠ [] → Names w.cwd w.goroot p → Root w inputDir p
  | modcache {p} : w.modcache ≠ [] → Names w.cwd w.modcache p → Root w inputDir p

/-! ## Paths -/

theorem split_noslash : ∀ (s : Str), ∀ x ∈ splitC '/' s, '/' ∉ x
  | [] => by simp [splitC]
  | c :: cs => by
    have ih := split_noslash cs
    rw [splitC]
    split
    · intro x hx; rcases List.mem_cons.1 hx with rfl | h
      · simp
      · exact ih x h
    · rename_i hc
      intro x hx
      cases h : splitC '/' cs with
      | nil => exact absurd h (splitC_ne _ _)
      | cons y ys =>
        rw [h, splitC.consHead] at hx
        rw [h] at ih
        rcases List.mem_cons.1 hx with rfl | h2
        · intro hm; rcases List.mem_cons.1 hm with h3 | h3
          · exact hc h3.symm
          · exact ih y (.head _) h3
        · exact ih x (.tail _ h2)

theorem cleanFrom_spelled : ∀ (cs : List Str) (cur : Path), (∀ x ∈ cs, '/' ∉ x) → Spelled cur cs (cleanFrom cur cs)
  | [], cur, _ => .nil
  | c :: cs, cur, h => by
    have ht : ∀ x ∈ cs, '/' ∉ x := fun x hx => h x (.tail _ hx)
    rw [cleanFrom]
    split
    · rename_i h1; rcases h1 with rfl | rfl
      · exact .empty (cleanFrom_spelled cs _ ht)
      · exact .dot (cleanFrom_spelled cs _ ht)
    · rename_i h1
      split
      · rename_i h2; subst h2
        rcases List.eq_nil_or_concat cur with rfl | ⟨p, l, rfl⟩
        · exact .top (cleanFrom_spelled cs _ ht)
        · rw [List.concat_eq_append, List.dropLast_concat]; exact .up (cleanFrom_spelled cs _ ht)
      · rename_i h2
        refine .down ⟨fun e => h1 (.inl e), fun e => h1 (.inr e), h2, h c (.head _)⟩ (cleanFrom_spelled cs _ ht)

theorem spelled_det {cur : Path} {cs : List Str} {p : Path} (h : Spelled cur cs p) : p = cleanFrom cur cs := by
  induction h with
  | nil => rfl
  | empty _ ih => rw [cleanFrom, if_pos (.inl rfl)]; exact ih
  | dot _ ih => rw [cleanFrom, if_pos (.inr rfl)]; exact ih
  | up _ ih => rw [cleanFrom, if_neg (by decide), if_pos rfl, List.dropLast_concat]; exact ih
  | top _ ih => rw [cleanFrom, if_neg (by decide), if_pos rfl]; exact ih
  | down hc _ ih =>
    obtain ⟨h1, h2, h3, h4⟩ := hc
    rw [cleanFrom, if_neg (fun h => h.elim h1 h2), if_neg h3]; exact ih

theorem isAbs_iff {s : Str} : isAbs s = true ↔ ∃ t, s = '/' :: t := by
  cases s with
  | nil => simp [isAbs]
  | cons c cs => simp [isAbs]

theorem absPath_names (cwd : Path) (s : Str) : Names cwd s (absPath cwd s) := by
  refine ⟨_, rfl, ?_⟩
  have h := split_noslash s
  by_cases ha : isAbs s = true
  · left; refine ⟨isAbs_iff.1 ha, ?_⟩
    rw [absPath, if_pos ha]; exact cleanFrom_spelled _ _ h
  · right; refine ⟨fun t e => ha (isAbs_iff.2 ⟨t, e⟩), ?_⟩
    rw [absPath, if_neg ha]; exact cleanFrom_spelled _ _ h

theorem names_det {cwd : Path} {s : Str} {p : Path} (h : Names cwd s p) : p = absPath cwd s := by
  obtain ⟨cs, rfl, ⟨ha, h⟩ | ⟨ha, h⟩⟩ := h
  · rw [absPath, if_pos (isAbs_iff.2 ha)]; exact spelled_det h
  · rw [absPath, if_neg (fun e => by obtain ⟨t, e⟩ := isAbs_iff.1 e; exact ha t e)]; exact spelled_det h

theorem spelled_plain {cur : Path} {cs : List Str} {p : Path} (h : Spelled cur cs p) (hc : PlainPath cur) : PlainPath p := by
  induction h with
  | nil => exact hc
  | empty _ ih => exact ih hc
  | dot _ ih => exact ih hc
  | up _ ih => exact ih (fun c h => hc c (List.mem_append_left _ h))
  | top _ ih => exact ih hc
  | down hp _ ih =>
    refine ih (fun c h => ?_)
    rcases List.mem_append.1 h with h | h
    · exact hc c h
    · rw [List.mem_singleton.1 h]; exact hp

theorem names_plain {cwd : Path} {s : Str} {p : Path} (h : Names cwd s p) (hc : PlainPath cwd) : PlainPath p := by
  obtain ⟨cs, -, ⟨-, h⟩ | ⟨-, h⟩⟩ := h
  · exact spelled_plain h (by intro c h; cases h)
  · exact spelled_plain h hc

/-! ## filepath.Rel -/

theorem relInside_plain {c : Str} {cs : List Str} (hc : Plain c) : relInside (joinC '/' (c :: cs)) = true := by
  obtain ⟨-, -, h3, h4⟩ := hc
  unfold relInside
  cases cs with
  | nil =>
    simp only [joinC, Bool.and_eq_true, bne_iff_ne, ne_eq, Bool.not_eq_true', Bool.eq_false_iff]
    refine ⟨h3, fun h => ?_⟩
    obtain ⟨t, rfl⟩ := List.isPrefixOf_iff_prefix.1 h
    exact h4 (by simp)
  | cons d ds =>
    simp only [joinC, Bool.and_eq_true, bne_iff_ne, ne_eq, Bool.not_eq_true', Bool.eq_false_iff]
    refine ⟨fun h => ?_, fun h => ?_⟩
    · have : '/' ∈ dot2 := by rw [← h]; simp
      exact absurd this (by decide)
    · obtain ⟨t, e⟩ := List.isPrefixOf_iff_prefix.1 h
      match c, h3, h4, e with
      | [], _, _, e => simp at e
      | [x], _, _, e => simp at e
      | [x, y], h3, _, e => simp at e; exact h3 (by rw [← e.1, ← e.2.1])
      | x :: y :: z :: zs, _, h4, e => simp at e; exact h4 (by rw [← e.2.2.1]; simp)

theorem relInside_up (n : Nat) (ts : List Str) : relInside (joinC '/' (List.replicate (n + 1) dot2 ++ ts)) = false := by
  rw [List.replicate_succ, List.cons_append]
  cases List.replicate n dot2 ++ ts with
  | nil => rfl
  | cons x xs =>
    unfold relInside
    simp [joinC, dot2]

theorem map_dot2 {α} : ∀ (l : List α), l.map (fun _ => dot2) = List.replicate l.length dot2
  | [] => rfl
  | _ :: l => by simp [map_dot2 l, List.replicate_succ]

theorem rel_inside : ∀ (base q : Path), PlainPath q → (relInside (rel base q) = true ↔ Under base q)
  | [], q, hq => by
    refine ⟨fun _ => ⟨q, rfl⟩, fun _ => ?_⟩
    cases q with
    | nil => rfl
    | cons c cs => simp only [rel, relParts, reduceCtorEq, if_false]; exact relInside_plain (hq c (.head _))
  | b :: bs, [], _ => by
    simp only [rel, relParts, List.map_cons, reduceCtorEq, if_false]
    have := relInside_up bs.length []
    rw [List.replicate_succ, List.append_nil, ← map_dot2 bs] at this
    rw [this]
    simp [Under]
  | b :: bs, t :: ts, hq => by
    by_cases h : b = t
    · subst h
      have ih := rel_inside bs ts (fun c hc => hq c (.tail _ hc))
      have e : rel (b :: bs) (b :: ts) = rel bs ts := by simp [rel, relParts]
      rw [e, ih]
      constructor
      · rintro ⟨r, rfl⟩; exact ⟨r, rfl⟩
      · rintro ⟨r, e⟩; exact ⟨r, by simpa using e⟩
    · simp only [rel, relParts, h, if_false, List.map_cons, List.cons_append, reduceCtorEq]
      have := relInside_up bs.length (t :: ts)
      rw [List.replicate_succ, List.cons_append, ← map_dot2 bs] at this
      rw [this]
      simp only [Bool.false_eq_true, false_iff]
      rintro ⟨r, e⟩
      simp at e
      exact h e.1.symm

/-! ## Looking up on a disk without links -/

theorem walk_clean {fs : Disk} (hn : NoLinks fs) : ∀ (n : Nat) (cur : Path) (cs : List Str) (q : Path),
    walk fs n cur cs = some q → q = cleanFrom cur cs
  | 0, _, _, _, h => by cases h
  | n + 1, cur, [], q, h => by cases h; rfl
  | n + 1, cur, c :: cs, q, h => by
    rw [walk] at h
    rw [cleanFrom]
    split at h
    · rename_i h1; rw [if_pos h1]; exact walk_clean hn n _ _ _ h
    · rename_i h1; rw [if_neg h1]
      split at h
      · rename_i h2; rw [if_pos h2]; exact walk_clean hn n _ _ _ h
      · rename_i h2; rw [if_neg h2]
        split at h
        · cases h
        · exact walk_clean hn n _ _ _ h
        · split at h
          · rename_i h3; subst h3; cases h; rfl
          · cases h
        · rename_i t ht; exact absurd ht (hn _ _)

theorem cleanFrom_append (cur : Path) : ∀ (a b : List Str), cleanFrom cur (a ++ b) = cleanFrom (cleanFrom cur a) b := by
  intro a; induction a generalizing cur with
  | nil => intro b; rfl
  | cons c cs ih =>
    intro b
    simp only [List.cons_append, cleanFrom]
    split
    · exact ih _ b
    · split <;> exact ih _ b

theorem cleanFrom_plain : ∀ (p cur : Path), PlainPath p → cleanFrom cur p = cur ++ p
  | [], cur, _ => by simp [cleanFrom]
  | c :: cs, cur, h => by
    obtain ⟨h1, h2, h3, -⟩ := h c (.head _)
    rw [cleanFrom, if_neg (fun h => h.elim h1 h2), if_neg h3, cleanFrom_plain cs _ (fun c hc => h c (.tail _ hc))]
    simp

theorem locate_named {fs : Disk} (hn : NoLinks fs) {fuel : Nat} {cwd : Path} (hc : PlainPath cwd) {s : Str} {q : Path}
    (h : locate fs fuel cwd s = some q) : q = absPath cwd s := by
  unfold locate at h
  unfold absPath
  split at h
  · rename_i ha; rw [if_pos ha]; exact walk_clean hn _ _ _ _ h
  · rename_i ha; rw [if_neg ha, walk_clean hn _ _ _ _ h, cleanFrom_append, cleanFrom_plain _ _ hc]; rfl

/-- A path that is there is found. -/
theorem walk_plain {fs : Disk} (ht : Tree fs) : ∀ (p cur : Path) (n : Nat), PlainPath p → p.length < n → p ≠ [] →
    fs (cur ++ p) ≠ .missing → NoLinks fs → walk fs n cur p = some (cur ++ p)
  | [], _, _, _, _, h, _, _ => absurd rfl h
  | c :: cs, cur, 0, _, hl, _, _, _ => by simp at hl
  | c :: cs, cur, n + 1, hp, hl, _, hm, hn => by
    obtain ⟨h1, h2, h3, -⟩ := hp c (.head _)
    rw [walk, if_neg (fun h => h.elim h1 h2), if_neg h3]
    by_cases hcs : cs = []
    · subst hcs
      cases n with
      | zero => simp at hl
      | succ n =>
        cases e : fs (cur ++ [c]) with
        | missing => exact absurd e hm
        | dir => rfl
        | file ls => simp
        | link t => exact absurd e (hn _ _)
    · obtain ⟨d, ds, rfl⟩ := List.exists_cons_of_ne_nil hcs
      have e : cur ++ c :: d :: ds = (cur ++ [c]) ++ d :: ds := by simp
      rw [e] at hm ⊢
      have hd : fs (cur ++ [c]) = .dir := by
        rcases ht _ _ _ hm with h | h
        · simp at h
        · exact h
      simp only [hd]
      exact walk_plain ht (d :: ds) _ n (fun c hc => hp c (.tail _ hc)) (by simp at hl ⊢; omega) (by simp) hm hn

theorem exists_iff {w : World} (hn : NoLinks w.fs) (ht : Tree w.fs) {p : Path} (hp : PlainPath p) (h0 : p ≠ []) (hl : p.length < w.fuel) :
    exists' w p = true ↔ w.fs p ≠ .missing := by
  unfold exists'
  constructor
  · intro h
    split at h
    · cases h
    · rename_i q hq
      have e := walk_clean hn _ _ _ _ hq
      rw [cleanFrom_plain _ _ hp, List.nil_append] at e
      subst e
      intro hm
      rw [hm] at h
      simp at h
      exact h0 h
  · intro h
    have e := walk_plain ht p [] w.fuel hp hl h0 h hn
    rw [List.nil_append] at e
    rw [e]
    simp only

/-! ## Roots -/

theorem modRoot_some {w : World} : ∀ {ds : Path} {r : Path}, modRootFrom w ds = some r →
    ∃ rest, ds.reverse = r ++ rest ∧ exists' w (r ++ [goMod]) = true ∧
      ∀ a b, rest = a ++ b → a ≠ [] → exists' w (r ++ a ++ [goMod]) ≠ true
  | [], r, h => by
    rw [modRootFrom] at h
    split at h
    · rename_i he; cases h; exact ⟨[], rfl, he, fun a b e ha => by simp at e; exact absurd e.1 ha⟩
    · cases h
  | d :: ds, r, h => by
    rw [modRootFrom] at h
    split at h
    · rename_i he; cases h; exact ⟨[], by simp, he, fun a b e ha => by simp at e; exact absurd e.1 ha⟩
    · rename_i he
      obtain ⟨rest, h1, h2, h3⟩ := modRoot_some h
      refine ⟨rest ++ [d], by rw [List.reverse_cons, h1, List.append_assoc], h2, fun a b e ha => ?_⟩
      rcases List.eq_nil_or_concat b with rfl | ⟨b', x, rfl⟩
      · rw [List.append_nil] at e
        rw [← e, ← List.append_assoc, ← h1, ← List.reverse_cons]
        exact he
      · rw [List.concat_eq_append, ← List.append_assoc] at e
        exact h3 a b' (List.append_inj_left' e rfl) ha

theorem modRoot_none {w : World} : ∀ {ds : Path}, modRootFrom w ds = none →
    ∀ a b, ds.reverse = a ++ b → exists' w (a ++ [goMod]) ≠ true
  | [], h, a, b, e => by
    rw [modRootFrom] at h
    split at h
    · cases h
    · rename_i he; simp at e; rw [e.1]; exact he
  | d :: ds, h, a, b, e => by
    rw [modRootFrom] at h
    split at h
    · cases h
    · rename_i he
      rcases List.eq_nil_or_concat b with rfl | ⟨b', x, rfl⟩
      · rw [List.append_nil] at e; rw [← e]; exact he
      · rw [List.concat_eq_append, ← List.append_assoc, List.reverse_cons] at e
        exact modRoot_none h a b' (List.append_inj_left' e rfl)

/-- The process can look up the project directory: the bound on lookups is not what decides. -/
structure Sane (w : World) (inputDir : Str) : Prop where
  nolinks : NoLinks w.fs
  tree : Tree w.fs
  cwd : PlainPath w.cwd
  fuel : ∀ p, Names w.cwd inputDir p → p.length + 1 < w.fuel

theorem goMod_plain : Plain goMod := by refine ⟨?_, ?_, ?_, ?_⟩ <;> decide

theorem roots_iff {w : World} {inputDir : Str} (hs : Sane w inputDir) {d : Path} :
    some d ∈ roots w inputDir ↔ Root w inputDir d := by
  have hnames := absPath_names w.cwd inputDir
  have hplain := names_plain hnames hs.cwd
  have hfuel := hs.fuel _ hnames
  have hex : ∀ a b, absPath w.cwd inputDir = a ++ b → (exists' w (a ++ [goMod]) = true ↔ w.fs (a ++ [goMod]) ≠ .missing) := by
    intro a b e
    refine exists_iff hs.nolinks hs.tree ?_ (by simp) ?_
    · intro c hc
      rcases List.mem_append.1 hc with h | h
      · exact hplain c (by rw [e]; exact List.mem_append_left _ h)
      · rw [List.mem_singleton.1 h]; exact goMod_plain
    · rw [e] at hfuel; simp at hfuel ⊢; omega
  simp only [roots, List.mem_cons, List.not_mem_nil, or_false]
  have text : ∀ s, some d = textRoot w s ↔ s ≠ [] ∧ Names w.cwd s d := by
    intro s
    unfold textRoot
    split
    · rename_i h; simp [h]
    · rename_i h
      constructor
      · intro e; cases e; exact ⟨h, absPath_names _ _⟩
      · rintro ⟨-, hN⟩; rw [names_det hN]
  rw [text, text]
  constructor
  · rintro (h | ⟨h, h2⟩ | ⟨h, h2⟩)
    · unfold moduleRoot at h
      split at h
      · rename_i r hr
        cases h
        obtain ⟨rest, h1, h2, h3⟩ := modRoot_some hr
        rw [List.reverse_reverse] at h1
        refine .module hnames h1 ((hex _ _ h1).1 h2) (fun a b e ha => ?_)
        have := h3 a b e ha
        rw [ne_eq, hex (d ++ a) b (by rw [h1, e, List.append_assoc])] at this
        exact Classical.byContradiction this
      · rename_i hr
        split at h
        · cases h
        · rename_i h0
          cases h
          refine .project hnames h0 (fun a b e => ?_)
          have := modRoot_none hr a b (by rw [List.reverse_reverse]; exact e)
          rw [ne_eq, hex a b e] at this
          exact Classical.byContradiction this
    · exact .goroot h h2
    · exact .modcache h h2
  · intro h
    cases h with
    | goroot h h2 => exact .inr (.inl ⟨h, h2⟩)
    | modcache h h2 => exact .inr (.inr ⟨h, h2⟩)
    | module hN hp he hb =>
      rename_i p rest
      left
      have hp' := names_det hN
      subst hp'
      unfold moduleRoot
      split
      · rename_i r hr
        obtain ⟨rest', h1, h2, h3⟩ := modRoot_some hr
        rw [List.reverse_reverse] at h1
        have h1' := h1
        rw [hp] at h1'
        rcases List.append_eq_append_iff.1 h1' with ⟨a, e1, e2⟩ | ⟨a, e1, e2⟩
        · by_cases ha : a = []
          · subst ha; simp at e1; rw [e1]
          · exfalso
            have h4 := hb a rest' e2 ha
            rw [← e1] at h4
            exact (hex _ _ h1).1 h2 h4
        · by_cases ha : a = []
          · subst ha; simp at e1; rw [e1]
          · exfalso
            have h4 := h3 a rest e2 ha
            rw [← e1] at h4
            exact h4 ((hex _ _ hp).2 he)
      · rename_i hr
        exact absurd ((hex _ _ hp).2 he) (modRoot_none hr d rest (by rw [List.reverse_reverse]; exact hp))
    | project hN h0 hb =>
      left
      have hp' := names_det hN
      subst hp'
      unfold moduleRoot
      split
      · rename_i r hr
        obtain ⟨rest', h1, h2, h3⟩ := modRoot_some hr
        rw [List.reverse_reverse] at h1
        exact absurd (hb r rest' h1) ((hex _ _ h1).1 h2)
      · rw [if_neg h0]

theorem allowed_iff {w : World} {inputDir : Str} (hs : Sane w inputDir) {q : Path} (hq : PlainPath q) :
    sourcePathAllowed w inputDir q = true ↔ ∃ d, Root w inputDir d ∧ Under d q := by
  unfold sourcePathAllowed
  rw [List.any_eq_true]
  constructor
  · rintro ⟨r, hr, h⟩
    cases r with
    | none => cases h
    | some d => exact ⟨d, (roots_iff hs).1 hr, (rel_inside d q hq).1 h⟩
  · rintro ⟨d, hr, h⟩
    exact ⟨some d, (roots_iff hs).2 hr, (rel_inside d q hq).2 h⟩

/-! ## Windows -/

theorem window_slice (start stop : Int) : ∀ (ls : List Str) (n : Int),
    window start stop n ls = (ls.drop (start - 1 - n).toNat).take (stop + 1 - max start (n + 1)).toNat
  | [], n => by simp [window]
  | l :: ls, n => by
    rw [window]
    split
    · rename_i h
      rw [window_slice start stop ls (n + 1)]
      have e : (start - 1 - n).toNat = (start - 1 - (n + 1)).toNat + 1 := by omega
      rw [e, List.drop_succ_cons]
      congr 2
      omega
    · rename_i h
      have e : (start - 1 - n).toNat = 0 := by omega
      rw [e, List.drop_zero]
      split
      · have e2 : (stop + 1 - max start (n + 1)).toNat = 0 := by omega
        rw [e2, List.take_zero]
      · rw [window_slice start stop ls (n + 1)]
        have e2 : (stop + 1 - max start (n + 1)).toNat = (stop + 1 - max start (n + 1 + 1)).toNat + 1 := by omega
        have e3 : (start - 1 - (n + 1)).toNat = 0 := by omega
        rw [e2, e3, List.drop_zero, List.take_succ_cons]

/-! ## C88 -/

theorem queryInt_range {v : Str} {d : Int} (h0 : 0 ≤ d) (h1 : d ≤ 200) : 0 ≤ queryInt v d ∧ queryInt v d ≤ 200 := by
  unfold queryInt
  split
  · omega
  · split
    · omega
    · split
      · omega
      · split <;> omega

/-- The parts of an answer with source. -/
theorem source_parts {w : World} {inputDir : Str} {r : SourceRequest} {file : Path} {code : Str} {start line : Int}
    (h : handleSource w inputDir r = .source file code start line) :
    (parsePos r.pos).1 ≠ [] ∧ file = absPath w.cwd (parsePos r.pos).1 ∧ line = (parsePos r.pos).2 ∧ 0 < line ∧
    sourcePathAllowed w inputDir file = true ∧ start = windowStart line (queryInt r.before 3) ∧
    ∃ ls, readLines w.fs w.fuel w.cwd (parsePos r.pos).1 = some ls ∧
      code = joinC '\n' (window start (line + queryInt r.after 26) 0 (scanned w.fits ls)) ∧ code ≠ [] := by
  simp only [handleSource] at h
  split at h
  · cases h
  split at h
  · cases h
  split at h
  · cases h
  split at h
  · cases h
  rename_i h1 h2 h3 h4
  injection h with e1 e2 e3 e4
  have h5 : ¬ ((parsePos r.pos).1 = [] ∨ (parsePos r.pos).2 ≤ 0) := by
    intro h; rw [readSourceWindow] at h4; simp only [if_pos h] at h4; exact h4 trivial
  refine ⟨h2, e1.symm, e4.symm, ?_, ?_, ?_, ?_⟩
  · rw [← e4]; omega
  · rw [← e1]; simpa using h3
  · rw [← e3, e4]
  · rw [readSourceWindow] at h4 e2
    simp only [if_neg h5] at h4 e2
    cases hl : readLines w.fs w.fuel w.cwd (parsePos r.pos).1 with
    | none => rw [hl] at h4; exact absurd rfl h4
    | some ls =>
      rw [hl] at h4 e2
      refine ⟨ls, rfl, ?_, ?_⟩
      · rw [← e2, ← e3, ← e4]
      · rw [← e2]; exact h4

/-- **C88** (partial: a disk without symbolic links).  What the source view shows are lines of a file below the
project's module, GOROOT or the module cache; the file reported is the file read; and no more than 200 lines
before and after the line asked for are shown. -/
theorem C88_confined_partial {w : World} {inputDir : Str} (hs : Sane w inputDir) {r : SourceRequest} {file : Path} {code : Str} {start line : Int}
    (h : handleSource w inputDir r = .source file code start line) :
    ∃ dir ls shown, Root w inputDir dir ∧ Under dir file ∧ w.fs file = .file ls ∧ code = joinC '\n' shown ∧
      1 ≤ start ∧ line - 200 ≤ start ∧ start ≤ line ∧ shown.length ≤ 401 ∧
      ∀ i l, shown[i]? = some l → ls[start.toNat - 1 + i]? = some l ∧ start + i ≤ line + 200 := by
  obtain ⟨h1, h2, h3, h4, h5, h6, ls, h7, h8, h9⟩ := source_parts h
  have hb := queryInt_range (v := r.before) (d := 3) (by omega) (by omega)
  have ha := queryInt_range (v := r.after) (d := 26) (by omega) (by omega)
  have hq : PlainPath file := by rw [h2]; exact names_plain (absPath_names _ _) hs.cwd
  obtain ⟨dir, hr, hu⟩ := (allowed_iff hs hq).1 h5
  have hf : w.fs file = .file ls := by
    unfold readLines at h7
    cases hl : locate w.fs w.fuel w.cwd (parsePos r.pos).1 with
    | none => rw [hl] at h7; cases h7
    | some q =>
      rw [hl] at h7
      have e := locate_named hs.nolinks hs.cwd hl
      rw [← h2] at e
      subst e
      simp only [Option.bind_some] at h7
      split at h7
      · rename_i e; cases h7; exact e
      · cases h7
  have hst : 1 ≤ start ∧ line - 200 ≤ start ∧ start ≤ line := by
    rw [h6]; unfold windowStart; split <;> omega
  refine ⟨dir, ls, _, hr, hu, hf, h8, hst.1, hst.2.1, hst.2.2, ?_, ?_⟩
  · rw [window_slice, List.length_take]; omega
  · intro i l hi
    rw [window_slice, List.getElem?_take] at hi
    split at hi
    · rename_i hlt
      rw [List.getElem?_drop] at hi
      refine ⟨?_, by omega⟩
      obtain ⟨t, ht⟩ := List.takeWhile_prefix (l := ls) w.fits
      have e : (start - 1 - 0).toNat + i = start.toNat - 1 + i := by omega
      rw [e] at hi
      rw [← ht, List.getElem?_append_left]
      · exact hi
      · obtain ⟨hh, -⟩ := List.getElem?_eq_some_iff.1 hi; exact hh
    · cases hi

/-- **C88**: a file that is not, by its path, below one of these directories is refused, whether it exists or not. -/
theorem C88_outside_refused {w : World} {inputDir : Str} (hs : Sane w inputDir) {r : SourceRequest} (hg : r.get = true) {text : Str} {line : Int} {p : Path}
    (hp : parsePos r.pos = (text, line)) (h0 : text ≠ []) (hn : Names w.cwd text p) (ho : ∀ d, Root w inputDir d → ¬ Under d p) :
    handleSource w inputDir r = .forbidden := by
  have e := names_det hn
  have hq := names_plain hn hs.cwd
  simp only [handleSource, hg, Bool.not_true, Bool.false_eq_true, if_false, hp, if_neg h0, ← e]
  rw [if_pos]
  rw [Bool.not_eq_true']
  refine Bool.eq_false_iff.2 (fun h => ?_)
  obtain ⟨d, h1, h2⟩ := (allowed_iff hs hq).1 h
  exact ho d h1 h2

theorem isSpace_digit {c : Char} (h : c.isDigit = true) : isSpace c = false := by
  simp only [Char.isDigit, Bool.and_eq_true, decide_eq_true_eq] at h
  have h1 : 48 ≤ c.toNat := h.1
  have h2 : c.toNat ≤ 57 := h.2
  simp only [isSpace, Bool.or_eq_false_iff, Bool.and_eq_false_iff, decide_eq_false_iff_not]
  refine ⟨?_, .inl (by omega)⟩
  simp only [List.contains_eq_mem, decide_eq_false_iff_not, List.mem_cons, List.not_mem_nil, or_false, not_or]
  omega

theorem joinC_nonempty : ∀ {ls : List Str} {l : Str}, l ∈ ls → l ≠ [] → joinC '\n' ls ≠ []
  | [a], l, h, h0 => by rw [List.mem_singleton.1 h] at h0; simpa [joinC] using h0
  | a :: b :: ls, l, h, h0 => by simp [joinC]

theorem parsePos_file {f num : Str} {line : Int} (hc : ':' ∉ f) (hf : ∃ c t, f = c :: t ∧ isSpace c = false)
    (hn : num ≠ []) (hd : ∀ c ∈ num, c.isDigit = true) (ha : atoi num = some line) : parsePos (f ++ ':' :: num) = (f, line) := by
  have ht : trimSpace (f ++ ':' :: num) = f ++ ':' :: num := by
    obtain ⟨c, t, rfl, hsp⟩ := hf
    obtain ⟨ns, x, rfl⟩ : ∃ ns x, num = ns ++ [x] := ⟨num.dropLast, num.getLast hn, (List.dropLast_concat_getLast hn).symm⟩
    have hx := isSpace_digit (hd x (by simp))
    have e : c :: t ++ ':' :: (ns ++ [x]) = (c :: t ++ ':' :: ns) ++ [x] := by simp
    rw [trimSpace, trimBy, show (c :: t ++ ':' :: (ns ++ [x])).dropWhile isSpace = c :: t ++ ':' :: (ns ++ [x]) by simp [hsp], e]
    simp [hx]
  have hcol : ':' ∉ num := fun h => by have := hd _ h; revert this; decide
  simp only [parsePos, ht]
  rw [splitC_append _ _ _ hc, splitC_no _ _ hcol, if_neg (by simp)]
  simp [ha, joinC]

theorem parsePos_col {f num col : Str} {line x : Int} (hc : ':' ∉ f) (hf : ∃ c t, f = c :: t ∧ isSpace c = false)
    (hd : ∀ c ∈ num, c.isDigit = true) (ha : atoi num = some line)
    (hn2 : col ≠ []) (hd2 : ∀ c ∈ col, c.isDigit = true) (ha2 : atoi col = some x) : parsePos (f ++ ':' :: num ++ ':' :: col) = (f, line) := by
  have ht : trimSpace (f ++ ':' :: num ++ ':' :: col) = f ++ ':' :: num ++ ':' :: col := by
    obtain ⟨c, t, rfl, hsp⟩ := hf
    obtain ⟨ns, x, rfl⟩ : ∃ ns x, col = ns ++ [x] := ⟨col.dropLast, col.getLast hn2, (List.dropLast_concat_getLast hn2).symm⟩
    have hx := isSpace_digit (hd2 x (by simp))
    have e : c :: t ++ ':' :: num ++ ':' :: (ns ++ [x]) = (c :: t ++ ':' :: num ++ ':' :: ns) ++ [x] := by simp
    rw [trimSpace, trimBy, show (c :: t ++ ':' :: num ++ ':' :: (ns ++ [x])).dropWhile isSpace = c :: t ++ ':' :: num ++ ':' :: (ns ++ [x]) by simp [hsp], e]
    simp [hx]
  have no : ∀ s : Str, (∀ c ∈ s, c.isDigit = true) → ':' ∉ s := fun s hs h => by have := hs _ h; revert this; decide
  simp only [parsePos, ht]
  rw [List.append_assoc, List.cons_append, splitC_append _ _ _ hc, splitC_append _ _ _ (no _ hd), splitC_no _ _ (no _ hd2), if_neg (by simp)]
  simp [ha, ha2, joinC]

theorem render_split {q : Path} (hq : PlainPath q) (h0 : q ≠ []) : splitC '/' (render q) = [] :: q := by
  rw [render, splitC, if_pos rfl, splitC_join _ _ h0 (fun c hc => (hq c hc).2.2.2)]

theorem absPath_render {cwd q : Path} (hq : PlainPath q) (h0 : q ≠ []) : absPath cwd (render q) = q := by
  have : isAbs (render q) = true := rfl
  rw [absPath, if_pos this, render_split hq h0, cleanFrom, if_pos (.inl rfl), cleanFrom_plain _ _ hq]; rfl

theorem mem_joinC {x sep : Char} : ∀ {ls : List Str}, x ∈ joinC sep ls → x = sep ∨ ∃ l ∈ ls, x ∈ l
  | [], h => by cases h
  | [a], h => .inr ⟨a, .head _, h⟩
  | a :: b :: ls, h => by
    simp only [joinC, List.mem_append, List.mem_cons] at h
    rcases h with h | h | h
    · exact .inr ⟨a, .head _, h⟩
    · exact .inl h
    · rcases mem_joinC h with h | ⟨l, hl, h⟩
      · exact .inl h
      · exact .inr ⟨l, .tail _ hl, h⟩

/-- **C88**: every line of every file below these directories can be shown: asking for it by the file's path and the line number,
with or without a column, answers with that line, in its place among its neighbours. -/
theorem C88_served {w : World} {inputDir : Str} (hs : Sane w inputDir) {r : SourceRequest} (hg : r.get = true)
    {dir q : Path} (hr : Root w inputDir dir) (hu : Under dir q) (h0 : q ≠ []) (hq : PlainPath q) (hcol : ∀ c ∈ q, ':' ∉ c)
    {ls : List Str} (hf : w.fs q = .file ls) (hfit : ∀ l ∈ ls, w.fits l = true) (hfuel : q.length + 1 < w.fuel)
    {num : Str} (hn : num ≠ []) (hd : ∀ c ∈ num, c.isDigit = true) {k : Nat} (ha : atoi num = some ((k : Int) + 1))
    {l : Str} (hl : ls[k]? = some l) (hl0 : l ≠ [])
    (hpos : r.pos = '/' :: joinC '/' q ++ ':' :: num ∨
      ∃ col x, col ≠ [] ∧ (∀ c ∈ col, c.isDigit = true) ∧ atoi col = some x ∧ r.pos = '/' :: joinC '/' q ++ ':' :: num ++ ':' :: col) :
    ∃ pre post start, handleSource w inputDir r = .source q (joinC '\n' (pre ++ l :: post)) start (k + 1) ∧ start + pre.length = k + 1 := by
  have hcr : ':' ∉ render q := by
    intro h
    rcases List.mem_cons.1 h with h | h
    · revert h; decide
    · rcases mem_joinC h with h | ⟨c, hc, h⟩
      · revert h; decide
      · exact hcol c hc h
  have hp : parsePos r.pos = (render q, (k : Int) + 1) := by
    rcases hpos with hpos | ⟨col, x, h1, h2, h3, hpos⟩
    · rw [hpos]; exact parsePos_file hcr ⟨'/', _, rfl, by decide⟩ hn hd ha
    · rw [hpos]; exact parsePos_col hcr ⟨'/', _, rfl, by decide⟩ hd ha h1 h2 h3
  have hb := queryInt_range (v := r.before) (d := 3) (by omega) (by omega)
  have hafter := queryInt_range (v := r.after) (d := 26) (by omega) (by omega)
  have hread : readLines w.fs w.fuel w.cwd (render q) = some ls := by
    have habs : isAbs (render q) = true := rfl
    have : locate w.fs w.fuel w.cwd (render q) = some q := by
      rw [locate, if_pos habs, render_split hq h0]
      obtain ⟨n, hn⟩ : ∃ n, w.fuel = n + 1 := ⟨w.fuel - 1, by omega⟩
      rw [hn, walk, if_pos (.inl rfl)]
      have := walk_plain hs.tree q [] n hq (by omega) h0 (by rw [List.nil_append, hf]; simp) hs.nolinks
      rw [this]; rfl
    rw [readLines, this]
    simp only [Option.bind_some, hf]
  have hscan : scanned w.fits ls = ls := by
    unfold scanned
    have : ∀ m : List Str, (∀ l ∈ m, w.fits l = true) → m.takeWhile w.fits = m := by
      intro m; induction m with
      | nil => intro _; rfl
      | cons a m ih => intro h; rw [List.takeWhile_cons, if_pos (h a (.head _)), ih (fun l hl => h l (.tail _ hl))]
    exact this ls hfit
  generalize hS : windowStart ((k : Int) + 1) (queryInt r.before 3) = S
  have hS1 : 1 ≤ S ∧ S ≤ k + 1 := by rw [← hS]; unfold windowStart; split <;> omega
  generalize hA : queryInt r.after 26 = A at hafter
  obtain ⟨s, rfl⟩ : ∃ s : Nat, S = s + 1 := ⟨(S - 1).toNat, by omega⟩
  obtain ⟨a, rfl⟩ : ∃ a : Nat, A = a := ⟨A.toNat, by omega⟩
  have hwin : window ((s : Int) + 1) ((k : Int) + 1 + a) 0 ls = (ls.drop s).take (k + 1 + a - s) := by
    rw [window_slice]
    congr 1
    · omega
    · congr 1; omega
  have hget : (window ((s : Int) + 1) ((k : Int) + 1 + a) 0 ls)[k - s]? = some l := by
    rw [hwin, List.getElem?_take, if_pos (by omega), List.getElem?_drop, show s + (k - s) = k by omega, hl]
  generalize hW : window ((s : Int) + 1) ((k : Int) + 1 + a) 0 ls = W at hget
  obtain ⟨hlt, hlx⟩ := List.getElem?_eq_some_iff.1 hget
  have hsplit : W = W.take (k - s) ++ l :: W.drop (k - s + 1) := by
    rw [← hlx, ← List.drop_eq_getElem_cons hlt, List.take_append_drop]
  refine ⟨W.take (k - s), W.drop (k - s + 1), s + 1, ?_, ?_⟩
  · rw [← hsplit]
    have hcode : readSourceWindow w r.pos (queryInt r.before 3) (queryInt r.after 26) = joinC '\n' W := by
      rw [readSourceWindow]
      simp only [hp, hread, hscan, hS, hA, hW]
      rw [if_neg]
      rintro (h | h)
      · cases h
      · omega
    have hne : joinC '\n' W ≠ [] := joinC_nonempty (l := l) (by rw [hsplit]; simp) hl0
    have hall : sourcePathAllowed w inputDir q = true := (allowed_iff hs hq).2 ⟨dir, hr, hu⟩
    simp only [handleSource, hg, hcode, hp, absPath_render hq h0, hall, hS]
    simp [render, hne]
  · rw [List.length_take]; omega

/-- The number of lines asked for by the text of a parameter. -/
inductive Asked (d : Int) : Str → Int → Prop
  | absent : Asked d [] d
  | number {t n} : atoi t = some n → 0 ≤ n → n ≤ 200 → Asked d t n
  | many {t n} : atoi t = some n → 200 < n → Asked d t 200
  | negative {t n} : atoi t = some n → n < 0 → Asked d t d
  | invalid {t} : atoi t = none → Asked d t d

theorem asked_det {d : Int} {t : Str} {n : Int} (h : Asked d t n) : queryInt t d = n := by
  have h0 : ∀ {m}, atoi t = some m → t ≠ [] := by rintro m h rfl; cases h
  unfold queryInt
  cases h with
  | absent => rfl
  | number h h1 h2 => rw [if_neg (h0 h), h]; simp only; rw [if_neg (by omega), if_neg (by omega)]
  | many h h1 => rw [if_neg (h0 h), h]; simp only; rw [if_neg (by omega), if_pos (by omega)]
  | negative h h1 => rw [if_neg (h0 h), h]; simp only; rw [if_pos h1]
  | invalid h => rw [h]; simp

/-- **C88**: the lines shown are exactly those from `before` lines above to `after` lines below the line asked for, as far
as the file has them. -/
theorem C88_window {w : World} {inputDir : Str} (hs : Sane w inputDir) {r : SourceRequest} {file : Path} {code : Str} {start line before after : Int}
    (h : handleSource w inputDir r = .source file code start line) (hb : Asked 3 r.before before) (ha : Asked 26 r.after after)
    {ls : List Str} (hf : w.fs file = .file ls) (hfit : ∀ l ∈ ls, w.fits l = true) :
    start = max 1 (line - before) ∧
      ∃ shown, code = joinC '\n' shown ∧ ∀ i : Nat, shown[i]? = if start + i ≤ line + after then ls[start.toNat - 1 + i]? else none := by
  obtain ⟨h1, h2, h3, h4, h5, h6, ls', h7, h8, h9⟩ := source_parts h
  rw [asked_det hb] at h6
  rw [asked_det ha] at h8
  have hst : start = max 1 (line - before) := by rw [h6]; unfold windowStart; split <;> omega
  have he : ls' = ls := by
    unfold readLines at h7
    cases hl : locate w.fs w.fuel w.cwd (parsePos r.pos).1 with
    | none => rw [hl] at h7; cases h7
    | some q =>
      rw [hl] at h7
      have e := locate_named hs.nolinks hs.cwd hl
      rw [← h2] at e
      subst e
      simp only [Option.bind_some, hf] at h7
      cases h7; rfl
  subst he
  have hscan : scanned w.fits ls' = ls' := by
    have : ∀ m : List Str, (∀ l ∈ m, w.fits l = true) → m.takeWhile w.fits = m := by
      intro m; induction m with
      | nil => intro _; rfl
      | cons a m ih => intro h; rw [List.takeWhile_cons, if_pos (h a (.head _)), ih (fun l hl => h l (.tail _ hl))]
    exact this ls' hfit
  refine ⟨hst, _, h8, fun i => ?_⟩
  rw [hscan, window_slice, List.getElem?_take, List.getElem?_drop]
  have e : (start - 1 - 0).toNat + i = start.toNat - 1 + i := by omega
  rw [e]
  by_cases hi : start + i ≤ line + after
  · rw [if_pos hi, if_pos (by omega)]
  · rw [if_neg hi, if_neg (by omega)]

/-- **C88**, what the restriction is worth: any client may switch the project to `/` (the server asks only that the
directory exists), after which every line of every file is shown. -/
theorem C88_switch_shows_all {w : World} (hn : NoLinks w.fs) (ht : Tree w.fs) (hcwd : PlainPath w.cwd) {inputDir : Str}
    {q : Path} (h0 : q ≠ []) (hq : PlainPath q) (hcol : ∀ c ∈ q, ':' ∉ c)
    {ls : List Str} (hf : w.fs q = .file ls) (hfit : ∀ l ∈ ls, w.fits l = true) (hfuel : q.length + 1 < w.fuel)
    {num : Str} (hnum : num ≠ []) (hd : ∀ c ∈ num, c.isDigit = true) {k : Nat} (ha : atoi num = some ((k : Int) + 1))
    {l : Str} (hl : ls[k]? = some l) (hl0 : l ≠ []) :
    ∃ dir, handleProject w inputDir ['/'] = (dir, .done) ∧
      ∃ pre post start, handleSource w dir ⟨true, '/' :: joinC '/' q ++ ':' :: num, [], []⟩ = .source q (joinC '\n' (pre ++ l :: post)) start (k + 1) ∧
        start + pre.length = k + 1 := by
  have hroot : absPath w.cwd ['/'] = [] := rfl
  have hv : validateProjectDir w ['/'] = some [] := by
    have e : trimSpace ['/'] ≠ [] := by decide
    obtain ⟨n, hf⟩ : ∃ n, w.fuel = n + 1 := ⟨w.fuel - 1, by omega⟩
    rw [validateProjectDir, if_neg e, hroot, hf]
    simp only [walk]
    split
    · rfl
    · rfl
  refine ⟨['/'], by rw [handleProject, hv]; rfl, ?_⟩
  have hs : Sane w ['/'] := ⟨hn, ht, hcwd, fun p hp => by rw [names_det hp, hroot]; simp; omega⟩
  have hr : Root w ['/'] [] := by
    have hN : Names w.cwd ['/'] [] := by rw [← hroot]; exact absPath_names _ _
    by_cases hg : w.fs [goMod] = .missing
    · refine .project hN (by simp) (fun a b e => ?_)
      have := (List.append_eq_nil_iff.1 e.symm).1
      rw [this]; exact hg
    · exact .module (rest := []) hN rfl hg (fun a b e h => absurd (List.append_eq_nil_iff.1 e.symm).1 h)
  exact C88_served hs rfl hr ⟨q, rfl⟩ h0 hq hcol hf hfit hfuel hnum hd ha hl hl0 (.inl rfl)

/-! ## Examples -/

namespace Example

def s (x : String) : Str := x.toList

/-- A project in `/p` and a secret beside it. -/
def plain : Disk := fun p =>
  if p = [s "p"] then .dir
  else if p = [s "p", s "go.mod"] then .file [s "module m"]
  else if p = [s "p", s "a.go"] then .file [s "package a", [], s "func A() {}", s "// end"]
  else if p = [s "etc"] then .dir
  else if p = [s "etc", s "key"] then .file [s "secret"]
  else .missing

def world (fs : Disk) : World := ⟨fs, 20, [s "p"], fun _ => true, s "/go", []⟩

theorem plain_nolinks : NoLinks plain := by
  intro p t; unfold plain; grind

theorem plain_tree : Tree plain := by
  intro p c rest h
  have hp : p ++ c :: rest = [s "p"] ∨ p ++ c :: rest = [s "p", s "go.mod"] ∨ p ++ c :: rest = [s "p", s "a.go"] ∨
      p ++ c :: rest = [s "etc"] ∨ p ++ c :: rest = [s "etc", s "key"] := by
    unfold plain at h
    grind
  match p with
  | [] => exact .inl rfl
  | [x] =>
    right
    simp only [List.cons_append, List.nil_append, List.cons.injEq, reduceCtorEq, and_false, false_or] at hp
    rcases hp with ⟨rfl, -⟩ | ⟨rfl, -⟩ | ⟨rfl, -⟩ <;> rfl
  | x :: y :: z => simp at hp

theorem world_sane : Sane (world plain) (s "/p") :=
  ⟨plain_nolinks, plain_tree, (by intro c h; rw [List.mem_singleton.1 h]; refine ⟨?_, ?_, ?_, ?_⟩ <;> decide),
    fun p hp => by rw [names_det hp]; decide⟩

/-- The hypotheses of the theorems are met: the view shows the lines around the third line of `/p/a.go`. -/
example : handleSource (world plain) (s "/p") ⟨true, s "a.go:3:6", s "1", s "0"⟩ = .source [s "p", s "a.go"] (s "\nfunc A() {}") 2 3 := by decide
example : handleSource (world plain) (s "/p") ⟨true, s "/p/../etc/key:1", [], []⟩ = .forbidden := by decide
example : handleSource (world plain) (s "/p") ⟨true, s "/p/../p/go.mod:1", [], []⟩ = .source [s "p", s "go.mod"] (s "module m") 1 1 := by decide

/-- A blank line asked for alone is answered as if the source were not there. -/
theorem _root_.Verif.SourceModel.C88_blank_line_not_found :
    handleSource (world plain) (s "/p") ⟨true, s "a.go:2", s "0", s "0"⟩ = .notFound := by decide

/-- The same project with links. -/
def linked : Disk := fun p =>
  if p = [s "p", s "key.go"] then .link (s "/etc/key")
  else if p = [s "p", s "out"] then .link (s "/etc/d")
  else if p = [s "etc", s "d"] then .dir
  else plain p

end Example

open Example in
/-- **C88** fails with symbolic links: the check compares path texts, the file is opened through the links.  A link in the
project shows a file outside; and after a link to a directory, `..` leads out of the directory the link points to, while the
answer names a file in the project that does not even exist. -/
theorem C88_symlink_escape :
    (∃ w inputDir r file code, handleSource w inputDir r = .source file code 1 1 ∧ code = s "secret" ∧
      w.fs [s "etc", s "key"] = .file [s "secret"] ∧ Under [s "p"] file ∧ some [s "p"] ∈ roots w inputDir ∧
      ∀ d, some d ∈ roots w inputDir → ¬ Under d [s "etc", s "key"]) ∧
    ∃ w inputDir r file code, handleSource w inputDir r = .source file code 1 1 ∧ code = s "secret" ∧
      w.fs file = .missing ∧ ∀ d, some d ∈ roots w inputDir → ¬ Under d [s "etc", s "key"] := by
  have hr : roots (world linked) (s "/p") = [some [s "p"], some [s "go"], none] := by decide
  have ho : ∀ d, some d ∈ roots (world linked) (s "/p") → ¬ Under d [s "etc", s "key"] := by
    intro d hd
    rw [hr] at hd
    simp at hd
    rcases hd with rfl | rfl
    · rintro ⟨x, e⟩; injection e with e _; revert e; decide
    · rintro ⟨x, e⟩; injection e with e _; revert e; decide
  refine ⟨⟨world linked, s "/p", ⟨true, s "/p/key.go:1", [], []⟩, [s "p", s "key.go"], s "secret", by decide, rfl, rfl, ⟨[s "key.go"], rfl⟩, by rw [hr]; simp, ho⟩, ?_⟩
  exact ⟨world linked, s "/p", ⟨true, s "/p/out/../key:1", [], []⟩, [s "p", s "key"], s "secret", by decide, rfl, rfl, ho⟩

end Verif.SourceModel
