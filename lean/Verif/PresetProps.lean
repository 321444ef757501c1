/-
C96: which calls the built-in patterns of each framework take for route registrations and mounts.
C97: which functions the built-in entrypoint patterns make roots.
-/
import Verif.PresetModel

namespace Verif.Preset
open Verif.RegexModel

/-! ## Expressions with finitely many words -/

/-- What a word is made of: given characters, arbitrary characters and numbers. -/
inductive Atom
  | chr (c : Char)
  | any
  | number
  deriving DecidableEq

/-- The words of a pattern without repetition, except of digits. -/
def words : Pat → Option (List (List Atom))
  | .eps => some [[]]
  | .none => some []
  | .chr c => some [[.chr c]]
  | .any => some [[.any]]
  | .digit => some (['0', '1', '2', '3', '4', '5', '6', '7', '8', '9'].map fun c => [.chr c])
  | .cat a b =>
    if a = .digit ∧ b = .star .digit then some [[.number]]
    else (words a).bind fun x => (words b).map fun y => x.flatMap fun u => y.map fun v => u ++ v
  | .alt a b => (words a).bind fun x => (words b).map fun y => x ++ y
  | .star _ => none

/-- A text spells a word. -/
def Spells (fold : Bool) : List Atom → Str → Prop
  | [], s => s = []
  | .any :: w, s => ∃ c t, s = c :: t ∧ c ≠ '\n' ∧ Spells fold w t
  | .number :: w, s => ∃ d t, s = d ++ t ∧ d ≠ [] ∧ (∀ c ∈ d, c.isDigit = true) ∧ Spells fold w t
  | .chr c :: w, s => ∃ x t, s = x :: t ∧ (if fold then foldEq c x = true else x = c) ∧ Spells fold w t

theorem spells_append {fold : Bool} : ∀ {u v : List Atom} {s : Str}, Spells fold (u ++ v) s ↔ ∃ a b, s = a ++ b ∧ Spells fold u a ∧ Spells fold v b
  | [], v, s => by
    simp only [List.nil_append, Spells]
    constructor
    · intro h; exact ⟨[], s, rfl, rfl, h⟩
    · rintro ⟨a, b, rfl, rfl, h⟩; exact h
  | .number :: u, v, s => by
    simp only [List.cons_append, Spells]
    constructor
    · rintro ⟨d, t, rfl, hd, hc, h⟩
      obtain ⟨a, b, rfl, h1, h2⟩ := spells_append.1 h
      exact ⟨d ++ a, b, by simp, ⟨d, a, rfl, hd, hc, h1⟩, h2⟩
    · rintro ⟨a, b, rfl, ⟨d, t, rfl, hd, hc, h1⟩, h2⟩
      exact ⟨d, t ++ b, by simp, hd, hc, spells_append.2 ⟨t, b, rfl, h1, h2⟩⟩
  | .any :: u, v, s => by
    simp only [List.cons_append, Spells]
    constructor
    · rintro ⟨c, t, rfl, hc, h⟩
      obtain ⟨a, b, rfl, h1, h2⟩ := spells_append.1 h
      exact ⟨c :: a, b, rfl, ⟨c, a, rfl, hc, h1⟩, h2⟩
    · rintro ⟨a, b, rfl, ⟨c, t, rfl, hc, h1⟩, h2⟩
      exact ⟨c, t ++ b, rfl, hc, spells_append.2 ⟨t, b, rfl, h1, h2⟩⟩
  | .chr c :: u, v, s => by
    simp only [List.cons_append, Spells]
    constructor
    · rintro ⟨x, t, rfl, hc, h⟩
      obtain ⟨a, b, rfl, h1, h2⟩ := spells_append.1 h
      exact ⟨x :: a, b, rfl, ⟨x, a, rfl, hc, h1⟩, h2⟩
    · rintro ⟨a, b, rfl, ⟨x, t, rfl, hc, h1⟩, h2⟩
      exact ⟨x, t ++ b, rfl, hc, spells_append.2 ⟨t, b, rfl, h1, h2⟩⟩

theorem isDigit_iff (x : Char) : x.isDigit = true ↔ x ∈ ['0', '1', '2', '3', '4', '5', '6', '7', '8', '9'] := by
  constructor
  · intro h
    simp only [Char.isDigit, Bool.and_eq_true, decide_eq_true_eq] at h
    have hn : x.toNat = x.val.toNat := rfl
    have h1 : 48 ≤ x.toNat := h.1
    have h2 : x.toNat ≤ 57 := h.2
    have key : ∀ c : Char, x.toNat = c.toNat → x = c := fun c hc => Char.ext (UInt32.toNat_inj.1 hc)
    have : x.toNat = 48 ∨ x.toNat = 49 ∨ x.toNat = 50 ∨ x.toNat = 51 ∨ x.toNat = 52 ∨ x.toNat = 53 ∨ x.toNat = 54 ∨ x.toNat = 55 ∨ x.toNat = 56 ∨ x.toNat = 57 := by omega
    rcases this with h | h | h | h | h | h | h | h | h | h
    · rw [key '0' h]; simp
    · rw [key '1' h]; simp
    · rw [key '2' h]; simp
    · rw [key '3' h]; simp
    · rw [key '4' h]; simp
    · rw [key '5' h]; simp
    · rw [key '6' h]; simp
    · rw [key '7' h]; simp
    · rw [key '8' h]; simp
    · rw [key '9' h]; simp
  · intro h
    simp only [List.mem_cons, List.not_mem_nil, or_false] at h
    rcases h with h | h | h | h | h | h | h | h | h | h <;> subst h <;> decide

/-- Folding does not matter for digits. -/
theorem foldEq_digit {d x : Char} (hd : d ∈ ['0', '1', '2', '3', '4', '5', '6', '7', '8', '9']) : foldEq d x = true ↔ x = d := by
  have hl : ∀ x : Char, x.toLower = x ∨ (97 ≤ x.toLower.toNat ∧ x.toLower.toNat ≤ 122) := by
    intro x
    unfold Char.toLower
    split
    · rename_i h
      right
      have hx : 65 ≤ x.val.toNat ∧ x.val.toNat ≤ 90 := ⟨UInt32.le_iff_toNat_le.1 h.1, UInt32.le_iff_toNat_le.1 h.2⟩
      show 97 ≤ (x.val + 32).toNat ∧ (x.val + 32).toNat ≤ 122
      rw [UInt32.toNat_add]
      have : (32 : UInt32).toNat = 32 := rfl
      rw [this, Nat.mod_eq_of_lt (by omega)]
      omega
    · exact .inl rfl
  have hnum : d.toLower = d ∧ d.toNat ≤ 57 ∧ (d.toLower == 's') = false ∧ (d.toLower == 'k') = false := by
    simp only [List.mem_cons, List.not_mem_nil, or_false] at hd
    rcases hd with h | h | h | h | h | h | h | h | h | h <;> subst h <;> decide
  obtain ⟨h1, h2, h3, h4⟩ := hnum
  unfold foldEq
  rw [h3, h4, h1]
  simp only [Bool.false_and, Bool.or_false, beq_iff_eq]
  constructor
  · intro h
    rcases hl x with hx | hx
    · rw [← hx]; exact h
    · rw [h] at hx; omega
  · rintro rfl; exact h1

theorem words_iff (fold : Bool) : ∀ (p : Pat) (ws : List (List Atom)), words p = some ws → ∀ s : Str, Lang (toRe fold p) s ↔ ∃ w ∈ ws, Spells fold w s
  | .eps, ws, h, s => by
    injection h with h; subst h
    simp [toRe, lang_eps, Spells]
  | .none, ws, h, s => by
    injection h with h; subst h
    simp [toRe, lang_none]
  | .chr c, ws, h, s => by
    injection h with h; subst h
    simp only [toRe, lang_cls, List.mem_singleton, exists_eq_left, Spells]
    cases fold with
    | true =>
      constructor
      · rintro ⟨x, hx, rfl⟩; exact ⟨x, [], rfl, hx, rfl⟩
      · rintro ⟨x, t, rfl, hx, rfl⟩; exact ⟨x, hx, rfl⟩
    | false =>
      constructor
      · rintro ⟨x, hx, rfl⟩; exact ⟨x, [], rfl, by simpa using hx, rfl⟩
      · rintro ⟨x, t, rfl, hx, rfl⟩; exact ⟨x, by simpa using hx, rfl⟩
  | .any, ws, h, s => by
    injection h with h; subst h
    simp only [toRe, lang_cls, List.mem_singleton, exists_eq_left, Spells]
    constructor
    · rintro ⟨x, hx, rfl⟩; exact ⟨x, [], rfl, by simpa using hx, rfl⟩
    · rintro ⟨x, t, rfl, hx, rfl⟩; exact ⟨x, by simpa using hx, rfl⟩
  | .digit, ws, h, s => by
    injection h with h; subst h
    simp only [toRe, lang_cls]
    constructor
    · rintro ⟨x, hx, rfl⟩
      refine ⟨[.chr x], List.mem_map.2 ⟨x, (isDigit_iff x).1 hx, rfl⟩, x, [], rfl, ?_, rfl⟩
      split
      · exact (foldEq_digit ((isDigit_iff x).1 hx)).2 rfl
      · rfl
    · rintro ⟨w, hw, hs⟩
      obtain ⟨c, hc, rfl⟩ := List.mem_map.1 hw
      obtain ⟨x, t, rfl, hx, ht⟩ := hs
      cases ht
      refine ⟨x, ?_, rfl⟩
      split at hx
      · rw [(foldEq_digit hc).1 hx]; exact (isDigit_iff c).2 hc
      · rw [hx]; exact (isDigit_iff c).2 hc
  | .cat a b, ws, h, s => by
    rw [words] at h
    split at h
    · rename_i hd
      obtain ⟨rfl, rfl⟩ := hd
      injection h with h; subst h
      simp only [toRe, lang_cat, lang_cls, lang_star_cls, List.mem_singleton, exists_eq_left, Spells]
      constructor
      · rintro ⟨x, y, rfl, ⟨c, hc, rfl⟩, hy⟩
        refine ⟨c :: y, [], by simp, by simp, ?_, rfl⟩
        intro z hz
        rcases List.mem_cons.1 hz with rfl | hz
        · exact hc
        · exact hy z hz
      · rintro ⟨d, t, rfl, hd, hc, rfl⟩
        cases d with
        | nil => exact absurd rfl hd
        | cons c y => exact ⟨[c], y, by simp, ⟨c, hc c (by simp), rfl⟩, fun z hz => hc z (by simp [hz])⟩
    cases ha : words a with
    | none => rw [ha] at h; cases h
    | some x =>
      cases hb : words b with
      | none => rw [ha, hb] at h; cases h
      | some y =>
        rw [ha, hb] at h
        injection h with h; subst h
        simp only [toRe, lang_cat]
        constructor
        · rintro ⟨u, v, rfl, h1, h2⟩
          obtain ⟨wu, hwu, hu⟩ := (words_iff fold a x ha u).1 h1
          obtain ⟨wv, hwv, hv⟩ := (words_iff fold b y hb v).1 h2
          exact ⟨wu ++ wv, List.mem_flatMap.2 ⟨wu, hwu, List.mem_map.2 ⟨wv, hwv, rfl⟩⟩, spells_append.2 ⟨u, v, rfl, hu, hv⟩⟩
        · rintro ⟨w, hw, hs⟩
          obtain ⟨wu, hwu, hw⟩ := List.mem_flatMap.1 hw
          obtain ⟨wv, hwv, rfl⟩ := List.mem_map.1 hw
          obtain ⟨u, v, rfl, hu, hv⟩ := spells_append.1 hs
          exact ⟨u, v, rfl, (words_iff fold a x ha u).2 ⟨wu, hwu, hu⟩, (words_iff fold b y hb v).2 ⟨wv, hwv, hv⟩⟩
  | .alt a b, ws, h, s => by
    simp only [words] at h
    cases ha : words a with
    | none => rw [ha] at h; cases h
    | some x =>
      cases hb : words b with
      | none => rw [ha, hb] at h; cases h
      | some y =>
        rw [ha, hb] at h
        injection h with h; subst h
        simp only [toRe, lang_alt, words_iff fold a x ha, words_iff fold b y hb, List.mem_append]
        constructor
        · rintro (⟨w, hw, hs⟩ | ⟨w, hw, hs⟩)
          · exact ⟨w, .inl hw, hs⟩
          · exact ⟨w, .inr hw, hs⟩
        · rintro ⟨w, hw | hw, hs⟩
          · exact .inl ⟨w, hw, hs⟩
          · exact .inr ⟨w, hw, hs⟩
  | .star a, ws, h, s => by cases h

theorem lang_dots (s : Str) : Lang dots s := lang_star_cls.2 fun _ _ => rfl

theorem rxMatch_iff {pattern : String} {r : Rx} (h : compileRx pattern.toList = some r) (s : Str) :
    rxMatch pattern s = true ↔ ∃ a b c, s = a ++ (b ++ c) ∧ (r.left = true → a = []) ∧ Lang (toRe r.fold r.body) b ∧ (r.right = true → c = []) := by
  unfold rxMatch
  rw [h]
  simp only
  rw [accepts_iff, Rx.re, lang_cat]
  have hd : ∀ (b : Bool) (u : Str), Lang (if b then .eps else dots) u ↔ (b = true → u = []) := by
    intro b u
    cases b with
    | false => simp [lang_dots]
    | true => simp [lang_eps]
  constructor
  · rintro ⟨a, t, rfl, h1, h2⟩
    obtain ⟨b, c, rfl, h3, h4⟩ := lang_cat.1 h2
    exact ⟨a, b, c, rfl, (hd _ _).1 h1, h3, (hd _ _).1 h4⟩
  · rintro ⟨a, b, c, rfl, h1, h2, h3⟩
    exact ⟨a, _, rfl, (hd _ _).2 h1, lang_cat.2 ⟨b, c, rfl, h2, (hd _ _).2 h3⟩⟩

/-- The words of an expression anchored at both ends. -/
def anchored (fold : Bool) (pattern : String) : Option (List (List Atom)) :=
  match compileRx pattern.toList with
  | some r => if r.left && r.right && (r.fold == fold) then words r.body else none
  | none => none

theorem anchored_iff {fold : Bool} {pattern : String} {ws : List (List Atom)} (h : anchored fold pattern = some ws) (s : Str) :
    rxMatch pattern s = true ↔ ∃ w ∈ ws, Spells fold w s := by
  unfold anchored at h
  cases hc : compileRx pattern.toList with
  | none => rw [hc] at h; cases h
  | some r =>
    rw [hc] at h
    simp only at h
    split at h
    · rename_i hf
      simp only [Bool.and_eq_true, beq_iff_eq] at hf
      obtain ⟨⟨h1, h2⟩, h3⟩ := hf
      rw [rxMatch_iff hc, ← words_iff fold r.body ws h s, ← h3]
      constructor
      · rintro ⟨a, b, c, rfl, ha, hb, hc⟩
        rw [ha h1, hc h2]; simpa using hb
      · intro hb; exact ⟨[], s, [], by simp, fun _ => rfl, hb, fun _ => rfl⟩
    · cases h

theorem spells_exact : ∀ (w s : Str), Spells false (w.map .chr) s ↔ s = w
  | [], s => by simp [Spells]
  | c :: w, s => by
    simp only [List.map_cons, Spells]
    constructor
    · rintro ⟨x, t, rfl, hx, ht⟩
      rw [(spells_exact w t).1 ht]
      simp at hx
      rw [hx]
    · rintro rfl; exact ⟨c, w, rfl, by simp, (spells_exact w w).2 rfl⟩

/-- An expression that spells out finitely many texts. -/
theorem exact_iff {pattern : String} {ws : List String} (h : anchored false pattern = some (ws.map fun w => w.toList.map .chr)) (s : Str) :
    rxMatch pattern s = true ↔ s ∈ ws.map String.toList := by
  rw [anchored_iff h]
  constructor
  · rintro ⟨w, hw, hs⟩
    obtain ⟨u, hu, rfl⟩ := List.mem_map.1 hw
    rw [(spells_exact _ _).1 hs]
    exact List.mem_map.2 ⟨u, hu, rfl⟩
  · intro hs
    obtain ⟨u, hu, rfl⟩ := List.mem_map.1 hs
    exact ⟨_, List.mem_map.2 ⟨u, hu, rfl⟩, (spells_exact _ _).2 rfl⟩

/-- A text of ASCII characters. -/
def Ascii (s : Str) : Prop := ∀ c ∈ s, c.toNat < 128

theorem foldEq_ascii {c x : Char} (hx : x.toNat < 128) : foldEq c x = true ↔ x.toLower = c.toLower := by
  unfold foldEq
  have h1 : (x == 'ſ') = false := by
    rw [beq_eq_false_iff_ne]; rintro rfl; revert hx; decide
  have h2 : (x == '\u212a') = false := by
    rw [beq_eq_false_iff_ne]; rintro rfl; revert hx; decide
  rw [h1, h2]
  simp

theorem spells_fold : ∀ (w s : Str), Ascii s → (Spells true (w.map .chr) s ↔ s.map Char.toLower = w.map Char.toLower)
  | [], s, _ => by simp [Spells]
  | c :: w, s, ha => by
    simp only [List.map_cons, Spells]
    constructor
    · rintro ⟨x, t, rfl, hx, ht⟩
      rw [List.map_cons, (spells_fold w t (fun y hy => ha y (by simp [hy]))).1 ht]
      rw [(foldEq_ascii (ha x (by simp))).1 (by simpa using hx)]
    · intro h
      cases s with
      | nil => cases h
      | cons x t =>
        rw [List.map_cons] at h
        injection h with h1 h2
        exact ⟨x, t, rfl, by simpa using (foldEq_ascii (ha x (by simp))).2 h1, (spells_fold w t (fun y hy => ha y (by simp [hy]))).2 h2⟩

/-- An expression that spells out finitely many texts, in any capitalisation. -/
theorem fold_iff {pattern : String} {ws : List String} (h : anchored true pattern = some (ws.map fun w => w.toList.map .chr)) (s : Str) (ha : Ascii s) :
    rxMatch pattern s = true ↔ s.map Char.toLower ∈ ws.map fun w => w.toList.map Char.toLower := by
  rw [anchored_iff h]
  constructor
  · rintro ⟨w, hw, hs⟩
    obtain ⟨u, hu, rfl⟩ := List.mem_map.1 hw
    exact List.mem_map.2 ⟨u, hu, ((spells_fold _ _ ha).1 hs).symm⟩
  · intro hs
    obtain ⟨u, hu, he⟩ := List.mem_map.1 hs
    exact ⟨_, List.mem_map.2 ⟨u, hu, rfl⟩, (spells_fold _ _ ha).2 he.symm⟩

def verbNames : List String := ["GET", "POST", "PUT", "DELETE", "PATCH", "OPTIONS", "HEAD"]

theorem verbs_anchored : anchored true "^(?i)(GET|POST|PUT|DELETE|PATCH|OPTIONS|HEAD)$" = some (verbNames.map fun w => w.toList.map .chr) := by decide +kernel

/-! ## C96 -/

/-- An import path without or with a one-digit major version. -/
def majors (path : String) : List String := path :: ["0", "1", "2", "3", "4", "5", "6", "7", "8", "9"].map fun d => path ++ "/v" ++ d

/-- The types of a package, as receivers: by value or by pointer. -/
def receivers (paths stars types : List String) : List String :=
  paths.flatMap fun p => stars.flatMap fun s => types.map fun t => p ++ "." ++ s ++ t

/-- One of the receiver forms of the call is one of these. -/
def On (forms : List Str) (recvs : List String) : Prop := ∃ f ∈ forms, f ∈ recvs.map String.toList

/-- A method is named after an HTTP verb, in any capitalisation. -/
def VerbName (name : Str) : Prop := name.map Char.toLower ∈ ["get", "post", "put", "delete", "patch", "options", "head"].map String.toList

theorem verb_iff (s : Str) (ha : Ascii s) : rxMatch "^(?i)(GET|POST|PUT|DELETE|PATCH|OPTIONS|HEAD)$" s = true ↔ VerbName s := by
  rw [fold_iff verbs_anchored s ha]
  exact Iff.rfl

theorem recv_iff {p : CallPat} {forms : List Str} {l : List String} (h1 : p.recvRegex ≠ "") (h2 : anchored false p.recvRegex = some (l.map fun w => w.toList.map .chr))
    (h3 : "" ∉ l) : recvOk forms p = true ↔ On forms l := by
  unfold recvOk On
  rw [if_neg (by simp [h1])]
  simp only [ne_eq, h1, not_false_eq_true, if_true]
  rw [List.any_eq_true]
  have h3' : [] ∉ l.map String.toList := by
    intro h
    obtain ⟨x, hx, he⟩ := List.mem_map.1 h
    rw [String.toList_eq_nil_iff] at he
    exact h3 (he ▸ hx)
  by_cases hf : forms = []
  · subst hf
    simp only [if_true, List.mem_singleton, exists_eq_left, exact_iff h2]
    constructor
    · intro h; exact absurd h h3'
    · rintro ⟨f, hf, _⟩; cases hf
  · rw [if_neg hf]
    simp only [exact_iff h2]

theorem patOk_iff {p : CallPat} {name : Str} {forms : List Str} {N : Prop} {l : List String} (hc : p.call ≠ "") (hn : rxMatch p.call name = true ↔ N)
    (h1 : p.recvRegex ≠ "") (h2 : anchored false p.recvRegex = some (l.map fun w => w.toList.map .chr)) (h3 : "" ∉ l) :
    patOk name forms p = true ↔ N ∧ On forms l := by
  unfold patOk
  rw [Bool.and_eq_true, recv_iff h1 h2 h3, ← hn]
  simp [hc]

/-- An expression that spells out one name. -/
theorem name_iff {pattern n : String} (h : anchored false pattern = some ([n].map fun w => w.toList.map .chr)) (s : Str) : rxMatch pattern s = true ↔ s = n.toList := by
  rw [exact_iff h]; simp

/-- **C96, gin.**  A call is a route exactly when it is named after a verb and its receiver is
`*gin.Engine` or `*gin.RouterGroup`; a group when it is `Group` on one of them. -/
theorem C96_gin (name : Str) (ha : Ascii name) (forms : List Str) :
    (recognised ginRoutes name forms = true ↔ VerbName name ∧ On forms ["github.com/gin-gonic/gin.*Engine", "github.com/gin-gonic/gin.*RouterGroup"]) ∧
    (recognised ginMounts name forms = true ↔ name = "Group".toList ∧ On forms ["github.com/gin-gonic/gin.*Engine", "github.com/gin-gonic/gin.*RouterGroup"]) := by
  constructor
  · simp only [recognised, ginRoutes, List.any_cons, List.any_nil, Bool.or_false]
    exact patOk_iff (by decide) (verb_iff name ha) (by decide) (by decide +kernel) (by decide +kernel)
  · simp only [recognised, ginMounts, List.any_cons, List.any_nil, Bool.or_false]
    exact patOk_iff (by decide) (name_iff (by decide +kernel) name) (by decide) (by decide +kernel) (by decide +kernel)

/-- **C96, echo.**  A call is a route exactly when it is named after a verb and its receiver is
`*echo.Echo` or `*echo.Group`, in the unversioned package or a major version below 10; a group when it is
`Group` on one of them. -/
theorem C96_echo (name : Str) (ha : Ascii name) (forms : List Str) :
    (recognised echoRoutes name forms = true ↔ VerbName name ∧ On forms (receivers (majors "github.com/labstack/echo") ["*"] ["Echo", "Group"])) ∧
    (recognised echoMounts name forms = true ↔ name = "Group".toList ∧ On forms (receivers (majors "github.com/labstack/echo") ["*"] ["Echo", "Group"])) := by
  constructor
  · simp only [recognised, echoRoutes, List.any_cons, List.any_nil, Bool.or_false]
    exact patOk_iff (by decide) (verb_iff name ha) (by decide) (by decide +kernel) (by decide +kernel)
  · simp only [recognised, echoMounts, List.any_cons, List.any_nil, Bool.or_false]
    exact patOk_iff (by decide) (name_iff (by decide +kernel) name) (by decide) (by decide +kernel) (by decide +kernel)

/-- **C96, fiber.**  A call is a route exactly when it is named after a verb and its receiver is fiber's
`App`, `Router` or `Group`, by value or by pointer, in the unversioned package or a major version below
10; a mount when it is `Mount`, `Group` or `Use` on one of them. -/
theorem C96_fiber (name : Str) (ha : Ascii name) (forms : List Str) :
    (recognised fiberRoutes name forms = true ↔ VerbName name ∧ On forms (receivers (majors "github.com/gofiber/fiber") ["", "*"] ["App", "Router", "Group"])) ∧
    (recognised fiberMounts name forms = true ↔
      name ∈ ["Mount", "Group", "Use"].map String.toList ∧ On forms (receivers (majors "github.com/gofiber/fiber") ["", "*"] ["App", "Router", "Group"])) := by
  constructor
  · simp only [recognised, fiberRoutes, List.any_cons, List.any_nil, Bool.or_false]
    exact patOk_iff (by decide) (verb_iff name ha) (by decide) (by decide +kernel) (by decide +kernel)
  · simp only [recognised, fiberMounts, List.any_cons, List.any_nil, Bool.or_false, Bool.or_eq_true]
    have h : ∀ c n : String, c ≠ "" → anchored false c = some ([n].map fun w => w.toList.map .chr) →
        (patOk name forms { call := c, recvRegex := "^github\\.com/gofiber/fiber(/v\\d)?\\.\\*?(App|Router|Group)$" } = true ↔
          name = n.toList ∧ On forms (receivers (majors "github.com/gofiber/fiber") ["", "*"] ["App", "Router", "Group"])) := by
      intro c n hc hn
      exact patOk_iff hc (name_iff hn name) (show "^github\\.com/gofiber/fiber(/v\\d)?\\.\\*?(App|Router|Group)$" ≠ "" by decide)
        (show anchored false "^github\\.com/gofiber/fiber(/v\\d)?\\.\\*?(App|Router|Group)$" = _ by decide +kernel) (by decide +kernel)
    rw [h "^Mount$" "Mount" (by decide) (by decide +kernel), h "^Group$" "Group" (by decide) (by decide +kernel), h "^Use$" "Use" (by decide) (by decide +kernel)]
    simp only [List.map_cons, List.map_nil, List.mem_cons, List.not_mem_nil, or_false]
    constructor
    · rintro (⟨h1, h2⟩ | ⟨h1, h2⟩ | ⟨h1, h2⟩)
      · exact ⟨.inl h1, h2⟩
      · exact ⟨.inr (.inl h1), h2⟩
      · exact ⟨.inr (.inr h1), h2⟩
    · rintro ⟨h1 | h1 | h1, h2⟩
      · exact .inl ⟨h1, h2⟩
      · exact .inr (.inl ⟨h1, h2⟩)
      · exact .inr (.inr ⟨h1, h2⟩)

def muxRouter : List String := ["github.com/gorilla/mux.Router", "github.com/gorilla/mux.*Router"]
def muxRoute : List String := ["github.com/gorilla/mux.Route", "github.com/gorilla/mux.*Route"]

/-- **C96, mux.**  The calls recognised are exactly `Handle` and `HandleFunc` of a router, `Handler` and
`HandlerFunc` of a route, `Path` and `Methods` of either; the mounts are `PathPrefix` of a router and
`Subrouter` of a route. -/
theorem C96_mux (name : Str) (forms : List Str) :
    (recognised muxRoutes name forms = true ↔
      (name ∈ ["Handle", "HandleFunc", "Path", "Methods"].map String.toList ∧ On forms muxRouter) ∨
      (name ∈ ["Handler", "HandlerFunc", "Path", "Methods"].map String.toList ∧ On forms muxRoute)) ∧
    (recognised muxMounts name forms = true ↔
      (name = "PathPrefix".toList ∧ On forms muxRouter) ∨ (name = "Subrouter".toList ∧ On forms muxRoute)) := by
  have h : ∀ (c n r : String) (l : List String), c ≠ "" → anchored false c = some ([n].map fun w => w.toList.map .chr) → r ≠ "" →
      anchored false r = some (l.map fun w => w.toList.map .chr) → "" ∉ l →
      (patOk name forms { call := c, recvRegex := r } = true ↔ name = n.toList ∧ On forms l) := by
    intro c n r l hc hn hr hl h3
    exact patOk_iff hc (name_iff hn name) hr hl h3
  have hboth : On forms ["github.com/gorilla/mux.Router", "github.com/gorilla/mux.Route", "github.com/gorilla/mux.*Router", "github.com/gorilla/mux.*Route"] ↔
      On forms muxRouter ∨ On forms muxRoute := by
    unfold On muxRouter muxRoute
    simp only [List.map_cons, List.map_nil, List.mem_cons, List.not_mem_nil, or_false]
    constructor
    · rintro ⟨f, hf, h | h | h | h⟩
      · exact .inl ⟨f, hf, .inl h⟩
      · exact .inr ⟨f, hf, .inl h⟩
      · exact .inl ⟨f, hf, .inr h⟩
      · exact .inr ⟨f, hf, .inr h⟩
    · rintro (⟨f, hf, h | h⟩ | ⟨f, hf, h | h⟩)
      · exact ⟨f, hf, .inl h⟩
      · exact ⟨f, hf, .inr (.inr (.inl h))⟩
      · exact ⟨f, hf, .inr (.inl h)⟩
      · exact ⟨f, hf, .inr (.inr (.inr h))⟩
  constructor
  · simp only [recognised, muxRoutes, List.any_cons, List.any_nil, Bool.or_false, Bool.or_eq_true]
    rw [h "^HandleFunc$" "HandleFunc" _ muxRouter (by decide) (by decide +kernel) (by decide) (by decide +kernel) (by decide),
      h "^Handle$" "Handle" _ muxRouter (by decide) (by decide +kernel) (by decide) (by decide +kernel) (by decide),
      h "^HandlerFunc$" "HandlerFunc" _ muxRoute (by decide) (by decide +kernel) (by decide) (by decide +kernel) (by decide),
      h "^Handler$" "Handler" _ muxRoute (by decide) (by decide +kernel) (by decide) (by decide +kernel) (by decide),
      h "^Path$" "Path" _ ["github.com/gorilla/mux.Router", "github.com/gorilla/mux.Route", "github.com/gorilla/mux.*Router", "github.com/gorilla/mux.*Route"] (by decide) (by decide +kernel) (by decide) (by decide +kernel) (by decide),
      h "^Methods$" "Methods" _ ["github.com/gorilla/mux.Router", "github.com/gorilla/mux.Route", "github.com/gorilla/mux.*Router", "github.com/gorilla/mux.*Route"] (by decide) (by decide +kernel) (by decide) (by decide +kernel) (by decide), hboth]
    simp only [List.map_cons, List.map_nil, List.mem_cons, List.not_mem_nil, or_false]
    grind
  · simp only [recognised, muxMounts, List.any_cons, List.any_nil, Bool.or_false, Bool.or_eq_true]
    rw [h "^PathPrefix$" "PathPrefix" _ muxRouter (by decide) (by decide +kernel) (by decide) (by decide +kernel) (by decide),
      h "^Subrouter$" "Subrouter" _ muxRoute (by decide) (by decide +kernel) (by decide) (by decide +kernel) (by decide)]

/-- **C96, net/http (partial).**  `HandleFunc` is recognised exactly on the package and on `*ServeMux`; a
call of another name is recognised only if it is `Handle`.  Missing: `Handle` only on these. -/
theorem C96_http_partial (name : Str) (forms : List Str) (h : name ≠ "Handle".toList) :
    recognised httpRoutes name forms = true ↔ name = "HandleFunc".toList ∧ On forms ["net/http", "net/http.*ServeMux"] := by
  simp only [recognised, httpRoutes, List.any_cons, List.any_nil, Bool.or_false, Bool.or_eq_true]
  rw [patOk_iff (l := ["net/http", "net/http.*ServeMux"]) (by decide) (name_iff (n := "HandleFunc") (by decide +kernel) name) (by decide) (by decide +kernel) (by decide)]
  constructor
  · rintro (h1 | h1)
    · exact h1
    · simp only [patOk, Bool.and_eq_true] at h1
      have h2 := h1.1
      simp only [Bool.or_eq_true, decide_eq_true_eq] at h2
      rcases h2 with h2 | h2
      · exact absurd h2 (by decide)
      · exact absurd ((name_iff (n := "Handle") (by decide +kernel) name).1 h2) h
  · exact .inl

/-- **C96 fails for net/http.**  Any call named `Handle` is taken for a route, whatever it is called on:
`bus.Handle("user.created", fn)` is documented. -/
theorem C96_http_handle_anywhere (forms : List Str) : recognised httpRoutes "Handle".toList forms = true := by
  have h : patOk "Handle".toList forms { call := "^Handle$" } = true := by
    unfold patOk recvOk
    rw [(name_iff (n := "Handle") (by decide +kernel) _).2 rfl]
    rfl
  simp only [recognised, httpRoutes, List.any_cons, List.any_nil, Bool.or_false, h, Bool.or_true]

/-- chi's routers.  The pattern leaves the dot of `github.com` unescaped. -/
def ChiRouter (f : Str) : Prop := ∃ c, c ≠ '\n' ∧ ∃ t ∈ receivers (majors "com/go-chi/chi") ["", "*"] ["Router", "Mux"], f = "github".toList ++ c :: t.toList

theorem chi_recv (s : Str) : rxMatch "^github.com/go-chi/chi(/v\\d)?\\.\\*?(Router|Mux)$" s = true ↔ ChiRouter s := by
  have h : anchored false "^github.com/go-chi/chi(/v\\d)?\\.\\*?(Router|Mux)$" =
      some ((receivers (majors "com/go-chi/chi") ["", "*"] ["Router", "Mux"]).map fun t => "github".toList.map Atom.chr ++ Atom.any :: t.toList.map .chr) := by decide +kernel
  rw [anchored_iff h]
  have hs : ∀ t : String, Spells false ("github".toList.map Atom.chr ++ Atom.any :: t.toList.map .chr) s ↔ ∃ c, c ≠ '\n' ∧ s = "github".toList ++ c :: t.toList := by
    intro t
    rw [spells_append]
    constructor
    · rintro ⟨a, b, rfl, h1, c, u, rfl, hc, h2⟩
      rw [spells_exact] at h1 h2
      exact ⟨c, hc, by rw [h1, h2]⟩
    · rintro ⟨c, hc, rfl⟩
      exact ⟨_, _, rfl, (spells_exact _ _).2 rfl, c, _, rfl, hc, (spells_exact _ _).2 rfl⟩
  constructor
  · rintro ⟨w, hw, h⟩
    obtain ⟨t, ht, rfl⟩ := List.mem_map.1 hw
    obtain ⟨c, hc, h⟩ := (hs t).1 h
    exact ⟨c, hc, t, ht, h⟩
  · rintro ⟨c, hc, t, ht, h⟩
    exact ⟨_, List.mem_map.2 ⟨t, ht, rfl⟩, (hs t).2 ⟨c, hc, h⟩⟩

/-- chi's verb pattern is not anchored on the left. -/
theorem chi_verb (s : Str) (ha : Ascii s) : rxMatch "(?i)(GET|POST|PUT|DELETE|PATCH|OPTIONS|HEAD)$" s = true ↔ ∃ a v, s = a ++ v ∧ VerbName v := by
  have hc : ∃ body, compileRx "(?i)(GET|POST|PUT|DELETE|PATCH|OPTIONS|HEAD)$".toList = some ⟨true, false, true, body⟩ ∧
      words body = some (verbNames.map fun w => w.toList.map .chr) :=
    ⟨((compileRx "(?i)(GET|POST|PUT|DELETE|PATCH|OPTIONS|HEAD)$".toList).map Rx.body).getD .none, by decide +kernel, by decide +kernel⟩
  obtain ⟨body, hc, hw⟩ := hc
  rw [rxMatch_iff hc]
  simp only [words_iff true body _ hw]
  constructor
  · rintro ⟨a, b, c, rfl, _, ⟨w, hw, hs⟩, h3⟩
    obtain ⟨u, hu, rfl⟩ := List.mem_map.1 hw
    refine ⟨a, b, by rw [h3 trivial]; simp, ?_⟩
    have := (spells_fold _ _ (fun x hx => ha x (by simp [hx]))).1 hs
    unfold VerbName
    rw [this]
    exact List.mem_map.2 ⟨u, hu, rfl⟩ |> fun h => (show _ ∈ verbNames.map (fun u => u.toList.map Char.toLower) from h)
  · rintro ⟨a, v, rfl, hv⟩
    have hv' : v.map Char.toLower ∈ verbNames.map fun u => u.toList.map Char.toLower := hv
    obtain ⟨u, hu, he⟩ := List.mem_map.1 hv'
    exact ⟨a, v, [], by simp, by simp, ⟨_, List.mem_map.2 ⟨u, hu, rfl⟩, (spells_fold _ _ (fun x hx => ha x (by simp [hx]))).2 he.symm⟩, fun _ => rfl⟩

/-- **C96, chi.**  A call is a route exactly when its receiver is a chi router and its name ends in a
verb or is `Method`, `MethodFunc`, `Handle` or `HandleFunc`. -/
theorem C96_chi (name : Str) (ha : Ascii name) (forms : List Str) :
    recognised chiRoutes name forms = true ↔
      ((∃ a v, name = a ++ v ∧ VerbName v) ∨ name ∈ ["Method", "MethodFunc", "Handle", "HandleFunc"].map String.toList) ∧ ∃ f ∈ forms, ChiRouter f := by
  have hr : ∀ c : String, recvOk forms { call := c, recvRegex := "^github.com/go-chi/chi(/v\\d)?\\.\\*?(Router|Mux)$" } = true ↔ ∃ f ∈ forms, ChiRouter f := by
    intro c
    have hne : "^github.com/go-chi/chi(/v\\d)?\\.\\*?(Router|Mux)$" ≠ "" := by decide
    unfold recvOk
    rw [if_neg (fun h => hne h.1)]
    simp only [ne_eq]
    rw [if_pos hne, List.any_eq_true]
    by_cases hf : forms = []
    · subst hf
      simp only [if_true, List.mem_singleton, exists_eq_left, chi_recv]
      constructor
      · rintro ⟨c, _, t, _, h⟩; simp at h
      · rintro ⟨f, hf, _⟩; cases hf
    · rw [if_neg hf]
      simp only [chi_recv]
  have hp : ∀ (c : String) (N : Prop), c ≠ "" → (rxMatch c name = true ↔ N) →
      (patOk name forms { call := c, recvRegex := "^github.com/go-chi/chi(/v\\d)?\\.\\*?(Router|Mux)$" } = true ↔ N ∧ ∃ f ∈ forms, ChiRouter f) := by
    intro c N hc hn
    unfold patOk
    rw [Bool.and_eq_true, hr, ← hn]
    simp [hc]
  simp only [recognised, chiRoutes, List.any_cons, List.any_nil, Bool.or_false, Bool.or_eq_true]
  rw [hp _ _ (by decide) (chi_verb name ha), hp _ _ (by decide) (exact_iff (ws := ["Method", "MethodFunc"]) (by decide +kernel) name),
    hp _ _ (by decide) (exact_iff (ws := ["Handle", "HandleFunc"]) (by decide +kernel) name)]
  simp only [List.map_cons, List.map_nil, List.mem_cons, List.not_mem_nil, or_false]
  grind

/-- **C96, chi, real import paths.**  Of receivers in packages of `github.com`, chi's routers are the
only ones recognised. -/
theorem C96_chi_receivers (f : Str) (hf : "github.com/".toList <+: f) :
    ChiRouter f ↔ f ∈ (receivers (majors "github.com/go-chi/chi") ["", "*"] ["Router", "Mux"]).map String.toList := by
  have he : (receivers (majors "github.com/go-chi/chi") ["", "*"] ["Router", "Mux"]).map String.toList =
      (receivers (majors "com/go-chi/chi") ["", "*"] ["Router", "Mux"]).map fun t => "github.".toList ++ t.toList := by decide +kernel
  rw [he]
  constructor
  · rintro ⟨c, _, t, ht, rfl⟩
    have hc : c = '.' := by
      obtain ⟨u, hu⟩ := hf
      have := congrArg (fun l => l[6]?) hu
      simpa using this.symm
    subst hc
    exact List.mem_map.2 ⟨t, ht, by simp⟩
  · intro h
    obtain ⟨t, ht, rfl⟩ := List.mem_map.1 h
    exact ⟨'.', by decide, t, ht, by simp⟩

/-- **C96 misses registration methods.**  gin's `Any`, `Handle` and `Match`, chi's `Connect` and `Trace`,
echo's `Any`, `Match` and `Add`, and fiber's `All` and `Add` register routes that are not documented. -/
theorem C96_methods_missed (forms : List Str) :
    (∀ n ∈ ["Any", "Handle", "Match"], recognised ginRoutes n.toList forms = false) ∧
    (∀ n ∈ ["Connect", "Trace"], recognised chiRoutes n.toList forms = false) ∧
    (∀ n ∈ ["Any", "Match", "Add"], recognised echoRoutes n.toList forms = false) ∧
    (∀ n ∈ ["All", "Add"], recognised fiberRoutes n.toList forms = false) := by
  have ha : ∀ n ∈ ["Any", "Handle", "Match", "Connect", "Trace", "Add", "All"], Ascii n.toList := by unfold Ascii; decide
  have hv : ∀ n ∈ ["Any", "Handle", "Match", "Add", "All"], ¬ VerbName n.toList := by unfold VerbName; decide
  have hn : ∀ {b : Bool}, ¬ b = true → b = false := by intro b; cases b <;> simp
  refine ⟨?_, ?_, ?_, ?_⟩
  · intro n hm
    exact hn fun h => hv n (by simp at hm ⊢; rcases hm with h | h | h <;> simp [h]) (((C96_gin _ (ha n (by simp at hm ⊢; rcases hm with h | h | h <;> simp [h])) forms).1.1 h).1)
  · intro n hm
    refine hn fun h => ?_
    have h1 := ((C96_chi _ (ha n (by simp at hm ⊢; rcases hm with h | h <;> simp [h])) forms).1 h).1
    rw [← chi_verb _ (ha n (by simp at hm ⊢; rcases hm with h | h <;> simp [h]))] at h1
    revert h1
    simp only [List.mem_cons, List.not_mem_nil, or_false] at hm
    rcases hm with rfl | rfl <;> decide +kernel
  · intro n hm
    exact hn fun h => hv n (by simp at hm ⊢; rcases hm with h | h | h <;> simp [h]) (((C96_echo _ (ha n (by simp at hm ⊢; rcases hm with h | h | h <;> simp [h])) forms).1.1 h).1)
  · intro n hm
    exact hn fun h => hv n (by simp at hm ⊢; rcases hm with h | h <;> simp [h]) (((C96_fiber _ (ha n (by simp at hm ⊢; rcases hm with h | h <;> simp [h])) forms).1.1 h).1)

/-- **C96 misses gin's interfaces.**  A route registered through `gin.IRouter` or `gin.IRoutes` is not
recognised, unless the call graph resolves the receiver. -/
theorem C96_gin_interfaces_missed (name : Str) (ha : Ascii name) :
    recognised ginRoutes name ["github.com/gin-gonic/gin.IRouter".toList] = false ∧ recognised ginRoutes name ["github.com/gin-gonic/gin.IRoutes".toList] = false := by
  have hn : ∀ {b : Bool}, ¬ b = true → b = false := by intro b; cases b <;> simp
  constructor
  · refine hn fun h => ?_
    obtain ⟨f, hf, h⟩ := ((C96_gin _ ha _).1.1 h).2
    rw [List.mem_singleton] at hf
    subst hf
    revert h; decide
  · refine hn fun h => ?_
    obtain ⟨f, hf, h⟩ := ((C96_gin _ ha _).1.1 h).2
    rw [List.mem_singleton] at hf
    subst hf
    revert h; decide

/-- **C96 misses two-digit major versions.** -/
theorem C96_versions_missed (name : Str) (ha : Ascii name) :
    recognised echoRoutes name ["github.com/labstack/echo/v10.*Echo".toList] = false ∧ recognised fiberRoutes name ["github.com/gofiber/fiber/v10.*App".toList] = false := by
  have hn : ∀ {b : Bool}, ¬ b = true → b = false := by intro b; cases b <;> simp
  constructor
  · refine hn fun h => ?_
    obtain ⟨f, hf, h⟩ := ((C96_echo _ ha _).1.1 h).2
    rw [List.mem_singleton] at hf
    subst hf
    revert h; decide +kernel
  · refine hn fun h => ?_
    obtain ⟨f, hf, h⟩ := ((C96_fiber _ ha _).1.1 h).2
    rw [List.mem_singleton] at hf
    subst hf
    revert h; decide +kernel

/-- Non-vacuity: `r.Get("/x", h)` on chi's router, `e.GET` on echo's, and a name that merely ends in a
verb. -/
example : recognised chiRoutes "Get".toList ["github.com/go-chi/chi/v5.Router".toList] = true ∧
    recognised echoRoutes "GET".toList ["github.com/labstack/echo/v4.*Echo".toList] = true ∧
    recognised chiRoutes "Target".toList ["github.com/go-chi/chi/v5.*Mux".toList] = true ∧
    recognised ginRoutes "Target".toList ["github.com/gin-gonic/gin.*Engine".toList] = false := by decide +kernel

end Verif.Preset
