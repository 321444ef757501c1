import Verif.StatusModel
/-!
# The statuses a handler can send are documented

C83.  First what a rendered expression says about a status, then variables assigned in several branches, then
the field of a struct that a mapper returns.  Functions are executed by a small semantics in which every
assignment of a body may run, any number of times and in any order, before any of its return statements; it
has every execution of the Go function among its own.
-/

namespace Verif.StatusCodes
open Verif.ValidateModel

/-! ## One status -/

/-- The constants of net/http. -/
def netHttp : List (Int × String) :=
  [(100, "Continue"), (101, "SwitchingProtocols"), (102, "Processing"), (103, "EarlyHints"),
   (200, "OK"), (201, "Created"), (202, "Accepted"), (203, "NonAuthoritativeInfo"), (204, "NoContent"),
   (205, "ResetContent"), (206, "PartialContent"), (207, "MultiStatus"), (208, "AlreadyReported"), (226, "IMUsed"),
   (300, "MultipleChoices"), (301, "MovedPermanently"), (302, "Found"), (303, "SeeOther"), (304, "NotModified"),
   (305, "UseProxy"), (307, "TemporaryRedirect"), (308, "PermanentRedirect"),
   (400, "BadRequest"), (401, "Unauthorized"), (402, "PaymentRequired"), (403, "Forbidden"), (404, "NotFound"),
   (405, "MethodNotAllowed"), (406, "NotAcceptable"), (407, "ProxyAuthRequired"), (408, "RequestTimeout"),
   (409, "Conflict"), (410, "Gone"), (411, "LengthRequired"), (412, "PreconditionFailed"),
   (413, "RequestEntityTooLarge"), (414, "RequestURITooLong"), (415, "UnsupportedMediaType"),
   (416, "RequestedRangeNotSatisfiable"), (417, "ExpectationFailed"), (418, "Teapot"), (421, "MisdirectedRequest"),
   (422, "UnprocessableEntity"), (423, "Locked"), (424, "FailedDependency"), (425, "TooEarly"),
   (426, "UpgradeRequired"), (428, "PreconditionRequired"), (429, "TooManyRequests"),
   (431, "RequestHeaderFieldsTooLarge"), (451, "UnavailableForLegalReasons"),
   (500, "InternalServerError"), (501, "NotImplemented"), (502, "BadGateway"), (503, "ServiceUnavailable"),
   (504, "GatewayTimeout"), (505, "HTTPVersionNotSupported"), (506, "VariantAlsoNegotiates"),
   (507, "InsufficientStorage"), (508, "LoopDetected"), (510, "NotExtended"), (511, "NetworkAuthenticationRequired")]

theorem afterDot_last (q t : Txt) (h : '.' ∉ t) : afterDot (q ++ '.' :: t) = t := by
  unfold afterDot
  have e : (q ++ '.' :: t).reverse = t.reverse ++ '.' :: q.reverse := by simp
  rw [e, List.takeWhile_append_of_pos (by
    intro c hc
    have : c ≠ '.' := fun e => h (e ▸ List.mem_reverse.1 hc)
    simp [this])]
  have : List.takeWhile (fun x => x != '.') ('.' :: q.reverse) = [] := by simp
  rw [this]; simp

theorem afterDot_none (t : Txt) (h : '.' ∉ t) : afterDot t = t := by
  unfold afterDot
  have : List.takeWhile (fun x => x != '.') t.reverse = t.reverse := by
    have := List.takeWhile_append_of_pos (p := fun x : Char => x != '.') (l₁ := t.reverse) (l₂ := []) (by
      intro c hc
      have : c ≠ '.' := fun e => h (e ▸ List.mem_reverse.1 hc)
      simp [this])
    simpa using this
  rw [this]; simp

theorem dropWhile_none {p : Char → Bool} {c : Char} {t : Txt} (h : p c = false) : (c :: t).dropWhile p = c :: t := by
  simp [List.dropWhile_cons, h]

/-- Text that ends in something else than a quote loses only quotes in front. -/
theorem trimQ_end (q t : Txt) (c : Char) (hc : c ≠ '"') : ∃ q', trimQ (q ++ c :: t ++ [c]) = q' ++ c :: t ++ [c] := by
  unfold trimQ trimBy
  induction q with
  | nil =>
    refine ⟨[], ?_⟩
    have : List.dropWhile (fun x => x == '"') ([] ++ c :: t ++ [c]) = c :: t ++ [c] := by
      show List.dropWhile _ (c :: (t ++ [c])) = _
      exact dropWhile_none (by simp [hc])
    rw [this]
    have e : (c :: t ++ [c]).reverse = c :: (c :: t).reverse := by simp
    rw [e, dropWhile_none (by simp [hc])]
    simp
  | cons d q ih =>
    by_cases hd : d = '"'
    · obtain ⟨q', hq⟩ := ih
      refine ⟨q', ?_⟩
      rw [← hq]
      have : List.dropWhile (fun x => x == '"') (d :: q ++ c :: t ++ [c]) = List.dropWhile (fun x => x == '"') (q ++ c :: t ++ [c]) := by
        show List.dropWhile _ (d :: (q ++ c :: t ++ [c])) = _
        rw [List.dropWhile_cons, if_pos (by simp [hd])]
      rw [this]
    · refine ⟨d :: q, ?_⟩
      have : List.dropWhile (fun x => x == '"') (d :: q ++ c :: t ++ [c]) = d :: q ++ c :: t ++ [c] := by
        show List.dropWhile _ (d :: (q ++ c :: t ++ [c])) = _
        rw [dropWhile_none (by simp [hd])]; rfl
      rw [this]
      have e : (d :: q ++ c :: t ++ [c]).reverse = c :: (d :: q ++ c :: t).reverse := by simp
      rw [e, dropWhile_none (by simp [hc])]
      simp

theorem trimQ_plain (t : Txt) (h : '"' ∉ t) : trimQ t = t := by
  have hd : ∀ l : Txt, '"' ∉ l → l.dropWhile (fun x => x == '"') = l := by
    intro l hl
    cases l with
    | nil => rfl
    | cons c l =>
      have : c ≠ '"' := fun e => hl (e ▸ List.mem_cons_self ..)
      exact dropWhile_none (by simp [this])
  unfold trimQ trimBy
  rw [hd t h, hd t.reverse (by simpa using h)]
  simp

/-- A name after the last dot decides. -/
theorem trimQ_dot (q t : Txt) (h : '"' ∉ t) : ∃ q', trimQ (q ++ '.' :: t) = q' ++ '.' :: t := by
  have front : ∀ q : Txt, ∃ q', (q ++ '.' :: t).dropWhile (fun x => x == '"') = q' ++ '.' :: t := by
    intro q
    induction q with
    | nil => exact ⟨[], dropWhile_none (by decide)⟩
    | cons d q ih =>
      by_cases hd : d = '"'
      · obtain ⟨q', hq⟩ := ih
        refine ⟨q', ?_⟩
        show List.dropWhile _ (d :: (q ++ '.' :: t)) = _
        rw [List.dropWhile_cons, if_pos (by simp [hd]), hq]
      · exact ⟨d :: q, dropWhile_none (by simp [hd])⟩
  obtain ⟨q', hq⟩ := front q
  refine ⟨q', ?_⟩
  unfold trimQ trimBy
  rw [hq]
  have e : (q' ++ '.' :: t).reverse = t.reverse ++ '.' :: q'.reverse := by simp
  rw [e]
  have : (t.reverse ++ '.' :: q'.reverse).dropWhile (fun x => x == '"') = t.reverse ++ '.' :: q'.reverse := by
    cases ht : t.reverse with
    | nil => exact dropWhile_none (by decide)
    | cons c l =>
      have : c ≠ '"' := by
        intro e
        apply h
        rw [← List.mem_reverse, ht, e]
        exact List.mem_cons_self ..
      exact dropWhile_none (by simp [this])
  rw [this]; simp

theorem mapStatus_qualified (q t : Txt) (hq : '"' ∉ t) (hd : '.' ∉ t) : mapStatus (q ++ '.' :: t) = mapStatus t := by
  unfold mapStatus
  obtain ⟨q', h⟩ := trimQ_dot q t hq
  rw [h, afterDot_last _ _ hd, trimQ_plain _ hq, afterDot_none _ hd]

/-- C83: a constant of net/http, however its package is written, has the value that Go gives it. -/
theorem C83_constant (q : Txt) (n : Int) (name : String) (h : (n, name) ∈ netHttp) :
    mapStatus (q ++ '.' :: ("Status".toList ++ name.toList)) = some n := by
  have key : ∀ e ∈ netHttp, '"' ∉ ("Status".toList ++ e.2.toList) ∧ '.' ∉ ("Status".toList ++ e.2.toList) ∧ mapStatus ("Status".toList ++ e.2.toList) = some e.1 := by
    decide +kernel
  obtain ⟨h1, h2, h3⟩ := key _ h
  rw [mapStatus_qualified _ _ h1 h2]
  exact h3

example : mapStatus "net/http.StatusNotFound".toList = some 404 :=
  C83_constant "net/http".toList 404 "NotFound" (by decide)

theorem digits_not (n : Nat) {c : Char} (hc : c.isDigit = false) : c ∉ Nat.toDigits 10 n := by
  intro h
  have := Nat.isDigit_of_mem_toDigits (by decide) (by decide) h
  rw [hc] at this
  cases this

theorem toDigits_digits (n : Nat) : digits (Nat.toDigits 10 n) = some n := by
  cases h : Nat.toDigits 10 n with
  | nil => exact absurd h Nat.toDigits_ne_nil
  | cons c cs =>
    have hd : (c :: cs).all Char.isDigit = true := by
      rw [List.all_eq_true, ← h]
      intro x hx
      exact Nat.isDigit_of_mem_toDigits (by decide) (by decide) hx
    show (if (c :: cs).all Char.isDigit then some ((c :: cs).foldl (fun n c => 10 * n + (c.toNat - 48)) 0) else none) = some n
    rw [if_pos hd]
    have := @Nat.ofDigitChars_ten_toDigits n
    rw [Nat.ofDigitChars, h] at this
    exact congrArg some this

/-- C83: a decimal literal is read as its value. -/
theorem C83_literal (n : Nat) (h : n < 2 ^ 63) : mapStatus (Nat.toDigits 10 n) = some (n : Int) := by
  have hq : '"' ∉ Nat.toDigits 10 n := digits_not n (by decide)
  have hd : '.' ∉ Nat.toDigits 10 n := digits_not n (by decide)
  have hS : 'S' ∉ Nat.toDigits 10 n := digits_not n (by decide)
  unfold mapStatus
  rw [trimQ_plain _ hq, afterDot_none _ hd]
  have hnone : byName.find? (fun e => e.1.toList == Nat.toDigits 10 n) = none := by
    rw [List.find?_eq_none]
    intro e he hb
    have hs : ∀ e ∈ byName, 'S' ∈ e.1.toList := by decide +kernel
    have := hs e he
    rw [eq_of_beq hb] at this
    exact hS this
  rw [hnone]
  show atoi _ = _
  have hdig : digits (Nat.toDigits 10 n) = some n := toDigits_digits n
  have hmin : '-' ∉ Nat.toDigits 10 n := digits_not n (by decide)
  have hplus : '+' ∉ Nat.toDigits 10 n := digits_not n (by decide)
  have : atoi (Nat.toDigits 10 n) = (digits (Nat.toDigits 10 n)).bind fun n => inRange n := by
    revert hmin hplus
    generalize Nat.toDigits 10 n = t
    intro hmin hplus
    unfold atoi
    split
    · exact absurd (List.mem_cons_self ..) hmin
    · exact absurd (List.mem_cons_self ..) hplus
    · rfl
  rw [this, hdig]
  show inRange (n : Int) = _
  unfold inRange
  rw [if_pos]
  omega

example : mapStatus "404".toList = some 404 := C83_literal 404 (by decide)

/-- C83, wrong: a literal with a leading zero is octal in Go — `0404` is 260 — but it is read as decimal. -/
theorem C83_octal_wrong : mapStatus "0404".toList = some 404 := by decide +kernel

/-- C83: what is not a decimal number and not such a constant is not taken for a status. -/
theorem C83_unresolved : mapStatus "0x1f4".toList = none ∧ mapStatus "int".toList = none ∧
    mapStatus "4_04".toList = none ∧ mapStatus "net/http.StatusBogus".toList = none := by decide +kernel

/-! ## Variables -/

theorem collect_mono (vs : List Rhs) : ∀ (r : List Int × Bool), (∀ n ∈ r.1, n ∈ (collect vs r).1) ∧ (r.2 = true → (collect vs r).2 = true) := by
  induction vs with
  | nil => intro r; exact ⟨fun n h => h, fun h => h⟩
  | cons v vs ih =>
    intro ⟨codes, res⟩
    unfold collect
    cases hv : statusOf v with
    | none => exact ⟨fun n h => (ih (codes, true)).1 n h, fun _ => (ih (codes, true)).2 rfl⟩
    | some m =>
      refine ⟨fun n h => (ih (if m ∈ codes then codes else codes ++ [m], res)).1 n ?_, fun h => (ih (if m ∈ codes then codes else codes ++ [m], res)).2 h⟩
      show n ∈ (if m ∈ codes then codes else codes ++ [m])
      split
      · exact h
      · exact List.mem_append_left _ h

theorem collect_hit {vs : List Rhs} : ∀ {r : List Int × Bool} {v : Rhs}, v ∈ vs →
    match statusOf v with
    | some n => n ∈ (collect vs r).1
    | none => (collect vs r).2 = true := by
  induction vs with
  | nil => intro r v h; cases h
  | cons w vs ih =>
    intro ⟨codes, res⟩ v h
    rcases List.mem_cons.1 h with rfl | h
    · unfold collect
      cases hv : statusOf v with
      | none => exact (collect_mono vs (codes, true)).2 rfl
      | some m =>
        refine (collect_mono vs (if m ∈ codes then codes else codes ++ [m], res)).1 m ?_
        show m ∈ (if m ∈ codes then codes else codes ++ [m])
        split
        · assumption
        · exact List.mem_append_right _ (List.mem_singleton.2 rfl)
    · unfold collect
      cases hw : statusOf w with
      | none => exact ih (r := (codes, true)) h
      | some m => exact ih (r := (if m ∈ codes then codes else codes ++ [m], res)) h

theorem collect_from {vs : List Rhs} : ∀ {r : List Int × Bool},
    (∀ n ∈ (collect vs r).1, n ∈ r.1 ∨ ∃ v ∈ vs, statusOf v = some n) ∧ ((collect vs r).2 = true → r.2 = true ∨ ∃ v ∈ vs, statusOf v = none) := by
  induction vs with
  | nil => intro r; exact ⟨fun n h => .inl h, fun h => .inl h⟩
  | cons w vs ih =>
    intro ⟨codes, res⟩
    unfold collect
    cases hw : statusOf w with
    | none =>
      refine ⟨fun n h => ?_, fun _ => .inr ⟨w, List.mem_cons_self .., hw⟩⟩
      rcases (ih (r := (codes, true))).1 n h with h | ⟨v, hv, e⟩
      · exact .inl h
      · exact .inr ⟨v, List.mem_cons_of_mem _ hv, e⟩
    | some m =>
      refine ⟨fun n h => ?_, fun h => ?_⟩
      · rcases (ih (r := (if m ∈ codes then codes else codes ++ [m], res))).1 n h with h | ⟨v, hv, e⟩
        · by_cases hm : m ∈ codes
          · simp only [if_pos hm] at h; exact .inl h
          · simp only [if_neg hm, List.mem_append, List.mem_singleton] at h
            rcases h with h | rfl
            · exact .inl h
            · exact .inr ⟨w, List.mem_cons_self .., hw⟩
        · exact .inr ⟨v, List.mem_cons_of_mem _ hv, e⟩
      · rcases (ih (r := (if m ∈ codes then codes else codes ++ [m], res))).2 h with h | ⟨v, hv, e⟩
        · exact .inl h
        · exact .inr ⟨v, List.mem_cons_of_mem _ hv, e⟩

/-- What expressions evaluate to, in any execution: `den r n` says that `r` may have the value `n`. -/
abbrev Den := Rhs → Int → Prop

/-- An expression that is read as a status has that value (see C83_constant, C83_literal; C83_octal_wrong
for where it fails). -/
def Faithful (den : Den) : Prop := ∀ r m n, statusOf r = some m → den r n → n = m

/-- C83: a status that a variable holds when it is sent is documented, or a `default` response is, when it
was put there by one of at least two assignments and the response has a body.  Missing: fewer assignments,
responses without a body, and values the variable has without an assignment (a parameter). -/
theorem C83_variable_partial (den : Den) (hf : Faithful den) (assigns : List Rhs) (h2 : 2 ≤ assigns.length)
    (r : Rhs) (hr : r ∈ assigns) (n : Int) (hn : den r n) :
    Key.code n ∈ responses (expandVar assigns) none true ∨ Key.default ∈ responses (expandVar assigns) none true := by
  have hx : expandVar assigns = collect assigns ([], false) := by
    unfold expandVar; rw [if_neg (by omega)]
  rw [hx]
  have hit := collect_hit (r := ([], false)) hr
  unfold responses
  split
  · next hc =>
    cases hs : statusOf r with
    | none =>
      rw [hs] at hit
      right
      have : (collect assigns ([], false)).2 = true := hit
      rw [this]
      simp
    | some m =>
      rw [hs] at hit
      left
      rw [hf r m n hs hn]
      exact List.mem_append_left _ (List.mem_map.2 ⟨m, hit, rfl⟩)
  · right
    simp

/-- C83: the statuses documented of a variable are those of its assignments. -/
theorem C83_variable_sound (assigns : List Rhs) (single : Option Int) (hasBody : Bool) (n : Int)
    (h : Key.code n ∈ responses (expandVar assigns) single hasBody) :
    (∃ r ∈ assigns, statusOf r = some n) ∨ single = some n := by
  unfold responses at h
  split at h
  · rcases List.mem_append.1 h with h | h
    · obtain ⟨m, hm, e⟩ := List.mem_map.1 h
      injection e with e
      subst e
      left
      unfold expandVar at hm
      split at hm
      · cases hm
      · rcases collect_from.1 _ hm with h | h
        · cases h
        · exact h
    · split at h <;> simp at h
  · right
    cases single with
    | some m => simp at h; rw [h]
    | none => cases hasBody <;> simp at h

/-- C83: a status that an assignment is read as is documented under its own code, when another assignment
gives another status or is not understood. -/
theorem C83_variable_codes (assigns : List Rhs) (single : Option Int) (hasBody : Bool) (r r' : Rhs) (hr : r ∈ assigns)
    (hr' : r' ∈ assigns) (n : Int) (hn : statusOf r = some n) (hne : statusOf r' ≠ some n) :
    Key.code n ∈ responses (expandVar assigns) single hasBody := by
  have h2 : 2 ≤ assigns.length := by
    match assigns, hr, hr' with
    | [a], hr, hr' =>
      rw [List.mem_singleton.1 hr'] at hne
      rw [List.mem_singleton.1 hr] at hn
      exact absurd hn hne
    | _ :: _ :: _, _, _ => simp
  have hx : expandVar assigns = collect assigns ([], false) := by
    unfold expandVar; rw [if_neg (by omega)]
  rw [hx]
  have hit := collect_hit (r := ([], false)) hr
  have hit' := collect_hit (r := ([], false)) hr'
  rw [hn] at hit
  have hit : n ∈ (collect assigns ([], false)).1 := hit
  have hlen : 1 ≤ (collect assigns ([], false)).1.length := List.length_pos_of_mem hit
  unfold responses
  rw [if_pos]
  · exact List.mem_append_left _ (List.mem_map.2 ⟨n, hit, rfl⟩)
  · cases hs : statusOf r' with
    | none =>
      rw [hs] at hit'
      exact .inr ⟨hlen, hit'⟩
    | some m =>
      rw [hs] at hit' hne
      left
      have hit' : m ∈ (collect assigns ([], false)).1 := hit'
      match hl : (collect assigns ([], false)).1, hit, hit' with
      | [a], hit, hit' =>
        rw [List.mem_singleton.1 hit, List.mem_singleton.1 hit'] at hne
        exact absurd rfl hne
      | _ :: _ :: _, _, _ => simp

/-- One assignment of two is not understood. -/
example : Key.code 500 ∈ responses (expandVar [.call ["error".toList], .plain "500".toList]) none false :=
  C83_variable_codes _ _ _ (.plain "500".toList) (.call ["error".toList]) (by simp) (by simp) _ (by decide +kernel) (by decide +kernel)

/-- C83: a call is read as a status when exactly one of its arguments is one. -/
theorem C83_call_iff (args : List Txt) (n : Int) :
    statusOf (.call args) = some n ↔
      ∃ pre a post, args = pre ++ a :: post ∧ mapStatus a = some n ∧ ∀ x ∈ pre ++ post, mapStatus x = none := by
  have none_of : ∀ l : List Txt, l.filterMap mapStatus = [] → ∀ x ∈ l, mapStatus x = none := by
    intro l h x hx
    cases hm : mapStatus x with
    | none => rfl
    | some m =>
      have : m ∈ l.filterMap mapStatus := List.mem_filterMap.2 ⟨x, hx, hm⟩
      rw [h] at this
      cases this
  have key : ∀ l : List Txt, l.filterMap mapStatus = [n] ↔
      ∃ pre a post, l = pre ++ a :: post ∧ mapStatus a = some n ∧ ∀ x ∈ pre ++ post, mapStatus x = none := by
    intro l
    constructor
    · intro h
      induction l with
      | nil => cases h
      | cons a l ih =>
        cases ha : mapStatus a with
        | none =>
          rw [List.filterMap_cons_none ha] at h
          obtain ⟨pre, b, post, rfl, hb, hall⟩ := ih h
          refine ⟨a :: pre, b, post, rfl, hb, ?_⟩
          intro x hx
          rcases List.mem_cons.1 hx with rfl | hx
          · exact ha
          · exact hall x hx
        | some m =>
          rw [List.filterMap_cons_some ha] at h
          injection h with h1 h2
          subst h1
          exact ⟨[], a, l, rfl, ha, none_of l h2⟩
    · rintro ⟨pre, a, post, rfl, ha, hall⟩
      have nil : ∀ l : List Txt, (∀ x ∈ l, mapStatus x = none) → l.filterMap mapStatus = [] := by
        intro l h
        rw [List.filterMap_eq_nil_iff]
        exact h
      rw [List.filterMap_append, List.filterMap_cons_some ha, nil pre (fun x hx => hall x (List.mem_append.2 (.inl hx))),
        nil post (fun x hx => hall x (List.mem_append.2 (.inr hx)))]
      rfl
  rw [← key]
  unfold statusOf
  simp only
  split
  · rename_i m h
    rw [h]
    simp
  · rename_i h
    exact ⟨fun h' => (by cases h'), fun h' => absurd h' (h n)⟩

/-- `pick(err, 404)`. -/
example : statusOf (.call ["err".toList, "404".toList]) = some 404 := by decide +kernel

/-- C83: `default` beside known statuses is documented only when an assignment is not understood. -/
theorem C83_variable_default (assigns : List Rhs) (h : (expandVar assigns).2 = true) : ∃ r ∈ assigns, statusOf r = none := by
  unfold expandVar at h
  split at h
  · cases h
  · rcases collect_from.2 h with h | h
    · cases h
    · exact h

/-- `code := 200; if bad { code = http.StatusBadRequest } else if odd { code = pick(err) }`. -/
example : responses (expandVar [.plain "200".toList, .plain "net/http.StatusBadRequest".toList, .call ["error".toList]]) none true
    = [.code 200, .code 400, .default] := by decide +kernel

/-- C83, lost: the status that a parameter arrives with.  `if code == 0 { code = 500 } else if bad { code = 400 }`
documents 500 and 400 only. -/
theorem C83_parameter_lost : responses (expandVar [.plain "500".toList, .plain "400".toList]) none true = [.code 500, .code 400] := by
  decide +kernel

/-- C83, wrong: `code := 400; if missing { code += 4 }` documents 400 and 4 and not 404: an assignment is
recorded without its operator (metadata.go:1323-1404). -/
theorem C83_compound_wrong : responses (expandVar [.plain "400".toList, .plain "4".toList]) none true = [.code 400, .code 4] := by
  decide +kernel

/-- C83, lost: a status that every branch assigns is not documented (`code := 404` and `code = 404`); without a
body nothing is, with one it is `default`. -/
theorem C83_same_status_lost (n : Nat) (h : n < 2 ^ 63) :
    responses (expandVar [.plain (Nat.toDigits 10 n), .plain (Nat.toDigits 10 n)]) none false = [] ∧
    responses (expandVar [.plain (Nat.toDigits 10 n), .plain (Nat.toDigits 10 n)]) none true = [.default] := by
  have hs : statusOf (.plain (Nat.toDigits 10 n)) = some (n : Int) := C83_literal n h
  have e : expandVar [.plain (Nat.toDigits 10 n), .plain (Nat.toDigits 10 n)] = ([(n : Int)], false) := by
    unfold expandVar
    rw [if_neg (by simp)]
    simp [collect, hs]
  rw [e]
  exact ⟨rfl, rfl⟩

/-- C83, wrong: an argument that happens to be a number is taken for the status of a call:
`code = backoff(3)` documents a status 3. -/
theorem C83_argument_wrong : responses (expandVar [.plain "500".toList, .call ["3".toList]]) none true = [.code 500, .code 3] := by
  decide +kernel

/-! ## Mappers: what they can return -/

/-- The literal gives the field the value of `r`: by name, or at the position its type declares. -/
def Sets (P : Prog) (field : String) (l : Lit) (r : Rhs) : Prop :=
  (∃ e ∈ l.elts, e.key = some field ∧ e.val = r) ∨
  ((∀ e ∈ l.elts, e.key = none) ∧
    ∃ t, (t ∈ P.types ∨ t ∈ P.external) ∧ t.pkg = l.pkg ∧ t.name = l.type ∧
      ∃ (i : Nat) (e : Elt), t.fields[i]? = some field ∧ l.elts[i]? = some e ∧ e.val = r)

/-- What variables hold, as far as the field is concerned. -/
abbrev Store := String → Int

inductive J where
  | store (f : Func) (σ : Store)
  | val (f : Func) (σ : Store) (v : Val) (i : Nat) (n : Int)
  | ret (f : Func) (i : Nat) (n : Int)

/-- `store f σ`: the body of `f` can reach the store `σ`; `val f σ v i n`: result `i` of the expression `v` can
have `n` in the field; `ret f i n`: result `i` of `f` can have `n` in the field. -/
inductive Sem (den : Den) (P : Prog) (field : String) : J → Prop
  | init {f σ} : (∀ x, x ∉ f.inputs → σ x = 0) → Sem den P field (.store f σ)
  | assign {f σ x a n} : Sem den P field (.store f σ) → a ∈ f.assigns x → Sem den P field (.val f σ a.value a.ret n) →
      Sem den P field (.store f (fun y => if y = x then n else σ y))
  | write {f σ x r n} : Sem den P field (.store f σ) → (x, r) ∈ f.fieldWrites → den r n →
      Sem den P field (.store f (fun y => if y = x then n else σ y))
  | lit {f σ l r i n} : Sets P field l r → den r n → Sem den P field (.val f σ (.lit l) i n)
  | zero {f σ l i} : (∀ r, ¬ Sets P field l r) → Sem den P field (.val f σ (.lit l) i 0)
  | ident {f σ x i} : Sem den P field (.val f σ (.ident x) i (σ x))
  | call {f σ c g i n} : g ∈ P.funcs → Sem den P field (.ret g i n) → Sem den P field (.val f σ (.call c (some (g.pkg, g.name))) i n)
  | elsewhere {f σ c i n} : Sem den P field (.val f σ (.call c none) i n)
  | hidden {f σ i n} : Sem den P field (.val f σ .hidden i n)
  | pass {f σ v i n} : Sem den P field (.store f σ) → [v] ∈ f.returns → Sem den P field (.val f σ v i n) → Sem den P field (.ret f i n)
  | tuple {f σ vs v i n} : Sem den P field (.store f σ) → vs ∈ f.returns → vs[i]? = some v → Sem den P field (.val f σ v 0 n) →
      Sem den P field (.ret f i n)

/-- The values that a function mentions. -/
def Func.Mentions (f : Func) (v : Val) : Prop := (∃ vs ∈ f.returns, v ∈ vs) ∨ ∃ x, ∃ a ∈ f.assigns x, a.value = v

/-- Programs for which the statuses are found. -/
structure Plain (P : Prog) : Prop where
  funcs : ∀ f ∈ P.funcs, ∀ g ∈ P.funcs, f.pkg = g.pkg → f.name = g.name → f = g
  named : ∀ f ∈ P.funcs, f.name ≠ ""
  noInputs : ∀ f ∈ P.funcs, f.inputs = []
  noWrites : ∀ f ∈ P.funcs, f.fieldWrites = []
  noOpaque : ∀ f ∈ P.funcs, ¬ f.Mentions .hidden
  /-- Assigned calls are recorded with the function they call, which is part of the program. -/
  assigned : ∀ f ∈ P.funcs, ∀ x, ∀ a ∈ f.assigns x, ∀ c t, a.value = .call c t →
    t = some (a.calleePkg, a.calleeFunc) ∧ ∃ g ∈ P.funcs, g.pkg = a.calleePkg ∧ g.name = a.calleeFunc
  /-- Returned calls are to functions of the same package. -/
  returned : ∀ f ∈ P.funcs, ∀ vs ∈ f.returns, ∀ c t, .call c t ∈ vs → t = some (f.pkg, c) ∧ ∃ g ∈ P.funcs, g.pkg = f.pkg ∧ g.name = c
  /-- The Go compiler: the keys of a literal are distinct. -/
  keys : ∀ f ∈ P.funcs, ∀ l, f.Mentions (.lit l) → ∀ d ∈ l.elts, ∀ e ∈ l.elts, d.key = e.key → d.key ≠ none → d = e
  /-- Literals without keys are of types of the same package. -/
  positional : ∀ f ∈ P.funcs, ∀ l, f.Mentions (.lit l) → (∀ e ∈ l.elts, e.key = none) → l.elts ≠ [] →
    l.qual = none ∧ l.pkg = f.pkg ∧ ∃ t ∈ P.types, t.pkg = l.pkg ∧ t.name = l.type
  types : ∀ t u, (t ∈ P.types ∨ t ∈ P.external) → (u ∈ P.types ∨ u ∈ P.external) → t.pkg = u.pkg → t.name = u.name → t = u
  fields : ∀ t ∈ P.types, ∀ i j : Nat, ∀ x, t.fields[i]? = some x → t.fields[j]? = some x → i = j

theorem find_exact {P : Prog} (h : Plain P) {g : Func} (hg : g ∈ P.funcs) : find P g.pkg g.name = some g := by
  unfold find
  rw [if_neg (h.named g hg)]
  cases hf : P.funcs.find? (fun f => f.pkg == g.pkg && f.name == g.name) with
  | none =>
    have := List.find?_eq_none.1 hf g hg
    simp at this
  | some f =>
    have hm := List.mem_of_find?_eq_some hf
    have hb := List.find?_some hf
    simp only [Bool.and_eq_true, beq_iff_eq] at hb
    exact congrArg some (h.funcs f hm g hg hb.1 hb.2)

theorem find_mem {P : Prog} {p n : String} {f : Func} (h : find P p n = some f) : f ∈ P.funcs := by
  unfold find at h
  split at h
  · cases h
  · split at h
    · next hf => injection h with h; exact h ▸ List.mem_of_find?_eq_some hf
    · exact List.mem_of_find?_eq_some h

theorem fieldValue_sets {P : Prog} (h : Plain P) {f : Func} (hf : f ∈ P.funcs) {l : Lit} (hl : f.Mentions (.lit l)) {field : String} {r : Rhs} :
    fieldValue P l field f.pkg = some r ↔ Sets P field l r := by
  unfold fieldValue Sets
  by_cases hk : (l.elts.any fun e => e.key.isSome) = true
  · rw [if_pos hk]
    have nokeys : ¬ ∀ e ∈ l.elts, e.key = none := by
      obtain ⟨e, he, hs⟩ := List.any_eq_true.1 hk
      intro hn
      rw [hn e he] at hs
      cases hs
    constructor
    · intro hr
      left
      unfold keyed at hr
      obtain ⟨e, he, rfl⟩ := Option.map_eq_some_iff.1 hr
      have hb := List.find?_some he
      exact ⟨e, List.mem_of_find?_eq_some he, eq_of_beq hb, rfl⟩
    · rintro (⟨e, he, hke, rfl⟩ | ⟨hn, _⟩)
      · unfold keyed
        cases hfd : l.elts.find? (fun e => e.key == some field) with
        | none =>
          have := List.find?_eq_none.1 hfd e he
          rw [hke] at this
          simp at this
        | some d =>
          have hb := List.find?_some hfd
          have hd : d.key = some field := eq_of_beq hb
          rw [h.keys f hf l hl d (List.mem_of_find?_eq_some hfd) e he (hd.trans hke.symm) (by rw [hd]; simp)]
          rfl
      · exact absurd hn nokeys
  · rw [if_neg hk]
    have allnone : ∀ e ∈ l.elts, e.key = none := by
      intro e he
      cases hke : e.key with
      | none => rfl
      | some k => exact absurd (List.any_eq_true.2 ⟨e, he, by rw [hke]; rfl⟩) hk
    have notkeyed : ¬ ∃ e ∈ l.elts, e.key = some field ∧ e.val = r := by
      rintro ⟨e, he, hke, _⟩
      rw [allnone e he] at hke
      cases hke
    by_cases hempty : l.elts = []
    · constructor
      · intro hr
        exfalso
        split at hr
        · cases hr
        · split at hr
          · cases hr
          · rw [hempty] at hr; simp at hr
      · rintro (hx | ⟨_, t, _, _, _, i, e, _, he, _⟩)
        · exact absurd hx notkeyed
        · rw [hempty] at he; simp at he
    · obtain ⟨hq, hp, t, ht, htp, htn⟩ := h.positional f hf l hl allnone hempty
      have hfind : findType P (l.qual.getD f.pkg) l.type = some t := by
        unfold findType
        rw [hq]
        cases hft : P.types.find? (fun t => t.pkg == (none : Option String).getD f.pkg && t.name == l.type) with
        | none =>
          have := List.find?_eq_none.1 hft t ht
          rw [htp, htn, hp] at this
          simp at this
        | some u =>
          have hb := List.find?_some hft
          simp only [Option.getD_none, Bool.and_eq_true, beq_iff_eq] at hb
          exact congrArg some (h.types u t (.inl (List.mem_of_find?_eq_some hft)) (.inl ht) (by rw [hb.1, htp, hp]) (by rw [hb.2, htn]))
      rw [hfind]
      show (match t.fields.findIdx? (· == field) with
        | none => none
        | some i => (l.elts[i]?).map (·.val)) = some r ↔ _
      constructor
      · intro hr
        split at hr
        · cases hr
        · next i hi =>
          obtain ⟨e, he, rfl⟩ := Option.map_eq_some_iff.1 hr
          obtain ⟨hlt, hb, _⟩ := List.findIdx?_eq_some_iff_getElem.1 hi
          refine .inr ⟨allnone, t, .inl ht, htp, htn, i, e, ?_, he, rfl⟩
          rw [List.getElem?_eq_getElem hlt]
          exact congrArg some (eq_of_beq hb)
      · rintro (hx | ⟨_, u, hu, hup, hun, i, e, hi, he, rfl⟩)
        · exact absurd hx notkeyed
        · have : u = t := h.types u t hu (.inl ht) (hup.trans htp.symm) (hun.trans htn.symm)
          subst this
          cases hfi : u.fields.findIdx? (· == field) with
          | none =>
            have := List.findIdx?_eq_none_iff.1 hfi field (List.mem_of_getElem? hi)
            simp at this
          | some j =>
            obtain ⟨hlt, hb, _⟩ := List.findIdx?_eq_some_iff_getElem.1 hfi
            have : u.fields[j]? = some field := by
              rw [List.getElem?_eq_getElem hlt]; exact congrArg some (eq_of_beq hb)
            rw [h.fields u ht j i field this hi]
            show (l.elts[i]?).map (·.val) = _
            rw [he]; rfl

/-! ## The search covers everything -/

/-- What the value can be is among the codes, given that the functions in `seen` are done. -/
inductive Covered (P : Prog) (field : String) (codes : List Int) (seen : List (String × String)) (f : Func) : Val → Prop
  | lit {l} : (∀ r, fieldValue P l field f.pkg = some r → ∃ c ∈ codes, statusOf r = some c) → Covered P field codes seen f (.lit l)
  | ident {x} : (∀ a ∈ f.assigns x, ∀ c t, a.value = .call c t → ∀ g, find P a.calleePkg a.calleeFunc = some g → (g.pkg, g.name) ∈ seen) →
      (∀ a ∈ f.assigns x, (∀ c t, a.value ≠ .call c t) → Covered P field codes seen f a.value) → Covered P field codes seen f (.ident x)
  | call {c t} : (∀ g, c ≠ "" → find P f.pkg c = some g → (g.pkg, g.name) ∈ seen) → Covered P field codes seen f (.call c t)
  | hidden : Covered P field codes seen f .hidden
  | plain : Covered P field codes seen f .plain

theorem Covered.mono {P : Prog} {field : String} {codes codes' : List Int} {seen seen' : List (String × String)} {f : Func} {v : Val}
    (hc : ∀ c ∈ codes, c ∈ codes') (hs : ∀ k ∈ seen, k ∈ seen') (h : Covered P field codes seen f v) : Covered P field codes' seen' f v := by
  induction h with
  | lit h => exact .lit fun r hr => let ⟨c, h1, h2⟩ := h r hr; ⟨c, hc c h1, h2⟩
  | ident h1 h2 ih => exact .ident (fun a ha c t e g hg => hs _ (h1 a ha c t e g hg)) (fun a ha hn => ih a ha hn)
  | call h => exact .call fun g hne hg => hs _ (h g hne hg)
  | hidden => exact .hidden
  | plain => exact .plain

/-- The function is done. -/
def Done (P : Prog) (field : String) (s : St) (k : String × String) : Prop :=
  ∀ f ∈ P.funcs, (f.pkg, f.name) = k → ∀ v ∈ f.returns.flatten, Covered P field s.codes s.seen f v

structure Grows (P : Prog) (field : String) (s s' : St) : Prop where
  codes : ∀ c ∈ s.codes, c ∈ s'.codes
  seen : ∀ k ∈ s.seen, k ∈ s'.seen
  done : ∀ k ∈ s'.seen, k ∉ s.seen → Done P field s' k

theorem Done.mono {P : Prog} {field : String} {s s' : St} {k : String × String} (hc : ∀ c ∈ s.codes, c ∈ s'.codes) (hs : ∀ k ∈ s.seen, k ∈ s'.seen)
    (h : Done P field s k) : Done P field s' k := fun f hf hk v hv => (h f hf hk v hv).mono hc hs

theorem Grows.refl (P : Prog) (field : String) (s : St) : Grows P field s s := ⟨fun _ h => h, fun _ h => h, fun _ h hn => absurd h hn⟩

theorem Grows.trans {P : Prog} {field : String} {s s' s'' : St} (h : Grows P field s s') (h' : Grows P field s' s'') : Grows P field s s'' := by
  refine ⟨fun c hc => h'.codes c (h.codes c hc), fun k hk => h'.seen k (h.seen k hk), fun k hk hn => ?_⟩
  by_cases hm : k ∈ s'.seen
  · exact (h.done k hm hn).mono h'.codes h'.seen
  · exact h'.done k hk hm

theorem loop_grows {P : Prog} {field : String} {α : Type} {step : α → St → Option (Bool × St)} {Post : α → St → Prop}
    (hmono : ∀ a s s', (∀ c ∈ s.codes, c ∈ s'.codes) → (∀ k ∈ s.seen, k ∈ s'.seen) → Post a s → Post a s') :
    ∀ (l : List α), (∀ a ∈ l, ∀ s s', step a s = some (false, s') → Grows P field s s' ∧ Post a s') →
    ∀ s s', loop step l s = some (false, s') → Grows P field s s' ∧ ∀ a ∈ l, Post a s' := by
  intro l
  induction l with
  | nil =>
    intro _ s s' h
    simp only [loop, Option.some.injEq, Prod.mk.injEq, true_and] at h
    exact ⟨h ▸ Grows.refl P field s, by simp⟩
  | cons a l ih =>
    intro hstep s s' h
    unfold loop at h
    cases h1 : step a s with
    | none => rw [h1] at h; cases h
    | some p =>
      obtain ⟨r, s1⟩ := p
      rw [h1] at h
      cases h2 : loop step l s1 with
      | none => simp only [h2] at h; cases h
      | some q =>
        obtain ⟨r', s2⟩ := q
        simp only [h2] at h
        simp only [Option.some.injEq, Prod.mk.injEq, Bool.or_eq_false_iff] at h
        obtain ⟨⟨hr, hr'⟩, rfl⟩ := h
        subst hr; subst hr'
        obtain ⟨g1, p1⟩ := hstep a (List.mem_cons_self ..) s s1 h1
        obtain ⟨g2, p2⟩ := ih (fun b hb => hstep b (List.mem_cons_of_mem _ hb)) s1 s2 h2
        refine ⟨g1.trans g2, fun b hb => ?_⟩
        rcases List.mem_cons.1 hb with rfl | hb
        · exact hmono _ _ _ g2.codes g2.seen p1
        · exact p2 b hb

/-- What a job leaves behind. -/
def JobPost (P : Prog) (field : String) : Job → St → Prop
  | .val v f, s => Covered P field s.codes s.seen f v
  | .fn none, _ => True
  | .fn (some f), s => (f.pkg, f.name) ∈ s.seen

theorem run_covers {P : Prog} (hu : ∀ f ∈ P.funcs, ∀ g ∈ P.funcs, f.pkg = g.pkg → f.name = g.name → f = g) {field : String} :
    ∀ (n : Nat) (j : Job) (d : Nat) (s s' : St), (match j with | .fn (some f) => f ∈ P.funcs | .fn none => True | .val _ f => f ∈ P.funcs) →
    run P field n j d s = some (false, s') → Grows P field s s' ∧ JobPost P field j s' := by
  intro n
  induction n with
  | zero => intro j d s s' _ h; cases h
  | succ n ih =>
    intro j d s s' hj h
    cases j with
    | fn f =>
      cases f with
      | none =>
        simp only [run, Option.some.injEq, Prod.mk.injEq, true_and] at h
        exact ⟨h ▸ Grows.refl P field s, trivial⟩
      | some f =>
        unfold run at h
        simp only at h
        split at h
        · cases h
        · split at h
          · next hm =>
            simp only [Option.some.injEq, Prod.mk.injEq, true_and] at h
            subst h
            exact ⟨Grows.refl P field s, hm⟩
          · next hm =>
            have hl := loop_grows (P := P) (field := field) (Post := fun v s => Covered P field s.codes s.seen f v)
              (fun v s s' hc hs hcov => hcov.mono hc hs) f.returns.flatten
              (fun v _ s s' hr => ih (.val v f) d s s' hj hr) _ _ h
            obtain ⟨g, hp⟩ := hl
            refine ⟨⟨g.codes, fun k hk => g.seen k (List.mem_cons_of_mem _ hk), fun k hk hn => ?_⟩, g.seen _ (List.mem_cons_self ..)⟩
            by_cases he : k = (f.pkg, f.name)
            · subst he
              intro f' hf' hk' v hv
              simp only [Prod.mk.injEq] at hk'
              have := hu f' hf' f hj hk'.1 hk'.2
              subst this
              exact hp v hv
            · exact g.done k hk (by
                intro hk'
                rcases List.mem_cons.1 hk' with e | e
                · exact he e
                · exact hn e)
    | val v f =>
      unfold run at h
      cases v with
      | lit l =>
        simp only at h
        cases hfv : fieldValue P l field f.pkg with
        | none =>
          simp only [hfv, Option.some.injEq, Prod.mk.injEq, true_and] at h
          subst h
          exact ⟨Grows.refl P field s, .lit fun r hr => by rw [hfv] at hr; cases hr⟩
        | some r =>
          simp only [hfv] at h
          cases hs : statusOf r with
          | none => simp only [hs, Option.some.injEq, Prod.mk.injEq] at h; cases h.1
          | some c =>
            simp only [hs, Option.some.injEq, Prod.mk.injEq, true_and] at h
            subst h
            have hmem : c ∈ (addCode c s).codes := by
              unfold addCode
              split
              · assumption
              · exact List.mem_cons_self ..
            refine ⟨⟨fun x hx => ?_, fun k hk => ?_, fun k hk hn => ?_⟩, .lit fun r' hr' => ?_⟩
            · unfold addCode
              split
              · exact hx
              · exact List.mem_cons_of_mem _ hx
            · unfold addCode
              split <;> exact hk
            · unfold addCode at hk
              split at hk <;> exact absurd hk hn
            · rw [hfv] at hr'
              injection hr' with hr'
              exact ⟨c, hmem, hr' ▸ hs⟩
      | ident x =>
        simp only at h
        have hl := loop_grows (P := P) (field := field) (Post := fun (a : Assign) s =>
            (∀ c t, a.value = .call c t → ∀ g, find P a.calleePkg a.calleeFunc = some g → (g.pkg, g.name) ∈ s.seen) ∧
            ((∀ c t, a.value ≠ .call c t) → Covered P field s.codes s.seen f a.value))
          (fun a s s' hc hs hp => ⟨fun c t e g hg => hs _ (hp.1 c t e g hg), fun hn => (hp.2 hn).mono hc hs⟩) (f.assigns x)
          (fun a _ s s' hr => by
            cases hv : a.value with
            | call c t =>
              simp only [hv] at hr
              cases hfd : find P a.calleePkg a.calleeFunc with
              | none =>
                rw [hfd] at hr
                obtain ⟨g1, _⟩ := ih (.fn none) (d + 1) s s' trivial hr
                exact ⟨g1, fun _ _ _ g hg => by simp at hg, fun hn => absurd rfl (hn c t)⟩
              | some g =>
                rw [hfd] at hr
                obtain ⟨g1, hp⟩ := ih (.fn (some g)) (d + 1) s s' (find_mem hfd) hr
                exact ⟨g1, fun _ _ _ g' hg => by simp only [Option.some.injEq] at hg; exact hg ▸ hp, fun hn => absurd rfl (hn c t)⟩
            | lit l =>
              simp only [hv] at hr
              obtain ⟨g1, hp⟩ := ih (.val (.lit l) f) (d + 1) s s' hj hr
              exact ⟨g1, (fun _ _ e => (by cases e)), fun _ => hp⟩
            | ident y =>
              simp only [hv] at hr
              obtain ⟨g1, hp⟩ := ih (.val (.ident y) f) (d + 1) s s' hj hr
              exact ⟨g1, (fun _ _ e => (by cases e)), fun _ => hp⟩
            | hidden => 
              simp only [hv] at hr
              obtain ⟨g1, hp⟩ := ih (.val .hidden f) (d + 1) s s' hj hr
              exact ⟨g1, (fun _ _ e => (by cases e)), fun _ => hp⟩
            | plain =>
              simp only [hv] at hr
              obtain ⟨g1, hp⟩ := ih (.val .plain f) (d + 1) s s' hj hr
              exact ⟨g1, (fun _ _ e => (by cases e)), fun _ => hp⟩) _ _ h
        exact ⟨hl.1, .ident (fun a ha => (hl.2 a ha).1) (fun a ha => (hl.2 a ha).2)⟩
      | call c t =>
        simp only at h
        split at h
        · next hc =>
          simp only [Option.some.injEq, Prod.mk.injEq, true_and] at h
          subst h
          exact ⟨Grows.refl P field s, .call fun g hne _ => absurd hc hne⟩
        · cases hfd : find P f.pkg c with
          | none =>
            rw [hfd] at h
            obtain ⟨g1, _⟩ := ih (.fn none) (d + 1) s s' trivial h
            exact ⟨g1, .call fun g _ hg => by rw [hfd] at hg; cases hg⟩
          | some g =>
            rw [hfd] at h
            obtain ⟨g1, hp⟩ := ih (.fn (some g)) (d + 1) s s' (find_mem hfd) h
            exact ⟨g1, .call fun g' _ hg => by rw [hfd] at hg; injection hg with hg; exact hg ▸ hp⟩
      | hidden =>
        simp only [Option.some.injEq, Prod.mk.injEq, true_and] at h
        exact ⟨h ▸ Grows.refl P field s, .hidden⟩
      | plain =>
        simp only [Option.some.injEq, Prod.mk.injEq, true_and] at h
        exact ⟨h ▸ Grows.refl P field s, .plain⟩

/-! ## Executions stay within what is covered -/

def Ok (codes : List Int) (n : Int) : Prop := n ∈ codes ∨ n = 0

/-- What is known of a judgement when every seen function is done. -/
def Within (P : Prog) (field : String) (codes : List Int) (seen : List (String × String)) : J → Prop
  | .store f σ => f ∈ P.funcs → ∀ x, Covered P field codes seen f (.ident x) → Ok codes (σ x)
  | .val f σ v _ n => f ∈ P.funcs → f.Mentions v → (∀ x, Covered P field codes seen f (.ident x) → Ok codes (σ x)) →
      (match v with | .call _ t => ∃ g ∈ P.funcs, t = some (g.pkg, g.name) ∧ (g.pkg, g.name) ∈ seen | _ => Covered P field codes seen f v) → Ok codes n
  | .ret f _ n => f ∈ P.funcs → (f.pkg, f.name) ∈ seen → Ok codes n

theorem within {den : Den} (hf : Faithful den) {P : Prog} (hp : Plain P) {field : String} {s : St} (hd : ∀ k ∈ s.seen, Done P field s k) {j : J}
    (h : Sem den P field j) : Within P field s.codes s.seen j := by
  have retCall : ∀ f ∈ P.funcs, ∀ vs ∈ f.returns, ∀ v ∈ vs, (f.pkg, f.name) ∈ s.seen →
      (match v with | .call _ t => ∃ g ∈ P.funcs, t = some (g.pkg, g.name) ∧ (g.pkg, g.name) ∈ s.seen | _ => Covered P field s.codes s.seen f v) := by
    intro f hfm vs hvs v hv hseen
    have hcov := hd _ hseen f hfm rfl v (List.mem_flatten.2 ⟨vs, hvs, hv⟩)
    cases v with
    | call c t =>
      obtain ⟨ht, g, hg, hgp, hgn⟩ := hp.returned f hfm vs hvs c t hv
      refine ⟨g, hg, by rw [ht, hgp, hgn], ?_⟩
      cases hcov with
      | call hc => exact hc g (by rw [← hgn]; exact hp.named g hg) (by rw [← hgp, ← hgn]; exact find_exact hp hg)
    | lit l => exact hcov
    | ident x => exact hcov
    | hidden => exact hcov
    | plain => exact hcov
  induction h with
  | init hz =>
    intro hfm x _
    exact .inr (hz x (by rw [hp.noInputs _ hfm]; simp))
  | @assign f σ x a n _ ha _ ih1 ih2 =>
    intro hfm y hcov
    show Ok s.codes (if y = x then n else σ y)
    split
    · next hy =>
      subst hy
      refine ih2 hfm (.inr ⟨y, a, ha, rfl⟩) (ih1 hfm) ?_
      cases hcov with
      | ident hc1 hc2 =>
        cases hv : a.value with
        | call c t =>
          obtain ⟨ht, g, hg, hgp, hgn⟩ := hp.assigned f hfm y a ha c t hv
          refine ⟨g, hg, by rw [ht, hgp, hgn], hc1 a ha c t hv g ?_⟩
          rw [← hgp, ← hgn]; exact find_exact hp hg
        | lit l => have := hc2 a ha (by rw [hv]; intro c t e; cases e); rw [hv] at this; exact this
        | ident z => have := hc2 a ha (by rw [hv]; intro c t e; cases e); rw [hv] at this; exact this
        | hidden => exact .hidden
        | plain => exact .plain
    · exact ih1 hfm y hcov
  | write _ hw _ _ =>
    intro hfm
    rw [hp.noWrites _ hfm] at hw
    cases hw
  | @lit f σ l r i n hs hn =>
    intro hfm hmen _ hcov
    cases hcov with
    | lit hc =>
      obtain ⟨c, hcm, hst⟩ := hc r ((fieldValue_sets hp hfm hmen).2 hs)
      exact .inl (hf r c n hst hn ▸ hcm)
  | zero _ => intro _ _ _ _; exact .inr rfl
  | ident => intro _ _ hσ hcov; exact hσ _ hcov
  | @call f σ c g i n hg _ ih =>
    intro _ _ _ hc
    obtain ⟨g', hg', e, hseen⟩ := hc
    simp only [Option.some.injEq, Prod.mk.injEq] at e
    have := hp.funcs g hg g' hg' e.1 e.2
    subst this
    exact ih hg hseen
  | elsewhere =>
    intro _ _ _ hc
    obtain ⟨g, _, e, _⟩ := hc
    cases e
  | hidden => intro hfm hmen; exact absurd hmen (hp.noOpaque _ hfm)
  | @pass f σ v i n _ hv _ ih1 ih2 =>
    intro hfm hseen
    exact ih2 hfm (.inl ⟨[v], hv, List.mem_singleton.2 rfl⟩) (ih1 hfm) (retCall f hfm [v] hv v (List.mem_singleton.2 rfl) hseen)
  | @tuple f σ vs v i n _ hvs hi _ ih1 ih2 =>
    intro hfm hseen
    have hv := List.mem_of_getElem? hi
    exact ih2 hfm (.inl ⟨vs, hvs, hv⟩) (ih1 hfm) (retCall f hfm vs hvs v hv hseen)

/-- C83: every status that a mapper's result can carry is among those found, or it is reported that others
are possible; 0 is what a field holds that is never set, and is no status.  Missing: programs that are not
`Plain`, and what comes of the statuses found (C83_mapper_documented_partial). -/
theorem C83_mapper_partial (den : Den) (hf : Faithful den) (P : Prog) (hp : Plain P) (field : String) (f : Func) (hfm : f ∈ P.funcs)
    (fuel : Nat) (codes : List Int) (residue : Bool) (hr : mapperStatuses P field f.pkg f.name fuel = some (codes, residue))
    (i : Nat) (n : Int) (h : Sem den P field (.ret f i n)) : n ∈ codes ∨ residue = true ∨ n = 0 := by
  unfold mapperStatuses at hr
  rw [find_exact hp hfm] at hr
  simp only at hr
  cases hrun : run P field fuel (.fn (some f)) 0 {} with
  | none => rw [hrun] at hr; cases hr
  | some p =>
    obtain ⟨r, s⟩ := p
    rw [hrun] at hr
    simp only [Option.some.injEq, Prod.mk.injEq] at hr
    obtain ⟨rfl, rfl⟩ := hr
    cases r with
    | true => exact .inr (.inl rfl)
    | false =>
      obtain ⟨g, hpost⟩ := run_covers hp.funcs fuel (.fn (some f)) 0 {} s hfm hrun
      rcases within hf hp (fun k hk => g.done k hk (by simp)) h hfm hpost with h | h
      · exact .inl h
      · exact .inr (.inr h)

/-- C83: with a body, every status a mapper's result can carry is documented, or `default` is. -/
theorem C83_mapper_documented_partial (den : Den) (hf : Faithful den) (P : Prog) (hp : Plain P) (field : String) (f : Func) (hfm : f ∈ P.funcs)
    (fuel : Nat) (found : List Int × Bool) (hr : mapperStatuses P field f.pkg f.name fuel = some found)
    (i : Nat) (n : Int) (h : Sem den P field (.ret f i n)) (h0 : n ≠ 0) :
    Key.code n ∈ responses found none true ∨ Key.default ∈ responses found none true := by
  obtain ⟨codes, residue⟩ := found
  have := C83_mapper_partial den hf P hp field f hfm fuel codes residue hr i n h
  unfold responses
  split
  · rcases this with h | h | h
    · exact .inl (List.mem_append_left _ (List.mem_map.2 ⟨n, h, rfl⟩))
    · subst h; exact .inr (by simp)
    · exact absurd h h0
  · right; simp

/-! ## What is found is there -/

/-- The value `v` of the function `g` is what a return statement of the mapper `f` leads to in `d` steps. -/
inductive Path (P : Prog) (f : Func) : Nat → Func → Val → Prop
  | start {vs v} : vs ∈ f.returns → v ∈ vs → Path P f 0 f v
  | copy {d g x a} : Path P f d g (.ident x) → a ∈ g.assigns x → (∀ c t, a.value ≠ .call c t) → Path P f (d + 1) g a.value
  | assigned {d g x a c k vs v} : Path P f d g (.ident x) → a ∈ g.assigns x → k ∈ P.funcs → a.value = .call c (some (k.pkg, k.name)) →
      vs ∈ k.returns → v ∈ vs → Path P f (d + 1) k v
  | returned {d g c k vs v} : Path P f d g (.call c (some (k.pkg, k.name))) → k ∈ P.funcs → vs ∈ k.returns → v ∈ vs → Path P f (d + 1) k v

theorem Path.mem {P : Prog} {f : Func} (hf : f ∈ P.funcs) {d : Nat} {g : Func} {v : Val} (h : Path P f d g v) : g ∈ P.funcs ∧ g.Mentions v := by
  induction h with
  | start h1 h2 => exact ⟨hf, .inl ⟨_, h1, h2⟩⟩
  | copy _ ha _ ih => exact ⟨ih.1, .inr ⟨_, _, ha, rfl⟩⟩
  | assigned _ _ hk _ h1 h2 _ => exact ⟨hk, .inl ⟨_, h1, h2⟩⟩
  | returned _ hk h1 h2 _ => exact ⟨hk, .inl ⟨_, h1, h2⟩⟩

theorem Path.callReturned {P : Prog} {f : Func} {d : Nat} {g : Func} {v : Val} (h : Path P f d g v) :
    ∀ c t, v = .call c t → ∃ vs ∈ g.returns, .call c t ∈ vs := by
  cases h with
  | start h1 h2 => intro c t e; subst e; exact ⟨_, h1, h2⟩
  | copy _ ha hn => intro c t e; exact absurd e (hn c t)
  | assigned _ _ hk _ h1 h2 => intro c t e; subst e; exact ⟨_, h1, h2⟩
  | returned _ hk h1 h2 => intro c t e; subst e; exact ⟨_, h1, h2⟩

/-- A status that a literal on such a path sets. -/
def Found (P : Prog) (f : Func) (field : String) (c : Int) : Prop :=
  ∃ d g l r, Path P f d g (.lit l) ∧ Sets P field l r ∧ statusOf r = some c

/-- A reason to report that other statuses are possible: a literal that sets the field to something that is
not understood, or a path of eight steps. -/
def Unsure (P : Prog) (f : Func) (field : String) : Prop :=
  (∃ d g l r, Path P f d g (.lit l) ∧ Sets P field l r ∧ statusOf r = none) ∨ ∃ d g v, 8 ≤ d ∧ Path P f d g v

theorem loop_inv {α : Type} {step : α → St → Option (Bool × St)} {Q : St → Prop} {W : Prop} : ∀ (l : List α),
    (∀ a ∈ l, ∀ s r s', step a s = some (r, s') → Q s → Q s' ∧ (r = true → W)) →
    ∀ s r s', loop step l s = some (r, s') → Q s → Q s' ∧ (r = true → W) := by
  intro l
  induction l with
  | nil =>
    intro _ s r s' h hq
    simp only [loop, Option.some.injEq, Prod.mk.injEq] at h
    obtain ⟨rfl, rfl⟩ := h
    exact ⟨hq, fun e => by cases e⟩
  | cons a l ih =>
    intro hstep s r s' h hq
    unfold loop at h
    cases h1 : step a s with
    | none => rw [h1] at h; cases h
    | some p =>
      obtain ⟨r1, s1⟩ := p
      rw [h1] at h
      cases h2 : loop step l s1 with
      | none => simp only [h2] at h; cases h
      | some q =>
        obtain ⟨r2, s2⟩ := q
        simp only [h2] at h
        simp only [Option.some.injEq, Prod.mk.injEq] at h
        obtain ⟨rfl, rfl⟩ := h
        obtain ⟨q1, w1⟩ := hstep a (List.mem_cons_self ..) s r1 s1 h1 hq
        obtain ⟨q2, w2⟩ := ih (fun b hb => hstep b (List.mem_cons_of_mem _ hb)) s1 r2 s2 h2 q1
        refine ⟨q2, fun e => ?_⟩
        rcases Bool.or_eq_true _ _ ▸ e with e | e
        · exact w1 e
        · exact w2 e

/-- Where a job comes from. -/
def JobFrom (P : Prog) (f0 : Func) : Job → Nat → Prop
  | .val v f, d => Path P f0 d f v
  | .fn none, _ => True
  | .fn (some f), d => f ∈ P.funcs ∧ (∀ vs ∈ f.returns, ∀ v ∈ vs, Path P f0 d f v) ∧ (8 < d → ∃ e g v, 8 ≤ e ∧ Path P f0 e g v)

theorem run_sound {P : Prog} (hp : Plain P) {field : String} {f0 : Func} (hf0 : f0 ∈ P.funcs) :
    ∀ (n : Nat) (j : Job) (d : Nat) (s : St) (r : Bool) (s' : St), JobFrom P f0 j d → run P field n j d s = some (r, s') →
    (∀ c ∈ s.codes, Found P f0 field c) → (∀ c ∈ s'.codes, Found P f0 field c) ∧ (r = true → Unsure P f0 field) := by
  intro n
  induction n with
  | zero => intro j d s r s' _ h; cases h
  | succ n ih =>
    intro j d s r s' hj h hq
    have same : ∀ {r s'}, some (false, s) = some (r, s') → (∀ c ∈ s'.codes, Found P f0 field c) ∧ (r = true → Unsure P f0 field) := by
      intro r s' e
      simp only [Option.some.injEq, Prod.mk.injEq] at e
      obtain ⟨rfl, rfl⟩ := e
      exact ⟨hq, fun e => by cases e⟩
    cases j with
    | fn f =>
      cases f with
      | none => exact same h
      | some f =>
        unfold run at h
        simp only at h
        obtain ⟨hfm, hret, hdeep⟩ := hj
        split at h
        · next h8 =>
          simp only [Option.some.injEq, Prod.mk.injEq] at h
          obtain ⟨rfl, rfl⟩ := h
          exact ⟨hq, fun _ => .inr (hdeep h8)⟩
        · split at h
          · exact same h
          · exact loop_inv (Q := fun s => ∀ c ∈ s.codes, Found P f0 field c) f.returns.flatten
              (fun v hv s r s' hr hq => by
                obtain ⟨vs, hvs, hv⟩ := List.mem_flatten.1 hv
                exact ih (.val v f) d s r s' (hret vs hvs v hv) hr hq) _ _ _ h hq
    | val v f =>
      obtain ⟨hfm, hmen⟩ := Path.mem hf0 (show Path P f0 d f v from hj)
      unfold run at h
      cases v with
      | lit l =>
        simp only at h
        cases hfv : fieldValue P l field f.pkg with
        | none => rw [hfv] at h; exact same h
        | some rhs =>
          simp only [hfv] at h
          have hsets := (fieldValue_sets hp hfm hmen).1 hfv
          cases hs : statusOf rhs with
          | none =>
            simp only [hs, Option.some.injEq, Prod.mk.injEq] at h
            obtain ⟨rfl, rfl⟩ := h
            exact ⟨hq, fun _ => .inl ⟨d, f, l, rhs, hj, hsets, hs⟩⟩
          | some c =>
            simp only [hs, Option.some.injEq, Prod.mk.injEq] at h
            obtain ⟨rfl, rfl⟩ := h
            refine ⟨fun x hx => ?_, fun e => by cases e⟩
            unfold addCode at hx
            split at hx
            · exact hq x hx
            · rcases List.mem_cons.1 hx with rfl | hx
              · exact ⟨d, f, l, rhs, hj, hsets, hs⟩
              · exact hq x hx
      | ident x =>
        simp only at h
        refine loop_inv (Q := fun s => ∀ c ∈ s.codes, Found P f0 field c) (f.assigns x) (fun a ha s r s' hr hq => ?_) _ _ _ h hq
        have copy : (∀ c t, a.value ≠ .call c t) → JobFrom P f0 (.val a.value f) (d + 1) := fun hn => .copy hj ha hn
        cases hv : a.value with
        | call c t =>
          simp only [hv] at hr
          obtain ⟨ht, g, hg, hgp, hgn⟩ := hp.assigned f hfm x a ha c t hv
          have hfd : find P a.calleePkg a.calleeFunc = some g := by rw [← hgp, ← hgn]; exact find_exact hp hg
          rw [hfd] at hr
          refine ih (.fn (some g)) (d + 1) s r s' ⟨hg, fun vs hvs v hv' => ?_, fun h8 => ⟨d, f, _, by omega, hj⟩⟩ hr hq
          exact .assigned hj ha hg (by rw [hv, ht, hgp, hgn]) hvs hv'
        | lit l =>
          simp only [hv] at hr
          exact ih (.val (.lit l) f) (d + 1) s r s' (hv ▸ copy (by rw [hv]; intro c t e; cases e)) hr hq
        | ident y =>
          simp only [hv] at hr
          exact ih (.val (.ident y) f) (d + 1) s r s' (hv ▸ copy (by rw [hv]; intro c t e; cases e)) hr hq
        | hidden =>
          simp only [hv] at hr
          exact ih (.val .hidden f) (d + 1) s r s' (hv ▸ copy (by rw [hv]; intro c t e; cases e)) hr hq
        | plain =>
          simp only [hv] at hr
          exact ih (.val .plain f) (d + 1) s r s' (hv ▸ copy (by rw [hv]; intro c t e; cases e)) hr hq
      | call c t =>
        simp only at h
        split at h
        · exact same h
        · obtain ⟨vs, hvs, hv⟩ := Path.callReturned (show Path P f0 d f (.call c t) from hj) c t rfl
          obtain ⟨ht, g, hg, hgp, hgn⟩ := hp.returned f hfm vs hvs c t hv
          have hfd : find P f.pkg c = some g := by rw [← hgp, ← hgn]; exact find_exact hp hg
          rw [hfd] at h
          refine ih (.fn (some g)) (d + 1) s r s' ⟨hg, fun vs hvs v hv' => ?_, fun h8 => ⟨d, f, _, by omega, hj⟩⟩ h hq
          refine Path.returned (g := f) (c := c) ?_ hg hvs hv'
          rw [hgp, hgn, ← ht]; exact hj
      | hidden => exact same h
      | plain => exact same h

/-- C83: the statuses found are set by literals that a return statement of the mapper leads to, and other
statuses are reported only for such a literal that is not understood or for paths of eight steps. -/
theorem C83_mapper_sound_partial (P : Prog) (hp : Plain P) (field : String) (f : Func) (hfm : f ∈ P.funcs)
    (fuel : Nat) (codes : List Int) (residue : Bool) (hr : mapperStatuses P field f.pkg f.name fuel = some (codes, residue)) :
    (∀ n ∈ codes, Found P f field n) ∧ (residue = true → Unsure P f field) := by
  unfold mapperStatuses at hr
  rw [find_exact hp hfm] at hr
  simp only at hr
  cases hrun : run P field fuel (.fn (some f)) 0 {} with
  | none => rw [hrun] at hr; cases hr
  | some p =>
    obtain ⟨r, s⟩ := p
    rw [hrun] at hr
    simp only [Option.some.injEq, Prod.mk.injEq] at hr
    obtain ⟨rfl, rfl⟩ := hr
    exact run_sound hp hfm fuel (.fn (some f)) 0 {} r s ⟨hfm, fun vs hvs v hv => .start hvs hv, fun h => absurd h (by decide)⟩ hrun (by simp)

/-! ## Termination -/

theorem loop_mono {α : Type} {step step' : α → St → Option (Bool × St)} (h : ∀ a s p, step a s = some p → step' a s = some p) :
    ∀ (l : List α) (s : St) (p : Bool × St), loop step l s = some p → loop step' l s = some p := by
  intro l
  induction l with
  | nil => intro s p hl; exact hl
  | cons a l ih =>
    intro s p hl
    unfold loop at hl ⊢
    cases h1 : step a s with
    | none => rw [h1] at hl; cases hl
    | some q =>
      rw [h1] at hl
      rw [h a s q h1]
      cases h2 : loop step l q.2 with
      | none => simp only [h2] at hl; cases hl
      | some q' =>
        simp only [h2] at hl
        simp only [ih q.2 q' h2]
        exact hl

theorem run_succ {P : Prog} {field : String} : ∀ (n : Nat) (j : Job) (d : Nat) (s : St) (p : Bool × St),
    run P field n j d s = some p → run P field (n + 1) j d s = some p := by
  intro n
  induction n with
  | zero => intro j d s p h; cases h
  | succ n ih =>
    intro j d s p h
    cases j with
    | fn f =>
      cases f with
      | none => exact h
      | some f =>
        unfold run at h ⊢
        simp only at h ⊢
        split at h
        · next h8 => rw [if_pos h8]; exact h
        · next h8 =>
          rw [if_neg h8]
          split at h
          · next hm => rw [if_pos hm]; exact h
          · next hm =>
            rw [if_neg hm]
            exact loop_mono (fun v s p => ih (.val v f) d s p) _ _ _ h
    | val v f =>
      unfold run at h ⊢
      cases v with
      | lit l => exact h
      | hidden => exact h
      | plain => exact h
      | call c t =>
        simp only at h ⊢
        split at h
        · next hc => rw [if_pos hc]; exact h
        · next hc => rw [if_neg hc]; exact ih _ _ _ _ h
      | ident x =>
        simp only at h ⊢
        refine loop_mono (fun a s p hr => ?_) _ _ _ h
        cases hv : a.value with
        | call c t => simp only [hv] at hr ⊢; exact ih _ _ _ _ hr
        | lit l => simp only [hv] at hr ⊢; exact ih _ _ _ _ hr
        | ident y => simp only [hv] at hr ⊢; exact ih _ _ _ _ hr
        | hidden => simp only [hv] at hr ⊢; exact ih _ _ _ _ hr
        | plain => simp only [hv] at hr ⊢; exact ih _ _ _ _ hr

theorem run_le {P : Prog} {field : String} {m n : Nat} (hmn : m ≤ n) {j : Job} {d : Nat} {s : St} {p : Bool × St} (h : run P field m j d s = some p) :
    run P field n j d s = some p := by
  induction hmn with
  | refl => exact h
  | step _ ih => exact run_succ _ _ _ _ _ ih

/-- C83: a larger bound on the recursion does not change what is found. -/
theorem C83_bound_irrelevant (P : Prog) (field pkg name : String) (m n : Nat) (hmn : m ≤ n) (found : List Int × Bool)
    (h : mapperStatuses P field pkg name m = some found) : mapperStatuses P field pkg name n = some found := by
  unfold mapperStatuses at h ⊢
  cases hf : find P pkg name with
  | none => rw [hf] at h; exact h
  | some f =>
    rw [hf] at h
    simp only at h ⊢
    cases hr : run P field m (.fn (some f)) 0 {} with
    | none => rw [hr] at h; cases h
    | some p => rw [hr] at h; rw [run_le hmn hr]; exact h

theorem loop_ends {P : Prog} {field : String} {α : Type} {stepAt : Nat → α → St → Option (Bool × St)}
    (hmono : ∀ m n a s p, m ≤ n → stepAt m a s = some p → stepAt n a s = some p) :
    ∀ (l : List α), (∀ a ∈ l, ∀ s, ∃ n p, stepAt n a s = some p) → ∀ s, ∃ n p, loop (stepAt n) l s = some p := by
  intro l
  induction l with
  | nil => intro _ s; exact ⟨0, _, rfl⟩
  | cons a l ih =>
    intro h s
    obtain ⟨n1, p1, h1⟩ := h a (List.mem_cons_self ..) s
    obtain ⟨n2, p2, h2⟩ := ih (fun b hb => h b (List.mem_cons_of_mem _ hb)) p1.2
    refine ⟨max n1 n2, (p1.1 || p2.1, p2.2), ?_⟩
    unfold loop
    rw [hmono n1 (max n1 n2) a s p1 (Nat.le_max_left ..) h1]
    have := loop_mono (fun b s p => hmono n2 (max n1 n2) b s p (Nat.le_max_right ..)) _ _ _ h2
    simp only [this]

/-- C83: the search ends when no variable of a function is, through other variables, a copy of itself: when
there is a measure that every assignment of one variable to another decreases. -/
theorem C83_mapper_ends_partial (P : Prog) (field pkg name : String) (rank : Func → String → Nat)
    (hr : ∀ f ∈ P.funcs, ∀ x, ∀ a ∈ f.assigns x, ∀ y, a.value = .ident y → rank f y < rank f x) :
    ∃ fuel found, mapperStatuses P field pkg name fuel = some found := by
  have vals : ∀ d, (∀ e, d < e → ∀ f, (∀ g, f = some g → g ∈ P.funcs) → ∀ s, ∃ n p, run P field n (.fn f) e s = some p) →
      ∀ m e, d ≤ e → ∀ f ∈ P.funcs, ∀ v, (∀ x, v = .ident x → rank f x ≤ m) → ∀ s, ∃ n p, run P field n (.val v f) e s = some p := by
    intro d hfn m
    induction m with
    | zero =>
      intro e he f hf v hv s
      cases v with
      | lit l =>
        refine ⟨1, ?_⟩
        cases h1 : fieldValue P l field f.pkg with
        | none => exact ⟨_, by simp only [run, h1]; rfl⟩
        | some r =>
          cases h2 : statusOf r with
          | none => exact ⟨_, by simp only [run, h1, h2]; rfl⟩
          | some c => exact ⟨_, by simp only [run, h1, h2]; rfl⟩
      | hidden => exact ⟨1, _, rfl⟩
      | plain => exact ⟨1, _, rfl⟩
      | call c t =>
        obtain ⟨n, p, h⟩ := hfn (e + 1) (by omega) (find P f.pkg c) (fun g hg => find_mem hg) s
        by_cases hc : c = ""
        · exact ⟨1, _, by simp only [run, if_pos hc]; rfl⟩
        · exact ⟨n + 1, p, by simp only [run, if_neg hc]; exact h⟩
      | ident x =>
        obtain ⟨n, p, h⟩ := loop_ends (P := P) (field := field) (stepAt := fun n (a : Assign) s =>
            match a.value with
            | .call _ _ => run P field n (.fn (find P a.calleePkg a.calleeFunc)) (e + 1) s
            | v => run P field n (.val v f) (e + 1) s)
          (fun m n a s p hmn h => by
            cases hv : a.value <;> simp only [hv] at h ⊢ <;> exact run_le hmn h) (f.assigns x) (fun a ha s => by
            cases hv' : a.value with
            | call c t => exact hfn (e + 1) (by omega) _ (fun g hg => find_mem hg) s
            | ident y => exact absurd (Nat.lt_of_lt_of_le (hr f hf x a ha y hv') (hv x rfl)) (Nat.not_lt_zero _)
            | lit l =>
              refine ⟨1, ?_⟩
              cases h1 : fieldValue P l field f.pkg with
              | none => exact ⟨_, by simp only [run, h1]; rfl⟩
              | some r =>
                cases h2 : statusOf r with
                | none => exact ⟨_, by simp only [run, h1, h2]; rfl⟩
                | some c => exact ⟨_, by simp only [run, h1, h2]; rfl⟩
            | hidden => exact ⟨1, _, rfl⟩
            | plain => exact ⟨1, _, rfl⟩) s
        exact ⟨n + 1, p, h⟩
    | succ m ih =>
      intro e he f hf v hv s
      cases v with
      | ident x =>
        obtain ⟨n, p, h⟩ := loop_ends (P := P) (field := field) (stepAt := fun n (a : Assign) s =>
            match a.value with
            | .call _ _ => run P field n (.fn (find P a.calleePkg a.calleeFunc)) (e + 1) s
            | v => run P field n (.val v f) (e + 1) s)
          (fun m n a s p hmn h => by
            cases hv : a.value <;> simp only [hv] at h ⊢ <;> exact run_le hmn h) (f.assigns x) (fun a ha s => by
            cases hv' : a.value with
            | call c t => exact hfn (e + 1) (by omega) _ (fun g hg => find_mem hg) s
            | ident y =>
              have h1 := hr f hf x a ha y hv'
              have h2 := hv x rfl
              exact ih (e + 1) (by omega) f hf (.ident y) (fun z hz => by injection hz with hz; subst hz; omega) s
            | lit l => exact ih (e + 1) (by omega) f hf (.lit l) (fun z hz => by cases hz) s
            | hidden => exact ⟨1, _, rfl⟩
            | plain => exact ⟨1, _, rfl⟩) s
        exact ⟨n + 1, p, h⟩
      | lit l => exact ih e he f hf _ (fun z hz => by cases hz) s
      | hidden => exact ⟨1, _, rfl⟩
      | plain => exact ⟨1, _, rfl⟩
      | call c t => exact ih e he f hf _ (fun z hz => by cases hz) s
  have fns : ∀ k d, 9 ≤ d + k → ∀ f, (∀ g, f = some g → g ∈ P.funcs) → ∀ s, ∃ n p, run P field n (.fn f) d s = some p := by
    intro k
    induction k with
    | zero =>
      intro d hd f _ s
      cases f with
      | none => exact ⟨1, _, rfl⟩
      | some f => exact ⟨1, _, by simp only [run, if_pos (show 8 < d by omega)]; rfl⟩
    | succ k ih =>
      intro d hd f hf s
      cases f with
      | none => exact ⟨1, _, rfl⟩
      | some f =>
        by_cases h8 : 8 < d
        · exact ⟨1, _, by simp only [run, if_pos h8]; rfl⟩
        · by_cases hm : (f.pkg, f.name) ∈ s.seen
          · exact ⟨1, _, by simp only [run, if_neg h8, if_pos hm]; rfl⟩
          · obtain ⟨n, p, h⟩ := loop_ends (P := P) (field := field) (stepAt := fun n v s => run P field n (.val v f) d s)
              (fun m n a s p hmn h => run_le hmn h) f.returns.flatten
              (fun v _ s => vals d (fun e he => ih e (by omega)) (match v with | .ident x => rank f x | _ => 0) d (Nat.le_refl _) f (hf f rfl) v
                (fun x hx => by subst hx; exact Nat.le_refl _) s) { s with seen := (f.pkg, f.name) :: s.seen }
            exact ⟨n + 1, p, by simp only [run, if_neg h8, if_neg hm]; exact h⟩
  unfold mapperStatuses
  cases hf : find P pkg name with
  | none => exact ⟨0, _, rfl⟩
  | some f =>
    obtain ⟨n, p, h⟩ := fns 9 0 (by omega) (some f) (fun g hg => by injection hg with hg; exact hg ▸ find_mem hf) {}
    exact ⟨n, (p.2.codes, p.1), by simp only [h]⟩

theorem loop_none {α : Type} {step : α → St → Option (Bool × St)} {a : α} (h : ∀ s, step a s = none) :
    ∀ (l : List α), a ∈ l → ∀ s, loop step l s = none := by
  intro l
  induction l with
  | nil => intro hm; cases hm
  | cons b l ih =>
    intro hm s
    unfold loop
    by_cases hb : a = b
    · subst hb; rw [h s]
    · have hm' : a ∈ l := by
        rcases List.mem_cons.1 hm with e | e
        · exact absurd e hb
        · exact e
      cases h1 : step b s with
      | none => rfl
      | some p => simp only [ih hm' p.2]

/-- C83, never ends: a mapper that returns a variable which some assignment copies to itself (`api := api` in a
block, as is common for variables of a loop) makes the search recurse for ever, whatever else the program does:
no bound is enough.  In Go the stack overflows and the process dies. -/
theorem C83_self_copy_never_ends (P : Prog) (field : String) (f : Func) (x : String) (a : Assign)
    (hf : find P f.pkg f.name = some f) (hret : ∃ vs ∈ f.returns, .ident x ∈ vs) (ha : a ∈ f.assigns x) (hv : a.value = .ident x) :
    ∀ fuel, mapperStatuses P field f.pkg f.name fuel = none := by
  have key : ∀ n d s, run P field n (.val (.ident x) f) d s = none := by
    intro n
    induction n with
    | zero => intro d s; rfl
    | succ n ih =>
      intro d s
      unfold run
      exact loop_none (a := a) (fun s => by simp only [hv]; exact ih (d + 1) s) _ ha s
  intro fuel
  unfold mapperStatuses
  rw [hf]
  simp only
  have : run P field fuel (.fn (some f)) 0 {} = none := by
    cases fuel with
    | zero => rfl
    | succ n =>
      unfold run
      simp only
      rw [if_neg (by decide), if_neg (by simp)]
      obtain ⟨vs, hvs, hx⟩ := hret
      exact loop_none (a := Val.ident x) (fun s => key n 0 s) _ (List.mem_flatten.2 ⟨vs, hvs, hx⟩) _
  rw [this]

/-- C83, never ends: so does one that swaps two variables (`api, prev = prev, api`). -/
theorem C83_swap_never_ends (P : Prog) (field : String) (f : Func) (x y : String) (a b : Assign)
    (hf : find P f.pkg f.name = some f) (hret : ∃ vs ∈ f.returns, .ident x ∈ vs) (ha : a ∈ f.assigns x) (hv : a.value = .ident y)
    (hb : b ∈ f.assigns y) (hw : b.value = .ident x) :
    ∀ fuel, mapperStatuses P field f.pkg f.name fuel = none := by
  have key : ∀ n, (∀ d s, run P field n (.val (.ident x) f) d s = none) ∧ (∀ d s, run P field n (.val (.ident y) f) d s = none) := by
    intro n
    induction n with
    | zero => exact ⟨fun _ _ => rfl, fun _ _ => rfl⟩
    | succ n ih =>
      refine ⟨fun d s => ?_, fun d s => ?_⟩
      · unfold run
        exact loop_none (a := a) (fun s => by simp only [hv]; exact ih.2 (d + 1) s) _ ha s
      · unfold run
        exact loop_none (a := b) (fun s => by simp only [hw]; exact ih.1 (d + 1) s) _ hb s
  intro fuel
  unfold mapperStatuses
  rw [hf]
  simp only
  have : run P field fuel (.fn (some f)) 0 {} = none := by
    cases fuel with
    | zero => rfl
    | succ n =>
      unfold run
      simp only
      rw [if_neg (by decide), if_neg (by simp)]
      obtain ⟨vs, hvs, hx⟩ := hret
      exact loop_none (a := Val.ident x) (fun s => (key n).1 0 s) _ (List.mem_flatten.2 ⟨vs, hvs, hx⟩) _
  rw [this]

/-! ## Examples and what is lost -/

def lits (s : String) : Rhs := .plain s.toList
def noAssigns : String → List Assign := fun _ => []

def apiError : TypeDecl := ⟨"app", "APIError", ["Status", "Message"]⟩
/-- `func mapAs404(err error) (APIError, bool)` -/
def mapAs404 : Func :=
  { pkg := "app", name := "mapAs404", assigns := noAssigns,
    returns := [[.lit { type := "APIError", pkg := "app", elts := [⟨some "Status", lits "net/http.StatusNotFound"⟩] }, .plain],
                [.lit { type := "APIError", pkg := "app", elts := [] }, .plain]] }
/-- `func MapError(err error) APIError { if api, ok := mapAs404(err); ok { return api }; return APIError{500, "…"} }` -/
def mapError : Func :=
  { pkg := "app", name := "MapError",
    assigns := fun x => if x = "api" then [{ calleePkg := "app", calleeFunc := "mapAs404", value := .call "mapAs404" (some ("app", "mapAs404")) }] else [],
    returns := [[.ident "api"], [.lit { type := "APIError", pkg := "app", elts := [⟨none, lits "500"⟩, ⟨none, lits "internal"⟩] }]] }
def mappers : Prog := { funcs := [mapError, mapAs404], types := [apiError] }

example : mapperStatuses mappers "Status" "app" "MapError" 10 = some ([500, 404], false) := by decide +kernel

theorem mentions_mappers {f : Func} (hf : f ∈ mappers.funcs) {v : Val} (h : f.Mentions v) :
    (f = mapError ∧ (v = .ident "api" ∨ v = .lit { type := "APIError", pkg := "app", elts := [⟨none, lits "500"⟩, ⟨none, lits "internal"⟩] } ∨
      v = .call "mapAs404" (some ("app", "mapAs404")))) ∨
    (f = mapAs404 ∧ (v = .plain ∨ v = .lit { type := "APIError", pkg := "app", elts := [⟨some "Status", lits "net/http.StatusNotFound"⟩] } ∨
      v = .lit { type := "APIError", pkg := "app", elts := [] })) := by
  have : f = mapError ∨ f = mapAs404 := by simpa [mappers] using hf
  rcases this with rfl | rfl
  · refine .inl ⟨rfl, ?_⟩
    rcases h with ⟨vs, hvs, hv⟩ | ⟨x, a, ha, rfl⟩
    · simp only [mapError, List.mem_cons, List.not_mem_nil, or_false] at hvs
      rcases hvs with rfl | rfl
      · exact .inl (List.mem_singleton.1 hv)
      · exact .inr (.inl (List.mem_singleton.1 hv))
    · simp only [mapError] at ha
      split at ha
      · rw [List.mem_singleton.1 ha]; exact .inr (.inr rfl)
      · cases ha
  · refine .inr ⟨rfl, ?_⟩
    rcases h with ⟨vs, hvs, hv⟩ | ⟨x, a, ha, rfl⟩
    · simp only [mapAs404, List.mem_cons, List.not_mem_nil, or_false] at hvs
      rcases hvs with rfl | rfl
      · simp only [List.mem_cons, List.not_mem_nil, or_false] at hv
        rcases hv with rfl | rfl
        · exact .inr (.inl rfl)
        · exact .inl rfl
      · simp only [List.mem_cons, List.not_mem_nil, or_false] at hv
        rcases hv with rfl | rfl
        · exact .inr (.inr rfl)
        · exact .inl rfl
    · cases ha

theorem plain_mappers : Plain mappers where
  funcs f hf g hg _ hn := by
    have h1 : f = mapError ∨ f = mapAs404 := by simpa [mappers] using hf
    have h2 : g = mapError ∨ g = mapAs404 := by simpa [mappers] using hg
    rcases h1 with rfl | rfl <;> rcases h2 with rfl | rfl
    · rfl
    · exact absurd hn (by decide)
    · exact absurd hn (by decide)
    · rfl
  named f hf := by
    have h1 : f = mapError ∨ f = mapAs404 := by simpa [mappers] using hf
    rcases h1 with rfl | rfl <;> decide
  noInputs f hf := by
    have h1 : f = mapError ∨ f = mapAs404 := by simpa [mappers] using hf
    rcases h1 with rfl | rfl <;> rfl
  noWrites f hf := by
    have h1 : f = mapError ∨ f = mapAs404 := by simpa [mappers] using hf
    rcases h1 with rfl | rfl <;> rfl
  noOpaque f hf h := by
    rcases mentions_mappers hf h with ⟨_, h | h | h⟩ | ⟨_, h | h | h⟩ <;> cases h
  assigned f hf x a ha c t hv := by
    rcases (by simpa [mappers] using hf : f = mapError ∨ f = mapAs404) with rfl | rfl
    · simp only [mapError] at ha
      split at ha
      · rw [List.mem_singleton.1 ha] at hv ⊢
        injection hv with _ ht
        exact ⟨ht.symm, mapAs404, by simp [mappers], rfl, rfl⟩
      · cases ha
    · cases ha
  returned f hf vs hvs c t h := by
    rcases (by simpa [mappers] using hf : f = mapError ∨ f = mapAs404) with rfl | rfl
    · simp only [mapError, List.mem_cons, List.not_mem_nil, or_false] at hvs
      rcases hvs with rfl | rfl <;> (have := List.mem_singleton.1 h; cases this)
    · simp only [mapAs404, List.mem_cons, List.not_mem_nil, or_false] at hvs
      rcases hvs with rfl | rfl <;> simp at h
  keys f hf l h d hd e he hk hn := by
    rcases mentions_mappers hf h with ⟨_, h | h | h⟩ | ⟨_, h | h | h⟩ <;> cases h
    · simp only [List.mem_cons, List.not_mem_nil, or_false] at hd
      rcases hd with rfl | rfl <;> exact absurd rfl hn
    · rw [List.mem_singleton.1 hd, List.mem_singleton.1 he]
    · cases hd
  positional f hf l h hall hne := by
    rcases mentions_mappers hf h with ⟨rfl, h | h | h⟩ | ⟨rfl, h | h | h⟩ <;> cases h
    · exact ⟨rfl, rfl, apiError, by simp [mappers], rfl, rfl⟩
    · exact absurd (hall _ (List.mem_singleton.2 rfl)) (by decide)
    · exact absurd rfl hne
  types t u ht hu _ _ := by
    have h1 : t = apiError := by simpa [mappers] using ht
    have h2 : u = apiError := by simpa [mappers] using hu
    rw [h1, h2]
  fields t ht i j x hi hj := by
    have h1 : t = apiError := by simpa [mappers] using ht
    subst h1
    match i, j with
    | 0, 0 => rfl
    | 1, 1 => rfl
    | 0, 1 => simp [apiError] at hi hj; rw [← hi] at hj; exact absurd hj (by decide)
    | 1, 0 => simp [apiError] at hi hj; rw [← hi] at hj; exact absurd hj (by decide)
    | i + 2, _ => simp [apiError] at hi
    | _, j + 2 => simp [apiError] at hj

/-- Expressions that evaluate to what they are read as. -/
def plainDen : Den := fun r n => statusOf r = some n

theorem plainDen_faithful : Faithful plainDen := fun r m n h1 h2 => by
  unfold plainDen at h2
  rw [h1] at h2
  injection h2 with h2
  exact h2.symm

/-- The mapper can return 404, through its helper. -/
example : Sem plainDen mappers "Status" (.ret mapError 0 404) := by
  have helper : Sem plainDen mappers "Status" (.ret mapAs404 0 404) := by
    refine .tuple (σ := fun _ => 0) (.init fun _ _ => rfl) (vs := [.lit _, .plain]) (List.mem_cons_self ..) rfl ?_
    exact .lit (.inl ⟨_, List.mem_singleton.2 rfl, rfl, rfl⟩) (by show statusOf _ = _; decide +kernel)
  have st : Sem plainDen mappers "Status" (.store mapError (fun y => if y = "api" then 404 else 0)) := by
    refine .assign (σ := fun _ => 0) (a := { calleePkg := "app", calleeFunc := "mapAs404", value := .call "mapAs404" (some ("app", "mapAs404")) })
      (.init fun _ _ => rfl) (by simp [mapError]) ?_
    exact .call (g := mapAs404) (by simp [mappers]) helper
  exact .pass st (v := .ident "api") (List.mem_cons_self ..) (.ident (σ := fun y => if y = "api" then 404 else 0))

example : ∃ fuel found, mapperStatuses mappers "Status" "app" "MapError" fuel = some found :=
  C83_mapper_ends_partial mappers "Status" "app" "MapError" (fun _ _ => 0) (by
    intro f hf x a ha y hv
    rcases mentions_mappers hf (.inr ⟨x, a, ha, hv⟩) with ⟨rfl, h | h | h⟩ | ⟨rfl, h | h | h⟩ <;> try cases h
    simp only [mapError] at ha
    split at ha
    · rw [List.mem_singleton.1 ha] at hv; cases hv
    · cases ha)

/-- `func MapError(errs []APIError) APIError { for _, api := range errs { api := api; return api } … }` -/
def selfCopy : Func :=
  { pkg := "app", name := "MapError",
    assigns := fun x => if x = "api" then [{ value := .ident "api" }] else [],
    returns := [[.ident "api"], [.lit { type := "APIError", pkg := "app", elts := [⟨some "Status", lits "500"⟩] }]] }

example : ∀ fuel, mapperStatuses { funcs := [selfCopy], types := [] } "Status" "app" "MapError" fuel = none :=
  C83_self_copy_never_ends _ "Status" selfCopy "api" { value := .ident "api" } (by
    unfold find
    rw [if_neg (by decide)]
    rfl) ⟨_, List.mem_cons_self .., List.mem_cons_self ..⟩ (by simp [selfCopy]) rfl

/-- A mapper with two understood branches and a third that is `v`. -/
def third (v : Val) (assigns : String → List Assign) (inputs : List String) (writes : List (String × Rhs)) : Func :=
  { pkg := "app", name := "MapError", assigns := assigns, inputs := inputs, fieldWrites := writes,
    returns := [[.lit { type := "APIError", pkg := "app", elts := [⟨some "Status", lits "404"⟩] }],
                [.lit { type := "APIError", pkg := "app", elts := [⟨some "Status", lits "500"⟩] }], [v]] }

/-- C83, lost: the status of a variable of the package or of a parameter that the mapper returns
(`return ErrConflict`): 404 and 500 are found and nothing else is reported, though 409 can be sent. -/
theorem C83_input_lost (den : Den) (n : Int) :
    mapperStatuses { funcs := [third (.ident "ErrConflict") noAssigns ["ErrConflict"] []], types := [] } "Status" "app" "MapError" 10 = some ([500, 404], false) ∧
    Sem den { funcs := [third (.ident "ErrConflict") noAssigns ["ErrConflict"] []], types := [] } "Status" (.ret (third (.ident "ErrConflict") noAssigns ["ErrConflict"] []) 0 n) := by
  refine ⟨by decide +kernel, ?_⟩
  refine .pass (σ := fun y => if y = "ErrConflict" then n else 0) (.init ?_) (v := .ident "ErrConflict") (by simp [third]) (.ident (σ := fun y => if y = "ErrConflict" then n else 0))
  intro x hx
  have : x ≠ "ErrConflict" := fun e => hx (by rw [e]; simp [third])
  simp [this]

/-- C83, lost: what an expression of another kind yields (`return table[code]`). -/
theorem C83_other_lost (den : Den) (n : Int) :
    mapperStatuses { funcs := [third .hidden noAssigns [] []], types := [] } "Status" "app" "MapError" 10 = some ([500, 404], false) ∧
    Sem den { funcs := [third .hidden noAssigns [] []], types := [] } "Status" (.ret (third .hidden noAssigns [] []) 0 n) :=
  ⟨by decide +kernel, .pass (σ := fun _ => 0) (.init fun _ _ => rfl) (v := .hidden) (by simp [third]) .hidden⟩

/-- C83, lost: what a method or a function of another module returns (`return m.fallback(err)`). -/
theorem C83_method_lost (den : Den) (n : Int) :
    mapperStatuses { funcs := [third (.call "fallback" none) noAssigns [] []], types := [] } "Status" "app" "MapError" 10 = some ([500, 404], false) ∧
    Sem den { funcs := [third (.call "fallback" none) noAssigns [] []], types := [] } "Status" (.ret (third (.call "fallback" none) noAssigns [] []) 0 n) :=
  ⟨by decide +kernel, .pass (σ := fun _ => 0) (.init fun _ _ => rfl) (v := .call "fallback" none) (by simp [third]) .elsewhere⟩

/-- C83, lost: a status that is assigned to the field (`api := APIError{}; api.Status = 409; return api`). -/
theorem C83_field_write_lost (den : Den) (h : den (lits "409") 409) :
    let f := third (.ident "api") (fun x => if x = "api" then [{ value := .lit { type := "APIError", pkg := "app", elts := [] } }] else []) [] [("api", lits "409")]
    mapperStatuses { funcs := [f], types := [] } "Status" "app" "MapError" 10 = some ([500, 404], false) ∧
    Sem den { funcs := [f], types := [] } "Status" (.ret f 0 409) := by
  refine ⟨by decide +kernel, ?_⟩
  refine .pass (σ := fun y => if y = "api" then 409 else (fun _ => (0 : Int)) y) (.write (.init fun _ _ => rfl) (r := lits "409") (by simp [third]) h) (v := .ident "api") (by simp [third])
    (.ident (σ := fun y => if y = "api" then 409 else (fun _ => (0 : Int)) y))

/-- C83, lost: a literal without keys of a type that is not analysed (`return problem.Problem{409, "…"}`). -/
theorem C83_external_lost (den : Den) (h : den (lits "409") 409) :
    let l : Lit := { qual := some "problem", type := "Problem", pkg := "ext/problem", elts := [⟨none, lits "409"⟩, ⟨none, lits "conflict"⟩] }
    let P : Prog := { funcs := [third (.lit l) noAssigns [] []], types := [], external := [⟨"ext/problem", "Problem", ["Status", "Title"]⟩] }
    mapperStatuses P "Status" "app" "MapError" 10 = some ([500, 404], false) ∧ Sem den P "Status" (.ret (third (.lit l) noAssigns [] []) 0 409) := by
  intro l P
  refine ⟨by decide +kernel, .pass (σ := fun _ => 0) (.init fun _ _ => rfl) (v := .lit l) (by simp [third, l]) ?_⟩
  refine .lit (r := lits "409") (.inr ⟨by simp [l], ⟨"ext/problem", "Problem", ["Status", "Title"]⟩, .inr (by simp [P]), rfl, rfl, 0, ⟨none, lits "409"⟩, rfl, rfl, rfl⟩) h

/-- C83, wrong: the package of a literal without keys is looked up by the name it is imported under, so the
fields of another type of that name are taken: `errs.Problem{7, 409}` with the fields `Code, Status` is read
with those of `app/a.Problem`, which are `Status, Code`. -/
theorem C83_type_confused (den : Den) (h : den (lits "409") 409) :
    let l : Lit := { qual := some "errs", type := "Problem", pkg := "app/errs", elts := [⟨none, lits "7"⟩, ⟨none, lits "409"⟩] }
    let P : Prog := { funcs := [third (.lit l) noAssigns [] []], types := [⟨"app/a", "Problem", ["Status", "Code"]⟩, ⟨"app/errs", "Problem", ["Code", "Status"]⟩] }
    mapperStatuses P "Status" "app" "MapError" 10 = some ([7, 500, 404], false) ∧ Sem den P "Status" (.ret (third (.lit l) noAssigns [] []) 0 409) := by
  intro l P
  refine ⟨by decide +kernel, .pass (σ := fun _ => 0) (.init fun _ _ => rfl) (v := .lit l) (by simp [third, l]) ?_⟩
  refine .lit (r := lits "409") (.inr ⟨by simp [l], ⟨"app/errs", "Problem", ["Code", "Status"]⟩, .inl (by simp [P]), rfl, rfl, 1, ⟨none, lits "409"⟩, rfl, rfl, rfl⟩) h

/-- C83: a value that is not understood is reported. -/
example : mapperStatuses { funcs := [third (.lit { type := "APIError", pkg := "app", elts := [⟨some "Status", .plain "int".toList⟩] }) noAssigns [] []], types := [] }
    "Status" "app" "MapError" 10 = some ([500, 404], true) := by decide +kernel

/-- C83, lost: the status of a mapper that always sends the same one is documented as `default`. -/
theorem C83_one_status_lost : (mapperStatuses { funcs := [mapAs404], types := [] } "Status" "app" "mapAs404" 10).map (responses · none true) = some [.default] := by
  decide +kernel

end Verif.StatusCodes
