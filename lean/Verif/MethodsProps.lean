import Verif.MethodsSpec
/-!
# Properties: HTTP methods of routes (C31–C33, C55)
-/

namespace Verif.MethodsModel
open Verif.Common Verif.MethodsSpec

/-! ## Order of first mention -/

theorem _root_.Verif.MethodsSpec.FirstMentions.mem {l r : List Str} (h : FirstMentions l r) : ∀ x, x ∈ r ↔ x ∈ l := by
  induction h with
  | nil => intro x; simp
  | new h _ ih => intro x; simp [ih]
  | old h hm ih =>
    intro x
    rw [ih, List.mem_append, List.mem_singleton]
    exact ⟨.inl, fun hx => hx.elim id fun e => e ▸ hm⟩

theorem _root_.Verif.MethodsSpec.FirstMentions.nodup {l r : List Str} (h : FirstMentions l r) : r.Nodup := by
  induction h with
  | nil => exact List.nodup_nil
  | new h hn ih =>
    rw [List.nodup_append]
    refine ⟨ih, by simp, fun a ha b hb => ?_⟩
    rw [List.mem_singleton.mp hb]
    exact fun e => hn ((h.mem _).mp (e ▸ ha))
  | old _ _ ih => exact ih

theorem _root_.Verif.MethodsSpec.FirstMentions.step {l r : List Str} (h : FirstMentions l r) (x : Str) :
    FirstMentions (l ++ [x]) (if x ∈ r then r else r ++ [x]) := by
  split
  · next hx => exact .old h ((h.mem x).mp hx)
  · next hx => exact .new h fun hl => hx ((h.mem x).mpr hl)

theorem mentions_fold : ∀ (ms : List Str) {l r : List Str}, FirstMentions l r →
    FirstMentions (l ++ ms) (ms.foldl (fun acc m => if m ∈ acc then acc else acc ++ [m]) r)
  | [], l, r, h => by simpa using h
  | m :: ms, l, r, h => by
    have := mentions_fold ms (h.step m)
    rw [List.append_assoc] at this
    exact this

theorem mentions_spec (bs : List Branch) : FirstMentions (bs.flatMap (·.methods)) (mentions bs) := by
  have key : ∀ (bs : List Branch) {l r : List Str}, FirstMentions l r →
      FirstMentions (l ++ bs.flatMap (·.methods))
        (bs.foldl (fun acc b => b.methods.foldl (fun acc m => if m ∈ acc then acc else acc ++ [m]) acc) r) := by
    intro bs
    induction bs with
    | nil => intro l r h; simpa using h
    | cons b bs ih =>
      intro l r h
      rw [List.flatMap_cons, ← List.append_assoc, List.foldl_cons]
      exact ih (mentions_fold b.methods h)
  have := key bs .nil
  rw [List.nil_append] at this
  exact this

theorem mem_mentions (bs : List Branch) (m : Str) : m ∈ mentions bs ↔ ∃ b ∈ bs, m ∈ b.methods := by
  rw [(mentions_spec bs).mem, List.mem_flatMap]

/-! ## C31: finding the branches -/

theorem verbTable_iff (v : Str) : v ∈ verbTable ↔ Verb v := by
  unfold verbTable Verb
  simp only [List.map_cons, List.map_nil, List.mem_cons, List.not_mem_nil, or_false]
  grind

theorem constVerb_some (upper : Str → Str) {o : Option Str} {v : Str} :
    constVerb upper o = some v ↔ ∃ s, o = some s ∧ Verb (upper s) ∧ v = upper s := by
  cases o with
  | none => simp [constVerb]
  | some s =>
    rw [constVerb]
    split
    · next h => rw [verbTable_iff] at h; constructor
                · intro e; cases e; exact ⟨s, rfl, h, rfl⟩
                · rintro ⟨s', e, _, rfl⟩; cases e; rfl
    · next h => rw [verbTable_iff] at h; constructor
                · intro e; cases e
                · rintro ⟨s', e, h', _⟩; cases e; exact absurd h' h

theorem constVerb_none (upper : Str → Str) {o : Option Str} : constVerb upper o = none ↔ ∀ s, o = some s → ¬ Verb (upper s) := by
  constructor
  · intro h s e hv
    rw [(constVerb_some upper).mpr ⟨s, e, hv, rfl⟩] at h
    cases h
  · intro h
    cases hc : constVerb upper o with
    | none => rfl
    | some v => obtain ⟨s, e, hv, _⟩ := (constVerb_some upper).mp hc; exact absurd hv (h s e)

theorem names_iff (upper : Str → Str) : ∀ (l : List (Option Str)) (vs : List Str), Names upper l vs ↔ vs = caseVerbs upper l
  | [], vs => ⟨fun h => by cases h; rfl, fun h => h ▸ .nil⟩
  | o :: l, vs => by
    unfold caseVerbs
    rw [List.filterMap_cons]
    cases hc : constVerb upper o with
    | none =>
      have hn := (constVerb_none upper).mp hc
      constructor
      · intro h
        cases h with
        | verb hv _ => exact absurd hv (hn _ rfl)
        | skip _ h => exact (names_iff upper l vs).mp h
      · intro h; exact .skip hn ((names_iff upper l vs).mpr h)
    | some v =>
      obtain ⟨s, rfl, hv, rfl⟩ := (constVerb_some upper).mp hc
      constructor
      · intro h
        cases h with
        | verb _ h => rw [(names_iff upper l _).mp h]; rfl
        | skip hn _ => exact absurd hv (hn _ rfl)
      · rintro rfl; exact .verb hv ((names_iff upper l _).mpr rfl)

theorem chainArm_iff (upper : Str → Str) : ∀ (n : Node) (br : Branch), br ∈ chainArms upper n ↔ ChainArm upper n br
  | .sw .., br => ⟨fun h => by simp [chainArms] at h, fun h => by cases h⟩
  | .node .., br => ⟨fun h => by simp [chainArms] at h, fun h => by cases h⟩
  | .cond o a b body els, br => by
    rw [chainArms, List.mem_append]
    constructor
    · rintro (h | h)
      · cases hc : constVerb upper o with
        | none => rw [hc] at h; simp at h
        | some v =>
          rw [hc] at h
          obtain ⟨s, rfl, hv, rfl⟩ := (constVerb_some upper).mp hc
          rw [List.mem_singleton.mp h]
          exact .here hv
      · exact .next ((chainArm_iff upper els br).mp h)
    · intro h
      cases h with
      | here hv => left; rw [(constVerb_some upper).mpr ⟨_, rfl, hv, rfl⟩]; simp
      | next h => right; exact (chainArm_iff upper _ br).mpr h

theorem clauseBranch_iff (upper : Str → Str) (clauses : List (List (Option Str) × Int × Int × List Node)) (br : Branch) :
    br ∈ clauses.filterMap (clauseBranch upper) ↔ ∃ es a b body, (es, a, b, body) ∈ clauses ∧ ∃ vs, Names upper es vs ∧ vs ≠ [] ∧ br = ⟨vs, a, b⟩ := by
  rw [List.mem_filterMap]
  constructor
  · rintro ⟨⟨es, a, b, body⟩, hm, h⟩
    unfold clauseBranch at h
    split at h
    · cases h
    · next hn => cases h; exact ⟨es, a, b, body, hm, _, (names_iff upper es _).mpr rfl, hn, rfl⟩
  · rintro ⟨es, a, b, body, hm, vs, hvs, hne, rfl⟩
    refine ⟨_, hm, ?_⟩
    rw [(names_iff upper es vs).mp hvs] at hne
    unfold clauseBranch
    rw [if_neg hne, (names_iff upper es vs).mp hvs]

/-- Reaching below one part. -/
theorem _root_.Verif.MethodsSpec.Reached.head {upper : Str → Str} {root k n : Node} (hd : ¬ Dispatches upper root) (hp : Part root k) (h : Reached upper k n) :
    Reached upper root n := by
  induction h with
  | root => exact .part .root hd hp
  | part _ h1 h2 ih => exact .part ih h1 h2

theorem _root_.Verif.MethodsSpec.Reached.cases_head {upper : Str → Str} {root n : Node} (h : Reached upper root n) :
    n = root ∨ (¬ Dispatches upper root ∧ ∃ k, Part root k ∧ Reached upper k n) := by
  induction h with
  | root => exact .inl rfl
  | part _ h1 h2 ih =>
    rcases ih with rfl | ⟨hd, k, hk, hr⟩
    · exact .inr ⟨h1, _, h2, .root⟩
    · exact .inr ⟨hd, k, hk, .part hr h1 h2⟩

mutual
theorem detect_iff (upper : Str → Str) : ∀ (root : Node) (br : Branch),
    br ∈ detect upper root ↔ ∃ n, Reached upper root n ∧ Arm upper n br
  | .sw onMethod clauses, br => by
    rw [detect]
    cases onMethod with
    | true =>
      rw [if_pos rfl, clauseBranch_iff]
      constructor
      · rintro ⟨es, a, b, body, hm, vs, hvs, hne, rfl⟩; exact ⟨_, .root, .clause hm hvs hne⟩
      · rintro ⟨n, hr, ha⟩
        rcases hr.cases_head with rfl | ⟨hd, _⟩
        · cases ha with
          | clause hm hvs hne => exact ⟨_, _, _, _, hm, _, hvs, hne, rfl⟩
          | chain h => cases h
        · exact absurd rfl hd
    | false =>
      rw [if_neg (by simp), detectClauses_iff upper clauses br]
      have hd : ¬ Dispatches upper (.sw false clauses) := fun h => by cases h
      constructor
      · rintro ⟨c, hm, k, hk, n, hr, ha⟩
        obtain ⟨es, a, b, body⟩ := c
        exact ⟨n, hr.head hd (.clause hm hk), ha⟩
      · rintro ⟨n, hr, ha⟩
        rcases hr.cases_head with rfl | ⟨_, k, hk, hr⟩
        · cases ha with
          | chain h => cases h
        · cases hk with
          | clause hm hk => exact ⟨_, hm, k, hk, n, hr, ha⟩
  | .cond o a b body els, br => by
    rw [detect]
    split
    · next he =>
      have hnc : ∀ br, ¬ ChainArm upper (.cond o a b body els) br := fun br h => by
        rw [← chainArm_iff, he] at h; simp at h
      have hd : ¬ Dispatches upper (.cond o a b body els) := fun ⟨br, h⟩ => hnc br h
      rw [List.mem_append, detectAll_iff upper body br]
      constructor
      · rintro (⟨k, hk, n, hr, ha⟩ | h)
        · exact ⟨n, hr.head hd (.body hk), ha⟩
        · obtain ⟨n, hr, ha⟩ := (detect_iff upper els br).mp h; exact ⟨n, hr.head hd .els, ha⟩
      · rintro ⟨n, hr, ha⟩
        rcases hr.cases_head with rfl | ⟨_, k, hk, hr⟩
        · cases ha with
          | chain h => exact absurd h (hnc br)
        · cases hk with
          | body hk => exact .inl ⟨k, hk, n, hr, ha⟩
          | els => exact .inr ((detect_iff upper _ br).mpr ⟨n, hr, ha⟩)
    · next he =>
      obtain ⟨br0, hbr0⟩ := List.exists_mem_of_ne_nil _ he
      have hd : Dispatches upper (.cond o a b body els) := ⟨br0, (chainArm_iff upper _ _).mp hbr0⟩
      rw [chainArm_iff]
      constructor
      · intro h; exact ⟨_, .root, .chain h⟩
      · rintro ⟨n, hr, ha⟩
        rcases hr.cases_head with rfl | ⟨hn, _⟩
        · cases ha with
          | chain h => exact h
        · exact absurd hd hn
  | .node kids, br => by
    have hd : ¬ Dispatches upper (.node kids) := fun ⟨br, h⟩ => by cases h
    rw [detect, detectAll_iff upper kids br]
    constructor
    · rintro ⟨k, hk, n, hr, ha⟩; exact ⟨n, hr.head hd (.kid hk), ha⟩
    · rintro ⟨n, hr, ha⟩
      rcases hr.cases_head with rfl | ⟨_, k, hk, hr⟩
      · cases ha with
        | chain h => cases h
      · cases hk with
        | kid hk => exact ⟨k, hk, n, hr, ha⟩
theorem detectAll_iff (upper : Str → Str) : ∀ (ns : List Node) (br : Branch),
    br ∈ detectAll upper ns ↔ ∃ k ∈ ns, ∃ n, Reached upper k n ∧ Arm upper n br
  | [], br => by simp [detectAll]
  | n :: ns, br => by
    rw [detectAll, List.mem_append, detect_iff upper n br, detectAll_iff upper ns br]
    simp only [List.mem_cons, exists_eq_or_imp]
theorem detectClauses_iff (upper : Str → Str) : ∀ (cs : List (List (Option Str) × Int × Int × List Node)) (br : Branch),
    br ∈ detectClauses upper cs ↔ ∃ c ∈ cs, ∃ k ∈ c.2.2.2, ∃ n, Reached upper k n ∧ Arm upper n br
  | [], br => by simp [detectClauses]
  | (es, a, b, body) :: cs, br => by
    rw [detectClauses, List.mem_append, detectAll_iff upper body br, detectClauses_iff upper cs br]
    simp only [List.mem_cons, exists_eq_or_imp]
end

/-- **C31 (finding branches).** What is recorded for a handler is exactly the arms of its
dispatches on the request's method — switch clauses naming verbs and arms of if/else-if chains
comparing it — that are not inside another dispatch. -/
theorem C31_branches_exact (upper : Str → Str) (body : Node) (br : Branch) :
    br ∈ detect upper body ↔ ∃ n, Reached upper body n ∧ Arm upper n br := detect_iff upper body br

/-! ## C31: splitting -/

theorem mem_rangesOf (bs : List Branch) (m : Str) (a b : Int) :
    (a, b) ∈ rangesOf bs m ↔ ∃ br ∈ bs, m ∈ br.methods ∧ br.startLine = a ∧ br.endLine = b := by
  unfold rangesOf
  simp only [List.mem_flatMap, List.mem_map, List.mem_filter, decide_eq_true_eq]
  constructor
  · rintro ⟨br, hb, x, ⟨hx, rfl⟩, e⟩; cases e; exact ⟨br, hb, hx, rfl, rfl⟩
  · rintro ⟨br, hb, hm, rfl, rfl⟩; exact ⟨br, hb, m, ⟨hm, rfl⟩, rfl⟩

theorem belongsTo_iff (file : Str) (bs : List Branch) (m : Str) (s : Site) :
    belongsTo file (rangesOf bs m) s = true ↔ ¬ InHandlerFile file s ∨ BranchOf bs m s.line := by
  unfold belongsTo InHandlerFile BranchOf inRanges
  have hr : ((rangesOf bs m).any fun r => decide (r.1 ≤ s.line) && decide (s.line ≤ r.2)) = true ↔
      ∃ b ∈ bs, m ∈ b.methods ∧ b.startLine ≤ s.line ∧ s.line ≤ b.endLine := by
    rw [List.any_eq_true]
    constructor
    · rintro ⟨⟨a, b⟩, hm, h⟩
      obtain ⟨br, hb, hmm, rfl, rfl⟩ := (mem_rangesOf bs m a b).mp hm
      simp only [Bool.and_eq_true, decide_eq_true_eq] at h
      exact ⟨br, hb, hmm, h⟩
    · rintro ⟨br, hb, hmm, h⟩
      exact ⟨(br.startLine, br.endLine), (mem_rangesOf bs m _ _).mpr ⟨br, hb, hmm, rfl, rfl⟩, by simp [h]⟩
  by_cases hf : file ≠ [] ∧ 0 < s.line ∧ s.file = file
  · have h1 : (!(decide (file ≠ []) && decide (0 < s.line) && decide (s.file = file))) = false := by
      simp [hf.1, hf.2.1, hf.2.2]
    rw [h1, if_neg (by simp), hr]
    simp [hf]
  · have h1 : (!(decide (file ≠ []) && decide (0 < s.line) && decide (s.file = file))) = true := by
      rw [Bool.not_eq_true']
      rw [← Bool.not_eq_true]
      simp only [Bool.and_eq_true, decide_eq_true_eq]
      exact fun h => hf ⟨h.1.1, h.1.2, h.2⟩
    rw [h1, if_pos rfl]
    simp [hf]

/-- **C31 (never split).** A route whose method was stated at its registration passes through
unchanged, whatever its handler does; so does one whose handler records no branches. -/
theorem C31_explicit_not_split (lookup : Str → Str → Option (List Branch × Str)) (pre post : List Route) (r : Route)
    (h : r.explicit = true ∨ ∀ bs file, lookup r.pkg r.fn = some (bs, file) → bs = []) :
    splitAll lookup (pre ++ r :: post) = splitAll lookup pre ++ r :: splitAll lookup post := by
  have hd : (dispatchOf lookup r).1 = [] := by
    unfold dispatchOf
    split
    · rfl
    · split
      · rfl
      · next he =>
        rcases h with h | h
        · exact absurd h he
        · split
          · rfl
          · next bs file hl => rw [if_pos (h bs file hl)]
  unfold splitAll
  rw [List.flatMap_append, List.flatMap_cons, if_pos hd]
  rfl

/-- The routes a splittable route becomes. -/
theorem split_eq (lookup : Str → Str → Option (List Branch × Str)) (r : Route) (bs : List Branch) (file : Str)
    (hf : r.fn ≠ []) (he : r.explicit = false) (hl : lookup r.pkg r.fn = some (bs, file)) (hm : ∃ b ∈ bs, b.methods ≠ []) :
    splitAll lookup [r] = (mentions bs).map (routeFor r bs file) := by
  obtain ⟨b, hb, hbm⟩ := hm
  obtain ⟨m, hm⟩ := List.exists_mem_of_ne_nil _ hbm
  have hne : mentions bs ≠ [] := List.ne_nil_of_mem ((mem_mentions bs m).mpr ⟨b, hb, hm⟩)
  have hbs : bs ≠ [] := List.ne_nil_of_mem hb
  have hd : dispatchOf lookup r = (bs, file) := by
    unfold dispatchOf
    rw [if_neg hf, if_neg (by simp [he]), hl]
    simp only
    rw [if_neg hbs]
  unfold splitAll splitRoute
  rw [List.flatMap_cons, List.flatMap_nil, List.append_nil, hd, if_neg hbs, if_neg hne]

/-- **C31 (one operation per method).** A route that is split becomes exactly one route per
method its handler's branches name, in order of first mention; everything but method, id suffix,
request and responses is the registration's. -/
theorem C31_one_per_method (lookup : Str → Str → Option (List Branch × Str)) (r : Route) (bs : List Branch) (file : Str)
    (hf : r.fn ≠ []) (he : r.explicit = false) (hl : lookup r.pkg r.fn = some (bs, file)) (hm : ∃ b ∈ bs, b.methods ≠ []) :
    FirstMentions (bs.flatMap (·.methods)) ((splitAll lookup [r]).map (·.method)) ∧
    ∀ r' ∈ splitAll lookup [r], r'.suffix = r'.method ∧
      { r' with method := r.method, suffix := r.suffix, request := r.request, responses := r.responses } = r := by
  rw [split_eq lookup r bs file hf he hl hm]
  refine ⟨?_, ?_⟩
  · rw [List.map_map]
    have : ((·.method) ∘ routeFor r bs file) = id := by funext m; rfl
    rw [this, List.map_id]
    exact mentions_spec bs
  · intro r' hr'
    obtain ⟨m, _, rfl⟩ := List.mem_map.mp hr'
    exact ⟨rfl, rfl⟩

/-- **C31 (attribution), partial.** The operation for a method has exactly the registration's
responses written in that method's branches or in another file than the handler's (or at no known
place), and likewise the request.  Missing: what is written in the handler's file outside every
branch should go to every method, but goes to none — `C31_shared_response_lost`,
`C31_same_file_helper_lost`, `C31_fall_through_lost`. -/
theorem C31_attribution_partial (lookup : Str → Str → Option (List Branch × Str)) (r : Route) (bs : List Branch) (file : Str)
    (hf : r.fn ≠ []) (he : r.explicit = false) (hl : lookup r.pkg r.fn = some (bs, file)) (hm : ∃ b ∈ bs, b.methods ≠ []) :
    ∀ r' ∈ splitAll lookup [r],
      (∀ slot s, (slot, some s) ∈ r'.responses ↔
        (slot, some s) ∈ r.responses ∧ (¬ InHandlerFile file s ∨ BranchOf bs r'.method s.line)) ∧
      (∀ s, r'.request = some s ↔ r.request = some s ∧ (¬ InHandlerFile file s ∨ BranchOf bs r'.method s.line)) ∧
      r'.responses.Sublist r.responses := by
  rw [split_eq lookup r bs file hf he hl hm]
  intro r' hr'
  obtain ⟨m, _, rfl⟩ := List.mem_map.mp hr'
  refine ⟨fun slot s => ?_, fun s => ?_, List.filter_sublist⟩
  · simp only [routeFor, List.mem_filter]
    rw [belongsTo_iff]
  · simp only [routeFor]
    cases hr : r.request with
    | none => simp
    | some s' =>
      simp only
      split
      · next hb =>
        rw [belongsTo_iff] at hb
        constructor
        · intro e; cases e; exact ⟨rfl, hb⟩
        · rintro ⟨e, _⟩; exact e
      · next hb =>
        rw [belongsTo_iff] at hb
        constructor
        · intro e; cases e
        · rintro ⟨e, h⟩; cases e; exact absurd h hb

/-! ### Concrete cases and disagreements -/

def idUpper : Str → Str := id

/-- A handler with `switch r.Method` (lines 3-9: GET and HEAD on 4-5, POST on 6-7). -/
def swBody : Node :=
  .node [.sw true [([some "GET".toList, some "HEAD".toList], 4, 5, []), ([some "POST".toList], 6, 7, []), ([], 8, 9, [])]]

example : detect idUpper swBody = [⟨["GET".toList, "HEAD".toList], 4, 5⟩, ⟨["POST".toList], 6, 7⟩] := by decide

def tableOf (bs : List Branch) (file : Str) : Str → Str → Option (List Branch × Str) := fun _ _ => some (bs, file)

def route0 : Route :=
  { method := "POST".toList, explicit := false, path := "/items".toList, pkg := "api".toList, fn := "items".toList,
    responses := [("200".toList, some ⟨"h.go".toList, 4, 1⟩), ("201".toList, some ⟨"h.go".toList, 6, 2⟩),
      ("500".toList, some ⟨"other.go".toList, 4, 3⟩)] }

/-- The hypotheses are met, and the split is as expected. -/
example : (splitAll (tableOf (detect idUpper swBody) "h.go".toList) [route0]).map (fun r => (r.method, r.responses.map (·.1))) =
    [("GET".toList, ["200".toList, "500".toList]), ("HEAD".toList, ["200".toList, "500".toList]),
     ("POST".toList, ["201".toList, "500".toList])] := by decide

/-- What the property asks of a response written in the handler's file outside every branch. -/
def SharedKept (bs : List Branch) (file : Str) (r : Route) : Prop :=
  ∀ slot s, (slot, some s) ∈ r.responses → (∀ b ∈ bs, ¬ (b.startLine ≤ s.line ∧ s.line ≤ b.endLine)) →
    ∀ r' ∈ splitAll (tableOf bs file) [r], (slot, some s) ∈ r'.responses

/-- **C31, negation.** A response written in the handler before the switch (say, a failed
authentication on line 2) is in no operation. -/
theorem C31_shared_response_lost : ¬ ∀ bs file r, SharedKept bs file r := by
  intro h
  have := h (detect idUpper swBody) "h.go".toList
    { route0 with responses := [("401".toList, some ⟨"h.go".toList, 2, 9⟩)] } "401".toList ⟨"h.go".toList, 2, 9⟩ (by decide) (by decide)
  exact absurd (this _ (by decide : { route0 with method := "GET".toList, suffix := "GET".toList, responses := [] } ∈ _)) (by decide)

/-- **C31, negation.** A response written by a helper function is documented when the helper is
in another file and lost when it is in the same file as the handler. -/
theorem C31_same_file_helper_lost :
    ((splitAll (tableOf (detect idUpper swBody) "h.go".toList)
      [{ route0 with responses := [("200".toList, some ⟨"helpers.go".toList, 40, 9⟩)] }]).all fun r => !r.responses.isEmpty) = true ∧
    ((splitAll (tableOf (detect idUpper swBody) "h.go".toList)
      [{ route0 with responses := [("200".toList, some ⟨"h.go".toList, 40, 9⟩)] }]).all fun r => r.responses.isEmpty) = true := by decide

/-- **C31, negation.** `if r.Method == "POST" { … return }` followed by the code for every other
method: the document has only the POST operation, and the rest of the handler is lost. -/
theorem C31_fall_through_lost :
    (splitAll (tableOf (detect idUpper (.node [.cond (some "POST".toList) 2 4 [] (.node []), .node []])) "h.go".toList)
      [{ route0 with responses := [("201".toList, some ⟨"h.go".toList, 3, 1⟩), ("200".toList, some ⟨"h.go".toList, 6, 2⟩)] }]).map
        (fun r => (r.method, r.responses.map (·.1))) = [("POST".toList, ["201".toList])] := by decide

/-! ## C33: words of a name -/

section
variable (u : Uni)

/-- What holds of the word under construction. -/
structure Open (pre cur rest : Str) : Prop where
  letters : ∀ c ∈ cur, u.letter c = true
  inner : ∀ x a b y, cur = x ++ a :: b :: y → ¬ Boundary u a b (y ++ rest).head?
  left : ∀ x a b y, pre = x ++ [a] → cur = b :: y → u.letter a = true → Boundary u a b (y ++ rest).head?
  fresh : cur = [] → ∀ x a, pre = x ++ [a] → u.letter a = false

/-- The word cannot be continued into the rest. -/
def Closed (cur rest : Str) : Prop := ∀ x a b y, cur = x ++ [a] → rest = b :: y → u.letter b = true → Boundary u a b y.head?

variable {u}

theorem breaks_iff {cur : Str} {r : Char} {rest : Str} : breaks u cur r rest = true ↔ ∃ x a, cur = x ++ [a] ∧ Boundary u a r rest.head? := by
  unfold breaks
  cases h : cur.getLast? with
  | none =>
    rw [List.getLast?_eq_none_iff] at h
    subst h; simp
  | some a =>
    obtain ⟨x, rfl⟩ := List.getLast?_eq_some_iff.mp h
    simp only [Bool.and_eq_true, Bool.or_eq_true, Boundary]
    constructor
    · rintro ⟨h1, h2⟩
      refine ⟨x, a, rfl, h1, h2.imp id ?_⟩
      rintro ⟨h3, h4⟩
      cases rest with
      | nil => cases h4
      | cons n t => exact ⟨h3, n, rfl, h4⟩
    · rintro ⟨x', a', e, h1, h2⟩
      obtain ⟨rfl, e2⟩ := List.append_inj' e rfl
      cases e2
      refine ⟨h1, h2.imp id ?_⟩
      rintro ⟨h3, c, e, h4⟩
      cases rest with
      | nil => cases e
      | cons n t => cases e; exact ⟨h3, h4⟩

/-- A finished word is a word. -/
theorem Open.wordAt {pre cur rest : Str} (h : Open u pre cur rest) (hc : Closed u cur rest) (hne : cur ≠ []) : WordAt u pre cur rest :=
  ⟨hne, h.letters, h.inner, h.left, hc⟩

/-- Any other word from here on lies behind it. -/
theorem Open.only {pre cur rest : Str} (h : Open u pre cur rest) (hc : Closed u cur rest) {q w post : Str}
    (e : q ++ w ++ post = cur ++ rest) (hw : WordAt u (pre ++ q) w post) :
    (q = [] ∧ w = cur ∧ post = rest) ∨ ∃ q', q = cur ++ q' := by
  rw [List.append_assoc] at e
  rcases List.append_eq_append_iff.mp e with ⟨a, h1, h2⟩ | ⟨a, h1, h2⟩
  · -- `cur = q ++ a`, `w ++ post = a ++ rest`
    cases a with
    | nil => exact .inr ⟨[], by simpa using h1.symm⟩
    | cons a0 a =>
      left
      -- the word starts inside `cur`
      obtain ⟨w0, w', rfl⟩ : ∃ w0 w', w = w0 :: w' := by
        cases w with
        | nil => exact absurd rfl hw.nonempty
        | cons c w' => exact ⟨c, w', rfl⟩
      rw [List.cons_append, List.cons_append] at h2
      injection h2 with h2 h3
      subst h2
      have hq : q = [] := by
        rcases List.eq_nil_or_concat q with hq | ⟨q', z, hq⟩
        · exact hq
        · rw [List.concat_eq_append] at hq
          subst hq
          exfalso
          have hb := hw.left (pre ++ q') z w0 w' (by simp) rfl (h.letters z (by rw [h1]; simp))
          rw [h3] at hb
          exact h.inner q' z w0 a (by rw [h1]; simp) hb
      subst hq
      rw [List.nil_append] at h1
      rcases List.append_eq_append_iff.mp h3 with ⟨t, h4, h5⟩ | ⟨t, h4, h5⟩
      · -- `a = w' ++ t`, `post = t ++ rest`
        cases t with
        | nil => exact ⟨rfl, by rw [h1, h4]; simp, by simpa using h5⟩
        | cons b t =>
          exfalso
          obtain ⟨x, z, hx⟩ : ∃ x z, w0 :: w' = x ++ [z] := by
            rcases List.eq_nil_or_concat (w0 :: w') with h0 | ⟨x, z, h0⟩
            · cases h0
            · exact ⟨x, z, by rw [h0, List.concat_eq_append]⟩
          have hb := hw.right x z b (t ++ rest) hx (by rw [h5]; rfl) (h.letters b (by rw [h1, h4]; simp))
          refine h.inner x z b t ?_ hb
          rw [h1, h4, ← List.cons_append, hx]; simp
      · -- `w' = a ++ t`, `rest = t ++ post`
        cases t with
        | nil => exact ⟨rfl, by rw [h1, h4]; simp, by simpa using h5.symm⟩
        | cons b t =>
          exfalso
          obtain ⟨x, z, hx⟩ : ∃ x z, w0 :: a = x ++ [z] := by
            rcases List.eq_nil_or_concat (w0 :: a) with h0 | ⟨x, z, h0⟩
            · cases h0
            · exact ⟨x, z, by rw [h0, List.concat_eq_append]⟩
          have hb := hc x z b (t ++ post) (by rw [h1, hx]) (by rw [h5]; rfl) (hw.letters b (by rw [h4]; simp))
          refine hw.inner x z b t ?_ hb
          rw [h4, ← List.cons_append, hx]; simp
  · exact .inr ⟨a, h1⟩

/-- A word does not start at a non-letter. -/
theorem skip_nonletter {r : Char} {rest q w post pre : Str} (hr : u.letter r = false) (e : q ++ w ++ post = r :: rest)
    (hw : WordAt u pre w post) : ∃ q', q = r :: q' ∧ q' ++ w ++ post = rest := by
  cases q with
  | nil =>
    obtain ⟨w0, w', rfl⟩ : ∃ w0 w', w = w0 :: w' := by
      cases w with
      | nil => exact absurd rfl hw.nonempty
      | cons c w' => exact ⟨c, w', rfl⟩
    injection e with e1 e2
    have := hw.letters w0 (by simp)
    rw [e1, hr] at this; cases this
  | cons q0 q => injection e with e1 e2; exact ⟨q, by rw [e1], e2⟩

theorem Open.next_nonletter {pre cur rest : Str} {r : Char} (hr : u.letter r = false) : Open u (pre ++ cur ++ [r]) [] rest :=
  ⟨by simp, fun x a b y e => by simp at e, fun x a b y _ e => (by cases e), fun _ x a e => (by
    obtain ⟨_, e2⟩ := List.append_inj' e rfl
    cases e2; exact hr)⟩

theorem Open.next_break {pre cur rest : Str} {r : Char} (hr : u.letter r = true) (hb : breaks u cur r rest = true) :
    Open u (pre ++ cur) [r] rest := by
  obtain ⟨x, a, rfl, hB⟩ := breaks_iff.mp hb
  refine ⟨by simpa using hr, fun x' a' b' y' e => ?_, fun x' a' b' y' e1 e2 _ => ?_, fun e => by cases e⟩
  · have := congrArg List.length e; simp at this; omega
  · cases e2
    rw [← List.append_assoc] at e1
    obtain ⟨_, e3⟩ := List.append_inj' e1 rfl
    cases e3; exact hB

theorem Open.next_more {pre cur rest : Str} {r : Char} (h : Open u pre cur (r :: rest)) (hr : u.letter r = true) (hb : breaks u cur r rest = false) :
    Open u pre (cur ++ [r]) rest := by
  refine ⟨fun c hc => ?_, fun x a b y e => ?_, fun x a b y e1 e2 hl => ?_, fun e => by simp at e⟩
  · rcases List.mem_append.mp hc with hc | hc
    · exact h.letters c hc
    · rw [List.mem_singleton.mp hc]; exact hr
  · rcases List.eq_nil_or_concat y with rfl | ⟨y', z, rfl⟩
    · have e' : cur ++ [r] = (x ++ [a]) ++ [b] := by rw [e]; simp
      obtain ⟨e1, e2⟩ := List.append_inj' e' rfl
      cases e2
      intro hB
      rw [show breaks u cur r rest = true from breaks_iff.mpr ⟨x, a, e1, hB⟩] at hb; cases hb
    · rw [List.concat_eq_append] at e ⊢
      have e' : cur ++ [r] = (x ++ a :: b :: y') ++ [z] := by rw [e]; simp
      obtain ⟨e1, e2⟩ := List.append_inj' e' rfl
      cases e2
      have := h.inner x a b y' e1
      simpa using this
  · cases hcur : cur with
    | nil =>
      rw [h.fresh hcur x a e1] at hl; cases hl
    | cons c cs =>
      rw [hcur] at e2
      injection e2 with e2 e3
      subst e2
      have := h.left x a c cs e1 hcur hl
      rw [← e3]; simpa using this

theorem closed_nil {cur : Str} : Closed u cur [] := fun _ _ _ _ _ e _ => by cases e
theorem closed_nonletter {cur rest : Str} {r : Char} (hr : u.letter r = false) : Closed u cur (r :: rest) := fun x a b y _ e hb => by
  injection e with e1 _; rw [e1] at hr; rw [hr] at hb; cases hb
theorem closed_break {cur rest : Str} {r : Char} (hb : breaks u cur r rest = true) : Closed u cur (r :: rest) := fun x a b y e1 e2 _ => by
  injection e2 with e2 e3; subst e2; subst e3
  obtain ⟨x', a', rfl, h⟩ := breaks_iff.mp hb
  obtain ⟨_, e4⟩ := List.append_inj' e1 rfl
  cases e4; exact h

theorem mem_flush {cur w : Str} {ws : List Str} : w ∈ flush cur ws ↔ (cur ≠ [] ∧ w = cur) ∨ w ∈ ws := by
  unfold flush
  split
  · next h => simp [h]
  · next h => simp [h]

/-- Words found from a state are the words that start there. -/
theorem wordsGo_mem : ∀ (rest pre cur : Str), Open u pre cur rest → ∀ w,
    w ∈ wordsGo u cur rest ↔ ∃ q post, q ++ w ++ post = cur ++ rest ∧ WordAt u (pre ++ q) w post
  | [], pre, cur, h, w => by
    rw [wordsGo, mem_flush]
    constructor
    · rintro (⟨hne, rfl⟩ | h0)
      · exact ⟨[], [], by simp, by simpa using h.wordAt closed_nil hne⟩
      · simp at h0
    · rintro ⟨q, post, e, hw⟩
      rcases h.only closed_nil e hw with ⟨_, rfl, _⟩ | ⟨q', rfl⟩
      · exact .inl ⟨hw.nonempty, rfl⟩
      · exfalso
        have := congrArg List.length e
        simp only [List.length_append, List.append_nil] at this
        have h2 : w.length = 0 := by omega
        exact hw.nonempty (List.length_eq_zero_iff.mp h2)
  | r :: rest, pre, cur, h, w => by
    rw [wordsGo]
    split
    · next hr =>
      rw [mem_flush, wordsGo_mem rest (pre ++ cur ++ [r]) [] (Open.next_nonletter hr) w]
      constructor
      · rintro (⟨hne, rfl⟩ | ⟨q, post, e, hw⟩)
        · exact ⟨[], r :: rest, by simp, by simpa using h.wordAt (closed_nonletter hr) hne⟩
        · exact ⟨cur ++ r :: q, post, by rw [← List.nil_append rest, ← e]; simp, by simpa using hw⟩
      · rintro ⟨q, post, e, hw⟩
        rcases h.only (closed_nonletter hr) e hw with ⟨_, rfl, _⟩ | ⟨q', rfl⟩
        · exact .inl ⟨hw.nonempty, rfl⟩
        · right
          have e' : q' ++ w ++ post = r :: rest := by
            simp only [List.append_assoc] at e; simpa using List.append_cancel_left e
          obtain ⟨q'', rfl, e''⟩ := skip_nonletter hr e' hw
          exact ⟨q'', post, by simpa using e'', by simpa using hw⟩
    · next hr =>
      have hr' : u.letter r = true := by simpa using hr
      split
      · next hb =>
        rw [mem_flush, wordsGo_mem rest (pre ++ cur) [r] (Open.next_break hr' hb) w]
        have hne : cur ≠ [] := by obtain ⟨x, a, rfl, _⟩ := breaks_iff.mp hb; simp
        constructor
        · rintro (⟨_, rfl⟩ | ⟨q, post, e, hw⟩)
          · exact ⟨[], r :: rest, by simp, by simpa using h.wordAt (closed_break hb) hne⟩
          · exact ⟨cur ++ q, post, by simp only [List.append_assoc] at e ⊢; rw [e]; rfl, by simpa using hw⟩
        · rintro ⟨q, post, e, hw⟩
          rcases h.only (closed_break hb) e hw with ⟨_, rfl, _⟩ | ⟨q', rfl⟩
          · exact .inl ⟨hw.nonempty, rfl⟩
          · right
            have e' : q' ++ w ++ post = r :: rest := by
              simp only [List.append_assoc] at e; simpa using List.append_cancel_left e
            exact ⟨q', post, e', by simpa using hw⟩
      · next hb =>
        rw [wordsGo_mem rest pre (cur ++ [r]) (h.next_more hr' (by simpa using hb)) w]
        simp only [List.append_assoc, List.singleton_append]

/-- The first word found from a state. -/
theorem wordsGo_head : ∀ (rest pre cur : Str), Open u pre cur rest → ∀ w,
    (wordsGo u cur rest).head? = some w ↔
      ∃ q post, q ++ w ++ post = cur ++ rest ∧ WordAt u (pre ++ q) w post ∧ ∀ c ∈ q, u.letter c = false
  | [], pre, cur, h, w => by
    rw [wordsGo, flush]
    split
    · next hc =>
      subst hc
      constructor
      · intro e; cases e
      · rintro ⟨q, post, e, hw, _⟩
        simp at e
        exact absurd e.2.1 hw.nonempty
    · next hne =>
      constructor
      · intro e; cases e
        exact ⟨[], [], by simp, by simpa using h.wordAt closed_nil hne, by simp⟩
      · rintro ⟨q, post, e, hw, hq⟩
        rcases h.only closed_nil e hw with ⟨_, rfl, _⟩ | ⟨q', rfl⟩
        · rfl
        · obtain ⟨c, hc⟩ := List.exists_mem_of_ne_nil _ hne
          have := hq c (List.mem_append_left _ hc)
          rw [h.letters c hc] at this; cases this
  | r :: rest, pre, cur, h, w => by
    have done : ∀ {ws : List Str}, Closed u cur (r :: rest) → cur ≠ [] →
        ((flush cur ws).head? = some w ↔ ∃ q post, q ++ w ++ post = cur ++ r :: rest ∧ WordAt u (pre ++ q) w post ∧ ∀ c ∈ q, u.letter c = false) := by
      intro ws hcl hne
      rw [flush, if_neg hne]
      constructor
      · intro e; cases e
        exact ⟨[], r :: rest, by simp, by simpa using h.wordAt hcl hne, by simp⟩
      · rintro ⟨q, post, e, hw, hq⟩
        rcases h.only hcl e hw with ⟨_, rfl, _⟩ | ⟨q', rfl⟩
        · rfl
        · obtain ⟨c, hc⟩ := List.exists_mem_of_ne_nil _ hne
          have := hq c (List.mem_append_left _ hc)
          rw [h.letters c hc] at this; cases this
    rw [wordsGo]
    split
    · next hr =>
      by_cases hc : cur = []
      · subst hc
        rw [flush, if_pos rfl, wordsGo_head rest (pre ++ [] ++ [r]) [] (Open.next_nonletter hr) w]
        constructor
        · rintro ⟨q, post, e, hw, hq⟩
          refine ⟨r :: q, post, by rw [← List.nil_append rest, ← e]; simp, by simpa using hw, ?_⟩
          intro c hc
          rcases List.mem_cons.mp hc with rfl | hc
          · exact hr
          · exact hq c hc
        · rintro ⟨q, post, e, hw, hq⟩
          obtain ⟨q'', rfl, e''⟩ := skip_nonletter hr (by simpa using e) hw
          exact ⟨q'', post, by simpa using e'', by simpa using hw, fun c hc => hq c (List.mem_cons_of_mem _ hc)⟩
      · exact done (closed_nonletter hr) hc
    · next hr =>
      have hr' : u.letter r = true := by simpa using hr
      split
      · next hb =>
        have hne : cur ≠ [] := by obtain ⟨x, a, rfl, _⟩ := breaks_iff.mp hb; simp
        exact done (closed_break hb) hne
      · next hb =>
        rw [wordsGo_head rest pre (cur ++ [r]) (h.next_more hr' (by simpa using hb)) w]
        simp only [List.append_assoc, List.singleton_append]

theorem open_start (rest : Str) : Open u [] [] rest :=
  ⟨by simp, fun x a b y e => by simp at e, fun x a b y e => by simp at e, fun _ x a e => by simp at e⟩

end

/-- **C33 (words).** The words a name is split into are exactly the maximal runs of letters
without a camel-case boundary inside. -/
theorem C33_words (u : Uni) (name w : Str) :
    w ∈ splitNameWords u name ↔ ∃ pre post, name = pre ++ w ++ post ∧ WordAt u pre w post := by
  unfold splitNameWords
  rw [wordsGo_mem name [] [] (open_start name) w]
  simp only [List.nil_append]
  constructor <;> rintro ⟨q, post, e, hw⟩ <;> exact ⟨q, post, e.symm, hw⟩

/-- **C33 (leading word).** The first of them is the one with no letter before it. -/
theorem C33_leading_word (u : Uni) (name w : Str) :
    (splitNameWords u name).head? = some w ↔
      ∃ pre post, name = pre ++ w ++ post ∧ WordAt u pre w post ∧ ∀ c ∈ pre, u.letter c = false := by
  unfold splitNameWords
  rw [wordsGo_head name [] [] (open_start name) w]
  simp only [List.nil_append]
  constructor <;> rintro ⟨q, post, e, hw⟩ <;> exact ⟨q, post, e.symm, hw⟩

end Verif.MethodsModel
