import Verif.SecurityProps
/-! # Requirement deduplication, scheme definitions and presets (C15-C18) -/

namespace Verif.Security
open Verif.Common

/-! ## C15, the other direction -/

theorem mergeReqs_mem (l : List SecReq) : ∀ (acc : SecReq) (k : String) (v : List String),
    mget (mergeReqs acc l) k = some v → mget acc k = some v ∨ ∃ o ∈ l, (k, v) ∈ o := by
  have inner : ∀ (o : SecReq) (acc : SecReq) (k : String) (v : List String),
      mget (o.foldl (fun acc kv => mset acc kv.1 kv.2) acc) k = some v → mget acc k = some v ∨ (k, v) ∈ o := by
    intro o
    induction o with
    | nil => intro acc k v h; exact .inl h
    | cons x o ih =>
      intro acc k v h
      rw [List.foldl_cons] at h
      rcases ih _ _ _ h with h | h
      · by_cases hk : k = x.1
        · rw [hk, mget_mset_self] at h
          right; rw [hk, ← Option.some.inj h]; simp
        · rw [mget_mset_ne _ _ hk] at h; exact .inl h
      · exact .inr (List.mem_cons_of_mem _ h)
  induction l with
  | nil => intro acc k v h; exact .inl h
  | cons o l ih =>
    intro acc k v h
    have h : mget (mergeReqs (o.foldl (fun acc kv => mset acc kv.1 kv.2) acc) l) k = some v := h
    rcases ih _ _ _ h with h | ⟨o', ho', h⟩
    · rcases inner _ _ _ _ h with h | h
      · exact .inl h
      · exact .inr ⟨o, by simp, h⟩
    · exact .inr ⟨o', by simp [ho'], h⟩

/-- **C15, nothing extra.** No requirement entry demands a scheme or scopes that no mapping
in force for one of the middleware names. -/
theorem C15_nothing_extra (rx : String → String → Bool) (refs : List Ref) (ms : List Mapping)
    (q : SecReq) (hq : q ∈ (resolveSecurity rx refs ms).1) (k : String) (v : List String) (hk : mget q k = some v) :
    ∃ r ∈ refs, ∃ m, Active rx ms r m ∧
      ((∃ o ∈ m.schemes, (k, v) ∈ o) ∨ ∃ g ∈ m.anyOf, ∃ o ∈ g, (k, v) ∈ o) := by
  rw [resolve_reqs] at hq
  have hq := (dedupBy_sublist _ _).subset hq
  rcases List.mem_append.1 hq with hq | hq
  · split at hq
    · simp at hq
    · rw [List.mem_singleton.1 hq] at hk
      rcases mergeReqs_mem _ _ _ _ hk with h | ⟨o, ho, h⟩
      · simp at h
      · obtain ⟨m, hm, ho⟩ := List.mem_flatMap.1 ho
        obtain ⟨r, hr, ha⟩ := (mem_acting _ _ _ _).1 hm
        exact ⟨r, hr, m, ha, .inl ⟨o, ho, h⟩⟩
  · obtain ⟨m, hm, hq⟩ := List.mem_flatMap.1 hq
    obtain ⟨r, hr, ha⟩ := (mem_acting _ _ _ _).1 hm
    obtain ⟨hq, _⟩ := List.mem_filter.1 hq
    obtain ⟨g, hg, rfl⟩ := List.mem_map.1 hq
    rcases mergeReqs_mem _ _ _ _ hk with h | ⟨o, ho, h⟩
    · simp at h
    · exact ⟨r, hr, m, ha, .inr ⟨g, hg, o, ho, h⟩⟩

/-- **C15, alternatives.** Each alternative of a mapping in force is offered as an entry that
demands every scheme of that alternative (scope lists that agree). -/
theorem C15_alternative_offered (rx : String → String → Bool) (refs : List Ref) (ms : List Mapping)
    (r : Ref) (hr : r ∈ refs) (m : Mapping) (hm : Active rx ms r m) (g : List SecReq) (hg : g ∈ m.anyOf) (hne : ∃ o ∈ g, o ≠ []) :
    ∃ q ∈ (resolveSecurity rx refs ms).1, reqKey q = reqKey (mergeReqs [] g) := by
  rw [resolve_reqs]
  have hin : mergeReqs [] g ∈ ((if (mergeReqs [] ((acting rx refs ms).flatMap Mapping.schemes)).isEmpty then [] else
          [mergeReqs [] ((acting rx refs ms).flatMap Mapping.schemes)]) ++
        ((acting rx refs ms).flatMap fun m => (m.anyOf.map (mergeReqs [])).filter fun alt => !alt.isEmpty)) := by
    apply List.mem_append_right
    refine List.mem_flatMap.2 ⟨m, (mem_acting _ _ _ _).2 ⟨r, hr, hm⟩, List.mem_filter.2 ⟨List.mem_map.2 ⟨g, hg, rfl⟩, ?_⟩⟩
    rw [isEmpty_false_iff, mergeReqs_ne_nil]
    exact .inr hne
  have := (mem_map_dedupBy reqKey _ (reqKey (mergeReqs [] g))).2 (List.mem_map.2 ⟨_, hin, rfl⟩)
  obtain ⟨q, hq, he⟩ := List.mem_map.1 this
  exact ⟨q, hq, he⟩

/-! ## C16: the dedup key tells requirement objects apart -/

theorem split_at_char {c : Char} : ∀ (a b x y : List Char), c ∉ a → c ∉ b → a ++ c :: x = b ++ c :: y → a = b ∧ x = y
  | [], [], x, y, _, _, h => ⟨rfl, (List.cons.inj h).2⟩
  | [], b :: bs, x, y, _, hb, h => by
    have := (List.cons.inj h).1
    exact absurd (this ▸ List.mem_cons_self) hb
  | a :: as, [], x, y, ha, _, h => by
    have := (List.cons.inj h).1
    exact absurd (this ▸ List.mem_cons_self) ha
  | a :: as, b :: bs, x, y, ha, hb, h => by
    obtain ⟨h1, h2⟩ := List.cons.inj h
    obtain ⟨h3, h4⟩ := split_at_char as bs x y (fun m => ha (List.mem_cons_of_mem _ m)) (fun m => hb (List.mem_cons_of_mem _ m)) h2
    exact ⟨by rw [h1, h3], h4⟩

/-- Scopes joined with commas, as characters. -/
def joinComma : List (List Char) → List Char
  | [] => []
  | [s] => s
  | s :: t :: l => s ++ ',' :: joinComma (t :: l)

theorem intercalate_toList (l : List String) : (String.intercalate "," l).toList = joinComma (l.map String.toList) := by
  rw [String.toList_intercalate]
  have : ∀ l : List (List Char), [','].intercalate l = joinComma l := by
    intro l
    induction l with
    | nil => rfl
    | cons s l ih =>
      cases l with
      | nil => simp [List.intercalate, joinComma]
      | cons t l => rw [joinComma, ← ih]; simp [List.intercalate, List.intersperse]
  exact this _

theorem joinComma_inj : ∀ (a b : List (List Char)), (∀ s ∈ a, s ≠ [] ∧ ',' ∉ s) → (∀ s ∈ b, s ≠ [] ∧ ',' ∉ s) →
    joinComma a = joinComma b → a = b
  | [], [], _, _, _ => rfl
  | [], [s], _, hb, h => absurd h.symm (hb s (by simp)).1
  | [], s :: t :: l, _, hb, h => by simp [joinComma] at h
  | [s], [], ha, _, h => absurd h (ha s (by simp)).1
  | s :: t :: l, [], _, _, h => by simp [joinComma] at h
  | [s], [t], _, _, h => by simp only [joinComma] at h; rw [h]
  | [s], t :: u :: l, ha, _, h => by
    simp only [joinComma] at h
    exact absurd (h ▸ by simp) (ha s (by simp)).2
  | s :: t :: l, [u], _, hb, h => by
    simp only [joinComma] at h
    exact absurd (h ▸ by simp) (hb u (by simp)).2
  | s :: t :: l, u :: w :: l', ha, hb, h => by
    simp only [joinComma] at h
    obtain ⟨h1, h2⟩ := split_at_char _ _ _ _ (ha s (by simp)).2 (hb u (by simp)).2 h
    rw [h1, joinComma_inj (t :: l) (w :: l') (fun x hx => ha x (List.mem_cons_of_mem _ hx)) (fun x hx => hb x (List.mem_cons_of_mem _ hx)) h2]

theorem joinComma_no_semi : ∀ (a : List (List Char)), (∀ s ∈ a, ';' ∉ s) → ';' ∉ joinComma a
  | [], _ => by simp [joinComma]
  | [s], h => h s (by simp)
  | s :: t :: l, h => by
    simp only [joinComma, List.mem_append, List.mem_cons, not_or]
    exact ⟨h s (by simp), by decide, joinComma_no_semi (t :: l) fun x hx => h x (List.mem_cons_of_mem _ hx)⟩

/-- One `name=scopes;` piece of the key. -/
def piece (e : String × List String) : List Char := e.1.toList ++ '=' :: (joinComma (e.2.map String.toList) ++ [';'])

theorem pieces_inj : ∀ (a b : List (String × List String)),
    (∀ e ∈ a, '=' ∉ e.1.toList ∧ ∀ s ∈ e.2, s ≠ "" ∧ ',' ∉ s.toList ∧ ';' ∉ s.toList) →
    (∀ e ∈ b, '=' ∉ e.1.toList ∧ ∀ s ∈ e.2, s ≠ "" ∧ ',' ∉ s.toList ∧ ';' ∉ s.toList) →
    a.flatMap piece = b.flatMap piece → a = b
  | [], [], _, _, _ => rfl
  | [], e :: b, _, _, h => by simp [piece] at h
  | e :: a, [], _, _, h => by simp [piece] at h
  | (n, v) :: a, (n', v') :: b, ha, hb, h => by
    have hv := ha (n, v) (by simp)
    have hv' := hb (n', v') (by simp)
    simp only [List.flatMap_cons, piece, List.append_assoc, List.cons_append, List.nil_append] at h
    obtain ⟨h1, h2⟩ := split_at_char _ _ _ _ hv.1 hv'.1 h
    have clean : ∀ (w : List String), (∀ s ∈ w, s ≠ "" ∧ ',' ∉ s.toList ∧ ';' ∉ s.toList) →
        (∀ s ∈ w.map String.toList, s ≠ [] ∧ ',' ∉ s) ∧ ∀ s ∈ w.map String.toList, ';' ∉ s := by
      intro w hw
      constructor
      · intro s hs
        obtain ⟨t, ht, rfl⟩ := List.mem_map.1 hs
        refine ⟨fun e => (hw t ht).1 ?_, (hw t ht).2.1⟩
        exact String.toList_inj.1 e
      · intro s hs
        obtain ⟨t, ht, rfl⟩ := List.mem_map.1 hs
        exact (hw t ht).2.2
    obtain ⟨h3, h4⟩ := split_at_char _ _ _ _ (joinComma_no_semi _ (clean v hv.2).2) (joinComma_no_semi _ (clean v' hv'.2).2) h2
    have h5 := joinComma_inj _ _ (clean v hv.2).1 (clean v' hv'.2).1 h3
    have h6 : v = v' := by
      have := congrArg (List.map String.ofList) h5
      simpa [List.map_map, Function.comp_def] using this
    have h7 : n = n' := String.toList_inj.1 h1
    rw [h7, h6, pieces_inj a b (fun e he => ha e (List.mem_cons_of_mem _ he)) (fun e he => hb e (List.mem_cons_of_mem _ he)) h4]

/-- The entries of a requirement in name order. -/
def entries (r : SecReq) : List (String × List String) := (sortStrings (r.map Prod.fst)).map fun n => (n, (mget r n).getD [])

theorem reqKey_toList (r : SecReq) : (reqKey r).toList = (entries r).flatMap piece := by
  unfold reqKey entries
  rw [String.toList_join, List.flatMap_map, List.flatMap_map]
  congr 1
  funext n
  simp only [String.toList_append, piece, intercalate_toList, List.append_assoc]
  rfl

theorem entries_mem (r : SecReq) (e : String × List String) (he : e ∈ entries r) : mget r e.1 = some e.2 := by
  obtain ⟨n, hn, rfl⟩ := List.mem_map.1 he
  have := (mget_isSome_iff r n).2 ((mem_sortStrings _ _).1 hn)
  show mget r n = some ((mget r n).getD [])
  cases h : mget r n with
  | none => rw [h] at this; simp at this
  | some v => rfl

theorem entries_of_get (r : SecReq) (k : String) (v : List String) (h : mget r k = some v) : (k, v) ∈ entries r := by
  refine List.mem_map.2 ⟨k, (mem_sortStrings _ _).2 ?_, by simp [h]⟩
  rw [← mget_isSome_iff, h]; rfl

/-- **C16.** For requirement objects whose scheme names and scopes contain none of the
separator characters (and no empty scope), the key is the same exactly when the objects
demand the same schemes with the same scopes. -/
theorem C16_key_faithful (a b : SecReq) (ha : (a.map Prod.fst).Nodup) (hb : (b.map Prod.fst).Nodup)
    (hca : CleanReq a) (hcb : CleanReq b) : reqKey a = reqKey b ↔ SameReq a b := by
  constructor
  · intro h
    have h := congrArg String.toList h
    rw [reqKey_toList, reqKey_toList] at h
    have clean : ∀ r : SecReq, CleanReq r → ∀ e ∈ entries r, '=' ∉ e.1.toList ∧ ∀ s ∈ e.2, s ≠ "" ∧ ',' ∉ s.toList ∧ ';' ∉ s.toList := by
      intro r hr e he
      have := hr e.1 e.2 (mem_of_mget (entries_mem r e he))
      exact ⟨this.1.1, this.2⟩
    have he := pieces_inj _ _ (clean a hca) (clean b hcb) h
    intro k
    cases hk : mget a k with
    | some v =>
      have := entries_of_get a k v hk
      rw [he] at this
      exact (entries_mem b _ this).symm
    | none =>
      cases hk' : mget b k with
      | none => rfl
      | some v =>
        have := entries_of_get b k v hk'
        rw [← he] at this
        have := entries_mem a _ this
        rw [hk] at this; cases this
  · intro h
    unfold reqKey
    have hp : (a.map Prod.fst).Perm (b.map Prod.fst) := by
      rw [List.perm_ext_iff_of_nodup ha hb]
      intro k
      rw [← mget_isSome_iff, ← mget_isSome_iff, h k]
    rw [sortStrings_eq_of_perm hp]
    congr 1
    apply List.map_congr_left
    intro n _
    rw [h n]

/-- **C16, deduplication.** No two emitted requirements are the same, none is lost, the
order is kept and of equal ones the first stays. -/
theorem C16_dedup (l : List SecReq) (hmap : ∀ q ∈ l, (q.map Prod.fst).Nodup) (hc : ∀ q ∈ l, CleanReq q) :
    (dedupReqs l).Sublist l ∧
    (dedupReqs l).Pairwise (fun a b => ¬ SameReq a b) ∧
    (∀ q ∈ l, ∃ q' ∈ dedupReqs l, SameReq q' q) ∧
    (∀ a q b, l = a ++ q :: b → (∀ p ∈ a, ¬ SameReq p q) → q ∈ dedupReqs l) := by
  have hsub : (dedupReqs l).Sublist l := dedupBy_sublist _ _
  have key : ∀ a ∈ l, ∀ b ∈ l, reqKey a = reqKey b ↔ SameReq a b :=
    fun a ha b hb => C16_key_faithful a b (hmap a ha) (hmap b hb) (hc a ha) (hc b hb)
  refine ⟨hsub, ?_, ?_, ?_⟩
  · have := dedupBy_nodup reqKey l
    rw [List.nodup_iff_pairwise_ne, List.pairwise_map] at this
    refine this.imp_of_mem ?_
    intro a b ha hb hne hs
    exact hne ((key a (hsub.subset ha) b (hsub.subset hb)).2 hs)
  · intro q hq
    obtain ⟨q', hq', he⟩ := List.mem_map.1 ((mem_map_dedupBy reqKey l (reqKey q)).2 (List.mem_map.2 ⟨q, hq, rfl⟩))
    exact ⟨q', hq', (key _ (hsub.subset hq') _ hq).1 he⟩
  · intro a q b hl hfirst
    have hq : q ∈ l := by rw [hl]; simp
    have hnot : reqKey q ∉ a.map reqKey := by
      intro hm
      obtain ⟨p, hp, he⟩ := List.mem_map.1 hm
      exact hfirst p hp ((key p (by rw [hl]; simp [hp]) q hq).1 he)
    unfold dedupReqs dedupBy
    rw [hl, dedupGo_append, dedupGo, if_neg]
    · simp
    · intro hm
      rw [List.nil_append] at hm
      obtain ⟨p, hp, he⟩ := List.mem_map.1 hm
      exact hnot (List.mem_map.2 ⟨p, (dedupGo_sublist _ _ _).subset hp, he⟩)

/-- **C16 fails for scopes with commas**: two different requirements share a key and the
second is dropped (security.go:384). -/
theorem C16_comma_confused :
    dedupReqs [[("oauth", ["a,b"])], [("oauth", ["a", "b"])]] = [[("oauth", ["a,b"])]] ∧
    ¬ SameReq [("oauth", ["a,b"])] [("oauth", ["a", "b"])] := by
  refine ⟨by decide, fun h => ?_⟩
  have := h "oauth"
  revert this
  decide

example : CleanReq [("oauth", ["read", "write"]), ("key", [])] := by
  intro k v h
  simp only [List.mem_cons, Prod.mk.injEq, List.not_mem_nil, or_false] at h
  rcases h with ⟨rfl, rfl⟩ | ⟨rfl, rfl⟩ <;> decide

example : dedupReqs [[("a", []), ("b", ["x"])], [("c", [])], [("b", ["x"]), ("a", [])]] = [[("a", []), ("b", ["x"])], [("c", [])]] := by decide

/-! ## C17 -/

/-- A scheme name is used: by the global security or by some operation. -/
def Uses (global : List SecReq) (routes : List (Option (List SecReq))) (n : String) : Prop :=
  (∃ q ∈ global, ∃ v, (n, v) ∈ q) ∨ ∃ qs, some qs ∈ routes ∧ ∃ q ∈ qs, ∃ v, (n, v) ∈ q

theorem mem_referenced (global : List SecReq) (routes : List (Option (List SecReq))) (n : String) :
    n ∈ referenced global routes ↔ Uses global routes n := by
  unfold referenced Uses
  rw [mem_dedup, List.mem_flatMap]
  constructor
  · rintro ⟨q, hq, hn⟩
    obtain ⟨⟨n', v⟩, hv, rfl⟩ := List.mem_map.1 hn
    rcases List.mem_append.1 hq with hq | hq
    · exact .inl ⟨q, hq, v, hv⟩
    · obtain ⟨o, ho, hq⟩ := List.mem_flatMap.1 hq
      cases o with
      | none => simp at hq
      | some qs => exact .inr ⟨qs, ho, q, hq, v, hv⟩
  · rintro (⟨q, hq, v, hv⟩ | ⟨qs, ho, q, hq, v, hv⟩)
    · exact ⟨q, List.mem_append_left _ hq, List.mem_map.2 ⟨_, hv, rfl⟩⟩
    · exact ⟨q, List.mem_append_right _ (List.mem_flatMap.2 ⟨_, ho, hq⟩), List.mem_map.2 ⟨_, hv, rfl⟩⟩

theorem reconcile_get {σ} (preset : List (String × σ)) (refs : List String) : ∀ (out : List (String × σ)) (n : String),
    mget (refs.foldl (defineStep preset) out) n =
    (mget out n).or (if n ∈ refs then mget preset n else none) := by
  induction refs with
  | nil => intro out n; simp
  | cons x refs ih =>
    intro out n
    rw [List.foldl_cons, ih]
    unfold defineStep
    cases hx : mget out x with
    | some d =>
      simp only
      by_cases hn : n = x
      · subst hn; simp [hx]
      · simp [hn]
    | none =>
      cases hp : mget preset x with
      | none =>
        simp only
        by_cases hn : n = x
        · subst hn; simp [hx, hp]
        · simp [hn]
      | some d =>
        simp only
        by_cases hn : n = x
        · subst hn; simp [hx, hp]
        · rw [mget_mset_ne _ _ hn]; simp [hn]

/-- **C17, what holds.** The document defines a scheme exactly as the user did if the user
did, and otherwise as the preset does when the scheme is used somewhere; nothing else is
defined. So every used scheme known to user or presets is defined, the user's definitions
are untouched, and unused presets stay out. The names logged as undefined are exactly the
used ones that neither defines, in order. (Missing: those remain undefined in the document.) -/
theorem C17_definitions_partial {σ} (user preset : List (String × σ)) (global : List SecReq) (routes : List (Option (List SecReq))) :
    (∀ n d, mget user n = some d → mget (reconcile user preset global routes).1 n = some d) ∧
    (∀ n, Uses global routes n → mget user n = none → mget (reconcile user preset global routes).1 n = mget preset n) ∧
    (∀ n, ¬ Uses global routes n → mget user n = none → mget (reconcile user preset global routes).1 n = none) ∧
    (∀ n, n ∈ (reconcile user preset global routes).2 ↔ Uses global routes n ∧ mget user n = none ∧ mget preset n = none) ∧
    (reconcile user preset global routes).2.Pairwise (· ≤ ·) ∧ (reconcile user preset global routes).2.Nodup := by
  unfold reconcile
  dsimp only
  refine ⟨?_, ?_, ?_, ?_, sortStrings_sorted _, ?_⟩
  · intro n d h; rw [reconcile_get, h]; rfl
  · intro n hu h; rw [reconcile_get, h, if_pos ((mem_referenced _ _ _).2 hu)]; rfl
  · intro n hu h; rw [reconcile_get, h, if_neg (fun hm => hu ((mem_referenced _ _ _).1 hm))]; rfl
  · intro n
    rw [mem_sortStrings, List.mem_filter, mem_referenced]
    simp only [Bool.and_eq_true, Option.isNone_iff_eq_none]
  · have : ((referenced global routes).filter fun n => (mget user n).isNone && (mget preset n).isNone).Nodup :=
      (dedup_nodup _).sublist List.filter_sublist
    exact (isort_perm _ _).nodup_iff.2 this

/-- **C17 fails for names nobody defines**: an operation requires a scheme the document does
not define; only a log line tells (mapper.go:367-376). -/
theorem C17_dangling_emitted :
    let user := [("jwt", 1)]
    let routes := [some [[("jwt", [])], [("apiKey", ([] : List String))]]]
    Uses [] routes "apiKey" ∧ mget (reconcile user [("unused", 2)] [] routes).1 "apiKey" = none ∧
    (reconcile user [("unused", 2)] [] routes).1 = [("jwt", 1)] := by
  refine ⟨.inr ⟨_, List.mem_singleton.2 rfl, [("apiKey", [])], by simp, [], by simp⟩, by decide, by decide⟩

example : (reconcile [("jwt", 1)] [("jwt", 2), ("basic", 3), ("unused", 4)] [[("basic", ([] : List String))]] [none, some [[("jwt", [])]]]).1 =
    [("jwt", 1), ("basic", 3)] := by decide

/-- **C17/C47**: the definitions do not depend on the order routes or requirement entries are
visited in. -/
theorem C47_schemes_order_independent {σ} (user preset : List (String × σ)) (g g' : List SecReq) (rs rs' : List (Option (List SecReq)))
    (h : ∀ n, Uses g rs n ↔ Uses g' rs' n) :
    (∀ n, mget (reconcile user preset g rs).1 n = mget (reconcile user preset g' rs').1 n) ∧
    (reconcile user preset g rs).2 = (reconcile user preset g' rs').2 := by
  unfold reconcile
  dsimp only
  constructor
  · intro n
    rw [reconcile_get, reconcile_get]
    have : (n ∈ referenced g rs) ↔ n ∈ referenced g' rs' := by rw [mem_referenced, mem_referenced, h]
    by_cases hm : n ∈ referenced g rs
    · rw [if_pos hm, if_pos (this.1 hm)]
    · rw [if_neg hm, if_neg (fun x => hm (this.2 x))]
  · apply sortStrings_eq_of_perm
    have nd : ∀ (g : List SecReq) (rs : List (Option (List SecReq))),
        ((referenced g rs).filter fun n => (mget user n).isNone && (mget preset n).isNone).Nodup :=
      fun g rs => (dedup_nodup _).sublist List.filter_sublist
    rw [List.perm_ext_iff_of_nodup (nd _ _) (nd _ _)]
    intro n
    rw [List.mem_filter, List.mem_filter, mem_referenced, mem_referenced, h]

/-! ## C18 -/

/-- A bundle is called for: some import of the program matches one of its patterns. -/
def CalledFor {σ} (rx : String → String → Bool) (imports : List String) (b : Bundle σ) : Prop :=
  ∃ e ∈ b.imports, ∃ i ∈ imports, rx e i = true

theorem anyImport_iff {σ} (rx : String → String → Bool) (imports : List String) (b : Bundle σ) :
    anyImport rx imports b.imports = true ↔ CalledFor rx imports b := by
  unfold anyImport CalledFor
  simp only [List.any_eq_true]

theorem addBundle_fold {σ} (bs : List (Bundle σ)) : ∀ c : SecCfg σ,
    (bs.foldl addBundle c).mappings = c.mappings ++ bs.flatMap Bundle.mappings ∧
    (bs.foldl addBundle c).userSchemes = c.userSchemes ∧
    (bs.foldl addBundle c).applied = c.applied ∧
    ∀ n, mget (bs.foldl addBundle c).presetSchemes n = (mget c.presetSchemes n).or (mget (bs.flatMap Bundle.schemes) n) := by
  have inner : ∀ (l : List (String × σ)) (acc : List (String × σ)) (n : String),
      mget (l.foldl keepFirst acc) n =
        (mget acc n).or (mget l n) := by
    intro l
    induction l with
    | nil => intro acc n; simp
    | cons x l ih =>
      intro acc n
      rw [List.foldl_cons, ih]
      obtain ⟨k, v⟩ := x
      rw [mget_cons]
      unfold keepFirst
      cases hk : mget acc k with
      | some d =>
        simp only
        by_cases hn : k = n
        · subst hn; simp [hk]
        · simp [hn]
      | none =>
        simp only
        by_cases hn : k = n
        · subst hn; simp [hk]
        · rw [mget_mset_ne _ _ (Ne.symm hn)]; simp [hn]
  have happ : ∀ (a b : List (String × σ)) (n : String), mget (a ++ b) n = (mget a n).or (mget b n) := by
    intro a b n
    induction a with
    | nil => simp
    | cons x a ih =>
      obtain ⟨k, v⟩ := x
      rw [List.cons_append, mget_cons, mget_cons, ih]
      split <;> simp
  induction bs with
  | nil => intro c; simp
  | cons b bs ih =>
    intro c
    obtain ⟨h1, h2, h3, h4⟩ := ih (addBundle c b)
    rw [List.foldl_cons]
    refine ⟨?_, h2, h3, ?_⟩
    · rw [h1]; simp [addBundle, List.append_assoc]
    · intro n
      rw [h4, List.flatMap_cons, happ]
      show ((mget ((b.schemes.foldl _ c.presetSchemes)) n)).or _ = _
      rw [inner, Option.or_assoc]

/-- **C18, what is added.** On the first application to a program with imports, the user's
mappings stay in front, followed by exactly the mappings of the bundles called for, in
order; the user's schemes are untouched; a preset scheme keeps its first definition. -/
theorem C18_adds_called_for {σ} (rx : String → String → Bool) (bundles : List (Bundle σ)) (imports : List String) (c : SecCfg σ)
    (h0 : c.applied = false) (hi : imports ≠ []) :
    ∃ on : List (Bundle σ), on.Sublist bundles ∧ (∀ b ∈ bundles, b ∈ on ↔ CalledFor rx imports b) ∧
      (∀ b ∈ on, CalledFor rx imports b) ∧
      (applyPresets rx bundles imports c).mappings = c.mappings ++ on.flatMap Bundle.mappings ∧
      (applyPresets rx bundles imports c).userSchemes = c.userSchemes ∧
      (∀ n d, mget c.presetSchemes n = some d → mget (applyPresets rx bundles imports c).presetSchemes n = some d) ∧
      (∀ n, mget c.presetSchemes n = none →
        mget (applyPresets rx bundles imports c).presetSchemes n = mget (on.flatMap Bundle.schemes) n) ∧
      (applyPresets rx bundles imports c).applied = true := by
  obtain ⟨h1, h2, _, h4⟩ := addBundle_fold (bundles.filter fun b => anyImport rx imports b.imports) c
  refine ⟨bundles.filter fun b => anyImport rx imports b.imports, List.filter_sublist, ?_, ?_, ?_⟩
  · intro b hb
    rw [List.mem_filter, anyImport_iff]
    exact ⟨fun h => h.2, fun h => ⟨hb, h⟩⟩
  · intro b hb
    exact (anyImport_iff _ _ _).1 (List.mem_filter.1 hb).2
  · unfold applyPresets
    rw [h0, if_neg (by simp), if_neg hi]
    refine ⟨h1, h2, ?_, ?_, rfl⟩
    · intro n d h; exact (h4 n).trans (by rw [h]; rfl)
    · intro n h; exact (h4 n).trans (by rw [h]; rfl)

/-- **C18, repetition.** Applying presets again - to the same or another program - changes
nothing once they have been applied; a program without imports leaves the configuration
alone and does not count as an application. -/
theorem C18_once {σ} (rx : String → String → Bool) (bundles : List (Bundle σ)) (imports later : List String) (c : SecCfg σ) :
    (imports ≠ [] → applyPresets rx bundles later (applyPresets rx bundles imports c) = applyPresets rx bundles imports c) ∧
    applyPresets rx bundles [] c = c := by
  constructor
  · intro hi
    have : (applyPresets rx bundles imports c).applied = true := by
      unfold applyPresets
      by_cases h : c.applied
      · rw [if_pos h]; exact h
      · rw [if_neg h, if_neg hi]
    generalize applyPresets rx bundles imports c = c' at this
    unfold applyPresets
    rw [if_pos this]
  · unfold applyPresets
    split
    · rfl
    · rfl

/-- **C18, a bundle reorders nothing for the user**: with no bundle called for, the security
configuration keeps its content. -/
theorem C18_uncalled_unchanged {σ} (rx : String → String → Bool) (bundles : List (Bundle σ)) (imports : List String) (c : SecCfg σ)
    (h : ∀ b ∈ bundles, ¬ CalledFor rx imports b) :
    (applyPresets rx bundles imports c).mappings = c.mappings ∧ (applyPresets rx bundles imports c).userSchemes = c.userSchemes ∧
    (applyPresets rx bundles imports c).presetSchemes = c.presetSchemes := by
  have : (bundles.filter fun b => anyImport rx imports b.imports) = [] := by
    rw [List.filter_eq_nil_iff]
    intro b hb hi
    exact h b hb ((anyImport_iff _ _ _).1 hi)
  unfold applyPresets
  rw [this]
  split
  · exact ⟨rfl, rfl, rfl⟩
  · split
    · exact ⟨rfl, rfl, rfl⟩
    · exact ⟨rfl, rfl, rfl⟩

/-- **C18/C47**: which imports are seen first does not matter. -/
theorem C18_import_order_irrelevant (files files' : List (List String)) (h : ∀ i, i ∈ files.flatten ↔ i ∈ files'.flatten) :
    collectImports files = collectImports files' := by
  unfold collectImports
  apply sortStrings_eq_of_perm
  rw [List.perm_ext_iff_of_nodup (dedup_nodup _) (dedup_nodup _)]
  intro i
  rw [mem_dedup, mem_dedup, List.mem_filter, List.mem_filter, h]

example : (applyPresets demoRx [⟨["jwt"], [{ fnRe := "x" }], [("jwt", 1)]⟩, ⟨["cors"], [{ fnRe := "y" }], [("c", 2)]⟩] ["fmt", "jwt"]
    { mappings := [{ fnRe := "mine" }] }).mappings = [{ fnRe := "mine" }, { fnRe := "x" }] := by decide

end Verif.Security
