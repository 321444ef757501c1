import Verif.WrapperValueProps

/-!
# C84: map order, grouping, and what is done to the configuration
-/

namespace Verif.Wrappers
open Verif.Common

/-! ## Contexts do not depend on the order of maps -/

theorem upsert_ids (w : Id) (via : String) (f : Entry → Entry) (hf : ∀ x, (f x).id = x.id) : ∀ (es : List Entry),
    (∀ x ∈ upsert w via f es, x.id = w ∨ ∃ y ∈ es, y.id = x.id) ∧
    ((es.map (·.id)).Nodup → ((upsert w via f es).map (·.id)).Nodup)
  | [] => by
    refine ⟨?_, ?_⟩
    · intro x hx
      simp only [upsert, List.mem_singleton] at hx
      subst hx
      exact .inl (hf _)
    · intro _
      simp [upsert]
  | y :: ys => by
    obtain ⟨h1, h2⟩ := upsert_ids w via f hf ys
    unfold upsert
    split
    · rename_i hy
      refine ⟨?_, ?_⟩
      · intro x hx
        cases hx with
        | head => exact .inl ((hf y).trans hy)
        | tail _ hx => exact .inr ⟨x, .tail _ hx, rfl⟩
      · intro hn
        simpa only [List.map_cons, hf] using hn
    · rename_i hy
      refine ⟨?_, ?_⟩
      · intro x hx
        cases hx with
        | head => exact .inr ⟨y, .head _, rfl⟩
        | tail _ hx =>
          rcases h1 x hx with h | ⟨z, hz, e⟩
          · exact .inl h
          · exact .inr ⟨z, .tail _ hz, e⟩
      · intro hn
        simp only [List.map_cons, List.nodup_cons, List.mem_map, not_exists, not_and] at hn ⊢
        refine ⟨?_, h2 hn.2⟩
        intro x hx
        rcases h1 x hx with h | ⟨z, hz, e⟩
        · rw [h]; exact fun c => hy c.symm
        · rw [← e]; exact hn.1 z hz

/-- Distinct methods, each of which contains a call. -/
def Ids (P : Prog) (es : List Entry) : Prop :=
  (es.map (·.id)).Nodup ∧ ∀ x ∈ es, ∃ e ∈ P.edges, e.caller = x.id

theorem upsert_Ids {P : Prog} {e : Edge} (he : e ∈ P.edges) (via : String) {f : Entry → Entry} (hf : ∀ x, (f x).id = x.id)
    {es : List Entry} (h : Ids P es) : Ids P (upsert e.caller via f es) := by
  obtain ⟨h1, h2⟩ := upsert_ids e.caller via f hf es
  refine ⟨h2 h.1, ?_⟩
  intro x hx
  rcases h1 x hx with h' | ⟨y, hy, e'⟩
  · exact ⟨e, he, h'.symm⟩
  · rw [← e']; exact h.2 y hy

theorem visitValue_Ids {P : Prog} {fw : Nat → Edge → Bool} {s : Seeds} {e : Edge} (he : e ∈ P.edges) {es : List Entry}
    (h : Ids P es) : Ids P (visitValue P fw s es e) := by
  unfold visitValue
  split
  · exact h
  · refine foldl_inv (I := Ids P) _ _ ?_ (foldl_inv (I := Ids P) _ _ ?_ (foldl_inv (I := Ids P) _ _ ?_ h))
    · intro p _ es h
      unfold deriveParam
      split
      · exact h
      · split
        · exact h
        · exact upsert_Ids (f := _) he _ (fun x => by rfl) h
    · intro p _ es h
      unfold deriveRequest
      split
      · exact h
      · exact upsert_Ids (f := _) he _ (fun x => by rfl) h
    · intro p _ es h
      unfold mergeResponse
      exact upsert_Ids (f := _) he _ (fun x => by rfl) h

theorem valueRound_Ids {P : Prog} {fw : Nat → Edge → Bool} {s : Seeds} {es : List Entry}
    (h : Ids P es) : Ids P (valueRound P fw s es) :=
  foldl_inv (I := Ids P) P.edges es (fun _ he _ h => visitValue_Ids he h) h

def respOf (x : Entry) : Option RespPat := if x.complete then x.response else none
def reqOf (x : Entry) : Option ReqPat := if x.complete && x.response.isNone then x.request else none
def parOf (x : Entry) : Option ParPat := if x.complete && x.response.isNone && x.request.isNone then x.param else none

theorem seedsFrom_eq : ∀ (es : List Entry),
    seedsFrom es = ⟨es.filterMap respOf, es.filterMap reqOf, es.filterMap parOf⟩
  | [] => rfl
  | x :: xs => by
    unfold seedsFrom
    rw [seedsFrom_eq xs]
    simp only [List.filterMap_cons]
    cases hc : x.complete <;> cases hr : x.response <;> cases hq : x.request <;> cases hp : x.param <;>
      simp [respOf, reqOf, parOf, hc, hr, hq, hp]

theorem filterMap_one {β : Type} (g : Entry → Option β) : ∀ (l : List Entry), (l.map (·.id)).Nodup →
    (∀ x ∈ l, ∀ y ∈ l, (g x).isSome = true → (g y).isSome = true → x.id = y.id) → (l.filterMap g).length ≤ 1
  | [], _, _ => by simp
  | x :: xs, hn, h => by
    simp only [List.map_cons, List.nodup_cons] at hn
    have ih := filterMap_one g xs hn.2 (fun a ha b hb => h a (.tail _ ha) b (.tail _ hb))
    rw [List.filterMap_cons]
    cases hg : g x with
    | none => exact ih
    | some b =>
      have : xs.filterMap g = [] := by
        rw [List.filterMap_eq_nil_iff]
        intro y hy
        cases hy' : g y with
        | none => rfl
        | some c =>
          have := h x (.head _) y (.tail _ hy) (by rw [hg]; rfl) (by rw [hy']; rfl)
          exact absurd (List.mem_map.mpr ⟨y, hy, this.symm⟩) hn.1
      simp [this]

theorem filter_filterMap_eq {β : Type} (g : Entry → Option β) (p : β → Bool) (l : List Entry) :
    (l.filterMap g).filter p = l.filterMap fun x => (g x).filter p := by
  induction l with
  | nil => rfl
  | cons x xs ih =>
    rw [List.filterMap_cons, List.filterMap_cons]
    cases hg : g x with
    | none => simpa using ih
    | some b =>
      simp only [Option.filter_some]
      rw [List.filter_cons]
      cases hp : p b <;> simp [ih]

theorem perm_one {α : Type} {l l' : List α} (h : l.Perm l') (h1 : l.length ≤ 1) : l = l' := by
  match l, l', h, h1 with
  | [], l', h, _ => exact (List.nil_perm.mp h).symm
  | [a], l', h, _ => exact List.singleton_perm.mp h
  | _ :: _ :: _, _, _, h1 => simp at h1

theorem filter_seeds {β : Type} (g : Entry → Option β) (p : β → Bool) {l l' : List Entry} (hp : l'.Perm l)
    (hn : (l.map (·.id)).Nodup) (h : ∀ x ∈ l, ∀ y ∈ l, ∀ a b, g x = some a → g y = some b → p a = true → p b = true → x.id = y.id) :
    (l'.filterMap g).filter p = (l.filterMap g).filter p := by
  refine (perm_one ((hp.symm.filterMap g).filter p) ?_).symm
  rw [filter_filterMap_eq]
  refine filterMap_one _ l hn ?_
  intro x hx y hy hgx hgy
  cases hx' : g x with
  | none => rw [hx'] at hgx; cases hgx
  | some a =>
    cases hy' : g y with
    | none => rw [hy'] at hgy; cases hgy
    | some b =>
      rw [hx'] at hgx
      rw [hy'] at hgy
      simp only [Option.filter_some] at hgx hgy
      exact h x hx y hy a b hx' hy' (by split at hgx; assumption; cases hgx) (by split at hgy; assumption; cases hgy)

theorem valueRounds_order {P : Prog} {fw : Nat → Edge → Bool} {sh sh' : List Entry → List Entry}
    (hsh : ∀ es, (sh es).Perm es) (hsh' : ∀ es, (sh' es).Perm es)
    (hone : ∀ e ∈ P.edges, ∀ e1 ∈ P.edges, ∀ e2 ∈ P.edges, CallsOf P e e1.caller → CallsOf P e e2.caller → e1.caller = e2.caller) :
    ∀ (n : Nat) (s : Seeds) (es : List Entry), Ids P es → (∀ x ∈ es, Inv P .body (fun _ _ => True) x) →
    valueRounds P fw sh n s es = valueRounds P fw sh' n s es
  | 0, _, _, _, _ => rfl
  | n + 1, s, es, hids, hinv => by
    have hids' := valueRound_Ids (fw := fw) (s := s) hids
    have hinv' := valueRound_inv (P := P) (fw := fw) (s := s) (ok := fun _ _ => True) (r := .body)
      (fun _ _ _ _ _ _ _ => True.intro) hinv
    unfold valueRounds
    simp only
    split
    · rfl
    · generalize valueRound P fw s es = es' at hids' hinv'
      have same : ∀ x ∈ es', ∀ y ∈ es', ∀ e ∈ P.edges, (ownScope P x.id).hits fw e = true → (ownScope P y.id).hits fw e = true →
          x.id = y.id := by
        intro x hx y hy e he hhx hhy
        obtain ⟨e1, he1, h1⟩ := hids'.2 x hx
        obtain ⟨e2, he2, h2⟩ := hids'.2 y hy
        rw [← h1, ← h2]
        exact hone e he e1 he1 e2 he2 (h1 ▸ ownScope_hits hhx) (h2 ▸ ownScope_hits hhy)
      have round_eq : ∀ (sh : List Entry → List Entry), (∀ es, (sh es).Perm es) → ∀ es2,
          valueRound P fw (seedsFrom (sh es')) es2 = valueRound P fw (seedsFrom es') es2 := by
        intro sh hsh es2
        unfold valueRound
        have : ∀ (l : List Edge), (∀ e ∈ l, e ∈ P.edges) → ∀ es2,
            l.foldl (visitValue P fw (seedsFrom (sh es'))) es2 = l.foldl (visitValue P fw (seedsFrom es')) es2 := by
          intro l
          induction l with
          | nil => exact fun _ _ => rfl
          | cons e l ih =>
            intro hl es2
            rw [List.foldl_cons, List.foldl_cons]
            have he := hl e (.head _)
            have hv : visitValue P fw (seedsFrom (sh es')) es2 e = visitValue P fw (seedsFrom es') es2 e := by
              unfold visitValue
              have h1 := filter_seeds respOf (fun p => p.scope.hits fw e) (hsh es') hids'.1 (by
                intro x hx y hy a b ha hb pa pb
                have ha' : x.response = some a := by unfold respOf at ha; split at ha; exact ha; cases ha
                have hb' : y.response = some b := by unfold respOf at hb; split at hb; exact hb; cases hb
                exact same x hx y hy e he ((hinv' x hx).1 a ha' ▸ pa) ((hinv' y hy).1 b hb' ▸ pb))
              have h2 := filter_seeds reqOf (fun p => p.scope.hits fw e) (hsh es') hids'.1 (by
                intro x hx y hy a b ha hb pa pb
                have ha' : x.request = some a := by unfold reqOf at ha; split at ha; exact ha; cases ha
                have hb' : y.request = some b := by unfold reqOf at hb; split at hb; exact hb; cases hb
                exact same x hx y hy e he ((hinv' x hx).2.1 a ha' ▸ pa) ((hinv' y hy).2.1 b hb' ▸ pb))
              have h3 := filter_seeds parOf (fun p => p.scope.hits fw e) (hsh es') hids'.1 (by
                intro x hx y hy a b ha hb pa pb
                have ha' : x.param = some a := by unfold parOf at ha; split at ha; exact ha; cases ha
                have hb' : y.param = some b := by unfold parOf at hb; split at hb; exact hb; cases hb
                exact same x hx y hy e he ((hinv' x hx).2.2.1 a ha' ▸ pa) ((hinv' y hy).2.2.1 b hb' ▸ pb))
              rw [seedsFrom_eq, seedsFrom_eq]
              simp only [h1, h2, h3]
            rw [hv]
            exact ih (fun e he => hl e (.tail _ he)) _
        exact this P.edges (fun _ h => h) es2
      -- the two runs go through the same entries
      have key : ∀ (n : Nat) (a b : Seeds) (es2 : List Entry), (∀ es2, valueRound P fw a es2 = valueRound P fw b es2) →
          valueRounds P fw sh' n a es2 = valueRounds P fw sh' n b es2 := by
        intro n a b es2 hab
        cases n with
        | zero => rfl
        | succ n => unfold valueRounds; simp only [hab]
      have ih := valueRounds_order (fw := fw) hsh hsh' hone n (seedsFrom (sh es')) es' hids' hinv'
      rw [ih]
      exact key n _ _ es' (fun es2 => (round_eq sh hsh es2).trans (round_eq sh' hsh' es2).symm)

/-- **C84 (partial).** When every call is of at most one method of the project, what is
derived for responders, decoders and readers does not depend on the order in which maps
are iterated.  Missing: types that embed each other and declare methods of one name;
for these the result does depend on it (`C84_map_order_wrong`). -/
theorem C84_context_deterministic_partial {P : Prog} {fw : Nat → Edge → Bool} {sh sh' : List Entry → List Entry}
    (hsh : ∀ es, (sh es).Perm es) (hsh' : ∀ es, (sh' es).Perm es)
    (hone : ∀ e ∈ P.edges, ∀ e1 ∈ P.edges, ∀ e2 ∈ P.edges, CallsOf P e e1.caller → CallsOf P e e2.caller → e1.caller = e2.caller)
    (cfg : Seeds) : values P fw sh cfg = values P fw sh' cfg :=
  valueRounds_order hsh hsh' hone 4 cfg [] ⟨by simp, fun _ h => by cases h⟩ (fun _ h => by cases h)

/-! ## Groups do not depend on the order of maps -/

/-- A group without the text that is only shown. -/
def Group.shown (g : Group) : Group := { g with via := "" }

/-- What decides which group a method belongs to. -/
def keyOf (w : Wrapper) : String × String × Bool × RoutePat := (w.id.pkg, w.id.recv, w.complete, { w.pat with scope := .configured 0 })

def gkey (g : Group) : String × String × Bool × RoutePat := (g.pkg, g.recv, g.complete, { g.pat with scope := .configured 0 })

theorem sameRoles_iff (g : Group) (w : Wrapper) : sameRoles g w = true ↔ gkey g = keyOf w := by
  unfold sameRoles gkey keyOf
  simp only [Bool.and_eq_true, beq_iff_eq, Prod.mk.injEq]
  constructor
  · rintro ⟨⟨⟨a, b⟩, c⟩, d⟩; exact ⟨a, b, c, d⟩
  · rintro ⟨a, b, c, d⟩; exact ⟨⟨⟨a, b⟩, c⟩, d⟩

/-- The groups built from `l`: one per key, with the methods of that key in order. -/
structure Built (l : List Wrapper) (gs : List Group) : Prop where
  nodup : (gs.map gkey).Nodup
  methods : ∀ g ∈ gs, g.methods = (l.filter fun w => keyOf w == gkey g).map (·.id.name)
  all : ∀ w ∈ l, ∃ g ∈ gs, gkey g = keyOf w
  some : ∀ g ∈ gs, ∃ w ∈ l, gkey g = keyOf w

theorem addTo_keys (w : Wrapper) : ∀ (gs : List Group),
    (∀ g' ∈ addTo w gs, (gkey g' = keyOf w ∧ ((∀ g ∈ gs, gkey g ≠ keyOf w) ∧ g'.methods = [w.id.name] ∨
        ∃ g ∈ gs, gkey g = keyOf w ∧ g'.methods = g.methods ++ [w.id.name])) ∨ (g' ∈ gs ∧ gkey g' ≠ keyOf w) ∨
        (g' ∈ gs ∧ ¬ (gs.map gkey).Nodup)) ∧
    ((gs.map gkey).Nodup → ((addTo w gs).map gkey).Nodup) ∧
    (∀ g ∈ gs, ∃ g' ∈ addTo w gs, gkey g' = gkey g) ∧ (∃ g' ∈ addTo w gs, gkey g' = keyOf w) ∧
    (∀ g' ∈ addTo w gs, gkey g' = keyOf w ∨ ∃ g ∈ gs, gkey g = gkey g')
  | [] => by
    refine ⟨?_, ?_, ?_, ?_, ?_⟩
    · intro g' hg
      simp only [addTo, List.mem_singleton] at hg
      subst hg
      exact .inl ⟨rfl, .inl ⟨fun _ h => (by cases h), rfl⟩⟩
    · intro _; simp [addTo]
    · intro g hg; cases hg
    · exact ⟨_, .head _, rfl⟩
    · intro g' hg
      simp only [addTo, List.mem_singleton] at hg
      subst hg
      exact .inl rfl
  | g :: gs => by
    obtain ⟨h1, h2, h3, h4, h5⟩ := addTo_keys w gs
    unfold addTo
    by_cases hs : sameRoles g w = true
    · rw [if_pos hs]
      rw [sameRoles_iff] at hs
      have hk : gkey { g with methods := g.methods ++ [w.id.name] } = gkey g := rfl
      refine ⟨?_, ?_, ?_, ?_, ?_⟩
      · intro g' hg'
        cases hg' with
        | head => exact .inl ⟨hk.trans hs, .inr ⟨g, .head _, hs, rfl⟩⟩
        | tail _ hg' =>
          by_cases hk' : gkey g' = keyOf w
          · refine .inr (.inr ⟨.tail _ hg', ?_⟩)
            intro hn
            simp only [List.map_cons, List.nodup_cons] at hn
            exact hn.1 (List.mem_map.mpr ⟨g', hg', hk'.trans hs.symm⟩)
          · exact .inr (.inl ⟨.tail _ hg', hk'⟩)
      · intro hn
        simpa only [List.map_cons, hk] using hn
      · intro g0 hg0
        cases hg0 with
        | head => exact ⟨_, .head _, hk⟩
        | tail _ hg0 => exact ⟨g0, .tail _ hg0, rfl⟩
      · exact ⟨_, .head _, hk.trans hs⟩
      · intro g' hg'
        cases hg' with
        | head => exact .inl (hk.trans hs)
        | tail _ hg' => exact .inr ⟨g', .tail _ hg', rfl⟩
    · rw [if_neg hs]
      have hs' : gkey g ≠ keyOf w := fun c => hs ((sameRoles_iff g w).mpr c)
      refine ⟨?_, ?_, ?_, ?_, ?_⟩
      · intro g' hg'
        cases hg' with
        | head => exact .inr (.inl ⟨.head _, hs'⟩)
        | tail _ hg' =>
          rcases h1 g' hg' with ⟨hk, ⟨hno, hm⟩ | ⟨g0, hg0, hk0, hm⟩⟩ | ⟨hin, hk⟩ | ⟨hin, hd⟩
          · refine .inl ⟨hk, .inl ⟨?_, hm⟩⟩
            intro g0 hg0
            cases hg0 with
            | head => exact hs'
            | tail _ hg0 => exact hno g0 hg0
          · exact .inl ⟨hk, .inr ⟨g0, .tail _ hg0, hk0, hm⟩⟩
          · exact .inr (.inl ⟨.tail _ hin, hk⟩)
          · refine .inr (.inr ⟨.tail _ hin, fun hn => hd ?_⟩)
            simp only [List.map_cons, List.nodup_cons] at hn
            exact hn.2
      · intro hn
        simp only [List.map_cons, List.nodup_cons, List.mem_map, not_exists, not_and] at hn ⊢
        refine ⟨?_, h2 hn.2⟩
        intro g' hg' hk
        rcases h5 g' hg' with h | ⟨g0, hg0, hk0⟩
        · exact hs' (hk.symm.trans h)
        · exact hn.1 g0 hg0 (hk0.trans hk)
      · intro g0 hg0
        cases hg0 with
        | head => exact ⟨_, .head _, rfl⟩
        | tail _ hg0 =>
          obtain ⟨g', hg', e⟩ := h3 g0 hg0
          exact ⟨g', .tail _ hg', e⟩
      · obtain ⟨g', hg', e⟩ := h4
        exact ⟨g', .tail _ hg', e⟩
      · intro g' hg'
        cases hg' with
        | head => exact .inr ⟨g, .head _, rfl⟩
        | tail _ hg' =>
          rcases h5 g' hg' with h | ⟨g0, hg0, hk0⟩
          · exact .inl h
          · exact .inr ⟨g0, .tail _ hg0, hk0⟩

theorem built_snoc {l : List Wrapper} {gs : List Group} (h : Built l gs) (w : Wrapper) : Built (l ++ [w]) (addTo w gs) := by
  obtain ⟨h1, h2, h3, h4, h5⟩ := addTo_keys w gs
  have filter_snoc : ∀ k, ((l ++ [w]).filter fun x => keyOf x == k).map (·.id.name) =
      (l.filter fun x => keyOf x == k).map (·.id.name) ++ if keyOf w = k then [w.id.name] else [] := by
    intro k
    rw [List.filter_append, List.map_append]
    congr 1
    by_cases hk : keyOf w = k <;> simp [hk]
  refine ⟨h2 h.nodup, ?_, ?_, ?_⟩
  · intro g' hg'
    rw [filter_snoc]
    rcases h1 g' hg' with ⟨hk, ⟨hno, hm⟩ | ⟨g0, hg0, hk0, hm⟩⟩ | ⟨hin, hk⟩ | ⟨_, hd⟩
    · rw [if_pos hk.symm, hm]
      have : l.filter (fun x => keyOf x == gkey g') = [] := by
        rw [List.filter_eq_nil_iff]
        intro x hx c
        obtain ⟨g0, hg0, e⟩ := h.all x hx
        have c : keyOf x = gkey g' := by simpa using c
        exact hno g0 hg0 (e.trans (c.trans hk))
      rw [this]
      rfl
    · rw [if_pos hk.symm, hm, h.methods g0 hg0, hk0, ← hk]
    · rw [if_neg (fun c => hk c.symm), h.methods g' hin, List.append_nil]
    · exact absurd h.nodup hd
  · intro x hx
    simp only [List.mem_append, List.mem_singleton] at hx
    rcases hx with hx | rfl
    · obtain ⟨g, hg, e⟩ := h.all x hx
      obtain ⟨g', hg', e'⟩ := h3 g hg
      exact ⟨g', hg', e'.trans e⟩
    · exact h4
  · intro g' hg'
    rcases h5 g' hg' with hk | ⟨g, hg, e⟩
    · exact ⟨w, by simp, hk⟩
    · obtain ⟨x, hx, e'⟩ := h.some g hg
      exact ⟨x, by simp [hx], e.symm.trans e'⟩

theorem built_foldl : ∀ (l l0 : List Wrapper) (gs : List Group), Built l0 gs →
    Built (l0 ++ l) (l.foldl (fun gs w => addTo w gs) gs)
  | [], l0, gs, h => by simpa using h
  | w :: l, l0, gs, h => by
    have := built_foldl l (l0 ++ [w]) (addTo w gs) (built_snoc h w)
    simpa using this

theorem built_all (l : List Wrapper) : Built l (l.foldl (fun gs w => addTo w gs) []) := by
  have := built_foldl l [] [] ⟨by simp, fun _ h => (by cases h), fun _ h => (by cases h), fun _ h => (by cases h)⟩
  simpa using this

/-- The group of a key, as far as it matters. -/
def canon (l : List Wrapper) (k : String × String × Bool × RoutePat) : Group :=
  let ms := sortStrings ((l.filter fun w => keyOf w == k).map (·.id.name))
  ⟨k.1, k.2.1, ms, "", { k.2.2.2 with scope := .own k.1 [k.2.1] ms }, k.2.2.1⟩

theorem finish_shown {l : List Wrapper} {gs : List Group} (h : Built l gs) {g : Group} (hg : g ∈ gs) :
    (finish g).shown = canon l (gkey g) := by
  have := h.methods g hg
  unfold finish Group.shown canon
  simp only [gkey] at this ⊢
  rw [← this]

theorem canon_perm {l l' : List Wrapper} (h : l.Perm l') (k : String × String × Bool × RoutePat) : canon l k = canon l' k := by
  unfold canon
  have : sortStrings ((l.filter fun w => keyOf w == k).map (·.id.name)) =
      sortStrings ((l'.filter fun w => keyOf w == k).map (·.id.name)) := sortStrings_eq_of_perm ((h.filter _).map _)
  simp only [this]

theorem isort_map {α β : Type} {le : α → α → Bool} {le' : β → β → Bool} (f : α → β) (h : ∀ a b, le' (f a) (f b) = le a b) :
    ∀ (l : List α), (isort le l).map f = isort le' (l.map f)
  | [] => rfl
  | x :: xs => by
    have ins : ∀ (x : α) (l : List α), (insertBy le x l).map f = insertBy le' (f x) (l.map f) := by
      intro x l
      induction l with
      | nil => rfl
      | cons y ys ih =>
        simp only [insertBy, List.map_cons, h]
        split
        · rfl
        · simp [ih]
    show (insertBy le x (isort le xs)).map f = insertBy le' (f x) (isort le' (xs.map f))
    rw [ins, isort_map f h xs]

theorem dot_inj : ∀ {a c b d : List Char}, '.' ∉ b → '.' ∉ d → a ++ '.' :: b = c ++ '.' :: d → a = c ∧ b = d
  | [], [], b, d, _, _, h => by
    simp only [List.nil_append, List.cons.injEq, true_and] at h
    exact ⟨rfl, h⟩
  | [], x :: c, b, d, hb, _, h => by
    simp only [List.nil_append, List.cons_append, List.cons.injEq] at h
    exact absurd (by rw [h.2]; simp) hb
  | x :: a, [], b, d, _, hd, h => by
    simp only [List.nil_append, List.cons_append, List.cons.injEq] at h
    exact absurd (by rw [← h.2]; simp) hd
  | x :: a, y :: c, b, d, hb, hd, h => by
    simp only [List.cons_append, List.cons.injEq] at h
    obtain ⟨e1, e2⟩ := dot_inj hb hd h.2
    exact ⟨by rw [h.1, e1], e2⟩

theorem joined_inj {a b : List String} (ha : a ≠ []) (hb : b ≠ []) (ha' : ∀ s ∈ a, '|' ∉ s.toList) (hb' : ∀ s ∈ b, '|' ∉ s.toList)
    (h : joined a = joined b) : a = b := by
  have h : ValidateModel.joinC '|' (a.map String.toList) = ValidateModel.joinC '|' (b.map String.toList) :=
    String.ofList_injective h
  have h1 := ValidateModel.splitC_join '|' (a.map String.toList) (by simpa using ha) (by simpa using ha')
  have h2 := ValidateModel.splitC_join '|' (b.map String.toList) (by simpa using hb) (by simpa using hb')
  rw [h, h2] at h1
  have inj : ∀ (a b : List String), a.map String.toList = b.map String.toList → a = b := by
    intro a
    induction a with
    | nil => intro b h; cases b with
      | nil => rfl
      | cons => cases h
    | cons x xs ih => intro b h; cases b with
      | nil => cases h
      | cons y ys =>
        simp only [List.map_cons, List.cons.injEq] at h
        rw [String.toList_inj.mp h.1, ih ys h.2]
  exact (inj _ _ h1).symm

theorem groupLe_pre : TotalPre groupLe where
  trans := by
    intro a b c hab hbc
    unfold groupLe at *
    generalize a.pkg ++ "." ++ a.recv = x at *
    generalize b.pkg ++ "." ++ b.recv = y at *
    generalize c.pkg ++ "." ++ c.recv = z at *
    simp only [bne_iff_ne, ne_eq, ite_not] at *
    by_cases h1 : x = y
    · subst h1
      by_cases h2 : x = z
      · subst h2
        simp only [if_true] at *
        exact strLe_ord.trans _ _ _ hab hbc
      · simp only [h2, if_false, if_true] at *
        exact hbc
    · by_cases h2 : y = z
      · subst h2
        simp only [h1, if_false, if_true] at *
        exact hab
      · rw [if_neg h1] at hab
        rw [if_neg h2] at hbc
        by_cases h3 : x = z
        · subst h3
          exact absurd (strLe_ord.antisymm _ _ hab hbc) h1
        · rw [if_neg h3]
          exact strLe_ord.trans _ _ _ hab hbc
  total := by
    intro a b
    unfold groupLe
    generalize a.pkg ++ "." ++ a.recv = x
    generalize b.pkg ++ "." ++ b.recv = y
    by_cases h : x = y
    · subst h
      simpa using strLe_ord.total _ _
    · have h' : y ≠ x := fun c => h c.symm
      simpa [h, h'] using strLe_ord.total _ _

/-- **C84.** The groups, their methods, roles and order do not depend on the order in
which maps are iterated (only the text shown for what they delegate to does,
`C84_via_order`).  The names are Go identifiers: they contain no dot and no bar. -/
theorem C84_groups_deterministic {l l' : List Wrapper} (hp : l.Perm l') (hids : (l.map (·.id)).Nodup)
    (hdot : ∀ w ∈ l, '.' ∉ w.id.recv.toList) (hbar : ∀ w ∈ l, '|' ∉ w.id.name.toList) :
    (groupWrappers l).map Group.shown = (groupWrappers l').map Group.shown := by
  have hb := built_all l
  have hb' := built_all l'
  unfold groupWrappers
  rw [isort_map (le := groupLe) (le' := groupLe) Group.shown (fun _ _ => rfl), isort_map (le := groupLe) (le' := groupLe) Group.shown (fun _ _ => rfl)]
  generalize l.foldl (fun gs w => addTo w gs) [] = gs at hb
  generalize l'.foldl (fun gs w => addTo w gs) [] = gs' at hb'
  have e1 : (gs.map finish).map Group.shown = (gs.map gkey).map (canon l) := by
    rw [List.map_map, List.map_map]
    exact List.map_congr_left fun g hg => finish_shown hb hg
  have e2 : (gs'.map finish).map Group.shown = (gs'.map gkey).map (canon l) := by
    rw [List.map_map, List.map_map]
    refine List.map_congr_left fun g hg => ?_
    exact (finish_shown hb' hg).trans (canon_perm hp.symm _)
  rw [e1, e2]
  have hkeys : (gs.map gkey).Perm (gs'.map gkey) := by
    rw [List.perm_ext_iff_of_nodup hb.nodup hb'.nodup]
    intro k
    simp only [List.mem_map]
    constructor
    · rintro ⟨g, hg, rfl⟩
      obtain ⟨w, hw, e⟩ := hb.some g hg
      obtain ⟨g', hg', e'⟩ := hb'.all w (hp.mem_iff.mp hw)
      exact ⟨g', hg', e'.trans e.symm⟩
    · rintro ⟨g, hg, rfl⟩
      obtain ⟨w, hw, e⟩ := hb'.some g hg
      obtain ⟨g', hg', e'⟩ := hb.all w (hp.mem_iff.mpr hw)
      exact ⟨g', hg', e'.trans e.symm⟩
  refine isort_eq_of_perm_on groupLe_pre ?_ (hkeys.map _)
  intro a ha b hbm hab hba
  obtain ⟨ka, hka, rfl⟩ := List.mem_map.mp ha
  obtain ⟨kb, hkb, rfl⟩ := List.mem_map.mp hbm
  obtain ⟨ga, hga, rfl⟩ := List.mem_map.mp hka
  obtain ⟨gb, hgb, rfl⟩ := List.mem_map.mp hkb
  obtain ⟨wa, hwa, ea⟩ := hb.some ga hga
  obtain ⟨wb, hwb, eb⟩ := hb.some gb hgb
  rw [ea, eb] at hab hba ⊢
  -- the receivers agree
  have hrecv : wa.id.pkg = wb.id.pkg ∧ wa.id.recv = wb.id.recv ∧ joined (canon l (keyOf wa)).methods = joined (canon l (keyOf wb)).methods := by
    unfold groupLe at hab hba
    have c1 : (canon l (keyOf wa)).pkg ++ "." ++ (canon l (keyOf wa)).recv = wa.id.pkg ++ "." ++ wa.id.recv := rfl
    have c2 : (canon l (keyOf wb)).pkg ++ "." ++ (canon l (keyOf wb)).recv = wb.id.pkg ++ "." ++ wb.id.recv := rfl
    rw [c1, c2] at hab hba
    by_cases h : wa.id.pkg ++ "." ++ wa.id.recv = wb.id.pkg ++ "." ++ wb.id.recv
    · have h' := congrArg String.toList h
      have hl : ∀ x y : String, (x ++ "." ++ y).toList = x.toList ++ '.' :: y.toList := by
        intro x y
        simp only [String.toList_append, List.append_assoc]
        rfl
      rw [hl, hl] at h'
      obtain ⟨e1, e2⟩ := dot_inj (hdot wa hwa) (hdot wb hwb) h'
      simp only [h, bne_self_eq_false, Bool.false_eq_true, if_false] at hab hba
      exact ⟨String.toList_inj.mp e1, String.toList_inj.mp e2, strLe_ord.antisymm _ _ hab hba⟩
    · have h' : wb.id.pkg ++ "." ++ wb.id.recv ≠ wa.id.pkg ++ "." ++ wa.id.recv := fun c => h c.symm
      simp only [bne_iff_ne, ne_eq, h, h', not_false_eq_true, if_true] at hab hba
      exact absurd (strLe_ord.antisymm _ _ hab hba) h
  obtain ⟨e1, e2, e3⟩ := hrecv
  have mem_of : ∀ w ∈ l, ∀ n, n ∈ (canon l (keyOf w)).methods ↔ ∃ w' ∈ l, keyOf w' = keyOf w ∧ w'.id.name = n := by
    intro w _ n
    unfold canon
    simp only [mem_sortStrings, List.mem_map, List.mem_filter, beq_iff_eq]
    constructor
    · rintro ⟨w', ⟨h1, h2⟩, h3⟩; exact ⟨w', h1, h2, h3⟩
    · rintro ⟨w', h1, h2, h3⟩; exact ⟨w', ⟨h1, h2⟩, h3⟩
  have hwa' : wa.id.name ∈ (canon l (keyOf wa)).methods := (mem_of wa hwa _).mpr ⟨wa, hwa, rfl, rfl⟩
  have hwb' : wb.id.name ∈ (canon l (keyOf wb)).methods := (mem_of wb hwb _).mpr ⟨wb, hwb, rfl, rfl⟩
  have hm : (canon l (keyOf wa)).methods = (canon l (keyOf wb)).methods := by
    refine joined_inj (fun c => by rw [c] at hwa'; cases hwa') (fun c => by rw [c] at hwb'; cases hwb') ?_ ?_ e3
    · intro s hs
      obtain ⟨w', hw', _, rfl⟩ := (mem_of wa hwa s).mp hs
      exact hbar w' hw'
    · intro s hs
      obtain ⟨w', hw', _, rfl⟩ := (mem_of wb hwb s).mp hs
      exact hbar w' hw'
  rw [hm] at hwa'
  obtain ⟨w', hw', hk', hn'⟩ := (mem_of wb hwb _).mp hwa'
  have hid : w'.id = wa.id := by
    have p1 : w'.id.pkg = wb.id.pkg := congrArg (·.1) hk'
    have p2 : w'.id.recv = wb.id.recv := congrArg (·.2.1) hk'
    have : ∀ a b : Id, a.pkg = b.pkg → a.recv = b.recv → a.name = b.name → a = b := by
      rintro ⟨_, _, _⟩ ⟨_, _, _⟩ rfl rfl rfl; rfl
    exact this _ _ (p1.trans e1.symm) (p2.trans e2.symm) hn'
  have : w' = wa := by
    obtain ⟨i, hi, ei⟩ := List.getElem_of_mem hw'
    obtain ⟨j, hj, ej⟩ := List.getElem_of_mem hwa
    have : i = j := (List.getElem_inj (h₀ := by simpa using hi) (h₁ := by simpa using hj) hids).mp (by
      simp only [List.getElem_map, ei, ej, hid])
    subst this
    exact ei.symm.trans ej
  subst this
  rw [hk']

/-- **C84.** Every method found is in a group with its roles, and only such methods are:
a group's methods are those found with its receiver type and roles. -/
theorem C84_groups_exact (l : List Wrapper) :
    (∀ w ∈ l, ∃ g ∈ groupWrappers l, g.pkg = w.id.pkg ∧ g.recv = w.id.recv ∧ g.complete = w.complete ∧
      g.pat.path = w.pat.path ∧ g.pat.handler = w.pat.handler ∧ g.pat.verbFromArg = w.pat.verbFromArg ∧
      g.pat.verbArg = w.pat.verbArg ∧ g.pat.verbFromCall = w.pat.verbFromCall ∧ w.id.name ∈ g.methods ∧
      g.pat.scope = .own g.pkg [g.recv] g.methods) ∧
    (∀ g ∈ groupWrappers l, ∀ n ∈ g.methods, ∃ w ∈ l, w.id = ⟨g.pkg, g.recv, n⟩ ∧ w.complete = g.complete ∧
      w.pat.path = g.pat.path ∧ w.pat.handler = g.pat.handler ∧ w.pat.verbFromArg = g.pat.verbFromArg ∧
      w.pat.verbArg = g.pat.verbArg ∧ w.pat.verbFromCall = g.pat.verbFromCall) := by
  have hb := built_all l
  unfold groupWrappers
  generalize l.foldl (fun gs w => addTo w gs) [] = gs at hb
  have parts : ∀ (g : Group) (w : Wrapper), gkey g = keyOf w → g.pkg = w.id.pkg ∧ g.recv = w.id.recv ∧ g.complete = w.complete ∧
      g.pat.path = w.pat.path ∧ g.pat.handler = w.pat.handler ∧ g.pat.verbFromArg = w.pat.verbFromArg ∧
      g.pat.verbArg = w.pat.verbArg ∧ g.pat.verbFromCall = w.pat.verbFromCall := by
    intro g w h
    have hp : ({ g.pat with scope := .configured 0 } : RoutePat) = { w.pat with scope := .configured 0 } := congrArg (·.2.2.2) h
    exact ⟨congrArg (·.1) h, congrArg (·.2.1) h, congrArg (·.2.2.1) h, by have := congrArg RoutePat.path hp; exact this,
      by have := congrArg RoutePat.handler hp; exact this, by have := congrArg RoutePat.verbFromArg hp; exact this,
      by have := congrArg RoutePat.verbArg hp; exact this, by have := congrArg RoutePat.verbFromCall hp; exact this⟩
  constructor
  · intro w hw
    obtain ⟨g, hg, e⟩ := hb.all w hw
    obtain ⟨p1, p2, p3, p4, p5, p6, p7, p8⟩ := parts g w e
    refine ⟨finish g, by simp only [mem_isort]; exact List.mem_map.mpr ⟨g, hg, rfl⟩, p1, p2, p3, p4, p5, p6, p7, p8, ?_, rfl⟩
    show w.id.name ∈ sortStrings g.methods
    rw [mem_sortStrings, hb.methods g hg, List.mem_map]
    exact ⟨w, List.mem_filter.mpr ⟨hw, by simp [e]⟩, rfl⟩
  · intro g' hg' n hn
    simp only [mem_isort] at hg'
    obtain ⟨g, hg, rfl⟩ := List.mem_map.mp hg'
    have hn : n ∈ sortStrings g.methods := hn
    rw [mem_sortStrings, hb.methods g hg, List.mem_map] at hn
    obtain ⟨w, hw, rfl⟩ := hn
    obtain ⟨hw, e⟩ := List.mem_filter.mp hw
    have e : keyOf w = gkey g := by simpa using e
    obtain ⟨p1, p2, p3, p4, p5, p6, p7, p8⟩ := parts g w e.symm
    refine ⟨w, hw, ?_, p3.symm, p4.symm, p5.symm, p6.symm, p7.symm, p8.symm⟩
    show w.id = ⟨g.pkg, g.recv, w.id.name⟩
    rw [p1, p2]

/-! ## Applying -/

theorem addOnce_mem {α β : Type} [DecidableEq β] (key : α → β) (x : α) (l : List α) : ∃ y ∈ addOnce key x l, key y = key x := by
  unfold addOnce
  split
  · rename_i h
    simp only [List.any_eq_true, beq_iff_eq] at h
    exact h
  · exact ⟨x, .head _, rfl⟩

theorem addOnce_suffix {α β : Type} [DecidableEq β] (key : α → β) (x : α) (l : List α) :
    addOnce key x l = l ∨ addOnce key x l = x :: l := by
  unfold addOnce
  split
  · exact .inl rfl
  · exact .inr rfl

theorem addOnce_id {α β : Type} [DecidableEq β] (key : α → β) (x : α) {l : List α} (h : ∃ y ∈ l, key y = key x) :
    addOnce key x l = l := by
  unfold addOnce
  rw [if_pos]
  simp only [List.any_eq_true, beq_iff_eq]
  exact h

/-- What the code does with all that was detected. -/
def applyAll (gs : List Group) (ms : List Mount) (vs : List Entry) (c : Config) : Config :=
  vs.foldl applyEntry (ms.foldl applyMount (gs.foldl applyGroup c))

/-- `c'` has everything `c` has, in the same order at the end. -/
structure Grows (c c' : Config) : Prop where
  routes : c.routes <:+ c'.routes
  mounts : c.mounts <:+ c'.mounts
  resp : c.seeds.resp <:+ c'.seeds.resp
  req : c.seeds.req <:+ c'.seeds.req
  par : c.seeds.par <:+ c'.seeds.par

theorem grows_refl (c : Config) : Grows c c :=
  ⟨List.suffix_refl _, List.suffix_refl _, List.suffix_refl _, List.suffix_refl _, List.suffix_refl _⟩

theorem grows_trans {a b c : Config} (h : Grows a b) (h' : Grows b c) : Grows a c :=
  ⟨h.routes.trans h'.routes, h.mounts.trans h'.mounts, h.resp.trans h'.resp, h.req.trans h'.req, h.par.trans h'.par⟩

theorem suffix_addOnce {α β : Type} [DecidableEq β] (key : α → β) (x : α) (l : List α) : l <:+ addOnce key x l := by
  rcases addOnce_suffix key x l with h | h <;> rw [h]
  · exact List.suffix_refl _
  · exact List.suffix_cons _ _

theorem applyGroup_grows (c : Config) (g : Group) : Grows c (applyGroup c g) := by
  unfold applyGroup
  split
  · exact ⟨suffix_addOnce _ _ _, List.suffix_refl _, List.suffix_refl _, List.suffix_refl _, List.suffix_refl _⟩
  · exact grows_refl c

theorem applyMount_grows (c : Config) (m : Mount) : Grows c (applyMount c m) :=
  ⟨List.suffix_refl _, suffix_addOnce _ _ _, List.suffix_refl _, List.suffix_refl _, List.suffix_refl _⟩

def applyResp (c : Config) (x : Entry) : Config :=
  match x.response with
  | some p => if p.body.isSome || p.status.isSome then
      { c with seeds := { c.seeds with resp := addOnce (·.scope) p c.seeds.resp } } else c
  | none => c

def applyReq (c : Config) (x : Entry) : Config :=
  match x.request with
  | some p => { c with seeds := { c.seeds with req := addOnce (·.scope) p c.seeds.req } }
  | none => c

def applyPar (c : Config) (x : Entry) : Config :=
  match x.param with
  | some p => { c with seeds := { c.seeds with par := addOnce (·.scope) p c.seeds.par } }
  | none => c

theorem applyEntry_eq (c : Config) (x : Entry) :
    applyEntry c x = if x.complete then applyPar (applyReq (applyResp c x) x) x else c := rfl

theorem applyEntry_grows (c : Config) (x : Entry) : Grows c (applyEntry c x) := by
  rw [applyEntry_eq]
  split
  · have h1 : Grows c (applyResp c x) := by
      unfold applyResp
      split
      · split
        · exact ⟨List.suffix_refl _, List.suffix_refl _, suffix_addOnce _ _ _, List.suffix_refl _, List.suffix_refl _⟩
        · exact grows_refl c
      · exact grows_refl c
    have h2 : ∀ c, Grows c (applyReq c x) := by
      intro c
      unfold applyReq
      split
      · exact ⟨List.suffix_refl _, List.suffix_refl _, List.suffix_refl _, suffix_addOnce _ _ _, List.suffix_refl _⟩
      · exact grows_refl c
    have h3 : ∀ c, Grows c (applyPar c x) := by
      intro c
      unfold applyPar
      split
      · exact ⟨List.suffix_refl _, List.suffix_refl _, List.suffix_refl _, List.suffix_refl _, suffix_addOnce _ _ _⟩
      · exact grows_refl c
    exact grows_trans h1 (grows_trans (h2 _) (h3 _))
  · exact grows_refl c

theorem foldl_grows {α : Type} {f : Config → α → Config} (hf : ∀ c a, Grows c (f c a)) : ∀ (l : List α) (c : Config),
    Grows c (l.foldl f c)
  | [], c => grows_refl c
  | a :: l, c => grows_trans (hf c a) (foldl_grows hf l (f c a))

/-- Nothing more would be added. -/
structure Has (gs : List Group) (ms : List Mount) (vs : List Entry) (c : Config) : Prop where
  groups : ∀ g ∈ gs, g.complete = true → ∃ p ∈ c.routes, p.scope = g.pat.scope
  mounts : ∀ m ∈ ms, ∃ p ∈ c.mounts, p.id = m.id
  resp : ∀ x ∈ vs, x.complete = true → ∀ q, x.response = some q → (q.body.isSome || q.status.isSome) = true →
    ∃ p ∈ c.seeds.resp, p.scope = q.scope
  req : ∀ x ∈ vs, x.complete = true → ∀ q, x.request = some q → ∃ p ∈ c.seeds.req, p.scope = q.scope
  par : ∀ x ∈ vs, x.complete = true → ∀ q, x.param = some q → ∃ p ∈ c.seeds.par, p.scope = q.scope

theorem has_grows {gs : List Group} {ms : List Mount} {vs : List Entry} {c c' : Config} (h : Has gs ms vs c) (hg : Grows c c') :
    Has gs ms vs c' where
  groups g hg' hc := by obtain ⟨p, hp, e⟩ := h.groups g hg' hc; exact ⟨p, hg.routes.subset hp, e⟩
  mounts m hm := by obtain ⟨p, hp, e⟩ := h.mounts m hm; exact ⟨p, hg.mounts.subset hp, e⟩
  resp x hx hc q hq hb := by obtain ⟨p, hp, e⟩ := h.resp x hx hc q hq hb; exact ⟨p, hg.resp.subset hp, e⟩
  req x hx hc q hq := by obtain ⟨p, hp, e⟩ := h.req x hx hc q hq; exact ⟨p, hg.req.subset hp, e⟩
  par x hx hc q hq := by obtain ⟨p, hp, e⟩ := h.par x hx hc q hq; exact ⟨p, hg.par.subset hp, e⟩

theorem foldl_each {α : Type} {f : Config → α → Config} (hf : ∀ c a, Grows c (f c a)) {Q : α → Config → Prop}
    (hq : ∀ c a, Q a (f c a)) (hm : ∀ a c c', Q a c → Grows c c' → Q a c') : ∀ (l : List α) (c : Config), ∀ a ∈ l, Q a (l.foldl f c)
  | b :: l, c, a, ha => by
    cases ha with
    | head => exact hm _ _ _ (hq c _) (foldl_grows hf l _)
    | tail _ ha => exact foldl_each hf hq hm l (f c b) a ha

theorem applyAll_has (gs : List Group) (ms : List Mount) (vs : List Entry) (c : Config) : Has gs ms vs (applyAll gs ms vs c) := by
  have hgm : Grows (gs.foldl applyGroup c) (ms.foldl applyMount (gs.foldl applyGroup c)) := foldl_grows applyMount_grows ms _
  have hmv : Grows (ms.foldl applyMount (gs.foldl applyGroup c)) (applyAll gs ms vs c) := foldl_grows applyEntry_grows vs _
  have he : ∀ x ∈ vs, Has [] [] [x] (applyAll gs ms vs c) := by
    refine foldl_each (Q := fun x c => Has [] [] [x] c) applyEntry_grows ?_ (fun a c c' h hg => has_grows h hg) vs _
    intro c x
    have one : ∀ {y}, y ∈ [x] → y = x := fun h => List.mem_singleton.mp h
    have h3 : ∀ c, Grows c (applyPar c x) := by
      intro c
      unfold applyPar
      split
      · exact ⟨List.suffix_refl _, List.suffix_refl _, List.suffix_refl _, List.suffix_refl _, suffix_addOnce _ _ _⟩
      · exact grows_refl c
    have h2 : ∀ c, Grows c (applyReq c x) := by
      intro c
      unfold applyReq
      split
      · exact ⟨List.suffix_refl _, List.suffix_refl _, List.suffix_refl _, suffix_addOnce _ _ _, List.suffix_refl _⟩
      · exact grows_refl c
    rw [applyEntry_eq]
    refine ⟨fun _ h => (by cases h), fun _ h => (by cases h), ?_, ?_, ?_⟩
    · intro y hy hc q hq hb
      rw [one hy] at hc hq
      rw [if_pos hc]
      have : ∃ p ∈ (applyResp c x).seeds.resp, p.scope = q.scope := by
        unfold applyResp
        rw [hq]
        simp only [hb, if_true]
        exact addOnce_mem _ _ _
      obtain ⟨p, hp, e⟩ := this
      exact ⟨p, (grows_trans (h2 _) (h3 _)).resp.subset hp, e⟩
    · intro y hy hc q hq
      rw [one hy] at hc hq
      rw [if_pos hc]
      have : ∃ p ∈ (applyReq (applyResp c x) x).seeds.req, p.scope = q.scope := by
        unfold applyReq
        rw [hq]
        exact addOnce_mem _ _ _
      obtain ⟨p, hp, e⟩ := this
      exact ⟨p, (h3 _).req.subset hp, e⟩
    · intro y hy hc q hq
      rw [one hy] at hc hq
      rw [if_pos hc]
      unfold applyPar
      rw [hq]
      exact addOnce_mem _ _ _
  refine ⟨?_, ?_, ?_, ?_, ?_⟩
  · intro g hg hc
    have := foldl_each (Q := fun g c => g.complete = true → ∃ p ∈ c.routes, p.scope = g.pat.scope) applyGroup_grows
      (fun c g hc => by unfold applyGroup; rw [if_pos hc]; exact addOnce_mem _ _ _)
      (fun a c c' h hg hc => by obtain ⟨p, hp, e⟩ := h hc; exact ⟨p, hg.routes.subset hp, e⟩) gs c g hg hc
    obtain ⟨p, hp, e⟩ := this
    exact ⟨p, (grows_trans hgm hmv).routes.subset hp, e⟩
  · intro m hm
    have := foldl_each (Q := fun m c => ∃ p ∈ c.mounts, p.id = m.id) applyMount_grows
      (fun c m => addOnce_mem _ _ _)
      (fun a c c' h hg => by obtain ⟨p, hp, e⟩ := h; exact ⟨p, hg.mounts.subset hp, e⟩) ms (gs.foldl applyGroup c) m hm
    obtain ⟨p, hp, e⟩ := this
    exact ⟨p, hmv.mounts.subset hp, e⟩
  · exact fun x hx hc q hq hb => (he x hx).resp x (.head _) hc q hq hb
  · exact fun x hx hc q hq => (he x hx).req x (.head _) hc q hq
  · exact fun x hx hc q hq => (he x hx).par x (.head _) hc q hq

theorem foldl_id {α : Type} {f : Config → α → Config} {c : Config} : ∀ (l : List α), (∀ a ∈ l, f c a = c) → l.foldl f c = c
  | [], _ => rfl
  | a :: l, h => by
    rw [List.foldl_cons, h a (.head _)]
    exact foldl_id l (fun a ha => h a (.tail _ ha))

/-- **C84.** Applying is idempotent: applying what was detected a second time changes
nothing. -/
theorem C84_apply_twice (gs : List Group) (ms : List Mount) (vs : List Entry) (c : Config) :
    applyAll gs ms vs (applyAll gs ms vs c) = applyAll gs ms vs c := by
  have h := applyAll_has gs ms vs c
  generalize applyAll gs ms vs c = d at h
  unfold applyAll
  rw [foldl_id gs, foldl_id ms, foldl_id vs]
  · intro x hx
    rw [applyEntry_eq]
    split
    · rename_i hc
      have h1 : applyResp d x = d := by
        unfold applyResp
        split
        · rename_i p hp
          split
          · rename_i hb
            rw [addOnce_id _ _ (h.resp x hx hc p hp hb)]
          · rfl
        · rfl
      have h2 : applyReq d x = d := by
        unfold applyReq
        split
        · rename_i p hp
          rw [addOnce_id _ _ (h.req x hx hc p hp)]
        · rfl
      have h3 : applyPar d x = d := by
        unfold applyPar
        split
        · rename_i p hp
          rw [addOnce_id _ _ (h.par x hx hc p hp)]
        · rfl
      rw [h1, h2, h3]
    · rfl
  · intro m hm
    unfold applyMount
    rw [addOnce_id _ _ (h.mounts m hm)]
  · intro g hg
    unfold applyGroup
    split
    · rename_i hc
      rw [addOnce_id _ _ (h.groups g hg hc)]
    · rfl

/-- **C84.** Nothing that was configured is lost or reordered: what is derived comes in
front of it. -/
theorem C84_apply_keeps (P : Prog) (fw : Nat → Edge → Bool) (shuffle : List Entry → List Entry) (c : Config) :
    let c' := detectAndApply P fw shuffle c
    c.routes <:+ c'.routes ∧ c.mounts <:+ c'.mounts ∧ c.seeds.resp <:+ c'.seeds.resp ∧ c.seeds.req <:+ c'.seeds.req ∧
    c.seeds.par <:+ c'.seeds.par := by
  have h : Grows c (detectAndApply P fw shuffle c) :=
    grows_trans (foldl_grows applyGroup_grows _ _) (grows_trans (foldl_grows applyMount_grows _ _) (foldl_grows applyEntry_grows _ _))
  exact ⟨h.routes, h.mounts, h.resp, h.req, h.par⟩

theorem foldl_new {α β : Type} {f : Config → α → Config} {part : Config → List β} {src : α → β → Prop}
    (hf : ∀ c a p, p ∈ part (f c a) → p ∈ part c ∨ src a p) : ∀ (l : List α) (c : Config) (p : β), p ∈ part (l.foldl f c) →
    p ∈ part c ∨ ∃ a ∈ l, src a p
  | [], _, _, h => .inl h
  | a :: l, c, p, h => by
    rcases foldl_new hf l (f c a) p h with h | ⟨b, hb, h⟩
    · rcases hf c a p h with h | h
      · exact .inl h
      · exact .inr ⟨a, .head _, h⟩
    · exact .inr ⟨b, .tail _ hb, h⟩

theorem mem_addOnce {α β : Type} [DecidableEq β] {key : α → β} {x y : α} {l : List α} (h : y ∈ addOnce key x l) : y ∈ l ∨ y = x := by
  rcases addOnce_suffix key x l with e | e <;> rw [e] at h
  · exact .inl h
  · cases h with
    | head => exact .inr rfl
    | tail _ h => exact .inl h

/-- **C84.** Half a registration is never applied: a route pattern that a run adds names
a path and a handler, both from arguments; and every complete derivation is applied,
unless a pattern for the same calls was configured. -/
theorem C84_apply_complete (P : Prog) (fw : Nat → Edge → Bool) (shuffle : List Entry → List Entry) (c : Config) :
    (∀ p ∈ (detectAndApply P fw shuffle c).routes, p ∈ c.routes ∨
      ∃ w ∈ findWrappers P fw c.routes, w.complete = true ∧ ∃ i j, w.pat.path = some i ∧ w.pat.handler = some j ∧
        p.path = some i ∧ p.handler = some j) ∧
    (∀ w ∈ findWrappers P fw c.routes, w.complete = true → ∃ p ∈ (detectAndApply P fw shuffle c).routes, ∃ names,
      p.scope = .own w.id.pkg [w.id.recv] names ∧ w.id.name ∈ names) := by
  have hcomp : ∀ w ∈ findWrappers P fw c.routes, w.complete = true → ∃ i j, w.pat.path = some i ∧ w.pat.handler = some j := by
    intro w hw hc
    have : ∀ p e, (derive P p e).complete = true → ∃ i j, (derive P p e).pat.path = some i ∧ (derive P p e).pat.handler = some j := by
      intro p e h
      simp only [derive, Bool.and_eq_true, Option.isSome_iff_exists] at h ⊢
      obtain ⟨⟨i, hi⟩, j, hj⟩ := h
      exact ⟨i, j, hi, hj⟩
    cases found_derived hw with
    | framework e p => exact this p e hc
    | wrapper e w => exact this w.pat e hc
  obtain ⟨hg1, hg2⟩ := C84_groups_exact (findWrappers P fw c.routes)
  constructor
  · intro p hp
    have entry_routes : ∀ (l : List Entry) (c : Config), (l.foldl applyEntry c).routes = c.routes := by
      intro l
      induction l with
      | nil => exact fun _ => rfl
      | cons x l ih =>
        intro c
        rw [List.foldl_cons, ih, applyEntry_eq]
        split
        · unfold applyPar applyReq applyResp
          cases x.response <;> cases x.request <;> cases x.param <;> simp only <;> (try split) <;> rfl
        · rfl
    have mount_routes : ∀ (l : List Mount) (c : Config), (l.foldl applyMount c).routes = c.routes := by
      intro l
      induction l with
      | nil => exact fun _ => rfl
      | cons x l ih => intro c; rw [List.foldl_cons, ih]; rfl
    unfold detectAndApply at hp
    simp only at hp
    rw [entry_routes, mount_routes] at hp
    rcases foldl_new (part := Config.routes) (src := fun g p => g.complete = true ∧ p = g.pat) (by
      intro c g p hp
      unfold applyGroup at hp
      split at hp
      · rename_i hc
        rcases mem_addOnce hp with h | h
        · exact .inl h
        · exact .inr ⟨hc, h⟩
      · exact .inl hp) _ _ _ hp with h | ⟨g, hg, hc, rfl⟩
    · exact .inl h
    · refine .inr ?_
      have hne : ∃ n, n ∈ g.methods := by
        have hb := built_all (findWrappers P fw c.routes)
        unfold groupWrappers at hg
        simp only [mem_isort] at hg
        obtain ⟨g0, hg0, rfl⟩ := List.mem_map.mp hg
        obtain ⟨w, hw, e⟩ := hb.some g0 hg0
        refine ⟨w.id.name, ?_⟩
        show w.id.name ∈ sortStrings g0.methods
        rw [mem_sortStrings, hb.methods g0 hg0, List.mem_map]
        exact ⟨w, List.mem_filter.mpr ⟨hw, by simp [e]⟩, rfl⟩
      obtain ⟨n, hn⟩ := hne
      obtain ⟨w, hw, _, hwc, h1, h2, _⟩ := hg2 g hg n hn
      obtain ⟨i, j, hi, hj⟩ := hcomp w hw (hwc.trans hc)
      exact ⟨w, hw, hwc.trans hc, i, j, hi, hj, h1.symm.trans hi, h2.symm.trans hj⟩
  · intro w hw hc
    obtain ⟨g, hg, e1, e2, e3, _, _, _, _, _, hn, hs⟩ := hg1 w hw
    have h := applyAll_has (groupWrappers (findWrappers P fw c.routes)) (mounts P (groupWrappers (findWrappers P fw c.routes)))
      (values P fw shuffle c.seeds) c
    obtain ⟨p, hp, e⟩ := h.groups g hg (e3.trans hc)
    refine ⟨p, hp, g.methods, ?_, hn⟩
    rw [e, hs, e1, e2]

/-! ## Groups of routes -/

/-- **C84.** A method counts as grouping routes under a prefix exactly when its type is a
router of the project, it takes a string and a named function, and it calls something
of the function's name; the prefix is its first string. -/
theorem C84_mount_iff (P : Prog) (gs : List Group) (x : Mount) :
    x ∈ mounts P gs ↔ ∃ m ∈ P.meths, m.id = x.id ∧ (∃ g ∈ gs, g.complete = true ∧ g.pkg = m.id.pkg ∧ g.recv = m.id.recv) ∧
      (∃ s, m.params[x.path]? = some (s, .string)) ∧ (∀ i < x.path, ∀ s, m.params[i]? ≠ some (s, .string)) ∧
      ∃ before f after, m.params = before ++ (f, .func) :: after ∧ f ≠ "" ∧ (∀ p ∈ before, p.2 = .func → p.1 = "") ∧
        ∃ e ∈ P.edges, e.caller = m.id ∧ e.name = f := by
  unfold mounts
  simp only [List.mem_filterMap, List.mem_filter]
  refine exists_congr fun m => ?_
  rw [and_assoc]
  refine and_congr_right fun _ => ?_
  have hg : (gs.any fun g => g.complete && g.pkg == m.id.pkg && g.recv == m.id.recv) = true ↔
      ∃ g ∈ gs, g.complete = true ∧ g.pkg = m.id.pkg ∧ g.recv = m.id.recv := by
    simp only [List.any_eq_true, Bool.and_eq_true, beq_iff_eq, and_assoc]
  rw [hg]
  have hshape : ∀ i f, groupShape m = some (i, f) ↔ (∃ s, m.params[i]? = some (s, .string)) ∧
      (∀ i' < i, ∀ s, m.params[i']? ≠ some (s, .string)) ∧
      ∃ before after, m.params = before ++ (f, .func) :: after ∧ f ≠ "" ∧ (∀ p ∈ before, p.2 = Kind.func → p.1 = "") := by
    intro i f
    have h1 : (m.params.findIdx? fun p => p.2 == Kind.string) = some i ↔ (∃ s, m.params[i]? = some (s, .string)) ∧
        (∀ i' < i, ∀ s, m.params[i']? ≠ some (s, .string)) := by
      rw [List.findIdx?_eq_some_iff_getElem]
      constructor
      · rintro ⟨hl, hp, hn⟩
        refine ⟨⟨m.params[i].1, ?_⟩, ?_⟩
        · rw [List.getElem?_eq_getElem hl]
          have : m.params[i].2 = .string := by simpa using hp
          rw [← this]
        · intro i' hi' s c
          obtain ⟨hl', e⟩ := List.getElem?_eq_some_iff.mp c
          have := hn i' hi'
          rw [e] at this
          simp at this
      · rintro ⟨⟨s, hs⟩, hn⟩
        obtain ⟨hl, e⟩ := List.getElem?_eq_some_iff.mp hs
        refine ⟨hl, by rw [e]; rfl, ?_⟩
        intro j hj c
        have hjl : j < m.params.length := Nat.lt_trans hj hl
        have : m.params[j].2 = .string := by simpa using c
        exact hn j hj m.params[j].1 (by rw [List.getElem?_eq_getElem hjl, ← this])
    have h2 : ∀ q, (m.params.find? fun p => p.2 == Kind.func && p.1 != "") = some q ↔ q.2 = .func ∧ q.1 ≠ "" ∧
        ∃ before after, m.params = before ++ q :: after ∧ (∀ p ∈ before, p.2 = Kind.func → p.1 = "") := by
      intro q
      rw [List.find?_eq_some_iff_append]
      simp only [Bool.and_eq_true, beq_iff_eq, bne_iff_ne, ne_eq, and_assoc]
      refine and_congr_right fun _ => and_congr_right fun _ => ?_
      refine exists_congr fun before => exists_congr fun after => and_congr_right fun _ => ?_
      refine forall_congr' fun p => forall_congr' fun _ => ?_
      constructor
      · intro h hk
        by_cases hn : p.1 = ""
        · exact hn
        · exact absurd h (by simp [hk, hn])
      · intro h
        by_cases hk : p.2 = Kind.func
        · simp [hk, h hk]
        · simp [hk]
    unfold groupShape
    constructor
    · intro h
      split at h
      · rename_i i' q hi hq
        cases h
        obtain ⟨e1, e2⟩ := h1.mp hi
        obtain ⟨k1, k2, b, a, k3, k4⟩ := (h2 q).mp hq
        refine ⟨e1, e2, b, a, ?_, k2, k4⟩
        rw [k3, ← k1]
      · cases h
    · rintro ⟨e1, e2, b, a, k3, k2, k4⟩
      rw [h1.mpr ⟨e1, e2⟩, (h2 (f, .func)).mpr ⟨rfl, k2, b, a, k3, k4⟩]
  constructor
  · rintro ⟨hg, hm⟩
    unfold mountOf at hm
    cases hs : groupShape m with
    | none => rw [hs] at hm; cases hm
    | some q =>
      obtain ⟨i, f⟩ := q
      rw [hs] at hm
      simp only at hm
      split at hm
      · rename_i hc
        cases hm
        obtain ⟨k1, k2, b, a, k3, k4, k5⟩ := (hshape i f).mp hs
        refine ⟨rfl, hg, k1, k2, b, f, a, k3, k4, k5, ?_⟩
        simpa only [List.any_eq_true, Bool.and_eq_true, beq_iff_eq] using hc
      · cases hm
  · rintro ⟨hid, hg, k1, k2, b, f, a, k3, k4, k5, hc⟩
    refine ⟨hg, ?_⟩
    unfold mountOf
    rw [(hshape x.path f).mpr ⟨k1, k2, b, a, k3, k4, k5⟩]
    simp only
    rw [if_pos (by simpa only [List.any_eq_true, Bool.and_eq_true, beq_iff_eq] using hc)]
    rw [hid]

/-! ## Cases -/

namespace Apply

/-- A method of `app.Ctx`. -/
def ctx (name : String) : Id := ⟨"app", "Ctx", name⟩

/-- A call to the framework. -/
def fwCall (caller : Id) (name : String) (args : List Expr) : Edge := ⟨caller, "net/http", [], name, args⟩

/-- A call of a method of `app.Ctx`. -/
def ctxCall (caller : Id) (name : String) (args : List Expr) : Edge := ⟨caller, "app", [("app", "Ctx")], name, args⟩

/-- `WriteHeader(status)`, `Encode(body)`, `URLParam(r, name)`, `Decode(v)`. -/
def fw (k : Nat) (e : Edge) : Bool :=
  match k with
  | 0 => e.name == "WriteHeader"
  | 1 => e.name == "Encode"
  | 2 => e.name == "URLParam"
  | 3 => e.name == "Method"
  | _ => e.name == "Decode"

def framework : Seeds :=
  { resp := [{ scope := .configured 0, status := some 0 }, { scope := .configured 1, body := some 0 }]
    par := [{ scope := .configured 2, loc := "path", arg := 1 }]
    req := [{ scope := .configured 4, body := some 0 }] }

/-! ### What else a method does decides whether it counts -/

def paramMeth : Meth := ⟨ctx "Param", [("name", .string)], []⟩
def readCall : Edge := fwCall (ctx "Param") "URLParam" [.id "r", .id "name"]
def failCall : Edge := fwCall (ctx "Param") "WriteHeader" [.lit]

/-- **C84 is violated.** `func (c *Ctx) Param(name string) string { v := URLParam(c.r, name);
if v == "" { c.w.WriteHeader(400) }; … }`: the parameters read through it are not seen,
because the answer it gives on the side resets what was found.  With the two calls the
other way round they are. -/
theorem C84_complete_reset :
    (values ⟨"app", [paramMeth], [], [], [readCall, failCall]⟩ fw id framework).map (fun x => (x.id.name, x.complete, x.param.isSome)) =
      [("Param", false, true)] ∧
    (detectAndApply ⟨"app", [paramMeth], [], [], [readCall, failCall]⟩ fw id { seeds := framework }).seeds = framework ∧
    (detectAndApply ⟨"app", [paramMeth], [], [], [failCall, readCall]⟩ fw id { seeds := framework }).seeds.par =
      { scope := .own "app" ["Ctx"] ["Param"], loc := "path", arg := 0 } :: framework.par := by
  decide +kernel

/-! ### Only new methods start another round -/

def encodeMeth : Meth := ⟨ctx "encode", [("v", .other)], []⟩
def jsonMeth : Meth := ⟨ctx "JSON", [("status", .other), ("v", .other)], []⟩
def okMeth : Meth := ⟨ctx "OK", [("v", .other)], []⟩

/-- `encode(v) { Encode(v) }`, `JSON(status, v) { WriteHeader(status); encode(v) }`,
`OK(v) { JSON(200, v) }`. -/
def okProg : Prog :=
  ⟨"app", [encodeMeth, jsonMeth, okMeth], [], [],
   [fwCall (ctx "encode") "Encode" [.id "v"], fwCall (ctx "JSON") "WriteHeader" [.id "status"],
    ctxCall (ctx "JSON") "encode" [.id "v"], ctxCall (ctx "OK") "JSON" [.lit, .id "v"]]⟩

/-- **C84 is violated.** The last of three methods is not found, although all three hand
their body on plainly and two calls are no long chain: the second round finds no new
method (it completes `JSON`), and so there is no third. -/
theorem C84_round_stops :
    (values okProg fw id framework).map (fun x => (x.id.name, x.complete)) = [("encode", true), ("JSON", true)] := by
  decide +kernel

/-- **C84 is violated.** A second run over the configuration that the first one made finds
more, although the code calls applying idempotent: it is (`C84_apply_twice`), but the
detection starts from the patterns of the first run. -/
theorem C84_second_run_differs :
    let once := detectAndApply okProg fw id { seeds := framework }
    detectAndApply okProg fw id once ≠ once ∧ once.seeds.resp.length = 4 ∧
    (detectAndApply okProg fw id once).seeds.resp.length = 5 := by
  decide +kernel

/-! ### A method with two roles -/

def bindMeth : Meth := ⟨ctx "Bind", [("v", .other), ("oops", .other)], []⟩
def mustMeth : Meth := ⟨ctx "Must", [("v", .other), ("oops", .other)], []⟩

/-- `Bind(v, oops) { if Decode(v) != nil { Encode(oops) } }`, `Must(v, oops) { Bind(v, oops) }`. -/
def bindProg : Prog :=
  ⟨"app", [bindMeth, mustMeth], [], [],
   [fwCall (ctx "Bind") "Decode" [.id "v"], fwCall (ctx "Bind") "Encode" [.id "oops"],
    ctxCall (ctx "Must") "Bind" [.id "v", .id "oops"]]⟩

/-- **C84 is violated.** A method that decodes the request and also answers hands only the
answer on: what is built on it is known as answering, not as decoding. -/
theorem C84_second_role_lost :
    (values bindProg fw id framework).map (fun x => (x.id.name, x.response.isSome, x.request.isSome)) =
      [("Bind", true, true), ("Must", true, false)] := by
  decide +kernel

/-! ### Map order -/

def baseJson : Id := ⟨"app", "Base", "JSON"⟩

/-- `Base.JSON(v, status)`, `Ctx.JSON(status, v)`, `Ctx` embeds `Base`; `Ctx.Send(a, b)`
calls `Ctx.JSON(a, b)`. -/
def twoProg : Prog :=
  ⟨"app", [⟨baseJson, [("v", .other), ("status", .other)], []⟩, jsonMeth, ⟨ctx "Send", [("a", .other), ("b", .other)], []⟩], [],
   [⟨"app", "Ctx", ["Base"]⟩],
   [fwCall baseJson "Encode" [.id "v"], fwCall (ctx "JSON") "Encode" [.id "v"], ctxCall (ctx "Send") "JSON" [.id "a", .id "b"]]⟩

/-- **C84 is violated.** Where a type overrides a method of a type it embeds, the order in
which a map is iterated decides which argument is documented as the body. -/
theorem C84_map_order_wrong :
    ((values twoProg fw id framework).filter (fun x => x.id.name == "Send")).map (fun x => x.response.bind (·.body)) = [some 0] ∧
    ((values twoProg fw List.reverse framework).filter (fun x => x.id.name == "Send")).map (fun x => x.response.bind (·.body)) =
      [some 1] := by
  decide +kernel

/-- Non-vacuity of `C84_context_deterministic_partial`: the program of
`C84_round_stops` meets its hypothesis. -/
example : ∀ e ∈ okProg.edges, ∀ e1 ∈ okProg.edges, ∀ e2 ∈ okProg.edges, CallsOf okProg e e1.caller → CallsOf okProg e e2.caller →
    e1.caller = e2.caller := by
  have hall : ∀ e ∈ okProg.edges, ∀ e1 ∈ okProg.edges, CallsOf okProg e e1.caller → e1.caller = ⟨"app", "Ctx", e.name⟩ := by
    intro e _ e1 he1 h
    have h1 : e1.caller.pkg = "app" ∧ e1.caller.recv = "Ctx" := by
      have : ∀ e1 ∈ okProg.edges, e1.caller.pkg = "app" ∧ e1.caller.recv = "Ctx" := by decide
      exact this e1 he1
    have : ∀ w : Id, w.pkg = "app" ∧ w.recv = "Ctx" → e.name = w.name → w = ⟨"app", "Ctx", e.name⟩ := by
      rintro ⟨_, _, _⟩ ⟨rfl, rfl⟩ rfl; rfl
    exact this _ h1 h.1
  intro e he e1 he1 e2 he2 h1 h2
  rw [hall e he e1 he1 h1, hall e he e2 he2 h2]

/-! ### A plain context -/

def encCall : Edge := fwCall (ctx "encode") "Encode" [.id "v"]
def sendCall : Edge := ctxCall (ctx "Send") "encode" [.id "b"]
def sendMeth : Meth := ⟨ctx "Send", [("a", .other), ("b", .other)], []⟩

/-- `encode(v) { Encode(v) }`, `Send(a, b) { encode(b) }`. -/
def sendProg : Prog := ⟨"app", [encodeMeth, sendMeth], [], [], [encCall, sendCall]⟩

/-- Where the framework takes a body. -/
def bodyRole (e : Edge) : Option Nat := if e.name = "Encode" then some 0 else none

/-- The value of an argument that is a parameter. -/
def bodyEv (m : Meth) (vs : List Nat) (a : Expr) (v : Nat) : Prop :=
  ∃ x, a = .node x [] ∧ ∀ (i : Nat) (k : Kind), m.params[i]? = some (x, k) → vs[i]? = some v

theorem send_edges {e : Edge} (h : e ∈ sendProg.edges) : e = encCall ∨ e = sendCall := by
  simpa [sendProg] using h

theorem send_calls {e : Edge} (h : e ∈ sendProg.edges) {w : Id} (hc : CallsOf sendProg e w) : e = sendCall ∧ w = ctx "encode" := by
  obtain ⟨h1, t, h2, h3⟩ := hc
  rcases send_edges h with rfl | rfl
  · cases h2
  · refine ⟨rfl, ?_⟩
    have h2 : (w.pkg, t) = ("app", "Ctx") := by simpa [sendCall, ctxCall] using h2
    cases h2' : w with
    | mk p r n =>
      rw [h2'] at h1 h2 h3
      simp only [Prod.mk.injEq] at h2
      obtain ⟨rfl, rfl⟩ := h2
      generalize ht : "Ctx" = tt at h3
      cases h3 with
      | same => subst ht; simp only [sendCall, ctxCall] at h1; subst h1; rfl
      | embeds t' _ _ hin => cases hin

theorem send_plain : PlainRole sendProg bodyRole where
  declared :=
    { unique := by
        intro m hm m' hm' h
        simp only [sendProg, List.mem_cons, List.not_mem_nil, or_false] at hm hm'
        rcases hm with rfl | rfl <;> rcases hm' with rfl | rfl <;> first | rfl | exact absurd h (by decide)
      apart := by intro m _ f hf; cases hf }
  once := by
    intro e he e' he' h _ _
    rcases send_edges he with rfl | rfl <;> rcases send_edges he' with rfl | rfl <;> first | rfl | exact absurd h (by decide)
  target := by
    intro e he w w' h h' _ _
    rw [(send_calls he h).2, (send_calls he h').2]
  framework := by
    intro e he w hr hc
    rw [(send_calls he hc).1] at hr
    exact absurd rfl hr
  args := by
    intro m hm e he hc _ a ha
    left
    simp only [sendProg, List.mem_cons, List.not_mem_nil, or_false] at hm
    rcases send_edges he with rfl | rfl <;> rcases hm with rfl | rfl
    · exact ⟨"v", .other, by simp [encodeMeth], by simpa [encCall, fwCall, Expr.id] using ha⟩
    · exact absurd hc (by decide)
    · exact absurd hc (by decide)
    · exact ⟨"b", .other, by simp [sendMeth], by simpa [sendCall, ctxCall, Expr.id] using ha⟩

theorem send_faithful : FaithfulRole sendProg fw bodyRole .body framework := by
  intro q hq
  simp only [named, framework, List.map_cons, List.map_nil, List.mem_cons, List.not_mem_nil, or_false] at hq
  rcases hq with rfl | rfl
  · exact ⟨0, rfl, fun e _ _ i hi => by cases hi⟩
  · refine ⟨1, rfl, fun e _ hf i hi => ?_⟩
    simp only [fw, beq_iff_eq] at hf
    simpa [bodyRole, hf] using hi

theorem send_kept : Kept sendProg bodyEv := by
  intro m _ i x k hp vs v hev
  obtain ⟨x', hx, h⟩ := hev
  cases hx
  exact h i k hp

/-- Non-vacuity of `C84_context_partial`: `Send(7, 9)` answers with its second argument,
and that is what is derived. -/
example : Feeds sendProg bodyRole bodyEv (ctx "Send") [7, 9] 9 ∧
    (∃ x ∈ values sendProg fw id framework, x.id = ctx "Send" ∧ position .body x = some 1) := by
  refine ⟨?_, by decide +kernel⟩
  have hp : ∀ (m : Meth), m = sendMeth → bodyEv m [7, 9] (.id "b") 9 := by
    rintro _ rfl
    refine ⟨"b", rfl, ?_⟩
    intro i k h
    match i, h with
    | 0, h => simp [sendMeth] at h
    | 1, _ => rfl
    | i + 2, h => simp [sendMeth] at h
  refine .through sendMeth sendCall (ctx "encode") [7, 9] [9] 9 (by simp [sendProg]) (by simp [sendProg]) rfl
    ⟨rfl, "Ctx", by simp [sendCall, ctxCall, ctx], .same _⟩ ?_ ?_
  · intro k v hv
    match k, hv with
    | 0, hv => cases hv; exact ⟨.id "b", rfl, hp _ rfl⟩
    | k + 1, hv => simp at hv
  · refine .direct encodeMeth encCall [9] 0 (.id "v") 9 (by simp [sendProg]) (by simp [sendProg]) rfl rfl rfl ⟨"v", rfl, ?_⟩
    intro i k h
    match i, h with
    | 0, _ => rfl
    | i + 1, h => simp [encodeMeth] at h

example {x : Entry} (hx : x ∈ values sendProg fw List.reverse framework) {i : Nat} (hi : position .body x = some i)
    {vs : List Nat} {v : Nat} (hf : Feeds sendProg bodyRole bodyEv x.id vs v) : vs[i]? = some v :=
  C84_context_partial (fun _ _ h => List.mem_reverse.mp h) send_faithful send_plain send_kept hx hi hf

/-! ### Groups -/

def get : Wrapper := ⟨⟨"app", "Router", "Get"⟩, "chi.Get", { scope := .own "app" ["Router"] ["Get"], path := some 0, handler := some 1, verbFromCall := true }, true⟩
def post : Wrapper := ⟨⟨"app", "Router", "Post"⟩, "chi.Post", { scope := .own "app" ["Router"] ["Post"], path := some 0, handler := some 1, verbFromCall := true }, true⟩
def handle : Wrapper := ⟨⟨"app", "Router", "Handle"⟩, "chi.Method", { scope := .own "app" ["Router"] ["Handle"], path := some 1, handler := some 2, verbFromArg := true }, true⟩

/-- Non-vacuity of `C84_groups_deterministic` and `C84_groups_exact`: methods with the
same roles are one group, whatever the order. -/
example : (groupWrappers [post, handle, get]).map (fun g => (g.methods, g.pat.path)) = [(["Get", "Post"], some 0), (["Handle"], some 1)] ∧
    (groupWrappers [get, post, handle]).map Group.shown = (groupWrappers [post, handle, get]).map Group.shown ∧
    ([get, post, handle].map (·.id)).Nodup ∧ (∀ w ∈ [get, post, handle], '.' ∉ w.id.recv.toList) ∧
    (∀ w ∈ [get, post, handle], '|' ∉ w.id.name.toList) := by
  decide +kernel

/-- **C84.** The text shown for what a group delegates to depends on the order in which a map is
iterated. -/
theorem C84_via_order :
    (groupWrappers [get, post]).map (·.via) = ["chi.Get"] ∧ (groupWrappers [post, get]).map (·.via) = ["chi.Post"] := by
  decide +kernel

/-! ### Route groups -/

def routerMeth (name : String) (params : List (String × Kind)) : Meth := ⟨⟨"app", "Router", name⟩, params, []⟩
def routerGroups : List Group := groupWrappers [get]

/-- Non-vacuity of `C84_mount_iff`: `Group(pattern string, fn func()) { fn() }`. -/
example : mounts ⟨"app", [routerMeth "Group" [("pattern", .string), ("fn", .func)]], [], [],
    [⟨⟨"app", "Router", "Group"⟩, "app", [], "fn", []⟩]⟩ routerGroups = [⟨⟨"app", "Router", "Group"⟩, 0⟩] := by
  decide +kernel

/-- **C84 is violated.** `Group(name, pattern string, fn func())`: the name is taken for the
prefix.  Whether the string is used as a path is not looked at. -/
theorem C84_group_prefix_wrong : mounts ⟨"app", [routerMeth "Group" [("name", .string), ("pattern", .string), ("fn", .func)]], [], [],
    [⟨⟨"app", "Router", "Group"⟩, "app", [], "fn", []⟩]⟩ routerGroups = [⟨⟨"app", "Router", "Group"⟩, 0⟩] := by
  decide +kernel

/-- **C84 is violated.** `Group(pattern string, fn func()) { r.mux.Route(pattern, func() { r.run(fn) }) }`:
a function handed on instead of called is not seen, and the prefix of its routes is lost; so is
one whose type has a name (`type Routes func()`). -/
theorem C84_group_lost :
    mounts ⟨"app", [routerMeth "Group" [("pattern", .string), ("fn", .func)]], [], [],
      [⟨⟨"app", "Router", "Group"⟩, "app", [], "run", [.id "fn"]⟩]⟩ routerGroups = [] ∧
    mounts ⟨"app", [routerMeth "Group" [("pattern", .string), ("fn", .other)]], [], [],
      [⟨⟨"app", "Router", "Group"⟩, "app", [], "fn", []⟩]⟩ routerGroups = [] := by
  decide +kernel

/-- **C84 is violated.** `Log(msg string, warn func()) { r.logger.warn(msg) }`: a method of the
parameter's name is called, not the parameter, and `Log` becomes a route group. -/
theorem C84_group_invented : mounts ⟨"app", [routerMeth "Log" [("msg", .string), ("warn", .func)]], [], [],
    [⟨⟨"app", "Router", "Log"⟩, "app", [("app", "Logger")], "warn", [.id "msg"]⟩]⟩ routerGroups = [⟨⟨"app", "Router", "Log"⟩, 0⟩] := by
  decide +kernel

/-! ### Embedding -/

/-- **C84 is violated.** A context that embeds the project's own from another package is not
followed: `web.Ctx` embeds `app.Ctx`; `ctx.JSON` on a `web.Ctx` is not matched by what was
derived for `app.Ctx`. -/
theorem C84_embedding_elsewhere_lost :
    ownScope ⟨"app", [], [], [⟨"app/web", "Ctx", ["app.Ctx"]⟩], []⟩ (ctx "JSON") = .own "app" ["Ctx"] ["JSON"] ∧
    (ownScope ⟨"app", [], [], [⟨"app/web", "Ctx", ["app.Ctx"]⟩], []⟩ (ctx "JSON")).hits fw
      ⟨⟨"app/web", "", "handler"⟩, "app/web", [("app/web", "Ctx")], "JSON", []⟩ = false := by
  decide +kernel

/-- Non-vacuity of `C84_apply_complete` and `C84_apply_keeps`: an incomplete method is not
applied, a complete one is, in front. -/
def chiMethod : RoutePat := { scope := .configured 3, path := some 1, handler := some 2, verbFromArg := true }

def someProg : Prog :=
  ⟨"app", [routerMeth "Get" [("pattern", .string), ("h", .other)], routerMeth "Ping" [("h", .other)]], [], [],
   [fwCall ⟨"app", "Router", "Get"⟩ "Method" [.lit, .id "pattern", .id "h"],
    fwCall ⟨"app", "Router", "Ping"⟩ "Method" [.lit, .lit, .id "h"]]⟩

example : (detectAndApply someProg fw id { routes := [chiMethod] }).routes.map (fun p => (p.scope, p.path, p.handler)) =
      [(.own "app" ["Router"] ["Get"], some 0, some 1), (.configured 3, some 1, some 2)] ∧
    (findWrappers someProg fw [chiMethod]).map (fun w => (w.id.name, w.complete)) = [("Get", true), ("Ping", false)] := by
  decide +kernel

end Apply

end Verif.Wrappers
