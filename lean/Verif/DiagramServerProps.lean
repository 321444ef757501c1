import Verif.DiagramProps
/-!
# C64 (answers are for the question asked), C66 (by packages) and C67 (drawing the call graph)
-/

namespace Verif.DiagramProps
open Verif.Common Verif.DiagramModel

/-! ## C64: the page cache -/

/-- A request: page, size, depth and filters. -/
structure Ask where
  page : Nat
  size : Nat
  depth : Nat
  filters : Filters

/-- A history of requests, answered with the cache. -/
def answers (x : Text) (num : Int → String) (kind : Kind) : Data × List (String × Page) → List Ask → Option (List Page)
  | _, [] => some []
  | s, q :: qs =>
    match cached x num kind s q.page q.size q.depth q.filters with
    | none => none
    | some (s', p) => (answers x num kind s' qs).map (p :: ·)

/-- A term without spaces and closing brackets. -/
def PlainTerm (t : String) : Prop := t ≠ "" ∧ ' ' ∉ t.toList ∧ ']' ∉ t.toList

/-- The terms of all filters of a request are plain. -/
def PlainAsk (a : Ask) : Prop :=
  ∀ t, t ∈ a.filters.packages ∨ t ∈ a.filters.functions ∨ t ∈ a.filters.files ∨ t ∈ a.filters.receivers ∨ t ∈ a.filters.signatures ∨ t ∈ a.filters.generics → PlainTerm t

/-- Different numbers are written differently and without a sign. -/
def Numerals (num : Int → String) : Prop :=
  (∀ a b : Nat, num a = num b → a = b) ∧ ∀ n : Nat, '-' ∉ (num n).toList

/-- Tally marks. -/
example : Numerals fun n => String.ofList (List.replicate n.toNat 'x') := by
  refine ⟨fun a b h => ?_, fun n h => ?_⟩
  · have := congrArg (fun s : String => s.toList.length) h
    simpa using this
  · rw [String.toList_ofList] at h
    exact absurd (List.eq_of_mem_replicate h) (by decide)

theorem cut_at {c : Char} : ∀ (a b x y : List Char), c ∉ a → c ∉ b → a ++ c :: x = b ++ c :: y → a = b ∧ x = y
  | [], [], x, y, _, _, h => ⟨rfl, (List.cons.inj h).2⟩
  | [], b :: bs, x, y, _, hb, h => by
    have := (List.cons.inj h).1
    exact absurd (this ▸ List.mem_cons_self) hb
  | a :: as, [], x, y, ha, _, h => by
    have := (List.cons.inj h).1
    exact absurd (this ▸ List.mem_cons_self) ha
  | a :: as, b :: bs, x, y, ha, hb, h => by
    obtain ⟨h1, h2⟩ := List.cons.inj h
    obtain ⟨h3, h4⟩ := cut_at as bs x y (fun m => ha (List.mem_cons_of_mem _ m)) (fun m => hb (List.mem_cons_of_mem _ m)) h2
    exact ⟨by rw [h1, h3], h4⟩

/-- Terms with spaces between them. -/
def spaced : List (List Char) → List Char
  | [] => []
  | [s] => s
  | s :: t :: l => s ++ ' ' :: spaced (t :: l)

theorem listText_toList (l : List String) : (listText l).toList = '[' :: (spaced (l.map String.toList) ++ [']']) := by
  have : ∀ l : List (List Char), [' '].intercalate l = spaced l := by
    intro l
    induction l with
    | nil => rfl
    | cons s l ih =>
      cases l with
      | nil => simp [List.intercalate, spaced]
      | cons t l => rw [spaced, ← ih]; simp [List.intercalate, List.intersperse]
  simp only [listText, String.toList_append, String.toList_intercalate]
  rw [show " ".toList = [' '] from rfl, this]
  rfl

theorem spaced_inj : ∀ (a b : List (List Char)), (∀ s ∈ a, s ≠ [] ∧ ' ' ∉ s) → (∀ s ∈ b, s ≠ [] ∧ ' ' ∉ s) → spaced a = spaced b → a = b
  | [], [], _, _, _ => rfl
  | [], [s], _, hb, h => absurd h.symm (hb s (by simp)).1
  | [], s :: t :: l, _, hb, h => by simp [spaced] at h
  | [s], [], ha, _, h => absurd h (ha s (by simp)).1
  | s :: t :: l, [], _, _, h => by simp [spaced] at h
  | [s], [t], _, _, h => by simp only [spaced] at h; rw [h]
  | [s], t :: u :: l, ha, _, h => by
    simp only [spaced] at h
    exact absurd (h ▸ by simp) (ha s (by simp)).2
  | s :: t :: l, [u], _, hb, h => by
    simp only [spaced] at h
    exact absurd (h ▸ by simp) (hb u (by simp)).2
  | s :: t :: l, u :: w :: l', ha, hb, h => by
    simp only [spaced] at h
    obtain ⟨h1, h2⟩ := cut_at _ _ _ _ (ha s (by simp)).2 (hb u (by simp)).2 h
    rw [h1, spaced_inj (t :: l) (w :: l') (fun x hx => ha x (List.mem_cons_of_mem _ hx)) (fun x hx => hb x (List.mem_cons_of_mem _ hx)) h2]

theorem spaced_no_bracket : ∀ (a : List (List Char)), (∀ s ∈ a, ']' ∉ s) → ']' ∉ spaced a
  | [], _ => by simp [spaced]
  | [s], h => h s (by simp)
  | s :: t :: l, h => by
    simp only [spaced, List.mem_append, List.mem_cons, not_or]
    exact ⟨h s (by simp), by decide, spaced_no_bracket (t :: l) fun x hx => h x (List.mem_cons_of_mem _ hx)⟩

/-- A list of plain terms can be read off the front of a text. -/
theorem listText_cut {a b : List String} (ha : ∀ t ∈ a, PlainTerm t) (hb : ∀ t ∈ b, PlainTerm t) {x y : List Char}
    (h : (listText a).toList ++ x = (listText b).toList ++ y) : a = b ∧ x = y := by
  rw [listText_toList, listText_toList] at h
  simp only [List.cons_append, List.append_assoc, List.nil_append, List.cons.injEq, true_and] at h
  have nb : ∀ l : List String, (∀ t ∈ l, PlainTerm t) → ']' ∉ spaced (l.map String.toList) := by
    intro l hl
    refine spaced_no_bracket _ fun s hs => ?_
    obtain ⟨t, ht, rfl⟩ := List.mem_map.1 hs
    exact (hl t ht).2.2
  have ne : ∀ l : List String, (∀ t ∈ l, PlainTerm t) → ∀ s ∈ l.map String.toList, s ≠ [] ∧ ' ' ∉ s := by
    intro l hl s hs
    obtain ⟨t, ht, rfl⟩ := List.mem_map.1 hs
    exact ⟨by simpa using (hl t ht).1, (hl t ht).2.1⟩
  obtain ⟨h1, h2⟩ := cut_at _ _ _ _ (nb a ha) (nb b hb) h
  have h3 := spaced_inj _ _ (ne a ha) (ne b hb) h1
  refine ⟨?_, h2⟩
  exact (List.map_inj_right fun s t hst => String.toList_inj.1 hst).1 h3

theorem dash_toList : "-".toList = ['-'] := rfl

theorem cacheKey_toList (num : Int → String) (kind : String) (page size depth : Int) (f : Filters) : (cacheKey num kind page size depth f).toList =
    kind.toList ++ '-' :: ((num page).toList ++ '-' :: ((num size).toList ++ '-' :: ((num depth).toList ++ '-' :: ((listText f.packages).toList ++ '-' ::
      ((listText f.functions).toList ++ '-' :: ((listText f.files).toList ++ '-' :: ((listText f.receivers).toList ++ '-' :: ((listText f.signatures).toList ++ '-' ::
      ((listText f.generics).toList ++ '-' :: f.scope.toList))))))))) := by
  unfold cacheKey
  simp only [String.toList_append, dash_toList, List.append_assoc, List.cons_append, List.nil_append]

/-- **C64** Requests with plain terms have different keys. -/
theorem C64_key_exact (num : Int → String) (hnum : Numerals num) (kind : String) (a b : Ask) (ha : PlainAsk a) (hb : PlainAsk b)
    (h : cacheKey num kind a.page a.size a.depth a.filters = cacheKey num kind b.page b.size b.depth b.filters) : a = b := by
  obtain ⟨pa, sa, da, fa⟩ := a
  obtain ⟨pb, sb, db, fb⟩ := b
  have h := congrArg String.toList h
  simp only [PlainAsk] at ha hb
  rw [cacheKey_toList, cacheKey_toList] at h
  have h := (List.cons.inj (List.append_cancel_left h)).2
  obtain ⟨e1, h⟩ := cut_at _ _ _ _ (hnum.2 pa) (hnum.2 pb) h
  obtain ⟨e2, h⟩ := cut_at _ _ _ _ (hnum.2 sa) (hnum.2 sb) h
  obtain ⟨e3, h⟩ := cut_at _ _ _ _ (hnum.2 da) (hnum.2 db) h
  obtain ⟨e4, h⟩ := listText_cut (fun t ht => ha t (by simp [ht])) (fun t ht => hb t (by simp [ht])) h
  simp only [List.cons.injEq, true_and] at h
  obtain ⟨e5, h⟩ := listText_cut (fun t ht => ha t (by simp [ht])) (fun t ht => hb t (by simp [ht])) h
  simp only [List.cons.injEq, true_and] at h
  obtain ⟨e6, h⟩ := listText_cut (fun t ht => ha t (by simp [ht])) (fun t ht => hb t (by simp [ht])) h
  simp only [List.cons.injEq, true_and] at h
  obtain ⟨e7, h⟩ := listText_cut (fun t ht => ha t (by simp [ht])) (fun t ht => hb t (by simp [ht])) h
  simp only [List.cons.injEq, true_and] at h
  obtain ⟨e8, h⟩ := listText_cut (fun t ht => ha t (by simp [ht])) (fun t ht => hb t (by simp [ht])) h
  simp only [List.cons.injEq, true_and] at h
  obtain ⟨e9, h⟩ := listText_cut (fun t ht => ha t (by simp [ht])) (fun t ht => hb t (by simp [ht])) h
  simp only [List.cons.injEq, true_and] at h
  have n1 : pa = pb := hnum.1 _ _ (String.toList_inj.1 e1)
  have n2 : sa = sb := hnum.1 _ _ (String.toList_inj.1 e2)
  have n3 : da = db := hnum.1 _ _ (String.toList_inj.1 e3)
  obtain ⟨a1, a2, a3, a4, a5, a6, a7⟩ := fa
  obtain ⟨b1, b2, b3, b4, b5, b6, b7⟩ := fb
  simp only at e4 e5 e6 e7 e8 e9 h
  rw [n1, n2, n3, e4, e5, e6, e7, e8, e9, String.toList_inj.1 h]

example : PlainAsk ⟨1, 100, 3, { packages := ["example.com/my-app"], functions := ["Get", "List"] }⟩ := by
  intro t ht
  simp only [List.mem_cons, List.not_mem_nil, or_false] at ht
  rcases ht with rfl | rfl | rfl <;> (unfold PlainTerm; decide)

/-- **C64** In a history of requests with plain terms, every answer is the one a fresh server would give (call graphs, or
tracker trees with one `main`). -/
theorem C64_cache_partial (x : Text) (num : Int → String) (kind : Kind) (all : Data) (hist : List Ask) (hn : (all.nodes.map (·.id)).Nodup)
    (hm : kind = .trackerTree → OneMain all.nodes) (hnum : Numerals num) (hplain : ∀ a ∈ hist, PlainAsk a)
    (hpos : ∀ a ∈ hist, 1 ≤ a.page ∧ 1 ≤ a.size ∧ a.page * a.size < 9223372036854775808) :
    ∃ ps, answers x num kind (all, []) hist = some ps ∧ ps.map some = hist.map fun a => (generate x kind all a.page a.size a.depth a.filters).map (·.2) := by
  obtain ⟨name, hname⟩ : ∃ name : String, name = if kind = .trackerTree then "tracker-tree" else "call-graph" := ⟨_, rfl⟩
  have hkey : ∀ a ∈ hist, ∀ b ∈ hist, cacheKey num name a.page a.size a.depth a.filters = cacheKey num name b.page b.size b.depth b.filters → a = b :=
    fun a ha b hb h => C64_key_exact num hnum name a b (hplain a ha) (hplain b hb) h
  have gen : ∀ a ∈ hist, ∃ p, generate x kind all a.page a.size a.depth a.filters =
      some ((if kind = .trackerTree then ⟨orderDepthFirst all, all.edges⟩ else all), p) := by
    intro a ha
    obtain ⟨h1, h2, h3⟩ := hpos a ha
    obtain ⟨all', shown, edges, _, _, _, _, _, h⟩ := C39_page x kind all a.depth a.filters hn
    obtain ⟨p, hg, _⟩ := h a.page a.size h1 h2 h3
    refine ⟨p, ?_⟩
    have e : all' = if kind = .trackerTree then ⟨orderDepthFirst all, all.edges⟩ else all := by
      have hg' := hg
      simp only [generate] at hg'
      split at hg'
      · cases hg'
      · split at hg'
        · cases hg'
        · cases hg'; rfl
    rw [hg, e]
  have again : ∀ a : Ask, generate x kind (if kind = .trackerTree then ⟨orderDepthFirst all, all.edges⟩ else all) a.page a.size a.depth a.filters =
      generate x kind all a.page a.size a.depth a.filters := by
    intro a
    cases kind with
    | callGraph => simp
    | trackerTree => simp only [generate, if_true, C39_order_stable_partial all hn (hm rfl)]
  have main : ∀ (qs : List Ask) (s : Data × List (String × Page)), (∀ a ∈ qs, a ∈ hist) →
      (∀ a : Ask, generate x kind s.1 a.page a.size a.depth a.filters = generate x kind all a.page a.size a.depth a.filters) →
      (∀ a ∈ hist, ∀ p, mget s.2 (cacheKey num name a.page a.size a.depth a.filters) = some p →
        (generate x kind all a.page a.size a.depth a.filters).map (·.2) = some p) →
      ∃ ps, answers x num kind s qs = some ps ∧ ps.map some = qs.map fun a => (generate x kind all a.page a.size a.depth a.filters).map (·.2) := by
    intro qs
    induction qs with
    | nil => intro s _ _ _; exact ⟨[], rfl, rfl⟩
    | cons q qs ih =>
      intro s hsub hs hc
      have hq := hsub q (List.mem_cons_self ..)
      simp only [answers, cached, ← hname]
      cases hg : mget s.2 (cacheKey num name q.page q.size q.depth q.filters) with
      | some p =>
        obtain ⟨ps, h1, h2⟩ := ih s (fun a ha => hsub a (List.mem_cons_of_mem _ ha)) hs hc
        refine ⟨p :: ps, by simp only [h1, Option.map_some], ?_⟩
        rw [List.map_cons, List.map_cons, h2, hc q hq p hg]
      | none =>
        obtain ⟨p, hp⟩ := gen q hq
        simp only [hs q, hp]
        obtain ⟨ps, h1, h2⟩ := ih ((if kind = .trackerTree then ⟨orderDepthFirst all, all.edges⟩ else all), mset s.2 (cacheKey num name q.page q.size q.depth q.filters) p)
          (fun a ha => hsub a (List.mem_cons_of_mem _ ha)) again (by
            intro a ha p' h
            rw [mget_mset] at h
            split at h
            · next e => rw [hkey a ha q hq e, hp]; exact h
            · exact hc a ha p' h)
        refine ⟨p :: ps, by simp only [h1, Option.map_some], ?_⟩
        rw [List.map_cons, List.map_cons, h2, hp]; rfl
  exact main hist (all, []) (fun _ h => h) (fun _ => rfl) (by simp)

example : (answers plain (fun n => if n = 1 then "1" else "2") .callGraph (⟨[{ id := 1, pkg := "a" }, { id := 2, pkg := "b" }], []⟩, [])
    [⟨1, 1, 2, {}⟩, ⟨2, 1, 2, {}⟩, ⟨1, 1, 2, {}⟩]).map (fun l => l.map fun p => p.nodes.map (·.id)) = some [[1], [2], [1]] := by decide

theorem cacheKey_congr (num : Int → String) (kind : String) (page size depth : Int) (f g : Filters) (h : listText f.packages = listText g.packages)
    (h1 : f.functions = g.functions) (h2 : f.files = g.files) (h3 : f.receivers = g.receivers) (h4 : f.signatures = g.signatures)
    (h5 : f.generics = g.generics) (h6 : f.scope = g.scope) : cacheKey num kind page size depth f = cacheKey num kind page size depth g := by
  unfold cacheKey
  rw [h, h1, h2, h3, h4, h5, h6]

/-- **C64** Two different package filters have the same key, however numbers are written. -/
theorem C64_key_collision (num : Int → String) (kind : String) (page size depth : Int) :
    cacheKey num kind page size depth { packages := ["a b"] } = cacheKey num kind page size depth { packages := ["a", "b"] } := by
  exact cacheKey_congr num kind page size depth _ _ (by decide) rfl rfl rfl rfl rfl rfl

/-- **C64, what fails** After a request for the package `a b`, the request for the packages `a` and `b` gets its (empty)
answer. -/
theorem C64_wrong_answer (num : Int → String) : ∃ (all : Data) (q1 q2 : Ask) (p1 p2 fresh : Page),
    answers plain num .callGraph (all, []) [q1, q2] = some [p1, p2] ∧ answers plain num .callGraph (all, []) [q2] = some [fresh] ∧
      p2.nodes = [] ∧ fresh.nodes.map (·.id) = [1] := by
  refine ⟨⟨[{ id := 1, pkg := "a" }], []⟩, ⟨1, 1, 1, { packages := ["a b"] }⟩, ⟨1, 1, 1, { packages := ["a", "b"] }⟩,
    ⟨[], [], 0, 0, false⟩, ⟨[], [], 0, 0, false⟩, ⟨[{ id := 1, pkg := "a" }], [], 1, 0, false⟩, ?_, ?_, rfl, by decide⟩
  · have h1 : generate plain .callGraph ⟨[{ id := 1, pkg := "a" }], []⟩ 1 1 1 { packages := ["a b"] } = some (⟨[{ id := 1, pkg := "a" }], []⟩, ⟨[], [], 0, 0, false⟩) := by decide
    have hk := C64_key_collision num "call-graph" 1 1 1
    simp only [answers, cached, mget_nil, reduceCtorEq, if_false, Int.natCast_one, h1, ← hk, mget_mset_self, Option.map_some]
  · have h1 : generate plain .callGraph ⟨[{ id := 1, pkg := "a" }], []⟩ 1 1 1 { packages := ["a", "b"] } =
        some (⟨[{ id := 1, pkg := "a" }], []⟩, ⟨[{ id := 1, pkg := "a" }], [], 1, 0, false⟩) := by decide
    simp only [answers, cached, mget_nil, reduceCtorEq, if_false, Int.natCast_one, h1, Option.map_some]

/-! ## C64: switching the project -/

/-- Executions in which the project is only switched while no request is being served. -/
inductive Calm (n d : Nat) : Srv → Prop
  | start : Calm n d { dir := d, reqs := List.replicate n .idle }
  | act {s s' : Srv} (a : SrvAct) : Calm n d s → srvExec s a = some s' → (∀ d', a = .setDir d' → ∀ r ∈ s.reqs, r = .idle) → Calm n d s'

/-- What a request may hold while the project is `dir`. -/
def Fresh (s : Srv) : Pc → Prop
  | .idle => True
  | .noMetadata _ => True
  | .loading _ d => d = s.dir
  | .ready _ => s.meta' = some s.dir
  | .wantData _ => s.meta' = some s.dir
  | .drawing _ p => p = some s.dir
  | .drawn _ p => p = some s.dir
  | .answered _ p => p = some s.dir

structure Clean (s : Srv) : Prop where
  metadata : s.meta' = none ∨ s.meta' = some s.dir
  data : ∀ p, s.data = some p → p = some s.dir
  pages : ∀ k p, mget s.pages k = some p → p = some s.dir
  reqs : ∀ r ∈ s.reqs, Fresh s r

theorem fresh_set {s s' : Srv} {i : Nat} {pc : Pc} (h : ∀ r ∈ s.reqs, Fresh s r) (hd : s'.dir = s.dir) (hm : s'.meta' = s.meta' ∨ s'.meta' = some s.dir)
    (hr : s'.reqs = s.reqs.set i pc) (hp : Fresh s' pc) : ∀ r ∈ s'.reqs, Fresh s' r := by
  intro r hr'
  rw [hr] at hr'
  rcases List.mem_or_eq_of_mem_set hr' with h' | h'
  · have := h r h'
    cases r <;> simp only [Fresh, hd] at this ⊢ <;> first | exact this | (rcases hm with e | e <;> rw [e] <;> first | exact this | rfl)
  · rw [h']; exact hp

theorem calm_clean {n d : Nat} {s : Srv} (h : Calm n d s) : Clean s := by
  induction h with
  | start => exact ⟨.inl rfl, by simp, by simp, by intro r hr; rw [List.eq_of_mem_replicate hr]; trivial⟩
  | @act s s' a _ he hq ih =>
    cases a with
    | setDir d' =>
      simp only [srvExec, Option.some.injEq] at he
      subst he
      refine ⟨.inl rfl, by simp, by simp, ?_⟩
      intro r hr
      rw [hq d' rfl r hr]; trivial
    | start i k =>
      simp only [srvExec] at he
      split at he
      · cases he
        refine ⟨ih.metadata, ih.data, ih.pages, fresh_set (s := s) ih.reqs rfl (.inl rfl) rfl ?_⟩
        split
        · next hs =>
          rcases ih.metadata with h | h
          · rw [h] at hs; cases hs
          · exact h
        · trivial
      · cases he
    | step i =>
      simp only [srvExec] at he
      split at he
      · next pc hpc =>
        have hf : Fresh s pc := ih.reqs pc (List.mem_of_getElem? hpc)
        cases pc with
        | idle => cases he
        | noMetadata k => cases he; exact ⟨ih.metadata, ih.data, ih.pages, fresh_set (s := s) ih.reqs rfl (.inl rfl) rfl rfl⟩
        | loading k d =>
          have hd : d = s.dir := hf
          subst hd
          cases he
          exact ⟨.inr rfl, by simp, by simp, fresh_set (s := s) ih.reqs rfl (.inr rfl) rfl rfl⟩
        | ready k =>
          simp only [srvStep] at he
          split at he
          · next p hp => cases he; exact ⟨ih.metadata, ih.data, ih.pages, fresh_set (s := s) ih.reqs rfl (.inl rfl) rfl (ih.pages k p hp)⟩
          · cases he; exact ⟨ih.metadata, ih.data, ih.pages, fresh_set (s := s) ih.reqs rfl (.inl rfl) rfl hf⟩
        | wantData k =>
          simp only [srvStep] at he
          split at he
          · next p hp => cases he; exact ⟨ih.metadata, ih.data, ih.pages, fresh_set (s := s) ih.reqs rfl (.inl rfl) rfl (ih.data p hp)⟩
          · cases he; exact ⟨ih.metadata, ih.data, ih.pages, fresh_set (s := s) ih.reqs rfl (.inl rfl) rfl hf⟩
        | drawing k p =>
          have hp : p = some s.dir := hf
          cases he
          refine ⟨ih.metadata, ?_, ih.pages, fresh_set (s := s) ih.reqs rfl (.inl rfl) rfl hf⟩
          intro q hq; cases hq; exact hp
        | drawn k p =>
          have hp : p = some s.dir := hf
          cases he
          refine ⟨ih.metadata, ih.data, ?_, fresh_set (s := s) ih.reqs rfl (.inl rfl) rfl hf⟩
          intro k' q hq
          simp only [mget_mset] at hq
          split at hq
          · cases hq; exact hp
          · exact ih.pages k' q hq
        | answered k p => cases he; exact ⟨ih.metadata, ih.data, ih.pages, fresh_set (s := s) ih.reqs rfl (.inl rfl) rfl trivial⟩
      · cases he

/-- **C64** If the project is only switched while no request is being served, every answer shows the selected
project, whatever the number of requests and their interleaving. -/
theorem C64_project_partial (n d : Nat) (s : Srv) (h : Calm n d s) (i : Nat) (k : String) (p : Option Nat) (ha : s.reqs[i]? = some (.answered k p)) :
    p = some s.dir := (calm_clean h).reqs _ (List.mem_of_getElem? ha)

/-- A run of the server. -/
def srvRun (s : Srv) : List SrvAct → Option Srv
  | [] => some s
  | a :: as => match srvExec s a with
    | none => none
    | some s' => srvRun s' as

/-- Two projects are looked at one after the other, with no overlap: both answers are right. -/
example : (srvRun { dir := 0, reqs := [.idle] } [.start 0 "k", .step 0, .step 0, .step 0, .step 0, .step 0, .step 0, .step 0, .setDir 1,
    .start 0 "k", .step 0, .step 0, .step 0, .step 0, .step 0, .step 0]).map (·.reqs) = some [.answered "k" (some 1)] := by decide

theorem srv_stuck_meta (old : Nat) (as : List SrvAct) (s s' : Srv) (hns : ∀ a ∈ as, ∀ d, a ≠ .setDir d)
    (hm : s.meta' = some old) (hd : ∀ p, s.data = some p → p = some old) (hpg : ∀ k p, mget s.pages k = some p → p = some old)
    (hr : ∀ r ∈ s.reqs, r = .idle ∨ (∃ k, r = .ready k ∨ r = .wantData k ∨ r = .drawing k (some old) ∨ r = .drawn k (some old) ∨ r = .answered k (some old)))
    (h : srvRun s as = some s') :
    s'.meta' = some old ∧ ∀ r ∈ s'.reqs, ∀ k p, r = .answered k p → p = some old := by
  induction as generalizing s with
  | nil =>
    cases h
    refine ⟨hm, ?_⟩
    rintro r hr' k p rfl
    rcases hr _ hr' with h | ⟨k', h | h | h | h | h⟩ <;> cases h
    rfl
  | cons a as ih =>
    simp only [srvRun] at h
    split at h
    · cases h
    · next s1 he =>
      have hset : ∀ (i : Nat) (pc : Pc), (pc = .idle ∨ (∃ k, pc = .ready k ∨ pc = .wantData k ∨ pc = .drawing k (some old) ∨ pc = .drawn k (some old) ∨ pc = .answered k (some old))) →
          ∀ r ∈ s.reqs.set i pc, r = .idle ∨ (∃ k, r = .ready k ∨ r = .wantData k ∨ r = .drawing k (some old) ∨ r = .drawn k (some old) ∨ r = .answered k (some old)) := by
        intro i pc hpc r hr'
        rcases List.mem_or_eq_of_mem_set hr' with h' | h'
        · exact hr r h'
        · rw [h']; exact hpc
      have hns' : ∀ a ∈ as, ∀ d, a ≠ .setDir d := fun a ha => hns a (List.mem_cons_of_mem _ ha)
      cases a with
      | setDir d => exact absurd rfl (hns _ (List.mem_cons_self ..) d)
      | start i k =>
        simp only [srvExec] at he
        split at he
        · cases he
          refine ih _ hns' ?_ ?_ ?_ ?_ h
          · exact hm
          · exact hd
          · exact hpg
          · exact hset i _ (.inr ⟨k, .inl (by rw [hm]; rfl)⟩)
        · cases he
      | step i =>
        simp only [srvExec] at he
        split at he
        · next pc hpc =>
          rcases hr pc (List.mem_of_getElem? hpc) with e | ⟨k, e | e | e | e | e⟩ <;> subst e
          · cases he
          · simp only [srvStep] at he
            split at he
            · next p hp =>
              cases he
              have := hpg k p hp
              subst this
              exact ih _ hns' (by exact hm) (by exact hd) (by exact hpg) (by exact hset i _ (.inr ⟨k, by simp⟩)) h
            · cases he
              exact ih _ hns' (by exact hm) (by exact hd) (by exact hpg) (by exact hset i _ (.inr ⟨k, by simp⟩)) h
          · simp only [srvStep] at he
            split at he
            · next p hp =>
              cases he
              have := hd p hp
              subst this
              exact ih _ hns' (by exact hm) (by exact hd) (by exact hpg) (by exact hset i _ (.inr ⟨k, by simp⟩)) h
            · cases he
              exact ih _ hns' (by exact hm) (by exact hd) (by exact hpg) (by exact hset i _ (.inr ⟨k, by simp [hm]⟩)) h
          · cases he
            exact ih _ hns' (by exact hm) (by intro p hp; cases hp; rfl) (by exact hpg) (by exact hset i _ (.inr ⟨k, by simp⟩)) h
          · cases he
            refine ih _ hns' (by exact hm) (by exact hd) ?_ (by exact hset i _ (.inr ⟨k, by simp⟩)) h
            intro k' p hp
            simp only [mget_mset] at hp
            split at hp
            · cases hp; rfl
            · exact hpg k' p hp
          · cases he
            exact ih _ hns' (by exact hm) (by exact hd) (by exact hpg) (by exact hset i _ (.inl rfl)) h
        · cases he

/-- **C64, what fails** If the project is switched while the old one is being analysed, the switch is lost: the old
project's metadata is stored, and every later answer shows the old project, until the next switch. -/
theorem C64_switch_lost : ∃ (as : List SrvAct) (s : Srv), srvRun { dir := 0, reqs := [.idle] } as = some s ∧ s.dir = 1 ∧ s.reqs = [.idle] ∧
    ∀ (more : List SrvAct) (s' : Srv), (∀ a ∈ more, ∀ d, a ≠ .setDir d) → srvRun s more = some s' →
      ∀ r ∈ s'.reqs, ∀ k p, r = .answered k p → p = some 0 := by
  refine ⟨[.start 0 "k", .step 0, .setDir 1, .step 0, .step 0, .step 0, .step 0, .step 0, .step 0], ⟨1, some 0, some (some 0), [("k", some 0)], [.idle]⟩, by decide, rfl, rfl, ?_⟩
  intro more s' hns h
  refine (srv_stuck_meta 0 more _ s' hns rfl ?_ ?_ ?_ h).2
  · intro p hp; cases hp; rfl
  · intro k p hp
    simp only [mget] at hp
    split at hp <;> cases hp
    rfl
  · intro r hr; rw [List.mem_singleton] at hr; exact .inl hr

/-- After that run a request is answered with the old project. -/
example : (srvRun { dir := 0, reqs := [.idle] } [.start 0 "k", .step 0, .setDir 1, .step 0, .step 0, .step 0, .step 0, .step 0, .step 0,
    .start 0 "k", .step 0]).map (fun s => (s.dir, s.reqs)) = some (1, [.answered "k" (some 0)]) := by decide

/-- **C64, what fails** If the project is switched while a diagram is being drawn, the old drawing can be stored after the
new project was loaded: the new project's metadata is there and the answers show the old one. -/
theorem C64_stale_drawing : ∃ (as : List SrvAct) (s : Srv), srvRun { dir := 0, reqs := [.idle, .idle] } as = some s ∧ s.dir = 1 ∧ s.meta' = some 1 ∧
    s.reqs = [.idle, .idle] ∧ ∃ s', srvRun s [.start 1 "q", .step 1, .step 1, .step 1] = some s' ∧ s'.reqs[1]? = some (.answered "q" (some 0)) :=
  ⟨[.start 0 "k", .step 0, .step 0, .step 0, .step 0, .setDir 1, .start 1 "l", .step 1, .step 1, .step 0, .step 0, .step 0, .step 1, .step 1, .step 1, .step 1], _, rfl, rfl, rfl, rfl, _, rfl, rfl⟩

/-! ## C66: by packages -/

/-- Joined by edges, whatever their direction. -/
inductive Joined (edges : List Edge) (start : Nat → Prop) : Nat → Prop
  | start {i : Nat} : start i → Joined edges start i
  | out {e : Edge} : Joined edges start e.src → e ∈ edges → Joined edges start e.tgt
  | back {e : Edge} : Joined edges start e.tgt → e ∈ edges → Joined edges start e.src

/-- **C66** Isolated: exactly the matching nodes of the packages and the edges between them. -/
theorem C66_isolated (x : Text) (all cut : Data) (inPackage : Node → Bool) (f : Filters) :
    (∀ n, n ∈ (byPackages x all cut inPackage f true).nodes ↔ n ∈ cut.nodes ∧ inPackage n = true ∧ Wanted x { f with packages := [] } n) ∧
      ∀ e, e ∈ (byPackages x all cut inPackage f true).edges ↔ e ∈ cut.edges ∧
        (∃ n ∈ (byPackages x all cut inPackage f true).nodes, n.id = e.src) ∧ ∃ n ∈ (byPackages x all cut inPackage f true).nodes, n.id = e.tgt := by
  have hk : ∀ n, matchesFilters x f n = true ↔ Wanted x { f with packages := [] } n := by
    intro n
    rw [← C65_exact]
    simp [keeps, matchesFilters]
  constructor
  · intro n
    simp only [byPackages, if_true, List.mem_filter, Bool.and_eq_true, hk]
  · intro e
    simp only [byPackages, if_true, List.mem_filter, Bool.and_eq_true, List.contains_iff_mem, List.mem_map]

structure GrowInv (all : List Node) (sel : List Node) (edges done : List Edge) (s : Grow) : Prop where
  ids : ∀ i, i ∈ s.ids ↔ i ∈ s.nodes.map (·.id)
  added : ∃ extra, s.nodes = sel ++ extra ∧ ∀ n ∈ extra, n ∈ all ∧ Joined edges (fun i => i ∈ sel.map (·.id)) n.id
  sound : ∀ e ∈ s.edges, e ∈ done ∧ e.src ∈ s.ids ∧ e.tgt ∈ s.ids
  complete : ∀ e ∈ done, (e.src ∈ sel.map (·.id) ∨ e.tgt ∈ sel.map (·.id)) → e ∈ s.edges
  once : (sel.map (·.id)).Nodup → (s.nodes.map (·.id)).Nodup

theorem joined_ids {all sel : List Node} {edges done : List Edge} {s : Grow} (h : GrowInv all sel edges done s) :
    ∀ i ∈ s.ids, Joined edges (fun i => i ∈ sel.map (·.id)) i := by
  intro i hi
  obtain ⟨extra, he, hx⟩ := h.added
  rw [h.ids, he, List.map_append, List.mem_append] at hi
  rcases hi with hi | hi
  · exact .start hi
  · obtain ⟨n, hn, rfl⟩ := List.mem_map.1 hi
    exact (hx n hn).2

theorem attach_inv {all sel : List Node} {edges done : List Edge} {s : Grow} {e : Edge} (h : GrowInv all sel edges done s) (other : Nat)
    (hother : other ∉ s.ids) (hc : other ∈ all.map (·.id)) (hsides : (e.src ∈ s.ids ∧ e.tgt = other) ∨ (e.tgt ∈ s.ids ∧ e.src = other))
    (hjo : Joined edges (fun i => i ∈ sel.map (·.id)) other) :
    GrowInv all sel edges (done ++ [e]) (attach all s e other) ∧ ∀ i ∈ s.ids, i ∈ (attach all s e other).ids := by
  simp only [attach]
  cases hf : all.find? fun n => n.id = other with
  | none =>
    obtain ⟨n, hn, hi⟩ := List.mem_map.1 hc
    exact absurd hi (by simpa using List.find?_eq_none.1 hf n hn)
  | some n =>
    have hi : n.id = other := by simpa using List.find?_some hf
    have hn : n ∈ all := List.mem_of_find?_eq_some hf
    subst hi
    dsimp only
    rw [if_neg (by simpa using hother)]
    obtain ⟨extra, h1, h2⟩ := h.added
    refine ⟨⟨?_, ⟨extra ++ [n], by rw [h1, List.append_assoc], ?_⟩, ?_, ?_, ?_⟩, fun i hi => List.mem_cons_of_mem _ hi⟩
    · intro i
      rw [List.mem_cons, h.ids, List.map_append, List.mem_append, List.map_cons, List.map_nil, List.mem_singleton, or_comm]
    · intro m hm
      rcases List.mem_append.1 hm with hm | hm
      · exact h2 m hm
      · rw [List.mem_singleton] at hm; subst hm; exact ⟨hn, hjo⟩
    · intro a ha
      rcases List.mem_append.1 ha with ha | ha
      · obtain ⟨g1, g2, g3⟩ := h.sound a ha
        exact ⟨List.mem_append_left _ g1, List.mem_cons_of_mem _ g2, List.mem_cons_of_mem _ g3⟩
      · rw [List.mem_singleton] at ha; subst ha
        refine ⟨by simp, ?_⟩
        rcases hsides with ⟨g1, g2⟩ | ⟨g1, g2⟩
        · exact ⟨List.mem_cons_of_mem _ g1, by rw [g2]; exact List.mem_cons_self ..⟩
        · exact ⟨by rw [g2]; exact List.mem_cons_self .., List.mem_cons_of_mem _ g1⟩
    · intro a ha hs
      rcases List.mem_append.1 ha with ha | ha
      · exact List.mem_append_left _ (h.complete a ha hs)
      · exact List.mem_append_right _ ha
    · intro hd
      rw [List.map_append, List.nodup_append]
      refine ⟨h.once hd, by simp, ?_⟩
      intro a ha b hb e
      simp only [List.map_cons, List.map_nil, List.mem_singleton] at hb
      subst e; subst hb
      exact hother ((h.ids _).2 ha)

theorem grow_step {all sel : List Node} {edges done : List Edge} {s : Grow} {e : Edge} (h : GrowInv all sel edges done s) (he : e ∈ edges)
    (hc1 : e.src ∈ all.map (·.id)) (hc2 : e.tgt ∈ all.map (·.id)) :
    GrowInv all sel edges (done ++ [e]) (growStep all s e) := by
  have hsel : ∀ i, i ∈ sel.map (·.id) → i ∈ s.ids := by
    intro i hi
    obtain ⟨extra, h1, _⟩ := h.added
    rw [h.ids, h1, List.map_append]
    exact List.mem_append_left _ hi
  have hj := joined_ids h
  simp only [growStep]
  by_cases h1 : e.src ∈ s.ids <;> by_cases h2 : e.tgt ∈ s.ids
  · rw [if_pos (by simp [h1, h2])]
    refine ⟨h.ids, h.added, ?_, ?_, h.once⟩
    · intro a ha
      rcases List.mem_append.1 ha with ha | ha
      · obtain ⟨g1, g2⟩ := h.sound a ha; exact ⟨List.mem_append_left _ g1, g2⟩
      · rw [List.mem_singleton] at ha; subst ha; exact ⟨by simp, h1, h2⟩
    · intro a ha hs
      rcases List.mem_append.1 ha with ha | ha
      · exact List.mem_append_left _ (h.complete a ha hs)
      · exact List.mem_append_right _ ha
  · rw [if_neg (by simp [h2]), if_pos (by simpa using h1)]
    exact (attach_inv h e.tgt h2 hc2 (.inl ⟨h1, rfl⟩) (.out (hj _ h1) he)).1
  · rw [if_neg (by simp [h1]), if_neg (by simpa using h1), if_pos (by simpa using h2)]
    exact (attach_inv h e.src h1 hc1 (.inr ⟨h2, rfl⟩) (.back (hj _ h2) he)).1
  · rw [if_neg (by simp [h1]), if_neg (by simpa using h1), if_neg (by simpa using h2)]
    refine ⟨h.ids, h.added, ?_, ?_, h.once⟩
    · intro a ha; obtain ⟨g1, g2⟩ := h.sound a ha; exact ⟨List.mem_append_left _ g1, g2⟩
    · intro a ha hs
      rcases List.mem_append.1 ha with ha | ha
      · exact h.complete a ha hs
      · rw [List.mem_singleton] at ha; subst ha
        rcases hs with hs | hs
        · exact absurd (hsel _ hs) h1
        · exact absurd (hsel _ hs) h2

theorem grow_all {all sel : List Node} {edges : List Edge} (hc : ∀ e ∈ edges, e.src ∈ all.map (·.id) ∧ e.tgt ∈ all.map (·.id)) :
    ∀ (todo done : List Edge) (s : Grow), done ++ todo = edges → GrowInv all sel edges done s → GrowInv all sel edges edges (todo.foldl (growStep all) s) := by
  intro todo
  induction todo with
  | nil => intro done s h hi; rw [List.append_nil] at h; subst h; exact hi
  | cons e todo ih =>
    intro done s h hi
    have he : e ∈ edges := by rw [← h]; simp
    exact ih (done ++ [e]) _ (by rw [← h]; simp) (grow_step hi he (hc e he).1 (hc e he).2)

/-- **C66** Not isolated: the matching nodes of the packages come first, then nodes joined to them by edges; every edge
that touches a matching node is shown, and every edge shown has both ends on the diagram; no node is repeated. -/
theorem C66_neighbours_partial (x : Text) (all cut : Data) (inPackage : Node → Bool) (f : Filters)
    (hc : ∀ e ∈ cut.edges, e.src ∈ all.nodes.map (·.id) ∧ e.tgt ∈ all.nodes.map (·.id)) (hn : (cut.nodes.map (·.id)).Nodup)
    (sel : List Node) (hsel : sel = (byPackages x all cut inPackage f true).nodes) (d : Data) (hd : d = byPackages x all cut inPackage f false) :
    (∃ extra, d.nodes = sel ++ extra ∧ ∀ n ∈ extra, n ∈ all.nodes ∧ Joined cut.edges (fun i => ∃ m ∈ sel, m.id = i) n.id) ∧
    (∀ e ∈ cut.edges, ((∃ m ∈ sel, m.id = e.src) ∨ ∃ m ∈ sel, m.id = e.tgt) → e ∈ d.edges) ∧
    (∀ e ∈ d.edges, e ∈ cut.edges ∧ (∃ n ∈ d.nodes, n.id = e.src) ∧ ∃ n ∈ d.nodes, n.id = e.tgt) ∧
    (d.nodes.map (·.id)).Nodup := by
  simp only [byPackages, if_true] at hsel
  have hinv := grow_all (all := all.nodes) (sel := sel) hc cut.edges [] ⟨sel, sel.map (·.id), []⟩ rfl
    ⟨fun _ => Iff.rfl, ⟨[], by simp, by simp⟩, by simp, by simp, fun h => h⟩
  simp only [byPackages, Bool.false_eq_true, if_false, ← hsel] at hd
  subst hd
  simp only [← List.mem_map]
  refine ⟨hinv.added, hinv.complete, ?_, hinv.once ?_⟩
  · intro e he
    obtain ⟨h1, h2, h3⟩ := hinv.sound e he
    exact ⟨h1, (hinv.ids _).1 h2, (hinv.ids _).1 h3⟩
  · rw [hsel]; exact hn.sublist (List.filter_sublist.map _)

example : (byPackages plain ⟨[{ id := 1, pkg := "a" }, { id := 2, pkg := "b" }, { id := 3, pkg := "c" }], []⟩
    ⟨[{ id := 1, pkg := "a" }, { id := 2, pkg := "b" }, { id := 3, pkg := "c" }], [{ src := 3, tgt := 2 }, { src := 2, tgt := 1 }]⟩ (fun n => n.pkg = "a") {} false).nodes.map (·.id) = [1, 2] := by decide

/-- **C66, what fails** Which nodes are added depends on the order of the edges: with the same edges in another order a
node two calls away from the package is added, or not. -/
theorem C66_order_matters : ∃ (nodes : List Node) (e1 e2 : Edge) (inPackage : Node → Bool),
    (byPackages plain ⟨nodes, [e1, e2]⟩ ⟨nodes, [e1, e2]⟩ inPackage {} false).nodes.map (·.id) = [1, 2, 3] ∧
    (byPackages plain ⟨nodes, [e2, e1]⟩ ⟨nodes, [e2, e1]⟩ inPackage {} false).nodes.map (·.id) = [1, 2] :=
  ⟨[{ id := 1, pkg := "a" }, { id := 2, pkg := "b" }, { id := 3, pkg := "c" }], { src := 1, tgt := 2 }, { src := 2, tgt := 3 }, fun n => n.pkg = "a", by decide, by decide⟩

/-! ## C67: drawing the call graph -/

/-- The node stands for the function. -/
def Stands (n : Node) (f : Fn) : Prop := n.func = f.name ∧ n.pkg = f.pkg ∧ n.recv = f.recv

/-- The functions a call graph mentions. -/
def Mentioned (calls : List Call) (f : Fn) : Prop := ∃ c ∈ calls, f = c.caller ∨ f = c.callee ∨ c.parent = some f

/-- Identifiers and names agree, and a literal is inside a declared function. -/
structure Named (calls : List Call) : Prop where
  id : ∀ f g, Mentioned calls f → Mentioned calls g → f.id = g.id → f = g
  name : ∀ f g, Mentioned calls f → Mentioned calls g → f.name = g.name → f.pkg = g.pkg → f.recv = g.recv → f = g
  declared : ∀ c ∈ calls, ∀ p, c.parent = some p → p.lit = false

/-- The declared function around a literal is part of an earlier call (or is the caller of the literal). -/
def ParentsFirst (calls : List Call) : Prop :=
  ∀ pre c post, calls = pre ++ c :: post → ∀ p, c.parent = some p → (c.caller.lit = true ∨ c.callee.lit = true) →
    (∃ c' ∈ pre, c'.caller = p ∨ c'.callee = p) ∨ (c.caller.lit = false ∧ c.caller = p)

structure DrawInv (calls : List Call) (s : Draw) : Prop where
  visited : ∀ f, Mentioned calls f → f.id ∈ s.visited → ∃ n ∈ s.nodes, Stands n f
  nodes : ∀ n ∈ s.nodes, n.id ≤ s.count ∧ ∃ f, Mentioned calls f ∧ Stands n f ∧ f.id ∈ s.visited
  distinct : s.nodes.Pairwise fun a b => a.id ≠ b.id ∧ ¬ (a.func = b.func ∧ a.pkg = b.pkg ∧ a.recv = b.recv)
  ids : ∀ k i, mget s.ids k = some i → ∃ f, Mentioned calls f ∧ f.id = k ∧ ∃ n ∈ s.nodes, n.id = i ∧ Stands n f

theorem findNode_none {nodes : List Node} {p : Fn} (h : findNode nodes p = none) : ∀ n ∈ nodes, ¬ Stands n p := by
  simp only [findNode, Option.map_eq_none_iff] at h
  intro n hn hs
  have := List.find?_eq_none.1 h n hn
  simp only [Bool.and_eq_true, decide_eq_true_eq] at this
  exact this ⟨hs.1, hs.2.1⟩

/-- What touching a function does. -/
theorem touch_cases {calls : List Call} (hc : Named calls) {s : Draw} (h : DrawInv calls s) {f : Fn} {parent : Option Fn} (hf : Mentioned calls f)
    (hp : ∀ p, parent = some p → Mentioned calls p ∧ p.lit = false) :
    (f.id ∈ s.visited ∧ touch s f parent = s) ∨
    (f.id ∉ s.visited ∧ ∃ par, touch s f parent = { s with count := s.count + 1, visited := f.id :: s.visited, ids := mset s.ids f.id (s.count + 1), nodes := s.nodes ++ [{ id := s.count + 1, label := fnLabel f, func := f.name, pkg := f.pkg, recv := f.recv, parent := par }] }) ∨
    (f.id ∉ s.visited ∧ f.lit = true ∧ ∃ p, parent = some p ∧ p.id ∉ s.visited ∧ p ≠ f ∧ ∃ lab,
      touch s f parent = { s with count := s.count + 2, visited := p.id :: f.id :: s.visited, ids := mset s.ids f.id (s.count + 1), nodes := (s.nodes ++ [{ id := s.count + 2, label := lab, func := p.name, pkg := p.pkg, recv := p.recv, isParent := true }]) ++
          [{ id := s.count + 1, label := fnLabel f, func := f.name, pkg := f.pkg, recv := f.recv, parent := some (s.count + 2) }] }) := by
  by_cases hv : f.id ∈ s.visited
  · exact .inl ⟨hv, by simp only [touch, List.contains_iff_mem.2 hv, if_true]⟩
  · have hvf : s.visited.contains f.id = false := by simpa using hv
    refine .inr ?_
    by_cases hl : f.lit = true
    · cases hpar : parent with
      | none => exact .inl ⟨hv, none, by simp only [touch, hvf, Bool.false_eq_true, if_false, parentNode, hl, if_true]⟩
      | some p =>
        obtain ⟨hmp, hlp⟩ := hp p hpar
        have hpf : p ≠ f := by intro e; rw [e, hl] at hlp; cases hlp
        cases hfn : findNode s.nodes p with
        | some i => exact .inl ⟨hv, some i, by simp only [touch, hvf, Bool.false_eq_true, if_false, parentNode, hl, if_true, hfn]⟩
        | none =>
          have hpv : p.id ∉ s.visited := by
            intro hin
            obtain ⟨n, hn, hs⟩ := h.visited p hmp hin
            exact findNode_none hfn n hn hs
          have hne : p.id ≠ f.id := fun e => hpf (hc.id p f hmp hf e)
          have hcont : (f.id :: s.visited).contains p.id = false := by
            simp only [List.contains_cons, Bool.or_eq_false_iff]
            exact ⟨by simpa using hne, by simpa using hpv⟩
          refine .inr ⟨hv, hl, p, rfl, hpv, hpf, (if p.recv ≠ "" then p.recv ++ "." ++ p.name else p.name), ?_⟩
          simp only [touch, hvf, Bool.false_eq_true, if_false, parentNode, hl, if_true, hfn, ensureParent, hcont, createParent]
    · exact .inl ⟨hv, none, by simp only [touch, hvf, Bool.false_eq_true, if_false, parentNode, hl]⟩

theorem fresh_node {calls : List Call} (hc : Named calls) {s : Draw} (h : DrawInv calls s) {f : Fn} (hf : Mentioned calls f) (hv : f.id ∉ s.visited) :
    ∀ n ∈ s.nodes, ¬ (n.func = f.name ∧ n.pkg = f.pkg ∧ n.recv = f.recv) := by
  rintro n hn ⟨h1, h2, h3⟩
  obtain ⟨_, g, hg, hs, hgv⟩ := h.nodes n hn
  have : g = f := hc.name g f hg hf (by rw [← hs.1, h1]) (by rw [← hs.2.1, h2]) (by rw [← hs.2.2, h3])
  rw [this] at hgv
  exact hv hgv

/-- Adding a node for a function that has none. -/
theorem add_node {calls : List Call} (hc : Named calls) {s : Draw} (h : DrawInv calls s) {f : Fn} (hf : Mentioned calls f) (hv : f.id ∉ s.visited)
    (n : Node) (hs : Stands n f) (hnew : ∀ m ∈ s.nodes, m.id ≠ n.id) (cnt : Nat) (hcnt : s.count ≤ cnt) (hn : n.id ≤ cnt) (ids : List (String × Nat))
    (hids : ∀ k i, mget ids k = some i → mget s.ids k = some i ∨ (k = f.id ∧ i = n.id)) :
    DrawInv calls { s with count := cnt, visited := f.id :: s.visited, ids := ids, nodes := s.nodes ++ [n] } := by
  have hfr := fresh_node hc h hf hv
  refine ⟨?_, ?_, ?_, ?_⟩
  · intro g hg hin
    rcases List.mem_cons.1 hin with e | hin
    · have := hc.id g f hg hf e
      subst this
      exact ⟨n, by simp, hs⟩
    · obtain ⟨m, hm, hms⟩ := h.visited g hg hin
      exact ⟨m, List.mem_append_left _ hm, hms⟩
  · intro m hm
    rcases List.mem_append.1 hm with hm | hm
    · obtain ⟨h1, g, hg, h2, h3⟩ := h.nodes m hm
      exact ⟨Nat.le_trans h1 hcnt, g, hg, h2, List.mem_cons_of_mem _ h3⟩
    · rw [List.mem_singleton] at hm; subst hm
      exact ⟨hn, f, hf, hs, List.mem_cons_self ..⟩
  · refine List.pairwise_append.2 ⟨h.distinct, List.pairwise_singleton _ _, ?_⟩
    intro a ha b hb
    rw [List.mem_singleton] at hb; subst hb
    refine ⟨hnew a ha, ?_⟩
    rintro ⟨h1, h2, h3⟩
    exact hfr a ha ⟨by rw [h1, hs.1], by rw [h2, hs.2.1], by rw [h3, hs.2.2]⟩
  · intro k i hk
    rcases hids k i hk with hk | ⟨rfl, rfl⟩
    · obtain ⟨g, hg, e, m, hm, h1⟩ := h.ids k i hk
      exact ⟨g, hg, e, m, List.mem_append_left _ hm, h1⟩
    · exact ⟨f, hf, rfl, n, by simp, rfl, hs⟩

theorem touch_inv {calls : List Call} (hc : Named calls) {s : Draw} (h : DrawInv calls s) {f : Fn} {parent : Option Fn} (hf : Mentioned calls f)
    (hp : ∀ p, parent = some p → Mentioned calls p ∧ p.lit = false) :
    DrawInv calls (touch s f parent) ∧ (touch s f parent).edges = s.edges ∧ (∀ n ∈ s.nodes, n ∈ (touch s f parent).nodes) ∧
      (∀ k i, mget s.ids k = some i → mget (touch s f parent).ids k = some i ∨ k = f.id) ∧ f.id ∈ (touch s f parent).visited ∧
      (f.id ∉ s.visited → (mget (touch s f parent).ids f.id).isSome) := by
  have hold : ∀ m ∈ s.nodes, m.id ≤ s.count := fun m hm => (h.nodes m hm).1
  have hset : ∀ k i, mget (mset s.ids f.id (s.count + 1)) k = some i → mget s.ids k = some i ∨ (k = f.id ∧ i = s.count + 1) := by
    intro k i hk
    rw [mget_mset] at hk
    split at hk
    · next e => cases hk; exact .inr ⟨e, rfl⟩
    · exact .inl hk
  have hset' : ∀ k i, mget s.ids k = some i → mget (mset s.ids f.id (s.count + 1)) k = some i ∨ k = f.id := by
    intro k i hk
    rw [mget_mset]
    split
    · next e => exact .inr e
    · exact .inl hk
  rcases touch_cases hc h hf hp with ⟨hv, e⟩ | ⟨hv, par, e⟩ | ⟨hv, hl, p, rfl, hpv, hpf, lab, e⟩
  · rw [e]; exact ⟨h, rfl, fun _ hn => hn, fun _ _ hk => .inl hk, hv, fun hn => absurd hv hn⟩
  · rw [e]
    refine ⟨?_, rfl, fun n hn => List.mem_append_left _ hn, hset', List.mem_cons_self .., fun _ => by simp⟩
    exact add_node hc h hf hv _ ⟨rfl, rfl, rfl⟩ (fun m hm => by have := hold m hm; simp only [ne_eq]; omega) (s.count + 1) (by omega) (by simp) _ hset
  · rw [e]
    obtain ⟨hmp, _⟩ := hp p rfl
    refine ⟨?_, rfl, fun n hn => List.mem_append_left _ (List.mem_append_left _ hn), hset', by simp, fun _ => by simp⟩
    -- first the parent, then the function
    have h1 := add_node hc h hmp hpv { id := s.count + 2, label := lab, func := p.name, pkg := p.pkg, recv := p.recv, isParent := true } ⟨rfl, rfl, rfl⟩
      (fun m hm => by have := hold m hm; simp only [ne_eq]; omega) (s.count + 2) (by omega) (by simp) s.ids (fun k i hk => .inl hk)
    have hv' : f.id ∉ p.id :: s.visited := by
      rw [List.mem_cons, not_or]
      exact ⟨fun e => hpf (hc.id f p hf hmp e).symm, hv⟩
    have h2 := add_node hc h1 hf hv' { id := s.count + 1, label := fnLabel f, func := f.name, pkg := f.pkg, recv := f.recv, parent := some (s.count + 2) } ⟨rfl, rfl, rfl⟩
      (by
        intro m hm
        rcases List.mem_append.1 hm with hm | hm
        · have := hold m hm; simp only [ne_eq]; omega
        · rw [List.mem_singleton] at hm; subst hm; simp) (s.count + 2) (by simp) (by simp) (mset s.ids f.id (s.count + 1)) hset
    refine ⟨?_, ?_, h2.distinct, h2.ids⟩
    · intro g hg hin
      exact h2.visited g hg (by simp only [List.mem_cons] at hin ⊢; rcases hin with h | h | h <;> simp [h])
    · intro m hm
      obtain ⟨a, g, hg, b, c⟩ := h2.nodes m hm
      exact ⟨a, g, hg, b, by simp only [List.mem_cons] at c ⊢; rcases c with h | h | h <;> simp [h]⟩

/-- What the edges are after some of the calls. -/
structure EdgeInv (calls done : List Call) (s : Draw) : Prop where
  inv : DrawInv calls s
  sound : ∀ e ∈ s.edges, e.calls = true ∧ ∃ c ∈ done, (∃ n ∈ s.nodes, n.id = e.src ∧ Stands n c.caller) ∧ ∃ n ∈ s.nodes, n.id = e.tgt ∧ Stands n c.callee
  pairs : s.edges.Pairwise fun a b => ¬ (a.src = b.src ∧ a.tgt = b.tgt)
  seen : ∀ c ∈ done, c.caller.id ∈ s.visited ∧ c.callee.id ∈ s.visited

theorem visited_mono {s : Draw} {f : Fn} {parent : Option Fn} {calls : List Call} (hc : Named calls) (h : DrawInv calls s) (hf : Mentioned calls f)
    (hp : ∀ p, parent = some p → Mentioned calls p ∧ p.lit = false) : ∀ k ∈ s.visited, k ∈ (touch s f parent).visited := by
  intro k hk
  rcases touch_cases hc h hf hp with ⟨hv, e⟩ | ⟨hv, par, e⟩ | ⟨hv, hl, p, rfl, hpv, hpf, lab, e⟩ <;> rw [e] <;> simp [hk]

theorem link_inv {calls : List Call} {s : Draw} (h : DrawInv calls s) (c : Call) : DrawInv calls (link s c) ∧ (link s c).nodes = s.nodes ∧ (link s c).visited = s.visited ∧ (link s c).ids = s.ids := by
  have key : ∀ es : List Edge, DrawInv calls { s with edges := es } := fun es => ⟨h.visited, h.nodes, h.distinct, h.ids⟩
  simp only [link]
  split
  · split
    · exact ⟨h, rfl, rfl, rfl⟩
    · exact ⟨key _, rfl, rfl, rfl⟩
  · exact ⟨h, rfl, rfl, rfl⟩

theorem drawCall_inv {calls done : List Call} (hc : Named calls) {s : Draw} {c : Call} (hcm : c ∈ calls) (h : EdgeInv calls done s) :
    EdgeInv calls (done ++ [c]) (drawCall s c) := by
  have hf1 : Mentioned calls c.caller := ⟨c, hcm, .inl rfl⟩
  have hf2 : Mentioned calls c.callee := ⟨c, hcm, .inr (.inl rfl)⟩
  have hp : ∀ p, c.parent = some p → Mentioned calls p ∧ p.lit = false := fun p hp => ⟨⟨c, hcm, .inr (.inr hp)⟩, hc.declared c hcm p hp⟩
  obtain ⟨i1, e1, n1, k1, v1, _⟩ := touch_inv hc h.inv hf1 hp
  obtain ⟨i2, e2, n2, k2, v2, _⟩ := touch_inv hc i1 hf2 hp
  have m1 := visited_mono hc h.inv hf1 hp
  have m2 := visited_mono hc i1 hf2 hp
  simp only [drawCall]
  generalize touch (touch s c.caller c.parent) c.callee c.parent = t at i2 e2 n2 k2 v2 m2
  have hedges : t.edges = s.edges := by rw [e2, e1]
  obtain ⟨i3, n3, v3, k3⟩ := link_inv i2 c
  have hold : ∀ e ∈ t.edges, e.calls = true ∧ ∃ c' ∈ done ++ [c], (∃ n ∈ t.nodes, n.id = e.src ∧ Stands n c'.caller) ∧ ∃ n ∈ t.nodes, n.id = e.tgt ∧ Stands n c'.callee := by
    intro e he
    rw [hedges] at he
    obtain ⟨hcalls, c', hc', ⟨a, ha, ha'⟩, b, hb, hb'⟩ := h.sound e he
    exact ⟨hcalls, c', List.mem_append_left _ hc', ⟨a, n2 a (n1 a ha), ha'⟩, b, n2 b (n1 b hb), hb'⟩
  refine ⟨i3, ?_, ?_, ?_⟩
  · rw [n3]
    simp only [link]
    split
    · next a b ha hb =>
      split
      · exact hold
      · intro e he
        rcases List.mem_append.1 he with he | he
        · exact hold e he
        · rw [List.mem_singleton] at he
          subst he
          obtain ⟨f, hf, hfid, n, hn, hni, hns⟩ := i2.ids _ _ ha
          obtain ⟨g, hg, hgid, m, hm, hmi, hms⟩ := i2.ids _ _ hb
          have ef := hc.id f c.caller hf hf1 hfid
          have eg := hc.id g c.callee hg hf2 hgid
          subst ef; subst eg
          exact ⟨rfl, c, by simp, ⟨n, hn, hni, hns⟩, m, hm, hmi, hms⟩
    · exact hold
  · simp only [link]
    have hpairs : t.edges.Pairwise fun a b => ¬ (a.src = b.src ∧ a.tgt = b.tgt) := by rw [hedges]; exact h.pairs
    split
    · next a b ha hb =>
      split
      · exact hpairs
      · next hany =>
        refine List.pairwise_append.2 ⟨hpairs, List.pairwise_singleton _ _, ?_⟩
        intro x hx y hy
        rw [List.mem_singleton] at hy; subst hy
        rintro ⟨g1, g2⟩
        exact hany (List.any_eq_true.2 ⟨x, hx, by simpa using ⟨g1, g2⟩⟩)
    · exact hpairs
  · rw [v3]
    intro c' hc'
    rcases List.mem_append.1 hc' with hc' | hc'
    · exact ⟨m2 _ (m1 _ (h.seen c' hc').1), m2 _ (m1 _ (h.seen c' hc').2)⟩
    · rw [List.mem_singleton] at hc'; subst hc'
      exact ⟨m2 _ v1, v2⟩

theorem draw_inv {calls : List Call} (hc : Named calls) : ∀ (todo done : List Call) (s : Draw), done ++ todo = calls → EdgeInv calls done s →
    EdgeInv calls calls (todo.foldl drawCall s) := by
  intro todo
  induction todo with
  | nil => intro done s h hi; rw [List.append_nil] at h; subst h; exact hi
  | cons c todo ih =>
    intro done s h hi
    exact ih (done ++ [c]) _ (by rw [← h]; simp) (drawCall_inv hc (by rw [← h]; simp) hi)

theorem draw_all {calls : List Call} (hc : Named calls) : EdgeInv calls calls (drawCalls calls) :=
  draw_inv hc calls [] {} rfl ⟨⟨by simp, by simp, by simp, by simp⟩, by simp, by simp, by simp⟩

/-- **C67** Every function that calls or is called has exactly one node, and different nodes have different ids and stand
for different functions. -/
theorem C67_nodes (calls : List Call) (hc : Named calls) :
    (∀ c ∈ calls, ∀ f, f = c.caller ∨ f = c.callee → ∃ n ∈ (drawCalls calls).nodes, Stands n f ∧ ∀ m ∈ (drawCalls calls).nodes, Stands m f → m = n) ∧
    ((drawCalls calls).nodes.map (·.id)).Nodup ∧ ∀ n ∈ (drawCalls calls).nodes, ∃ f, Mentioned calls f ∧ Stands n f := by
  have h := draw_all hc
  refine ⟨?_, List.pairwise_map.2 (h.inv.distinct.imp fun h => h.1), fun n hn => ?_⟩
  · intro c hcm f hf
    have hm : Mentioned calls f := ⟨c, hcm, by rcases hf with e | e <;> simp [e]⟩
    have hv : f.id ∈ (drawCalls calls).visited := by
      rcases hf with e | e
      · rw [e]; exact (h.seen c hcm).1
      · rw [e]; exact (h.seen c hcm).2
    obtain ⟨n, hn, hs⟩ := h.inv.visited f hm hv
    refine ⟨n, hn, hs, ?_⟩
    intro m hm' hs'
    have hd := h.inv.distinct
    obtain ⟨i, hi, rfl⟩ := List.getElem_of_mem hm'
    obtain ⟨j, hj, rfl⟩ := List.getElem_of_mem hn
    have same : ∀ a b : Node, Stands a f → Stands b f → a.func = b.func ∧ a.pkg = b.pkg ∧ a.recv = b.recv := by
      rintro a b ⟨a1, a2, a3⟩ ⟨b1, b2, b3⟩
      exact ⟨a1.trans b1.symm, a2.trans b2.symm, a3.trans b3.symm⟩
    rcases Nat.lt_trichotomy i j with hij | hij | hij
    · exact absurd (same _ _ hs' hs) (List.pairwise_iff_getElem.1 hd i j hi hj hij).2
    · subst hij; rfl
    · exact absurd (same _ _ hs hs') (List.pairwise_iff_getElem.1 hd j i hj hi hij).2
  · obtain ⟨_, f, hf, hs, _⟩ := h.inv.nodes n hn
    exact ⟨f, hf, hs⟩

/-- **C67** Every edge stands for a call, and no two edges join the same nodes. -/
theorem C67_edges_sound (calls : List Call) (hc : Named calls) :
    (∀ e ∈ (drawCalls calls).edges, ∃ c ∈ calls, (∃ n ∈ (drawCalls calls).nodes, n.id = e.src ∧ Stands n c.caller) ∧
      ∃ n ∈ (drawCalls calls).nodes, n.id = e.tgt ∧ Stands n c.callee) ∧
    (drawCalls calls).edges.Pairwise fun a b => ¬ (a.src = b.src ∧ a.tgt = b.tgt) :=
  ⟨fun e he => ((draw_all hc).sound e he).2, (draw_all hc).pairs⟩

/-- Nothing is dropped so far. -/
structure FullInv (calls done : List Call) (s : Draw) : Prop where
  base : EdgeInv calls done s
  known : ∀ f, Mentioned calls f → f.id ∈ s.visited → (mget s.ids f.id).isSome
  complete : ∀ c ∈ done, ∃ e ∈ s.edges, mget s.ids c.caller.id = some e.src ∧ mget s.ids c.callee.id = some e.tgt

theorem touch_known {calls : List Call} (hc : Named calls) {s : Draw} (h : DrawInv calls s) {f : Fn} {parent : Option Fn} (hf : Mentioned calls f)
    (hp : ∀ p, parent = some p → Mentioned calls p ∧ p.lit = false) (hk : ∀ f, Mentioned calls f → f.id ∈ s.visited → (mget s.ids f.id).isSome)
    (hpf : f.lit = true → ∀ p, parent = some p → p.id ∈ s.visited) :
    (∀ g, Mentioned calls g → g.id ∈ (touch s f parent).visited → (mget (touch s f parent).ids g.id).isSome) ∧
      (∀ k i, mget s.ids k = some i → k ∈ s.visited → mget (touch s f parent).ids k = some i) := by
  rcases touch_cases hc h hf hp with ⟨hv, e⟩ | ⟨hv, par, e⟩ | ⟨hv, hl, p, rfl, hpv, hpf', lab, e⟩
  · rw [e]; exact ⟨hk, fun _ _ h _ => h⟩
  · rw [e]
    refine ⟨?_, ?_⟩
    · intro g hg hin
      simp only [mget_mset]
      split
      · rfl
      · next hne =>
        rcases List.mem_cons.1 hin with h | h
        · exact absurd h hne
        · exact hk g hg h
    · intro k i hki hkv
      have hne : k ≠ f.id := by intro e; subst e; exact hv hkv
      simp only [mget_mset, hne, if_false, hki]
  · exact absurd (hpf hl p rfl) hpv

theorem drawCall_full {calls done : List Call} (hc : Named calls) {s : Draw} {c : Call} (hcm : c ∈ calls) (h : FullInv calls done s)
    (hids : ∀ k i, mget s.ids k = some i → k ∈ s.visited)
    (hpar : ∀ p, c.parent = some p → (c.caller.lit = true ∨ c.callee.lit = true) → (∃ c' ∈ done, c'.caller = p ∨ c'.callee = p) ∨ (c.caller.lit = false ∧ c.caller = p)) :
    FullInv calls (done ++ [c]) (drawCall s c) ∧ ∀ k i, mget (drawCall s c).ids k = some i → k ∈ (drawCall s c).visited := by
  have hf1 : Mentioned calls c.caller := ⟨c, hcm, .inl rfl⟩
  have hf2 : Mentioned calls c.callee := ⟨c, hcm, .inr (.inl rfl)⟩
  have hp : ∀ p, c.parent = some p → Mentioned calls p ∧ p.lit = false := fun p hp => ⟨⟨c, hcm, .inr (.inr hp)⟩, hc.declared c hcm p hp⟩
  obtain ⟨i1, e1, _, _, v1, _⟩ := touch_inv hc h.base.inv hf1 hp
  obtain ⟨i2, e2, _, _, v2, _⟩ := touch_inv hc i1 hf2 hp
  have m1 := visited_mono hc h.base.inv hf1 hp
  have m2 := visited_mono hc i1 hf2 hp
  have seenp : ∀ p, (∃ c' ∈ done, c'.caller = p ∨ c'.callee = p) → p.id ∈ s.visited := by
    rintro p ⟨c', hc', e | e⟩
    · rw [← e]; exact (h.base.seen c' hc').1
    · rw [← e]; exact (h.base.seen c' hc').2
  obtain ⟨g1, g1'⟩ := touch_known hc h.base.inv hf1 hp h.known (by
    intro hl p hpp
    rcases hpar p hpp (.inl hl) with h' | h'
    · exact seenp p h'
    · rw [hl] at h'; cases h'.1)
  obtain ⟨g2, g2'⟩ := touch_known hc i1 hf2 hp g1 (by
    intro hl p hpp
    rcases hpar p hpp (.inr hl) with h' | h'
    · exact m1 _ (seenp p h')
    · rw [← h'.2]; exact v1)
  have kv : ∀ {t : Draw} {f : Fn}, DrawInv calls t → Mentioned calls f → (∀ k i, mget t.ids k = some i → k ∈ t.visited) →
      ∀ k i, mget (touch t f c.parent).ids k = some i → k ∈ (touch t f c.parent).visited := by
    intro t f ht hf hkv k i hk
    rcases touch_cases hc ht hf hp with ⟨hv, e⟩ | ⟨hv, par, e⟩ | ⟨hv, hl, p, hpp, hpv, hpf', lab, e⟩
    · rw [e] at hk ⊢; exact hkv k i hk
    · rw [e] at hk ⊢
      simp only [mget_mset] at hk
      split at hk
      · next e' => simp [e']
      · exact List.mem_cons_of_mem _ (hkv k i hk)
    · rw [e] at hk ⊢
      simp only [mget_mset] at hk
      split at hk
      · next e' => simp [e']
      · exact List.mem_cons_of_mem _ (List.mem_cons_of_mem _ (hkv k i hk))
  have hids1 := kv h.base.inv hf1 hids
  have hids2 := kv i1 hf2 hids1
  have hbase := drawCall_inv hc hcm h.base
  simp only [drawCall] at hbase ⊢
  generalize hu : touch s c.caller c.parent = u at *
  generalize ht : touch u c.callee c.parent = t at *
  obtain ⟨_, n3, v3, k3⟩ := link_inv i2 c
  obtain ⟨a, ha⟩ := Option.isSome_iff_exists.1 (g2 c.caller hf1 (m2 _ v1))
  obtain ⟨b, hb⟩ := Option.isSome_iff_exists.1 (g2 c.callee hf2 v2)
  have hlink : ∀ e ∈ t.edges, e ∈ (link t c).edges := by
    intro e he
    simp only [link, ha, hb]
    split
    · exact he
    · exact List.mem_append_left _ he
  refine ⟨⟨hbase, by rw [v3, k3]; exact g2, ?_⟩, by rw [v3, k3]; exact hids2⟩
  rw [k3]
  intro c' hc'
  rcases List.mem_append.1 hc' with hc' | hc'
  · obtain ⟨e, he, x1, x2⟩ := h.complete c' hc'
    have s1 := (h.base.seen c' hc').1
    have s2 := (h.base.seen c' hc').2
    exact ⟨e, hlink e (by rw [e2, e1]; exact he), g2' _ _ (g1' _ _ x1 s1) (m1 _ s1), g2' _ _ (g1' _ _ x2 s2) (m1 _ s2)⟩
  · rw [List.mem_singleton] at hc'; subst hc'
    by_cases hany : (t.edges.any fun e => e.src = a && e.tgt = b) = true
    · obtain ⟨e, he, hab⟩ := List.any_eq_true.1 hany
      simp only [Bool.and_eq_true, decide_eq_true_eq] at hab
      exact ⟨e, hlink e he, by rw [ha, hab.1], by rw [hb, hab.2]⟩
    · refine ⟨{ src := a, tgt := b }, ?_, ha, hb⟩
      simp only [link, ha, hb, hany]
      simp

theorem draw_full {calls : List Call} (hc : Named calls) (hpf : ParentsFirst calls) : ∀ (todo done : List Call) (s : Draw), done ++ todo = calls →
    FullInv calls done s → (∀ k i, mget s.ids k = some i → k ∈ s.visited) → FullInv calls calls (todo.foldl drawCall s) := by
  intro todo
  induction todo with
  | nil => intro done s h hi _; rw [List.append_nil] at h; subst h; exact hi
  | cons c todo ih =>
    intro done s h hi hk
    obtain ⟨g1, g2⟩ := drawCall_full hc (c := c) (by rw [← h]; simp) hi hk (fun p hp hl => hpf done c todo h.symm p hp hl)
    exact ih (done ++ [c]) _ (by rw [← h]; simp) g1 g2

/-- **C67** If the function around each literal is part of an earlier call, every call has an edge between the nodes of its
two functions. -/
theorem C67_edges_partial (calls : List Call) (hc : Named calls) (hpf : ParentsFirst calls) :
    ∀ c ∈ calls, ∃ e ∈ (drawCalls calls).edges, (∃ n ∈ (drawCalls calls).nodes, n.id = e.src ∧ Stands n c.caller) ∧
      ∃ n ∈ (drawCalls calls).nodes, n.id = e.tgt ∧ Stands n c.callee := by
  have h : FullInv calls calls (drawCalls calls) := draw_full hc hpf calls [] {} rfl
    ⟨⟨⟨by simp, by simp, by simp, by simp⟩, by simp, by simp, by simp⟩, by simp, by simp⟩ (by simp)
  intro c hcm
  have hf1 : Mentioned calls c.caller := ⟨c, hcm, .inl rfl⟩
  have hf2 : Mentioned calls c.callee := ⟨c, hcm, .inr (.inl rfl)⟩
  obtain ⟨e, he, h1, h2⟩ := h.complete c hcm
  obtain ⟨f, hf, hfid, n, hn, hni, hns⟩ := h.base.inv.ids _ _ h1
  obtain ⟨g, hg, hgid, m, hm, hmi, hms⟩ := h.base.inv.ids _ _ h2
  have ef := hc.id f c.caller hf hf1 hfid
  have eg := hc.id g c.callee hg hf2 hgid
  subst ef; subst eg
  exact ⟨e, he, ⟨n, hn, hni, hns⟩, m, hm, hmi, hms⟩

def fMain : Fn := { id := "p.main", name := "main", pkg := "p" }
def fLit : Fn := { id := "p.FuncLit:1", name := "FuncLit:1", pkg := "p", lit := true }
def fFoo : Fn := { id := "p.foo", name := "foo", pkg := "p" }
def fBar : Fn := { id := "p.bar", name := "bar", pkg := "p" }

/-- `main` calls `bar` before its literal calls `foo`: all edges are drawn. -/
example : ((drawCalls [{ caller := fMain, callee := fBar }, { caller := fLit, callee := fFoo, parent := some fMain }]).edges.map fun e => (e.src, e.tgt)) = [(1, 2), (3, 4)] := by decide

example : ParentsFirst [{ caller := fMain, callee := fBar }, { caller := fLit, callee := fFoo, parent := some fMain }] := by
  intro pre c post h p hp _
  rcases pre with _ | ⟨x, _ | ⟨y, pre⟩⟩
  · cases h; cases hp
  · cases h; cases hp; exact .inl ⟨_, List.mem_cons_self .., .inl rfl⟩
  · have := congrArg List.length h
    simp at this

/-- **C67, what fails** `main` calls `bar` after its literal called `foo`: `main` has a node, drawn as the literal's parent,
but its calls are missing from the diagram. -/
theorem C67_calls_lost : ∃ calls : List Call, Named calls ∧ (∃ c ∈ calls, c.caller = fMain ∧ c.callee = fBar) ∧
    (∃ n ∈ (drawCalls calls).nodes, Stands n fMain) ∧ ∀ e ∈ (drawCalls calls).edges, ∀ n ∈ (drawCalls calls).nodes, n.id = e.src → ¬ Stands n fMain := by
  refine ⟨[{ caller := fLit, callee := fFoo, parent := some fMain }, { caller := fMain, callee := fBar }], ⟨?_, ?_, ?_⟩, ?_, ?_, ?_⟩
  · have key : ∀ f, Mentioned [{ caller := fLit, callee := fFoo, parent := some fMain }, { caller := fMain, callee := fBar }] f → f = fLit ∨ f = fFoo ∨ f = fMain ∨ f = fBar := by
      rintro f ⟨c, hc, h⟩
      simp only [List.mem_cons, List.not_mem_nil, or_false] at hc
      rcases hc with rfl | rfl <;> simp at h <;> grind
    intro f g hf hg e
    rcases key f hf with rfl | rfl | rfl | rfl <;> rcases key g hg with rfl | rfl | rfl | rfl <;> first | rfl | exact absurd e (by decide)
  · have key : ∀ f, Mentioned [{ caller := fLit, callee := fFoo, parent := some fMain }, { caller := fMain, callee := fBar }] f → f = fLit ∨ f = fFoo ∨ f = fMain ∨ f = fBar := by
      rintro f ⟨c, hc, h⟩
      simp only [List.mem_cons, List.not_mem_nil, or_false] at hc
      rcases hc with rfl | rfl <;> simp at h <;> grind
    intro f g hf hg e _ _
    rcases key f hf with rfl | rfl | rfl | rfl <;> rcases key g hg with rfl | rfl | rfl | rfl <;> first | rfl | exact absurd e (by decide)
  · intro c hc p hp
    simp only [List.mem_cons, List.not_mem_nil, or_false] at hc
    rcases hc with rfl | rfl <;> simp at hp
    subst hp; rfl
  · exact ⟨_, List.mem_cons_of_mem _ (List.mem_cons_self ..), rfl, rfl⟩
  · simp only [Stands]; decide
  · simp only [Stands]; decide

/-- **C67, what fails** The literal inside the method `S.Run` is drawn inside `T.Run`, because the enclosing function is
looked for by name and package only. -/
theorem C67_wrong_parent : ∃ (calls : List Call) (n m : Node) (p : Fn), n ∈ (drawCalls calls).nodes ∧ m ∈ (drawCalls calls).nodes ∧
    (∃ c ∈ calls, Stands n c.caller ∧ c.caller.lit = true ∧ c.parent = some p) ∧ n.parent = some m.id ∧ ¬ Stands m p ∧ m.recv = "T" ∧ p.recv = "S" := by
  refine ⟨[{ caller := { id := "p.T.Run", name := "Run", pkg := "p", recv := "T" }, callee := fFoo },
      { caller := { id := "p.S.Run", name := "Run", pkg := "p", recv := "S" }, callee := fFoo },
      { caller := fLit, callee := fBar, parent := some { id := "p.S.Run", name := "Run", pkg := "p", recv := "S" } }],
    { id := 4, label := "FuncLit", func := "FuncLit:1", pkg := "p", parent := some 1 }, { id := 1, label := "T.Run", func := "Run", pkg := "p", recv := "T" },
    { id := "p.S.Run", name := "Run", pkg := "p", recv := "S" }, by decide, by decide, ?_, rfl, by simp [Stands], rfl, rfl⟩
  exact ⟨_, List.mem_cons_of_mem _ (List.mem_cons_of_mem _ (List.mem_cons_self ..)), ⟨rfl, rfl, rfl⟩, rfl, rfl⟩

end Verif.DiagramProps
