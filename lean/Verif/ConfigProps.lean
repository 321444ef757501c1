import Verif.ConfigSpec
import Verif.SecurityDoc
/-! # Detection, composition and merging (C19-C21) -/

namespace Verif.Config
open Verif.Common
open Verif.Security (split_at_char)

/-! ## C19 -/

theorem classify_iff (has : String → String → Bool) (reg : List Framework) (path name : String) :
    classify has (detectable reg) path = some name ↔ Belongs has reg path name := by
  unfold classify detectable Belongs matchesAny
  rw [List.find?_filter]
  induction reg with
  | nil => simp
  | cons f reg ih =>
    rw [List.find?_cons]
    by_cases hf : ∃ p ∈ f.sourcePatterns, has path p = true
    · have : decide ((!f.sourcePatterns.isEmpty) = true ∧ (f.sourcePatterns.any fun p => has path p) = true) = true := by
        obtain ⟨p, hp, h⟩ := hf
        rw [decide_eq_true_iff]
        refine ⟨?_, List.any_eq_true.2 ⟨p, hp, h⟩⟩
        cases e : f.sourcePatterns with
        | nil => rw [e] at hp; simp at hp
        | cons _ _ => rfl
      simp only [this, Option.map_some, Option.some.injEq]
      constructor
      · intro e; exact ⟨[], f, reg, rfl, e, hf, by simp⟩
      · rintro ⟨a, g, b, e, hn, hg, ha⟩
        cases a with
        | nil => rw [List.nil_append, List.cons.injEq] at e; rw [e.1]; exact hn
        | cons x a =>
          rw [List.cons_append, List.cons.injEq] at e
          obtain ⟨p, hp, h⟩ := hf
          have := ha x (by simp) p (by rw [← e.1]; exact hp)
          rw [this] at h; cases h
    · have hno : ∀ p ∈ f.sourcePatterns, has path p = false := by
        intro p hp
        cases h : has path p with
        | false => rfl
        | true => exact absurd ⟨p, hp, h⟩ hf
      have : decide ((!f.sourcePatterns.isEmpty) = true ∧ (f.sourcePatterns.any fun p => has path p) = true) = false := by
        rw [decide_eq_false_iff_not]
        rintro ⟨_, h⟩
        exact hf (List.any_eq_true.1 h)
      simp only [this]
      rw [ih]
      constructor
      · rintro ⟨a, g, b, e, hn, hg, ha⟩
        refine ⟨f :: a, g, b, by rw [e]; rfl, hn, hg, ?_⟩
        intro x hx
        rcases List.mem_cons.1 hx with rfl | hx
        · exact hno
        · exact ha x hx
      · rintro ⟨a, g, b, e, hn, hg, ha⟩
        cases a with
        | nil =>
          rw [List.nil_append, List.cons.injEq] at e
          rw [← e.1] at hg
          exact absurd hg hf
        | cons x a =>
          rw [List.cons_append, List.cons.injEq] at e
          exact ⟨a, g, b, e.2, hn, hg, fun y hy => ha y (by simp [hy])⟩

theorem scanFile_eq (has : String → String → Bool) (det : List Framework) (imports : List String) : ∀ acc : List String,
    scanFile has det acc imports = acc ++ dedupGo id acc (imports.filterMap (classify has det)) := by
  unfold scanFile
  induction imports with
  | nil => intro acc; simp [dedupGo]
  | cons i is ih =>
    intro acc
    rw [List.foldl_cons, ih]
    cases hc : classify has det i with
    | none => simp only [List.filterMap_cons, hc]
    | some n =>
      simp only [List.filterMap_cons, hc]
      rw [dedupGo]
      by_cases hn : n ∈ acc
      · simp [hn]
      · rw [if_neg hn, if_neg (by simpa using hn), List.append_assoc]
        simp only [List.singleton_append, id_eq]
        congr 2
        apply dedupGo_congr
        intro k; simp [or_comm]

/-- A list without repetitions inside another of at most its length covers it. -/
theorem covers {α} [DecidableEq α] : ∀ (a b : List α), a.Nodup → (∀ x ∈ a, x ∈ b) → b.length ≤ a.length → ∀ x ∈ b, x ∈ a := by
  intro a
  induction a with
  | nil => intro b _ _ hl x hx; cases b with
    | nil => simp at hx
    | cons _ _ => simp at hl
  | cons y a ih =>
    intro b hnd hs hl x hx
    rw [List.nodup_cons] at hnd
    have hy : y ∈ b := hs y (by simp)
    by_cases hxy : x = y
    · simp [hxy]
    · right
      apply ih (b.erase y) hnd.2
      · intro z hz
        have hzy : z ≠ y := fun e => hnd.1 (e ▸ hz)
        exact (List.mem_erase_of_ne hzy).2 (hs z (by simp [hz]))
      · rw [List.length_erase_of_mem hy]; simp only [List.length_cons] at hl; omega
      · exact (List.mem_erase_of_ne hxy).2 hx

theorem dedupGo_all_seen {α κ} [DecidableEq κ] (key : α → κ) (s : List κ) (l : List α) (h : ∀ x ∈ l, key x ∈ s) :
    dedupGo key s l = [] := by
  induction l with
  | nil => rfl
  | cons x l ih => rw [dedupGo, if_pos (h x (by simp))]; exact ih fun y hy => h y (by simp [hy])

theorem walk_eq (has : String → String → Bool) (det : List Framework) (files : List (Option (List String))) : ∀ acc : List String,
    acc.Nodup → (∀ n ∈ acc, n ∈ det.map Framework.name) →
    walk has det acc files = acc ++ dedupGo id acc ((allImports files).filterMap (classify has det)) := by
  have hname : ∀ i n, classify has det i = some n → n ∈ det.map Framework.name := by
    intro i n h
    unfold classify at h
    obtain ⟨f, hf, e⟩ := Option.map_eq_some_iff.1 h
    exact List.mem_map.2 ⟨f, List.mem_of_find?_eq_some hf, e⟩
  induction files with
  | nil => intro acc _ _; simp [walk, allImports, dedupGo]
  | cons f fs ih =>
    intro acc hnd hsub
    cases f with
    | none => rw [walk, ih acc hnd hsub]; rfl
    | some imports =>
      have happ : allImports (some imports :: fs) = imports ++ allImports fs := rfl
      rw [walk, happ, List.filterMap_append, dedupGo_append, scanFile_eq]
      have hmem : ∀ n, n ∈ acc ++ dedupGo id acc (imports.filterMap (classify has det)) → n ∈ det.map Framework.name := by
        intro n hn
        rcases List.mem_append.1 hn with h | h
        · exact hsub n h
        · obtain ⟨i, _, hi⟩ := List.mem_filterMap.1 ((dedupGo_sublist _ _ _).subset h)
          exact hname i n hi
      have hnd' : (acc ++ dedupGo id acc (imports.filterMap (classify has det))).Nodup := by
        rw [List.nodup_append]
        refine ⟨hnd, by simpa using dedupGo_nodup id acc (imports.filterMap (classify has det)), ?_⟩
        rintro x hx y hy rfl
        exact dedupGo_not_seen id acc _ x hy hx
      simp only [List.map_id]
      split
      · next hl =>
        rw [dedupGo_all_seen id (acc ++ _) _ ?_, List.append_nil]
        intro n hn
        obtain ⟨i, _, hi⟩ := List.mem_filterMap.1 hn
        exact covers _ (det.map Framework.name) hnd' hmem (by rw [hl, List.length_map]; exact Nat.le_refl _) n (hname i n hi)
      · rw [ih _ hnd' hmem, List.append_assoc]

theorem detectAll_eq (has : String → String → Bool) (reg : List Framework) (files : List (Option (List String))) :
    detectAll has reg files =
      if dedup ((allImports files).filterMap (classify has (detectable reg))) = [] then [stdlib]
      else dedup ((allImports files).filterMap (classify has (detectable reg))) := by
  unfold detectAll
  rw [walk_eq _ _ _ [] List.nodup_nil (by simp)]
  rfl

/-- **C19.** The list has no repetitions; a framework other than the fallback is listed
exactly when an import of a file that parses belongs to it; the list is `["net/http"]`
exactly when nothing is recognised (provided net/http itself is not source-detectable, as
in the registry). The early exit of the walk is part of the code modelled, so it changes
none of this. -/
theorem C19_exact (has : String → String → Bool) (reg : List Framework) (files : List (Option (List String))) :
    (detectAll has reg files).Nodup ∧
    ((∃ i ∈ allImports files, ∃ n, Belongs has reg i n) →
      ∀ n, n ∈ detectAll has reg files ↔ ∃ i ∈ allImports files, Belongs has reg i n) ∧
    ((¬ ∃ i ∈ allImports files, ∃ n, Belongs has reg i n) → detectAll has reg files = ["net/http"]) := by
  rw [detectAll_eq]
  have hmem : ∀ n, n ∈ dedup ((allImports files).filterMap (classify has (detectable reg))) ↔ ∃ i ∈ allImports files, Belongs has reg i n := by
    intro n
    rw [mem_dedup, List.mem_filterMap]
    simp only [classify_iff]
  split
  · next h =>
    refine ⟨by simp, ?_, fun _ => rfl⟩
    rintro ⟨i, hi, n, hb⟩
    have := (hmem n).2 ⟨i, hi, hb⟩
    rw [h] at this; simp at this
  · next h =>
    refine ⟨dedup_nodup _, fun _ => hmem, ?_⟩
    intro hno
    obtain ⟨n, hn⟩ := List.exists_mem_of_ne_nil _ h
    obtain ⟨i, hi, hb⟩ := (hmem n).1 hn
    exact absurd ⟨i, hi, n, hb⟩ hno

/-- **C19, order.** What precedes a framework in the list is exactly what had been met
before its first import. -/
theorem C19_first_seen_order (has : String → String → Bool) (reg : List Framework) (files : List (Option (List String)))
    (a b : List String) (i n : String) (hsplit : allImports files = a ++ i :: b) (hb : Belongs has reg i n)
    (hfirst : ∀ j ∈ a, ¬ Belongs has reg j n) :
    ∃ x y, detectAll has reg files = x ++ n :: y ∧ ∀ m, m ∈ x ↔ ∃ j ∈ a, Belongs has reg j m := by
  have hc := (classify_iff has reg i n).2 hb
  have hseq : (allImports files).filterMap (classify has (detectable reg)) =
      a.filterMap (classify has (detectable reg)) ++ n :: b.filterMap (classify has (detectable reg)) := by
    rw [hsplit, List.filterMap_append, List.filterMap_cons, hc]
  have hm : ∀ m, m ∈ dedupGo id [] (a.filterMap (classify has (detectable reg))) ↔ ∃ j ∈ a, Belongs has reg j m := by
    intro m
    have := mem_dedup (a.filterMap (classify has (detectable reg))) m
    unfold dedup dedupBy at this
    rw [this, List.mem_filterMap]
    simp only [classify_iff]
  have hd : dedup ((allImports files).filterMap (classify has (detectable reg))) =
      dedupGo id [] (a.filterMap (classify has (detectable reg))) ++ n ::
        dedupGo id (n :: ([] ++ (dedupGo id [] (a.filterMap (classify has (detectable reg)))).map id)) (b.filterMap (classify has (detectable reg))) := by
    rw [hseq]
    unfold dedup dedupBy
    rw [dedupGo_append, dedupGo, if_neg]
    · rfl
    · simp only [List.nil_append, List.map_id, id_eq]
      intro h
      obtain ⟨j, hj, hb'⟩ := (hm n).1 h
      exact hfirst j hj hb'
  rw [detectAll_eq, if_neg (by rw [hd]; simp), hd]
  exact ⟨_, _, rfl, hm⟩

/-- **C19**: `Detect` always has a first element to return. -/
theorem C19_never_empty (has : String → String → Bool) (reg : List Framework) (files : List (Option (List String))) :
    detectAll has reg files ≠ [] := by
  unfold detectAll
  dsimp only
  split
  · simp
  · assumption

/-- Substring test, for the example. -/
def demoHas (path p : String) : Bool := path == "github.com/" ++ p

example : detectAll demoHas registry [some ["fmt"], none, some ["github.com/go-chi/chi", "github.com/gin-gonic/gin"], some ["github.com/go-chi/chi", "github.com/gorilla/mux"]] =
    ["chi", "gin", "mux"] := by decide
example : detectAll demoHas registry [some ["fmt", "net/http"]] = ["net/http"] := by decide

/-! ## C21 -/

theorem addStep_fold {α} (key : α → String) (l : List α) : ∀ st : List String × List α,
    (l.foldl (addStep key) st).2 = st.2 ++ dedupGo key st.1 l ∧
    ∀ k, k ∈ (l.foldl (addStep key) st).1 ↔ k ∈ st.1 ∨ k ∈ l.map key := by
  induction l with
  | nil => intro st; simp [dedupGo]
  | cons x l ih =>
    intro st
    rw [List.foldl_cons, dedupGo]
    unfold addStep at ih ⊢
    by_cases hx : key x ∈ st.1
    · rw [if_pos hx, if_pos hx]
      refine ⟨(ih st).1, fun k => ?_⟩
      rw [(ih st).2 k, List.map_cons, List.mem_cons]
      constructor
      · rintro (h | h); exact .inl h; exact .inr (.inr h)
      · rintro (h | rfl | h); exact .inl h; exact .inl hx; exact .inr h
    · rw [if_neg hx, if_neg hx]
      obtain ⟨h1, h2⟩ := ih (key x :: st.1, st.2 ++ [x])
      refine ⟨by rw [h1]; simp, fun k => ?_⟩
      rw [h2 k]
      simp only [List.mem_cons, List.map_cons]
      constructor
      · rintro ((h | h) | h); exact .inr (.inl h); exact .inl h; exact .inr (.inr h)
      · rintro (h | h | h); exact .inl (.inr h); exact .inl (.inl h); exact .inr h

theorem mergeList_eq {α} (key : α → String) (prim : List α) (secs : List (List α)) :
    mergeList key prim secs = prim ++ dedupGo key (prim.map key) secs.flatten := by
  have gen : ∀ (secs : List (List α)) (st : List String × List α),
      (secs.foldl (fun st sec => sec.foldl (addStep key) st) st).2 = st.2 ++ dedupGo key st.1 secs.flatten := by
    intro secs
    induction secs with
    | nil => intro st; simp [dedupGo]
    | cons s secs ih =>
      intro st
      rw [List.foldl_cons, ih, List.flatten_cons, dedupGo_append, (addStep_fold key s st).1, List.append_assoc]
      congr 2
      apply dedupGo_congr
      intro k
      rw [(addStep_fold key s st).2, List.mem_append]
      constructor
      · rintro (h | h)
        · exact .inl h
        · by_cases hk : k ∈ st.1
          · exact .inl hk
          · right
            have : k ∈ (st.1 ++ (dedupGo key st.1 s).map key) := by
              obtain ⟨x, hx, rfl⟩ := List.mem_map.1 h
              exact seen_or_kept key s st.1 x hx
            rcases List.mem_append.1 this with h | h
            · exact absurd h hk
            · exact h
      · rintro (h | h)
        · exact .inl h
        · obtain ⟨x, hx, rfl⟩ := List.mem_map.1 h
          exact .inr (List.mem_map.2 ⟨x, (dedupGo_sublist _ _ _).subset hx, rfl⟩)
  exact gen secs _

/-- The patterns a merge reads from its secondaries, in order. -/
def offered (secs : List (Option Cfg)) (k : Kind) : List Pat := secs.flatMap fun s => (s.map fun c => c.pats k).getD []

theorem offered_eq (secs : List (Option Cfg)) (k : Kind) : ((secs.filterMap id).map fun s => s.pats k).flatten = offered secs k := by
  induction secs with
  | nil => rfl
  | cons s secs ih => cases s <;> simp_all [offered]

theorem merge_pats (prim : Cfg) (secs : List (Option Cfg)) (k : Kind) :
    (mergeConfigs prim secs).pats k = prim.pats k ++ dedupGo (key k) ((prim.pats k).map (key k)) (offered secs k) := by
  show mergeList (key k) (prim.pats k) ((secs.filterMap id).map fun s => s.pats k) = _
  rw [mergeList_eq, offered_eq]

/-- **C21, the primary leads.** The primary's patterns come first, all of them and in their
order; what follows is taken from the secondaries in order, never with the key of a primary
pattern and never twice with one key. -/
theorem C21_primary_first (prim : Cfg) (secs : List (Option Cfg)) (k : Kind) :
    ∃ extra, (mergeConfigs prim secs).pats k = prim.pats k ++ extra ∧
      extra.Sublist (offered secs k) ∧
      (∀ p ∈ extra, ∀ q ∈ prim.pats k, key k p ≠ key k q) ∧
      extra.Pairwise (fun p q => key k p ≠ key k q) := by
  refine ⟨_, merge_pats prim secs k, dedupGo_sublist _ _ _, ?_, ?_⟩
  · intro p hp q hq e
    exact dedupGo_not_seen (key k) _ _ p hp (e ▸ List.mem_map.2 ⟨q, hq, rfl⟩)
  · have := dedupGo_nodup (key k) ((prim.pats k).map (key k)) (offered secs k)
    rw [List.nodup_iff_pairwise_ne, List.pairwise_map] at this
    exact this

theorem nul_toList : "\x00".toList = ['\x00'] := by decide

theorem nulJoin3 (a b c : String) :
    (nulJoin [a, b, c]).toList = a.toList ++ '\x00' :: (b.toList ++ '\x00' :: c.toList) := by
  unfold nulJoin
  rw [String.toList_intercalate, nul_toList]
  simp [List.intercalate, List.intersperse]

theorem nulJoin4 (a b c d : String) :
    (nulJoin [a, b, c, d]).toList = a.toList ++ '\x00' :: (b.toList ++ '\x00' :: (c.toList ++ '\x00' :: d.toList)) := by
  unfold nulJoin
  rw [String.toList_intercalate, nul_toList]
  simp [List.intercalate, List.intersperse]

/-- **C21, keys.** For patterns written the way the presets are (and without NUL
characters), two patterns have one key exactly when they claim the same calls. -/
theorem C21_key_faithful (k : Kind) (a b : Pat) (ha : NulFree a) (hb : NulFree b) (wa : WellKinded k a) (wb : WellKinded k b)
    (pa : PresetStyle k a) (pb : PresetStyle k b) : key k a = key k b ↔ SameSurface a b := by
  have na : ∀ s ∈ [a.callRe, a.fnRe, a.recvType, a.recvRe, a.paramIn, a.scope], '\x00' ∉ s.toList := ha
  have nb : ∀ s ∈ [b.callRe, b.fnRe, b.recvType, b.recvRe, b.paramIn, b.scope], '\x00' ∉ s.toList := hb
  simp only [List.forall_mem_cons] at na nb
  obtain ⟨a1, a2, a3, a4, a5, a6, _⟩ := na
  obtain ⟨b1, b2, b3, b4, b5, b6, _⟩ := nb
  have three : ∀ x y z x' y' z' : String, '\x00' ∉ x.toList → '\x00' ∉ x'.toList → '\x00' ∉ y.toList → '\x00' ∉ y'.toList →
      nulJoin [x, y, z] = nulJoin [x', y', z'] → x = x' ∧ y = y' ∧ z = z' := by
    intro x y z x' y' z' hx hx' hy hy' h
    have h := congrArg String.toList h
    rw [nulJoin3, nulJoin3] at h
    obtain ⟨h1, h⟩ := split_at_char _ _ _ _ hx hx' h
    obtain ⟨h2, h3⟩ := split_at_char _ _ _ _ hy hy' h
    exact ⟨String.toList_inj.1 h1, String.toList_inj.1 h2, String.toList_inj.1 h3⟩
  constructor
  · intro h
    unfold SameSurface
    cases k with
    | route =>
      have h := congrArg String.toList h
      simp only [key, nulJoin4] at h
      obtain ⟨h1, h⟩ := split_at_char _ _ _ _ a1 b1 h
      obtain ⟨h2, h⟩ := split_at_char _ _ _ _ a2 b2 h
      obtain ⟨h3, h4⟩ := split_at_char _ _ _ _ a3 b3 h
      exact ⟨String.toList_inj.1 h1, String.toList_inj.1 h2, String.toList_inj.1 h3, String.toList_inj.1 h4, wa.1.trans wb.1.symm, wa.2.trans wb.2.symm⟩
    | request =>
      obtain ⟨h1, h2, _⟩ := three _ _ _ _ _ _ a1 b1 a4 b4 h
      exact ⟨h1, pa.1.trans pb.1.symm, pa.2.trans pb.2.symm, h2, wa.1.trans wb.1.symm, wa.2.trans wb.2.symm⟩
    | response =>
      obtain ⟨h1, h2, _⟩ := three _ _ _ _ _ _ a1 b1 a4 b4 h
      exact ⟨h1, pa.1.trans pb.1.symm, pa.2.trans pb.2.symm, h2, wa.1.trans wb.1.symm, wa.2.trans wb.2.symm⟩
    | mount =>
      obtain ⟨h1, h2, _⟩ := three _ _ _ _ _ _ a1 b1 a4 b4 h
      exact ⟨h1, pa.1.trans pb.1.symm, pa.2.trans pb.2.symm, h2, wa.1.trans wb.1.symm, wa.2.trans wb.2.symm⟩
    | security =>
      obtain ⟨h1, h2, h3⟩ := three _ _ _ _ _ _ a1 b1 a4 b4 h
      exact ⟨h1, pa.1.trans pb.1.symm, pa.2.trans pb.2.symm, h2, wa.trans wb.symm, h3⟩
    | param =>
      have h := congrArg String.toList h
      simp only [key, nulJoin3, String.toList_append, nul_toList, List.append_assoc, List.singleton_append] at h
      obtain ⟨h1, h⟩ := split_at_char _ _ _ _ a1 b1 h
      obtain ⟨h2, h⟩ := split_at_char _ _ _ _ a4 b4 h
      obtain ⟨h3, h4⟩ := split_at_char _ _ _ _ a3 b3 h
      exact ⟨String.toList_inj.1 h1, pa.trans pb.symm, String.toList_inj.1 h3, String.toList_inj.1 h2, String.toList_inj.1 h4, wa.trans wb.symm⟩
  · rintro ⟨h1, h2, h3, h4, h5, h6⟩
    cases k <;> simp only [key, h1, h2, h3, h4, h5, h6]

/-- Patterns of kind `k` as the presets write them. -/
def Plain (k : Kind) (p : Pat) : Prop := NulFree p ∧ WellKinded k p ∧ PresetStyle k p

/-- **C21, nothing else is lost.** Among patterns written the way the presets are: a secondary
pattern that no primary pattern and no earlier secondary pattern duplicates is in the merged
configuration, and one that is missing has a duplicate there. (Missing from the full
property: patterns that differ only in an exact receiver type or function-name pattern, see
the next theorem.) -/
theorem C21_omitted_only_if_present_partial (prim : Cfg) (secs : List (Option Cfg)) (k : Kind)
    (hp : ∀ p ∈ prim.pats k, Plain k p) (hs : ∀ p ∈ offered secs k, Plain k p)
    (a b : List Pat) (p : Pat) (hsplit : offered secs k = a ++ p :: b) :
    (∃ q ∈ (mergeConfigs prim secs).pats k, SameSurface q p) ∧
    ((∀ q ∈ prim.pats k ++ a, ¬ SameSurface q p) → p ∈ (mergeConfigs prim secs).pats k) := by
  rw [merge_pats]
  have plain : ∀ q ∈ prim.pats k ++ dedupGo (key k) ((prim.pats k).map (key k)) (offered secs k), Plain k q := by
    intro q hq
    rcases List.mem_append.1 hq with h | h
    · exact hp q h
    · exact hs q ((dedupGo_sublist _ _ _).subset h)
  have hpp : Plain k p := hs p (by rw [hsplit]; simp)
  have same : ∀ q, Plain k q → (key k q = key k p ↔ SameSurface q p) := fun q hq =>
    C21_key_faithful k q p hq.1 hpp.1 hq.2.1 hpp.2.1 hq.2.2 hpp.2.2
  constructor
  · have := seen_or_kept (key k) (offered secs k) ((prim.pats k).map (key k)) p (by rw [hsplit]; simp)
    rw [← List.map_append] at this
    obtain ⟨q, hq, e⟩ := List.mem_map.1 this
    exact ⟨q, hq, (same q (plain q hq)).1 e⟩
  · intro hno
    apply List.mem_append_right
    rw [hsplit, dedupGo_append, dedupGo, if_neg]
    · simp
    · intro hm
      rcases List.mem_append.1 hm with h | h
      · obtain ⟨q, hq, e⟩ := List.mem_map.1 h
        exact hno q (List.mem_append_left _ hq) ((same q (hp q hq)).1 e)
      · obtain ⟨q, hq, e⟩ := List.mem_map.1 h
        have hqa := (dedupGo_sublist _ _ _).subset hq
        exact hno q (List.mem_append_right _ hqa) ((same q (hs q (by rw [hsplit]; simp [hqa]))).1 e)

/-- **C21 fails for exact receiver types**: a secondary request pattern limited to another
receiver type is dropped as a duplicate (config_merge.go:224, 258 leave `RecvType` out of
the key). -/
theorem C21_receiver_type_ignored :
    let prim : Cfg := { pats := fun | .request => [{ callRe := "^Bind$", recvType := "house.Ctx" }] | _ => [] }
    let sec : Cfg := { pats := fun | .request => [{ callRe := "^Bind$", recvType := "other.Ctx" }] | _ => [] }
    (mergeConfigs prim [some sec]).pats .request = [{ callRe := "^Bind$", recvType := "house.Ctx" }] := by decide

/-- **C21, repetition.** Merging the same secondaries again changes nothing. -/
theorem C21_idempotent (prim : Cfg) (s : Cfg) :
    mergeConfigs (mergeConfigs prim [some s]) [some s] = mergeConfigs prim [some s] := by
  have hpats : ∀ k, (mergeConfigs (mergeConfigs prim [some s]) [some s]).pats k = (mergeConfigs prim [some s]).pats k := by
    intro k
    rw [merge_pats (mergeConfigs prim [some s]), dedupGo_all_seen (key k) _ _ ?_, List.append_nil]
    intro x hx
    rw [merge_pats prim, List.map_append]
    exact seen_or_kept _ _ _ x hx
  have hext : (mergeConfigs (mergeConfigs prim [some s]) [some s]).ext = (mergeConfigs prim [some s]).ext := by
    show mergeList Prod.fst (mergeList Prod.fst prim.ext [s.ext]) [s.ext] = mergeList Prod.fst prim.ext [s.ext]
    rw [mergeList_eq Prod.fst (mergeList Prod.fst prim.ext [s.ext]), dedupGo_all_seen, List.append_nil]
    intro x hx
    rw [mergeList_eq, List.map_append]
    exact seen_or_kept _ _ _ x hx
  have happ : ∀ base extras, appendUnique (appendUnique base extras) extras = appendUnique base extras := by
    intro base extras
    unfold appendUnique
    by_cases h : extras = []
    · simp [h]
    · simp only [if_neg h]
      unfold dedup dedupBy
      rw [dedupGo_append]
      have h1 : dedupGo id [] (dedupGo id [] (base ++ extras)) = dedupGo id [] (base ++ extras) := dedupBy_idem id (base ++ extras)
      rw [h1, dedupGo_all_seen id ([] ++ List.map id (dedupGo id [] (base ++ extras))) extras ?_, List.append_nil]
      intro x hx
      exact seen_or_kept id (base ++ extras) [] x (List.mem_append_right _ hx)
  have e : ∀ a b : Cfg, a.pats = b.pats → a.ext = b.ext → a.typeRegexes = b.typeRegexes → a.bodyAccessors = b.bodyAccessors →
      a.implicitStatus = b.implicitStatus → a.own = b.own → a = b := by
    rintro ⟨⟩ ⟨⟩ rfl rfl rfl rfl rfl rfl; rfl
  refine e _ _ (funext hpats) hext ?_ ?_ ?_ rfl
  · exact happ _ _
  · exact happ _ _
  · show (if (if prim.implicitStatus = 0 then s.implicitStatus else prim.implicitStatus) = 0 then s.implicitStatus
        else (if prim.implicitStatus = 0 then s.implicitStatus else prim.implicitStatus)) =
      if prim.implicitStatus = 0 then s.implicitStatus else prim.implicitStatus
    by_cases h : prim.implicitStatus = 0
    · simp only [if_pos h]; split <;> rfl
    · simp only [if_neg h]

/-- **C21, the rest of the configuration.** Info, defaults, overrides and mappings stay the
primary's; a stated implicit status stays; request-context entries are never lost, and none
comes from anywhere but the configurations merged; an external type the primary describes
keeps its description. -/
theorem C21_primary_settings (prim : Cfg) (secs : List (Option Cfg)) :
    (mergeConfigs prim secs).own = prim.own ∧
    (prim.implicitStatus ≠ 0 → (mergeConfigs prim secs).implicitStatus = prim.implicitStatus) ∧
    (∀ t, t ∈ (mergeConfigs prim secs).typeRegexes ↔ t ∈ prim.typeRegexes ∨ ∃ s, some s ∈ secs ∧ t ∈ s.typeRegexes) ∧
    (∀ t, t ∈ (mergeConfigs prim secs).bodyAccessors ↔ t ∈ prim.bodyAccessors ∨ ∃ s, some s ∈ secs ∧ t ∈ s.bodyAccessors) ∧
    ∃ extra, (mergeConfigs prim secs).ext = prim.ext ++ extra ∧ (∀ e ∈ extra, e.1 ∉ prim.ext.map Prod.fst) ∧
      ∀ s, some s ∈ secs → ∀ e ∈ s.ext, e.1 ∈ ((mergeConfigs prim secs).ext).map Prod.fst := by
  have hin : ∀ s, s ∈ secs.filterMap id ↔ some s ∈ secs := by intro s; simp [List.mem_filterMap]
  have huniq : ∀ (f : Cfg → List String) (l : List Cfg) (base : List String) (t : String),
      t ∈ l.foldl (fun acc s => appendUnique acc (f s)) base ↔ t ∈ base ∨ ∃ s ∈ l, t ∈ f s := by
    intro f l
    induction l with
    | nil => intro base t; simp
    | cons s l ih =>
      intro base t
      rw [List.foldl_cons, ih]
      have : t ∈ appendUnique base (f s) ↔ t ∈ base ∨ t ∈ f s := by
        unfold appendUnique
        split
        · next h => simp [h]
        · rw [mem_dedup, List.mem_append]
      rw [this, or_assoc]
      simp
  refine ⟨rfl, ?_, ?_, ?_, ?_⟩
  · intro h
    show (secs.filterMap id).foldl (fun acc s => if acc = 0 then s.implicitStatus else acc) prim.implicitStatus = _
    generalize secs.filterMap id = l
    induction l with
    | nil => rfl
    | cons s l ih => rw [List.foldl_cons, if_neg h]; exact ih
  · intro t
    have := huniq Cfg.typeRegexes (secs.filterMap id) prim.typeRegexes t
    simp only [hin] at this
    exact this
  · intro t
    have := huniq Cfg.bodyAccessors (secs.filterMap id) prim.bodyAccessors t
    simp only [hin] at this
    exact this
  · have he : (mergeConfigs prim secs).ext = prim.ext ++ dedupGo Prod.fst (prim.ext.map Prod.fst) ((secs.filterMap id).map Cfg.ext).flatten :=
      mergeList_eq _ _ _
    refine ⟨_, he, ?_, ?_⟩
    · intro e h; exact dedupGo_not_seen _ _ _ e h
    · intro s hs e h
      rw [he, List.map_append]
      apply seen_or_kept
      exact List.mem_flatten.2 ⟨s.ext, List.mem_map.2 ⟨s, (hin s).2 hs, rfl⟩, h⟩

/-- **C21**: merging secondaries one after the other is merging them together. -/
theorem C21_one_by_one (prim : Cfg) (a b : List (Option Cfg)) (k : Kind) :
    (mergeConfigs (mergeConfigs prim a) b).pats k = (mergeConfigs prim (a ++ b)).pats k := by
  have happ : offered (a ++ b) k = offered a k ++ offered b k := by simp [offered]
  rw [merge_pats (mergeConfigs prim a), merge_pats prim, merge_pats prim, happ, dedupGo_append, List.append_assoc, List.map_append]

/-! ## C20 -/

/-- **C20, the list.** The returned list leads with the framework in effect - the chosen one
in its registered spelling, or the first detected - and holds every detected framework
exactly once, besides an explicit choice that was not detected. -/
theorem C20_order (canon : String → String) (frameworks : List String) (primary : String)
    (hnd : (frameworks.map canon).Nodup) (hne : frameworks ≠ []) :
    let out := (composeOrder canon frameworks primary).2
    out.head? = some (composeOrder canon frameworks primary).1 ∧
    (canon primary ≠ "" → (composeOrder canon frameworks primary).1 = canon primary) ∧
    (canon primary = "" → some (composeOrder canon frameworks primary).1 = (frameworks.map canon).head?) ∧
    out.Nodup ∧
    (∀ f, f ∈ out ↔ f ∈ frameworks.map canon ∨ f = (composeOrder canon frameworks primary).1) := by
  unfold composeOrder
  simp only [if_neg hne]
  by_cases hp : canon primary = ""
  · simp only [if_pos hp]
    cases hf : frameworks.map canon with
    | nil => simp at hf; exact absurd hf hne
    | cons x xs =>
      rw [hf] at hnd
      refine ⟨rfl, fun h => absurd hp h, fun _ => by simp, hnd, ?_⟩
      intro f
      simp only [List.headD_cons, List.mem_cons]
      constructor
      · exact .inl
      · rintro (h | h); exact h; exact .inl h
  · simp only [if_neg hp]
    refine ⟨rfl, fun _ => by simp, fun h => absurd h hp, ?_, ?_⟩
    · rw [List.nodup_cons]
      exact ⟨by simp, hnd.sublist List.filter_sublist⟩
    · intro f
      simp only [List.mem_cons, List.mem_filter, decide_eq_true_eq]
      by_cases hf : f = canon primary
      · simp [hf]
      · simp [hf]

/-- The patterns a composition starts from and the secondaries it layers, in order. -/
theorem compose_pats (canon : String → String) (default : String → Cfg) (http : Cfg) (frameworks : List String) (primary : String) (k : Kind) :
    ((compose canon default http frameworks primary).1).pats k =
      (mergeConfigs (default (composeOrder canon frameworks primary).1)
        ((((composeOrder canon frameworks primary).2.filter fun f => decide (f ≠ (composeOrder canon frameworks primary).1)).map
            fun f => some (secondaryView (default f))) ++
          if (composeOrder canon frameworks primary).1 ≠ stdlib then [some http] else [])).pats k := by
  unfold compose
  generalize composeOrder canon frameworks primary = o
  obtain ⟨p, fs⟩ := o
  have hfold : ∀ (fs : List String) (pre : List (Option Cfg)) (c : Cfg),
      (∀ k, c.pats k = (mergeConfigs (default p) pre).pats k) →
      ∀ k, (fs.foldl (fun c f => if f = p then c else mergeConfigs c [some (secondaryView (default f))]) c).pats k =
        (mergeConfigs (default p) (pre ++ (fs.filter fun f => decide (f ≠ p)).map fun f => some (secondaryView (default f)))).pats k := by
    intro fs
    induction fs with
    | nil => intro pre c h k; simpa using h k
    | cons f fs ih =>
      intro pre c h k
      rw [List.foldl_cons]
      by_cases hf : f = p
      · rw [if_pos hf, ih pre c h]; simp [hf]
      · rw [if_neg hf, ih (pre ++ [some (secondaryView (default f))])]
        · simp [hf]
        · intro k
          rw [merge_pats c, h k, ← merge_pats (mergeConfigs (default p) pre), C21_one_by_one]
  have h0 : ∀ k, (default p).pats k = (mergeConfigs (default p) []).pats k := by
    intro k; rw [merge_pats]; simp [offered, dedupGo]
  have h1 := hfold fs [] (default p) h0
  by_cases hp : p ≠ stdlib
  · simp only [if_pos hp]
    rw [merge_pats, h1 k, ← merge_pats, C21_one_by_one]
    simp
  · simp only [if_neg hp]
    rw [h1 k]
    simp

/-- **C20, the patterns.** Every pattern of the composed configuration is the primary's or is
limited to a receiver (given that the net/http layer only holds such patterns); the
primary's come first; and every receiver-limited pattern of every other framework in the
list is there, or one with the same key is. -/
theorem C20_patterns (canon : String → String) (default : String → Cfg) (http : Cfg) (frameworks : List String) (primary : String)
    (hhttp : ∀ k, ∀ p ∈ http.pats k, IsScoped p) (k : Kind) :
    let out := ((compose canon default http frameworks primary).1).pats k
    let lead := (composeOrder canon frameworks primary).1
    (∃ extra, out = (default lead).pats k ++ extra ∧ ∀ p ∈ extra, IsScoped p) ∧
    (∀ f ∈ (composeOrder canon frameworks primary).2, f ≠ lead → ∀ p ∈ (default f).pats k, IsScoped p → ∃ q ∈ out, key k q = key k p) ∧
    (lead ≠ "net/http" → ∀ p ∈ http.pats k, ∃ q ∈ out, key k q = key k p) := by
  have hsc : ∀ p : Pat, isScoped p = true ↔ IsScoped p := by intro p; simp [isScoped, IsScoped, bne_iff_ne]
  dsimp only
  rw [compose_pats, merge_pats]
  have hoff : ∀ p, p ∈ offered ((((composeOrder canon frameworks primary).2.filter fun f => decide (f ≠ (composeOrder canon frameworks primary).1)).map
            fun f => some (secondaryView (default f))) ++
          if (composeOrder canon frameworks primary).1 ≠ stdlib then [some http] else []) k ↔
      (∃ f ∈ (composeOrder canon frameworks primary).2, f ≠ (composeOrder canon frameworks primary).1 ∧ p ∈ (default f).pats k ∧ IsScoped p) ∨
      ((composeOrder canon frameworks primary).1 ≠ "net/http" ∧ p ∈ http.pats k) := by
    intro p
    unfold offered
    rw [List.flatMap_append, List.mem_append]
    have h1 : p ∈ (((composeOrder canon frameworks primary).2.filter fun f => decide (f ≠ (composeOrder canon frameworks primary).1)).map
            fun f => some (secondaryView (default f))).flatMap (fun s => (s.map fun c => c.pats k).getD []) ↔
        ∃ f ∈ (composeOrder canon frameworks primary).2, f ≠ (composeOrder canon frameworks primary).1 ∧ p ∈ (default f).pats k ∧ IsScoped p := by
      simp only [List.mem_flatMap, List.mem_map, List.mem_filter, decide_eq_true_eq]
      constructor
      · rintro ⟨_, ⟨f, ⟨hf, hne⟩, rfl⟩, hp⟩
        obtain ⟨hp, hs⟩ := List.mem_filter.1 (show p ∈ ((default f).pats k).filter isScoped from hp)
        exact ⟨f, hf, hne, hp, (hsc p).1 hs⟩
      · rintro ⟨f, hf, hne, hp, hs⟩
        exact ⟨_, ⟨f, ⟨hf, hne⟩, rfl⟩, List.mem_filter.2 ⟨hp, (hsc p).2 hs⟩⟩
    rw [h1]
    have h2 : (composeOrder canon frameworks primary).1 ≠ stdlib ↔ (composeOrder canon frameworks primary).1 ≠ "net/http" := Iff.rfl
    by_cases hl : (composeOrder canon frameworks primary).1 ≠ stdlib
    · rw [if_pos hl]; simp [h2.1 hl]
    · rw [if_neg hl]
      constructor
      · rintro (h | h)
        · exact .inl h
        · simp at h
      · rintro (h | h)
        · exact .inl h
        · exact absurd (h2.2 h.1) hl
  refine ⟨⟨_, rfl, ?_⟩, ?_, ?_⟩
  · intro p hp
    rcases (hoff p).1 ((dedupGo_sublist _ _ _).subset hp) with ⟨_, _, _, _, h⟩ | ⟨_, h⟩
    · exact h
    · exact hhttp k p h
  · intro f hf hne p hp hs
    have := seen_or_kept (key k) _ (((default (composeOrder canon frameworks primary).1).pats k).map (key k)) p
      ((hoff p).2 (.inl ⟨f, hf, hne, hp, hs⟩))
    rw [← List.map_append] at this
    obtain ⟨q, hq, e⟩ := List.mem_map.1 this
    exact ⟨q, hq, e⟩
  · intro hne p hp
    have := seen_or_kept (key k) _ (((default (composeOrder canon frameworks primary).1).pats k).map (key k)) p
      ((hoff p).2 (.inr ⟨hne, hp⟩))
    rw [← List.map_append] at this
    obtain ⟨q, hq, e⟩ := List.mem_map.1 this
    exact ⟨q, hq, e⟩

/-- **C20, nothing of a secondary is lost.** With configurations written the way the
presets are, every receiver-limited pattern of every other framework in the list is in the
composed configuration, or one claiming the same calls is. -/
theorem C20_secondary_kept (canon : String → String) (default : String → Cfg) (http : Cfg) (frameworks : List String) (primary : String)
    (hhttp : ∀ k, ∀ p ∈ http.pats k, IsScoped p) (k : Kind)
    (hplain : ∀ f, ∀ p ∈ (default f).pats k, Plain k p) (hplainH : ∀ p ∈ http.pats k, Plain k p)
    (f : String) (hf : f ∈ (composeOrder canon frameworks primary).2) (p : Pat) (hp : p ∈ (default f).pats k) (hs : IsScoped p) :
    ∃ q ∈ ((compose canon default http frameworks primary).1).pats k, SameSurface q p := by
  obtain ⟨⟨extra, he, _⟩, h2, _⟩ := C20_patterns canon default http frameworks primary hhttp k
  by_cases hl : f = (composeOrder canon frameworks primary).1
  · refine ⟨p, ?_, rfl, rfl, rfl, rfl, rfl, rfl⟩
    rw [he, ← hl]
    exact List.mem_append_left _ hp
  · obtain ⟨q, hq, e⟩ := h2 f hf hl p hp hs
    have hqp : Plain k q := by
      rw [compose_pats, merge_pats] at hq
      rcases List.mem_append.1 hq with h | h
      · exact hplain _ q h
      · have h := (dedupGo_sublist _ _ _).subset h
        unfold offered at h
        rw [List.flatMap_append, List.mem_append] at h
        rcases h with h | h
        · obtain ⟨o, ho, h⟩ := List.mem_flatMap.1 h
          obtain ⟨g, _, rfl⟩ := List.mem_map.1 ho
          exact hplain g q (List.mem_filter.1 (show q ∈ ((default g).pats k).filter isScoped from h)).1
        · split at h
          · have h : q ∈ http.pats k := by simpa using h
            exact hplainH q h
          · simp at h
    have hpp := hplain f p hp
    exact ⟨q, hq, (C21_key_faithful k q p hqp.1 hpp.1 hqp.2.1 hpp.2.1 hqp.2.2 hpp.2.2).1 e⟩

/-- What a configuration contributes besides patterns is covered by another. -/
def ContextIn (a b : Cfg) : Prop :=
  (∀ e ∈ a.ext, e.1 ∈ b.ext.map Prod.fst) ∧ (∀ t ∈ a.typeRegexes, t ∈ b.typeRegexes) ∧
  (∀ t ∈ a.bodyAccessors, t ∈ b.bodyAccessors) ∧ (a.implicitStatus ≠ 0 → b.implicitStatus ≠ 0)

theorem contextIn_merge (c s : Cfg) : ContextIn c (mergeConfigs c [some s]) ∧ ContextIn s (mergeConfigs c [some s]) := by
  obtain ⟨_, h2, h3, h4, extra, he, _, h6⟩ := C21_primary_settings c [some s]
  refine ⟨⟨?_, fun t ht => (h3 t).2 (.inl ht), fun t ht => (h4 t).2 (.inl ht), fun h => by rw [h2 h]; exact h⟩,
    ⟨h6 s (by simp), fun t ht => (h3 t).2 (.inr ⟨s, by simp, ht⟩), fun t ht => (h4 t).2 (.inr ⟨s, by simp, ht⟩), ?_⟩⟩
  · intro e h
    rw [he, List.map_append]
    exact List.mem_append_left _ (List.mem_map.2 ⟨e, h, rfl⟩)
  · intro h
    show (if c.implicitStatus = 0 then s.implicitStatus else c.implicitStatus) ≠ 0
    split
    · exact h
    · assumption

theorem ContextIn.trans {a b c : Cfg} (h : ContextIn a b) (h' : ContextIn b c) : ContextIn a c := by
  refine ⟨?_, fun t ht => h'.2.1 t (h.2.1 t ht), fun t ht => h'.2.2.1 t (h.2.2.1 t ht), fun hi => h'.2.2.2 (h.2.2.2 hi)⟩
  intro e he
  obtain ⟨e', he', e1⟩ := List.mem_map.1 (h.1 e he)
  rw [← e1]
  exact h'.1 e' he'

/-- **C20, external types and contexts.** Whatever leads, the composed configuration knows
every external type, request-context type and body accessor of every framework in the list,
and has an implicit status if any of them has; info, defaults, overrides and mappings are
the leading framework's. -/
theorem C20_context_kept (canon : String → String) (default : String → Cfg) (http : Cfg) (frameworks : List String) (primary : String) :
    ((compose canon default http frameworks primary).1).own = (default (composeOrder canon frameworks primary).1).own ∧
    ∀ f, f ∈ (composeOrder canon frameworks primary).2 ∨ f = (composeOrder canon frameworks primary).1 →
      ContextIn (default f) (compose canon default http frameworks primary).1 := by
  unfold compose
  generalize composeOrder canon frameworks primary = o
  obtain ⟨p, fs⟩ := o
  have hfold : ∀ (fs : List String) (c : Cfg),
      let r := fs.foldl (fun c f => if f = p then c else mergeConfigs c [some (secondaryView (default f))]) c
      ContextIn c r ∧ (ContextIn (default p) c → ∀ f ∈ fs, ContextIn (default f) r) ∧ r.own = c.own := by
    intro fs
    induction fs with
    | nil =>
      intro c
      exact ⟨⟨fun e he => List.mem_map.2 ⟨e, he, rfl⟩, fun _ h => h, fun _ h => h, fun h => h⟩, by simp, rfl⟩
    | cons x fs ih =>
      intro c
      dsimp only
      rw [List.foldl_cons]
      by_cases hx : x = p
      · rw [if_pos hx]
        obtain ⟨h1, h2, h3⟩ := ih c
        refine ⟨h1, fun hc f hf => ?_, h3⟩
        rcases List.mem_cons.1 hf with rfl | hf
        · rw [hx]; exact hc.trans h1
        · exact h2 hc f hf
      · rw [if_neg hx]
        obtain ⟨h1, h2, h3⟩ := ih (mergeConfigs c [some (secondaryView (default x))])
        obtain ⟨m1, m2⟩ := contextIn_merge c (secondaryView (default x))
        refine ⟨m1.trans h1, fun hc f hf => ?_, h3⟩
        rcases List.mem_cons.1 hf with rfl | hf
        · exact ContextIn.trans (b := secondaryView (default f)) ⟨fun e he => List.mem_map.2 ⟨e, he, rfl⟩, fun _ h => h, fun _ h => h, fun h => h⟩ (m2.trans h1)
        · exact h2 (hc.trans m1) f hf
  obtain ⟨h1, h2, h3⟩ := hfold fs (default p)
  have hself : ContextIn (default p) (default p) := ⟨fun e he => List.mem_map.2 ⟨e, he, rfl⟩, fun _ h => h, fun _ h => h, fun h => h⟩
  dsimp only at h1 h2 h3 ⊢
  constructor
  · split
    · exact h3
    · exact h3
  · intro f hf
    have : ContextIn (default f) (fs.foldl (fun c f => if f = p then c else mergeConfigs c [some (secondaryView (default f))]) (default p)) := by
      rcases hf with hf | rfl
      · exact h2 hself f hf
      · exact h1
    split
    · exact this.trans (contextIn_merge _ _).1
    · exact this

/-- The net/http layer meets the hypothesis of `C20_patterns`, and its patterns are plain. -/
theorem httpSecondary_scoped : ∀ k, ∀ p ∈ httpSecondary.pats k, IsScoped p := by
  intro k p hp
  cases k <;> simp only [httpSecondary, List.mem_cons, List.not_mem_nil, or_false] at hp <;>
    (unfold IsScoped; revert p; simp)

instance (p : Pat) : Decidable (NulFree p) := by unfold NulFree; infer_instance
instance (k : Kind) (p : Pat) : Decidable (WellKinded k p) := by cases k <;> (unfold WellKinded; infer_instance)
instance (k : Kind) (p : Pat) : Decidable (PresetStyle k p) := by cases k <;> (unfold PresetStyle; infer_instance)
instance (k : Kind) (p : Pat) : Decidable (Plain k p) := by unfold Plain; infer_instance

/-- So are the hypotheses of `C21_omitted_only_if_present_partial`. -/
theorem httpSecondary_plain : ∀ k, ∀ p ∈ httpSecondary.pats k, Plain k p := by
  intro k
  cases k <;> decide

/-- Letter-case folding for the example. -/
def demoCanon (s : String) : String := if s = "Gin" then "gin" else s

example : composeOrder demoCanon ["chi", "gin", "mux"] "Gin" = ("gin", ["gin", "chi", "mux"]) := by decide
example : composeOrder demoCanon ["chi", "gin"] "" = ("chi", ["chi", "gin"]) := by decide
example : canonical (fun a b => a == b || b == "Gin" && a == "gin") registry "Gin" = "gin" := by decide

/-- **C20, letter case.** Spelling the choice in another letter case gives the same
composition: any name equal to a registered one up to case is replaced by the registered
spelling, which is a fixed point. -/
theorem C20_case_insensitive (ef : String → String → Bool) (reg : List Framework) (name : String)
    (hsep : ∀ f ∈ reg, ∀ g ∈ reg, ef f.name g.name = true → f.name = g.name) (hrefl : ∀ f ∈ reg, ef f.name f.name = true)
    (f : Framework) (hf : f ∈ reg) (htrans : ∀ g ∈ reg, ef g.name name = true → ef g.name f.name = true) (h : ef f.name name = true) :
    canonical ef reg name = f.name ∧ canonical ef reg f.name = f.name := by
  unfold canonical
  constructor
  · cases hfind : reg.find? (fun f => ef f.name name) with
    | none => exact absurd h (by simpa using List.find?_eq_none.1 hfind f hf)
    | some g =>
      have hg := List.mem_of_find?_eq_some hfind
      exact hsep g hg f hf (htrans g hg (by simpa using List.find?_some hfind))
  · cases hfind : reg.find? (fun g => ef g.name f.name) with
    | none => exact absurd (hrefl f hf) (by simpa using List.find?_eq_none.1 hfind f hf)
    | some g =>
      have hg := List.mem_of_find?_eq_some hfind
      exact hsep g hg f hf (by simpa using List.find?_some hfind)

end Verif.Config
