import Verif.ResponsesProps
import Verif.SubsumeProps
/-! # Properties C11 and C47 of the responses section, and C09 for the merge -/

namespace Verif.Responses
open Verif.Common

theorem repr_head_digit (n : Nat) : ∀ c ∈ n.repr.toList, c.isDigit = true := by
  intro c hc
  rw [Nat.repr_eq_ofList_toDigits, String.toList_ofList] at hc
  exact Nat.isDigit_of_mem_toDigits (by decide) (by decide) hc

theorem slot_ne_default (n : Int) : slot n ≠ "default" := by
  unfold slot
  rw [Int.repr_eq_if]
  split
  · intro h
    have := repr_head_digit n.toNat 'd' (by rw [h]; decide)
    exact absurd this (by decide)
  · intro h
    have h := congrArg (fun s => s.toList.head?) h
    simp only [String.toList_append] at h
    exact absurd h (by
      rw [show "-".toList = ['-'] from by decide, show "default".toList = ['d','e','f','a','u','l','t'] from by decide]
      simp)

/-- Negative-slot responses of a table, in the order listed. -/
def unknowns (m : RespMap) : List Resp := (m.filter fun x => decide (x.2.status < 0)).map Prod.snd

theorem mget_chooseStep_default (c : RespMap) (x : String × Resp) (hx : x.1 ≠ "default" ∨ x.2.status < 0) :
    mget (chooseStep c x) "default" =
      if x.2.status < 0 then preferResp (mget c "default") (some x.2) else mget c "default" := by
  unfold chooseStep
  split
  · rw [mget_mset_self]
    cases mget c "default" <;> rfl
  · next h =>
    rw [mget_mset_ne _ _ (fun e => (hx.resolve_right h) e.symm)]

theorem foldl_choose_default (l : RespMap) : ∀ (c : RespMap), (∀ x ∈ l, x.1 ≠ "default" ∨ x.2.status < 0) →
    mget (l.foldl chooseStep c) "default" =
      (unknowns l).foldl (fun acc r => preferResp acc (some r)) (mget c "default") := by
  induction l with
  | nil => intro c _; rfl
  | cons x l ih =>
    intro c h
    rw [List.foldl_cons, ih _ (fun y hy => h y (by simp [hy])), mget_chooseStep_default _ _ (h x (by simp))]
    unfold unknowns
    by_cases hx : x.2.status < 0
    · simp [hx]
    · simp [hx]

theorem mget_chooseStep_other (c : RespMap) (x : String × Resp) (k : String) (hk : k ≠ "default") :
    mget (chooseStep c x) k = if x.2.status ≥ 0 ∧ k = x.1 then some x.2 else mget c k := by
  unfold chooseStep
  split
  · next h => rw [mget_mset_ne _ _ hk, if_neg (by omega)]
  · next h =>
    rw [mget_mset]
    by_cases e : k = x.1
    · rw [if_pos e, if_pos ⟨by omega, e⟩]
    · rw [if_neg e, if_neg (fun h => e h.2)]

theorem foldl_choose_other (l : RespMap) : ∀ (c : RespMap) (k : String), k ≠ "default" → (l.map Prod.fst).Nodup →
    mget (l.foldl chooseStep c) k =
      (match mget l k with
       | some r => if r.status ≥ 0 then some r else mget c k
       | none => mget c k) := by
  induction l with
  | nil => intro c k _ _; rfl
  | cons x l ih =>
    intro c k hk hn
    rw [List.map_cons, List.nodup_cons] at hn
    rw [List.foldl_cons, ih _ k hk hn.2, mget_cons, mget_chooseStep_other _ _ _ hk]
    by_cases e : k = x.1
    · have hnone : mget l k = none := by
        rw [mget_eq_none_iff, e]; exact hn.1
      rw [hnone, if_pos e.symm]
      simp [e]
    · rw [if_neg (Ne.symm e)]
      simp [e]

theorem nodup_foldl_choose (l : RespMap) : ∀ (c : RespMap), (c.map Prod.fst).Nodup →
    ((l.foldl chooseStep c).map Prod.fst).Nodup := by
  induction l with
  | nil => intro c h; exact h
  | cons x l ih =>
    intro c h
    rw [List.foldl_cons]
    apply ih
    unfold chooseStep
    split <;> exact nodup_mset _ _ _ h

theorem render_content (txt : Int → String) (r : Resp) :
    (render txt r).content = if isBodyless r.status = true then none else some (r.contentType, r.schema) := by
  unfold render; dsimp only; split <;> rfl

theorem render_description (txt : Int → String) (r : Resp) :
    (render txt r).description =
      if r.status < 0 ∨ txt r.status = "" then "Status code could not be determined" else txt r.status := by
  unfold render; dsimp only; split <;> split <;> rfl

/-- The table before the default response is reconsidered. -/
abbrev walked (m : RespMap) : RespMap := (sortedEntries m).foldl chooseStep []

theorem chosen_eq (m : RespMap) : chosenResponses m =
    match mget (walked m) "default" with
    | some d => if (walked m).length > 1 && uninformativeDefault d (walked m) then mdel (walked m) "default" else walked m
    | none => walked m := rfl

theorem sorted_perm (m : RespMap) : (sortedEntries m).Perm m := isort_perm _ _

theorem walked_other (m : RespMap) (h : SlotsOk m) (k : String) (hk : k ≠ "default") (r : Resp) :
    mget (walked m) k = some r ↔ mget m k = some r ∧ r.status ≥ 0 := by
  have hp := sorted_perm m
  have hn : ((sortedEntries m).map Prod.fst).Nodup := (hp.map Prod.fst).nodup_iff.2 h.1
  rw [foldl_choose_other _ _ k hk hn, mget_perm hp hn]
  cases mget m k with
  | none => simp
  | some q =>
    dsimp only
    by_cases hq : q.status ≥ 0
    · rw [if_pos hq]
      constructor
      · rintro ⟨⟩; exact ⟨rfl, hq⟩
      · rintro ⟨⟨⟩, _⟩; rfl
    · rw [if_neg hq]
      constructor
      · intro h; simp at h
      · rintro ⟨⟨⟩, h⟩; exact absurd h hq

theorem walked_default (m : RespMap) (h : SlotsOk m) :
    mget (walked m) "default" = choose (unknowns (sortedEntries m)) := by
  rw [foldl_choose_default]
  · rfl
  · intro x hx
    left
    rw [h.2 x.1 x.2 ((sorted_perm m).mem_iff.1 hx)]
    exact slot_ne_default _

theorem mem_unknowns (m : RespMap) (r : Resp) : r ∈ unknowns m ↔ ∃ k, (k, r) ∈ m ∧ r.status < 0 := by
  unfold unknowns
  simp only [List.mem_map, List.mem_filter, decide_eq_true_eq]
  constructor
  · rintro ⟨⟨k, q⟩, ⟨h1, h2⟩, rfl⟩; exact ⟨k, h1, h2⟩
  · rintro ⟨k, h1, h2⟩; exact ⟨(k, r), ⟨h1, h2⟩, rfl⟩

theorem chosen_other (m : RespMap) (h : SlotsOk m) (k : String) (hk : k ≠ "default") (r : Resp) :
    mget (chosenResponses m) k = some r ↔ mget m k = some r ∧ r.status ≥ 0 := by
  rw [← walked_other m h k hk r]
  rw [chosen_eq]
  split
  · split
    · rw [mget_mdel, if_neg hk]
    · rfl
  · rfl

theorem nodup_chosen (m : RespMap) : ((chosenResponses m).map Prod.fst).Nodup := by
  have := nodup_foldl_choose (sortedEntries m) [] (by simp)
  rw [chosen_eq]
  split
  · split
    · exact nodup_mdel _ _ this
    · exact this
  · exact this

theorem isBodyless_iff (s : Int) : isBodyless s = true ↔ NoBodyStatus s := by
  simp only [isBodyless, NoBodyStatus, Bool.or_eq_true, Bool.and_eq_true, decide_eq_true_eq, beq_iff_eq]
  omega

theorem bodyless_pos {s : Int} (h : NoBodyStatus s) : 0 ≤ s := by unfold NoBodyStatus at h; omega

theorem doc_mem (txt : Int → String) (m : RespMap) (hm : m ≠ []) (k : String) (o : Out) :
    (k, o) ∈ buildResponses txt m ↔ ∃ r, mget (chosenResponses m) k = some r ∧ o = render txt r := by
  unfold buildResponses
  rw [if_neg hm, List.mem_map]
  constructor
  · rintro ⟨x, hx, e⟩
    cases e
    exact ⟨x.2, mget_of_mem (nodup_chosen m) hx, rfl⟩
  · rintro ⟨r, hr, rfl⟩
    exact ⟨(k, r), mem_of_mget hr, rfl⟩

/-- **C11.** A readable status is documented exactly when the operation responds with it;
it has no content section exactly when HTTP forbids a body for it, and otherwise the
content is the response's media type and body schema. -/
theorem C11_known_statuses (txt : Int → String) (m : RespMap) (h : SlotsOk m) (hm : m ≠ []) (s : Int) (hs : 0 ≤ s) (o : Out) :
    (slot s, o) ∈ buildResponses txt m ↔ ∃ r, mget m (slot s) = some r ∧
      (NoBodyStatus s → o.content = none) ∧ (¬ NoBodyStatus s → o.content = some (r.contentType, r.schema)) ∧
      o.description = (if txt s = "" then "Status code could not be determined" else txt s) := by
  rw [doc_mem txt m hm]
  have key : ∀ r, mget m (slot s) = some r → r.status = s := fun r hr => (slot_inj.1 (h.2 _ _ (mem_of_mget hr))).symm
  constructor
  · rintro ⟨r, hr, rfl⟩
    obtain ⟨hr, _⟩ := (chosen_other m h _ (slot_ne_default s) r).1 hr
    have e := key r hr
    refine ⟨r, hr, ?_, ?_, ?_⟩
    · intro hb; unfold render; rw [if_pos ((isBodyless_iff _).2 (e ▸ hb))]
    · intro hb; unfold render; rw [if_neg (fun hh => hb (e ▸ (isBodyless_iff _).1 hh))]
    · have : ¬ s < 0 := by omega
      rw [render_description, e]; simp only [this, false_or]
  · rintro ⟨r, hr, h1, h2, h3⟩
    have e := key r hr
    refine ⟨r, (chosen_other m h _ (slot_ne_default s) r).2 ⟨hr, by omega⟩, ?_⟩
    have hs' : ¬ s < 0 := by omega
    obtain ⟨d, c⟩ := o
    dsimp only at h1 h2 h3
    subst h3
    unfold render
    by_cases hb : NoBodyStatus s
    · rw [if_pos ((isBodyless_iff _).2 (e ▸ hb)), h1 hb]; simp [e, hs']
    · rw [if_neg (fun hh => hb (e ▸ (isBodyless_iff _).1 hh)), h2 hb]; simp [e, hs']

/-- **C11.** Nothing but the operation's readable statuses and `default` is documented,
each once. -/
theorem C11_only_known_or_default (txt : Int → String) (m : RespMap) (h : SlotsOk m) (k : String) (o : Out)
    (hk : (k, o) ∈ buildResponses txt m) :
    (k = "default" ∨ ∃ s : Int, 0 ≤ s ∧ k = slot s) ∧ ((buildResponses txt m).map Prod.fst).Nodup := by
  by_cases hm : m = []
  · subst hm
    simp only [buildResponses, if_true, List.mem_singleton, Prod.mk.injEq] at hk
    exact ⟨.inl hk.1, by simp [buildResponses]⟩
  · constructor
    · by_cases hd : k = "default"
      · exact .inl hd
      · obtain ⟨r, hr, _⟩ := (doc_mem txt m hm k o).1 hk
        obtain ⟨hr, hs⟩ := (chosen_other m h k hd r).1 hr
        exact .inr ⟨r.status, hs, h.2 _ _ (mem_of_mget hr)⟩
    · unfold buildResponses
      rw [if_neg hm, List.map_map]
      exact nodup_chosen m

/-- **C11.** No documented response of a bodyless status has content, and every other one
has a content section; `default` always has one. -/
theorem C11_content_iff (txt : Int → String) (m : RespMap) (h : SlotsOk m) (k : String) (o : Out)
    (hk : (k, o) ∈ buildResponses txt m) : o.content = none ↔ ∃ s, k = slot s ∧ NoBodyStatus s := by
  by_cases hm : m = []
  · subst hm
    simp only [buildResponses, if_true, List.mem_singleton, Prod.mk.injEq] at hk
    obtain ⟨rfl, rfl⟩ := hk
    constructor
    · intro h; cases h
    · rintro ⟨s, hs, _⟩; exact absurd hs.symm (slot_ne_default s)
  · obtain ⟨r, hr, rfl⟩ := (doc_mem txt m hm k o).1 hk
    have hrender : (render txt r).content = none ↔ NoBodyStatus r.status := by
      rw [← isBodyless_iff]
      rw [render_content]
      split <;> simp_all
    rw [hrender]
    by_cases hd : k = "default"
    · subst hd
      have hneg : r.status < 0 := by
        have hw : mget (walked m) "default" = some r := by
          rw [chosen_eq] at hr
          split at hr
          · split at hr
            · rw [mget_mdel, if_pos rfl] at hr; cases hr
            · exact hr
          · exact hr
        rw [walked_default m h] at hw
        have hne : unknowns (sortedEntries m) ≠ [] := by intro e; rw [e] at hw; cases hw
        obtain ⟨q, hq, hqm, _⟩ := C12_best_chosen _ hne
        rw [hw] at hq; cases hq
        exact ((mem_unknowns _ _).1 hqm).choose_spec.2
      constructor
      · intro hb; have := bodyless_pos hb; omega
      · rintro ⟨s, hs, _⟩; exact absurd hs.symm (slot_ne_default s)
    · obtain ⟨hr, hs⟩ := (chosen_other m h k hd r).1 hr
      have e := h.2 _ _ (mem_of_mget hr)
      constructor
      · intro hb; exact ⟨_, e, hb⟩
      · rintro ⟨s, hs, hb⟩
        rw [slot_inj.1 (hs.symm.trans e)] at hb
        exact hb

/-- **C11.** Every operation documents at least one response. -/
theorem C11_nonempty (txt : Int → String) (m : RespMap) (h : SlotsOk m) : buildResponses txt m ≠ [] := by
  unfold buildResponses
  split
  · simp
  · next hm =>
    intro e
    have e := List.map_eq_nil_iff.1 e
    have hlen : (walked m).length ≤ 1 → chosenResponses m = walked m := by
      intro hl
      rw [chosen_eq]
      split
      · rw [if_neg]
        simp only [Bool.and_eq_true, decide_eq_true_eq, not_and]
        intro h1; exact absurd h1 (by omega)
      · rfl
    have hw : walked m ≠ [] := by
      intro hw
      obtain ⟨x, m', rfl⟩ : ∃ x m', m = x :: m' := by
        cases m with
        | nil => exact absurd rfl hm
        | cons x m' => exact ⟨x, m', rfl⟩
      by_cases hs : x.2.status ≥ 0
      · have := (walked_other (x :: m') h x.1 (by rw [h.2 x.1 x.2 (by simp)]; exact slot_ne_default _) x.2).2
          ⟨by rw [mget_cons, if_pos rfl], hs⟩
        rw [hw] at this; cases this
      · have hne : unknowns (sortedEntries (x :: m')) ≠ [] := by
          apply List.ne_nil_of_mem
          exact (mem_unknowns _ x.2).2 ⟨x.1, (sorted_perm _).mem_iff.2 (by simp), by omega⟩
        obtain ⟨q, hq, _⟩ := C12_best_chosen _ hne
        rw [← walked_default _ h, hw] at hq; cases hq
    by_cases hl : (walked m).length ≤ 1
    · rw [hlen hl] at e; exact hw e
    · have hcl : (chosenResponses m).length + 1 ≥ (walked m).length := by
        rw [chosen_eq]
        split
        · split
          · have hnd := nodup_foldl_choose (sortedEntries m) [] (by simp)
            have : ∀ (l : RespMap), (l.map Prod.fst).Nodup → (mdel l "default").length + 1 ≥ l.length := by
              intro l
              induction l with
              | nil => intro _; simp
              | cons y l ih =>
                intro hn
                rw [List.map_cons, List.nodup_cons] at hn
                by_cases hy : y.1 = "default"
                · have hall : mdel l "default" = l := by
                    unfold mdel
                    rw [List.filter_eq_self]
                    intro z hz
                    have : z.1 ≠ "default" := by
                      intro hzd
                      exact hn.1 (by rw [hy, ← hzd]; exact List.mem_map.2 ⟨z, hz, rfl⟩)
                    simpa using this
                  have : mdel (y :: l) "default" = mdel l "default" := by unfold mdel; simp [hy]
                  rw [this, hall]; simp
                · have : mdel (y :: l) "default" = y :: mdel l "default" := by unfold mdel; simp [hy]
                  rw [this]
                  have := ih hn.2
                  simp only [List.length_cons]
                  omega
            exact this _ hnd
          · omega
        · omega
      rw [e] at hcl
      simp at hcl
      omega

/-- A body that says nothing: none, or an object (or anything) without any structure. -/
def SaysNothing (r : Resp) : Prop :=
  ∀ s, r.schema = some s → (s.type = "" ∨ s.type = "object") ∧ s.hasRef = false ∧ s.hasProperties = false ∧
    s.hasAllOf = false ∧ s.hasOneOf = false ∧ s.hasAnyOf = false ∧ s.hasItems = false ∧ s.hasAdditional = false

/-- Two bodies printed alike. -/
def PrintedAlike (p q : Resp) : Prop := p.schema.map (·.rendered) = q.schema.map (·.rendered)

theorem genericObject_iff (r : Resp) : genericObject r = true ↔ SaysNothing r := by
  unfold genericObject SaysNothing
  cases r.schema with
  | none => simp
  | some s =>
    obtain ⟨a, b, c, d, e, f, g, t, x⟩ := s
    cases a <;> cases b <;> cases c <;> cases d <;> cases e <;> cases f <;> cases g <;> simp

theorem sameBody_iff (p q : Resp) : sameBody p.schema q.schema = true ↔ PrintedAlike p q := by
  unfold sameBody PrintedAlike
  cases p.schema <;> cases q.schema <;> simp

/-- **C11.** When something was written under a status that could not be read, the
document has a `default` response with the best such body, unless that body is a bare
object or repeats the body of a documented status while other responses exist. -/
theorem C11_default_kept (txt : Int → String) (m : RespMap) (h : SlotsOk m) :
    (∀ o, ("default", o) ∈ buildResponses txt m → m ≠ [] →
      ∃ k r, (k, r) ∈ m ∧ r.status < 0 ∧ o.content = some (r.contentType, r.schema) ∧
        ∀ k' q, (k', q) ∈ m → q.status < 0 → AtLeast r q) ∧
    (∀ k r, (k, r) ∈ m → r.status < 0 →
      (∀ q ∈ m.map Prod.snd, q.status < 0 → ¬ SaysNothing q ∧
        ∀ p ∈ m.map Prod.snd, p.status ≥ 0 → ¬ PrintedAlike p q) →
      ∃ o, ("default", o) ∈ buildResponses txt m) := by
  have hchosen : ∀ r, mget (walked m) "default" = some r →
      (∃ k, (k, r) ∈ m ∧ r.status < 0) ∧ ∀ k' q, (k', q) ∈ m → q.status < 0 → AtLeast r q := by
    intro r hw
    rw [walked_default m h] at hw
    have hne : unknowns (sortedEntries m) ≠ [] := by intro e; rw [e] at hw; cases hw
    obtain ⟨q, hq, hqm, hbest⟩ := C12_best_chosen _ hne
    rw [hw] at hq; cases hq
    obtain ⟨k, hk, hneg⟩ := (mem_unknowns _ _).1 hqm
    refine ⟨⟨k, (sorted_perm m).mem_iff.1 hk, hneg⟩, ?_⟩
    intro k' q hq hqn
    exact hbest q ((mem_unknowns _ _).2 ⟨k', (sorted_perm m).mem_iff.2 hq, hqn⟩)
  constructor
  · intro o ho hm
    obtain ⟨r, hr, rfl⟩ := (doc_mem txt m hm _ _).1 ho
    have hw : mget (walked m) "default" = some r := by
      rw [chosen_eq] at hr
      split at hr
      · split at hr
        · rw [mget_mdel, if_pos rfl] at hr; cases hr
        · exact hr
      · exact hr
    obtain ⟨⟨k, hk, hneg⟩, hb⟩ := hchosen r hw
    refine ⟨k, r, hk, hneg, ?_, hb⟩
    unfold render
    rw [if_neg]
    intro hbl
    have := bodyless_pos ((isBodyless_iff _).1 hbl)
    omega
  · intro k r hr hneg hinf
    have hm : m ≠ [] := List.ne_nil_of_mem hr
    have hne : unknowns (sortedEntries m) ≠ [] :=
      List.ne_nil_of_mem ((mem_unknowns _ r).2 ⟨k, (sorted_perm m).mem_iff.2 hr, hneg⟩)
    obtain ⟨q, hq, hqm, _⟩ := C12_best_chosen _ hne
    rw [← walked_default m h] at hq
    obtain ⟨k', hk', hqn⟩ := (mem_unknowns _ _).1 hqm
    have hk' := (sorted_perm m).mem_iff.1 hk'
    obtain ⟨g1, g2⟩ := hinf q (List.mem_map.2 ⟨_, hk', rfl⟩) hqn
    rw [← genericObject_iff, Bool.not_eq_true] at g1
    refine ⟨render txt q, (doc_mem txt m hm _ _).2 ⟨q, ?_, rfl⟩⟩
    rw [chosen_eq]
    rw [hq]
    dsimp only
    rw [if_neg]
    · exact hq
    · simp only [Bool.and_eq_true, not_and]
      intro _ hun
      unfold uninformativeDefault at hun
      rw [g1, Bool.false_or, List.any_eq_true] at hun
      obtain ⟨x, hx, hd⟩ := hun
      simp only [Bool.and_eq_true, decide_eq_true_eq] at hd
      have hnd := nodup_foldl_choose (sortedEntries m) [] (by simp)
      have := mget_of_mem hnd hx
      obtain ⟨hm1, hm2⟩ := (walked_other m h x.1 hd.1 x.2).1 this
      exact g2 x.2 (List.mem_map.2 ⟨_, mem_of_mget hm1, rfl⟩) hm2 ((sameBody_iff _ _).1 hd.2)

def demoTable : RespMap :=
  [("204", { status := 204, bodyType := "User", schema := some { hasRef := true } }),
   ("-1", { status := -1, bodyType := "Err", schema := some { hasRef := true, rendered := "{\"$ref\":\"Err\"}" }, contentType := "application/json" })]

example : SlotsOk demoTable := by
  refine ⟨by decide, ?_⟩
  intro k r hr
  simp only [demoTable, List.mem_cons, Prod.mk.injEq, List.not_mem_nil, or_false] at hr
  rcases hr with ⟨rfl, rfl⟩ | ⟨rfl, rfl⟩ <;> decide
example : (buildResponses (fun s => if s = 204 then "No Content" else "") demoTable).map (fun x => (x.1, x.2.content.isSome)) =
    [("default", true), ("204", false)] := by decide

/-- **C11 end to end.** For what a handler writes, every documented response lacks content
exactly when its status forbids a body, and something is documented. -/
theorem C11_handler (txt : Int → String) (depths : String → Option Nat) (cands : List Candidate) :
    buildResponses txt (pairAndFill depths [] cands) ≠ [] ∧
    ∀ k o, (k, o) ∈ buildResponses txt (pairAndFill depths [] cands) →
      (o.content = none ↔ ∃ s, k = slot s ∧ NoBodyStatus s) := by
  have h := slotsOk_result depths [] cands ⟨by simp, by simp⟩
  exact ⟨C11_nonempty txt _ h, fun k o hk => C11_content_iff txt _ h k o hk⟩

/-- **C47 for the responses section.** It does not depend on the order the response table
is walked in. -/
theorem C47_responses_order_independent (txt : Int → String) (m m' : RespMap) (hp : m.Perm m')
    (hn : (m.map Prod.fst).Nodup) : buildResponses txt m = buildResponses txt m' := by
  have hs : sortedEntries m = sortedEntries m' := by
    unfold sortedEntries
    apply isort_eq_of_perm_on (le := fun a b : String × Resp => strLe a.1 b.1)
      ⟨fun a b c => strLe_ord.trans _ _ _, fun a b => strLe_ord.total _ _⟩
    · intro a ha b hb h1 h2
      have e : a.1 = b.1 := strLe_ord.antisymm _ _ h1 h2
      have ea := mget_of_mem hn (k := a.1) (v := a.2) ha
      have eb := mget_of_mem hn (k := b.1) (v := b.2) hb
      rw [e, eb] at ea
      exact Prod.ext e (Option.some.inj ea).symm
    · exact hp
  unfold buildResponses chosenResponses
  rw [hs]
  by_cases h : m = []
  · have : m' = [] := by rw [h] at hp; exact hp.symm.eq_nil
    rw [if_pos h, if_pos this]
  · have : m' ≠ [] := by intro e; rw [e] at hp; exact h hp.eq_nil
    rw [if_neg h, if_neg this]

/-! ## C09: what merging keeps -/

theorem mergeUsed_mono (l : List (String × Option Schema)) : ∀ (m : List (String × Option Schema)) (k : String),
    (∀ sc, mget m k = some (some sc) → ∃ sc', mget (l.foldl mergeUsedStep m) k = some (some sc')) ∧
    ((mget m k).isSome → (mget (l.foldl mergeUsedStep m) k).isSome) := by
  induction l with
  | nil => intro m k; exact ⟨fun sc h => ⟨sc, h⟩, id⟩
  | cons e l ih =>
    intro m k
    obtain ⟨h1, h2⟩ := ih (mergeUsedStep m e) k
    rw [List.foldl_cons]
    constructor
    · intro sc h
      apply h1 sc
      unfold mergeUsedStep
      split
      · exact h
      · next hne =>
        by_cases hk : k = e.1
        · subst hk; exact absurd h (hne sc)
        · rw [mget_mset_ne _ _ hk]; exact h
    · intro h
      apply h2
      unfold mergeUsedStep
      split
      · exact h
      · rw [mget_mset]; split
        · rfl
        · exact h

theorem mergeUsed_right (l : List (String × Option Schema)) : ∀ (m : List (String × Option Schema)) (k : String),
    (∀ sc, (k, some sc) ∈ l → ∃ sc', mget (l.foldl mergeUsedStep m) k = some (some sc')) ∧
    (∀ v, (k, v) ∈ l → (mget (l.foldl mergeUsedStep m) k).isSome) := by
  induction l with
  | nil => intro m k; simp
  | cons e l ih =>
    intro m k
    rw [List.foldl_cons]
    constructor
    · intro sc h
      rcases List.mem_cons.1 h with rfl | h
      · have : ∃ sc', mget (mergeUsedStep m (k, some sc)) k = some (some sc') := by
          unfold mergeUsedStep
          split
          · next sc' hh => exact ⟨sc', hh⟩
          · exact ⟨sc, by rw [mget_mset_self]⟩
        obtain ⟨sc', hs⟩ := this
        exact (mergeUsed_mono l _ k).1 sc' hs
      · exact (ih _ k).1 sc h
    · intro v h
      rcases List.mem_cons.1 h with rfl | h
      · apply (mergeUsed_mono l _ k).2
        unfold mergeUsedStep
        split
        · next hh => rw [hh]; rfl
        · rw [mget_mset_self]; rfl
      · exact (ih _ k).2 v h

theorem mergeResp_all (l : RespMap) : ∀ (m : RespMap) (k : String) (r : Resp),
    (mget m k = some r ∨ (k, r) ∈ l) → ∃ q, mget (l.foldl mergeRespStep m) k = some q ∧ AtLeast q r := by
  induction l with
  | nil =>
    intro m k r h
    exact ⟨r, h.resolve_right (by simp), atLeast_refl r⟩
  | cons e l ih =>
    intro m k r h
    rw [List.foldl_cons]
    have step : ∀ q, mget (mergeRespStep m e) k = some q → AtLeast q r →
        ∃ q, mget (l.foldl mergeRespStep (mergeRespStep m e)) k = some q ∧ AtLeast q r := by
      intro q hq ha
      obtain ⟨q', h1, h2⟩ := ih _ k q (.inl hq)
      exact ⟨q', h1, atLeast_trans h2 ha⟩
    obtain ⟨ek, er⟩ := e
    by_cases hk : k = ek
    · subst hk
      have hnone : mget m k = none → mget (mergeRespStep m (k, er)) k = some er := by
        intro hn; unfold mergeRespStep; rw [mget_mset_self, hn]
      have hsome : ∀ c, mget m k = some c → mget (mergeRespStep m (k, er)) k = some (pickResp c er) := by
        intro c hn; unfold mergeRespStep; rw [mget_mset_self, hn]
      rcases h with h | h
      · exact step _ (hsome r h) (pick_best _ _).1
      · rcases List.mem_cons.1 h with h | h
        · cases h
          cases hm : mget m k with
          | none => exact step _ (hnone hm) (atLeast_refl _)
          | some c => exact step _ (hsome c hm) (pick_best _ _).2
        · exact ih _ _ r (.inr h)
    · rcases h with h | h
      · exact step r (by unfold mergeRespStep; rw [mget_mset_ne _ _ hk]; exact h) (atLeast_refl r)
      · rcases List.mem_cons.1 h with h | h
        · cases h; exact absurd rfl hk
        · exact ih _ k r (.inr h)

/-- **C09, types and responses.** Whatever Go type a dropped duplicate had found used, with
or without a schema, and whatever response it had found for a status slot, every surviving
route of the same registration has them: the type (with a schema if there was one), and a
response in that slot at least as concrete. -/
theorem C09_types_and_responses_kept {π τ ς : Type} (rs : List (Paths.Route (Ext π τ ς))) (r : Paths.Route (Ext π τ ς)) (hr : r ∈ rs)
    (hd : ∃ s ∈ rs, Paths.LessMounted r s) (s : Paths.Route (Ext π τ ς)) (hs : s ∈ Paths.dropSubsumed mergeExt rs) (hk : s.key = r.key)
    (k : String) :
    (∀ sc, mget r.ext.used k = some (some sc) → ∃ sc', mget s.ext.used k = some (some sc')) ∧
    ((mget r.ext.used k).isSome → (mget s.ext.used k).isSome) ∧
    (∀ q, mget r.ext.response k = some q → ∃ q', mget s.ext.response k = some q' ∧ AtLeast q' q) ∧
    (∀ q, r.ext.request = some q → ∃ q', s.ext.request = some q' ∧ (q.concrete = true → q'.concrete = true)) := by
  refine ⟨?_, ?_, ?_, ?_⟩
  · intro sc h
    exact Paths.C09_contribution_kept mergeExt (fun e => ∃ sc', mget e.used k = some (some sc'))
      (fun a b ⟨x, hx⟩ => (mergeUsed_mono b.used a.used k).1 x hx)
      (fun a b ⟨x, hx⟩ => (mergeUsed_right b.used a.used k).1 x (mem_of_mget hx)) rs r hr hd ⟨sc, h⟩ s hs hk
  · intro h
    exact Paths.C09_contribution_kept mergeExt (fun e => (mget e.used k).isSome = true)
      (fun a b hx => (mergeUsed_mono b.used a.used k).2 hx)
      (fun a b hx => by
        obtain ⟨v, hv⟩ := Option.isSome_iff_exists.1 hx
        exact (mergeUsed_right b.used a.used k).2 v (mem_of_mget hv)) rs r hr hd h s hs hk
  · intro q h
    exact Paths.C09_contribution_kept mergeExt (fun e => ∃ q', mget e.response k = some q' ∧ AtLeast q' q)
      (fun a b ⟨x, hx, ha⟩ => by
        obtain ⟨y, hy, hb⟩ := mergeResp_all b.response a.response k x (.inl hx)
        exact ⟨y, hy, atLeast_trans hb ha⟩)
      (fun a b ⟨x, hx, ha⟩ => by
        obtain ⟨y, hy, hb⟩ := mergeResp_all b.response a.response k x (.inr (mem_of_mget hx))
        exact ⟨y, hy, atLeast_trans hb ha⟩) rs r hr hd ⟨q, h, atLeast_refl q⟩ s hs hk
  · intro q h
    refine Paths.C09_contribution_kept mergeExt (fun e => ∃ q', e.request = some q' ∧ (q.concrete = true → q'.concrete = true))
      ?_ ?_ rs r hr hd ⟨q, h, id⟩ s hs hk
    · rintro a b ⟨x, hx, hc⟩
      show ∃ q', preferReq a.request b.request = some q' ∧ _
      rw [hx]
      cases b.request with
      | none => exact ⟨x, rfl, hc⟩
      | some y =>
        unfold preferReq
        cases hx : x.concrete <;> cases hy : y.concrete <;> simp_all
    · rintro a b ⟨x, hx, hc⟩
      show ∃ q', preferReq a.request b.request = some q' ∧ _
      rw [hx]
      cases a.request with
      | none => exact ⟨x, rfl, hc⟩
      | some y =>
        unfold preferReq
        cases hx : x.concrete <;> cases hy : y.concrete <;> simp_all

/-- **C09 fails for parameters**: a parameter only the dropped duplicate saw is lost when
the surviving route has parameters of its own (extractor.go:1015-1017). -/
theorem C09_parameters_lost :
    (mergeExt (ς := Unit) (τ := Unit) { params := ["page"] } { params := ["page", "limit"] }).params = ["page"] := by
  decide

/-- **C09 fails for an explicitly public route**: merging with a duplicate that says nothing
about security turns "public" into "inherits the global requirement"
(extractor.go:1021-1023). -/
theorem C09_public_lost :
    (mergeExt (π := Unit) (τ := Unit) (ς := Unit) { security := some [] } {}).security = none := by
  decide

end Verif.Responses
