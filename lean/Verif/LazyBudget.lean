import Verif.LazyInv
/-!
# Invariants: budgets, keys and reports
-/

namespace Verif.Lazy
open Verif.Common Verif.LazySpec

/-! ## Induction over a run -/

theorem fold_keeps {P : St → Prop} (p : Program) (L : Limits) (i : Nat) (n : Node) (cs : Nat)
    (hnote : ∀ s sc k, P s → L.instances ≤ s.inst sc k → P (noteInst s sc k))
    (hcreate : ∀ s sp, P s → P (create i n cs s sp)) (l : List Spec) :
    ∀ a : St × Nat, P a.1 → P (l.foldl (childStep p L i n cs) a).1 := by
  induction l with
  | nil => intro a h; exact h
  | cons sp l ih =>
    intro a h
    refine ih _ ?_
    unfold childStep
    split
    · exact h
    · split
      · exact h
      · split
        · exact h
        · split
          · next hc => exact hnote _ _ _ h hc
          · exact hcreate _ _ h

/-- As `fold_keeps`, for a plan whose specs are known and a quantity that grows by at most one
per spec. -/
theorem fold_keeps_mem {P : St → Prop} (p : Program) (L : Limits) (i : Nat) (n : Node) (cs : Nat) (l : List Spec)
    (hnote : ∀ s sc k, P s → P (noteInst s sc k))
    (hcreate : ∀ s, ∀ sp ∈ l, n.onPath sp.key = false → p.canReach sp = true → P s → P (create i n cs s sp)) :
    ∀ a : St × Nat, P a.1 → P (l.foldl (childStep p L i n cs) a).1 := by
  induction l with
  | nil => intro a h; exact h
  | cons sp l ih =>
    intro a h
    refine ih (fun s sp' hm => hcreate s sp' (List.mem_cons_of_mem _ hm)) _ ?_
    unfold childStep
    split
    · exact h
    · split
      · exact h
      · next h1 =>
        split
        · exact h
        · next h2 =>
          split
          · exact hnote _ _ _ h
          · exact hcreate _ _ (by simp) (by simpa using h1) (by simpa using h2) h

theorem fold_grows {f : St → Nat} (p : Program) (L : Limits) (i : Nat) (n : Node) (cs : Nat)
    (hnote : ∀ s sc k, f (noteInst s sc k) = f s)
    (hcreate : ∀ s sp, f (create i n cs s sp) ≤ f s + 1) (l : List Spec) :
    ∀ a : St × Nat, f (l.foldl (childStep p L i n cs) a).1 ≤ f a.1 + l.length := by
  induction l with
  | nil => intro a; simp
  | cons sp l ih =>
    intro a
    rw [List.foldl_cons]
    refine Nat.le_trans (ih _) ?_
    have : f (childStep p L i n cs a sp).1 ≤ f a.1 + 1 := by
      unfold childStep
      split
      · omega
      · split
        · omega
        · split
          · omega
          · split
            · simp only [hnote]; omega
            · exact hcreate _ _
    simp only [List.length_cons]; omega

theorem run_keeps {P : St → Prop} (p : Program) (L : Limits) (roots : List String) (ops : List Nat)
    (h0 : P (start roots)) (hs : ∀ s i, P s → P (expand p L s i)) : P (run p L roots ops) := by
  unfold run
  have : ∀ (l : List Nat) (s : St), P s → P (l.foldl (expand p L) s) := by
    intro l
    induction l with
    | nil => intro s h; exact h
    | cons i l ih => intro s h; exact ih _ (hs s i h)
  exact this ops _ h0

/-! ## Keys -/

/-- Every frame of every node comes from a root or from a plan; argument frames from a plan. -/
def FramesIn (roots U : List String) (nodes : List Node) : Prop :=
  ∀ x ∈ nodes, (∀ f ∈ x.path, f.key ∈ roots ∨ f.key ∈ U) ∧ (∀ f ∈ x.path, f.isArg = true → f.key ∈ U) ∧
    (x.lister.isSome = true → x.key ∈ U)

theorem nearestArg_in (U : List String) : ∀ path : List Frame, (∀ f ∈ path, f.isArg = true → f.key ∈ U) →
    nearestArg path = "" ∨ nearestArg path ∈ U
  | [], _ => .inl rfl
  | f :: rest, h => by
    unfold nearestArg
    split
    · next hf => exact .inr (h f (by simp) hf)
    · exact nearestArg_in U rest fun g hg => h g (List.mem_cons_of_mem _ hg)

theorem expand_frames {p : Program} {U : List String} (hU : KeysIn p U) (L : Limits) (roots : List String) (s : St)
    (i : Nat) (h : FramesIn roots U s.nodes) : FramesIn roots U (expand p L s i).nodes := by
  unfold expand
  split
  · exact h
  · next n hn =>
    have hmem := h n (List.mem_of_getElem? hn)
    split
    · exact h
    · split
      · exact h
      · split
        · rw [noteRoute_nodes]; exact h
        · refine fold_keeps_mem (P := fun s => FramesIn roots U s.nodes) p L i n _ _ (fun s sc k hs => hs) ?_ _ ?_
          · intro s' sp hsp _ _ hs x hx
            rw [create_nodes, List.mem_append, List.mem_singleton] at hx
            rcases hx with hx | rfl
            · exact hs x hx
            · have hk := hU _ sp hsp
              have htail : ∀ f ∈ (if sp.arg = none ∧ sp.chain = true ∧ n.path.tail ≠ [] then n.path.tail else n.path), f ∈ n.path := by
                intro f hf
                split at hf
                · exact List.mem_of_mem_tail hf
                · exact hf
              refine ⟨?_, ?_, fun _ => hk⟩
              · intro f hf
                rcases List.mem_cons.mp hf with e | hf
                · rw [e]; exact .inr hk
                · exact hmem.1 f (htail f hf)
              · intro f hf ha
                rcases List.mem_cons.mp hf with e | hf
                · rw [e]; exact hk
                · exact hmem.2.1 f (htail f hf) ha
          · simp only [scopeOf_nodes, markExpanded]; exact h

theorem run_frames {p : Program} {U : List String} (hU : KeysIn p U) (L : Limits) (roots : List String) (ops : List Nat) :
    FramesIn roots U (run p L roots ops).nodes := by
  refine run_keeps (P := fun s => FramesIn roots U s.nodes) p L roots ops ?_ (fun s i h => expand_frames hU L roots s i h)
  intro x hx
  obtain ⟨k, hk, rfl⟩ := List.mem_map.mp hx
  refine ⟨?_, ?_, ?_⟩
  · intro f hf; rw [List.mem_singleton.mp hf]; exact .inl hk
  · intro f hf ha; rw [List.mem_singleton.mp hf] at ha; simp at ha
  · intro hh; simp at hh

theorem length_le_classes {α β : Type} [DecidableEq β] (f : α → β) (b : Nat) :
    ∀ (P : List β) (l : List α), (∀ x ∈ l, f x ∈ P) → (∀ c ∈ P, l.countP (fun x => f x == c) ≤ b) →
      l.length ≤ P.length * b
  | [], l, h, _ => by
    cases l with
    | nil => simp
    | cons x l => have := h x (by simp); simp at this
  | c :: P, l, h, hb => by
    have h1 : l.length = l.countP (fun x => f x == c) + (l.filter fun x => !(f x == c)).length := by
      rw [List.length_eq_countP_add_countP (fun x => f x == c), ← List.countP_eq_length_filter]
      congr 1
      apply List.countP_congr
      intro x _
      cases f x == c <;> simp
    have h2 := length_le_classes f b P (l.filter fun x => !(f x == c)) (by
      intro x hx
      obtain ⟨hx1, hx2⟩ := List.mem_filter.mp hx
      rcases List.mem_cons.mp (h x hx1) with e | hm
      · rw [e] at hx2; simp at hx2
      · exact hm) (by
      intro d hd
      refine Nat.le_trans ?_ (hb d (List.mem_cons_of_mem _ hd))
      exact (List.filter_sublist (l := l)).countP_le)
    have h3 := hb c (by simp)
    simp only [List.length_cons, Nat.succ_mul]
    omega

/-! ## Route budgets -/

structure RouteInv (L : Limits) (P : Nat) (s : St) : Prop where
  scopes : ∀ x ∈ s.nodes, x.scope = 0 ∨ x.scope < s.routeNodes.length
  counts : ∀ sc c, 0 < sc → s.routeNodes[sc]? = some c → c = inRoute s.nodes sc
  bound : ∀ sc c, 0 < sc → s.routeNodes[sc]? = some c → c ≤ L.route - 1 + P
  cuts : s.cut.Nodup ∧ s.routeTruncs = s.cut.length ∧
    ∀ sc ∈ s.cut, 0 < sc ∧ ∃ c, s.routeNodes[sc]? = some c ∧ L.route ≤ c

theorem inRoute_append (nodes : List Node) (y : Node) (sc : Nat) :
    inRoute (nodes ++ [y]) sc = inRoute nodes sc + if y.scope = sc then 1 else 0 := by
  unfold inRoute
  rw [List.countP_append, List.countP_cons, List.countP_nil]
  by_cases h : y.scope = sc <;> simp [h]

theorem route_pos (L : Limits) : 0 < L.route := by unfold Limits.route; split <;> omega

theorem create_routeNodes (i : Nat) (n : Node) (cs : Nat) (s : St) (sp : Spec) :
    (create i n cs s sp).routeNodes = if 0 < cs then s.routeNodes.modify cs (· + 1) else s.routeNodes := by
  unfold create; simp only [countKey_routeNodes]; unfold chargeRoute; split <;> rfl

theorem modify_get (l : List Nat) (cs sc c : Nat) :
    (l.modify cs (· + 1))[sc]? = some c ↔ (if cs = sc then ∃ d, l[sc]? = some d ∧ c = d + 1 else l[sc]? = some c) := by
  rw [List.getElem?_modify]
  by_cases h : cs = sc
  · simp only [h, if_true]
    cases hl : l[sc]? with
    | none => simp
    | some d => simp [eq_comm]
  · simp [h]

/-- What the loop keeps of the route tables: everything but the bound. -/
structure RouteLoop (L : Limits) (cs : Nat) (s : St) : Prop where
  scopes : ∀ x ∈ s.nodes, x.scope = 0 ∨ x.scope < s.routeNodes.length
  here : cs = 0 ∨ cs < s.routeNodes.length
  counts : ∀ sc c, 0 < sc → s.routeNodes[sc]? = some c → c = inRoute s.nodes sc
  cuts : s.cut.Nodup ∧ s.routeTruncs = s.cut.length ∧
    ∀ sc ∈ s.cut, 0 < sc ∧ ∃ c, s.routeNodes[sc]? = some c ∧ L.route ≤ c

theorem routeLoop_create {L : Limits} {cs : Nat} {s : St} (i : Nat) (n : Node) (h : RouteLoop L cs s) (sp : Spec) :
    RouteLoop L cs (create i n cs s sp) := by
  have hlen : (create i n cs s sp).routeNodes.length = s.routeNodes.length := by
    rw [create_routeNodes]; split <;> simp
  refine ⟨?_, ?_, ?_, ?_⟩
  · intro x hx
    rw [create_nodes, List.mem_append, List.mem_singleton] at hx
    rw [hlen]
    rcases hx with hx | rfl
    · exact h.scopes x hx
    · rw [mkChild_scope]; exact h.here
  · rw [hlen]; exact h.here
  · intro sc c hsc hget
    rw [create_nodes, inRoute_append, mkChild_scope]
    rw [create_routeNodes] at hget
    by_cases hcs : 0 < cs
    · rw [if_pos hcs, modify_get] at hget
      by_cases e : cs = sc
      · rw [if_pos e] at hget ⊢
        obtain ⟨d, hd, rfl⟩ := hget
        rw [h.counts sc d hsc hd]
      · rw [if_neg e] at hget ⊢
        rw [h.counts sc c hsc hget]; rfl
    · rw [if_neg hcs] at hget
      rw [if_neg (by omega)]
      rw [h.counts sc c hsc hget]; rfl
  · obtain ⟨h1, h2, h3⟩ := h.cuts
    have hf := create_flags i n cs s sp
    rw [hf.2.2.2, hf.2.2.1]
    refine ⟨h1, h2, fun sc hsc => ?_⟩
    obtain ⟨hpos, c, hc, hle⟩ := h3 sc hsc
    refine ⟨hpos, ?_⟩
    rw [create_routeNodes]
    by_cases hcs : 0 < cs
    · rw [if_pos hcs]
      by_cases e : cs = sc
      · exact ⟨c + 1, (modify_get _ _ _ _).mpr (by rw [if_pos e]; exact ⟨c, hc, rfl⟩), by omega⟩
      · exact ⟨c, (modify_get _ _ _ _).mpr (by rw [if_neg e]; exact hc), hle⟩
    · rw [if_neg hcs]; exact ⟨c, hc, hle⟩

theorem expand_route {p : Program} {L : Limits} {P : Nat} (hP : ∀ id, (p.plan id).length ≤ P) {s : St}
    (h : RouteInv L P s) (i : Nat) : RouteInv L P (expand p L s i) := by
  unfold expand
  split
  · exact h
  · next n hn =>
    split
    · exact h
    · split
      · exact ⟨h.scopes, h.counts, h.bound, h.cuts⟩
      · split
        · next hx =>
          obtain ⟨h1, h2, h3⟩ := h.cuts
          unfold noteRoute
          split
          · exact h
          · next hnc =>
            refine ⟨h.scopes, h.counts, h.bound, List.nodup_cons.mpr ⟨hnc, h1⟩, by simp [h2], ?_⟩
            intro sc hsc
            rcases List.mem_cons.mp hsc with e | hsc
            · rw [e]
              unfold routeBudgetExhausted at hx
              simp only [Bool.and_eq_true, decide_eq_true_eq] at hx
              refine ⟨hx.1, ?_⟩
              cases hg : s.routeNodes[n.scope]? with
              | none => rw [hg] at hx; simp at hx
              | some c => rw [hg] at hx; exact ⟨c, rfl, of_decide_eq_true hx.2⟩
            · exact h3 sc hsc
        · next hnx =>
          -- the tables after `scopeOf`
          have hsc : RouteLoop L (scopeOf p (markExpanded s i) n).1 (scopeOf p (markExpanded s i) n).2 ∧
              (∀ c, 0 < (scopeOf p (markExpanded s i) n).1 →
                (scopeOf p (markExpanded s i) n).2.routeNodes[(scopeOf p (markExpanded s i) n).1]? = some c → c < L.route) ∧
              (∀ sc c, 0 < sc → sc ≠ (scopeOf p (markExpanded s i) n).1 →
                (scopeOf p (markExpanded s i) n).2.routeNodes[sc]? = some c → c ≤ L.route - 1 + P) := by
            have hself : RouteLoop L n.scope s ∧
                (∀ c, 0 < n.scope → s.routeNodes[n.scope]? = some c → c < L.route) ∧
                (∀ sc c, 0 < sc → sc ≠ n.scope → s.routeNodes[sc]? = some c → c ≤ L.route - 1 + P) := by
              refine ⟨⟨h.scopes, h.scopes n (List.mem_of_getElem? hn), h.counts, h.cuts⟩, ?_, fun sc c hsc _ => h.bound sc c hsc⟩
              intro c hpos hget
              unfold routeBudgetExhausted at hnx
              rw [hget] at hnx
              simp only [hpos, decide_true, Bool.true_and, decide_eq_true_eq] at hnx
              omega
            unfold scopeOf
            split
            · exact ⟨⟨hself.1.scopes, hself.1.here, hself.1.counts, hself.1.cuts⟩, hself.2⟩
            · next hz =>
              split
              · exact ⟨⟨hself.1.scopes, hself.1.here, hself.1.counts, hself.1.cuts⟩, hself.2⟩
              · split
                · exact ⟨⟨hself.1.scopes, hself.1.here, hself.1.counts, hself.1.cuts⟩, hself.2⟩
                · have hrn : (if s.routeNodes = [] then [0] else s.routeNodes) = openNodes (markExpanded s i) := rfl
                  generalize openNodes (markExpanded s i) = rn at *
                  simp only [markExpanded]
                  have hold : ∀ (sc c : Nat), 0 < sc → rn[sc]? = some c → s.routeNodes[sc]? = some c := by
                    intro sc c hpos hg
                    by_cases he : s.routeNodes = []
                    · rw [if_pos he] at hrn; rw [← hrn] at hg
                      rw [List.getElem?_eq_none (by simp; omega)] at hg; simp at hg
                    · rw [if_neg he] at hrn; rw [hrn]; exact hg
                  have hold' : ∀ (sc c : Nat), s.routeNodes[sc]? = some c → rn[sc]? = some c := by
                    intro sc c hg
                    by_cases he : s.routeNodes = []
                    · rw [he] at hg; simp at hg
                    · rw [if_neg he] at hrn; rw [← hrn]; exact hg
                  have hlen : s.routeNodes.length ≤ rn.length ∧ 0 < rn.length := by
                    rw [← hrn]
                    split
                    · next he => rw [he]; simp
                    · next he => exact ⟨Nat.le_refl _, List.length_pos_iff.mpr he⟩
                  have hnone : inRoute s.nodes rn.length = 0 := by
                    refine List.countP_eq_zero.mpr fun x hx => ?_
                    have := h.scopes x hx
                    simp only [beq_iff_eq]; omega
                  have happ : ∀ (sc c : Nat), (rn ++ [0])[sc]? = some c → rn[sc]? = some c ∨ (sc = rn.length ∧ c = 0) := by
                    intro sc c hg
                    by_cases hlt : sc < rn.length
                    · rw [List.getElem?_append_left hlt] at hg; exact .inl hg
                    · rw [List.getElem?_append_right (by omega)] at hg
                      have : sc - rn.length = 0 := by
                        have := (List.getElem?_eq_some_iff.mp hg).1
                        simp at this; omega
                      rw [this] at hg
                      simp at hg
                      exact .inr ⟨by omega, hg.symm⟩
                  refine ⟨⟨?_, ?_, ?_, ?_⟩, ?_, ?_⟩
                  · intro x hx
                    have := h.scopes x hx
                    simp only [List.length_append, List.length_cons, List.length_nil]; omega
                  · simp only [List.length_append, List.length_cons, List.length_nil]; omega
                  · intro sc c hpos hg
                    rcases happ sc c hg with hg | ⟨rfl, rfl⟩
                    · exact h.counts sc c hpos (hold sc c hpos hg)
                    · exact hnone.symm
                  · refine ⟨h.cuts.1, h.cuts.2.1, fun sc hsc => ?_⟩
                    obtain ⟨hpos, c, hc, hle⟩ := h.cuts.2.2 sc hsc
                    refine ⟨hpos, c, ?_, hle⟩
                    have hg := hold' sc c hc
                    rw [List.getElem?_append_left (List.getElem?_eq_some_iff.mp hg).1]; exact hg
                  · intro c _ hg
                    rcases happ _ c hg with hg | ⟨_, rfl⟩
                    · have := (List.getElem?_eq_some_iff.mp hg).1; omega
                    · exact route_pos L
                  · intro sc c hpos hne hg
                    rcases happ sc c hg with hg | ⟨rfl, rfl⟩
                    · exact h.bound sc c hpos (hold sc c hpos hg)
                    · exact absurd rfl hne
          obtain ⟨hloop, hlt, hother⟩ := hsc
          generalize hr : scopeOf p (markExpanded s i) n = r at *
          have hfin := fold_keeps (P := fun s' => RouteLoop L r.1 s' ∧
              (∀ sc c, 0 < sc → sc ≠ r.1 → s'.routeNodes[sc]? = some c → c ≤ L.route - 1 + P)) p L i n r.1
            (fun s' sc k hs _ => ⟨⟨hs.1.scopes, hs.1.here, hs.1.counts, hs.1.cuts⟩, hs.2⟩)
            (fun s' sp hs => ⟨routeLoop_create i n hs.1 sp, fun sc c hpos hne hg => by
              rw [create_routeNodes] at hg
              split at hg
              · rw [modify_get, if_neg (fun e => hne e.symm)] at hg; exact hs.2 sc c hpos hne hg
              · exact hs.2 sc c hpos hne hg⟩) (p.plan n.ident) (r.2, 0) ⟨hloop, hother⟩
          refine ⟨hfin.1.scopes, hfin.1.counts, ?_, hfin.1.cuts⟩
          intro sc c hpos hg
          by_cases e : sc = r.1
          · subst e
            have hgrow := fold_grows (f := fun s' => (s'.routeNodes[r.1]?).getD 0) p L i n r.1 (fun _ _ _ => rfl)
              (fun s' sp => by
                simp only [create_routeNodes]
                split
                · rw [List.getElem?_modify]; simp only [if_true]
                  cases s'.routeNodes[r.1]? <;> simp
                · omega) (p.plan n.ident) (r.2, 0)
            simp only [hg, Option.getD_some] at hgrow
            have hP' := hP n.ident
            cases hg0 : r.2.routeNodes[r.1]? with
            | none => rw [hg0] at hgrow; simp only [Option.getD_none] at hgrow; omega
            | some c0 =>
              rw [hg0] at hgrow; simp only [Option.getD_some] at hgrow
              have := hlt c0 hpos hg0
              omega
          · exact hfin.2 sc c hpos e hg

/-! ## Keys counted -/

structure CountInv (s : St) : Prop where
  any : s.seenAny.Nodup ∧ s.nodesBuilt = s.seenAny.length ∧
    ∀ k, k ∈ s.seenAny ↔ ∃ x ∈ s.nodes, x.lister.isSome = true ∧ x.key = k
  wiring : s.seenWiring.Nodup ∧ s.wiringBuilt = s.seenWiring.length ∧
    ∀ k, k ∈ s.seenWiring ↔ ∃ x ∈ s.nodes, x.lister.isSome = true ∧ x.scope = 0 ∧ x.key = k
  mat : s.materialized = (built s.nodes).length

theorem create_seenAny (i : Nat) (n : Node) (cs : Nat) (s : St) (sp : Spec) :
    (create i n cs s sp).seenAny = if sp.key ∈ s.seenAny then s.seenAny else sp.key :: s.seenAny := by
  unfold create countKey chargeRoute; simp only
  by_cases h : 0 < cs <;> simp only [h, if_true, if_false] <;> split <;> split <;> rfl
theorem create_nodesBuilt (i : Nat) (n : Node) (cs : Nat) (s : St) (sp : Spec) :
    (create i n cs s sp).nodesBuilt = if sp.key ∈ s.seenAny then s.nodesBuilt else s.nodesBuilt + 1 := by
  unfold create countKey chargeRoute; simp only
  by_cases h : 0 < cs <;> simp only [h, if_true, if_false] <;> split <;> split <;> rfl
theorem create_seenWiring (i : Nat) (n : Node) (cs : Nat) (s : St) (sp : Spec) :
    (create i n cs s sp).seenWiring = if cs = 0 ∧ sp.key ∉ s.seenWiring then sp.key :: s.seenWiring else s.seenWiring := by
  unfold create countKey chargeRoute; simp only
  by_cases h : 0 < cs <;> simp only [h, if_true, if_false] <;> split <;> split <;> rfl
theorem create_wiringBuilt (i : Nat) (n : Node) (cs : Nat) (s : St) (sp : Spec) :
    (create i n cs s sp).wiringBuilt = if cs = 0 ∧ sp.key ∉ s.seenWiring then s.wiringBuilt + 1 else s.wiringBuilt := by
  unfold create countKey chargeRoute; simp only
  by_cases h : 0 < cs <;> simp only [h, if_true, if_false] <;> split <;> split <;> rfl

theorem countInv_create {s : St} (h : CountInv s) (i : Nat) (n : Node) (cs : Nat) (sp : Spec) :
    CountInv (create i n cs s sp) := by
  have hn := create_nodes i n cs s sp
  have hsplitA : ∀ k, (∃ x ∈ (create i n cs s sp).nodes, x.lister.isSome = true ∧ x.key = k) ↔ k = sp.key ∨ k ∈ s.seenAny := by
    intro k
    rw [hn, h.any.2.2]
    constructor
    · rintro ⟨x, hx, h1, h2⟩
      rcases List.mem_append.mp hx with hx | hx
      · exact .inr ⟨x, hx, h1, h2⟩
      · rw [List.mem_singleton.mp hx, mkChild_key] at h2; exact .inl h2.symm
    · rintro (e | ⟨x, hx, h1, h2⟩)
      · exact ⟨mkChild i n cs sp, by simp, by rw [mkChild_lister]; rfl, by rw [mkChild_key]; exact e.symm⟩
      · exact ⟨x, List.mem_append_left _ hx, h1, h2⟩
  have hsplitW : ∀ k, (∃ x ∈ (create i n cs s sp).nodes, x.lister.isSome = true ∧ x.scope = 0 ∧ x.key = k) ↔
      (cs = 0 ∧ k = sp.key) ∨ k ∈ s.seenWiring := by
    intro k
    rw [hn, h.wiring.2.2]
    constructor
    · rintro ⟨x, hx, h1, h2, h3⟩
      rcases List.mem_append.mp hx with hx | hx
      · exact .inr ⟨x, hx, h1, h2, h3⟩
      · rw [List.mem_singleton.mp hx, mkChild_key] at h3
        rw [List.mem_singleton.mp hx, mkChild_scope] at h2
        exact .inl ⟨h2, h3.symm⟩
    · rintro (⟨e0, e⟩ | ⟨x, hx, h1, h2, h3⟩)
      · exact ⟨mkChild i n cs sp, by simp, by rw [mkChild_lister]; rfl, by rw [mkChild_scope]; exact e0,
          by rw [mkChild_key]; exact e.symm⟩
      · exact ⟨x, List.mem_append_left _ hx, h1, h2, h3⟩
  refine ⟨?_, ?_, ?_⟩
  · refine ⟨?_, ?_, fun k => ?_⟩
    · rw [create_seenAny]
      split
      · exact h.any.1
      · next hk => exact List.nodup_cons.mpr ⟨hk, h.any.1⟩
    · rw [create_seenAny, create_nodesBuilt, h.any.2.1]
      split <;> simp
    · rw [hsplitA, create_seenAny]
      split
      · next hk => exact ⟨.inr, fun hh => hh.elim (fun e => e ▸ hk) id⟩
      · rw [List.mem_cons]
  · refine ⟨?_, ?_, fun k => ?_⟩
    · rw [create_seenWiring]
      split
      · next hk => exact List.nodup_cons.mpr ⟨hk.2, h.wiring.1⟩
      · exact h.wiring.1
    · rw [create_seenWiring, create_wiringBuilt, h.wiring.2.1]
      split <;> simp
    · rw [hsplitW, create_seenWiring]
      split
      · next hk => rw [List.mem_cons]; simp [hk.1]
      · next hk =>
        refine ⟨.inr, fun hh => hh.elim (fun e => ?_) id⟩
        rw [e.2]
        exact Classical.byContradiction fun hn => hk ⟨e.1, hn⟩
  · have : (create i n cs s sp).materialized = s.materialized + 1 := by
      unfold create; simp only [countKey_materialized, chargeRoute_materialized]
    rw [this, hn, h.mat]
    unfold built
    rw [List.filter_append, List.length_append]
    simp [mkChild]

theorem expand_count {p : Program} {L : Limits} {s : St} (h : CountInv s) (i : Nat) : CountInv (expand p L s i) := by
  unfold expand
  split
  · exact h
  · next n hn =>
    split
    · exact h
    · split
      · exact ⟨h.any, h.wiring, h.mat⟩
      · split
        · unfold noteRoute
          split
          · exact h
          · exact ⟨h.any, h.wiring, h.mat⟩
        · refine fold_keeps (P := CountInv) p L i n _ (fun s sc k hs _ => ⟨hs.any, hs.wiring, hs.mat⟩)
            (fun s sp hs => countInv_create hs i n _ sp) _ _ ?_
          obtain ⟨c1, c2, c3, c4, c5⟩ := scopeOf_counts p (markExpanded s i) n
          exact ⟨by rw [c1, c3, scopeOf_nodes]; exact h.any, by rw [c2, c4, scopeOf_nodes]; exact h.wiring,
            by rw [c5, scopeOf_nodes]; exact h.mat⟩

theorem count_start (roots : List String) : CountInv (start roots) := by
  have hl : ∀ x ∈ (start roots).nodes, x.lister = none := by
    intro x hx
    obtain ⟨k, _, rfl⟩ := List.mem_map.mp hx
    rfl
  refine ⟨⟨List.nodup_nil, rfl, fun k => ?_⟩, ⟨List.nodup_nil, rfl, fun k => ?_⟩, ?_⟩
  · constructor
    · intro h; simp [start] at h
    · rintro ⟨x, hx, h, _⟩; rw [hl x hx] at h; simp at h
  · constructor
    · intro h; simp [start] at h
    · rintro ⟨x, hx, h, _⟩; rw [hl x hx] at h; simp at h
  · have : built (start roots).nodes = [] := by
      unfold built
      refine List.filter_eq_nil_iff.mpr fun x hx => ?_
      rw [hl x hx]; simp
    rw [this]; rfl

/-! ## The wiring budget -/

theorem create_wiring_le (i : Nat) (n : Node) (cs : Nat) (s : St) (sp : Spec) :
    (create i n cs s sp).wiringBuilt ≤ s.wiringBuilt + 1 ∧ s.wiringBuilt ≤ (create i n cs s sp).wiringBuilt ∧
    (cs ≠ 0 → (create i n cs s sp).wiringBuilt = s.wiringBuilt) := by
  rw [create_wiringBuilt]
  split
  · next h => exact ⟨by omega, by omega, fun hn => absurd h.1 hn⟩
  · exact ⟨by omega, by omega, fun _ => rfl⟩

/-- Wiring keys stay within one plan of the budget, and are never forgotten. -/
def WiringOk (L : Limits) (P : Nat) (s : St) : Prop :=
  (0 < L.maxNodes → s.wiringBuilt ≤ L.maxNodes - 1 + P) ∧
  (s.truncated = true → 0 < L.maxNodes ∧ L.maxNodes ≤ s.wiringBuilt)

theorem scopeOf_zero (p : Program) (s : St) (n : Node) (h : (scopeOf p s n).1 = 0) : n.scope = 0 := by
  unfold scopeOf at h
  split at h
  · exact h
  · split at h
    · exact h
    · split at h
      · exact h
      · simp only [openNodes] at h
        split at h
        · simp at h
        · next hne => exact absurd (List.length_eq_zero_iff.mp h) hne

theorem expand_wiring {p : Program} {L : Limits} {P : Nat} (hP : ∀ id, (p.plan id).length ≤ P) {s : St}
    (h : WiringOk L P s) (i : Nat) : WiringOk L P (expand p L s i) := by
  unfold expand
  split
  · exact h
  · next n hn =>
    split
    · exact h
    · split
      · next hx =>
        refine ⟨h.1, fun _ => ?_⟩
        unfold budgetExhausted at hx
        simpa using hx.2
      · next hx =>
        split
        · unfold noteRoute
          split
          · exact h
          · exact h
        · obtain ⟨_, _, _, c4, _⟩ := scopeOf_counts p (markExpanded s i) n
          have c4 : (scopeOf p (markExpanded s i) n).2.wiringBuilt = s.wiringBuilt := c4
          have ht : (scopeOf p (markExpanded s i) n).2.truncated = s.truncated := (scopeOf_flags p (markExpanded s i) n).1
          have hz := scopeOf_zero p (markExpanded s i) n
          generalize scopeOf p (markExpanded s i) n = r at *
          have hmono := fold_keeps (P := fun s' => s'.truncated = s.truncated ∧ s.wiringBuilt ≤ s'.wiringBuilt) p L i n r.1
            (fun s' sc k hs _ => hs)
            (fun s' sp hs => ⟨(create_flags i n r.1 s' sp).1.trans hs.1, Nat.le_trans hs.2 (create_wiring_le i n r.1 s' sp).2.1⟩)
            (p.plan n.ident) (r.2, 0) ⟨ht, by simp only [c4]; omega⟩
          show WiringOk L P ((p.plan n.ident).foldl (childStep p L i n r.1) (r.2, 0)).1
          refine ⟨fun hpos => ?_, fun htr => ?_⟩
          · by_cases hcs : r.1 = 0
            · have hns := hz hcs
              have hlt : s.wiringBuilt < L.maxNodes := by
                have : ¬ budgetExhausted L s = true := fun hh => hx ⟨hns, hh⟩
                unfold budgetExhausted at this
                simp only [hpos, decide_true, Bool.true_and, decide_eq_true_eq] at this
                omega
              have hg := fold_grows (f := St.wiringBuilt) p L i n r.1 (fun _ _ _ => rfl)
                (fun s' sp => (create_wiring_le i n r.1 s' sp).1) (p.plan n.ident) (r.2, 0)
              have := hP n.ident
              simp only [c4] at hg
              omega
            · have hsame := fold_keeps (P := fun s' => s'.wiringBuilt = s.wiringBuilt) p L i n r.1
                (fun s' sc k hs _ => hs)
                (fun s' sp hs => ((create_wiring_le i n r.1 s' sp).2.2 hcs).trans hs) (p.plan n.ident) (r.2, 0) c4
              have := h.1 hpos
              rw [hsame]; exact this
          · rw [hmono.1] at htr
            have := h.2 htr
            exact ⟨this.1, Nat.le_trans this.2 hmono.2⟩

/-! ## The instance cap -/

theorem copies_mono {nodes : List Node} (h : ListersIn nodes) (more : List Node) (sc k : String) :
    copies nodes sc k ≤ copies (nodes ++ more) sc k := by
  unfold copies
  rw [List.countP_append]
  have : nodes.countP (fun x => x.key == k && chargedTo (nodes ++ more) x == some sc) =
      nodes.countP (fun x => x.key == k && chargedTo nodes x == some sc) := by
    apply List.countP_congr
    intro x hx
    rw [chargedTo_append _ (h x hx)]
  omega

/-- A reported refusal of a copy goes with a scope that has used its allowance up. -/
def InstOk (L : Limits) (s : St) : Prop := 0 < s.instTruncs → ∃ sc k, L.instances ≤ s.inst sc k

theorem expand_inst {p : Program} {L : Limits} {s : St} (h : InstOk L s) (i : Nat) : InstOk L (expand p L s i) := by
  unfold expand
  split
  · exact h
  · next n hn =>
    split
    · exact h
    · split
      · exact h
      · split
        · unfold noteRoute
          split
          · exact h
          · exact h
        · refine fold_keeps (P := InstOk L) p L i n _ (fun s sc k _ hc _ => ⟨sc, k, hc⟩) (fun s sp hs => ?_) _ _ ?_
          · intro hpos
            rw [(create_flags _ _ _ _ _).2.1] at hpos
            obtain ⟨sc, k, hk⟩ := hs hpos
            refine ⟨sc, k, ?_⟩
            rw [create_inst]
            unfold bump
            split <;> omega
          · intro hpos
            have e : (scopeOf p (markExpanded s i) n).2.instTruncs = s.instTruncs := (scopeOf_flags p (markExpanded s i) n).2.1
            simp only [e] at hpos
            simp only [scopeOf_inst]
            exact h hpos

end Verif.Lazy
