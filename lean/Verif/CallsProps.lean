import Verif.CallsSpec
import Verif.IdsProps
/-!
# Properties: the call graph (C57, C58)
-/

namespace Verif.CallsModel
open Verif.CallsSpec

/-! ## What processing adds -/

/-- What is compared of an edge: its call, and (if `full`) the call it is linked to. -/
def sigE (full : Bool) (e : Edge) : Nat × Option Nat := (e.uid, if full then e.parent else none)
def sigC (full : Bool) (x : CallInfo × Expr) : Nat × Option Nat := (x.1.uid, if full then (chainedOn x.2).map (·.uid) else none)

/-- From `st` to `st'` exactly the calls `l` were recorded. -/
def Adds (env : Env) (full : Bool) (st st' : State) (l : List (CallInfo × Expr)) : Prop :=
  (∃ g, st'.graph = st.graph ++ g ∧ (g.map (sigE full)).Perm (l.map (sigC full))) ∧
  ∀ k, k ∈ st'.seen ↔ k ∈ st.seen ∨ ∃ x ∈ l, key env x.1 x.2 = k

theorem Adds.none (env : Env) (full : Bool) (st : State) : Adds env full st st [] :=
  ⟨⟨[], by simp⟩, by simp⟩

theorem Adds.trans {env : Env} {full : Bool} {a b c : State} {l m : List (CallInfo × Expr)}
    (h : Adds env full a b l) (h' : Adds env full b c m) : Adds env full a c (l ++ m) := by
  obtain ⟨⟨g, h1, h2⟩, h3⟩ := h
  obtain ⟨⟨g', h1', h2'⟩, h3'⟩ := h'
  refine ⟨⟨g ++ g', by rw [h1', h1, List.append_assoc], ?_⟩, fun k => ?_⟩
  · rw [List.map_append, List.map_append]; exact h2.append h2'
  · rw [h3', h3]
    constructor
    · rintro ((h | ⟨x, hx, e⟩) | ⟨x, hx, e⟩)
      · exact .inl h
      · exact .inr ⟨x, List.mem_append_left _ hx, e⟩
      · exact .inr ⟨x, List.mem_append_right _ hx, e⟩
    · rintro (h | ⟨x, hx, e⟩)
      · exact .inl (.inl h)
      · rcases List.mem_append.mp hx with hx | hx
        · exact .inl (.inr ⟨x, hx, e⟩)
        · exact .inr ⟨x, hx, e⟩

theorem blocked_iff (env : Env) (c : CallInfo) (fn : Expr) (st : State) :
    blocked env c fn st = true ↔ ¬ Recordable env c fn ∨ key env c fn ∈ st.seen := by
  unfold blocked Recordable
  simp only [Bool.or_eq_true, decide_eq_true_eq]
  cases c.conv <;> simp
  grind

theorem process_sel (env : Env) (c : CallInfo) (x : Expr) (n p r : Str) (args : List Expr) (st : State) :
    processCall env (.call c (.sel x n p r) args) st =
      if blocked env c (.sel x n p r) st then some st
      else if isCall x then (processCall env x st).bind (chained env c (.sel x n p r) x)
      else some (push ⟨c.uid, key env c (.sel x n p r), varOf x, none, varOf x, 0⟩ st) := by
  rw [processCall]

/-- The called expression is no selector. -/
def NotSel (fn : Expr) : Prop := ∀ x n p r, fn ≠ .sel x n p r

theorem sel_or_not (fn : Expr) : (∃ x n p r, fn = .sel x n p r) ∨ NotSel fn := by
  cases fn with
  | sel x n p r => exact .inl ⟨x, n, p, r, rfl⟩
  | call c f a => exact .inr fun _ _ _ _ e => by cases e
  | ident a b c => exact .inr fun _ _ _ _ e => by cases e
  | idx a b => exact .inr fun _ _ _ _ e => by cases e
  | lit a b => exact .inr fun _ _ _ _ e => by cases e
  | other a b => exact .inr fun _ _ _ _ e => by cases e

theorem process_other (env : Env) (c : CallInfo) (fn : Expr) (h : NotSel fn) (args : List Expr) (st : State) :
    processCall env (.call c fn args) st =
      if blocked env c fn st then some st else some (push ⟨c.uid, key env c fn, [], none, [], 0⟩ st) := by
  cases fn with
  | sel x n p r => exact absurd rfl (h x n p r)
  | call c f a => rw [processCall]; exact fun _ _ _ _ e => by cases e
  | ident a b c => rw [processCall]; exact fun _ _ _ _ e => by cases e
  | idx a b => rw [processCall]; exact fun _ _ _ _ e => by cases e
  | lit a b => rw [processCall]; exact fun _ _ _ _ e => by cases e
  | other a b => rw [processCall]; exact fun _ _ _ _ e => by cases e

theorem chain_sel (env : Env) (c : CallInfo) (x : Expr) (n p r : Str) (args : List Expr) :
    chain env (.call c (.sel x n p r) args) =
      if Recordable env c (.sel x n p r) then chain env x ++ [(c, .sel x n p r)] else [] := by rw [chain]

theorem chain_other (env : Env) (c : CallInfo) (fn : Expr) (h : NotSel fn) (args : List Expr) :
    chain env (.call c fn args) = if Recordable env c fn then [(c, fn)] else [] := by
  cases fn with
  | sel x n p r => exact absurd rfl (h x n p r)
  | call c f a => rw [chain]; exact fun _ _ _ _ e => by cases e
  | ident a b c => rw [chain]; exact fun _ _ _ _ e => by cases e
  | idx a b => rw [chain]; exact fun _ _ _ _ e => by cases e
  | lit a b => rw [chain]; exact fun _ _ _ _ e => by cases e
  | other a b => rw [chain]; exact fun _ _ _ _ e => by cases e

theorem chain_not_call (env : Env) (e : Expr) (h : isCall e = false) : chain env e = [] := by
  cases e <;> first | rfl | cases h

theorem other_sel (env : Env) (c : CallInfo) (x : Expr) (n p r : Str) (args : List Expr) :
    otherChains env (.call c (.sel x n p r) args) =
      (if Recordable env c (.sel x n p r) then otherChains env x else chain env x :: otherChains env x) ++ chainsAll env args := by
  rw [otherChains]

theorem other_other (env : Env) (c : CallInfo) (fn : Expr) (h : NotSel fn) (args : List Expr) :
    otherChains env (.call c fn args) = (chain env fn :: otherChains env fn) ++ chainsAll env args := by
  cases fn with
  | sel x n p r => exact absurd rfl (h x n p r)
  | call c f a => rw [otherChains]; exact fun _ _ _ _ e => by cases e
  | ident a b c => rw [otherChains]; exact fun _ _ _ _ e => by cases e
  | idx a b => rw [otherChains]; exact fun _ _ _ _ e => by cases e
  | lit a b => rw [otherChains]; exact fun _ _ _ _ e => by cases e
  | other a b => rw [otherChains]; exact fun _ _ _ _ e => by cases e

theorem chainedOn_other {fn : Expr} (h : NotSel fn) : chainedOn fn = none := by
  cases fn with
  | sel x n p r => exact absurd rfl (h x n p r)
  | _ => rfl

theorem chainedOn_plain {x : Expr} (h : isCall x = false) (n p r : Str) : chainedOn (.sel x n p r) = none := by
  cases x <;> first | rfl | cases h

/-- What a call is chained on is recordable. -/
def LinkOk (env : Env) (a : CallInfo × Expr) : Prop :=
  ∀ c' fn' args n p r, a.2 = .sel (.call c' fn' args) n p r → Recordable env c' fn'

theorem push_seen (e : Edge) (st : State) (k : Str) : k ∈ (push e st).seen ↔ k ∈ st.seen ∨ e.key = k := by
  unfold push; simp only [List.mem_cons]; grind

/-- The chain of a recordable call ends in the call. -/
theorem chain_last (env : Env) (c : CallInfo) (fn : Expr) (args : List Expr) (h : Recordable env c fn) :
    ∃ l, chain env (.call c fn args) = l ++ [(c, fn)] := by
  rcases sel_or_not fn with ⟨x, n, p, r, rfl⟩ | hn
  · rw [chain_sel, if_pos h]; exact ⟨_, rfl⟩
  · rw [chain_other env c fn hn, if_pos h]; exact ⟨[], rfl⟩

/-- Processing a call of something other than a selector. -/
theorem process_fresh_other (env : Env) (full : Bool) (c : CallInfo) (fn : Expr) (hn : NotSel fn) (args : List Expr) (st st' : State)
    (h : processCall env (.call c fn args) st = some st') (hf : ∀ a ∈ chain env (.call c fn args), key env a.1 a.2 ∉ st.seen) :
    (∃ g, st'.graph = st.graph ++ g ∧ g.map (sigE full) = (chain env (.call c fn args)).map (sigC full) ∧
      g.map Edge.uid = (chain env (.call c fn args)).map fun a => a.1.uid) ∧
    ∀ k, k ∈ st'.seen ↔ k ∈ st.seen ∨ ∃ x ∈ chain env (.call c fn args), key env x.1 x.2 = k := by
  rw [process_other env c fn hn] at h
  rw [chain_other env c fn hn] at hf ⊢
  by_cases hr : Recordable env c fn
  · rw [if_pos hr] at hf ⊢
    split at h
    · next hb =>
      rcases (blocked_iff env c _ st).mp hb with h1 | h1
      · exact absurd hr h1
      · exact absurd h1 (hf (c, fn) (by simp))
    · cases h
      refine ⟨⟨_, rfl, ?_, by simp⟩, fun k => by rw [push_seen]; simp⟩
      simp only [List.map_cons, List.map_nil, sigE, sigC, chainedOn_other hn, Option.map_none]
  · have hb := (blocked_iff env c _ st).mpr (.inl hr)
    rw [hb, if_pos rfl] at h
    cases h
    rw [if_neg hr]
    exact ⟨⟨[], by simp⟩, by simp⟩

/-- Processing a call none of whose chain has been seen records the chain, innermost first. -/
theorem process_fresh (env : Env) (full : Bool) : ∀ (e : Expr) (st st' : State), processCall env e st = some st' →
    (∀ a ∈ chain env e, key env a.1 a.2 ∉ st.seen) → (full = true → ∀ a ∈ chain env e, LinkOk env a) →
    (∃ g, st'.graph = st.graph ++ g ∧ g.map (sigE full) = (chain env e).map (sigC full) ∧
      g.map Edge.uid = (chain env e).map fun a => a.1.uid) ∧
    ∀ k, k ∈ st'.seen ↔ k ∈ st.seen ∨ ∃ x ∈ chain env e, key env x.1 x.2 = k
  | .sel _ _ _ _, st, st', h, _, _ | .ident _ _ _, st, st', h, _, _ | .idx _ _, st, st', h, _, _
  | .lit _ _, st, st', h, _, _ | .other _ _, st, st', h, _, _ => by
    rw [processCall] at h
    · cases h; rw [chain]
      · exact ⟨⟨[], by simp⟩, by simp⟩
      all_goals (intros; rename_i e; cases e)
    all_goals (intros; rename_i e; cases e)
  | .call c (.sel x n p r) args, st, st', h, hf, hl => by
    rw [process_sel] at h
    rw [chain_sel] at hf hl ⊢
    by_cases hr : Recordable env c (.sel x n p r)
    · rw [if_pos hr] at hf hl ⊢
      have hb : blocked env c (.sel x n p r) st = false := by
        cases hb : blocked env c (.sel x n p r) st with
        | false => rfl
        | true =>
          rcases (blocked_iff env c _ st).mp hb with h1 | h1
          · exact absurd hr h1
          · exact absurd h1 (hf (c, .sel x n p r) (by simp))
      rw [hb] at h
      simp only [Bool.false_eq_true, if_false] at h
      split at h
      · next hx =>
        cases hp : processCall env x st with
        | none => rw [hp] at h; cases h
        | some st1 =>
          rw [hp, Option.bind_some] at h
          obtain ⟨⟨g, h1, h2, h2'⟩, h3⟩ := process_fresh env full x st st1 hp (fun a ha => hf a (by simp [ha]))
            (fun hfull a ha => hl hfull a (by simp [ha]))
          -- whichever edge was last, exactly one edge for this call is appended
          have hstep : ∃ e : Edge, st' = push e st1 ∧ e.uid = c.uid ∧ e.key = key env c (.sel x n p r) ∧
              e.parent = st1.graph.getLast?.map Edge.uid := by
            unfold chained at h
            split at h
            · cases h
            · next par hpar =>
              split at h
              · cases h; exact ⟨_, rfl, rfl, rfl, by rw [hpar]; rfl⟩
              · cases h; exact ⟨_, rfl, rfl, rfl, by rw [hpar]; rfl⟩
          obtain ⟨e, rfl, he1, he2, he3⟩ := hstep
          refine ⟨⟨g ++ [e], by simp only [push]; rw [h1, List.append_assoc], ?_, ?_⟩, fun k => ?_⟩
          · rw [List.map_append, List.map_append, h2]
            congr 1
            show [sigE full e] = [sigC full (c, .sel x n p r)]
            unfold sigE sigC
            rw [he1]
            congr 1
            cases full with
            | false => rfl
            | true =>
              simp only [if_true]
              congr 1
              rw [he3]
              obtain ⟨c', fn', args', rfl⟩ : ∃ c' fn' args', x = .call c' fn' args' := by
                cases x <;> first | exact ⟨_, _, _, rfl⟩ | cases hx
              have hrec : Recordable env c' fn' := hl rfl (c, .sel (.call c' fn' args') n p r) (by simp) c' fn' args' n p r rfl
              obtain ⟨l, hlast⟩ := chain_last env c' fn' args' hrec
              rw [hlast, List.map_append] at h2'
              rcases List.eq_nil_or_concat g with hg | ⟨g0, e0, hg⟩
              · rw [hg] at h2'; simp at h2'
              · rw [hg, List.concat_eq_append] at h1 h2'
                rw [List.map_append] at h2'
                have := List.append_inj' h2' rfl
                simp only [List.map_cons, List.map_nil, List.cons.injEq, and_true] at this
                rw [h1, ← List.append_assoc, List.getLast?_append]
                simp only [List.getLast?_singleton, Option.some_or, Option.map_some]
                rw [this.2]
                rfl
          · rw [List.map_append, List.map_append, h2']
            congr 1
            simp [he1]
          · rw [push_seen, h3, he2]
            constructor
            · rintro ((h | ⟨a, ha, e⟩) | e)
              · exact .inl h
              · exact .inr ⟨a, by simp [ha], e⟩
              · exact .inr ⟨(c, .sel x n p r), by simp, e⟩
            · rintro (h | ⟨a, ha, e⟩)
              · exact .inl (.inl h)
              · rcases List.mem_append.mp ha with ha | ha
                · exact .inl (.inr ⟨a, ha, e⟩)
                · rw [List.mem_singleton] at ha; subst ha; exact .inr e
      · next hx =>
        cases h
        have hx' : isCall x = false := by simpa using hx
        rw [chain_not_call env x hx', List.nil_append]
        refine ⟨⟨_, rfl, ?_, by simp⟩, fun k => by rw [push_seen]; simp⟩
        simp only [List.map_cons, List.map_nil, sigE, sigC, chainedOn_plain hx', Option.map_none]
    · have hb : blocked env c (.sel x n p r) st = true := (blocked_iff env c _ st).mpr (.inl hr)
      rw [hb, if_pos rfl] at h
      cases h
      rw [if_neg hr]
      exact ⟨⟨[], by simp⟩, by simp⟩
  | .call c (.call c2 f2 a2) args, st, st', h, hf, hl | .call c (.ident i1 i2 i3) args, st, st', h, hf, hl
  | .call c (.idx i1 i2) args, st, st', h, hf, hl | .call c (.lit i1 i2) args, st, st', h, hf, hl
  | .call c (.other i1 i2) args, st, st', h, hf, hl => by
    exact process_fresh_other env full c _ (fun _ _ _ _ e => by cases e) args st st' h hf

theorem process_adds (env : Env) (full : Bool) (e : Expr) (st st' : State) (h : processCall env e st = some st')
    (hf : ∀ a ∈ chain env e, key env a.1 a.2 ∉ st.seen) (hl : full = true → ∀ a ∈ chain env e, LinkOk env a) :
    Adds env full st st' (chain env e) := by
  obtain ⟨⟨g, h1, h2, _⟩, h3⟩ := process_fresh env full e st st' h hf hl
  exact ⟨⟨g, h1, by rw [h2]⟩, h3⟩

/-! ## What the walk adds -/

/-- Calls in different lists have different ids. -/
def Apart (env : Env) (L : List (List (CallInfo × Expr))) : Prop :=
  L.Pairwise fun a b => ∀ x ∈ a, ∀ y ∈ b, key env x.1 x.2 ≠ key env y.1 y.2

/-- None of the calls has been seen. -/
def Unseen (env : Env) (L : List (List (CallInfo × Expr))) (st : State) : Prop :=
  ∀ a ∈ L.flatten, key env a.1 a.2 ∉ st.seen

def Linked (env : Env) (full : Bool) (L : List (List (CallInfo × Expr))) : Prop := full = true → ∀ a ∈ L.flatten, LinkOk env a

theorem Unseen.after {env : Env} {full : Bool} {st st' : State} {L M : List (List (CallInfo × Expr))}
    (hA : Adds env full st st' L.flatten) (hap : Apart env (L ++ M)) (hu : Unseen env (L ++ M) st) : Unseen env M st' := by
  intro a ha hin
  rcases (hA.2 _).mp hin with h | ⟨x, hx, e⟩
  · exact hu a (by rw [List.flatten_append]; exact List.mem_append_right _ ha) h
  · obtain ⟨l, hl, hxl⟩ := List.mem_flatten.mp hx
    obtain ⟨m, hm, ham⟩ := List.mem_flatten.mp ha
    exact (List.pairwise_append.mp hap).2.2 l hl m hm x hxl a ham e

theorem Apart.left {env : Env} {L M : List (List (CallInfo × Expr))} (h : Apart env (L ++ M)) : Apart env L := (List.pairwise_append.mp h).1
theorem Apart.right {env : Env} {L M : List (List (CallInfo × Expr))} (h : Apart env (L ++ M)) : Apart env M := (List.pairwise_append.mp h).2.1
theorem Apart.tail {env : Env} {l : List (CallInfo × Expr)} {L : List (List (CallInfo × Expr))} (h : Apart env (l :: L)) : Apart env L :=
  (List.pairwise_cons.mp h).2
theorem Unseen.left {env : Env} {L M : List (List (CallInfo × Expr))} {st : State} (h : Unseen env (L ++ M) st) : Unseen env L st :=
  fun a ha => h a (by rw [List.flatten_append]; exact List.mem_append_left _ ha)
theorem Linked.left {env : Env} {full : Bool} {L M : List (List (CallInfo × Expr))} (h : Linked env full (L ++ M)) : Linked env full L :=
  fun hf a ha => h hf a (by rw [List.flatten_append]; exact List.mem_append_left _ ha)
theorem Linked.right {env : Env} {full : Bool} {L M : List (List (CallInfo × Expr))} (h : Linked env full (L ++ M)) : Linked env full M :=
  fun hf a ha => h hf a (by rw [List.flatten_append]; exact List.mem_append_right _ ha)

theorem bind_some_iff {α β : Type} {o : Option α} {f : α → Option β} {b : β} (h : o.bind f = some b) : ∃ a, o = some a ∧ f a = some b := by
  cases o with
  | none => cases h
  | some a => exact ⟨a, rfl, h⟩

/-- The two ways a subexpression is walked: with nothing of it recorded yet, or with the chain it
ends already recorded. -/
def WalkOk (env : Env) (full : Bool) (e : Expr) : Prop :=
  (∀ st st', walk env e st = some st' → Apart env (chain env e :: otherChains env e) → Unseen env (chain env e :: otherChains env e) st →
    Linked env full (chain env e :: otherChains env e) → Adds env full st st' (chain env e :: otherChains env e).flatten) ∧
  (∀ st st', walk env e st = some st' → Apart env (otherChains env e) → (∀ a ∈ chain env e, key env a.1 a.2 ∈ st.seen) →
    Unseen env (otherChains env e) st → Linked env full (otherChains env e) → Adds env full st st' (otherChains env e).flatten)

def WalkAllOk (env : Env) (full : Bool) (es : List Expr) : Prop :=
  ∀ st st', walkAll env es st = some st' → Apart env (chainsAll env es) → Unseen env (chainsAll env es) st →
    Linked env full (chainsAll env es) → Adds env full st st' (chainsAll env es).flatten

theorem seq_adds {env : Env} {full : Bool} {x : Expr} {args : List Expr} (hx : WalkOk env full x) (ha : WalkAllOk env full args) (st st' : State)
    (h : (walk env x st).bind (fun st => walkAll env args st) = some st') :
    (Apart env ((chain env x :: otherChains env x) ++ chainsAll env args) → Unseen env ((chain env x :: otherChains env x) ++ chainsAll env args) st →
      Linked env full ((chain env x :: otherChains env x) ++ chainsAll env args) →
      Adds env full st st' ((chain env x :: otherChains env x) ++ chainsAll env args).flatten) ∧
    (Apart env (otherChains env x ++ chainsAll env args) → (∀ a ∈ chain env x, key env a.1 a.2 ∈ st.seen) →
      Unseen env (otherChains env x ++ chainsAll env args) st → Linked env full (otherChains env x ++ chainsAll env args) →
      Adds env full st st' (otherChains env x ++ chainsAll env args).flatten) := by
  obtain ⟨st1, h1, h2⟩ := bind_some_iff h
  constructor
  · intro hap hu hl
    have hA := hx.1 st st1 h1 hap.left hu.left hl.left
    rw [List.flatten_append]
    exact hA.trans (ha st1 st' h2 hap.right (Unseen.after hA hap hu) hl.right)
  · intro hap hs hu hl
    have hA := hx.2 st st1 h1 hap.left hs hu.left hl.left
    rw [List.flatten_append]
    exact hA.trans (ha st1 st' h2 hap.right (Unseen.after hA hap hu) hl.right)

theorem flatten_nil_cons {α : Type} (L : List (List α)) : ([] :: L).flatten = L.flatten := by simp

/-- Two ways for an expression that is not a call itself: the chain is empty, both are the same. -/
theorem walkOk_plain {env : Env} {full : Bool} {e : Expr} (hc : chain env e = [])
    (h : ∀ st st', walk env e st = some st' → Apart env (otherChains env e) → Unseen env (otherChains env e) st →
      Linked env full (otherChains env e) → Adds env full st st' (otherChains env e).flatten) : WalkOk env full e := by
  constructor
  · intro st st' hw hap hu hl
    rw [hc, flatten_nil_cons]
    rw [hc] at hap hu hl
    exact h st st' hw hap.tail (fun a ha => hu a (by rwa [flatten_nil_cons])) (fun hf a ha => hl hf a (by rwa [flatten_nil_cons]))
  · intro st st' hw hap _ hu hl
    exact h st st' hw hap hu hl

/-- A call: processing it, then what is below it. -/
theorem walkOk_call {env : Env} {full : Bool} {c : CallInfo} {fn : Expr} {args : List Expr}
    (hfn : WalkOk env full fn) (hx : ∀ x n p r, fn = .sel x n p r → WalkOk env full x) (hargs : WalkAllOk env full args) :
    WalkOk env full (.call c fn args) := by
  -- what is below
  have kids : ∀ st st', (walk env fn st).bind (fun st => walkAll env args st) = some st' →
      Apart env (otherChains env (.call c fn args)) → (∀ a ∈ chain env (.call c fn args), key env a.1 a.2 ∈ st.seen) →
      Unseen env (otherChains env (.call c fn args)) st → Linked env full (otherChains env (.call c fn args)) →
      Adds env full st st' (otherChains env (.call c fn args)).flatten := by
    intro st st' hw hap hs hu hl
    rcases sel_or_not fn with ⟨x, n, p, r, rfl⟩ | hn
    · have hw' : (walk env x st).bind (fun st => walkAll env args st) = some st' := by rw [walk] at hw; exact hw
      have hseq := seq_adds (hx x n p r rfl) hargs st st' hw'
      rw [other_sel] at hap hu hl ⊢
      rw [chain_sel] at hs
      by_cases hr : Recordable env c (.sel x n p r)
      · rw [if_pos hr] at hap hu hl hs ⊢
        exact hseq.2 hap (fun a ha => hs a (by simp [ha])) hu hl
      · rw [if_neg hr] at hap hu hl ⊢
        exact hseq.1 hap hu hl
    · rw [other_other env c fn hn] at hap hu hl ⊢
      exact (seq_adds hfn hargs st st' hw).1 hap hu hl
  constructor
  · intro st st' hw hap hu hl
    rw [walk] at hw
    obtain ⟨st1, h1, h2⟩ := bind_some_iff hw
    have hA := process_adds env full (.call c fn args) st st1 h1 (fun a ha => hu a (by simp [ha])) (fun hf a ha => hl hf a (by simp [ha]))
    have hA' : Adds env full st st1 [chain env (.call c fn args)].flatten := by simpa using hA
    have hB := kids st1 st' h2 hap.tail (fun a ha => (hA.2 _).mpr (.inr ⟨a, ha, rfl⟩))
      (Unseen.after (L := [chain env (.call c fn args)]) hA' hap hu) (fun hf a ha => hl hf a (by simp only [List.flatten_cons, List.mem_append]; exact .inr ha))
    rw [List.flatten_cons]
    exact hA.trans hB
  · intro st st' hw hap hs hu hl
    rw [walk] at hw
    obtain ⟨st1, h1, h2⟩ := bind_some_iff hw
    have hb : blocked env c fn st = true := by
      rw [blocked_iff]
      by_cases hr : Recordable env c fn
      · obtain ⟨l, e⟩ := chain_last env c fn args hr
        exact .inr (hs (c, fn) (by rw [e]; simp))
      · exact .inl hr
    have : st1 = st := by
      rcases sel_or_not fn with ⟨x, n, p, r, rfl⟩ | hn
      · rw [process_sel, hb, if_pos rfl] at h1; cases h1; rfl
      · rw [process_other env c fn hn, hb, if_pos rfl] at h1; cases h1; rfl
    subst this
    exact kids _ st' h2 hap hs hu hl

mutual
theorem walk_adds (env : Env) (full : Bool) : ∀ (e : Expr), WalkOk env full e
  | .call c (.sel x n p r) args =>
    have hx := walk_adds env full x
    walkOk_call (walkOk_plain rfl fun st st' hw hap hu hl => by
        rw [walk] at hw; rw [otherChains] at hap hu hl ⊢; exact hx.1 st st' hw hap hu hl)
      (fun x' _ _ _ e => by cases e; exact hx) (walkAll_adds env full args)
  | .call c (.call c2 f2 a2) args => walkOk_call (walk_adds env full (.call c2 f2 a2)) (fun _ _ _ _ e => by cases e) (walkAll_adds env full args)
  | .call c (.ident i1 i2 i3) args => walkOk_call (walk_adds env full (.ident i1 i2 i3)) (fun _ _ _ _ e => by cases e) (walkAll_adds env full args)
  | .call c (.idx i1 i2) args => walkOk_call (walk_adds env full (.idx i1 i2)) (fun _ _ _ _ e => by cases e) (walkAll_adds env full args)
  | .call c (.lit i1 i2) args => walkOk_call (walk_adds env full (.lit i1 i2)) (fun _ _ _ _ e => by cases e) (walkAll_adds env full args)
  | .call c (.other i1 i2) args => walkOk_call (walk_adds env full (.other i1 i2)) (fun _ _ _ _ e => by cases e) (walkAll_adds env full args)
  | .sel x _ _ _ =>
    have hx := walk_adds env full x
    walkOk_plain rfl fun st st' hw hap hu hl => by
      rw [walk] at hw; rw [otherChains] at hap hu hl ⊢; exact hx.1 st st' hw hap hu hl
  | .ident _ _ _ => walkOk_plain rfl fun st st' hw _ _ _ => by
      rw [walk] at hw; cases hw; rw [otherChains]; exact Adds.none env full st
  | .idx x args =>
    have hx := walk_adds env full x
    have ha := walkAll_adds env full args
    walkOk_plain rfl fun st st' hw hap hu hl => by
      rw [walk] at hw; rw [otherChains] at hap hu hl ⊢; exact (seq_adds hx ha st st' hw).1 hap hu hl
  | .lit _ body =>
    have hb := walkAll_adds env full body
    walkOk_plain rfl fun st st' hw hap hu hl => by
      rw [walk] at hw; rw [otherChains] at hap hu hl ⊢; exact hb st st' hw hap hu hl
  | .other _ kids =>
    have hb := walkAll_adds env full kids
    walkOk_plain rfl fun st st' hw hap hu hl => by
      rw [walk] at hw; rw [otherChains] at hap hu hl ⊢; exact hb st st' hw hap hu hl
theorem walkAll_adds (env : Env) (full : Bool) : ∀ (es : List Expr), WalkAllOk env full es
  | [] => fun st st' hw _ _ _ => by
    rw [walkAll] at hw; cases hw; rw [chainsAll]; exact Adds.none env full st
  | e :: es => fun st st' hw hap hu hl => by
    rw [walkAll] at hw
    rw [chainsAll] at hap hu hl ⊢
    exact (seq_adds (walk_adds env full e) (walkAll_adds env full es) st st' hw).1 hap hu hl
end

/-! ## The chains are the wanted calls -/

def wantedIn (env : Env) (l : List (CallInfo × Expr)) : List (CallInfo × Expr) := l.filter fun x => decide (Recordable env x.1 x.2)

theorem wantedIn_append (env : Env) (l m : List (CallInfo × Expr)) : wantedIn env (l ++ m) = wantedIn env l ++ wantedIn env m :=
  List.filter_append ..

mutual
theorem chains_perm (env : Env) : ∀ (e : Expr), (chain env e ++ (otherChains env e).flatten).Perm (wantedIn env (calls e))
  | .call c (.sel x n p r) args => by
    have hx := chains_perm env x
    have ha := chainsAll_perm env args
    rw [calls, calls, chain_sel, other_sel]
    unfold wantedIn
    rw [List.filter_cons]
    by_cases hr : Recordable env c (.sel x n p r)
    · rw [if_pos hr, if_pos hr, if_pos (by simpa using hr), List.filter_append, List.flatten_append]
      have h1 : ((chain env x ++ [(c, Expr.sel x n p r)]) ++ ((otherChains env x).flatten ++ (chainsAll env args).flatten)).Perm
          ((c, Expr.sel x n p r) :: ((chain env x ++ (otherChains env x).flatten) ++ (chainsAll env args).flatten)) := by
        simp only [List.append_assoc]
        exact List.perm_middle
      exact h1.trans ((hx.append ha).cons _)
    · rw [if_neg hr, if_neg hr, if_neg (by simpa using hr), List.filter_append, List.nil_append, List.flatten_append, List.flatten_cons]
      exact hx.append ha
  | .call c (.call c2 f2 a2) args => call_perm env c (.call c2 f2 a2) args (fun _ _ _ _ e => by cases e) (chains_perm env _) (chainsAll_perm env args)
  | .call c (.ident i1 i2 i3) args => call_perm env c (.ident i1 i2 i3) args (fun _ _ _ _ e => by cases e) (chains_perm env _) (chainsAll_perm env args)
  | .call c (.idx i1 i2) args => call_perm env c (.idx i1 i2) args (fun _ _ _ _ e => by cases e) (chains_perm env _) (chainsAll_perm env args)
  | .call c (.lit i1 i2) args => call_perm env c (.lit i1 i2) args (fun _ _ _ _ e => by cases e) (chains_perm env _) (chainsAll_perm env args)
  | .call c (.other i1 i2) args => call_perm env c (.other i1 i2) args (fun _ _ _ _ e => by cases e) (chains_perm env _) (chainsAll_perm env args)
  | .sel x _ _ _ => by
    rw [calls, otherChains, List.flatten_cons]; exact chains_perm env x
  | .ident _ _ _ => by rw [calls, otherChains]; exact .refl _
  | .idx x args => by
    rw [calls, otherChains, List.flatten_append, List.flatten_cons, wantedIn_append]
    exact (chains_perm env x).append (chainsAll_perm env args)
  | .lit _ body => by rw [calls, otherChains]; exact chainsAll_perm env body
  | .other _ kids => by rw [calls, otherChains]; exact chainsAll_perm env kids
theorem chainsAll_perm (env : Env) : ∀ (es : List Expr), ((chainsAll env es).flatten).Perm (wantedIn env (callsAll es))
  | [] => by rw [chainsAll, callsAll]; exact .refl _
  | e :: es => by
    rw [chainsAll, callsAll, List.flatten_append, List.flatten_cons, wantedIn_append]
    exact (chains_perm env e).append (chainsAll_perm env es)
theorem call_perm (env : Env) (c : CallInfo) (fn : Expr) (args : List Expr) (h : NotSel fn)
    (hfn : (chain env fn ++ (otherChains env fn).flatten).Perm (wantedIn env (calls fn)))
    (ha : ((chainsAll env args).flatten).Perm (wantedIn env (callsAll args))) :
    (chain env (.call c fn args) ++ (otherChains env (.call c fn args)).flatten).Perm (wantedIn env (calls (.call c fn args))) := by
  rw [calls, chain_other env c fn h, other_other env c fn h, List.flatten_append, List.flatten_cons]
  unfold wantedIn
  rw [List.filter_cons]
  by_cases hr : Recordable env c fn
  · rw [if_pos hr, if_pos (by simpa using hr), List.filter_append]
    exact (hfn.append ha).cons _
  · rw [if_neg hr, if_neg (by simpa using hr), List.filter_append, List.nil_append]
    exact hfn.append ha
end

/-! ## C57 -/

theorem file_adds (env : Env) (full : Bool) (file : List Expr) (g : List Edge) (st : State) (h : walkAll env file ⟨g, []⟩ = some st)
    (hids : IdsTellApart env file) (hl : full = true → ChainsRecordable env file) :
    ∃ new, st.graph = g ++ new ∧ (new.map (sigE full)).Perm ((wanted env file).map (sigC full)) := by
  have hperm := chainsAll_perm env file
  have hA := walkAll_adds env full file ⟨g, []⟩ st h hids (fun a _ => by simp) (fun hf a ha c' fn' args n p r e => by
    have hin : a ∈ wanted env file := hperm.mem_iff.mp ha
    exact hl hf a.1 a.2 hin c' fn' args n p r e)
  obtain ⟨⟨new, h1, h2⟩, _⟩ := hA
  exact ⟨new, h1, h2.trans (hperm.map _)⟩

/-- **C57, partial.** Walking a file adds exactly one edge for every call in it that belongs in the
graph, and no other edge, if calls that are not links of one chain have different instance ids.
Missing: calls made on the result of a call (`f(a)(b)`), which share their id — `C57_curried_lost`. -/
theorem C57_each_call_once_partial (env : Env) (file : List Expr) (g : List Edge) (st : State)
    (h : walkAll env file ⟨g, []⟩ = some st) (hids : IdsTellApart env file) :
    ∃ new, st.graph = g ++ new ∧ (new.map Edge.uid).Perm ((wanted env file).map fun x => x.1.uid) := by
  obtain ⟨new, h1, h2⟩ := file_adds env false file g st h hids (by simp)
  refine ⟨new, h1, ?_⟩
  have := h2.map Prod.fst
  rw [List.map_map, List.map_map] at this
  exact this

/-- Calls that start at different places have different ids. -/
theorem ids_of_starts (env : Env) (file : List Expr) (hpos : ∀ p q, env.posText p = env.posText q → p = q)
    (hn : ∀ x ∈ wanted env file, PlainNames env x) (hs : StartsTellApart env file) : IdsTellApart env file := by
  have hperm := chainsAll_perm env file
  refine List.Pairwise.imp_of_mem ?_ hs
  intro a b ha hb h x hx y hy
  have px := hn x (hperm.mem_iff.mp (List.mem_flatten.mpr ⟨a, ha, hx⟩))
  have py := hn y (hperm.mem_iff.mp (List.mem_flatten.mpr ⟨b, hb, hy⟩))
  exact Verif.IdsModel.C35_positions _ _ px.1 py.1 ⟨px.2.1, px.2.2.1, px.2.2.2.1, px.2.2.2.2⟩ ⟨py.2.1, py.2.2.1, py.2.2.2.1, py.2.2.2.2⟩
    (fun e => h x hx y hy (hpos _ _ e))

/-- **C57, partial (by source positions).** As `C57_each_call_once_partial`, from the source alone:
calls that are not links of one chain start at different places, and positions are told apart by their
text. -/
theorem C57_by_position_partial (env : Env) (file : List Expr) (g : List Edge) (st : State)
    (h : walkAll env file ⟨g, []⟩ = some st) (hpos : ∀ p q, env.posText p = env.posText q → p = q)
    (hn : ∀ x ∈ wanted env file, PlainNames env x) (hs : StartsTellApart env file) :
    ∃ new, st.graph = g ++ new ∧ (new.map Edge.uid).Perm ((wanted env file).map fun x => x.1.uid) :=
  C57_each_call_once_partial env file g st h (ids_of_starts env file hpos hn hs)

/-- **C57, partial (chains).** If moreover everything a call is chained on is itself recorded, each
edge of a chained call `x.f(…).g(…)` is linked to the call `x.f(…)`, and no other edge is linked.
Missing: chains that start from a conversion — `C57_conversion_chain`. -/
theorem C57_chain_parent_partial (env : Env) (file : List Expr) (g : List Edge) (st : State)
    (h : walkAll env file ⟨g, []⟩ = some st) (hids : IdsTellApart env file) (hl : ChainsRecordable env file) :
    ∃ new, st.graph = g ++ new ∧ (new.map fun e => (e.uid, e.parent)).Perm ((wanted env file).map fun x => (x.1.uid, (chainedOn x.2).map CallInfo.uid)) := by
  obtain ⟨new, h1, h2⟩ := file_adds env true file g st h hids (fun _ => hl)
  exact ⟨new, h1, h2⟩

/-! ### No crash -/

/-- Something has been recorded if an id has been seen. -/
def Based (st : State) : Prop := st.seen ≠ [] → st.graph ≠ []

theorem chained_some (env : Env) (c : CallInfo) (fn x : Expr) {st : State} (h : st.graph ≠ []) :
    ∃ st', chained env c fn x st = some st' ∧ st'.graph ≠ [] := by
  unfold chained
  cases hl : st.graph.getLast? with
  | none => rw [List.getLast?_eq_none_iff] at hl; exact absurd hl h
  | some par =>
    simp only
    split
    · exact ⟨_, rfl, by simp [push]⟩
    · exact ⟨_, rfl, by simp [push]⟩

theorem process_some (env : Env) : ∀ (e : Expr) (st : State), Based st → (st.graph ≠ [] ∨ ∀ a ∈ chain env e, LinkOk env a) →
    ∃ st', processCall env e st = some st' ∧ Based st' ∧ (st.graph ≠ [] → st'.graph ≠ []) ∧ (chain env e ≠ [] → st'.graph ≠ [])
  | .sel _ _ _ _, st, hb, _ | .ident _ _ _, st, hb, _ | .idx _ _, st, hb, _ | .lit _ _, st, hb, _ | .other _ _, st, hb, _ =>
    ⟨st, rfl, hb, id, fun h => absurd rfl h⟩
  | .call c (.sel x n p r) args, st, hb, hl => by
    rw [process_sel, chain_sel]
    rw [chain_sel] at hl
    by_cases hr : Recordable env c (.sel x n p r)
    · rw [if_pos hr] at hl ⊢
      by_cases hbl : blocked env c (.sel x n p r) st = true
      · rw [if_pos hbl]
        refine ⟨st, rfl, hb, id, fun _ => ?_⟩
        rcases (blocked_iff env c _ st).mp hbl with h1 | h1
        · exact absurd hr h1
        · exact hb (List.ne_nil_of_mem h1)
      · rw [if_neg hbl]
        by_cases hx : isCall x = true
        · rw [if_pos hx]
          obtain ⟨st1, h1, h2, h3, h4⟩ := process_some env x st hb (hl.imp id fun h a ha => h a (by simp [ha]))
          have hne : st1.graph ≠ [] := by
            rcases hl with hl | hl
            · exact h3 hl
            · obtain ⟨c', fn', args', rfl⟩ : ∃ c' fn' args', x = .call c' fn' args' := by
                cases x <;> first | exact ⟨_, _, _, rfl⟩ | cases hx
              have hrec := hl (c, .sel (.call c' fn' args') n p r) (by simp) c' fn' args' n p r rfl
              obtain ⟨l, e⟩ := chain_last env c' fn' args' hrec
              exact h4 (by rw [e]; simp)
          obtain ⟨st2, e2, hne2⟩ := chained_some env c (.sel x n p r) x hne
          rw [h1, Option.bind_some]
          exact ⟨st2, e2, fun _ => hne2, fun _ => hne2, fun _ => hne2⟩
        · rw [if_neg hx]
          exact ⟨_, rfl, fun _ => by simp [push], fun _ => by simp [push], fun _ => by simp [push]⟩
    · have hbl : blocked env c (.sel x n p r) st = true := (blocked_iff env c _ st).mpr (.inl hr)
      rw [if_pos hbl, if_neg hr]
      exact ⟨st, rfl, hb, id, fun h => absurd rfl h⟩
  | .call c (.call c2 f2 a2) args, st, hb, _ | .call c (.ident i1 i2 i3) args, st, hb, _
  | .call c (.idx i1 i2) args, st, hb, _ | .call c (.lit i1 i2) args, st, hb, _ | .call c (.other i1 i2) args, st, hb, _ => by
    rw [process_other env c _ (fun _ _ _ _ e => by cases e), chain_other env c _ (fun _ _ _ _ e => by cases e)]
    split
    · next hbl =>
      refine ⟨st, rfl, hb, id, fun hne => ?_⟩
      rcases (blocked_iff env c _ st).mp hbl with h1 | h1
      · rw [if_neg h1] at hne; exact absurd rfl hne
      · exact hb (List.ne_nil_of_mem h1)
    · exact ⟨_, rfl, fun _ => by simp [push], fun _ => by simp [push], fun _ => by simp [push]⟩

theorem chain_calls (env : Env) : ∀ (e : Expr), ∀ a ∈ chain env e, a ∈ calls e ∧ Recordable env a.1 a.2 := by
  intro e a ha
  have := (chains_perm env e).mem_iff.mp (List.mem_append_left _ ha)
  simpa [wantedIn] using this

mutual
theorem walk_some (env : Env) : ∀ (e : Expr) (st : State), Based st → (st.graph ≠ [] ∨ ∀ a ∈ wantedIn env (calls e), LinkOk env a) →
    ∃ st', walk env e st = some st' ∧ Based st' ∧ (st.graph ≠ [] → st'.graph ≠ [])
  | .call c fn args, st, hb, hl => by
    rw [walk]
    obtain ⟨st1, h1, h2, h3, _⟩ := process_some env (.call c fn args) st hb (hl.imp id fun h a ha => h a (by
      have := chain_calls env _ a ha
      simpa [wantedIn] using this))
    rw [h1, Option.bind_some]
    have hsub : ∀ a, a ∈ wantedIn env (calls fn) ∨ a ∈ wantedIn env (callsAll args) → a ∈ wantedIn env (calls (.call c fn args)) := by
      intro a ha
      rw [calls]
      simp only [wantedIn, List.mem_filter, List.mem_cons, List.mem_append] at ha ⊢
      rcases ha with ha | ha
      · exact ⟨.inr (.inl ha.1), ha.2⟩
      · exact ⟨.inr (.inr ha.1), ha.2⟩
    obtain ⟨st2, h4, h5, h6⟩ := walk_some env fn st1 h2 (hl.imp h3 fun h a ha => h a (hsub a (.inl ha)))
    rw [h4, Option.bind_some]
    obtain ⟨st3, h7, h8, h9⟩ := walkAll_some env args st2 h5 (hl.imp (fun h => h6 (h3 h)) fun h a ha => h a (hsub a (.inr ha)))
    exact ⟨st3, h7, h8, fun h => h9 (h6 (h3 h))⟩
  | .sel x _ _ _, st, hb, hl => by rw [walk]; rw [calls] at hl; exact walk_some env x st hb hl
  | .ident _ _ _, st, hb, _ => ⟨st, by rw [walk], hb, id⟩
  | .idx x args, st, hb, hl => by
    rw [walk]
    rw [calls, wantedIn_append] at hl
    obtain ⟨st2, h4, h5, h6⟩ := walk_some env x st hb (hl.imp id fun h a ha => h a (List.mem_append_left _ ha))
    rw [h4, Option.bind_some]
    obtain ⟨st3, h7, h8, h9⟩ := walkAll_some env args st2 h5 (hl.imp h6 fun h a ha => h a (List.mem_append_right _ ha))
    exact ⟨st3, h7, h8, fun h => h9 (h6 h)⟩
  | .lit _ body, st, hb, hl => by rw [walk]; rw [calls] at hl; exact walkAll_some env body st hb hl
  | .other _ kids, st, hb, hl => by rw [walk]; rw [calls] at hl; exact walkAll_some env kids st hb hl
theorem walkAll_some (env : Env) : ∀ (es : List Expr) (st : State), Based st → (st.graph ≠ [] ∨ ∀ a ∈ wantedIn env (callsAll es), LinkOk env a) →
    ∃ st', walkAll env es st = some st' ∧ Based st' ∧ (st.graph ≠ [] → st'.graph ≠ [])
  | [], st, hb, _ => ⟨st, by rw [walkAll], hb, id⟩
  | e :: es, st, hb, hl => by
    rw [walkAll]
    rw [callsAll, wantedIn_append] at hl
    obtain ⟨st2, h4, h5, h6⟩ := walk_some env e st hb (hl.imp id fun h a ha => h a (List.mem_append_left _ ha))
    rw [h4, Option.bind_some]
    obtain ⟨st3, h7, h8, h9⟩ := walkAll_some env es st2 h5 (hl.imp h6 fun h a ha => h a (List.mem_append_right _ ha))
    exact ⟨st3, h7, h8, fun h => h9 (h6 h)⟩
end

/-- **C57, partial (no crash).** Building the graph of any files completes, if something has been
recorded before or everything a call is chained on is recorded.  Missing: a first call chained on a
conversion — `C57_conversion_crash`. -/
theorem C57_completes_partial (env : Env) : ∀ (files : List (List Expr)) (g : List Edge),
    (g ≠ [] ∨ ∀ file ∈ files, ChainsRecordable env file) → ∃ g', buildGraph env files g = some g'
  | [], g, _ => ⟨g, rfl⟩
  | file :: files, g, h => by
    rw [buildGraph]
    obtain ⟨st, h1, _, h3⟩ := walkAll_some env file ⟨g, []⟩ (fun h => absurd rfl h) (h.imp id fun hf a ha c' fn' args n p r e =>
      hf file (by simp) a.1 a.2 ha c' fn' args n p r e)
    rw [h1, Option.bind_some]
    exact C57_completes_partial env files st.graph (h.imp h3 fun hf f hfile => hf f (List.mem_cons_of_mem _ hfile))

/-! ### Examples and counterexamples -/

def env0 : Env := ⟨"p".toList, fun n => Nat.toDigits 10 n, fun n => "FuncLit".toList ++ Nat.toDigits 10 n⟩

/-- `r.Route(…)`-style call on a variable, at `pos`. -/
def onVar (uid pos : Nat) (v name : String) : Expr := .call { uid, caller := "main".toList } (.sel (.ident v.toList pos true) name.toList "mux".toList "Router".toList) []
/-- … chained on `x`. -/
def onCall (uid : Nat) (x : Expr) (name : String) : Expr := .call { uid, caller := "main".toList } (.sel x name.toList "mux".toList "Route".toList) []

/-- `r.Path().Methods(); r.Path()` at two places: three edges, the second linked to the first. -/
def file0 : List Expr := [onCall 0 (onVar 1 10 "r" "Path") "Methods", onVar 2 20 "r" "Path"]

example : (walkAll env0 file0 ⟨[], []⟩).map (fun st => st.graph.map fun e => (e.uid, e.parent)) = some [(1, none), (0, some 1), (2, none)] := by decide
example : IdsTellApart env0 file0 := by unfold IdsTellApart; decide
example : ChainsRecordable env0 file0 := by
  intro c fn h c' fn' args n p r e
  subst e
  simp only [wanted, file0, onCall, onVar, callsAll, calls, List.append_nil, List.nil_append, List.cons_append, List.mem_filter, List.mem_cons,
    Prod.mk.injEq, List.not_mem_nil, or_false] at h
  obtain ⟨h, _⟩ := h
  rcases h with ⟨_, h⟩ | ⟨_, h⟩ | ⟨_, h⟩
  · cases h; decide
  · cases h
  · cases h

example : StartsTellApart env0 file0 ∧ ∀ x ∈ wanted env0 file0, PlainNames env0 x := by
  constructor
  · unfold StartsTellApart; decide
  · intro x hx
    have hx := (List.mem_filter.mp hx).1
    simp only [file0, onCall, onVar, callsAll, calls, List.append_nil, List.nil_append, List.cons_append, List.mem_cons, List.not_mem_nil, or_false] at hx
    rcases hx with rfl | rfl | rfl <;> (simp only [PlainNames, calleeOf]; decide)

/-- **C57, negation.** `auth("admin")(h)`: the call `auth("admin")` and the call of its result have
the same id; the inner one, with its argument, is not in the graph. -/
def curried : List Expr :=
  [.call { uid := 0, caller := "main".toList } (.call { uid := 1, caller := "main".toList } (.ident "auth".toList 5 true) [.other 10 []]) [.ident "h".toList 19 true]]

theorem C57_curried_lost :
    (wanted env0 curried).map (fun x => x.1.uid) = [0, 1] ∧
    (walkAll env0 curried ⟨[], []⟩).map (fun st => st.graph.map Edge.uid) = some [0] := by decide

/-- **C57, negation.** `l.Next().tail.Next()`: the second call has the place and the method of the
first; the first is not in the graph. -/
def throughField : List Expr :=
  [.call { uid := 0, caller := "main".toList } (.sel (.sel (onVar 1 10 "l" "Next") "tail".toList "mux".toList []) "Next".toList "mux".toList "Router".toList) []]

theorem C57_through_field_lost :
    (wanted env0 throughField).map (fun x => x.1.uid) = [0, 1] ∧
    (walkAll env0 throughField ⟨[], []⟩).map (fun st => st.graph.map Edge.uid) = some [0] := by decide

/-- `T(x).M()`, `T` a type. -/
def onConversion (uid : Nat) : Expr :=
  .call { uid, caller := "main".toList } (.sel (.call { uid := uid + 1, conv := true, caller := "main".toList } (.ident "T".toList 30 true) []) "M".toList "p".toList "T".toList) []

/-- **C57, negation.** A method called on a conversion, as the first call: building the graph
panics. -/
theorem C57_conversion_crash : buildGraph env0 [[onConversion 0]] [] = none := by decide

/-- **C57, negation.** A method called on a conversion is linked to whatever call came before it. -/
theorem C57_conversion_chain :
    (walkAll env0 [onVar 7 10 "r" "Path", onConversion 0] ⟨[], []⟩).map (fun st => st.graph.map fun e => (e.uid, e.parent)) =
      some [(7, none), (0, some 7)] := by decide

/-! ## C58: chain depth -/

/-- How many calls a call is chained on. -/
def callsBelow : Expr → Nat
  | .sel (.call _ fn _) _ _ _ => callsBelow fn + 1
  | _ => 0

/-- **C58, negation.** `r.A().B().C().D().E()`: chained on 0, 1, 2, 3 and 4 calls; recorded 0, 1, 1, 2, 1. -/
def longChain : Expr := onCall 0 (onCall 1 (onCall 2 (onCall 3 (onVar 4 10 "r" "A") "B") "C") "D") "E"

theorem C58_wrong_depth :
    (chain env0 longChain).map (fun x => callsBelow x.2) = [0, 1, 2, 3, 4] ∧
    (walkAll env0 [longChain] ⟨[], []⟩).map (fun st => st.graph.map Edge.depth) = some [0, 1, 1, 2, 1] := by decide

/-- An edge's depth is bounded once its root is known. -/
def DepthOk (e : Edge) : Prop := (e.var ≠ [] → e.depth ≤ 1) ∧ (e.root ≠ [] → e.depth ≤ 2)

theorem process_depth (env : Env) : ∀ (e : Expr) (st st' : State), processCall env e st = some st' → (∀ x ∈ st.graph, DepthOk x) → ∀ x ∈ st'.graph, DepthOk x
  | .sel _ _ _ _, st, st', h, hd | .ident _ _ _, st, st', h, hd | .idx _ _, st, st', h, hd | .lit _ _, st, st', h, hd | .other _ _, st, st', h, hd => by
    have : some st = some st' := h
    cases this; exact hd
  | .call c (.sel x n p r) args, st, st', h, hd => by
    rw [process_sel] at h
    split at h
    · cases h; exact hd
    · split at h
      · obtain ⟨st1, h1, h2⟩ := bind_some_iff h
        have hd1 := process_depth env x st st1 h1 hd
        unfold chained at h2
        split at h2
        · cases h2
        · next par hpar =>
          have hp := hd1 par (List.mem_of_getLast? hpar)
          split at h2
          · cases h2
            intro y hy
            rcases List.mem_append.mp hy with hy | hy
            · exact hd1 y hy
            · rw [List.mem_singleton] at hy; subst hy
              exact ⟨fun _ => Nat.le_refl 1, fun _ => Nat.le_succ 1⟩
          · cases h2
            intro y hy
            rcases List.mem_append.mp hy with hy | hy
            · exact hd1 y hy
            · rw [List.mem_singleton] at hy; subst hy
              exact ⟨fun h => absurd rfl h, fun h => Nat.succ_le_succ (hp.1 h)⟩
      · cases h
        intro y hy
        rcases List.mem_append.mp hy with hy | hy
        · exact hd y hy
        · rw [List.mem_singleton] at hy; subst hy
          exact ⟨fun _ => Nat.zero_le _, fun _ => Nat.zero_le _⟩
  | .call c (.call c2 f2 a2) args, st, st', h, hd | .call c (.ident i1 i2 i3) args, st, st', h, hd
  | .call c (.idx i1 i2) args, st, st', h, hd | .call c (.lit i1 i2) args, st, st', h, hd | .call c (.other i1 i2) args, st, st', h, hd => by
    rw [process_other env c _ (fun _ _ _ _ e => by cases e)] at h
    split at h
    · cases h; exact hd
    · cases h
      intro y hy
      rcases List.mem_append.mp hy with hy | hy
      · exact hd y hy
      · rw [List.mem_singleton] at hy; subst hy
        exact ⟨fun _ => Nat.zero_le _, fun _ => Nat.zero_le _⟩

mutual
theorem walk_depth (env : Env) : ∀ (e : Expr) (st st' : State), walk env e st = some st' → (∀ x ∈ st.graph, DepthOk x) → ∀ x ∈ st'.graph, DepthOk x
  | .call c fn args, st, st', h, hd => by
    rw [walk] at h
    obtain ⟨st1, h1, h⟩ := bind_some_iff h
    obtain ⟨st2, h2, h⟩ := bind_some_iff h
    exact walkAll_depth env args st2 st' h (walk_depth env fn st1 st2 h2 (process_depth env _ st st1 h1 hd))
  | .sel x _ _ _, st, st', h, hd => by rw [walk] at h; exact walk_depth env x st st' h hd
  | .ident _ _ _, st, st', h, hd => by rw [walk] at h; cases h; exact hd
  | .idx x args, st, st', h, hd => by
    rw [walk] at h
    obtain ⟨st1, h1, h⟩ := bind_some_iff h
    exact walkAll_depth env args st1 st' h (walk_depth env x st st1 h1 hd)
  | .lit _ body, st, st', h, hd => by rw [walk] at h; exact walkAll_depth env body st st' h hd
  | .other _ kids, st, st', h, hd => by rw [walk] at h; exact walkAll_depth env kids st st' h hd
theorem walkAll_depth (env : Env) : ∀ (es : List Expr) (st st' : State), walkAll env es st = some st' → (∀ x ∈ st.graph, DepthOk x) → ∀ x ∈ st'.graph, DepthOk x
  | [], st, st', h, hd => by rw [walkAll] at h; cases h; exact hd
  | e :: es, st, st', h, hd => by
    rw [walkAll] at h
    obtain ⟨st1, h1, h⟩ := bind_some_iff h
    exact walkAll_depth env es st1 st' h (walk_depth env e st st1 h1 hd)
end

/-- **C58, negation (general).** In every program, no call on a chain whose root is known is
recorded deeper than 2, however long the chain is. -/
theorem C58_capped (env : Env) (files : List (List Expr)) (g : List Edge) (h : buildGraph env files [] = some g) (e : Edge) (he : e ∈ g)
    (hr : e.root ≠ []) : e.depth ≤ 2 := by
  have key : ∀ (files : List (List Expr)) (g0 g : List Edge), buildGraph env files g0 = some g → (∀ x ∈ g0, DepthOk x) → ∀ x ∈ g, DepthOk x := by
    intro files
    induction files with
    | nil => intro g0 g h hd; cases h; exact hd
    | cons f fs ih =>
      intro g0 g h hd
      rw [buildGraph] at h
      obtain ⟨st, h1, h2⟩ := bind_some_iff h
      exact ih st.graph g h2 (walkAll_depth env f _ st h1 hd)
  exact (key files [] g h (by simp) e he).2 hr

end Verif.CallsModel
