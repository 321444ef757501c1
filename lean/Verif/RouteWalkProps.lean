import Verif.RouteWalkModel
/-!
# C86: a route's request body comes from code the route runs

Specification first: a program (who calls what), the functions a route runs, and the positions of nodes in
the tree.  The tree itself may be anything: what hangs below a node need not be code the node runs.
-/

namespace Verif.RouteWalk

/-! ## Specification -/

/-- A program: `calls f g` — `f` contains a call of `g`; `literal f g` — the function literal `g` is written
in `f`; `implements m g` — the method `g` implements the interface method `m`. -/
structure Program where
  calls : String → String → Prop
  literal : String → String → Prop
  implements : String → String → Prop

/-- The functions a route runs: the one it is registered in and its handlers (`start`), and from there what
is called, the literals written there, and the implementations of the interface methods called. -/
inductive Runs (P : Program) (start : String → Prop) : String → Prop
  | start {f} : start f → Runs P start f
  | call {f g} : Runs P start f → P.calls f g → Runs P start g
  | literal {f g} : Runs P start f → P.literal f g → Runs P start g
  | implementation {f g} : Runs P start f → P.implements f g → Runs P start g

/-- `n` is a node of the tree `t`, `d` levels below its root. -/
inductive InTree (t : Node) : Nat → Node → Prop
  | root : InTree t 0 t
  | child {d p c} : InTree t d p → c ∈ p.kids → InTree t (d + 1) c

/-- What is assumed of a tree, beside that it may attach anything below call nodes: every node has a call that
the program contains; the registration is a call written in a function of `start`; an argument node has the
call it is an argument of, or one written beside it; what hangs below the arguments of the registration, and
below arguments that are calls or conversions, is run; a link of a fluent chain is written in the function of
the link before; the closures of a function are literals of it; and a function with the name of the method
called implements it. -/
structure Faithful (P : Program) (start : String → Prop) (pf : String → List Edge) (t : Node) : Prop where
  calls : ∀ d n, InTree t d n → ∃ e, n.edge = some e ∧ P.calls e.caller e.callee
  registration : t.arg = none ∧ ∃ e, t.edge = some e ∧ start e.caller
  argument : ∀ d p c ep ec, InTree t d p → p.arg = none → c ∈ p.kids → c.arg ≠ none → p.edge = some ep → c.edge = some ec →
    ec.caller = ep.caller
  value : ∀ d p c k ep ec, InTree t d p → p.arg = some k → c ∈ p.kids → p.edge = some ep → c.edge = some ec →
    Runs P start ep.caller → d ≤ 1 ∨ k = .call ∨ k = .conversion → Runs P start ec.caller
  chain : ∀ d p c ep ec, InTree t d p → p.arg = none → c ∈ p.kids → c.arg = none → p.edge = some ep → c.edge = some ec →
    ec.chained = true → ec.caller = ep.caller
  closure : ∀ d p c ep ec, InTree t d p → p.arg = none → c ∈ p.kids → c.arg = none → p.edge = some ep → c.edge = some ec →
    (∃ e, (e ∈ pf ep.callee ∨ e ∈ pf ep.stripped) ∧ e.uid = ec.uid) → P.literal ep.callee ec.caller
  name : ∀ d p c ep ec, InTree t d p → p.arg = none → c ∈ p.kids → c.arg = none → p.edge = some ep → c.edge = some ec →
    ec.callerName ≠ "" → ec.callerName = ep.calleeName → P.implements ep.callee ec.caller

/-- A step that follows the program: into the arguments of a call, from the arguments of the registration
(or from calls and conversions used as arguments) to the functions they stand for, along a fluent chain, into
the function called, into a literal written in it, into the implementation of the interface method called. -/
inductive Step (pf : String → List Edge) : Nat → Node → Node → Prop
  | argument {d p c} : p.arg = none → c.arg ≠ none → Step pf d p c
  | handler {d p c} : p.arg ≠ none → d ≤ 1 → Step pf d p c
  | wrapped {d p c} : p.arg = some .call → Step pf d p c
  | converted {d p c} : p.arg = some .conversion → Step pf d p c
  | chain {d p c ec} : p.arg = none → c.edge = some ec → ec.chained = true → Step pf d p c
  | called {d p c ep ec} : p.arg = none → p.edge = some ep → c.edge = some ec → ec.caller = ep.callee → Step pf d p c
  | beside {d p c ep ec} : p.arg = none → p.edge = some ep → c.edge = some ec → ec.caller = ep.caller → Step pf d p c
  | closure {d p c ep ec e} : p.arg = none → p.edge = some ep → c.edge = some ec → e ∈ pf ep.callee → e.uid = ec.uid →
      Step pf d p c
  | instantiated {d p c ep ec e} : p.arg = none → p.edge = some ep → c.edge = some ec → e ∈ pf ep.stripped → e.uid = ec.uid →
      Step pf d p c
  | implementation {d p c ep ec} : p.arg = none → p.edge = some ep → c.edge = some ec → ec.callerName ≠ "" →
      ec.callerName = ep.calleeName → Step pf d p c

/-- The nodes reached from the registration by such steps. -/
inductive Follows (pf : String → List Edge) (t : Node) : Nat → Node → Prop
  | root : Follows pf t 0 t
  | step {d p c} : Follows pf t d p → c ∈ p.kids → Step pf d p c → Follows pf t (d + 1) c

/-- `c` hangs below `p` without the program going there: `p` is a call, and `c` a call in a function that is
neither the one called, nor the one `p` is written in, nor a literal of the one called, nor one of its name;
or `p` is a value below the arguments of the registration. -/
inductive Lateral (pf : String → List Edge) : Nat → Node → Node → Prop
  | code {d p c ep ec} : p.arg = none → c.arg = none → p.edge = some ep → c.edge = some ec → ec.chained = false →
      ec.caller ≠ ep.callee → ec.caller ≠ ep.caller → (∀ e ∈ pf ep.callee, e.uid ≠ ec.uid) → (∀ e ∈ pf ep.stripped, e.uid ≠ ec.uid) →
      ec.callerName ≠ ep.calleeName → Lateral pf d p c
  | value {d p c} : p.arg = some .other → 1 < d → Lateral pf d p c

/-- Two trees that differ only in what is attached laterally (`d` levels below the registration). -/
inductive SameRun (pf : String → List Edge) : Nat → Node → Node → Prop
  | same {d t} : SameRun pf d t t
  | symm {d t t'} : SameRun pf d t t' → SameRun pf d t' t
  | trans {d t t' t''} : SameRun pf d t t' → SameRun pf d t' t'' → SameRun pf d t t''
  | attach {d a e r p b l c l'} : Lateral pf d (.mk a e r p b (l ++ l')) c →
      SameRun pf d (.mk a e r p b (l ++ l')) (.mk a e r p b (l ++ c :: l'))
  | inside {d a e r p b l c c' l'} : SameRun pf (d + 1) c c' → c.arg = c'.arg → c.edge = c'.edge → c.req = c'.req → c.pos = c'.pos →
      SameRun pf d (.mk a e r p b (l ++ c :: l')) (.mk a e r p b (l ++ c' :: l'))

/-- A body whose type was resolved: it refers to a component or has a structure of its own. -/
def Resolved (r : Req) : Prop :=
  ∃ s, r.schema = some s ∧ (s.ref ≠ "" ∨ 0 < s.properties ∨ 0 < s.allOf ∨ s.items = true)

/-! ## Lemmas -/

theorem concrete_iff (r : Req) : concrete r = true ↔ Resolved r := by
  unfold concrete Resolved
  cases r.schema with
  | none => simp
  | some s => simp [or_assoc]

theorem prefer_none (r : Req) : prefer none r = some r := rfl

theorem prefer_some (c r : Req) : prefer (some c) r = if concrete c && !concrete r then some c else some r := by
  show (if concrete r && !concrete c then some r else if concrete c && !concrete r then some c else some r) = _
  cases concrete c <;> cases concrete r <;> rfl

/-- The bodies read in scope, in the order of the walk. -/
def hereList (M : Closures) (depth : Nat) (parent c : Node) : List Req :=
  if follows M parent c depth then (c.req.map (stamp c)).toList else []

mutual
def cands (M : Closures) (depth : Nat) : Node → List Req
  | .mk a e r p b ks => candsKids M depth (.mk a e r p b ks) ks
def candsKids (M : Closures) (depth : Nat) (parent : Node) : List Node → List Req
  | [] => []
  | c :: cs => hereList M depth parent c ++ (if follows M parent c depth then cands M (depth + 1) c else []) ++ candsKids M depth parent cs
end

theorem record_true (c : Node) (cur : Option Req) : record true c cur = ((c.req.map (stamp c)).toList).foldl prefer cur := by
  unfold record
  cases c.req <;> rfl

theorem record_false (c : Node) (cur : Option Req) : record false c cur = cur := by
  unfold record
  cases c.req <;> rfl

mutual
theorem body_false (M : Closures) (depth : Nat) : ∀ (n : Node) (cur : Option Req), body M false depth n cur = cur
  | .mk a e r p b ks, cur => by rw [body]; exact bodyKids_false M depth _ ks cur
theorem bodyKids_false (M : Closures) (depth : Nat) (parent : Node) :
    ∀ (ks : List Node) (cur : Option Req), bodyKids M false depth parent ks cur = cur
  | [], cur => by rw [bodyKids]
  | c :: cs, cur => by
    rw [bodyKids, Bool.false_and, record_false, body_false M (depth + 1) c cur]
    exact bodyKids_false M depth parent cs cur
end

mutual
theorem body_cands (M : Closures) (depth : Nat) : ∀ (n : Node) (cur : Option Req),
    body M true depth n cur = (cands M depth n).foldl prefer cur
  | .mk a e r p b ks, cur => by rw [body, cands]; exact bodyKids_cands M depth _ ks cur
theorem bodyKids_cands (M : Closures) (depth : Nat) (parent : Node) : ∀ (ks : List Node) (cur : Option Req),
    bodyKids M true depth parent ks cur = (candsKids M depth parent ks).foldl prefer cur
  | [], cur => by rw [bodyKids, candsKids]; rfl
  | c :: cs, cur => by
    rw [bodyKids, candsKids, Bool.true_and, List.foldl_append, List.foldl_append, hereList]
    cases h : follows M parent c depth with
    | false =>
      rw [record_false, body_false, if_neg (by decide), if_neg (by decide)]
      exact bodyKids_cands M depth parent cs _
    | true =>
      rw [record_true, body_cands M (depth + 1) c, if_pos rfl, if_pos rfl]
      exact bodyKids_cands M depth parent cs _
end

/-- Nodes reached by steps the walk takes. -/
inductive Acc (M : Closures) (t : Node) : Nat → Node → Prop
  | root : Acc M t 0 t
  | step {d p c} : Acc M t d p → c ∈ p.kids → follows M p c d = true → Acc M t (d + 1) c

theorem hereList_mem {M : Closures} {d : Nat} {p c : Node} {r : Req} :
    r ∈ hereList M d p c ↔ follows M p c d = true ∧ ∃ r0, c.req = some r0 ∧ r = stamp c r0 := by
  unfold hereList
  split
  · next h =>
    simp only [Option.mem_toList, Option.map_eq_some_iff]
    exact ⟨fun ⟨a, h1, h2⟩ => ⟨h, a, h1, h2.symm⟩, fun ⟨_, a, h1, h2⟩ => ⟨a, h1, h2.symm⟩⟩
  · next h => simp [h]

mutual
theorem cands_acc {M : Closures} {t : Node} {r : Req} : ∀ (n : Node) (d : Nat), Acc M t d n → r ∈ cands M d n →
    ∃ d' m r0, Acc M t (d' + 1) m ∧ m.req = some r0 ∧ r = stamp m r0
  | .mk a e q p b ks, d, hacc, h => by
    rw [cands] at h
    exact candsKids_acc (.mk a e q p b ks) ks d hacc (fun c hc => hc) h
theorem candsKids_acc {M : Closures} {t : Node} {r : Req} (parent : Node) : ∀ (ks : List Node) (d : Nat), Acc M t d parent →
    (∀ c ∈ ks, c ∈ parent.kids) → r ∈ candsKids M d parent ks →
    ∃ d' m r0, Acc M t (d' + 1) m ∧ m.req = some r0 ∧ r = stamp m r0
  | [], d, _, _, h => by rw [candsKids] at h; cases h
  | c :: cs, d, hacc, hk, h => by
    rw [candsKids, List.mem_append, List.mem_append] at h
    rcases h with (h | h) | h
    · obtain ⟨hf, r0, h1, h2⟩ := hereList_mem.1 h
      exact ⟨d, c, r0, .step hacc (hk c (List.mem_cons_self ..)) hf, h1, h2⟩
    · split at h
      · next hf => exact cands_acc c (d + 1) (.step hacc (hk c (List.mem_cons_self ..)) hf) h
      · cases h
    · exact candsKids_acc parent cs d hacc (fun x hx => hk x (List.mem_cons_of_mem _ hx)) h
end

/-- One node's share of the list. -/
theorem candsKids_mem {M : Closures} {parent : Node} {r : Req} {d : Nat} {c : Node} (hf : follows M parent c d = true) :
    ∀ {ks : List Node}, c ∈ ks → (r ∈ hereList M d parent c ∨ r ∈ cands M (d + 1) c) → r ∈ candsKids M d parent ks
  | x :: xs, h, hr => by
    rw [candsKids, List.mem_append, List.mem_append]
    rcases List.mem_cons.1 h with rfl | h
    · rw [if_pos hf]; exact .inl hr
    · exact .inr (candsKids_mem hf h hr)

theorem cands_eq (M : Closures) (d : Nat) (n : Node) : cands M d n = candsKids M d n n.kids := by
  cases n; rw [cands]; rfl

theorem acc_lift {M : Closures} {t : Node} {r : Req} {d : Nat} {n : Node} (h : Acc M t d n) : r ∈ cands M d n → r ∈ cands M 0 t := by
  induction h with
  | root => exact id
  | step hp hc hf ih =>
    intro hr
    apply ih
    rw [cands_eq]
    exact candsKids_mem hf hc (.inr hr)

theorem acc_cands {M : Closures} {t : Node} {d : Nat} {n : Node} {r : Req} (h : Acc M t (d + 1) n) (hr : n.req = some r) :
    stamp n r ∈ cands M 0 t := by
  cases h with
  | step hp hc hf =>
    apply acc_lift hp
    rw [cands_eq]
    exact candsKids_mem hf hc (.inl (hereList_mem.2 ⟨hf, r, hr, rfl⟩))

theorem fold_mem : ∀ (l : List Req) (cur : Option Req) (r : Req), l.foldl prefer cur = some r → cur = some r ∨ r ∈ l
  | [], cur, r, h => .inl h
  | x :: xs, cur, r, h => by
    rcases fold_mem xs _ r h with h | h
    · cases cur with
      | none => cases h; exact .inr (List.mem_cons_self ..)
      | some c =>
        rw [prefer_some] at h
        split at h
        · exact .inl h
        · cases h; exact .inr (List.mem_cons_self ..)
    · exact .inr (List.mem_cons_of_mem _ h)

theorem fold_some : ∀ (l : List Req) (c : Req), ∃ r, l.foldl prefer (some c) = some r ∧ (concrete c = true → concrete r = true)
  | [], c => ⟨c, rfl, id⟩
  | x :: xs, c => by
    rw [List.foldl_cons, prefer_some]
    split
    · exact fold_some xs c
    · next h =>
      obtain ⟨r, h1, h2⟩ := fold_some xs x
      refine ⟨r, h1, fun hc => h2 ?_⟩
      cases hx : concrete x
      · rw [hc, hx] at h; exact absurd rfl h
      · rfl

theorem fold_exists : ∀ (l : List Req) (cur : Option Req) (x : Req), x ∈ l →
    ∃ r, l.foldl prefer cur = some r ∧ (concrete x = true → concrete r = true)
  | y :: ys, cur, x, h => by
    rw [List.foldl_cons]
    rcases List.mem_cons.1 h with rfl | h
    · cases cur with
      | none => exact fold_some ys x
      | some c =>
        rw [prefer_some]
        split
        · next hc =>
          obtain ⟨r, h1, h2⟩ := fold_some ys c
          exact ⟨r, h1, fun hx => (by rw [hx] at hc; simp at hc)⟩
        · exact fold_some ys x
    · exact fold_exists ys _ x h

theorem stamp_concrete (n : Node) (r : Req) : concrete (stamp n r) = concrete r := by
  unfold stamp; split <;> rfl

theorem stamp_body (n : Node) (r : Req) : (stamp n r).bodyType = r.bodyType ∧ (stamp n r).schema = r.schema := by
  unfold stamp; split <;> exact ⟨rfl, rfl⟩

theorem documented_cands (M : Closures) (t : Node) : documented M t = (cands M 0 t).foldl prefer none := body_cands M 0 t none

theorem acc_inTree {M : Closures} {t : Node} {d : Nat} {n : Node} (h : Acc M t d n) : InTree t d n := by
  induction h with
  | root => exact .root
  | step _ hc _ ih => exact .child ih hc

theorem follows_arg {M : Closures} {p c : Node} {d : Nat} {k : Kind} (h : p.arg = some k) :
    follows M p c d = (decide (d ≤ handlerArgDepth) || k == .call || k == .conversion) := by
  unfold follows; rw [h]; rfl

theorem follows_call {M : Closures} {p c : Node} {d : Nat} {ep ec : Edge} (h : p.arg = none) (hc : c.arg = none) (he : p.edge = some ep)
    (hf : c.edge = some ec) : follows M p c d = edgeFollows M ep ec := by
  unfold follows; rw [h, hc, he, hf]

theorem edgeFollows_iff (pf : String → List Edge) (p c : Edge) : edgeFollows (some pf) p c = true ↔
    c.chained = true ∨ c.caller = p.callee ∨ c.caller = p.caller ∨ (∃ e ∈ pf p.callee, e.uid = c.uid) ∨
      (∃ e ∈ pf p.stripped, e.uid = c.uid) ∨ (c.callerName ≠ "" ∧ c.callerName = p.calleeName) := by
  unfold edgeFollows
  split
  · next h => simp [h]
  split
  · next h => simp at h; simp [h]
  split
  · next h => simp at h; simp [h]
  next h1 h2 h3 =>
  have h1' : ¬ c.chained = true := h1
  simp at h2 h3
  simp only []
  split
  · next h => rw [List.any_eq_true] at h; obtain ⟨e, h, h'⟩ := h; simp at h'; exact ⟨fun _ => .inr (.inr (.inr (.inl ⟨e, h, h'⟩))), fun _ => rfl⟩
  next h4 =>
  split
  · next h =>
    simp only [Bool.and_eq_true, List.any_eq_true] at h
    obtain ⟨_, e, h, h'⟩ := h; simp at h'
    exact ⟨fun _ => .inr (.inr (.inr (.inr (.inl ⟨e, h, h'⟩)))), fun _ => rfl⟩
  next h5 =>
  have n4 : ¬ ∃ e ∈ pf p.callee, e.uid = c.uid := fun ⟨e, a, b⟩ => h4 (List.any_eq_true.2 ⟨e, a, by simp [b]⟩)
  have n5 : ¬ ∃ e ∈ pf p.stripped, e.uid = c.uid := by
    intro ⟨e, a, b⟩
    by_cases hs : p.stripped = p.callee
    · exact n4 ⟨e, hs ▸ a, b⟩
    · exact h5 (by simp only [Bool.and_eq_true, List.any_eq_true]; exact ⟨by simp [hs], e, a, by simp [b]⟩)
  simp [h1', h2, h3, n4, n5]

theorem step_follows {pf : String → List Edge} {d : Nat} {p c : Node} (h : Step pf d p c) : follows (some pf) p c d = true := by
  have key : p.arg = none → (∀ ep ec, p.edge = some ep → c.edge = some ec → edgeFollows (some pf) ep ec = true) →
      follows (some pf) p c d = true := by
    intro hp hh
    unfold follows
    rw [hp]
    cases c.arg with
    | some _ => rfl
    | none =>
      cases he : p.edge with
      | none => rfl
      | some ep =>
        cases hf : c.edge with
        | none => rfl
        | some ec => exact hh ep ec he hf
  cases h with
  | argument hp hc =>
    unfold follows; rw [hp]
    cases h : c.arg with
    | none => exact absurd h hc
    | some _ => rfl
  | handler hp hd =>
    cases h : p.arg with
    | none => exact absurd h hp
    | some k => rw [follows_arg h]; simp [handlerArgDepth, hd]
  | wrapped hp => rw [follows_arg hp]; simp
  | converted hp => rw [follows_arg hp]; simp
  | chain hp hc h => exact key hp fun ep ec' _ e => (edgeFollows_iff ..).2 (.inl (by rw [hc] at e; cases e; exact h))
  | called hp he hc h =>
    exact key hp fun ep' ec' e e' => (edgeFollows_iff ..).2 (.inr (.inl (by rw [he] at e; rw [hc] at e'; cases e; cases e'; exact h)))
  | beside hp he hc h =>
    exact key hp fun ep' ec' e e' => (edgeFollows_iff ..).2 (.inr (.inr (.inl (by rw [he] at e; rw [hc] at e'; cases e; cases e'; exact h))))
  | closure hp he hc h h' =>
    exact key hp fun ep' ec' e e' => (edgeFollows_iff ..).2
      (by rw [he] at e; rw [hc] at e'; cases e; cases e'; exact .inr (.inr (.inr (.inl ⟨_, h, h'⟩))))
  | instantiated hp he hc h h' =>
    exact key hp fun ep' ec' e e' => (edgeFollows_iff ..).2
      (by rw [he] at e; rw [hc] at e'; cases e; cases e'; exact .inr (.inr (.inr (.inr (.inl ⟨_, h, h'⟩)))))
  | implementation hp he hc h h' =>
    exact key hp fun ep' ec' e e' => (edgeFollows_iff ..).2
      (by rw [he] at e; rw [hc] at e'; cases e; cases e'; exact .inr (.inr (.inr (.inr (.inr ⟨h, h'⟩)))))

theorem follows_acc {pf : String → List Edge} {t : Node} {d : Nat} {n : Node} (h : Follows pf t d n) : Acc (some pf) t d n := by
  induction h with
  | root => exact .root
  | step _ hc hs ih => exact .step ih hc (step_follows hs)

theorem acc_runs {P : Program} {start : String → Prop} {pf : String → List Edge} {t : Node} (F : Faithful P start pf t)
    {d : Nat} {n : Node} (h : Acc (some pf) t d n) : ∀ e, n.edge = some e → Runs P start e.caller := by
  induction h with
  | root =>
    intro e he
    obtain ⟨_, e', h1, h2⟩ := F.registration
    rw [he] at h1; cases h1
    exact .start h2
  | @step d p c hp hc hf ih =>
    intro ec hec
    have hin := acc_inTree hp
    obtain ⟨ep, hep, hcall⟩ := F.calls d p hin
    have hr := ih ep hep
    cases hpa : p.arg with
    | some k =>
      rw [follows_arg hpa] at hf
      refine F.value d p c k ep ec hin hpa hc hep hec hr ?_
      simp [handlerArgDepth] at hf
      rcases hf with (h | h) | h
      · exact .inl (of_decide_eq_true h)
      · exact .inr (.inl h)
      · exact .inr (.inr h)
    | none =>
      cases hca : c.arg with
      | some k =>
        rw [F.argument d p c ep ec hin hpa hc (by rw [hca]; exact fun h => (by cases h)) hep hec]
        exact hr
      | none =>
        rw [follows_call hpa hca hep hec, edgeFollows_iff] at hf
        rcases hf with h | h | h | ⟨e, h, h'⟩ | ⟨e, h, h'⟩ | ⟨h, h'⟩
        · rw [F.chain d p c ep ec hin hpa hc hca hep hec h]; exact hr
        · rw [h]; exact .call hr hcall
        · rw [h]; exact hr
        · exact .literal (.call hr hcall) (F.closure d p c ep ec hin hpa hc hca hep hec ⟨e, .inl h, h'⟩)
        · exact .literal (.call hr hcall) (F.closure d p c ep ec hin hpa hc hca hep hec ⟨e, .inr h, h'⟩)
        · exact .implementation (.call hr hcall) (F.name d p c ep ec hin hpa hc hca hep hec h h')

theorem lateral_follows {pf : String → List Edge} {d : Nat} {p c : Node} (h : Lateral pf d p c) : follows (some pf) p c d = false := by
  cases h with
  | code hp hc he hf h1 h2 h3 h4 h5 h6 =>
    rw [follows_call hp hc he hf, Bool.eq_false_iff]
    intro h
    rcases (edgeFollows_iff ..).1 h with h | h | h | ⟨e, h, h'⟩ | ⟨e, h, h'⟩ | ⟨_, h⟩
    · rw [h1] at h; cases h
    · exact h2 h
    · exact h3 h
    · exact h4 e h h'
    · exact h5 e h h'
    · exact h6 h
  | value hp hd =>
    rw [follows_arg hp, decide_eq_false (by unfold handlerArgDepth; omega)]
    rfl

theorem follows_congr {M : Closures} {p p' c : Node} {d : Nat} (h1 : p.arg = p'.arg) (h2 : p.edge = p'.edge) :
    follows M p c d = follows M p' c d := by
  unfold follows; rw [h1, h2]

theorem follows_congr' {M : Closures} {p c c' : Node} {d : Nat} (h1 : c.arg = c'.arg) (h2 : c.edge = c'.edge) :
    follows M p c d = follows M p c' d := by
  unfold follows; rw [h1, h2]

theorem hereList_congr {M : Closures} {p p' c c' : Node} {d : Nat} (h1 : p.arg = p'.arg) (h2 : p.edge = p'.edge) (h3 : c.arg = c'.arg)
    (h4 : c.edge = c'.edge) (h5 : c.req = c'.req) (h6 : c.pos = c'.pos) : hereList M d p c = hereList M d p' c' := by
  unfold hereList
  rw [follows_congr h1 h2, follows_congr' h3 h4, h5]
  have : stamp c = stamp c' := by funext r; unfold stamp; rw [h6]
  rw [this]

theorem candsKids_congr {M : Closures} {p p' : Node} {d : Nat} (h1 : p.arg = p'.arg) (h2 : p.edge = p'.edge) :
    ∀ ks : List Node, candsKids M d p ks = candsKids M d p' ks
  | [] => by rw [candsKids, candsKids]
  | c :: cs => by
    rw [candsKids, candsKids, candsKids_congr h1 h2 cs, hereList_congr h1 h2 rfl rfl rfl rfl, follows_congr h1 h2]

theorem candsKids_append {M : Closures} {p : Node} {d : Nat} : ∀ l l' : List Node,
    candsKids M d p (l ++ l') = candsKids M d p l ++ candsKids M d p l'
  | [], l' => by rw [candsKids]; rfl
  | c :: cs, l' => by
    rw [List.cons_append, candsKids, candsKids, candsKids_append cs l', List.append_assoc (_ ++ _)]

theorem sameRun_cands {pf : String → List Edge} {d : Nat} {t t' : Node} (h : SameRun pf d t t') : cands (some pf) d t = cands (some pf) d t' := by
  induction h with
  | same => rfl
  | symm _ ih => exact ih.symm
  | trans _ _ ih1 ih2 => exact ih1.trans ih2
  | @attach d a e r p b l c l' h =>
    have hf := lateral_follows h
    have e1 : hereList (some pf) d (.mk a e r p b (l ++ l')) c = [] := by unfold hereList; rw [hf]; rfl
    rw [cands, cands, candsKids_append, candsKids_append, candsKids,
      candsKids_congr (p := .mk a e r p b (l ++ c :: l')) (p' := .mk a e r p b (l ++ l')) rfl rfl,
      candsKids_congr (p := .mk a e r p b (l ++ c :: l')) (p' := .mk a e r p b (l ++ l')) rfl rfl,
      hereList_congr (p := .mk a e r p b (l ++ c :: l')) (p' := .mk a e r p b (l ++ l')) (c := c) rfl rfl rfl rfl rfl rfl, e1,
      follows_congr (p := .mk a e r p b (l ++ c :: l')) (p' := .mk a e r p b (l ++ l')) rfl rfl, hf]
    rfl
  | @inside d a e r p b l c c' l' _ h1 h2 h3 h4 ih =>
    rw [cands, cands, candsKids_append, candsKids_append, candsKids, candsKids, ih,
      candsKids_congr (p := .mk a e r p b (l ++ c :: l')) (p' := .mk a e r p b (l ++ c' :: l')) rfl rfl,
      candsKids_congr (p := .mk a e r p b (l ++ c :: l')) (p' := .mk a e r p b (l ++ c' :: l')) rfl rfl,
      hereList_congr (p := .mk a e r p b (l ++ c :: l')) (p' := .mk a e r p b (l ++ c' :: l')) rfl rfl h1 h2 h3 h4,
      follows_congr (p := .mk a e r p b (l ++ c :: l')) (p' := .mk a e r p b (l ++ c' :: l')) rfl rfl, follows_congr' h1 h2]

/-! ## Theorems -/

/-- The documented request body was read at a call written in a function the route runs. -/
theorem C86_body_runs_partial {P : Program} {start : String → Prop} {pf : String → List Edge} {t : Node} (F : Faithful P start pf t)
    {r : Req} (h : documented (some pf) t = some r) :
    ∃ d n e r0, InTree t d n ∧ n.edge = some e ∧ Runs P start e.caller ∧ n.req = some r0 ∧ r.bodyType = r0.bodyType ∧ r.schema = r0.schema := by
  rw [documented_cands] at h
  rcases fold_mem _ _ _ h with h | h
  · cases h
  · obtain ⟨d, n, r0, h1, h2, h3⟩ := cands_acc t 0 .root h
    have hin := acc_inTree h1
    obtain ⟨e, he, _⟩ := F.calls _ n hin
    refine ⟨d + 1, n, e, r0, hin, he, acc_runs F h1 e he, h2, ?_, ?_⟩
    · rw [h3]; exact (stamp_body n r0).1
    · rw [h3]; exact (stamp_body n r0).2

/-- A body read where the program's steps lead is never lost: some body is documented, and a resolved one is
documented if a resolved one was read. -/
theorem C86_body_kept {pf : String → List Edge} {t : Node} {d : Nat} {n : Node} {r0 : Req} (h : Follows pf t (d + 1) n)
    (hr : n.req = some r0) : ∃ r, documented (some pf) t = some r ∧ (Resolved r0 → Resolved r) := by
  have := acc_cands (follows_acc h) hr
  rw [documented_cands]
  obtain ⟨r, h1, h2⟩ := fold_exists _ none _ this
  refine ⟨r, h1, fun hc => (concrete_iff r).1 (h2 ?_)⟩
  rw [stamp_concrete]
  exact (concrete_iff r0).2 hc

/-- What hangs below the registration laterally has no influence on the documented body, whatever it is. -/
theorem C86_lateral_ignored {pf : String → List Edge} {t t' : Node} (h : SameRun pf 0 t t') : documented (some pf) t = documented (some pf) t' := by
  rw [documented_cands, documented_cands, sameRun_cands h]

/-- Among resolved bodies the one met last is documented: here, one read at the last child of the registration. -/
theorem C86_last_wins {pf : String → List Edge} {a e q p b l} {c : Node} {r : Req}
    (hs : Step pf 0 (.mk a e q p b (l ++ [c])) c) (hr : c.req = some r) (hres : Resolved r) (hk : c.kids = []) :
    ∃ r', documented (some pf) (.mk a e q p b (l ++ [c])) = some r' ∧ r'.bodyType = r.bodyType ∧ r'.schema = r.schema ∧
      (r.file ≠ "" → r' = r) ∧ (r.file = "" → r'.file = c.pos.1 ∧ r'.line = c.pos.2) := by
  have hf := step_follows hs
  refine ⟨stamp c r, ?_, (stamp_body c r).1, (stamp_body c r).2, ?_, ?_⟩
  · rw [documented_cands, cands, candsKids_append, candsKids, candsKids, hereList, if_pos hf, if_pos hf, cands_eq, hk, candsKids, hr,
      List.foldl_append, List.append_nil, List.append_nil]
    have hc : concrete (stamp c r) = true := by rw [stamp_concrete]; exact (concrete_iff r).2 hres
    show prefer _ (stamp c r) = _
    cases (candsKids (some pf) 0 (.mk a e q p b (l ++ [c])) l).foldl prefer none with
    | none => rfl
    | some x => rw [prefer_some, hc, Bool.not_true, Bool.and_false]; rfl
  · intro h; unfold stamp; rw [if_neg h]
  · intro h; unfold stamp; rw [if_pos h]; exact ⟨rfl, rfl⟩

/-- A registration that reads no body at a node the walk may go to documents none. -/
theorem C86_no_body {pf : String → List Edge} {t : Node} (h : ∀ d n, InTree t d n → n.req = none) : documented (some pf) t = none := by
  rw [documented_cands]
  cases hc : cands (some pf) 0 t with
  | nil => rfl
  | cons r rs =>
    obtain ⟨d, n, r0, h1, h2, _⟩ := cands_acc (r := r) t 0 .root (by rw [hc]; exact List.mem_cons_self ..)
    rw [h _ n (acc_inTree h1)] at h2
    cases h2

/-! ## Examples and what is missing -/

mutual
/-- All nodes of a tree with their depth (for the examples). -/
def nodes (d : Nat) : Node → List (Nat × Node)
  | .mk a e r p b ks => (d, .mk a e r p b ks) :: nodesKids (d + 1) ks
def nodesKids (d : Nat) : List Node → List (Nat × Node)
  | [] => []
  | c :: cs => nodes d c ++ nodesKids d cs
end

theorem nodes_self (d : Nat) (n : Node) : (d, n) ∈ nodes d n := by cases n; rw [nodes]; exact List.mem_cons_self ..

theorem nodesKids_mem {d : Nat} {x : Nat × Node} {c : Node} : ∀ {ks : List Node}, c ∈ ks → x ∈ nodes d c → x ∈ nodesKids d ks
  | y :: ys, h, hx => by
    rw [nodesKids, List.mem_append]
    rcases List.mem_cons.1 h with rfl | h
    · exact .inl hx
    · exact .inr (nodesKids_mem h hx)

mutual
theorem nodes_child {d' : Nat} {p c : Node} (hc : c ∈ p.kids) : ∀ (n : Node) (d : Nat), (d', p) ∈ nodes d n → (d' + 1, c) ∈ nodes d n
  | .mk a e r q b ks, d, h => by
    rw [nodes] at h ⊢
    rcases List.mem_cons.1 h with h | h
    · cases h
      exact List.mem_cons_of_mem _ (nodesKids_mem hc (nodes_self _ c))
    · exact List.mem_cons_of_mem _ (nodesKids_child hc ks (d + 1) h)
theorem nodesKids_child {d' : Nat} {p c : Node} (hc : c ∈ p.kids) : ∀ (ks : List Node) (d : Nat), (d', p) ∈ nodesKids d ks → (d' + 1, c) ∈ nodesKids d ks
  | x :: xs, d, h => by
    rw [nodesKids, List.mem_append] at h ⊢
    rcases h with h | h
    · exact .inl (nodes_child hc x d h)
    · exact .inr (nodesKids_child hc xs d h)
end

theorem inTree_nodes {t : Node} {d : Nat} {n : Node} (h : InTree t d n) : (d, n) ∈ nodes 0 t := by
  induction h with
  | root => exact nodes_self 0 t
  | child _ hc ih => exact nodes_child hc t 0 ih

namespace Example

def user : Req := ⟨"User", some { ref := "#/components/schemas/User" }, "", 0⟩
def order : Req := ⟨"Order", some { ref := "#/components/schemas/Order" }, "", 0⟩

/-- `r.Post("/users", createUser)` in `main`. -/
def reg : Edge := ⟨1, "main", "Router.Post", "Router.Post", "main", "Post", false, []⟩
/-- `json.Decode(&u)` in `createUser`. -/
def decodeUser : Edge := ⟨2, "createUser", "json.Decode", "json.Decode", "createUser", "Decode", false, []⟩
/-- `toDTO(u)` in `createUser`. -/
def convert : Edge := ⟨3, "createUser", "toDTO", "toDTO", "createUser", "toDTO", false, []⟩
/-- `json.Decode(&o)` in `createOrder`, which writes the field `toDTO` reads. -/
def decodeOrder : Edge := ⟨4, "createOrder", "json.Decode", "json.Decode", "createOrder", "Decode", false, []⟩

/-- What the tree attaches laterally. -/
def stray : Node := .mk none (some decodeOrder) (some order) ("order.go", 9) false []

/-- The tree of the route. -/
def tree : Node :=
  .mk none (some reg) none ("main.go", 3) false
    [.mk (some .other) (some reg) none ("main.go", 3) false
      [.mk none (some decodeUser) (some user) ("user.go", 5) false [],
       .mk none (some convert) none ("user.go", 7) false [stray]]]

def prog : Program where
  calls f g := (f, g) ∈ [("main", "Router.Post"), ("createUser", "json.Decode"), ("createUser", "toDTO"), ("createOrder", "json.Decode")]
  literal _ _ := False
  implements _ _ := False

def start (f : String) : Prop := f = "main" ∨ f = "createUser"

theorem user_runs : Runs prog start "createUser" := .start (.inr rfl)

/-- `createOrder` is no part of the route. -/
theorem order_not_runs : ¬ Runs prog start "createOrder" := by
  intro h
  have key : ∀ f, Runs prog start f → f ≠ "createOrder" := by
    intro f hf
    induction hf with
    | start h => rcases h with rfl | rfl <;> decide
    | call _ h _ =>
      simp only [prog, List.mem_cons, Prod.mk.injEq, List.not_mem_nil, or_false] at h
      rcases h with ⟨rfl, rfl⟩ | ⟨rfl, rfl⟩ | ⟨rfl, rfl⟩ | ⟨rfl, rfl⟩ <;> decide
    | literal _ h _ => exact h.elim
    | implementation _ h _ => exact h.elim
  exact key _ h rfl

theorem faithful : Faithful prog start (fun _ => []) tree where
  calls := by
    intro d n h
    have h := inTree_nodes h
    simp only [tree, stray, nodes, nodesKids, List.cons_append, List.nil_append, List.append_nil, List.mem_cons, List.not_mem_nil, or_false,
      Prod.mk.injEq] at h
    rcases h with ⟨rfl, rfl⟩ | ⟨rfl, rfl⟩ | ⟨rfl, rfl⟩ | ⟨rfl, rfl⟩ | ⟨rfl, rfl⟩ <;>
      exact ⟨_, rfl, by simp [prog, reg, decodeUser, convert, decodeOrder]⟩
  registration := ⟨rfl, reg, rfl, .inl rfl⟩
  argument := by
    intro d p c ep ec h hp hc ha he hf
    have h := inTree_nodes h
    simp only [tree, stray, nodes, nodesKids, List.cons_append, List.nil_append, List.append_nil, List.mem_cons, List.not_mem_nil, or_false,
      Prod.mk.injEq] at h
    rcases h with ⟨rfl, rfl⟩ | ⟨rfl, rfl⟩ | ⟨rfl, rfl⟩ | ⟨rfl, rfl⟩ | ⟨rfl, rfl⟩ <;> simp [Node.arg, Node.kids] at hp hc
    · subst hc; cases he; cases hf; rfl
    · subst hc; exact absurd rfl ha
  value := by
    intro d p c k ep ec h hp hc he hf _ _
    have h := inTree_nodes h
    simp only [tree, stray, nodes, nodesKids, List.cons_append, List.nil_append, List.append_nil, List.mem_cons, List.not_mem_nil, or_false,
      Prod.mk.injEq] at h
    rcases h with ⟨rfl, rfl⟩ | ⟨rfl, rfl⟩ | ⟨rfl, rfl⟩ | ⟨rfl, rfl⟩ | ⟨rfl, rfl⟩ <;> simp [Node.arg, Node.kids] at hp hc
    rcases hc with rfl | rfl <;> cases hf <;> exact user_runs
  chain := by
    intro d p c ep ec h hp hc _ he hf hch
    have h := inTree_nodes h
    simp only [tree, stray, nodes, nodesKids, List.cons_append, List.nil_append, List.append_nil, List.mem_cons, List.not_mem_nil, or_false,
      Prod.mk.injEq] at h
    rcases h with ⟨rfl, rfl⟩ | ⟨rfl, rfl⟩ | ⟨rfl, rfl⟩ | ⟨rfl, rfl⟩ | ⟨rfl, rfl⟩ <;> simp [Node.arg, Node.kids] at hp hc
    · subst hc; cases hf; cases hch
    · subst hc; cases hf; cases hch
  closure := by
    intro d p c ep ec _ _ _ _ _ _ ⟨e, h, _⟩
    simp at h
  name := by
    intro d p c ep ec h hp hc hca he hf _ hn
    have h := inTree_nodes h
    simp only [tree, stray, nodes, nodesKids, List.cons_append, List.nil_append, List.append_nil, List.mem_cons, List.not_mem_nil, or_false,
      Prod.mk.injEq] at h
    rcases h with ⟨rfl, rfl⟩ | ⟨rfl, rfl⟩ | ⟨rfl, rfl⟩ | ⟨rfl, rfl⟩ | ⟨rfl, rfl⟩ <;> simp [Node.arg, Node.kids] at hp hc
    · subst hc; cases hca
    · subst hc; cases he; cases hf; exact absurd hn (by decide)

/-- `C86_body_runs_partial` is not about nothing: the tree is faithful, a body is documented, and it is the one
of the route although the other handler's hangs in the tree too. -/
example : Faithful prog start (fun _ => []) tree ∧ documented (some fun _ => []) tree = some { user with file := "user.go", line := 5 } :=
  ⟨faithful, by decide⟩

/-- `C86_body_kept`: the decode in the handler is reached by the program's steps. -/
example : Follows (fun _ => []) tree 2 (.mk none (some decodeUser) (some user) ("user.go", 5) false []) ∧ Resolved user :=
  ⟨.step (.step .root (List.mem_cons_self ..) (.argument rfl (fun h => (by cases h)))) (List.mem_cons_self ..)
    (.handler (fun h => (by cases h)) (Nat.le_refl 1)), _, rfl, .inl (by decide)⟩

/-- `C86_lateral_ignored`: the tree without the other handler documents the same. -/
example : SameRun (fun _ => []) 0 tree
    (.mk none (some reg) none ("main.go", 3) false
      [.mk (some .other) (some reg) none ("main.go", 3) false
        [.mk none (some decodeUser) (some user) ("user.go", 5) false [], .mk none (some convert) none ("user.go", 7) false []]]) := by
  refine .inside (l := []) (l' := []) (.inside (l := [_]) (l' := []) (.symm (.attach (l := []) (l' := []) ?_)) rfl rfl rfl rfl) rfl rfl rfl rfl
  exact .code rfl rfl rfl rfl rfl (by decide) (by decide) (fun e h => (by cases h)) (fun e h => (by cases h)) (by decide)

/-- `C86_last_wins`: the registration's own call of a binding helper, listed last. -/
example : Step (fun _ => []) 0 (.mk none (some reg) none ("main.go", 3) false ([] ++ [.mk none (some { reg with chained := true }) (some user) ("main.go", 4) false []]))
    (.mk none (some { reg with chained := true }) (some user) ("main.go", 4) false []) :=
  .chain rfl rfl rfl

/-- `C86_no_body`: the tree of `r.Post("/ping", ping)`. -/
example : ∀ d n, InTree (.mk none (some reg) none ("main.go", 3) false []) d n → n.req = none := by
  intro d n h
  have h := inTree_nodes h
  simp only [nodes, nodesKids, List.mem_cons, List.not_mem_nil, or_false, Prod.mk.injEq] at h
  rcases h with ⟨rfl, rfl⟩
  rfl

/-! Witnesses: what the assumptions of `Faithful` exclude. -/

/-- `svc.Create(u)` in `UserHandler.Create`. -/
def callCreate : Edge := ⟨5, "UserHandler.Create", "Service.Create", "Service.Create", "Create", "Create", false, []⟩
/-- `json.Decode(&u)` in `UserHandler.Create`. -/
def decodeInCreate : Edge := ⟨6, "UserHandler.Create", "json.Decode", "json.Decode", "Create", "Decode", false, []⟩
/-- `json.Decode(&o)` in `OrderHandler.Create`, attached laterally below the service call. -/
def decodeInOther : Edge := ⟨7, "OrderHandler.Create", "json.Decode", "json.Decode", "Create", "Decode", false, []⟩

/-- The program in which the two handlers call the service and know nothing of each other. -/
def prog2 : Program where
  calls f g := (f, g) ∈ [("main", "Router.Post"), ("UserHandler.Create", "json.Decode"), ("UserHandler.Create", "Service.Create"),
    ("OrderHandler.Create", "json.Decode")]
  literal _ _ := False
  implements _ _ := False

/-- Methods of one name are taken for implementations of each other: a body read in another handler that
happens to have the name of the service method called is documented for this route, and replaces its own. -/
theorem C86_same_name_leaks :
    ∃ t, documented (some fun _ => []) t = some { order with file := "order.go", line := 9 } ∧
      (∃ n, InTree t 2 n ∧ n.edge = some decodeInCreate ∧ n.req = some user) ∧
      (∀ d n r, InTree t d n → n.req = some r → r.bodyType = "Order" → n.edge = some decodeInOther) ∧
      ¬ Runs prog2 (fun f => f = "main" ∨ f = "UserHandler.Create") decodeInOther.caller := by
  refine ⟨.mk none (some reg) none ("main.go", 3) false
    [.mk (some .other) (some reg) none ("main.go", 3) false
      [.mk none (some decodeInCreate) (some user) ("user.go", 5) false [],
       .mk none (some callCreate) none ("user.go", 7) false [.mk none (some decodeInOther) (some order) ("order.go", 9) false []]]], ?_, ?_, ?_, ?_⟩
  · decide
  · exact ⟨_, .child (.child .root (List.mem_cons_self ..)) (List.mem_cons_self ..), rfl, rfl⟩
  · intro d n r h hr hb
    have h := inTree_nodes h
    simp only [nodes, nodesKids, List.cons_append, List.nil_append, List.append_nil, List.mem_cons, List.not_mem_nil, or_false,
      Prod.mk.injEq] at h
    rcases h with ⟨rfl, rfl⟩ | ⟨rfl, rfl⟩ | ⟨rfl, rfl⟩ | ⟨rfl, rfl⟩ | ⟨rfl, rfl⟩
    · cases hr
    · cases hr
    · cases hr; exact absurd hb (by decide)
    · cases hr
    · rfl
  · intro h
    have key : ∀ f, Runs prog2 (fun f => f = "main" ∨ f = "UserHandler.Create") f → f ≠ "OrderHandler.Create" := by
      intro f hf
      induction hf with
      | start h => rcases h with rfl | rfl <;> decide
      | call _ h _ =>
        simp only [prog2, List.mem_cons, Prod.mk.injEq, List.not_mem_nil, or_false] at h
        rcases h with ⟨rfl, rfl⟩ | ⟨rfl, rfl⟩ | ⟨rfl, rfl⟩ | ⟨rfl, rfl⟩ <;> decide
      | literal _ h _ => exact h.elim
      | implementation _ h _ => exact h.elim
    exact key _ h rfl

/-- A second registration written as a link of the same chain, `app.Post("/users", a).Post("/orders", wrap(b))`,
hands the body of its handler to the first route: a chained call is always followed, and so is a call used as
an argument. -/
theorem C86_chained_registration_leaks :
    documented (some fun _ => [])
      (.mk none (some reg) none ("main.go", 3) false
        [.mk (some .other) (some reg) none ("main.go", 3) false [.mk none (some decodeUser) (some user) ("user.go", 5) false []],
         .mk none (some { reg with uid := 8, chained := true }) none ("main.go", 4) false
          [.mk (some .call) (some { reg with uid := 8, chained := true }) none ("main.go", 4) false
            [.mk none (some decodeOrder) (some order) ("order.go", 9) false []]]])
      = some { order with file := "order.go", line := 9 } ∧ ¬ Runs prog start decodeOrder.caller :=
  ⟨by decide, order_not_runs⟩

/-- A handler passed to a middleware by name, `r.Post("/users", mw(createUser))`, is a value two levels down,
and its body is not documented although the route runs it. -/
theorem C86_wrapped_name_lost :
    documented (some fun _ => [])
      (.mk none (some reg) none ("main.go", 3) false
        [.mk (some .call) (some reg) none ("main.go", 3) false
          [.mk (some .other) (some reg) none ("main.go", 3) false
            [.mk none (some decodeUser) (some user) ("user.go", 5) false []]]]) = none ∧
    documented (some fun _ => [])
      (.mk none (some reg) none ("main.go", 3) false
        [.mk (some .call) (some reg) none ("main.go", 3) false
          [.mk (some .conversion) (some reg) none ("main.go", 3) false
            [.mk none (some decodeUser) (some user) ("user.go", 5) false []]]]) = some { user with file := "user.go", line := 5 } ∧
    Runs prog start decodeUser.caller :=
  ⟨by decide, by decide, user_runs⟩

/-- Two resolved bodies read by the route: the order of the tree decides which is documented. -/
theorem C86_order_decides :
    ∃ a b : Node, documented (some fun _ => []) (.mk none (some reg) none ("", 0) false [a, b]) ≠
      documented (some fun _ => []) (.mk none (some reg) none ("", 0) false [b, a]) :=
  ⟨.mk (some .other) (some reg) (some user) ("", 0) false [], .mk (some .other) (some reg) (some order) ("", 0) false [], by decide⟩

/-- Without metadata nothing is refused. -/
theorem C86_no_metadata : documented none tree = some { order with file := "order.go", line := 9 } := by decide

end Example

end Verif.RouteWalk
