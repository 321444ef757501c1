import Verif.RouteWalkProps
import Verif.EnumProps
import Verif.ValidateProps
/-!
# C87: a route is completed only by calls of its own registration; C10: response candidates

The specification of C87 is `Continues`, the calls that go on with the statement a registration starts.  For
C10, `Entered` says through which calls the walk got to a node; a response candidate is a statement together
with those calls.
-/

namespace Verif.RouteWalk

/-! ## Specification -/

/-- The calls that continue the registration `t`: links of a fluent chain and calls in the same function,
listed below the registration or below such a call. -/
inductive Continues (t : Node) : Node → Prop
  | chain {c e ec} : c ∈ t.kids → c.arg = none → t.edge = some e → c.edge = some ec → ec.chained = true → Continues t c
  | beside {c e ec} : c ∈ t.kids → c.arg = none → t.edge = some e → c.edge = some ec → ec.caller = e.caller → Continues t c
  | chainOn {p c e ec} : Continues t p → c ∈ p.kids → c.arg = none → p.edge = some e → c.edge = some ec → ec.chained = true → Continues t c
  | besideOn {p c e ec} : Continues t p → c ∈ p.kids → c.arg = none → p.edge = some e → c.edge = some ec → ec.caller = e.caller → Continues t c

/-- The walk has gone from the registration `t` to the node `p`, through the calls `fs` (outermost first);
arguments are values of the function they are written in and add nothing. -/
inductive Entered (t : Node) : List (List Char) → Node → Prop
  | root : Entered t [] t
  | call {fs p c e} : Entered t fs p → c ∈ p.kids → c.arg = none → c.edge = some e → Entered t (fs ++ [e.site]) c
  | argument {fs p c} : Entered t fs p → c ∈ p.kids → c.arg ≠ none → Entered t fs c
  | unknown {fs p c} : Entered t fs p → c ∈ p.kids → c.edge = none → Entered t fs c

/-- The statement `n` with the call `e` writes a response and is met by the walk inside the calls `fs`. -/
def Writes (t : Node) (fs : List (List Char)) (n : Node) (e : Edge) : Prop :=
  ∃ p, Entered t fs p ∧ n ∈ p.kids ∧ n.edge = some e ∧ n.resp = true

/-! ## Completing the registration -/

theorem completes_iff (p c : Node) : completes p c = true ↔
    c.arg = none ∧ ∃ e ec, p.edge = some e ∧ c.edge = some ec ∧ (ec.chained = true ∨ ec.caller = e.caller) := by
  unfold completes
  cases c.arg with
  | some k => simp
  | none =>
    cases p.edge with
    | none => simp
    | some e =>
      cases c.edge with
      | none => simp
      | some ec =>
        simp only []
        split
        · next h => exact ⟨fun _ => ⟨trivial, e, ec, rfl, rfl, .inl h⟩, fun _ => rfl⟩
        · next h =>
          rw [beq_iff_eq]
          exact ⟨fun hc => ⟨trivial, e, ec, rfl, rfl, .inr hc.symm⟩, fun ⟨_, e', ec', h1, h2, h3⟩ => (by
            cases h1; cases h2
            exact h3.elim (fun x => absurd x h) Eq.symm)⟩

mutual
theorem completing_false : ∀ n : Node, completing false n = []
  | .mk a e r p b ks => by rw [completing]; exact completingKids_false _ ks
theorem completingKids_false (parent : Node) : ∀ ks : List Node, completingKids false parent ks = []
  | [] => by rw [completingKids]
  | c :: cs => by
    rw [completingKids, Bool.false_and, completing_false c, completingKids_false parent cs]; rfl
end

theorem completing_eq (may : Bool) (n : Node) : completing may n = completingKids may n n.kids := by
  cases n; rw [completing]; rfl

/-- One step of `Continues`. -/
theorem continues_root {t c : Node} (hc : c ∈ t.kids) (h : completes t c = true) : Continues t c := by
  obtain ⟨ha, e, ec, h1, h2, h | h⟩ := (completes_iff t c).1 h
  · exact .chain hc ha h1 h2 h
  · exact .beside hc ha h1 h2 h

theorem continues_step {t p c : Node} (hp : Continues t p) (hc : c ∈ p.kids) (h : completes p c = true) : Continues t c := by
  obtain ⟨ha, e, ec, h1, h2, h | h⟩ := (completes_iff p c).1 h
  · exact .chainOn hp hc ha h1 h2 h
  · exact .besideOn hp hc ha h1 h2 h

mutual
theorem completing_continues {t m : Node} : ∀ n : Node, (n = t ∨ Continues t n) → m ∈ completing true n → Continues t m
  | .mk a e r p b ks, hn, h => by
    rw [completing] at h
    exact completingKids_continues (.mk a e r p b ks) hn ks (fun c hc => hc) h
theorem completingKids_continues {t m : Node} (parent : Node) (hn : parent = t ∨ Continues t parent) :
    ∀ ks : List Node, (∀ c ∈ ks, c ∈ parent.kids) → m ∈ completingKids true parent ks → Continues t m
  | [], _, h => by rw [completingKids] at h; cases h
  | c :: cs, hk, h => by
    have step : completes parent c = true → Continues t c := by
      intro hf
      have hc := hk c (List.mem_cons_self ..)
      rcases hn with rfl | hn
      · exact continues_root hc hf
      · exact continues_step hn hc hf
    rw [completingKids, Bool.true_and, List.mem_append, List.mem_append] at h
    rcases h with (h | h) | h
    · split at h
      · next hf => rw [List.mem_singleton] at h; subst h; exact step hf
      · cases h
    · cases hf : completes parent c with
      | false => rw [hf, completing_false] at h; cases h
      | true => rw [hf] at h; exact completing_continues c (.inr (step hf)) h
    · exact completingKids_continues parent hn cs (fun x hx => hk x (List.mem_cons_of_mem _ hx)) h
end

theorem completingKids_mem {parent c m : Node} (hf : completes parent c = true) : ∀ {ks : List Node}, c ∈ ks →
    (m = c ∨ m ∈ completing true c) → m ∈ completingKids true parent ks
  | x :: xs, h, hm => by
    rw [completingKids, Bool.true_and, List.mem_append, List.mem_append]
    rcases List.mem_cons.1 h with rfl | h
    · rw [hf]
      rcases hm with rfl | hm
      · exact .inl (.inl (List.mem_singleton_self _))
      · exact .inl (.inr hm)
    · exact .inr (completingKids_mem hf h hm)

theorem continues_completing {t n : Node} (h : Continues t n) : n ∈ completing true t ∧ ∀ m, m ∈ completing true n → m ∈ completing true t := by
  have base : ∀ c, c ∈ t.kids → completes t c = true → c ∈ completing true t ∧ ∀ m, m ∈ completing true c → m ∈ completing true t := by
    intro c hc hf
    rw [completing_eq true t]
    exact ⟨completingKids_mem hf hc (.inl rfl), fun m hm => completingKids_mem hf hc (.inr hm)⟩
  have next : ∀ p c, (∀ m, m ∈ completing true p → m ∈ completing true t) → c ∈ p.kids → completes p c = true →
      c ∈ completing true t ∧ ∀ m, m ∈ completing true c → m ∈ completing true t := by
    intro p c ih hc hf
    refine ⟨ih c ?_, fun m hm => ih m ?_⟩
    · rw [completing_eq]; exact completingKids_mem hf hc (.inl rfl)
    · rw [completing_eq]; exact completingKids_mem hf hc (.inr hm)
  induction h with
  | chain hc ha h1 h2 h => exact base _ hc ((completes_iff _ _).2 ⟨ha, _, _, h1, h2, .inl h⟩)
  | beside hc ha h1 h2 h => exact base _ hc ((completes_iff _ _).2 ⟨ha, _, _, h1, h2, .inr h⟩)
  | chainOn _ hc ha h1 h2 h ih => exact next _ _ ih.2 hc ((completes_iff _ _).2 ⟨ha, _, _, h1, h2, .inl h⟩)
  | besideOn _ hc ha h1 h2 h ih => exact next _ _ ih.2 hc ((completes_iff _ _).2 ⟨ha, _, _, h1, h2, .inr h⟩)

/-- The nodes that may fill in the route are exactly the calls that continue its registration. -/
theorem C87_exact (t n : Node) : n ∈ completing true t ↔ Continues t n :=
  ⟨completing_continues t (.inl rfl), fun h => (continues_completing h).1⟩

/-- Where the links of a chain are written in one function, a route is only filled in by calls written in the
function of its registration: nothing in the functions it calls can replace its method, path or handler. -/
theorem C87_own_function_partial {t : Node} {e : Edge} (he : t.edge = some e)
    (hchain : ∀ d p c ep ec, InTree t d p → c ∈ p.kids → p.edge = some ep → c.edge = some ec → ec.chained = true → ec.caller = ep.caller)
    {n : Node} (h : n ∈ completing true t) : n.arg = none ∧ ∃ en, n.edge = some en ∧ en.caller = e.caller := by
  have key : ∀ n, Continues t n → (∃ d, InTree t d n) ∧ n.arg = none ∧ ∃ en, n.edge = some en ∧ en.caller = e.caller := by
    intro n h
    induction h with
    | chain hc ha h1 h2 h =>
      refine ⟨⟨1, .child .root hc⟩, ha, _, h2, ?_⟩
      rw [hchain 0 t _ _ _ .root hc h1 h2 h]; rw [he] at h1; cases h1; rfl
    | beside hc ha h1 h2 h =>
      refine ⟨⟨1, .child .root hc⟩, ha, _, h2, ?_⟩
      rw [h]; rw [he] at h1; cases h1; rfl
    | chainOn _ hc ha h1 h2 h ih =>
      obtain ⟨⟨d, hd⟩, _, en, hen, hcl⟩ := ih
      refine ⟨⟨d + 1, .child hd hc⟩, ha, _, h2, ?_⟩
      rw [hchain d _ _ _ _ hd hc h1 h2 h]; rw [hen] at h1; cases h1; exact hcl
    | besideOn _ hc ha h1 h2 h ih =>
      obtain ⟨⟨d, hd⟩, _, en, hen, hcl⟩ := ih
      refine ⟨⟨d + 1, .child hd hc⟩, ha, _, h2, ?_⟩
      rw [h]; rw [hen] at h1; cases h1; exact hcl
  exact (key n ((C87_exact t n).1 h)).2

theorem completingKids_append (parent : Node) : ∀ l l' : List Node,
    completingKids true parent (l ++ l') = completingKids true parent l ++ completingKids true parent l'
  | [], l' => by rw [completingKids]; rfl
  | c :: cs, l' => by rw [List.cons_append, completingKids, completingKids, completingKids_append parent cs l', List.append_assoc (_ ++ _)]

theorem completingKids_congr {p p' : Node} (h : p.edge = p'.edge) : ∀ ks : List Node, completingKids true p ks = completingKids true p' ks
  | [] => by rw [completingKids, completingKids]
  | c :: cs => by
    have : completes p c = completes p' c := by unfold completes; rw [h]
    rw [completingKids, completingKids, completingKids_congr h cs, this]

/-- A call inside a function the registration calls, or an argument of it, changes nothing about the route, and
neither does anything below it. -/
theorem C87_inner_ignored {a e q p b l l'} {c : Node} (h : c.arg ≠ none ∨ ∃ ep ec, e = some ep ∧ c.edge = some ec ∧ ec.chained = false ∧ ec.caller ≠ ep.caller) :
    completing true (.mk a e q p b (l ++ c :: l')) = completing true (.mk a e q p b (l ++ l')) := by
  have hf : completes (.mk a e q p b (l ++ c :: l')) c = false := by
    rw [Bool.eq_false_iff]
    intro hf
    obtain ⟨ha, e1, ec1, h1, h2, h3⟩ := (completes_iff _ _).1 hf
    rcases h with h | ⟨ep, ec, rfl, h5, h6, h7⟩
    · exact h ha
    · cases h1
      rw [h5] at h2; cases h2
      rcases h3 with h3 | h3
      · rw [h6] at h3; cases h3
      · exact h7 h3
  rw [completing, completing, completingKids_append, completingKids_append, completingKids, hf, Bool.and_false, completing_false,
    completingKids_congr (p := .mk a e q p b (l ++ c :: l')) (p' := .mk a e q p b (l ++ l')) rfl,
    completingKids_congr (p := .mk a e q p b (l ++ c :: l')) (p' := .mk a e q p b (l ++ l')) rfl]
  rfl

namespace Example

/-- `r.Get("/users", list)` in `main`, where `Get` is the project's own. -/
def ownGet : Edge := ⟨10, "main", "Router.Get", "Router.Get", "main", "Get", false, "Get@1".toList⟩
/-- `r.mux.Methods("GET")` and `.Path(path)` inside `Get`. -/
def inner : Edge := ⟨11, "Router.Get", "mux.Methods", "mux.Methods", "Get", "Methods", false, "Methods@2".toList⟩
def innerPath : Edge := ⟨12, "Router.Get", "mux.Path", "mux.Path", "Get", "Path", true, "Path@2".toList⟩
/-- `.Name("users")` continuing the registration. -/
def named : Edge := ⟨13, "main", "Route.Name", "Route.Name", "main", "Name", true, "Name@1".toList⟩

/-- The chain link continues the registration; the call inside `Get`, and what is chained to it there, does not. -/
example :
    completing true (.mk none (some ownGet) none ("", 0) false
      [.mk none (some named) none ("", 0) false [],
       .mk none (some inner) none ("", 0) false [.mk none (some innerPath) none ("", 0) false []]])
      = [.mk none (some named) none ("", 0) false []] := by
  simp [completing, completingKids, completes, Node.arg, Node.edge, ownGet, named, inner]

/-- `C87_own_function_partial`: its assumption holds of this tree. -/
example : ∀ d p c ep ec, InTree (.mk none (some ownGet) none ("", 0) false [.mk none (some named) none ("", 0) false []]) d p → c ∈ p.kids →
    p.edge = some ep → c.edge = some ec → ec.chained = true → ec.caller = ep.caller := by
  intro d p c ep ec h hc he hf _
  have h := inTree_nodes h
  simp only [nodes, nodesKids, List.cons_append, List.nil_append, List.append_nil, List.mem_cons, List.not_mem_nil, or_false,
    Prod.mk.injEq] at h
  rcases h with ⟨rfl, rfl⟩ | ⟨rfl, rfl⟩ <;> simp [Node.kids] at hc
  subst hc; cases he; cases hf; rfl

example : ownGet.caller ≠ inner.caller ∧ inner.chained = false := by decide

/-- The tree lists the calls of a function one beside the other, links of chains among them.  A chain inside
the project's own router is therefore offered to the outer route: `Path(path)`, with the parameter for a path,
may replace the path that was given. -/
theorem C87_inner_chain_completes :
    ∃ t n en, t.edge = some ownGet ∧ n ∈ completing true t ∧ n.edge = some en ∧ en.caller = ownGet.callee ∧ en.caller ≠ ownGet.caller :=
  ⟨.mk none (some ownGet) none ("", 0) false [.mk none (some inner) none ("", 0) false [], .mk none (some innerPath) none ("", 0) false []],
    .mk none (some innerPath) none ("", 0) false [], innerPath, rfl,
    (C87_exact _ _).2 (.chain (List.mem_cons_of_mem _ (List.mem_cons_self ..)) rfl rfl rfl rfl), rfl, by decide, by decide⟩

end Example

/-! ## Response candidates -/

theorem takeWhile_prefix {q : Char → Bool} {l r : List Char} {c : Char} (h : ∀ x ∈ l, q x = true) (hc : q c = false) :
    (l ++ c :: r).takeWhile q = l := by
  induction l with
  | nil => simp [List.takeWhile_cons, hc]
  | cons x xs ih =>
    rw [List.cons_append, List.takeWhile_cons, h x (List.mem_cons_self ..), if_pos rfl, ih fun y hy => h y (List.mem_cons_of_mem _ hy)]

/-- One length-prefixed block. -/
def block (f : List Char) : List Char := Nat.toDigits 10 f.length ++ ':' :: f

theorem block_cancel {f g r s : List Char} (h : block f ++ r = block g ++ s) : f = g ∧ r = s := by
  have dig : ∀ n, ∀ x ∈ Nat.toDigits 10 n, Char.isDigit x = true := fun n x hx => Nat.isDigit_of_mem_toDigits (by decide) (by decide) hx
  have e : Nat.toDigits 10 f.length ++ ':' :: (f ++ r) = Nat.toDigits 10 g.length ++ ':' :: (g ++ s) := by
    unfold block at h; simpa using h
  have e1 := congrArg (List.takeWhile Char.isDigit) e
  rw [takeWhile_prefix (dig _) (by decide), takeWhile_prefix (dig _) (by decide)] at e1
  have hl : f.length = g.length := by
    have := congrArg EnumModel.digits e1
    rw [EnumModel.digits_toDigits, EnumModel.digits_toDigits] at this
    exact Option.some.inj this
  rw [e1] at e
  have e2 := List.append_cancel_left e
  have e3 : f ++ r = g ++ s := List.cons.inj e2 |>.2
  exact List.append_inj e3 hl

theorem block_ne_nil (f : List Char) (r : List Char) : block f ++ r ≠ [] := by
  unfold block; simp

theorem blocks_inj : ∀ {l l' : List (List Char)}, l.flatMap block = l'.flatMap block → l = l'
  | [], [], _ => rfl
  | [], y :: ys, h => by rw [List.flatMap_nil, List.flatMap_cons] at h; exact absurd h.symm (block_ne_nil y _)
  | x :: xs, [], h => by rw [List.flatMap_nil, List.flatMap_cons] at h; exact absurd h (block_ne_nil x _)
  | x :: xs, y :: ys, h => by
    rw [List.flatMap_cons, List.flatMap_cons] at h
    obtain ⟨rfl, h'⟩ := block_cancel h
    rw [blocks_inj h']

theorem candidateKey_blocks (chain : List (List Char)) (callee : List Char) : candidateKey chain callee = (chain ++ [callee]).flatMap block := by
  rw [List.flatMap_append, List.flatMap_cons, List.flatMap_nil, List.append_nil]; rfl

/-- The key of a candidate tells the calls it was reached through and its own call apart from all others,
whatever characters the identifiers contain. -/
theorem C10_candidate_key (chain chain' : List (List Char)) (callee callee' : List Char) :
    candidateKey chain callee = candidateKey chain' callee' ↔ chain = chain' ∧ callee = callee' := by
  constructor
  · intro h
    rw [candidateKey_blocks, candidateKey_blocks] at h
    have := blocks_inj h
    obtain ⟨h1, h2⟩ := List.append_inj' this rfl
    exact ⟨h1, List.cons.inj h2 |>.1⟩
  · rintro ⟨rfl, rfl⟩; rfl

example : candidateKey ["a".toList, "1:b".toList] "c".toList ≠ candidateKey ["a".toList] "1:b1:c".toList := by decide

/-- The occurrences of responses below a node, in order. -/
def occHere (chain : List (List Char)) (n : Node) : List (List (List Char) × Node × List Char) :=
  match n.edge with
  | some e => if n.resp then [(chain, n, e.site)] else []
  | none => []

mutual
def occs (chain : List (List Char)) : Node → List (List (List Char) × Node × List Char)
  | .mk _ _ _ _ _ ks => occsKids chain ks
def occsKids (chain : List (List Char)) : List Node → List (List (List Char) × Node × List Char)
  | [] => []
  | c :: cs => occHere chain c ++ occs (push chain c) c ++ occsKids chain cs
end

def take1 (st : Collected) (o : List (List Char) × Node × List Char) : Collected :=
  if candidateKey o.1 o.2.2 ∈ st.seen then st
  else ⟨candidateKey o.1 o.2.2 :: st.seen, st.cands ++ [⟨o.2.1, frameChainKey o.1 o.2.1⟩]⟩

theorem collectHere_occ (chain : List (List Char)) (n : Node) (st : Collected) : collectHere chain n st = (occHere chain n).foldl take1 st := by
  unfold collectHere occHere
  cases n.edge with
  | none => rfl
  | some e =>
    simp only []
    cases n.resp <;> rfl

mutual
theorem collect_occs (chain : List (List Char)) : ∀ (n : Node) (st : Collected), collect chain n st = (occs chain n).foldl take1 st
  | .mk _ _ _ _ _ ks, st => by rw [collect, occs]; exact collectKids_occs chain ks st
theorem collectKids_occs (chain : List (List Char)) : ∀ (ks : List Node) (st : Collected), collectKids chain ks st = (occsKids chain ks).foldl take1 st
  | [], st => by rw [collectKids, occsKids]; rfl
  | c :: cs, st => by
    rw [collectKids, occsKids, List.foldl_append, List.foldl_append, collectHere_occ, collect_occs (push chain c) c]
    exact collectKids_occs chain cs _
end

theorem push_entered {t p c : Node} {fs : List (List Char)} (h : Entered t fs p) (hc : c ∈ p.kids) : Entered t (push fs c) c := by
  unfold push
  cases ha : c.arg with
  | some k => exact .argument h hc (by rw [ha]; exact fun h => (by cases h))
  | none =>
    cases he : c.edge with
    | none => exact .unknown h hc he
    | some e => exact .call h hc ha he

theorem occHere_mem {fs gs : List (List Char)} {n m : Node} {s : List Char} (h : (gs, m, s) ∈ occHere fs n) :
    gs = fs ∧ m = n ∧ n.resp = true ∧ ∃ e, n.edge = some e ∧ s = e.site := by
  unfold occHere at h
  cases he : n.edge with
  | none => rw [he] at h; cases h
  | some e =>
    rw [he] at h
    simp only [] at h
    split at h
    · next hr => rw [List.mem_singleton] at h; cases h; exact ⟨rfl, rfl, hr, e, rfl, rfl⟩
    · cases h

mutual
theorem occs_writes {t m : Node} {gs : List (List Char)} {s : List Char} : ∀ (n : Node) (fs : List (List Char)), Entered t fs n →
    (gs, m, s) ∈ occs fs n → ∃ e, Writes t gs m e ∧ s = e.site
  | .mk a e r p b ks, fs, hE, h => by
    rw [occs] at h
    exact occsKids_writes (.mk a e r p b ks) fs hE ks (fun c hc => hc) h
theorem occsKids_writes {t m : Node} {gs : List (List Char)} {s : List Char} (parent : Node) (fs : List (List Char)) (hE : Entered t fs parent) :
    ∀ ks : List Node, (∀ c ∈ ks, c ∈ parent.kids) → (gs, m, s) ∈ occsKids fs ks → ∃ e, Writes t gs m e ∧ s = e.site
  | [], _, h => by rw [occsKids] at h; cases h
  | c :: cs, hk, h => by
    have hc := hk c (List.mem_cons_self ..)
    rw [occsKids, List.mem_append, List.mem_append] at h
    rcases h with (h | h) | h
    · obtain ⟨rfl, rfl, hr, e, he, rfl⟩ := occHere_mem h
      exact ⟨e, ⟨parent, hE, hc, he, hr⟩, rfl⟩
    · exact occs_writes c (push fs c) (push_entered hE hc) h
    · exact occsKids_writes parent fs hE cs (fun x hx => hk x (List.mem_cons_of_mem _ hx)) h
end

theorem occsKids_mem {fs : List (List Char)} {c : Node} {x : List (List Char) × Node × List Char} : ∀ {ks : List Node}, c ∈ ks →
    (x ∈ occHere fs c ∨ x ∈ occs (push fs c) c) → x ∈ occsKids fs ks
  | y :: ys, h, hx => by
    rw [occsKids, List.mem_append, List.mem_append]
    rcases List.mem_cons.1 h with rfl | h
    · exact .inl hx
    · exact .inr (occsKids_mem h hx)

theorem occs_eq (fs : List (List Char)) (n : Node) : occs fs n = occsKids fs n.kids := by cases n; rw [occs]; rfl

theorem entered_occs {t p : Node} {fs : List (List Char)} (h : Entered t fs p) : ∀ x, x ∈ occs fs p → x ∈ occs [] t := by
  have step : ∀ {fs p c} , (∀ x, x ∈ occs fs p → x ∈ occs [] t) → c ∈ p.kids → ∀ x, x ∈ occs (push fs c) c → x ∈ occs [] t := by
    intro fs p c ih hc x hx
    apply ih
    rw [occs_eq]
    exact occsKids_mem hc (.inr hx)
  induction h with
  | root => exact fun x hx => hx
  | @call fs p c e _ hc ha he ih =>
    have := step ih hc
    rwa [show push fs c = fs ++ [e.site] by unfold push; rw [ha, he]] at this
  | @argument fs p c _ hc ha ih =>
    have := step ih hc
    rwa [show push fs c = fs by unfold push; cases h : c.arg with | none => exact absurd h ha | some _ => rfl] at this
  | @unknown fs p c _ hc he ih =>
    have := step ih hc
    rwa [show push fs c = fs by unfold push; rw [he]; cases c.arg <;> rfl] at this

theorem fold_take1 : ∀ (l : List (List (List Char) × Node × List Char)) (st : Collected),
    ∃ l' : List (List (List Char) × Node × List Char), (l.foldl take1 st).cands = st.cands ++ l'.map (fun o => (⟨o.2.1, frameChainKey o.1 o.2.1⟩ : Cand)) ∧
      (∀ o ∈ l', o ∈ l) ∧ (l'.map fun o => (o.1, o.2.2)).Nodup ∧ (∀ o ∈ l', candidateKey o.1 o.2.2 ∉ st.seen) ∧
      (∀ o ∈ l, candidateKey o.1 o.2.2 ∈ st.seen ∨ ∃ o' ∈ l', o'.1 = o.1 ∧ o'.2.2 = o.2.2)
  | [], st => ⟨[], by simp, by simp, by simp, by simp, by simp⟩
  | o :: os, st => by
    rw [List.foldl_cons]
    by_cases hs : candidateKey o.1 o.2.2 ∈ st.seen
    · rw [show take1 st o = st by unfold take1; rw [if_pos hs]]
      obtain ⟨l', h1, h2, h3, h4, h5⟩ := fold_take1 os st
      refine ⟨l', h1, fun x hx => List.mem_cons_of_mem _ (h2 x hx), h3, h4, ?_⟩
      intro x hx
      rcases List.mem_cons.1 hx with rfl | hx
      · exact .inl hs
      · exact h5 x hx
    · rw [show take1 st o = ⟨candidateKey o.1 o.2.2 :: st.seen, st.cands ++ [⟨o.2.1, frameChainKey o.1 o.2.1⟩]⟩ by unfold take1; rw [if_neg hs]]
      obtain ⟨l', h1, h2, h3, h4, h5⟩ := fold_take1 os ⟨candidateKey o.1 o.2.2 :: st.seen, st.cands ++ [⟨o.2.1, frameChainKey o.1 o.2.1⟩]⟩
      refine ⟨o :: l', ?_, ?_, ?_, ?_, ?_⟩
      · rw [h1, List.map_cons]; simp
      · intro x hx
        rcases List.mem_cons.1 hx with rfl | hx
        · exact List.mem_cons_self ..
        · exact List.mem_cons_of_mem _ (h2 x hx)
      · rw [List.map_cons, List.nodup_cons]
        refine ⟨fun hm => ?_, h3⟩
        obtain ⟨x, hx, e⟩ := List.mem_map.1 hm
        have := h4 x hx
        apply this
        cases e' : (Prod.mk.inj e)
        next e1 e2 => rw [e1, e2]; exact List.mem_cons_self ..
      · intro x hx
        rcases List.mem_cons.1 hx with rfl | hx
        · exact hs
        · exact fun hm => h4 x hx (List.mem_cons_of_mem _ hm)
      · intro x hx
        rcases List.mem_cons.1 hx with rfl | hx
        · exact .inr ⟨x, List.mem_cons_self .., rfl, rfl⟩
        · rcases h5 x hx with h | ⟨o', h6, h7⟩
          · rcases List.mem_cons.1 h with h | h
            · obtain ⟨e1, e2⟩ := (C10_candidate_key ..).1 h
              exact .inr ⟨o, List.mem_cons_self .., e1.symm, e2.symm⟩
            · exact .inl h
          · exact .inr ⟨o', List.mem_cons_of_mem _ h6, h7⟩

/-- The walk takes every response statement once for every way (chain of calls) it is reached: each candidate is
such a statement, no two are the same statement reached the same way, and none is missing. -/
theorem C10_candidates (t : Node) :
    ∃ l : List (List (List Char) × Node × List Char),
      (collect [] t {}).cands = l.map (fun o => (⟨o.2.1, frameChainKey o.1 o.2.1⟩ : Cand)) ∧
      (∀ fs n s, (fs, n, s) ∈ l → ∃ e, Writes t fs n e ∧ s = e.site) ∧
      (l.map fun o => (o.1, o.2.2)).Nodup ∧
      (∀ fs n e, Writes t fs n e → ∃ m, (fs, m, e.site) ∈ l) := by
  rw [collect_occs]
  obtain ⟨l, h1, h2, h3, _, h5⟩ := fold_take1 (occs [] t) {}
  refine ⟨l, by rw [h1]; rfl, ?_, h3, ?_⟩
  · intro fs n s h
    exact occs_writes t [] .root (h2 _ h)
  · intro fs n e ⟨p, hE, hn, he, hr⟩
    have : (fs, n, e.site) ∈ occs [] t := by
      refine entered_occs hE _ ?_
      rw [occs_eq]
      refine occsKids_mem hn (.inl ?_)
      unfold occHere; rw [he]; simp only []; rw [if_pos hr]; exact List.mem_singleton_self _
    rcases h5 _ this with h | ⟨⟨f, m, s⟩, h6, h7, h8⟩
    · exact absurd h (by simp)
    · cases h7; cases h8; exact ⟨m, h6⟩

namespace Example
/-- `fail(w, 400)` and `fail(w, 500)` in a handler: the write inside `fail` is two candidates. -/
def write : Node := .mk none (some ⟨20, "fail", "w.WriteHeader", "w.WriteHeader", "fail", "WriteHeader", false, "WriteHeader@f.go:2".toList⟩) none ("f.go", 2) true []
def fail1 : Node := .mk none (some ⟨21, "h", "fail", "fail", "h", "fail", false, "fail@h.go:5".toList⟩) none ("h.go", 5) false [write]
def fail2 : Node := .mk none (some ⟨22, "h", "fail", "fail", "h", "fail", false, "fail@h.go:7".toList⟩) none ("h.go", 7) false [write]
def twice : Node := .mk none (some reg) none ("main.go", 3) false [.mk (some .other) (some reg) none ("main.go", 3) false [fail1, fail2, fail1]]

example : ((collect [] twice {}).cands.map fun c => String.ofList c.chain) = ["fail@h.go:5", "fail@h.go:7"] := by decide
example : Writes twice ["fail@h.go:7".toList] write ⟨20, "fail", "w.WriteHeader", "w.WriteHeader", "fail", "WriteHeader", false, "WriteHeader@f.go:2".toList⟩ :=
  ⟨fail2, .call (.argument (c := .mk (some .other) (some reg) none ("main.go", 3) false [fail1, fail2, fail1]) .root (List.mem_cons_self ..) (fun h => (by cases h))) (List.mem_cons_of_mem _ (List.mem_cons_self ..)) rfl rfl,
    List.mem_cons_self .., rfl, rfl⟩
end Example

theorem cutAt_spec {caller : List Char} {post pre : List (List Char)} {f : List Char} (hf : f.takeWhile (fun c => c != '@' && c != '[') = caller)
    (hp : ∀ g ∈ post, g.takeWhile (fun c => c != '@' && c != '[') ≠ caller) : cutAt caller (post ++ f :: pre) = f :: pre := by
  induction post with
  | nil => rw [List.nil_append, cutAt, stripBase, if_pos hf]
  | cons g gs ih =>
    rw [List.cons_append, cutAt, stripBase, if_neg (hp g (List.mem_cons_self ..)), ih fun x hx => hp x (List.mem_cons_of_mem _ hx)]

theorem cutAt_none {caller : List Char} : ∀ {l : List (List Char)}, (∀ g ∈ l, g.takeWhile (fun c => c != '@' && c != '[') ≠ caller) → cutAt caller l = []
  | [], _ => rfl
  | g :: gs, h => by rw [cutAt, stripBase, if_neg (h g (List.mem_cons_self ..)), cutAt_none fun x hx => h x (List.mem_cons_of_mem _ hx)]

/-- strings.Join(·, "\\x1f"). -/
def Joined : List (List Char) → List Char
  | [] => []
  | f :: fs => f ++ fs.flatMap fun g => Char.ofNat 31 :: g

theorem joinSep_joined : ∀ l : List (List Char), joinSep l = Joined l
  | [] => rfl
  | [x] => by simp [joinSep, Joined]
  | x :: y :: ys => by
    rw [joinSep, joinSep_joined (y :: ys)]
    simp [Joined, chainSep]

/-- Statements of one invocation share their frame: a statement is put into the innermost of its frames that
calls the function it is written in, named by all frames down to that one. -/
theorem C10_frame {n : Node} {e : Edge} (he : n.edge = some e) {pre post : List (List Char)} {f : List Char}
    (hf : f.takeWhile (fun c => c != '@' && c != '[') = e.caller.toList)
    (hp : ∀ g ∈ post, g.takeWhile (fun c => c != '@' && c != '[') ≠ e.caller.toList) :
    frameChainKey (pre ++ f :: post) n = Joined (pre ++ [f]) := by
  unfold frameChainKey
  rw [he]
  simp only []
  rw [List.reverse_append, List.reverse_cons, List.append_assoc, List.singleton_append,
    cutAt_spec hf fun g hg => hp g (List.mem_reverse.1 hg), List.reverse_cons, List.reverse_reverse, joinSep_joined]

/-- Statements written in none of the functions entered belong to the frame of the handler. -/
theorem C10_frame_handler {n : Node} {e : Edge} (he : n.edge = some e) {chain : List (List Char)}
    (hp : ∀ g ∈ chain, g.takeWhile (fun c => c != '@' && c != '[') ≠ e.caller.toList) : frameChainKey chain n = [] := by
  unfold frameChainKey
  rw [he]
  simp only []
  rw [cutAt_none fun g hg => hp g (List.mem_reverse.1 hg)]
  rfl

theorem joined_joinC : ∀ l : List (List Char), Joined l = ValidateModel.joinC (Char.ofNat 31) l
  | [] => rfl
  | [x] => by simp [ValidateModel.joinC, Joined]
  | x :: y :: ys => by
    rw [ValidateModel.joinC, ← joined_joinC (y :: ys)]
    simp [Joined]

/-- Different invocations have different frames (identifiers do not contain the separator). -/
theorem C10_frame_distinct {l l' : List (List Char)} (hl : l ≠ []) (hl' : l' ≠ []) (h : ∀ f ∈ l, Char.ofNat 31 ∉ f) (h' : ∀ f ∈ l', Char.ofNat 31 ∉ f)
    (e : Joined l = Joined l') : l = l' := by
  rw [joined_joinC, joined_joinC] at e
  rw [← ValidateModel.splitC_join _ l hl h, ← ValidateModel.splitC_join _ l' hl' h', e]

namespace Example

example : frameChainKey ["h@main.go:1".toList, "fail@h.go:5".toList, "log@f.go:1".toList] write = Joined ["h@main.go:1".toList, "fail@h.go:5".toList] :=
  C10_frame (pre := ["h@main.go:1".toList]) (post := ["log@f.go:1".toList]) rfl (by decide) (by decide)

example : frameChainKey ["decode@h.go:5".toList] write = [] := C10_frame_handler rfl (by decide)

example : (∀ f ∈ ["h@main.go:1".toList, "fail@h.go:5".toList], Char.ofNat 31 ∉ f) := by decide

/-- Statements of functions that were entered through arguments only (a middleware's literal and the handler
it wraps) have no frame of their own: both are put into the frame of the handler, and a status set in one is
paired with a body written in the other. -/
theorem C10_argument_frames_merge : ∃ n m : Node, ∃ e f : Edge, n.edge = some e ∧ m.edge = some f ∧ e.caller ≠ f.caller ∧
    frameChainKey [] n = frameChainKey [] m :=
  ⟨.mk none (some decodeUser) none ("", 0) true [], .mk none (some decodeOrder) none ("", 0) true [], decodeUser, decodeOrder, rfl, rfl, by decide, by decide⟩

end Example

end Verif.RouteWalk
