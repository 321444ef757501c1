import Verif.OriginModel
/-!
# C118: where a variable comes from does not depend on what was asked before
-/

namespace Verif.Origin

/-! ### Lemmas: the caches say what would be found without them -/

/-- What is in the cache of methods is what the first file of the package says. -/
def MOk (pr : Prog) (mc : MCache) : Prop :=
  ∀ p f m, mc.lookup (p, f) = some m → ∃ f0 fs, filesOf pr p = f0 :: fs ∧ m = f0.methods.find? (fun g => g.name == f)

theorem scan_known (q : Q) (p f : String) (idx : Nat) (m : Option Fn) : ∀ (fs : List File) (a b : MCache), a.lookup (p, f) = some m → b.lookup (p, f) = some m →
    (scanCallee q p f idx fs a).1 = (scanCallee q p f idx fs b).1 ∧ (scanCallee q p f idx fs a).2 = a := by
  intro fs
  induction fs with
  | nil => intro a b _ _; exact ⟨rfl, rfl⟩
  | cons x fs ih =>
    intro a b ha hb
    unfold scanCallee
    cases h : (x.funcs.find? (fun g => g.name == f)).bind (fun g => g.returns[idx]?) with
    | some r => exact ⟨rfl, rfl⟩
    | none =>
      simp only [ha, hb]
      cases h2 : m.bind (fun g => g.returns[idx]?) with
      | some r => exact ⟨rfl, rfl⟩
      | none => exact ih a b ha hb

theorem lookup_self (p f : String) (m : Option Fn) (mc : MCache) : (((p, f), m) :: mc).lookup (p, f) = some m := by
  rw [List.lookup_cons]; simp

theorem mok_cons (pr : Prog) (mc : MCache) (p f : String) (x : File) (fs : List File) (hf : filesOf pr p = x :: fs) (h : MOk pr mc) :
    MOk pr (((p, f), x.methods.find? (fun g => g.name == f)) :: mc) := by
  intro p' f' m' hl
  rw [List.lookup_cons] at hl
  cases hk : ((p', f') == (p, f)) with
  | true =>
    rw [hk] at hl
    have hk : (p', f') = (p, f) := by simpa using hk
    cases hk
    cases hl
    exact ⟨x, fs, hf, rfl⟩
  | false => rw [hk] at hl; exact h p' f' m' hl

theorem scan_ok (pr : Prog) (q : Q) (p f : String) (idx : Nat) (mc : MCache) (h : MOk pr mc) :
    (scanCallee q p f idx (filesOf pr p) mc).1 = (scanCallee q p f idx (filesOf pr p) []).1 ∧ MOk pr (scanCallee q p f idx (filesOf pr p) mc).2 := by
  cases hf : filesOf pr p with
  | nil => exact ⟨rfl, h⟩
  | cons x fs =>
    unfold scanCallee
    cases hx : (x.funcs.find? (fun g => g.name == f)).bind (fun g => g.returns[idx]?) with
    | some r => exact ⟨rfl, h⟩
    | none =>
      have hnil : ([] : MCache).lookup (p, f) = none := rfl
      cases hl : mc.lookup (p, f) with
      | some m =>
        obtain ⟨x', fs', hf', hm⟩ := h p f m hl
        rw [hf] at hf'
        cases hf'
        subst hm
        simp only [hnil]
        cases h2 : (x.methods.find? (fun g => g.name == f)).bind (fun g => g.returns[idx]?) with
        | some r => exact ⟨rfl, h⟩
        | none =>
          obtain ⟨e1, e2⟩ := scan_known q p f idx _ fs mc [((p, f), x.methods.find? (fun g => g.name == f))] hl (lookup_self p f _ [])
          exact ⟨e1, by dsimp only; rw [e2]; exact h⟩
      | none =>
        simp only [hnil]
        cases h2 : (x.methods.find? (fun g => g.name == f)).bind (fun g => g.returns[idx]?) with
        | some r => exact ⟨rfl, mok_cons pr mc p f x fs hf h⟩
        | none =>
          obtain ⟨e1, e2⟩ := scan_known q p f idx _ fs (((p, f), x.methods.find? (fun g => g.name == f)) :: mc) [((p, f), x.methods.find? (fun g => g.name == f))]
            (lookup_self p f _ mc) (lookup_self p f _ [])
          exact ⟨e1, by dsimp only; rw [e2]; exact mok_cons pr mc p f x fs hf h⟩

theorem assign_ok (pr : Prog) (q : Q) (a : Assign) (mc : MCache) (h : MOk pr mc) :
    (assignStep pr q a mc).1 = (assignStep pr q a []).1 ∧ MOk pr (assignStep pr q a mc).2 := by
  unfold assignStep
  cases a.copies with
  | some y =>
    dsimp only
    split
    · exact ⟨rfl, h⟩
    · exact ⟨rfl, h⟩
  | none =>
    cases a.callee with
    | none => exact ⟨rfl, h⟩
    | some c =>
      obtain ⟨p, f⟩ := c
      dsimp only
      split
      · obtain ⟨e1, e2⟩ := scan_ok pr q p f a.idx mc h
        cases h1 : scanCallee q p f a.idx (filesOf pr p) mc with
        | mk s1 m1 =>
          cases h2 : scanCallee q p f a.idx (filesOf pr p) [] with
          | mk s2 m2 =>
            rw [h1, h2] at e1
            rw [h1] at e2
            dsimp only at e1 e2
            subst e1
            cases s1 <;> exact ⟨rfl, e2⟩
      · exact ⟨rfl, h⟩

theorem files_ok (pr : Prog) (q : Q) : ∀ (fs : List File) (mc : MCache), MOk pr mc →
    (scanFiles pr q fs mc).1 = (scanFiles pr q fs []).1 ∧ MOk pr (scanFiles pr q fs mc).2 := by
  intro fs
  induction fs with
  | nil => intro mc h; exact ⟨rfl, h⟩
  | cons f fs ih =>
    intro mc h
    unfold scanFiles
    cases f.vars.lookup q.var with
    | some t => exact ⟨rfl, h⟩
    | none =>
      dsimp only
      cases (f.funcs.find? (fun g => g.name == q.func)).bind (fun g => g.assigns.lookup q.var) with
      | some a => exact assign_ok pr q a mc h
      | none => exact ih mc h

theorem next_ok (pr : Prog) (q : Q) (mc : MCache) (h : MOk pr mc) :
    (nextStep pr q mc).1 = (nextStep pr q []).1 ∧ MOk pr (nextStep pr q mc).2 := by
  unfold nextStep
  cases edgeStep pr q with
  | some s => exact ⟨rfl, h⟩
  | none => exact files_ok pr q _ mc h

/-- Both caches say what would be found without them. -/
def Ok (pr : Prog) (st : St) : Prop :=
  MOk pr st.methods ∧ ∀ q a, st.answers.lookup q = some a → (nextStep pr q []).1 = .keep a

theorem ok_fresh (pr : Prog) : Ok pr fresh := ⟨(fun _ _ _ h => by cases h), (fun _ _ h => by cases h)⟩

/-- Two such states give the same answer, and stay such. -/
theorem trace_ok (pr : Prog) : ∀ n st1 st2 vis q, Ok pr st1 → Ok pr st2 →
    (trace pr n st1 vis q).1 = (trace pr n st2 vis q).1 ∧ Ok pr (trace pr n st1 vis q).2 := by
  intro n
  induction n with
  | zero => intro st1 st2 vis q h1 _; exact ⟨rfl, h1⟩
  | succ n ih =>
    intro st1 st2 vis q h1 h2
    unfold trace
    by_cases hv : q.var = ""
    · rw [if_pos hv, if_pos hv]; exact ⟨rfl, h1⟩
    · rw [if_neg hv, if_neg hv]
      by_cases hm : q ∈ vis
      · rw [if_pos hm, if_pos hm]; exact ⟨rfl, h1⟩
      · rw [if_neg hm, if_neg hm]
        obtain ⟨n1, m1⟩ := next_ok pr q st1.methods h1.1
        obtain ⟨n2, m2⟩ := next_ok pr q st2.methods h2.1
        cases e1 : nextStep pr q st1.methods with
        | mk s1 c1 =>
          cases e2 : nextStep pr q st2.methods with
          | mk s2 c2 =>
            rw [e1] at n1 m1
            rw [e2] at n2 m2
            dsimp only at n1 n2 m1 m2
            have e12 : s1 = s2 := n1.trans n2.symm
            subst e12
            have add : ∀ a, s1 = .keep a → Ok pr ⟨(q, a) :: st1.answers, c1⟩ := by
              intro a ha
              refine ⟨m1, fun q' a' hl => ?_⟩
              rw [List.lookup_cons] at hl
              cases hk : (q' == q) with
              | true =>
                rw [hk] at hl
                have : q' = q := by simpa using hk
                subst this
                cases hl
                rw [← n1, ha]
              | false => rw [hk] at hl; exact h1.2 q' a' hl
            cases l1 : st1.answers.lookup q with
            | some a =>
              have ha := h1.2 q a l1
              rw [← n1] at ha
              subst ha
              cases l2 : st2.answers.lookup q with
              | some b =>
                have hb := h2.2 q b l2
                rw [← n1] at hb
                cases hb
                exact ⟨rfl, h1⟩
              | none => exact ⟨rfl, h1⟩
            | none =>
              cases l2 : st2.answers.lookup q with
              | some b =>
                have hb := h2.2 q b l2
                rw [← n1] at hb
                subst hb
                exact ⟨rfl, add b rfl⟩
              | none =>
                dsimp only
                cases s1 with
                | keep a => exact ⟨rfl, add a rfl⟩
                | say a => exact ⟨rfl, m1, h1.2⟩
                | follow q' named =>
                  dsimp only
                  obtain ⟨r1, r2⟩ := ih ⟨st1.answers, c1⟩ ⟨st2.answers, c2⟩ (q :: vis) q' ⟨m1, h1.2⟩ ⟨m2, h2.2⟩
                  exact ⟨by rw [r1], r2⟩

theorem askAll_ok (pr : Prog) : ∀ qs st, Ok pr st → Ok pr (askAll pr qs st) := by
  intro qs
  induction qs with
  | nil => intro st h; exact h
  | cons x qs ih =>
    obtain ⟨n, q⟩ := x
    intro st h
    exact ih _ (trace_ok pr n st st [] q h h).2

/-! ### Lemmas: every question is answered -/

theorem nodup_le : ∀ (l U : List Q), l.Nodup → (∀ x ∈ l, x ∈ U) → l.length ≤ U.length := by
  intro l
  induction l with
  | nil => intro U _ _; exact Nat.zero_le _
  | cons x l ih =>
    intro U hn hs
    rw [List.nodup_cons] at hn
    have hx : x ∈ U := hs x List.mem_cons_self
    have := ih (U.erase x) hn.2 (fun y hy => (List.mem_erase_of_ne (fun h : y = x => hn.1 (h ▸ hy))).2 (hs y (List.mem_cons_of_mem _ hy)))
    rw [List.length_erase_of_mem hx] at this
    have hpos : 0 < U.length := List.length_pos_of_mem hx
    simp only [List.length_cons]
    omega

def retName : Ret → String
  | .ident n => n
  | .other n _ => n

def allFiles (pr : Prog) : List File := pr.pkgs.flatMap (·.2)

def fnsOf (f : File) : List Fn := f.funcs ++ f.methods

/-- All names a question can be led to, and all places. -/
def names (pr : Prog) : List String :=
  pr.edges.flatMap (fun e => e.params.map (·.2)) ++ (allFiles pr).flatMap fun f => (fnsOf f).flatMap fun g =>
    g.returns.map retName ++ g.assigns.filterMap (fun a => a.2.copies)

def places (pr : Prog) : List (String × String) :=
  pr.edges.map (fun e => (e.callerName, e.callerPkg)) ++ (allFiles pr).flatMap fun f => (fnsOf f).flatMap fun g =>
    g.assigns.filterMap fun a => a.2.callee.map fun c => (c.2, c.1)

def reach (pr : Prog) (q : Q) : List Q :=
  (q.var :: names pr).flatMap fun v => ((q.func, q.pkg) :: places pr).map fun p => ⟨v, p.1, p.2⟩

theorem mem_reach (pr : Prog) (q0 q : Q) : q ∈ reach pr q0 ↔ (q.var = q0.var ∨ q.var ∈ names pr) ∧ ((q.func = q0.func ∧ q.pkg = q0.pkg) ∨ (q.func, q.pkg) ∈ places pr) := by
  unfold reach
  simp only [List.mem_flatMap, List.mem_map, List.mem_cons]
  constructor
  · rintro ⟨v, hv, p, hp, rfl⟩
    refine ⟨hv, ?_⟩
    rcases hp with h | h
    · left; rw [h]; exact ⟨rfl, rfl⟩
    · right; exact h
  · rintro ⟨hv, hp⟩
    refine ⟨q.var, hv, (q.func, q.pkg), ?_, rfl⟩
    rcases hp with ⟨h1, h2⟩ | h
    · left; rw [h1, h2]
    · right; exact h

theorem lookup_mem {A : Type} : ∀ (m : List (String × A)) (k : String) (v : A), m.lookup k = some v → (k, v) ∈ m := by
  intro m k v
  induction m with
  | nil => intro h; cases h
  | cons e m ih =>
    obtain ⟨x, w⟩ := e
    intro h
    rw [List.lookup_cons] at h
    cases hq : (k == x) with
    | true =>
      rw [hq] at h; cases h
      have : k = x := by simpa using hq
      subst this
      exact List.mem_cons_self
    | false => rw [hq] at h; exact List.mem_cons_of_mem _ (ih h)

theorem files_all (pr : Prog) (p : String) (f : File) (h : f ∈ filesOf pr p) : f ∈ allFiles pr := by
  unfold filesOf at h
  cases hl : pr.pkgs.lookup p with
  | none => rw [hl] at h; cases h
  | some fs => rw [hl] at h; exact List.mem_flatMap.2 ⟨(p, fs), lookup_mem _ _ _ hl, h⟩

theorem ret_name (pr : Prog) (f : File) (g : Fn) (r : Ret) (hf : f ∈ allFiles pr) (hg : g ∈ fnsOf f) (hr : r ∈ g.returns) : retName r ∈ names pr :=
  List.mem_append.2 (Or.inr (List.mem_flatMap.2 ⟨f, hf, List.mem_flatMap.2 ⟨g, hg, List.mem_append.2 (Or.inl (List.mem_map.2 ⟨r, hr, rfl⟩))⟩⟩))

theorem find_ret (fs : List Fn) (name : String) (idx : Nat) (r : Ret) (h : (fs.find? (fun g => g.name == name)).bind (fun g => g.returns[idx]?) = some r) :
    ∃ g ∈ fs, r ∈ g.returns := by
  obtain ⟨g, h1, h2⟩ := Option.bind_eq_some_iff.1 h
  exact ⟨g, List.mem_of_find?_eq_some h1, List.mem_of_getElem? h2⟩

/-- A question met in the files of a callee, without a cache of methods. -/
theorem scan_follow (pr : Prog) (q : Q) (p f : String) (idx : Nat) (q' : Q) (named : Option (String × String)) : ∀ (fs : List File) (mc : MCache),
    (∀ x ∈ fs, x ∈ allFiles pr) → (∀ m, mc.lookup (p, f) = some (some m) → ∃ x ∈ allFiles pr, m ∈ fnsOf x) →
    (scanCallee q p f idx fs mc).1 = some (.follow q' named) → q'.var ∈ names pr ∧ q'.func = f ∧ q'.pkg = p := by
  intro fs
  induction fs with
  | nil => intro mc _ _ h; cases h
  | cons x fs ih =>
    intro mc hall hmc h
    have done : ∀ r : Ret, retName r ∈ names pr → some (retStep q p f r) = some (.follow q' named) → q'.var ∈ names pr ∧ q'.func = f ∧ q'.pkg = p := by
      intro r hr he
      cases r with
      | ident n => cases he; exact ⟨hr, rfl, rfl⟩
      | other n t => cases he
    have hx := hall x List.mem_cons_self
    unfold scanCallee at h
    cases h1 : (x.funcs.find? (fun g => g.name == f)).bind (fun g => g.returns[idx]?) with
    | some r =>
      rw [h1] at h
      obtain ⟨g, hg, hr⟩ := find_ret _ _ _ _ h1
      exact done r (ret_name pr x g r hx (List.mem_append.2 (Or.inl hg)) hr) h
    | none =>
      rw [h1] at h
      dsimp only at h
      cases hl : mc.lookup (p, f) with
      | some m =>
        rw [hl] at h
        dsimp only at h
        cases h2 : m.bind (fun g => g.returns[idx]?) with
        | some r =>
          rw [h2] at h
          obtain ⟨g, hg1, hg2⟩ := Option.bind_eq_some_iff.1 h2
          subst hg1
          obtain ⟨y, hy, hgy⟩ := hmc g hl
          exact done r (ret_name pr y g r hy hgy (List.mem_of_getElem? hg2)) h
        | none => rw [h2] at h; exact ih mc (fun y hy => hall y (List.mem_cons_of_mem _ hy)) hmc h
      | none =>
        rw [hl] at h
        dsimp only at h
        cases h2 : (x.methods.find? (fun g => g.name == f)).bind (fun g => g.returns[idx]?) with
        | some r =>
          rw [h2] at h
          obtain ⟨g, hg, hr⟩ := find_ret _ _ _ _ h2
          exact done r (ret_name pr x g r hx (List.mem_append.2 (Or.inr hg)) hr) h
        | none =>
          rw [h2] at h
          refine ih _ (fun y hy => hall y (List.mem_cons_of_mem _ hy)) ?_ h
          intro m hm
          rw [lookup_self] at hm
          have hm : x.methods.find? (fun g => g.name == f) = some m := Option.some.inj hm
          exact ⟨x, hx, List.mem_append.2 (Or.inr (List.mem_of_find?_eq_some hm))⟩

theorem next_follow (pr : Prog) (q0 q q' : Q) (named : Option (String × String)) (hq : q ∈ reach pr q0) (h : (nextStep pr q []).1 = .follow q' named) :
    q' ∈ reach pr q0 := by
  rw [mem_reach] at hq ⊢
  unfold nextStep at h
  cases he : edgeStep pr q with
  | some s =>
    rw [he] at h
    dsimp only at h
    subst h
    unfold edgeStep at he
    cases hf : pr.edges.find? (fun e => e.calleeName == q.func && e.calleePkg == q.pkg) with
    | none => rw [hf] at he; cases he
    | some e =>
      rw [hf] at he
      have hm := List.mem_of_find?_eq_some hf
      have hp : (e.params.lookup q.var).map (fun n => Step.follow ⟨n, e.callerName, e.callerPkg⟩ none) = some (.follow q' named) := by
        dsimp only at he
        split at he
        · split at he
          · cases he
          · exact he
        · exact he
      obtain ⟨n, hn, hs⟩ := Option.map_eq_some_iff.1 hp
      cases hs
      exact ⟨Or.inr (List.mem_append.2 (Or.inl (List.mem_flatMap.2 ⟨e, hm, List.mem_map.2 ⟨_, lookup_mem _ _ _ hn, rfl⟩⟩))),
        Or.inr (List.mem_append.2 (Or.inl (List.mem_map.2 ⟨e, hm, rfl⟩)))⟩
  | none =>
    rw [he] at h
    dsimp only at h
    have key : ∀ fs : List File, (∀ x ∈ fs, x ∈ allFiles pr) → (scanFiles pr q fs []).1 = .follow q' named →
        (q'.var = q0.var ∨ q'.var ∈ names pr) ∧ ((q'.func = q0.func ∧ q'.pkg = q0.pkg) ∨ (q'.func, q'.pkg) ∈ places pr) := by
      intro fs
      induction fs with
      | nil => intro _ h; cases h
      | cons x fs ih =>
        intro hall h
        unfold scanFiles at h
        cases hv : x.vars.lookup q.var with
        | some t => rw [hv] at h; cases h
        | none =>
          rw [hv] at h
          dsimp only at h
          cases ha : (x.funcs.find? (fun g => g.name == q.func)).bind (fun g => g.assigns.lookup q.var) with
          | none => rw [ha] at h; exact ih (fun y hy => hall y (List.mem_cons_of_mem _ hy)) h
          | some a =>
            rw [ha] at h
            dsimp only at h
            obtain ⟨g, hg, hga⟩ := Option.bind_eq_some_iff.1 ha
            have hx := hall x List.mem_cons_self
            have hgm : g ∈ fnsOf x := List.mem_append.2 (Or.inl (List.mem_of_find?_eq_some hg))
            have ham := lookup_mem _ _ _ hga
            unfold assignStep at h
            cases hc : a.copies with
            | some y =>
              rw [hc] at h
              dsimp only at h
              split at h
              · cases h
                exact ⟨Or.inr (List.mem_append.2 (Or.inr (List.mem_flatMap.2 ⟨x, hx, List.mem_flatMap.2 ⟨g, hgm,
                  List.mem_append.2 (Or.inr (List.mem_filterMap.2 ⟨(q.var, a), ham, hc⟩))⟩⟩))), hq.2⟩
              · cases h
            | none =>
              rw [hc] at h
              dsimp only at h
              cases hcal : a.callee with
              | none => rw [hcal] at h; cases h
              | some c =>
                obtain ⟨p, f⟩ := c
                rw [hcal] at h
                dsimp only at h
                split at h
                · cases hs : scanCallee q p f a.idx (filesOf pr p) [] with
                  | mk s mc =>
                    rw [hs] at h
                    cases s with
                    | none => cases h
                    | some s =>
                      dsimp only at h
                      subst h
                      have := scan_follow pr q p f a.idx q' named (filesOf pr p) [] (fun y hy => files_all pr p y hy) (fun m hm => by cases hm) (by rw [hs])
                      refine ⟨Or.inr this.1, Or.inr ?_⟩
                      rw [this.2.1, this.2.2]
                      exact List.mem_append.2 (Or.inr (List.mem_flatMap.2 ⟨x, hx, List.mem_flatMap.2 ⟨g, hgm,
                        List.mem_filterMap.2 ⟨(q.var, a), ham, by simp [hcal]⟩⟩⟩))
                · cases h
    exact key _ (fun x hx => files_all pr q.pkg x hx) h

theorem trace_some (pr : Prog) (q0 : Q) : ∀ n st vis q, Ok pr st → q ∈ reach pr q0 → vis.Nodup → (∀ x ∈ vis, x ∈ reach pr q0) →
    (reach pr q0).length < n + vis.length → (trace pr n st vis q).1 ≠ none := by
  intro n
  induction n with
  | zero =>
    intro st vis q _ _ hn hs hl
    have := nodup_le vis _ hn hs
    omega
  | succ n ih =>
    intro st vis q hok hq hn hs hl
    unfold trace
    split
    · simp
    · split
      · simp
      · next hnv =>
        split
        · simp
        · obtain ⟨n1, m1⟩ := next_ok pr q st.methods hok.1
          split
          · simp
          · simp
          · next q' named mc he =>
            rw [he] at n1 m1
            dsimp only at n1 m1 ⊢
            have := ih ⟨st.answers, mc⟩ (q :: vis) q' ⟨m1, hok.2⟩ (next_follow pr q0 q q' named hq n1.symm) (List.nodup_cons.2 ⟨hnv, hn⟩)
              (fun x hx => by
                rcases List.mem_cons.1 hx with rfl | hx
                · exact hq
                · exact hs x hx) (by simp only [List.length_cons]; omega)
            cases hr : (trace pr n ⟨st.answers, mc⟩ (q :: vis) q').1 with
            | none => exact absurd hr this
            | some a => simp

/-! ### The properties -/

/-- Whatever was asked before, and with whatever bounds, the answer is the one the first question of a run would get. -/
theorem C118_repeatable (pr : Prog) (before : List (Nat × Q)) (n : Nat) (q : Q) :
    (trace pr n (askAll pr before fresh) [] q).1 = (trace pr n fresh [] q).1 :=
  (trace_ok pr n _ _ [] q (askAll_ok pr before fresh (ok_fresh pr)) (ok_fresh pr)).1

/-- Every question is answered, after any others, however variables, parameters and results lead to each other. -/
theorem C118_answered (pr : Prog) (q : Q) : ∃ n, ∀ before, ∃ a, (trace pr n (askAll pr before fresh) [] q).1 = some a := by
  refine ⟨(reach pr q).length + 1, fun before => ?_⟩
  have := trace_some pr q ((reach pr q).length + 1) (askAll pr before fresh) [] q (askAll_ok pr before fresh (ok_fresh pr))
    ((mem_reach pr q q).2 ⟨Or.inl rfl, Or.inl ⟨rfl, rfl⟩⟩) List.nodup_nil (fun x hx => by cases hx) (by simp)
  exact Option.ne_none_iff_exists'.1 this

/-- A parameter, in a function that is called once: its type is that of what is passed, asked about where it is passed, if
that does not lead back to the parameter. -/
theorem C118_param_partial (pr : Prog) (q : Q) (e : Edge) (arg : String) (hv : q.var ≠ "") (he : e ∈ pr.edges) (hc : e.calleeName = q.func ∧ e.calleePkg = q.pkg)
    (hone : ∀ e' ∈ pr.edges, e'.calleeName = q.func → e'.calleePkg = q.pkg → e' = e) (ht : e.typeParams = [])
    (hp : e.params = [(q.var, arg)]) (n : Nat) : (trace pr (n + 1) fresh [] q).1 = (trace pr n fresh [q] ⟨arg, e.callerName, e.callerPkg⟩).1 := by
  have hf : pr.edges.find? (fun e => e.calleeName == q.func && e.calleePkg == q.pkg) = some e := by
    cases hf : pr.edges.find? (fun e => e.calleeName == q.func && e.calleePkg == q.pkg) with
    | none => exact absurd (List.find?_eq_none.1 hf e he) (by simp [hc])
    | some x =>
      have h1 := List.find?_some hf
      have h1 : x.calleeName = q.func ∧ x.calleePkg = q.pkg := by simpa using h1
      rw [hone x (List.mem_of_find?_eq_some hf) h1.1 h1.2]
  have hs : nextStep pr q [] = (.follow ⟨arg, e.callerName, e.callerPkg⟩ none, []) := by
    unfold nextStep edgeStep
    rw [hf]
    simp [ht, hp]
  conv => lhs; unfold trace
  rw [if_neg hv, if_neg (by simp)]
  simp only [fresh, List.lookup_nil, hs]
  cases (trace pr n ⟨[], []⟩ [q] ⟨arg, e.callerName, e.callerPkg⟩).1 with
  | none => rfl
  | some a => rfl

/-- Files that declare neither the variable nor the function are passed over. -/
theorem scan_pass (pr : Prog) (q : Q) (mc : MCache) (rest : List File) : ∀ pre : List File,
    (∀ x ∈ pre, (∀ v ∈ x.vars, v.1 ≠ q.var) ∧ ∀ g ∈ x.funcs, g.name ≠ q.func) → scanFiles pr q (pre ++ rest) mc = scanFiles pr q rest mc := by
  intro pre
  induction pre with
  | nil => intro _; rfl
  | cons x pre ih =>
    intro h
    obtain ⟨h1, h2⟩ := h x List.mem_cons_self
    have e1 : x.vars.lookup q.var = none := by
      cases hl : x.vars.lookup q.var with
      | none => rfl
      | some t => exact absurd rfl (h1 _ (lookup_mem _ _ _ hl))
    have e2 : x.funcs.find? (fun g => g.name == q.func) = none := List.find?_eq_none.2 (fun g hg => by simpa using h2 g hg)
    rw [List.cons_append]
    conv => lhs; unfold scanFiles
    rw [e1, e2]
    exact ih (fun y hy => h y (List.mem_cons_of_mem _ hy))

theorem no_edge (pr : Prog) (q : Q) (h : ∀ e ∈ pr.edges, ¬(e.calleeName = q.func ∧ e.calleePkg = q.pkg)) : edgeStep pr q = none := by
  unfold edgeStep
  rw [List.find?_eq_none.2 (fun e he => by simpa using h e he)]

/-- A local variable of a function that is not called, in the first file that declares the function: if its last
assignment copies another variable, its origin is that of the other. -/
theorem C118_copy_partial (pr : Prog) (q : Q) (pre post : List File) (f : File) (g : Fn) (a : Assign) (y : String) (hv : q.var ≠ "")
    (hcall : ∀ e ∈ pr.edges, ¬(e.calleeName = q.func ∧ e.calleePkg = q.pkg)) (hp : pr.pkgs.lookup q.pkg = some (pre ++ f :: post))
    (hpre : ∀ x ∈ pre, (∀ v ∈ x.vars, v.1 ≠ q.var) ∧ ∀ g ∈ x.funcs, g.name ≠ q.func) (hvar : ∀ v ∈ f.vars, v.1 ≠ q.var)
    (hg : f.funcs.find? (fun g => g.name == q.func) = some g) (ha : g.assigns.lookup q.var = some a) (hy : a.copies = some y) (hne : y ≠ q.var) (n : Nat) :
    (trace pr (n + 1) fresh [] q).1 = (trace pr n fresh [q] ⟨y, q.func, q.pkg⟩).1 := by
  have hl : f.vars.lookup q.var = none := by
    cases hl : f.vars.lookup q.var with
    | none => rfl
    | some t => exact absurd rfl (hvar _ (lookup_mem _ _ _ hl))
  have hs : nextStep pr q [] = (.follow ⟨y, q.func, q.pkg⟩ none, []) := by
    unfold nextStep filesOf
    rw [no_edge pr q hcall, hp]
    dsimp only [Option.getD_some]
    rw [scan_pass pr q [] _ pre hpre]
    unfold scanFiles
    rw [hl, hg]
    simp only [Option.bind_some, ha, assignStep, hy]
    rw [if_pos hne]
  conv => lhs; unfold trace
  rw [if_neg hv, if_neg (by simp)]
  simp only [fresh, List.lookup_nil, hs]
  cases (trace pr n ⟨[], []⟩ [q] ⟨y, q.func, q.pkg⟩).1 with
  | none => rfl
  | some a => rfl

/-- If its last assignment takes a result of a function, which the first file of its package declares and which returns a
variable, its origin is that of the variable, under the name of the variable. -/
theorem C118_result_partial (pr : Prog) (q : Q) (pre post : List File) (f : File) (g : Fn) (a : Assign) (cp cf : String) (f' : File) (post' : List File)
    (g' : Fn) (r : String) (hv : q.var ≠ "")
    (hcall : ∀ e ∈ pr.edges, ¬(e.calleeName = q.func ∧ e.calleePkg = q.pkg)) (hp : pr.pkgs.lookup q.pkg = some (pre ++ f :: post))
    (hpre : ∀ x ∈ pre, (∀ v ∈ x.vars, v.1 ≠ q.var) ∧ ∀ g ∈ x.funcs, g.name ≠ q.func) (hvar : ∀ v ∈ f.vars, v.1 ≠ q.var)
    (hg : f.funcs.find? (fun g => g.name == q.func) = some g) (ha : g.assigns.lookup q.var = some a) (hy : a.copies = none)
    (hc : a.callee = some (cp, cf)) (hcp : cp ≠ "") (hcf : cf ≠ "") (hp' : pr.pkgs.lookup cp = some (f' :: post'))
    (hg' : f'.funcs.find? (fun g => g.name == cf) = some g') (hr : g'.returns[a.idx]? = some (.ident r)) (n : Nat) :
    (trace pr (n + 1) fresh [] q).1 = (trace pr n fresh [q] ⟨r, cf, cp⟩).1.map (fun o => ⟨r, cp, o.type, o.func⟩) := by
  have hl : f.vars.lookup q.var = none := by
    cases hl : f.vars.lookup q.var with
    | none => rfl
    | some t => exact absurd rfl (hvar _ (lookup_mem _ _ _ hl))
  have hsc : scanCallee q cp cf a.idx (f' :: post') [] = (some (.follow ⟨r, cf, cp⟩ (some (r, cp))), []) := by
    unfold scanCallee
    rw [hg']
    simp only [Option.bind_some, hr, retStep]
  have hs : nextStep pr q [] = (.follow ⟨r, cf, cp⟩ (some (r, cp)), []) := by
    unfold nextStep filesOf
    rw [no_edge pr q hcall, hp]
    dsimp only [Option.getD_some]
    rw [scan_pass pr q [] _ pre hpre]
    unfold scanFiles
    rw [hl, hg]
    simp only [Option.bind_some, ha, assignStep, hy, hc, filesOf, hp', Option.getD_some, hsc]
    rw [if_pos ⟨hcf, hcp⟩]
  conv => lhs; unfold trace
  rw [if_neg hv, if_neg (by simp)]
  simp only [fresh, List.lookup_nil, hs]
  rfl

/-! ### Instances and what does not hold -/

abbrev getUser : Fn := ⟨"Find", [.ident "u"], [("u", ⟨none, none, 0, "User"⟩)]⟩

abbrev handler : Fn := ⟨"Handle", [], [("x", ⟨none, some ("app", "Find"), 0, "call"⟩), ("y", ⟨some "x", none, 0, ""⟩), ("z", ⟨none, some ("app", "Repo"), 0, "call"⟩)]⟩

/-- A handler and a function in two files, and calls that pass a variable on. -/
abbrev demo : Prog :=
  ⟨[⟨"Handle", "app", "write", "app", [], [("v", "y")]⟩],
   [("app", [⟨[], [handler], []⟩, ⟨[("db", "DB")], [getUser], []⟩])]⟩

example : (trace demo 9 fresh [] ⟨"v", "write", "app"⟩).1 = some ⟨"u", "app", some "User", "Find"⟩ ∧
    (trace demo 9 fresh [] ⟨"db", "Handle", "app"⟩).1 = some ⟨"db", "app", some "DB", "Handle"⟩ := by decide +kernel

example : (trace demo 9 fresh [] ⟨"y", "Handle", "app"⟩).1 = (trace demo 8 fresh [⟨"y", "Handle", "app"⟩] ⟨"x", "Handle", "app"⟩).1 :=
  C118_copy_partial demo ⟨"y", "Handle", "app"⟩ [] [⟨[("db", "DB")], [getUser], []⟩] ⟨[], [handler], []⟩ handler ⟨some "x", none, 0, ""⟩ "x" (by decide)
    (fun e he => by
      have : e = ⟨"Handle", "app", "write", "app", [], [("v", "y")]⟩ := by simpa using he
      subst this; decide) (by decide) (fun x hx => by cases hx) (fun v hv => by cases hv) (by decide) (by decide) rfl (by decide) 8

example : (trace ⟨[], [("app", [⟨[], [getUser, handler], []⟩])]⟩ 9 fresh [] ⟨"x", "Handle", "app"⟩).1 = some ⟨"u", "app", some "User", "Find"⟩ :=
  (C118_result_partial ⟨[], [("app", [⟨[], [getUser, handler], []⟩])]⟩ ⟨"x", "Handle", "app"⟩ [] [] ⟨[], [getUser, handler], []⟩ handler
    ⟨none, some ("app", "Find"), 0, "call"⟩ "app" "Find" ⟨[], [getUser, handler], []⟩ [] getUser "u" (by decide) (fun e he => by cases he) (by decide)
    (fun x hx => by cases hx) (fun v hv => by cases hv) (by decide) (by decide) rfl rfl (by decide) (by decide) (by decide) (by decide) (by decide) 8).trans (by decide +kernel)

/-- A variable and a parameter that lead to each other. -/
example : (trace ⟨[⟨"f", "app", "f", "app", [], [("v", "w")]⟩], [("app", [⟨[], [⟨"f", [], [("w", ⟨some "v", none, 0, ""⟩)]⟩], []⟩])]⟩ 9 fresh [] ⟨"v", "f", "app"⟩).1 =
    some ⟨"v", "app", none, "f"⟩ := by decide +kernel

/-- The method that is looked for in the first file of the package is noted as missing and not looked for in the others:
the same declaration is followed in the first file, and not in the second. -/
theorem C118_second_file :
    let m : Fn := ⟨"Repo", [.other "r" "UserRepo"], []⟩
    (trace ⟨[], [("app", [⟨[], [handler], [m]⟩, ⟨[], [], []⟩])]⟩ 9 fresh [] ⟨"z", "Handle", "app"⟩).1 = some ⟨"r", "app", some "UserRepo", "Handle"⟩ ∧
    (trace ⟨[], [("app", [⟨[], [handler], []⟩, ⟨[], [], [m]⟩])]⟩ 9 fresh [] ⟨"z", "Handle", "app"⟩).1 = some ⟨"z", "app", some "call", "Handle"⟩ := by
  decide +kernel

/-- A function that is called in two places: only the first in the call graph says what its parameter is. -/
theorem C118_first_call :
    let a : Edge := ⟨"A", "app", "write", "app", [], [("v", "x")]⟩
    let b : Edge := ⟨"B", "app", "write", "app", [], [("v", "x")]⟩
    let fs : List File := [⟨[], [⟨"A", [], [("x", ⟨none, none, 0, "User"⟩)]⟩, ⟨"B", [], [("x", ⟨none, none, 0, "Order"⟩)]⟩], []⟩]
    (trace ⟨[a, b], [("app", fs)]⟩ 9 fresh [] ⟨"v", "write", "app"⟩).1 = some ⟨"x", "app", some "User", "A"⟩ ∧
    (trace ⟨[b, a], [("app", fs)]⟩ 9 fresh [] ⟨"v", "write", "app"⟩).1 = some ⟨"x", "app", some "Order", "B"⟩ := by
  decide +kernel

end Verif.Origin
