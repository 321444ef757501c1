import Verif.GenericsModel
/-!
# Properties: type parameters and their bindings
-/

namespace Verif.GenericsModel
open Verif.Common

/-! ## Specification -/

/-- A name is bound to a text in a table. -/
def Binds (tp : Table) (s c : String) : Prop := mget tp s = some c ∧ c ≠ ""

/-- One or more bindings lead from a name to another. -/
inductive Leads (tp : Table) : String → String → Prop
  | one {s c} : Binds tp s c → Leads tp s c
  | more {s c d} : Binds tp s c → Leads tp c d → Leads tp s d

/-- The end of the chain of bindings that starts at a name. -/
def EndsAt (tp : Table) (s e : String) : Prop := Leads tp s e ∧ ∀ c, ¬ Binds tp e c

/-- What a name stands for on a path of calls, innermost first: the text a call binds it to is written in the
scope of the enclosing one. -/
def meaning : List Table → String → String
  | [], s => s
  | t :: path, s => match mget t s with
    | some c => meaning path c
    | none => meaning path s

/-! ## Chains -/

theorem next_iff (tp : Table) (s c : String) : next tp s = some c ↔ Binds tp s c := by
  unfold next Binds
  cases mget tp s with
  | none => simp
  | some d =>
    simp only [Option.some.injEq]
    split
    · next h => exact ⟨fun h => (by cases h), fun ⟨e, hn⟩ => absurd (e ▸ h) hn⟩
    · next h => exact ⟨fun e => (by injection e with e; exact ⟨e, e ▸ h⟩), fun e => by rw [e.1]⟩

theorem next_none (tp : Table) (s : String) : next tp s = none ↔ ∀ c, ¬ Binds tp s c := by
  constructor
  · intro h c hb; rw [(next_iff tp s c).mpr hb] at h; cases h
  · intro h
    cases hn : next tp s with
    | none => rfl
    | some c => exact absurd ((next_iff tp s c).mp hn) (h c)

theorem loop_mono (tp : Table) : ∀ (n : Nat) (s r : String), loop tp n s = some r → loop tp (n + 1) s = some r
  | 0, s, r, h => by cases h
  | n + 1, s, r, h => by
    rw [loop] at h ⊢
    split at h
    · exact h
    · next c hn => exact loop_mono tp n c r h

theorem loop_le (tp : Table) (s r : String) {n m : Nat} (hle : n ≤ m) (h : loop tp n s = some r) : loop tp m s = some r := by
  induction hle with
  | refl => exact h
  | step _ ih => exact loop_mono tp _ s r ih

theorem loop_stop (tp : Table) (s : String) (n : Nat) (h : ∀ c, ¬ Binds tp s c) : loop tp (n + 1) s = some s := by
  rw [loop, (next_none tp s).mpr h]

theorem loop_step (tp : Table) (s c : String) (n : Nat) (h : Binds tp s c) : loop tp (n + 1) s = loop tp n c := by
  rw [loop, (next_iff tp s c).mpr h]

theorem loop_leads (tp : Table) : ∀ (n : Nat) (s r : String), loop tp n s = some r → (s = r ∨ Leads tp s r) ∧ ∀ c, ¬ Binds tp r c
  | 0, s, r, h => by cases h
  | n + 1, s, r, h => by
    rw [loop] at h
    split at h
    · next hn =>
      injection h with h
      subst h
      exact ⟨.inl rfl, (next_none tp s).mp hn⟩
    · next c hn =>
      have hb := (next_iff tp s c).mp hn
      obtain ⟨h1, h2⟩ := loop_leads tp n c r h
      refine ⟨.inr ?_, h2⟩
      rcases h1 with rfl | h1
      · exact .one hb
      · exact .more hb h1

theorem leads_loop (tp : Table) {s e : String} (h : Leads tp s e) (he : ∀ c, ¬ Binds tp e c) : ∃ n, loop tp n s = some e := by
  induction h with
  | one hb => exact ⟨2, by rw [loop_step tp _ _ 1 hb, loop_stop tp _ 0 he]⟩
  | more hb _ ih =>
    obtain ⟨n, hn⟩ := ih he
    exact ⟨n + 1, by rw [loop_step tp _ _ n hb, hn]⟩

/-- The names the loop looks up, from `s`, in `n` steps. -/
def visited (tp : Table) : Nat → String → List String
  | 0, _ => []
  | n + 1, s => match next tp s with
    | none => []
    | some c => s :: visited tp n c

theorem visited_keys (tp : Table) : ∀ (n : Nat) (s x : String), x ∈ visited tp n s → x ∈ tp.map Prod.fst
  | 0, _, _, h => by cases h
  | n + 1, s, x, h => by
    rw [visited] at h
    split at h
    · cases h
    · next c hn =>
      rcases List.mem_cons.mp h with rfl | h
      · rw [← mget_isSome_iff, ((next_iff tp x c).mp hn).1]; rfl
      · exact visited_keys tp n c x h

theorem visited_leads (tp : Table) : ∀ (n : Nat) (s x : String), x ∈ visited tp n s → s = x ∨ Leads tp s x
  | 0, _, _, h => by cases h
  | n + 1, s, x, h => by
    rw [visited] at h
    split at h
    · cases h
    · next c hn =>
      rcases List.mem_cons.mp h with rfl | h
      · exact .inl rfl
      · have hb := (next_iff tp s c).mp hn
        rcases visited_leads tp n c x h with rfl | hl
        · exact .inr (.one hb)
        · exact .inr (.more hb hl)

theorem visited_length (tp : Table) : ∀ (n : Nat) (s : String), loop tp n s = none → (visited tp n s).length = n
  | 0, _, _ => rfl
  | n + 1, s, h => by
    rw [loop] at h
    rw [visited]
    split at h
    · cases h
    · next c hn => rw [hn]; simp [visited_length tp n c h]

theorem visited_nodup (tp : Table) : ∀ (n : Nat) (s : String), (∀ x, (s = x ∨ Leads tp s x) → ¬ Leads tp x x) → (visited tp n s).Nodup
  | 0, _, _ => List.nodup_nil
  | n + 1, s, h => by
    rw [visited]
    split
    · exact List.nodup_nil
    · next c hn =>
      have hb := (next_iff tp s c).mp hn
      refine List.nodup_cons.mpr ⟨?_, visited_nodup tp n c fun x hx => ?_⟩
      · intro hm
        rcases visited_leads tp n c s hm with rfl | hl
        · exact h c (.inl rfl) (.one hb)
        · exact h s (.inl rfl) (.more hb hl)
      · apply h x
        right
        rcases hx with rfl | hx
        · exact .one hb
        · exact .more hb hx

theorem leads_trans {tp : Table} {a b c : String} (h1 : Leads tp a b) (h2 : Leads tp b c) : Leads tp a c := by
  induction h1 with
  | one hb => exact .more hb h2
  | more hb _ ih => exact .more hb (ih h2)

theorem loop_cycle (tp : Table) : ∀ (n : Nat) (s x : String), (s = x ∨ Leads tp s x) → Leads tp x x → loop tp n s = none
  | 0, _, _, _, _ => rfl
  | n + 1, s, x, h, hx => by
    have key : ∀ c, Binds tp s c → (c = x ∨ Leads tp c x) → loop tp (n + 1) s = none := by
      intro c hb hc
      rw [loop_step tp s c n hb]
      exact loop_cycle tp n c x hc hx
    have fromLeads : ∀ d, Leads tp s d → (d = x ∨ Leads tp d x) → loop tp (n + 1) s = none := by
      intro d hl hd
      cases hl with
      | one hb => exact key _ hb hd
      | more hb hl =>
        refine key _ hb (.inr ?_)
        rcases hd with rfl | hd
        · exact hl
        · exact leads_trans hl hd
    rcases h with rfl | h
    · exact fromLeads _ hx (.inl rfl)
    · exact fromLeads _ h (.inl rfl)

/-- A name from which no cycle of bindings can be reached. -/
def Acyclic (tp : Table) (s : String) : Prop := ∀ x, (s = x ∨ Leads tp s x) → ¬ Leads tp x x

/-- **C45 (termination).** Resolving a name ends exactly when no cycle of bindings can be reached from it,
and then it ends within one look-up more than the table has entries. -/
theorem C45_terminates_iff (tp : Table) (s : String) (htp : tp ≠ []) (hs : s ≠ "") :
    (∃ n r, traceGenericOrigin tp n s = some r) ↔ Acyclic tp s := by
  have he : ¬ (tp.isEmpty = true ∨ s = "") := by rintro (h | h); exact htp (List.isEmpty_iff.mp h); exact hs h
  constructor
  · rintro ⟨n, r, h⟩ x hx hc
    rw [traceGenericOrigin, if_neg he, loop_cycle tp n s x hx hc] at h
    cases h
  · intro h
    refine ⟨tp.length + 1, ?_⟩
    rw [traceGenericOrigin, if_neg he]
    cases hl : loop tp (tp.length + 1) s with
    | some r => exact ⟨_, rfl⟩
    | none =>
      exfalso
      have h1 := visited_length tp _ s hl
      have h2 := (visited_nodup tp (tp.length + 1) s h).length_le_of_subset (l₂ := tp.map Prod.fst) (fun x hx => visited_keys tp _ s x hx)
      rw [h1, List.length_map] at h2
      omega

/-- **C45 (bound).** -/
theorem C45_bound (tp : Table) (s : String) (h : Acyclic tp s) (n : Nat) (hn : tp.length < n) : (traceGenericOrigin tp n s).isSome := by
  unfold traceGenericOrigin
  split
  · rfl
  · cases hl : loop tp n s with
    | some r => rfl
    | none =>
      exfalso
      have h1 := visited_length tp _ s hl
      have h2 := (visited_nodup tp n s h).length_le_of_subset (l₂ := tp.map Prod.fst) (fun x hx => visited_keys tp _ s x hx)
      rw [h1, List.length_map] at h2
      omega

/-- **C45 (result).** When it ends, the result is the end of the chain, or "" if the name is not bound. -/
theorem C45_result (tp : Table) (n : Nat) (s r : String) (htp : tp ≠ []) (hs : s ≠ "") (h : traceGenericOrigin tp n s = some r) :
    EndsAt tp s r ∨ (r = "" ∧ ∀ c, ¬ Binds tp s c) := by
  have he : ¬ (tp.isEmpty = true ∨ s = "") := by rintro (h | h); exact htp (List.isEmpty_iff.mp h); exact hs h
  rw [traceGenericOrigin, if_neg he] at h
  split at h
  · cases h
  · next r' hl =>
    injection h with h
    split at h
    · next hb =>
      subst h
      obtain ⟨c, hc⟩ := Option.isSome_iff_exists.mp hb
      have hbind := (next_iff tp s c).mp hc
      left
      have := loop_leads tp n s r' hl
      refine ⟨?_, this.2⟩
      rcases this.1 with rfl | hl
      · exact absurd hbind (this.2 c)
      · exact hl
    · next hb =>
      right
      refine ⟨h.symm, (next_none tp s).mp ?_⟩
      cases hn : next tp s with
      | none => rfl
      | some c => rw [hn] at hb; exact absurd rfl hb

/-- And conversely: a chain that ends is followed to its end. -/
theorem C45_complete (tp : Table) (s r : String) (hs : s ≠ "") (h : EndsAt tp s r) : ∃ n, ∀ m, n ≤ m → traceGenericOrigin tp m s = some r := by
  obtain ⟨n, hn⟩ := leads_loop tp h.1 h.2
  have hb : ∃ c, Binds tp s c := by
    cases h.1 with
    | one hb => exact ⟨_, hb⟩
    | more hb _ => exact ⟨_, hb⟩
  obtain ⟨c, hb⟩ := hb
  have htp : tp ≠ [] := by rintro rfl; cases hb.1
  refine ⟨n, fun m hm => ?_⟩
  rw [traceGenericOrigin, if_neg (by rintro (h | h); exact htp (List.isEmpty_iff.mp h); exact hs h), loop_le tp s r hm hn]
  rw [(next_iff tp s c).mpr hb]
  rfl

def chain : Table := [("T", "U"), ("U", "V"), ("V", "app.User")]

example : EndsAt chain "T" "app.User" := by
  refine ⟨.more (c := "U") ⟨rfl, by decide⟩ (.more (c := "V") ⟨rfl, by decide⟩ (.one ⟨rfl, by decide⟩)), ?_⟩
  rintro c ⟨h, _⟩
  exact absurd h (by simp [chain, mget])

example : traceGenericOrigin chain 4 "T" = some "app.User" ∧ traceGenericOrigin chain 4 "W" = some "" := by decide

/-! ## Paths of calls -/

theorem mget_addMissing : ∀ (t out : Table) (k : String), mget (addMissing out t) k = (mget out k).or (mget t k)
  | [], out, k => by rw [addMissing]; cases mget out k <;> rfl
  | (a, v) :: r, out, k => by
    rw [addMissing, mget_addMissing r, mget_cons]
    cases ha : mget out a with
    | some w =>
      by_cases h : a = k
      · subst h; rw [ha]; rfl
      · simp [h]
    | none =>
      simp only
      rw [mget_mset]
      by_cases h : a = k
      · subst h; simp [ha]
      · have h' : ¬ k = a := fun e => h e.symm
        simp [h, h']

theorem mget_nearest : ∀ (path : List Table) (out : Table) (k : String), mget (path.foldl addMissing out) k = (mget out k).or (path.findSome? fun t => mget t k)
  | [], out, k => by rw [List.foldl_nil, List.findSome?_nil]; cases mget out k <;> rfl
  | t :: path, out, k => by
    rw [List.foldl_cons, mget_nearest path, mget_addMissing, List.findSome?_cons]
    cases mget out k with
    | some _ => rfl
    | none => cases mget t k <;> rfl

/-- **C45 (nearest).** On a path of calls the binding of the nearest call that binds a name counts. -/
theorem C45_nearest (path : List Table) (k : String) : mget (nearestWins path) k = path.findSome? fun t => mget t k := by
  rw [nearestWins, mget_nearest]
  rfl

/-- **C45 (bindings).** A call binds each type parameter of the callee to the type argument at its place. -/
theorem C45_bindings : ∀ (params args : List String), params.Nodup → ∀ (i : Nat) (p a : String), params[i]? = some p → args[i]? = some a → mget (callBindings params args) p = some a
  | [], _, _, i, p, a, hp, _ => by cases hp
  | q :: ps, [], _, i, p, a, _, ha => by cases ha
  | q :: ps, b :: as, hn, 0, p, a, hp, ha => by
    injection hp with hp
    injection ha with ha
    subst hp ha
    rw [callBindings, mget_cons, if_pos rfl]
  | q :: ps, b :: as, hn, i + 1, p, a, hp, ha => by
    have hn := List.nodup_cons.mp hn
    have hp' : ps[i]? = some p := hp
    have : q ≠ p := fun e => hn.1 (e ▸ List.mem_of_getElem? hp')
    rw [callBindings, mget_cons, if_neg this]
    exact C45_bindings ps as hn.2 i p a hp' ha

theorem mget_copyAll : ∀ (t out : Table) (k : String), (t.map Prod.fst).Nodup → mget (copyAll out t) k = (mget t k).or (mget out k)
  | [], out, k, _ => rfl
  | (a, v) :: r, out, k, hn => by
    have hn := List.nodup_cons.mp hn
    rw [copyAll, List.foldl_cons, ← copyAll, mget_copyAll r _ k hn.2, mget_mset, mget_cons]
    by_cases h : a = k
    · subst h
      rw [(mget_eq_none_iff r a).mpr hn.1]
      simp
    · have h' : ¬ k = a := fun e => h e.symm
      simp [h, h']

/-- **C45 (outermost).** In the eager tree the binding of the outermost call that binds a name counts. -/
theorem C45_outermost (path : List Table) (hn : ∀ t ∈ path, (t.map Prod.fst).Nodup) (k : String) : mget (outermostWins path) k = path.reverse.findSome? fun t => mget t k := by
  have : ∀ (path : List Table) (out : Table), (∀ t ∈ path, (t.map Prod.fst).Nodup) → mget (path.foldl copyAll out) k = (path.reverse.findSome? fun t => mget t k).or (mget out k) := by
    intro path
    induction path with
    | nil => intro out _; rfl
    | cons t path ih =>
      intro out h
      rw [List.foldl_cons, ih _ fun u hu => h u (List.mem_cons_of_mem _ hu), mget_copyAll t out k (h t (List.mem_cons_self ..)), List.reverse_cons, List.findSome?_append]
      cases path.reverse.findSome? fun t => mget t k with
      | some _ => rfl
      | none => simp
  rw [outermostWins, this path [] hn]
  cases path.reverse.findSome? fun t => mget t k <;> rfl

/-- No text written at a call is the name of a type parameter of that call or of one further in. -/
inductive Apart : List String → List Table → Prop
  | nil {ks} : Apart ks []
  | cons {ks t path} : (∀ k c, (k, c) ∈ t → c ≠ "" ∧ c ∉ ks ∧ c ∉ t.map Prod.fst) → Apart (ks ++ t.map Prod.fst) path → Apart ks (t :: path)

theorem meaning_loop : ∀ (post pre : List Table) (s : String), (∀ t ∈ pre, s ∉ t.map Prod.fst) → Apart (pre.flatMap fun t => t.map Prod.fst) post →
    loop (nearestWins (pre ++ post)) (post.length + 1) s = some (meaning post s)
  | [], pre, s, hpre, _ => by
    apply loop_stop
    rintro c ⟨h, _⟩
    rw [C45_nearest, List.append_nil] at h
    obtain ⟨t, ht, hb⟩ := List.exists_of_findSome?_eq_some h
    exact hpre t ht (by rw [← mget_isSome_iff, hb]; rfl)
  | t :: post, pre, s, hpre, hap => by
    have hpre0 : (pre.findSome? fun t => mget t s) = none := by
      rw [List.findSome?_eq_none_iff]
      intro t ht
      exact (mget_eq_none_iff t s).mpr (hpre t ht)
    cases hap with
    | cons hval hrest =>
      have hrest' : Apart ((pre ++ [t]).flatMap fun t => t.map Prod.fst) post := by
        rw [List.flatMap_append]
        simpa using hrest
      have assoc : pre ++ t :: post = (pre ++ [t]) ++ post := by simp
      rw [meaning]
      cases hm : mget t s with
      | some c =>
        have hc := hval s c (mem_of_mget hm)
        have hb : Binds (nearestWins (pre ++ t :: post)) s c := by
          refine ⟨?_, hc.1⟩
          rw [C45_nearest, List.findSome?_append, hpre0, List.findSome?_cons, hm]
          rfl
        rw [List.length_cons, loop_step _ s c _ hb, assoc]
        apply meaning_loop post (pre ++ [t]) c _ hrest'
        intro u hu
        rcases List.mem_append.mp hu with hu | hu
        · intro hin
          exact hc.2.1 (List.mem_flatMap.mpr ⟨u, hu, hin⟩)
        · rw [List.mem_singleton.mp hu]; exact hc.2.2
      | none =>
        rw [assoc]
        refine loop_mono _ _ _ _ (meaning_loop post (pre ++ [t]) s ?_ hrest')
        intro u hu
        rcases List.mem_append.mp hu with hu | hu
        · exact hpre u hu
        · rw [List.mem_singleton.mp hu]; exact (mget_eq_none_iff t s).mp hm

/-- **C45 (scopes, partial).** If the texts on a path of calls do not reuse the names of type parameters
further in, resolving a bound name ends and gives what the name stands for.  Missing: other paths, see
below. -/
theorem C45_scopes_partial (path : List Table) (s : String) (hs : s ≠ "") (h : Apart [] path) (hb : ∃ t ∈ path, s ∈ t.map Prod.fst) (n : Nat) (hn : path.length < n) :
    traceGenericOrigin (nearestWins path) n s = some (meaning path s) := by
  have hl := loop_le _ _ _ (Nat.succ_le_of_lt hn) (meaning_loop path [] s (fun t ht => by cases ht) h)
  rw [List.nil_append] at hl
  have hsome : (path.findSome? fun t => mget t s).isSome := by
    obtain ⟨t, ht, hk⟩ := hb
    cases hf : path.findSome? fun t => mget t s with
    | some _ => rfl
    | none =>
      rw [List.findSome?_eq_none_iff] at hf
      rw [← mget_isSome_iff, hf t ht] at hk
      cases hk
  obtain ⟨c, hc⟩ := Option.isSome_iff_exists.mp hsome
  have hmem : ∀ (l : List Table) ks, Apart ks l → ∀ t ∈ l, ∀ k c, (k, c) ∈ t → c ≠ "" := by
    intro l ks ha
    induction ha with
    | nil => intro t ht; cases ht
    | cons hv _ ih =>
      intro t ht k c hkc
      rcases List.mem_cons.mp ht with rfl | ht
      · exact (hv k c hkc).1
      · exact ih t ht k c hkc
  have hbind : Binds (nearestWins path) s c := by
    refine ⟨by rw [C45_nearest]; exact hc, ?_⟩
    obtain ⟨t, ht, hb⟩ := List.exists_of_findSome?_eq_some hc
    exact hmem path [] h t ht s c (mem_of_mget hb)
  have htp : nearestWins path ≠ [] := by
    intro e
    rw [e] at hbind
    cases hbind.1
  rw [traceGenericOrigin, if_neg (by rintro (h | h); exact htp (List.isEmpty_iff.mp h); exact hs h), hl, (next_iff _ s c).mpr hbind]
  rfl

/-- `handle[app.User]` calls `decode[T]` (parameter `V`), which calls `read[V]` (parameter `R`). -/
def goodPath : List Table := [callBindings ["R"] ["V"], callBindings ["V"] ["T"], callBindings ["T"] ["app.User"]]

example : Apart [] goodPath := by
  refine .cons ?_ (.cons ?_ (.cons ?_ .nil)) <;> simp [callBindings]

example : meaning goodPath "R" = "app.User" ∧ traceGenericOrigin (nearestWins goodPath) 4 "R" = some "app.User" := by decide

/-- **C45 (forwarding never ends).** A call that passes its caller's type parameter on to a type parameter of
the same name: resolving that name never ends, on whatever path. -/
theorem C45_forwarding_hangs (params args : List String) (path : List Table) (t : String) (ht : t ≠ "") (hf : mget (callBindings params args) t = some t) (n : Nat) :
    traceGenericOrigin (nearestWins (callBindings params args :: path)) n t = none := by
  have hb : Binds (nearestWins (callBindings params args :: path)) t t := by
    refine ⟨?_, ht⟩
    rw [C45_nearest, List.findSome?_cons, hf]
  have htp : nearestWins (callBindings params args :: path) ≠ [] := by
    intro e
    rw [e] at hb
    cases hb.1
  rw [traceGenericOrigin, if_neg (by rintro (h | h); exact htp (List.isEmpty_iff.mp h); exact ht h), loop_cycle _ n t t (.inl rfl) (.one hb)]

/-- `handle[app.User]` calls `decode[T]`, and both parameters are called `T`. -/
example : mget (callBindings ["T"] ["T"]) "T" = some "T" ∧ meaning [callBindings ["T"] ["T"], callBindings ["T"] ["app.User"]] "T" = "app.User" ∧
    traceGenericOrigin (outermostWins [callBindings ["T"] ["T"], callBindings ["T"] ["app.User"]]) 2 "T" = some "app.User" := by decide

/-- **C45 (wrong scope).** A text is looked up in the scope it is written in and all scopes further in:
`decode[B, int]` with parameters `T`, `B`, in a function whose `B` is `app.User`, resolves `T` to `int`. -/
theorem C45_wrong_scope : let path := [callBindings ["T", "B"] ["B", "int"], callBindings ["B"] ["app.User"]]
    meaning path "T" = "app.User" ∧ traceGenericOrigin (nearestWins path) 3 "T" = some "int" := by decide

/-- **C45 (composite arguments).** A type parameter inside another type is not resolved. -/
theorem C45_composite : traceGenericOrigin (nearestWins [callBindings ["T"] ["[]U"], callBindings ["U"] ["app.User"]]) 3 "T" = some "[]U" := by decide

end Verif.GenericsModel
