import Verif.HandlerValueModel
/-!
# C110: a handler value is documented with the method the framework calls on it
-/

namespace Verif.HandlerValue
open Verif.Common

/-! ### Specification -/

/-- A type, by package and name. -/
abbrev Ty := Str × Str

def Ty.key (t : Ty) : Str := t.1 ++ '.' :: t.2

/-- The base name of a method. -/
def methodKey (t : Ty) (m : Str) : Str := t.1 ++ '.' :: (t.2 ++ '.' :: m)

/-- What holds of recorded types: each is recorded once, names are identifiers, packages have a path, and only recorded
concrete types implement something. -/
structure Proper (m : Meta) : Prop where
  once : (m.map (·.1)).Nodup
  names : ∀ e ∈ m, e.1.1 ≠ [] ∧ e.1.2 ≠ [] ∧ '.' ∉ e.1.2
  concrete : ∀ e ∈ m, ∀ k ∈ e.2.implementedBy, ∃ c ∈ m, k = Ty.key c.1 ∧ c.2.iface = false
  values : ∀ e ∈ m, e.2.iface = true → e.2.implements = []

/-- A value of static type `s` may have the dynamic type `t`, according to what is recorded: `s` is concrete and `t` is
`s`, or `s` is an interface of the project and `t` is among its implementers, or `s` is an interface declared elsewhere
and `t` is recorded to implement it. -/
def MayHold (m : Meta) (s t : Ty) : Prop :=
  (∃ r, (s, r) ∈ m ∧ r.iface = false ∧ t = s) ∨
  (∃ r, (s, r) ∈ m ∧ r.iface = true ∧ Ty.key t ∈ r.implementedBy ∧ '.' ∉ t.2) ∨
  ((∀ r, (s, r) ∉ m) ∧ ∃ r, (t, r) ∈ m ∧ Ty.key s ∈ r.implements)

/-- The type declares the method. -/
def Declares (m : Meta) (t : Ty) (x : Str) : Prop := ∃ r, (t, r) ∈ m ∧ r.iface = false ∧ x ∈ r.methods

/-- The method that runs when `x` is called on a value of dynamic type `t`: the one of the type, else the one of an
embedded type; `embeds` gives the embedded types. -/
inductive Runs (m : Meta) (embeds : Ty → List Ty) (x : Str) : Ty → Ty → Prop
  | own (t : Ty) : Declares m t x → Runs m embeds x t t
  | promoted (t e o : Ty) : ¬ Declares m t x → e ∈ embeds t → Runs m embeds x e o → Runs m embeds x t o

/-! ### Lemmas -/

theorem mget_of_mem {κ β : Type} [DecidableEq κ] : ∀ (m : List (κ × β)) (k : κ) (v : β), (m.map (·.1)).Nodup → (k, v) ∈ m → mget m k = some v := by
  intro m k v
  induction m with
  | nil => intro _ h; cases h
  | cons e m ih =>
    obtain ⟨a, b⟩ := e
    intro hn hm
    rw [List.map_cons, List.nodup_cons] at hn
    rw [mget_cons]
    rcases List.mem_cons.1 hm with h | h
    · cases h; rw [if_pos rfl]
    · rw [if_neg, ih hn.2 h]
      rintro rfl
      exact hn.1 (List.mem_map.mpr ⟨_, h, rfl⟩)

theorem mem_of_mget {κ β : Type} [DecidableEq κ] : ∀ (m : List (κ × β)) (k : κ) (v : β), mget m k = some v → (k, v) ∈ m := by
  intro m k v
  induction m with
  | nil => intro h; cases h
  | cons e m ih =>
    obtain ⟨a, b⟩ := e
    intro h
    rw [mget_cons] at h
    split at h
    · next he => cases h; subst he; exact List.mem_cons_self
    · exact List.mem_cons_of_mem _ (ih h)

theorem take_drop (l r : Str) (h : '.' ∉ l) :
    (l ++ '.' :: r).dropWhile (fun c => decide (c ≠ '.')) = '.' :: r ∧ (l ++ '.' :: r).takeWhile (fun c => decide (c ≠ '.')) = l := by
  induction l with
  | nil => simp
  | cons c l ih =>
    have hc : c ≠ '.' := fun he => h (he ▸ List.mem_cons_self)
    have ih := ih (fun hm => h (List.mem_cons_of_mem _ hm))
    rw [List.cons_append, List.dropWhile_cons, List.takeWhile_cons, if_pos (by simpa using hc), if_pos (by simpa using hc)]
    exact ⟨ih.1, by rw [ih.2]⟩

theorem split_key (t : Ty) (h : '.' ∉ t.2) : splitTypeKey (Ty.key t) = some t := by
  have hr : (Ty.key t).reverse = t.2.reverse ++ '.' :: t.1.reverse := by simp [Ty.key]
  obtain ⟨h1, h2⟩ := take_drop t.2.reverse t.1.reverse (by simpa using h)
  unfold splitTypeKey
  rw [hr, h1]
  dsimp only
  rw [h2]
  simp

theorem key_inj (s t : Ty) (hs : '.' ∉ s.2) (ht : '.' ∉ t.2) (h : Ty.key s = Ty.key t) : s = t := by
  have h1 := split_key s hs
  rw [h, split_key t ht] at h1
  exact (Option.some.inj h1).symm

theorem collect_spec (f : Str → Str → Option (List Str)) : ∀ ts : List Ty, (∀ t ∈ ts, '.' ∉ t.2) → (∀ t ∈ ts, ∃ l, f t.1 t.2 = some l) →
    ∃ out, collect f (ts.map Ty.key) = some out ∧ ∀ k, k ∈ out ↔ ∃ t ∈ ts, ∃ l, f t.1 t.2 = some l ∧ k ∈ l := by
  intro ts
  induction ts with
  | nil => intro _ _; exact ⟨[], rfl, by simp⟩
  | cons t ts ih =>
    intro hd hf
    obtain ⟨out, h1, h2⟩ := ih (fun x hx => hd x (List.mem_cons_of_mem _ hx)) (fun x hx => hf x (List.mem_cons_of_mem _ hx))
    obtain ⟨l, hl⟩ := hf t List.mem_cons_self
    refine ⟨l ++ out, ?_, ?_⟩
    · rw [List.map_cons]
      unfold collect
      rw [split_key t (hd t List.mem_cons_self)]
      dsimp only
      rw [hl, h1]
    · intro k
      rw [List.mem_append, h2]
      constructor
      · rintro (h | ⟨x, hx, l', h3, h4⟩)
        · exact ⟨t, List.mem_cons_self, l, hl, h⟩
        · exact ⟨x, List.mem_cons_of_mem _ hx, l', h3, h4⟩
      · rintro ⟨x, hx, l', h3, h4⟩
        rcases List.mem_cons.1 hx with rfl | hx
        · rw [hl] at h3; cases h3; exact Or.inl h4
        · exact Or.inr ⟨x, hx, l', h3, h4⟩

theorem find_mem (m : Meta) (hm : Proper m) (t : Ty) (r : TypeRec) : findType m t.1 t.2 = some r ↔ (t, r) ∈ m := by
  unfold findType
  constructor
  · intro h
    split at h
    · cases h
    · exact mem_of_mget m _ r h
  · intro h
    have := hm.names _ h
    rw [if_neg (by simp [this.1, this.2.1])]
    exact mget_of_mem m _ r hm.once h

theorem keys_concrete (m : Meta) (hm : Proper m) (hms : List Str) (fuel : Nat) (t : Ty) (r : TypeRec) (h : (t, r) ∈ m) (hi : r.iface = false) :
    handlerMethodKeys m hms (fuel + 1) t.1 t.2 = some ((hms.filter fun x => r.methods.contains x).map (methodKey t)) := by
  have hn := hm.names _ h
  unfold handlerMethodKeys
  by_cases h0 : hms = []
  · rw [if_pos (Or.inl h0), h0]; rfl
  · rw [if_neg (by simp [h0, hn.1, hn.2.1]), (find_mem m hm t r).mpr h]
    dsimp only
    rw [hi]
    rfl

theorem list_keys (ks : List Str) (P : Ty → Prop) (h : ∀ k ∈ ks, ∃ t : Ty, k = Ty.key t ∧ P t) : ∃ ts : List Ty, ks = ts.map Ty.key ∧ ∀ t ∈ ts, P t := by
  induction ks with
  | nil => exact ⟨[], rfl, by simp⟩
  | cons k ks ih =>
    obtain ⟨ts, h1, h2⟩ := ih (fun x hx => h x (List.mem_cons_of_mem _ hx))
    obtain ⟨t, h3, h4⟩ := h k List.mem_cons_self
    refine ⟨t :: ts, by rw [List.map_cons, ← h1, ← h3], ?_⟩
    intro x hx
    rcases List.mem_cons.1 hx with rfl | hx
    · exact h4
    · exact h2 x hx

/-! ### The properties -/

/-- A value of a concrete type: the handler methods the type declares, in the order of the configuration. -/
theorem C110_concrete (m : Meta) (hm : Proper m) (hms : List Str) (fuel : Nat) (t : Ty) (r : TypeRec) (h : (t, r) ∈ m) (hi : r.iface = false) :
    ∃ out : List Str, handlerMethodKeys m hms (fuel + 1) t.1 t.2 = some (out.map (methodKey t)) ∧ out.Sublist hms ∧ ∀ x, x ∈ out ↔ x ∈ hms ∧ x ∈ r.methods :=
  ⟨_, keys_concrete m hm hms fuel t r h hi, List.filter_sublist, by intro x; simp⟩

/-- The search ends after at most two steps, and finds exactly the handler methods declared by the types the value may
have. -/
theorem C110_exact (m : Meta) (hm : Proper m) (hms : List Str) (fuel : Nat) (s : Ty) (hs : '.' ∉ s.2) (hne : s.1 ≠ [] ∧ s.2 ≠ []) :
    ∃ out, handlerMethodKeys m hms (fuel + 2) s.1 s.2 = some out ∧
      ∀ k, k ∈ out ↔ ∃ t x, MayHold m s t ∧ Declares m t x ∧ x ∈ hms ∧ k = methodKey t x := by
  -- the part after the fan out
  have fan : ∀ ts : List Ty, (∀ t ∈ ts, ∃ r, (t, r) ∈ m ∧ r.iface = false) →
      ∃ out, collect (handlerMethodKeys m hms (fuel + 1)) (ts.map Ty.key) = some out ∧
        ∀ k, k ∈ out ↔ ∃ t x, t ∈ ts ∧ Declares m t x ∧ x ∈ hms ∧ k = methodKey t x := by
    intro ts hts
    obtain ⟨out, h1, h2⟩ := collect_spec (handlerMethodKeys m hms (fuel + 1)) ts
      (fun t ht => by obtain ⟨r, hr, _⟩ := hts t ht; exact (hm.names _ hr).2.2)
      (fun t ht => by obtain ⟨r, hr, hi⟩ := hts t ht; exact ⟨_, keys_concrete m hm hms fuel t r hr hi⟩)
    refine ⟨out, h1, fun k => ?_⟩
    rw [h2]
    constructor
    · rintro ⟨t, ht, l, hl, hk⟩
      obtain ⟨r, hr, hi⟩ := hts t ht
      rw [keys_concrete m hm hms fuel t r hr hi] at hl
      cases hl
      obtain ⟨x, hx, rfl⟩ := List.mem_map.1 hk
      obtain ⟨hx1, hx2⟩ := List.mem_filter.1 hx
      exact ⟨t, x, ht, ⟨r, hr, hi, by simpa using hx2⟩, hx1, rfl⟩
    · rintro ⟨t, x, ht, ⟨r, hr, hi, hx⟩, hx1, rfl⟩
      exact ⟨t, ht, _, keys_concrete m hm hms fuel t r hr hi, List.mem_map.mpr ⟨x, List.mem_filter.mpr ⟨hx1, by simpa using hx⟩, rfl⟩⟩
  by_cases h0 : hms = []
  · refine ⟨[], ?_, ?_⟩
    · unfold handlerMethodKeys; rw [if_pos (Or.inl h0)]
    · intro k
      constructor
      · intro h; cases h
      · rintro ⟨t, x, _, _, hx, _⟩; rw [h0] at hx; cases hx
  have hcond : ¬ (hms = [] ∨ s.1 = [] ∨ s.2 = []) := by simp [h0, hne.1, hne.2]
  cases hf : findType m s.1 s.2 with
  | none =>
    have hno : ∀ r, (s, r) ∉ m := fun r hr => by rw [(find_mem m hm s r).mpr hr] at hf; cases hf
    have hkey : s.1 ++ '.' :: s.2 ≠ [] := by simp
    obtain ⟨ts, hts, hP⟩ := list_keys (implementersOf m (s.1 ++ '.' :: s.2)) (fun t => ∃ r, (t, r) ∈ m ∧ Ty.key s ∈ r.implements) (by
      intro k hk
      unfold implementersOf at hk
      rw [if_neg hkey] at hk
      obtain ⟨e, he, h1⟩ := List.mem_filterMap.1 hk
      split at h1
      · next hc => exact ⟨e.1, (Option.some.inj h1).symm, e.2, he, by simpa [Ty.key] using hc⟩
      · cases h1)
    have hconc : ∀ t ∈ ts, ∃ r, (t, r) ∈ m ∧ r.iface = false := by
      intro t ht
      obtain ⟨r, hr, hi⟩ := hP t ht
      refine ⟨r, hr, ?_⟩
      cases hir : r.iface with
      | false => rfl
      | true => rw [hm.values _ hr hir] at hi; cases hi
    obtain ⟨out, h1, h2⟩ := fan ts hconc
    refine ⟨out, ?_, fun k => ?_⟩
    · unfold handlerMethodKeys
      rw [if_neg hcond, hf]
      dsimp only
      rw [hts, h1]
    · rw [h2]
      constructor
      · rintro ⟨t, x, ht, hd, hx, rfl⟩
        exact ⟨t, x, Or.inr (Or.inr ⟨hno, hP t ht⟩), hd, hx, rfl⟩
      · rintro ⟨t, x, hh, hd, hx, rfl⟩
        refine ⟨t, x, ?_, hd, hx, rfl⟩
        rcases hh with ⟨r, hr, _⟩ | ⟨r, hr, _⟩ | ⟨_, r, hr, hi⟩
        · exact absurd hr (hno r)
        · exact absurd hr (hno r)
        · have hmem : Ty.key t ∈ implementersOf m (s.1 ++ '.' :: s.2) := by
            unfold implementersOf
            rw [if_neg hkey]
            refine List.mem_filterMap.2 ⟨(t, r), hr, ?_⟩
            rw [if_pos]
            · rfl
            · exact List.contains_iff_mem.2 hi
          rw [hts] at hmem
          obtain ⟨t', ht', he⟩ := List.mem_map.1 hmem
          obtain ⟨r', hr', _⟩ := hP t' ht'
          rw [← key_inj t' t (hm.names _ hr').2.2 (hm.names _ hr).2.2 he]
          exact ht'
  | some r =>
    have hr := (find_mem m hm s r).mp hf
    cases hi : r.iface with
    | false =>
      refine ⟨_, keys_concrete m hm hms (fuel + 1) s r hr hi, fun k => ?_⟩
      constructor
      · intro hk
        obtain ⟨x, hx, rfl⟩ := List.mem_map.1 hk
        obtain ⟨hx1, hx2⟩ := List.mem_filter.1 hx
        exact ⟨s, x, Or.inl ⟨r, hr, hi, rfl⟩, ⟨r, hr, hi, by simpa using hx2⟩, hx1, rfl⟩
      · rintro ⟨t, x, hh, ⟨r', hr', _, hx⟩, hx1, rfl⟩
        have one : ∀ r'', (s, r'') ∈ m → r'' = r := fun r'' h'' => by
          have := (find_mem m hm s r'').mpr h''
          rw [hf] at this; exact (Option.some.inj this).symm
        rcases hh with ⟨r2, hr2, _, rfl⟩ | ⟨r2, hr2, hi2, _⟩ | ⟨hno, _⟩
        · rw [one r' hr'] at hx
          exact List.mem_map.mpr ⟨x, List.mem_filter.mpr ⟨hx1, by simpa using hx⟩, rfl⟩
        · rw [one r2 hr2, hi] at hi2; cases hi2
        · exact absurd hr (hno r)
    | true =>
      obtain ⟨ts, hts, hP⟩ := list_keys r.implementedBy (fun t => ∃ r, (t, r) ∈ m ∧ r.iface = false) (by
        intro k hk
        obtain ⟨c, hc, h1, h2⟩ := hm.concrete _ hr k hk
        exact ⟨c.1, h1, c.2, hc, h2⟩)
      obtain ⟨out, h1, h2⟩ := fan ts hP
      refine ⟨out, ?_, fun k => ?_⟩
      · unfold handlerMethodKeys
        rw [if_neg hcond, hf]
        dsimp only
        rw [hi, if_pos rfl, hts, h1]
      · rw [h2]
        have one : ∀ r'', (s, r'') ∈ m → r'' = r := fun r'' h'' => by
          have := (find_mem m hm s r'').mpr h''
          rw [hf] at this; exact (Option.some.inj this).symm
        constructor
        · rintro ⟨t, x, ht, hd, hx, rfl⟩
          obtain ⟨r', hr', _⟩ := hP t ht
          exact ⟨t, x, Or.inr (Or.inl ⟨r, hr, hi, by rw [hts]; exact List.mem_map.mpr ⟨t, ht, rfl⟩, (hm.names _ hr').2.2⟩), hd, hx, rfl⟩
        · rintro ⟨t, x, hh, hd, hx, rfl⟩
          refine ⟨t, x, ?_, hd, hx, rfl⟩
          rcases hh with ⟨r2, hr2, hi2, _⟩ | ⟨r2, hr2, _, hk, hdot⟩ | ⟨hno, _⟩
          · rw [one r2 hr2, hi] at hi2; cases hi2
          · rw [one r2 hr2, hts] at hk
            obtain ⟨t', ht', he⟩ := List.mem_map.1 hk
            obtain ⟨r', hr', _⟩ := hP t' ht'
            rw [← key_inj t' t (hm.names _ hr').2.2 hdot he]
            exact ht'
          · exact absurd hr (hno r)

/-- Whatever the value is when the program runs, the method that is called on it is found, if its type declares the method
itself.  Missing: methods of embedded types, `C110_promoted_missed`. -/
theorem C110_runs_partial (m : Meta) (hm : Proper m) (hms : List Str) (fuel : Nat) (s t : Ty) (hs : '.' ∉ s.2) (hne : s.1 ≠ [] ∧ s.2 ≠ [])
    (hh : MayHold m s t) (embeds : Ty → List Ty) (x : Str) (hx : x ∈ hms) (hown : Declares m t x) :
    (∀ o, Runs m embeds x t o ↔ o = t) ∧ ∃ out, handlerMethodKeys m hms (fuel + 2) s.1 s.2 = some out ∧ methodKey t x ∈ out := by
  constructor
  · intro o
    constructor
    · intro h
      cases h with
      | own => rfl
      | promoted _ e o hno _ _ => exact absurd hown hno
    · rintro rfl; exact .own _ hown
  · obtain ⟨out, h1, h2⟩ := C110_exact m hm hms fuel s hs hne
    exact ⟨out, h1, (h2 _).mpr ⟨t, x, hh, hown, hx, rfl⟩⟩

/-! ### Instances and what does not hold -/

abbrev c (s : String) : Str := s.toList

/-- Two handlers, an interface of the project and `net/http.Handler`; `Admin` embeds `Users`. -/
abbrev demo : Meta :=
  [((c "a.b/app", c "Admin"), ⟨false, [], [], [c "net/http.Handler"]⟩),
   ((c "a.b/app", c "Health"), ⟨false, [], [c "ServeHTTP", c "String"], [c "net/http.Handler"]⟩),
   ((c "a.b/app", c "Page"), ⟨true, [c "a.b/app.Health"], [c "ServeHTTP", c "String"], []⟩),
   ((c "a.b/app", c "Users"), ⟨false, [], [c "ServeHTTP"], [c "net/http.Handler"]⟩)]

theorem demo_proper : Proper demo where
  once := by decide
  names := by decide
  concrete := by
    intro e he k hk
    simp only [demo, List.mem_cons, List.not_mem_nil, or_false] at he
    rcases he with rfl | rfl | rfl | rfl <;> simp only [List.mem_cons, List.not_mem_nil, or_false] at hk
    subst hk
    exact ⟨_, List.mem_cons_of_mem _ List.mem_cons_self, by decide, rfl⟩
  values := by
    intro e he
    simp only [demo, List.mem_cons, List.not_mem_nil, or_false] at he
    rcases he with rfl | rfl | rfl | rfl <;> simp

example : handlerMethodKeys demo [c "ServeHTTP"] 2 (c "a.b/app") (c "Page") = some [c "a.b/app.Health.ServeHTTP"] ∧
    MayHold demo (c "net/http", c "Handler") (c "a.b/app", c "Users") ∧ Declares demo (c "a.b/app", c "Users") (c "ServeHTTP") := by
  refine ⟨by decide, Or.inr (Or.inr ⟨?_, _, List.mem_cons_of_mem _ (List.mem_cons_of_mem _ (List.mem_cons_of_mem _ List.mem_cons_self)), by decide⟩), _,
    List.mem_cons_of_mem _ (List.mem_cons_of_mem _ (List.mem_cons_of_mem _ List.mem_cons_self)), rfl, by decide⟩
  intro r hr
  have : (c "net/http", c "Handler") ∈ demo.map (·.1) := List.mem_map.mpr ⟨_, hr, rfl⟩
  exact absurd this (by decide)

/-- A value whose type gets the handler method from an embedded type: the method runs, and none is found. -/
theorem C110_promoted_missed : ∃ embeds : Ty → List Ty,
    Runs demo embeds (c "ServeHTTP") (c "a.b/app", c "Admin") (c "a.b/app", c "Users") ∧
    handlerMethodKeys demo [c "ServeHTTP"] 2 (c "a.b/app") (c "Admin") = some [] := by
  refine ⟨fun t => if t = (c "a.b/app", c "Admin") then [(c "a.b/app", c "Users")] else [], ?_, by decide⟩
  refine .promoted _ (c "a.b/app", c "Users") _ ?_ (by simp) (.own _ ⟨_, List.mem_cons_of_mem _ (List.mem_cons_of_mem _ (List.mem_cons_of_mem _ List.mem_cons_self)), rfl, by decide⟩)
  rintro ⟨r, hr, _, hx⟩
  have hr' := (find_mem demo demo_proper (c "a.b/app", c "Admin") r).mpr hr
  have hr2 : findType demo (c "a.b/app") (c "Admin") = some ⟨false, [], [], [c "net/http.Handler"]⟩ := by rfl
  rw [show findType demo (c "a.b/app", c "Admin").1 (c "a.b/app", c "Admin").2 = findType demo (c "a.b/app") (c "Admin") from rfl, hr2] at hr'
  cases hr'
  cases hx

/-- A value held in a variable of type `http.Handler`: every handler of the program is taken for it, also those it never
holds. -/
theorem C110_others_documented : handlerMethodKeys demo [c "ServeHTTP"] 2 (c "net/http") (c "Handler") =
    some [c "a.b/app.Health.ServeHTTP", c "a.b/app.Users.ServeHTTP"] := by decide

end Verif.HandlerValue
