import Verif.CallBodyModel
/-!
# C114: a body that is the result of a call is documented with the type the called function returns
-/

namespace Verif.CallBody

/-! ### Specification -/

/-- What a call names: a function of a package, or the method of a type of it. -/
inductive Target
  | func (pkg : String)
  | method (pkg type : String)

/-- The package declares the target, as `g`. -/
def Declares (pr : Prog) (name : String) : Target → Fn → Prop
  | .func pkg, g => ∃ fs f, (pkg, fs) ∈ pr ∧ f ∈ fs ∧ g ∈ f.funcs ∧ g.name = name
  | .method pkg type, g => ∃ fs f ms, (pkg, fs) ∈ pr ∧ f ∈ fs ∧ (type, ms) ∈ f.types ∧ g ∈ ms ∧ g.name = name

def Target.pkg : Target → String
  | .func p => p
  | .method p _ => p

/-- The call is one of the target: package and name are recorded, and the checker gives the call the type of the result. -/
def CallOf (pr : Prog) (c : Call) (t : Target) (g : Fn) : Prop :=
  Declares pr c.name t g ∧ c.pkg = t.pkg ∧ c.typ = g.result ∧ c.name ≠ "" ∧ g.result ≠ ""

/-- Each package is listed once. -/
def Once (pr : Prog) : Prop := (pr.map (·.1)).Nodup

/-- What should be documented: the type of the result; for an interface the one type all returned values have, if that is
known, else the interface. -/
inductive Right (iface : String → Bool) (g : Fn) : String → Prop
  | plain : iface g.result = false → Right iface g g.result
  | concrete (t : String) : iface g.result = true → t ≠ "" → iface t = false → g.returns ≠ [] → (∀ r ∈ g.returns, r = t) → Right iface g t
  | keep : iface g.result = true → (∀ t, t ≠ "" → iface t = false → ¬ (g.returns ≠ [] ∧ ∀ r ∈ g.returns, r = t)) → Right iface g g.result

/-! ### Lemmas -/

theorem lookup_once : ∀ (pr : Prog) (p : String) (fs : List File), Once pr → (p, fs) ∈ pr → pr.lookup p = some fs := by
  intro pr p fs
  induction pr with
  | nil => intro _ h; cases h
  | cons e pr ih =>
    obtain ⟨q, gs⟩ := e
    intro ho hm
    have ho' : q ∉ pr.map (·.1) ∧ (pr.map (·.1)).Nodup := by
      have := ho; unfold Once at this; rw [List.map_cons, List.nodup_cons] at this; exact this
    rcases List.mem_cons.1 hm with h | h
    · cases h; simp [List.lookup_cons]
    · have hne : p ≠ q := by rintro rfl; exact ho'.1 (List.mem_map.mpr ⟨_, h, rfl⟩)
      rw [List.lookup_cons]
      have : (p == q) = false := by simpa using hne
      rw [this]
      exact ih ho'.2 h

theorem lookup_mem : ∀ (pr : Prog) (p : String) (fs : List File), pr.lookup p = some fs → (p, fs) ∈ pr := by
  intro pr p fs
  induction pr with
  | nil => intro h; cases h
  | cons e pr ih =>
    obtain ⟨q, gs⟩ := e
    intro h
    rw [List.lookup_cons] at h
    cases hq : (p == q) with
    | true =>
      rw [hq] at h; cases h
      have : p = q := by simpa using hq
      subst this
      exact List.mem_cons_self
    | false => rw [hq] at h; exact List.mem_cons_of_mem _ (ih h)

theorem filesOf_mem (pr : Prog) (p : String) (f : File) (h : f ∈ filesOf pr p) : ∃ fs, (p, fs) ∈ pr ∧ f ∈ fs := by
  unfold filesOf at h
  cases hl : pr.lookup p with
  | none => rw [hl] at h; cases h
  | some fs => rw [hl] at h; exact ⟨fs, lookup_mem pr p fs hl, h⟩

theorem filesOf_eq (pr : Prog) (ho : Once pr) (p : String) (fs : List File) (h : (p, fs) ∈ pr) : filesOf pr p = fs := by
  unfold filesOf; rw [lookup_once pr p fs ho h]; rfl

theorem inFile_some (name : String) (f : File) (g : Fn) (h : inFile name f = some g) :
    g.name = name ∧ (g ∈ f.funcs ∨ ∃ t ms, (t, ms) ∈ f.types ∧ g ∈ ms) := by
  unfold inFile at h
  cases hf : f.funcs.find? (fun g => g.name == name) with
  | some x =>
    rw [hf] at h; cases h
    have h1 := List.find?_some hf
    exact ⟨by simpa using h1, Or.inl (List.mem_of_find?_eq_some hf)⟩
  | none =>
    rw [hf] at h
    have h : (f.types.flatMap (·.2)).find? (fun g => g.name == name) = some g := h
    have h1 := List.find?_some h
    obtain ⟨e, he, hg⟩ := List.mem_flatMap.1 (List.mem_of_find?_eq_some h)
    exact ⟨by simpa using h1, Or.inr ⟨e.1, e.2, he, hg⟩⟩

theorem inFile_none (name : String) (f : File) (h : inFile name f = none) :
    (∀ g ∈ f.funcs, g.name ≠ name) ∧ ∀ t ms, (t, ms) ∈ f.types → ∀ g ∈ ms, g.name ≠ name := by
  unfold inFile at h
  cases hf : f.funcs.find? (fun g => g.name == name) with
  | some x => rw [hf] at h; cases h
  | none =>
    rw [hf] at h
    have h : (f.types.flatMap (·.2)).find? (fun g => g.name == name) = none := h
    refine ⟨fun g hg => by simpa using List.find?_eq_none.1 hf g hg, fun t ms ht g hg => ?_⟩
    simpa using List.find?_eq_none.1 h g (List.mem_flatMap.2 ⟨(t, ms), ht, hg⟩)

/-- What is found in the package is a function or method of the name; if there is one, one is found. -/
theorem resolved_spec (pr : Prog) (ho : Once pr) (c : Call) (hn : c.name ≠ "") :
    (∀ g, (filesOf pr c.pkg).findSome? (inFile c.name) = some g → ∃ t, Declares pr c.name t g ∧ t.pkg = c.pkg) ∧
    ((filesOf pr c.pkg).findSome? (inFile c.name) = none → ∀ t g, Declares pr c.name t g → t.pkg ≠ c.pkg) := by
  constructor
  · intro g h
    obtain ⟨f, hf, hg⟩ := List.exists_of_findSome?_eq_some h
    obtain ⟨fs, h1, h2⟩ := filesOf_mem pr c.pkg f hf
    obtain ⟨h3, h4⟩ := inFile_some c.name f g hg
    rcases h4 with h4 | ⟨t, ms, h4, h5⟩
    · exact ⟨.func c.pkg, ⟨fs, f, h1, h2, h4, h3⟩, rfl⟩
    · exact ⟨.method c.pkg t, ⟨fs, f, ms, h1, h2, h4, h5, h3⟩, rfl⟩
  · intro h t g hd hp
    have hall := List.findSome?_eq_none_iff.1 h
    cases t with
    | func p =>
      obtain ⟨fs, f, h1, h2, h3, h4⟩ := hd
      have hp : p = c.pkg := hp
      subst hp
      exact (inFile_none c.name f (hall f (by rw [filesOf_eq pr ho _ fs h1]; exact h2))).1 g h3 h4
    | method p ty =>
      obtain ⟨fs, f, ms, h1, h2, h3, h4, h5⟩ := hd
      have hp : p = c.pkg := hp
      subst hp
      exact (inFile_none c.name f (hall f (by rw [filesOf_eq pr ho _ fs h1]; exact h2))).2 ty ms h3 g h4 h5

theorem concrete_one (iface : String → Bool) (g : Fn) (t : String) : concreteLoop iface "" (returnVars g) = t → t ≠ "" → ∃ rest, g.returns = t :: rest ∧ iface t = false := by
  intro h hne
  unfold returnVars at h
  cases hr : g.returns with
  | nil => rw [hr] at h; exact absurd h.symm hne
  | cons r rs =>
    rw [hr] at h
    have h : concreteLoop iface "" [r] = t := h
    unfold concreteLoop at h
    split at h
    · exact absurd h.symm hne
    · next hc =>
      have hc : r ≠ "" ∧ iface r = false := by simpa using hc
      rw [if_neg (by simp)] at h
      have h : r = t := h
      subst h
      exact ⟨rs, rfl, hc.2⟩

/-! ### The properties -/

/-- The type documented for a call is always one of: the type of the call, the result of a function or method of that name
in the package, the type of the first value a function of that name, of any package, returns. -/
theorem C114_sources (pr : Prog) (ho : Once pr) (iface : String → Bool) (shown : String) (c : Call) (hn : c.name ≠ "") (ht : c.typ ≠ "") :
    bodyType pr iface shown c = c.typ ∨ (∃ t g, Declares pr c.name t g ∧ t.pkg = c.pkg ∧ bodyType pr iface shown c = g.result) ∨
    (iface c.typ = true ∧ ∃ p g rest, Declares pr c.name (.func p) g ∧ g.returns = bodyType pr iface shown c :: rest ∧ iface (bodyType pr iface shown c) = false) := by
  unfold bodyType
  split
  · next h =>
    right; right
    have h2 := h.2
    unfold concreteFromCalleeReturn at h2 ⊢
    cases hi : iface c.typ with
    | false => rw [hi] at h2; exact absurd rfl h2
    | true =>
      rw [hi] at h2
      rw [if_neg (by decide)] at h2
      rw [if_neg (by decide)]
      cases hf : findFunctionByName pr c.pkg c.name with
      | none => rw [hf] at h2; exact absurd rfl h2
      | some g =>
        rw [hf] at h2
        dsimp only at h2 ⊢
        obtain ⟨rest, h3, h4⟩ := concrete_one iface g _ rfl h2
        refine ⟨rfl, ?_⟩
        unfold findFunctionByName at hf
        rw [if_neg hn] at hf
        cases h5 : ((filesOf pr c.pkg).flatMap (·.funcs)).find? (fun g => g.name == c.name) with
        | some x =>
          rw [h5] at hf; cases hf
          have h6 := List.find?_some h5
          obtain ⟨f, hf1, hf2⟩ := List.mem_flatMap.1 (List.mem_of_find?_eq_some h5)
          obtain ⟨fs, h7, h8⟩ := filesOf_mem pr c.pkg f hf1
          exact ⟨c.pkg, g, rest, ⟨fs, f, h7, h8, hf2, by simpa using h6⟩, h3, h4⟩
        | none =>
          rw [h5] at hf
          have hf : (pr.flatMap fun p => p.2.flatMap (·.funcs)).find? (fun g => g.name == c.name) = some g := hf
          have h6 := List.find?_some hf
          obtain ⟨e, he, hg⟩ := List.mem_flatMap.1 (List.mem_of_find?_eq_some hf)
          obtain ⟨f, hf1, hf2⟩ := List.mem_flatMap.1 hg
          exact ⟨e.1, g, rest, ⟨e.2, f, he, hf1, hf2, by simpa using h6⟩, h3, h4⟩
  · cases hr : resolvedType pr c with
    | none => left; simp [ht]
    | some x =>
      right; left
      unfold resolvedType at hr
      rw [if_neg hn] at hr
      cases hs : (filesOf pr c.pkg).findSome? (inFile c.name) with
      | none => rw [hs] at hr; cases hr
      | some g =>
        rw [hs] at hr
        dsimp only at hr
        split at hr
        · cases hr
        · cases hr
          obtain ⟨t, h1, h2⟩ := (resolved_spec pr ho c hn).1 g hs
          exact ⟨t, g, h1, h2, rfl⟩

/-- The result is not an interface: it is what is documented, if all functions and methods of that name in the package
have the same result.  Missing: `C114_receiver_ignored`. -/
theorem C114_plain_partial (pr : Prog) (ho : Once pr) (iface : String → Bool) (shown : String) (c : Call) (t : Target) (g : Fn) (hc : CallOf pr c t g)
    (hi : iface g.result = false) (hone : ∀ t' g', Declares pr c.name t' g' → t'.pkg = c.pkg → g'.result = g.result) :
    Right iface g (bodyType pr iface shown c) ∧ bodyType pr iface shown c = g.result := by
  obtain ⟨_, _, htyp, hn, hne⟩ := hc
  have key : bodyType pr iface shown c = g.result := by
    rcases C114_sources pr ho iface shown c hn (htyp ▸ hne) with h | ⟨t', g', h1, h2, h3⟩ | ⟨h, _⟩
    · rw [h, htyp]
    · rw [h3, hone t' g' h1 h2]
    · rw [htyp, hi] at h; cases h
  exact ⟨key ▸ .plain hi, key⟩

/-- The result is an interface, and the function, the only one of its name, returns values of one concrete type: that type
is documented.  Missing: functions that return several types, `C114_first_return`, and methods, `C114_any_function`. -/
theorem C114_interface_partial (pr : Prog) (ho : Once pr) (iface : String → Bool) (shown : String) (c : Call) (p : String) (g : Fn)
    (hc : CallOf pr c (.func p) g) (hi : iface g.result = true) (t : String) (ht : t ≠ "") (hti : iface t = false)
    (hne : g.returns ≠ []) (hret : ∀ r ∈ g.returns, r = t) (hone : ∀ g', Declares pr c.name (.func c.pkg) g' → g' = g) :
    Right iface g (bodyType pr iface shown c) ∧ bodyType pr iface shown c = t := by
  obtain ⟨hd, hp, htyp, hn, hne'⟩ := hc
  have hp : c.pkg = p := hp
  subst hp
  have hcon : concreteFromCalleeReturn pr iface c = t := by
    unfold concreteFromCalleeReturn
    rw [htyp, hi]
    rw [if_neg (by decide)]
    have hfind : findFunctionByName pr c.pkg c.name = some g := by
      unfold findFunctionByName
      rw [if_neg hn]
      cases h5 : ((filesOf pr c.pkg).flatMap (·.funcs)).find? (fun g => g.name == c.name) with
      | some x =>
        have h6 := List.find?_some h5
        obtain ⟨f, hf1, hf2⟩ := List.mem_flatMap.1 (List.mem_of_find?_eq_some h5)
        obtain ⟨fs, h7, h8⟩ := filesOf_mem pr c.pkg f hf1
        have := hone x ⟨fs, f, h7, h8, hf2, by simpa using h6⟩
        rw [this]
      | none =>
        obtain ⟨fs, f, h1, h2, h3, h4⟩ := hd
        have := List.find?_eq_none.1 h5 g (List.mem_flatMap.2 ⟨f, by rw [filesOf_eq pr ho _ fs h1]; exact h2, h3⟩)
        exact absurd h4 (by simpa using this)
    rw [hfind]
    dsimp only
    unfold returnVars
    cases hr : g.returns with
    | nil => exact absurd hr hne
    | cons r rs =>
      have hrt : r = t := hret r (by rw [hr]; exact List.mem_cons_self)
      subst hrt
      show concreteLoop iface "" [r] = r
      unfold concreteLoop
      rw [if_neg (by simp [ht, hti]), if_neg (by simp)]
      rfl
  have key : bodyType pr iface shown c = t := by
    unfold bodyType
    rw [hcon, if_pos ⟨htyp ▸ hne', ht⟩]
  exact ⟨key ▸ .concrete t hi ht hti hne hret, key⟩

/-! ### Instances and what does not hold -/

abbrev users : Fn := ⟨"Get", "User", ["User"]⟩
abbrev orders : Fn := ⟨"Get", "Order", ["Order"]⟩
abbrev make : Fn := ⟨"makeAnimal", "Animal", ["Dog", "Cat"]⟩
abbrev dog : Fn := ⟨"makeDog", "Animal", ["Dog"]⟩

/-- A package with two services and functions that return an interface. -/
abbrev demo : Prog :=
  [("app", [⟨[make, dog, ⟨"load", "User", ["User"]⟩], [("Orders", [orders]), ("Pets", [⟨"Best", "Animal", ["Cat"]⟩]), ("Users", [users])]⟩]),
   ("other", [⟨[⟨"Best", "Animal", ["Dog"]⟩], []⟩])]

abbrev demoIface (t : String) : Bool := t == "Animal"

example : Once demo ∧ CallOf demo ⟨"app", "load", "User"⟩ (.func "app") ⟨"load", "User", ["User"]⟩ ∧
    bodyType demo demoIface "load()" ⟨"app", "load", "User"⟩ = "User" ∧ bodyType demo demoIface "makeDog()" ⟨"app", "makeDog", "Animal"⟩ = "Dog" := by
  refine ⟨by unfold Once; decide, ⟨⟨_, _, List.mem_cons_self, List.mem_cons_self, by decide, rfl⟩, rfl, rfl, by decide, by decide⟩, by decide, by decide⟩

/-- The type of the call is known exactly and replaced by that of the first method of the same name in the package:
`Encode(users.Get())` is documented as an `Order`. -/
theorem C114_receiver_ignored : CallOf demo ⟨"app", "Get", "User"⟩ (.method "app" "Users") users ∧ Right demoIface users "User" ∧
    bodyType demo demoIface "users.Get()" ⟨"app", "Get", "User"⟩ = "Order" := by
  refine ⟨⟨⟨_, _, _, List.mem_cons_self, List.mem_cons_self, List.mem_cons_of_mem _ (List.mem_cons_of_mem _ List.mem_cons_self), List.mem_cons_self, rfl⟩,
    rfl, rfl, by decide, by decide⟩, .plain rfl, by decide⟩

/-- Only the first return statement is looked at: a function that returns a `Dog` or a `Cat` is documented as returning a
`Dog`, although the interface was to be kept. -/
theorem C114_first_return : CallOf demo ⟨"app", "makeAnimal", "Animal"⟩ (.func "app") make ∧ Right demoIface make "Animal" ∧
    bodyType demo demoIface "makeAnimal()" ⟨"app", "makeAnimal", "Animal"⟩ = "Dog" := by
  refine ⟨⟨⟨_, _, List.mem_cons_self, List.mem_cons_self, List.mem_cons_self, rfl⟩, rfl, rfl, by decide, by decide⟩, .keep rfl ?_, by decide⟩
  rintro t _ _ ⟨_, h⟩
  have h1 := h "Dog" List.mem_cons_self
  have h2 := h "Cat" (List.mem_cons_of_mem _ List.mem_cons_self)
  rw [← h1] at h2
  exact absurd h2 (by decide)

/-- A method that returns an interface is looked for among the functions, of any package: `pets.Best()`, which returns a
`Cat`, is documented as the `Dog` an unrelated function of that name returns. -/
theorem C114_any_function : CallOf demo ⟨"app", "Best", "Animal"⟩ (.method "app" "Pets") ⟨"Best", "Animal", ["Cat"]⟩ ∧
    Right demoIface ⟨"Best", "Animal", ["Cat"]⟩ "Cat" ∧ bodyType demo demoIface "pets.Best()" ⟨"app", "Best", "Animal"⟩ = "Dog" := by
  refine ⟨⟨⟨_, _, _, List.mem_cons_self, List.mem_cons_self, List.mem_cons_of_mem _ List.mem_cons_self, List.mem_cons_self, rfl⟩,
    rfl, rfl, by decide, by decide⟩, .concrete "Cat" rfl (by decide) rfl (by decide) (by decide), by decide⟩

end Verif.CallBody
