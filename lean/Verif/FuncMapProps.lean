import Verif.FuncMapModel
/-!
# C123: for a call, the declaration of the function called is read
-/

namespace Verif.FuncMap

/-! ### Specification -/

/-- A name of Go: not empty, no dot, no star. -/
def Ident (t : Text) : Prop := t ≠ [] ∧ '.' ∉ t ∧ '*' ∉ t

/-- All declarations with the paths of their packages, in the order in which they are read. -/
def order (pkgs : Pkgs) : List (Text × Decl) := pkgs.flatMap fun p => p.2.flatMap fun f => f.decls.map fun d => (p.1, d)

/-- The receiver of a call as it is recorded: empty for a function, `T` or `*T` for a method of T. -/
inductive Calls : Text → Option Text → Prop
  | function : Calls [] none
  | value (t : Text) (h : Ident t) : Calls t (some t)
  | pointer (t : Text) (h : Ident t) : Calls ('*' :: t) (some t)

/-- The declaration is that of the function of this name, or of the method of this name of this type. -/
def IsOf (d : Decl) (type : Option Text) (fn : Text) : Prop :=
  d.name = fn ∧ match type with
    | none => d.recv = none
    | some t => d.recv = some (.ident t) ∨ d.recv = some (.star t)

/-- What the compiler accepts: files have a package clause, and names are names. -/
structure WellFormed (pkgs : Pkgs) : Prop where
  clause : ∀ p ∈ pkgs, ∀ f ∈ p.2, f.pkgName ≠ []
  name : ∀ e ∈ order pkgs, Ident e.2.name
  recv : ∀ e ∈ order pkgs, ∀ t, (e.2.recv = some (.ident t) ∨ e.2.recv = some (.star t)) → Ident t

/-- No package has the path of another one, a dot and a name. -/
def Apart (pkgs : Pkgs) (pkg : Text) : Prop :=
  ∀ p ∈ pkgs, ∀ t, Ident t → p.1 ≠ pkg ++ ['.'] ++ t ∧ pkg ≠ p.1 ++ ['.'] ++ t

/-! ### Lemmas -/

theorem split_dot (a b x y : Text) (hx : '.' ∉ x) (hy : '.' ∉ y) (h : a ++ '.' :: x = b ++ '.' :: y) : a = b ∧ x = y := by
  rcases List.append_eq_append_iff.1 h with ⟨c, e1, e2⟩ | ⟨c, e1, e2⟩
  · cases c with
    | nil => simp at e1 e2; exact ⟨e1.symm, e2⟩
    | cons z c =>
      simp only [List.cons_append, List.cons.injEq] at e2
      rw [e2.2] at hx; simp at hx
  · cases c with
    | nil => simp at e1 e2; exact ⟨e1, e2.symm⟩
    | cons z c =>
      simp only [List.cons_append, List.cons.injEq] at e2
      rw [e2.2] at hy; simp at hy

/-- The entries in the order in which they are put. -/
def entries (pkgs : Pkgs) : List (Text × Decl) :=
  pkgs.flatMap fun p => p.2.flatMap fun f => f.decls.filterMap fun d => (declKey p.1 f d).map fun k => (k, d)

theorem put_file (pkg : Text) (f : File) (ds : List Decl) : ∀ m : List (Text × Decl),
    ds.foldl (fun m d => put m pkg f d) m = (ds.filterMap fun d => (declKey pkg f d).map fun k => (k, d)).reverse ++ m := by
  induction ds with
  | nil => intro m; rfl
  | cons d ds ih =>
    intro m
    rw [List.foldl_cons, ih]
    unfold put
    cases h : declKey pkg f d with
    | none => rw [List.filterMap_cons_none (by simp [h])]
    | some k => rw [List.filterMap_cons_some (b := (k, d)) (by simp [h])]; simp

theorem put_files (pkg : Text) (fs : List File) : ∀ m : List (Text × Decl),
    fs.foldl (fun m f => f.decls.foldl (fun m d => put m pkg f d) m) m =
      (fs.flatMap fun f => f.decls.filterMap fun d => (declKey pkg f d).map fun k => (k, d)).reverse ++ m := by
  induction fs with
  | nil => intro m; rfl
  | cons f fs ih =>
    intro m
    rw [List.foldl_cons, ih, put_file, List.flatMap_cons, List.reverse_append, List.append_assoc]

theorem put_pkgs (ps : Pkgs) : ∀ m : List (Text × Decl),
    ps.foldl (fun m p => p.2.foldl (fun m f => f.decls.foldl (fun m d => put m p.1 f d) m) m) m = (entries ps).reverse ++ m := by
  induction ps with
  | nil => intro m; rfl
  | cons p ps ih =>
    intro m
    rw [List.foldl_cons, ih, put_files]
    unfold entries
    rw [List.flatMap_cons, List.reverse_append, List.append_assoc]

theorem map_entries (pkgs : Pkgs) : buildFuncMap pkgs = (entries pkgs).reverse := by
  unfold buildFuncMap
  rw [put_pkgs, List.append_nil]

/-- The key without the file. -/
def keyOf (e : Text × Decl) : Option Text :=
  match e.2.recv with
  | none => some (e.1 ++ '.' :: e.2.name)
  | some r => if typeName r ≠ [] then some (e.1 ++ '.' :: typeName r ++ '.' :: e.2.name) else none

theorem key_of (pkg : Text) (f : File) (d : Decl) (h : f.pkgName ≠ []) : declKey pkg f d = keyOf (pkg, d) := by
  unfold declKey keyOf
  cases d.recv <;> simp only [if_pos h]

theorem file_order (pkg : Text) (f : File) (h : f.pkgName ≠ []) (ds : List Decl) :
    (ds.filterMap fun d => (declKey pkg f d).map fun k => (k, d)) = (ds.map fun d => (pkg, d)).filterMap fun e => (keyOf e).map fun k => (k, e.2) := by
  induction ds with
  | nil => rfl
  | cons d ds ih =>
    rw [List.map_cons, List.filterMap_cons, List.filterMap_cons, ih, key_of pkg f d h]

theorem files_order (pkg : Text) (fs : List File) (h : ∀ f ∈ fs, f.pkgName ≠ []) :
    (fs.flatMap fun f => f.decls.filterMap fun d => (declKey pkg f d).map fun k => (k, d)) =
      (fs.flatMap fun f => f.decls.map fun d => (pkg, d)).filterMap fun e => (keyOf e).map fun k => (k, e.2) := by
  induction fs with
  | nil => rfl
  | cons f fs ih =>
    rw [List.flatMap_cons, List.flatMap_cons, List.filterMap_append, ih (fun g hg => h g (List.mem_cons_of_mem _ hg)),
      file_order pkg f (h f List.mem_cons_self)]

theorem entries_order (pkgs : Pkgs) (h : ∀ p ∈ pkgs, ∀ f ∈ p.2, f.pkgName ≠ []) :
    entries pkgs = (order pkgs).filterMap fun e => (keyOf e).map fun k => (k, e.2) := by
  induction pkgs with
  | nil => rfl
  | cons p ps ih =>
    have ih' := ih (fun q hq => h q (List.mem_cons_of_mem _ hq))
    unfold entries order at ih' ⊢
    rw [List.flatMap_cons, List.flatMap_cons, List.filterMap_append, ih', files_order p.1 p.2 (h p List.mem_cons_self)]

theorem order_pkg (pkgs : Pkgs) (e : Text × Decl) (h : e ∈ order pkgs) : ∃ p ∈ pkgs, p.1 = e.1 := by
  unfold order at h
  simp only [List.mem_flatMap, List.mem_map] at h
  obtain ⟨p, hp, f, _, d, _, rfl⟩ := h
  exact ⟨p, hp, rfl⟩

theorem trim_ident (t : Text) (h : Ident t) : trimStar t = t := by
  cases t with
  | nil => rfl
  | cons x xs =>
    have : x ≠ '*' := fun e => h.2.2 (by simp [e])
    unfold trimStar
    split
    · next e => simp only [List.cons.injEq] at e; exact absurd e.1 this
    · rfl

/-- The key of a call by the type. -/
def calledKey (pkg : Text) (type : Option Text) (fn : Text) : Text :=
  match type with
  | none => pkg ++ '.' :: fn
  | some t => (pkg ++ '.' :: t) ++ '.' :: fn

/-- A declaration is kept under the key of a call iff it is that of the function called. -/
theorem key_iff (pkgs : Pkgs) (wf : WellFormed pkgs) (pkg parts fn : Text) (type : Option Text) (hc : Calls parts type) (hf : Ident fn)
    (ha : Apart pkgs pkg) (e : Text × Decl) (he : e ∈ order pkgs) :
    keyOf e = some (calleeKey pkg parts fn) ↔ e.1 = pkg ∧ IsOf e.2 type fn := by
  obtain ⟨p, d⟩ := e
  obtain ⟨q, hq, eq⟩ := order_pkg pkgs _ he
  have hn : Ident d.name := wf.name _ he
  have hr : ∀ t, (d.recv = some (.ident t) ∨ d.recv = some (.star t)) → Ident t := wf.recv _ he
  simp only at eq
  have ck : calleeKey pkg parts fn = calledKey pkg type fn := by
    cases hc with
    | function => rfl
    | value t h =>
      unfold calleeKey
      rw [if_neg h.1, trim_ident _ h]
      simp [calledKey]
    | pointer t h =>
      unfold calleeKey
      rw [if_neg (by simp)]
      simp [trimStar, calledKey]
  rw [ck]
  have hd : ∀ t, type = some t → Ident t := by
    intro t e
    cases hc with
    | function => cases e
    | value t h => cases e; exact h
    | pointer t h => cases e; exact h
  have meth : ∀ u, (d.recv = some (.ident u) ∨ d.recv = some (.star u)) →
      (some ((p ++ '.' :: u) ++ '.' :: d.name) = some (calledKey pkg type fn) ↔ p = pkg ∧ IsOf d type fn) := by
    intro u hu
    have iu := hr u hu
    rw [Option.some.injEq]
    cases type with
    | none =>
      constructor
      · intro h
        have := (split_dot _ _ _ _ hn.2.1 hf.2.1 h).1
        exact absurd (this.symm.trans (by simp [eq])) ((ha q hq u iu).2)
      · rintro ⟨_, _, h⟩
        simp only at h
        rw [h] at hu
        rcases hu with hu | hu <;> cases hu
    | some t =>
      have it := hd t rfl
      constructor
      · intro h
        obtain ⟨h1, h2⟩ := split_dot _ _ _ _ hn.2.1 hf.2.1 h
        obtain ⟨h3, h4⟩ := split_dot _ _ _ _ iu.2.1 it.2.1 h1
        exact ⟨h3, h2, h4 ▸ hu⟩
      · rintro ⟨h1, h2, h⟩
        simp only at h
        have : u = t := by
          rcases hu with hu | hu <;> rcases h with h | h <;> rw [hu] at h <;> cases h <;> rfl
        rw [h1, h2, this]; rfl
  unfold keyOf
  cases hrec : d.recv with
  | none =>
    simp only [hrec, Option.some.injEq]
    cases type with
    | none =>
      constructor
      · intro h
        obtain ⟨h1, h2⟩ := split_dot _ _ _ _ hn.2.1 hf.2.1 h
        exact ⟨h1, h2, hrec⟩
      · rintro ⟨h1, h2, _⟩
        rw [h1, h2]; rfl
    | some t =>
      constructor
      · intro h
        have := (split_dot _ _ _ _ hn.2.1 hf.2.1 h).1
        exact absurd (eq.trans (this.trans (by simp))) ((ha q hq t (hd t rfl)).1)
      · rintro ⟨_, _, h⟩
        simp only [hrec] at h
        rcases h with h | h <;> cases h
  | some r =>
    cases r with
    | ident u =>
      have := meth u (.inl hrec)
      simp only [hrec, typeName, ne_eq, (hr u (.inl hrec)).1, not_false_eq_true, if_true]
      simpa [calledKey] using this
    | star u =>
      have := meth u (.inr hrec)
      simp only [hrec, typeName, ne_eq, (hr u (.inr hrec)).1, not_false_eq_true, if_true]
      simpa [calledKey] using this
    | other =>
      simp only [hrec, typeName, ne_eq, not_true_eq_false, if_false]
      refine ⟨fun h => (by cases h), ?_⟩
      rintro ⟨_, _, h⟩
      cases type with
      | none => simp only [hrec] at h; cases h
      | some t => simp only [hrec] at h; rcases h with h | h <;> cases h

theorem find_entries (k : Text) (l : List (Text × Decl)) :
    (((l.filterMap fun e => (keyOf e).map fun k => (k, e.2)).reverse.find? (fun e => decide (e.1 = k))).map (·.2)) =
      (l.reverse.find? (fun e => decide (keyOf e = some k))).map (·.2) := by
  rw [← List.filterMap_reverse]
  generalize l.reverse = l
  induction l with
  | nil => rfl
  | cons e l ih =>
    cases h : keyOf e with
    | none =>
      rw [List.filterMap_cons_none (by simp [h]), ih, List.find?_cons_of_neg (by simp [h])]
    | some k' =>
      rw [List.filterMap_cons_some (b := (k', e.2)) (by simp [h])]
      by_cases hk : k' = k
      · rw [List.find?_cons_of_pos (by simp [hk]), List.find?_cons_of_pos (by simp [h, hk])]; rfl
      · rw [List.find?_cons_of_neg (by simp [hk]), ih, List.find?_cons_of_neg (by simp [h, hk])]

theorem declOf_order (pkgs : Pkgs) (wf : WellFormed pkgs) (pkg parts fn : Text) :
    declOf pkgs pkg parts fn = ((order pkgs).reverse.find? (fun e => decide (keyOf e = some (calleeKey pkg parts fn)))).map (·.2) := by
  unfold declOf
  rw [map_entries, entries_order pkgs wf.clause, find_entries]

/-! ### Properties -/

/-- The declaration that is read for a call is one of the package called, of the function or method called. -/
theorem C123_sound_partial (pkgs : Pkgs) (wf : WellFormed pkgs) (pkg parts fn : Text) (type : Option Text) (hc : Calls parts type) (hf : Ident fn)
    (ha : Apart pkgs pkg) (d : Decl) (h : declOf pkgs pkg parts fn = some d) :
    (∃ files, (pkg, files) ∈ pkgs ∧ ∃ f ∈ files, d ∈ f.decls) ∧ IsOf d type fn := by
  rw [declOf_order pkgs wf] at h
  obtain ⟨e, he, rfl⟩ := Option.map_eq_some_iff.1 h
  have hm := List.mem_reverse.1 (List.mem_of_find?_eq_some he)
  have hk := List.find?_some he
  simp only [decide_eq_true_eq] at hk
  obtain ⟨h1, h2⟩ := (key_iff pkgs wf pkg parts fn type hc hf ha e hm).1 hk
  refine ⟨?_, h2⟩
  unfold order at hm
  simp only [List.mem_flatMap, List.mem_map] at hm
  obtain ⟨p, hp, f, hfm, d', hd, rfl⟩ := hm
  exact ⟨p.2, by rw [← h1]; exact hp, f, hfm, hd⟩

/-- If the function or method called is declared, its declaration is read; if it is declared more than once, the last one. -/
theorem C123_found_partial (pkgs : Pkgs) (wf : WellFormed pkgs) (pkg parts fn : Text) (type : Option Text) (hc : Calls parts type) (hf : Ident fn)
    (ha : Apart pkgs pkg) (d : Decl) (hd : IsOf d type fn) (before after : List (Text × Decl)) (ho : order pkgs = before ++ (pkg, d) :: after)
    (hl : ∀ e ∈ after, e.1 = pkg → ¬ IsOf e.2 type fn) :
    declOf pkgs pkg parts fn = some d := by
  rw [declOf_order pkgs wf, ho, List.reverse_append, List.reverse_cons, List.append_assoc, List.find?_append]
  have hn : after.reverse.find? (fun e => decide (keyOf e = some (calleeKey pkg parts fn))) = none := by
    rw [List.find?_eq_none]
    intro e he hk
    simp only [decide_eq_true_eq] at hk
    have he' : e ∈ order pkgs := by rw [ho]; exact List.mem_append_right _ (List.mem_cons_of_mem _ (List.mem_reverse.1 he))
    obtain ⟨h1, h2⟩ := (key_iff pkgs wf pkg parts fn type hc hf ha e he').1 hk
    exact hl e (List.mem_reverse.1 he) h1 h2
  have hk : keyOf (pkg, d) = some (calleeKey pkg parts fn) :=
    (key_iff pkgs wf pkg parts fn type hc hf ha (pkg, d) (by rw [ho]; simp)).2 ⟨rfl, hd⟩
  rw [hn, Option.none_or, List.singleton_append, List.find?_cons_of_pos (by simp [hk])]
  rfl

/-- If it is not declared in the packages that are analysed, nothing is read. -/
theorem C123_nothing_partial (pkgs : Pkgs) (wf : WellFormed pkgs) (pkg parts fn : Text) (type : Option Text) (hc : Calls parts type) (hf : Ident fn)
    (ha : Apart pkgs pkg) (h : ∀ e ∈ order pkgs, e.1 = pkg → ¬ IsOf e.2 type fn) : declOf pkgs pkg parts fn = none := by
  rw [declOf_order pkgs wf, Option.map_eq_none_iff, List.find?_eq_none]
  intro e he hk
  simp only [decide_eq_true_eq] at hk
  obtain ⟨h1, h2⟩ := (key_iff pkgs wf pkg parts fn type hc hf ha e (List.mem_reverse.1 he)).1 hk
  exact h e (List.mem_reverse.1 he) h1 h2

/-- A method of a generic type is never read: its receiver is neither a name nor a pointer to one. -/
theorem C123_generic (pkgs : Pkgs) (k : Text) (d : Decl) (h : d.recv = some .other) : (k, d) ∉ buildFuncMap pkgs := by
  rw [map_entries, List.mem_reverse]
  unfold entries
  simp only [List.mem_flatMap, List.mem_filterMap]
  rintro ⟨p, _, f, _, d', _, e⟩
  obtain ⟨k', ek, e⟩ := Option.map_eq_some_iff.1 e
  cases e
  unfold declKey at ek
  simp [h, typeName] at ek

/-! ### Cases that meet the hypotheses -/

abbrev c (s : String) : Text := s.toList

def api : File := ⟨c "api", [⟨none, c "List", 1⟩, ⟨some (.star (c "Server")), c "List", 2⟩, ⟨some .other, c "All", 3⟩]⟩
def api2 : File := ⟨c "api", [⟨some (.ident (c "Client")), c "List", 4⟩]⟩
def store : File := ⟨c "store", [⟨none, c "List", 5⟩]⟩
def shop : Pkgs := [(c "shop/api", [api, api2]), (c "shop/store", [store])]

example : declOf shop (c "shop/api") [] (c "List") = some ⟨none, c "List", 1⟩ := by decide
example : declOf shop (c "shop/api") (c "*Server") (c "List") = some ⟨some (.star (c "Server")), c "List", 2⟩ := by decide
example : declOf shop (c "shop/api") (c "Client") (c "List") = some ⟨some (.ident (c "Client")), c "List", 4⟩ := by decide
example : declOf shop (c "shop/api") (c "Pages[K]") (c "All") = none := by decide

theorem shop_wf : WellFormed shop := by
  refine ⟨by decide, ?_, ?_⟩
  · have : ∀ e ∈ order shop, e.2.name ≠ [] ∧ '.' ∉ e.2.name ∧ '*' ∉ e.2.name := by decide
    exact this
  · have : ∀ e ∈ order shop, ∀ r, e.2.recv = some r → r = .other ∨ (typeName r ≠ [] ∧ '.' ∉ typeName r ∧ '*' ∉ typeName r) := by
      intro e he r hr
      have := (by decide : ∀ e ∈ order shop, e.2.recv = none ∨ e.2.recv = some .other ∨
        (typeName (e.2.recv.getD .other) ≠ [] ∧ '.' ∉ typeName (e.2.recv.getD .other) ∧ '*' ∉ typeName (e.2.recv.getD .other))) e he
      rw [hr] at this
      rcases this with h | h | h
      · cases h
      · cases h; exact .inl rfl
      · exact .inr h
    intro e he t ht
    rcases ht with ht | ht
    · rcases this e he _ ht with h | h
      · cases h
      · exact h
    · rcases this e he _ ht with h | h
      · cases h
      · exact h

theorem shop_apart : Apart shop (c "shop/api") := by
  intro p hp t ht
  have key : ∀ a b : Text, '.' ∉ a → a ≠ b ++ ['.'] ++ t := by
    intro a b ha e
    rw [e] at ha
    simp at ha
  have hp' := (by decide : ∀ p ∈ shop.map (·.1), '.' ∉ p) p.1 (List.mem_map_of_mem hp)
  exact ⟨key _ _ hp', key _ _ (by decide)⟩

/-- The hypotheses are met by a call of a method and the only declaration of it. -/
example : declOf shop (c "shop/api") (c "*Server") (c "List") = some ⟨some (.star (c "Server")), c "List", 2⟩ :=
  C123_found_partial shop shop_wf _ _ _ _ (.pointer (c "Server") ⟨by decide, by decide, by decide⟩) ⟨by decide, by decide, by decide⟩ shop_apart _
    ⟨rfl, .inr rfl⟩ [(c "shop/api", ⟨none, c "List", 1⟩)]
    [(c "shop/api", ⟨some .other, c "All", 3⟩), (c "shop/api", ⟨some (.ident (c "Client")), c "List", 4⟩), (c "shop/store", ⟨none, c "List", 5⟩)]
    rfl (by
      intro e he _ h
      have := (by decide : ∀ e ∈ [((c "shop/api" : Text), (⟨some .other, c "All", 3⟩ : Decl)), (c "shop/api", ⟨some (.ident (c "Client")), c "List", 4⟩), (c "shop/store", ⟨none, c "List", 5⟩)],
        ¬ (e.2.name = c "List" ∧ (e.2.recv = some (.ident (c "Server")) ∨ e.2.recv = some (.star (c "Server"))))) e he
      exact this h)

/-- A package whose path is that of another one, a dot and a name: its function is read for the method of that type. -/
theorem C123_other_package : ∃ (pkgs : Pkgs) (d : Decl), (c "gopkg.in/yaml", [(⟨c "yaml", [⟨some (.ident (c "v3")), c "Load", 1⟩]⟩ : File)]) ∈ pkgs ∧
    declOf pkgs (c "gopkg.in/yaml") (c "v3") (c "Load") = some d ∧ d.recv = none ∧ d.body = 2 :=
  ⟨[(c "gopkg.in/yaml", [⟨c "yaml", [⟨some (.ident (c "v3")), c "Load", 1⟩]⟩]), (c "gopkg.in/yaml.v3", [⟨c "yaml", [⟨none, c "Load", 2⟩]⟩])],
    ⟨none, c "Load", 2⟩, by simp, by decide, rfl, rfl⟩

end Verif.FuncMap
