import Verif.HandlerDocProps

/-!
# C71: an operation is documented with its own handler's comment
-/

namespace Verif.HandlerDoc

/-! ## Specification -/

/-- The package declares a function with this comment. -/
def DeclaresFunc (m : Meta) (p f doc : Str) : Prop :=
  ∃ k ∈ m.pkgs, k.path = p ∧ ∃ x ∈ k.files, (f, doc) ∈ x.funcs

/-- The package declares a method of `t` or of `*t` with this comment. -/
def DeclaresMeth (m : Meta) (p t n doc : Str) : Prop :=
  ∃ k ∈ m.pkgs, k.path = p ∧ ∃ x ∈ k.files, ∃ d ∈ x.types, ∃ y ∈ d.methods,
    y.name = n ∧ (y.recv = t ∨ y.recv = '*' :: t) ∧ y.doc = doc

/-- The package declares a type with this field, of a type with this core. -/
def DeclaresField (m : Meta) (p o f : Str) (c : Option (Str × Str)) : Prop :=
  ∃ k ∈ m.pkgs, k.path = p ∧ ∃ d, (d ∈ k.own ∨ ∃ x ∈ k.files, d ∈ x.types) ∧ d.name = o ∧
    ∃ y ∈ d.fields, y.name = f ∧ y.core = c

/-- What the compiler sees to: packages have one path each, and a package does not
declare a function, a method or a field twice. -/
structure Legal (m : Meta) : Prop where
  path : ∀ k ∈ m.pkgs, ∀ k' ∈ m.pkgs, k.path = k'.path → k = k'
  func : ∀ p f d d', DeclaresFunc m p f d → DeclaresFunc m p f d' → d = d'
  meth : ∀ p t n d d', DeclaresMeth m p t n d → DeclaresMeth m p t n d' → d = d'
  type : ∀ k ∈ m.pkgs, ∀ d d', (d ∈ k.own ∨ ∃ x ∈ k.files, d ∈ x.types) →
    (d' ∈ k.own ∨ ∃ x ∈ k.files, d' ∈ x.types) → d.name = d'.name → d = d'
  field : ∀ k ∈ m.pkgs, ∀ d, (d ∈ k.own ∨ ∃ x ∈ k.files, d ∈ x.types) →
    ∀ y ∈ d.fields, ∀ y' ∈ d.fields, y.name = y'.name → y = y'

/-- An identifier, as far as it matters. -/
def Ident (s : Str) : Prop := s ≠ [] ∧ '.' ∉ s ∧ '>' ∉ s ∧ '*' ∉ s

/-- An import path. -/
def Path (p : Str) : Prop := p ≠ [] ∧ '>' ∉ p

/-! ## Lemmas -/

theorem splitLast_none {s : Str} (h : '.' ∉ s) : splitLast s = none := by
  induction s with
  | nil => rfl
  | cons c s ih =>
    simp only [List.mem_cons, not_or] at h
    rw [splitLast, ih h.2]
    exact if_neg fun e => h.1 e.symm

theorem splitLast_append {a b : Str} (h : '.' ∉ b) : splitLast (a ++ '.' :: b) = some (a, b) := by
  induction a with
  | nil => simp [splitLast, splitLast_none h]
  | cons c a ih => rw [List.cons_append, splitLast, ih]

theorem replaceSep_self {s : Str} (h : '>' ∉ s) : replaceSep s = s := by
  induction s with
  | nil => rfl
  | cons c s ih =>
    have hs : replaceSep s = s := ih fun e => h (List.mem_cons_of_mem _ e)
    unfold replaceSep
    split
    · rename_i c' r e
      injection e with e1 e2
      subst e2
      exact absurd (by simp) h
    · rename_i c' r _ e
      injection e with e1 e2
      subst e1 e2
      rw [hs]
    · rename_i e; cases e

theorem replaceSep_sep {p s : Str} (h : '>' ∉ p) :
    replaceSep (p ++ '-' :: '-' :: '>' :: s) = p ++ '.' :: replaceSep s := by
  induction p with
  | nil => simp [replaceSep]
  | cons c p ih =>
    have hp : '>' ∉ p := fun e => h (List.mem_cons_of_mem _ e)
    have ih := ih hp
    rw [List.cons_append, List.cons_append]
    conv => lhs; unfold replaceSep
    split
    · rename_i r e
      exfalso
      injection e with e1 e2
      cases p with
      | nil => simp at e2
      | cons d p =>
        cases p with
        | nil => simp at e2
        | cons d' p =>
          simp only [List.cons_append, List.cons.injEq] at e2
          exact hp (by simp [e2.2.1])
    · rename_i c' r _ e
      injection e with e1 e2
      subst e1 e2
      rw [ih]
    · rename_i e; cases e

theorem strip_self {p s : Str} (h : ¬ (p ++ ['.']) <+: s) : ∀ n, stripPkg p n s = s
  | 0 => rfl
  | n + 1 => by
    rw [stripPkg, if_neg]
    rw [List.isPrefixOf_iff_prefix]; exact h

theorem strip_pre {p s : Str} (n : Nat) : stripPkg p (n + 1) (p ++ '.' :: s) = stripPkg p n s := by
  rw [stripPkg, if_pos]
  · congr 1
    have : p ++ '.' :: s = (p ++ ['.']) ++ s := by simp
    rw [this, List.drop_left' (by simp)]
  · rw [List.isPrefixOf_iff_prefix]
    exact ⟨s, by simp⟩

theorem notPrefix_ident {p f : Str} (h : '.' ∉ f) : ¬ (p ++ ['.']) <+: f := by
  rintro ⟨r, rfl⟩
  exact h (by simp)

theorem prefix_dot {p t n : Str} (ht : '.' ∉ t) (h : (p ++ ['.']) <+: t ++ '.' :: n) :
    p = t ∨ ∃ b, p = t ++ '.' :: b ∧ (b ++ ['.']) <+: n := by
  obtain ⟨r, e⟩ := h
  rw [List.append_assoc, List.singleton_append] at e
  rcases List.append_eq_append_iff.1 e with ⟨b, h1, h2⟩ | ⟨b, h1, h2⟩
  · cases b with
    | nil => exact Or.inl (by simpa using h1.symm)
    | cons c b =>
      simp only [List.cons_append, List.cons.injEq] at h2
      exact absurd (by rw [h1, ← h2.1]; simp) ht
  · cases b with
    | nil => exact Or.inl (by simpa using h1)
    | cons c b =>
      simp only [List.cons_append, List.cons.injEq] at h2
      refine Or.inr ⟨b, by rw [h1, ← h2.1], r, by rw [h2.2]; simp⟩

theorem notPrefix_two {p t n : Str} (ht : '.' ∉ t) (hn : '.' ∉ n) (hne : p ≠ t) :
    ¬ (p ++ ['.']) <+: t ++ '.' :: n := by
  intro h
  rcases prefix_dot ht h with h | ⟨b, _, h⟩
  · exact hne h
  · exact notPrefix_ident hn h

theorem notPrefix_three {p o f n : Str} (ho : '.' ∉ o) (hf : '.' ∉ f) (hn : '.' ∉ n) (hne : p ≠ o)
    (hne' : p ≠ o ++ '.' :: f) : ¬ (p ++ ['.']) <+: o ++ '.' :: (f ++ '.' :: n) := by
  intro h
  rcases prefix_dot ho h with h | ⟨b, h, h'⟩
  · exact hne h
  · rcases prefix_dot hf h' with h'' | ⟨b', _, h''⟩
    · exact hne' (by rw [h, h''])
    · exact notPrefix_ident hn h''

/-! ### Looking up -/

theorem files_of {m : Meta} (hl : Legal m) {k : Pkg} (hk : k ∈ m.pkgs) : m.files k.path = k.files := by
  unfold Meta.files
  cases h : m.pkgs.find? (·.path = k.path) with
  | none => exact absurd (List.find?_eq_none.1 h k hk) (by simp)
  | some k' =>
    have h1 := List.mem_of_find?_eq_some h
    have h2 := List.find?_some h
    simp only [decide_eq_true_eq] at h2
    rw [hl.path k' h1 k hk h2]

theorem files_mem {m : Meta} {p : Str} {x : File} (h : x ∈ m.files p) :
    ∃ k ∈ m.pkgs, k.path = p ∧ x ∈ k.files := by
  unfold Meta.files at h
  split at h
  · rename_i k hk
    exact ⟨k, List.mem_of_find?_eq_some hk, by simpa using List.find?_some hk, h⟩
  · cases h

theorem fileFunc_mem {f d : Str} {x : File} (h : fileFunc f x = some d) : (f, d) ∈ x.funcs := by
  unfold fileFunc at h
  obtain ⟨y, hy, rfl⟩ := Option.map_eq_some_iff.1 h
  have h1 := List.mem_of_find?_eq_some hy
  have h2 := List.find?_some hy
  simp only [decide_eq_true_eq] at h2
  rw [← h2]; exact h1

theorem findFunc_declared {m : Meta} (hl : Legal m) {p f d : Str} (hf : f ≠ [])
    (h : DeclaresFunc m p f d) : findFunc m p f = some d := by
  obtain ⟨k, hk, rfl, x, hx, hm⟩ := h
  unfold findFunc
  rw [if_neg hf, files_of hl hk]
  cases e : k.files.findSome? (fileFunc f) with
  | some d' =>
    obtain ⟨x', hx', he⟩ := List.exists_of_findSome?_eq_some e
    simp only [Option.some.injEq]
    exact hl.func k.path f d' d ⟨k, hk, rfl, x', hx', fileFunc_mem he⟩ ⟨k, hk, rfl, x, hx, hm⟩
  | none =>
    have := List.findSome?_eq_none_iff.1 e x hx
    unfold fileFunc at this
    rw [Option.map_eq_none_iff] at this
    exact absurd (List.find?_eq_none.1 this _ hm) (by simp)

theorem trimStar_ident {t : Str} (h : '*' ∉ t) : trimStar t = t := by
  unfold trimStar
  split
  · exact absurd (by simp) h
  · rfl

theorem trimStar_recv {t r : Str} (h : '*' ∉ t) (hr : trimStar r = t) : r = t ∨ r = '*' :: t := by
  unfold trimStar at hr
  split at hr
  · exact Or.inr (by rw [hr])
  · exact Or.inl hr

theorem findMeth_sound {m : Meta} {p t n d : Str} (ht : '*' ∉ t) (hne : t ≠ [])
    (h : findMeth m p t n = some d) : DeclaresMeth m p t n d := by
  unfold findMeth at h
  split at h
  · cases h
  · obtain ⟨x, hx, h1⟩ := List.exists_of_findSome?_eq_some h
    obtain ⟨y, hy, h2⟩ := List.exists_of_findSome?_eq_some h1
    obtain ⟨z, hz, rfl⟩ := Option.map_eq_some_iff.1 h2
    obtain ⟨k, hk, hp, hx⟩ := files_mem hx
    have h3 := List.find?_some hz
    simp only [hne, false_or, decide_eq_true_eq, trimStar_ident ht] at h3
    exact ⟨k, hk, hp, x, hx, y, hy, z, List.mem_of_find?_eq_some hz, h3.1, trimStar_recv ht h3.2, rfl⟩

theorem findMeth_declared {m : Meta} (hl : Legal m) {p t n d : Str} (ht : '*' ∉ t) (hne : t ≠ [])
    (hn : n ≠ []) (h : DeclaresMeth m p t n d) : findMeth m p t n = some d := by
  cases e : findMeth m p t n with
  | some d' => rw [hl.meth p t n d' d (findMeth_sound ht hne e) h]
  | none =>
    exfalso
    obtain ⟨k, hk, rfl, x, hx, y, hy, z, hz, h1, h2, _⟩ := h
    unfold findMeth at e
    rw [if_neg hn, files_of hl hk] at e
    have e1 := List.findSome?_eq_none_iff.1 e x hx
    have e2 := List.findSome?_eq_none_iff.1 e1 y hy
    rw [Option.map_eq_none_iff] at e2
    refine absurd (List.find?_eq_none.1 e2 z hz) ?_
    simp only [hne, false_or, decide_eq_true_eq, Decidable.not_not, trimStar_ident ht]
    refine ⟨h1, ?_⟩
    rcases h2 with h2 | h2
    · rw [h2, trimStar_ident ht]
    · rw [h2]; rfl

theorem findMeth_none {m : Meta} {p t n : Str} (ht : '*' ∉ t) (hne : t ≠ [])
    (h : ∀ d, ¬ DeclaresMeth m p t n d) : findMeth m p t n = none := by
  cases e : findMeth m p t n with
  | none => rfl
  | some d => exact absurd (findMeth_sound ht hne e) (h d)

theorem findType_sound {m : Meta} {p o : Str} {d : TypeD} (h : findType m p o = some d) :
    ∃ k ∈ m.pkgs, k.path = p ∧ (d ∈ k.own ∨ ∃ x ∈ k.files, d ∈ x.types) ∧ d.name = o := by
  unfold findType at h
  split at h
  · cases h
  · split at h
    · cases h
    · rename_i k hk
      have hp : k.path = p := by simpa using List.find?_some hk
      refine ⟨k, List.mem_of_find?_eq_some hk, hp, ?_⟩
      split at h
      · rename_i t ht
        obtain rfl := Option.some.inj h
        exact ⟨Or.inl (List.mem_of_find?_eq_some ht), by simpa using List.find?_some ht⟩
      · obtain ⟨x, hx, h1⟩ := List.exists_of_findSome?_eq_some h
        exact ⟨Or.inr ⟨x, hx, List.mem_of_find?_eq_some h1⟩, by simpa using List.find?_some h1⟩

theorem findType_declared {m : Meta} (hl : Legal m) {k : Pkg} (hk : k ∈ m.pkgs) (hp : k.path ≠ [])
    {d : TypeD} (hd : d ∈ k.own ∨ ∃ x ∈ k.files, d ∈ x.types) (hn : d.name ≠ []) :
    findType m k.path d.name = some d := by
  cases e : findType m k.path d.name with
  | some d' =>
    obtain ⟨k', hk', h1, h2, h3⟩ := findType_sound e
    obtain rfl := hl.path k' hk' k hk h1
    rw [hl.type k' hk' d' d h2 hd h3]
  | none =>
    exfalso
    unfold findType at e
    rw [if_neg (by simp [hp, hn])] at e
    have hf : m.pkgs.find? (·.path = k.path) = some k := by
      cases h : m.pkgs.find? (·.path = k.path) with
      | none => exact absurd (List.find?_eq_none.1 h k hk) (by simp)
      | some k' =>
        have h2 := List.find?_some h
        simp only [decide_eq_true_eq] at h2
        rw [hl.path k' (List.mem_of_find?_eq_some h) k hk h2]
    rw [hf] at e
    dsimp only at e
    split at e
    · cases e
    · rename_i h0
      rcases hd with hd | ⟨x, hx, hd⟩
      · exact absurd (List.find?_eq_none.1 h0 d hd) (by simp)
      · have := List.findSome?_eq_none_iff.1 e x hx
        exact absurd (List.find?_eq_none.1 this d hd) (by simp)

theorem receiver_field {m : Meta} (hl : Legal m) {p o f q t : Str} (hp : p ≠ []) (ho : o ≠ [])
    (hf : '.' ∉ f) (h : DeclaresField m p o f (some (q, t))) :
    receiverTypeName m p (o ++ '.' :: f) = t := by
  obtain ⟨k, hk, rfl, d, hd, rfl, y, hy, rfl, hc⟩ := h
  unfold receiverTypeName
  rw [splitLast_append hf]
  dsimp only
  rw [findType_declared hl hk hp hd ho]
  dsimp only
  cases e : d.fields.find? (·.name = y.name) with
  | none => exact absurd (List.find?_eq_none.1 e y hy) (by simp)
  | some y' =>
    have h2 := List.find?_some e
    simp only [decide_eq_true_eq] at h2
    rw [hl.field k hk d hd y' (List.mem_of_find?_eq_some e) y hy h2]
    dsimp only
    rw [hc]

/-! ## The handler's own comment -/

theorem bareName_once {p s : Str} (hp : Path p) (hs : '>' ∉ s) (hn : ¬ (p ++ ['.']) <+: s) :
    bareName p (p ++ '.' :: s) = s := by
  have h : replaceSep (p ++ '.' :: s) = p ++ '.' :: s := by
    apply replaceSep_self
    simp [hp.2, hs]
  unfold bareName
  simp only [h, if_neg hp.1]
  rw [List.length_append, List.length_cons, ← Nat.add_assoc, strip_pre, strip_self hn]

theorem bareName_sep {p s : Str} (hp : Path p) (hs : '>' ∉ s) (hn : ¬ (p ++ ['.']) <+: s) :
    bareName p (p ++ '-' :: '-' :: '>' :: s) = s := by
  have h : replaceSep (p ++ '-' :: '-' :: '>' :: s) = p ++ '.' :: s := by
    rw [replaceSep_sep hp.2, replaceSep_self hs]
  unfold bareName
  simp only [h, if_neg hp.1]
  rw [List.length_append, List.length_cons, ← Nat.add_assoc, strip_pre, strip_self hn]

theorem bareName_twice {p s : Str} (hp : Path p) (hs : '>' ∉ s) (hn : ¬ (p ++ ['.']) <+: s) :
    bareName p (p ++ '-' :: '-' :: '>' :: (p ++ '.' :: s)) = s := by
  have h : replaceSep (p ++ '-' :: '-' :: '>' :: (p ++ '.' :: s)) = p ++ '.' :: (p ++ '.' :: s) := by
    rw [replaceSep_sep hp.2, replaceSep_self (by simp [hp.2, hs])]
  unfold bareName
  simp only [h, if_neg hp.1]
  have : (p ++ '.' :: (p ++ '.' :: s)).length = (2 * p.length + s.length + 1) + 1 := by
    simp only [List.length_append, List.length_cons]; omega
  rw [this, strip_pre, strip_pre, strip_self hn]

/-- **C71, functions.**  A handler that is a function of package `p`, rendered `p.f`, is
documented with its comment. -/
theorem C71_function {m : Meta} (hl : Legal m) {p f doc : Str} (hp : Path p) (hf : Ident f)
    (h : DeclaresFunc m p f doc) (hms : List Str) : handlerComments m p (p ++ '.' :: f) hms = doc := by
  unfold handlerComments
  simp only [bareName_once hp hf.2.2.1 (notPrefix_ident hf.2.1), splitLast_none hf.2.1,
    findFunc_declared hl hf.1 h]

/-- **C71, methods.**  A handler that is a method of a type of package `p`, rendered
`p-->p.T.m`, is documented with its comment, unless the type is called like the package's
path. -/
theorem C71_method_partial {m : Meta} (hl : Legal m) {p t n doc : Str} (hp : Path p) (ht : Ident t)
    (hn : Ident n) (hpt : p ≠ t) (h : DeclaresMeth m p t n doc) (hms : List Str) :
    handlerComments m p (p ++ '-' :: '-' :: '>' :: (p ++ '.' :: (t ++ '.' :: n))) hms = doc := by
  unfold handlerComments
  have hs : '>' ∉ t ++ '.' :: n := by simp [ht.2.2.1, hn.2.2.1]
  simp only [bareName_twice hp hs (notPrefix_two ht.2.1 hn.2.1 hpt), splitLast_append hn.2.1]
  have hr : receiverTypeName m p t = t := by unfold receiverTypeName; rw [splitLast_none ht.2.1]
  rw [hr, findMeth_declared hl ht.2.2.2 ht.1 hn.1 h]

/-- **C71, methods of fields.**  A handler that is a method of a field, rendered
`p-->Owner.Field.m`, is documented with its comment if the field's type is of the same
package. -/
theorem C71_field_partial {m : Meta} (hl : Legal m) {p o f t n doc : Str} (hp : Path p) (ho : Ident o)
    (hf : Ident f) (ht : Ident t) (hn : Ident n) (hpo : p ≠ o) (hpf : p ≠ o ++ '.' :: f)
    (h1 : DeclaresField m p o f (some (p, t))) (h2 : DeclaresMeth m p t n doc) (hms : List Str) :
    handlerComments m p (p ++ '-' :: '-' :: '>' :: (o ++ '.' :: (f ++ '.' :: n))) hms = doc := by
  unfold handlerComments
  have hs : '>' ∉ o ++ '.' :: (f ++ '.' :: n) := by simp [ho.2.2.1, hf.2.2.1, hn.2.2.1]
  have hsp : splitLast (o ++ '.' :: (f ++ '.' :: n)) = some (o ++ '.' :: f, n) := by
    rw [show o ++ '.' :: (f ++ '.' :: n) = (o ++ '.' :: f) ++ '.' :: n by simp, splitLast_append hn.2.1]
  simp only [bareName_sep hp hs (notPrefix_three ho.2.1 hf.2.1 hn.2.1 hpo hpf), hsp]
  rw [receiver_field hl hp.1 ho.1 hf.2.1 h1, findMeth_declared hl ht.2.2.2 ht.1 hn.1 h2]

/-- **C71, handler values.**  A handler that is a value of a type of package `p`, rendered
`p.T`, is documented with the comment of the first configured method it declares, if no
package declares a function of that name. -/
theorem C71_value_partial {m : Meta} (hl : Legal m) {p t doc : Str} (hp : Path p) (ht : Ident t)
    {pre post : List Str} {hm : Str} (hhm : hm ≠ [])
    (hpre : ∀ x ∈ pre, ∀ d, ¬ DeclaresMeth m p t x d) (h : DeclaresMeth m p t hm doc)
    (hfun : ∀ q d, ¬ DeclaresFunc m q t d) :
    handlerComments m p (p ++ '.' :: t) (pre ++ hm :: post) = doc := by
  have hnf : findFunc m p t = none := by
    cases e : findFunc m p t with
    | none => rfl
    | some d =>
      exfalso
      unfold findFunc at e
      rw [if_neg ht.1] at e
      split at e
      · rename_i d' e1
        obtain ⟨x, hx, h1⟩ := List.exists_of_findSome?_eq_some e1
        obtain ⟨k, hk, hp', hx⟩ := files_mem hx
        exact hfun k.path d' ⟨k, hk, rfl, x, hx, fileFunc_mem h1⟩
      · obtain ⟨k, hk, h1⟩ := List.exists_of_findSome?_eq_some e
        obtain ⟨x, hx, h2⟩ := List.exists_of_findSome?_eq_some h1
        exact hfun k.path d ⟨k, hk, rfl, x, hx, fileFunc_mem h2⟩
  have hfirst : firstMeth m p t (pre ++ hm :: post) = some doc := by
    unfold firstMeth
    induction pre with
    | nil => rw [List.nil_append, List.findSome?_cons, findMeth_declared hl ht.2.2.2 ht.1 hhm h]
    | cons x pre ih =>
      rw [List.cons_append, List.findSome?_cons,
        findMeth_none ht.2.2.2 ht.1 (hpre x List.mem_cons_self)]
      exact ih fun y hy => hpre y (List.mem_cons_of_mem _ hy)
  unfold handlerComments
  simp only [bareName_once hp ht.2.2.1 (notPrefix_ident ht.2.1), splitLast_none ht.2.1, hnf]
  unfold valueComments
  have hr : receiverTypeName m p t = t := by unfold receiverTypeName; rw [splitLast_none ht.2.1]
  rw [if_neg (by simp [ht.1]), hr, hfirst]

/-! ### An instance -/

/-- `package a` with a function, a type with two methods and a struct with a field of
that type. -/
@[reducible] def exMeta : Meta where
  pkgs := [⟨"a".toList, [⟨[("List".toList, "Lists.".toList)],
    [⟨"Deps".toList, [], [⟨"H".toList, some ("a".toList, "T".toList)⟩]⟩,
     ⟨"T".toList, [⟨"Get".toList, "*T".toList, "Gets.".toList⟩,
       ⟨"ServeHTTP".toList, "T".toList, "Serves.".toList⟩], []⟩]⟩], []⟩]

theorem exMeta_legal : Legal exMeta where
  path := by
    intro k hk k' hk' _
    simp only [List.mem_singleton] at hk hk'
    rw [hk, hk']
  func := by
    rintro p f d d' ⟨k, hk, _, x, hx, h⟩ ⟨k', hk', _, x', hx', h'⟩
    simp only [List.mem_singleton] at hk hk'
    subst hk hk'
    simp only [List.mem_singleton] at hx hx'
    subst hx hx'
    simp only [List.mem_singleton, Prod.mk.injEq] at h h'
    rw [h.2, h'.2]
  meth := by
    rintro p t n d d' ⟨k, hk, _, x, hx, y, hy, z, hz, h1, _, h2⟩ ⟨k', hk', _, x', hx', y', hy', z', hz', h1', _, h2'⟩
    simp only [List.mem_singleton] at hk hk'
    subst hk hk'
    simp only [List.mem_singleton] at hx hx'
    subst hx hx'
    simp only [List.mem_cons, List.not_mem_nil, or_false] at hy hy'
    rcases hy with rfl | rfl
    · cases hz
    · rcases hy' with rfl | rfl
      · cases hz'
      · simp only [List.mem_cons, List.not_mem_nil, or_false] at hz hz'
        rcases hz with rfl | rfl <;> rcases hz' with rfl | rfl
        · rw [← h2, ← h2']
        · exact absurd (h1.trans h1'.symm) (by decide)
        · exact absurd (h1.trans h1'.symm) (by decide)
        · rw [← h2, ← h2']
  type := by
    intro k hk d d' h h' hn
    simp only [List.mem_singleton] at hk
    subst hk
    rcases h with h | ⟨x, hx, h⟩
    · cases h
    · rcases h' with h' | ⟨x', hx', h'⟩
      · cases h'
      · simp only [List.mem_singleton] at hx hx'
        subst hx hx'
        simp only [List.mem_cons, List.not_mem_nil, or_false] at h h'
        rcases h with rfl | rfl <;> rcases h' with rfl | rfl
        · rfl
        · exact absurd hn (by decide)
        · exact absurd hn (by decide)
        · rfl
  field := by
    intro k hk d h y hy y' hy' _
    simp only [List.mem_singleton] at hk
    subst hk
    rcases h with h | ⟨x, hx, h⟩
    · cases h
    · simp only [List.mem_singleton] at hx
      subst hx
      simp only [List.mem_cons, List.not_mem_nil, or_false] at h
      rcases h with rfl | rfl
      · simp only [List.mem_singleton] at hy hy'
        rw [hy, hy']
      · cases hy

example : handlerComments exMeta "a".toList "a.List".toList [] = "Lists.".toList ∧
    handlerComments exMeta "a".toList "a-->a.T.Get".toList [] = "Gets.".toList ∧
    handlerComments exMeta "a".toList "a-->Deps.H.Get".toList [] = "Gets.".toList ∧
    handlerComments exMeta "a".toList "a.T".toList ["ServeHTTP".toList] = "Serves.".toList := by decide

example : DeclaresFunc exMeta "a".toList "List".toList "Lists.".toList ∧
    DeclaresMeth exMeta "a".toList "T".toList "Get".toList "Gets.".toList ∧
    DeclaresField exMeta "a".toList "Deps".toList "H".toList (some ("a".toList, "T".toList)) := by
  refine ⟨⟨_, List.mem_cons_self, rfl, _, List.mem_cons_self, List.mem_cons_self⟩,
    ⟨_, List.mem_cons_self, rfl, _, List.mem_cons_self, _, List.mem_cons_of_mem _ List.mem_cons_self,
      _, List.mem_cons_self, rfl, Or.inr rfl, rfl⟩,
    ⟨_, List.mem_cons_self, rfl, _, Or.inr ⟨_, List.mem_cons_self, List.mem_cons_self⟩, rfl, _,
      List.mem_cons_self, rfl, rfl⟩⟩

/-! ### Where the code falls short -/

/-- **C71, a variable is documented as a function of another package.**  `a.List` is not
a function of `a` (a variable that holds one, say); `b` declares a `List`. -/
theorem C71_foreign_function :
    handlerComments
      { pkgs := [{ path := "a".toList, files := [{}] },
        { path := "b".toList, files := [{ funcs := [("List".toList, "Secret.".toList)] }] }] }
      "a".toList "a.List".toList [] = "Secret.".toList := by decide

/-- **C71, a field of another package's type is documented as a namesake.**  The handler
`b.Health.Get` has the comment `Right.`; the route gets that of the package's own `Health`. -/
theorem C71_foreign_field :
    handlerComments
      { pkgs := [
        { path := "a".toList, files := [{ types := [
          { name := "Deps".toList, fields := [⟨"H".toList, some ("b".toList, "Health".toList)⟩] },
          { name := "Health".toList, methods := [⟨"Get".toList, "Health".toList, "Wrong.".toList⟩] }] }] },
        { path := "b".toList, files := [{ types := [
          { name := "Health".toList, methods := [⟨"Get".toList, "Health".toList, "Right.".toList⟩] }] }] }] }
      "a".toList "a-->Deps.H.Get".toList [] = "Wrong.".toList := by decide

/-- **C71, and without a namesake its comment is lost.** -/
theorem C71_foreign_field_lost :
    handlerComments
      { pkgs := [
        { path := "a".toList, files := [{ types := [
          { name := "Deps".toList, fields := [⟨"H".toList, some ("b".toList, "Health".toList)⟩] }] }] },
        { path := "b".toList, files := [{ types := [
          { name := "Health".toList, methods := [⟨"Get".toList, "Health".toList, "Right.".toList⟩] }] }] }] }
      "a".toList "a-->Deps.H.Get".toList [] = [] := by decide

/-- **C71, an interface value is documented as a namesake.**  A value of type
`net/http.Handler` can be anything, and two types implement it; the route gets the comment of
the package's own `Handler`. -/
theorem C71_interface_namesake :
    handlerComments
      { pkgs := [{ path := "a".toList, files := [{ types := [
          { name := "Handler".toList,
            methods := [⟨"ServeHTTP".toList, "*Handler".toList, "Mine.".toList⟩] }] }] }],
        impls := fun _ => ["a.Handler".toList, "b.Other".toList] }
      "a".toList "net/http.Handler".toList ["ServeHTTP".toList] = "Mine.".toList := by decide

/-- **C71, a type called like its package is skipped over.**  The method `server.List` is
documented with the comment of the function `List`. -/
theorem C71_type_like_package :
    handlerComments
      { pkgs := [⟨"server".toList, [⟨[("List".toList, "The function.".toList)],
          [⟨"server".toList, [⟨"List".toList, "*server".toList, "The method.".toList⟩], []⟩]⟩], []⟩] }
      "server".toList "server-->server.server.List".toList [] = "The function.".toList := by decide

end Verif.HandlerDoc
