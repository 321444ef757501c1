import Verif.SuggestModel
/-!
# C120: the editor suggests what was analysed, each name once and in order
-/

namespace Verif.Suggest

/-! ### Specification -/

/-- A file of a package. -/
def Has (m : Meta) (pkg : Text) (f : File) : Prop := ∃ k, (pkg, some k) ∈ m.pkgs ∧ some f ∈ k.files

/-- A type of a package, declared in a file or for the package, with its methods. -/
def Declares (m : Meta) (pkg type : Text) (ms : Option (List Meth)) : Prop :=
  ∃ k, (pkg, some k) ∈ m.pkgs ∧ ((∃ f, some f ∈ k.files ∧ (type, ms) ∈ f.types) ∨ (type, ms) ∈ k.types)

/-- A sort for an order. -/
def Sorts (le : Text → Text → Prop) (sort : List Text → List Text) : Prop := ∀ l, (sort l).Perm l ∧ (sort l).Pairwise le

/-- A list of all the texts with a property, each once and in order. -/
structure Lists (le : Text → Text → Prop) (l : List Text) (P : Text → Prop) : Prop where
  once : l.Nodup
  ordered : l.Pairwise le
  exactly : ∀ t, t ∈ l ↔ P t

/-! ### Lemmas -/

theorem insert_mem (s : List Text) (x t : Text) : t ∈ insert s x ↔ t ∈ s ∨ t = x := by
  unfold insert
  split
  · next h => exact ⟨fun h => .inl h, fun h' => h'.elim id (fun e => e ▸ h)⟩
  · rw [List.mem_cons, or_comm]

theorem insertAll_mem (xs : List Text) : ∀ (s : List Text) (t : Text), t ∈ insertAll s xs ↔ t ∈ s ∨ t ∈ xs := by
  induction xs with
  | nil => intro s t; simp [insertAll]
  | cons x xs ih => intro s t; rw [insertAll, ih, insert_mem, List.mem_cons, or_assoc]

theorem insertAll_nodup (xs : List Text) : ∀ s : List Text, s.Nodup → (insertAll s xs).Nodup := by
  induction xs with
  | nil => intro s h; exact h
  | cons x xs ih =>
    intro s h
    refine ih _ ?_
    unfold insert
    split
    · exact h
    · next hx => exact List.nodup_cons.2 ⟨hx, h⟩

theorem lists_sort (le : Text → Text → Prop) (sort : List Text → List Text) (hs : Sorts le sort) (l : List Text) (P : Text → Prop)
    (hn : l.Nodup) (h : ∀ t, t ∈ l ↔ P t) : Lists le (sort l) P :=
  ⟨(hs l).1.nodup_iff.2 hn, (hs l).2, fun t => (hs l).1.mem_iff.trans (h t)⟩

theorem lists_set (le : Text → Text → Prop) (sort : List Text → List Text) (hs : Sorts le sort) (l : List Text) (P : Text → Prop)
    (h : ∀ t, t ∈ l ↔ P t) : Lists le (sort (insertAll [] l)) P :=
  lists_sort le sort hs _ P (insertAll_nodup l [] List.nodup_nil) (fun t => by rw [insertAll_mem]; simpa using h t)

/-- Two such lists are equal. -/
theorem lists_eq (le : Text → Text → Prop) (anti : ∀ a b, le a b → le b a → a = b) (l l' : List Text) (P : Text → Prop) (h : Lists le l P) (h' : Lists le l' P) : l = l' :=
  List.Perm.eq_of_pairwise (le := le) (fun a b _ _ => anti a b) h.ordered h'.ordered
    ((List.perm_ext_iff_of_nodup h.once h'.once).2 (fun t => (h.exactly t).trans (h'.exactly t).symm))

theorem mem_files (k : Pkg) (f : File) : f ∈ files k ↔ some f ∈ k.files := by
  unfold files
  simp [List.mem_filterMap]

theorem mem_fileTexts (m : Meta) (g : Text → File → List Text) (t : Text) :
    t ∈ (m.pkgs.flatMap fun p => ((p.2.map files).getD []).flatMap fun f => g p.1 f) ↔ ∃ pkg f, Has m pkg f ∧ t ∈ g pkg f := by
  simp only [List.mem_flatMap]
  constructor
  · rintro ⟨⟨pkg, k⟩, hp, f, hf, ht⟩
    cases k with
    | none => simp at hf
    | some k => exact ⟨pkg, f, ⟨k, hp, (mem_files k f).1 hf⟩, ht⟩
  · rintro ⟨pkg, f, ⟨k, hp, hf⟩, ht⟩
    exact ⟨(pkg, some k), hp, f, (mem_files k f).2 hf, ht⟩

theorem mem_typed (m : Meta) (g : Text → Types → List Text) (Q : Text → Text → Option (List Meth) → Text → Prop)
    (hg : ∀ pkg ts t, t ∈ g pkg ts ↔ ∃ ty ms, (ty, ms) ∈ ts ∧ Q pkg ty ms t) (t : Text) :
    t ∈ (m.pkgs.flatMap fun p => match p.2 with
      | none => []
      | some k => (files k).flatMap (fun f => g p.1 f.types) ++ g p.1 k.types) ↔ ∃ pkg ty ms, Declares m pkg ty ms ∧ Q pkg ty ms t := by
  simp only [List.mem_flatMap]
  constructor
  · rintro ⟨⟨pkg, k⟩, hp, ht⟩
    cases k with
    | none => cases ht
    | some k =>
      rcases List.mem_append.1 ht with ht | ht
      · obtain ⟨f, hf, ht⟩ := List.mem_flatMap.1 ht
        obtain ⟨ty, ms, hm, hq⟩ := (hg _ _ _).1 ht
        exact ⟨pkg, ty, ms, ⟨k, hp, .inl ⟨f, (mem_files k f).1 hf, hm⟩⟩, hq⟩
      · obtain ⟨ty, ms, hm, hq⟩ := (hg _ _ _).1 ht
        exact ⟨pkg, ty, ms, ⟨k, hp, .inr hm⟩, hq⟩
  · rintro ⟨pkg, ty, ms, ⟨k, hp, h⟩, hq⟩
    refine ⟨(pkg, some k), hp, ?_⟩
    rcases h with ⟨f, hf, hm⟩ | hm
    · exact List.mem_append.2 (.inl (List.mem_flatMap.2 ⟨f, (mem_files k f).2 hf, (hg _ _ _).2 ⟨ty, ms, hm, hq⟩⟩))
    · exact List.mem_append.2 (.inr ((hg _ _ _).2 ⟨ty, ms, hm, hq⟩))

/-! ### The properties -/

variable {le : Text → Text → Prop} {sort : List Text → List Text}

/-- The packages are those analysed. -/
theorem C120_packages (hs : Sorts le sort) (m : Meta) (goMod : Text) : Lists le (summarize sort m goMod).packages (fun t => ∃ k, (t, k) ∈ m.pkgs) := by
  refine lists_set le sort hs _ _ (fun t => ?_)
  rw [List.mem_map]
  exact ⟨fun ⟨p, hp, e⟩ => ⟨p.2, e ▸ hp⟩, fun ⟨k, hk⟩ => ⟨(t, k), hk, rfl⟩⟩

/-- The functions are those of all files, with their packages. -/
theorem C120_functions (hs : Sorts le sort) (m : Meta) (goMod : Text) :
    Lists le (summarize sort m goMod).functions (fun t => ∃ pkg f name, Has m pkg f ∧ name ∈ f.functions ∧ t = pkg ++ ".".toList ++ name) := by
  refine lists_set le sort hs _ _ (fun t => ?_)
  unfold functionTexts
  rw [mem_fileTexts m (fun pkg f => f.functions.map (dotted pkg))]
  constructor
  · rintro ⟨pkg, f, h, ht⟩
    obtain ⟨n, hn, rfl⟩ := List.mem_map.1 ht
    exact ⟨pkg, f, n, h, hn, by simp [dotted]⟩
  · rintro ⟨pkg, f, n, h, hn, rfl⟩
    exact ⟨pkg, f, h, List.mem_map.2 ⟨n, hn, by simp [dotted]⟩⟩

/-- The types are those of files and packages. -/
theorem C120_types (hs : Sorts le sort) (m : Meta) (goMod : Text) :
    Lists le (summarize sort m goMod).types (fun t => ∃ pkg ty ms, Declares m pkg ty ms ∧ t = pkg ++ ".".toList ++ ty) := by
  refine lists_set le sort hs _ _ (fun t => ?_)
  unfold typeTexts
  refine mem_typed m (fun pkg ts => ts.map (fun t => dotted pkg t.1)) (fun pkg ty _ t => t = pkg ++ ".".toList ++ ty) (fun pkg ts t => ?_) t
  rw [List.mem_map]
  constructor
  · rintro ⟨⟨ty, ms⟩, h, rfl⟩; exact ⟨ty, ms, h, by simp [dotted]⟩
  · rintro ⟨ty, ms, h, rfl⟩; exact ⟨(ty, ms), h, by simp [dotted]⟩

/-- The methods are those with a name, under the receiver that is recorded, or else under the type. -/
theorem C120_methods (hs : Sorts le sort) (m : Meta) (goMod : Text) :
    Lists le (summarize sort m goMod).methods (fun t => ∃ pkg ty ms mt recv, Declares m pkg ty (some ms) ∧ mt ∈ ms ∧ mt.name ≠ [] ∧
      (mt.recv ≠ [] ∧ recv = mt.recv ∨ mt.recv = [] ∧ recv = ty) ∧ t = pkg ++ ".(".toList ++ recv ++ ").".toList ++ mt.name) := by
  refine lists_set le sort hs _ _ (fun t => ?_)
  unfold methodTexts
  refine Iff.trans (mem_typed m typeMethods (fun pkg ty ms t => ∃ mt, mt ∈ ms.getD [] ∧ methodText pkg ty mt = some t) (fun pkg ts t => ?_) t) ?_
  rotate_left
  · constructor
    · rintro ⟨pkg, ty, ms, hd, mt, hm, ht⟩
      cases ms with
      | none => cases hm
      | some ms =>
        unfold methodText at ht
        split at ht
        · cases ht
        · next hn =>
          cases ht
          by_cases hr : mt.recv = []
          · exact ⟨pkg, ty, ms, mt, ty, hd, hm, hn, .inr ⟨hr, rfl⟩, by simp [hr]⟩
          · exact ⟨pkg, ty, ms, mt, mt.recv, hd, hm, hn, .inl ⟨hr, rfl⟩, by simp [hr]⟩
    · rintro ⟨pkg, ty, ms, mt, recv, hd, hm, hn, hr, rfl⟩
      refine ⟨pkg, ty, some ms, hd, mt, hm, ?_⟩
      unfold methodText
      rw [if_neg hn]
      rcases hr with ⟨hr, rfl⟩ | ⟨hr, rfl⟩
      · simp [hr]
      · simp [hr]
  · unfold typeMethods
    simp only [List.mem_flatMap, List.mem_filterMap]
    constructor
    · rintro ⟨⟨ty, ms⟩, h, mt, hm, e⟩; exact ⟨ty, ms, h, mt, hm, e⟩
    · rintro ⟨ty, ms, h, mt, hm, e⟩; exact ⟨(ty, ms), h, mt, hm, e⟩

/-- The imports are the paths that files import and that were not analysed. -/
theorem C120_imports (hs : Sorts le sort) (m : Meta) (goMod : Text) :
    Lists le (summarize sort m goMod).imports (fun t => t ≠ [] ∧ (∃ pkg f, Has m pkg f ∧ t ∈ f.imports) ∧ ∀ k, (t, k) ∉ m.pkgs) := by
  refine lists_sort le sort hs _ _ ((insertAll_nodup _ [] List.nodup_nil).filter _) (fun t => ?_)
  rw [List.mem_filter, insertAll_mem, decide_eq_true_eq, insertAll_mem]
  have hi : t ∈ importTexts m ↔ t ≠ [] ∧ ∃ pkg f, Has m pkg f ∧ t ∈ f.imports := by
    unfold importTexts
    rw [mem_fileTexts m (fun _ f => f.imports.filter (fun i => decide (i ≠ [])))]
    simp only [List.mem_filter, decide_eq_true_eq]
    exact ⟨fun ⟨p, f, h, h1, h2⟩ => ⟨h2, p, f, h, h1⟩, fun ⟨h2, p, f, h, h1⟩ => ⟨p, f, h, h1, h2⟩⟩
  have hp : t ∈ m.pkgs.map (·.1) ↔ ∃ k, (t, k) ∈ m.pkgs := by
    rw [List.mem_map]
    exact ⟨fun ⟨p, hp, e⟩ => ⟨p.2, e ▸ hp⟩, fun ⟨k, hk⟩ => ⟨(t, k), hk, rfl⟩⟩
  rw [hi, hp]
  simp only [List.not_mem_nil, false_or]
  exact ⟨fun ⟨⟨h1, h2⟩, h3⟩ => ⟨h1, h2, fun k hk => h3 ⟨k, hk⟩⟩, fun ⟨h1, h2, h3⟩ => ⟨⟨h1, h2⟩, fun ⟨k, hk⟩ => h3 k hk⟩⟩

/-- The packages of the user are those analysed at or below the module path, which go.mod says if the metadata do not;
without one there are none. -/
theorem C120_user (hs : Sorts le sort) (m : Meta) (goMod : Text) :
    Lists le (summarize sort m goMod).userPackages (fun t => (∃ k, (t, k) ∈ m.pkgs) ∧
      ∃ mod, mod ≠ [] ∧ (mod = m.modulePath ∨ m.modulePath = [] ∧ mod = goMod) ∧ (t = mod ∨ ∃ rest, t = mod ++ "/".toList ++ rest)) := by
  have hpk := C120_packages hs m goMod
  have hmod : ∀ mod : Text, (mod ≠ [] ∧ (mod = m.modulePath ∨ m.modulePath = [] ∧ mod = goMod)) ↔ (mod ≠ [] ∧ mod = modulePath m goMod) := by
    intro mod
    unfold modulePath
    split
    · next h =>
      refine and_congr_right fun hne => ⟨fun h' => ?_, fun h' => .inr ⟨h, h'⟩⟩
      rcases h' with h' | h'
      · exact absurd (h'.trans h) hne
      · exact h'.2
    · next h =>
      refine and_congr_right fun hne => ⟨fun h' => ?_, fun h' => .inl h'⟩
      rcases h' with h' | h'
      · exact h'
      · exact absurd h'.1 h
  have huser : ∀ mod t : Text, isUser mod t = true ↔ t = mod ∨ ∃ rest, t = mod ++ "/".toList ++ rest := by
    intro mod t
    unfold isUser
    rw [Bool.or_eq_true, decide_eq_true_eq, List.isPrefixOf_iff_prefix]
    exact or_congr_right ⟨fun ⟨r, h⟩ => ⟨r, h.symm⟩, fun ⟨r, h⟩ => ⟨r, h.symm⟩⟩
  have key : ∀ t, ((∃ k, (t, k) ∈ m.pkgs) ∧ ∃ mod, mod ≠ [] ∧ (mod = m.modulePath ∨ m.modulePath = [] ∧ mod = goMod) ∧ (t = mod ∨ ∃ rest, t = mod ++ "/".toList ++ rest)) ↔
      modulePath m goMod ≠ [] ∧ (∃ k, (t, k) ∈ m.pkgs) ∧ isUser (modulePath m goMod) t = true := by
    intro t
    constructor
    · rintro ⟨hk, mod, h1, h2, h3⟩
      obtain ⟨h4, h5⟩ := (hmod mod).1 ⟨h1, h2⟩
      rw [← h5]
      exact ⟨h4, hk, (huser mod t).2 h3⟩
    · rintro ⟨h1, hk, h3⟩
      obtain ⟨h4, h5⟩ := (hmod _).2 ⟨h1, rfl⟩
      exact ⟨hk, _, h4, h5, (huser _ t).1 h3⟩
  show Lists le (if modulePath m goMod = [] then [] else (summarize sort m goMod).packages.filter (isUser (modulePath m goMod))) _
  split
  · next h =>
    refine ⟨List.nodup_nil, List.Pairwise.nil, fun t => ?_⟩
    rw [key t]
    exact ⟨(fun h' => by cases h'), fun h' => absurd h h'.1⟩
  · next h =>
    refine ⟨hpk.once.filter _, hpk.ordered.filter _, fun t => ?_⟩
    rw [key t, List.mem_filter, hpk.exactly]
    exact ⟨fun ⟨a, b⟩ => ⟨h, a, b⟩, fun ⟨_, a, b⟩ => ⟨a, b⟩⟩

/-- The same packages, files and types in other orders. -/
structure Same (m m' : Meta) : Prop where
  modulePath : m.modulePath = m'.modulePath
  pkgs : ∀ t, (∃ k, (t, k) ∈ m.pkgs) ↔ ∃ k, (t, k) ∈ m'.pkgs
  files : ∀ pkg f, Has m pkg f → ∃ f', Has m' pkg f' ∧ (∀ n, n ∈ f.functions ↔ n ∈ f'.functions) ∧ ∀ i, i ∈ f.imports ↔ i ∈ f'.imports
  files' : ∀ pkg f', Has m' pkg f' → ∃ f, Has m pkg f ∧ (∀ n, n ∈ f'.functions ↔ n ∈ f.functions) ∧ ∀ i, i ∈ f'.imports ↔ i ∈ f.imports
  types : ∀ pkg ty ms, Declares m pkg ty ms ↔ Declares m' pkg ty ms

/-- The order of maps, and the sort, change nothing. -/
theorem C120_one_order (anti : ∀ a b, le a b → le b a → a = b) (hs : Sorts le sort) {sort' : List Text → List Text} (hs' : Sorts le sort')
    (m m' : Meta) (h : Same m m') (goMod : Text) : summarize sort m goMod = summarize sort' m' goMod := by
  have mono : ∀ (l : List Text) (P Q : Text → Prop), Lists le l P → (∀ t, P t ↔ Q t) → Lists le l Q :=
    fun l P Q hl hpq => ⟨hl.once, hl.ordered, fun t => (hl.exactly t).trans (hpq t)⟩
  have e1 := lists_eq le anti _ _ _ (mono _ _ _ (C120_packages hs m goMod) (fun t => h.pkgs t)) (C120_packages hs' m' goMod)
  have e2 := lists_eq le anti _ _ _ (mono _ _ _ (C120_functions hs m goMod) (fun t => ⟨
    (fun ⟨p, f, n, h1, h2, h3⟩ => let ⟨f', a, b, _⟩ := h.files p f h1; ⟨p, f', n, a, (b n).1 h2, h3⟩),
    (fun ⟨p, f, n, h1, h2, h3⟩ => let ⟨f', a, b, _⟩ := h.files' p f h1; ⟨p, f', n, a, (b n).1 h2, h3⟩)⟩)) (C120_functions hs' m' goMod)
  have e3 := lists_eq le anti _ _ _ (mono _ _ _ (C120_methods hs m goMod) (fun t => ⟨
    (fun ⟨p, ty, ms, mt, r, h1, h2⟩ => ⟨p, ty, ms, mt, r, (h.types p ty (some ms)).1 h1, h2⟩),
    (fun ⟨p, ty, ms, mt, r, h1, h2⟩ => ⟨p, ty, ms, mt, r, (h.types p ty (some ms)).2 h1, h2⟩)⟩)) (C120_methods hs' m' goMod)
  have e4 := lists_eq le anti _ _ _ (mono _ _ _ (C120_types hs m goMod) (fun t => ⟨
    (fun ⟨p, ty, ms, h1, h2⟩ => ⟨p, ty, ms, (h.types p ty ms).1 h1, h2⟩),
    (fun ⟨p, ty, ms, h1, h2⟩ => ⟨p, ty, ms, (h.types p ty ms).2 h1, h2⟩)⟩)) (C120_types hs' m' goMod)
  have none_iff : ∀ t, (∀ k, (t, k) ∉ m.pkgs) ↔ ∀ k, (t, k) ∉ m'.pkgs := fun t =>
    ⟨fun hn k hk => let ⟨k', hk'⟩ := (h.pkgs t).2 ⟨k, hk⟩; hn k' hk', fun hn k hk => let ⟨k', hk'⟩ := (h.pkgs t).1 ⟨k, hk⟩; hn k' hk'⟩
  have e5 := lists_eq le anti _ _ _ (mono _ _ _ (C120_imports hs m goMod) (fun t => ⟨
    (fun ⟨h0, ⟨p, f, h1, h2⟩, h3⟩ => let ⟨f', a, _, b⟩ := h.files p f h1; ⟨h0, ⟨p, f', a, (b t).1 h2⟩, (none_iff t).1 h3⟩),
    (fun ⟨h0, ⟨p, f, h1, h2⟩, h3⟩ => let ⟨f', a, _, b⟩ := h.files' p f h1; ⟨h0, ⟨p, f', a, (b t).1 h2⟩, (none_iff t).2 h3⟩)⟩)) (C120_imports hs' m' goMod)
  have e6 := lists_eq le anti _ _ _ (mono _ _ _ (C120_user hs m goMod) (fun t => by rw [h.pkgs t, h.modulePath])) (C120_user hs' m' goMod)
  cases hA : summarize sort m goMod
  cases hB : summarize sort' m' goMod
  rw [hA, hB] at e1 e2 e3 e4 e5 e6
  dsimp only at e1 e2 e3 e4 e5 e6
  rw [e1, e2, e3, e4, e5, e6]

/-- Names of Go have no dots, so different functions, or types, have different texts. -/
theorem C120_distinct (pkg pkg' name name' : Text) (h : '.' ∉ name) (h' : '.' ∉ name') (e : pkg ++ ".".toList ++ name = pkg' ++ ".".toList ++ name') :
    pkg = pkg' ∧ name = name' := by
  have key : ∀ p p' n n' : Text, '.' ∉ n → '.' ∉ n' → p ++ '.' :: n = p' ++ '.' :: n' → p = p' ∧ n = n' := by
    intro p
    induction p with
    | nil =>
      intro p' n n' hn hn' e
      cases p' with
      | nil => simp at e; exact ⟨rfl, e⟩
      | cons c p' =>
        rw [List.nil_append, List.cons_append] at e
        injection e with _ e
        exact absurd (show '.' ∈ n by rw [e]; simp) hn
    | cons c p ih =>
      intro p' n n' hn hn' e
      cases p' with
      | nil =>
        rw [List.nil_append, List.cons_append] at e
        injection e with _ e
        exact absurd (show '.' ∈ n' by rw [← e]; simp) hn'
      | cons c' p' =>
        rw [List.cons_append, List.cons_append] at e
        injection e with e1 e
        obtain ⟨a, b⟩ := ih p' n n' hn hn' e
        exact ⟨by rw [e1, a], b⟩
  exact key pkg pkg' name name' h h' (by simpa using e)

/-! ### Instances -/

abbrev c (s : String) : Text := s.toList

/-- A module with two packages, one of them with a type recorded for the file and for the package. -/
abbrev demo : Meta :=
  ⟨c "app", [(c "app/user", some ⟨[some ⟨[c "New"], [(c "Repo", some [⟨c "Find", c "*Repo"⟩, ⟨c "Save", []⟩])], [c "fmt", c "app", []]⟩, none], [(c "Repo", some [⟨c "Find", c "*Repo"⟩])]⟩),
    (c "app", some ⟨[some ⟨[c "main"], [], [c "app/user", c "fmt"]⟩], []⟩), (c "application", none)]⟩

example : summarize id demo (c "other") =
    ⟨[c "application", c "app", c "app/user"], [c "app.main", c "app/user.New"], [c "app/user.(Repo).Save", c "app/user.(*Repo).Find"], [c "app/user.Repo"], [c "fmt"],
      [c "app", c "app/user"]⟩ := by decide +kernel

/-- There is such a sort, for the order of texts. -/
example : Sorts (fun a b => (compare (String.ofList a) (String.ofList b)).isLE = true) (fun l => l.mergeSort (fun a b => (compare (String.ofList a) (String.ofList b)).isLE)) := by
  intro l
  refine ⟨List.mergeSort_perm l _, List.pairwise_mergeSort ?_ ?_ l⟩
  · intro a b c h1 h2; exact Std.TransCmp.isLE_trans h1 h2
  · intro a b
    rw [show compare (String.ofList b) (String.ofList a) = (compare (String.ofList a) (String.ofList b)).swap from Std.OrientedCmp.eq_swap]
    cases compare (String.ofList a) (String.ofList b) <;> decide

example : Same demo { demo with pkgs := demo.pkgs.reverse } := by
  have hp : ∀ x, x ∈ demo.pkgs.reverse ↔ x ∈ demo.pkgs := fun x => List.mem_reverse
  have hh : ∀ p f, Has { demo with pkgs := demo.pkgs.reverse } p f ↔ Has demo p f := fun p f => exists_congr fun k => by rw [hp]
  exact ⟨rfl, fun t => exists_congr fun k => (hp _).symm, fun p f h => ⟨f, (hh p f).2 h, fun _ => Iff.rfl, fun _ => Iff.rfl⟩,
    fun p f h => ⟨f, (hh p f).1 h, fun _ => Iff.rfl, fun _ => Iff.rfl⟩, fun p ty ms => exists_congr fun k => by rw [hp]⟩

end Verif.Suggest
