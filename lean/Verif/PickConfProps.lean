import Verif.PickConfModel
/-!
# C128: the configuration that is suggested is the first that says something
-/

namespace Verif.PickConf

/-! ### Specification -/

/-- The configuration of an empty file. -/
def empty : Config := ⟨⟨0, 0, 0, 0, 0, 0, 0, 0, false, false⟩, 0, 0, 0, ⟨0, 0, 0, 0⟩, ⟨0, 0, 0, 0⟩, ⟨[], [], 0⟩, ⟨[], [], [], [], false, false⟩, 0, 0, 0, 0, 0, false⟩

/-- What the program does not look at, erased: the rest of the description, handler methods, entry points and how requests
and responses are recognised. -/
def erased (c : Config) : Config :=
  { c with
    info := { c.info with terms := [], description := [], version := [], contact := false, license := false }
    framework := { c.framework with handlerMethods := 0, entrypoints := 0, requestContext := false, responseContext := false } }

/-- The file is a configuration that says something. -/
def Says (fs : Text → Entry) (p : Text) : Prop := ∃ c, fs p = .config c ∧ erased c ≠ empty

/-- The places in the order in which they are preferred. -/
def places (dir root : Text) : List Text :=
  (if dir = [] then [] else [dir ++ "/apispec.yaml".toList, dir ++ "/apispec.yml".toList, dir ++ "/.apispec.yaml".toList, dir ++ "/.apispec.yml".toList]) ++
  (if root = [] then [] else [root ++ "/apispec.yaml".toList, root ++ "/apispec.yml".toList, root ++ "/.apispec.yaml".toList, root ++ "/.apispec.yml".toList])

/-! ### Lemmas -/

theorem filter_zero (x : Filter) : ie x = true ↔ x ≠ ⟨0, 0, 0, 0⟩ := by
  obtain ⟨a, b, c, d⟩ := x
  simp only [ie, gt_iff_lt, Bool.or_eq_true, decide_eq_true_eq, ne_eq, Filter.mk.injEq]
  omega

theorem looksLike_iff (fs : Text → Entry) (p : Text) : looksLike (fs p) = true ↔ Says fs p := by
  unfold Says
  cases h : fs p with
  | missing => simp [looksLike]
  | folder => simp [looksLike]
  | other => simp [looksLike]
  | config c =>
    have hi := filter_zero c.incl
    have he := filter_zero c.excl
    simp only [Entry.config.injEq]
    rw [show (∃ c', c = c' ∧ erased c' ≠ empty) ↔ erased c ≠ empty from ⟨fun ⟨_, e, h⟩ => e ▸ h, fun h => ⟨_, rfl, h⟩⟩]
    obtain ⟨⟨f1, f2, f3, f4, f5, f6, f7, f8, f9, f10⟩, tm, et, ov, i, e, d, ⟨n1, n2, n3, n4, n5, n6⟩, sv, se, sc, mp, tg, dc⟩ := c
    simp only at hi he
    have hd : (decide (d ≠ ⟨[], [], 0⟩)) = true ↔ ¬ d = ⟨[], [], 0⟩ := by simp
    have ht : (decide (n1 ≠ [])) = true ↔ ¬ n1 = [] := by simp
    simp only [looksLike, Bool.or_eq_true, hi, he, hd, ht, decide_eq_true_eq, gt_iff_lt, Nat.pos_iff_ne_zero, erased, empty, ne_eq, Config.mk.injEq,
      Framework.mk.injEq, Info.mk.injEq, true_and, and_true]
    cases dc <;> simp <;> grind

/-- The search of a list of places. -/
def firstOf (fs : Text → Entry) (l : List Text) : Option Text := l.find? (fun p => looksLike (fs p))

theorem inFolder_first (fs : Text → Entry) (b : Text) (ns : List Text) : inFolder fs b ns = firstOf fs (ns.map (fun n => b ++ '/' :: n)) := by
  induction ns with
  | nil => rfl
  | cons n ns ih =>
    have hskip : fs (b ++ '/' :: n) = .missing ∨ fs (b ++ '/' :: n) = .folder → looksLike (fs (b ++ '/' :: n)) = false := by
      rintro (e | e) <;> rw [e] <;> rfl
    unfold firstOf at ih ⊢
    rw [List.map_cons, List.find?_cons, ← ih, inFolder]
    cases hl : looksLike (fs (b ++ '/' :: n)) with
    | false => simp
    | true => rw [if_neg (fun h => by rw [hskip h] at hl; cases hl)]; rfl

theorem firstOf_append (fs : Text → Entry) (a b : List Text) : firstOf fs (a ++ b) = (firstOf fs a).or (firstOf fs b) := by
  unfold firstOf
  rw [List.find?_append]

theorem find_first (fs : Text → Entry) (dir root : Text) : findSuggestedConfig fs dir root = (firstOf fs (places dir root)).getD [] := by
  have hm : ∀ b : Text, names.map (fun n => b ++ '/' :: n) = [b ++ "/apispec.yaml".toList, b ++ "/apispec.yml".toList, b ++ "/.apispec.yaml".toList, b ++ "/.apispec.yml".toList] :=
    fun b => rfl
  unfold findSuggestedConfig places
  rw [firstOf_append]
  have hnil : firstOf fs [] = none := rfl
  by_cases hd : dir = []
  · rw [if_pos hd, hnil]
    unfold inFolders
    rw [if_pos (.inl hd)]
    unfold inFolders
    by_cases hr : root = []
    · rw [if_pos (.inl hr), if_pos hr, hnil]; rfl
    · rw [if_neg (by simp [hr]), if_neg hr, inFolder_first, hm]
      cases firstOf fs _ <;> simp [inFolders]
  · rw [if_neg hd]
    unfold inFolders
    rw [if_neg (by simp [hd]), inFolder_first, hm]
    cases h1 : firstOf fs [dir ++ "/apispec.yaml".toList, dir ++ "/apispec.yml".toList, dir ++ "/.apispec.yaml".toList, dir ++ "/.apispec.yml".toList] with
    | some p => rfl
    | none =>
      simp only [Option.none_or]
      unfold inFolders
      by_cases hr : root = []
      · rw [if_pos (.inl hr), if_pos hr, hnil]; rfl
      · rw [if_neg hr]
        by_cases he : root = dir
        · rw [if_pos (.inr (by simp [he])), he, h1]; rfl
        · rw [if_neg (by simp [hr, he]), inFolder_first, hm]
          cases firstOf fs _ <;> simp [inFolders]

theorem places_ne (dir root : Text) : ∀ p ∈ places dir root, p ≠ [] := by
  intro p hp e
  subst e
  unfold places at hp
  rcases List.mem_append.1 hp with h | h <;> split at h <;> simp at h

/-! ### Properties -/

/-- What is suggested is the first of the usual places, those of the project before those of the module, where there is a
configuration that says something. -/
theorem C128_first_partial (fs : Text → Entry) (dir root p : Text) (hp : p ≠ []) :
    findSuggestedConfig fs dir root = p ↔ ∃ before after, places dir root = before ++ p :: after ∧ Says fs p ∧ ∀ q ∈ before, ¬ Says fs q := by
  rw [find_first]
  have : (firstOf fs (places dir root)).getD [] = p ↔ firstOf fs (places dir root) = some p := by
    cases firstOf fs (places dir root) with
    | none => simp only [Option.getD_none]; exact ⟨fun e => absurd e.symm hp, fun e => (by cases e)⟩
    | some q => simp
  rw [this]
  unfold firstOf
  rw [List.find?_eq_some_iff_append]
  constructor
  · rintro ⟨h1, a, b, e, h2⟩
    exact ⟨a, b, e, (looksLike_iff fs p).1 h1, fun q hq hs => by simpa [(looksLike_iff fs q).2 hs] using h2 q hq⟩
  · rintro ⟨a, b, e, h1, h2⟩
    refine ⟨(looksLike_iff fs p).2 h1, a, b, e, fun q hq => ?_⟩
    cases hl : looksLike (fs q) with
    | false => rfl
    | true => exact absurd ((looksLike_iff fs q).1 hl) (h2 q hq)

/-- Nothing is suggested exactly if there is none. -/
theorem C128_none_partial (fs : Text → Entry) (dir root : Text) : findSuggestedConfig fs dir root = [] ↔ ∀ p ∈ places dir root, ¬ Says fs p := by
  rw [find_first]
  constructor
  · intro h p hp hs
    cases hf : firstOf fs (places dir root) with
    | none =>
      unfold firstOf at hf
      rw [List.find?_eq_none] at hf
      exact hf p hp ((looksLike_iff fs p).2 hs)
    | some q =>
      rw [hf] at h
      simp only [Option.getD_some] at h
      exact places_ne dir root q (List.mem_of_find?_eq_some hf) h
  · intro h
    have : firstOf fs (places dir root) = none := by
      unfold firstOf
      rw [List.find?_eq_none]
      intro p hp hl
      exact h p hp ((looksLike_iff fs p).1 hl)
    rw [this]; rfl

/-! ### Cases that meet the hypotheses -/

abbrev c (s : String) : Text := s.toList

def files (p : Text) : Entry :=
  if p = c "/m/api/apispec.yaml" then .folder
  else if p = c "/m/api/apispec.yml" then .config empty
  else if p = c "/m/.apispec.yaml" then .config { empty with tags := 2 }
  else if p = c "/m/.apispec.yml" then .config { empty with servers := 1 }
  else .missing

example : findSuggestedConfig files (c "/m/api") (c "/m") = c "/m/.apispec.yaml" := by decide +kernel
example : findSuggestedConfig files (c "/m/api") [] = [] := by decide +kernel
example : Says files (c "/m/.apispec.yml") := ⟨_, rfl, by decide⟩

/-- A file that only names the entry points of the program, or only describes the interface without a title, is a
configuration with a meaning and is not suggested. -/
theorem C128_not_offered : ∃ fs : Text → Entry, fs (c "/m/apispec.yaml") = .config { empty with framework := { empty.framework with entrypoints := 1 } } ∧
    fs (c "/m/apispec.yml") = .config { empty with info := { empty.info with description := c "Orders", version := c "2.0.0" } } ∧ findSuggestedConfig fs (c "/m") (c "/m") = [] :=
  ⟨fun p => if p = c "/m/apispec.yaml" then .config { empty with framework := { empty.framework with entrypoints := 1 } }
    else if p = c "/m/apispec.yml" then .config { empty with info := { empty.info with description := c "Orders", version := c "2.0.0" } } else .missing,
    by decide +kernel, by decide +kernel, by decide +kernel⟩

end Verif.PickConf
