import Verif.VersionModel
/-!
# C129: the version shown is that of the build
-/

namespace Verif.Version

/-! ### Specification -/

abbrev c (s : String) : Text := s.toList

/-- What the program has before it looks. -/
def initial : Shown := ⟨c "0.0.1", c "unknown", c "unknown", c "unknown"⟩

/-- The build has a version of its own. -/
def Versioned (b : Build) : Prop := b.version ≠ [] ∧ b.version ≠ c "(devel)" ∧ b.version ≠ c "0.0.1"

/-- The build knows the revision or its time. -/
def HasRevision (b : Build) : Prop := ∃ kv ∈ b.settings, kv.1 = c "vcs.revision" ∨ kv.1 = c "vcs.time"

/-- The sources were changed after the revision. -/
def Modified (b : Build) : Prop := (c "vcs.modified", c "true") ∈ b.settings

/-! ### Lemmas -/

theorem contains_iff (p s : Text) : contains p s = true ↔ ∃ a z, s = a ++ p ++ z := by
  induction s with
  | nil =>
    unfold contains
    rw [List.isPrefixOf_iff_prefix]
    constructor
    · rintro ⟨z, e⟩; exact ⟨[], z, by simpa using e.symm⟩
    · rintro ⟨a, z, e⟩
      have : a ++ p ++ z = [] := e.symm
      simp only [List.append_eq_nil_iff] at this
      rw [this.1.2]; exact List.nil_prefix
  | cons x s ih =>
    unfold contains
    rw [Bool.or_eq_true, List.isPrefixOf_iff_prefix, ih]
    constructor
    · rintro (⟨z, e⟩ | ⟨a, z, e⟩)
      · exact ⟨[], z, by simpa using e.symm⟩
      · exact ⟨x :: a, z, by rw [e]; rfl⟩
    · rintro ⟨a, z, e⟩
      cases a with
      | nil => exact .inl ⟨z, by simpa using e.symm⟩
      | cons y a =>
        injection e with _ e
        exact .inr ⟨a, z, e⟩

theorem setting_modified (s : Seen) (k v : Text) : (setting s (k, v)).modified = true ↔ s.modified = true ∨ (k = c "vcs.modified" ∧ v = c "true") := by
  have e1 : ¬ (c "vcs.modified" = "vcs.revision".toList) := by decide
  have e2 : ¬ (c "vcs.modified" = "vcs.time".toList) := by decide
  unfold setting
  simp only
  split
  · next h => simp only; exact ⟨.inl, fun h' => h'.elim id (fun h' => absurd (h'.1.symm.trans h) e1)⟩
  split
  · next h => simp only; exact ⟨.inl, fun h' => h'.elim id (fun h' => absurd (h'.1.symm.trans h) e2)⟩
  split
  · next h =>
    split
    · next hv => exact ⟨fun _ => .inr ⟨h, hv⟩, fun _ => rfl⟩
    · next hv => exact ⟨.inl, fun h' => h'.elim id (fun h' => absurd h'.2 hv)⟩
  · next h => exact ⟨.inl, fun h' => h'.elim id (fun h' => absurd h'.1 h)⟩

theorem seen_modified (l : List (Text × Text)) : ∀ s : Seen, (l.foldl setting s).modified = true ↔ s.modified = true ∨ (c "vcs.modified", c "true") ∈ l := by
  induction l with
  | nil => intro s; simp
  | cons kv l ih =>
    intro s
    obtain ⟨k, v⟩ := kv
    rw [List.foldl_cons, ih, List.mem_cons, setting_modified, Prod.mk.injEq, or_assoc]
    constructor
    · rintro (h | ⟨h1, h2⟩ | h)
      · exact .inl h
      · exact .inr (.inl ⟨h1.symm, h2.symm⟩)
      · exact .inr (.inr h)
    · rintro (h | ⟨h1, h2⟩ | h)
      · exact .inl h
      · exact .inr (.inl ⟨h1.symm, h2.symm⟩)
      · exact .inr (.inr h)

theorem setting_vcs (s : Seen) (k v : Text) : (setting s (k, v)).vcs = true ↔ s.vcs = true ∨ (k = c "vcs.revision" ∨ k = c "vcs.time") := by
  unfold setting
  simp only
  split
  · next h => exact ⟨fun _ => .inr (.inl h), fun _ => rfl⟩
  next h1 =>
  split
  · next h => exact ⟨fun _ => .inr (.inr h), fun _ => rfl⟩
  next h2 =>
  have : (k = c "vcs.revision" ∨ k = c "vcs.time") ↔ False := by simp [h1, h2]
  rw [this, or_false]
  split
  · split <;> exact Iff.rfl
  · exact Iff.rfl

theorem seen_vcs (l : List (Text × Text)) : ∀ s : Seen, (l.foldl setting s).vcs = true ↔ s.vcs = true ∨ ∃ kv ∈ l, kv.1 = c "vcs.revision" ∨ kv.1 = c "vcs.time" := by
  induction l with
  | nil => intro s; simp
  | cons kv l ih =>
    intro s
    obtain ⟨k, v⟩ := kv
    rw [List.foldl_cons, ih, setting_vcs, or_assoc]
    simp only [List.mem_cons, exists_eq_or_imp]

theorem setting_commit (s : Seen) (k v : Text) : (setting s (k, v)).commit = if k = c "vcs.revision" then v.take 7 else s.commit := by
  unfold setting
  simp only
  by_cases h : k = "vcs.revision".toList
  · rw [if_pos h, if_pos h]
    simp only
    split
    · rfl
    · next hl => rw [List.take_of_length_le (by omega)]
  · rw [if_neg h, if_neg h]
    split
    · rfl
    split
    · split <;> rfl
    · rfl

theorem setting_date (s : Seen) (k v : Text) : (setting s (k, v)).date = if k = c "vcs.time" then v else s.date := by
  have e : ¬ (c "vcs.revision" = c "vcs.time") := by decide
  unfold setting
  simp only
  by_cases h : k = "vcs.revision".toList
  · rw [if_pos h, if_neg (fun h' => e (h.symm.trans h'))]
  · rw [if_neg h]
    by_cases h2 : k = "vcs.time".toList
    · rw [if_pos h2, if_pos h2]
    · rw [if_neg h2, if_neg h2]
      split
      · split <;> rfl
      · rfl

/-- A value that one key sets. -/
theorem last_of (f : Seen → Text) (key : Text) (g : Text → Text) (hf : ∀ s k v, f (setting s (k, v)) = if k = key then g v else f s) (l : List (Text × Text)) :
    ∀ s, ((∀ kv ∈ l, kv.1 ≠ key) → f (l.foldl setting s) = f s) ∧
      ∀ v, (l.map (·.1)).Nodup → (key, v) ∈ l → f (l.foldl setting s) = g v := by
  induction l with
  | nil => intro s; exact ⟨fun _ => rfl, fun v _ h => (by cases h)⟩
  | cons kv l ih =>
    intro s
    obtain ⟨k, w⟩ := kv
    rw [List.foldl_cons]
    obtain ⟨i1, i2⟩ := ih (setting s (k, w))
    refine ⟨fun h => ?_, fun v hn hm => ?_⟩
    · rw [i1 (fun kv hkv => h kv (.tail _ hkv)), hf, if_neg (h _ (.head _))]
    · rw [List.map_cons, List.nodup_cons] at hn
      rcases List.mem_cons.1 hm with e | hm
      · cases e
        rw [i1 (fun kv hkv e => hn.1 (List.mem_map.2 ⟨kv, hkv, e⟩)), hf, if_pos rfl]
      · exact i2 v hn.2 hm

theorem not_default (b : Build) (h : ¬ Versioned b) : (if b.version ≠ [] ∧ b.version ≠ "(devel)".toList then b.version else initial.version) = c "0.0.1" := by
  split
  · next h' =>
    by_cases e : b.version = c "0.0.1"
    · exact e
    · exact absurd ⟨h'.1, h'.2, e⟩ h
  · rfl

/-! ### Properties -/

/-- A version given when the program was linked is kept, with everything beside it. -/
theorem C129_linked (v : Shown) (info : Option Build) (h : v.version ≠ c "0.0.1") : detectVersionInfo v info = v := by
  unfold detectVersionInfo
  rw [if_pos h]

/-- The placeholder is never shown, whatever is known about the build. -/
theorem C129_no_placeholder (info : Option Build) : (detectVersionInfo initial info).version ≠ c "0.0.1" ∧ (detectVersionInfo initial info).version ≠ c "(devel)" := by
  have aux : ∀ (w : Shown) (p : Prop) [Decidable p],
      (if w.version = "0.0.1".toList ∨ w.version = "(devel)".toList then
        { w with version := if p then "latest (go install)".toList else "unknown (go install)".toList } else w).version ≠ c "0.0.1" ∧
      (if w.version = "0.0.1".toList ∨ w.version = "(devel)".toList then
        { w with version := if p then "latest (go install)".toList else "unknown (go install)".toList } else w).version ≠ c "(devel)" := by
    intro w p _
    split
    · by_cases hp : p
      · simp only [if_pos hp]; constructor <;> decide
      · simp only [if_neg hp]; constructor <;> decide
    · next h => exact not_or.1 h
  unfold detectVersionInfo
  rw [if_neg (by decide)]
  exact aux _ _

/-- A build with a version shows it; if its sources were changed the version shown says so, once. -/
theorem C129_version (b : Build) (h : Versioned b) :
    (¬ Modified b → (detectVersionInfo initial (some b)).version = b.version) ∧
    (Modified b → (detectVersionInfo initial (some b)).version = b.version ++ c "+dirty" ∧ (¬ ∃ x y, b.version = x ++ c "+dirty" ++ y) ∨
      (detectVersionInfo initial (some b)).version = b.version ∧ ∃ x y, b.version = x ++ c "+dirty" ++ y) := by
  have key : ∀ w : Text, w ≠ c "0.0.1" → w ≠ c "(devel)" →
      (if (b.settings.foldl setting ⟨initial.commit, initial.date, false, false⟩).modified = true ∧ ¬ contains "+dirty".toList b.version = true then b.version ++ "+dirty".toList else b.version) = w →
      (detectVersionInfo initial (some b)).version = w := by
    intro w h1 h2 e
    unfold detectVersionInfo
    rw [if_neg (by decide)]
    simp only
    have : (fromBuild initial b).version = w := by
      unfold fromBuild
      simp only
      rw [if_pos (⟨h.1, h.2.1⟩ : b.version ≠ [] ∧ b.version ≠ "(devel)".toList), e, if_neg (fun h' => h'.2.elim h1 h2)]
    rw [this, if_neg (fun h' => h'.elim h1 h2), this]
  have hm := seen_modified b.settings ⟨initial.commit, initial.date, false, false⟩
  simp only [Bool.false_eq_true, false_or] at hm
  refine ⟨fun h' => ?_, fun h' => ?_⟩
  · refine key _ h.2.2 h.2.1 ?_
    rw [if_neg (fun h'' => h' (hm.1 h''.1))]
  · by_cases hc : contains "+dirty".toList b.version = true
    · refine .inr ⟨key _ h.2.2 h.2.1 ?_, (contains_iff _ _).1 hc⟩
      rw [if_neg (fun h'' => h''.2 hc)]
    · refine .inl ⟨key _ ?_ ?_ ?_, fun h'' => hc ((contains_iff _ _).2 h'')⟩
      · intro e
        have := congrArg List.getLast? e
        rw [List.getLast?_append] at this
        exact absurd (show some 'y' = some '1' from this) (show ¬ some 'y' = some '1' by decide)
      · intro e
        have := congrArg List.getLast? e
        rw [List.getLast?_append] at this
        exact absurd (show some 'y' = some ')' from this) (show ¬ some 'y' = some ')' by decide)
      · rw [if_pos ⟨hm.2 h', hc⟩]

/-- A build without a version whose sources were not changed shows that it is under development if a revision is known, and
otherwise how it was installed. -/
theorem C129_development (b : Build) (h : ¬ Versioned b) (hm : ¬ Modified b) :
    (detectVersionInfo initial (some b)).version = c "dev" ∧ HasRevision b ∨
    (detectVersionInfo initial (some b)).version = c "latest (go install)" ∧ ¬ HasRevision b ∧ b.path = c "github.com/ehabterra/apispec" ∨
    (detectVersionInfo initial (some b)).version = c "unknown (go install)" ∧ ¬ HasRevision b ∧ b.path ≠ c "github.com/ehabterra/apispec" := by
  have hmod := seen_modified b.settings ⟨initial.commit, initial.date, false, false⟩
  have hv := seen_vcs b.settings ⟨initial.commit, initial.date, false, false⟩
  simp only [Bool.false_eq_true, false_or] at hmod hv
  have hfb : (fromBuild initial b).version = if (b.settings.foldl setting ⟨initial.commit, initial.date, false, false⟩).vcs = true then c "dev" else c "0.0.1" := by
    unfold fromBuild
    simp only
    rw [not_default b h]
    generalize List.foldl setting ⟨initial.commit, initial.date, false, false⟩ b.settings = s at hmod
    have hn : ¬ (s.modified = true ∧ ¬ contains "+dirty".toList (c "0.0.1") = true) := fun h' => hm (hmod.1 h'.1)
    rw [if_neg hn]
    by_cases hs : s.vcs = true
    · rw [if_pos hs, if_pos ⟨hs, .inl rfl⟩]
    · rw [if_neg hs, if_neg (fun h' => hs h'.1)]
  unfold detectVersionInfo
  rw [if_neg (by decide)]
  simp only
  by_cases hr : HasRevision b
  · rw [if_pos (hv.2 hr)] at hfb
    rw [hfb, if_neg (by decide), hfb]
    exact .inl ⟨rfl, hr⟩
  · rw [if_neg (fun h' => hr (hv.1 h'))] at hfb
    rw [hfb, if_pos (.inl rfl)]
    by_cases hp : b.path = c "github.com/ehabterra/apispec"
    · refine .inr (.inl ⟨?_, hr, hp⟩)
      simp only [Option.map_some, hp, if_true]
    · refine .inr (.inr ⟨?_, hr, hp⟩)
      simp only [Option.map_some, Option.some.injEq]
      rw [if_neg hp]

theorem shown_rest (b : Build) : (detectVersionInfo initial (some b)).commit = (fromBuild initial b).commit ∧ (detectVersionInfo initial (some b)).date = (fromBuild initial b).date ∧
    (detectVersionInfo initial (some b)).go = (fromBuild initial b).go := by
  unfold detectVersionInfo
  rw [if_neg (by decide)]
  simp only
  split <;> exact ⟨rfl, rfl, rfl⟩

/-- The revision is shown by its first seven characters, the date and the Go version as they are; what is not known is shown
as unknown. -/
theorem C129_rest (b : Build) (hk : (b.settings.map (·.1)).Nodup) :
    (∀ r, (c "vcs.revision", r) ∈ b.settings → (detectVersionInfo initial (some b)).commit = r.take 7) ∧
    ((∀ kv ∈ b.settings, kv.1 ≠ c "vcs.revision") → (detectVersionInfo initial (some b)).commit = c "unknown") ∧
    (∀ d, (c "vcs.time", d) ∈ b.settings → (detectVersionInfo initial (some b)).date = d) ∧
    ((∀ kv ∈ b.settings, kv.1 ≠ c "vcs.time") → (detectVersionInfo initial (some b)).date = c "unknown") ∧
    (b.go ≠ [] → (detectVersionInfo initial (some b)).go = b.go) := by
  obtain ⟨e1, e2, e3⟩ := shown_rest b
  rw [e1, e2, e3]
  have hc := last_of (·.commit) (c "vcs.revision") (List.take 7) setting_commit b.settings ⟨initial.commit, initial.date, false, false⟩
  have hd := last_of (·.date) (c "vcs.time") id setting_date b.settings ⟨initial.commit, initial.date, false, false⟩
  refine ⟨fun r h => hc.2 r hk h, fun h => hc.1 h, fun d h => hd.2 d hk h, fun h => hd.1 h, fun h => ?_⟩
  unfold fromBuild
  simp only
  rw [if_pos h]

/-! ### Cases that meet the hypotheses -/

def release : Build := ⟨c "go1.24", c "github.com/ehabterra/apispec", c "v0.3.0", [(c "vcs.revision", c "0123456789ab"), (c "vcs.time", c "2026-01-02"), (c "vcs.modified", c "true")]⟩
def local' : Build := ⟨c "go1.24", c "github.com/ehabterra/apispec", c "(devel)", [(c "vcs.revision", c "0123456789ab"), (c "vcs.modified", c "false")]⟩

example : Versioned release ∧ Modified release ∧ (release.settings.map (·.1)).Nodup :=
  ⟨⟨by decide, by decide, by decide⟩, by unfold Modified release; exact .tail _ (.tail _ (.head _)), by decide⟩
example : detectVersionInfo initial (some release) = ⟨c "v0.3.0+dirty", c "0123456", c "2026-01-02", c "go1.24"⟩ := by decide +kernel
example : ¬ Versioned local' ∧ HasRevision local' := ⟨fun h => h.2.1 rfl, ⟨_, .head _, .inl rfl⟩⟩
example : detectVersionInfo initial (some local') = ⟨c "dev", c "0123456", c "unknown", c "go1.24"⟩ := by decide +kernel

/-- A build of changed sources without a version is not shown as under development: the placeholder is shown with the mark. -/
theorem C129_placeholder_dirty : ∃ b : Build, ¬ Versioned b ∧ HasRevision b ∧ Modified b ∧ (detectVersionInfo initial (some b)).version = c "0.0.1+dirty" :=
  ⟨⟨c "go1.24", c "github.com/ehabterra/apispec", c "(devel)", [(c "vcs.revision", c "0123456789ab"), (c "vcs.modified", c "true")]⟩,
    fun h => h.2.1 rfl, ⟨_, .head _, .inl rfl⟩, .tail _ (.head _), by decide +kernel⟩

end Verif.Version
