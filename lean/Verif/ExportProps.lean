import Verif.ExportModel
/-!
# C121: a redacted export does not name the module
-/

namespace Verif.Export

/-! ### Specification -/

/-- A text occurs in another. -/
def In (m s : Text) : Prop := ∃ a b, s = a ++ m ++ b

/-- Two texts cannot overlap: no end of one is a beginning of the other, and none is in the other. -/
structure Apart (r m : Text) : Prop where
  ends : ∀ x y z : Text, x ≠ [] → r = y ++ x → m ≠ x ++ z
  starts : ∀ x y z : Text, x ≠ [] → r = x ++ y → m ≠ z ++ x
  notIn : ¬In m r
  notOver : ¬In r m

/-! ### Lemmas: replacement -/

theorem replaceFrom_drop (old new : Text) : ∀ (s : Text) (k : Nat), replaceFrom old new s k = replaceFrom old new (s.drop k) 0 := by
  intro s
  induction s with
  | nil => intro k; simp [replaceFrom]
  | cons c s ih =>
    intro k
    cases k with
    | zero => rfl
    | succ k => rw [replaceFrom, ih]; rfl

theorem replace_hit (old new : Text) (c : Char) (s : Text) (hne : old ≠ []) (h : old.isPrefixOf (c :: s) = true) :
    replaceFrom old new (c :: s) 0 = new ++ replaceFrom old new ((c :: s).drop old.length) 0 := by
  rw [replaceFrom, if_pos h, replaceFrom_drop]
  cases old with
  | nil => exact absurd rfl hne
  | cons a old => simp

theorem replace_miss (old new : Text) (c : Char) (s : Text) (h : ¬old.isPrefixOf (c :: s) = true) :
    replaceFrom old new (c :: s) 0 = c :: replaceFrom old new s 0 := by
  rw [replaceFrom, if_neg h]

/-- A beginning of the result that is an end of the module path is a beginning of the text. -/
theorem begin_kept (m r : Text) (hm : m ≠ []) (hr : r ≠ []) (ha : Apart r m) : ∀ (n : Nat) (s p z v : Text), s.length ≤ n → m = z ++ p →
    replaceFrom m r s 0 = p ++ v → ∃ w, s = p ++ w := by
  intro n
  induction n with
  | zero =>
    intro s p z v hl hp he
    have : s = [] := List.length_eq_zero_iff.1 (by omega)
    subst this
    rw [replaceFrom] at he
    have := List.append_eq_nil_iff.1 he.symm
    exact ⟨[], by rw [this.1]; rfl⟩
  | succ n ih =>
    intro s p z v hl hp he
    cases s with
    | nil =>
      rw [replaceFrom] at he
      have := List.append_eq_nil_iff.1 he.symm
      exact ⟨[], by rw [this.1]; rfl⟩
    | cons c s =>
      cases p with
      | nil => exact ⟨c :: s, rfl⟩
      | cons a p =>
        by_cases h : m.isPrefixOf (c :: s) = true
        · rw [replace_hit m r c s hm h] at he
          rcases List.append_eq_append_iff.1 he with ⟨x, h1, h2⟩ | ⟨x, h1, h2⟩
          · exact absurd ⟨z, x, by rw [hp, h1, List.append_assoc]⟩ ha.notOver
          · exact absurd hp (ha.starts (a :: p) x z (by simp) h1)
        · rw [replace_miss m r c s h, List.cons_append] at he
          injection he with e1 e2
          obtain ⟨w, hw⟩ := ih s p (z ++ [a]) v (by simp only [List.length_cons] at hl; omega) (by rw [hp]; simp) e2
          exact ⟨w, by rw [hw, e1]; rfl⟩

theorem replaced_absent (m r : Text) (hm : m ≠ []) (hr : r ≠ []) (ha : Apart r m) : ∀ (n : Nat) (s : Text), s.length ≤ n → ¬In m (replaceFrom m r s 0) := by
  intro n
  induction n with
  | zero =>
    intro s hl
    have : s = [] := List.length_eq_zero_iff.1 (by omega)
    subst this
    rintro ⟨a, b, h⟩
    rw [replaceFrom] at h
    have := (List.append_eq_nil_iff.1 h.symm).1
    exact hm (List.append_eq_nil_iff.1 this).2
  | succ n ih =>
    intro s hl
    cases s with
    | nil => exact ih [] (Nat.zero_le _)
    | cons c s =>
      rintro ⟨a, b, h⟩
      by_cases hp : m.isPrefixOf (c :: s) = true
      · rw [replace_hit m r c s hm hp, List.append_assoc] at h
        have hlen : ((c :: s).drop m.length).length ≤ n := by
          have : 0 < m.length := List.length_pos_iff.2 hm
          rw [List.length_drop]
          simp only [List.length_cons] at hl ⊢
          omega
        rcases List.append_eq_append_iff.1 h with ⟨x, h1, h2⟩ | ⟨x, h1, h2⟩
        · exact ih _ hlen ⟨x, b, by rw [h2, List.append_assoc]⟩
        · -- r = a ++ x, and x ++ rest = m ++ b
          cases hx : x with
          | nil =>
            rw [hx] at h2
            exact ih _ hlen ⟨[], b, by simpa using h2.symm⟩
          | cons d x' =>
            have hxn : x ≠ [] := by rw [hx]; simp
            rcases List.append_eq_append_iff.1 h2 with ⟨y, h3, h4⟩ | ⟨y, h3, h4⟩
            · exact ha.notIn ⟨a, y, by rw [h1, h3, List.append_assoc]⟩
            · exact ha.ends x a y hxn h1 h3
      · rw [replace_miss m r c s hp] at h
        cases a with
        | nil =>
          rw [List.nil_append] at h
          obtain ⟨w, hw⟩ := begin_kept m r hm hr ha _ (c :: s) m [] b (Nat.le_refl _) rfl (by rw [replace_miss m r c s hp]; exact h)
          exact hp (List.isPrefixOf_iff_prefix.2 ⟨w, hw.symm⟩)
        | cons d a =>
          rw [List.append_assoc, List.cons_append] at h
          injection h with _ h
          exact ih s (by simp only [List.length_cons] at hl; omega) ⟨a, b, by rw [h, List.append_assoc]⟩

/-- A character that is not in the module path divides: an occurrence is before it or after it. -/
theorem in_divided (m a b : Text) (c : Char) (hc : c ∉ m) (h : In m (a ++ c :: b)) : In m a ∨ In m b := by
  obtain ⟨x, y, h⟩ := h
  rw [List.append_assoc] at h
  rcases List.append_eq_append_iff.1 h with ⟨w, h1, h2⟩ | ⟨w, h1, h2⟩
  · cases w with
    | nil =>
      rw [List.nil_append] at h2
      cases m with
      | nil => left; exact ⟨a, [], by simp⟩
      | cons d m =>
        injection h2 with e _
        exact absurd (by rw [e]; exact List.mem_cons_self) hc
    | cons d w =>
      rw [List.cons_append] at h2
      injection h2 with _ h2
      right; exact ⟨w, y, by rw [h2, List.append_assoc]⟩
  · rcases List.append_eq_append_iff.1 h2 with ⟨v, h3, h4⟩ | ⟨v, h3, h4⟩
    · left; exact ⟨x, v, by rw [h1, h3, List.append_assoc]⟩
    · cases v with
      | nil => left; exact ⟨x, [], by rw [h1, h3]; simp⟩
      | cons d v =>
        rw [List.cons_append] at h4
        injection h4 with e _
        exact absurd (show c ∈ m by rw [h3, e]; simp) hc

theorem in_flat (m : Text) (hm : m ≠ []) : ∀ ps : List (Text × Char), (∀ p ∈ ps, p.2 ∉ m) → In m (flat ps) → ∃ p ∈ ps, In m p.1 := by
  intro ps
  induction ps with
  | nil =>
    rintro _ ⟨a, b, h⟩
    have := (List.append_eq_nil_iff.1 (show [] = a ++ m ++ b from h).symm).1
    exact absurd (List.append_eq_nil_iff.1 this).2 hm
  | cons p ps ih =>
    intro hs h
    have e : flat (p :: ps) = p.1 ++ p.2 :: flat ps := by simp [flat]
    rw [e] at h
    rcases in_divided m p.1 (flat ps) p.2 (hs p List.mem_cons_self) h with h | h
    · exact ⟨p, List.mem_cons_self, h⟩
    · obtain ⟨q, hq, hi⟩ := ih (fun q hq => hs q (List.mem_cons_of_mem _ hq)) h
      exact ⟨q, List.mem_cons_of_mem _ hq, hi⟩

theorem mem_issuesParts (o : Options) (fx : Fixed) (p : Text × Char) : ∀ (l : List Issue) (idx : Nat), p ∈ issuesParts o fx idx l ↔
    ∃ pre is post, l = pre ++ is :: post ∧ p ∈ issueParts o fx (idx + pre.length) is := by
  intro l
  induction l with
  | nil =>
    intro idx
    refine ⟨(fun h => by cases h), ?_⟩
    rintro ⟨pre, is, post, h, _⟩
    exact absurd h (by simp)
  | cons x l ih =>
    intro idx
    rw [issuesParts, List.mem_append, ih]
    constructor
    · rintro (h | ⟨pre, is, post, h, hp⟩)
      · exact ⟨[], x, l, rfl, h⟩
      · exact ⟨x :: pre, is, post, by rw [h]; rfl, by rw [List.length_cons, show idx + (pre.length + 1) = idx + 1 + pre.length by omega]; exact hp⟩
    · rintro ⟨pre, is, post, h, hp⟩
      cases pre with
      | nil => injection h with h1 _; subst h1; left; exact hp
      | cons y pre =>
        injection h with h1 h2
        right
        exact ⟨pre, is, post, h2, by rw [List.length_cons, show idx + (pre.length + 1) = idx + 1 + pre.length by omega] at hp; exact hp⟩

theorem part_in (ps : List (Text × Char)) (p : Text × Char) (h : p ∈ ps) : In p.1 (flat ps) := by
  obtain ⟨a, b, e⟩ := List.append_of_mem h
  exact ⟨flat a, p.2 :: flat b, by rw [e]; simp [flat]⟩

/-! ### The properties -/

/-- Replacing the module path leaves no occurrence of it, if it cannot overlap with what replaces it. -/
theorem C121_replaced (m s : Text) (hm : m ≠ []) (ha : Apart placeholder m) : ¬In m (replaceAll m placeholder s) :=
  replaced_absent m placeholder hm (by decide) ha _ s (Nat.le_refl _)

/-- What does not name the module is left as it is. -/
theorem C121_kept (m r s : Text) (h : ¬In m s) : replaceAll m r s = s := by
  unfold replaceAll
  induction s with
  | nil => rfl
  | cons c s ih =>
    rw [replace_miss m r c s (fun hp => by
      obtain ⟨w, hw⟩ := List.isPrefixOf_iff_prefix.1 hp
      exact h ⟨[], w, by simpa using hw.symm⟩)]
    rw [ih (fun ⟨a, b, e⟩ => h ⟨c :: a, b, by rw [e]; rfl⟩)]

/-- The words of the export that come from no field. -/
def fixedWords : List Text :=
  ["# apispec — issues to resolve", "", "No blocking issues were detected — the spec resolved cleanly. Nothing to fix.", "##", "- **Kind:**", "- **Problem:**",
   "- **Schema/component:** ", "- **Type class:** in-module → should auto-resolve; prefer a code/analysis fix (A)", "- **Type class:** external → prefer a config entry (B)",
   "## Current apispec config", "```yaml", "```"].map String.toList

/-- With redaction, the module path is in the export only if it is in fixed words or numbers, or in one of the fields
that are not redacted: the summary, the line about bodies, the method and the kind of an issue.  It is never there from
paths, problems, components, the analysis or the configuration. -/
theorem C121_export_partial (o : Options) (fx : Fixed) (r : Report) (hr : o.redact = true) (hm : o.modulePath ≠ []) (ha : Apart placeholder o.modulePath)
    (hsep : ' ' ∉ o.modulePath ∧ '\n' ∉ o.modulePath ∧ '`' ∉ o.modulePath) (h : In o.modulePath (exportText o fx r)) :
    In o.modulePath r.summary ∨ In o.modulePath r.bodyLine ∨ (∃ i ∈ r.issues, In o.modulePath i.method ∨ In o.modulePath i.kind) ∨
    (∃ t, (t ∈ fixedWords ∨ t ∈ fx.advice) ∧ In o.modulePath t) ∨
    ∃ n, In o.modulePath (fx.num n ++ ".".toList) ∨ In o.modulePath ("There are ".toList ++ fx.num n ++ " issue(s).".toList) := by
  have hred : ∀ s, ¬In o.modulePath (red o s) := by
    intro s
    unfold red
    rw [if_pos ⟨hr, hm⟩]
    exact C121_replaced _ s hm ha
  have hfix : ∀ t : Text, t ∈ fixedWords → In o.modulePath t → (∃ t, (t ∈ fixedWords ∨ t ∈ fx.advice) ∧ In o.modulePath t) := fun t h1 h2 => ⟨t, .inl h1, h2⟩
  obtain ⟨sp, nl, bt⟩ := hsep
  have hchars : ∀ p ∈ parts o fx r, p.2 = ' ' ∨ p.2 = '\n' ∨ p.2 = '`' := by
    intro p hp
    unfold parts headParts at hp
    simp only [List.mem_append] at hp
    rcases hp with ((hp | hp) | hp) | hp
    · simp only [List.mem_cons, List.not_mem_nil, or_false, words] at hp
      rcases hp with rfl | rfl | rfl | rfl <;> simp
    · split at hp
      · simp only [List.mem_cons, List.not_mem_nil, or_false] at hp
        rcases hp with rfl | rfl <;> simp
      · cases hp
    · split at hp
      · simp only [List.mem_cons, List.not_mem_nil, or_false] at hp
        rcases hp with rfl | rfl <;> simp
      · cases hp
    · split at hp
      · simp only [List.mem_cons, List.not_mem_nil, or_false, words] at hp
        subst hp; simp
      · simp only [List.mem_append, List.mem_cons, List.not_mem_nil, or_false, List.mem_map] at hp
        rcases hp with ((hp | ⟨a, _, hp⟩) | hp) | hp
        · subst hp; simp
        · subst hp; simp
        · obtain ⟨pre, is, post, _, hp⟩ := (mem_issuesParts o fx p _ _).1 hp
          unfold issueParts at hp
          simp only [List.mem_append] at hp
          rcases hp with (hp | hp) | hp
          · simp only [List.mem_cons, List.not_mem_nil, or_false] at hp
            rcases hp with rfl | rfl | rfl | rfl | rfl | rfl | rfl | rfl <;> simp
          · split at hp
            · rcases List.mem_append.1 hp with hp | hp
              · simp only [List.mem_cons, List.not_mem_nil, or_false] at hp
                rcases hp with rfl | rfl | rfl <;> simp
              · split at hp
                · simp only [List.mem_cons, List.not_mem_nil, or_false] at hp
                  subst hp
                  split <;> simp [words]
                · cases hp
            · cases hp
          · simp only [List.mem_cons, List.not_mem_nil, or_false] at hp
            subst hp; simp
        · unfold configParts at hp
          split at hp
          · cases hp
          · simp only [List.mem_cons, List.not_mem_nil, or_false, words] at hp
            rcases hp with rfl | rfl | rfl | rfl | rfl <;> simp
  obtain ⟨p, hp, hi⟩ := in_flat o.modulePath hm (parts o fx r) (fun p hp => by
    rcases hchars p hp with h | h | h <;> rw [h] <;> assumption) h
  unfold parts headParts at hp
  simp only [List.mem_append] at hp
  have fixd : p.1 ∈ fixedWords → In o.modulePath r.summary ∨ In o.modulePath r.bodyLine ∨ (∃ i ∈ r.issues, In o.modulePath i.method ∨ In o.modulePath i.kind) ∨
    (∃ t, (t ∈ fixedWords ∨ t ∈ fx.advice) ∧ In o.modulePath t) ∨
    ∃ n, In o.modulePath (fx.num n ++ ".".toList) ∨ In o.modulePath ("There are ".toList ++ fx.num n ++ " issue(s).".toList) :=
    fun h => .inr (.inr (.inr (.inl (hfix _ h hi))))
  have fw : ∀ s : String, s ∈ ["# apispec — issues to resolve", "", "No blocking issues were detected — the spec resolved cleanly. Nothing to fix.", "##", "- **Kind:**", "- **Problem:**",
   "- **Schema/component:** ", "- **Type class:** in-module → should auto-resolve; prefer a code/analysis fix (A)", "- **Type class:** external → prefer a config entry (B)",
   "## Current apispec config", "```yaml", "```"] → s.toList ∈ fixedWords := fun s hs => List.mem_map.2 ⟨s, hs, rfl⟩
  have nilw : ([] : Text) ∈ fixedWords := fw "" (by simp)
  rcases hp with ((hp | hp) | hp) | hp
  · simp only [List.mem_cons, List.not_mem_nil, or_false, words] at hp
    rcases hp with rfl | rfl | rfl | rfl
    · exact fixd (fw _ (by simp))
    · exact fixd nilw
    · exact .inl hi
    · exact fixd nilw
  · split at hp
    · simp only [List.mem_cons, List.not_mem_nil, or_false] at hp
      rcases hp with rfl | rfl
      · exact absurd hi (hred _)
      · exact fixd nilw
    · cases hp
  · split at hp
    · simp only [List.mem_cons, List.not_mem_nil, or_false] at hp
      rcases hp with rfl | rfl
      · exact .inr (.inl hi)
      · exact fixd nilw
    · cases hp
  · split at hp
    · simp only [List.mem_cons, List.not_mem_nil, or_false, words] at hp
      subst hp; exact fixd (fw _ (by simp))
    · simp only [List.mem_append, List.mem_cons, List.not_mem_nil, or_false, List.mem_map] at hp
      rcases hp with ((hp | ⟨a, ha', hp⟩) | hp) | hp
      · subst hp; exact .inr (.inr (.inr (.inr ⟨_, .inr hi⟩)))
      · subst hp; exact .inr (.inr (.inr (.inl ⟨a, .inr ha', hi⟩)))
      · obtain ⟨pre, is, post, hl, hp⟩ := (mem_issuesParts o fx p _ _).1 hp
        have hmem : is ∈ r.issues := (List.mem_filter.1 (show is ∈ warns r by rw [hl]; simp)).1
        unfold issueParts at hp
        simp only [List.mem_append] at hp
        rcases hp with (hp | hp) | hp
        · simp only [List.mem_cons, List.not_mem_nil, or_false] at hp
          rcases hp with rfl | rfl | rfl | rfl | rfl | rfl | rfl | rfl
          · exact fixd (fw _ (by simp))
          · exact .inr (.inr (.inr (.inr ⟨_, .inl hi⟩)))
          · exact .inr (.inr (.inl ⟨is, hmem, .inl hi⟩))
          · exact absurd hi (hred _)
          · exact fixd (fw _ (by simp))
          · exact .inr (.inr (.inl ⟨is, hmem, .inr hi⟩))
          · exact fixd (fw _ (by simp))
          · exact absurd hi (hred _)
        · split at hp
          · rcases List.mem_append.1 hp with hp | hp
            · simp only [List.mem_cons, List.not_mem_nil, or_false] at hp
              rcases hp with rfl | rfl | rfl
              · exact fixd (fw _ (by simp))
              · exact absurd hi (hred _)
              · exact fixd nilw
            · split at hp
              · simp only [List.mem_cons, List.not_mem_nil, or_false] at hp
                refine fixd ?_
                rw [hp]
                split
                · exact fw _ (by simp)
                · exact fw _ (by simp)
              · cases hp
          · cases hp
        · simp only [List.mem_cons, List.not_mem_nil, or_false] at hp
          subst hp; exact fixd nilw
      · unfold configParts at hp
        split at hp
        · cases hp
        · simp only [List.mem_cons, List.not_mem_nil, or_false, words] at hp
          rcases hp with rfl | rfl | rfl | rfl | rfl
          · exact fixd (fw _ (by simp))
          · exact fixd nilw
          · exact fixd (fw _ (by simp))
          · exact absurd hi (hred _)
          · exact fixd (fw _ (by simp))

/-- Every warning is exported with its method and kind, and with its path, problem and component, which are as they are unless they name
the module. -/
theorem C121_reported (o : Options) (fx : Fixed) (r : Report) (i : Issue) (hi : i ∈ r.issues) (hw : i.severity = "warn".toList) :
    In i.method (exportText o fx r) ∧ In i.kind (exportText o fx r) ∧
    ((o.redact = false ∨ ¬In o.modulePath i.path) → In i.path (exportText o fx r)) ∧
    ((o.redact = false ∨ ¬In o.modulePath i.detail) → In i.detail (exportText o fx r)) ∧
    ((o.redact = false ∨ ¬In o.modulePath i.ref) → In i.ref (exportText o fx r)) := by
  have hmem : i ∈ warns r := List.mem_filter.2 ⟨hi, by simpa using hw⟩
  have hne : warns r ≠ [] := fun h => by rw [h] at hmem; cases hmem
  obtain ⟨pre, post, hl⟩ := List.append_of_mem hmem
  have hp : ∀ p, p ∈ issueParts o fx (0 + pre.length) i → p ∈ parts o fx r := by
    intro p hp
    unfold parts
    rw [if_neg hne]
    simp only [List.mem_append]
    exact .inr (.inl (.inr ((mem_issuesParts o fx p _ 0).2 ⟨pre, i, post, hl, hp⟩)))
  have hsame : ∀ s, (o.redact = false ∨ ¬In o.modulePath s) → red o s = s := by
    intro s h
    unfold red
    split
    · next hc =>
      rcases h with h | h
      · rw [h] at hc; exact absurd hc.1 (by decide)
      · exact C121_kept _ _ s h
    · rfl
  refine ⟨part_in _ (i.method, ' ') (hp _ (List.mem_append_left _ (List.mem_append_left _ (.tail _ (.tail _ (.head _)))))),
    part_in _ (i.kind, '\n') (hp _ (List.mem_append_left _ (List.mem_append_left _ (.tail _ (.tail _ (.tail _ (.tail _ (.tail _ (.head _))))))))), fun h => ?_, fun h => ?_, fun h => ?_⟩
  · have := part_in _ (red o i.path, '\n') (hp _ (List.mem_append_left _ (List.mem_append_left _ (.tail _ (.tail _ (.tail _ (.head _)))))))
    rwa [hsame _ h] at this
  · have := part_in _ (red o i.detail, '\n') (hp _ (List.mem_append_left _ (List.mem_append_left _ (.tail _ (.tail _ (.tail _ (.tail _ (.tail _ (.tail _ (.tail _ (.head _)))))))))))
    rwa [hsame _ h] at this
  · by_cases hr : i.ref = []
    · rw [hr]; exact ⟨[], exportText o fx r, rfl⟩
    · have := part_in _ (red o i.ref, '`') (hp _ (List.mem_append_left _ (List.mem_append_right _ (by
        rw [if_pos hr]; exact List.mem_append_left _ (.tail _ (.head _))))))
      rwa [hsame _ h] at this

/-! ### Instances and what does not hold -/

abbrev c (s : String) : Text := s.toList

abbrev shop : Text := c "github.com/acme/shop"

theorem apart_of (r m : Text) (h1 : ∀ n ∈ List.range r.length, (r.drop n).isPrefixOf m = false) (h2 : ∀ n ∈ List.range r.length, (r.take (n + 1)).isSuffixOf m = false)
    (h3 : ∀ n ∈ List.range (r.length + 1), m.isPrefixOf (r.drop n) = false) (h4 : ∀ n ∈ List.range (m.length + 1), r.isPrefixOf (m.drop n) = false) : Apart r m := by
  refine ⟨fun x y z hx hr hm => ?_, fun x y z hx hr hm => ?_, ?_, ?_⟩
  · have hl : 0 < x.length := List.length_pos_iff.2 hx
    have := h1 y.length (List.mem_range.2 (by rw [hr, List.length_append]; omega))
    rw [hr, List.drop_left, hm] at this
    rw [List.isPrefixOf_iff_prefix.2 ⟨z, rfl⟩] at this
    cases this
  · have hl : 0 < x.length := List.length_pos_iff.2 hx
    have := h2 (x.length - 1) (List.mem_range.2 (by rw [hr, List.length_append]; omega))
    rw [show x.length - 1 + 1 = x.length by omega, hr, List.take_left, hm, List.isSuffixOf_iff_suffix.2 ⟨z, rfl⟩] at this
    cases this
  · rintro ⟨a, b, h⟩
    have := h3 a.length (List.mem_range.2 (by rw [h]; simp only [List.length_append]; omega))
    rw [h, List.append_assoc, List.drop_left, List.isPrefixOf_iff_prefix.2 ⟨b, rfl⟩] at this
    cases this
  · rintro ⟨a, b, h⟩
    have := h4 a.length (List.mem_range.2 (by rw [h]; simp only [List.length_append]; omega))
    rw [h, List.append_assoc, List.drop_left, List.isPrefixOf_iff_prefix.2 ⟨b, rfl⟩] at this
    cases this

example : Apart placeholder shop ∧ ' ' ∉ shop ∧ '\n' ∉ shop ∧ '`' ∉ shop :=
  ⟨apart_of _ _ (by decide +kernel) (by decide +kernel) (by decide +kernel) (by decide +kernel), by decide, by decide, by decide⟩

example : replaceAll shop placeholder (c "github.com/acme/shop/api.User and github.com/acme/shop.T") = c "example.com/app/api.User and example.com/app.T" := by decide +kernel

/-- Names of components are made of the module path with underscores, so they do not have its slashes and are not
redacted: the owner and the name of the module are in the redacted export. -/
theorem C121_component_shown (o : Options) (fx : Fixed) (r : Report) (i : Issue) (hi : i ∈ r.issues) (hw : i.severity = "warn".toList) (rest : Text)
    (hs : '/' ∈ o.modulePath) (hn : '/' ∉ rest) (href : i.ref = moduleRefPrefix o.modulePath ++ rest) : In (moduleRefPrefix o.modulePath) (exportText o fx r) := by
  have hno : ¬In o.modulePath i.ref := by
    rintro ⟨a, b, h⟩
    have : '/' ∈ moduleRefPrefix o.modulePath ++ rest := by rw [← href, h]; simp [hs]
    rcases List.mem_append.1 this with h | h
    · unfold moduleRefPrefix at h
      obtain ⟨x, _, hx⟩ := List.mem_map.1 h
      split at hx
      · exact absurd hx (by decide)
      · next hc => exact hc (.inl hx)
    · exact hn h
  obtain ⟨a, b, h⟩ := (C121_reported o fx r i hi hw).2.2.2.2 (.inr hno)
  exact ⟨a, rest ++ b, by rw [h, href]; simp⟩

example : moduleRefPrefix shop = c "github_com_acme_shop" ∧ '/' ∈ shop := by decide

/-- A module path that ends as the placeholder begins can be put together again by the replacement. -/
theorem C121_overlap : ∃ s : Text, In (c "a/cafe") (replaceAll (c "a/cafe") placeholder s) :=
  ⟨c "a/cafa/cafe", [], c "xample.com/app", by decide +kernel⟩

/-- A type of another module, whose path begins with that of this one, is called a type of this one. -/
theorem C121_class_wrong : inModule ⟨[], shop, true⟩ (moduleRefPrefix (c "github.com/acme/shopify") ++ c "_Client") = true ∧
    inModule ⟨[], shop, true⟩ (moduleRefPrefix (c "github.com/other/lib") ++ c "_Client") = false := by decide +kernel

end Verif.Export
