import Verif.ParamsSpec
/-! # Properties C07, C08, C43, C50 -/

namespace Verif.Params
open Verif.Common Verif.Paths

/-! ## Template variables -/

theorem idStart_ne {c : Char} (h : isIdStart c = true) : c ≠ '{' ∧ c ≠ '}' := by
  constructor <;> rintro rfl <;> exact absurd h (by decide)
theorem idChar_ne {c : Char} (h : isIdChar c = true) : c ≠ '{' ∧ c ≠ '}' := by
  constructor <;> rintro rfl <;> exact absurd h (by decide)
theorem idStart_idChar {c : Char} (h : isIdStart c = true) : isIdChar c = true := by
  simp only [isIdStart, isIdChar, Bool.or_eq_true, Char.isAlphanum] at *; grind

theorem Ident.ne_nil {n : Str} (h : Ident n) : n ≠ [] := by
  obtain ⟨c, cs, rfl, _⟩ := h; simp

theorem Ident.snoc {n : Str} {c : Char} (h : Ident n) (hc : isIdChar c = true) : Ident (n ++ [c]) := by
  obtain ⟨d, ds, rfl, hd, hds⟩ := h
  refine ⟨d, ds ++ [c], rfl, hd, ?_⟩
  intro x hx
  rcases List.mem_append.1 hx with hx | hx
  · exact hds x hx
  · rw [List.mem_singleton.1 hx]; exact hc

theorem ident_single {c : Char} (h : isIdStart c = true) : Ident [c] := ⟨c, [], rfl, h, by simp⟩

/-- The first variable the scan reports, and where it continues. -/
theorem scan_first (s : Str) : ∀ (st : Option Str) (n : Str) (rest : List Str),
    (∀ acc, st = some acc → acc = [] ∨ Ident acc) → templateScan st s = n :: rest →
    Ident n ∧ ((∃ pre post, s = pre ++ '{' :: (n ++ '}' :: post) ∧ templateVars post = rest) ∨
      (∃ acc tail post, st = some acc ∧ n = acc ++ tail ∧ s = tail ++ '}' :: post ∧ templateVars post = rest)) := by
  induction s with
  | nil => intro st n rest _ h; cases st <;> simp [templateScan] at h
  | cons c cs ih =>
    intro st n rest hst h
    have lift : ∀ {st' : Option Str}, (∀ acc, st' = some acc → acc = [] ∨ Ident acc) →
        templateScan st' cs = n :: rest → (∀ acc, st' = some acc → acc = [] ∧ c = '{' ) →
        Ident n ∧ (∃ pre post, c :: cs = pre ++ '{' :: (n ++ '}' :: post) ∧ templateVars post = rest) := by
      intro st' h1 h2 h3
      obtain ⟨hid, ⟨pre, post, e, hr⟩ | ⟨acc, tail, post, e1, e2, e3, hr⟩⟩ := ih st' n rest h1 h2
      · exact ⟨hid, c :: pre, post, by simp [e], hr⟩
      · obtain ⟨ha, hc⟩ := h3 acc e1
        subst ha hc
        refine ⟨hid, [], post, ?_, hr⟩
        simp at e2; subst e2; simp [e3]
    cases st with
    | none =>
      rw [templateScan] at h
      split at h
      · next hc =>
        obtain ⟨a, b⟩ := lift (by simp) h (by simp [hc])
        exact ⟨a, .inl b⟩
      · obtain ⟨a, b⟩ := lift (by simp) h (by simp)
        exact ⟨a, .inl b⟩
    | some acc =>
      rw [templateScan] at h
      split at h
      · next hc =>
        obtain ⟨a, b⟩ := lift (by simp) h (by simp [hc])
        exact ⟨a, .inl b⟩
      · split at h
        · next hc =>
          split at h
          · obtain ⟨a, b⟩ := lift (by simp) h (by simp)
            exact ⟨a, .inl b⟩
          · next hne =>
            simp only [List.cons.injEq] at h
            obtain ⟨rfl, hr⟩ := h
            refine ⟨(hst acc rfl).resolve_left hne, .inr ⟨acc, [], cs, rfl, by simp, by simp [hc], hr⟩⟩
        · split at h
          · next hok =>
            have hacc : Ident (acc ++ [c]) := by
              unfold continuesName at hok
              by_cases ha : acc = []
              · subst ha; simp at hok; simpa using ident_single hok
              · rw [if_neg ha] at hok
                exact Ident.snoc ((hst acc rfl).resolve_left ha) hok
            obtain ⟨hid, ⟨pre, post, e, hr⟩ | ⟨acc', tail, post, e1, e2, e3, hr⟩⟩ :=
              ih (some (acc ++ [c])) n rest (by rintro _ ⟨⟩; exact .inr hacc) h
            · exact ⟨hid, .inl ⟨c :: pre, post, by simp [e], hr⟩⟩
            · cases e1
              exact ⟨hid, .inr ⟨acc, c :: tail, post, rfl, by simp [e2], by simp [e3], hr⟩⟩
          · obtain ⟨a, b⟩ := lift (by simp) h (by simp)
            exact ⟨a, .inl b⟩

theorem vars_first {s n : Str} {rest : List Str} (h : templateVars s = n :: rest) :
    Ident n ∧ ∃ pre post, s = pre ++ '{' :: (n ++ '}' :: post) ∧ templateVars post = rest := by
  obtain ⟨hid, h | ⟨_, _, _, h, _⟩⟩ := scan_first s none n rest (by simp) h
  · exact ⟨hid, h⟩
  · cases h

/-- Soundness: only identifier placeholders of the template are reported. -/
theorem vars_sound (l : List Str) : ∀ (s n : Str), templateVars s = l → n ∈ l → Ident n ∧ HasPlaceholder s n := by
  induction l with
  | nil => intro s n _ h; simp at h
  | cons m rest ih =>
    intro s n hs hn
    obtain ⟨hid, pre, post, e, hr⟩ := vars_first hs
    rcases List.mem_cons.1 hn with rfl | hn
    · exact ⟨hid, pre, post, e⟩
    · obtain ⟨hid', pre', post', e'⟩ := ih post n hr hn
      exact ⟨hid', pre ++ '{' :: (m ++ '}' :: pre'), post', by simp [e, e']⟩

theorem scan_ident (tail : Str) : ∀ (acc post : Str), (∀ x ∈ tail, isIdChar x = true) → acc ≠ [] →
    templateScan (some acc) (tail ++ '}' :: post) = (acc ++ tail) :: templateVars post := by
  induction tail with
  | nil => intro acc post _ ha; simp [templateScan, ha, templateVars]
  | cons c cs ih =>
    intro acc post hc ha
    have h1 := hc c (by simp)
    obtain ⟨n1, n2⟩ := idChar_ne h1
    rw [List.cons_append, templateScan, if_neg n1, if_neg n2, if_pos (by simp [continuesName, ha, h1]), ih _ _ (fun x hx => hc x (by simp [hx])) (by simp)]
    simp

/-- Completeness: every identifier placeholder is reported. -/
theorem vars_complete (pre : Str) : ∀ (st : Option Str) (n post : Str), Ident n →
    n ∈ templateScan st (pre ++ '{' :: (n ++ '}' :: post)) := by
  induction pre with
  | nil =>
    intro st n post hid
    obtain ⟨c, cs, rfl, hc, hcs⟩ := hid
    obtain ⟨n1, n2⟩ := idStart_ne hc
    have : templateScan (some []) (c :: (cs ++ '}' :: post)) = (c :: cs) :: templateVars post := by
      rw [templateScan, if_neg n1, if_neg n2, if_pos (by simp [continuesName, hc]), List.nil_append]
      rw [scan_ident cs [c] post hcs (by simp)]
      rfl
    cases st <;> rw [List.nil_append, List.cons_append, templateScan, if_pos rfl, this] <;> simp
  | cons c cs ih =>
    intro st n post hid
    have := fun st => ih st n post hid
    cases st <;> simp only [List.cons_append, templateScan] <;> grind

theorem mem_templateVars (path n : Str) : n ∈ templateVars path ↔ Ident n ∧ HasPlaceholder path n := by
  constructor
  · exact vars_sound _ path n rfl
  · rintro ⟨hid, pre, post, rfl⟩
    exact vars_complete pre none n post hid

theorem templateVars_nodup (l : List Str) : ∀ path, templateVars path = l → PlaceholdersOnce path → l.Nodup := by
  induction l with
  | nil => intro _ _ _; exact List.nodup_nil
  | cons n rest ih =>
    intro path h ho
    obtain ⟨hid, pre, post, e, hr⟩ := vars_first h
    rw [List.nodup_cons]
    constructor
    · intro hm
      obtain ⟨_, pre', post', e'⟩ := vars_sound rest post n hr hm
      have := ho n pre post (pre ++ '{' :: (n ++ '}' :: pre')) post' hid e (by simp [e, e'])
      have := congrArg List.length this
      simp at this
    · refine ih post hr ?_
      intro m p1 q1 p2 q2 hm e1 e2
      have := ho m (pre ++ '{' :: (n ++ '}' :: p1)) q1 (pre ++ '{' :: (n ++ '}' :: p2)) q2 hm
        (by simp [e, e1]) (by rw [e, e2]; simp)
      simpa using this

/-! ## The component of a dynamic placeholder -/

theorem isSuffixOf_append_self (a b : Str) : b.isSuffixOf (a ++ b) = true :=
  List.isSuffixOf_iff_suffix.2 ⟨a, rfl⟩

theorem trimParamSuffix_append (a : Str) : trimParamSuffix (a ++ "Param".toList) = a := by
  unfold trimParamSuffix
  rw [if_pos (isSuffixOf_append_self a _)]
  have : "Param".toList.length = 5 := by decide
  rw [List.length_append, this, Nat.add_sub_cancel, List.take_left]

theorem dynComponentName_cons (c : Char) (cs : Str) :
    dynComponentName (c :: cs) = (c.toUpper :: cs) ++ "Param".toList := rfl

theorem drop_dynRef (d : Str) : (dynRef d).drop refPrefixP.length = dynComponentName d := by
  unfold dynRef; exact List.drop_left

theorem prefix_dynRef (d : Str) : refPrefixP.isPrefixOf (dynRef d) = true :=
  List.isPrefixOf_iff_prefix.2 ⟨_, rfl⟩

theorem dynRef_ne_nil (d : Str) : dynRef d ≠ [] := by
  unfold dynRef refPrefixP; intro h
  have := congrArg List.length h
  simp at this

theorem refTarget_dynRef {d : Str} (h : LowerStart d) : refTargetName (dynRef d) = d := by
  obtain ⟨c, cs, rfl, hc⟩ := h
  unfold refTargetName
  rw [if_pos (prefix_dynRef _), drop_dynRef, dynComponentName_cons, trimParamSuffix_append]
  simp [hc]

theorem dynComponentName_inj {d e : Str} (hd : LowerStart d) (he : LowerStart e)
    (h : dynComponentName d = dynComponentName e) : d = e := by
  rw [← refTarget_dynRef hd, ← refTarget_dynRef he]
  unfold dynRef; rw [h]

/-- Entries of the component table stay, and an entry always maps the key of a name to that name. -/
theorem lookup_addDyn_keep (ns : List Str) : ∀ (comps : List (Str × Str)) (k v : Str),
    comps.lookup k = some v → (addDynComponents comps ns).lookup k = some v := by
  induction ns with
  | nil => intro _ _ _ h; exact h
  | cons n ns ih =>
    intro comps k v h
    unfold addDynComponents
    split
    · exact ih _ _ _ h
    · apply ih
      rw [List.lookup_append, h]; rfl

theorem lookup_addDyn (ns : List Str) : ∀ (comps : List (Str × Str)) (d : Str),
    (∀ n ∈ ns, LowerStart n) → (∀ k v, comps.lookup k = some v → ∃ e, LowerStart e ∧ k = dynComponentName e ∧ v = e) →
    d ∈ ns → (addDynComponents comps ns).lookup (dynComponentName d) = some d := by
  induction ns with
  | nil => intro _ _ _ _ h; simp at h
  | cons n ns ih =>
    intro comps d hl hc hd
    unfold addDynComponents
    have hln := hl n (by simp)
    have hl' : ∀ m ∈ ns, LowerStart m := fun m hm => hl m (by simp [hm])
    split
    · next hs =>
      rcases List.mem_cons.1 hd with rfl | hd
      · obtain ⟨v, hv⟩ := Option.isSome_iff_exists.1 hs
        obtain ⟨e, he, hk, rfl⟩ := hc _ _ hv
        have := dynComponentName_inj hln he hk
        subst this
        exact lookup_addDyn_keep _ _ _ _ hv
      · exact ih _ _ hl' hc hd
    · next hs =>
      have hlk : comps.lookup (dynComponentName n) = none := by
        rw [← Option.not_isSome_iff_eq_none]; exact hs
      rcases List.mem_cons.1 hd with rfl | hd
      · apply lookup_addDyn_keep
        rw [List.lookup_append, hlk]
        simp
      · refine ih _ _ hl' ?_ hd
        intro k v hkv
        rw [List.lookup_append] at hkv
        cases hk : comps.lookup k with
        | some w =>
          rw [hk] at hkv
          simp only [Option.some_or, Option.some.injEq] at hkv
          subst hkv
          exact hc _ _ hk
        | none =>
          rw [hk] at hkv
          simp only [Option.none_or, List.lookup_cons, List.lookup_nil] at hkv
          split at hkv
          · next hb =>
            simp only [Option.some.injEq] at hkv
            exact ⟨n, hln, by simpa using hb, hkv.symm⟩
          · cases hkv

/-! ## Parameter list structure -/

theorem mem_covered {σ} (ps : List (Param σ)) (n : Str) :
    n ∈ coveredNames ps ↔ ∃ p ∈ ps, (p.loc = "path" ∧ p.name = n) ∨
      (p.ref ≠ [] ∧ refTargetName p.ref = n ∧ n ≠ []) := by
  unfold coveredNames
  rw [List.mem_flatMap]
  constructor
  · rintro ⟨p, hp, h⟩
    refine ⟨p, hp, ?_⟩
    rcases List.mem_append.1 h with h | h
    · split at h
      · next hl => exact .inl ⟨hl, (List.mem_singleton.1 h).symm⟩
      · simp at h
    · split at h
      · next hr =>
        split at h
        · next ht =>
          have : n = refTargetName p.ref := by simpa using h
          subst this
          exact .inr ⟨hr, rfl, ht⟩
        · simp at h
      · simp at h
  · rintro ⟨p, hp, h⟩
    refine ⟨p, hp, ?_⟩
    rcases h with ⟨h1, h2⟩ | ⟨h1, h2, h3⟩
    · simp [h1, h2]
    · refine List.mem_append_right _ ?_
      rw [if_pos h1, if_pos (by rw [h2]; exact h3)]; simp [h2]

theorem appendDynLoop_mem {σ} (ds : List Str) : ∀ (cov : List Str) (p : Param σ),
    p ∈ appendDynLoop cov ds → ∃ d ∈ ds, d ∉ cov ∧ p = { ref := dynRef d } := by
  induction ds with
  | nil => intro _ _ h; simp [appendDynLoop] at h
  | cons d ds ih =>
    intro cov p h
    unfold appendDynLoop at h
    split at h
    · obtain ⟨e, he, hc, hp⟩ := ih _ _ h; exact ⟨e, by simp [he], hc, hp⟩
    · next hd =>
      rcases List.mem_cons.1 h with rfl | h
      · exact ⟨d, by simp, hd, rfl⟩
      · obtain ⟨e, he, hc, hp⟩ := ih _ _ h
        exact ⟨e, by simp [he], fun hm => hc (by simp [hm]), hp⟩

theorem appendDynLoop_has {σ} (ds : List Str) : ∀ (cov : List Str) (d : Str), d ∈ ds → d ∉ cov →
    ({ ref := dynRef d } : Param σ) ∈ appendDynLoop cov ds := by
  induction ds with
  | nil => intro _ _ h; simp at h
  | cons e ds ih =>
    intro cov d hd hc
    unfold appendDynLoop
    by_cases hde : d = e
    · subst hde; rw [if_neg hc]; simp
    · have hd' : d ∈ ds := by simpa [hde] using hd
      split
      · exact ih _ _ hd' hc
      · exact List.mem_cons_of_mem _ (ih _ _ hd' (by simp [hde, hc]))

theorem appendDynRefs_eq {σ} (ps : List (Param σ)) (ds : List Str) :
    appendDynRefs ps ds = ps ++ appendDynLoop (coveredNames ps) ds := by
  unfold appendDynRefs
  split
  · next h => subst h; simp [appendDynLoop]
  · rfl

theorem path_ne_query : "path" ≠ "query" := by decide
theorem path_not_form : isFormSentinel "path" = false := by decide

/-- Members after form resolution: untouched ones, or forms moved to the query. -/
theorem mem_resolveForm {σ} (dflt : σ) (m : Str) (ps : List (Param σ)) (hb mp : Bool) (p : Param σ)
    (h : p ∈ (resolveForm dflt m ps hb mp).1) :
    (p ∈ ps ∧ (isFormSentinel p.loc = false)) ∨ (∃ q ∈ ps, q.loc = paramInForm ∧ p = { q with loc := "query" }) := by
  unfold resolveForm at h
  split at h
  · next hc =>
    simp only [Bool.and_eq_true, decide_eq_true_eq] at hc
    refine .inl ⟨h, ?_⟩
    have := hc.1
    rw [List.any_eq_false] at this
    simpa using this p h
  · dsimp only at h
    split at h
    · exact .inl (by simpa using h)
    · rcases List.mem_append.1 h with h | h
      · exact .inl (by simpa using h)
      · obtain ⟨q, hq, rfl⟩ := List.mem_map.1 h
        simp only [List.mem_filter, decide_eq_true_eq] at hq
        obtain ⟨⟨hq1, hq2⟩, hq3⟩ := hq
        refine .inr ⟨q, hq1, ?_, rfl⟩
        simp only [isFormSentinel, Bool.or_eq_true, beq_iff_eq] at hq2
        exact hq2.resolve_right hq3

/-- Members of the list the placeholder steps work on. -/
theorem base_facts {σ} (dflt : σ) (m : Str) (ps : List (Param σ)) (hb mp : Bool)
    (hreq : ∀ p ∈ ps, p.loc = "path" → p.required = true) (href : ∀ p ∈ ps, p.ref = []) :
    ∀ p ∈ dedupParams (resolveForm dflt m ps hb mp).1,
      p.ref = [] ∧ (p.loc = "path" → p.required = true) := by
  intro p hp
  have hp := (dedupBy_sublist _ _).subset hp
  rcases mem_resolveForm dflt m ps hb mp p hp with ⟨h, _⟩ | ⟨q, hq, _, rfl⟩
  · exact ⟨href p h, hreq p h⟩
  · exact ⟨href q hq, fun h => absurd h.symm path_ne_query⟩

/-! ## C07 -/

/-- **C07, coverage.** Every identifier placeholder of the path template is declared by
the operation: by an inline required path parameter of that name, or by a reference to
a component that declares a (required) path parameter of that name.

Hypotheses: path parameters found in the handler are required (extractor.go:1790 makes
them so) and inline; synthesized placeholders start with a lower-case letter or '_'.
`allDynamic` are the synthesized placeholders of all routes, from which the components
are built. `{user-id}`-style placeholders are not identifiers: see
`C07_non_identifier_undeclared`. -/
theorem C07_placeholders_declared_partial {σ} (dflt : σ) (mk : Option Str → σ) (method path : Str)
    (ps : List (Param σ)) (hasBody multipart : Bool) (dynamic allDynamic : List Str)
    (pattern : Str → Option Str)
    (hreq : ∀ p ∈ ps, p.loc = "path" → p.required = true) (href : ∀ p ∈ ps, p.ref = [])
    (hsub : ∀ d ∈ dynamic, d ∈ allDynamic) (hlow : ∀ d ∈ allDynamic, LowerStart d)
    (n : Str) (hn : Ident n) (hp : HasPlaceholder path n) :
    ∃ p ∈ operationParams dflt mk method path ps hasBody multipart dynamic pattern,
      declares (addDynComponents [] allDynamic) p = some (n, "path") ∧
      (p.ref = [] → p.required = true) := by
  unfold operationParams ensureAll
  generalize hB : dedupParams (resolveForm dflt method ps hasBody multipart).1 = B
  have hB' := base_facts dflt method ps hasBody multipart hreq href
  rw [hB] at hB'
  by_cases hc : n ∈ coveredNames (appendDynRefs B dynamic)
  · rw [mem_covered] at hc
    obtain ⟨p, hp1, hp2⟩ := hc
    refine ⟨p, List.mem_append_left _ hp1, ?_⟩
    rw [appendDynRefs_eq] at hp1
    rcases List.mem_append.1 hp1 with hb | hd
    · obtain ⟨hr, hq⟩ := hB' p hb
      rcases hp2 with ⟨h1, h2⟩ | ⟨h1, _⟩
      · exact ⟨by simp [declares, hr, h1, h2], fun _ => hq h1⟩
      · exact absurd hr h1
    · obtain ⟨d, hd1, hd2, rfl⟩ := appendDynLoop_mem _ _ _ hd
      have hld := hlow d (hsub d hd1)
      rcases hp2 with ⟨h1, _⟩ | ⟨_, h2, _⟩
      · exact absurd (show "" = "path" from h1) (by decide)
      · rw [refTarget_dynRef hld] at h2
        subst h2
        refine ⟨?_, fun h => absurd h (dynRef_ne_nil _)⟩
        simp only [declares]
        rw [if_neg (dynRef_ne_nil _), if_pos (prefix_dynRef _), drop_dynRef,
          lookup_addDyn allDynamic [] d hlow (by simp) (hsub d hd1)]
        rfl
  · refine ⟨_, List.mem_append_right _ (List.mem_map.2 ⟨n, ?_, rfl⟩), ?_, fun _ => rfl⟩
    · rw [List.mem_filter]
      exact ⟨(mem_templateVars path n).2 ⟨hn, hp⟩, by simpa using hc⟩
    · simp [declares]

/-- **C07, nothing lost.** The parameters the handler declared (after form fields were
moved and duplicates removed) lead the list, unchanged and in order; what is added is a
reference for a synthesized placeholder or a required path parameter named in the
template. -/
theorem C07_declared_kept {σ} (dflt : σ) (mk : Option Str → σ) (method path : Str)
    (ps : List (Param σ)) (hasBody multipart : Bool) (dynamic : List Str) (pattern : Str → Option Str) :
    ∃ added, operationParams dflt mk method path ps hasBody multipart dynamic pattern =
        dedupParams (resolveForm dflt method ps hasBody multipart).1 ++ added ∧
      ∀ p ∈ added, (∃ d ∈ dynamic, p.ref = dynRef d) ∨
        (p.ref = [] ∧ p.loc = "path" ∧ p.required = true ∧ Ident p.name ∧ HasPlaceholder path p.name ∧
          p.schema = some (mk (pattern p.name))) := by
  unfold operationParams ensureAll
  rw [appendDynRefs_eq, List.append_assoc]
  refine ⟨_, rfl, ?_⟩
  intro p hp
  rcases List.mem_append.1 hp with hp | hp
  · obtain ⟨d, hd, _, rfl⟩ := appendDynLoop_mem _ _ _ hp
    exact .inl ⟨d, hd, rfl⟩
  · obtain ⟨n, hn, rfl⟩ := List.mem_map.1 hp
    rw [List.mem_filter, mem_templateVars] at hn
    exact .inr ⟨rfl, rfl, rfl, hn.1.1, hn.1.2, rfl⟩

/-! ### Uniqueness (C07, C08) -/

theorem key_inj {σ} {p q : Param σ} (hp : ':' ∉ p.loc.toList) (hq : ':' ∉ q.loc.toList) (h : p.key = q.key) :
    p.name = q.name ∧ p.loc = q.loc := by
  unfold Param.key at h
  have aux : ∀ (a b c d : Str), ':' ∉ b → ':' ∉ d → a ++ ':' :: b = c ++ ':' :: d → a = c ∧ b = d := by
    intro a b c d hb hd he
    rw [List.append_eq_append_iff] at he
    rcases he with ⟨as, h1, h2⟩ | ⟨as, h1, h2⟩
    · cases as with
      | nil => simp at h2; simp [h1, h2]
      | cons x xs =>
        simp only [List.cons_append, List.cons.injEq] at h2
        exact absurd (by rw [h2.2]; simp) hb
    · cases as with
      | nil => simp at h2; simp [h1, h2]
      | cons x xs =>
        simp only [List.cons_append, List.cons.injEq] at h2
        exact absurd (by rw [h2.2]; simp) hd
  have := aux _ _ _ _ hp hq h
  exact ⟨this.1, String.ext_iff.2 this.2⟩

/-- **C08.** De-duplicating parameters leaves no two with the same name and location,
keeps their order and invents none; every (name, location) stays, represented by its
first declaration. `in` never contains a colon (it is query/path/header/cookie/form…). -/
theorem C08_unique {σ} (ps : List (Param σ)) (hloc : ∀ p ∈ ps, ':' ∉ p.loc.toList) :
    ((dedupParams ps).map fun p => (p.name, p.loc)).Nodup ∧ (dedupParams ps).Sublist ps ∧
    ∀ n l, (dedupParams ps).find? (fun p => decide (p.name = n ∧ p.loc = l)) =
      ps.find? (fun p => decide (p.name = n ∧ p.loc = l)) := by
  have hsub := dedupBy_sublist Param.key ps
  refine ⟨?_, hsub, ?_⟩
  · have hk := dedupBy_nodup Param.key ps
    unfold dedupParams
    have hl : ∀ p ∈ dedupBy Param.key ps, ':' ∉ p.loc.toList := fun p hp => hloc p (hsub.subset hp)
    clear hsub hloc
    generalize dedupBy Param.key ps = l at hk hl
    rw [List.Nodup, List.pairwise_map] at hk ⊢
    refine hk.imp ?_
    intro a b hab he
    simp only [Prod.mk.injEq] at he
    exact hab (by unfold Param.key; rw [he.1, he.2])
  · intro n l
    show (dedupBy Param.key ps).find? _ = _
    by_cases hcol : ':' ∈ l.toList
    · have : ∀ qs : List (Param σ), (∀ p ∈ qs, ':' ∉ p.loc.toList) →
          qs.find? (fun p => decide (p.name = n ∧ p.loc = l)) = none := by
        intro qs h
        rw [List.find?_eq_none]
        intro p hp hd
        simp only [decide_eq_true_eq] at hd
        exact h p hp (hd.2 ▸ hcol)
      rw [this _ hloc, this _ (fun p hp => hloc p (hsub.subset hp))]
    · have conv : ∀ qs : List (Param σ), (∀ p ∈ qs, ':' ∉ p.loc.toList) →
          qs.find? (fun p => decide (p.name = n ∧ p.loc = l)) =
          qs.find? (fun p => decide (p.key = n ++ ':' :: l.toList)) := by
        intro qs h
        induction qs with
        | nil => rfl
        | cons p qs ih =>
          have : (p.name = n ∧ p.loc = l) ↔ p.key = n ++ ':' :: l.toList := by
            constructor
            · rintro ⟨rfl, rfl⟩; rfl
            · intro hk
              exact key_inj (q := { name := n, loc := l }) (h p (by simp)) hcol hk
          rw [List.find?_cons, List.find?_cons, ih (fun q hq => h q (by simp [hq])), decide_eq_decide.2 this]
      rw [conv _ hloc, conv _ (fun p hp => hloc p (hsub.subset hp))]
      exact dedupBy_find Param.key ps _

/-- **C08.** De-duplication is idempotent. -/
theorem C08_idempotent {σ} (ps : List (Param σ)) : dedupParams (dedupParams ps) = dedupParams ps :=
  dedupBy_idem Param.key ps

theorem appendDynLoop_nodup {σ} (comps : List (Str × Str)) (ds : List Str) : ∀ (cov : List Str),
    (∀ d ∈ ds, comps.lookup (dynComponentName d) = some d) →
    ((appendDynLoop (σ := σ) cov ds).map (declares comps)).Nodup := by
  induction ds with
  | nil => intro _ _; simp [appendDynLoop]
  | cons d ds ih =>
    intro cov h
    have h' : ∀ e ∈ ds, comps.lookup (dynComponentName e) = some e := fun e he => h e (by simp [he])
    unfold appendDynLoop
    split
    · exact ih _ h'
    · rw [List.map_cons, List.nodup_cons]
      refine ⟨?_, ih _ h'⟩
      intro hm
      obtain ⟨p, hp, he⟩ := List.mem_map.1 hm
      obtain ⟨e, he1, he2, rfl⟩ := appendDynLoop_mem _ _ _ hp
      simp only [declares] at he
      rw [if_neg (dynRef_ne_nil _), if_pos (prefix_dynRef _), drop_dynRef,
        if_neg (dynRef_ne_nil _), if_pos (prefix_dynRef _), drop_dynRef, h' e he1, h d (by simp)] at he
      simp at he
      exact he2 (by simp [he])

/-- **C07/C08, uniqueness.** As a reader of the document sees it (references followed),
no (name, location) is declared twice by an operation, provided no placeholder repeats
in the template and synthesized placeholders start in lower case. Both provisos are
needed: see `C07_repeated_placeholder_twice` and `C07_exported_name_twice`. -/
theorem C07_no_duplicates_partial {σ} (dflt : σ) (mk : Option Str → σ) (method path : Str)
    (ps : List (Param σ)) (hasBody multipart : Bool) (dynamic allDynamic : List Str)
    (pattern : Str → Option Str) (hloc : ∀ p ∈ ps, ':' ∉ p.loc.toList) (href : ∀ p ∈ ps, p.ref = [])
    (hsub : ∀ d ∈ dynamic, d ∈ allDynamic) (hlow : ∀ d ∈ allDynamic, LowerStart d)
    (honce : PlaceholdersOnce path) :
    ((operationParams dflt mk method path ps hasBody multipart dynamic pattern).map
      (declares (addDynComponents [] allDynamic))).Nodup := by
  have hlk : ∀ d ∈ dynamic, (addDynComponents [] allDynamic).lookup (dynComponentName d) = some d :=
    fun d hd => lookup_addDyn allDynamic [] d hlow (by simp) (hsub d hd)
  generalize addDynComponents [] allDynamic = comps at hlk ⊢
  unfold operationParams ensureAll
  have hrloc : ∀ p ∈ (resolveForm dflt method ps hasBody multipart).1, ':' ∉ p.loc.toList ∧ p.ref = [] := by
    intro p hp
    rcases mem_resolveForm dflt method ps hasBody multipart p hp with ⟨h, _⟩ | ⟨q, hq, _, rfl⟩
    · exact ⟨hloc p h, href p h⟩
    · exact ⟨by simp, href q hq⟩
  have hu := C08_unique (resolveForm dflt method ps hasBody multipart).1 (fun p hp => (hrloc p hp).1)
  have hBr : ∀ p ∈ dedupParams (resolveForm dflt method ps hasBody multipart).1, p.ref = [] :=
    fun p hp => (hrloc p ((dedupBy_sublist _ _).subset hp)).2
  generalize dedupParams (resolveForm dflt method ps hasBody multipart).1 = B at hu hBr
  have hB : (B.map (declares comps)).Nodup := by
    rw [List.map_congr_left (g := fun p => some (p.name, p.loc)) (fun p hp => by simp [declares, hBr p hp])]
    have := hu.1
    rw [List.Nodup, List.pairwise_map] at this ⊢
    exact this.imp (fun h he => h (by simpa using he))
  have hdecl : ∀ d ∈ dynamic, declares comps ({ ref := dynRef d } : Param σ) = some (d, "path") := by
    intro d hd
    simp only [declares]
    rw [if_neg (dynRef_ne_nil _), if_pos (prefix_dynRef _), drop_dynRef, hlk d hd]; rfl
  have hBD : ((appendDynRefs B dynamic).map (declares comps)).Nodup := by
    rw [appendDynRefs_eq, List.map_append, List.nodup_append]
    refine ⟨hB, appendDynLoop_nodup comps dynamic _ hlk, ?_⟩
    intro a ha b hb hab
    obtain ⟨p, hp, rfl⟩ := List.mem_map.1 ha
    obtain ⟨q, hq, rfl⟩ := List.mem_map.1 hb
    obtain ⟨d, hd, hdc, rfl⟩ := appendDynLoop_mem _ _ _ hq
    rw [hdecl d hd, declares, if_pos (hBr p hp)] at hab
    simp only [Option.some.injEq, Prod.mk.injEq] at hab
    exact hdc ((mem_covered _ _).2 ⟨p, hp, .inl ⟨hab.2, hab.1⟩⟩)
  rw [List.map_append, List.nodup_append]
  refine ⟨hBD, ?_, ?_⟩
  · rw [List.map_map, List.Nodup, List.pairwise_map]
    have := (templateVars_nodup _ path rfl honce).sublist (List.filter_sublist (p := fun n => decide (n ∉ coveredNames (appendDynRefs B dynamic))))
    exact this.imp (fun h he => h (by simpa [declares] using he))
  · intro a ha b hb hab
    obtain ⟨p, hp, rfl⟩ := List.mem_map.1 ha
    obtain ⟨q, hq, rfl⟩ := List.mem_map.1 hb
    obtain ⟨n, hn, rfl⟩ := List.mem_map.1 hq
    rw [List.mem_filter] at hn
    have hnc : n ∉ coveredNames (appendDynRefs B dynamic) := by simpa using hn.2
    apply hnc
    rw [mem_covered]
    refine ⟨p, hp, ?_⟩
    rw [appendDynRefs_eq] at hp
    rcases List.mem_append.1 hp with hb | hd
    · simp only [declares, hBr p hb, if_true, Option.some.injEq, Prod.mk.injEq] at hab
      exact .inl ⟨hab.2, hab.1⟩
    · obtain ⟨d, hd1, _, rfl⟩ := appendDynLoop_mem _ _ _ hd
      rw [hdecl d hd1] at hab
      simp only [declares, if_true, Option.some.injEq, Prod.mk.injEq] at hab
      refine .inr ⟨dynRef_ne_nil _, ?_, ?_⟩
      · rw [refTarget_dynRef (hlow d (hsub d hd1))]; exact hab.1
      · exact Ident.ne_nil ((mem_templateVars path n).1 hn.1).1

/-- The declared parameters for the examples below. -/
def demoParams : List (Param Nat) :=
  [{ name := "q".toList, loc := "query" }, { name := "id".toList, loc := "path", required := true },
   { name := "q".toList, loc := "query", required := true }]

example : operationParams 0 (fun _ => 1) "GET".toList "/{base}/u/{id}/{slug}".toList demoParams false false ["base".toList] (fun _ => none) =
    [{ name := "q".toList, loc := "query" }, { name := "id".toList, loc := "path", required := true },
     { ref := "#/components/parameters/BaseParam".toList },
     { name := "slug".toList, loc := "path", required := true, schema := some 1 }] := by decide

/-- The hypotheses of the two partial theorems hold of this operation. -/
example : (∀ p ∈ demoParams, p.loc = "path" → p.required = true) ∧ (∀ p ∈ demoParams, p.ref = []) ∧
    (∀ p ∈ demoParams, ':' ∉ p.loc.toList) := by decide
example : LowerStart "base".toList := ⟨'b', "ase".toList, rfl, by decide⟩
example : PlaceholdersOnce "/{id}".toList := by
  intro n pre post pre' post' hn h1 h2
  have aux : ∀ pre post, "/{id}".toList = pre ++ '{' :: (n ++ '}' :: post) → pre = ['/'] := by
    intro pre post h
    match pre, h with
    | [], h => simp at h
    | [a], h => simp at h; simp [h.1.symm]
    | a :: b :: pre, h =>
      simp at h
      have hm : '{' ∈ ['i', 'd', '}'] := by rw [h.2.2]; simp
      exact absurd hm (by decide)
  rw [aux _ _ h1, aux _ _ h2]

/-- **C07 fails** when a placeholder occurs twice in the template: it is declared twice
(mapper.go:510-511 never records the parameter it just added). -/
theorem C07_repeated_placeholder_twice :
    operationParams 0 (fun _ => 0) "GET".toList "/{id}/x/{id}".toList ([] : List (Param Nat)) false false [] (fun _ => none) =
      [{ name := "id".toList, loc := "path", required := true, schema := some 0 },
       { name := "id".toList, loc := "path", required := true, schema := some 0 }] := by decide

/-- **C07 fails** for a synthesized placeholder whose Go name is exported: the component
name does not decode to it (mapper.go:592-620), so `BasePath` is declared both through
the component and inline. -/
theorem C07_exported_name_twice :
    (operationParams 0 (fun _ => 0) "GET".toList "/{BasePath}/x".toList ([] : List (Param Nat)) false false ["BasePath".toList] (fun _ => none)).map
      (declares (addDynComponents [] ["BasePath".toList])) =
    [some ("BasePath".toList, "path"), some ("BasePath".toList, "path")] := by decide

/-- **C07 fails** for a placeholder that is no identifier: nothing declares `{user-id}`. -/
theorem C07_non_identifier_undeclared :
    operationParams 0 (fun _ => 0) "GET".toList "/{user-id}".toList ([] : List (Param Nat)) false false [] (fun _ => none) = [] := by decide

/-! ## C43 -/

/-- **C43, no forms.** Without form fields or a multipart parse, parameters and body are untouched. -/
theorem C43_no_forms {σ} (dflt : σ) (m : Str) (ps : List (Param σ)) (hasBody : Bool)
    (h : ∀ p ∈ ps, isFormSentinel p.loc = false) : resolveForm dflt m ps hasBody false = (ps, none) := by
  unfold resolveForm
  rw [if_pos]
  simp only [Bool.and_eq_true, decide_eq_true_eq, and_true]
  simpa [List.any_eq_false] using h

/-- **C43, non-form parameters.** They are kept, all of them, in order, and nothing in the
result still has a form location. -/
theorem C43_others_untouched {σ} (dflt : σ) (m : Str) (ps : List (Param σ)) (hasBody multipart : Bool) :
    (∃ moved, (resolveForm dflt m ps hasBody multipart).1 =
        ps.filter (fun p => decide (p.loc ≠ "form" ∧ p.loc ≠ "formFile")) ++ moved ∧
        ∀ p ∈ moved, p.loc = "query") ∧
    ∀ p ∈ (resolveForm dflt m ps hasBody multipart).1, p.loc ≠ "form" ∧ p.loc ≠ "formFile" := by
  have hf : ∀ p : Param σ, (!isFormSentinel p.loc) = decide (p.loc ≠ "form" ∧ p.loc ≠ "formFile") := by
    intro p; simp only [isFormSentinel, paramInForm, paramInFormFile]
    by_cases h1 : p.loc = "form" <;> by_cases h2 : p.loc = "formFile" <;> simp [h1, h2]
  constructor
  · unfold resolveForm
    split
    · next h =>
      simp only [Bool.and_eq_true, decide_eq_true_eq] at h
      have h1 := h.1
      rw [List.any_eq_false] at h1
      refine ⟨[], ?_, by simp⟩
      simp only [List.append_nil]
      symm
      rw [List.filter_eq_self]
      intro p hp
      rw [← hf p]
      simpa using h1 p hp
    · dsimp only
      simp only [hf]
      split
      · exact ⟨[], by simp, by simp⟩
      · refine ⟨_, rfl, ?_⟩
        intro p hp
        obtain ⟨q, _, rfl⟩ := List.mem_map.1 hp
        rfl
  · intro p hp
    rcases mem_resolveForm dflt m ps hasBody multipart p hp with ⟨_, h⟩ | ⟨q, _, _, rfl⟩
    · have := hf p
      rw [h] at this
      simpa using this.symm
    · show "query" ≠ _ ∧ "query" ≠ _
      constructor <;> decide

theorem lookup_setKey {σ} (k k' : Str) (v : σ) (m : List (Str × σ)) :
    (setKey k v m).lookup k' = if k' = k then some v else m.lookup k' := by
  induction m with
  | nil => 
    unfold setKey
    by_cases h : k' = k
    · simp [h]
    · have : (k' == k) = false := by simpa using h
      simp [List.lookup_cons, h, this]
  | cons x xs ih =>
    obtain ⟨a, b⟩ := x
    unfold setKey
    split
    · next h =>
      subst h
      by_cases h : k' = a
      · simp [h]
      · have : (k' == a) = false := by simpa using h
        simp [List.lookup_cons, h, this]
    · next h =>
      rw [List.lookup_cons, List.lookup_cons, ih]
      by_cases h1 : k' = a
      · subst h1; simp [h]
      · have : (k' == a) = false := by simpa using h1
        simp [this]

theorem lookup_foldl_setKey {σ} (dflt : σ) (l : List (Param σ)) : ∀ (m : List (Str × σ)) (k : Str),
    (l.foldl (fun m p => setKey p.name (p.schema.getD dflt) m) m).lookup k =
      match (l.reverse.find? fun p => decide (p.name = k)) with
      | some p => some (p.schema.getD dflt)
      | none => m.lookup k := by
  induction l with
  | nil => intro m k; rfl
  | cons p l ih =>
    intro m k
    rw [List.foldl_cons, ih, List.reverse_cons, List.find?_append]
    cases hf : l.reverse.find? fun p => decide (p.name = k) with
    | some q => simp
    | none =>
      simp only [Option.none_or, lookup_setKey]
      by_cases h : p.name = k
      · subst h; simp
      · simp [h, Ne.symm h]

/-- **C43, body.** For a method that takes a body and no body decoded otherwise, the form
fields become exactly the named properties of a request body, which is multipart exactly
when the handler reads a file or parses a multipart form. -/
theorem C43_form_body {σ} (dflt : σ) (m : Str) (ps : List (Param σ)) (multipart : Bool)
    (hm : m.map Char.toUpper = "POST".toList ∨ m.map Char.toUpper = "PUT".toList ∨ m.map Char.toUpper = "PATCH".toList)
    (hf : multipart = true ∨ ∃ p ∈ ps, p.loc = "form" ∨ p.loc = "formFile") :
    ∃ b, (resolveForm dflt m ps false multipart).2 = some b ∧ b.multipart = multipart ∧
      (∀ k, (b.props.lookup k).isSome ↔ k ≠ [] ∧ ∃ p ∈ ps, (p.loc = "form" ∨ p.loc = "formFile") ∧ p.name = k) ∧
      (∀ k s, b.props.lookup k = some s → ∃ p ∈ ps, p.name = k ∧ s = p.schema.getD dflt) ∧
      (∀ k, k ∈ b.required ↔ k ≠ [] ∧ ∃ p ∈ ps, (p.loc = "form" ∨ p.loc = "formFile") ∧ p.name = k ∧ p.required = true) := by
  have hsent : ∀ p : Param σ, isFormSentinel p.loc = true ↔ p.loc = "form" ∨ p.loc = "formFile" := by
    intro p; simp [isFormSentinel, paramInForm, paramInFormFile]
  unfold resolveForm
  have hcond : ¬ ((decide (ps.any (fun p => isFormSentinel p.loc) = false) && decide (multipart = false)) = true) := by
    simp only [Bool.and_eq_true, decide_eq_true_eq]
    rintro ⟨h1, h2⟩
    rcases hf with h | ⟨p, hp, h⟩
    · rw [h] at h2; cases h2
    · rw [List.any_eq_false] at h1
      exact h1 p hp ((hsent p).2 h)
  rw [if_neg hcond]
  have htb : takesBody m = true := by
    unfold takesBody
    simp only [decide_eq_true_eq, List.mem_cons, List.not_mem_nil, or_false]
    exact hm
  simp only [htb, Bool.not_false, Bool.and_self, if_true]
  have hL : ∀ (k : Str),
      ((formBody dflt (ps.filter fun p => isFormSentinel p.loc) multipart).props.lookup k) = _ :=
    fun k => lookup_foldl_setKey dflt _ [] k
  refine ⟨_, rfl, rfl, ?_, ?_, ?_⟩
  · intro k
    rw [hL]
    cases hfd : (((ps.filter fun p => isFormSentinel p.loc).filter fun p => decide (p.name ≠ [])).reverse.find? fun p => decide (p.name = k)) with
    | some q =>
      have hq := List.mem_of_find?_eq_some hfd
      have hk := List.find?_some hfd
      simp only [decide_eq_true_eq] at hk
      simp only [List.mem_reverse, List.mem_filter, decide_eq_true_eq] at hq
      simp only [Option.isSome_some, true_iff]
      exact ⟨hk ▸ hq.2, q, hq.1.1, (hsent q).1 hq.1.2, hk⟩
    | none =>
      simp only [List.lookup_nil, Option.isSome_none, Bool.false_eq_true, false_iff]
      rintro ⟨hk, p, hp, hl, rfl⟩
      rw [List.find?_eq_none] at hfd
      exact hfd p (by simp only [List.mem_reverse, List.mem_filter, decide_eq_true_eq]; exact ⟨⟨hp, (hsent p).2 hl⟩, hk⟩) (by simp)
  · intro k s hs
    rw [hL] at hs
    split at hs
    · next q hfd =>
      have hq := List.mem_of_find?_eq_some hfd
      have hk := List.find?_some hfd
      simp only [decide_eq_true_eq] at hk
      simp only [List.mem_reverse, List.mem_filter, decide_eq_true_eq] at hq
      exact ⟨q, hq.1.1, hk, by simpa using hs.symm⟩
    · simp at hs
  · intro k
    simp only [formBody, mem_isort, List.mem_map, List.mem_filter, Bool.and_eq_true, decide_eq_true_eq]
    constructor
    · rintro ⟨p, ⟨⟨h1, h2⟩, h3, h4⟩, rfl⟩
      exact ⟨h3, p, h1, (hsent p).1 h2, rfl, h4⟩
    · rintro ⟨h3, p, h1, h2, rfl, h4⟩
      exact ⟨p, ⟨⟨h1, (hsent p).2 h2⟩, h3, h4⟩, rfl⟩

/-- **C43, query.** For any other method, or when a body was decoded already, the text
form fields become query parameters, in order, otherwise unchanged; no body is made. -/
theorem C43_form_query {σ} (dflt : σ) (m : Str) (ps : List (Param σ)) (hasBody multipart : Bool)
    (hm : hasBody = true ∨ (m.map Char.toUpper ≠ "POST".toList ∧ m.map Char.toUpper ≠ "PUT".toList ∧ m.map Char.toUpper ≠ "PATCH".toList)) :
    (resolveForm dflt m ps hasBody multipart).2 = none ∧
    (resolveForm dflt m ps hasBody multipart).1 =
      ps.filter (fun p => decide (p.loc ≠ "form" ∧ p.loc ≠ "formFile")) ++
      (ps.filter fun p => decide (p.loc = "form")).map fun p => { p with loc := "query" } := by
  have hf : ∀ p : Param σ, (!isFormSentinel p.loc) = decide (p.loc ≠ "form" ∧ p.loc ≠ "formFile") := by
    intro p; simp only [isFormSentinel, paramInForm, paramInFormFile]
    by_cases h1 : p.loc = "form" <;> by_cases h2 : p.loc = "formFile" <;> simp [h1, h2]
  have hf2 : ∀ p : Param σ, (isFormSentinel p.loc && decide (p.loc ≠ paramInFormFile)) = decide (p.loc = "form") := by
    intro p; simp only [isFormSentinel, paramInForm, paramInFormFile]
    by_cases h1 : p.loc = "form"
    · simp [h1]
    · by_cases h2 : p.loc = "formFile" <;> simp [h1, h2]
  have htb : (takesBody m && !hasBody) = false := by
    rcases hm with h | ⟨h1, h2, h3⟩
    · simp [h]
    · have : takesBody m = false := by
        unfold takesBody
        simp only [decide_eq_false_iff_not, List.mem_cons, List.not_mem_nil, or_false, not_or]
        exact ⟨h1, h2, h3⟩
      simp [this]
  unfold resolveForm
  split
  · next h =>
    simp only [Bool.and_eq_true, decide_eq_true_eq] at h
    have h1 := h.1
    rw [List.any_eq_false] at h1
    refine ⟨rfl, ?_⟩
    have e1 : ps.filter (fun p => decide (p.loc ≠ "form" ∧ p.loc ≠ "formFile")) = ps := by
      rw [List.filter_eq_self]
      intro p hp
      rw [← hf p]; simpa using h1 p hp
    have e2 : (ps.filter fun p => decide (p.loc = "form")) = [] := by
      rw [List.filter_eq_nil_iff]
      intro p hp
      rw [← hf2 p]
      have := h1 p hp
      simp [this]
    rw [e1, e2]; simp
  · dsimp only
    rw [if_neg (by rw [htb]; simp)]
    refine ⟨rfl, ?_⟩
    rw [List.filter_filter]
    simp only [hf]
    congr 1
    congr 1
    apply List.filter_congr
    intro p _
    rw [← hf2 p, Bool.and_comm]

def demoForm : List (Param Nat) :=
  [{ name := "title".toList, loc := "form", required := true, schema := some 1 },
   { name := "q".toList, loc := "query" }, { name := "avatar".toList, loc := "formFile", schema := some 2 }]

example : (resolveForm 0 "post".toList demoForm false true).2 =
    some ⟨[("title".toList, 1), ("avatar".toList, 2)], ["title".toList], true⟩ := by decide
example : (resolveForm 0 "GET".toList demoForm false true) =
    ([{ name := "q".toList, loc := "query" },
      { name := "title".toList, loc := "query", required := true, schema := some 1 }], none) := by decide

/-- **C43 fails** in one respect: a field read twice is listed twice in `required`
(mapper.go:747-749), which OpenAPI forbids. -/
theorem C43_required_twice :
    ((resolveForm 0 "POST".toList
      [{ name := "a".toList, loc := "form", required := true },
       { name := "a".toList, loc := "form", required := true }] false false).2.map FormBody.required) =
      some ["a".toList, "a".toList] := by decide

/-- **C43 fails** in another: a file field is dropped from an operation that decodes a
body too. -/
theorem C43_file_lost :
    resolveForm 0 "POST".toList [{ name := "avatar".toList, loc := "formFile" }] true true = (([] : List (Param Nat)), none) := by
  decide

/-! ## C50 -/

theorem flatten_spec {α} (a : PathArg α) : ∀ acc,
    (a.Concat → flattenConcat a acc = some (acc ++ a.operands)) ∧ (¬ a.Concat → flattenConcat a acc = none) := by
  match a with
  | .leaf x => intro acc; simp [flattenConcat, PathArg.operands, PathArg.Concat]
  | .binary op none none => intro acc; simp [flattenConcat, PathArg.Concat]
  | .binary op none (some f) => intro acc; simp [flattenConcat, PathArg.Concat]
  | .binary op (some x) none => intro acc; simp [flattenConcat, PathArg.Concat]
  | .binary op (some x) (some f) =>
    intro acc
    have ihx := flatten_spec x
    have ihf := flatten_spec f
    simp only [flattenConcat, PathArg.Concat, PathArg.operands]
    constructor
    · rintro ⟨h1, h2, h3⟩
      simp only [h1, ne_eq, not_true_eq_false, if_false, (ihx acc).1 h2, (ihf _).1 h3, List.append_assoc]
    · intro h
      by_cases h1 : op = ['+']
      · rw [if_neg (by simpa using h1)]
        by_cases h2 : x.Concat
        · rw [(ihx acc).1 h2]
          exact (ihf _).2 (fun h3 => h ⟨h1, h2, h3⟩)
        · rw [(ihx acc).2 h2]
      · rw [if_pos h1]

theorem joinOperands_spec (os : List Operand) : ∀ (sb : Str) (names : List Str), names.Nodup →
    (joinOperands os (sb, names)).1 = sb ++ os.flatMap Operand.text ∧
    (joinOperands os (sb, names)).2.Nodup ∧
    ∀ n, n ∈ (joinOperands os (sb, names)).2 ↔ n ∈ names ∨ (n ≠ [] ∧ .unknown n ∈ os) := by
  induction os with
  | nil => intro sb names h; simp [joinOperands, h]
  | cons o os ih =>
    intro sb names h
    unfold joinOperands
    have hn : (if o.dyn ≠ [] then appendUnique names [o.dyn] else names).Nodup := by
      split
      · unfold appendUnique; rw [if_neg (by simp)]; exact dedup_nodup _
      · exact h
    have hm : ∀ n, n ∈ (if o.dyn ≠ [] then appendUnique names [o.dyn] else names) ↔
        n ∈ names ∨ (n ≠ [] ∧ Operand.unknown n = o) := by
      intro n
      cases o with
      | value v => simp [Operand.dyn]
      | unknown m =>
        rw [show (Operand.unknown m).dyn = m from rfl, Operand.unknown.injEq]
        by_cases hne : m ≠ []
        · rw [if_pos hne]
          unfold appendUnique; rw [if_neg (by simp)]
          simp only [mem_dedup, List.mem_append, List.mem_singleton]
          constructor
          · rintro (h | rfl)
            · exact .inl h
            · exact .inr ⟨hne, rfl⟩
          · rintro (h | ⟨_, h⟩)
            · exact .inl h
            · exact .inr h
        · rw [if_neg hne]
          simp only [ne_eq, Classical.not_not] at hne
          constructor
          · exact .inl
          · rintro (h | ⟨h1, h2⟩)
            · exact h
            · exact absurd (h2.trans hne) h1
    obtain ⟨h1, h2, h3⟩ := ih (sb ++ o.text) _ hn
    refine ⟨by rw [h1]; simp, h2, ?_⟩
    intro n
    rw [h3, hm]
    simp only [List.mem_cons]
    grind

/-- **C50.** A path argument that is a `+` concatenation, nested in any way, is documented
as the text of its operands from left to right, where a known operand contributes its
value and an unknown one `{name}`; each placeholder name is reported exactly once. -/
theorem C50_concat {α} (operand : α → Operand) (whole : Str) (a : PathArg α) (h : a.Concat)
    (hne : ∀ x ∈ a.operands, operand x ≠ .unknown []) :
    (resolveConcat operand whole a).1 = a.operands.flatMap (fun x => match operand x with
        | .value v => v
        | .unknown n => '{' :: n ++ ['}']) ∧
    (resolveConcat operand whole a).2.Nodup ∧
    ∀ n, n ∈ (resolveConcat operand whole a).2 ↔ ∃ x ∈ a.operands, operand x = .unknown n := by
  unfold resolveConcat
  rw [(flatten_spec a []).1 h]
  obtain ⟨h1, h2, h3⟩ := joinOperands_spec ((a.operands).map operand) [] [] List.nodup_nil
  simp only [List.nil_append]
  refine ⟨?_, h2, ?_⟩
  · rw [h1, List.flatMap_map]
    simp only [List.nil_append]
    rfl
  · intro n
    rw [h3]
    simp only [List.not_mem_nil, false_or, List.mem_map]
    constructor
    · rintro ⟨_, x, hx, he⟩; exact ⟨x, hx, he⟩
    · rintro ⟨x, hx, he⟩
      exact ⟨fun h => hne x hx (h ▸ he), x, hx, he⟩

/-- **C50.** Anything with another operator in it (or a missing side) becomes one
placeholder for the whole expression. -/
theorem C50_not_concat {α} (operand : α → Operand) (whole : Str) (a : PathArg α) (h : ¬ a.Concat) (hw : whole ≠ []) :
    resolveConcat operand whole a = ('{' :: whole ++ ['}'], [whole]) := by
  unfold resolveConcat
  rw [(flatten_spec a []).2 h, if_neg hw]

/-- `"/api" + (base + "/v" + base)` as the parser nests it. -/
def demoConcat : PathArg Operand :=
  .binary ['+'] (some (.leaf (.value "/api".toList)))
    (some (.binary ['+'] (some (.binary ['+'] (some (.leaf (.unknown "base".toList))) (some (.leaf (.value "/v".toList)))))
      (some (.leaf (.unknown "base".toList)))))

example : demoConcat.Concat := by simp [demoConcat, PathArg.Concat]
example : resolveConcat id "w".toList demoConcat = ("/api{base}/v{base}".toList, ["base".toList]) := by
  unfold resolveConcat
  rw [(flatten_spec demoConcat []).1 (by simp [demoConcat, PathArg.Concat])]
  decide

end Verif.Params
