import Verif.MiddlewareModel
import Verif.MiddlewareSpec
/-!
# Properties: middleware found through helper functions (C48)
-/

namespace Verif.Middleware
open Verif.Common Verif.GraphSpec Verif.Security Verif.MiddlewareSpec

section
variable {rx : String → String → Bool} {ms : List Mapping} {edges : String → List Ref}

theorem known_iff (r : Ref) : anyMatches rx ms r = true ↔ Known rx ms r := by
  unfold anyMatches Known Recognises Mapping.matchesRef
  rw [List.any_eq_true]
  constructor
  · rintro ⟨m, hm, h⟩
    refine ⟨m, hm, ?_⟩
    simp only [Bool.and_eq_true, Bool.or_eq_true, beq_iff_eq] at h
    exact ⟨fun hn => h.1.1.resolve_left hn, fun hn => h.1.2.resolve_left hn, fun hn => h.2.resolve_left hn⟩
  · rintro ⟨m, hm, h1, h2, h3⟩
    refine ⟨m, hm, ?_⟩
    simp only [Bool.and_eq_true, Bool.or_eq_true, beq_iff_eq]
    refine ⟨⟨?_, ?_⟩, ?_⟩
    · by_cases h : m.fnRe = ""
      · exact .inl h
      · exact .inr (h1 h)
    · by_cases h : m.pkgRe = ""
      · exact .inl h
      · exact .inr (h2 h)
    · by_cases h : m.recvRe = ""
      · exact .inl h
      · exact .inr (h3 h)

theorem empty_iff (r : Ref) : isEmptyRef r = false ↔ (r.fn ≠ "" ∨ r.pkg ≠ "" ∨ r.recv ≠ "") := by
  unfold isEmptyRef
  simp only [Bool.and_eq_false_iff, beq_eq_false_iff_ne, or_assoc]

theorem base_nonempty {r : Ref} {k : String} (h : baseID r = some k) : isEmptyRef r = false := by
  rw [empty_iff]
  unfold baseID at h
  split at h
  · simp at h
  · next hn => simp only [not_or] at hn; exact .inl hn.2

/-! ## Soundness -/

def MemoSound (rx : String → String → Bool) (ms : List Mapping) (edges : String → List Ref) (memo : Memo) : Prop :=
  ∀ k res, mget memo k = some res → ∀ r ∈ res, Through rx ms edges k r

theorem scan_sound (look : Memo → String → List Ref × Memo)
    (hlook : ∀ memo k, MemoSound rx ms edges memo →
      (∀ r ∈ (look memo k).1, Through rx ms edges k r) ∧ MemoSound rx ms edges (look memo k).2)
    (key : String) : ∀ (l : List Ref) (st : List Ref × Memo), (∀ r ∈ l, r ∈ edges key) →
    (∀ r ∈ st.1, Through rx ms edges key r) → MemoSound rx ms edges st.2 →
    (∀ r ∈ (l.foldl (scanStep rx ms look) st).1, Through rx ms edges key r) ∧
    MemoSound rx ms edges (l.foldl (scanStep rx ms look) st).2 := by
  intro l
  induction l with
  | nil => intro st _ h1 h2; exact ⟨h1, h2⟩
  | cons a l ih =>
    intro st hl h1 h2
    rw [List.foldl_cons]
    have hstep : (∀ r ∈ (scanStep rx ms look st a).1, Through rx ms edges key r) ∧
        MemoSound rx ms edges (scanStep rx ms look st a).2 := by
      unfold scanStep
      split
      · exact ⟨h1, h2⟩
      · next hne =>
        split
        · next hm =>
          refine ⟨fun r hr => ?_, h2⟩
          rcases List.mem_append.mp hr with h | h
          · exact h1 r h
          · rw [List.mem_singleton.mp h]
            exact ⟨key, .refl _, hl a (by simp), (empty_iff a).mp (by simpa using hne), (known_iff a).mp hm⟩
        · next hm =>
          split
          · exact ⟨h1, h2⟩
          · next k hk =>
            obtain ⟨s1, s2⟩ := hlook st.2 k h2
            refine ⟨fun r hr => ?_, s2⟩
            rcases List.mem_append.mp hr with h | h
            · exact h1 r h
            · obtain ⟨k', hr', ha⟩ := s1 r h
              exact ⟨k', .step ⟨a, hl a (by simp), fun hk' => hm ((known_iff a).mpr hk'), hk⟩ hr', ha⟩
    exact ih _ (fun r hr => hl r (List.mem_cons_of_mem _ hr)) hstep.1 hstep.2

theorem mem_dedupRefs {l : List Ref} {r : Ref} (h : r ∈ dedupRefs l) : r ∈ l :=
  (dedupBy_sublist (key := Ref.show) l).subset h

theorem look_sound : ∀ (n : Nat) (stack : List String) (memo : Memo) (key : String),
    MemoSound rx ms edges memo →
    (∀ r ∈ (look rx ms edges n stack memo key).1, Through rx ms edges key r) ∧
    MemoSound rx ms edges (look rx ms edges n stack memo key).2 := by
  intro n
  induction n with
  | zero => intro stack memo key h; exact ⟨by simp [look], h⟩
  | succ n ih =>
    intro stack memo key h
    unfold look
    split
    · next res hres => exact ⟨fun r hr => h key res hres r hr, h⟩
    · split
      · exact ⟨by simp, h⟩
      · simp only
        obtain ⟨s1, s2⟩ := scan_sound (look rx ms edges n (key :: stack))
          (fun m k hm => ih (key :: stack) m k hm) key (edges key) ([], memo) (fun _ h => h) (by simp) h
        refine ⟨fun r hr => s1 r (mem_dedupRefs hr), ?_⟩
        intro k res hk r hr
        rw [mget_mset] at hk
        split at hk
        · next e =>
          subst e
          simp only [Option.some.injEq] at hk
          subst hk
          exact s1 r (mem_dedupRefs hr)
        · exact s2 k res hk r hr

theorem askAll_sound (fuel : Nat) (history : List String) :
    MemoSound rx ms edges (askAll rx ms edges fuel history) := by
  unfold askAll
  have : ∀ (l : List String) (memo : Memo), MemoSound rx ms edges memo →
      MemoSound rx ms edges (l.foldl (fun memo k => (look rx ms edges fuel [] memo k).2) memo) := by
    intro l
    induction l with
    | nil => intro memo h; exact h
    | cons k l ih => intro memo h; exact ih _ (look_sound fuel [] memo k h).2
  exact this history [] (by intro k res h; simp at h)

/-- **C48 (nothing invented).** Whatever was asked before, every middleware reported for a
function is recognised by a mapping and is applied by that function, itself or through
functions it calls. -/
theorem C48_sound (fuel : Nat) (history : List String) (key : String) (r : Ref)
    (h : r ∈ ask rx ms edges fuel history key) :
    (∃ m ∈ ms, Recognises rx m r) ∧ Through rx ms edges key r := by
  have := (look_sound fuel [] _ key (askAll_sound fuel history)).1 r h
  obtain ⟨k, hk, ha⟩ := this
  exact ⟨ha.2.2, k, hk, ha⟩

/-! ## Completeness of a first question -/

def keys (memo : Memo) : List String := memo.map Prod.fst

theorem mem_keys_mset (memo : Memo) (k : String) (v : List Ref) (k' : String) :
    k' ∈ keys (mset memo k v) ↔ k' = k ∨ k' ∈ keys memo := keys_mset memo k v k'

theorem show_mem_dedup (l : List Ref) (s : String) :
    s ∈ (dedupRefs l).map Ref.show ↔ s ∈ l.map Ref.show := mem_map_dedupBy (key := Ref.show) l s

/-- What one call contributes: every function resolved on the way has its own middleware in
the answer, and leads only to functions resolved, or being resolved. -/
structure Grows (rx : String → String → Bool) (ms : List Mapping) (edges : String → List Ref) (stack : List String) (memo memo' : Memo) (out : List Ref) : Prop where
  mono : ∀ f ∈ keys memo, f ∈ keys memo'
  closed : ∀ f ∈ keys memo', f ∉ keys memo → ∀ f', Descends rx ms edges f f' →
    f' ∈ keys memo' ∨ f' ∈ stack
  direct : ∀ f ∈ keys memo', f ∉ keys memo → ∀ r, Applies rx ms edges f r → r.show ∈ out.map Ref.show

theorem grows_refl (stack : List String) (memo : Memo) (out : List Ref) :
    Grows rx ms edges stack memo memo out :=
  ⟨fun _ h => h, fun _ h hn => absurd h hn, fun _ h hn => absurd h hn⟩

theorem scan_grows (stack : List String) (key : String) (U : List String)
    (hU : ∀ a ∈ U, ∀ b, Descends rx ms edges a b → b ∈ U) (hk : key ∈ U)
    (look : Memo → String → List Ref × Memo)
    (hlook : ∀ memo k, k ∈ U → Grows rx ms edges (key :: stack) memo (look memo k).2 (look memo k).1 ∧
      (k ∈ keys (look memo k).2 ∨ k ∈ key :: stack)) :
    ∀ (l : List Ref) (st : List Ref × Memo) (memo0 : Memo), (∀ r ∈ l, r ∈ edges key) →
    Grows rx ms edges (key :: stack) memo0 st.2 st.1 →
    Grows rx ms edges (key :: stack) memo0 (l.foldl (scanStep rx ms look) st).2
      (l.foldl (scanStep rx ms look) st).1 ∧
    (∀ s ∈ st.1.map Ref.show, s ∈ (l.foldl (scanStep rx ms look) st).1.map Ref.show) ∧
    (∀ f ∈ keys st.2, f ∈ keys (l.foldl (scanStep rx ms look) st).2) ∧
    (∀ r ∈ l, Applies rx ms edges key r → r.show ∈ (l.foldl (scanStep rx ms look) st).1.map Ref.show) ∧
    (∀ r ∈ l, ¬ Known rx ms r → ∀ k, baseID r = some k →
      k ∈ keys (l.foldl (scanStep rx ms look) st).2 ∨ k ∈ key :: stack) := by
  intro l
  induction l with
  | nil => intro st memo0 _ h; exact ⟨h, fun _ h => h, fun _ h => h, by simp, by simp⟩
  | cons a l ih =>
    intro st memo0 hl h
    rw [List.foldl_cons]
    have hstep : Grows rx ms edges (key :: stack) memo0 (scanStep rx ms look st a).2 (scanStep rx ms look st a).1 ∧
        (∀ s ∈ st.1.map Ref.show, s ∈ (scanStep rx ms look st a).1.map Ref.show) ∧
        (∀ f ∈ keys st.2, f ∈ keys (scanStep rx ms look st a).2) ∧
        (Applies rx ms edges key a → a.show ∈ (scanStep rx ms look st a).1.map Ref.show) ∧
        (¬ Known rx ms a → ∀ k, baseID a = some k → k ∈ keys (scanStep rx ms look st a).2 ∨ k ∈ key :: stack) := by
      unfold scanStep
      split
      · next he =>
        refine ⟨h, fun _ h => h, fun _ h => h, fun ha => ?_, fun _ k hk => ?_⟩
        · have := (empty_iff a).mpr ha.2.1; rw [he] at this; simp at this
        · rw [base_nonempty hk] at he; simp at he
      · split
        · next hm =>
          refine ⟨⟨h.mono, h.closed, fun f hf hn r hr => ?_⟩, fun s hs => ?_, fun _ h => h, fun _ => by simp,
            fun hn => absurd ((known_iff a).mp hm) hn⟩
          · have := h.direct f hf hn r hr
            simp only [List.map_append, List.mem_append]; exact .inl this
          · simp only [List.map_append, List.mem_append]; exact .inl hs
        · next hm =>
          split
          · next hb =>
            exact ⟨h, fun _ h => h, fun _ h => h, fun ha => absurd ((known_iff a).mpr ha.2.2) hm,
              fun _ k hk => by rw [hb] at hk; simp at hk⟩
          · next k hb =>
            have hkU : k ∈ U := hU key hk k ⟨a, hl a (by simp), fun hh => hm ((known_iff a).mpr hh), hb⟩
            obtain ⟨g, gk⟩ := hlook st.2 k hkU
            refine ⟨⟨fun f hf => g.mono f (h.mono f hf), ?_, ?_⟩, fun s hs => ?_, g.mono,
              fun ha => absurd ((known_iff a).mpr ha.2.2) hm, fun _ k' hk' => ?_⟩
            · intro f hf hn f' hf'
              by_cases hfm : f ∈ keys st.2
              · rcases h.closed f hfm hn f' hf' with h1 | h1
                · exact .inl (g.mono f' h1)
                · exact .inr h1
              · exact g.closed f hf hfm f' hf'
            · intro f hf hn r hr
              simp only [List.map_append, List.mem_append]
              by_cases hfm : f ∈ keys st.2
              · exact .inl (h.direct f hfm hn r hr)
              · exact .inr (g.direct f hf hfm r hr)
            · simp only [List.map_append, List.mem_append]; exact .inl hs
            · rw [hb] at hk'; simp only [Option.some.injEq] at hk'; subst hk'; exact gk
    obtain ⟨s1, s2, s3, s4, s5⟩ := hstep
    obtain ⟨i1, i2, i3, i4, i5⟩ := ih _ memo0 (fun r hr => hl r (List.mem_cons_of_mem _ hr)) s1
    refine ⟨i1, fun s hs => i2 s (s2 s hs), fun f hf => i3 f (s3 f hf), ?_, ?_⟩
    · intro r hr ha
      rcases List.mem_cons.mp hr with e | hr
      · subst e; exact i2 _ (s4 ha)
      · exact i4 r hr ha
    · intro r hr hn k hb
      rcases List.mem_cons.mp hr with e | hr
      · subst e
        rcases s5 hn k hb with h1 | h1
        · exact .inl (i3 k h1)
        · exact .inr h1
      · exact i5 r hr hn k hb

theorem look_grows (U : List String)
    (hU : ∀ a ∈ U, ∀ b, Descends rx ms edges a b → b ∈ U) :
    ∀ (n : Nat) (stack : List String) (memo : Memo) (key : String), key ∈ U → stack.Nodup →
    (∀ x ∈ stack, x ∈ U) → U.length + 1 ≤ n + stack.length →
    Grows rx ms edges stack memo (look rx ms edges n stack memo key).2 (look rx ms edges n stack memo key).1 ∧
    (key ∈ keys (look rx ms edges n stack memo key).2 ∨ key ∈ stack) := by
  intro n
  induction n with
  | zero =>
    intro stack memo key hk hnd hs hf
    have := List.Nodup.length_le_of_subset hnd (fun x hx => hs x hx)
    omega
  | succ n ih =>
    intro stack memo key hk hnd hs hf
    unfold look
    split
    · next res hres =>
      refine ⟨grows_refl _ _ _, .inl ?_⟩
      have := (mget_isSome_iff memo key).mp (by rw [hres]; rfl)
      exact this
    · next hnone =>
      split
      · next hst => exact ⟨grows_refl _ _ _, .inr hst⟩
      · next hst =>
        simp only
        obtain ⟨g, g2, g3, g4, g5⟩ := scan_grows stack key U hU hk (look rx ms edges n (key :: stack))
          (fun m k hkU => ih (key :: stack) m k hkU (List.nodup_cons.mpr ⟨hst, hnd⟩)
            (by intro x hx; rcases List.mem_cons.mp hx with e | hx
                · rw [e]; exact hk
                · exact hs x hx) (by simp only [List.length_cons]; omega))
          (edges key) ([], memo) memo (fun _ h => h) (grows_refl _ _ _)
        refine ⟨⟨?_, ?_, ?_⟩, .inl ((mem_keys_mset _ _ _ _).mpr (.inl rfl))⟩
        · intro f hf; exact (mem_keys_mset _ _ _ _).mpr (.inr (g.mono f hf))
        · intro f hf hn f' hf'
          have key_or : ∀ x, x ∈ keys ((edges key).foldl (scanStep rx ms (look rx ms edges n (key :: stack))) ([], memo)).2 ∨
              x ∈ key :: stack → x ∈ keys (mset ((edges key).foldl
                (scanStep rx ms (look rx ms edges n (key :: stack))) ([], memo)).2 key
                (dedupRefs ((edges key).foldl (scanStep rx ms (look rx ms edges n (key :: stack))) ([], memo)).1)) ∨ x ∈ stack := by
            intro x hx
            rcases hx with h | h
            · exact .inl ((mem_keys_mset _ _ _ _).mpr (.inr h))
            · rcases List.mem_cons.mp h with e | h
              · exact .inl ((mem_keys_mset _ _ _ _).mpr (.inl e))
              · exact .inr h
          apply key_or
          rcases (mem_keys_mset _ _ _ _).mp hf with e | hf
          · subst e
            obtain ⟨r, hr, hkn, hb⟩ := hf'
            exact g5 r hr hkn f' hb
          · exact g.closed f hf hn f' hf'
        · intro f hf hn r hr
          rw [show_mem_dedup]
          rcases (mem_keys_mset _ _ _ _).mp hf with e | hf
          · subst e; exact g4 r hr.1 hr
          · exact g.direct f hf hn r hr

/-- A finite collection of functions closed under calls. -/
def CallUniverse (rx : String → String → Bool) (ms : List Mapping) (edges : String → List Ref) (U : List String) : Prop :=
  ∀ a ∈ U, ∀ b, Descends rx ms edges a b → b ∈ U

/-- **C48 (a first question is answered in full).** Asked first, a function is credited with
every recognised middleware reachable through its callees, whatever cycles there are
(middleware is identified by how it is displayed, the identity the code de-duplicates by). -/
theorem C48_first_question_complete (U : List String) (hU : CallUniverse rx ms edges U) (key : String)
    (hk : key ∈ U) (fuel : Nat) (hf : U.length + 1 ≤ fuel) (r : Ref) (h : Through rx ms edges key r) :
    r.show ∈ (ask rx ms edges fuel [] key).map Ref.show := by
  obtain ⟨g, gk⟩ := look_grows U hU fuel [] [] key hk List.nodup_nil (by simp) (by simpa using hf)
  obtain ⟨k, hr, ha⟩ := h
  have hkk : key ∈ keys (look rx ms edges fuel [] [] key).2 := by
    rcases gk with h | h
    · exact h
    · simp at h
  have hmem := hr.closed (S := fun a => a ∈ keys (look rx ms edges fuel [] [] key).2)
    (fun a b ha hab => by
      rcases g.closed a ha (by simp [keys]) b hab with h | h
      · exact h
      · simp at h) hkk
  exact g.direct k hmem (by simp [keys]) r ha

/-! ## Completeness after any history, away from recursion -/

def MemoFull (rx : String → String → Bool) (ms : List Mapping) (edges : String → List Ref) (memo : Memo) : Prop :=
  ∀ k res, mget memo k = some res → NoRecursionBelow rx ms edges k →
    ∀ r, Through rx ms edges k r → r.show ∈ res.map Ref.show

theorem below_step {a b : String} (h : NoRecursionBelow rx ms edges a) (hd : Descends rx ms edges a b) :
    NoRecursionBelow rx ms edges b := fun k hk => h k (.step hd hk)

theorem scan_full (key : String)
    (look : Memo → String → List Ref × Memo)
    (hlook : ∀ memo k, MemoFull rx ms edges memo → Descends rx ms edges key k →
      MemoFull rx ms edges (look memo k).2 ∧
      (NoRecursionBelow rx ms edges k → ∀ r, Through rx ms edges k r → r.show ∈ (look memo k).1.map Ref.show)) :
    ∀ (l : List Ref) (st : List Ref × Memo), (∀ r ∈ l, r ∈ edges key) → MemoFull rx ms edges st.2 →
    MemoFull rx ms edges (l.foldl (scanStep rx ms look) st).2 ∧
    (∀ s ∈ st.1.map Ref.show, s ∈ (l.foldl (scanStep rx ms look) st).1.map Ref.show) ∧
    (∀ a ∈ l, Applies rx ms edges key a → a.show ∈ (l.foldl (scanStep rx ms look) st).1.map Ref.show) ∧
    (∀ a ∈ l, ¬ Known rx ms a → ∀ k, baseID a = some k → NoRecursionBelow rx ms edges k →
      ∀ r, Through rx ms edges k r → r.show ∈ (l.foldl (scanStep rx ms look) st).1.map Ref.show) := by
  intro l
  induction l with
  | nil => intro st _ h; exact ⟨h, fun _ h => h, by simp, by simp⟩
  | cons a l ih =>
    intro st hl h
    rw [List.foldl_cons]
    have hstep : MemoFull rx ms edges (scanStep rx ms look st a).2 ∧
        (∀ s ∈ st.1.map Ref.show, s ∈ (scanStep rx ms look st a).1.map Ref.show) ∧
        (Applies rx ms edges key a → a.show ∈ (scanStep rx ms look st a).1.map Ref.show) ∧
        (¬ Known rx ms a → ∀ k, baseID a = some k → NoRecursionBelow rx ms edges k →
          ∀ r, Through rx ms edges k r → r.show ∈ (scanStep rx ms look st a).1.map Ref.show) := by
      unfold scanStep
      split
      · next he =>
        refine ⟨h, fun _ h => h, fun ha => ?_, fun _ k hk => ?_⟩
        · have := (empty_iff a).mpr ha.2.1; rw [he] at this; simp at this
        · rw [base_nonempty hk] at he; simp at he
      · split
        · next hm =>
          refine ⟨h, fun s hs => ?_, fun _ => by simp, fun hn => absurd ((known_iff a).mp hm) hn⟩
          simp only [List.map_append, List.mem_append]; exact .inl hs
        · next hm =>
          split
          · next hb =>
            exact ⟨h, fun _ h => h, fun ha => absurd ((known_iff a).mpr ha.2.2) hm,
              fun _ k hk => by rw [hb] at hk; simp at hk⟩
          · next k hb =>
            obtain ⟨g1, g2⟩ := hlook st.2 k h ⟨a, hl a (by simp), fun hh => hm ((known_iff a).mpr hh), hb⟩
            refine ⟨g1, fun s hs => ?_, fun ha => absurd ((known_iff a).mpr ha.2.2) hm, fun _ k' hk' hnr r hr => ?_⟩
            · simp only [List.map_append, List.mem_append]; exact .inl hs
            · rw [hb] at hk'; simp only [Option.some.injEq] at hk'; subst hk'
              simp only [List.map_append, List.mem_append]; exact .inr (g2 hnr r hr)
    obtain ⟨s1, s2, s3, s4⟩ := hstep
    obtain ⟨i1, i2, i3, i4⟩ := ih _ (fun r hr => hl r (List.mem_cons_of_mem _ hr)) s1
    refine ⟨i1, fun s hs => i2 s (s2 s hs), ?_, ?_⟩
    · intro r hr ha
      rcases List.mem_cons.mp hr with e | hr
      · subst e; exact i2 _ (s3 ha)
      · exact i3 r hr ha
    · intro b hb hn k hk hnr r hr
      rcases List.mem_cons.mp hb with e | hb
      · subst e; exact i2 _ (s4 hn k hk hnr r hr)
      · exact i4 b hb hn k hk hnr r hr

theorem look_full (U : List String)
    (hU : ∀ a ∈ U, ∀ b, Descends rx ms edges a b → b ∈ U) :
    ∀ (n : Nat) (stack : List String) (memo : Memo) (key : String), key ∈ U → stack.Nodup →
    (∀ x ∈ stack, x ∈ U) → U.length + 1 ≤ n + stack.length →
    (∀ x ∈ stack, ReachPlus (Descends rx ms edges) x key) → MemoFull rx ms edges memo →
    MemoFull rx ms edges (look rx ms edges n stack memo key).2 ∧
    (NoRecursionBelow rx ms edges key → ∀ r, Through rx ms edges key r →
      r.show ∈ (look rx ms edges n stack memo key).1.map Ref.show) := by
  intro n
  induction n with
  | zero =>
    intro stack memo key hk hnd hs hf _ _
    have := List.Nodup.length_le_of_subset hnd (fun x hx => hs x hx)
    omega
  | succ n ih =>
    intro stack memo key hk hnd hs hf hanc hm
    unfold look
    split
    · next res hres => exact ⟨hm, fun hnr r hr => hm key res hres hnr r hr⟩
    · split
      · next hst => exact ⟨hm, fun hnr => absurd (hanc key hst) (hnr key (.refl _))⟩
      · next hst =>
        simp only
        obtain ⟨g1, _, g3, g4⟩ := scan_full key (look rx ms edges n (key :: stack))
          (fun m k hmf hd => ih (key :: stack) m k (hU key hk k hd) (List.nodup_cons.mpr ⟨hst, hnd⟩)
            (by intro x hx; rcases List.mem_cons.mp hx with e | hx
                · rw [e]; exact hk
                · exact hs x hx) (by simp only [List.length_cons]; omega)
            (by intro x hx; rcases List.mem_cons.mp hx with e | hx
                · rw [e]; exact ⟨k, hd, .refl _⟩
                · obtain ⟨z, hz, hr⟩ := hanc x hx; exact ⟨z, hz, hr.tail hd⟩) hmf)
          (edges key) ([], memo) (fun _ h => h) hm
        have hkey : NoRecursionBelow rx ms edges key → ∀ r, Through rx ms edges key r →
            r.show ∈ (dedupRefs ((edges key).foldl (scanStep rx ms (look rx ms edges n (key :: stack))) ([], memo)).1).map Ref.show := by
          intro hnr r hr
          rw [show_mem_dedup]
          obtain ⟨k, hrk, ha⟩ := hr
          cases hrk with
          | refl => exact g3 r ha.1 ha
          | @step _ y _ hd hrest =>
            obtain ⟨a, hae, hkn, hb⟩ := hd
            exact g4 a hae hkn y hb (below_step hnr ⟨a, hae, hkn, hb⟩) r ⟨k, hrest, ha⟩
        refine ⟨?_, hkey⟩
        intro k res hres hnr r hr
        rw [mget_mset] at hres
        split at hres
        · next e => subst e; simp only [Option.some.injEq] at hres; subst hres; exact hkey hnr r hr
        · exact g1 k res hres hnr r hr

/-- **C48, partial.** After any history of questions, a function below which there is no
recursion is credited with every recognised middleware reachable through its callees.
Missing: functions in, or leading to, recursion — `C48_history_matters` shows the claim
false there. -/
theorem C48_complete_partial (U : List String) (hU : CallUniverse rx ms edges U) (history : List String)
    (hh : ∀ k ∈ history, k ∈ U) (key : String) (hk : key ∈ U) (fuel : Nat) (hf : U.length + 1 ≤ fuel)
    (hnr : NoRecursionBelow rx ms edges key) (r : Ref) (h : Through rx ms edges key r) :
    r.show ∈ (ask rx ms edges fuel history key).map Ref.show := by
  have hm : ∀ (l : List String) (memo : Memo), (∀ k ∈ l, k ∈ U) → MemoFull rx ms edges memo →
      MemoFull rx ms edges (l.foldl (fun memo k => (look rx ms edges fuel [] memo k).2) memo) := by
    intro l
    induction l with
    | nil => intro memo _ h; exact h
    | cons k l ih =>
      intro memo hl h
      exact ih _ (fun x hx => hl x (List.mem_cons_of_mem _ hx))
        (look_full U hU fuel [] memo k (hl k (by simp)) List.nodup_nil (by simp) (by simpa using hf) (by simp) h).1
  have hfull := hm history [] hh (by intro k res h; simp at h)
  exact (look_full U hU fuel [] _ key hk List.nodup_nil (by simp) (by simpa using hf) (by simp) hfull).2 hnr r h

/-- **C48 (stable).** Once answered, a question keeps its answer. -/
theorem C48_repeat_same (fuel : Nat) (history : List String) (key : String) (hf : 0 < fuel) :
    ask rx ms edges fuel (history ++ [key]) key = ask rx ms edges fuel history key := by
  unfold ask askAll
  rw [List.foldl_append, List.foldl_cons, List.foldl_nil]
  generalize history.foldl (fun memo k => (look rx ms edges fuel [] memo k).2) [] = memo
  obtain ⟨n, rfl⟩ : ∃ n, fuel = n + 1 := ⟨fuel - 1, by omega⟩
  have hself : ∃ res, look rx ms edges (n + 1) [] memo key = (res, (look rx ms edges (n + 1) [] memo key).2) ∧
      mget (look rx ms edges (n + 1) [] memo key).2 key = some res := by
    unfold look
    split
    · next res h => exact ⟨res, rfl, h⟩
    · simp only [List.not_mem_nil, if_false]
      exact ⟨_, rfl, mget_mset_self _ _ _⟩
  obtain ⟨res, h1, h2⟩ := hself
  rw [h1]
  generalize (look rx ms edges (n + 1) [] memo key).2 = memo' at h2
  unfold look
  simp only [h2]

end

/-! ## Where history matters -/

/-- Two helpers that call each other; `a` also applies the mapped middleware `JWT`. -/
def twoHelpers : String → List Ref
  | "p.a" => [{ fn := "b", pkg := "p" }, { fn := "JWT", pkg := "auth" }]
  | "p.b" => [{ fn := "a", pkg := "p" }]
  | "p.c" => [{ fn := "d", pkg := "p" }]
  | "p.d" => [{ fn := "JWT", pkg := "auth" }, {}]
  | _ => []

def jwtMapping : List Mapping := [{ fnRe := "JWT", schemes := [[("bearer", [])]] }]

def eqRx : String → String → Bool := fun p s => p == s

/-- **C48 is false in general.** `b` applies `JWT` through `a`. Asked first, the answer says
so; asked after `a`, the answer is empty, because the answer for `b` was remembered while
`a` was still being resolved. -/
theorem C48_history_matters :
    ask eqRx jwtMapping twoHelpers 3 [] "p.b" = [{ fn := "JWT", pkg := "auth" }] ∧
    ask eqRx jwtMapping twoHelpers 3 ["p.a"] "p.b" = [] := by decide

theorem twoHelpers_universe : CallUniverse eqRx jwtMapping twoHelpers ["p.a", "p.b"] := by
  intro a ha b ⟨r, hr, hn, hb⟩
  simp only [List.mem_cons, List.not_mem_nil, or_false] at ha
  rcases ha with rfl | rfl
  · simp only [twoHelpers, List.mem_cons, List.not_mem_nil, or_false] at hr
    rcases hr with rfl | rfl
    · have : b = "p.b" := by
        have h : baseID { fn := "b", pkg := "p" } = some "p.b" := by decide
        rw [h] at hb; simpa using hb.symm
      simp [this]
    · exact absurd ⟨_, List.mem_singleton.mpr rfl, by decide, by decide, by decide⟩ hn
  · simp only [twoHelpers, List.mem_cons, List.not_mem_nil, or_false] at hr
    subst hr
    have : b = "p.a" := by
      have h : baseID { fn := "a", pkg := "p" } = some "p.a" := by decide
      rw [h] at hb; simpa using hb.symm
    simp [this]

/-- The hypotheses of the completeness theorem are met on a cyclic graph. -/
example : Through eqRx jwtMapping twoHelpers "p.b" { fn := "JWT", pkg := "auth" } := by
  refine ⟨"p.a", .single ⟨{ fn := "a", pkg := "p" }, by decide, ?_, by decide⟩, by decide, by decide,
    ⟨_, List.mem_singleton.mpr rfl, by decide, by decide, by decide⟩⟩
  rintro ⟨m, hm, h, _⟩
  rw [List.mem_singleton.mp hm] at h
  exact absurd (h (by decide)) (by decide)

theorem descends_c (b : String) : Descends eqRx jwtMapping twoHelpers "p.c" b ↔ b = "p.d" := by
  have h : baseID { fn := "d", pkg := "p" } = some "p.d" := by decide
  constructor
  · rintro ⟨r, hr, _, hb⟩
    simp only [twoHelpers, List.mem_cons, List.not_mem_nil, or_false] at hr
    subst hr
    rw [h] at hb; simpa using hb.symm
  · rintro rfl
    refine ⟨_, List.mem_singleton.mpr rfl, ?_, h⟩
    rintro ⟨m, hm, hh, _⟩
    rw [List.mem_singleton.mp hm] at hh
    exact absurd (hh (by decide)) (by decide)

theorem descends_d (b : String) : ¬ Descends eqRx jwtMapping twoHelpers "p.d" b := by
  rintro ⟨r, hr, hn, hb⟩
  simp only [twoHelpers, List.mem_cons, List.not_mem_nil, or_false] at hr
  rcases hr with rfl | rfl
  · exact hn ⟨_, List.mem_singleton.mpr rfl, by decide, by decide, by decide⟩
  · have h : baseID {} = none := by decide
    rw [h] at hb; simp at hb

/-- And there is a function below which nothing recurs. -/
example : NoRecursionBelow eqRx jwtMapping twoHelpers "p.c" := by
  have hreach : ∀ k, Reach (Descends eqRx jwtMapping twoHelpers) "p.c" k → k = "p.c" ∨ k = "p.d" :=
    fun k hk => hk.closed (S := fun a => a = "p.c" ∨ a = "p.d") (fun a b ha hab => by
      rcases ha with rfl | rfl
      · exact .inr ((descends_c b).mp hab)
      · exact absurd hab (descends_d b)) (.inl rfl)
  have hd : ∀ k, Reach (Descends eqRx jwtMapping twoHelpers) "p.d" k → k = "p.d" :=
    fun k hk => hk.closed (S := fun a => a = "p.d") (fun a b ha hab => by
      rw [ha] at hab; exact absurd hab (descends_d b)) rfl
  rintro k hk ⟨z, hz, hr⟩
  rcases hreach k hk with rfl | rfl
  · rw [descends_c] at hz; rw [hz] at hr
    exact absurd (hd _ hr) (by decide)
  · exact descends_d _ hz

example : ask eqRx jwtMapping twoHelpers 5 ["p.a", "p.d", "p.b"] "p.c" = [{ fn := "JWT", pkg := "auth" }] := by decide

end Verif.Middleware
