import Verif.InsightWalkProps

/-!
C40, the call paths of an endpoint: the count, the sample that is listed, and the grade.
Code: /repo/internal/insight/metrics.go:710-748, 855-912.
-/

namespace Verif.InsightProps
open Verif.Common Verif.InsightModel

/-! ## Specification -/

/-- A path from `n` down to a function that calls nothing. -/
inductive IsPath (R : String → String → Prop) : String → List String → Prop
  | leaf {n : String} : (∀ k, ¬ R n k) → IsPath R n [n]
  | step {n k : String} {p : List String} : R n k → IsPath R k p → IsPath R n (n :: p)

/-- A path from `n` that repeats no function and cannot be continued without repeating one. -/
structure MaxSimple (R : String → String → Prop) (n : String) (p : List String) : Prop where
  head : p.head? = some n
  chain : ∀ i a b, p[i]? = some a → p[i + 1]? = some b → R a b
  once : p.Nodup
  stuck : ∀ l, p.getLast? = some l → ∀ k, R l k → k ∈ p

/-- No function calls itself through others. -/
def NoRecursion (R : String → String → Prop) : Prop := ∀ x n, ¬ Way R x (n + 1) x

/-- `v` is the number of `p`s. -/
def Exactly (P : List String → Prop) (v : Nat) : Prop := ∃ ps : List (List String), ps.Nodup ∧ (∀ p, p ∈ ps ↔ P p) ∧ ps.length = v

/-- There are at least `v` of them. -/
def AtLeast (P : List String → Prop) (v : Nat) : Prop := ∃ ps : List (List String), ps.Nodup ∧ (∀ p ∈ ps, P p) ∧ v ≤ ps.length

/-! ## Counting -/

theorem kids_key {adj : List (String × List String)} {n : String} (h : kids adj n ≠ []) : n ∈ adj.map (·.1) := by
  simp only [kids] at h
  cases hm : mget adj n with
  | none => rw [hm] at h; exact absurd rfl h
  | some l => exact List.mem_map.2 ⟨_, mem_of_mget hm, rfl⟩

theorem room {adj : List (String × List String)} {stack : List String} (h1 : stack.Nodup) (h2 : ∀ x ∈ stack, x ∈ adj.map (·.1)) : stack.length ≤ adj.length := by
  have := h1.length_le_of_subset (l₂ := adj.map (·.1)) (fun x hx => h2 x hx)
  simpa using this

/-- Counting ends on every graph; a cut count is the limit and an uncut one is below it. -/
theorem countFrom_ends (cap : Nat) (hc : 1 < cap) (adj : List (String × List String)) : ∀ (fuel : Nat) (stack : List String) (s : Memo) (n : String),
    adj.length + 2 ≤ fuel + stack.length → stack.Nodup → (∀ x ∈ stack, x ∈ adj.map (·.1)) → n ∉ stack → s.truncated = false → (∀ x v, mget s.memo x = some v → 1 ≤ v ∧ v < cap) →
    ∃ s' v, countFrom cap adj fuel stack s n = some (s', v) ∧ 1 ≤ v ∧ (s'.truncated = true → v = cap) ∧ (s'.truncated = false → v < cap) ∧
      (∀ x v, mget s'.memo x = some v → 1 ≤ v ∧ v < cap) := by
  intro fuel
  induction fuel with
  | zero =>
    intro stack s n hf hn hk
    have := room hn hk
    omega
  | succ fuel ih =>
    intro stack s n hf hn hk hns hs hm
    simp only [countFrom]
    split
    · next v hv => exact ⟨s, v, rfl, (hm n v hv).1, by rw [hs]; simp, fun _ => (hm n v hv).2, hm⟩
    · split
      · exact ⟨s, 1, rfl, Nat.le_refl _, by rw [hs]; simp, fun _ => hc, hm⟩
      · next he =>
        have hkey : n ∈ adj.map (·.1) := kids_key (by intro h; rw [h] at he; exact he rfl)
        have hkids : ∀ (ks : List String) (s : Memo) (total : Nat), s.truncated = false → (∀ x v, mget s.memo x = some v → 1 ≤ v ∧ v < cap) → total < cap →
            ∃ s' v, countKids cap (countFrom cap adj fuel (n :: stack)) (n :: stack) ks s total = some (s', v) ∧ (s'.truncated = true → v = cap) ∧ (s'.truncated = false → v < cap) ∧
              (∀ x v, mget s'.memo x = some v → 1 ≤ v ∧ v < cap) := by
          intro ks
          induction ks with
          | nil => intro s total hs hm ht; exact ⟨s, total, rfl, by rw [hs]; simp, fun _ => ht, hm⟩
          | cons k ks ihk =>
            intro s total hs hm ht
            simp only [countKids]
            split
            · exact ihk s total hs hm ht
            · next hks =>
              obtain ⟨s', v, e, hv, h1, h2, h3⟩ := ih (n :: stack) s k (by simp only [List.length_cons]; omega) (List.nodup_cons.2 ⟨hns, hn⟩)
                (fun x hx => (List.mem_cons.1 hx).elim (fun e => e ▸ hkey) (hk x)) (by simpa using hks) hs hm
              rw [e]
              simp only
              split
              · exact ⟨_, _, rfl, fun _ => rfl, (by intro h; cases h), h3⟩
              · next hlt =>
                refine ihk s' (total + v) ?_ h3 (by omega)
                cases hb : s'.truncated with
                | false => rfl
                | true => have := h1 hb; omega
        obtain ⟨s', v, e, h1, h2, h3⟩ := hkids (kids adj n) s 0 hs hm (by omega)
        rw [e]
        simp only [Option.map_some, finish]
        refine ⟨_, _, rfl, by split <;> omega, ?_, ?_, ?_⟩
        · intro h
          cases hb : s'.truncated with
          | false => simp [hb] at h
          | true => rw [h1 hb, if_neg (by omega)]
        · intro h
          cases hb : s'.truncated with
          | true => simp [hb] at h
          | false => have := h2 hb; split <;> omega
        · cases hb : s'.truncated with
          | true => simpa using h3
          | false =>
            have h2' := h2 hb
            intro x w hx
            simp only [Bool.false_eq_true, if_false] at hx
            rw [mget_mset] at hx
            split at hx
            · cases hx; split <;> omega
            · exact h3 x w hx

theorem IsPath.head {R : String → String → Prop} {n : String} {p : List String} (h : IsPath R n p) : p.head? = some n := by
  cases h <;> rfl

theorem Way.trans {R : String → String → Prop} {a b c : String} {n m : Nat} (h : Way R a n b) (h' : Way R b m c) : Way R a (n + m) c := by
  induction h' with
  | here => exact h
  | step _ hr ih => exact .step ih hr

theorem Way.mono {R S : String → String → Prop} (hRS : ∀ a b, R a b → S a b) {a b : String} {n : Nat} (h : Way R a n b) : Way S a n b := by
  induction h with
  | here => exact .here
  | step _ hr ih => exact .step ih (hRS _ _ hr)

/-- The calls as listed. -/
abbrev Listed (adj : List (String × List String)) (a b : String) : Prop := b ∈ kids adj a

/-- The paths from `n` through one of `done`. -/
def Through (R : String → String → Prop) (n : String) (done : List String) (p : List String) : Prop := ∃ k ∈ done, ∃ q, IsPath R k q ∧ p = n :: q

theorem exactly_more {R : String → String → Prop} {n k : String} {done : List String} {a b : Nat} (h1 : Exactly (Through R n done) a) (h2 : Exactly (IsPath R k) b)
    (hk : k ∉ done) : Exactly (Through R n (done ++ [k])) (a + b) := by
  obtain ⟨ps, hp, hpm, hpl⟩ := h1
  obtain ⟨qs, hq, hqm, hql⟩ := h2
  refine ⟨ps ++ qs.map (n :: ·), ?_, ?_, by simp [hpl, hql]⟩
  · rw [List.nodup_append]
    refine ⟨hp, ?_, ?_⟩
    · rw [List.nodup_iff_pairwise_ne, List.pairwise_map]
      exact (List.nodup_iff_pairwise_ne.1 hq).imp fun h e => h (List.cons.inj e).2
    · rintro x hx y hy rfl
      obtain ⟨k', hk', q, hq', rfl⟩ := (hpm x).1 hx
      obtain ⟨q', hq'', e⟩ := List.mem_map.1 hy
      have : q' = q := (List.cons.inj e).2
      subst this
      have e1 := hq'.head
      have e2 := ((hqm q').1 hq'').head
      rw [e1] at e2
      cases e2
      exact hk hk'
  · intro p
    rw [List.mem_append, hpm, List.mem_map]
    constructor
    · rintro (⟨k', hk', h⟩ | ⟨q, hq', rfl⟩)
      · exact ⟨k', List.mem_append_left _ hk', h⟩
      · exact ⟨k, by simp, q, (hqm q).1 hq', rfl⟩
    · rintro ⟨k', hk', q, hq', rfl⟩
      rcases List.mem_append.1 hk' with h | h
      · exact .inl ⟨k', h, q, hq', rfl⟩
      · rw [List.mem_singleton] at h; subst h
        exact .inr ⟨q, (hqm q).2 hq', rfl⟩

theorem exactly_congr {P Q : List String → Prop} (h : ∀ p, P p ↔ Q p) {v : Nat} (hp : Exactly P v) : Exactly Q v := by
  obtain ⟨ps, h1, h2, h3⟩ := hp
  exact ⟨ps, h1, fun p => (h2 p).trans (h p), h3⟩

theorem through_all {adj : List (String × List String)} {n : String} (h : kids adj n ≠ []) (p : List String) : Through (Listed adj) n (kids adj n) p ↔ IsPath (Listed adj) n p := by
  constructor
  · rintro ⟨k, hk, q, hq, rfl⟩; exact .step hk hq
  · intro hp
    cases hp with
    | leaf hn =>
      obtain ⟨k, l, e⟩ := List.exists_cons_of_ne_nil h
      exact absurd (by rw [Listed, e]; simp) (hn k)
    | step hk hq => exact ⟨_, hk, _, hq, rfl⟩

/-- Counting is exact when nothing is recursive. -/
theorem countFrom_exact (cap : Nat) (hc : 1 < cap) (adj : List (String × List String)) (hadj : ∀ x, (kids adj x).Nodup) (hr : NoRecursion (Listed adj)) :
    ∀ (fuel : Nat) (stack : List String) (s : Memo) (n : String) (s' : Memo) (v : Nat), countFrom cap adj fuel stack s n = some (s', v) → s.truncated = false →
    (∀ y ∈ stack, ∃ m, Way (Listed adj) y (m + 1) n) → (∀ x v, mget s.memo x = some v → 1 ≤ v ∧ Exactly (IsPath (Listed adj) x) v) →
      1 ≤ v ∧ (s'.truncated = false → Exactly (IsPath (Listed adj) n) v) ∧ (s'.truncated = true → v = cap ∧ AtLeast (IsPath (Listed adj) n) cap) ∧
      (∀ x v, mget s'.memo x = some v → 1 ≤ v ∧ Exactly (IsPath (Listed adj) x) v) := by
  intro fuel
  induction fuel with
  | zero => intro stack s n s' v h; cases h
  | succ fuel ih =>
    intro stack s n s' v h hs hst hm
    simp only [countFrom] at h
    split at h
    · next v' hv => cases h; exact ⟨(hm _ _ hv).1, fun _ => (hm _ _ hv).2, by rw [hs]; simp, hm⟩
    · split at h
      · next he =>
        cases h
        have hnil : kids adj n = [] := by simpa using he
        refine ⟨Nat.le_refl _, fun _ => ⟨[[n]], by simp, ?_, rfl⟩, by rw [hs]; simp, hm⟩
        intro p
        rw [List.mem_singleton]
        constructor
        · rintro rfl; exact .leaf (fun k hk => by rw [Listed, hnil] at hk; cases hk)
        · intro hp
          cases hp with
          | leaf _ => rfl
          | step hk _ => rw [Listed, hnil] at hk; cases hk
      · next he =>
        have hne : kids adj n ≠ [] := by intro h; rw [h] at he; exact he rfl
        have hkids : ∀ (ks done : List String) (s : Memo) (total : Nat) (s' : Memo) (v : Nat), kids adj n = done ++ ks →
            countKids cap (countFrom cap adj fuel (n :: stack)) (n :: stack) ks s total = some (s', v) → s.truncated = false →
            (∀ x v, mget s.memo x = some v → 1 ≤ v ∧ Exactly (IsPath (Listed adj) x) v) → Exactly (Through (Listed adj) n done) total → done.length ≤ total →
              (s'.truncated = false → (kids adj n).length ≤ v ∧ Exactly (IsPath (Listed adj) n) v) ∧ (s'.truncated = true → v = cap ∧ AtLeast (IsPath (Listed adj) n) cap) ∧
              (∀ x v, mget s'.memo x = some v → 1 ≤ v ∧ Exactly (IsPath (Listed adj) x) v) := by
          intro ks
          induction ks with
          | nil =>
            intro done s total s' v hd h hs hm ht hl
            simp only [countKids] at h
            cases h
            rw [List.append_nil] at hd
            subst hd
            exact ⟨fun _ => ⟨hl, exactly_congr (through_all hne) ht⟩, by rw [hs]; simp, hm⟩
          | cons k ks ihk =>
            intro done s total s' v hd h hs hm ht hl
            have hkn : k ∈ kids adj n := by rw [hd]; simp
            have hkd : k ∉ done := by
              have := hadj n
              rw [hd, List.nodup_append] at this
              exact fun hin => this.2.2 k hin k (by simp) rfl
            have hway : ∀ y ∈ n :: stack, ∃ m, Way (Listed adj) y (m + 1) k := by
              intro y hy
              rcases List.mem_cons.1 hy with rfl | hy
              · exact ⟨0, .step .here hkn⟩
              · obtain ⟨m, hw⟩ := hst y hy; exact ⟨m + 1, .step hw hkn⟩
            simp only [countKids] at h
            rw [if_neg (by
              intro hin
              obtain ⟨m, hw⟩ := hway k (by simpa using hin)
              exact hr k m hw)] at h
            cases hf : countFrom cap adj fuel (n :: stack) s k with
            | none => rw [hf] at h; cases h
            | some r =>
              obtain ⟨s1, v1⟩ := r
              rw [hf] at h
              simp only at h
              obtain ⟨i0, i1, i2, i3⟩ := ih (n :: stack) s k s1 v1 hf hs hway hm
              split at h
              · next hcap =>
                cases h
                refine ⟨(by intro h; cases h), fun _ => ⟨rfl, ?_⟩, i3⟩
                cases hb : s1.truncated with
                | true =>
                  obtain ⟨_, qs, hq1, hq2, hq3⟩ := i2 hb
                  refine ⟨qs.map (n :: ·), ?_, ?_, by simpa using hq3⟩
                  · rw [List.nodup_iff_pairwise_ne, List.pairwise_map]
                    exact (List.nodup_iff_pairwise_ne.1 hq1).imp fun h e => h (List.cons.inj e).2
                  · intro p hp
                    obtain ⟨q, hq, rfl⟩ := List.mem_map.1 hp
                    exact .step hkn (hq2 q hq)
                | false =>
                  obtain ⟨ps, hp1, hp2, hp3⟩ := exactly_more ht (i1 hb) hkd
                  refine ⟨ps, hp1, ?_, by omega⟩
                  intro p hp
                  obtain ⟨k', hk', q, hq, rfl⟩ := (hp2 p).1 hp
                  exact .step (by rw [Listed, hd]; exact (List.mem_append.1 hk').elim (List.mem_append_left _) (fun h => by rw [List.mem_singleton] at h; subst h; simp)) hq
              · next hcap =>
                have hb : s1.truncated = false := by
                  cases hb : s1.truncated with
                  | false => rfl
                  | true => have := (i2 hb).1; omega
                exact ihk (done ++ [k]) s1 (total + v1) s' v (by rw [hd]; simp) h hb i3 (exactly_more ht (i1 hb) hkd) (by simp only [List.length_append, List.length_cons, List.length_nil]; omega)
        cases hck : countKids cap (countFrom cap adj fuel (n :: stack)) (n :: stack) (kids adj n) s 0 with
        | none => rw [hck] at h; cases h
        | some r =>
          obtain ⟨s1, t⟩ := r
          rw [hck] at h
          simp only [Option.map_some, Option.some.injEq, finish, Prod.mk.injEq] at h
          obtain ⟨h1, h2⟩ := h
          obtain ⟨k1, k2, k3⟩ := hkids (kids adj n) [] s 0 s1 t rfl hck hs hm ⟨[], by simp, by simp [Through], rfl⟩ (Nat.le_refl _)
          have hlen : 0 < (kids adj n).length := List.length_pos_iff.2 hne
          cases hb : s1.truncated with
          | true =>
            obtain ⟨k2a, k2b⟩ := k2 hb
            rw [hb] at h1
            simp only [if_true] at h1
            subst h1
            rw [if_neg (by omega)] at h2
            subst h2
            exact ⟨by omega, by rw [hb]; simp, fun _ => ⟨k2a, k2b⟩, k3⟩
          | false =>
            obtain ⟨k1a, k1b⟩ := k1 hb
            have e0 : (if t = 0 then 1 else t) = t := if_neg (by omega)
            rw [e0] at h1 h2
            subst h2
            rw [hb] at h1
            simp only [Bool.false_eq_true, if_false] at h1
            subst h1
            refine ⟨by omega, fun _ => k1b, by simp, ?_⟩
            intro x w hx
            rw [mget_mset] at hx
            split at hx
            · next e => cases hx; subst e; exact ⟨by omega, k1b⟩
            · exact k3 x w hx

/-- **C40** Counting the call paths ends whatever the calls are; a count that was cut is the limit, another is below it. -/
theorem C40_count_ends (L : Limits) (hL : 1 < L.paths) (adj : List (String × List String)) (root : String) :
    ∃ v cut, countPaths L adj root = some (v, cut) ∧ 1 ≤ v ∧ (cut = true → v = L.paths) ∧ (cut = false → v < L.paths) := by
  obtain ⟨s, v, e, h1, h2, h3, _⟩ := countFrom_ends L.paths hL adj (adj.length + 2) [] {} root (by simp) List.nodup_nil (by simp) (by simp) rfl (by simp)
  exact ⟨v, s.truncated, by simp only [countPaths, e, Option.map_some], h1, h2, h3⟩

theorem isPath_congr {R S : String → String → Prop} {root : String} (h : ∀ n x, Way R root n x → ∀ y, R x y ↔ S x y) {p : List String} {x : String}
    (hx : ∃ n, Way R root n x) : IsPath R x p ↔ IsPath S x p := by
  constructor
  · intro hp
    induction hp with
    | leaf hn => obtain ⟨n, hx⟩ := hx; exact .leaf fun k hk => hn k ((h n _ hx k).2 hk)
    | step hk _ ih => obtain ⟨n, hx⟩ := hx; exact .step ((h n _ hx _).1 hk) (ih ⟨n + 1, .step hx hk⟩)
  · intro hp
    induction hp with
    | leaf hn => obtain ⟨n, hx⟩ := hx; exact .leaf fun k hk => hn k ((h n _ hx k).1 hk)
    | step hk _ ih => obtain ⟨n, hx⟩ := hx; have hk := (h n _ hx _).2 hk; exact .step hk (ih ⟨n + 1, .step hx hk⟩)

/-- **C40** In a program without recursion, a walk and a count that were not cut give the number of call paths from the
handler down to functions that call nothing; if only the count was cut there are at least that many. -/
theorem C40_paths_partial (L : Limits) (hL : 1 < L.paths) (label : String → String) (calls : String → List Call) (root : String) (hr : NoRecursion (Calls calls))
    (w : Walk) (hw : analyze L label calls root = some w) (ht : w.truncated = false) :
    ∃ v cut, countPaths L w.adj root = some (v, cut) ∧ (cut = false → Exactly (IsPath (Calls calls) root) v) ∧ (cut = true → v = L.paths ∧ AtLeast (IsPath (Calls calls) root) v) := by
  obtain ⟨s, v, e, -⟩ := countFrom_ends L.paths hL w.adj (w.adj.length + 2) [] {} root (by simp) List.nodup_nil (by simp) (by simp) rfl (by simp)
  obtain ⟨-, s2, s3, -⟩ := C40_sound L label calls root w hw
  obtain ⟨-, c2, -, c4⟩ := C40_complete L label calls root w hw ht
  have hr' : NoRecursion (Listed w.adj) := fun x n hx => hr x n (hx.mono fun a b hb => (s2 a).2 b hb)
  have hcongr : ∀ p, IsPath (Listed w.adj) root p ↔ IsPath (Calls calls) root p := by
    intro p
    refine (isPath_congr (root := root) (R := Calls calls) ?_ ⟨0, .here⟩).symm
    intro n x hx y
    exact ((c4 x ((c2 x).2 ⟨n, hx⟩)).2 y).symm
  obtain ⟨h1, h2, h3, -⟩ := countFrom_exact L.paths hL w.adj (fun x => (s2 x).1) hr' _ [] {} root s v e rfl (by simp) (by simp)
  refine ⟨v, s.truncated, by simp only [countPaths, e, Option.map_some], fun h => exactly_congr hcongr (h2 h), fun h => ?_⟩
  obtain ⟨h4, ps, h5, h6, h7⟩ := h3 h
  exact ⟨h4, ps, h5, fun p hp => (hcongr p).1 (h6 p hp), by rw [h4]; exact h7⟩

/-- Two ways down to `c`. -/
def diamond : String → List Call
  | "h" => [⟨"a", false, "1"⟩, ⟨"b", false, "2"⟩]
  | "a" => [⟨"c", false, "3"⟩]
  | "b" => [⟨"c", false, "4"⟩]
  | "c" => [⟨"d", false, "5"⟩, ⟨"e", false, "6"⟩]
  | _ => []

/-- A height that every call lowers. -/
theorem noRecursion_of_height {R : String → String → Prop} (f : String → Nat) (h : ∀ a b, R a b → f b < f a) : NoRecursion R := by
  have : ∀ (a : String) (n : Nat) (b : String), Way R a n b → f b + n ≤ f a := by
    intro a n b hw
    induction hw with
    | here => simp
    | step _ hr ih => have := h _ _ hr; omega
  intro x n hx
  have := this x (n + 1) x hx
  omega

def diamondHeight : String → Nat
  | "h" => 3
  | "a" => 2
  | "b" => 2
  | "c" => 1
  | _ => 0

example : NoRecursion (Calls diamond) := by
  refine noRecursion_of_height diamondHeight ?_
  rintro a b ⟨c, hc, rfl, _⟩
  unfold diamond at hc
  split at hc <;> simp at hc <;> (try rcases hc with rfl | rfl) <;> (try subst hc) <;> decide

example : ((analyze {} id diamond "h").bind fun w => countPaths {} w.adj "h") = some (4, false) := by decide
example : ((analyze {} id diamond "h").map (·.truncated)) = some false := by decide

/-! ## The listed sample -/

/-- `MaxSimple` while the functions of `stack` are already on the way. -/
structure MaxOn (R : String → String → Prop) (stack : List String) (n : String) (p : List String) : Prop where
  head : p.head? = some n
  chain : ∀ i a b, p[i]? = some a → p[i + 1]? = some b → R a b
  once : p.Nodup
  off : ∀ x ∈ p, x ∉ stack
  stuck : ∀ l, p.getLast? = some l → ∀ k, R l k → k ∈ p ∨ k ∈ stack

theorem maxOn_iff {R : String → String → Prop} (hself : ∀ a, ¬ R a a) {stack : List String} {n : String} (hn : n ∉ stack) (p : List String) :
    MaxOn R stack n p ↔ (p = [n] ∧ ∀ k, R n k → k ∈ stack) ∨ ∃ k q, p = n :: q ∧ R n k ∧ k ∉ stack ∧ MaxOn R (n :: stack) k q := by
  constructor
  · intro h
    cases p with
    | nil => exact absurd h.head (by simp)
    | cons m q =>
      have : m = n := by have := h.head; simpa using this
      subst this
      cases q with
      | nil =>
        refine .inl ⟨rfl, fun k hk => ?_⟩
        rcases h.stuck m rfl k hk with h' | h'
        · rw [List.mem_singleton] at h'; subst h'; exact absurd hk (hself _)
        · exact h'
      | cons k q =>
        obtain ⟨o1, o2⟩ := List.nodup_cons.1 h.once
        refine .inr ⟨k, k :: q, rfl, h.chain 0 m k rfl rfl, h.off k (by simp), ⟨rfl, fun i a b ha hb => h.chain (i + 1) a b ha hb, o2, ?_, ?_⟩⟩
        · intro x hx hin
          rcases List.mem_cons.1 hin with rfl | hin
          · exact o1 hx
          · exact h.off x (List.mem_cons_of_mem _ hx) hin
        · intro l hl k' hk'
          rcases h.stuck l (by rw [← hl]; rfl) k' hk' with h' | h'
          · rcases List.mem_cons.1 h' with rfl | h'
            · exact .inr (by simp)
            · exact .inl h'
          · exact .inr (List.mem_cons_of_mem _ h')
  · rintro (⟨rfl, h⟩ | ⟨k, q, rfl, hk, hks, h⟩)
    · refine ⟨rfl, ?_, by simp, by simpa using hn, ?_⟩
      · intro i a b _ hb; simp at hb
      · intro l hl k hk
        have : l = n := by simpa using hl.symm
        subst this
        exact .inr (h k hk)
    · cases q with
      | nil => exact absurd h.head (by simp)
      | cons m q =>
        have : m = k := by have := h.head; simpa using this
        subst this
        refine ⟨rfl, ?_, List.nodup_cons.2 ⟨fun hin => h.off n hin (by simp), h.once⟩, ?_, ?_⟩
        · intro i a b ha hb
          cases i with
          | zero => simp at ha hb; subst ha; subst hb; exact hk
          | succ i => exact h.chain i a b ha hb
        · intro x hx hin
          rcases List.mem_cons.1 hx with rfl | hx
          · exact hn hin
          · exact h.off x hx (List.mem_cons_of_mem _ hin)
        · intro l hl k' hk'
          rcases h.stuck l (by rw [← hl]; rfl) k' hk' with h' | h'
          · exact .inl (List.mem_cons_of_mem _ h')
          · rcases List.mem_cons.1 h' with rfl | h'
            · exact .inl (by simp)
            · exact .inr h'

/-- All the paths, without the limit. -/
def full (adj : List (String × List String)) : Nat → List String → String → List (List String)
  | 0, _, _ => []
  | fuel + 1, stack, n =>
    if ((kids adj n).filter fun k => !stack.contains k).isEmpty then [[n]]
    else (((kids adj n).filter fun k => !stack.contains k).flatMap (full adj fuel (n :: stack))).map (n :: ·)

theorem full_exact (adj : List (String × List String)) (hadj : ∀ x, (kids adj x).Nodup) (hself : ∀ x, x ∉ kids adj x) : ∀ (fuel : Nat) (stack : List String) (n : String),
    adj.length + 2 ≤ fuel + stack.length → stack.Nodup → (∀ x ∈ stack, x ∈ adj.map (·.1)) → n ∉ stack →
    (full adj fuel stack n).Nodup ∧ ∀ p, p ∈ full adj fuel stack n ↔ MaxOn (Listed adj) stack n p := by
  intro fuel
  induction fuel with
  | zero =>
    intro stack n hf hn hk
    have := room hn hk
    omega
  | succ fuel ih =>
    intro stack n hf hn hk hns
    have hmem : ∀ k, k ∈ ((kids adj n).filter fun k => !stack.contains k) ↔ k ∈ kids adj n ∧ k ∉ stack := by
      intro k; simp [List.mem_filter]
    simp only [full]
    split
    · next he =>
      refine ⟨by simp, fun p => ?_⟩
      rw [maxOn_iff hself hns, List.mem_singleton]
      have hnone : ∀ k, k ∈ kids adj n → k ∈ stack := by
        intro k hk'
        by_cases h : k ∈ stack
        · exact h
        · have := (hmem k).2 ⟨hk', h⟩
          rw [List.isEmpty_iff.1 he] at this; cases this
      constructor
      · intro h; exact .inl ⟨h, hnone⟩
      · rintro (⟨h, _⟩ | ⟨k, q, _, hk', hks, _⟩)
        · exact h
        · exact absurd (hnone k hk') hks
    · next he =>
      have hkey : n ∈ adj.map (·.1) := kids_key (by intro h; rw [h] at he; exact he rfl)
      have hrec : ∀ k, k ∈ kids adj n → k ∉ stack → (full adj fuel (n :: stack) k).Nodup ∧ ∀ p, p ∈ full adj fuel (n :: stack) k ↔ MaxOn (Listed adj) (n :: stack) k p := by
        intro k hk' hks
        refine ih (n :: stack) k (by simp only [List.length_cons]; omega) (List.nodup_cons.2 ⟨hns, hn⟩) (fun x hx => (List.mem_cons.1 hx).elim (fun e => e ▸ hkey) (hk x)) ?_
        rw [List.mem_cons, not_or]
        exact ⟨fun e => hself n (by rw [e] at hk'; exact hk'), hks⟩
      constructor
      · rw [List.nodup_iff_pairwise_ne, List.pairwise_map]
        have hnd : ∀ (l : List String), l.Nodup → (∀ k ∈ l, k ∈ kids adj n ∧ k ∉ stack) → (l.flatMap (full adj fuel (n :: stack))).Nodup := by
          intro l
          induction l with
          | nil => intro _ _; simp
          | cons k l ihl =>
            intro hl hin
            obtain ⟨hl1, hl2⟩ := List.nodup_cons.1 hl
            obtain ⟨k1, k2⟩ := hin k (by simp)
            rw [List.flatMap_cons, List.nodup_append]
            refine ⟨(hrec k k1 k2).1, ihl hl2 (fun x hx => hin x (List.mem_cons_of_mem _ hx)), ?_⟩
            rintro x hx y hy rfl
            obtain ⟨k', hk', hy⟩ := List.mem_flatMap.1 hy
            obtain ⟨k1', k2'⟩ := hin k' (List.mem_cons_of_mem _ hk')
            have e1 := (((hrec k k1 k2).2 x).1 hx).head
            have e2 := (((hrec k' k1' k2').2 x).1 hy).head
            rw [e1] at e2
            cases e2
            exact hl1 hk'
        exact (List.nodup_iff_pairwise_ne.1 (hnd _ ((hadj n).filter _) (fun k hk' => (hmem k).1 hk'))).imp fun h e => h (List.cons.inj e).2
      · intro p
        rw [maxOn_iff hself hns, List.mem_map]
        constructor
        · rintro ⟨q, hq, rfl⟩
          obtain ⟨k, hk', hq⟩ := List.mem_flatMap.1 hq
          obtain ⟨k1, k2⟩ := (hmem k).1 hk'
          exact .inr ⟨k, q, rfl, k1, k2, ((hrec k k1 k2).2 q).1 hq⟩
        · rintro (⟨_, h⟩ | ⟨k, q, rfl, k1, k2, hq⟩)
          · refine absurd (List.isEmpty_iff.2 (List.filter_eq_nil_iff.2 ?_)) he
            intro k hk'
            simpa using h k hk'
          · exact ⟨q, List.mem_flatMap.2 ⟨k, (hmem k).2 ⟨k1, k2⟩, ((hrec k k1 k2).2 q).2 hq⟩, rfl⟩

theorem listFrom_eq (cap : Nat) (label : String → String) (adj : List (String × List String)) (hself : ∀ x, x ∉ kids adj x) :
    ∀ (fuel : Nat) (stack path : List String) (out : List (List String)) (n : String),
    adj.length + 2 ≤ fuel + stack.length → stack.Nodup → (∀ x ∈ stack, x ∈ adj.map (·.1)) → n ∉ stack →
    listFrom cap label adj fuel stack path out n = some (out ++ (((full adj fuel stack n).map fun p => path.reverse ++ p.map label).take (cap - out.length))) := by
  intro fuel
  induction fuel with
  | zero =>
    intro stack path out n hf hn hk
    have := room hn hk
    omega
  | succ fuel ih =>
    intro stack path out n hf hn hk hns
    simp only [listFrom, full]
    split
    · next hcap => rw [show cap - out.length = 0 by omega]; simp
    · next hcap =>
      split
      · rw [show cap - out.length = (cap - out.length - 1) + 1 by omega]; simp
      · next he =>
        have hkey : n ∈ adj.map (·.1) := kids_key (by intro h; rw [h] at he; exact he rfl)
        have hall : ∀ (l : List String), (∀ k ∈ l, k ∈ kids adj n ∧ k ∉ stack) → ∀ out : List (List String),
            listKids cap (listFrom cap label adj fuel (n :: stack) (label n :: path)) l out =
              some (out ++ (((l.flatMap (full adj fuel (n :: stack))).map fun p => (label n :: path).reverse ++ p.map label).take (cap - out.length))) := by
          intro l
          induction l with
          | nil => intro _ out; simp [listKids]
          | cons k l ihl =>
            intro hin out
            obtain ⟨k1, k2⟩ := hin k (by simp)
            simp only [listKids]
            split
            · rw [show cap - out.length = 0 by omega]; simp
            · rw [ih (n :: stack) (label n :: path) out k (by simp only [List.length_cons]; omega) (List.nodup_cons.2 ⟨hns, hn⟩)
                (fun x hx => (List.mem_cons.1 hx).elim (fun e => e ▸ hkey) (hk x))
                (by rw [List.mem_cons, not_or]; exact ⟨fun e => hself n (by rw [e] at k1; exact k1), k2⟩)]
              simp only
              rw [ihl (fun x hx => hin x (List.mem_cons_of_mem _ hx)), List.flatMap_cons, List.map_append, List.take_append, List.append_assoc]
              congr 3
              simp only [List.length_append, List.length_take, List.length_map]
              congr 1
              omega
        rw [hall _ (by intro k hk'; simpa [List.mem_filter] using hk')]
        congr 2
        rw [List.map_map]
        congr 1
        apply List.map_congr_left
        intro p _
        simp

/-- **C40** The listed sample: the walk's listing ends, and gives the labels of the first paths that repeat no function and
cannot be continued without repeating one; all of them if there are no more than the limit. -/
theorem C40_sample (cap : Nat) (label : String → String) (adj : List (String × List String)) (hadj : ∀ x, (kids adj x).Nodup) (hself : ∀ x, x ∉ kids adj x) (root : String) :
    ∃ ps : List (List String), ps.Nodup ∧ (∀ p, p ∈ ps ↔ MaxSimple (Listed adj) root p) ∧ enumeratePaths cap label adj root = some ((ps.take cap).map fun p => p.map label) := by
  obtain ⟨h1, h2⟩ := full_exact adj hadj hself (adj.length + 2) [] root (by simp) List.nodup_nil (by simp) (by simp)
  refine ⟨full adj (adj.length + 2) [] root, h1, fun p => (h2 p).trans ?_, ?_⟩
  · constructor
    · rintro ⟨a, b, c, d, e⟩; exact ⟨a, b, c, fun l hl k hk => (e l hl k hk).elim id (by simp)⟩
    · rintro ⟨a, b, c, e⟩; exact ⟨a, b, c, by simp, fun l hl k hk => .inl (e l hl k hk)⟩
  · rw [enumeratePaths, listFrom_eq cap label adj hself _ [] [] [] root (by simp) List.nodup_nil (by simp) (by simp)]
    simp [List.map_take]

/-- **C40** … and of a walk that was not cut: of the program's own calls. -/
theorem C40_sample_walk (L : Limits) (cap : Nat) (label label' : String → String) (calls : String → List Call) (root : String) (w : Walk) (hw : analyze L label calls root = some w)
    (ht : w.truncated = false) :
    ∃ ps : List (List String), ps.Nodup ∧ (∀ p, p ∈ ps ↔ MaxSimple (Calls calls) root p) ∧ enumeratePaths cap label' w.adj root = some ((ps.take cap).map fun p => p.map label') := by
  obtain ⟨-, s2, -⟩ := C40_sound L label calls root w hw
  obtain ⟨-, c2, -, c4⟩ := C40_complete L label calls root w hw ht
  obtain ⟨ps, h1, h2, h3⟩ := C40_sample cap label' w.adj (fun x => (s2 x).1) (fun x hx => by obtain ⟨c, _, _, _, _, h⟩ := (s2 x).2 x hx; exact h rfl) root
  refine ⟨ps, h1, fun p => (h2 p).trans ?_, h3⟩
  have reach : ∀ (R : String → String → Prop) (p : List String), p.head? = some root → (∀ i a b, p[i]? = some a → p[i + 1]? = some b → R a b) → ∀ (i : Nat) (a : String), p[i]? = some a → Way R root i a := by
    intro R p hh hc i
    induction i with
    | zero => intro a ha; rw [List.head?_eq_getElem?, ha] at hh; cases hh; exact .here
    | succ i ih =>
      intro a ha
      have hi : i < p.length := by have := (List.getElem?_eq_some_iff.1 ha).1; omega
      exact .step (ih _ (List.getElem?_eq_getElem hi)) (hc i _ a (List.getElem?_eq_getElem hi) ha)
  constructor
  · rintro ⟨a, b, c, e⟩
    have b' : ∀ i x y, p[i]? = some x → p[i + 1]? = some y → Calls calls x y := fun i x y hx hy => (s2 x).2 y (b i x y hx hy)
    refine ⟨a, b', c, fun l hl k hk => e l hl k ?_⟩
    rw [List.getLast?_eq_getElem?] at hl
    exact ((c4 l ((c2 l).2 ⟨_, reach _ p a b' _ l hl⟩)).2 k).2 hk
  · rintro ⟨a, b, c, e⟩
    refine ⟨a, fun i x y hx hy => ((c4 x ((c2 x).2 ⟨_, reach _ p a b _ x hx⟩)).2 y).2 (b i x y hx hy), c, fun l hl k hk => e l hl k ((s2 l).2 k hk)⟩

example : ((analyze {} id demo "h").bind fun w => enumeratePaths 40 id w.adj "h") = some [["h", "a", "b", "c"], ["h", "b", "c"]] := by decide
example : ((analyze {} id diamond "h").bind fun w => enumeratePaths 3 id w.adj "h") = some [["h", "a", "c", "d"], ["h", "a", "c", "e"], ["h", "b", "c", "d"]] := by decide

/-- Without recursion the two notions of path agree. -/
theorem isPath_iff_maxSimple {R : String → String → Prop} (hr : NoRecursion R) (n : String) (p : List String) : IsPath R n p ↔ MaxSimple R n p := by
  have reach : ∀ (p : List String) (n : String), IsPath R n p → ∀ x ∈ p, ∃ m, Way R n m x := by
    intro p n h
    induction h with
    | leaf _ => intro x hx; rw [List.mem_singleton] at hx; subst hx; exact ⟨0, .here⟩
    | step hk _ ih =>
      intro x hx
      rcases List.mem_cons.1 hx with rfl | hx
      · exact ⟨0, .here⟩
      · obtain ⟨m, hm⟩ := ih x hx
        exact ⟨1 + m, (Way.step .here hk).trans hm⟩
  constructor
  · intro h
    induction h with
    | leaf hn => exact ⟨rfl, fun i a b _ hb => by simp at hb, by simp, fun l hl k hk => by simp at hl; subst hl; exact absurd hk (hn k)⟩
    | @step n k p hk hp ih =>
      obtain ⟨q, rfl⟩ : ∃ q, p = k :: q := by cases hp <;> exact ⟨_, rfl⟩
      refine ⟨rfl, ?_, List.nodup_cons.2 ⟨?_, ih.once⟩, ?_⟩
      · intro i a b ha hb
        cases i with
        | zero => simp at ha hb; subst ha; subst hb; exact hk
        | succ i => exact ih.chain i a b ha hb
      · intro hin
        obtain ⟨m, hm⟩ := reach _ _ hp n hin
        exact hr n m (Nat.add_comm 1 m ▸ (Way.step .here hk).trans hm)
      · intro l hl k' hk'
        exact List.mem_cons_of_mem _ (ih.stuck l (by rw [← hl]; rfl) k' hk')
  · induction p generalizing n with
    | nil => intro h; exact absurd h.head (by simp)
    | cons m q ih =>
      intro h
      have : m = n := by have := h.head; simpa using this
      subst this
      cases q with
      | nil =>
        refine .leaf fun k hk => ?_
        have := h.stuck m rfl k hk
        rw [List.mem_singleton] at this; subst this
        exact hr _ 0 (.step .here hk)
      | cons k q =>
        refine .step (h.chain 0 m k rfl rfl) (ih k ⟨rfl, fun i a b ha hb => h.chain (i + 1) a b ha hb, (List.nodup_cons.1 h.once).2, ?_⟩)
        intro l hl k' hk'
        rcases List.mem_cons.1 (h.stuck l (by rw [← hl]; rfl) k' hk') with rfl | h'
        · exfalso
          have hrl : ∀ (i : Nat) (a : String), (k' :: k :: q)[i]? = some a → Way R k' i a := by
            intro i
            induction i with
            | zero => intro a ha; simp at ha; subst ha; exact .here
            | succ i ihi =>
              intro a ha
              have hi : i < (k' :: k :: q).length := by have := (List.getElem?_eq_some_iff.1 ha).1; omega
              exact .step (ihi _ (List.getElem?_eq_getElem hi)) (h.chain i _ a (List.getElem?_eq_getElem hi) ha)
          have hl' : (k' :: k :: q)[(k' :: k :: q).length - 1]? = some l := by rw [← List.getLast?_eq_getElem?, ← hl]; rfl
          exact hr k' _ (.step (hrl _ l hl') hk')
        · exact h'

/-- Mutual recursion below the handler. -/
def mutual' : String → List Call
  | "h" => [⟨"a", false, "1"⟩, ⟨"b", false, "2"⟩]
  | "a" => [⟨"b", false, "3"⟩]
  | "b" => [⟨"a", false, "4"⟩, ⟨"c", false, "5"⟩]
  | _ => []

/-- **C40** With recursion the count is wrong: the handler has three paths, all of them are listed in the sample, and the
count, which is not reported as cut, says two.  (The count of `b` below `a` is remembered and used again when `a` is not
on the way.) -/
theorem C40_recursion_miscounted : ∃ (calls : String → List Call) (w : Walk), analyze {} id calls "h" = some w ∧ w.truncated = false ∧
    countPaths {} w.adj "h" = some (2, false) ∧ Exactly (MaxSimple (Calls calls) "h") 3 := by
  have hw : analyze {} id mutual' "h" = some { depth := [("h", 0), ("a", 1), ("b", 1), ("c", 2)], adj := [("h", ["a", "b"]), ("a", ["b"]), ("b", ["a", "c"])], visited := ["c", "b", "a", "h"], queue := [], truncated := false, maxDepth := 2, fanMax := 2, fanSum := 5, fanCount := 3, sites := [⟨"a", "1", "h"⟩, ⟨"b", "2", "h"⟩, ⟨"b", "3", "a"⟩, ⟨"a", "4", "b"⟩, ⟨"c", "5", "b"⟩] } := by decide
  refine ⟨mutual', _, hw, rfl, by decide, ?_⟩
  obtain ⟨ps, h1, h2, h3⟩ := C40_sample_walk {} 40 id id mutual' "h" _ hw rfl
  refine ⟨ps, h1, h2, ?_⟩
  have e : enumeratePaths 40 id [("h", ["a", "b"]), ("a", ["b"]), ("b", ["a", "c"])] "h" = some [["h", "a", "b", "c"], ["h", "b", "a"], ["h", "b", "c"]] := by decide
  simp only at h3
  rw [e] at h3
  have hl := congrArg List.length (Option.some.inj h3)
  simp only [List.length_map, List.length_take, List.length_cons, List.length_nil] at hl
  omega

/-! ## Grade -/

/-- The table of grades: the best letter whose limits the endpoint keeps. -/
def Fits (g : Grade) (depth paths fan : Nat) : Prop :=
  match g with
  | .a => depth ≤ 4 ∧ paths ≤ 10 ∧ fan ≤ 6
  | .b => depth ≤ 7 ∧ paths ≤ 50
  | .c => depth ≤ 10 ∧ paths ≤ 200
  | .d => True

/-- **C40** The grade of an endpoint that was walked completely is the best one it fits; one that was cut is never graded
better than C, and never better than it would be otherwise; and growing depth, paths or fan-out never improves it. -/
theorem C40_grade (depth paths fan : Nat) (cut : Bool) :
    (cut = false → Fits (grade depth paths fan cut) depth paths fan ∧ ∀ g, Fits g depth paths fan → (grade depth paths fan cut).rank ≤ g.rank) ∧
    (cut = true → 2 ≤ (grade depth paths fan cut).rank ∧ Fits (grade depth paths fan cut) depth paths fan ∧ ((grade depth paths fan cut).rank = max 2 (grade depth paths fan false).rank)) ∧
    ∀ depth' paths' fan', depth ≤ depth' → paths ≤ paths' → fan ≤ fan' → (grade depth paths fan cut).rank ≤ (grade depth' paths' fan' cut).rank := by
  have key : ∀ d p f c, (grade d p f c).rank = max (if c then 2 else 0) (if d ≤ 4 ∧ p ≤ 10 ∧ f ≤ 6 then 0 else if d ≤ 7 ∧ p ≤ 50 then 1 else if d ≤ 10 ∧ p ≤ 200 then 2 else 3) := by
    intro d p f c
    unfold grade
    cases c <;> by_cases h1 : d ≤ 4 ∧ p ≤ 10 ∧ f ≤ 6 <;> by_cases h2 : d ≤ 7 ∧ p ≤ 50 <;> by_cases h3 : d ≤ 10 ∧ p ≤ 200 <;> simp [h1, h2, h3, Grade.rank]
  have fits : ∀ g : Grade, Fits g depth paths fan ↔ (if depth ≤ 4 ∧ paths ≤ 10 ∧ fan ≤ 6 then 0 else if depth ≤ 7 ∧ paths ≤ 50 then 1 else if depth ≤ 10 ∧ paths ≤ 200 then 2 else 3) ≤ g.rank := by
    intro g
    cases g <;> simp only [Fits, Grade.rank, true_iff] <;> (repeat' split) <;> omega
  refine ⟨?_, ?_, ?_⟩
  · rintro rfl
    rw [fits, key]
    refine ⟨by simp, fun g hg => ?_⟩
    rw [fits] at hg
    simpa using hg
  · rintro rfl
    rw [fits, key, key]
    simp only [if_true, Bool.false_eq_true, if_false]
    refine ⟨by omega, by omega, by omega⟩
  · intro d' p' f' h1 h2 h3
    rw [key, key]
    have : (if depth ≤ 4 ∧ paths ≤ 10 ∧ fan ≤ 6 then 0 else if depth ≤ 7 ∧ paths ≤ 50 then 1 else if depth ≤ 10 ∧ paths ≤ 200 then 2 else 3)
        ≤ (if d' ≤ 4 ∧ p' ≤ 10 ∧ f' ≤ 6 then 0 else if d' ≤ 7 ∧ p' ≤ 50 then 1 else if d' ≤ 10 ∧ p' ≤ 200 then 2 else 3) := by
      (repeat' split) <;> omega
    omega

example : grade 3 4 2 false = .a ∧ grade 3 4 2 true = .c ∧ grade 5 11 9 false = .b ∧ grade 14 1000 3 true = .d := by decide

end Verif.InsightProps
