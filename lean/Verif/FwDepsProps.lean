import Verif.FwDepsModel
/-!
# C101: the report of framework dependencies
-/

namespace Verif.FwDeps

/-! ## Specification -/

/-- `p` imports `d` directly or through other loaded packages. -/
inductive Needs (pkgs : List Pkg) : String → String → Prop
  | direct {q : Pkg} {d} (hq : q ∈ pkgs) (hd : d ∈ q.imports) : Needs pkgs q.path d
  | step {q : Pkg} {e d} (hq : q ∈ pkgs) (he : e ∈ q.imports) (h : Needs pkgs e d) : Needs pkgs q.path d

/-- `p` begins with `pre`, or contains `sub`. -/
def Begins (p pre : String) : Prop := ∃ t, p.toList = pre.toList ++ t
def Has (p sub : String) : Prop := ∃ a b, p.toList = a ++ sub.toList ++ b

/-- The path names a test package. -/
def TestName (c : Cfg) (p : String) : Prop := ∃ m ∈ c.mocks, Has (c.lower p) m

/-- The package imports the framework `t`. -/
def Uses (t : String × List String) (p : Pkg) : Prop := ∃ pat ∈ t.2, ∃ i ∈ p.imports, Begins i pat

/-- The package uses a framework and is not a test package. -/
def IsDirect (c : Cfg) (p : Pkg) : Prop := ¬ TestName c p.path ∧ ∃ t ∈ c.types, Uses t p

/-- The import is a package of the module and not a test package, nor listed as external. -/
def Ours (c : Cfg) (i : String) : Prop :=
  ¬ TestName c i ∧ (∀ e ∈ c.externals, ¬ Begins i e) ∧ (i = c.module ∨ Begins i (c.module ++ "/"))

/-- Paths of packages are distinct; no framework has the empty name. -/
structure Sane (c : Cfg) (pkgs : List Pkg) : Prop where
  distinct : (pkgs.map Pkg.path).Nodup
  named : ∀ t ∈ c.types, t.1 ≠ ""

/-! ## Proofs -/

theorem startsWith_iff {s pre : String} : startsWith s pre = true ↔ Begins s pre := by
  rw [startsWith, List.isPrefixOf_iff_prefix]
  constructor
  · rintro ⟨t, h⟩; exact ⟨t, h.symm⟩
  · rintro ⟨t, h⟩; exact ⟨t, h.symm⟩

theorem hasInfix_iff {sub : List Char} : ∀ {l : List Char}, hasInfix sub l = true ↔ ∃ a b, l = a ++ sub ++ b
  | [] => by
    rw [hasInfix, List.isPrefixOf_iff_prefix]
    constructor
    · rintro ⟨t, h⟩; exact ⟨[], t, by simpa using h.symm⟩
    · rintro ⟨a, b, h⟩
      have : sub = [] := by simp only [List.append_assoc, List.nil_eq, List.append_eq_nil_iff] at h; exact h.2.1
      rw [this]; exact List.nil_prefix
  | c :: cs => by
    rw [hasInfix, Bool.or_eq_true, List.isPrefixOf_iff_prefix, hasInfix_iff]
    constructor
    · rintro (⟨t, h⟩ | ⟨a, b, h⟩)
      · exact ⟨[], t, by simpa using h.symm⟩
      · exact ⟨c :: a, b, by simp [h]⟩
    · rintro ⟨a, b, h⟩
      cases a with
      | nil => exact .inl ⟨b, by simpa using h.symm⟩
      | cons x a =>
        simp only [List.cons_append, List.cons.injEq] at h
        exact .inr ⟨a, b, h.2⟩

theorem contains_iff {s sub : String} : contains s sub = true ↔ Has s sub := hasInfix_iff

theorem isMock_iff {c : Cfg} {p : String} : isMock c p = true ↔ TestName c p := by
  simp only [isMock, List.any_eq_true, TestName, contains_iff]

theorem isMock_false {c : Cfg} {p : String} : isMock c p = false ↔ ¬ TestName c p := by
  rw [← isMock_iff]; cases isMock c p <;> simp

theorem uses_iff {t : String × List String} {p : Pkg} :
    (t.2.any fun pat => p.imports.any fun i => startsWith i pat) = true ↔ Uses t p := by
  simp only [List.any_eq_true, Uses, startsWith_iff]

theorem detect_ne {c : Cfg} {p : Pkg} (hn : ∀ t ∈ c.types, t.1 ≠ "") : detectType c p ≠ "" ↔ ∃ t ∈ c.types, Uses t p := by
  rw [detectType]
  cases h : c.types.find? (fun t => t.2.any fun pat => p.imports.any fun i => startsWith i pat) with
  | none =>
    refine ⟨fun h => absurd rfl h, ?_⟩
    rintro ⟨t, ht, hu⟩
    exact absurd (uses_iff.2 hu) (by simpa using List.find?_eq_none.1 h t ht)
  | some t =>
    have hm := List.mem_of_find?_eq_some h
    have hs := List.find?_some h
    exact ⟨fun _ => ⟨t, hm, uses_iff.1 hs⟩, fun _ => hn t hm⟩

theorem mem_direct {c : Cfg} {pkgs : List Pkg} (hs : Sane c pkgs) {p : Pkg} : p ∈ direct c pkgs ↔ p ∈ pkgs ∧ IsDirect c p := by
  simp only [direct, List.mem_filter, Bool.and_eq_true, Bool.not_eq_true', decide_eq_true_eq, isMock_false, detect_ne hs.named, IsDirect]

/-- **C101, direct.**  A package is reported as using a framework exactly when it is no test package and
imports one. -/
theorem C101_direct (c : Cfg) (pkgs order : List Pkg) (hs : Sane c pkgs) (hr : ∀ t ∈ c.types, t.1 ≠ "dependent" ∧ t.1 ≠ "imported") (path : String) :
    (∃ k, (path, k) ∈ report c pkgs order ∧ k ≠ "dependent" ∧ k ≠ "imported") ↔ ∃ p ∈ pkgs, p.path = path ∧ IsDirect c p := by
  simp only [report, List.mem_append, List.mem_map]
  constructor
  · rintro ⟨k, (⟨p, hp, e⟩ | ⟨p, hp, e⟩) | ⟨p, hp, e⟩, h1, h2⟩
    · cases e; have := (mem_direct hs).1 hp; exact ⟨p, this.1, rfl, this.2⟩
    · cases e; exact absurd rfl h1
    · cases e; exact absurd rfl h2
  · rintro ⟨p, hp, rfl, hd⟩
    refine ⟨detectType c p, .inl (.inl ⟨p, (mem_direct hs).2 ⟨hp, hd⟩, rfl⟩), ?_⟩
    rw [detectType]
    cases h : c.types.find? (fun t => t.2.any fun pat => p.imports.any fun i => startsWith i pat) with
    | none => exact ⟨(by decide), (by decide)⟩
    | some t => exact hr t (List.mem_of_find?_eq_some h)

/-- **C101, the framework.**  The framework reported for a package is one it imports, and it imports none of
those that come before it in the order: `http` only if nothing else. -/
theorem C101_framework (c : Cfg) (p : Pkg) (h : detectType c p ≠ "") :
    ∃ a t b, c.types = a ++ t :: b ∧ detectType c p = t.1 ∧ Uses t p ∧ ∀ u ∈ a, ¬ Uses u p := by
  rw [detectType] at h ⊢
  cases hf : c.types.find? (fun t => t.2.any fun pat => p.imports.any fun i => startsWith i pat) with
  | none => rw [hf] at h; exact absurd rfl h
  | some t =>
    obtain ⟨hp, a, b, e, ha⟩ := List.find?_eq_some_iff_append.1 hf
    refine ⟨a, t, b, e, rfl, uses_iff.1 hp, fun u hu hus => ?_⟩
    have := ha u hu
    rw [uses_iff.2 hus] at this
    cases this

/-- A handler package that imports gin and net/http. -/
example : detectType ⟨builtinTypes, [], [], "app", 2, id⟩ ⟨"app/web", ["net/http", "github.com/gin-gonic/gin"]⟩ = "gin" := by decide +kernel

/-! ### The search -/

/-- The packages of `u` not yet visited. -/
def left (u v : List String) : Nat := u.countP (fun x => decide (x ∉ v))

theorem left_mono {u v w : List String} (h : ∀ x ∈ v, x ∈ w) : left u w ≤ left u v :=
  List.countP_mono_left fun x _ hx => by
    simp only [decide_eq_true_eq] at hx ⊢
    exact fun hv => hx (h x hv)

theorem left_lt {u v : List String} {p : String} (hp : p ∈ u) (hv : p ∉ v) : left u (p :: v) < left u v := by
  induction u with
  | nil => cases hp
  | cons x u ih =>
    have hle : left u (p :: v) ≤ left u v := left_mono fun y hy => List.mem_cons_of_mem _ hy
    simp only [left, List.countP_cons] at ih ⊢ hle
    rcases List.mem_cons.1 hp with e | hp
    · rw [← e, if_neg (by simp), if_pos (by simp [hv])]
      exact Nat.lt_succ_of_le hle
    · have := ih hp
      by_cases hx : x ∈ v
      · rw [if_neg (by simp [hx]), if_neg (by simp [hx])]; omega
      · by_cases hxp : x = p
        · rw [if_neg (by simp [hxp]), if_pos (by simp [hx])]; omega
        · rw [if_pos (by simp [hx, hxp]), if_pos (by simp [hx])]; omega

/-- Closed: what a package of `w` not in `v` imports is no framework package and is in `w`. -/
def Closed (fw : String → Bool) (g : String → List String) (v w : List String) : Prop :=
  (∀ x ∈ v, x ∈ w) ∧ ∀ n ∈ w, n ∈ v ∨ ∀ d ∈ g n, fw d = false ∧ d ∈ w

theorem scan_closed {fw : String → Bool} {g : String → List String} {u : List String} {k : Nat} {rec : List String → String → Bool × List String}
    (hrec : ∀ v p w, p ∈ u → left u v < k → rec v p = (false, w) → Closed fw g v w ∧ p ∈ w) :
    ∀ (ds v w : List String), (∀ d ∈ ds, d ∈ u) → left u v < k → scan fw rec v ds = (false, w) → Closed fw g v w ∧ ∀ d ∈ ds, fw d = false ∧ d ∈ w
  | [], v, w, _, _, h => by
    rw [scan] at h
    cases h
    exact ⟨⟨fun _ h => h, fun _ h => .inl h⟩, fun _ h => by cases h⟩
  | d :: ds, v, w, hu, hk, h => by
    rw [scan] at h
    split at h
    · cases h
    next hfd =>
      match hr : rec v d, h with
      | (true, v'), h => cases h
      | (false, v'), h =>
        obtain ⟨⟨h1, h2⟩, h3⟩ := hrec v d v' (hu d (List.mem_cons_self ..)) hk hr
        obtain ⟨⟨h4, h5⟩, h6⟩ := scan_closed hrec ds v' w (fun e he => hu e (List.mem_cons_of_mem _ he)) (Nat.lt_of_le_of_lt (left_mono h1) hk) h
        refine ⟨⟨fun x hx => h4 x (h1 x hx), fun n hn => ?_⟩, fun e he => ?_⟩
        · rcases h5 n hn with h | h
          · rcases h2 n h with h | h
            · exact .inl h
            · exact .inr fun e he => ⟨(h e he).1, h4 e (h e he).2⟩
          · exact .inr h
        · rcases List.mem_cons.1 he with rfl | he
          · exact ⟨by simpa using hfd, h4 e h3⟩
          · exact h6 e he

theorem search_closed {fw : String → Bool} {g : String → List String} {u : List String} (hu : ∀ p ∈ u, ∀ d ∈ g p, d ∈ u) :
    ∀ (k : Nat) (v : List String) (p : String) (w : List String), p ∈ u → left u v < k → search fw g k v p = (false, w) → Closed fw g v w ∧ p ∈ w
  | 0, v, p, w, _, hk, _ => absurd hk (Nat.not_lt_zero _)
  | k + 1, v, p, w, hp, hk, h => by
    rw [search] at h
    split at h
    · next hv => cases h; exact ⟨⟨fun _ h => h, fun _ h => .inl h⟩, hv⟩
    · next hv =>
      have hlt := left_lt hp hv
      obtain ⟨⟨h1, h2⟩, h3⟩ := scan_closed (u := u) (k := k) (fun v p w a b c => search_closed hu k v p w a b c) (g p) (p :: v) w (hu p hp) (by omega) h
      refine ⟨⟨fun x hx => h1 x (List.mem_cons_of_mem _ hx), fun n hn => ?_⟩, h1 p (List.mem_cons_self ..)⟩
      rcases h2 n hn with h | h
      · rcases List.mem_cons.1 h with rfl | h
        · exact .inr h3
        · exact .inl h
      · exact .inr h

/-- A path in the graph. -/
inductive Path (g : String → List String) : String → String → Prop
  | one {p d} (h : d ∈ g p) : Path g p d
  | more {p e d} (h : e ∈ g p) (t : Path g e d) : Path g p d

theorem closed_path {fw : String → Bool} {g : String → List String} {w : List String} (h : Closed fw g [] w) {p d : String} (hp : p ∈ w) (t : Path g p d) : fw d = false := by
  have key : ∀ n ∈ w, ∀ d ∈ g n, fw d = false ∧ d ∈ w := fun n hn => by
    rcases h.2 n hn with h | h
    · cases h
    · exact h
  induction t with
  | one h => exact (key _ hp _ h).1
  | more h _ ih => exact ih (key _ hp _ h).2

theorem search_sound {fw : String → Bool} {g : String → List String} : ∀ (k : Nat) (v : List String) (p : String), (search fw g k v p).1 = true → ∃ d, Path g p d ∧ fw d = true
  | 0, v, p, h => by cases h
  | k + 1, v, p, h => by
    rw [search] at h
    split at h
    · cases h
    have key : ∀ (ds v : List String), (∀ d ∈ ds, d ∈ g p) → (scan fw (search fw g k) v ds).1 = true → ∃ d, Path g p d ∧ fw d = true := by
      intro ds
      induction ds with
      | nil => intro v _ h; cases h
      | cons d ds ih =>
        intro v hds h
        rw [scan] at h
        split at h
        · next hf => exact ⟨d, .one (hds d (List.mem_cons_self ..)), hf⟩
        · match hr : search fw g k v d, h with
          | (true, v'), h =>
            obtain ⟨e, he, hf⟩ := search_sound k v d (by rw [hr])
            exact ⟨e, .more (hds d (List.mem_cons_self ..)) he, hf⟩
          | (false, v'), h =>
            exact ih v' (fun e he => hds e (List.mem_cons_of_mem _ he)) h
    exact key (g p) (p :: v) (fun _ h => h) h

theorem graph_mem {pkgs : List Pkg} {p d : String} (h : d ∈ graph pkgs p) : ∃ q ∈ pkgs, q.path = p ∧ d ∈ q.imports := by
  rw [graph] at h
  cases hf : pkgs.find? (fun q => decide (q.path = p)) with
  | none => rw [hf] at h; cases h
  | some q => rw [hf] at h; exact ⟨q, List.mem_of_find?_eq_some hf, by simpa using List.find?_some hf, h⟩

theorem find_path {pkgs : List Pkg} (hd : (pkgs.map Pkg.path).Nodup) {q : Pkg} (hq : q ∈ pkgs) : pkgs.find? (fun r => decide (r.path = q.path)) = some q := by
  induction pkgs with
  | nil => cases hq
  | cons r pkgs ih =>
    simp only [List.map_cons, List.nodup_cons] at hd
    rcases List.mem_cons.1 hq with rfl | hq
    · simp
    · rw [List.find?_cons_of_neg]
      · exact ih hd.2 hq
      · simp only [decide_eq_true_eq]
        exact fun e => hd.1 (e ▸ List.mem_map_of_mem hq)

theorem graph_of {pkgs : List Pkg} (hd : (pkgs.map Pkg.path).Nodup) {q : Pkg} (hq : q ∈ pkgs) : graph pkgs q.path = q.imports := by
  rw [graph, find_path hd hq]

theorem path_needs {pkgs : List Pkg} (hd : (pkgs.map Pkg.path).Nodup) {p d : String} : Path (graph pkgs) p d ↔ Needs pkgs p d := by
  constructor
  · intro h
    induction h with
    | one h => obtain ⟨q, hq, rfl, hi⟩ := graph_mem h; exact .direct hq hi
    | more h _ ih => obtain ⟨q, hq, rfl, hi⟩ := graph_mem h; exact .step hq hi ih
  · intro h
    induction h with
    | direct hq hi => exact .one (by rw [graph_of hd hq]; exact hi)
    | step hq hi _ ih => exact .more (by rw [graph_of hd hq]; exact hi) ih

theorem dependsOn_iff {pkgs : List Pkg} (hd : (pkgs.map Pkg.path).Nodup) {fw : String → Bool} {p : String} :
    dependsOn pkgs fw p = true ↔ ∃ d, Needs pkgs p d ∧ fw d = true := by
  rw [dependsOn, Bool.or_eq_true]
  constructor
  · rintro (h | h)
    · obtain ⟨d, hd', hf⟩ := List.any_eq_true.1 h
      exact ⟨d, (path_needs hd).1 (.one hd'), hf⟩
    · obtain ⟨d, hp, hf⟩ := search_sound _ _ _ h
      exact ⟨d, (path_needs hd).1 hp, hf⟩
  · rintro ⟨d, hn, hf⟩
    refine .inr ?_
    generalize hu : p :: pkgs.flatMap (fun q => q.path :: q.imports) = u
    have hclosed : ∀ x ∈ u, ∀ e ∈ graph pkgs x, e ∈ u := by
      intro x _ e he
      obtain ⟨q, hq, _, hi⟩ := graph_mem he
      rw [← hu]
      exact List.mem_cons_of_mem _ (List.mem_flatMap.2 ⟨q, hq, List.mem_cons_of_mem _ hi⟩)
    have hleft : left u [] < 1 + u.length := by
      have := List.countP_le_length (p := fun x => decide (x ∉ ([] : List String))) (l := u)
      rw [left]; omega
    cases hr : search fw (graph pkgs) (1 + u.length) [] p with
    | mk b w =>
      cases b with
      | true => rfl
      | false =>
        obtain ⟨hc, hpw⟩ := search_closed hclosed _ _ _ _ (by rw [← hu]; exact List.mem_cons_self ..) hleft hr
        rw [closed_path hc hpw ((path_needs hd).2 hn)] at hf
        cases hf

theorem mem_dependents {c : Cfg} {pkgs : List Pkg} (hs : Sane c pkgs) {p : Pkg} :
    p ∈ dependents c pkgs ↔ p ∈ pkgs ∧ ¬ IsDirect c p ∧ ¬ TestName c p.path ∧ ∃ q ∈ pkgs, IsDirect c q ∧ Needs pkgs p.path q.path := by
  simp only [dependents, List.mem_filter, Bool.and_eq_true, Bool.not_eq_true', decide_eq_true_eq, isMock_false, dependsOn_iff hs.distinct, List.mem_map]
  constructor
  · rintro ⟨hp, ⟨h1, h2⟩, d, hn, q, hq, rfl⟩
    refine ⟨hp, fun h => h1 ⟨p, (mem_direct hs).2 ⟨hp, h⟩, rfl⟩, h2, q, ((mem_direct hs).1 hq).1, ((mem_direct hs).1 hq).2, hn⟩
  · rintro ⟨hp, h1, h2, q, hq, hqd, hn⟩
    refine ⟨hp, ⟨?_, h2⟩, q.path, hn, q, (mem_direct hs).2 ⟨hq, hqd⟩, rfl⟩
    rintro ⟨r, hr, e⟩
    have hr' := (mem_direct hs).1 hr
    have h3 := find_path hs.distinct hr'.1
    have h4 := find_path hs.distinct hp
    rw [e, h4] at h3
    cases h3
    exact h1 hr'.2

/-- **C101, dependents.**  A package is reported as dependent exactly when it is no test package, uses no
framework itself, and imports, directly or through any number of other packages, one that does. -/
theorem C101_dependents (c : Cfg) (pkgs order : List Pkg) (hs : Sane c pkgs) (hr : ∀ t ∈ c.types, t.1 ≠ "dependent") (path : String) :
    (path, "dependent") ∈ report c pkgs order ↔
      ∃ p ∈ pkgs, p.path = path ∧ ¬ IsDirect c p ∧ ¬ TestName c path ∧ ∃ q ∈ pkgs, IsDirect c q ∧ Needs pkgs path q.path := by
  simp only [report, List.mem_append, List.mem_map]
  constructor
  · rintro ((⟨p, hp, e⟩ | ⟨p, hp, e⟩) | ⟨p, hp, e⟩)
    · exfalso
      simp only [Prod.mk.injEq] at e
      obtain ⟨_, e⟩ := e
      rw [detectType] at e
      cases h : c.types.find? (fun t => t.2.any fun pat => p.imports.any fun i => startsWith i pat) with
      | none => rw [h] at e; exact absurd e (by decide)
      | some t => rw [h] at e; exact hr t (List.mem_of_find?_eq_some h) e
    · simp only [Prod.mk.injEq, and_true] at e
      subst e
      have := (mem_dependents hs).1 hp
      exact ⟨p, this.1, rfl, this.2⟩
    · simp only [Prod.mk.injEq] at e; exact absurd e.2 (by decide)
  · rintro ⟨p, hp, rfl, h⟩
    exact .inl (.inr ⟨p, (mem_dependents hs).2 ⟨hp, h⟩, rfl⟩)

/-! ### The imports -/

theorem isProject_iff {c : Cfg} {i : String} : isProject c i = true ↔ Ours c i := by
  simp only [isProject, Bool.and_eq_true, Bool.not_eq_true', isMock_false, Bool.or_eq_true, decide_eq_true_eq, startsWith_iff, Ours, and_assoc]
  have : (c.externals.any fun e => startsWith i e) = false ↔ ∀ e ∈ c.externals, ¬ Begins i e := by
    simp only [List.any_eq_false, startsWith_iff]
  rw [this]

/-- What one import does to the list: nothing is lost, no path is added twice, and only packages of the module. -/
structure Grows (c : Cfg) (processed : List String) (a b : List String) : Prop where
  keeps : ∀ x ∈ a, x ∈ b
  new : ∀ x ∈ b, x ∈ a ∨ (Ours c x ∧ x ∉ processed)
  nodup : a.Nodup → b.Nodup

theorem Grows.refl (c : Cfg) (pr a : List String) : Grows c pr a a := ⟨fun _ h => h, fun _ h => .inl h, id⟩
theorem Grows.trans {c : Cfg} {pr a b d : List String} (h1 : Grows c pr a b) (h2 : Grows c pr b d) : Grows c pr a d :=
  ⟨fun x h => h2.keeps x (h1.keeps x h), fun x h => (h2.new x h).elim (h1.new x) .inr, fun h => h2.nodup (h1.nodup h)⟩

theorem visit_grows {c : Cfg} {pr : List String} {pkgs : List Pkg} {rec : List String → Pkg → List String} (hrec : ∀ a p, Grows c pr a (rec a p))
    (out : List String) (i : String) : Grows c pr out (visit c pr rec pkgs out i) := by
  rw [visit]
  split
  · exact .refl ..
  next hni =>
  split
  · exact .refl ..
  split
  next hp =>
    have hadd : Grows c pr out (out ++ [i]) := by
      refine ⟨fun x h => List.mem_append_left _ h, fun x h => ?_, fun h => ?_⟩
      · rcases List.mem_append.1 h with h | h
        · exact .inl h
        · rw [List.mem_singleton.1 h]; exact .inr ⟨isProject_iff.1 hp, fun h => hni (.inl h)⟩
      · rw [List.nodup_append]
        refine ⟨h, by simp, fun x hx y hy e => hni (.inr ?_)⟩
        rw [List.mem_singleton.1 hy] at e
        rw [← e]; exact hx
    split
    · exact hadd.trans (hrec _ _)
    · exact hadd
  · exact .refl ..

theorem fold_grows {c : Cfg} {pr : List String} {α : Type} {f : List String → α → List String} (hf : ∀ a x, Grows c pr a (f a x)) :
    ∀ (l : List α) (a : List String), Grows c pr a (l.foldl f a)
  | [], a => .refl ..
  | x :: l, a => (hf a x).trans (fold_grows hf l (f a x))

theorem imports_grows {c : Cfg} {pr : List String} {pkgs : List Pkg} : ∀ (k : Nat) (a : List String) (p : Pkg), Grows c pr a (imports c pr pkgs k a p)
  | 0, a, _ => .refl ..
  | k + 1, a, p => fold_grows (visit_grows (imports_grows k)) p.imports a

theorem visit_mem {c : Cfg} {pr : List String} {pkgs : List Pkg} {rec : List String → Pkg → List String} (hrec : ∀ a p, Grows c pr a (rec a p))
    {out : List String} {i : String} (hi : Ours c i) (hstd : isStd i = false) : i ∈ pr ∨ i ∈ visit c pr rec pkgs out i := by
  rw [visit]
  split
  next h => exact h.elim .inl .inr
  next =>
    rw [if_neg (by simp [hstd]), if_pos (isProject_iff.2 hi)]
    split
    · exact .inr ((hrec _ _).keeps i (List.mem_append_right _ (List.mem_singleton.2 rfl)))
    · exact .inr (List.mem_append_right _ (List.mem_singleton.2 rfl))

theorem fold_mem {c : Cfg} {pr : List String} {pkgs : List Pkg} {rec : List String → Pkg → List String} (hrec : ∀ a p, Grows c pr a (rec a p))
    {i : String} (hi : Ours c i) (hstd : isStd i = false) : ∀ (l : List String) (a : List String), i ∈ l → i ∈ pr ∨ i ∈ l.foldl (visit c pr rec pkgs) a
  | x :: l, a, h => by
    rcases List.mem_cons.1 h with rfl | h
    · rcases visit_mem (pkgs := pkgs) hrec hi hstd (out := a) with h | h
      · exact .inl h
      · exact .inr ((fold_grows (visit_grows hrec) l _).keeps i h)
    · exact fold_mem hrec hi hstd l _ h

/-- **C101, the imports of direct packages.**  Every package of the module that a package using a framework
imports is in the report, whatever the order of the run. -/
theorem C101_imports (c : Cfg) (pkgs order : List Pkg) (hs : Sane c pkgs) (hd : c.depth ≠ 0) (ho : order.Perm (direct c pkgs))
    (p : Pkg) (hp : p ∈ pkgs) (hpd : IsDirect c p) (i : String) (hi : i ∈ p.imports) (hours : Ours c i) (hstd : Has i "/" ∨ Has i ".") :
    i ∈ (report c pkgs order).map Prod.fst := by
  have hstd : isStd i = false := by
    rw [isStd]
    rcases hstd with h | h <;> rw [contains_iff.2 h] <;> simp
  have hmem : p ∈ order := ho.mem_iff.2 ((mem_direct hs).2 ⟨hp, hpd⟩)
  obtain ⟨k, hk⟩ : ∃ k, c.depth = k + 1 := ⟨c.depth - 1, by omega⟩
  have key : ∀ (l : List Pkg) (a : List String), p ∈ l → i ∈ processed c pkgs ∨ i ∈ l.foldl (imports c (processed c pkgs) pkgs c.depth) a := by
    intro l
    induction l with
    | nil => intro a h; cases h
    | cons q l ih =>
      intro a h
      rcases List.mem_cons.1 h with rfl | h
      · have : i ∈ processed c pkgs ∨ i ∈ imports c (processed c pkgs) pkgs c.depth a p := by
          rw [hk, imports]
          exact fold_mem (imports_grows k) hours hstd p.imports a hi
        rcases this with h | h
        · exact .inl h
        · exact .inr ((fold_grows (imports_grows _) l _).keeps i h)
      · exact ih _ h
  simp only [report, List.map_append, List.map_map, List.mem_append, List.mem_map, Function.comp]
  rcases key order [] hmem with h | h
  · rw [processed, List.mem_append, List.mem_map, List.mem_map] at h
    exact .inl h
  · exact .inr ⟨i, h, rfl⟩

/-- **C101, only packages of the module.**  What is reported as imported is a package of the module, no test
package, and neither direct nor dependent. -/
theorem C101_imported_ours (c : Cfg) (pkgs order : List Pkg) (hr : ∀ t ∈ c.types, t.1 ≠ "imported") (i : String) (h : (i, "imported") ∈ report c pkgs order) :
    Ours c i ∧ i ∉ (direct c pkgs).map Pkg.path ∧ i ∉ (dependents c pkgs).map Pkg.path := by
  have hmem : i ∈ imported c pkgs order := by
    simp only [report, List.mem_append, List.mem_map] at h
    rcases h with (⟨p, hp, e⟩ | ⟨p, hp, e⟩) | ⟨p, hp, e⟩
    · simp only [Prod.mk.injEq] at e
      obtain ⟨_, e⟩ := e
      rw [detectType] at e
      cases h : c.types.find? (fun t => t.2.any fun pat => p.imports.any fun i => startsWith i pat) with
      | none => rw [h] at e; exact absurd e (by decide)
      | some t => rw [h] at e; exact absurd e (hr t (List.mem_of_find?_eq_some h))
    · simp only [Prod.mk.injEq] at e; exact absurd e.2 (by decide)
    · simp only [Prod.mk.injEq, and_true] at e; rw [← e]; exact hp
  have hg := fold_grows (imports_grows (c := c) (pr := processed c pkgs) (pkgs := pkgs) c.depth) order []
  rcases hg.new i hmem with h | ⟨h1, h2⟩
  · cases h
  · rw [processed, List.mem_append] at h2
    exact ⟨h1, fun h => h2 (.inl h), fun h => h2 (.inr h)⟩

/-- **C101, once.**  No package is reported twice. -/
theorem C101_once (c : Cfg) (pkgs order : List Pkg) (hs : Sane c pkgs) : ((report c pkgs order).map Prod.fst).Nodup := by
  have hg := fold_grows (imports_grows (c := c) (pr := processed c pkgs) (pkgs := pkgs) c.depth) order []
  have e : (report c pkgs order).map Prod.fst = (direct c pkgs).map Pkg.path ++ (dependents c pkgs).map Pkg.path ++ imported c pkgs order := by
    simp [report, Function.comp_def]
  rw [e, List.nodup_append]
  have hsub : ∀ f : Pkg → Bool, ((pkgs.filter f).map Pkg.path).Nodup := fun f => hs.distinct.sublist (List.filter_sublist.map _)
  refine ⟨?_, hg.nodup List.nodup_nil, ?_⟩
  · rw [List.nodup_append]
    refine ⟨hsub _, hsub _, fun x hx y hy e => ?_⟩
    obtain ⟨p, hp, rfl⟩ := List.mem_map.1 hy
    have := (List.mem_filter.1 hp).2
    simp only [Bool.and_eq_true, decide_eq_true_eq] at this
    exact this.1.1 (e ▸ hx)
  · intro x hx y hy e
    rcases hg.new y hy with h | h
    · cases h
    · exact h.2 (e ▸ hx)

/-- **C101, what is analyzed.**  Every package of the module is analyzed, whatever the report says; of the
others, those in the report. -/
theorem C101_analysed (c : Cfg) (pkgs order : List Pkg) (p : String) :
    keep c pkgs order p = true ↔ p ∈ (report c pkgs order).map Prod.fst ∨ c.module ≠ "" ∧ (p = c.module ∨ Begins p (c.module ++ "/")) := by
  simp only [keep, Bool.or_eq_true, Bool.and_eq_true, decide_eq_true_eq, startsWith_iff]

/-! ## The order of the run -/

/-- The configuration of the engine for the module `app`. -/
def appCfg : Cfg := ⟨builtinTypes, builtinMocks, [], "app", 2, id⟩

/-- Two handler packages; `b` imports `app/m2`, `a` imports it through `app/m1`; `app/m2` imports `app/m3`. -/
def pkgA : Pkg := ⟨"app/a", ["github.com/gin-gonic/gin", "app/m1"]⟩
def pkgB : Pkg := ⟨"app/b", ["github.com/gin-gonic/gin", "app/m2"]⟩
def appPkgs : List Pkg := [pkgA, pkgB, ⟨"app/m1", ["app/m2"]⟩, ⟨"app/m2", ["app/m3"]⟩, ⟨"app/m3", []⟩]

theorem app_sane : Sane appCfg appPkgs := ⟨by decide, by decide⟩
example : direct appCfg appPkgs = [pkgA, pkgB] := by decide +kernel
example : "app/m1" ∈ (report appCfg appPkgs [pkgA, pkgB]).map Prod.fst := by decide +kernel

/-- **C101 fails for the order of the run**: the packages that use a framework are in a Go map, and the search
through their imports stops at two levels but never returns to a package already seen.  Of two runs on the same
program, one reports `app/m3` and one does not. -/
theorem C101_order_matters : ∃ o1 o2 : List Pkg, o1.Perm (direct appCfg appPkgs) ∧ o2.Perm (direct appCfg appPkgs) ∧
    "app/m3" ∈ (report appCfg appPkgs o1).map Prod.fst ∧ "app/m3" ∉ (report appCfg appPkgs o2).map Prod.fst := by
  have hd : direct appCfg appPkgs = [pkgA, pkgB] := by decide +kernel
  refine ⟨[pkgB, pkgA], [pkgA, pkgB], ?_, ?_, ?_, ?_⟩
  · rw [hd]; exact List.Perm.swap ..
  · rw [hd]
  · decide +kernel
  · decide +kernel

/-- **C101 fails beyond two imports.** -/
theorem C101_too_deep : Needs [⟨"app/a", ["github.com/gin-gonic/gin", "app/m1"]⟩, ⟨"app/m1", ["app/m2"]⟩, ⟨"app/m2", ["app/m3"]⟩, ⟨"app/m3", []⟩] "app/a" "app/m3" ∧
    "app/m3" ∉ (report appCfg [⟨"app/a", ["github.com/gin-gonic/gin", "app/m1"]⟩, ⟨"app/m1", ["app/m2"]⟩, ⟨"app/m2", ["app/m3"]⟩, ⟨"app/m3", []⟩]
      [⟨"app/a", ["github.com/gin-gonic/gin", "app/m1"]⟩]).map Prod.fst := by
  refine ⟨?_, by decide +kernel⟩
  exact .step (q := ⟨"app/a", ["github.com/gin-gonic/gin", "app/m1"]⟩) (e := "app/m1") (by decide) (by decide)
    (.step (q := ⟨"app/m1", ["app/m2"]⟩) (e := "app/m2") (by decide) (by decide) (.direct (q := ⟨"app/m2", ["app/m3"]⟩) (by decide) (by decide)))

/-- **C101 fails for names**: a package whose path contains `stub`, `mock` or `fake` anywhere
(`github.com/acme/stubhub/api`) counts as a test package, and nothing of such a module is reported. -/
theorem C101_names (pkgs : List Pkg) (ext : List String) (m : String) (k : Nat) (p : Pkg) (h : Has p.path "stub") :
    p ∉ direct ⟨builtinTypes, builtinMocks, ext, m, k, id⟩ pkgs := by
  intro hm
  have h2 := (List.mem_filter.1 hm).2
  simp only [Bool.and_eq_true, Bool.not_eq_true', isMock_false] at h2
  exact h2.1 ⟨"stub", show "stub" ∈ builtinMocks by decide, h⟩

example : Has "github.com/acme/stubhub/api" "stub" := ⟨"github.com/acme/".toList, "hub/api".toList, by decide⟩

/-- A program where a package depends on a framework through two others. -/
def deepPkgs : List Pkg := [⟨"app/main", ["app/x"]⟩, ⟨"app/x", ["app/y", "app/main"]⟩, ⟨"app/y", ["github.com/go-chi/chi/v5"]⟩]
example : ("app/main", "dependent") ∈ report appCfg deepPkgs (direct appCfg deepPkgs) := by
  have hdir : IsDirect appCfg ⟨"app/y", ["github.com/go-chi/chi/v5"]⟩ := by
    refine ⟨isMock_false.1 (by decide +kernel), ("chi", ["github.com/go-chi/chi", "github.com/go-chi/chi/v5"]), by decide, ?_⟩
    exact uses_iff.1 (by decide +kernel)
  refine (C101_dependents appCfg deepPkgs _ ⟨by decide, by decide⟩ (by decide) "app/main").2
    ⟨⟨"app/main", ["app/x"]⟩, by decide, rfl, ?_, isMock_false.1 (by decide +kernel), ⟨"app/y", ["github.com/go-chi/chi/v5"]⟩, by decide, hdir, ?_⟩
  · intro h
    have := (mem_direct (c := appCfg) (pkgs := deepPkgs) ⟨by decide, by decide⟩ (p := ⟨"app/main", ["app/x"]⟩)).2 ⟨by decide, h⟩
    revert this
    decide +kernel
  · exact .step (q := ⟨"app/main", ["app/x"]⟩) (e := "app/x") (by decide) (by decide) (.direct (q := ⟨"app/x", ["app/y", "app/main"]⟩) (by decide) (by decide))

end Verif.FwDeps
