import Verif.HeaderSideModel

/-!
# C82: headers of the response are not documented as parameters, those of the request are
-/

namespace Verif.HeaderSide

open Verif.RegexModel

/-! ## Specification -/

/-- What fields, methods and functions do, on values of any kind. -/
structure Lang (V : Type) where
  field : V → String → V
  method : V → String → V
  func : String → V
  conv : V → V
  other : Nat → V

def eval {V : Type} (L : Lang V) (env : String → V) : Exp → V
  | .var x _ _ => env x
  | .field e f _ => L.field (eval L env e) f
  | .method e m _ _ => L.method (eval L env e) m
  | .func f _ _ _ _ => L.func f
  | .conv e => L.conv (eval L env e)
  | .other n _ => L.other n

/-- The assignments of a body one after the other. -/
def run {V : Type} (L : Lang V) : (String → V) → List (String × Exp) → (String → V)
  | env, [] => env
  | env, (x, e) :: ss => run L (fun y => if y = x then eval L env e else env y) ss

/-- The assignments to `x` in a body, in source order. -/
def assigned (body : List (String × Exp)) (x : String) : List Exp :=
  (body.filter fun s => s.1 = x).map Prod.snd

/-- The types recorded in an expression are those of the values (`has t v`).  A package is no type. -/
def Faithful {V : Type} (L : Lang V) (has : Str → V → Prop) (re : Str → Bool) (env : String → V) : Exp → Prop
  | .var x o ty => ty ≠ [] → has ty (eval L env (.var x o ty))
  | .field e f ty => Faithful L has re env e ∧ (ty ≠ [] → has ty (eval L env (.field e f ty)))
  | .method e m forms ty => Faithful L has re env e ∧ (∀ f ∈ forms, has f (eval L env e)) ∧
      (ty ≠ [] → has ty (eval L env (.method e m forms ty)))
  | .func f root forms sig ty => (∀ t ∈ forms, re t = false) ∧ re sig = false ∧ (ty ≠ [] → has ty (eval L env (.func f root forms sig ty)))
  | .conv e => Faithful L has re env e
  | .other n ty => ty ≠ [] → has ty (eval L env (.other n ty))

def FaithfulRun {V : Type} (L : Lang V) (has : Str → V → Prop) (re : Str → Bool) : (String → V) → List (String × Exp) → Prop
  | _, [] => True
  | env, (x, e) :: ss => Faithful L has re env e ∧ FaithfulRun L has re (fun y => if y = x then eval L env e else env y) ss

/-- No conversion is called on, and names before the dot of a function are no variables. -/
def Plain (vars : List String) : Exp → Prop
  | .var _ _ _ => True
  | .field e _ _ => Plain vars e
  | .method e _ _ _ => Plain vars e
  | .func _ root _ _ _ => root ∉ vars
  | .conv _ => False
  | .other _ _ => True

/-- `e` is `e₀.m().….m'()`, and the receiver of the method `n` calls further in is recorded as `t`. -/
inductive CalledOn (t : Str) : Nat → Exp → Prop
  | here {e : Exp} {m : String} {forms : List Str} {ty : Str} : t ∈ forms → CalledOn t 0 (.method e m forms ty)
  | call {n : Nat} {e : Exp} {m : String} {forms : List Str} {ty : Str} : CalledOn t n e → CalledOn t (n + 1) (.method e m forms ty)

/-- The type `t` is recorded `n` steps inside `e`. -/
inductive Through (t : Str) : Nat → Exp → Prop
  | here {e : Exp} : e.type = t → t ≠ [] → Through t 0 e
  | call {n : Nat} {e : Exp} {m : String} {forms : List Str} {ty : Str} : Through t n e → Through t (n + 1) (.method e m forms ty)
  | field {n : Nat} {e : Exp} {f : String} {ty : Str} : Through t n e → Through t (n + 1) (.field e f ty)

/-- The type of a response writer, as receivers (`pkg.*T`) and as types (`*pkg.T`) are written. -/
def WriterType (t : Str) : Prop :=
  ∃ star star' : Str, (star = [] ∨ star = ['*']) ∧ (star' = [] ∨ star' = ['*']) ∧
    (t = star ++ "net/http.".toList ++ star' ++ "ResponseWriter".toList ∨
      t = star ++ "github.com/gin-gonic/gin.".toList ++ star' ++ "ResponseWriter".toList ∨
      ∃ v : Str, (v = [] ∨ ∃ n : Str, n ≠ [] ∧ (∀ c ∈ n, '0' ≤ c ∧ c ≤ '9') ∧ v = "/v".toList ++ n) ∧
        t = star ++ "github.com/labstack/echo".toList ++ v ++ ['.'] ++ star' ++ "Response".toList)

/-! ## Lemmas -/

theorem lang_text {s t : Str} : RegexModel.Lang (text s) t ↔ t = s := by
  induction s generalizing t with
  | nil => exact lang_eps
  | cons c s ih =>
    unfold text
    rw [lang_cat]
    constructor
    · rintro ⟨x, y, rfl, h1, h2⟩
      obtain ⟨d, hd, rfl⟩ := lang_cls.1 h1
      rw [ih.1 h2]
      simp at hd
      simp [hd]
    · rintro rfl
      exact ⟨[c], s, rfl, lang_cls.2 ⟨c, by simp, rfl⟩, ih.2 rfl⟩

theorem lang_opt {r : Re} {t : Str} : RegexModel.Lang (opt r) t ↔ RegexModel.Lang r t ∨ t = [] := by
  unfold opt
  rw [lang_alt, lang_eps]

theorem lang_digits {t : Str} : RegexModel.Lang (.cat digit (.star digit)) t ↔ t ≠ [] ∧ ∀ c ∈ t, '0' ≤ c ∧ c ≤ '9' := by
  unfold digit
  rw [lang_cat]
  constructor
  · rintro ⟨x, y, rfl, h1, h2⟩
    obtain ⟨d, hd, rfl⟩ := lang_cls.1 h1
    rw [lang_star_cls] at h2
    refine ⟨by simp, ?_⟩
    intro c hc
    rcases List.mem_append.1 hc with hc | hc
    · simp at hc; subst hc; simpa using hd
    · simpa using h2 c hc
  · rintro ⟨h1, h2⟩
    cases t with
    | nil => exact absurd rfl h1
    | cons c t =>
      refine ⟨[c], t, rfl, lang_cls.2 ⟨c, by simpa using h2 c (List.mem_cons_self ..), rfl⟩, lang_star_cls.2 ?_⟩
      intro d hd
      simpa using h2 d (List.mem_cons_of_mem _ hd)

theorem star_opt {t : Str} : RegexModel.Lang (opt (text ['*'])) t ↔ t = [] ∨ t = ['*'] := by
  rw [lang_opt, lang_text]
  exact or_comm

/-- **C82** (the types).  The expression of the configuration accepts the types of the writers of net/http, gin and
echo, in any major version, and no others. -/
theorem C82_writer_types (t : Str) : isWriter t = true ↔ WriterType t := by
  unfold isWriter
  rw [accepts_iff]
  unfold writerRe
  rw [lang_cat]
  constructor
  · rintro ⟨star, u, rfl, h1, h2⟩
    rw [star_opt] at h1
    rw [lang_alt, lang_alt] at h2
    rcases h2 with h2 | h2 | h2
    · obtain ⟨x, y, rfl, h3, h4⟩ := lang_cat.1 h2
      obtain ⟨z, w, rfl, h5, h6⟩ := lang_cat.1 h4
      rw [lang_text] at h3 h6
      rw [star_opt] at h5
      subst h3 h6
      exact ⟨star, z, h1, h5, Or.inl (by show _ = star ++ httpDot ++ z ++ writerName; simp only [List.append_assoc])⟩
    · obtain ⟨x, y, rfl, h3, h4⟩ := lang_cat.1 h2
      obtain ⟨v, w, rfl, h5, h6⟩ := lang_cat.1 h4
      obtain ⟨d, y, rfl, h7, h8⟩ := lang_cat.1 h6
      obtain ⟨z, w, rfl, h9, h10⟩ := lang_cat.1 h8
      rw [lang_text] at h3 h7 h10
      rw [star_opt] at h9
      subst h3 h7 h10
      refine ⟨star, z, h1, h9, Or.inr (Or.inr ⟨v, ?_, by show _ = star ++ echoPath ++ v ++ ['.'] ++ z ++ responseName; simp only [List.append_assoc]⟩)⟩
      rcases lang_opt.1 h5 with h5 | h5
      · obtain ⟨a, n, rfl, h11, h12⟩ := lang_cat.1 h5
        rw [lang_text] at h11
        rw [lang_digits] at h12
        subst h11
        exact Or.inr ⟨n, h12.1, h12.2, rfl⟩
      · exact Or.inl h5
    · obtain ⟨x, y, rfl, h3, h4⟩ := lang_cat.1 h2
      obtain ⟨z, w, rfl, h5, h6⟩ := lang_cat.1 h4
      rw [lang_text] at h3 h6
      rw [star_opt] at h5
      subst h3 h6
      exact ⟨star, z, h1, h5, Or.inr (Or.inl (by show _ = star ++ ginDot ++ z ++ writerName; simp only [List.append_assoc]))⟩
  · rintro ⟨star, star', h1, h2, h | h | ⟨v, hv, h⟩⟩
    · refine ⟨star, httpDot ++ (star' ++ writerName), by rw [h]; show star ++ httpDot ++ star' ++ writerName = _; simp only [List.append_assoc], star_opt.2 h1, ?_⟩
      exact .altL (.cat (lang_text.2 rfl) (.cat (star_opt.2 h2) (lang_text.2 rfl)))
    · refine ⟨star, ginDot ++ (star' ++ writerName), by rw [h]; show star ++ ginDot ++ star' ++ writerName = _; simp only [List.append_assoc], star_opt.2 h1, ?_⟩
      exact .altR (.altR (.cat (lang_text.2 rfl) (.cat (star_opt.2 h2) (lang_text.2 rfl))))
    · refine ⟨star, echoPath ++ (v ++ (['.'] ++ (star' ++ responseName))), by rw [h]; show star ++ echoPath ++ v ++ ['.'] ++ star' ++ responseName = _; simp only [List.append_assoc],
        star_opt.2 h1, ?_⟩
      refine .altR (.altL (.cat (lang_text.2 rfl) (.cat ?_ (.cat (lang_text.2 rfl) (.cat (star_opt.2 h2) (lang_text.2 rfl))))))
      rcases hv with rfl | ⟨n, h3, h4, rfl⟩
      · exact lang_opt.2 (Or.inr rfl)
      · exact lang_opt.2 (Or.inl (.cat (lang_text.2 rfl) (lang_digits.2 ⟨h3, h4⟩)))

section
variable {V : Type} {L : Lang V} {has : Str → V → Prop} {re : Str → Bool} {response : V → Prop}

theorem parents_response (hre : ∀ t v, re t = true → has t v → response v)
    (hf : ∀ v f, response v → response (L.field v f)) (hm : ∀ v m, response v → response (L.method v m))
    {b : Before} {vars : List String} {env : String → V} : ∀ {e : Exp}, Faithful L has re env e → Plain vars e →
    ∀ {t : Str}, t ∈ (parents b e).flatten → re t = true → response (eval L env e)
  | .method e m forms ty, h, hp, t, ht, hr => by
    unfold parents at ht
    rw [List.flatten_cons, List.mem_append] at ht
    apply hm
    rcases ht with ht | ht
    · exact hre t _ hr (h.2.1 t ht)
    · exact parents_response hre hf hm h.1 hp ht hr
  | .func f root forms sig ty, h, hp, t, ht, hr => by
    simp [parents] at ht
    rw [h.1 t ht] at hr
    exact absurd hr (by decide)
  | .var .., h, hp, t, ht, hr => by simp [parents] at ht
  | .field .., h, hp, t, ht, hr => by simp [parents] at ht
  | .conv .., h, hp, t, ht, hr => absurd hp (by simp [Plain])
  | .other .., h, hp, t, ht, hr => by simp [parents] at ht

theorem spine_response (hre : ∀ t v, re t = true → has t v → response v)
    (hf : ∀ v f, response v → response (L.field v f)) (hm : ∀ v m, response v → response (L.method v m))
    {env : String → V} : ∀ {n : Nat} {e : Exp}, Faithful L has re env e →
    ∀ {t : Str}, t ∈ spine n e → re t = true → response (eval L env e)
  | 0, e, h, t, ht, hr => by simp [spine] at ht
  | n + 1, e, h, t, ht, hr => by
    unfold spine at ht
    rw [List.mem_append] at ht
    rcases ht with ht | ht
    · split at ht
      · rename_i hne
        simp only [List.mem_singleton] at ht
        subst ht
        apply hre _ _ hr
        cases e with
        | var x o ty => exact h hne
        | field e f ty => exact h.2 hne
        | method e m forms ty => exact h.2.2 hne
        | func f root forms sig ty => exact h.2.2 hne
        | conv e => exact absurd rfl hne
        | other n ty => exact h hne
      · simp at ht
    · cases e with
      | var x o ty => simp at ht
      | field e f ty => exact hf _ _ (spine_response hre hf hm h.1 ht hr)
      | method e m forms ty => exact hm _ _ (spine_response hre hf hm h.1 ht hr)
      | func f root forms sig ty =>
        dsimp only at ht
        split at ht
        · simp only [List.mem_singleton] at ht
          rw [ht, h.2.1] at hr
          exact absurd hr (by decide)
        · simp at ht
      | conv e => simp at ht
      | other n ty => simp at ht

/-- The root of an expression is on the side of the response only with the whole. -/
theorem root_response (hf : ∀ v f, response v → response (L.field v f)) (hm : ∀ v m, response v → response (L.method v m))
    {vars : List String} {env : String → V} : ∀ {e : Exp}, Plain vars e → rootVar e ∈ vars → "" ∉ vars → response (env (rootVar e)) →
    response (eval L env e)
  | .var x o ty, _, _, _, hr => hr
  | .field e f ty, h, hv, h0, hr => hf _ _ (root_response hf hm (e := e) h hv h0 hr)
  | .method e m forms ty, h, hv, h0, hr => hm _ _ (root_response hf hm (e := e) h hv h0 hr)
  | .func f root forms sig ty, h, hv, _, hr => absurd hv h
  | .conv e, h, _, _, _ => h.elim
  | .other n ty, h, hv, h0, _ => absurd hv h0

theorem calleeVar_root {b : Before} : ∀ {e : Exp}, calleeVar b e = "" ∨ calleeVar b e = rootVar e
  | .var x o ty => by unfold calleeVar rootVar; split <;> simp
  | .field e f ty => Or.inl rfl
  | .method e m forms ty => by unfold calleeVar; split <;> simp
  | .func f root forms sig ty => Or.inr rfl
  | .conv e => Or.inl rfl
  | .other n ty => Or.inl rfl

/-- After the run a variable has the value of what it was assigned last. -/
theorem run_last (x : String) : ∀ (body : List (String × Exp)) (env : String → V), FaithfulRun L has re env body →
    match (assigned body x).getLast? with
    | none => run L env body x = env x
    | some v => ∃ env', Faithful L has re env' v ∧ run L env body x = eval L env' v
  | [], env, _ => rfl
  | (y, e) :: ss, env, h => by
    have ih := run_last x ss _ h.2
    unfold run
    by_cases hy : y = x
    · have : assigned ((y, e) :: ss) x = e :: assigned ss x := by simp [assigned, hy]
      rw [this]
      cases hg : (assigned ss x).getLast? with
      | none =>
        rw [hg] at ih
        have hn : assigned ss x = [] := List.getLast?_eq_none_iff.1 hg
        rw [hn]
        refine ⟨env, h.1, ?_⟩
        rw [ih, if_pos hy.symm]
        rfl
      | some v =>
        rw [hg] at ih
        have : (e :: assigned ss x).getLast? = some v := by
          rw [List.getLast?_cons, hg]; rfl
        rw [this]
        exact ih
    · have : assigned ((y, e) :: ss) x = assigned ss x := by simp [assigned, hy]
      rw [this]
      cases hg : (assigned ss x).getLast? with
      | none =>
        rw [hg] at ih
        dsimp only at ih ⊢
        rw [ih, if_neg (fun e => hy e.symm)]
      | some v =>
        rw [hg] at ih
        exact ih

end

/-! ## C82 -/

/-- **C82** (partial).  A header that is not taken for a parameter is one of the response: the read `e.Get(k)` comes
after the statements `body`, and what is obtained from a part of the response is part of it.  Missing: later assignments
(`C82_later_assignment_wrong`) and calls on conversions (`C82_conversion_wrong`). -/
theorem C82_excluded_partial {V : Type} (L : Lang V) (has : Str → V → Prop) (re : Str → Bool) (response : V → Prop)
    (hre : ∀ t v, re t = true → has t v → response v)
    (hf : ∀ v f, response v → response (L.field v f)) (hm : ∀ v m, response v → response (L.method v m))
    (b : Before) (env : String → V) (body : List (String × Exp)) (e : Exp)
    (hrun : FaithfulRun L has re env body) (he : Faithful L has re (run L env body) e)
    (hp : Plain (body.map Prod.fst) e) (hblank : "" ∉ body.map Prod.fst)
    (h : excluded re b (assigned body) e = true) : response (eval L (run L env body) e) := by
  unfold excluded at h
  rw [List.any_eq_true] at h
  obtain ⟨t, ht, hr⟩ := h
  unfold origins at ht
  rw [List.mem_append] at ht
  rcases ht with ht | ht
  · refine parents_response hre hf hm he hp (b := b) (t := t) ?_ hr
    rw [List.mem_flatten] at ht ⊢
    obtain ⟨l, hl, htl⟩ := ht
    exact ⟨l, List.mem_of_mem_take hl, htl⟩
  · split at ht
    · rename_i hv
      have hroot : calleeVar b e = rootVar e := calleeVar_root.resolve_left hv
      rw [hroot] at ht
      have := run_last (rootVar e) body env hrun
      cases hg : (assigned body (rootVar e)).getLast? with
      | none => rw [hg] at ht; simp at ht
      | some v =>
        rw [hg] at ht this
        dsimp only at ht this
        obtain ⟨env', h1, h2⟩ := this
        have hmem : rootVar e ∈ body.map Prod.fst := by
          have : v ∈ assigned body (rootVar e) := List.mem_of_getLast? hg
          simp only [assigned, List.mem_map, List.mem_filter, decide_eq_true_eq] at this
          obtain ⟨s, ⟨hs1, hs2⟩, -⟩ := this
          rw [← hs2]
          exact List.mem_map_of_mem hs1
        exact root_response hf hm hp hmem hblank (by rw [h2]; exact spine_response hre hf hm h1 ht hr)
    · simp at ht

/-- **C82** (the chain).  `w.Header().Get(k)`, `c.Response().Header().Get(k)`: a header reached by up to eight calls,
one of them on a response writer, is not taken for a parameter. -/
theorem C82_chain (re : Str → Bool) (b : Before) (assigns : String → List Exp) (e : Exp) (t : Str) (n : Nat)
    (h : CalledOn t n e) (hn : n < 8) (ht : re t = true) : excluded re b assigns e = true := by
  unfold excluded
  rw [List.any_eq_true]
  refine ⟨t, ?_, ht⟩
  unfold origins
  refine List.mem_append_left _ ?_
  generalize 8 = k at hn
  induction h generalizing k with
  | here h =>
    cases k with
    | zero => omega
    | succ k => simp [parents, h]
  | call _ ih =>
    cases k with
    | zero => omega
    | succ k =>
      have := ih k (by omega)
      simp only [parents, List.take_succ_cons, List.flatten_cons, List.mem_append]
      exact Or.inr this

/-- **C82** (variables).  `h := w.Header(); h.Get(k)`: a header in a variable that was assigned what was obtained from a
response writer, in up to seven steps, is not taken for a parameter. -/
theorem C82_variable (re : Str → Bool) (b : Before) (assigns : String → List Exp) (x : String) (hx : x ≠ "") (ty t : Str)
    (v : Exp) (n : Nat) (hv : (assigns x).getLast? = some v) (h : Through t n v) (hn : n < 8) (ht : re t = true) :
    excluded re b assigns (.var x true ty) = true := by
  unfold excluded
  rw [List.any_eq_true]
  refine ⟨t, ?_, ht⟩
  unfold origins
  refine List.mem_append_right _ ?_
  have : calleeVar b (.var x true ty) = x := rfl
  rw [this, if_pos hx, hv]
  dsimp only
  clear this hv hx
  generalize 8 = k at hn
  induction h generalizing k with
  | @here e h1 h2 =>
    cases k with
    | zero => omega
    | succ k =>
      subst h1
      unfold spine
      rw [if_pos h2]
      exact List.mem_append_left _ (List.mem_singleton.2 rfl)
  | call _ ih =>
    cases k with
    | zero => omega
    | succ k =>
      unfold spine
      exact List.mem_append_right _ (ih k (by omega))
  | field _ ih =>
    cases k with
    | zero => omega
    | succ k =>
      unfold spine
      exact List.mem_append_right _ (ih k (by omega))

/-- `n` calls on the local variable `x`, the receiver types of the last one first. -/
inductive OnVar (x : String) : Nat → List (List Str) → Exp → Prop where
  | var (ty : Str) : OnVar x 0 [] (.var x true ty)
  | call {n : Nat} {fs : List (List Str)} {e : Exp} (m : String) (forms : List Str) (ty : Str) :
      OnVar x n fs e → OnVar x (n + 1) (forms :: fs) (.method e m forms ty)

theorem onVar_root {x : String} {n : Nat} {fs : List (List Str)} {e : Exp} (h : OnVar x n fs e) : rootVar e = x := by
  induction h with
  | var ty => rfl
  | call m forms ty _ ih => exact ih

theorem onVar_parents {b : Before} {x : String} {n : Nat} {fs : List (List Str)} {e : Exp} (h : OnVar x n fs e) : parents b e = fs := by
  induction h with
  | var ty => rfl
  | call m forms ty _ ih => exact congrArg _ ih

theorem onVar_var {b : Before} {x : String} (hx : x ≠ "") {n : Nat} {fs : List (List Str)} {e : Exp} (h : OnVar x n fs e) :
    calleeVar b e = if n % 2 = 0 then x else "" := by
  induction h with
  | var ty => rfl
  | @call n fs e m forms ty h ih =>
    have hr : rootVar (.method e m forms ty) = x := onVar_root (e := e) h
    unfold calleeVar
    rw [ih, hr]
    by_cases hn : n % 2 = 0
    · rw [if_pos hn, if_neg hx, if_neg (by omega)]
    · rw [if_neg hn, if_pos rfl, if_pos (by omega)]

theorem spine_through {t : Str} {n : Nat} {v : Exp} (h : Through t n v) (k : Nat) (hn : n < k) : t ∈ spine k v := by
  induction h generalizing k with
  | @here e h1 h2 =>
    cases k with
    | zero => omega
    | succ k =>
      subst h1
      unfold spine
      rw [if_pos h2]
      exact List.mem_append_left _ (List.mem_singleton.2 rfl)
  | call _ ih =>
    cases k with
    | zero => omega
    | succ k =>
      unfold spine
      exact List.mem_append_right _ (ih k (by omega))
  | field _ ih =>
    cases k with
    | zero => omega
    | succ k =>
      unfold spine
      exact List.mem_append_right _ (ih k (by omega))

/-- **C82** (calls on a variable).  What the variable was assigned counts when the number of calls on it is even. -/
theorem C82_chain_variable_partial (re : Str → Bool) (b : Before) (assigns : String → List Exp) {x : String} (hx : x ≠ "") {k : Nat}
    {fs : List (List Str)} {e : Exp} (he : OnVar x k fs e) (hk : k % 2 = 0) {v : Exp} (hv : (assigns x).getLast? = some v) {t : Str}
    {n : Nat} (h : Through t n v) (hn : n < 8) (ht : re t = true) : excluded re b assigns e = true := by
  unfold excluded
  rw [List.any_eq_true]
  refine ⟨t, ?_, ht⟩
  unfold origins
  refine List.mem_append_right _ ?_
  rw [onVar_var hx he, if_pos hk, if_pos hx, hv]
  exact spine_through h 8 hn

/-- **C82 is violated** (calls on a variable).  When it is odd, it does not: `h := w.Header(); h.Clone().Get(k)` is
taken for a parameter, whatever `h` was assigned. -/
theorem C82_chain_variable_kept (re : Str → Bool) (b : Before) (assigns : String → List Exp) {x : String} (hx : x ≠ "") {k : Nat}
    {fs : List (List Str)} {e : Exp} (he : OnVar x k fs e) (hk : k % 2 = 1) (hf : ∀ forms ∈ fs, ∀ t ∈ forms, re t = false) :
    excluded re b assigns e = false := by
  unfold excluded
  rw [List.any_eq_false]
  intro t ht
  unfold origins at ht
  rw [onVar_var hx he, if_neg (show ¬k % 2 = 0 by omega), onVar_parents he, if_neg (show ¬("" ≠ "") by simp), List.append_nil, List.mem_flatten] at ht
  obtain ⟨forms, h1, h2⟩ := ht
  rw [hf forms (List.mem_of_mem_take h1) t h2]
  decide

/-! ## Witnesses -/

def httpWriter : Str := "net/http.ResponseWriter".toList
def httpHeader : Str := "net/http.Header".toList
def httpRequest : Str := "*net/http.Request".toList

/-- `w.Header()` -/
def wHeader : Exp := .method (.var "w" true httpWriter) "Header" [httpWriter] httpHeader
/-- `r.Header`; the type of a field is recorded without the package of the field. -/
def rHeader : Exp := .field (.var "r" true httpRequest) "Header" "Header".toList

def none' : Before := ⟨[], ""⟩

/-- Non-vacuity: `w.Header().Get(k)` is no parameter, `r.Header.Get(k)` is one, and so they are through a
variable. -/
example : excluded isWriter none' (fun _ => []) wHeader = true :=
  C82_chain _ _ _ _ httpWriter 0 (.here (by simp)) (by decide) (by decide +kernel)
example : excluded isWriter none' (assigned [("h", wHeader)]) (.var "h" true httpHeader) = true :=
  C82_variable _ _ _ "h" (by decide) _ httpWriter _ 1 rfl (.call (.here rfl (by decide))) (by decide) (by decide +kernel)
example : excluded isWriter none' (fun _ => []) rHeader = false := by decide +kernel
example : excluded isWriter none' (assigned [("h", rHeader)]) (.var "h" true httpHeader) = false := by decide +kernel

/-- Values of the example: 0 is the writer, 1 the request, a header has its number plus ten. -/
def demoLang : Lang Nat := { field := fun v _ => v + 10, method := fun v _ => v + 10, func := fun _ => 1, conv := id, other := fun _ => 1 }
def demoHas (t : Str) (v : Nat) : Prop := t = httpWriter → v = 0

/-- Non-vacuity of `C82_excluded_partial`, for `h := w.Header(); h.Get(k)`; what is a multiple of ten is part of the
response. -/
example : 10 ∣ eval demoLang (run demoLang (fun x => if x = "w" then 0 else 1) [("h", wHeader)]) (.var "h" true httpHeader) := by
  refine C82_excluded_partial demoLang demoHas (fun t => decide (t = httpWriter)) (10 ∣ ·) ?_ ?_ ?_ none' _ _ _ ?_ ?_ trivial (by decide) ?_
  · intro t v h1 h2
    simp at h1
    rw [h2 h1]
    exact ⟨0, rfl⟩
  · intro v f h; exact Nat.dvd_add h ⟨1, rfl⟩
  · intro v f h; exact Nat.dvd_add h ⟨1, rfl⟩
  · refine ⟨⟨fun _ _ => rfl, ?_, fun _ h => absurd h (by decide)⟩, trivial⟩
    intro f _ _; rfl
  · exact fun _ h => absurd h (by decide)
  · decide

/-- `h := r.Header; h.Get(k); h = w.Header()`: the last assignment is read, also for what comes before it, and the
parameter is lost. -/
theorem C82_later_assignment_wrong (b : Before) :
    eval demoLang (run demoLang (fun x => if x = "w" then 0 else 1) [("h", rHeader)]) (.var "h" true httpHeader) = 11 ∧
    excluded isWriter b (assigned ([("h", rHeader)] ++ [("h", wHeader)])) (.var "h" true httpHeader) = true :=
  ⟨by decide, C82_variable _ _ _ "h" (by decide) _ httpWriter _ 1 rfl (.call (.here rfl (by decide))) (by decide) (by decide +kernel)⟩

/-- `w.WriteHeader(200); http.Header(m).Get(k)`: a conversion is no call, and the read is taken to be chained onto the
call before it. -/
theorem C82_conversion_wrong (assigns : String → List Exp) (e : Exp) : excluded isWriter ⟨[[httpWriter]], "w"⟩ assigns (.conv e) = true := by
  unfold excluded
  rw [List.any_eq_true]
  exact ⟨httpWriter, by simp [origins, parents], by decide +kernel⟩

/-- A copy of the variable, `h := w.Header(); g := h; g.Get(k)`, is taken for a parameter. -/
theorem C82_copy_kept (b : Before) :
    excluded isWriter b (assigned [("h", wHeader), ("g", .var "h" true httpHeader)]) (.var "g" true httpHeader) = false := by
  have : origins b (assigned [("h", wHeader), ("g", .var "h" true httpHeader)]) (.var "g" true httpHeader) = [httpHeader] :=
    Eq.trans (b := origins none' (assigned [("h", wHeader), ("g", .var "h" true httpHeader)]) (.var "g" true httpHeader)) rfl (by decide +kernel)
  unfold excluded
  rw [this]
  decide +kernel

/-- Gin, `h := c.Writer.Header(); h.Get(k)`: the field's type is recorded without its package, and the header is taken
for a parameter; not so without the variable. -/
def ginWriter : Exp := .field (.var "c" true "*github.com/gin-gonic/gin.Context".toList) "Writer" writerName
def ginHeader : Exp := .method ginWriter "Header" ["github.com/gin-gonic/gin.ResponseWriter".toList] httpHeader

theorem C82_gin_kept (b : Before) :
    excluded isWriter b (assigned [("h", ginHeader)]) (.var "h" true httpHeader) = false ∧
    excluded isWriter b (assigned []) ginHeader = true := by
  constructor
  · have : origins b (assigned [("h", ginHeader)]) (.var "h" true httpHeader) =
        [httpHeader, writerName, "*github.com/gin-gonic/gin.Context".toList] :=
      Eq.trans (b := origins none' (assigned [("h", ginHeader)]) (.var "h" true httpHeader)) rfl (by decide +kernel)
    unfold excluded
    rw [this]
    decide +kernel
  · exact C82_chain _ _ _ _ "github.com/gin-gonic/gin.ResponseWriter".toList 0 (.here (by simp)) (by decide) (by decide +kernel)

/-- A writer of the program's own that embeds `http.ResponseWriter`: its headers are taken for parameters. -/
theorem C82_embedded_kept (b : Before) :
    excluded isWriter b (assigned []) (.method (.var "sw" true "*statusWriter".toList) "Header" ["app.*statusWriter".toList] httpHeader) = false := by
  have : origins b (assigned []) (.method (.var "sw" true "*statusWriter".toList) "Header" ["app.*statusWriter".toList] httpHeader) =
      ["app.*statusWriter".toList] :=
    Eq.trans (b := origins none' (assigned []) (.method (.var "sw" true "*statusWriter".toList) "Header" ["app.*statusWriter".toList] httpHeader))
      rfl (by decide +kernel)
  unfold excluded
  rw [this]
  decide +kernel

/-- A header held in a field, `s.headers.Get(k)`, has no origin: it is taken for a parameter. -/
theorem C82_field_kept (re : Str → Bool) (b : Before) (assigns : String → List Exp) (e : Exp) (f : String) (ty : Str) :
    excluded re b assigns (.field e f ty) = false := rfl

/-- A parameter of a helper, `func log(h http.Header) { h.Get(k) }`, has none either. -/
theorem C82_parameter_kept (re : Str → Bool) (b : Before) (assigns : String → List Exp) (x : String) (o : Bool) (ty : Str)
    (h : assigns x = []) : excluded re b assigns (.var x o ty) = false := by
  unfold excluded origins parents
  unfold calleeVar
  cases o
  · rfl
  · by_cases hx : x = ""
    · simp [hx]
    · simp [hx, h]

/-- `h := w.Header()`: `h.Clone().Get(k)` is a parameter, `h.Clone().Clone().Get(k)` is none. -/
def cloned (e : Exp) : Exp := .method e "Clone" [httpHeader] httpHeader

example (b : Before) :
    excluded isWriter b (assigned [("h", wHeader)]) (cloned (.var "h" true httpHeader)) = false ∧
    excluded isWriter b (assigned [("h", wHeader)]) (cloned (cloned (.var "h" true httpHeader))) = true :=
  ⟨C82_chain_variable_kept _ _ _ (by decide) (.call _ _ _ (.var _)) rfl (by decide +kernel),
   C82_chain_variable_partial _ _ _ (by decide) (.call _ _ _ (.call _ _ _ (.var _))) rfl (v := wHeader) rfl (t := httpWriter)
    (.call (.here rfl (by decide))) (by decide) (by decide +kernel)⟩

end Verif.HeaderSide
