import Verif.FuncFieldModel

/-!
# Calls through a field of a struct reach the functions stored there (C85)

The specification: source expressions `Val` with the types of literals `Ty`, the
functions a value is (`IsFn`), and where in an expression a function is stored in a
field (`Stored`).  None of it mentions the walk or the texts of types.
-/

namespace Verif.FuncField
open Verif.Common

/-! ## The source -/

/-- Types as written. -/
inductive Ty where
  | named (pkg name : Str)
  | ptr (t : Ty)
  | list (t : Ty)
  | map (t : Ty)
  | func
  | other
deriving DecidableEq, Repr

/-- Expressions. -/
inductive Val where
  /-- A function of a package; `qual` is the name of that package. -/
  | fn (pkg qual name : Str)
  /-- A method value `x.name`, `recv` being the type that declares the method. -/
  | method (pkg recv name : Str)
  | closure (name : Str)
  /-- A variable. -/
  | var (pkg name : Str)
  /-- A field `x.name` of a variable of the type `owner`. -/
  | field (pkg owner name : Str)
  /-- A composite literal; the type may be left out inside other literals. -/
  | comp (ty : Option Ty) (elts : List Val)
  /-- An element with a key, which is a name or some other value. -/
  | kv (key : Option Str) (v : Val)
  | addr (v : Val)
  | conv (v : Val)
  | call (args : List Val)

/-- `ExprToCallArgument` on a type (`expression.go:42-102`; maps, generics and struct types
have no name for `typeExprName`). -/
def exprOf : Ty → TyExpr
  | .named p n => .named p n
  | .ptr t => .star (exprOf t)
  | .list t => .arr (exprOf t)
  | .map _ => .other
  | .func => .other
  | .other => .other

mutual
/-- `ExprToCallArgument` (`expression.go:34-173`, `handleSelector`, `handleCompositeLit`,
`handleKeyValueExpr`, `handleUnaryExpr`, `handleCallExpr`) in a file of package `ctx`.
The operand of a selector is an identifier here. -/
def argOf (ctx : Str) : Val → Arg
  | .fn p q n => if p = ctx then .ident p n else .sel (.ident p q) p n none none
  | .method p r n => .sel (.ident ctx ['x']) p n (some r) none
  | .closure n => .funcLit n
  | .var p n => .ident p n
  | .field p o n => .sel (.ident ctx ['x']) p n none (some o)
  | .comp ty elts => .lit (ty.map exprOf) (argsOf ctx elts)
  | .kv k v => .kv k (argOf ctx v)
  | .addr v => .other [argOf ctx v] []
  | .conv v => .other [.other [] []] [argOf ctx v]
  | .call args => .other [.other [] []] (argsOf ctx args)
def argsOf (ctx : Str) : List Val → List Arg
  | [] => []
  | v :: vs => argOf ctx v :: argsOf ctx vs
end

/-- `FromExpr` and `String` on the type of a field of a struct declared in package `own`
(`typemodel/fromexpr.go:31-86`): types of other packages are qualified by their path. -/
def fieldText (own : Str) : Ty → Str
  | .named p n => if p = own then n else p ++ dot ++ n
  | .ptr t => star ++ fieldText own t
  | .list t => brackets ++ fieldText own t
  | .map t => ['m', 'a', 'p', '[', 's', ']'] ++ fieldText own t
  | .func => ['f', 'u', 'n', 'c']
  | .other => ['o']

/-- The declarations of a program. -/
structure Decls where
  /-- Package, name and fields of the struct types. -/
  structs : List (Str × Str × List (Str × Ty))
  /-- The named function types. -/
  funcTypes : List (Str × Str)
  /-- Other named types with what they stand for. -/
  defined : List (Str × Str × Ty)

/-- What metadata keeps of the declared structs. -/
def recordedStructs (D : Decls) : List Struct :=
  D.structs.map fun s => ⟨s.1, s.2.1, s.2.2.map fun f => (f.1, fieldText s.1 f.2)⟩

/-! ## What is stored where -/

/-- The key of the function that a value is, in a file of package `ctx`. -/
inductive IsFn (ctx : Str) : Val → Str → Prop
  | fn (p q n : Str) : IsFn ctx (.fn p q n) (p ++ dot ++ n)
  | method (p r n : Str) : IsFn ctx (.method p r n) (p ++ dot ++ r ++ dot ++ n)
  | closure (n : Str) : IsFn ctx (.closure n) (ctx ++ dot ++ n)
  | conv {v : Val} {f : Str} : IsFn ctx v f → IsFn ctx (.conv v) f

/-- The type of a literal where the type `exp` is expected. -/
inductive LitOf : Option Ty → Option Ty → Ty → Prop
  | stated (exp : Option Ty) (t : Ty) : LitOf exp (some t) t
  | elided (t : Ty) : (∀ u, t ≠ .ptr u) → LitOf (some t) none t
  | elidedPtr (t : Ty) : LitOf (some (.ptr t)) none t

/-- The type of the elements of a list or map. -/
inductive ElemOf (D : Decls) : Ty → Ty → Prop
  | list (t : Ty) : ElemOf D (.list t) t
  | map (t : Ty) : ElemOf D (.map t) t
  | defined {p n : Str} {u t : Ty} : (p, n, u) ∈ D.defined → ElemOf D u t → ElemOf D (.named p n) t

/-- A field of a struct type holds functions. -/
inductive Callable (D : Decls) : Ty → Prop
  | func : Callable D .func
  | named {p n : Str} : (p, n) ∈ D.funcTypes → Callable D (.named p n)

/-- The field `k` of the type `n` of package `p` is called by the program (it holds
functions) or by a library (it is configured as an entrypoint). -/
def Dispatches (D : Decls) (entry : Str → Str → Str → Bool) (p n k : Str) : Prop :=
  (∃ fs t, (p, n, fs) ∈ D.structs ∧ (k, t) ∈ fs ∧ Callable D t) ∨ entry p n k = true

/-- Where the type `exp` is expected, the expression stores the function `r.fn` in the
field `r.field` of a literal of the type `r.type` of the package `r.pkg`. -/
inductive Stored (D : Decls) (entry : Str → Str → Str → Bool) (ctx : Str) : Option Ty → Val → Rec → Prop
  | keyed {exp ty : Option Ty} {p n : Str} {elts : List Val} {k : Str} {v : Val} {f : Str} :
      LitOf exp ty (.named p n) → Val.kv (some k) v ∈ elts → Dispatches D entry p n k → IsFn ctx v f →
      Stored D entry ctx exp (.comp ty elts) ⟨p, n, k, f⟩
  | positional {exp ty : Option Ty} {p n : Str} {elts : List Val} {fs : List (Str × Ty)} {i : Nat} {k : Str} {t : Ty}
      {v : Val} {f : Str} :
      LitOf exp ty (.named p n) → (p, n, fs) ∈ D.structs → fs[i]? = some (k, t) → elts[i]? = some v →
      Dispatches D entry p n k → IsFn ctx v f →
      Stored D entry ctx exp (.comp ty elts) ⟨p, n, k, f⟩
  | element {exp ty : Option Ty} {T t : Ty} {elts : List Val} {v : Val} {r : Rec} :
      LitOf exp ty T → ElemOf D T t → (v ∈ elts ∨ ∃ k, Val.kv k v ∈ elts) → Stored D entry ctx (some t) v r →
      Stored D entry ctx exp (.comp ty elts) r
  | value {exp ty : Option Ty} {T : Ty} {elts : List Val} {v : Val} {r : Rec} :
      LitOf exp ty T → (v ∈ elts ∨ ∃ k, Val.kv k v ∈ elts) → Stored D entry ctx none v r →
      Stored D entry ctx exp (.comp ty elts) r
  | addr {exp : Option Ty} {v : Val} {r : Rec} : Stored D entry ctx none v r → Stored D entry ctx exp (.addr v) r
  | conv {exp : Option Ty} {v : Val} {r : Rec} : Stored D entry ctx none v r → Stored D entry ctx exp (.conv v) r
  | call {exp : Option Ty} {args : List Val} {v : Val} {r : Rec} : v ∈ args → Stored D entry ctx none v r →
      Stored D entry ctx exp (.call args) r

/-! ## What the walk reads -/

/-- An identifier: letters and digits, no keyword. -/
def Name (s : Str) : Prop :=
  s ≠ [] ∧ (∀ c ∈ s, c.isAlphanum = true ∨ c = '_') ∧ s ≠ ['f', 'u', 'n', 'c']

/-- Types of literals that the walk reads. -/
inductive Readable : Ty → Prop
  | named {p n : Str} : p ≠ [] → Name n → Readable (.named p n)
  | ptr {t : Ty} : Readable t → Readable (.ptr t)
  | list {t : Ty} : Readable t → Readable (.list t)

/-- Types of fields whose text says whether they hold functions: no pointers to functions. -/
def FieldTy : Ty → Prop
  | .named p n => Name n ∧ '(' ∉ p ∧ '*' ∉ p
  | .ptr t => t ≠ .func ∧ FieldTy t
  | _ => True

/-- The struct type `n` of package `p` is declared once, with the fields `fs`; function
types among them have no name. -/
structure Declared (D : Decls) (p n : Str) (fs : List (Str × Ty)) : Prop where
  pkg : p ≠ []
  name : Name n
  mem : (p, n, fs) ∈ D.structs
  once : ∀ s ∈ D.structs, s.1 = p → s.2.1 = n → s.2.2 = fs
  fields : fs ≠ []
  distinct : (fs.map (·.1)).Nodup
  types : ∀ f ∈ fs, FieldTy f.2 ∧ (Callable D f.2 → f.2 = .func)
  struct : ∀ u, (p, n, u) ∉ D.defined

/-- Expressions that the walk reads as they are meant, `d` levels deep.  Values other than
literals do not happen to have the name of some function; there is no conversion of
functions; struct types are declared in the program or their elements have keys;
lists are written as such; no literal is deeper than twelve levels. -/
inductive Plain (D : Decls) (known : Str → Bool) (ctx : Str) : Nat → Option Ty → Val → Prop
  | fn {d : Nat} {exp : Option Ty} {p q n : Str} : p ≠ [] → Name n → Plain D known ctx d exp (.fn p q n)
  | method {d : Nat} {exp : Option Ty} {p r n : Str} : p ≠ [] → Name r → Name n →
      (known (p ++ dot ++ r ++ dot ++ n) = false → known (p ++ dot ++ n) = false) →
      Plain D known ctx d exp (.method p r n)
  | closure {d : Nat} {exp : Option Ty} {n : Str} : n ≠ [] → known n = false → Plain D known ctx d exp (.closure n)
  | var {d : Nat} {exp : Option Ty} {p n : Str} : p ≠ [] → Name n → known (p ++ dot ++ n) = false →
      Plain D known ctx d exp (.var p n)
  | field {d : Nat} {exp : Option Ty} {p o n : Str} : p ≠ [] → Name o → Name n →
      known (p ++ dot ++ o ++ dot ++ n) = false → known (p ++ dot ++ n) = false → Plain D known ctx d exp (.field p o n)
  | keyed {d : Nat} {exp ty : Option Ty} {p n : Str} {fs : List (Str × Ty)} {elts : List Val} :
      d ≤ 12 → LitOf exp ty (.named p n) → Declared D p n fs →
      (∀ e ∈ elts, ∃ k v, e = .kv (some k) v) →
      (∀ (k : Str) (v : Val), Val.kv (some k) v ∈ elts → k ∈ fs.map (·.1)) →
      (∀ (k : Str) (v : Val), Val.kv (some k) v ∈ elts → Plain D known ctx (d + 1) none v) →
      Plain D known ctx d exp (.comp ty elts)
  | positional {d : Nat} {exp ty : Option Ty} {p n : Str} {fs : List (Str × Ty)} {elts : List Val} :
      d ≤ 12 → LitOf exp ty (.named p n) → Declared D p n fs →
      (∀ e ∈ elts, ∀ k v, e ≠ .kv k v) → elts.length ≤ fs.length →
      (∀ e ∈ elts, Plain D known ctx (d + 1) none e) →
      Plain D known ctx d exp (.comp ty elts)
  | external {d : Nat} {exp ty : Option Ty} {p n : Str} {elts : List Val} :
      d ≤ 12 → LitOf exp ty (.named p n) → p ≠ [] → Name n →
      (∀ fs, (p, n, fs) ∉ D.structs) → (∀ u, (p, n, u) ∉ D.defined) →
      (∀ e ∈ elts, ∃ k v, e = .kv (some k) v ∧ k ≠ []) →
      (∀ (k : Str) (v : Val), Val.kv (some k) v ∈ elts → Plain D known ctx (d + 1) none v) →
      Plain D known ctx d exp (.comp ty elts)
  | list {d : Nat} {exp ty : Option Ty} {t : Ty} {elts : List Val} :
      d ≤ 12 → (ty = some (.list t) ∨ ty = none ∧ exp = some (.list t)) → Readable t →
      (∀ (k : Option Str) (v : Val), Val.kv k v ∈ elts → k = none) →
      (∀ (k : Option Str) (v : Val), Val.kv k v ∈ elts → Plain D known ctx (d + 1) (some t) v) →
      (∀ e ∈ elts, (∀ k v, e ≠ .kv k v) → Plain D known ctx (d + 1) (some t) e) →
      Plain D known ctx d exp (.comp ty elts)
  | addr {d : Nat} {exp : Option Ty} {v : Val} : d ≤ 12 → Plain D known ctx (d + 1) none v →
      Plain D known ctx d exp (.addr v)
  | conv {d : Nat} {exp : Option Ty} {v : Val} : d ≤ 12 → (∀ f, ¬ IsFn ctx v f) → Plain D known ctx (d + 1) none v →
      Plain D known ctx d exp (.conv v)
  | call {d : Nat} {exp : Option Ty} {args : List Val} : d ≤ 12 → (∀ v ∈ args, Plain D known ctx (d + 1) none v) →
      Plain D known ctx d exp (.call args)

/-! ## Texts of types -/

theorem trimPrefix_ne {c : Char} {p s : Str} (h : s.head? ≠ some c) : trimPrefix (c :: p) s = s := by
  unfold trimPrefix
  cases s with
  | nil => rfl
  | cons x xs =>
    have : c ≠ x := by rintro rfl; exact h rfl
    simp [List.isPrefixOf, this]

theorem afterLastDot_eq {s : Str} (h : '.' ∉ s) : afterLastDot s = s := by
  have key : ∀ l : Str, '.' ∉ l → l.takeWhile (· != '.') = l := by
    intro l
    induction l with
    | nil => intro _; rfl
    | cons x xs ih =>
      intro h
      have hx : (x != '.') = true := by
        have : x ≠ '.' := by rintro rfl; exact h (List.mem_cons_self ..)
        simpa using this
      rw [List.takeWhile_cons, if_pos hx, ih fun hc => h (List.mem_cons_of_mem _ hc)]
  rw [afterLastDot, key _ (fun hc => h (List.mem_reverse.1 hc)), List.reverse_reverse]

/-- A text without spaces, as that of a type. -/
def Solid (s : Str) : Prop := ∀ c ∈ s, isSpace c = false

theorem dropWhile_solid {s : Str} (h : Solid s) : s.dropWhile isSpace = s := by
  cases s with
  | nil => rfl
  | cons x xs => simp [List.dropWhile, h x (List.mem_cons_self ..)]

theorem trimSpace_eq {s : Str} (h : Solid s) : trimSpace s = s := by
  have h2 : Solid s.reverse := fun c hc => h c (List.mem_reverse.1 hc)
  simp only [trimSpace, ValidateModel.trimBy, dropWhile_solid h, dropWhile_solid h2, List.reverse_reverse]

theorem trimPrefix_mem {p s : Str} {c : Char} (h : c ∈ trimPrefix p s) : c ∈ s := by
  unfold trimPrefix at h
  split at h
  · exact List.mem_of_mem_drop h
  · exact h

theorem stripAll_mem {c : Char} : ∀ (n : Nat) {s : Str}, c ∈ stripAll n s → c ∈ s
  | 0, _, h => h
  | n + 1, s, h => by
    rw [stripAll] at h
    split at h
    · exact h
    · exact trimPrefix_mem (trimPrefix_mem (stripAll_mem n h))

theorem splitQualified_fst {s : Str} (hs : Solid s) (h : '.' ∉ s) : (splitQualified s).1 = [] := by
  have hd : '.' ∉ stripAll s.length s := fun hc => h (stripAll_mem _ hc)
  simp [splitQualified, trimSpace_eq hs, afterLastDot_eq hd]

theorem Name.char {s : Str} (h : Name s) {c : Char} (hc : c ∈ s) (hx : c.isAlphanum = false) (hu : c ≠ '_') : False := by
  rcases h.2.1 c hc with h | h
  · rw [hx] at h; cases h
  · exact hu h

theorem Name.no {s : Str} (h : Name s) (c : Char) (hx : c.isAlphanum = false := by decide) (hu : c ≠ '_' := by decide) : c ∉ s :=
  fun hc => h.char hc hx hu

theorem Name.head {s : Str} (h : Name s) (c : Char) (hx : c.isAlphanum = false := by decide) (hu : c ≠ '_' := by decide) :
    s.head? ≠ some c := fun he => h.no c hx hu (List.mem_of_mem_head? he)

theorem Name.solid {s : Str} (h : Name s) : Solid s := by
  intro c hc
  cases hx : isSpace c with
  | false => rfl
  | true =>
    exfalso
    simp only [isSpace, Bool.or_eq_true, beq_iff_eq] at hx
    rcases hx with ((((hx | hx) | hx) | hx) | hx) | hx <;> subst hx <;> exact h.char hc (by decide) (by decide)

theorem bare_name {n : Str} (h : Name n) : bareTypeName n = n := by
  have hs : trimPrefix star n = n := trimPrefix_ne (h.head '*')
  have hb : trimPrefix brackets n = n := trimPrefix_ne (h.head '[')
  simp only [bareTypeName, trimSpace_eq h.solid, hs, hb, afterLastDot_eq (h.no '.')]

theorem bare_star {n : Str} (h : Name n) : bareTypeName (star ++ n) = n := by
  have hs : trimPrefix star n = n := trimPrefix_ne (h.head '*')
  have hb : trimPrefix brackets n = n := trimPrefix_ne (h.head '[')
  have h1 : trimPrefix brackets (star ++ n) = star ++ n := trimPrefix_ne (by simp [star])
  have h2 : trimPrefix star (star ++ n) = n := by simp [trimPrefix, star, List.isPrefixOf]
  have h3 : trimSpace (star ++ n) = star ++ n := by
    apply trimSpace_eq
    intro c hc
    rcases List.mem_append.1 hc with hc | hc
    · simp only [star, List.mem_singleton] at hc; subst hc; decide
    · exact h.solid c hc
  simp only [bareTypeName, h3, h1, h2, hs, hb, afterLastDot_eq (h.no '.')]

theorem elem_of_head {t : Str} (h : '[' ∉ t) : elementTypeName t = [] := by
  have h1 : brackets.isPrefixOf t = false := by
    cases hb : brackets.isPrefixOf t with
    | false => rfl
    | true => exact absurd ((List.isPrefixOf_iff_prefix.1 hb).subset (by simp [brackets])) h
  have h2 : (['m', 'a', 'p', '['] : Str).isPrefixOf t = false := by
    cases hb : (['m', 'a', 'p', '['] : Str).isPrefixOf t with
    | false => rfl
    | true => exact absurd ((List.isPrefixOf_iff_prefix.1 hb).subset (by simp)) h
  have h3 : (['['] : Str).isPrefixOf t = false := by
    cases hb : (['['] : Str).isPrefixOf t with
    | false => rfl
    | true => exact absurd ((List.isPrefixOf_iff_prefix.1 hb).subset (by simp)) h
  simp [elementTypeName, h1, h2, h3]

/-- The text and the package of a type as the walk keeps them. -/
def nm (t : Ty) : Str := typeExprName (exprOf t)
def pk (t : Ty) : Str := typeExprPkg (exprOf t)

theorem Readable.facts {t : Ty} (h : Readable t) :
    nm t ≠ [] ∧ Solid (nm t) ∧ '.' ∉ nm t ∧ pk t ≠ [] := by
  induction h with
  | named hp hn => exact ⟨hn.1, hn.solid, hn.no '.', hp⟩
  | @ptr t h ih =>
    obtain ⟨h1, h2, h3, h4⟩ := ih
    have e : nm (.ptr t) = star ++ nm t := if_neg h1
    refine ⟨by simp [e, star], ?_, ?_, h4⟩
    · intro c hc
      rw [e] at hc
      rcases List.mem_append.1 hc with hc | hc
      · simp only [star, List.mem_singleton] at hc; subst hc; decide
      · exact h2 c hc
    · rw [e]; simp [star, h3]
  | @list t h ih =>
    obtain ⟨h1, h2, h3, h4⟩ := ih
    have e : nm (.list t) = brackets ++ nm t := if_neg h1
    refine ⟨by simp [e, brackets], ?_, ?_, h4⟩
    · intro c hc
      rw [e] at hc
      rcases List.mem_append.1 hc with hc | hc
      · simp only [brackets, List.mem_cons, List.not_mem_nil, or_false] at hc
        rcases hc with hc | hc <;> subst hc <;> decide
      · exact h2 c hc
    · rw [e]; simp [brackets, h3]

theorem nm_ptr {t : Ty} (h : Readable t) : nm (.ptr t) = star ++ nm t := if_neg h.facts.1

theorem nm_list {t : Ty} (h : Readable t) : nm (.list t) = brackets ++ nm t := if_neg h.facts.1

theorem litTypeOf_norm {ctx : Str} {E : LitType} {ty : Option TyExpr} {t : Ty} (h : Readable t)
    (hl : statedOr E ty = ⟨pk t, nm t⟩) : litTypeOf ctx E ty = ⟨pk t, nm t⟩ := by
  obtain ⟨_, h2, h3, h4⟩ := h.facts
  unfold litTypeOf
  rw [hl]
  simp [splitQualified_fst h2 h3, h4]

/-- What the walk is told to expect agrees with what is expected. -/
def Agrees : Option Ty → LitType → Prop
  | none, _ => True
  | some t, E => E = ⟨pk t, nm t⟩

theorem litTypeOf_stated {ctx : Str} {E : LitType} {t : Ty} (h : Readable t) :
    litTypeOf ctx E ((some t).map exprOf) = ⟨pk t, nm t⟩ := by
  exact litTypeOf_norm h (if_neg h.facts.1)

theorem litTypeOf_elided {ctx : Str} {t : Ty} (h : Readable t) :
    litTypeOf ctx ⟨pk t, nm t⟩ none = ⟨pk t, nm t⟩ := litTypeOf_norm h rfl

/-- The type of a struct literal as the walk sees it. -/
theorem litTypeOf_struct {ctx : Str} {exp ty : Option Ty} {E : LitType} {p n : Str} (h : LitOf exp ty (.named p n))
    (ha : Agrees exp E) (hp : p ≠ []) (hn : Name n) :
    ∃ s, litTypeOf ctx E (ty.map exprOf) = ⟨p, s⟩ ∧ bareTypeName s = n ∧ elementTypeName s = [] := by
  have hr : Readable (.named p n) := .named hp hn
  have e1 : elementTypeName n = [] := elem_of_head (hn.no '[')
  cases h with
  | stated => exact ⟨n, litTypeOf_stated hr, bare_name hn, e1⟩
  | elided =>
    refine ⟨n, ?_, bare_name hn, e1⟩
    rw [show E = ⟨pk (.named p n), nm (.named p n)⟩ from ha]
    exact litTypeOf_elided hr
  | elidedPtr =>
    refine ⟨star ++ n, ?_, bare_star hn, elem_of_head ?_⟩
    · rw [show E = ⟨pk (.ptr (.named p n)), nm (.ptr (.named p n))⟩ from ha, Option.map_none, litTypeOf_elided hr.ptr, nm_ptr hr]
      rfl
    · have := hn.no '['
      simp [star, this]

theorem litTypeOf_list {ctx : Str} {exp ty : Option Ty} {E : LitType} {t : Ty}
    (h : ty = some (.list t) ∨ ty = none ∧ exp = some (.list t)) (ha : Agrees exp E) (hr : Readable t) :
    litTypeOf ctx E (ty.map exprOf) = ⟨pk t, brackets ++ nm t⟩ := by
  rw [← nm_list hr]
  rcases h with rfl | ⟨rfl, rfl⟩
  · exact litTypeOf_stated hr.list
  · rw [show E = ⟨pk (.list t), nm (.list t)⟩ from ha]
    exact litTypeOf_elided hr.list

theorem elem_list (s : Str) : elementTypeName (brackets ++ s) = s := by
  simp [elementTypeName, brackets, List.isPrefixOf]

theorem LitOf.unique {exp ty : Option Ty} {a b : Ty} (h : LitOf exp ty a) (g : LitOf exp ty b) : a = b := by
  cases h <;> cases g <;> first | rfl | (rename_i h; exact absurd rfl (h _))

/-! ## Values -/

theorem known_dot {known : Str → Bool} (hk : ∀ s, known s = true → '.' ∈ s) {n : Str} (hn : Name n) : known n = false := by
  cases h : known n with
  | false => rfl
  | true => exact absurd (hk n h) (hn.no '.')

theorem keyFromName_eq {known : Str → Bool} {p n : Str} (hn : n ≠ []) (hk : known n = false) (hp : p ≠ []) :
    keyFromName known p n = if known (p ++ dot ++ n) = true then some (p ++ dot ++ n) else none := by
  simp [keyFromName, hn, hk, hp]

theorem mem_ite_toList {f k : Str} {c : Prop} [Decidable c] :
    f ∈ (if c then some k else none).toList ↔ f = k ∧ c := by
  by_cases h : c <;> simp [h]

theorem keys_iff {D : Decls} {known : Str → Bool} {ctx : Str} (hk : ∀ s, known s = true → '.' ∈ s) (hc : ctx ≠ [])
    {d : Nat} {exp : Option Ty} {v : Val} (h : Plain D known ctx d exp v) (f : Str) :
    f ∈ keysOfValue known ctx (argOf ctx v) ↔ IsFn ctx v f ∧ known f = true := by
  have fnCase : ∀ {p q n : Str}, known n = false → p ≠ [] → Name n →
      (f ∈ (keyFromName known p n).toList ↔ IsFn ctx (.fn p q n) f ∧ known f = true) := by
    intro p q n h0 hp hn
    rw [keyFromName_eq hn.1 h0 hp, mem_ite_toList]
    constructor
    · rintro ⟨rfl, h⟩; exact ⟨.fn p q n, h⟩
    · rintro ⟨h, h2⟩
      cases h
      exact ⟨rfl, h2⟩
  cases h with
  | @fn _ _ p q n hp hn =>
    have h0 := known_dot hk hn
    by_cases hpc : p = ctx
    · have e : argOf ctx (.fn p q n) = .ident p n := if_pos hpc
      rw [e, keysOfValue, if_neg hp]
      exact fnCase h0 hp hn
    · have e : argOf ctx (.fn p q n) = .sel (.ident p q) p n none none := if_neg hpc
      rw [e, keysOfValue, if_neg hn.1, if_neg hp]
      have hb : bareTypeName [] = [] := by decide
      simp only [Option.getD_none, hb, ne_eq, not_true_eq_false, false_and, if_false]
      exact fnCase h0 hp hn
  | @method _ _ p r n hp hr hn hm =>
    show f ∈ keysOfValue known ctx (.sel (.ident ctx ['x']) p n (some r) none) ↔ _
    rw [keysOfValue, if_neg hn.1, if_neg hp]
    simp only [bare_name hr]
    by_cases hkn : known (p ++ dot ++ r ++ dot ++ n) = true
    · rw [if_pos ⟨hr.1, hkn⟩, List.mem_singleton]
      constructor
      · rintro rfl; exact ⟨.method p r n, hkn⟩
      · rintro ⟨h, _⟩; cases h; rfl
    · rw [if_neg (fun h => hkn h.2), keyFromName_eq hn.1 (known_dot hk hn) hp, hm (by simpa using hkn)]
      simp only [Bool.false_eq_true, if_false, Option.toList_none, List.not_mem_nil, false_iff]
      rintro ⟨h, h2⟩
      cases h
      exact hkn h2
  | @closure _ _ n hn h0 =>
    show f ∈ (keyFromName known ctx n).toList ↔ _
    rw [keyFromName_eq hn h0 hc, mem_ite_toList]
    constructor
    · rintro ⟨rfl, h⟩; exact ⟨.closure n, h⟩
    · rintro ⟨h, h2⟩
      cases h
      exact ⟨rfl, h2⟩
  | @var _ _ p n hp hn h0 =>
    show f ∈ (keyFromName known (if p = [] then ctx else p) n).toList ↔ _
    rw [if_neg hp, keyFromName_eq hn.1 (known_dot hk hn) hp, h0]
    simp only [Bool.false_eq_true, if_false, Option.toList_none, List.not_mem_nil, false_iff]
    rintro ⟨h, _⟩
    cases h
  | @field _ _ p o n hp ho hn h0 h1 =>
    show f ∈ keysOfValue known ctx (.sel (.ident ctx ['x']) p n none (some o)) ↔ _
    rw [keysOfValue, if_neg hn.1, if_neg hp]
    simp only [Option.getD_some, bare_name ho, h0, Bool.false_eq_true, and_false, if_false]
    rw [keyFromName_eq hn.1 (known_dot hk hn) hp, h1]
    simp only [Bool.false_eq_true, if_false, Option.toList_none, List.not_mem_nil, false_iff]
    rintro ⟨h, _⟩
    cases h
  | keyed | positional | external | list | addr | call =>
    exact ⟨fun h => absurd h List.not_mem_nil, fun h => by cases h.1⟩
  | conv _ hno =>
    exact ⟨fun h => absurd h List.not_mem_nil, fun h => by cases h.1; exact absurd (by assumption) (hno _)⟩

/-! ## Fields -/

theorem fieldsOf_declared {D : Decls} {W : World} {p n : Str} {fs : List (Str × Ty)} (hW : W.structs = recordedStructs D)
    (h : Declared D p n fs) : fieldsOf W p n = fs.map fun f => (f.1, fieldText p f.2) := by
  unfold fieldsOf
  rw [if_neg (by rintro (h0 | h0); exact h.pkg h0; exact h.name.1 h0), hW]
  cases hf : (recordedStructs D).find? fun s => s.pkg == p && s.name == n && !s.fields.isEmpty with
  | none =>
    have := List.find?_eq_none.1 hf ⟨p, n, fs.map fun f => (f.1, fieldText p f.2)⟩ (List.mem_map.2 ⟨_, h.mem, rfl⟩)
    simp [h.fields] at this
  | some s =>
    have h1 := List.find?_some hf
    have h2 := List.mem_of_find?_eq_some hf
    obtain ⟨⟨p', n', fs'⟩, hm, rfl⟩ := List.mem_map.1 h2
    simp only [Bool.and_eq_true, beq_iff_eq] at h1
    obtain ⟨⟨rfl, rfl⟩, _⟩ := h1
    have := h.once _ hm rfl rfl
    simp only at this
    subst this
    rfl

theorem fieldsOf_external {D : Decls} {W : World} {p n : Str} (hW : W.structs = recordedStructs D)
    (h : ∀ fs, (p, n, fs) ∉ D.structs) : fieldsOf W p n = [] := by
  unfold fieldsOf
  split
  · rfl
  · rw [hW]
    cases hf : (recordedStructs D).find? fun s => s.pkg == p && s.name == n && !s.fields.isEmpty with
    | none => rfl
    | some s =>
      have h1 := List.find?_some hf
      obtain ⟨⟨p', n', fs'⟩, hm, rfl⟩ := List.mem_map.1 (List.mem_of_find?_eq_some hf)
      simp only [Bool.and_eq_true, beq_iff_eq] at h1
      obtain ⟨⟨rfl, rfl⟩, _⟩ := h1
      exact absurd hm (h _)

theorem fieldType_mem {p : Str} {fs : List (Str × Ty)} (hn : (fs.map (·.1)).Nodup) {k : Str} {t : Ty} (hm : (k, t) ∈ fs) :
    fieldType (fs.map fun f => (f.1, fieldText p f.2)) k = fieldText p t := by
  unfold fieldType
  cases hf : (fs.map fun f => (f.1, fieldText p f.2)).reverse.find? fun f => f.1 == k with
  | none =>
    have := List.find?_eq_none.1 hf (k, fieldText p t) (List.mem_reverse.2 (List.mem_map.2 ⟨_, hm, rfl⟩))
    simp at this
  | some f =>
    have h1 := List.find?_some hf
    obtain ⟨g, hg, rfl⟩ := List.mem_map.1 (List.mem_reverse.1 (List.mem_of_find?_eq_some hf))
    simp only [beq_iff_eq] at h1
    have : g = (k, t) := by
      clear hf
      induction fs with
      | nil => cases hg
      | cons a as ih =>
        rw [List.map_cons, List.nodup_cons] at hn
        rcases List.mem_cons.1 hg with rfl | hg' <;> rcases List.mem_cons.1 hm with hm' | hm'
        · exact hm'.symm
        · exact absurd (List.mem_map.2 ⟨_, hm', h1.symm⟩) hn.1
        · subst hm'; exact absurd (List.mem_map.2 ⟨_, hg', h1⟩) hn.1
        · exact ih hn.2 hm' hg'
    subst this
    rfl

theorem fieldType_none {p : Str} {fs : List (Str × Ty)} {k : Str} (h : k ∉ fs.map (·.1)) :
    fieldType (fs.map fun f => (f.1, fieldText p f.2)) k = [] := by
  unfold fieldType
  cases hf : (fs.map fun f => (f.1, fieldText p f.2)).reverse.find? fun f => f.1 == k with
  | none => rfl
  | some f =>
    have h1 := List.find?_some hf
    obtain ⟨g, hg, rfl⟩ := List.mem_map.1 (List.mem_reverse.1 (List.mem_of_find?_eq_some hf))
    simp only [beq_iff_eq] at h1
    exact absurd (List.mem_map.2 ⟨_, hg, h1⟩) h

theorem isFunc_no {s : Str} (h1 : s ≠ ['f', 'u', 'n', 'c']) (h2 : '(' ∉ s) (h3 : s.head? ≠ some '*') : isFuncType s = false := by
  have hs : trimPrefix star s = s := trimPrefix_ne h3
  unfold isFuncType
  simp only [hs, Bool.or_eq_false_iff, beq_eq_false_iff_ne]
  refine ⟨h1, ?_⟩
  cases hb : (['f', 'u', 'n', 'c', '('] : Str).isPrefixOf s with
  | false => rfl
  | true => exact absurd ((List.isPrefixOf_iff_prefix.1 hb).subset (by simp)) h2

theorem isFunc_iff {own : Str} {t : Ty} (h : FieldTy t) : isFuncType (fieldText own t) = true ↔ t = .func := by
  have nameCase : ∀ {p n : Str}, Name n ∧ '(' ∉ p ∧ '*' ∉ p → isFuncType (fieldText own (.named p n)) = false ∧
      (fieldText own (.named p n)).head? ≠ some '*' ∧ fieldText own (.named p n) ≠ ['f', 'u', 'n', 'c'] ∧
      '(' ∉ fieldText own (.named p n) := by
    intro p n ⟨hn, hp, hp2⟩
    show isFuncType (if p = own then n else p ++ dot ++ n) = false ∧ _
    have e : fieldText own (.named p n) = if p = own then n else p ++ dot ++ n := rfl
    rw [e]
    by_cases hpo : p = own
    · simp only [hpo, if_true]
      exact ⟨isFunc_no hn.2.2 (hn.no '(') (hn.head '*'), hn.head '*', hn.2.2, hn.no '('⟩
    · simp only [hpo, if_false]
      have h1 : p ++ dot ++ n ≠ ['f', 'u', 'n', 'c'] := by
        intro hc
        have : '.' ∈ p ++ dot ++ n := by simp [dot]
        rw [hc] at this
        exact absurd this (by decide)
      have h2 : '(' ∉ p ++ dot ++ n := by
        have := hn.no '('
        simp [dot, hp, this]
      have h3 : (p ++ dot ++ n).head? ≠ some '*' := by
        intro hc
        have := List.mem_of_mem_head? hc
        have hn2 := hn.no '*'
        simp [dot, hp2, hn2] at this
      exact ⟨isFunc_no h1 h2 h3, h3, h1, h2⟩
  cases t with
  | func => exact ⟨fun _ => rfl, fun _ => (by show isFuncType ['f', 'u', 'n', 'c'] = true; decide)⟩
  | named p n => rw [(nameCase h).1]; simp
  | ptr t =>
    have e : isFuncType (fieldText own (.ptr t)) = (fieldText own t == ['f', 'u', 'n', 'c'] ||
        (['f', 'u', 'n', 'c', '('] : Str).isPrefixOf (fieldText own t)) := by
      show isFuncType ('*' :: fieldText own t) = _
      simp [isFuncType, trimPrefix, star, List.isPrefixOf]
    have : isFuncType (fieldText own (.ptr t)) = false := by
      rw [e]
      cases t with
      | func => exact absurd rfl h.1
      | named p n =>
        obtain ⟨h1, h2, _, _⟩ := nameCase h.2
        have hs : trimPrefix star (fieldText own (.named p n)) = fieldText own (.named p n) := trimPrefix_ne h2
        simpa only [isFuncType, hs] using h1
      | ptr t => simp [fieldText, star, List.isPrefixOf]
      | list t => simp [fieldText, brackets, List.isPrefixOf]
      | map t => simp [fieldText, List.isPrefixOf]
      | other => simp [fieldText, List.isPrefixOf]
    rw [this]; simp
  | list t =>
    have : isFuncType (fieldText own (.list t)) = false := by
      show isFuncType ('[' :: ']' :: fieldText own t) = false
      simp [isFuncType, trimPrefix, star, List.isPrefixOf]
    rw [this]; simp
  | map t =>
    have : isFuncType (fieldText own (.map t)) = false := by
      show isFuncType ('m' :: 'a' :: 'p' :: '[' :: 's' :: ']' :: fieldText own t) = false
      simp [isFuncType, trimPrefix, star, List.isPrefixOf]
    rw [this]; simp
  | other => exact ⟨fun h => absurd h (by show ¬ isFuncType ['o'] = true; decide), fun h => by cases h⟩

/-! ## The walk -/

theorem argsOf_eq (ctx : Str) : ∀ vs : List Val, argsOf ctx vs = vs.map (argOf ctx)
  | [] => rfl
  | v :: vs => by rw [argsOf, argsOf_eq ctx vs]; rfl

theorem argOf_kv {ctx : Str} {v : Val} (h : ∀ k w, v ≠ .kv k w) : ∀ k a, argOf ctx v ≠ .kv k a := by
  intro k a
  cases v with
  | kv k v => exact absurd rfl (h k v)
  | fn p q n =>
    show (if p = ctx then _ else _) ≠ _
    split <;> exact fun h => by cases h
  | _ => exact fun h => by cases h

/-- What one element of a literal gives. -/
def eltRecs (W : World) (ctx : Str) (d : Nat) (l : LitType) (i : Nat) : Arg → List Rec
  | .kv key v => record W ctx l (key.getD []) v ++ walk W ctx (d + 1) (nextKeyed W l (key.getD [])) v
  | e => match positional W l i with
    | some f => record W ctx l f.1 e ++ walk W ctx (d + 1) ⟨l.pkg, f.2⟩ e
    | none => walk W ctx (d + 1) ⟨l.pkg, elementTypeName l.name⟩ e

theorem eltRecs_other {W : World} {ctx : Str} {d : Nat} {l : LitType} {i : Nat} {e : Arg} (h : ∀ k a, e ≠ .kv k a) :
    eltRecs W ctx d l i e = match positional W l i with
      | some f => record W ctx l f.1 e ++ walk W ctx (d + 1) ⟨l.pkg, f.2⟩ e
      | none => walk W ctx (d + 1) ⟨l.pkg, elementTypeName l.name⟩ e := by
  cases e with
  | kv k a => exact absurd rfl (h k a)
  | _ => rfl

theorem walkElts_cons (W : World) (ctx : Str) (d : Nat) (l : LitType) (i : Nat) (e : Arg) (es : List Arg) :
    walkElts W ctx d l i (e :: es) = eltRecs W ctx d l i e ++ walkElts W ctx d l (i + 1) es := by
  cases e with
  | kv k v => rw [walkElts]; rfl
  | _ =>
    rw [walkElts]
    · rfl
    · intro k v h; cases h

theorem mem_walkElts {W : World} {ctx : Str} {d : Nat} {l : LitType} {r : Rec} : ∀ (as : List Arg) (i : Nat),
    r ∈ walkElts W ctx d l i as ↔ ∃ j a, as[j]? = some a ∧ r ∈ eltRecs W ctx d l (i + j) a
  | [], i => by simp [walkElts]
  | a :: as, i => by
    rw [walkElts_cons, List.mem_append, mem_walkElts as (i + 1)]
    constructor
    · rintro (h | ⟨j, b, h1, h2⟩)
      · exact ⟨0, a, rfl, h⟩
      · exact ⟨j + 1, b, h1, by rwa [show i + (j + 1) = i + 1 + j by omega]⟩
    · rintro ⟨j, b, h1, h2⟩
      cases j with
      | zero => cases h1; exact .inl h2
      | succ j => exact .inr ⟨j, b, h1, by rwa [show i + 1 + j = i + (j + 1) by omega]⟩

theorem mem_walkAll {W : World} {ctx : Str} {d : Nat} {E : LitType} {r : Rec} : ∀ as : List Arg,
    r ∈ walkAll W ctx d E as ↔ ∃ a ∈ as, r ∈ walk W ctx d E a
  | [] => by simp [walkAll]
  | a :: as => by rw [walkAll, List.mem_append, mem_walkAll as]; simp

theorem mem_record {W : World} {ctx p s n k : Str} {a : Arg} {r : Rec} (hb : bareTypeName s = n) :
    r ∈ record W ctx ⟨p, s⟩ k a ↔ (k ≠ [] ∧ (W.entry p n k = true ∨ isFuncType (fieldType (fieldsOf W p n) k) = true)) ∧
      ∃ f ∈ keysOfValue W.known ctx a, r = ⟨p, n, k, f⟩ := by
  subst hb
  unfold record
  simp only
  split
  · rename_i h
    simp only [List.mem_map]
    constructor
    · rintro ⟨f, hf, rfl⟩; exact ⟨h, f, hf, rfl⟩
    · rintro ⟨_, f, hf, rfl⟩; exact ⟨f, hf, rfl⟩
  · rename_i h
    exact ⟨fun h => absurd h List.not_mem_nil, fun h' => absurd h'.1 h⟩

theorem Stored.weaken {D : Decls} {entry : Str → Str → Str → Bool} {ctx : Str} {exp : Option Ty} {v : Val} {r : Rec}
    (h : Stored D entry ctx none v r) : Stored D entry ctx exp v r := by
  have lit : ∀ {ty : Option Ty} {T : Ty}, LitOf none ty T → LitOf exp ty T := by
    intro ty T h
    cases h
    exact .stated _ _
  cases h with
  | keyed a b c d => exact .keyed (lit a) b c d
  | positional a b c d e f => exact .positional (lit a) b c d e f
  | element a b c d => exact .element (lit a) b c d
  | value a b c => exact .value (lit a) b c
  | addr a => exact .addr a
  | conv a => exact .conv a
  | call a b => exact .call a b

theorem dispatches_iff {D : Decls} {W : World} {p n k : Str} {fs : List (Str × Ty)} (hW : W.structs = recordedStructs D)
    (h : Declared D p n fs) :
    (W.entry p n k = true ∨ isFuncType (fieldType (fieldsOf W p n) k) = true) ↔ Dispatches D W.entry p n k := by
  rw [fieldsOf_declared hW h]
  constructor
  · rintro (h1 | h1)
    · exact .inr h1
    · by_cases hk : k ∈ fs.map (·.1)
      · obtain ⟨⟨k', t⟩, hm, rfl⟩ := List.mem_map.1 hk
        rw [fieldType_mem h.distinct hm, isFunc_iff (h.types _ hm).1] at h1
        subst h1
        exact .inl ⟨fs, .func, h.mem, hm, .func⟩
      · rw [fieldType_none hk] at h1
        exact absurd h1 (by decide)
  · rintro (⟨fs', t, h1, h2, h3⟩ | h1)
    · have := h.once _ h1 rfl rfl
      simp only at this
      subst this
      have ht := (h.types _ h2).2 h3
      simp only at ht
      subst ht
      right
      rw [fieldType_mem h.distinct h2, isFunc_iff (h.types _ h2).1]
    · exact .inl h1

/-- What the walk records in a plain expression is what is stored there and is known. -/
theorem walk_iff {D : Decls} {W : World} {ctx : Str} (hW : W.structs = recordedStructs D)
    (hk : ∀ s, W.known s = true → '.' ∈ s) (hc : ctx ≠ []) (hD : ∀ s ∈ D.structs, ∀ f ∈ s.2.2, f.1 ≠ [])
    {d : Nat} {exp : Option Ty} {v : Val} (h : Plain D W.known ctx d exp v) : ∀ (E : LitType), Agrees exp E → ∀ r,
    (r ∈ walk W ctx d E (argOf ctx v) ↔ Stored D W.entry ctx exp v r ∧ W.known r.fn = true) := by
  induction h with
  | @fn d _ p q n _ _ =>
    intro E _ r
    have : r ∉ walk W ctx d E (argOf ctx (.fn p q n)) := by
      show r ∉ walk W ctx d E (if p = ctx then _ else _)
      split
      · simp [walk]
      · simp [walk]
    exact ⟨fun h => absurd h this, fun h => by cases h.1⟩
  | @method d _ p r n =>
    intro E _ x
    have : x ∉ walk W ctx d E (argOf ctx (.method p r n)) := by
      show x ∉ walk W ctx d E (.sel (.ident ctx ['x']) p n (some r) none)
      simp [walk]
    exact ⟨fun h => absurd h this, fun h => by cases h.1⟩
  | @closure d _ n =>
    intro E _ x
    have : x ∉ walk W ctx d E (argOf ctx (.closure n)) := by
      show x ∉ walk W ctx d E (.funcLit n)
      simp [walk]
    exact ⟨fun h => absurd h this, fun h => by cases h.1⟩
  | @var d _ p n =>
    intro E _ x
    have : x ∉ walk W ctx d E (argOf ctx (.var p n)) := by
      show x ∉ walk W ctx d E (.ident p n)
      simp [walk]
    exact ⟨fun h => absurd h this, fun h => by cases h.1⟩
  | @field d _ p o n =>
    intro E _ x
    have : x ∉ walk W ctx d E (argOf ctx (.field p o n)) := by
      show x ∉ walk W ctx d E (.sel (.ident ctx ['x']) p n none (some o))
      simp [walk]
    exact ⟨fun h => absurd h this, fun h => by cases h.1⟩
  | @addr d _ v hd _ ih =>
    intro E _ r
    show r ∈ walk W ctx d E (.other [argOf ctx v] []) ↔ _
    rw [walk, if_neg (by omega), List.mem_append, mem_walkAll, mem_walkAll]
    simp only [List.mem_singleton, exists_eq_left, List.not_mem_nil, false_and, exists_false, or_false]
    rw [ih E trivial r]
    exact ⟨fun h => ⟨.addr h.1, h.2⟩, fun h => by cases h.1 with | addr h' => exact ⟨h', h.2⟩⟩
  | @conv d _ v hd _ _ ih =>
    intro E _ r
    show r ∈ walk W ctx d E (.other [.other [] []] [argOf ctx v]) ↔ _
    rw [walk, if_neg (by omega), List.mem_append, mem_walkAll, mem_walkAll]
    simp only [List.mem_singleton, exists_eq_left]
    have h0 : r ∉ walk W ctx (d + 1) E (.other [] []) := by
      rw [walk]; split <;> simp [walkAll]
    rw [ih ⟨[], []⟩ trivial r]
    exact ⟨fun h => h.elim (fun h => absurd h h0) fun h => ⟨.conv h.1, h.2⟩,
      fun h => by cases h.1 with | conv h' => exact .inr ⟨h', h.2⟩⟩
  | @call d _ args hd _ ih =>
    intro E _ r
    show r ∈ walk W ctx d E (.other [.other [] []] (argsOf ctx args)) ↔ _
    rw [walk, if_neg (by omega), List.mem_append, mem_walkAll, mem_walkAll, argsOf_eq]
    simp only [List.mem_singleton, exists_eq_left]
    have h0 : r ∉ walk W ctx (d + 1) E (.other [] []) := by
      rw [walk]; split <;> simp [walkAll]
    constructor
    · rintro (h | ⟨a, ha, h⟩)
      · exact absurd h h0
      · obtain ⟨v, hv, rfl⟩ := List.mem_map.1 ha
        obtain ⟨h1, h2⟩ := (ih v hv ⟨[], []⟩ trivial r).1 h
        exact ⟨.call hv h1, h2⟩
    · rintro ⟨h, h2⟩
      cases h with
      | call hv h1 => exact .inr ⟨_, List.mem_map.2 ⟨_, hv, rfl⟩, (ih _ hv ⟨[], []⟩ trivial r).2 ⟨h1, h2⟩⟩
  | @keyed d exp ty p n fs elts hd hl hdec hkv hmem hpl ih =>
    intro E ha r
    obtain ⟨s, e1, e2, e3⟩ := litTypeOf_struct (ctx := ctx) hl ha hdec.pkg hdec.name
    show r ∈ walk W ctx d E (.lit (ty.map exprOf) (argsOf ctx elts)) ↔ _
    rw [walk, if_neg (by omega), mem_walkElts, argsOf_eq, e1]
    constructor
    · rintro ⟨j, a, h1, h2⟩
      rw [List.getElem?_map, Option.map_eq_some_iff] at h1
      obtain ⟨e, he, rfl⟩ := h1
      have hem := List.mem_of_getElem? he
      obtain ⟨k, v, rfl⟩ := hkv e hem
      rcases List.mem_append.1 h2 with h2 | h2
      · rw [mem_record e2] at h2
        obtain ⟨⟨_, h3⟩, f, hf, rfl⟩ := h2
        rw [dispatches_iff hW hdec] at h3
        obtain ⟨h4, h5⟩ := (keys_iff hk hc (hpl k v hem) f).1 hf
        exact ⟨.keyed hl hem h3 h4, h5⟩
      · obtain ⟨h4, h5⟩ := (ih k v hem _ trivial r).1 h2
        exact ⟨.value hl (.inr ⟨_, hem⟩) h4, h5⟩
    · rintro ⟨h, h2⟩
      have value : ∀ {v : Val}, (v ∈ elts ∨ ∃ k, Val.kv k v ∈ elts) → Stored D W.entry ctx none v r →
          ∃ j a, (elts.map (argOf ctx))[j]? = some a ∧ r ∈ eltRecs W ctx d ⟨p, s⟩ (0 + j) a := by
        intro v hv hs
        rcases hv with hv | ⟨k, hv⟩
        · obtain ⟨k, w, rfl⟩ := hkv v hv
          cases hs
        · obtain ⟨j, hj⟩ := List.getElem?_of_mem hv
          obtain ⟨k', w, hkw⟩ := hkv _ hv
          cases hkw
          exact ⟨j, _, by rw [List.getElem?_map, hj]; rfl, List.mem_append.2 (.inr ((ih k' v hv _ trivial r).2 ⟨hs, h2⟩))⟩
      cases h with
      | @keyed _ _ p' n' _ k v f hl' hm hdis hfn =>
        cases hl.unique hl'
        obtain ⟨j, hj⟩ := List.getElem?_of_mem hm
        obtain ⟨⟨k', t⟩, hkt, hk'⟩ := List.mem_map.1 (hmem k v hm)
        refine ⟨j, _, by rw [List.getElem?_map, hj]; rfl, List.mem_append.2 (.inl ?_)⟩
        rw [mem_record e2]
        refine ⟨⟨?_, (dispatches_iff hW hdec).2 hdis⟩, f, (keys_iff hk hc (hpl k v hm) f).2 ⟨hfn, h2⟩, rfl⟩
        exact hk' ▸ hD _ hdec.mem _ hkt
      | positional hl' hm h3 h4 h5 h6 =>
        obtain ⟨k, w, hkw⟩ := hkv _ (List.mem_of_getElem? h4)
        subst hkw
        cases h6
      | element hl' hel hv hs =>
        cases hl.unique hl'
        cases hel with
        | defined hm _ => exact absurd hm (hdec.struct _)
      | value _ hv hs => exact value hv hs
  | @external d exp ty p n elts hd hl hp hn hno hnd hkv hpl ih =>
    intro E ha r
    obtain ⟨s, e1, e2, e3⟩ := litTypeOf_struct (ctx := ctx) hl ha hp hn
    show r ∈ walk W ctx d E (.lit (ty.map exprOf) (argsOf ctx elts)) ↔ _
    rw [walk, if_neg (by omega), mem_walkElts, argsOf_eq, e1]
    have hf0 : fieldsOf W p n = [] := fieldsOf_external hW hno
    constructor
    · rintro ⟨j, a, h1, h2⟩
      rw [List.getElem?_map, Option.map_eq_some_iff] at h1
      obtain ⟨e, he, rfl⟩ := h1
      have hem := List.mem_of_getElem? he
      obtain ⟨k, v, rfl, _⟩ := hkv e hem
      rcases List.mem_append.1 h2 with h2 | h2
      · rw [mem_record e2, hf0] at h2
        obtain ⟨⟨_, h3⟩, f, hf, rfl⟩ := h2
        obtain ⟨h4, h5⟩ := (keys_iff hk hc (hpl k v hem) f).1 hf
        rcases h3 with h3 | h3
        · exact ⟨.keyed hl hem (.inr h3) h4, h5⟩
        · exact absurd h3 (by show ¬ isFuncType [] = true; decide)
      · obtain ⟨h4, h5⟩ := (ih k v hem _ trivial r).1 h2
        exact ⟨.value hl (.inr ⟨_, hem⟩) h4, h5⟩
    · rintro ⟨h, h2⟩
      cases h with
      | @keyed _ _ p' n' _ k v f hl' hm hdis hfn =>
        cases hl.unique hl'
        obtain ⟨j, hj⟩ := List.getElem?_of_mem hm
        obtain ⟨k', w, hkw, hk0⟩ := hkv _ hm
        cases hkw
        refine ⟨j, _, by rw [List.getElem?_map, hj]; rfl, List.mem_append.2 (.inl ?_)⟩
        rw [mem_record e2]
        refine ⟨⟨hk0, ?_⟩, f, (keys_iff hk hc (hpl k v hm) f).2 ⟨hfn, h2⟩, rfl⟩
        rcases hdis with ⟨fs', t, h1, _⟩ | h1
        · exact absurd h1 (hno _)
        · exact .inl h1
      | positional hl' hm h3 h4 h5 h6 =>
        cases hl.unique hl'
        exact absurd hm (hno _)
      | element hl' hel hv hs =>
        cases hl.unique hl'
        cases hel with
        | defined hm _ => exact absurd hm (hnd _)
      | @value _ _ _ _ v _ _ hv hs =>
        rcases hv with hv | ⟨k, hv⟩
        · obtain ⟨k, w, rfl, _⟩ := hkv v hv
          cases hs
        · obtain ⟨j, hj⟩ := List.getElem?_of_mem hv
          obtain ⟨k', w, hkw, _⟩ := hkv _ hv
          cases hkw
          exact ⟨j, _, by rw [List.getElem?_map, hj]; rfl, List.mem_append.2 (.inr ((ih k' v hv _ trivial r).2 ⟨hs, h2⟩))⟩
  | @positional d exp ty p n fs elts hd hl hdec hkv hlen hpl ih =>
    intro E ha r
    obtain ⟨s, e1, e2, e3⟩ := litTypeOf_struct (ctx := ctx) hl ha hdec.pkg hdec.name
    show r ∈ walk W ctx d E (.lit (ty.map exprOf) (argsOf ctx elts)) ↔ _
    rw [walk, if_neg (by omega), mem_walkElts, argsOf_eq, e1]
    have pos : ∀ {j : Nat} {e : Val}, elts[j]? = some e → ∃ g, fs[j]? = some g ∧
        eltRecs W ctx d ⟨p, s⟩ (0 + j) (argOf ctx e) =
          record W ctx ⟨p, s⟩ g.1 (argOf ctx e) ++ walk W ctx (d + 1) ⟨p, fieldText p g.2⟩ (argOf ctx e) := by
      intro j e he
      have hj : j < fs.length := by
        have := (List.getElem?_eq_some_iff.1 he).1
        omega
      refine ⟨fs[j], List.getElem?_eq_getElem hj, ?_⟩
      rw [eltRecs_other (argOf_kv (hkv e (List.mem_of_getElem? he))), Nat.zero_add]
      have : positional W ⟨p, s⟩ j = some (fs[j].1, fieldText p fs[j].2) := by
        unfold positional
        simp only [e3, if_true, e2]
        rw [fieldsOf_declared hW hdec, List.getElem?_map, List.getElem?_eq_getElem hj]
        rfl
      rw [this]
    constructor
    · rintro ⟨j, a, h1, h2⟩
      rw [List.getElem?_map, Option.map_eq_some_iff] at h1
      obtain ⟨e, he, rfl⟩ := h1
      have hem := List.mem_of_getElem? he
      obtain ⟨⟨k, t⟩, hg, hrec⟩ := pos he
      rw [hrec] at h2
      rcases List.mem_append.1 h2 with h2 | h2
      · rw [mem_record e2] at h2
        obtain ⟨⟨_, h3⟩, f, hf, rfl⟩ := h2
        rw [dispatches_iff hW hdec] at h3
        obtain ⟨h4, h5⟩ := (keys_iff hk hc (hpl e hem) f).1 hf
        exact ⟨.positional hl hdec.mem hg he h3 h4, h5⟩
      · obtain ⟨h4, h5⟩ := (ih e hem _ trivial r).1 h2
        exact ⟨.value hl (.inl hem) h4, h5⟩
    · rintro ⟨h, h2⟩
      cases h with
      | keyed hl' hm hdis hfn => exact absurd rfl (hkv _ hm _ _)
      | @positional _ _ p' n' _ fs' i k t v f hl' hm h3 h4 h5 h6 =>
        cases hl.unique hl'
        have := hdec.once _ hm rfl rfl
        simp only at this
        subst this
        obtain ⟨g, hg, hrec⟩ := pos h4
        rw [h3] at hg
        cases hg
        refine ⟨i, _, by rw [List.getElem?_map, h4]; rfl, ?_⟩
        rw [hrec]
        refine List.mem_append.2 (.inl ?_)
        rw [mem_record e2]
        exact ⟨⟨hD _ hdec.mem _ (List.mem_of_getElem? h3), (dispatches_iff hW hdec).2 h5⟩, f,
          (keys_iff hk hc (hpl _ (List.mem_of_getElem? h4)) f).2 ⟨h6, h2⟩, rfl⟩
      | element hl' hel hv hs =>
        cases hl.unique hl'
        cases hel with
        | defined hm _ => exact absurd hm (hdec.struct _)
      | value _ hv hs =>
        rcases hv with hv | ⟨k, hv⟩
        · obtain ⟨j, hj⟩ := List.getElem?_of_mem hv
          obtain ⟨g, hg, hrec⟩ := pos hj
          refine ⟨j, _, by rw [List.getElem?_map, hj]; rfl, ?_⟩
          rw [hrec]
          exact List.mem_append.2 (.inr ((ih _ hv _ trivial r).2 ⟨hs, h2⟩))
        · exact absurd rfl (hkv _ hv _ _)
  | @list d exp ty t elts hd hl hr hnone hpl hpl2 ih ih2 =>
    intro E ha r
    have e1 := litTypeOf_list (ctx := ctx) hl ha hr
    have hl2 : LitOf exp ty (.list t) := by
      rcases hl with rfl | ⟨rfl, rfl⟩
      · exact .stated _ _
      · exact .elided _ (fun u h => by cases h)
    show r ∈ walk W ctx d E (.lit (ty.map exprOf) (argsOf ctx elts)) ↔ _
    rw [walk, if_neg (by omega), mem_walkElts, argsOf_eq, e1]
    have kvRec : ∀ {j : Nat} {v : Val}, eltRecs W ctx d ⟨pk t, brackets ++ nm t⟩ j (argOf ctx (.kv none v)) =
        walk W ctx (d + 1) ⟨pk t, nm t⟩ (argOf ctx v) := by
      intro j v
      show record W ctx ⟨pk t, brackets ++ nm t⟩ [] (argOf ctx v) ++
        walk W ctx (d + 1) (nextKeyed W ⟨pk t, brackets ++ nm t⟩ []) (argOf ctx v) = _
      have h1 : record W ctx ⟨pk t, brackets ++ nm t⟩ [] (argOf ctx v) = [] := by simp [record]
      have h2 : nextKeyed W ⟨pk t, brackets ++ nm t⟩ [] = ⟨pk t, nm t⟩ := by
        unfold nextKeyed
        simp only [elem_list]
        rw [if_pos]
        generalize bareTypeName (brackets ++ nm t) = b
        unfold fieldType
        cases hf : (fieldsOf W (pk t) b).reverse.find? fun f => f.1 == [] with
        | none => rfl
        | some f =>
          exfalso
          have h1 := List.find?_some hf
          have h2 := List.mem_reverse.1 (List.mem_of_find?_eq_some hf)
          simp only [beq_iff_eq] at h1
          unfold fieldsOf at h2
          split at h2
          · cases h2
          · split at h2
            · rename_i s hs
              have := List.mem_of_find?_eq_some hs
              rw [hW] at this
              obtain ⟨s', hs', rfl⟩ := List.mem_map.1 this
              obtain ⟨g, hg, rfl⟩ := List.mem_map.1 h2
              exact hD _ hs' _ hg h1
            · cases h2
      rw [h1, h2, List.nil_append]
    have otherRec : ∀ {j : Nat} {e : Val}, (∀ k v, e ≠ .kv k v) →
        eltRecs W ctx d ⟨pk t, brackets ++ nm t⟩ j (argOf ctx e) = walk W ctx (d + 1) ⟨pk t, nm t⟩ (argOf ctx e) := by
      intro j e he
      rw [eltRecs_other (argOf_kv he)]
      have : positional W ⟨pk t, brackets ++ nm t⟩ j = none := by
        unfold positional
        simp only [elem_list, hr.facts.1, if_false]
      rw [this, elem_list]
    constructor
    · rintro ⟨j, a, h1, h2⟩
      rw [List.getElem?_map, Option.map_eq_some_iff] at h1
      obtain ⟨e, he, rfl⟩ := h1
      have hem := List.mem_of_getElem? he
      by_cases hx : ∃ k v, e = .kv k v
      · obtain ⟨k, v, rfl⟩ := hx
        cases hnone k v hem
        rw [kvRec] at h2
        obtain ⟨h4, h5⟩ := (ih _ v hem _ rfl r).1 h2
        exact ⟨.element hl2 (.list t) (.inr ⟨_, hem⟩) h4, h5⟩
      · have hx' : ∀ k v, e ≠ .kv k v := fun k v h => hx ⟨k, v, h⟩
        rw [otherRec hx'] at h2
        obtain ⟨h4, h5⟩ := (ih2 e hem hx' _ rfl r).1 h2
        exact ⟨.element hl2 (.list t) (.inl hem) h4, h5⟩
    · rintro ⟨h, h2⟩
      have elem : ∀ {v : Val}, (v ∈ elts ∨ ∃ k, Val.kv k v ∈ elts) → Stored D W.entry ctx (some t) v r →
          ∃ j a, (elts.map (argOf ctx))[j]? = some a ∧ r ∈ eltRecs W ctx d ⟨pk t, brackets ++ nm t⟩ (0 + j) a := by
        intro v hv hs
        rcases hv with hv | ⟨k, hv⟩
        · have hx : ∀ k w, v ≠ .kv k w := by
            rintro k w rfl
            cases hs
          obtain ⟨j, hj⟩ := List.getElem?_of_mem hv
          refine ⟨j, _, by rw [List.getElem?_map, hj]; rfl, ?_⟩
          rw [otherRec hx]
          exact (ih2 v hv hx _ rfl r).2 ⟨hs, h2⟩
        · cases hnone k v hv
          obtain ⟨j, hj⟩ := List.getElem?_of_mem hv
          refine ⟨j, _, by rw [List.getElem?_map, hj]; rfl, ?_⟩
          rw [kvRec]
          exact (ih _ v hv _ rfl r).2 ⟨hs, h2⟩
      cases h with
      | keyed hl' => cases hl2.unique hl'
      | positional hl' => cases hl2.unique hl'
      | element hl' hel hv hs =>
        cases hl2.unique hl'
        cases hel
        exact elem hv hs
      | value hl' hv hs => exact elem hv hs.weaken

end Verif.FuncField
