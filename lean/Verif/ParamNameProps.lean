/-
C93: a documented parameter has the name the code asks the request for.
-/
import Verif.ParamNameModel

namespace Verif.ParamName
open Verif.Common Verif.ValidateModel

/-! ## Specification: what an expression is at run time -/

/-- What the memory holds when the parameter is read: package variables, variables of the function, and
the results of everything else. -/
structure Env where
  var : Str → Str → Str
  loc : Str → Str
  oth : Ex → Str

/-- What the inside of an interpreted literal stands for; escapes by number are left out. -/
inductive Body : Str → Str → Prop
  | nil : Body [] []
  | char {c b v} : c ≠ '"' → c ≠ '\\' → Body b v → Body (c :: b) (c :: v)
  | quote {b v} : Body b v → Body ('\\' :: '"' :: b) ('"' :: v)
  | slash {b v} : Body b v → Body ('\\' :: '\\' :: b) ('\\' :: v)
  | tab {b v} : Body b v → Body ('\\' :: 't' :: b) ('\t' :: v)
  | line {b v} : Body b v → Body ('\\' :: 'n' :: b) ('\n' :: v)

/-- The package declares the name, in one of its files. -/
def Declared (pr : Prog) (pkg name : Str) (d : Decl) : Prop :=
  ∃ fs file ds, (pkg, fs) ∈ pr.pkgs ∧ (file, ds) ∈ fs ∧ (name, d) ∈ ds

/-- The value of an expression at run time. -/
inductive Value (pr : Prog) (env : Env) : Ex → Str → Prop
  | interpreted {b v} : Body b v → Value pr env (.lit ('"' :: (b ++ ['"']))) v
  | raw {v} : '`' ∉ v → Value pr env (.lit ('`' :: (v ++ ['`']))) v
  | const {p n ty e v} : Declared pr p n ⟨true, some e⟩ → Value pr env e v → Value pr env (.top p n ty) v
  | var {p n ty i} : Declared pr p n ⟨false, i⟩ → Value pr env (.top p n ty) (env.var p n)
  | loc {p n ty} : Value pr env (.loc p n ty) (env.loc n)
  | qconst {path own n p ty e v} : Declared pr path n ⟨true, some e⟩ → Value pr env e v → Value pr env (.sel (.imported path own) n p ty) v
  | qvar {path own n p ty i} : Declared pr path n ⟨false, i⟩ → Value pr env (.sel (.imported path own) n p ty) (env.var path n)
  | field {x n p ty} : (∀ path own, x ≠ .imported path own) → Value pr env (.sel x n p ty) (env.oth (.sel x n p ty))
  | cat {x y v w} : Value pr env x v → Value pr env y w → Value pr env (.cat x y) (v ++ w)
  | other {r} : Value pr env (.other r) (env.oth (.other r))

/-- The code states the name: it is the same in every run. -/
def States (pr : Prog) (e : Ex) (v : Str) : Prop := ∀ env, Value pr env e v

/-- What Go's compiler guarantees: packages and files are listed once and a package declares a name
once; names are not empty. -/
structure GoProg (pr : Prog) : Prop where
  pkgs : (pr.pkgs.map Prod.fst).Nodup
  once : ∀ p n d d', Declared pr p n d → Declared pr p n d' → d = d'
  named : ∀ p n d, Declared pr p n d → n ≠ []

/-- An ordinary string literal: no quotes and no escapes inside. -/
def Ordinary (t b : Str) : Prop := t = '"' :: (b ++ ['"']) ∧ ∀ c ∈ b, c ≠ '"' ∧ c ≠ '\\'

/-- The expressions that state a name plainly: an ordinary literal, or a constant of an analyzed package
declared with one - unqualified, or qualified by a package whose name its path ends with. -/
inductive Plain (pr : Prog) : Ex → Prop
  | lit {t b} : Ordinary t b → Plain pr (.lit t)
  | own {p n ty t b} : Declared pr p n ⟨true, some (.lit t)⟩ → Ordinary t b → Plain pr (.top p n ty)
  | imported {path own n p ty t b} : Declared pr path n ⟨true, some (.lit t)⟩ → Ordinary t b →
      (∃ pre, path = pre ++ own) → Plain pr (.sel (.imported path own) n p ty)

/-- The expressions that state no name and have nothing the lookup could mistake for one: a name of the
function that no package-level declaration shares, the field of a value, and anything computed. -/
inductive Silent (pr : Prog) : Ex → Prop
  | loc {p n ty} : (∀ d, ¬ Declared pr p n d) → Silent pr (.loc p n ty)
  | field {x n p ty} : tyOf x ≠ [] → (∀ q d, ¬ Declared pr q (tyOf x ++ '.' :: n) d) → Silent pr (.sel x n p ty)
  | outside {path own n p ty} : (∃ pre, path = pre ++ own) → (∀ d, ¬ Declared pr path n d) → Silent pr (.sel (.imported path own) n p ty)
  | cat {x y} : Silent pr (.cat x y)
  | other {r} : Silent pr (.other r)

/-! ## Lemmas -/

theorem trimQ_ordinary {t b : Str} (h : Ordinary t b) : trimQ t = b := by
  obtain ⟨rfl, hb⟩ := h
  have h1 : ∀ l : Str, (∀ c ∈ l, c ≠ '"') → (l ++ ['"']).dropWhile (fun c => c == '"') = if l = [] then [] else l ++ ['"'] := by
    intro l hl
    cases l with
    | nil => rfl
    | cons c l => rw [if_neg (by simp), List.cons_append, List.dropWhile_cons_of_neg (by simp [hl c (by simp)])]
  unfold trimQ trimBy
  rw [List.dropWhile_cons_of_pos (by simp), h1 b (fun c hc => (hb c hc).1)]
  by_cases he : b = []
  · subst he; rfl
  · rw [if_neg he, List.reverse_append, List.reverse_singleton, List.singleton_append, List.dropWhile_cons_of_pos (by simp)]
    cases hr : b.reverse with
    | nil => simp at hr; exact absurd hr he
    | cons c l =>
      have hc : c ∈ b := by rw [← List.mem_reverse, hr]; simp
      rw [List.dropWhile_cons_of_neg (by simp [(hb c hc).1]), ← hr, List.reverse_reverse]

theorem body_self : ∀ {b : Str}, (∀ c ∈ b, c ≠ '"' ∧ c ≠ '\\') → Body b b
  | [], _ => .nil
  | c :: b, h => .char (h c (by simp)).1 (h c (by simp)).2 (body_self fun d hd => h d (by simp [hd]))

theorem body_plain : ∀ {b v : Str}, (∀ c ∈ b, c ≠ '"' ∧ c ≠ '\\') → Body b v → v = b := by
  intro b v h hb
  induction hb with
  | nil => rfl
  | char _ _ _ ih => rw [ih fun d hd => h d (by simp [hd])]
  | quote => exact absurd rfl (h '\\' (by simp)).2
  | slash => exact absurd rfl (h '\\' (by simp)).2
  | tab => exact absurd rfl (h '\\' (by simp)).2
  | line => exact absurd rfl (h '\\' (by simp)).2

theorem lookup_mem {l : List (Str × α)} {k : Str} {v : α} (h : lookup l k = some v) : (k, v) ∈ l := by
  unfold lookup at h
  cases hf : l.find? (fun e => e.1 == k) with
  | none => rw [hf] at h; cases h
  | some e =>
    rw [hf] at h
    injection h with h
    have h1 := List.find?_some hf
    simp only [beq_iff_eq] at h1
    have h2 := List.mem_of_find?_eq_some hf
    obtain ⟨a, b⟩ := e
    simp only at h h1
    subst h h1
    exact h2

theorem lookup_some {l : List (Str × α)} {k : Str} {v : α} (h : (k, v) ∈ l) : ∃ w, lookup l k = some w := by
  unfold lookup
  cases hf : l.find? (fun e => e.1 == k) with
  | none =>
    rw [List.find?_eq_none] at hf
    exact absurd (hf _ h) (by simp)
  | some e => exact ⟨e.2, rfl⟩

theorem inj_of_keys {α : Type} : ∀ {l : List (Str × α)}, (l.map Prod.fst).Nodup → ∀ {x y : Str × α}, x ∈ l → y ∈ l → x.1 = y.1 → x = y
  | [], _, _, _, hx, _, _ => absurd hx (by simp)
  | e :: l, hn, x, y, hx, hy, he => by
    rw [List.map_cons, List.nodup_cons] at hn
    rcases List.mem_cons.1 hx with h1 | h1
    · rcases List.mem_cons.1 hy with h2 | h2
      · rw [h1, h2]
      · exact absurd (by rw [← h1, he]; exact List.mem_map_of_mem h2) hn.1
    · rcases List.mem_cons.1 hy with h2 | h2
      · exact absurd (by rw [← h2, ← he]; exact List.mem_map_of_mem h1) hn.1
      · exact inj_of_keys hn.2 h1 h2 he

theorem lookup_nodup {α : Type} {l : List (Str × α)} (hn : (l.map Prod.fst).Nodup) {k : Str} {v : α} (h : (k, v) ∈ l) : lookup l k = some v := by
  obtain ⟨w, hw⟩ := lookup_some h
  have h1 := lookup_mem hw
  rw [hw]
  have := inj_of_keys hn h1 h rfl
  injection this with _ h3
  rw [h3]

theorem inPackage_some (pr : Prog) (hg : GoProg pr) {p n : Str} {d : Decl} (h : Declared pr p n d) :
    constantInPackage pr p n = some (trimQ (recorded pr d)) := by
  have hn := hg.named p n d h
  obtain ⟨fs, file, ds, hp, hf, hd⟩ := h
  unfold constantInPackage
  rw [lookup_nodup hg.pkgs hp]
  simp only
  rw [if_neg hn]
  have hsome : ((isort (fun a b => fileLe a.1 b.1) fs).findSome? fun f => (lookup f.2 n).map fun d => trimQ (recorded pr d)) ≠ none := by
    rw [ne_eq, List.findSome?_eq_none_iff]
    intro hall
    have := hall (file, ds) ((isort_perm _ _).mem_iff.2 hf)
    obtain ⟨w, hw⟩ := lookup_some hd
    simp only [hw] at this
    cases this
  cases hr : ((isort (fun a b => fileLe a.1 b.1) fs).findSome? fun f => (lookup f.2 n).map fun d => trimQ (recorded pr d)) with
  | none => exact absurd hr hsome
  | some v =>
    obtain ⟨f, hf', hv⟩ := List.exists_of_findSome?_eq_some hr
    cases hl : lookup f.2 n with
    | none => rw [hl] at hv; cases hv
    | some d' =>
      rw [hl] at hv
      injection hv with hv
      have : d' = d := hg.once p n d' d ⟨fs, f.1, f.2, hp, (isort_perm _ _).mem_iff.1 hf', lookup_mem hl⟩ ⟨fs, file, ds, hp, hf, hd⟩
      rw [← hv, this]

theorem inPackage_none (pr : Prog) {p n : Str} (h : ∀ d, ¬ Declared pr p n d) : constantInPackage pr p n = none := by
  unfold constantInPackage
  split
  · rfl
  · rename_i fs hl
    split
    · rfl
    · rw [List.findSome?_eq_none_iff]
      intro f hf
      cases hlk : lookup f.2 n with
      | none => rfl
      | some d => exact absurd ⟨fs, f.1, f.2, lookup_mem hl, (isort_perm _ _).mem_iff.1 hf, lookup_mem hlk⟩ (h d)

theorem hasSuffix_iff (s suf : Str) : hasSuffix s suf = true ↔ ∃ pre, s = pre ++ suf := by
  unfold hasSuffix
  rw [List.isPrefixOf_iff_prefix]
  constructor
  · rintro ⟨t, ht⟩
    refine ⟨t.reverse, ?_⟩
    have := congrArg List.reverse ht
    simpa using this.symm
  · rintro ⟨pre, rfl⟩
    exact ⟨pre.reverse, by simp⟩

theorem key_imported {path own : Str} (h : ∃ pre, path = pre ++ own) : selectorPackageKey (.imported path own) = path := by
  unfold selectorPackageKey
  rw [show pkgOf (.imported path own) = path from rfl, show nameOf (.imported path own) = own from rfl, (hasSuffix_iff _ _).2 h]
  simp

/-- A plainly stated name: what the lookup answers, and what it is at run time. -/
theorem plain_value (pr : Prog) (hg : GoProg pr) {e : Ex} (h : Plain pr e) :
    ∃ b, constantValue pr e = some b ∧ States pr e b ∧ ∀ env v, Value pr env e v → v = b := by
  have hlit : ∀ {t b : Str}, Ordinary t b → States pr (.lit t) b ∧ ∀ env v, Value pr env (.lit t) v → v = b := by
    intro t b ho
    obtain ⟨rfl, hb⟩ := ho
    refine ⟨fun env => .interpreted (body_self hb), ?_⟩
    intro env v hv
    generalize he : Ex.lit ('"' :: (b ++ ['"'])) = e at hv
    cases hv with
    | @interpreted b' v hb' =>
      injection he with he
      injection he with _ he
      have := List.append_inj_left' he rfl
      subst this
      exact body_plain hb hb'
    | raw => injection he with he; injection he with he; cases he
    | const => cases he
    | var => cases he
    | loc => cases he
    | qconst => cases he
    | qvar => cases he
    | field => cases he
    | cat => cases he
    | other => cases he
  cases h with
  | @lit t b ho => exact ⟨b, by simp only [constantValue, trimQ_ordinary ho], hlit ho⟩
  | @own p n ty t b hd ho =>
    refine ⟨b, ?_, fun env => .const hd ((hlit ho).1 env), ?_⟩
    · simp only [constantValue, inPackage_some pr hg hd, recorded, text]
      have : trimQ b = b := trimBy_ends (ho.2)
      rw [trimQ_ordinary ho, this]
    · intro env v hv
      cases hv with
      | const hd' hv' =>
        have := hg.once _ _ _ _ hd hd'
        injection this with _ h2; injection h2 with h2; subst h2
        exact (hlit ho).2 env v hv'
      | var hd' => have := hg.once _ _ _ _ hd hd'; injection this with h1; cases h1
  | @imported path own n p ty t b hd ho hs =>
    refine ⟨b, ?_, fun env => .qconst hd ((hlit ho).1 env), ?_⟩
    · simp only [constantValue, key_imported hs]
      rw [if_pos (by rfl), inPackage_some pr hg hd]
      simp only [recorded, text]
      have : trimQ b = b := trimBy_ends (ho.2)
      rw [trimQ_ordinary ho, this]
    · intro env v hv
      cases hv with
      | qconst hd' hv' =>
        have := hg.once _ _ _ _ hd hd'
        injection this with _ h2; injection h2 with h2; subst h2
        exact (hlit ho).2 env v hv'
      | qvar hd' => have := hg.once _ _ _ _ hd hd'; injection this with h1; cases h1
      | field hx => exact absurd rfl (hx _ _)
where
  trimBy_ends {b : Str} (hb : ∀ c ∈ b, c ≠ '"' ∧ c ≠ '\\') : trimQ b = b := by
    unfold trimQ trimBy
    cases hb' : b with
    | nil => rfl
    | cons c l =>
      rw [← hb', show b.dropWhile (fun c => c == '"') = b from by
        rw [hb', List.dropWhile_cons_of_neg (by simp [(hb c (by simp [hb'])).1])]]
      cases hr : b.reverse with
      | nil => simp at hr; rw [hr] at hb'; cases hb'
      | cons d l' =>
        have hd : d ∈ b := by rw [← List.mem_reverse, hr]; simp
        rw [List.dropWhile_cons_of_neg (by simp [(hb d hd).1]), ← hr, List.reverse_reverse]

theorem silent_none (pr : Prog) {e : Ex} (h : Silent pr e) : constantValue pr e = none := by
  cases h with
  | loc h => exact inPackage_none pr h
  | field ht h => simp only [constantValue]; rw [if_neg ht]; exact inPackage_none pr (h _)
  | outside hs h => simp only [constantValue]; rw [key_imported hs, if_pos (by rfl)]; exact inPackage_none pr h
  | cat => rfl
  | other => rfl

/-! ## The property -/

/-- **C93, a name stated plainly (partial: ordinary literals and constants declared with one).**  The
parameter read by a call with such an argument is documented, where and how the pattern says, under
exactly the name the request is asked for in every run. -/
theorem C93_stated_partial (pr : Prog) (hg : GoProg pr) (pat : Pattern) (args : List Arg) {a : Arg}
    (ha : args[pat.argIndex]? = some a) (hm : pat.place ≠ .multipart) (hp : Plain pr a.ex) :
    ∃ p, (extractParam pr pat args).1 = some p ∧ p.place = pat.place ∧ (∀ v, States pr a.ex v ↔ v = p.name) ∧
      (p.required = true ↔ pat.place = .path) ∧ (p.shape = .binary ↔ pat.place = .formFile) ∧
      (∀ i, p.shape = .ofArg i ↔ pat.place ≠ .formFile ∧ pat.typeIndex = some i ∧ i < args.length) := by
  obtain ⟨b, h1, h2, h3⟩ := plain_value pr hg hp
  refine ⟨finish pat args.length b, ?_, ?_, ?_, ?_, ?_, ?_⟩
  · unfold extractParam
    rw [if_neg hm, ha]
    simp only [paramWireName, h1]
  · unfold finish; split <;> rfl
  · intro v
    have : (finish pat args.length b).name = b := by unfold finish; split <;> rfl
    rw [this]
    constructor
    · intro h; exact h3 ⟨fun _ _ => [], fun _ => [], fun _ => []⟩ v (h _)
    · rintro rfl; exact h2
  · unfold finish
    split
    · rename_i h; simp [h]
    · simp
  · unfold finish
    split
    · rename_i h; simp [h]
    · rename_i h
      simp only [h, iff_false]
      unfold shapeOf
      split
      · split <;> simp
      · simp
  · intro i
    unfold finish
    split
    · rename_i h; simp [h]
    · rename_i h
      simp only [ne_eq, h, not_false_iff, true_and]
      unfold shapeOf
      split
      · rename_i j hj
        rw [hj]
        split
        · rename_i hlt
          constructor
          · intro he; injection he with he; subst he; exact ⟨rfl, hlt⟩
          · rintro ⟨he, _⟩; injection he with he; subst he; rfl
        · rename_i hlt
          constructor
          · intro he; cases he
          · rintro ⟨he, h'⟩; injection he with he; subst he; exact absurd h' hlt
      · rename_i hj; rw [hj]; simp

/-- **C93, no guessing (partial: no package-level name is spelled like the local one).**  A call whose
argument does not state the name - a variable of the function, a field, something computed, a constant
of a package that is not analyzed - and that no wrapper's caller states either, documents nothing. -/
theorem C93_silent_partial (pr : Prog) (pat : Pattern) (args : List Arg) {a : Arg}
    (ha : args[pat.argIndex]? = some a) (hs : Silent pr a.ex) (ho : ∀ o, a.origin = some o → Silent pr o) :
    (extractParam pr pat args).1 = none := by
  unfold extractParam
  split
  · rfl
  · rw [ha]
    simp only [paramWireName, silent_none pr hs]
    cases h : a.origin with
    | none => rfl
    | some o => simp only [silent_none pr (ho o h)]

/-- **C93, through a wrapper (partial).**  When the argument is a parameter of a wrapper and its caller
states the name plainly, that is the documented name. -/
theorem C93_wrapper_partial (pr : Prog) (hg : GoProg pr) (pat : Pattern) (args : List Arg) {a : Arg} {o : Ex}
    (ha : args[pat.argIndex]? = some a) (hm : pat.place ≠ .multipart) (hs : Silent pr a.ex) (ho : a.origin = some o) (hp : Plain pr o) :
    ∃ p, (extractParam pr pat args).1 = some p ∧ ∀ v, States pr o v ↔ v = p.name := by
  obtain ⟨b, h1, h2, h3⟩ := plain_value pr hg hp
  refine ⟨finish pat args.length b, ?_, ?_⟩
  · unfold extractParam
    rw [if_neg hm, ha]
    simp only [paramWireName, silent_none pr hs, ho, h1]
  · intro v
    have : (finish pat args.length b).name = b := by unfold finish; split <;> rfl
    rw [this]
    constructor
    · intro h; exact h3 ⟨fun _ _ => [], fun _ => [], fun _ => []⟩ v (h _)
    · rintro rfl; exact h2

/-- **C93, multipart.**  A route's body is known to be multipart exactly when the call is a marker, or
reads a file whose part is documented. -/
theorem C93_multipart (pr : Prog) (pat : Pattern) (args : List Arg) :
    (extractParam pr pat args).2 = true ↔
      pat.place = .multipart ∨ (pat.place = .formFile ∧ ∃ p, (extractParam pr pat args).1 = some p) := by
  unfold extractParam
  by_cases hm : pat.place = .multipart
  · simp [hm]
  · rw [if_neg hm]
    simp only [hm, false_or]
    cases args[pat.argIndex]? with
    | none => simp
    | some a => cases hw : paramWireName pr a <;> simp [hw]

theorem file_same {a b : Files} (h : a.Perm b) (hn : (a.map Prod.fst).Nodup) :
    isort (fun a b : Str × List (Str × Decl) => fileLe a.1 b.1) a = isort (fun a b => fileLe a.1 b.1) b := by
  have hpre : TotalPre (fun a b : Str × List (Str × Decl) => fileLe a.1 b.1) :=
    ⟨fun a b c => strLe_ord.trans _ _ _, fun a b => strLe_ord.total _ _⟩
  refine isort_eq_of_perm_on hpre ?_ h
  intro x hx y hy h1 h2
  have := strLe_ord.antisymm _ _ h1 h2
  have : x.1 = y.1 := by
    have := congrArg String.toList this
    simpa using this
  exact inj_of_keys hn hx hy this

/-- **C93, the same on every run.**  The answer does not depend on the order of a package's files. -/
theorem C93_order (pr : Prog) (before after : List (Str × Files)) (p : Str) (fs fs' : Files) (hpk : pr.pkgs = before ++ (p, fs) :: after)
    (hn : (fs.map Prod.fst).Nodup) (h : fs.Perm fs') (e : Ex) :
    constantValue pr e = constantValue { pr with pkgs := before ++ (p, fs') :: after } e := by
  have hin : ∀ k n, constantInPackage pr k n = constantInPackage { pr with pkgs := before ++ (p, fs') :: after } k n := by
    intro k n
    have hl : (lookup pr.pkgs k).map (isort fun a b : Str × List (Str × Decl) => fileLe a.1 b.1) =
        (lookup (before ++ (p, fs') :: after) k).map (isort fun a b : Str × List (Str × Decl) => fileLe a.1 b.1) := by
      rw [hpk]
      unfold lookup
      simp only [List.find?_append, List.find?_cons]
      cases before.find? (fun e => e.1 == k) with
      | some x => rfl
      | none =>
        simp only [Option.none_or]
        cases p == k with
        | true => simp only [Option.map_some, file_same h hn]
        | false => rfl
    unfold constantInPackage
    cases h1 : lookup pr.pkgs k with
    | none =>
      rw [h1] at hl
      cases h2 : lookup (before ++ (p, fs') :: after) k with
      | none => rfl
      | some f => rw [h2] at hl; cases hl
    | some f =>
      rw [h1] at hl
      cases h2 : lookup (before ++ (p, fs') :: after) k with
      | none => rw [h2] at hl; cases hl
      | some f' =>
        rw [h2] at hl
        injection hl with hl
        simp only [hl]
        rfl
  cases e <;> simp only [constantValue, hin]

/-! ## Examples, and where the name is wrong -/

def S (s : String) : Str := s.toList

/-- A package with a constant, and another with a derived constant, a variable and an unset one. -/
def demo : Prog where
  pkgs := [(S "m/csrf", [(S "a.go", [(S "Header", ⟨true, some (.lit (S "\"X-CSRF-Token\""))⟩)])]),
    (S "m/api", [(S "a.go", [(S "page", ⟨true, some (.lit (S "\"p\""))⟩), (S "alias", ⟨true, some (.top (S "m/api") (S "page") (S "untyped string"))⟩),
      (S "prefixed", ⟨true, some (.cat (.lit (S "\"X-\"")) (.lit (S "\"Id\"")))⟩), (S "keyName", ⟨false, some (.lit (S "\"X-Key\""))⟩),
      (S "tenantHeader", ⟨false, none⟩), (S "rawName", ⟨true, some (.lit (S "`q`"))⟩)])]),
    (S "m/v2", [(S "a.go", [(S "Header", ⟨true, some (.lit (S "\"X-V2\""))⟩)])]),
    (S "m/v2/m", [(S "a.go", [(S "Header", ⟨true, some (.lit (S "\"X-Other\""))⟩)])])]
  first := S "ident"

def header : Pattern := { place := .header, argIndex := 0 }

def named (e : Ex) : Option Str := ((extractParam demo header [⟨e, none⟩]).1).map (·.name)

theorem declared_of {p n : Str} {d : Decl} (fs : Files) (file : Str) (ds : List (Str × Decl)) (h1 : (p, fs) ∈ demo.pkgs) (h2 : (file, ds) ∈ fs)
    (h3 : (n, d) ∈ ds) : Declared demo p n d := ⟨fs, file, ds, h1, h2, h3⟩

theorem csrf_declared : Declared demo (S "m/csrf") (S "Header") ⟨true, some (.lit (S "\"X-CSRF-Token\""))⟩ :=
  ⟨_, _, _, List.mem_cons_self .., List.mem_cons_self .., List.mem_cons_self ..⟩

/-- Non-vacuity of `C93_stated_partial`: a constant of another package. -/
example : Plain demo (.sel (.imported (S "m/csrf") (S "csrf")) (S "Header") (S "m/csrf") (S "untyped string")) :=
  .imported csrf_declared (b := S "X-CSRF-Token") ⟨by decide +kernel, by decide +kernel⟩ ⟨S "m/", by decide +kernel⟩

example : named (.sel (.imported (S "m/csrf") (S "csrf")) (S "Header") (S "m/csrf") (S "untyped string")) = some (S "X-CSRF-Token") := by
  decide +kernel

/-- Non-vacuity of `C93_silent_partial`. -/
example : Silent demo (.loc (S "m/api") (S "k") (S "string")) := by
  refine .loc ?_
  rintro d ⟨fs, file, ds, h1, h2, h3⟩
  have : ∀ p ∈ demo.pkgs, ∀ f ∈ p.2, ∀ e ∈ f.2, e.1 ≠ S "k" := by decide +kernel
  exact this _ h1 _ h2 _ h3 rfl

/-- Non-vacuity of `C93_wrapper_partial`: `func read(c, k)` called as `read(c, "file")`. -/
example : ((extractParam demo header [⟨.loc (S "m/api") (S "k") (S "string"), some (.lit (S "\"file\""))⟩]).1).map (·.name) = some (S "file") := by
  decide +kernel

/-- **C93 fails for literals in backquotes.**  The quotes become part of the name. -/
theorem C93_raw_wrong : named (.lit (S "`page`")) = some (S "`page`") ∧ States demo (.lit (S "`page`")) (S "page") ∧
    ¬ ∃ env, Value demo env (.lit (S "`page`")) (S "`page`") := by
  refine ⟨by decide +kernel, fun env => .raw (v := S "page") (by decide +kernel), ?_⟩
  rintro ⟨env, h⟩
  generalize he : Ex.lit (S "`page`") = e at h
  generalize hv : S "`page`" = v at h
  cases h with
  | interpreted => injection he with he; injection he with he; revert he; decide
  | raw hn => subst hv; revert hn; decide +kernel
  | const => cases he
  | var => cases he
  | loc => cases he
  | qconst => cases he
  | qvar => cases he
  | field => cases he
  | cat => cases he
  | other => cases he

theorem page_declared : Declared demo (S "m/api") (S "page") ⟨true, some (.lit (S "\"p\""))⟩ :=
  ⟨_, _, _, List.mem_cons_of_mem _ (List.mem_cons_self ..), List.mem_cons_self .., List.mem_cons_self ..⟩
theorem alias_declared : Declared demo (S "m/api") (S "alias") ⟨true, some (.top (S "m/api") (S "page") (S "untyped string"))⟩ :=
  ⟨_, _, _, List.mem_cons_of_mem _ (List.mem_cons_self ..), List.mem_cons_self .., List.mem_cons_of_mem _ (List.mem_cons_self ..)⟩
theorem prefixed_declared : Declared demo (S "m/api") (S "prefixed") ⟨true, some (.cat (.lit (S "\"X-\"")) (.lit (S "\"Id\"")))⟩ :=
  ⟨_, _, _, List.mem_cons_of_mem _ (List.mem_cons_self ..), List.mem_cons_self .., List.mem_cons_of_mem _ (List.mem_cons_of_mem _ (List.mem_cons_self ..))⟩
theorem tenant_declared : Declared demo (S "m/api") (S "tenantHeader") ⟨false, none⟩ :=
  ⟨_, _, _, List.mem_cons_of_mem _ (List.mem_cons_self ..), List.mem_cons_self .., List.mem_cons_of_mem _ (List.mem_cons_of_mem _ (List.mem_cons_of_mem _ (List.mem_cons_of_mem _ (List.mem_cons_self ..))))⟩
theorem key_declared : Declared demo (S "m/api") (S "keyName") ⟨false, some (.lit (S "\"X-Key\""))⟩ :=
  ⟨_, _, _, List.mem_cons_of_mem _ (List.mem_cons_self ..), List.mem_cons_self .., List.mem_cons_of_mem _ (List.mem_cons_of_mem _ (List.mem_cons_of_mem _ (List.mem_cons_self ..)))⟩
theorem v2_declared : Declared demo (S "m/v2") (S "Header") ⟨true, some (.lit (S "\"X-V2\""))⟩ :=
  ⟨_, _, _, List.mem_cons_of_mem _ (List.mem_cons_of_mem _ (List.mem_cons_self ..)), List.mem_cons_self .., List.mem_cons_self ..⟩

/-- **C93 fails for constants defined by other constants.**  With `const page = "p"` and
`const alias = page` the parameter read by `alias` is called `page`, the Go name; `const prefixed = "X-" + "Id"` becomes the text of the sum. -/
theorem C93_derived_constant_wrong :
    (named (.top (S "m/api") (S "prefixed") (S "untyped string")) = some (S "X- + Id") ∧
      States demo (.top (S "m/api") (S "prefixed") (S "untyped string")) (S "X-Id")) ∧
    (named (.top (S "m/api") (S "alias") (S "untyped string")) = some (S "page") ∧
      States demo (.top (S "m/api") (S "alias") (S "untyped string")) (S "p")) := by
  refine ⟨⟨by decide +kernel, fun env => ?_⟩, by decide +kernel, fun env => .const alias_declared (.const page_declared
    (.interpreted (b := S "p") (body_self (by decide +kernel))))⟩
  have h1 : Value demo env (.lit (S "\"X-\"")) (S "X-") := .interpreted (b := S "X-") (body_self (by decide +kernel))
  have h2 : Value demo env (.lit (S "\"Id\"")) (S "Id") := .interpreted (b := S "Id") (body_self (by decide +kernel))
  exact .const prefixed_declared (.cat h1 h2)

/-- **C93 fails for variables.**  A package variable is taken for its initial value, although the program
may have set it; one without an initial value for an unrelated string of the analysis. -/
theorem C93_variable_guessed :
    (named (.top (S "m/api") (S "keyName") (S "string")) = some (S "X-Key") ∧
      ∃ env, Value demo env (.top (S "m/api") (S "keyName") (S "string")) (S "Authorization") ∧ env.var (S "m/api") (S "keyName") ≠ S "X-Key") ∧
    (named (.top (S "m/api") (S "tenantHeader") (S "string")) = some (S "ident") ∧
      ∃ env, Value demo env (.top (S "m/api") (S "tenantHeader") (S "string")) (S "X-Tenant")) := by
  refine ⟨⟨by decide +kernel, ⟨fun _ _ => S "Authorization", fun _ => [], fun _ => []⟩, .var key_declared, by decide +kernel⟩,
    by decide +kernel, ⟨fun _ _ => S "X-Tenant", fun _ => [], fun _ => []⟩, .var tenant_declared⟩

/-- **C93 fails for local names that hide a constant.**  A variable of the handler spelled like a
package-level constant is taken for it. -/
theorem C93_shadow_wrong : named (.loc (S "m/api") (S "page") (S "string")) = some (S "p") ∧
    ∃ env, Value demo env (.loc (S "m/api") (S "page") (S "string")) (S "offset") := by
  refine ⟨by decide +kernel, ⟨fun _ _ => [], fun _ => S "offset", fun _ => []⟩, .loc⟩

/-- **C93 fails for packages whose path does not end with their name.**  The name is appended to the
path: the constant of `m/v2` (package `m`) is looked up in `m/v2/m`. -/
theorem C93_version_wrong : named (.sel (.imported (S "m/v2") (S "m")) (S "Header") (S "m/v2") (S "untyped string")) = some (S "X-Other") ∧
    States demo (.sel (.imported (S "m/v2") (S "m")) (S "Header") (S "m/v2") (S "untyped string")) (S "X-V2") :=
  ⟨by decide +kernel, fun _ => .qconst v2_declared (.interpreted (b := S "X-V2") (body_self (by decide +kernel)))⟩

/-- **C93 fails for calls without the argument.**  They are documented as a parameter without a name. -/
theorem C93_no_argument (pr : Prog) (pat : Pattern) (args : List Arg) (h : args.length ≤ pat.argIndex) (hm : pat.place ≠ .multipart) :
    ∃ p, (extractParam pr pat args).1 = some p ∧ p.name = [] := by
  refine ⟨finish pat args.length [], ?_, ?_⟩
  · unfold extractParam
    rw [if_neg hm, List.getElem?_eq_none h]
  · unfold finish; split <;> rfl

end Verif.ParamName
