import Verif.CtorModel
/-!
# C107: a status handed to a constructor is the one documented
-/

namespace Verif.Ctor

/-! ### Specification: what a program does -/

inductive Val where
  | num (n : Int)
  | record (fields : List (String × Val))
  | unknown (k : Nat)

abbrev Env := String → Val

/-- The value of a simple expression; `den` gives the number a text stands for. -/
def value (den : String → Int) (σ : Env) : Atom → Val
  | .text t => .num (den t)
  | .var x => σ x
  | .other k => .unknown k

def set (σ : Env) (x : String) (v : Val) : Env := fun y => if y = x then v else σ y

/-- Running statements one after the other; those in branches may be left out. -/
def Run (ev : Env → Exp → Val → Prop) : List Stmt → Env → Env → Prop
  | [], σ, σ' => σ' = σ
  | s :: rest, σ, σ' => (s.cond = true ∧ Run ev rest σ σ') ∨ ∃ v, ev σ s.rhs v ∧ Run ev rest (set σ s.var v) σ'

/-- The parameters bound to the arguments. -/
def bind (params : List String) (vals : List Val) : Env :=
  fun x => ((params.zip vals).find? (fun p => decide (p.1 = x))).elim (.unknown 0) (·.2)

/-- The values of an expression, with calls nested at most so deep: a call runs the body of the function and then one
of its return statements. -/
def Eval (den : String → Int) (P : Prog) : Nat → Env → Exp → Val → Prop
  | 0, _, _, _ => False
  | k + 1, σ, e, v =>
    match e with
    | .atom a => v = value den σ a
    | .lit _ fields => v = .record (fields.map fun f => (f.1, value den σ f.2))
    | .call fn pkg _ args => ∃ f ∈ P, f.pkg = pkg ∧ f.name = fn ∧ ∃ σ', Run (Eval den P k) f.body (bind f.params (args.map (value den σ))) σ' ∧
        ∃ r ∈ f.returns, Eval den P k σ' r v

/-- The field of a value. -/
def HasField (v : Val) (field : String) (w : Val) : Prop := ∃ fs, v = .record fs ∧ (field, w) ∈ fs

/-- A program as a compiler accepts it: names are declared once, parameters and keys of a literal differ, and a call
has as many arguments as the function parameters; each call has its own place. -/
structure Proper (P : Prog) : Prop where
  names : ∀ f ∈ P, ∀ g ∈ P, f.pkg = g.pkg → f.name = g.name → f = g
  params : ∀ f ∈ P, f.params.Nodup ∧ "" ∉ f.params
  keys : ∀ f ∈ P, ∀ ref fields, Exp.lit ref fields ∈ f.returns → (fields.map (·.1)).Nodup
  places : ∀ f ∈ P, ∀ s ∈ f.body, ∀ fn pkg pos args, s.rhs = .call fn pkg pos args → pos ≠ "" ∧ fn ≠ "" ∧ pkg ≠ "" ∧
    (∀ g ∈ P, g.pkg = pkg → g.name = fn → g.params.length = args.length) ∧
    ∀ f' ∈ P, ∀ s' ∈ f'.body, ∀ fn' pkg' args', s'.rhs = .call fn' pkg' pos args' → f' = f ∧ fn' = fn ∧ pkg' = pkg ∧ args' = args

/-- The function is a plain constructor: it returns a literal in one place, with the parameter `p` in the field, and does not
assign to `p`. -/
def Constructs (g : Func) (field p : String) : Prop :=
  ∃ ref fields, g.returns = [.lit ref fields] ∧ (field, .var p) ∈ fields ∧ p ∈ g.params ∧ ∀ s ∈ g.body, s.var ≠ p

/-- The last assignment to `x` is this call, which is not in a branch. -/
def LastCall (h : Func) (x fn pkg pos : String) (args : List Atom) (pre : List Stmt) : Prop :=
  ∃ post, h.body = pre ++ ⟨false, x, .call fn pkg pos args⟩ :: post ∧ ∀ s ∈ post, s.var ≠ x

/-! ### Lemmas -/

theorem find_key {α : Type} (l : List (String × α)) (k : String) (v : α) (h : l.find? (fun x => decide (x.1 = k)) = some (k, v)) : (k, v) ∈ l :=
  List.mem_of_find?_eq_some h

theorem find_nodup {α : Type} : ∀ (l : List (String × α)) (k : String) (v : α), (l.map (·.1)).Nodup → (k, v) ∈ l →
    l.find? (fun x => decide (x.1 = k)) = some (k, v) := by
  intro l k v
  induction l with
  | nil => intro _ h; exact absurd h List.not_mem_nil
  | cons a l ih =>
    intro hn hm
    rw [List.map_cons, List.nodup_cons] at hn
    rw [List.find?_cons]
    rcases List.mem_cons.mp hm with rfl | hm
    · simp
    · have : ¬ a.1 = k := fun he => hn.1 (he ▸ List.mem_map.mpr ⟨_, hm, rfl⟩)
      rw [decide_eq_false this]
      exact ih hn.2 hm

theorem litParam_of (field p : String) (ref : Bool) : ∀ fields : List (String × Atom), (fields.map (·.1)).Nodup → (field, .var p) ∈ fields →
    litParam field (.lit ref fields) = some p := by
  intro fields
  unfold litParam
  induction fields with
  | nil => intro _ h; exact absurd h List.not_mem_nil
  | cons a l ih =>
    intro hn hm
    rw [List.map_cons, List.nodup_cons] at hn
    dsimp only at ih ⊢
    rw [List.findSome?_cons]
    rcases List.mem_cons.mp hm with rfl | hm
    · simp [fieldVar]
    · have hne : ¬ a.1 = field := fun he => hn.1 (he ▸ List.mem_map.mpr ⟨_, hm, rfl⟩)
      have : fieldVar field a = none := by
        unfold fieldVar
        split
        · rw [if_neg hne]
        · rfl
      rw [this]
      exact ih hn.2 hm

theorem mem_edges (P : Prog) (e : Edge) : e ∈ edges P ↔ ∃ f ∈ P, ∃ s ∈ f.body, edgeOf P f s = some e := by
  unfold edges
  rw [List.mem_flatMap]
  constructor
  · rintro ⟨f, hf, he⟩
    obtain ⟨s, hs, h⟩ := List.mem_filterMap.mp he
    exact ⟨f, hf, s, hs, h⟩
  · rintro ⟨f, hf, s, hs, h⟩
    exact ⟨f, hf, List.mem_filterMap.mpr ⟨s, hs, h⟩⟩

theorem find_func (P : Prog) (hP : Proper P) (g : Func) (hg : g ∈ P) :
    P.find? (fun f => decide (f.pkg = g.pkg ∧ f.name = g.name)) = some g := by
  cases h : P.find? (fun f => decide (f.pkg = g.pkg ∧ f.name = g.name)) with
  | none =>
    have := List.find?_eq_none.mp h g hg
    simp at this
  | some f =>
    have h1 := List.find?_some h
    have h2 := List.mem_of_find?_eq_some h
    simp only [decide_eq_true_eq] at h1
    rw [hP.names f h2 g hg h1.1 h1.2]

theorem find_byName (P : Prog) (hP : Proper P) (g : Func) (hg : g ∈ P) (hn : g.name ≠ "") : findFunctionByName P g.pkg g.name = some g := by
  unfold findFunctionByName
  rw [if_neg hn, find_func P hP g hg]

/-- The edge that is found is the one of the call. -/
theorem callEdge (P : Prog) (hP : Proper P) (h : Func) (hh : h ∈ P) (s : Stmt) (hs : s ∈ h.body) (fn pkg pos : String) (args : List Atom)
    (hr : s.rhs = .call fn pkg pos args) (g : Func) (hg : g ∈ P) (hgp : g.pkg = pkg) (hgn : g.name = fn) (want : String) (hw : want = pkg ∨ want = "") :
    findCallEdge (edges P) (h.pkg, h.name) fn want pos = some ⟨(h.pkg, h.name), fn, pkg, pos, g.params.zip args⟩ := by
  obtain ⟨hpos, hfn, hpkg, hlen, huniq⟩ := hP.places h hh s hs fn pkg pos args hr
  have he : edgeOf P h s = some ⟨(h.pkg, h.name), fn, pkg, pos, g.params.zip args⟩ := by
    unfold edgeOf
    rw [hr]
    dsimp only
    have := find_func P hP g hg
    rw [hgp, hgn] at this
    rw [this]; rfl
  unfold findCallEdge
  cases hf : (edges P).find? (fun e => edgeFits (h.pkg, h.name) fn want e && decide (pos ≠ "") && decide (e.pos = pos)) with
  | none =>
    have := List.find?_eq_none.mp hf _ ((mem_edges P _).mpr ⟨h, hh, s, hs, he⟩)
    refine absurd ?_ this
    rcases hw with rfl | rfl <;> simp [edgeFits, hpos]
  | some e =>
    dsimp only
    have h1 := List.find?_some hf
    obtain ⟨f', hf', s', hs', he'⟩ := (mem_edges P e).mp (List.mem_of_find?_eq_some hf)
    simp only [Bool.and_eq_true, decide_eq_true_eq] at h1
    unfold edgeOf at he'
    split at he'
    · rename_i fn' pkg' pos' args' hr'
      have he'' := Option.some.inj he'
      have hp : pos' = pos := by rw [← h1.2, ← he'']
      rw [hp] at hr'
      obtain ⟨a, b, c, d⟩ := huniq f' hf' s' hs' fn' pkg' args' hr'
      have hsame : edgeOf P h s' = some e := by
        unfold edgeOf
        rw [hr']
        rw [hp, a] at he'
        exact he'
      have : edgeOf P h s' = edgeOf P h s := by
        unfold edgeOf
        rw [hr', hr, b, c, d]
      rw [this, he] at hsame
      exact hsame.symm
    · exact absurd he' (by simp)

theorem zip_keys (ps : List String) (as : List Atom) (h : ps.length = as.length) : ((ps.zip as).map (·.1)) = ps := by
  rw [List.map_fst_zip]; omega

/-- The argument the code finds for the field is the one at the place of the parameter. -/
theorem fieldArg (P : Prog) (hP : Proper P) (h : Func) (hh : h ∈ P) (s : Stmt) (hs : s ∈ h.body) (fn pkg pos : String) (args : List Atom)
    (hr : s.rhs = .call fn pkg pos args) (g : Func) (hg : g ∈ P) (hgp : g.pkg = pkg) (hgn : g.name = fn) (want : String) (hw : want = pkg ∨ want = "")
    (field p : String) (hc : Constructs g field p) :
    ctorFieldArg P (h.pkg, h.name) fn want pos field = ((g.params.zip args).find? (fun x => decide (x.1 = p))).map (·.2) := by
  obtain ⟨hpos, hfn, hpkg, hlen, huniq⟩ := hP.places h hh s hs fn pkg pos args hr
  obtain ⟨ref, fields, hret, hfield, hp, _⟩ := hc
  unfold ctorFieldArg
  rw [callEdge P hP h hh s hs fn pkg pos args hr g hg hgp hgn want hw]
  dsimp only
  have := find_byName P hP g hg (by rw [hgn]; exact hfn)
  rw [hgp, hgn] at this
  rw [this]
  dsimp only
  have hk := hP.keys g hg ref fields (by rw [hret]; exact List.mem_singleton_self _)
  have hlp : (returnVar g).bind (litParam field) = some p := by
    unfold returnVar
    rw [hret]
    exact litParam_of field p ref fields hk hfield
  rw [hlp]
  dsimp only
  rw [if_neg]
  intro hp0
  exact (hP.params g hg).2 (hp0 ▸ hp)

theorem last_assign (h : Func) (x fn pkg pos : String) (args : List Atom) (pre : List Stmt) (hl : LastCall h x fn pkg pos args pre) :
    (assigns h x).getLast? = some ⟨false, x, .call fn pkg pos args⟩ ∧ (⟨false, x, .call fn pkg pos args⟩ : Stmt) ∈ h.body := by
  obtain ⟨post, hb, hpost⟩ := hl
  constructor
  · unfold assigns
    rw [hb, List.filter_append, List.filter_cons, if_pos (by simp)]
    have : post.filter (fun s => decide (s.var = x)) = [] := by
      rw [List.filter_eq_nil_iff]
      intro s hs; simpa using hpost s hs
    rw [this]
    simp
  · rw [hb]; simp

theorem run_append (ev : Env → Exp → Val → Prop) : ∀ (a b : List Stmt) (σ σ' : Env), Run ev (a ++ b) σ σ' → ∃ σ1, Run ev a σ σ1 ∧ Run ev b σ1 σ' := by
  intro a
  induction a with
  | nil => intro b σ σ' h; exact ⟨σ, rfl, h⟩
  | cons s a ih =>
    intro b σ σ' h
    rcases h with ⟨hc, h⟩ | ⟨v, hv, h⟩
    · obtain ⟨σ1, h1, h2⟩ := ih b σ σ' h
      exact ⟨σ1, Or.inl ⟨hc, h1⟩, h2⟩
    · obtain ⟨σ1, h1, h2⟩ := ih b _ σ' h
      exact ⟨σ1, Or.inr ⟨v, hv, h1⟩, h2⟩

theorem run_keeps (ev : Env → Exp → Val → Prop) (x : String) : ∀ (a : List Stmt) (σ σ' : Env), (∀ s ∈ a, s.var ≠ x) → Run ev a σ σ' → σ' x = σ x := by
  intro a
  induction a with
  | nil => intro σ σ' _ h; rw [show σ' = σ from h]
  | cons s a ih =>
    intro σ σ' hs h
    have ih' := fun σ => ih σ σ' (fun t ht => hs t (List.mem_cons_of_mem _ ht))
    rcases h with ⟨_, h⟩ | ⟨v, _, h⟩
    · exact ih' _ h
    · rw [ih' _ h]
      unfold set
      rw [if_neg (fun he => hs s List.mem_cons_self he.symm)]

theorem zip_find_map (den : String → Int) (σ : Env) (p : String) : ∀ (ps : List String) (as : List Atom),
    ((ps.zip (as.map (value den σ))).find? (fun x => decide (x.1 = p))).map (·.2) =
      (((ps.zip as).find? (fun x => decide (x.1 = p))).map (·.2)).map (value den σ) := by
  intro ps
  induction ps with
  | nil => intro as; rfl
  | cons a ps ih =>
    intro as
    cases as with
    | nil => rfl
    | cons b as =>
      rw [List.map_cons, List.zip_cons_cons, List.zip_cons_cons, List.find?_cons, List.find?_cons]
      by_cases h : a = p
      · simp [h]
      · simp only [h, decide_false]
        exact ih as

/-- What the field holds after the run: the value the argument had before the call. -/
theorem field_value (den : String → Int) (P : Prog) (hP : Proper P) (h : Func) (hh : h ∈ P) (x fn pkg pos : String) (args : List Atom) (pre : List Stmt)
    (hl : LastCall h x fn pkg pos args pre) (g : Func) (hg : g ∈ P) (hgp : g.pkg = pkg) (hgn : g.name = fn) (field p : String) (hc : Constructs g field p)
    (a : Atom) (ha : ((g.params.zip args).find? (fun y => decide (y.1 = p))).map (·.2) = some a)
    (k : Nat) (σ σ' : Env) (hrun : Run (Eval den P k) h.body σ σ') :
    ∃ σ1, Run (Eval den P k) pre σ σ1 ∧ HasField (σ' x) field (value den σ1 a) := by
  obtain ⟨post, hb, hpost⟩ := hl
  rw [hb] at hrun
  obtain ⟨σ1, h1, h2⟩ := run_append _ _ _ _ _ hrun
  refine ⟨σ1, h1, ?_⟩
  rcases h2 with ⟨hf, _⟩ | ⟨v, hv, h3⟩
  · exact absurd hf (by simp)
  rw [run_keeps _ x post _ _ hpost h3]
  have : set σ1 x v x = v := by unfold set; rw [if_pos rfl]
  dsimp only
  rw [this]
  obtain ⟨ref, fields, hret, hfield, hp, hbody⟩ := hc
  cases k with
  | zero => exact absurd hv (by simp [Eval])
  | succ k =>
    obtain ⟨f, hf, hfp, hfn, σ2, hr2, r, hrm, hev⟩ := hv
    have hfg : f = g := hP.names f hf g hg (by rw [hfp, hgp]) (by rw [hfn, hgn])
    subst hfg
    rw [hret] at hrm
    rw [List.mem_singleton.mp hrm] at hev
    cases k with
    | zero => exact absurd hev (by simp [Eval])
    | succ k =>
      have hev : v = .record (fields.map fun f => (f.1, value den σ2 f.2)) := hev
      refine ⟨_, hev, List.mem_map.mpr ⟨_, hfield, ?_⟩⟩
      show (field, σ2 p) = (field, value den σ1 a)
      rw [run_keeps _ p f.body _ _ hbody hr2]
      unfold bind
      have := zip_find_map den σ1 p f.params args
      rw [ha] at this
      cases hfd : (f.params.zip (args.map (value den σ1))).find? (fun y => decide (y.1 = p)) with
      | none => rw [hfd] at this; exact absurd this (by simp)
      | some y =>
        rw [hfd] at this
        have this : y.2 = value den σ1 a := Option.some.inj this
        show (field, y.2) = _
        rw [this]

/-! ### The properties -/

/-- If the variable got its value from a plain constructor, in its last assignment and not in a branch, the status
found for a field is what the field holds whenever the handler gets so far. -/
theorem C107_true_partial (read : String → Option Int) (den : String → Int) (hread : ∀ t n, read t = some n → den t = n)
    (P : Prog) (hP : Proper P) (h : Func) (hh : h ∈ P) (x fn pkg pos : String) (args : List Atom) (pre : List Stmt)
    (hl : LastCall h x fn pkg pos args pre) (g : Func) (hg : g ∈ P) (hgp : g.pkg = pkg) (hgn : g.name = fn) (field p : String) (hc : Constructs g field p)
    (n : Int) (hn : single read P h x field = some n) (k : Nat) (σ σ' : Env) (hrun : Run (Eval den P k) h.body σ σ') :
    HasField (σ' x) field (.num n) := by
  obtain ⟨hlast, hmem⟩ := last_assign h x fn pkg pos args pre hl
  obtain ⟨hpos, hfn, hpkg, hlen, huniq⟩ := hP.places h hh _ hmem fn pkg pos args rfl
  unfold single at hn
  rw [hlast] at hn
  dsimp only at hn
  rw [if_neg hfn, fieldArg P hP h hh _ hmem fn pkg pos args rfl g hg hgp hgn pkg (Or.inl rfl) field p hc] at hn
  cases ha : ((g.params.zip args).find? (fun y => decide (y.1 = p))).map (·.2) with
  | none => rw [ha] at hn; exact absurd hn (by simp)
  | some a =>
    rw [ha] at hn
    obtain ⟨σ1, _, hf⟩ := field_value den P hP h hh x fn pkg pos args pre hl g hg hgp hgn field p hc a ha k σ σ' hrun
    cases a with
    | text t =>
      have := hread t n hn
      rw [← this]; exact hf
    | var y => exact absurd hn (by simp [statusOf])
    | other j => exact absurd hn (by simp [statusOf])

/-- A status that is written in the call of a plain constructor is found: the argument at the place of the parameter
that goes to the field, and no other. -/
theorem C107_found (read : String → Option Int) (P : Prog) (hP : Proper P) (h : Func) (hh : h ∈ P) (x fn pkg pos : String) (args : List Atom) (pre : List Stmt)
    (hl : LastCall h x fn pkg pos args pre) (g : Func) (hg : g ∈ P) (hgp : g.pkg = pkg) (hgn : g.name = fn) (field p : String) (hc : Constructs g field p)
    (i : Nat) (hi : g.params[i]? = some p) (t : String) (ht : args[i]? = some (.text t)) : single read P h x field = read t := by
  obtain ⟨hlast, hmem⟩ := last_assign h x fn pkg pos args pre hl
  obtain ⟨hpos, hfn, hpkg, hlen, huniq⟩ := hP.places h hh _ hmem fn pkg pos args rfl
  unfold single
  rw [hlast]
  dsimp only
  rw [if_neg hfn, fieldArg P hP h hh _ hmem fn pkg pos args rfl g hg hgp hgn pkg (Or.inl rfl) field p hc]
  have hm : (p, Atom.text t) ∈ g.params.zip args := by
    apply List.mem_of_getElem? (i := i)
    rw [List.getElem?_zip_eq_some]
    exact ⟨hi, ht⟩
  rw [find_nodup _ p (.text t) (by rw [zip_keys _ _ (hlen g hg hgp hgn)]; exact (hP.params g hg).1) hm]
  rfl

/-- If a variable is handed to the constructor, its values are the ones looked at, and the field holds the value it had
before the call. -/
theorem C107_variable_partial (den : String → Int) (P : Prog) (hP : Proper P) (h : Func) (hh : h ∈ P) (x fn pkg pos : String) (args : List Atom) (pre : List Stmt)
    (hl : LastCall h x fn pkg pos args pre) (g : Func) (hg : g ∈ P) (hgp : g.pkg = pkg) (hgn : g.name = fn) (field p : String) (hc : Constructs g field p) :
    (∀ v, fanned P h x field = some v ↔ (p, Atom.var v) ∈ g.params.zip args) ∧
    ∀ v, fanned P h x field = some v → ∀ (k : Nat) (σ σ' : Env), Run (Eval den P k) h.body σ σ' →
      ∃ σ1, Run (Eval den P k) pre σ σ1 ∧ HasField (σ' x) field (σ1 v) := by
  obtain ⟨hlast, hmem⟩ := last_assign h x fn pkg pos args pre hl
  obtain ⟨hpos, hfn, hpkg, hlen, huniq⟩ := hP.places h hh _ hmem fn pkg pos args rfl
  have hnd : ((g.params.zip args).map (·.1)).Nodup := by rw [zip_keys _ _ (hlen g hg hgp hgn)]; exact (hP.params g hg).1
  have e : ∀ v, fanned P h x field = some v ↔ ((g.params.zip args).find? (fun y => decide (y.1 = p))).map (·.2) = some (.var v) := by
    intro v
    unfold fanned
    rw [hlast]
    dsimp only
    rw [if_neg hfn, fieldArg P hP h hh _ hmem fn pkg pos args rfl g hg hgp hgn "" (Or.inr rfl) field p hc]
    cases ((g.params.zip args).find? (fun y => decide (y.1 = p))).map (·.2) with
    | none => simp
    | some a => cases a <;> simp
  constructor
  · intro v
    rw [e v]
    constructor
    · intro hf
      cases hfd : (g.params.zip args).find? (fun y => decide (y.1 = p)) with
      | none => rw [hfd] at hf; exact absurd hf (by simp)
      | some y =>
        rw [hfd] at hf
        have h1 := List.find?_some hfd
        have h2 := List.mem_of_find?_eq_some hfd
        have h3 : y.2 = .var v := Option.some.inj hf
        have h4 : y.1 = p := by simpa using h1
        rw [← h3, ← h4]; exact h2
    · intro hm
      rw [find_nodup _ p _ hnd hm]; rfl
  · intro v hv k σ σ' hrun
    exact field_value den P hP h hh x fn pkg pos args pre hl g hg hgp hgn field p hc (.var v) ((e v).mp hv) k σ σ' hrun

/-! ### Instances -/

abbrev newErr : Func := ⟨"api", "NewErr", ["msg", "code"], [], [.lit true [("Message", .var "msg"), ("Code", .var "code")]]⟩
abbrev theCall (pos t : String) : Exp := .call "NewErr" "api" pos [.other 0, .text t]
abbrev handler : Func := ⟨"app", "Login", ["w", "r"], [⟨true, "e", theCall "p1" "400"⟩, ⟨false, "e", theCall "p2" "401"⟩], []⟩
abbrev readDemo : String → Option Int := fun t => if t = "400" then some 400 else if t = "401" then some 401 else if t = "500" then some 500 else none

theorem demo_proper : Proper [newErr, handler] where
  names := by
    intro f hf g hg
    simp only [List.mem_cons, List.not_mem_nil, or_false] at hf hg
    rcases hf with rfl | rfl <;> rcases hg with rfl | rfl <;> intro a b <;> first | rfl | exact absurd a (by decide)
  params := by decide
  keys := by
    intro f hf ref fields hm
    simp only [List.mem_cons, List.not_mem_nil, or_false] at hf
    rcases hf with rfl | rfl
    · have := List.mem_singleton.mp hm
      injection this with _ h2
      rw [h2]; decide
    · exact absurd hm List.not_mem_nil
  places := by
    intro f hf s hs fn pkg pos args hr
    simp only [List.mem_cons, List.not_mem_nil, or_false] at hf
    rcases hf with rfl | rfl
    · exact absurd hs List.not_mem_nil
    · simp only [List.mem_cons, List.not_mem_nil, or_false] at hs
      rcases hs with rfl | rfl <;>
      · injection hr with h1 h2 h3 h4
        subst h1 h2 h3 h4
        refine ⟨by decide, by decide, by decide, ?_, ?_⟩
        · intro g hg
          simp only [List.mem_cons, List.not_mem_nil, or_false] at hg
          rcases hg with rfl | rfl
          · intros; rfl
          · intro a; exact absurd a (by decide)
        · intro f' hf' s' hs' fn' pkg' args' hr'
          simp only [List.mem_cons, List.not_mem_nil, or_false] at hf'
          rcases hf' with rfl | rfl
          · exact absurd hs' List.not_mem_nil
          · simp only [List.mem_cons, List.not_mem_nil, or_false] at hs'
            rcases hs' with rfl | rfl <;>
            · injection hr' with h1 h2 h3 h4
              first
              | exact ⟨rfl, h1.symm, h2.symm, h4.symm⟩
              | exact absurd h3 (by decide)

/-- The handler meets the conditions, and 401 is found. -/
example : LastCall handler "e" "NewErr" "api" "p2" [.other 0, .text "401"] [⟨true, "e", theCall "p1" "400"⟩] ∧ Constructs newErr "Code" "code" ∧
    single readDemo [newErr, handler] handler "e" "Code" = some 401 :=
  ⟨⟨[], rfl, by intro s hs; exact absurd hs List.not_mem_nil⟩, ⟨true, _, rfl, by decide, by decide, by intro s hs; exact absurd hs List.not_mem_nil⟩, by decide⟩

/-! ### What does not hold -/

/-- Two branches with a constructor each: only the status of the last is found, although the comment of the code says
that an ambiguous value gives none. -/
theorem C107_branches_wrong (den : String → Int) (hden : ∀ t n, readDemo t = some n → den t = n) :
    ∃ (P : Prog) (h : Func), h ∈ P ∧ single readDemo P h "e" "Code" = some 401 ∧
    ∃ k σ σ', Run (Eval den P k) h.body σ σ' ∧ σ' "e" = .record [("Message", .unknown 0), ("Code", .num 400)] := by
  have hd : den "400" = 400 := hden _ _ (by decide)
  let h : Func := ⟨"app", "Login", [], [⟨true, "e", theCall "p1" "400"⟩, ⟨true, "e", theCall "p2" "401"⟩], []⟩
  refine ⟨[newErr, h], h, List.mem_cons_of_mem _ List.mem_cons_self, by decide, 2, fun _ => .unknown 0,
    set (fun _ => .unknown 0) "e" (.record [("Message", .unknown 0), ("Code", .num (den "400"))]), ?_, by rw [← hd]; rfl⟩
  exact Or.inr ⟨_, ⟨newErr, List.mem_cons_self, rfl, rfl, _, rfl, _, List.mem_singleton_self _, rfl⟩, Or.inl ⟨rfl, rfl⟩⟩

/-- A constructor that replaces some statuses: the one handed over is found, not the one stored. -/
theorem C107_default_wrong (den : String → Int) (hden : ∀ t n, readDemo t = some n → den t = n) :
    ∃ (P : Prog) (h : Func), h ∈ P ∧ single readDemo P h "e" "Code" = some 400 ∧
    ∃ k σ σ', Run (Eval den P k) h.body σ σ' ∧ σ' "e" = .record [("Message", .unknown 0), ("Code", .num 500)] := by
  have hd : den "500" = 500 := hden _ _ (by decide)
  let ctor : Func := ⟨"api", "NewErr", ["msg", "code"], [⟨true, "code", .atom (.text "500")⟩], [.lit true [("Message", .var "msg"), ("Code", .var "code")]]⟩
  let h : Func := ⟨"app", "Login", [], [⟨false, "e", theCall "p1" "400"⟩], []⟩
  refine ⟨[ctor, h], h, List.mem_cons_of_mem _ List.mem_cons_self, by decide, 2, fun _ => .unknown 0,
    set (fun _ => .unknown 0) "e" (.record [("Message", .unknown 0), ("Code", .num (den "500"))]), ?_, by rw [← hd]; rfl⟩
  exact Or.inr ⟨_, ⟨ctor, List.mem_cons_self, rfl, rfl, _, Or.inr ⟨_, rfl, rfl⟩, _, List.mem_singleton_self _, rfl⟩, rfl⟩

/-- A constructor with two return statements: only the first is looked at. -/
theorem C107_returns_wrong (den : String → Int) (hden : ∀ t n, readDemo t = some n → den t = n) :
    ∃ (P : Prog) (h : Func), h ∈ P ∧ single readDemo P h "e" "Code" = some 400 ∧
    ∃ k σ σ', Run (Eval den P k) h.body σ σ' ∧ σ' "e" = .record [("Message", .unknown 0), ("Code", .num 500)] := by
  have hd : den "500" = 500 := hden _ _ (by decide)
  let r2 : Exp := .lit true [("Message", .var "msg"), ("Code", .text "500")]
  let ctor : Func := ⟨"api", "NewErr", ["msg", "code"], [], [.lit true [("Message", .var "msg"), ("Code", .var "code")], r2]⟩
  let h : Func := ⟨"app", "Login", [], [⟨false, "e", theCall "p1" "400"⟩], []⟩
  refine ⟨[ctor, h], h, List.mem_cons_of_mem _ List.mem_cons_self, by decide, 2, fun _ => .unknown 0,
    set (fun _ => .unknown 0) "e" (.record [("Message", .unknown 0), ("Code", .num (den "500"))]), ?_, by rw [← hd]; rfl⟩
  exact Or.inr ⟨_, ⟨ctor, List.mem_cons_self, rfl, rfl, _, rfl, r2, List.mem_cons_of_mem _ List.mem_cons_self, rfl⟩, rfl⟩

end Verif.Ctor
