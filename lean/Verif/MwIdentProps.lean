/-
C95: every middleware a call applies is identified by the function it comes from, and nothing else is
taken for middleware.
-/
import Verif.MwIdentModel

namespace Verif.MwIdent
open Verif.Common

/-! ## Specification -/

/-- The assignments of the calling function: those made before the call, oldest first, and those its text
makes after it. -/
structure Code where
  before : List (String × Ex)
  later : List (String × Ex)

/-- The function a callee is. -/
inductive Called : Callee → Ref → Prop
  | name {n p} : Called (.name n p) ⟨n, p, ""⟩
  | func {n p} : Called (.sel n p none) ⟨n, p, ""⟩
  | method {n p r} : Called (.sel n p (some r)) ⟨n, p, r⟩

/-- The function a middleware value is, or was made by, given the assignments made so far (newest
first). -/
inductive Origin : List (String × Ex) → Ex → Ref → Prop
  | fn {ρ n p} : Origin ρ (.fn n p) ⟨n, p, ""⟩
  | func {ρ n p} : Origin ρ (.sel n p none) ⟨n, p, ""⟩
  | method {ρ n p r} : Origin ρ (.sel n p (some r)) ⟨n, p, r⟩
  | call {ρ c r} : Called c r → Origin ρ (.call c) r
  | var {newer older n p e r} : (∀ x ∈ newer, x.1 ≠ n) → Origin older e r → Origin (newer ++ (n, e) :: older) (.var n p) r

/-- The argument at this position is middleware. -/
def Applied (p : Pattern) (args : List Ex) (i : Nat) : Prop :=
  p.start ≤ i ∧ i < args.length ∧ (p.variadic = false → (i : Int) = p.start) ∧ (p.variadic = true → p.excludeLast = true → i + 1 < args.length)

/-- The package declares a function or method with this name, receiver and assignments. -/
inductive Declares (pkgs : Pkgs) (pkg : String) : String → String → AssignMap → Prop
  | function {files fname f name am} : (pkg, files) ∈ pkgs → (fname, f) ∈ files → (name, am) ∈ f.functions → Declares pkgs pkg name "" am
  | method {files fname f tn ms m} : (pkg, files) ∈ pkgs → (fname, f) ∈ files → (tn, ms) ∈ f.types → m ∈ ms → Declares pkgs pkg m.name m.recv m.assigns

/-- The assignments of a variable, in the order of the text. -/
def assigned (c : Code) (n : String) : List Asg := ((c.before ++ c.later).filter fun x => decide (x.1 = n)).map fun x => recordAsg x.2

/-- The metadata of a function records its assignments. -/
def Records (am : AssignMap) (c : Code) : Prop := (am.map Prod.fst).Nodup ∧ ∀ n l, (n, l) ∈ am ↔ l = assigned c n ∧ l ≠ []

/-- The call stands in a declared function or method with this code, and no other function or method of
that name in the package has variables of the same names. -/
structure Calls (pkgs : Pkgs) (e : Edge) (c : Code) : Prop where
  packages : (pkgs.map Prod.fst).Nodup
  functions : ∀ pkg files fname f, (pkg, files) ∈ pkgs → (fname, f) ∈ files → (f.functions.map Prod.fst).Nodup
  own : e.own = []
  named : e.callerName ≠ "" ∧ e.callerPkg ≠ ""
  caller : ∃ am, Declares pkgs e.callerPkg e.callerName e.callerRecv am ∧ Records am c
  alone : ∀ recv am, Declares pkgs e.callerPkg e.callerName recv am → Records am c ∨ ∀ x ∈ c.before ++ c.later, x.1 ∉ am.map Prod.fst
  keyed : ∀ recv am, Declares pkgs e.callerPkg e.callerName recv am → Records am c ∨ ∀ a ∈ e.args, ∀ n p, a = .fn n p ∨ a = .var n p → n ∉ am.map Prod.fst

/-- The middleware values this covers: functions (not hidden by a variable), methods, calls, and
variables that are set once, to a function of a package, a method or the result of a function. -/
inductive Clear (c : Code) : Ex → Prop
  | fn {n p} : n ≠ "" → (∀ x ∈ c.before ++ c.later, x.1 ≠ n) → Clear c (.fn n p)
  | sel {n p r} : n ≠ "" → Clear c (.sel n p r)
  | callName {n p} : n ≠ "" → Clear c (.call (.name n p))
  | callSel {n p r} : n ≠ "" → Clear c (.call (.sel n p r))
  | var {n p e l1 l2} : c.before = l1 ++ (n, e) :: l2 → (∀ x ∈ l1 ++ (l2 ++ c.later), x.1 ≠ n) →
      (∃ m q, m ≠ "" ∧ (e = .call (.name m q) ∨ e = .call (.sel m q none) ∨ ∃ r, e = .sel m q r)) → Clear c (.var n p)

/-! ## Lemmas -/

theorem origin_unique {ρ : List (String × Ex)} {e : Ex} {r r' : Ref} (h : Origin ρ e r) (h' : Origin ρ e r') : r = r' := by
  have hcall : ∀ {c : Callee} {r r' : Ref}, Called c r → Called c r' → r = r' := by
    intro c r r' h h'; cases h <;> cases h' <;> rfl
  have hsplit : ∀ {n : String} {e e' : Ex} {a b a' b' : List (String × Ex)}, a ++ (n, e) :: b = a' ++ (n, e') :: b' →
      (∀ x ∈ a, x.1 ≠ n) → (∀ x ∈ a', x.1 ≠ n) → e = e' ∧ b = b' := by
    intro n e e' a
    induction a with
    | nil =>
      intro b a' b' h _ h2
      cases a' with
      | nil => injection h with h1 h2; injection h1 with _ h1; exact ⟨h1, h2⟩
      | cons x a' =>
        injection h with h1 _
        exact absurd (by rw [← h1]) (h2 x (by simp))
    | cons x a ih =>
      intro b a' b' h h1 h2
      cases a' with
      | nil => injection h with h3 _; exact absurd (by rw [h3]) (h1 x (by simp))
      | cons y a' =>
        injection h with _ h4
        exact ih h4 (fun z hz => h1 z (by simp [hz])) (fun z hz => h2 z (by simp [hz]))
  induction h generalizing r' with
  | fn => cases h'; rfl
  | func => cases h'; rfl
  | method => cases h'; rfl
  | call hc => cases h' with | call hc' => exact hcall hc hc'
  | @var newer older n p e r hn _ ih =>
    generalize hρ : newer ++ (n, e) :: older = ρ at h'
    generalize hv : Ex.var n p = v at h'
    cases h' with
    | fn => cases hv
    | func => cases hv
    | method => cases hv
    | call => cases hv
    | var hn' h2 =>
      injection hv with h3 _
      subst h3
      obtain ⟨rfl, rfl⟩ := hsplit hρ hn hn'
      exact ih h2

theorem get_mem {am : AssignMap} {n : String} (h : get am n ≠ []) : (n, get am n) ∈ am := by
  unfold get at h ⊢
  cases hf : am.find? (fun e => e.1 == n) with
  | none => rw [hf] at h; exact absurd rfl h
  | some e =>
    have h1 := List.find?_some hf
    rw [beq_iff_eq] at h1
    have h2 := List.mem_of_find?_eq_some hf
    obtain ⟨a, b⟩ := e
    simp only at h1
    subst h1
    exact h2

theorem get_not_mem {am : AssignMap} {n : String} (h : n ∉ am.map Prod.fst) : get am n = [] := by
  by_cases hg : get am n = []
  · exact hg
  · exact absurd (List.mem_map.2 ⟨_, get_mem hg, rfl⟩) h

theorem nodup_find {α : Type} {l : List (String × α)} (hn : (l.map Prod.fst).Nodup) {n : String} {v : α} (h : (n, v) ∈ l) :
    l.find? (fun e => e.1 == n) = some (n, v) := by
  induction l with
  | nil => cases h
  | cons x l ih =>
    rw [List.map_cons, List.nodup_cons] at hn
    rw [List.find?_cons]
    rcases List.mem_cons.1 h with rfl | h
    · simp
    · have : (x.1 == n) = false := by
        rw [beq_eq_false_iff_ne]
        rintro rfl
        exact hn.1 (List.mem_map.2 ⟨_, h, rfl⟩)
      rw [this]
      exact ih hn.2 h

theorem get_records {am : AssignMap} {c : Code} (h : Records am c) (n : String) : get am n = assigned c n := by
  by_cases hg : get am n = []
  · rw [hg]
    by_cases ha : assigned c n = []
    · exact ha.symm
    · have := (h.2 n (assigned c n)).2 ⟨rfl, ha⟩
      exfalso
      unfold get at hg
      rw [nodup_find h.1 this] at hg
      exact ha hg
  · exact ((h.2 n _).1 (get_mem hg)).1

theorem findSome_unique {α β : Type} {l : List α} {f : α → Option β} {v : β} (h1 : ∀ x ∈ l, f x = none ∨ f x = some v) (h2 : ∃ x ∈ l, f x = some v) :
    l.findSome? f = some v := by
  cases hf : l.findSome? f with
  | none =>
    rw [List.findSome?_eq_none_iff] at hf
    obtain ⟨x, hx, h⟩ := h2
    rw [hf x hx] at h; cases h
  | some w =>
    obtain ⟨x, hx, h⟩ := List.exists_of_findSome?_eq_some hf
    rcases h1 x hx with h' | h'
    · rw [h'] at h; cases h
    · rw [h'] at h; exact h.symm

theorem file_answers (e : Edge) (n : String) (f : File) (hnd : (f.functions.map Prod.fst).Nodup) (as : List Asg)
    (hfun : ∀ am, (e.callerName, am) ∈ f.functions → get am n = [] ∨ get am n = as)
    (hmeth : ∀ tn ms, (tn, ms) ∈ f.types → ∀ m ∈ ms, m.name = e.callerName → get m.assigns n = [] ∨ get m.assigns n = as) :
    (fileAssigns e n f = none ∨ fileAssigns e n f = some as) ∧
    (as ≠ [] → ((∃ am, (e.callerName, am) ∈ f.functions ∧ get am n = as) ∨
      ∃ tn ms m, (tn, ms) ∈ f.types ∧ m ∈ ms ∧ m.name = e.callerName ∧ m.recv = e.callerRecv ∧ get m.assigns n = as) → fileAssigns e n f = some as) := by
  have hm : ∀ tn ms, (tn, ms) ∈ f.types → ∀ m ∈ ms, methodAssigns e n m = none ∨ methodAssigns e n m = some as := by
    intro tn ms ht m hmm
    unfold methodAssigns
    split
    · exact .inl rfl
    · rename_i hne
      split
      · exact .inl rfl
      · split
        · exact .inl rfl
        · rename_i hg
          rcases hmeth tn ms ht m hmm (Decidable.not_not.1 hne) with h | h
          · exact absurd h hg
          · exact .inr (by rw [h])
  have hts : ∀ t ∈ isort (fun a b : String × List Method => strLe a.1 b.1) f.types,
      t.2.findSome? (methodAssigns e n) = none ∨ t.2.findSome? (methodAssigns e n) = some as := by
    intro t ht
    have ht' := (isort_perm _ _).mem_iff.1 ht
    cases hc : t.2.findSome? (methodAssigns e n) with
    | none => exact .inl rfl
    | some v =>
      obtain ⟨m, hmm, h⟩ := List.exists_of_findSome?_eq_some hc
      rcases hm t.1 t.2 ht' m hmm with h' | h'
      · rw [h'] at h; cases h
      · rw [h'] at h; exact .inr h.symm
  have htypes : (isort (fun a b : String × List Method => strLe a.1 b.1) f.types).findSome? (fun t => t.2.findSome? (methodAssigns e n)) = none ∨
      (isort (fun a b : String × List Method => strLe a.1 b.1) f.types).findSome? (fun t => t.2.findSome? (methodAssigns e n)) = some as := by
    cases hc : (isort (fun a b : String × List Method => strLe a.1 b.1) f.types).findSome? (fun t => t.2.findSome? (methodAssigns e n)) with
    | none => exact .inl rfl
    | some v =>
      obtain ⟨t, ht, h⟩ := List.exists_of_findSome?_eq_some hc
      rcases hts t ht with h' | h'
      · rw [h'] at h; cases h
      · rw [h'] at h; exact .inr h.symm
  have hfn : ∀ l, (f.functions.find? fun x => x.1 == e.callerName).map (fun x => get x.2 n) = some l → l = [] ∨ l = as := by
    intro l hl
    cases hf : f.functions.find? (fun x => x.1 == e.callerName) with
    | none => rw [hf] at hl; cases hl
    | some x =>
      rw [hf] at hl
      injection hl with hl
      have h1 := List.find?_some hf
      rw [beq_iff_eq] at h1
      rw [← hl]
      exact hfun x.2 (by rw [← h1]; exact List.mem_of_find?_eq_some hf)
  constructor
  · unfold fileAssigns
    split
    · rename_i a r heq
      rcases hfn _ heq with h | h
      · cases h
      · exact .inr (by rw [h])
    · exact htypes
  · intro hne hex
    unfold fileAssigns
    split
    · rename_i a r heq
      rcases hfn _ heq with h | h
      · cases h
      · rw [h]
    · rename_i hno
      rcases hex with ⟨am, hmem, hg⟩ | ⟨tn, ms, m, ht, hmm, hn, hrv, hg⟩
      · exfalso
        rw [nodup_find hnd hmem] at hno
        simp only [Option.map_some, hg] at hno
        cases as with
        | nil => exact hne rfl
        | cons a r => exact hno a r rfl
      · refine findSome_unique hts ⟨(tn, ms), (isort_perm _ _).mem_iff.2 ht, ?_⟩
        refine findSome_unique (hm tn ms ht) ⟨m, hmm, ?_⟩
        unfold methodAssigns
        rw [if_neg (by simp [hn]), if_neg (by rintro ⟨_, _, h⟩; rw [hrv] at h; exact h rfl), if_neg (by rw [hg]; exact hne), hg]

/-- The lookup finds the assignments of the calling function. -/
theorem lookup_code (pkgs : Pkgs) (e : Edge) (c : Code) (h : Calls pkgs e c) (n : String)
    (hn : (∃ x ∈ c.before ++ c.later, x.1 = n) ∨ ∃ p, Ex.fn n p ∈ e.args ∨ Ex.var n p ∈ e.args) :
    lookupAssignments pkgs e n = assigned c n := by
  have hall : ∀ recv am, Declares pkgs e.callerPkg e.callerName recv am → get am n = [] ∨ get am n = assigned c n := by
    intro recv am hd
    rcases hn with ⟨x, hx, rfl⟩ | ⟨p, hp⟩
    · rcases h.alone recv am hd with hr | hr
      · exact .inr (get_records hr _)
      · exact .inl (get_not_mem (hr x hx))
    · rcases h.keyed recv am hd with hr | hr
      · exact .inr (get_records hr _)
      · rcases hp with hp | hp
        · exact .inl (get_not_mem (hr _ hp n p (.inl rfl)))
        · exact .inl (get_not_mem (hr _ hp n p (.inr rfl)))
  have hown : get e.own n = [] := by rw [h.own]; rfl
  unfold lookupAssignments
  rw [if_neg (by rw [hown]; simp), if_neg (by simp [h.named.1, h.named.2])]
  obtain ⟨am, hd, hr⟩ := h.caller
  have hfiles : ∃ files, (e.callerPkg, files) ∈ pkgs := by
    generalize e.callerName = cn at hd
    generalize e.callerRecv = cr at hd
    cases hd with
    | function h1 => exact ⟨_, h1⟩
    | method h1 => exact ⟨_, h1⟩
  obtain ⟨files, hfs⟩ := hfiles
  rw [nodup_find h.packages hfs]
  simp only
  have hsame : ∀ files', (e.callerPkg, files') ∈ pkgs → files' = files := by
    intro files' h'
    have h1 := nodup_find h.packages hfs
    have h2 := nodup_find h.packages h'
    rw [h1] at h2
    injection h2 with h2
    injection h2 with _ h2
    exact h2.symm
  have hfile : ∀ f ∈ isort (fun a b : String × File => strLe a.1 b.1) files,
      (fileAssigns e n f.2 = none ∨ fileAssigns e n f.2 = some (assigned c n)) ∧
      (assigned c n ≠ [] → ((∃ am, (e.callerName, am) ∈ f.2.functions ∧ get am n = assigned c n) ∨
      ∃ tn ms m, (tn, ms) ∈ f.2.types ∧ m ∈ ms ∧ m.name = e.callerName ∧ m.recv = e.callerRecv ∧ get m.assigns n = assigned c n) → fileAssigns e n f.2 = some (assigned c n)) := by
    intro f hf
    have hf' := (isort_perm _ _).mem_iff.1 hf
    refine file_answers e n f.2 (h.functions _ _ f.1 f.2 hfs hf') (assigned c n) ?_ ?_
    · intro am hm; exact hall "" am (.function hfs hf' hm)
    · intro tn ms ht m hm hname
      exact hall m.recv m.assigns (hname ▸ .method hfs hf' ht hm)
  by_cases hne : assigned c n = []
  · rw [hne]
    cases hfs' : (isort (fun a b : String × File => strLe a.1 b.1) files).findSome? (fun f => fileAssigns e n f.2) with
    | none => rfl
    | some v =>
      obtain ⟨f, hf, hv⟩ := List.exists_of_findSome?_eq_some hfs'
      rcases (hfile f hf).1 with h' | h'
      · rw [h'] at hv; cases hv
      · rw [h', hne] at hv; injection hv with hv; rw [← hv]; rfl
  · have : (isort (fun a b : String × File => strLe a.1 b.1) files).findSome? (fun f => fileAssigns e n f.2) = some (assigned c n) := by
      refine findSome_unique (fun f hf => (hfile f hf).1) ?_
      generalize hcn : e.callerName = cn at hd
      generalize hcr : e.callerRecv = cr at hd
      cases hd with
      | @function files' fname f _ _ h1 h2 h3 =>
        have := hsame _ h1
        subst this
        refine ⟨(fname, f), (isort_perm _ _).mem_iff.2 h2, (hfile _ ((isort_perm _ _).mem_iff.2 h2)).2 hne (.inl ⟨am, by rw [hcn]; exact h3, get_records hr n⟩)⟩
      | @method files' fname f tn ms m h1 h2 h3 h4 =>
        have := hsame _ h1
        subst this
        refine ⟨(fname, f), (isort_perm _ _).mem_iff.2 h2, (hfile _ ((isort_perm _ _).mem_iff.2 h2)).2 hne (.inr ⟨tn, ms, m, h3, h4, hcn.symm, hcr.symm, get_records hr n⟩)⟩
    rw [this]; rfl

theorem nonEmpty_named {n p r : String} (h : n ≠ "") : nonEmpty ⟨n, p, r⟩ = some ⟨n, p, r⟩ := by
  unfold nonEmpty Ref.empty
  rw [if_neg]
  simp [h]

theorem arg_clear (pkgs : Pkgs) (e : Edge) (c : Code) (h : Calls pkgs e c) {a : Ex} (ha : a ∈ e.args) (hc : Clear c a) :
    ∃ r, argRef pkgs e a = some r ∧ Origin c.before.reverse a r := by
  cases hc with
  | @fn n p hn hx =>
    have hl := lookup_code pkgs e c h n (.inr ⟨p, .inl ha⟩)
    have he : assigned c n = [] := by
      unfold assigned
      rw [List.map_eq_nil_iff, List.filter_eq_nil_iff]
      intro x hxm
      simp [hx x hxm]
    refine ⟨_, ?_, .fn⟩
    unfold argRef resolveIdent identRef
    simp only [hl, he, List.getLast?_nil, refFromArg]
    exact nonEmpty_named hn
  | @sel n p r hn =>
    cases r with
    | none => exact ⟨_, nonEmpty_named hn, .func⟩
    | some r => exact ⟨_, nonEmpty_named hn, .method⟩
  | @callName n p hn => exact ⟨_, nonEmpty_named hn, .call .name⟩
  | @callSel n p r hn =>
    cases r with
    | none => exact ⟨_, nonEmpty_named hn, .call .func⟩
    | some r => exact ⟨_, nonEmpty_named hn, .call .method⟩
  | @var n p e' l1 l2 hb ho hk =>
    have hl := lookup_code pkgs e c h n (.inr ⟨p, .inr ha⟩)
    have he : assigned c n = [recordAsg e'] := by
      have hf : ∀ l : List (String × Ex), (∀ x ∈ l, x.1 ≠ n) → l.filter (fun x => decide (x.1 = n)) = [] := by
        intro l hl'
        rw [List.filter_eq_nil_iff]
        intro x hx
        simp [hl' x hx]
      unfold assigned
      rw [hb, List.append_assoc, List.filter_append, List.cons_append, List.filter_cons, if_pos (by simp), List.map_append,
        hf l1 (fun x hx => ho x (by simp [hx])), hf (l2 ++ c.later) (fun x hx => ho x (List.mem_append_right _ hx))]
      rfl
    have horig : ∀ r, Origin l1.reverse e' r → Origin c.before.reverse (.var n p) r := by
      intro r hr
      rw [hb]
      simp only [List.reverse_append, List.reverse_cons, List.append_assoc, List.singleton_append]
      exact .var (fun x hx => ho x (by simp at hx; simp [hx])) hr
    have harg : argRef pkgs e (.var n p) = match identRef pkgs e n with | some r => some r | none => refFromArg (.var n p) := rfl
    obtain ⟨m, q, hm, hcase⟩ := hk
    have hid : ∀ r, identRef pkgs e n = some r → Origin l1.reverse e' r → ∃ r, argRef pkgs e (.var n p) = some r ∧ Origin c.before.reverse (.var n p) r := by
      intro r h1 h2
      exact ⟨r, by rw [harg, h1], horig r h2⟩
    rcases hcase with rfl | rfl | ⟨r, rfl⟩
    · refine hid ⟨m, q, ""⟩ ?_ (.call .name)
      unfold identRef
      rw [hl, he]
      simp [recordAsg, hm]
    · refine hid ⟨m, q, ""⟩ ?_ (.call .func)
      unfold identRef
      rw [hl, he]
      simp [recordAsg, hm]
    · cases r with
      | none =>
        refine hid ⟨m, q, ""⟩ ?_ .func
        unfold identRef
        rw [hl, he]
        simp [recordAsg, refFromArg, nonEmpty_named hm]
      | some r =>
        refine hid ⟨m, q, r⟩ ?_ .method
        unfold identRef
        rw [hl, he]
        simp [recordAsg, refFromArg, nonEmpty_named hm]

instance (p : Pattern) (args : List Ex) (i : Nat) : Decidable (Applied p args i) := by unfold Applied; infer_instance

theorem middlewareArgs_get (p : Pattern) (args : List Ex) (hs : 0 ≤ p.start) (j : Nat) :
    (middlewareArgs p args)[j]? = if Applied p args (p.start.toNat + j) then args[p.start.toNat + j]? else none := by
  unfold middlewareArgs
  simp only [List.getElem?_drop, List.getElem?_take]
  by_cases hlen : p.start.toNat + j < args.length
  · have key : (p.start.toNat + j < (if p.variadic = true then (if (p.excludeLast && decide (p.start.toNat < args.length)) = true then args.length - 1 else args.length) else p.start.toNat + 1)) ↔
        Applied p args (p.start.toNat + j) := by
      have hl : p.start.toNat < args.length := by omega
      unfold Applied
      cases hv : p.variadic with
      | false => simp; omega
      | true =>
        cases hx : p.excludeLast with
        | false => simp; omega
        | true => simp [hl]; omega
    by_cases ha : Applied p args (p.start.toNat + j)
    · rw [if_pos (key.2 ha), if_pos ha]
    · rw [if_neg (fun h => ha (key.1 h)), if_neg ha]
  · rw [List.getElem?_eq_none (by omega)]
    simp

theorem filterMap_get {α β : Type} {f : α → Option β} : ∀ {l : List α}, (∀ a ∈ l, ∃ b, f a = some b) → ∀ j : Nat,
    (l.filterMap f)[j]? = (l[j]?).bind f
  | [], _, j => by simp
  | a :: l, h, j => by
    obtain ⟨b, hb⟩ := h a (by simp)
    rw [List.filterMap_cons_some hb]
    cases j with
    | zero => simp [hb]
    | succ j => simp only [List.getElem?_cons_succ]; exact filterMap_get (fun x hx => h x (by simp [hx])) j

/-! ## The property -/

/-- **C95 (partial: the listed forms of middleware values; no other function or method of that name in
the package has variables of the same names).**  The middleware found for a call is, one for one and in
order, that of the arguments the pattern says are middleware, each identified by the function it comes
from. -/
theorem C95_identified_partial (pkgs : Pkgs) (p : Pattern) (e : Edge) (c : Code) (h : Calls pkgs e c) (hw : p.wrapper = false) (hs : 0 ≤ p.start)
    (hc : ∀ i a, Applied p e.args i → e.args[i]? = some a → Clear c a) (j : Nat) :
    (∀ a, Applied p e.args (p.start.toNat + j) → e.args[p.start.toNat + j]? = some a →
      ∃ r, (extract pkgs p e)[j]? = some r ∧ ∀ r', Origin c.before.reverse a r' ↔ r' = r) ∧
    (∀ r, (extract pkgs p e)[j]? = some r → Applied p e.args (p.start.toNat + j)) := by
  have hex : extract pkgs p e = (middlewareArgs p e.args).filterMap (argRef pkgs e) := by unfold extract; rw [hw]; rfl
  have hcl : ∀ a ∈ middlewareArgs p e.args, a ∈ e.args ∧ Clear c a := by
    intro a ha
    obtain ⟨k, hk⟩ := List.mem_iff_getElem?.1 ha
    rw [middlewareArgs_get p e.args hs k] at hk
    split at hk
    · rename_i hap
      exact ⟨List.mem_of_getElem? hk, hc _ a hap hk⟩
    · cases hk
  have hg := filterMap_get (f := argRef pkgs e) (l := middlewareArgs p e.args)
    (fun a ha => (arg_clear pkgs e c h (hcl a ha).1 (hcl a ha).2).imp fun _ h => h.1) j
  rw [hex, hg, middlewareArgs_get p e.args hs j]
  constructor
  · intro a hap ha
    rw [if_pos hap, ha]
    obtain ⟨r, h1, h2⟩ := arg_clear pkgs e c h (List.mem_of_getElem? ha) (hc _ a hap ha)
    exact ⟨r, h1, fun r' => ⟨fun h3 => origin_unique h3 h2, fun h3 => h3 ▸ h2⟩⟩
  · intro r hr
    split at hr
    · assumption
    · cases hr

/-- **C95, wrappers.**  A handler wrapped in a call is protected by the function called; a handler that
is not a call is no middleware. -/
theorem C95_wrapper (pkgs : Pkgs) (p : Pattern) (e : Edge) (hw : p.wrapper = true) (i : Nat) (hi : p.handlerIndex = i) :
    (∀ c r, e.args[i]? = some (.call c) → Called c r → r.name ≠ "" → extract pkgs p e = [r]) ∧
    ((∀ c, e.args[i]? ≠ some (.call c)) → extract pkgs p e = []) := by
  have h0 : extract pkgs p e = match e.args[i]? with | some (.call c) => (refFromArg (.call c)).toList | _ => [] := by
    unfold extract
    rw [hw, if_pos rfl, hi, if_neg (by omega)]
    rfl
  constructor
  · intro c r ha hcl hn
    rw [h0, ha]
    cases hcl with
    | name => simp only [refFromArg, nonEmpty_named hn, Option.toList]
    | func => simp only [refFromArg, Option.getD, nonEmpty_named hn, Option.toList]
    | method => simp only [refFromArg, Option.getD, nonEmpty_named hn, Option.toList]
  · intro hno
    rw [h0]
    split
    · rename_i c hc; exact absurd hc (hno c)
    · rfl

/-- **C95, sound positions.**  Whatever the code, no more middleware is found than the pattern's
arguments, so the handler after them is never taken for middleware. -/
theorem C95_handler_left_out (pkgs : Pkgs) (p : Pattern) (e : Edge) (hw : p.wrapper = false) (hv : p.variadic = true) (hx : p.excludeLast = true) :
    (extract pkgs p e).length ≤ e.args.length - 1 - p.start.toNat := by
  unfold extract
  rw [hw, if_neg (by simp)]
  refine Nat.le_trans (List.length_filterMap_le _ _) ?_
  unfold middlewareArgs
  simp only [hv, hx, List.length_drop, List.length_take, Bool.true_and, if_true]
  split
  · omega
  · rename_i h; simp at h; omega

/-! ## Examples, and where the identity is lost -/

def auth : Ex := .call (.sel "New" "m/auth" none)

/-- `mw := auth.New(); r.Use(mw, cors.Handler, h.limit)` in the function `Routes`. -/
def useEdge (args : List Ex) : Edge := { own := [], callerName := "Routes", callerPkg := "m/api", callerRecv := "", args := args }

def one (n : String) (es : List Ex) : AssignMap := [(n, es.map recordAsg)]

def demoPkgs : Pkgs := [("m/api", [("routes.go", { functions := [("Routes", one "mw" [auth])], types := [] })])]

def use : Pattern := { start := 0, variadic := true }

example : extract demoPkgs use (useEdge [.var "mw" "m/api", .sel "Handler" "m/cors" none, .sel "limit" "m/api" (some "Handler")]) =
    [⟨"New", "m/auth", ""⟩, ⟨"Handler", "m/cors", ""⟩, ⟨"limit", "m/api", "Handler"⟩] := by decide +kernel

/-- Non-vacuity of `C95_identified_partial`. -/
example : Calls demoPkgs (useEdge [.var "mw" "m/api"]) ⟨[("mw", auth)], []⟩ ∧ Clear ⟨[("mw", auth)], []⟩ (.var "mw" "m/api") := by
  have hd : ∀ n recv am, Declares demoPkgs "m/api" n recv am → am = one "mw" [auth] := by
    intro n recv am h
    cases h with
    | function h1 h2 h3 =>
      simp only [demoPkgs, List.mem_singleton, Prod.mk.injEq] at h1
      obtain ⟨_, rfl⟩ := h1
      simp only [List.mem_singleton, Prod.mk.injEq] at h2
      obtain ⟨_, rfl⟩ := h2
      simp only [List.mem_singleton, Prod.mk.injEq] at h3
      exact h3.2
    | method h1 h2 h3 h4 =>
      simp only [demoPkgs, List.mem_singleton, Prod.mk.injEq] at h1
      obtain ⟨_, rfl⟩ := h1
      simp only [List.mem_singleton, Prod.mk.injEq] at h2
      obtain ⟨_, rfl⟩ := h2
      cases h3
  have hr : Records (one "mw" [auth]) ⟨[("mw", auth)], []⟩ := by
    refine ⟨by simp [one], ?_⟩
    intro n l
    by_cases hn : n = "mw"
    · subst hn; simp [one, assigned]; rintro rfl; simp
    · have hn' : ¬ "mw" = n := fun h => hn h.symm
      simp [one, assigned, hn, hn']
  refine ⟨⟨by decide, ?_, rfl, by decide, ⟨_, .function (List.mem_singleton.2 rfl) (List.mem_singleton.2 rfl) (List.mem_singleton.2 rfl), hr⟩, ?_, ?_⟩,
    .var (l1 := []) (l2 := []) rfl (by simp) ⟨"New", "m/auth", by decide, .inr (.inl rfl)⟩⟩
  · intro pkg files fname f h1 h2
    simp only [demoPkgs, List.mem_singleton, Prod.mk.injEq] at h1
    obtain ⟨_, rfl⟩ := h1
    simp only [List.mem_singleton, Prod.mk.injEq] at h2
    obtain ⟨_, rfl⟩ := h2
    simp
  · intro recv am h; exact .inl (hd _ _ _ h ▸ hr)
  · intro recv am h; exact .inl (hd _ _ _ h ▸ hr)

/-- `r.GET("/x", mw1, handler)`: the handler is left out. -/
example : extract demoPkgs { start := 1, variadic := true, excludeLast := true } (useEdge [.other, .fn "Auth" "m/api", .fn "List" "m/api"]) =
    [⟨"Auth", "m/api", ""⟩] := by decide +kernel

/-- **C95 fails for function literals and other expressions.**  They are neither identified nor reported:
the call counts as applying no middleware. -/
theorem C95_anonymous_dropped (pkgs : Pkgs) (p : Pattern) (e : Edge) (hw : p.wrapper = false) (hs : 0 ≤ p.start)
    (h : ∀ i a, Applied p e.args i → e.args[i]? = some a → a = .lit ∨ a = .other ∨ a = .call .other) : extract pkgs p e = [] := by
  unfold extract
  rw [hw, if_neg (by simp), List.filterMap_eq_nil_iff]
  intro a ha
  obtain ⟨k, hk⟩ := List.mem_iff_getElem?.1 ha
  rw [middlewareArgs_get p e.args hs k] at hk
  split at hk
  · rename_i hap
    rcases h _ a hap hk with rfl | rfl | rfl <;> rfl
  · cases hk

/-- **C95 fails for variables set again after the call.**  `mw := auth.New(); r.Use(mw); mw = log.New()`. -/
theorem C95_later_assignment : extract [("m/api", [("routes.go", { functions := [("Routes", one "mw" [auth, .call (.sel "New" "m/log" none)])], types := [] })])]
      use (useEdge [.var "mw" "m/api"]) = [⟨"New", "m/log", ""⟩] ∧
    Origin (Code.before ⟨[("mw", auth)], [("mw", .call (.sel "New" "m/log" none))]⟩).reverse (.var "mw" "m/api") ⟨"New", "m/auth", ""⟩ :=
  ⟨by decide +kernel, .var (newer := []) (older := []) (by simp) (.call .func)⟩

/-- **C95 loses the receiver of a method that makes the middleware.**  `mw := h.auth(); r.Use(mw)` and
`r.Use(h.auth())` are identified differently. -/
theorem C95_receiver_lost : extract [("m/api", [("routes.go", { functions := [("Routes", one "mw" [.call (.sel "auth" "m/api" (some "Handler"))])], types := [] })])]
      use (useEdge [.var "mw" "m/api"]) = [⟨"auth", "m/api", ""⟩] ∧
    extract [] use (useEdge [.call (.sel "auth" "m/api" (some "Handler"))]) = [⟨"auth", "m/api", "Handler"⟩] ∧
    Origin [("mw", .call (.sel "auth" "m/api" (some "Handler")))] (.var "mw" "m/api") ⟨"auth", "m/api", "Handler"⟩ :=
  ⟨by decide +kernel, by decide +kernel, .var (newer := []) (older := []) (by simp) (.call .method)⟩

/-- **C95 fails for variables holding a function, or another variable.**  They are identified by the name
of the variable. -/
theorem C95_variable_name : extract [("m/api", [("routes.go", { functions := [("Routes", one "mw" [.fn "Auth" "m/api"])], types := [] })])]
      use (useEdge [.var "mw" "m/api"]) = [⟨"mw", "m/api", ""⟩] ∧
    Origin [("mw", .fn "Auth" "m/api")] (.var "mw" "m/api") ⟨"Auth", "m/api", ""⟩ :=
  ⟨by decide +kernel, .var (newer := []) (older := []) (by simp) .fn⟩

/-- **C95 confuses a function with a method of the same name.**  The method's variable, in an earlier
file, is taken for the function's. -/
theorem C95_method_confused : extract [("m/api", [("admin.go", { functions := [], types := [("Admin", [⟨"Routes", "*Admin", one "mw" [.call (.sel "New" "m/log" none)]⟩])] }),
      ("routes.go", { functions := [("Routes", one "mw" [auth])], types := [] })])] use (useEdge [.var "mw" "m/api"]) = [⟨"New", "m/log", ""⟩] ∧
    Origin [("mw", auth)] (.var "mw" "m/api") ⟨"New", "m/auth", ""⟩ :=
  ⟨by decide +kernel, .var (newer := []) (older := []) (by simp) (.call .func)⟩

end Verif.MwIdent
