/-
C94: a path variable the handler reads but the route does not declare is reported, and nothing else is;
the variables of a route whose handler reads them are documented.
-/
import Verif.PathVarModel
import Verif.PathsProps

namespace Verif.PathVar
open Verif.Common Verif.ValidateModel Verif.Paths

/-! ## Specification: what a handler reads -/

/-- `a` is `e` or an operand of it, at any depth. -/
inductive Within : GoEx → GoEx → Prop
  | self {e} : Within e e
  | map {a m k} : Within a m → Within a (.index m k)
  | key {a m k} : Within a k → Within a (.index m k)
  | arg {a b p f q as} : b ∈ as → Within a b → Within a (.call p f q as)
  | left {a x y} : Within a x → Within a (.binary x y)
  | right {a x y} : Within a y → Within a (.binary x y)
  | operand {a b as} : b ∈ as → Within a b → Within a (.other as)

/-- The function with this name is the accessor. -/
def Accessor (acc : Acc) (p f : Str) : Prop := acc.call f = true ∧ acc.recv p = true ∧ f ≠ []

/-- Which variables hold the map of path variables. -/
abbrev Mem := Str → Prop

/-- The expression is the map of path variables. -/
inductive IsVars (acc : Acc) (μ : Mem) : GoEx → Prop
  | var {n} : μ n → IsVars acc μ (.ident n)
  | call {p f q as} : Accessor acc p f → IsVars acc μ (.call p f q as)

/-- What a statement leaves in memory. -/
def after (acc : Acc) (μ : Mem) : Stmt → Mem
  | .assign (.var n) e => fun m => (m = n ∧ IsVars acc μ e) ∨ (m ≠ n ∧ μ m)
  | _ => μ

/-- The memory after the statements of a path through the handler. -/
def memory (acc : Acc) (path : List Stmt) : Mem := path.foldl (after acc) fun _ => False

/-- The text of a literal stands for the key: `"k"` or `` `k` `` without quotes or escapes inside. -/
def Spells (t k : Str) : Prop := (t = '"' :: (k ++ ['"']) ∨ t = '`' :: (k ++ ['`'])) ∧ k ≠ [] ∧ ∀ c ∈ k, c ≠ '"' ∧ c ≠ '`' ∧ c ≠ '\\'

def Stmt.ex : Stmt → GoEx
  | .assign _ e => e
  | .use e => e

/-- A path through the handler reads the variable `k` in the statement `s` of it. -/
def ReadsAt (acc : Acc) (path : List Stmt) (s : Stmt) (k : Str) : Prop :=
  ∃ pre post m t, path = pre ++ s :: post ∧ Within (.index m (.str t)) s.ex ∧ Spells t k ∧ IsVars acc (memory acc pre) m

/-- The route declares the variable: its path, as written, has `{k}` or `{k:pattern}`. -/
def Declares (ps : List Piece) (k : Str) : Prop := .plain k ∈ ps ∨ ∃ pat, .regex k pat ∈ ps

/-- The metadata records the assignments of these statements. -/
def Recorded (am : AssignMap) (ss : List Stmt) : Prop :=
  ∀ n a, (∃ l, (n, l) ∈ am ∧ a ∈ l) ↔ ∃ s ∈ ss, recordStmt s = some (n, a)

/-- The handler of the route is a declared function with these statements. -/
def HandledBy (ix : Index) (r : Route) (name : Str) (ss : List Stmt) : Prop :=
  name ≠ [] ∧ r.function = r.package ++ '.' :: name ∧ r.package ≠ [] ∧ ∃ am, ix.inPackage r.package name = some am ∧ Recorded am ss

/-- Only direct calls of the accessor put the map into a variable: it is not copied. -/
def NoCopies (ss : List Stmt) : Prop := ∀ n m, Stmt.assign (.var n) (.ident m) ∉ ss

/-! ## Lemmas -/

theorem trimKey_spells {t k : Str} (h : Spells t k) : trimKey t = k := by
  obtain ⟨ht, hk, hc⟩ := h
  have hh : ∀ c ∈ k, (c == '"' || c == '`') = false := by
    intro c h; simp [(hc c h).1, (hc c h).2.1]
  have main : ∀ q, (q == '"' || q == '`') = true → trimKey (q :: (k ++ [q])) = k := by
    intro q hq
    unfold trimKey trimBy
    rw [List.dropWhile_cons_of_pos (p := fun c => c == '"' || c == '`') hq]
    cases hk' : k with
    | nil => exact absurd hk' hk
    | cons c l =>
      rw [List.cons_append, List.dropWhile_cons_of_neg (by rw [hh c (by simp [hk'])]; simp), ← List.cons_append, ← hk']
      rw [List.reverse_append, List.reverse_singleton, List.singleton_append, List.dropWhile_cons_of_pos (p := fun c => c == '"' || c == '`') hq]
      cases hr : k.reverse with
      | nil => simp at hr; exact absurd hr hk
      | cons d l' =>
        have hd : d ∈ k := by rw [← List.mem_reverse, hr]; simp
        rw [List.dropWhile_cons_of_neg (by rw [hh d hd]; simp), ← hr, List.reverse_reverse]
  rcases ht with rfl | rfl
  · exact main _ (by decide)
  · exact main _ (by decide)

/-- What counts as a read for the walk. -/
def Derived (acc : Acc) (vars : Str → Bool) : GoEx → Prop
  | .ident n => vars n = true
  | .call p f _ _ => acc.call f = true ∧ acc.recv p = true
  | _ => False

theorem kind_record (e : GoEx) : (record e).kind? ≠ none := by
  cases e with
  | call p f q as => cases q <;> simp [record, Rec.kind?]
  | _ => simp [record, Rec.kind?]

theorem derived_iff (acc : Acc) (vars : Str → Bool) (e : GoEx) :
    (((record e).kind? = some .ident ∧ vars (record e).name = true) ∨ isAccessorCall acc (record e) = true) ↔ Derived acc vars e := by
  cases e with
  | ident n => simp [record, Rec.kind?, Rec.name, Derived, isAccessorCall]
  | str t => simp [record, Rec.kind?, Derived, isAccessorCall]
  | index m k => simp [record, Rec.kind?, Derived, isAccessorCall]
  | call p f q as =>
    cases q
    · simp [record, Rec.kind?, Derived, isAccessorCall, Rec.fn, Rec.name, Rec.pkg]
    · cases p <;> simp [record, Rec.kind?, Derived, isAccessorCall, Rec.fn, Rec.sel, Rec.name, Rec.pkg]
  | binary x y => simp [record, Rec.kind?, Derived, isAccessorCall]
  | other as => simp [record, Rec.kind?, Derived, isAccessorCall]

theorem literal_iff (e : GoEx) : (record e).kind? = some .literal ↔ ∃ t, e = .str t := by
  cases e with
  | call p f q as => cases q <;> simp [record, Rec.kind?]
  | str t => simp [record, Rec.kind?]
  | _ => simp [record, Rec.kind?]

theorem keyHere_index (acc : Acc) (vars : Str → Bool) (m k : GoEx) (key : Str) :
    key ∈ keyHere acc vars .index (record m) (record k) ↔ ∃ t, k = .str t ∧ Derived acc vars m ∧ trimKey t = key ∧ key ≠ [] := by
  unfold keyHere
  constructor
  · intro h
    split at h
    · rename_i hc
      rw [derived_iff, literal_iff] at hc
      obtain ⟨_, ⟨t, rfl⟩, hd, hne⟩ := hc
      simp only [record, Rec.value, List.mem_singleton] at h hne
      subst h
      exact ⟨t, rfl, hd, rfl, hne⟩
    · simp at h
  · rintro ⟨t, rfl, hd, rfl, hne⟩
    rw [if_pos ⟨rfl, rfl, (derived_iff acc vars m).2 hd, hne⟩]
    simp [record, Rec.value]

theorem keyHere_other (acc : Acc) (vars : Str → Bool) (k : Kind) (x f : Rec) (h : k ≠ .index) : keyHere acc vars k x f = [] := by
  unfold keyHere; rw [if_neg (fun hc => h hc.1)]

/-- Being a read at this expression. -/
def ReadHere (acc : Acc) (vars : Str → Bool) (key : Str) (e : GoEx) : Prop :=
  ∃ m t, e = .index m (.str t) ∧ Derived acc vars m ∧ trimKey t = key ∧ key ≠ []

mutual
theorem collect_mem (acc : Acc) (vars : Str → Bool) (key : Str) : ∀ e : GoEx,
    key ∈ collect acc vars (record e) ↔ ∃ a, Within a e ∧ ReadHere acc vars key a
  | .ident n => by
    simp only [record, collect, collectAll, keyHere_other acc vars .ident _ _ (by simp), List.append_nil]
    constructor
    · intro h; simp at h
    · rintro ⟨a, hw, m, t, rfl, _⟩; cases hw
  | .str t => by
    simp only [record, collect, collectAll, keyHere_other acc vars .literal _ _ (by simp), List.append_nil]
    constructor
    · intro h; simp at h
    · rintro ⟨a, hw, m, t, rfl, _⟩; cases hw
  | .index m k => by
    simp only [record, collect, collectAll, List.append_nil, List.mem_append, keyHere_index, collect_mem acc vars key m, collect_mem acc vars key k]
    constructor
    · rintro (⟨t, rfl, h⟩ | ⟨a, hw, h⟩ | ⟨a, hw, h⟩)
      · exact ⟨_, .self, m, t, rfl, h⟩
      · exact ⟨a, .map hw, h⟩
      · exact ⟨a, .key hw, h⟩
    · rintro ⟨a, hw, h⟩
      cases hw with
      | self => obtain ⟨m', t, he, h⟩ := h; injection he with h1 h2; subst h1; exact .inl ⟨t, h2, h⟩
      | map hw => exact .inr (.inl ⟨a, hw, h⟩)
      | key hw => exact .inr (.inr ⟨a, hw, h⟩)
  | .call p f q as => by
    have h0 : key ∈ collect acc vars (record (.call p f q as)) ↔ key ∈ collectAll acc vars (recordAll as) := by
      cases q
      · simp only [record, collect, collectAll, keyHere_other acc vars .call _ _ (by simp), keyHere_other acc vars .ident _ _ (by simp), List.append_nil, List.nil_append]
      · simp only [record, collect, collectAll, keyHere_other acc vars .call _ _ (by simp), keyHere_other acc vars .selector _ _ (by simp), keyHere_other acc vars .ident _ _ (by simp), List.append_nil, List.nil_append]
    rw [h0, collectAll_mem acc vars key as]
    constructor
    · rintro ⟨b, hb, a, hw, h⟩; exact ⟨a, .arg hb hw, h⟩
    · rintro ⟨a, hw, h⟩
      cases hw with
      | self => obtain ⟨m, t, he, _⟩ := h; cases he
      | arg hb hw => exact ⟨_, hb, a, hw, h⟩
  | .binary x y => by
    simp only [record, collect, collectAll, keyHere_other acc vars .other _ _ (by simp), List.append_nil, List.nil_append, List.mem_append, collect_mem acc vars key x, collect_mem acc vars key y]
    constructor
    · rintro (⟨a, hw, h⟩ | ⟨a, hw, h⟩)
      · exact ⟨a, .left hw, h⟩
      · exact ⟨a, .right hw, h⟩
    · rintro ⟨a, hw, h⟩
      cases hw with
      | self => obtain ⟨m, t, he, _⟩ := h; cases he
      | left hw => exact .inl ⟨a, hw, h⟩
      | right hw => exact .inr ⟨a, hw, h⟩
  | .other as => by
    simp only [record, collect, keyHere_other acc vars .other _ _ (by simp), List.nil_append, collectAll_mem acc vars key as]
    constructor
    · rintro ⟨b, hb, a, hw, h⟩; exact ⟨a, .operand hb hw, h⟩
    · rintro ⟨a, hw, h⟩
      cases hw with
      | self => obtain ⟨m, t, he, _⟩ := h; cases he
      | operand hb hw => exact ⟨_, hb, a, hw, h⟩
theorem collectAll_mem (acc : Acc) (vars : Str → Bool) (key : Str) : ∀ as : List GoEx,
    key ∈ collectAll acc vars (recordAll as) ↔ ∃ b ∈ as, ∃ a, Within a b ∧ ReadHere acc vars key a
  | [] => by simp [recordAll, collectAll]
  | b :: as => by
    simp only [recordAll, collectAll, List.mem_append, collect_mem acc vars key b, collectAll_mem acc vars key as, List.mem_cons, exists_eq_or_imp]
end

theorem accessorVar_iff (acc : Acc) (am : AssignMap) (ss : List Stmt) (h : Recorded am ss) (n : Str) :
    accessorVar acc am n = true ↔ ∃ p f q as, Stmt.assign (.var n) (.call p f q as) ∈ ss ∧ Accessor acc p f := by
  unfold accessorVar
  simp only [List.any_eq_true, Bool.and_eq_true, beq_iff_eq, bne_iff_ne, ne_eq]
  constructor
  · rintro ⟨⟨n', l⟩, hm, rfl, a, ha, ⟨h1, h2⟩, h3⟩
    obtain ⟨s, hs, hr⟩ := (h n' a).1 ⟨l, hm, ha⟩
    cases s with
    | use e => cases hr
    | assign lhs e =>
      cases lhs with
      | blank => cases hr
      | place t =>
        simp only [recordStmt, Option.some.injEq, Prod.mk.injEq] at hr
        rw [← hr.2] at h3; exact absurd rfl h3
      | var v =>
        simp only [recordStmt, Option.some.injEq, Prod.mk.injEq] at hr
        obtain ⟨rfl, rfl⟩ := hr
        cases e with
        | call p f q as => exact ⟨p, f, q, as, hs, h1, h2, h3⟩
        | _ => exact absurd rfl h3
  · rintro ⟨p, f, q, as, hs, h1, h2, h3⟩
    obtain ⟨l, hl, ha⟩ := (h n ⟨record (.call p f q as), f, p⟩).2 ⟨_, hs, rfl⟩
    exact ⟨(n, l), hl, rfl, _, ha, ⟨h1, h2⟩, h3⟩

/-- The statement's value is recorded. -/
def Kept : Stmt → Prop
  | .assign .blank _ => False
  | .assign _ _ => True
  | .use _ => False

theorem accessorKeys_mem (acc : Acc) (am : AssignMap) (ss : List Stmt) (h : Recorded am ss) (key : Str) :
    key ∈ accessorKeys acc am ↔ ∃ s ∈ ss, Kept s ∧ ∃ a, Within a s.ex ∧ ReadHere acc (accessorVar acc am) key a := by
  unfold accessorKeys
  simp only [List.mem_flatMap]
  constructor
  · rintro ⟨⟨n, l⟩, hm, a, ha, hk⟩
    obtain ⟨s, hs, hr⟩ := (h n a).1 ⟨l, hm, ha⟩
    cases s with
    | use e => cases hr
    | assign lhs e =>
      cases lhs with
      | blank => cases hr
      | place t =>
        simp only [recordStmt, Option.some.injEq, Prod.mk.injEq] at hr
        obtain ⟨_, rfl⟩ := hr
        exact ⟨_, hs, trivial, (collect_mem acc _ key e).1 hk⟩
      | var v =>
        simp only [recordStmt, Option.some.injEq, Prod.mk.injEq] at hr
        obtain ⟨_, rfl⟩ := hr
        exact ⟨_, hs, trivial, (collect_mem acc _ key e).1 hk⟩
  · rintro ⟨s, hs, hk, hr⟩
    cases s with
    | use e => exact hk.elim
    | assign lhs e =>
      cases lhs with
      | blank => exact hk.elim
      | place t =>
        obtain ⟨l, hl, ha⟩ := (h t ⟨record e, [], []⟩).2 ⟨_, hs, rfl⟩
        exact ⟨(t, l), hl, _, ha, (collect_mem acc _ key e).2 hr⟩
      | var v =>
        obtain ⟨l, hl, ha⟩ := (h v ⟨record e, (calleeOf e).1, (calleeOf e).2⟩).2 ⟨_, hs, rfl⟩
        exact ⟨(v, l), hl, _, ha, (collect_mem acc _ key e).2 hr⟩

theorem recover_eq (ix : Index) (acc : Acc) (r : Route) {name : Str} {ss : List Stmt} (h : HandledBy ix r name ss) :
    ∃ am, Recorded am ss ∧ recoverKeys ix acc r = accessorKeys acc am := by
  obtain ⟨hn, hf, hp, am, hi, hr⟩ := h
  refine ⟨am, hr, ?_⟩
  have hb : bareFunc r = name := by
    unfold bareFunc
    rw [if_pos hp]
    unfold trimPrefix
    have he : r.function = (r.package ++ ['.']) ++ name := by rw [hf]; simp
    rw [if_pos (by rw [List.isPrefixOf_iff_prefix, he]; exact List.prefix_append _ _), he, List.drop_left]
  unfold recoverKeys findFunction
  rw [hb, if_neg hn, hi]

theorem mem_distinct (a : Str) : ∀ l : List Str, a ∈ distinct l ↔ a ∈ l
  | [] => Iff.rfl
  | b :: l => by
    unfold distinct
    split
    · rename_i hb
      rw [mem_distinct a l, List.mem_cons]
      constructor
      · exact .inr
      · rintro (rfl | h)
        · exact hb
        · exact h
    · rw [List.mem_cons, List.mem_cons, mem_distinct a l]

theorem placeholders_iff (ps : List Piece) (hok : ∀ p ∈ ps, p.Ok) (k : Str) (hk : k ≠ []) :
    k ∈ pathPlaceholders (routerText ps) ↔ Declares ps k := by
  unfold pathPlaceholders
  rw [C06_params_found ps hok]
  simp only [List.mem_filter, List.mem_map, List.mem_filterMap, decide_eq_true_eq, Declares]
  constructor
  · rintro ⟨⟨⟨n, pat⟩, ⟨p, hp, he⟩, rfl⟩, _⟩
    cases p with
    | lit c => cases he
    | colon n => cases he
    | plain n' => injection he with he; injection he with h1 h2; subst h1; exact .inl hp
    | regex n' pat' => injection he with he; injection he with h1 h2; subst h1; exact .inr ⟨pat', hp⟩
  · rintro (h | ⟨pat, h⟩)
    · exact ⟨⟨(k, []), ⟨.plain k, h, rfl⟩, rfl⟩, hk⟩
    · exact ⟨⟨(k, pat), ⟨.regex k pat, h, rfl⟩, rfl⟩, hk⟩

/-- Two reports are remembered by the same string only if they say the same. -/
theorem dedupKey_inj {a b : Mismatch} (ha : ' ' ∉ a.method ∧ ' ' ∉ a.path) (hb : ' ' ∉ b.method ∧ ' ' ∉ b.path)
    (h : dedupKey a = dedupKey b) : a.method = b.method ∧ a.path = b.path ∧ a.key = b.key := by
  have split : ∀ (x y u v : Str), ' ' ∉ x → ' ' ∉ y → x ++ ' ' :: u = y ++ ' ' :: v → x = y ∧ u = v := by
    intro x
    induction x with
    | nil =>
      intro y u v _ hy he
      cases y with
      | nil => injection he with _ he; exact ⟨rfl, he⟩
      | cons c y => injection he with h1 _; exact absurd (by rw [← h1]; simp) hy
    | cons c x ih =>
      intro y u v hx hy he
      cases y with
      | nil => injection he with h1 _; exact absurd (by rw [h1]; simp) hx
      | cons d y =>
        injection he with h1 h2
        obtain ⟨h3, h4⟩ := ih y u v (fun h => hx (by simp [h])) (fun h => hy (by simp [h])) h2
        exact ⟨by rw [h1, h3], h4⟩
  unfold dedupKey at h
  obtain ⟨h1, h2⟩ := split _ _ _ _ ha.1 hb.1 h
  obtain ⟨h3, h4⟩ := split _ _ _ _ ha.2 hb.2 h2
  exact ⟨h1, h3, h4⟩

theorem mem_addMismatch (r : Route) (out : List Mismatch) (key : Str) (m : Mismatch) :
    m ∈ addMismatch r out key ↔ m ∈ out ∨ (m = mismatchOf r key ∧ key ∉ pathPlaceholders r.path ∧ dedupKey m ∉ out.map dedupKey) := by
  unfold addMismatch
  split
  · rename_i h; constructor
    · exact .inl
    · rintro (h' | ⟨_, h', _⟩)
      · exact h'
      · exact absurd h h'
  · rename_i h
    split
    · rename_i hc
      rw [List.contains_iff_mem] at hc
      constructor
      · exact .inl
      · rintro (h' | ⟨rfl, _, h'⟩)
        · exact h'
        · exact absurd hc h'
    · rename_i hc
      rw [List.contains_iff_mem] at hc
      rw [List.mem_append, List.mem_singleton]
      constructor
      · rintro (h' | rfl)
        · exact .inl h'
        · exact .inr ⟨rfl, h, hc⟩
      · rintro (h' | ⟨h', _⟩)
        · exact .inl h'
        · exact .inr h'

/-- The loop over the keys: where reports come from, and that every undeclared key is remembered. -/
theorem fold_keys (r : Route) (keys : List Str) : ∀ out : List Mismatch,
    (∀ m ∈ keys.foldl (addMismatch r) out, m ∈ out ∨ ∃ k ∈ keys, m = mismatchOf r k ∧ k ∉ pathPlaceholders r.path) ∧
    (∀ m ∈ out, m ∈ keys.foldl (addMismatch r) out) ∧
    (∀ k ∈ keys, k ∉ pathPlaceholders r.path → ∃ m ∈ keys.foldl (addMismatch r) out, dedupKey m = dedupKey (mismatchOf r k)) := by
  induction keys with
  | nil => intro out; exact ⟨fun m h => .inl h, fun m h => h, fun k h => absurd h (by simp)⟩
  | cons k keys ih =>
    intro out
    obtain ⟨h1, h2, h3⟩ := ih (addMismatch r out k)
    refine ⟨?_, ?_, ?_⟩
    · intro m hm
      rcases h1 m hm with h | ⟨k', hk', h⟩
      · rcases (mem_addMismatch r out k m).1 h with h | ⟨h, hp, _⟩
        · exact .inl h
        · exact .inr ⟨k, by simp, h, hp⟩
      · exact .inr ⟨k', by simp [hk'], h⟩
    · intro m hm
      exact h2 m ((mem_addMismatch r out k m).2 (.inl hm))
    · intro k' hk' hp
      rcases List.mem_cons.1 hk' with rfl | hk'
      · by_cases hd : dedupKey (mismatchOf r k') ∈ out.map dedupKey
        · obtain ⟨m, hm, he⟩ := List.mem_map.1 hd
          exact ⟨m, h2 m ((mem_addMismatch r out k' m).2 (.inl hm)), he⟩
        · exact ⟨_, h2 _ ((mem_addMismatch r out k' _).2 (.inr ⟨rfl, hp, hd⟩)), rfl⟩
      · exact h3 k' hk' hp

theorem fold_routes (ix : Index) (acc : Acc) (rs : List Route) : ∀ out : List Mismatch,
    (∀ m ∈ rs.foldl (recordRoute ix acc) out, m ∈ out ∨ ∃ r ∈ rs, ∃ k ∈ recoverKeys ix acc r, r.function ≠ [] ∧ m = mismatchOf r k ∧ k ∉ pathPlaceholders r.path) ∧
    (∀ m ∈ out, m ∈ rs.foldl (recordRoute ix acc) out) ∧
    (∀ r ∈ rs, ∀ k ∈ recoverKeys ix acc r, r.function ≠ [] → k ∉ pathPlaceholders r.path →
      ∃ m ∈ rs.foldl (recordRoute ix acc) out, dedupKey m = dedupKey (mismatchOf r k)) := by
  induction rs with
  | nil => intro out; exact ⟨fun m h => .inl h, fun m h => h, fun k h => absurd h (by simp)⟩
  | cons r rs ih =>
    intro out
    obtain ⟨h1, h2, h3⟩ := ih (recordRoute ix acc out r)
    have hk : ∀ k, k ∈ isort keyLe (distinct (recoverKeys ix acc r)) ↔ k ∈ recoverKeys ix acc r := fun k => by
      rw [(isort_perm _ _).mem_iff, mem_distinct]
    refine ⟨?_, ?_, ?_⟩
    · intro m hm
      rcases h1 m hm with h | ⟨r', hr', h⟩
      · unfold recordRoute at h
        split at h
        · exact .inl h
        · rename_i hf
          rcases (fold_keys r _ out).1 m h with h | ⟨k, hk', h⟩
          · exact .inl h
          · exact .inr ⟨r, by simp, k, (hk k).1 hk', hf, h⟩
      · exact .inr ⟨r', by simp [hr'], h⟩
    · intro m hm
      refine h2 m ?_
      unfold recordRoute
      split
      · exact hm
      · exact (fold_keys r _ out).2.1 m hm
    · intro r' hr' k hk' hf hp
      rcases List.mem_cons.1 hr' with rfl | hr'
      · obtain ⟨m, hm, he⟩ := (fold_keys r' (isort keyLe (distinct (recoverKeys ix acc r'))) out).2.2 k ((hk k).2 hk') hp
        refine ⟨m, h2 m ?_, he⟩
        unfold recordRoute
        rw [if_neg hf]
        exact hm
      · exact h3 r' hr' k hk' hf hp

theorem nodup_fold_keys (r : Route) (keys : List Str) : ∀ out : List Mismatch, (out.map dedupKey).Nodup →
    ((keys.foldl (addMismatch r) out).map dedupKey).Nodup := by
  induction keys with
  | nil => exact fun _ h => h
  | cons k keys ih =>
    intro out h
    refine ih _ ?_
    unfold addMismatch
    split
    · exact h
    · split
      · exact h
      · rename_i hc
        rw [List.contains_iff_mem] at hc
        rw [List.map_append, List.map_singleton, List.nodup_append]
        refine ⟨h, by simp, ?_⟩
        intro a ha b hb
        rw [List.mem_singleton] at hb
        rintro rfl
        exact hc (hb ▸ ha)

/-- On a path through the handler only the variables the walk knows hold the map. -/
theorem memory_known (acc : Acc) (ss : List Stmt) (hc : NoCopies ss) (path : List Stmt) (hp : ∀ s ∈ path, s ∈ ss) : ∀ (μ : Mem),
    (∀ n, μ n → ∃ p f q as, Stmt.assign (.var n) (.call p f q as) ∈ ss ∧ Accessor acc p f) →
    ∀ n, (path.foldl (after acc) μ) n → ∃ p f q as, Stmt.assign (.var n) (.call p f q as) ∈ ss ∧ Accessor acc p f := by
  induction path with
  | nil => intro μ h; exact h
  | cons s path ih =>
    intro μ h
    refine ih (fun t ht => hp t (by simp [ht])) _ ?_
    intro n hn
    cases s with
    | use e => exact h n hn
    | assign lhs e =>
      cases lhs with
      | blank => exact h n hn
      | place t => exact h n hn
      | var v =>
        rcases hn with ⟨rfl, hv⟩ | ⟨_, hn⟩
        · cases hv with
          | var _ => exact absurd (hp _ (List.mem_cons_self ..)) (hc _ _)
          | call ha => exact ⟨_, _, _, _, hp _ (List.mem_cons_self ..), ha⟩
        · exact h n hn

/-! ## The property -/

/-- **C94, undeclared reads are reported (partial: reads in the value of an assignment, handlers that
are declared functions, the map not copied to another variable, methods and paths without spaces).**
Whatever path the handler takes, a variable it reads that the route's own path does not declare is
reported for the route. -/
theorem C94_reported_partial (ix : Index) (acc : Acc) (rs : List Route) {r : Route} (hr : r ∈ rs) {name : Str} {ss : List Stmt}
    (hh : HandledBy ix r name ss) (hc : NoCopies ss) (hsp : ∀ q ∈ rs, ' ' ∉ q.method ∧ ' ' ∉ convertPath (Verif.Paths.joinPaths q.mount q.path))
    {ps : List Piece} (hps : r.path = routerText ps) (hok : ∀ p ∈ ps, p.Ok)
    {path : List Stmt} (hpath : ∀ s ∈ path, s ∈ ss) {lhs : Lhs} {e : GoEx} (hl : lhs ≠ .blank) {k : Str}
    (hread : ReadsAt acc path (.assign lhs e) k) (hd : ¬ Declares ps k) :
    ∃ m ∈ mismatches ix acc rs, m.method = r.method ∧ m.path = convertPath (Verif.Paths.joinPaths r.mount r.path) ∧ m.key = k := by
  obtain ⟨am, hrec, hkeys⟩ := recover_eq ix acc r hh
  obtain ⟨pre, post, m, t, hpe, hw, hsp', hv⟩ := hread
  have hmem : Stmt.assign lhs e ∈ ss := hpath _ (by rw [hpe]; simp)
  have hkey : k ∈ recoverKeys ix acc r := by
    rw [hkeys, accessorKeys_mem acc am ss hrec]
    refine ⟨_, hmem, ?_, _, hw, m, t, rfl, ?_, trimKey_spells hsp', hsp'.2.1⟩
    · cases lhs with
      | blank => exact absurd rfl hl
      | _ => trivial
    · cases hv with
      | var hn =>
        rw [show Derived acc (accessorVar acc am) (.ident _) = (accessorVar acc am _ = true) from rfl, accessorVar_iff acc am ss hrec]
        exact memory_known acc ss hc pre (fun s hs => hpath s (by rw [hpe]; simp [hs])) _ (fun _ h => h.elim) _ hn
      | call ha => exact ⟨ha.1, ha.2.1⟩
  have hfn : r.function ≠ [] := by rw [hh.2.1]; simp
  obtain ⟨x, hx, hxe⟩ := (fold_routes ix acc rs []).2.2 r hr k hkey hfn (by rw [hps, placeholders_iff ps hok k hsp'.2.1]; exact hd)
  refine ⟨x, hx, ?_⟩
  have hxs : ' ' ∉ x.method ∧ ' ' ∉ x.path := by
    rcases (fold_routes ix acc rs []).1 x hx with h | ⟨r', hr', k', _, _, rfl, _⟩
    · exact absurd h (by simp)
    · exact hsp r' hr'
  exact dedupKey_inj hxs (hsp r hr) hxe

/-- The variables that get the map get nothing else. -/
def Steady (acc : Acc) (ss : List Stmt) : Prop :=
  ∀ n p f q as, Stmt.assign (.var n) (.call p f q as) ∈ ss → Accessor acc p f →
    ∀ e, Stmt.assign (.var n) e ∈ ss → ∃ p' f' q' as', e = .call p' f' q' as' ∧ Accessor acc p' f'

/-- What Go guarantees of the paths through a handler: every statement lies on one, and a variable
the handler sets was set before it is read. -/
structure Flow (ss : List Stmt) (paths : List Stmt → Prop) : Prop where
  own : ∀ path, paths path → ∀ s ∈ path, s ∈ ss
  live : ∀ s ∈ ss, ∃ path pre post, paths path ∧ path = pre ++ s :: post
  set : ∀ path, paths path → ∀ pre s post, path = pre ++ s :: post → ∀ n, (∃ e, Stmt.assign (.var n) e ∈ ss) →
    Within (.ident n) s.ex → ∃ e, Stmt.assign (.var n) e ∈ pre

theorem memory_steady (acc : Acc) (ss : List Stmt) (hst : Steady acc ss) (n : Str)
    (hn : ∃ p f q as, Stmt.assign (.var n) (.call p f q as) ∈ ss ∧ Accessor acc p f) (path : List Stmt) (hp : ∀ s ∈ path, s ∈ ss) :
    ∀ μ : Mem, (μ n ∨ ∃ e, Stmt.assign (.var n) e ∈ path) → (path.foldl (after acc) μ) n := by
  induction path with
  | nil =>
    rintro μ (h | ⟨e, h⟩)
    · exact h
    · exact absurd h (by simp)
  | cons s path ih =>
    intro μ h
    refine ih (fun t ht => hp t (by simp [ht])) _ ?_
    obtain ⟨p, f, q, as, hm, ha⟩ := hn
    have key : ∀ e, s = .assign (.var n) e → after acc μ s n := by
      intro e he
      obtain ⟨p', f', q', as', rfl, ha'⟩ := hst n p f q as hm ha e (he ▸ hp s (by simp))
      rw [he]
      exact .inl ⟨rfl, .call ha'⟩
    rcases h with h | ⟨e, h⟩
    · left
      cases s with
      | use e => exact h
      | assign lhs e =>
        cases lhs with
        | blank => exact h
        | place t => exact h
        | var v =>
          by_cases hv : v = n
          · subst hv; exact key e rfl
          · exact .inr ⟨fun he => hv he.symm, h⟩
    · rcases List.mem_cons.1 h with rfl | h
      · exact .inl (key e rfl)
      · exact .inr ⟨e, h⟩

/-- **C94, no false report (partial: variables that hold the map hold nothing else, keys are written
without quotes or escapes in them, handlers that are declared functions).**  A reported variable is one
that some path through the handler of a route with that method and path reads, and that this route's
own path does not declare. -/
theorem C94_sound_partial (ix : Index) (acc : Acc) (rs : List Route) (hname : acc.call [] = false)
    (body : Route → List Stmt) (hh : ∀ r ∈ rs, ∃ name, HandledBy ix r name (body r)) (hst : ∀ r ∈ rs, Steady acc (body r))
    (paths : Route → List Stmt → Prop) (hf : ∀ r ∈ rs, Flow (body r) (paths r))
    (hlit : ∀ r ∈ rs, ∀ s ∈ body r, ∀ m t, Within (.index m (.str t)) s.ex → ∃ k, Spells t k)
    (pieces : Route → List Piece) (hps : ∀ r ∈ rs, r.path = routerText (pieces r) ∧ ∀ p ∈ pieces r, p.Ok)
    {x : Mismatch} (hx : x ∈ mismatches ix acc rs) :
    ∃ r ∈ rs, x.method = r.method ∧ x.path = convertPath (Verif.Paths.joinPaths r.mount r.path) ∧ x.handler = r.function ∧
      ¬ Declares (pieces r) x.key ∧ ∃ path s, paths r path ∧ ReadsAt acc path s x.key := by
  rcases (fold_routes ix acc rs []).1 x hx with h | ⟨r, hr, k, hk, _, rfl, hnp⟩
  · exact absurd h (by simp)
  obtain ⟨name, hhr⟩ := hh r hr
  obtain ⟨am, hrec, hkeys⟩ := recover_eq ix acc r hhr
  rw [hkeys, accessorKeys_mem acc am (body r) hrec] at hk
  obtain ⟨s, hs, _, a, hw, m, t, rfl, hd, htk, hk0⟩ := hk
  refine ⟨r, hr, rfl, rfl, rfl, ?_, ?_⟩
  · rw [show (mismatchOf r k).key = k from rfl]
    intro hdec
    rw [(hps r hr).1] at hnp
    exact hnp ((placeholders_iff _ (hps r hr).2 k hk0).2 hdec)
  · obtain ⟨path, pre, post, hp, hpe⟩ := (hf r hr).live s hs
    refine ⟨path, s, hp, pre, post, m, t, hpe, hw, ?_, ?_⟩
    · obtain ⟨k', hk'⟩ := hlit r hr s hs m t hw
      have : k = k' := by rw [← htk, trimKey_spells hk']
      rw [show (mismatchOf r k).key = k from rfl, this]
      exact hk'
    · cases m with
      | ident n =>
        refine .var ?_
        have hacc := (accessorVar_iff acc am (body r) hrec n).1 hd
        have hwn : Within (.ident n) s.ex := within_trans (.map .self) hw
        exact memory_steady acc (body r) (hst r hr) n hacc pre (fun u hu => (hf r hr).own path hp u (by rw [hpe]; simp [hu])) _
          (.inr ((hf r hr).set path hp pre s post hpe n (hacc.elim fun _ h => h.elim fun _ h => h.elim fun _ h => h.elim fun _ h => ⟨_, h.1⟩) hwn))
      | call p f q as =>
        refine .call ⟨hd.1, hd.2, ?_⟩
        rintro rfl
        rw [hd.1] at hname
        cases hname
      | _ => exact hd.elim
where
  within_trans {a b c : GoEx} (h1 : Within a b) (h2 : Within b c) : Within a c := by
    induction h2 with
    | self => exact h1
    | map _ ih => exact .map ih
    | key _ ih => exact .key ih
    | arg hb _ ih => exact .arg hb ih
    | left _ ih => exact .left ih
    | right _ ih => exact .right ih
    | operand hb _ ih => exact .operand hb ih

/-- **C94, once.**  No report is repeated. -/
theorem C94_once (ix : Index) (acc : Acc) (rs : List Route) :
    (mismatches ix acc rs).Pairwise fun a b => ¬ (a.method = b.method ∧ a.path = b.path ∧ a.key = b.key) := by
  have h : ∀ out : List Mismatch, (out.map dedupKey).Nodup → ((rs.foldl (recordRoute ix acc) out).map dedupKey).Nodup := by
    induction rs with
    | nil => exact fun _ h => h
    | cons r rs ih =>
      intro out h
      refine ih _ ?_
      unfold recordRoute
      split
      · exact h
      · exact nodup_fold_keys r _ out h
  have h' := h [] (by simp)
  unfold List.Nodup at h'
  rw [List.pairwise_map] at h'
  refine h'.imp ?_
  rintro a b hab ⟨h1, h2, h3⟩
  apply hab
  unfold dedupKey
  rw [h1, h2, h3]

/-- **C94, documented.**  For a route whose handler reaches the accessor, every variable of its path is a
path parameter afterwards, nothing but missing ones is added, and what was there stays; for any other
route nothing changes. -/
theorem C94_completed (acc : Acc) (hacc : acc.isPath = true) (reaches : Bool) (ps : List Piece) (hok : ∀ p ∈ ps, p.Ok) (params : List Param) :
    ∃ added, complete acc reaches (routerText ps) params = params ++ added ∧ (reaches = false → added = []) ∧
      (∀ a ∈ added, a.inPath = true ∧ a.required = true ∧ Declares ps a.name ∧ ∀ p ∈ params, p.inPath = true → p.name ≠ a.name) ∧
      (reaches = true → ∀ k, k ≠ [] → Declares ps k → ∃ p ∈ params ++ added, p.inPath = true ∧ p.name = k) := by
  have hcov : ∀ n, (params.any fun p => p.inPath && p.name == n) = true ↔ ∃ p ∈ params, p.inPath = true ∧ p.name = n := by
    intro n; simp only [List.any_eq_true, Bool.and_eq_true, beq_iff_eq]
  have hall : (!((pathPlaceholders (routerText ps)).any fun n => !(params.any fun p => p.inPath && p.name == n))) = true →
      ∀ k, k ≠ [] → Declares ps k → ∃ p ∈ params, p.inPath = true ∧ p.name = k := by
    intro h k hk hd
    simp only [Bool.not_eq_true', List.any_eq_false, Bool.not_eq_true] at h
    have := h k ((placeholders_iff ps hok k hk).2 hd)
    exact (hcov k).1 (by simpa using this)
  unfold complete
  simp only
  split
  · rename_i h
    refine ⟨[], by simp, fun _ => rfl, fun a ha => absurd ha (by simp), fun _ k hk hd => ?_⟩
    rw [List.append_nil]
    exact hall h k hk hd
  · split
    · rename_i h
      refine ⟨[], by simp, fun _ => rfl, fun a ha => absurd ha (by simp), fun hr => ?_⟩
      rw [hr] at h; cases h
    · rename_i h
      refine ⟨_, rfl, ?_, ?_, ?_⟩
      · intro hr; rw [hr] at h; exact absurd rfl h
      · intro a ha
        obtain ⟨n, hn, rfl⟩ := List.mem_map.1 ha
        rw [List.mem_filter] at hn
        have hne : n ≠ [] := by
          have := hn.1
          unfold pathPlaceholders at this
          rw [List.mem_filter] at this
          simpa using this.2
        refine ⟨hacc, hacc, (placeholders_iff ps hok n hne).1 hn.1, ?_⟩
        intro p hp hpi hpn
        have := (hcov n).2 ⟨p, hp, hpi, hpn⟩
        rw [this] at hn
        simp at hn
      · intro _ k hk hd
        by_cases hc : (params.any fun p => p.inPath && p.name == k) = true
        · obtain ⟨p, hp, h1⟩ := (hcov k).1 hc
          exact ⟨p, by simp [hp], h1⟩
        · refine ⟨_, List.mem_append_right _ (List.mem_map.2 ⟨k, List.mem_filter.2 ⟨(placeholders_iff ps hok k hk).2 hd, ?_⟩, rfl⟩), hacc, rfl⟩
          simpa using hc

/-! ## Examples, and where the reports are wrong -/

def S (s : String) : Str := s.toList

def muxAcc : Acc := { call := fun f => f == S "Vars", recv := fun p => p == S "mux" }
def vars : GoEx := .call (S "mux") (S "Vars") true [.ident (S "r")]
def get (m : GoEx) (k : String) : GoEx := .index m (.str ('"' :: (S k ++ ['"'])))

/-- `vars := mux.Vars(r); id := "user-" + vars["userId"]` below the route `/users/{id}`. -/
def handler : List Stmt := [.assign (.var (S "vars")) vars, .assign (.var (S "id")) (.binary (.str (S "\"user-\"")) (get (.ident (S "vars")) "userId"))]

def recordedMap (ss : List Stmt) : AssignMap := (ss.filterMap recordStmt).map fun e => (e.1, [e.2])

theorem recordedMap_ok (ss : List Stmt) : Recorded (recordedMap ss) ss := by
  intro n a
  unfold recordedMap
  constructor
  · rintro ⟨l, hl, ha⟩
    obtain ⟨e, he, hx⟩ := List.mem_map.1 hl
    injection hx with h1 h2
    subst h1 h2
    rw [List.mem_singleton] at ha
    subst ha
    obtain ⟨s, hs, h⟩ := List.mem_filterMap.1 he
    exact ⟨s, hs, h⟩
  · rintro ⟨s, hs, h⟩
    exact ⟨[a], List.mem_map.2 ⟨(n, a), List.mem_filterMap.2 ⟨s, hs, h⟩, rfl⟩, by simp⟩

def ixOf (ss : List Stmt) : Index := { inPackage := fun p n => if p = S "api" ∧ n = S "Get" then some (recordedMap ss) else none, anywhere := fun _ => none }

def route (mount path : String) : Route := { method := S "GET", mount := S mount, path := S path, function := S "api.Get", package := S "api" }

theorem handledBy (ss : List Stmt) (mount path : String) : HandledBy (ixOf ss) (route mount path) (S "Get") ss :=
  ⟨by decide, show S "api.Get" = S "api" ++ '.' :: S "Get" by decide +kernel, show S "api" ≠ [] by decide, recordedMap ss,
    by simp [ixOf, route], recordedMap_ok ss⟩

/-- Non-vacuity of `C94_reported_partial` and `C94_sound_partial`. -/
example : mismatches (ixOf handler) muxAcc [route "" "/users/{id}"] =
    [{ method := S "GET", path := S "/users/{id}", handler := S "api.Get", key := S "userId" }] := by decide +kernel

theorem userId_read : ReadsAt muxAcc handler (.assign (.var (S "id")) (.binary (.str (S "\"user-\"")) (get (.ident (S "vars")) "userId"))) (S "userId") := by
  refine ⟨[.assign (.var (S "vars")) vars], [], .ident (S "vars"), '"' :: (S "userId" ++ ['"']), rfl, .right .self, ⟨.inl rfl, by decide, by decide +kernel⟩, .var ?_⟩
  exact .inl ⟨rfl, .call ⟨by decide, by decide, by decide⟩⟩

/-- Non-vacuity of `C94_sound_partial`: the only path through the handler is the whole of it. -/
example : Steady muxAcc handler ∧ Flow handler (fun path => path = handler) := by
  refine ⟨?_, ⟨?_, ?_, ?_⟩⟩
  · intro n p f q as h _ e he
    simp only [handler, List.mem_cons, Stmt.assign.injEq, Lhs.var.injEq, List.not_mem_nil, or_false] at h he
    rcases h with ⟨rfl, _⟩ | ⟨_, h⟩
    · rcases he with ⟨_, rfl⟩ | ⟨h, _⟩
      · exact ⟨_, _, _, _, rfl, by decide, by decide, by decide⟩
      · exact absurd h (by decide)
    · cases h
  · rintro _ rfl s hs; exact hs
  · intro s hs
    obtain ⟨pre, post, h⟩ := List.append_of_mem hs
    exact ⟨handler, pre, post, rfl, h⟩
  · rintro _ rfl pre s post h n ⟨e, he⟩ hw
    have hn : n = S "vars" ∨ n = S "id" := by
      simp only [handler, List.mem_cons, Stmt.assign.injEq, Lhs.var.injEq, List.not_mem_nil, or_false] at he
      rcases he with ⟨h, _⟩ | ⟨h, _⟩
      · exact .inl h
      · exact .inr h
    cases pre with
    | nil =>
      simp only [handler, List.nil_append, List.cons.injEq] at h
      obtain ⟨rfl, _⟩ := h
      simp only [Stmt.ex, vars] at hw
      cases hw with
      | arg hb hw =>
        rw [List.mem_singleton] at hb
        subst hb
        cases hw
        rcases hn with hn | hn <;> exact absurd hn (by decide)
    | cons a pre =>
      simp only [handler, List.cons_append, List.cons.injEq] at h
      obtain ⟨rfl, h⟩ := h
      cases pre with
      | nil =>
        simp only [List.nil_append, List.cons.injEq] at h
        obtain ⟨rfl, _⟩ := h
        simp only [Stmt.ex, get] at hw
        cases hw with
        | left hw => cases hw
        | right hw =>
          cases hw with
          | map hw => cases hw; exact ⟨vars, by simp⟩
          | key hw => cases hw
      | cons b pre => simp at h

example : NoCopies handler := by
  intro n m h
  simp [handler, vars] at h

example : complete muxAcc true (S "/users/{id:[0-9]+}") [] = [{ name := S "id", inPath := true, required := true, pattern := S "[0-9]+" }] := by
  decide +kernel

/-- A handler that reads `vars["tenant"]`. -/
def tenantReader : List Stmt := [.assign (.var (S "vars")) vars, .assign (.var (S "t")) (get (.ident (S "vars")) "tenant")]

/-- **C94 reports variables declared in a mount prefix.**  The route documents `/tenants/{tenant}/users`,
whose variable is read, and still gets a report. -/
theorem C94_mount_prefix_reported : mismatches (ixOf tenantReader) muxAcc [route "/tenants/{tenant}" "/users"] =
    [{ method := S "GET", path := S "/tenants/{tenant}/users", handler := S "api.Get", key := S "tenant" }] ∧
    mismatches (ixOf tenantReader) muxAcc [route "" "/tenants/{tenant}/users"] = [] := by decide +kernel

/-- **C94 misses reads outside assignments.**  `return vars["x"]`, `f(vars["x"])` and `_ = vars["x"]` are
not seen, for any handler. -/
theorem C94_use_missed (ix : Index) (acc : Acc) (r : Route) (name : Str) (ss : List Stmt) (hh : HandledBy ix r name ss)
    (h : ∀ s ∈ ss, ∀ m t, Within (.index m (.str t)) s.ex → (∃ e, s = .use e) ∨ ∃ e, s = .assign .blank e) :
    mismatches ix acc [r] = [] := by
  obtain ⟨am, hrec, hkeys⟩ := recover_eq ix acc r hh
  have : recoverKeys ix acc r = [] := by
    rw [hkeys, List.eq_nil_iff_forall_not_mem]
    intro k hk
    rw [accessorKeys_mem acc am ss hrec] at hk
    obtain ⟨s, hs, hkept, a, hw, m, t, rfl, _⟩ := hk
    rcases h s hs m t hw with ⟨e, rfl⟩ | ⟨e, rfl⟩ <;> exact hkept.elim
  unfold mismatches
  simp only [List.foldl_cons, List.foldl_nil, recordRoute, this]
  split <;> rfl

/-- `vars := mux.Vars(r); v := vars; id := v["userId"]`. -/
def copier : List Stmt := [.assign (.var (S "vars")) vars, .assign (.var (S "v")) (.ident (S "vars")), .assign (.var (S "id")) (get (.ident (S "v")) "userId")]

/-- **C94 misses reads through a copy of the map.** -/
theorem C94_copy_missed : mismatches (ixOf copier) muxAcc [route "" "/users/{id}"] = [] ∧
    ReadsAt muxAcc copier (.assign (.var (S "id")) (get (.ident (S "v")) "userId")) (S "userId") := by
  refine ⟨by decide +kernel, [.assign (.var (S "vars")) vars, .assign (.var (S "v")) (.ident (S "vars"))], [], .ident (S "v"), '"' :: (S "userId" ++ ['"']),
    rfl, .self, ⟨.inl rfl, by decide, by decide +kernel⟩, .var ?_⟩
  refine .inl ⟨rfl, .var (.inl ⟨rfl, .call ⟨by decide, by decide, by decide⟩⟩)⟩

/-- `m := mux.Vars(r); m = labels(r); c := m["colour"]`. -/
def reuser : List Stmt := [.assign (.var (S "m")) vars, .assign (.var (S "m")) (.call (S "api") (S "labels") false [.ident (S "r")]),
  .assign (.var (S "c")) (get (.ident (S "m")) "colour")]

/-- **C94 reports reads of other maps.**  A variable that once held the map is taken to hold it always. -/
theorem C94_reused_reported : (mismatches (ixOf reuser) muxAcc [route "" "/users/{id}"]).map (·.key) = [S "colour"] ∧
    ¬ ReadsAt muxAcc reuser (.assign (.var (S "c")) (get (.ident (S "m")) "colour")) (S "colour") := by
  refine ⟨by decide +kernel, ?_⟩
  rintro ⟨pre, post, m, t, hpe, hw, _, hv⟩
  have hpre : pre = [.assign (.var (S "m")) vars, .assign (.var (S "m")) (.call (S "api") (S "labels") false [.ident (S "r")])] := by
    cases pre with
    | nil => simp [reuser, S] at hpe
    | cons a pre =>
      cases pre with
      | nil => simp [reuser, S] at hpe
      | cons b pre =>
        cases pre with
        | nil => simp only [reuser, List.cons_append, List.nil_append, List.cons.injEq] at hpe; rw [← hpe.1, ← hpe.2.1]
        | cons c pre =>
          have := congrArg List.length hpe
          simp [reuser] at this
  have hm : m = .ident (S "m") := by
    simp only [Stmt.ex, get] at hw
    cases hw with
    | self => rfl
    | map hw => cases hw
    | key hw => cases hw
  subst hpre hm
  cases hv with
  | var h =>
    rcases h with ⟨_, h⟩ | ⟨h, _⟩
    · cases h with
      | call h => exact absurd h.1 (by decide)
    · exact h rfl

/-- **C94 misses handlers that are methods or function literals**: the lookup knows neither. -/
theorem C94_method_missed (ix : Index) (acc : Acc) (r : Route) (h1 : ix.inPackage r.package (bareFunc r) = none) (h2 : ix.anywhere (bareFunc r) = none) :
    mismatches ix acc [r] = [] := by
  have : recoverKeys ix acc r = [] := by
    unfold recoverKeys findFunction
    rw [h1, h2]
    split <;> rename_i h
    · rfl
    · split at h <;> cases h
  unfold mismatches
  simp only [List.foldl_cons, List.foldl_nil, recordRoute, this]
  split <;> rfl

end Verif.PathVar
