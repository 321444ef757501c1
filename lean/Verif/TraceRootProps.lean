import Verif.TraceRootModel
/-!
# C113: the trace of an operation starts at its handler
-/

namespace Verif.TraceRoot
open Verif.Common

/-! ### Specification -/

/-- The package declares a function of the name, or a method of the name on the type. -/
inductive DeclaredAs (p : PkgD) (pkg name : Str) : Str → Decl → Prop
  | method (t : TypeD) (d : Decl) : (t ∈ p.types ∨ ∃ f ∈ p.files, t ∈ f.types) → d ∈ t.methods → d.name = name →
      DeclaredAs p pkg name (pkg ++ '.' :: (t.name ++ '.' :: name)) d
  | func (f : FileD) (d : Decl) : f ∈ p.files → d ∈ f.funcs → d.name = name → DeclaredAs p pkg name (pkg ++ '.' :: name) d

/-- The literal is in the file, not above the line, and none of these is higher up. -/
def Nearest (same : Str → Str → Bool) (m : Meta) (file : Str) (after : Nat) (k : Str) : Prop :=
  ∃ f l, (k, f, l) ∈ m.lits ∧ same file f = true ∧ after ≤ l ∧ ∀ k' f' l', (k', f', l') ∈ m.lits → same file f' = true → after ≤ l' → l ≤ l'

/-! ### Lemmas -/

theorem mem_candidates (m : Meta) (pkg name : Str) (hp : pkg ≠ []) (hn : name ≠ []) (c : Str × Str × Nat) :
    c ∈ candidates m pkg name ↔ ∃ p d, mget m.pkgs pkg = some p ∧ DeclaredAs p pkg name c.1 d ∧ c.2 = (d.file, d.line) := by
  unfold candidates
  rw [if_neg (by simp [hp, hn])]
  cases hg : mget m.pkgs pkg with
  | none => simp
  | some p =>
    have hscan : ∀ t, c ∈ scanType pkg name t ↔ ∃ d ∈ t.methods, d.name = name ∧ c.1 = pkg ++ '.' :: (t.name ++ '.' :: name) ∧ c.2 = (d.file, d.line) := by
      intro t
      obtain ⟨c1, c2⟩ := c
      unfold scanType
      rw [List.mem_map]
      constructor
      · rintro ⟨d, hd, he⟩
        obtain ⟨h1, h2⟩ := List.mem_filter.1 hd
        cases he
        exact ⟨d, h1, by simpa using h2, rfl, rfl⟩
      · rintro ⟨d, h1, h2, h3, h4⟩
        refine ⟨d, List.mem_filter.2 ⟨h1, by simpa using h2⟩, ?_⟩
        dsimp only at h3 h4
        rw [h3, h4]
    dsimp only
    rw [List.mem_append, List.mem_flatMap, List.mem_flatMap]
    constructor
    · rintro (⟨t, ht, h⟩ | ⟨f, hf, h⟩)
      · obtain ⟨d, h1, h2, h3, h4⟩ := (hscan t).1 h
        exact ⟨p, d, rfl, h3 ▸ .method t d (Or.inl ht) h1 h2, h4⟩
      · rcases List.mem_append.1 h with h | h
        · obtain ⟨t, ht, h⟩ := List.mem_flatMap.1 h
          obtain ⟨d, h1, h2, h3, h4⟩ := (hscan t).1 h
          exact ⟨p, d, rfl, h3 ▸ .method t d (Or.inr ⟨f, hf, ht⟩) h1 h2, h4⟩
        · obtain ⟨d, hd, he⟩ := List.mem_map.1 h
          obtain ⟨h1, h2⟩ := List.mem_filter.1 hd
          subst he
          exact ⟨p, d, rfl, .func f d hf h1 (by simpa using h2), rfl⟩
    · rintro ⟨p', d, hp', hd, hc⟩
      cases hp'
      generalize hk : c.1 = k at hd
      cases hd with
      | method t d ht h1 h2 =>
        rcases ht with ht | ⟨f, hf, ht⟩
        · exact Or.inl ⟨t, ht, (hscan t).2 ⟨d, h1, h2, hk, hc⟩⟩
        · exact Or.inr ⟨f, hf, List.mem_append.2 (Or.inl (List.mem_flatMap.2 ⟨t, ht, (hscan t).2 ⟨d, h1, h2, hk, hc⟩⟩))⟩
      | func f d hf h1 h2 =>
        refine Or.inr ⟨f, hf, List.mem_append.2 (Or.inr (List.mem_map.2 ⟨d, List.mem_filter.2 ⟨h1, by simpa using h2⟩, ?_⟩))⟩
        obtain ⟨c1, c2⟩ := c
        dsimp only at hk hc
        rw [hk, hc]

/-- What the loop over the literals keeps. -/
theorem nearest_spec (same : Str → Str → Bool) (file : Str) (after : Nat) : ∀ (ls : List (Str × Str × Nat)) (best : Option (Str × Nat)),
    (nearest same file after best ls = none ↔ best = none ∧ ∀ k f l, (k, f, l) ∈ ls → same file f = true → l < after) ∧
    ∀ k l, nearest same file after best ls = some (k, l) →
      (best = some (k, l) ∨ ∃ f, (k, f, l) ∈ ls ∧ same file f = true ∧ after ≤ l) ∧
      (∀ k' l', best = some (k', l') → l ≤ l') ∧ ∀ k' f' l', (k', f', l') ∈ ls → same file f' = true → after ≤ l' → l ≤ l' := by
  intro ls
  induction ls with
  | nil =>
    intro best
    refine ⟨by simp [nearest], ?_⟩
    intro k l h
    have h : best = some (k, l) := h
    subst h
    refine ⟨Or.inl rfl, ?_, by simp⟩
    intro k' l' h'
    cases h'
    exact Nat.le_refl _
  | cons e ls ih =>
    obtain ⟨k0, f0, l0⟩ := e
    intro best
    unfold nearest
    by_cases hs : (!same file f0 || decide (l0 < after)) = true
    · rw [if_pos hs]
      have hskip : same file f0 = true → l0 < after := by
        intro h; rw [h] at hs; simpa using hs
      obtain ⟨i1, i2⟩ := ih best
      refine ⟨?_, ?_⟩
      · rw [i1]
        constructor
        · rintro ⟨hb, h⟩
          refine ⟨hb, fun k f l hm hsm => ?_⟩
          rcases List.mem_cons.1 hm with h' | h'
          · cases h'; exact hskip hsm
          · exact h k f l h' hsm
        · rintro ⟨hb, h⟩
          exact ⟨hb, fun k f l hm => h k f l (List.mem_cons_of_mem _ hm)⟩
      · intro k l h
        obtain ⟨j1, j2, j3⟩ := i2 k l h
        refine ⟨?_, j2, ?_⟩
        · rcases j1 with j1 | ⟨f, j1, j4⟩
          · exact Or.inl j1
          · exact Or.inr ⟨f, List.mem_cons_of_mem _ j1, j4⟩
        · intro k' f' l' hm hsm hle
          rcases List.mem_cons.1 hm with h' | h'
          · cases h'; exact absurd (hskip hsm) (Nat.not_lt.mpr hle)
          · exact j3 k' f' l' h' hsm hle
    · rw [if_neg hs]
      have hs2 : same file f0 = true ∧ after ≤ l0 := by simpa using hs
      have take : ∀ (b : Option (Str × Nat)), (∀ k' l', b = some (k', l') → l0 ≤ l') →
          (nearest same file after (some (k0, l0)) ls = none ↔ b = none ∧ ∀ k f l, (k, f, l) ∈ (k0, f0, l0) :: ls → same file f = true → l < after) ∧
          ∀ k l, nearest same file after (some (k0, l0)) ls = some (k, l) →
            (b = some (k, l) ∨ ∃ f, (k, f, l) ∈ (k0, f0, l0) :: ls ∧ same file f = true ∧ after ≤ l) ∧
            (∀ k' l', b = some (k', l') → l ≤ l') ∧ ∀ k' f' l', (k', f', l') ∈ (k0, f0, l0) :: ls → same file f' = true → after ≤ l' → l ≤ l' := by
        intro b hb
        obtain ⟨i1, i2⟩ := ih (some (k0, l0))
        refine ⟨?_, ?_⟩
        · rw [i1]
          constructor
          · rintro ⟨h, _⟩; cases h
          · rintro ⟨_, h⟩; exact absurd (h k0 f0 l0 List.mem_cons_self hs2.1) (Nat.not_lt.mpr hs2.2)
        · intro k l h
          obtain ⟨j1, j2, j3⟩ := i2 k l h
          have hl : l ≤ l0 := j2 k0 l0 rfl
          refine ⟨Or.inr ?_, fun k' l' h' => Nat.le_trans hl (hb k' l' h'), ?_⟩
          · rcases j1 with j1 | ⟨f, j1, j4⟩
            · cases j1; exact ⟨f0, List.mem_cons_self, hs2⟩
            · exact ⟨f, List.mem_cons_of_mem _ j1, j4⟩
          · intro k' f' l' hm hsm hle
            rcases List.mem_cons.1 hm with h' | h'
            · cases h'; exact hl
            · exact j3 k' f' l' h' hsm hle
      cases best with
      | none => exact take none (by intro _ _ h; cases h)
      | some p =>
        obtain ⟨kb, b⟩ := p
        dsimp only
        by_cases hlt : l0 < b
        · rw [if_pos hlt]
          exact take (some (kb, b)) (by intro k' l' h; cases h; exact Nat.le_of_lt hlt)
        · rw [if_neg hlt]
          obtain ⟨i1, i2⟩ := ih (some (kb, b))
          refine ⟨?_, ?_⟩
          · rw [i1]
            constructor
            · rintro ⟨h, _⟩; cases h
            · rintro ⟨h, _⟩; cases h
          · intro k l h
            obtain ⟨j1, j2, j3⟩ := i2 k l h
            refine ⟨?_, j2, ?_⟩
            · rcases j1 with j1 | ⟨f, j1, j4⟩
              · exact Or.inl j1
              · exact Or.inr ⟨f, List.mem_cons_of_mem _ j1, j4⟩
            · intro k' f' l' hm hsm hle
              rcases List.mem_cons.1 hm with h' | h'
              · cases h'
                exact Nat.le_trans (j2 kb b rfl) (Nat.not_lt.mp hlt)
              · exact j3 k' f' l' h' hsm hle

theorem take_drop (ch : Char) (l r : Str) (h : ch ∉ l) :
    (l ++ ch :: r).dropWhile (fun c => decide (c ≠ ch)) = ch :: r ∧ (l ++ ch :: r).takeWhile (fun c => decide (c ≠ ch)) = l := by
  induction l with
  | nil => simp
  | cons c l ih =>
    have hc : c ≠ ch := fun he => h (he ▸ List.mem_cons_self)
    have ih := ih (fun hm => h (List.mem_cons_of_mem _ hm))
    rw [List.cons_append, List.dropWhile_cons, List.takeWhile_cons, if_pos (by simpa using hc), if_pos (by simpa using hc)]
    exact ⟨ih.1, by rw [ih.2]⟩

theorem take_all (ch : Char) (l : Str) (h : ch ∉ l) : l.takeWhile (fun c => decide (c ≠ ch)) = l ∧ l.dropWhile (fun c => decide (c ≠ ch)) = [] := by
  induction l with
  | nil => exact ⟨rfl, rfl⟩
  | cons c l ih =>
    have hc : c ≠ ch := fun he => h (he ▸ List.mem_cons_self)
    have ih := ih (fun hm => h (List.mem_cons_of_mem _ hm))
    rw [List.dropWhile_cons, List.takeWhile_cons, if_pos (by simpa using hc), if_pos (by simpa using hc)]
    exact ⟨by rw [ih.1], ih.2⟩

/-- The package path and the rest of a key are separated at the last slash. -/
theorem last_slash (dir rest : Str) (hd : dir = [] ∨ ∃ d, dir = d ++ ['/']) (hr : '/' ∉ rest) :
    ((dir ++ rest).reverse.takeWhile (fun c => decide (c ≠ '/'))).reverse = rest ∧
    ((dir ++ rest).reverse.dropWhile (fun c => decide (c ≠ '/'))).reverse = dir := by
  rcases hd with rfl | ⟨d, rfl⟩
  · obtain ⟨h1, h2⟩ := take_all '/' rest.reverse (by simpa using hr)
    rw [List.nil_append, h1, h2]
    exact ⟨List.reverse_reverse _, rfl⟩
  · have he : (d ++ ['/'] ++ rest).reverse = rest.reverse ++ '/' :: d.reverse := by simp
    obtain ⟨h1, h2⟩ := take_drop '/' rest.reverse d.reverse (by simpa using hr)
    rw [he, h1, h2]
    exact ⟨List.reverse_reverse _, by simp⟩

theorem splitDots_ne (r : Str) : splitDots r ≠ [] := by
  cases r with
  | nil => simp [splitDots]
  | cons ch r =>
    unfold splitDots
    split
    · simp
    · split <;> simp

theorem splitDots_plain (a : Str) (h : '.' ∉ a) : splitDots a = [a] := by
  induction a with
  | nil => rfl
  | cons ch a ih =>
    have hc : ch ≠ '.' := fun he => h (he ▸ List.mem_cons_self)
    unfold splitDots
    rw [ih (fun hm => h (List.mem_cons_of_mem _ hm))]
    dsimp only
    rw [if_neg hc]

theorem splitDots_dot (a r : Str) (h : '.' ∉ a) : splitDots (a ++ '.' :: r) = a :: splitDots r := by
  induction a with
  | nil =>
    rw [List.nil_append]
    conv => lhs; unfold splitDots
    cases hs : splitDots r with
    | nil => exact absurd hs (splitDots_ne r)
    | cons p ps => rfl
  | cons ch a ih =>
    have hc : ch ≠ '.' := fun he => h (he ▸ List.mem_cons_self)
    rw [List.cons_append]
    conv => lhs; unfold splitDots
    rw [ih (fun hm => h (List.mem_cons_of_mem _ hm))]
    dsimp only
    rw [if_neg hc]

/-! ### The properties -/

/-- The name of an operation is taken apart into package and function, for packages whose last element has no dot. -/
theorem C113_split (dir seg recv name : Str) (hd : dir = [] ∨ ∃ d, dir = d ++ ['/']) (hs : '/' ∉ seg ∧ '.' ∉ seg) (hr : '/' ∉ recv) (hn : '/' ∉ name ∧ '.' ∉ name) :
    splitOpID (dir ++ (seg ++ '.' :: name)) = (dir ++ seg, name) ∧
    splitOpID (dir ++ (seg ++ '.' :: (recv ++ '.' :: name))) = (dir ++ seg, name) := by
  have step : ∀ tail : Str, '/' ∉ tail → splitOpID (dir ++ (seg ++ '.' :: tail)) = (dir ++ seg, (tail.reverse.takeWhile (fun c => decide (c ≠ '.'))).reverse) := by
    intro tail ht
    obtain ⟨h1, h2⟩ := last_slash dir (seg ++ '.' :: tail) hd (by simp [hs.1, ht])
    obtain ⟨h3, h4⟩ := take_drop '.' seg tail hs.2
    unfold splitOpID
    dsimp only
    rw [h1, h2, h3]
    dsimp only
    rw [h4]
  refine ⟨?_, ?_⟩
  · rw [step name hn.1, (take_all '.' name.reverse (by simpa using hn.2)).1, List.reverse_reverse]
  · have he : (recv ++ '.' :: name).reverse = name.reverse ++ '.' :: recv.reverse := by simp
    rw [step (recv ++ '.' :: name) (by simp [hr, hn.1]), he, (take_drop '.' name.reverse recv.reverse (by simpa using hn.2)).2, List.reverse_reverse]

/-- An operation whose own function calls something: the trace starts there. -/
theorem C113_direct (same : Str → Str → Bool) (m : Meta) (op : Str) (h : op ∈ m.callers) : resolveHandlerKey same m op = op := by
  unfold resolveHandlerKey
  rw [if_pos (by simpa using h)]

/-- If the function is known under another name, and the package declares exactly one function or method of that name
that calls something, the trace starts there, in whatever order the declarations are visited. -/
theorem C113_renamed_partial (same : Str → Str → Bool) (m : Meta) (op pkg name k : Str) (hsplit : splitOpID op = (pkg, name)) (hp : pkg ≠ []) (hn : name ≠ [])
    (hop : op ∉ m.callers) (p : PkgD) (hpk : mget m.pkgs pkg = some p) (d : Decl) (hd : DeclaredAs p pkg name k d) (hk : k ∈ m.callers)
    (hone : ∀ k' d', DeclaredAs p pkg name k' d' → k' ∈ m.callers → k' = k) : resolveHandlerKey same m op = k := by
  unfold resolveHandlerKey
  rw [if_neg (by simpa using hop)]
  dsimp only
  rw [hsplit]
  dsimp only
  cases hf : ((candidates m pkg name).map (·.1)).find? (fun k => m.callers.contains k) with
  | some k' =>
    dsimp only
    have h1 := List.find?_some hf
    obtain ⟨c, hc, he⟩ := List.mem_map.1 (List.mem_of_find?_eq_some hf)
    obtain ⟨p', d', hp', hd', _⟩ := (mem_candidates m pkg name hp hn c).1 hc
    rw [hpk] at hp'; cases hp'
    rw [he] at hd'
    exact hone k' d' hd' (by simpa using h1)
  | none =>
    exfalso
    have hall := List.find?_eq_none.1 hf k (List.mem_map.2 ⟨(k, d.file, d.line), (mem_candidates m pkg name hp hn _).2 ⟨p, d, hpk, hd, rfl⟩, rfl⟩)
    exact hall (by simpa using hk)

/-- A method that returns its handler: if no function of the name calls anything and there is exactly one, the trace starts
at the literal that follows its declaration most closely in its file. -/
theorem C113_closure_partial (same : Str → Str → Bool) (m : Meta) (op pkg name k : Str) (hsplit : splitOpID op = (pkg, name)) (hp : pkg ≠ []) (hn : name ≠ [])
    (hop : op ∉ m.callers) (p : PkgD) (hpk : mget m.pkgs pkg = some p) (d : Decl) (hd : DeclaredAs p pkg name k d) (hfile : d.file ≠ [])
    (hone : ∀ k' d', DeclaredAs p pkg name k' d' → k' ∉ m.callers ∧ (d'.file, d'.line) = (d.file, d.line))
    (hex : ∃ k' f l, (k', f, l) ∈ m.lits ∧ same d.file f = true ∧ d.line ≤ l) :
    Nearest same m d.file d.line (resolveHandlerKey same m op) := by
  unfold resolveHandlerKey
  rw [if_neg (by simpa using hop)]
  dsimp only
  rw [hsplit]
  dsimp only
  have hmem : (k, d.file, d.line) ∈ candidates m pkg name := (mem_candidates m pkg name hp hn _).2 ⟨p, d, hpk, hd, rfl⟩
  have hpos : ∀ c ∈ candidates m pkg name, c.1 ∉ m.callers ∧ c.2 = (d.file, d.line) := by
    intro c hc
    obtain ⟨p', d', hp', hd', he⟩ := (mem_candidates m pkg name hp hn c).1 hc
    rw [hpk] at hp'; cases hp'
    obtain ⟨h1, h2⟩ := hone _ _ hd'
    exact ⟨h1, he.trans h2⟩
  have hnone : ((candidates m pkg name).map (·.1)).find? (fun k => m.callers.contains k) = none := by
    rw [List.find?_eq_none]
    intro x hx
    obtain ⟨c, hc, rfl⟩ := List.mem_map.1 hx
    simpa using (hpos c hc).1
  rw [hnone]
  dsimp only
  cases hf : (candidates m pkg name).find? (fun c => decide (c.2.1 ≠ [])) with
  | none => exact absurd (List.find?_eq_none.1 hf _ hmem) (by simpa using hfile)
  | some c =>
    have hc := (hpos c (List.mem_of_find?_eq_some hf)).2
    have hb : (some c).bind (fun c => findFuncLitInFile same m c.2.1 c.2.2) = findFuncLitInFile same m d.file d.line := by
      show findFuncLitInFile same m c.2.1 c.2.2 = _
      rw [hc]
    rw [hb]
    unfold findFuncLitInFile
    obtain ⟨i1, i2⟩ := nearest_spec same d.file d.line m.lits none
    cases hnr : nearest same d.file d.line none m.lits with
    | none =>
      obtain ⟨k', f, l, h1, h2, h3⟩ := hex
      exact absurd ((i1.1 hnr).2 k' f l h1 h2) (Nat.not_lt.mpr h3)
    | some q =>
      obtain ⟨k', l⟩ := q
      obtain ⟨j1, _, j3⟩ := i2 k' l hnr
      rcases j1 with j1 | ⟨f, j1, j4, j5⟩
      · cases j1
      · exact ⟨f, l, j1, j4, j5, j3⟩

/-- A method of an interface of the package, with one implementer, whose method calls something: the trace starts there,
if nothing in the package itself has the name, but for the interface, whose methods have no position. -/
theorem C113_interface_partial (same : Str → Str → Bool) (m : Meta) (dir seg recv name : Str) (hd : dir = [] ∨ ∃ d, dir = d ++ ['/'])
    (hs : '/' ∉ seg ∧ '.' ∉ seg ∧ seg ≠ []) (hr : '/' ∉ recv ∧ '.' ∉ recv ∧ recv ≠ []) (hn : '/' ∉ name ∧ '.' ∉ name ∧ name ≠ [])
    (p : PkgD) (hpk : mget m.pkgs (dir ++ seg) = some p) (hop : dir ++ (seg ++ '.' :: (recv ++ '.' :: name)) ∉ m.callers)
    (hno : ∀ k d, DeclaredAs p (dir ++ seg) name k d → k ∉ m.callers ∧ d.file = [])
    (f : FileD) (t : TypeD) (ip it : Str) (hf : p.files = [f]) (ht : f.types = [t]) (htn : t.name = recv) (hi : t.iface = true)
    (himpl : t.implementedBy = [(ip, it)]) (hcall : ip ++ '.' :: (it ++ '.' :: name) ∈ m.callers) :
    resolveHandlerKey same m (dir ++ (seg ++ '.' :: (recv ++ '.' :: name))) = ip ++ '.' :: (it ++ '.' :: name) := by
  have hpne : dir ++ seg ≠ [] := by simp [hs.2.2]
  have hsplit := (C113_split dir seg recv name hd ⟨hs.1, hs.2.1⟩ hr.1 ⟨hn.1, hn.2.1⟩).2
  have hpos : ∀ x ∈ candidates m (dir ++ seg) name, x.1 ∉ m.callers ∧ x.2.1 = [] := by
    intro x hx
    obtain ⟨p', d', hp', hd', he⟩ := (mem_candidates m _ name hpne hn.2.2 x).1 hx
    rw [hpk] at hp'; cases hp'
    obtain ⟨h1, h2⟩ := hno _ _ hd'
    exact ⟨h1, by rw [he]; exact h2⟩
  have h3 : splitOpID3 (dir ++ (seg ++ '.' :: (recv ++ '.' :: name))) = (dir ++ seg, recv, name) := by
    obtain ⟨h1, h2⟩ := last_slash dir (seg ++ '.' :: (recv ++ '.' :: name)) hd (by simp [hs.1, hr.1, hn.1])
    unfold splitOpID3
    dsimp only
    rw [h1, h2, splitDots_dot seg _ hs.2.1, splitDots_dot recv _ hr.2.1, splitDots_plain name hn.2.1]
    rfl
  unfold resolveHandlerKey
  rw [if_neg (by simpa using hop)]
  dsimp only
  rw [hsplit]
  dsimp only
  have hnone : ((candidates m (dir ++ seg) name).map (·.1)).find? (fun k => m.callers.contains k) = none := by
    rw [List.find?_eq_none]
    intro x hx
    obtain ⟨y, hy, rfl⟩ := List.mem_map.1 hx
    simpa using (hpos y hy).1
  have hnone2 : (candidates m (dir ++ seg) name).find? (fun x => decide (x.2.1 ≠ [])) = none := by
    rw [List.find?_eq_none]
    intro x hx
    simpa using (hpos x hx).2
  rw [hnone, hnone2]
  dsimp only [Option.bind_none]
  unfold resolveInterfaceImplHandler
  rw [h3]
  dsimp only
  rw [if_neg (by simp only [not_or]; exact ⟨hpne, hr.2.2, hn.2.2⟩), hpk]
  dsimp only
  rw [hf, List.findSome?_cons, ht, List.find?_cons_of_pos (by simpa using htn)]
  dsimp only
  rw [if_pos hi, himpl]
  unfold implementer
  dsimp only
  rw [if_pos (by simpa using hcall)]
  rfl

/-! ### Every trace starts at something that calls -/

theorem lit_called (same : Str → Str → Bool) (m : Meta) (hl : ∀ l ∈ m.lits, l.1 ∈ m.callers) (file : Str) (after : Nat) (k : Str)
    (h : findFuncLitInFile same m file after = some k) : k ∈ m.callers := by
  unfold findFuncLitInFile at h
  cases hn : nearest same file after none m.lits with
  | none => rw [hn] at h; cases h
  | some x =>
    obtain ⟨k', l⟩ := x
    rw [hn] at h
    have h : k' = k := by simpa using h
    subst h
    rcases ((nearest_spec same file after m.lits none).2 k' l hn).1 with h | ⟨f, h, _⟩
    · cases h
    · exact hl _ h

theorem implementer_called (same : Str → Str → Bool) (m : Meta) (hl : ∀ l ∈ m.lits, l.1 ∈ m.callers) (name k : Str) :
    ∀ impls, implementer same m name impls = some k → k ∈ m.callers := by
  intro impls
  induction impls with
  | nil => intro h; cases h
  | cons e impls ih =>
    obtain ⟨p, t⟩ := e
    intro h
    unfold implementer at h
    dsimp only at h
    split at h
    · next hc => cases h; simpa using hc
    · split at h
      · split at h
        · exact ih h
        · split at h
          · next hk => cases h; exact lit_called same m hl _ _ _ hk
          · exact ih h
      · exact ih h

/-- A trace starts at the function the operation names, or at one that calls something. -/
theorem C113_calls (same : Str → Str → Bool) (m : Meta) (hl : ∀ l ∈ m.lits, l.1 ∈ m.callers) (op : Str) :
    resolveHandlerKey same m op = op ∨ resolveHandlerKey same m op ∈ m.callers := by
  unfold resolveHandlerKey
  split
  · exact Or.inl rfl
  · dsimp only
    split
    · next k hk => right; simpa using List.find?_some hk
    · split
      · next k hk =>
        right
        obtain ⟨x, _, hx⟩ := Option.bind_eq_some_iff.1 hk
        exact lit_called same m hl _ _ _ hx
      · cases hi : resolveInterfaceImplHandler same m op with
        | none => exact Or.inl rfl
        | some k =>
          right
          show k ∈ m.callers
          unfold resolveInterfaceImplHandler at hi
          dsimp only at hi
          split at hi
          · cases hi
          · split at hi
            · cases hi
            · obtain ⟨f, _, hf⟩ := List.exists_of_findSome?_eq_some hi
              split at hf
              · split at hf
                · exact implementer_called same m hl _ _ _ hf
                · cases hf
              · cases hf

/-! ### Instances and what does not hold -/

abbrev c (s : String) : Str := s.toList

abbrev plain (n : Str) (ms : List Decl) : TypeD := ⟨n, ms, false, []⟩

/-- Two handlers of one package, each with a method `Get`; only the one of `Users` calls something. -/
abbrev demo : Meta :=
  ⟨[(c "a.b/app", ⟨[], [⟨[plain (c "Health") [⟨c "Get", c "h.go", 10⟩], plain (c "Users") [⟨c "Get", c "u.go", 5⟩, ⟨c "List", c "u.go", 30⟩]], []⟩]⟩)],
   [c "a.b/app.Users.Get", c "a.b/app.FuncLit:u.go:31:9"], [(c "a.b/app.FuncLit:u.go:31:9", c "u.go", 31)]⟩

example : splitOpID (c "a.b/app.Users.Get") = (c "a.b/app", c "Get") ∧ resolveHandlerKey (· == ·) demo (c "a.b/app.users.Get") = c "a.b/app.Users.Get" ∧
    resolveHandlerKey (· == ·) demo (c "a.b/app.Users.List") = c "a.b/app.FuncLit:u.go:31:9" := by decide

/-- An interface of one package, implemented in another. -/
example : resolveHandlerKey (· == ·) ⟨[(c "a.b/api", ⟨[], [⟨[⟨c "Service", [⟨c "Get", [], 0⟩], true, [(c "a.b/impl", c "Svc")]⟩], []⟩]⟩)],
    [c "a.b/impl.Svc.Get"], []⟩ (c "a.b/api.Service.Get") = c "a.b/impl.Svc.Get" := by decide

/-- The literals of the example call something; an operation nothing calls from keeps its name. -/
example : (∀ l ∈ demo.lits, l.1 ∈ demo.callers) ∧ resolveHandlerKey (· == ·) demo (c "a.b/app.Users.Put") = c "a.b/app.Users.Put" := by
  constructor <;> decide

/-- The receiver is not compared: the operation of `Health.Get`, which calls nothing, is traced as `Users.Get`. -/
theorem C113_other_receiver : DeclaredAs ((mget demo.pkgs (c "a.b/app")).getD ⟨[], []⟩) (c "a.b/app") (c "Get") (c "a.b/app.Health.Get") ⟨c "Get", c "h.go", 10⟩ ∧
    resolveHandlerKey (· == ·) demo (c "a.b/app.Health.Get") = c "a.b/app.Users.Get" :=
  ⟨.method (plain (c "Health") [⟨c "Get", c "h.go", 10⟩]) _ (Or.inr ⟨_, List.mem_cons_self, List.mem_cons_self⟩) List.mem_cons_self rfl, by decide⟩

/-- With several functions of the name the answer depends on the order of a Go map. -/
theorem C113_order_dependent :
    let t1 := plain (c "Orders") [⟨c "Get", c "o.go", 3⟩]
    let t2 := plain (c "Users") [⟨c "Get", c "u.go", 5⟩]
    let calls := [c "app.Users.Get", c "app.Orders.Get"]
    resolveHandlerKey (· == ·) ⟨[(c "app", ⟨[], [⟨[t1, t2], []⟩]⟩)], calls, []⟩ (c "app.h.Get") ≠
    resolveHandlerKey (· == ·) ⟨[(c "app", ⟨[], [⟨[t2, t1], []⟩]⟩)], calls, []⟩ (c "app.h.Get") := by decide

/-- A handler that calls nothing and returns no literal is traced as the next literal of its file, whosever it is. -/
theorem C113_other_closure :
    resolveHandlerKey (· == ·) ⟨[(c "app", ⟨[], [⟨[], [⟨c "Ping", c "h.go", 3⟩, ⟨c "Login", c "h.go", 20⟩]⟩]⟩)],
      [c "app.FuncLit:h.go:21:9"], [(c "app.FuncLit:h.go:21:9", c "h.go", 21)]⟩ (c "app.Ping") = c "app.FuncLit:h.go:21:9" := by decide

/-- The handlers of a package whose path ends in a version, like `gopkg.in/app.v2`, are not looked for in it. -/
theorem C113_version_wrong : splitOpID (c "gopkg.in/app.v2.Get") = (c "gopkg.in/app", c "Get") := by decide

end Verif.TraceRoot
