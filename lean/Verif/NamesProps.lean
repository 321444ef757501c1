import Verif.NamesModel
/-!
# Properties: component names
-/

namespace Verif.NamesModel
open Verif.Common

/-! ## Specification -/

/-- OpenAPI: component keys match `^[a-zA-Z0-9\.\-_]+$`. -/
def legalChar (c : Char) : Bool := c.isAlphanum || c == '.' || c == '-' || c == '_'
def Legal (s : Str) : Prop := s ≠ [] ∧ ∀ c ∈ s, legalChar c = true

/-- Go types as they are spelled in keys: a name in a package path, with arguments, or a slice of a type.
(No pointers, maps, functions: see `C46_illegal_kept`.) -/
inductive GoType
  | named (path : List Str) (name : Str) (args : List GoType)
  | slice (elem : GoType)

/-- `a/b/c`. -/
def pathText : List Str → Str
  | [] => []
  | [s] => s
  | s :: t :: r => s ++ '/' :: pathText (t :: r)

mutual
/-- `a/b.Name[x, y]`, `[]T`. -/
def GoType.text : GoType → Str
  | .named path name args => (if path = [] then name else pathText path ++ '.' :: name) ++ (if args.isEmpty then [] else '[' :: argsText args ++ [']'])
  | .slice e => '[' :: ']' :: e.text
def argsText : List GoType → Str
  | [] => []
  | [t] => t.text
  | t :: u :: ts => t.text ++ ',' :: ' ' :: argsText (u :: ts)
end

/-- The words of a type are made of legal characters. -/
def wordOk (s : Str) : Prop := s ≠ [] ∧ ∀ c ∈ s, legalChar c = true

mutual
def GoType.ok : GoType → Prop
  | .named path name args => (∀ s ∈ path, wordOk s) ∧ wordOk name ∧ argsOk args
  | .slice e => e.ok
def argsOk : List GoType → Prop
  | [] => True
  | t :: ts => t.ok ∧ argsOk ts
end

/-! ## Characters -/

/-- What a text may be made of for its name to be legal. -/
inductive Clean : Str → Prop
  | nil : Clean []
  | char {c s} : legalChar c = true → Clean s → Clean (c :: s)
  | mark {c s} : c ∈ ['/', ' ', '[', ']'] → Clean s → Clean (c :: s)
  | sep {s} : Clean s → Clean ('-' :: '-' :: '>' :: s)
  | comma {s} : Clean s → Clean (',' :: ' ' :: s)

theorem Clean.append {a b : Str} (ha : Clean a) (hb : Clean b) : Clean (a ++ b) := by
  induction ha with
  | nil => exact hb
  | char h _ ih => exact .char h ih
  | mark h _ ih => exact .mark h ih
  | sep _ ih => exact .sep ih
  | comma _ ih => exact .comma ih

theorem sub_legal {c : Char} (h : legalChar c = true ∨ c ∈ ['/', ' ', '[', ']']) : ∀ x ∈ sub c, legalChar x = true := by
  intro x hx
  unfold sub at hx
  split at hx
  · rw [List.mem_singleton.mp hx]; decide
  · split at hx
    · rw [List.mem_singleton.mp hx]; decide
    · split at hx
      · rw [List.mem_singleton.mp hx]; decide
      · split at hx
        · rw [List.mem_singleton.mp hx]; decide
        · split at hx
          · cases hx
          · next h1 h2 h3 h4 h5 =>
            rw [List.mem_singleton.mp hx]
            rcases h with h | h
            · exact h
            · simp only [List.mem_cons, List.not_mem_nil, or_false] at h
              rcases h with h | h | h | h
              · exact absurd h h1
              · exact absurd h h3
              · exact absurd h h4
              · exact absurd h h5

theorem not_clean {c : Char} {s : Str} (hc : legalChar c = false) (hm : c ∉ ['/', ' ', '[', ']']) (h1 : c ≠ '-') (h2 : c ≠ ',') : ¬ Clean (c :: s) := by
  intro h
  cases h with
  | char h _ => rw [h] at hc; cases hc
  | mark h _ => exact hm h
  | sep _ => exact h1 rfl
  | comma _ => exact h2 rfl

theorem clean_mangle (s : Str) (h : Clean s) : ∀ c ∈ mangle s, legalChar c = true := by
  induction s using mangle.induct with
  | case1 cs ih =>
    rw [mangle]
    have hcs : Clean cs := by
      cases h with
      | char _ h =>
        cases h with
        | char _ h => exact absurd h (not_clean (by decide) (by decide) (by decide) (by decide))
        | mark hm _ => exact absurd hm (by decide)
      | mark hm _ => exact absurd hm (by decide)
      | sep h => exact h
    intro c hc
    rcases List.mem_cons.mp hc with rfl | hc
    · decide
    · exact ih hcs c hc
  | case2 cs ih =>
    rw [mangle]
    have hcs : Clean cs := by
      cases h with
      | char hl _ => exact absurd hl (by decide)
      | mark hm _ => exact absurd hm (by decide)
      | comma h => exact h
    intro c hc
    rcases List.mem_cons.mp hc with rfl | hc
    · decide
    · exact ih hcs c hc
  | case3 c cs h1 h2 ih =>
    rw [mangle]
    · intro x hx
      cases h with
      | char hl h =>
        rcases List.mem_append.mp hx with hx | hx
        · exact sub_legal (.inl hl) x hx
        · exact ih h x hx
      | mark hm h =>
        rcases List.mem_append.mp hx with hx | hx
        · exact sub_legal (.inr hm) x hx
        · exact ih h x hx
      | sep h => exact absurd rfl (h1 _ rfl)
      | comma h => exact absurd rfl (h2 _ rfl)
    · exact h1
    · exact h2
  | case4 => intro c hc; cases hc

theorem clean_word {s : Str} (h : wordOk s) : Clean s := by
  have : ∀ c ∈ s, legalChar c = true := h.2
  clear h
  induction s with
  | nil => exact .nil
  | cons c cs ih => exact .char (this c (List.mem_cons_self ..)) (ih fun x hx => this x (List.mem_cons_of_mem _ hx))

theorem clean_path : ∀ (p : List Str), (∀ s ∈ p, wordOk s) → Clean (pathText p)
  | [], _ => .nil
  | [s], h => clean_word (h s (List.mem_cons_self ..))
  | s :: t :: r, h => (clean_word (h s (List.mem_cons_self ..))).append (.mark (by decide) (clean_path (t :: r) fun x hx => h x (List.mem_cons_of_mem _ hx)))

mutual
theorem clean_type : ∀ (t : GoType), t.ok → Clean t.text
  | .named path name args, h => by
    rw [GoType.ok] at h
    rw [GoType.text]
    refine Clean.append ?_ ?_
    · split
      · exact clean_word h.2.1
      · exact (clean_path path h.1).append (.char (by decide) (clean_word h.2.1))
    · split
      · exact .nil
      · exact .mark (by decide) ((clean_args args h.2.2).append (.mark (by decide) .nil))
  | .slice e, h => by
    rw [GoType.ok] at h
    rw [GoType.text]
    exact .mark (by decide) (.mark (by decide) (clean_type e h))
theorem clean_args : ∀ (ts : List GoType), argsOk ts → Clean (argsText ts)
  | [], _ => by rw [argsText]; exact .nil
  | [t], h => by
    rw [argsOk] at h
    rw [argsText]
    exact clean_type t h.1
  | t :: u :: ts, h => by
    rw [argsOk] at h
    rw [argsText]
    · exact (clean_type t h.1).append (.comma (clean_args (u :: ts) h.2))
end

theorem mangle_ne {c : Char} {s : Str} (hc : legalChar c = true) : mangle (c :: s) ≠ [] := by
  by_cases h1 : ∃ r, c = '-' ∧ s = '-' :: '>' :: r
  · obtain ⟨r, rfl, rfl⟩ := h1
    rw [mangle]; simp
  · by_cases h2 : ∃ r, c = ',' ∧ s = ' ' :: r
    · obtain ⟨r, rfl, rfl⟩ := h2
      rw [mangle]; simp
    · rw [mangle]
      · intro e
        have e := (List.append_eq_nil_iff.mp e).1
        unfold sub at e
        split at e
        · cases e
        · split at e
          · cases e
          · split at e
            · cases e
            · split at e
              · cases e
              · split at e
                · next h => subst h; exact absurd hc (by decide)
                · cases e
      · intro cs e e2; exact h1 ⟨cs, e, e2⟩
      · intro cs e e2; exact h2 ⟨cs, e, e2⟩

theorem word_head {s : Str} (h : wordOk s) : ∃ c r, s = c :: r ∧ legalChar c = true := by
  cases s with
  | nil => exact absurd rfl h.1
  | cons c r => exact ⟨c, r, rfl, h.2 c (List.mem_cons_self ..)⟩

theorem path_head : ∀ (p : List Str), p ≠ [] → (∀ s ∈ p, wordOk s) → ∃ c r, pathText p = c :: r ∧ legalChar c = true
  | [], h, _ => absurd rfl h
  | [s], _, h => word_head (h s (List.mem_cons_self ..))
  | s :: t :: r, _, h => by
    obtain ⟨c, cs, e, hc⟩ := word_head (h s (List.mem_cons_self ..))
    exact ⟨c, cs ++ '/' :: pathText (t :: r), by rw [pathText, e]; rfl, hc⟩

theorem type_head : ∀ (t : GoType), t.ok → ∃ c r, t.text = c :: r ∧ (legalChar c = true ∨ c = '[')
  | .named path name args, h => by
    rw [GoType.ok] at h
    rw [GoType.text]
    split
    · obtain ⟨c, r, e, hc⟩ := word_head h.2.1
      exact ⟨c, _, by rw [e]; rfl, .inl hc⟩
    · next hp =>
      obtain ⟨c, r, e, hc⟩ := path_head path hp h.1
      exact ⟨c, _, by rw [e]; rfl, .inl hc⟩
  | .slice e, _ => ⟨'[', ']' :: e.text, by rw [GoType.text], .inr rfl⟩

/-- **C46 (legal characters).** The component name of every type built from words, paths, type arguments
and slices is legal. -/
theorem C46_legal (t : GoType) (h : t.ok) : Legal (mangle t.text) := by
  refine ⟨?_, clean_mangle _ (clean_type t h)⟩
  obtain ⟨c, r, e, hc⟩ := type_head t h
  rw [e]
  rcases hc with hc | rfl
  · exact mangle_ne hc
  · rw [mangle]
    · simp [sub]
    · intro _ e; exact absurd e (by decide)
    · intro _ e; exact absurd e (by decide)

/-- `x.io/api.Page[m.User, []m.Role]`. -/
def pageType : GoType := .named [['x', '.', 'i', 'o'], ['a', 'p', 'i']] ['P', 'a', 'g', 'e']
  [.named [['m']] ['U', 's', 'e', 'r'] [], .slice (.named [['m']] ['R', 'o', 'l', 'e'] [])]

theorem pageType_text : pageType.text = "x.io/api.Page[m.User, []m.Role]".toList := by
  simp [pageType, GoType.text, argsText, pathText]

example : mangle pageType.text = "x_io_api_Page_m_User-_m_Role".toList := by rw [pageType_text]; decide

example : pageType.ok := by
  simp only [pageType, GoType.ok, argsOk, wordOk]; decide

/-- **C46 (illegal characters).** Any other character of a type text but `>` and `,` is in its component
name, so the name is not legal. -/
theorem C46_illegal_kept (s : Str) (c : Char) (hc : c ∈ s) (hl : legalChar c = false) (hm : c ∉ ['/', ' ', '[', ']', '>', ',']) : ¬ Legal (mangle s) := by
  intro ⟨h0, h⟩
  suffices c ∈ mangle s by rw [h c this] at hl; cases hl
  clear h h0
  simp only [List.mem_cons, List.not_mem_nil, or_false, not_or] at hm
  induction s using mangle.induct with
  | case1 cs ih =>
    rw [mangle]
    simp only [List.mem_cons] at hc
    rcases hc with rfl | rfl | rfl | hc
    · exact absurd hl (by decide)
    · exact absurd hl (by decide)
    · exact absurd rfl hm.2.2.2.2.1
    · exact List.mem_cons_of_mem _ (ih hc)
  | case2 cs ih =>
    rw [mangle]
    simp only [List.mem_cons] at hc
    rcases hc with rfl | rfl | hc
    · exact absurd rfl hm.2.2.2.2.2
    · exact absurd rfl hm.2.1
    · exact List.mem_cons_of_mem _ (ih hc)
  | case3 d cs h1 h2 ih =>
    rw [mangle]
    · rcases List.mem_cons.mp hc with rfl | hc
      · apply List.mem_append_left
        have : c ≠ '.' := fun e => by subst e; exact absurd hl (by decide)
        unfold sub
        rw [if_neg hm.1, if_neg this, if_neg hm.2.1, if_neg hm.2.2.1, if_neg hm.2.2.2.1]
        exact List.mem_cons_self ..
      · exact List.mem_append_right _ (ih hc)
    · exact h1
    · exact h2
  | case4 => cases hc

/-- An instance of a generic type for a pointer has an illegal name. -/
theorem C46_pointer_argument : ¬ Legal (mangle "api.Page[*User]".toList) :=
  C46_illegal_kept _ '*' (by decide) (by decide) (by decide)

/-! ## Distinctness -/

/-- Words without the separators. -/
def plainWord (s : Str) : Prop := s ≠ [] ∧ ∀ c ∈ s, c.isAlphanum = true

/-- A type of a package, `a/b.Name`, by its words. -/
def qualified (path : List Str) (name : Str) : Str := if path = [] then name else pathText path ++ '.' :: name

def underscored : List Str → Str
  | [] => []
  | [s] => s
  | s :: t :: r => s ++ '_' :: underscored (t :: r)

theorem alnum_ne {c : Char} (h : c.isAlphanum = true) : c ≠ '-' ∧ c ≠ ',' ∧ c ≠ '/' ∧ c ≠ '.' ∧ c ≠ ' ' ∧ c ≠ '[' ∧ c ≠ ']' ∧ c ≠ '_' := by
  refine ⟨?_, ?_, ?_, ?_, ?_, ?_, ?_, ?_⟩ <;> (rintro rfl; exact absurd h (by decide))

theorem mangle_char {c : Char} (s : Str) (h1 : c ≠ '-') (h2 : c ≠ ',') : mangle (c :: s) = sub c ++ mangle s := by
  rw [mangle]
  · intro _ e; exact absurd e h1
  · intro _ e; exact absurd e h2

theorem mangle_word (w s : Str) (h : ∀ c ∈ w, c.isAlphanum = true) : mangle (w ++ s) = w ++ mangle s := by
  induction w with
  | nil => rfl
  | cons c w ih =>
    have hc := alnum_ne (h c (List.mem_cons_self ..))
    rw [List.cons_append, mangle_char _ hc.1 hc.2.1, ih fun x hx => h x (List.mem_cons_of_mem _ hx)]
    unfold sub
    rw [if_neg hc.2.2.1, if_neg hc.2.2.2.1, if_neg hc.2.2.2.2.1, if_neg hc.2.2.2.2.2.1, if_neg hc.2.2.2.2.2.2.1]
    rfl

theorem mangle_path : ∀ (p : List Str) (r : Str), p ≠ [] → (∀ s ∈ p, plainWord s) → mangle (pathText p ++ r) = underscored p ++ mangle r
  | [], _, h, _ => absurd rfl h
  | [s], r, _, h => mangle_word s r (h s (List.mem_cons_self ..)).2
  | s :: t :: p, r, _, h => by
    rw [pathText, List.append_assoc, mangle_word s _ (h s (List.mem_cons_self ..)).2, List.cons_append, mangle_char _ (by decide) (by decide),
      mangle_path (t :: p) r (by simp) fun x hx => h x (List.mem_cons_of_mem _ hx), underscored, List.append_assoc]
    rfl

theorem underscored_snoc : ∀ (p : List Str) (n : Str), p ≠ [] → underscored p ++ '_' :: n = underscored (p ++ [n])
  | [], _, h => absurd rfl h
  | [s], n, _ => rfl
  | s :: t :: p, n, _ => by
    rw [underscored, List.append_assoc, List.cons_append, underscored_snoc (t :: p) n (by simp)]
    rfl

theorem mangle_qualified (path : List Str) (name : Str) (hp : ∀ s ∈ path, plainWord s) (hn : plainWord name) : mangle (qualified path name) = underscored (path ++ [name]) := by
  have hw : mangle name = name := by have := mangle_word name [] hn.2; rwa [List.append_nil, mangle, List.append_nil] at this
  unfold qualified
  split
  · next h => subst h; exact hw
  · next h =>
    rw [mangle_path path _ h hp, mangle_char _ (by decide) (by decide), hw]
    exact underscored_snoc path name h

theorem underscored_inj : ∀ (p q : List Str), (∀ s ∈ p, plainWord s) → (∀ s ∈ q, plainWord s) → underscored p = underscored q → p = q := by
  have split : ∀ (a b x y : Str), '_' ∉ a → '_' ∉ b → a ++ '_' :: x = b ++ '_' :: y → a = b ∧ x = y := by
    intro a
    induction a with
    | nil =>
      intro b x y _ hb e
      cases b with
      | nil => injection e with _ e; exact ⟨rfl, e⟩
      | cons c b => injection e with e _; exact absurd (by rw [e]; exact List.mem_cons_self ..) hb
    | cons c a ih =>
      intro b x y ha hb e
      cases b with
      | nil => injection e with e _; exact absurd (by rw [e]; exact List.mem_cons_self ..) ha
      | cons d b =>
        injection e with e1 e2
        obtain ⟨h1, h2⟩ := ih b x y (fun h => ha (List.mem_cons_of_mem _ h)) (fun h => hb (List.mem_cons_of_mem _ h)) e2
        exact ⟨by rw [e1, h1], h2⟩
  have no : ∀ s, plainWord s → '_' ∉ s := fun s hs h => (alnum_ne (hs.2 _ h)).2.2.2.2.2.2.2 rfl
  intro p
  induction p with
  | nil =>
    intro q _ hq e
    cases q with
    | nil => rfl
    | cons t q =>
      have := (hq t (List.mem_cons_self ..)).1
      cases q with
      | nil => exact absurd e.symm this
      | cons u q => exact absurd (List.append_eq_nil_iff.mp e.symm).1 this
  | cons s p ih =>
    intro q hp hq e
    have hs := hp s (List.mem_cons_self ..)
    cases q with
    | nil =>
      cases p with
      | nil => exact absurd e hs.1
      | cons u p => exact absurd (List.append_eq_nil_iff.mp e).1 hs.1
    | cons t q =>
      have ht := hq t (List.mem_cons_self ..)
      cases p with
      | nil =>
        cases q with
        | nil => exact congrArg (· :: []) e
        | cons u q =>
          have e : s = t ++ '_' :: underscored (u :: q) := e
          exact absurd (by rw [e]; simp) (no s hs)
      | cons v p =>
        cases q with
        | nil =>
          have e : s ++ '_' :: underscored (v :: p) = t := e
          exact absurd (by rw [← e]; simp) (no t ht)
        | cons u q =>
          obtain ⟨h1, h2⟩ := split s t _ _ (no s hs) (no t ht) e
          rw [h1, ih (u :: q) (fun x hx => hp x (List.mem_cons_of_mem _ hx)) (fun x hx => hq x (List.mem_cons_of_mem _ hx)) h2]

/-- **C46 (distinct, partial).** Two declared types whose package paths and names are words without `_`, `-`
and `.` have different component names unless they are the same type.  Missing: other words and type
arguments; see the collisions below. -/
theorem C46_distinct_partial (p q : List Str) (n m : Str) (hp : ∀ s ∈ p, plainWord s) (hn : plainWord n) (hq : ∀ s ∈ q, plainWord s) (hm : plainWord m)
    (h : mangle (qualified p n) = mangle (qualified q m)) : p = q ∧ n = m := by
  rw [mangle_qualified p n hp hn, mangle_qualified q m hq hm] at h
  have := underscored_inj (p ++ [n]) (q ++ [m]) (fun s hs => by rcases List.mem_append.mp hs with hs | hs; exact hp s hs; rw [List.mem_singleton.mp hs]; exact hn)
    (fun s hs => by rcases List.mem_append.mp hs with hs | hs; exact hq s hs; rw [List.mem_singleton.mp hs]; exact hm) h
  have := List.append_inj' this rfl
  exact ⟨this.1, by injection this.2⟩

example : plainWord "models".toList ∧ plainWord "User".toList ∧ mangle (qualified ["internal".toList, "models".toList] "User".toList) = "internal_models_User".toList := by
  refine ⟨⟨by decide, by decide⟩, ⟨by decide, by decide⟩, by decide⟩

/-- **C46 (collisions).** Different types with one name: an underscore for a slash, a generic instance and
a type of a package named like the generic type, arguments at another depth. -/
theorem C46_collisions : mangle "app/user_api.Item".toList = mangle "app/user/api.Item".toList ∧
    mangle "api.Page[User]".toList = mangle "api/Page.User".toList ∧
    mangle "Pair[List[A], B]".toList = mangle "Pair[List[A, B]]".toList := by decide

/-- **C46 (consequence).** Of two types with one name only the later is in the document. -/
theorem C46_overwritten {σ : Type} (a b : σ) : storeAll [("app/user_api.Item".toList, a), ("app/user/api.Item".toList, b)] = [("app_user_api_Item".toList, b)] := rfl

theorem storeAll_get {σ : Type} : ∀ (types : List (Str × σ)) (c : List (Str × σ)) (t : Str) (s : σ), (t, s) ∈ types → (∀ u ∈ types, mangle u.1 = mangle t → u.2 = s) →
    mget (types.foldl (fun c t => store c t.1 t.2) c) (mangle t) = some s := by
  have keep : ∀ (types : List (Str × σ)) (c : List (Str × σ)) (k : Str) (s : σ), mget c k = some s → (∀ u ∈ types, mangle u.1 = k → u.2 = s) →
      mget (types.foldl (fun c t => store c t.1 t.2) c) k = some s := by
    intro types
    induction types with
    | nil => intro c k s h _; exact h
    | cons u types ih =>
      intro c k s h hu
      rw [List.foldl_cons]
      apply ih
      · unfold store
        rw [mget_mset]
        split
        · next e => rw [hu u (List.mem_cons_self ..) e.symm]
        · exact h
      · exact fun v hv => hu v (List.mem_cons_of_mem _ hv)
  intro types
  induction types with
  | nil => intro c t s h; cases h
  | cons u types ih =>
    intro c t s h hu
    rw [List.foldl_cons]
    rcases List.mem_cons.mp h with rfl | h
    · apply keep
      · exact mget_mset_self _ _ _
      · exact fun v hv => hu v (List.mem_cons_of_mem _ hv)
    · exact ih _ t s h fun v hv => hu v (List.mem_cons_of_mem _ hv)

/-- **C46 (every reference finds its type).** If the types of a document have different names, each is found
under the name a reference to it, or to a pointer to it, uses. -/
theorem C46_found {σ : Type} (types : List (Str × σ)) (hd : (types.map Prod.fst).Nodup) (hinj : ∀ a ∈ types, ∀ b ∈ types, mangle a.1 = mangle b.1 → a.1 = b.1) (t : Str) (s : σ)
    (h : (t, s) ∈ types) (hs : t.head? ≠ some '*') : mget (storeAll types) (refName t) = some s ∧ mget (storeAll types) (refName ('*' :: t)) = some s := by
  have e : refName t = mangle t := by
    unfold refName
    split
    · exact absurd rfl hs
    · rfl
  have : mget (storeAll types) (mangle t) = some s := by
    apply storeAll_get types [] t s h
    intro u hu hm
    have := hinj u hu (t, s) h hm
    have h1 := mget_of_mem hd hu
    have h2 := mget_of_mem hd h
    rw [this, h2] at h1
    injection h1 with h1
    exact h1.symm
  exact ⟨by rw [e]; exact this, this⟩

example : mget (storeAll [("a.T".toList, 1), ("b.T".toList, 2)]) (refName "*b.T".toList) = some 2 := by decide

end Verif.NamesModel
