import Verif.BrowseModel
/-!
# C115: the folder picker offers the folders that are there
-/

namespace Verif.Browse

/-! ### Specification -/

/-- What a sort by a comparison guarantees. -/
def SortsBy {α : Type} (lt : α → α → Bool) (sorted : List α → List α) : Prop :=
  ∀ l, (sorted l).Perm l ∧ (sorted l).Pairwise (fun a b => lt b a = false)

/-- What a comparison must be for a sort to work. -/
structure StrictWeak {α : Type} (lt : α → α → Bool) : Prop where
  irrefl : ∀ a, lt a a = false
  trans : ∀ a b c, lt a b = true → lt b c = true → lt a c = true
  incomparable : ∀ a b c, lt a b = false → lt b c = false → lt a c = false

def Hidden (name : Str) : Prop := ∃ r, name = '.' :: r

/-- The name ends in .yaml or .yml, in any case. -/
def YamlName (fs : FS) (name : Str) : Prop := ∃ r, fs.lower name = r ++ ".yaml".toList ∨ fs.lower name = r ++ ".yml".toList

/-- The entry that should be offered for a name. -/
inductive Offered (fs : FS) (abs files : Str) (es : List DirEnt) : Entry → Prop
  | folder (name : Str) (mod : Bool) : ⟨name, true⟩ ∈ es → ¬ Hidden name →
      (mod = true ↔ ∃ d, fs.stat (join (join abs name) "go.mod".toList) = some d) → Offered fs abs files es ⟨name, join abs name, mod, true⟩
  | file (name : Str) : files = "yaml".toList → ⟨name, false⟩ ∈ es → ¬ Hidden name → YamlName fs name →
      Offered fs abs files es ⟨name, join abs name, false, false⟩

/-- Group of an entry: projects, other folders, files. -/
inductive Group : Entry → Nat → Prop
  | project (n p : Str) : Group ⟨n, p, true, true⟩ 0
  | folder (n p : Str) : Group ⟨n, p, false, true⟩ 1
  | file (n p : Str) (m : Bool) : Group ⟨n, p, m, false⟩ 2

/-- A path as `filepath.Abs` gives: the root, or a slash and a name, again and again. -/
inductive CleanAbs : Str → Prop
  | root : CleanAbs ['/']
  | top (n : Str) : n ≠ [] → '/' ∉ n → CleanAbs ('/' :: n)
  | child (p n : Str) : CleanAbs p → p ≠ ['/'] → n ≠ [] → '/' ∉ n → CleanAbs (p ++ '/' :: n)

/-- The folder that is asked for: the given path; without one the home folder; without that the root. -/
inductive Asks (fs : FS) (p : Str) : Str → Prop
  | given : fs.blank p = false → Asks fs p p
  | home (h : Str) : fs.blank p = true → fs.home = some h → Asks fs p h
  | root : fs.blank p = true → fs.home = none → Asks fs p ['/']

/-! ### Lemmas -/

theorem asks_start (fs : FS) (p q : Str) (h : Asks fs p q) : startPath fs p = q := by
  unfold startPath
  cases h with
  | given h => rw [h]; rfl
  | home h1 h2 h3 => rw [h2, h3]; rfl
  | root h1 h2 => rw [h1, h2]; rfl

theorem slt_irrefl (a : Str) : slt a a = false := by
  induction a with
  | nil => rfl
  | cons x a ih => simp [slt, ih]

theorem slt_trans : ∀ a b c : Str, slt a b = true → slt b c = true → slt a c = true
  | [], [], _, h, _ => by cases h
  | [], _ :: _, [], _, h => by cases h
  | [], _ :: _, _ :: _, _, _ => rfl
  | _ :: _, [], _, h, _ => by cases h
  | _ :: _, _ :: _, [], _, h => by cases h
  | x :: a, y :: b, z :: c, h1, h2 => by
    have ih := slt_trans a b c
    simp only [slt, Bool.or_eq_true, Bool.and_eq_true, decide_eq_true_eq] at h1 h2 ⊢
    rcases h1 with h1 | ⟨h1, h1'⟩ <;> rcases h2 with h2 | ⟨h2, h2'⟩
    · left; omega
    · left; omega
    · left; omega
    · right; exact ⟨by omega, ih h1' h2'⟩

theorem slt_total : ∀ a b : Str, slt a b = false → slt b a = false → a = b
  | [], [], _, _ => rfl
  | [], _ :: _, h, _ => by cases h
  | _ :: _, [], _, h => by cases h
  | x :: a, y :: b, h1, h2 => by
    have ih := slt_total a b
    simp only [slt, Bool.or_eq_false_iff, Bool.and_eq_false_iff, decide_eq_false_iff_not] at h1 h2
    have hxy : x.toNat = y.toNat := by omega
    have : x = y := Char.toNat_inj.mp hxy
    subst this
    have e1 : slt a b = false := by rcases h1.2 with h | h; exact absurd rfl h; exact h
    have e2 : slt b a = false := by rcases h2.2 with h | h; exact absurd rfl h; exact h
    rw [ih e1 e2]

theorem slt_incomparable (a b c : Str) (h1 : slt a b = false) (h2 : slt b c = false) : slt a c = false := by
  cases h : slt a c with
  | false => rfl
  | true =>
    cases hcb : slt c b with
    | true => rw [slt_trans a c b h hcb] at h1; cases h1
    | false =>
      have := slt_total b c h2 hcb
      subst this
      rw [h] at h1; cases h1

theorem suffix_iff (s t : Str) : s.isSuffixOf t = true ↔ ∃ r, t = r ++ s := by
  rw [List.isSuffixOf_iff_suffix]
  exact ⟨fun ⟨r, h⟩ => ⟨r, h.symm⟩, fun ⟨r, h⟩ => ⟨r, h.symm⟩⟩

theorem entryOf_iff (fs : FS) (abs files : Str) (es : List DirEnt) (x : Entry) :
    x ∈ es.filterMap (entryOf fs abs (decide (files = "yaml".toList))) ↔ Offered fs abs files es x := by
  rw [List.mem_filterMap]
  have hid : ∀ n : Str, n.head? = some '.' ↔ Hidden n := by
    intro n
    cases n with
    | nil => simp [Hidden]
    | cons a r => simp [Hidden]
  constructor
  · rintro ⟨⟨n, d⟩, he, h⟩
    unfold entryOf at h
    dsimp only at h
    split at h
    · cases h
    · next hh =>
      have hh : ¬ Hidden n := fun q => hh ((hid n).2 q)
      split at h
      · next hd =>
        have hd : d = true := hd
        subst hd
        cases h
        exact .folder n _ he hh Option.isSome_iff_exists
      · next hd =>
        have hd : d = false := by simpa using hd
        subst hd
        split at h
        · next hy =>
          cases h
          simp only [Bool.and_eq_true, decide_eq_true_eq, Bool.or_eq_true, suffix_iff] at hy
          obtain ⟨hf, hy⟩ := hy
          refine .file n hf he hh ?_
          rcases hy with ⟨r, hr⟩ | ⟨r, hr⟩
          · exact ⟨r, Or.inl hr⟩
          · exact ⟨r, Or.inr hr⟩
        · cases h
  · intro h
    cases h with
    | folder n mod he hh hm =>
      refine ⟨⟨n, true⟩, he, ?_⟩
      unfold entryOf
      dsimp only
      rw [if_neg (fun q => hh ((hid n).1 q)), if_pos rfl]
      have : (fs.stat (join (join abs n) "go.mod".toList)).isSome = mod := by
        rw [Bool.eq_iff_iff, Option.isSome_iff_exists]; exact hm.symm
      rw [this]
    | file n hf he hh hy =>
      refine ⟨⟨n, false⟩, he, ?_⟩
      unfold entryOf
      dsimp only
      rw [if_neg (fun q => hh ((hid n).1 q)), if_neg (by decide), if_pos]
      simp only [Bool.and_eq_true, decide_eq_true_eq, Bool.or_eq_true, suffix_iff]
      obtain ⟨r, hr⟩ := hy
      exact ⟨hf, hr.elim (fun h => Or.inl ⟨r, h⟩) (fun h => Or.inr ⟨r, h⟩)⟩

theorem browse_ok (fs : FS) (sorted : List Entry → List Entry) (get : Bool) (p files path parent : Str) (m : Bool) (out : List Entry)
    (h : handleBrowse fs sorted get p files = .ok path parent m out) :
    get = true ∧ fs.abs (startPath fs p) = some path ∧ fs.stat path = some true ∧ parent = (if dirOf path = path then [] else dirOf path) ∧
    m = (fs.stat (join path "go.mod".toList)).isSome ∧
    ∃ es, fs.readDir path = some es ∧ out = sorted (es.filterMap (entryOf fs path (decide (files = "yaml".toList)))) := by
  unfold handleBrowse at h
  split at h
  · cases h
  · next hg =>
    split at h
    · cases h
    · next abs ha =>
      split at h
      · cases h
      · cases h
      · next hs =>
        split at h
        · cases h
        · next es he =>
          injection h with e1 e2 e3 e4
          subst e1
          exact ⟨by simpa using hg, ha, hs, e2.symm, e3.symm, es, he, e4.symm⟩

/-! ### The properties -/

/-- The comparison is one a sort works with. -/
theorem C115_comparison (fs : FS) : StrictWeak (less fs) := by
  constructor
  · intro a; simp [less, slt_irrefl]
  · rintro ⟨n1, p1, m1, d1⟩ ⟨n2, p2, m2, d2⟩ ⟨n3, p3, m3, d3⟩ h1 h2
    have ht := slt_trans (fs.lower n1) (fs.lower n2) (fs.lower n3)
    revert h1 h2
    cases m1 <;> cases m2 <;> cases m3 <;> cases d1 <;> cases d2 <;> cases d3 <;> simp [less] <;> exact ht
  · rintro ⟨n1, p1, m1, d1⟩ ⟨n2, p2, m2, d2⟩ ⟨n3, p3, m3, d3⟩ h1 h2
    have ht := slt_incomparable (fs.lower n1) (fs.lower n2) (fs.lower n3)
    revert h1 h2
    cases m1 <;> cases m2 <;> cases m3 <;> cases d1 <;> cases d2 <;> cases d3 <;> simp [less] <;> exact ht

/-- A listing offers exactly the folders that are not hidden, and, if asked, the YAML files, once each; the
folder is marked as a project if it has a go.mod. -/
theorem C115_listed (fs : FS) (sorted : List Entry → List Entry) (hs : SortsBy (less fs) sorted) (get : Bool) (p files path parent : Str) (m : Bool)
    (out : List Entry) (h : handleBrowse fs sorted get p files = .ok path parent m out) :
    ∃ es, fs.readDir path = some es ∧ (∀ x, x ∈ out ↔ Offered fs path files es x) ∧ ((es.map (·.name)).Nodup → (out.map (·.name)).Nodup) ∧
      (m = true ↔ ∃ d, fs.stat (join path "go.mod".toList) = some d) := by
  obtain ⟨_, _, _, _, hm, es, he, hout⟩ := browse_ok fs sorted get p files path parent m out h
  subst hout
  refine ⟨es, he, fun x => ?_, fun hn => ?_, by rw [hm]; exact Option.isSome_iff_exists⟩
  · rw [(hs _).1.mem_iff]; exact entryOf_iff fs path files es x
  · refine ((hs _).1.map (·.name)).nodup_iff.2 ?_
    have key : ∀ w, ((es.filterMap (entryOf fs path w)).map (·.name)).Sublist (es.map (·.name)) := by
      intro w
      clear he h hn
      induction es with
      | nil => exact List.Sublist.refl _
      | cons e es ih =>
        rw [List.filterMap_cons]
        cases hx : entryOf fs path w e with
        | none => exact List.Sublist.cons _ ih
        | some y =>
          have : y.name = e.name := by
            unfold entryOf at hx
            split at hx
            · cases hx
            · split at hx
              · cases hx; rfl
              · split at hx
                · cases hx; rfl
                · cases hx
          simp only [List.map_cons, this]
          exact List.Sublist.cons_cons _ ih
    exact (key _).nodup hn

/-- Projects come first, then the other folders, then files, and within a group the names are in order, whatever their case. -/
theorem C115_order (fs : FS) (sorted : List Entry → List Entry) (hs : SortsBy (less fs) sorted) (get : Bool) (p files path parent : Str) (m : Bool)
    (out pre mid post : List Entry) (a b : Entry) (h : handleBrowse fs sorted get p files = .ok path parent m out)
    (hab : out = pre ++ a :: mid ++ b :: post) (i j : Nat) (hi : Group a i) (hj : Group b j) :
    i ≤ j ∧ (i = j → slt (fs.lower b.name) (fs.lower a.name) = false) := by
  obtain ⟨_, _, _, _, _, es, _, hout⟩ := browse_ok fs sorted get p files path parent m out h
  have hp := (hs (es.filterMap (entryOf fs path (decide (files = "yaml".toList))))).2
  rw [← hout, hab, List.append_assoc, List.pairwise_append, List.cons_append, List.pairwise_cons] at hp
  have hlt := hp.2.1.1 b (List.mem_append.2 (Or.inr List.mem_cons_self))
  revert hlt
  cases hi <;> cases hj <;> simp [less]

/-- Where no two names differ by case alone, there is only one such listing. -/
theorem C115_one_order (fs : FS) (s1 s2 : List Entry → List Entry) (h1 : SortsBy (less fs) s1) (h2 : SortsBy (less fs) s2) (get : Bool)
    (p files path parent : Str) (m : Bool) (out : List Entry) (h : handleBrowse fs s1 get p files = .ok path parent m out)
    (hinj : ∀ es a b, fs.readDir path = some es → a ∈ es → b ∈ es → fs.lower a.name = fs.lower b.name → a = b) :
    handleBrowse fs s2 get p files = .ok path parent m out := by
  obtain ⟨hg, ha, hst, hpar, hm, es, he, hout⟩ := browse_ok fs s1 get p files path parent m out h
  unfold handleBrowse
  rw [hg, ha]
  simp only [Bool.not_true, Bool.false_eq_true, if_false, hst, he]
  rw [← hpar, ← hm, hout]
  congr 1
  refine List.Perm.eq_of_pairwise (le := fun a b => less fs b a = false) ?_ (h2 _).2 (h1 _).2 ((h2 _).1.trans (h1 _).1.symm)
  intro a b hma hmb hab hba
  have hma := (h2 _).1.mem_iff.1 hma
  have hmb := (h1 _).1.mem_iff.1 hmb
  obtain ⟨ea, hea, hxa⟩ := List.mem_filterMap.1 hma
  obtain ⟨eb, heb, hxb⟩ := List.mem_filterMap.1 hmb
  have hname : ∀ e x, entryOf fs path (decide (files = "yaml".toList)) e = some x → x.name = e.name := by
    intro e x hx
    unfold entryOf at hx
    split at hx
    · cases hx
    · split at hx
      · cases hx; rfl
      · split at hx
        · cases hx; rfl
        · cases hx
  have hsame : fs.lower a.name = fs.lower b.name := by
    revert hab hba
    obtain ⟨n1, p1, m1, d1⟩ := a
    obtain ⟨n2, p2, m2, d2⟩ := b
    have ht := fun x y => slt_total (fs.lower n1) (fs.lower n2) y x
    cases m1 <;> cases m2 <;> cases d1 <;> cases d2 <;> simp [less] <;> exact ht
  have := hinj es ea eb he hea heb (by rw [← hname ea a hxa, ← hname eb b hxb]; exact hsame)
  subst this
  rw [hxa] at hxb
  cases hxb
  rfl

theorem dirOf_below (p n : Str) (hn : '/' ∉ n) : dirOf (p ++ '/' :: n) = if p = [] then ['/'] else p := by
  unfold dirOf
  have : ((p ++ '/' :: n).reverse.dropWhile (fun c => decide (c ≠ '/'))).reverse = p ++ ['/'] := by
    have he : (p ++ '/' :: n).reverse = n.reverse ++ '/' :: p.reverse := by simp
    rw [he, List.dropWhile_append_of_pos]
    · simp
    · intro x hx
      have : x ∈ n := by simpa using hx
      simpa using fun q : x = '/' => hn (q ▸ this)
  rw [this]
  cases p with
  | nil => rfl
  | cons a p =>
    rw [if_neg (by simp)]
    split
    · next h => simp at h
    · next h => simp at h
    · exact List.dropLast_concat

/-- The parent that is shown is where the folder is listed: opening a folder and going up leads back, and only the root has
no parent. -/
theorem C115_parent (fs : FS) (sorted : List Entry → List Entry) (get : Bool) (p files path parent : Str) (m : Bool) (out : List Entry)
    (h : handleBrowse fs sorted get p files = .ok path parent m out) :
    (∀ d n, CleanAbs d → n ≠ [] → '/' ∉ n → path = join d n → parent = d) ∧ (CleanAbs path → (parent = [] ↔ path = ['/'])) := by
  obtain ⟨_, _, _, hpar, _⟩ := browse_ok fs sorted get p files path parent m out h
  have dirJoin : ∀ d n, CleanAbs d → '/' ∉ n → dirOf (join d n) = d := by
    intro d n hd hn
    unfold join
    split
    · next hr => rw [hr]; exact dirOf_below [] n hn
    · rw [dirOf_below d n hn, if_neg]
      rintro rfl
      generalize he : ([] : Str) = e at hd
      cases hd <;> simp at he
  have joinNe : ∀ d n, n ≠ [] → join d n ≠ d := by
    intro d n hne he
    have := congrArg List.length he
    have hl : 0 < n.length := List.length_pos_iff.2 hne
    unfold join at this
    split at this
    · next hr => rw [hr] at this; simp at this; exact hne this
    · simp at this
  have back : ∀ d n, CleanAbs d → n ≠ [] → '/' ∉ n → path = join d n → parent = d := by
    intro d n hd hne hn hp
    rw [hpar, hp, dirJoin d n hd hn, if_neg (fun q => joinNe d n hne q.symm)]
  refine ⟨back, fun hc => ⟨fun h0 => ?_, fun hr => ?_⟩⟩
  · cases hc with
    | root => rfl
    | top n hne hn =>
      have := back ['/'] n .root hne hn (by simp [join])
      rw [this] at h0; cases h0
    | child q n hq hqr hne hn =>
      have := back q n hq hne hn (by simp [join, hqr])
      rw [this] at h0
      subst h0
      generalize he : ([] : Str) = e at hq
      cases hq <;> simp at he
  · rw [hpar, hr]; decide

/-- The folder asked for is listed, if it can be; what is not listed is refused: another method, what is no folder, what cannot be read. -/
theorem C115_refused (fs : FS) (sorted : List Entry → List Entry) (get : Bool) (p q files : Str) (hq : Asks fs p q) :
    (get = false → handleBrowse fs sorted get p files = .err 405) ∧
    (get = true → ∀ a, fs.abs q = some a → fs.stat a ≠ some true → handleBrowse fs sorted get p files = .err 400) ∧
    (get = true → ∀ a, fs.abs q = some a → fs.stat a = some true → fs.readDir a = none → handleBrowse fs sorted get p files = .err 500) ∧
    (get = true → ∀ a es, fs.abs q = some a → fs.stat a = some true → fs.readDir a = some es →
      ∃ parent m out, handleBrowse fs sorted get p files = .ok a parent m out) := by
  have hq := asks_start fs p q hq
  refine ⟨?_, ?_, ?_, ?_⟩
  · rintro rfl; rfl
  · rintro rfl a ha hs
    unfold handleBrowse
    simp only [Bool.not_true, Bool.false_eq_true, if_false, hq, ha]
    cases h : fs.stat a with
    | none => rfl
    | some d =>
      cases d with
      | false => rfl
      | true => exact absurd h hs
  · rintro rfl a ha hs hr
    unfold handleBrowse
    simp only [Bool.not_true, Bool.false_eq_true, if_false, hq, ha, hs, hr]
  · rintro rfl a es ha hs hr
    unfold handleBrowse
    simp only [Bool.not_true, Bool.false_eq_true, if_false, hq, ha, hs, hr]
    exact ⟨_, _, _, rfl⟩

/-! ### Instances and what does not hold -/

abbrev c (s : String) : Str := s.toList

/-- A folder with a project, another folder, a hidden one, a YAML file and a link to a project. -/
abbrev demo : FS where
  home := some (c "/h")
  abs := some
  stat p := if p = c "/h/app/go.mod" ∨ p = c "/h/link/go.mod" then some false else if p = c "/h" ∨ p = c "/h/app" ∨ p = c "/h/docs" ∨ p = c "/h/link" then some true else none
  readDir p := if p = c "/h" then some [⟨c ".git", true⟩, ⟨c "app", true⟩, ⟨c "a.yml", false⟩, ⟨c "docs", true⟩, ⟨c "link", false⟩] else if p = c "/h/link" then some [] else none
  lower := id
  blank p := p.isEmpty

/-- An insertion sort, as one sort there is. -/
def insert (lt : Entry → Entry → Bool) (a : Entry) : List Entry → List Entry
  | [] => [a]
  | b :: l => if lt b a then b :: insert lt a l else a :: b :: l

def isort (lt : Entry → Entry → Bool) : List Entry → List Entry
  | [] => []
  | a :: l => insert lt a (isort lt l)

theorem insert_perm (lt : Entry → Entry → Bool) (a : Entry) (l : List Entry) : (insert lt a l).Perm (a :: l) := by
  induction l with
  | nil => exact List.Perm.refl _
  | cons b l ih =>
    unfold insert
    split
    · exact (List.Perm.cons b ih).trans (List.Perm.swap a b l)
    · exact List.Perm.refl _

/-- The hypothesis of the theorems is met by some sort, for every file system. -/
theorem isort_sorts (fs : FS) : SortsBy (less fs) (isort (less fs)) := by
  have hw := C115_comparison fs
  intro l
  induction l with
  | nil => exact ⟨List.Perm.refl _, List.Pairwise.nil⟩
  | cons a l ih =>
    refine ⟨(insert_perm _ a _).trans (List.Perm.cons a ih.1), ?_⟩
    have key : ∀ l : List Entry, l.Pairwise (fun a b => less fs b a = false) → (insert (less fs) a l).Pairwise (fun a b => less fs b a = false) := by
      intro l
      induction l with
      | nil => intro _; exact List.pairwise_singleton _ _
      | cons b l ihl =>
        intro hp
        rw [List.pairwise_cons] at hp
        unfold insert
        split
        · next hba =>
          rw [List.pairwise_cons]
          refine ⟨fun x hx => ?_, ihl hp.2⟩
          rcases List.mem_cons.1 ((insert_perm _ a l).mem_iff.1 hx) with rfl | hx
          · cases hxb : less fs x b with
            | false => rfl
            | true => have := hw.trans x b x hxb hba; rw [hw.irrefl] at this; cases this
          · exact hp.1 x hx
        · next hba =>
          have hba : less fs b a = false := by simpa using hba
          rw [List.pairwise_cons, List.pairwise_cons]
          refine ⟨fun x hx => ?_, hp⟩
          rcases List.mem_cons.1 hx with rfl | hx
          · exact hba
          · exact hw.incomparable x b a (hp.1 x hx) hba
    exact key _ ih.2

example : handleBrowse demo (isort (less demo)) true [] (c "yaml") =
    .ok (c "/h") (c "/") false [⟨c "app", c "/h/app", true, true⟩, ⟨c "docs", c "/h/docs", false, true⟩, ⟨c "a.yml", c "/h/a.yml", false, false⟩] := by
  rfl

example : Asks demo [] (c "/h") ∧ CleanAbs (c "/h") ∧ c "/h/app" = join (c "/h") (c "app") := ⟨.home _ rfl rfl, .top (c "h") (by decide) (by decide), by decide⟩

/-- A link to a project is no folder for the listing, so it is not offered, although it can be opened. -/
theorem C115_links_missing (sorted : List Entry → List Entry) (hs : SortsBy (less demo) sorted) :
    demo.stat (c "/h/link") = some true ∧ (∃ par m out, handleBrowse demo sorted true (c "/h/link") [] = .ok (c "/h/link") par m out) ∧
    ∀ path parent m out, handleBrowse demo sorted true (c "/h") [] = .ok path parent m out → ∀ x ∈ out, x.name ≠ c "link" := by
  refine ⟨by decide, ⟨_, _, _, rfl⟩, fun path parent m out h x hx hn => ?_⟩
  obtain ⟨_, hp, _⟩ := browse_ok demo sorted true _ _ path parent m out h
  have hp : some (c "/h") = some path := hp
  cases hp
  obtain ⟨es, he, hl, _⟩ := C115_listed demo sorted hs true _ _ _ _ _ _ h
  have he : some [⟨c ".git", true⟩, ⟨c "app", true⟩, ⟨c "a.yml", false⟩, ⟨c "docs", true⟩, ⟨c "link", false⟩] = some es := he
  cases he
  cases (hl x).1 hx with
  | folder n mod hm _ _ =>
    have hn : n = c "link" := hn
    subst hn
    revert hm; decide
  | file n hf _ _ _ => revert hf; decide

end Verif.Browse
