/-
C91: a struct type is recorded as implementing an interface of the analyzed packages when, and only
when, its methods have the interface's signatures.
-/
import Verif.ImplModel

namespace Verif.ImplModel
open Verif.Common

/-! ## Specification: Go's types and method sets -/

/-- Go types, as far as signatures in the model need them. -/
inductive Ty where
  | name (pkg : Option Str) (n : Str)
  | ptr (t : Ty)
  | slice (t : Ty)
  | array (len : Str) (t : Ty)
  | map (k v : Ty)
  | chan (d : Dir) (t : Ty)
  | variadic (t : Ty)
  | any
  | app (t : Ty) (args : List Ty)
  | func (ps rs : List Ty)

/-- What alias declarations say: the type a name is another name of, if it is an alias. -/
abbrev Aliases := Option Str → Str → Option Ty

/-- The type a name stands for. -/
def nameTy (al : Aliases) (p : Option Str) (n : Str) : Ty := (al p n).getD (.name p n)

mutual
/-- The type an expression denotes. -/
def denote (al : Aliases) : TE → Ty
  | .ident p n _ => nameTy al p n
  | .sel p _ n => nameTy al (some p) n
  | .star e => .ptr (denote al e)
  | .paren e => denote al e
  | .array .none e => .slice (denote al e)
  | .array (.lit d) e => .array d (denote al e)
  | .array (.const d) e => .array d (denote al e)
  | .map k v => .map (denote al k) (denote al v)
  | .chan d e => .chan d (denote al e)
  | .ellipsis e => .variadic (denote al e)
  | .emptyIface => .any
  | .inst e args => .app (denote al e) (denoteAll al args)
  | .func ps rs => .func (denoteAll al ps) (denoteAll al rs)
/-- The types of a list of fields: one for every declared name. -/
def denoteAll (al : Aliases) : Fields → List Ty
  | .nil => []
  | .cons n e r => List.replicate (max n 1) (denote al e) ++ denoteAll al r
end

/-- Identical signatures. -/
def SameSig (al : Aliases) (a b : Sig) : Prop :=
  denoteAll al a.params = denoteAll al b.params ∧ denoteAll al a.results = denoteAll al b.results

/-- The declaration of a type in a package. -/
def Declares (pr : Prog) (pkg : String) (p : Pkg) (t : TypeDecl) : Prop := (pkg, p) ∈ pr ∧ t ∈ p.types

/-- A method declared for a type: its receiver is the type or a pointer to it. -/
def DeclaredOn (p : Pkg) (t : TypeDecl) (name : String) (sig : Sig) : Prop :=
  ∃ f ∈ p.funcs, f.name = name ∧ f.sig = sig ∧ (f.recv = t.name ++ t.params ∨ f.recv = "*" ++ (t.name ++ t.params))

/-- A method of (a pointer to) a type: declared, or promoted from an embedded type. -/
inductive Has (pr : Prog) : String → String → String → Sig → Prop
  | own {pkg p t name sig} : Declares pr pkg p t → DeclaredOn p t name sig → Has pr pkg t.name name sig
  | promoted {pkg p t embeds ep en name sig} : Declares pr pkg p t → t.kind = .struct embeds → (ep, en) ∈ embeds →
      (∀ s, ¬ DeclaredOn p t name s) → Has pr ep en name sig → Has pr pkg t.name name sig

/-- A method an interface asks for: written in it, or in an interface it embeds. -/
inductive Needs (pr : Prog) : String → String → String → Sig → Prop
  | own {pkg p t es name sig} : Declares pr pkg p t → t.kind = .iface es → .method name sig ∈ es → Needs pr pkg t.name name sig
  | embedded {pkg p t es ep en name sig} : Declares pr pkg p t → t.kind = .iface es → .embedded ep en ∈ es →
      Needs pr ep en name sig → Needs pr pkg t.name name sig

/-- Go's rule: a pointer to the type has every method the interface asks for. -/
def GoImplements (al : Aliases) (pr : Prog) (sp sn ip iname : String) : Prop :=
  ∀ name sig, Needs pr ip iname name sig → ∃ s, Has pr sp sn name s ∧ SameSig al s sig

/-- The program is one the Go compiler accepts, as far as names go. -/
structure GoProg (pr : Prog) : Prop where
  pkgs : (pr.map Prod.fst).Nodup
  types : ∀ e ∈ pr, (e.2.types.map TypeDecl.name).Nodup
  names : ∀ e ∈ pr, ∀ t ∈ e.2.types, '.' ∉ t.name.toList
  methods : ∀ pkg p t, Declares pr pkg p t → ∀ f ∈ p.funcs, ∀ g ∈ p.funcs,
    f.recv = t.name ++ t.params ∨ f.recv = "*" ++ (t.name ++ t.params) →
    g.recv = t.name ++ t.params ∨ g.recv = "*" ++ (t.name ++ t.params) → f.name = g.name → f.sig = g.sig

/-- Go identifiers. -/
def Word (u : Uni) (w : Str) : Prop := ∃ c r, w = c :: r ∧ u.start c = true ∧ ∀ x ∈ w, u.word x = true

/-- A decimal number. -/
def Decimal (d : Str) : Prop := d ≠ [] ∧ ∀ c ∈ d, c ∈ "0123456789".toList

mutual
/-- Plainly written types: no alias, no parentheses, no instantiated generic type, no constant as an
array length, no directed channel, no results sharing one type (`a, b int`). -/
def Plain (u : Uni) (al : Aliases) : TE → Prop
  | .ident p n tp => tp = [] ∧ al p n = none ∧ Word u n
  | .sel p pn n => al (some p) n = none ∧ Word u pn ∧ Word u n
  | .star e => Plain u al e
  | .paren _ => False
  | .array .none e => Plain u al e
  | .array (.lit d) e => Decimal d ∧ Plain u al e
  | .array (.const _) _ => False
  | .map k v => Plain u al k ∧ Plain u al v
  | .chan d e => d = .both ∧ Plain u al e
  | .ellipsis e => Plain u al e
  | .emptyIface => True
  | .inst _ _ => False
  | .func ps rs => PlainAll u al ps ∧ PlainAll u al rs ∧ Single rs
def PlainAll (u : Uni) (al : Aliases) : Fields → Prop
  | .nil => True
  | .cons _ e r => Plain u al e ∧ PlainAll u al r
/-- Every field declares one name at most. -/
def Single : Fields → Prop
  | .nil => True
  | .cons n _ r => n ≤ 1 ∧ Single r
end

/-- A plainly written signature. -/
def PlainSig (u : Uni) (al : Aliases) (s : Sig) : Prop :=
  PlainAll u al s.params ∧ PlainAll u al s.results ∧ Single s.results

mutual
/-- The names a type is built from. -/
def Mentions : Ty → Option Str → Str → Prop
  | .name p n, q, m => p = q ∧ n = m
  | .ptr t, q, m => Mentions t q m
  | .slice t, q, m => Mentions t q m
  | .array _ t, q, m => Mentions t q m
  | .map k v, q, m => Mentions k q m ∨ Mentions v q m
  | .chan _ t, q, m => Mentions t q m
  | .variadic t, q, m => Mentions t q m
  | .any, _, _ => False
  | .app t as, q, m => Mentions t q m ∨ MentionsAny as q m
  | .func ps rs, q, m => MentionsAny ps q m ∨ MentionsAny rs q m
def MentionsAny : List Ty → Option Str → Str → Prop
  | [], _, _ => False
  | t :: ts, q, m => Mentions t q m ∨ MentionsAny ts q m
end

mutual
/-- Functions inside the type return one value at most. -/
def OneResult : Ty → Prop
  | .name _ _ => True
  | .ptr t => OneResult t
  | .slice t => OneResult t
  | .array _ t => OneResult t
  | .map k v => OneResult k ∧ OneResult v
  | .chan _ t => OneResult t
  | .variadic t => OneResult t
  | .any => True
  | .app t as => OneResult t ∧ OneResults as
  | .func ps rs => OneResults ps ∧ OneResults rs ∧ rs.length ≤ 1
def OneResults : List Ty → Prop
  | [] => True
  | t :: ts => OneResult t ∧ OneResults ts
end

/-- The names of the types in two signatures say which type is meant: no two packages' types of one
name appear. -/
def Unambiguous (al : Aliases) (a b : Sig) : Prop :=
  ∀ p q n, MentionsAny (denoteAll al a.params ++ denoteAll al a.results ++ (denoteAll al b.params ++ denoteAll al b.results)) p n →
    MentionsAny (denoteAll al a.params ++ denoteAll al a.results ++ (denoteAll al b.params ++ denoteAll al b.results)) q n → p = q

/-- Function-typed parameters and results of a signature return one value at most. -/
def FlatSig (al : Aliases) (s : Sig) : Prop := OneResults (denoteAll al s.params) ∧ OneResults (denoteAll al s.results)

/-! ## What the normalized string says -/

mutual
/-- The text of a type without the packages. -/
def showTy : Ty → Str
  | .name _ n => n
  | .ptr t => '*' :: showTy t
  | .slice t => '[' :: ']' :: showTy t
  | .array d t => '[' :: (d ++ ']' :: showTy t)
  | .map k v => kMap ++ (showTy k ++ ']' :: showTy v)
  | .chan _ t => kChan ++ showTy t
  | .variadic t => kDots ++ showTy t
  | .any => kIface
  | .app t _ => showTy t
  | .func ps rs => kFunc ++ (joinComma (showAll ps) ++ (kClose ++ joinComma (showAll rs)))
def showAll : List Ty → List Str
  | [] => []
  | t :: ts => showTy t :: showAll ts
end

theorem showAll_map (l : List Ty) : showAll l = l.map showTy := by
  induction l with
  | nil => rfl
  | cons a l ih => simp only [showAll, List.map_cons, ih]

/-- Texts that end a word: nothing, or a character that is neither part of a word nor a dot. -/
def Ends (u : Uni) (s : Str) : Prop := s = [] ∨ ∃ c r, s = c :: r ∧ u.word c = false ∧ c ≠ '.'

theorem punct (u : Uni) {c : Char} (h : c ∈ ".,()[]{}* ".toList) : u.word c = false ∧ u.start c = false := by
  obtain ⟨h1, h2⟩ := u.plain c h
  have h3 : (c == '_') = false := by
    have h : c = '.' ∨ c = ',' ∨ c = '(' ∨ c = ')' ∨ c = '[' ∨ c = ']' ∨ c = '{' ∨ c = '}' ∨ c = '*' ∨ c = ' ' := by
      simpa using h
    rcases h with h | h | h | h | h | h | h | h | h | h <;> subst h <;> decide
  simp [Uni.word, Uni.start, h1, h2, h3]

theorem normGo_pend (u : Uni) (w : Str) (hw : ∀ x ∈ w, u.word x = true) : ∀ (p : Char) (ps s : Str),
    normGo u (p :: ps) (w ++ s) = normGo u (p :: ps ++ w) s := by
  induction w with
  | nil => intro p ps s; simp
  | cons a w ih =>
    intro p ps s
    have ha := hw a (by simp)
    simp only [List.cons_append, normGo, ha, if_true]
    rw [ih (fun x hx => hw x (by simp [hx]))]
    simp

theorem normGo_word (u : Uni) {w s : Str} (hw : Word u w) (hs : Ends u s) : normGo u [] (w ++ s) = w ++ normGo u [] s := by
  obtain ⟨c, r, rfl, hc, hall⟩ := hw
  simp only [List.cons_append, normGo, hc, if_true]
  rw [normGo_pend u r (fun x hx => hall x (by simp [hx]))]
  rcases hs with rfl | ⟨d, t, rfl, hd, hdot⟩
  · simp [normGo]
  · have hst : u.start d = false := by
      unfold Uni.word at hd; unfold Uni.start
      simp at hd; simp [hd.1.1, hd.2]
    simp [normGo, hd, hdot, hst]

theorem normGo_qual (u : Uni) {w s : Str} (hw : Word u w) : normGo u [] (w ++ '.' :: s) = normGo u [] s := by
  obtain ⟨c, r, rfl, hc, hall⟩ := hw
  simp only [List.cons_append, normGo, hc, if_true]
  rw [normGo_pend u r (fun x hx => hall x (by simp [hx]))]
  have := (punct u (c := '.') (by decide)).1
  simp [normGo, this]

theorem normGo_plain (u : Uni) {c : Char} {s : Str} (h : c ∈ ".,()[]{}* ".toList) : normGo u [] (c :: s) = c :: normGo u [] s := by
  simp [normGo, (punct u h).2]

theorem normGo_digits (u : Uni) (d s : Str) (h : ∀ c ∈ d, c ∈ "0123456789".toList) : normGo u [] (d ++ s) = d ++ normGo u [] s := by
  induction d with
  | nil => rfl
  | cons c d ih =>
    have hc := h c (by simp)
    have h1 := u.digits c hc
    have h2 : (c == '_') = false := by
      have hc : c = '0' ∨ c = '1' ∨ c = '2' ∨ c = '3' ∨ c = '4' ∨ c = '5' ∨ c = '6' ∨ c = '7' ∨ c = '8' ∨ c = '9' := by simpa using hc
      rcases hc with h | h | h | h | h | h | h | h | h | h <;> subst h <;> decide
    have h3 : u.start c = false := by simp [Uni.start, h1, h2]
    simp only [List.cons_append, normGo, h3]
    rw [ih (fun x hx => h x (by simp [hx]))]
    simp

theorem kw (u : Uni) {w : Str} (h : w ≠ []) (ha : ∀ c ∈ w, c ∈ "abcdefghijklmnopqrstuvwxyz".toList) : Word u w := by
  cases w with
  | nil => exact absurd rfl h
  | cons c r =>
    refine ⟨c, r, rfl, by simp [Uni.start, u.ascii c (ha c (by simp))], fun x hx => by simp [Uni.word, u.ascii x (ha x hx)]⟩

theorem ends_plain (u : Uni) {c : Char} {s : Str} (h : c ∈ ".,()[]{}* ".toList) (hd : c ≠ '.') : Ends u (c :: s) :=
  .inr ⟨c, s, rfl, (punct u h).1, hd⟩

theorem trimStar_word (u : Uni) {w : Str} (h : Word u w) : trimStar w = w := by
  obtain ⟨c, r, rfl, hc, -⟩ := h
  unfold trimStar
  split
  · rename_i h; injection h with h1 h2
    subst h1; rw [(punct u (c := '*') (by decide)).2] at hc; exact absurd hc (by decide)
  · rfl

/-- Texts that normalize to the texts of types, one by one. -/
inductive Reads (u : Uni) : List Str → List Ty → Prop
  | nil : Reads u [] []
  | cons {x t xs ts} : (∀ s, Ends u s → normGo u [] (x ++ s) = showTy t ++ normGo u [] s) → Reads u xs ts → Reads u (x :: xs) (t :: ts)

theorem Reads.append {u : Uni} {a b c d} (h : Reads u a b) (h' : Reads u c d) : Reads u (a ++ c) (b ++ d) := by
  induction h with
  | nil => exact h'
  | cons hx _ ih => exact .cons hx ih

theorem Reads.replicate {u : Uni} {x t} (h : ∀ s, Ends u s → normGo u [] (x ++ s) = showTy t ++ normGo u [] s) (n : Nat) :
    Reads u (List.replicate n x) (List.replicate n t) := by
  induction n with
  | zero => exact .nil
  | succ n ih => exact .cons h ih

theorem norm_join {u : Uni} {xs ts} (h : Reads u xs ts) : ∀ s, Ends u s →
    normGo u [] (joinComma xs ++ s) = joinComma (showAll ts) ++ normGo u [] s := by
  induction h with
  | nil => intro s _; simp [joinComma, showAll]
  | @cons x t xs ts hx hr ih =>
    intro s hs
    cases hr with
    | nil => simpa [joinComma, showAll] using hx s hs
    | @cons y t' xs ts hy hr =>
      have e2 : ", ".toList = [',', ' '] := rfl
      have := ih s hs
      simp only [joinComma, showAll, e2, List.cons_append, List.append_assoc, List.nil_append] at this ⊢
      rw [hx _ (ends_plain u (by decide) (by decide)), normGo_plain u (by decide), normGo_plain u (by decide), this]

theorem norm_ident (u : Uni) (al : Aliases) {p n tp s} (h : tp = []) (ha : al p n = none) (hw : Word u n) (hs : Ends u s) :
    normGo u [] (render (.ident p n tp) ++ s) = showTy (denote al (.ident p n tp)) ++ normGo u [] s := by
  subst h
  simp only [render, identType, denote, nameTy, ha, showTy, List.append_nil, Option.getD_none]
  exact normGo_word u hw hs

theorem norm_sel (u : Uni) (al : Aliases) {p pn n s} (ha : al (some p) n = none) (hp : Word u pn) (hw : Word u n) (hs : Ends u s) :
    normGo u [] (render (.sel p pn n) ++ s) = showTy (denote al (.sel p pn n)) ++ normGo u [] s := by
  simp only [render, denote, nameTy, ha, showTy, trimStar_word u hp, List.append_assoc, List.cons_append, Option.getD_none]
  rw [normGo_qual u hp, normGo_word u hw hs]

mutual
theorem norm_render (u : Uni) (al : Aliases) : ∀ (e : TE), Plain u al e → ∀ s, Ends u s →
    normGo u [] (render e ++ s) = showTy (denote al e) ++ normGo u [] s
  | .ident p n tp, h, s, hs => norm_ident u al h.1 h.2.1 h.2.2 hs
  | .sel p pn n, h, s, hs => norm_sel u al h.1 h.2.1 h.2.2 hs
  | .star e, h, s, hs => by
    simp only [render, denote, showTy, List.cons_append]
    rw [normGo_plain u (by decide), norm_render u al e h s hs]
  | .array .none e, h, s, hs => by
    simp only [render, lenValue, denote, showTy, List.cons_append, List.nil_append]
    rw [normGo_plain u (by decide), normGo_plain u (by decide), norm_render u al e h s hs]
  | .array (.lit d) e, h, s, hs => by
    simp only [render, lenValue, denote, showTy, List.cons_append, List.append_assoc]
    rw [normGo_plain u (by decide), normGo_digits u d _ h.1.2, normGo_plain u (by decide), norm_render u al e h.2 s hs]
  | .map k v, h, s, hs => by
    have e1 : kMap = "map".toList ++ ['['] := rfl
    simp only [render, denote, showTy, List.cons_append, List.append_assoc, e1, List.nil_append]
    rw [normGo_word u (kw u (by decide) (by decide)) (ends_plain u (by decide) (by decide)), normGo_plain u (by decide),
      norm_render u al k h.1 _ (ends_plain u (by decide) (by decide)), normGo_plain u (by decide), norm_render u al v h.2 s hs]
  | .chan d e, h, s, hs => by
    have e1 : kChan = "chan".toList ++ [' '] := rfl
    simp only [render, denote, showTy, List.cons_append, List.append_assoc, e1, List.nil_append]
    rw [normGo_word u (kw u (by decide) (by decide)) (ends_plain u (by decide) (by decide)), normGo_plain u (by decide),
      norm_render u al e h.2 s hs]
  | .ellipsis e, h, s, hs => by
    have e1 : kDots = ['.', '.', '.'] := rfl
    simp only [render, denote, showTy, List.cons_append, e1, List.nil_append]
    rw [normGo_plain u (by decide), normGo_plain u (by decide), normGo_plain u (by decide), norm_render u al e h s hs]
  | .emptyIface, _, s, hs => by
    have e1 : kIface = "interface".toList ++ ['{', '}'] := rfl
    simp only [render, denote, showTy, List.cons_append, List.append_assoc, e1, List.nil_append]
    rw [normGo_word u (kw u (by decide) (by decide)) (ends_plain u (by decide) (by decide)), normGo_plain u (by decide),
      normGo_plain u (by decide)]
  | .func ps rs, h, s, hs => by
    have e1 : kFunc = "func".toList ++ ['('] := rfl
    have e2 : kClose = [')', ' '] := rfl
    simp only [render, denote, showTy, List.cons_append, List.append_assoc, e1, e2, List.nil_append]
    rw [normGo_word u (kw u (by decide) (by decide)) (ends_plain u (by decide) (by decide)), normGo_plain u (by decide),
      norm_join (reads_params u al ps h.1) _ (ends_plain u (by decide) (by decide)), normGo_plain u (by decide), normGo_plain u (by decide),
      norm_join (reads_results u al rs h.2.1 h.2.2) s hs]
theorem reads_params (u : Uni) (al : Aliases) : ∀ (f : Fields), PlainAll u al f → Reads u (renderParams f) (denoteAll al f)
  | .nil, _ => .nil
  | .cons n e r, h => by
    have hn : (if n = 0 then 1 else n) = max n 1 := by split <;> omega
    simp only [renderParams, denoteAll, hn]
    exact (Reads.replicate (norm_render u al e h.1) _).append (reads_params u al r h.2)
theorem reads_results (u : Uni) (al : Aliases) : ∀ (f : Fields), PlainAll u al f → Single f → Reads u (renderResults f) (denoteAll al f)
  | .nil, _, _ => .nil
  | .cons n e r, h, hs => by
    have hn : max n 1 = 1 := by have := hs.1; omega
    simp only [renderResults, denoteAll, hn, List.replicate_one, List.singleton_append]
    exact .cons (norm_render u al e h.1) (reads_results u al r h.2 hs.2)
end

theorem norm_sig (u : Uni) (al : Aliases) {s : Sig} (h : PlainSig u al s) :
    norm u s.str = showTy (.func (denoteAll al s.params) (denoteAll al s.results)) := by
  have := norm_render u al (.func s.params s.results) h [] (.inl rfl)
  simpa [norm, Sig.str, denote, normGo] using this

/-! ## Reading a text back -/

mutual
/-- The type without the packages of its names. -/
def erase : Ty → Ty
  | .name _ n => .name none n
  | .ptr t => .ptr (erase t)
  | .slice t => .slice (erase t)
  | .array d t => .array d (erase t)
  | .map k v => .map (erase k) (erase v)
  | .chan d t => .chan d (erase t)
  | .variadic t => .variadic (erase t)
  | .any => .any
  | .app t as => .app (erase t) (eraseAll as)
  | .func ps rs => .func (eraseAll ps) (eraseAll rs)
def eraseAll : List Ty → List Ty
  | [] => []
  | t :: ts => erase t :: eraseAll ts
end

mutual
def Readable (u : Uni) : Ty → Prop
  | .name _ n => Word u n
  | .ptr t => Readable u t
  | .slice t => Readable u t
  | .array d t => Decimal d ∧ Readable u t
  | .map k v => Readable u k ∧ Readable u v
  | .chan d t => d = .both ∧ Readable u t
  | .variadic t => Readable u t
  | .any => True
  | .app _ _ => False
  | .func ps rs => ReadableAll u ps ∧ ReadableAll u rs ∧ rs.length ≤ 1
def ReadableAll (u : Uni) : List Ty → Prop
  | [] => True
  | t :: ts => Readable u t ∧ ReadableAll u ts
end

/-- What may follow a type. -/
def Stop (s : Str) : Prop := s = [] ∨ ∃ c r, s = c :: r ∧ (c = ',' ∨ c = ')' ∨ c = ']')

theorem stop_word (u : Uni) {c : Char} (h : c = ',' ∨ c = ')' ∨ c = ']') : u.word c = false := by
  rcases h with rfl | rfl | rfl <;> exact (punct u (by decide)).1

/-- A word followed by something that ends it is not a keyword followed by a bracket. -/
theorem word_not_kw (u : Uni) (k : Str) (c : Char) (x : Str) (hk : ∀ a ∈ k, u.word a = true) (hc : u.word c = false)
    (hc' : ¬ (c = ',' ∨ c = ')' ∨ c = ']')) : ∀ (n s : Str), (∀ a ∈ n, u.word a = true) → Stop s → n ++ s ≠ k ++ c :: x := by
  induction k with
  | nil =>
    intro n s hn hs h
    cases n with
    | nil =>
      rcases hs with rfl | ⟨d, r, rfl, hd⟩
      · simp at h
      · simp at h; exact hc' (h.1 ▸ hd)
    | cons a n =>
      simp at h
      have := hn a (by simp); rw [h.1, hc] at this; exact absurd this (by decide)
  | cons b k ih =>
    intro n s hn hs h
    cases n with
    | nil =>
      rcases hs with rfl | ⟨d, r, rfl, hd⟩
      · simp at h
      · simp at h
        have := hk b (by simp); rw [← h.1, stop_word u hd] at this; exact absurd this (by decide)
    | cons a n =>
      simp at h
      exact ih (fun a ha => hk a (by simp [ha])) n s (fun a ha => hn a (by simp [ha])) hs h.2

theorem word_eq (u : Uni) : ∀ (n m s r : Str), (∀ a ∈ n, u.word a = true) → (∀ a ∈ m, u.word a = true) → Stop s → Stop r →
    n ++ s = m ++ r → n = m ∧ s = r := by
  intro n
  induction n with
  | nil =>
    intro m s r _ hm hs hr h
    cases m with
    | nil => exact ⟨rfl, h⟩
    | cons a m =>
      rcases hs with rfl | ⟨d, t, rfl, hd⟩
      · simp at h
      · simp at h
        have := hm a (by simp); rw [← h.1, stop_word u hd] at this; exact absurd this (by decide)
  | cons b n ih =>
    intro m s r hn hm hs hr h
    cases m with
    | nil =>
      rcases hr with rfl | ⟨d, t, rfl, hd⟩
      · simp at h
      · simp at h
        have := hn b (by simp); rw [h.1, stop_word u hd] at this; exact absurd this (by decide)
    | cons a m =>
      simp at h
      obtain ⟨h1, h2⟩ := ih m s r (fun a ha => hn a (by simp [ha])) (fun a ha => hm a (by simp [ha])) hs hr h.2
      exact ⟨by rw [h.1, h1], h2⟩

theorem decimal_eq : ∀ (d e x y : Str), (∀ c ∈ d, c ∈ "0123456789".toList) → (∀ c ∈ e, c ∈ "0123456789".toList) →
    d ++ ']' :: x = e ++ ']' :: y → d = e ∧ x = y := by
  intro d
  induction d with
  | nil =>
    intro e x y _ he h
    cases e with
    | nil => simpa using h
    | cons a e => simp at h; have := he a (by simp); rw [← h.1] at this; exact absurd this (by decide)
  | cons b d ih =>
    intro e x y hd he h
    cases e with
    | nil => simp at h; have := hd b (by simp); rw [h.1] at this; exact absurd this (by decide)
    | cons a e =>
      simp at h
      obtain ⟨h1, h2⟩ := ih e x y (fun a ha => hd a (by simp [ha])) (fun a ha => he a (by simp [ha])) h.2
      exact ⟨by rw [h.1, h1], h2⟩

theorem hMap : kMap = ['m', 'a', 'p', '['] := rfl
theorem hChan : kChan = ['c', 'h', 'a', 'n', ' '] := rfl
theorem hDots : kDots = ['.', '.', '.'] := rfl
theorem hIface : kIface = ['i', 'n', 't', 'e', 'r', 'f', 'a', 'c', 'e', '{', '}'] := rfl
theorem hFunc : kFunc = ['f', 'u', 'n', 'c', '('] := rfl
theorem hClose : kClose = [')', ' '] := rfl

/-- The first character of a type is none of those that may follow a type. -/
theorem show_head (u : Uni) (t : Ty) (h : Readable u t) : ∃ c r, showTy t = c :: r ∧ ¬ (c = ',' ∨ c = ')' ∨ c = ']') ∧ c ≠ ' ' := by
  cases t with
  | name p n =>
    simp only [Readable] at h
    obtain ⟨c, r, rfl, hc, -⟩ := h
    refine ⟨c, r, by simp only [showTy], ?_, ?_⟩
    · rintro (rfl | rfl | rfl) <;> (rw [(punct u (by decide)).2] at hc; exact absurd hc (by decide))
    · rintro rfl; rw [(punct u (by decide)).2] at hc; exact absurd hc (by decide)
  | ptr t => simp only [showTy]; exact ⟨'*', _, rfl, by decide, by decide⟩
  | slice t => simp only [showTy]; exact ⟨'[', _, rfl, by decide, by decide⟩
  | array d t => simp only [showTy]; exact ⟨'[', _, rfl, by decide, by decide⟩
  | map k v => simp only [showTy, hMap]; exact ⟨'m', _, rfl, by decide, by decide⟩
  | chan d t => simp only [showTy, hChan]; exact ⟨'c', _, rfl, by decide, by decide⟩
  | variadic t => simp only [showTy, hDots]; exact ⟨'.', _, rfl, by decide, by decide⟩
  | any => simp only [showTy, hIface]; exact ⟨'i', _, rfl, by decide, by decide⟩
  | app t as => simp only [Readable] at h
  | func ps rs => simp only [showTy, hFunc]; exact ⟨'f', _, rfl, by decide, by decide⟩

theorem show_not_stop (u : Uni) {t : Ty} (h : Readable u t) {x s : Str} (hs : Stop s) : showTy t ++ x ≠ s := by
  obtain ⟨c, r, hc, h1, -⟩ := show_head u t h
  rw [hc]
  rcases hs with rfl | ⟨d, q, rfl, hd⟩
  · simp
  · intro h; simp at h; exact h1 (h.1 ▸ hd)

theorem lower_word (u : Uni) {w : Str} (h : ∀ c ∈ w, c ∈ "abcdefghijklmnopqrstuvwxyz".toList) : ∀ a ∈ w, u.word a = true :=
  fun a ha => by simp [Uni.word, u.ascii a (h a ha)]

theorem eMap : kMap = "map".toList ++ ['['] := rfl
theorem eChan : kChan = "chan".toList ++ [' '] := rfl
theorem eIface : kIface = "interface".toList ++ ['{', '}'] := rfl
theorem eFunc : kFunc = "func".toList ++ ['('] := rfl

/-- A name is no other type. -/
theorem name_only (u : Uni) {n s r : Str} {t : Ty} (hn : Word u n) (ht : Readable u t) (hs : Stop s) (h : n ++ s = showTy t ++ r) :
    ∃ p m, t = .name p m := by
  have hall := hn
  obtain ⟨c, n', rfl, hc, hw⟩ := hn
  cases t with
  | name p m => exact ⟨p, m, rfl⟩
  | ptr t => simp [showTy] at h; rw [h.1, (punct u (by decide)).2] at hc; exact absurd hc (by decide)
  | slice t => simp [showTy] at h; rw [h.1, (punct u (by decide)).2] at hc; exact absurd hc (by decide)
  | array d t => simp [showTy] at h; rw [h.1, (punct u (by decide)).2] at hc; exact absurd hc (by decide)
  | variadic t => simp [showTy, hDots] at h; rw [h.1, (punct u (by decide)).2] at hc; exact absurd hc (by decide)
  | app t as => simp only [Readable] at ht
  | map k v =>
    simp only [showTy, eMap, List.append_assoc] at h
    exact absurd h (word_not_kw u _ _ _ (lower_word u (by decide)) (punct u (by decide)).1 (by decide) _ _ hw hs)
  | chan d t =>
    simp only [showTy, eChan, List.append_assoc] at h
    exact absurd h (word_not_kw u _ _ _ (lower_word u (by decide)) (punct u (by decide)).1 (by decide) _ _ hw hs)
  | any =>
    simp only [showTy, eIface, List.append_assoc] at h
    exact absurd h (word_not_kw u _ _ _ (lower_word u (by decide)) (punct u (by decide)).1 (by decide) _ _ hw hs)
  | func ps rs =>
    simp only [showTy, eFunc, List.append_assoc] at h
    exact absurd h (word_not_kw u _ _ _ (lower_word u (by decide)) (punct u (by decide)).1 (by decide) _ _ hw hs)

theorem Stop.bracket (x : Str) : Stop (']' :: x) := .inr ⟨_, _, rfl, by decide⟩
theorem Stop.comma (x : Str) : Stop (',' :: x) := .inr ⟨_, _, rfl, by decide⟩
theorem Stop.paren (x : Str) : Stop (')' :: x) := .inr ⟨_, _, rfl, by decide⟩

/-- What may follow a list of types. -/
def Close (s : Str) : Prop := s = [] ∨ ∃ c r, s = c :: r ∧ (c = ')' ∨ c = ']')

theorem Close.stop {s : Str} (h : Close s) : Stop s := by
  rcases h with h | ⟨c, r, h, h1 | h1⟩
  · exact .inl h
  · exact .inr ⟨c, r, h, .inr (.inl h1)⟩
  · exact .inr ⟨c, r, h, .inr (.inr h1)⟩

theorem Close.not_comma {s x : Str} (h : Close s) : s ≠ ',' :: x := by
  rcases h with rfl | ⟨c, r, rfl, rfl | rfl⟩ <;> simp

theorem jc (x y : Str) (r : List Str) : joinComma (x :: y :: r) = x ++ ',' :: ' ' :: joinComma (y :: r) := by
  have : ", ".toList = [',', ' '] := rfl
  simp [joinComma, this]

mutual
theorem read (u : Uni) : ∀ (t t' : Ty), Readable u t → Readable u t' → ∀ s r, Stop s → Stop r → showTy t ++ s = showTy t' ++ r →
    erase t = erase t' ∧ s = r
  | .name p n, t', h, h', s, r, hs, hr, he => by
    simp only [Readable] at h
    simp only [showTy] at he
    obtain ⟨q, m, rfl⟩ := name_only u h h' hs he
    simp only [Readable] at h'
    simp only [showTy] at he
    obtain ⟨_, _, _, _, hw⟩ := h
    obtain ⟨_, _, _, _, hw'⟩ := h'
    obtain ⟨h1, h2⟩ := word_eq u _ _ _ _ hw hw' hs hr he
    simp only [erase, h1, h2, and_self]
  | .ptr t, t', h, h', s, r, hs, hr, he => by
    cases t' with
    | ptr t' =>
      simp only [Readable] at h h'
      simp only [showTy, List.cons_append, List.cons.injEq, true_and] at he
      obtain ⟨h1, h2⟩ := read u t t' h h' s r hs hr he
      simp only [erase, h1, h2, and_self]
    | name p n => simp only [Readable] at h'; simp only [showTy] at he; obtain ⟨_, _, h3⟩ := name_only u (t := t.ptr) h' h hr (by simp only [showTy]; exact he.symm); cases h3
    | app t as => simp only [Readable] at h'
    | _ => simp [showTy, hMap, hChan, hDots, hIface, hFunc] at he
  | .slice t, t', h, h', s, r, hs, hr, he => by
    cases t' with
    | slice t' =>
      simp only [Readable] at h h'
      simp only [showTy, List.cons_append, List.cons.injEq, true_and] at he
      obtain ⟨h1, h2⟩ := read u t t' h h' s r hs hr he
      simp only [erase, h1, h2, and_self]
    | array d t' =>
      simp only [Readable] at h'
      obtain ⟨⟨h1, h2⟩, _⟩ := h'
      cases d with
      | nil => exact absurd rfl h1
      | cons c d =>
        simp [showTy] at he
        have := h2 c (by simp); rw [← he.1] at this; exact absurd this (by decide)
    | name p n => simp only [Readable] at h'; simp only [showTy] at he; obtain ⟨_, _, h3⟩ := name_only u (t := t.slice) h' h hr (by simp only [showTy]; exact he.symm); cases h3
    | app t as => simp only [Readable] at h'
    | _ => simp [showTy, hMap, hChan, hDots, hIface, hFunc] at he
  | .array d t, t', h, h', s, r, hs, hr, he => by
    cases t' with
    | array d' t' =>
      simp only [Readable] at h h'
      simp only [showTy, List.cons_append, List.append_assoc, List.cons.injEq, true_and] at he
      obtain ⟨h0, he⟩ := decimal_eq _ _ _ _ h.1.2 h'.1.2 he
      obtain ⟨h1, h2⟩ := read u t t' h.2 h'.2 s r hs hr he
      simp only [erase, h0, h1, h2, and_self]
    | slice t' =>
      simp only [Readable] at h
      obtain ⟨⟨h1, h2⟩, _⟩ := h
      cases d with
      | nil => exact absurd rfl h1
      | cons c d =>
        simp [showTy] at he
        have := h2 c (by simp); rw [he.1] at this; exact absurd this (by decide)
    | name p n => simp only [Readable] at h'; simp only [showTy] at he; obtain ⟨_, _, h3⟩ := name_only u (t := .array d t) h' h hr (by simp only [showTy]; exact he.symm); cases h3
    | app t as => simp only [Readable] at h'
    | _ => simp [showTy, hMap, hChan, hDots, hIface, hFunc] at he
  | .map k v, t', h, h', s, r, hs, hr, he => by
    cases t' with
    | map k' v' =>
      simp only [Readable] at h h'
      simp only [showTy, List.cons_append, List.append_assoc] at he
      have he := List.append_cancel_left he
      obtain ⟨h1, h2⟩ := read u k k' h.1 h'.1 _ _ (Stop.bracket _) (Stop.bracket _) he
      simp only [List.cons.injEq, true_and] at h2
      obtain ⟨h3, h4⟩ := read u v v' h.2 h'.2 s r hs hr h2
      simp only [erase, h1, h3, h4, and_self]
    | name p n => simp only [Readable] at h'; simp only [showTy] at he; obtain ⟨_, _, h3⟩ := name_only u (t := .map k v) h' h hr (by simp only [showTy]; exact he.symm); cases h3
    | app t as => simp only [Readable] at h'
    | _ => simp [showTy, hMap, hChan, hDots, hIface, hFunc] at he
  | .chan d t, t', h, h', s, r, hs, hr, he => by
    cases t' with
    | chan d' t' =>
      simp only [Readable] at h h'
      simp only [showTy, List.append_assoc] at he
      have he := List.append_cancel_left he
      obtain ⟨h1, h2⟩ := read u t t' h.2 h'.2 s r hs hr he
      simp only [erase, h.1, h'.1, h1, h2, and_self]
    | name p n => simp only [Readable] at h'; simp only [showTy] at he; obtain ⟨_, _, h3⟩ := name_only u (t := .chan d t) h' h hr (by simp only [showTy]; exact he.symm); cases h3
    | app t as => simp only [Readable] at h'
    | _ => simp [showTy, hMap, hChan, hDots, hIface, hFunc] at he
  | .variadic t, t', h, h', s, r, hs, hr, he => by
    cases t' with
    | variadic t' =>
      simp only [Readable] at h h'
      simp only [showTy, List.append_assoc] at he
      have he := List.append_cancel_left he
      obtain ⟨h1, h2⟩ := read u t t' h h' s r hs hr he
      simp only [erase, h1, h2, and_self]
    | name p n => simp only [Readable] at h'; simp only [showTy] at he; obtain ⟨_, _, h3⟩ := name_only u (t := .variadic t) h' h hr (by simp only [showTy]; exact he.symm); cases h3
    | app t as => simp only [Readable] at h'
    | _ => simp [showTy, hMap, hChan, hDots, hIface, hFunc] at he
  | .any, t', h, h', s, r, hs, hr, he => by
    cases t' with
    | any =>
      simp only [showTy] at he
      exact ⟨rfl, List.append_cancel_left he⟩
    | name p n => simp only [Readable] at h'; simp only [showTy] at he; obtain ⟨_, _, h3⟩ := name_only u (t := .any) h' h hr (by simp only [showTy]; exact he.symm); cases h3
    | app t as => simp only [Readable] at h'
    | _ => simp [showTy, hMap, hChan, hDots, hIface, hFunc] at he
  | .app t as, _, h, _, _, _, _, _, _ => by simp only [Readable] at h
  | .func ps rs, t', h, h', s, r, hs, hr, he => by
    cases t' with
    | func ps' rs' =>
      simp only [Readable] at h h'
      simp only [showTy, List.append_assoc] at he
      have he := List.append_cancel_left he
      have e2 : ∀ x : Str, kClose ++ x = ')' :: ' ' :: x := fun x => by rw [hClose]; rfl
      rw [e2, e2] at he
      obtain ⟨h1, h2⟩ := readAll u ps ps' h.1 h'.1 _ _ (.inr ⟨_, _, rfl, .inl rfl⟩) (.inr ⟨_, _, rfl, .inl rfl⟩) he
      simp only [List.cons.injEq, true_and] at h2
      obtain ⟨h3, h4⟩ := readOne u rs rs' h.2.1 h'.2.1 h.2.2 h'.2.2 s r hs hr h2
      simp only [erase, h1, h3, h4, and_self]
    | name p n => simp only [Readable] at h'; simp only [showTy] at he; obtain ⟨_, _, h3⟩ := name_only u (t := .func ps rs) h' h hr (by simp only [showTy]; exact he.symm); cases h3
    | app t as => simp only [Readable] at h'
    | _ => simp [showTy, hMap, hChan, hDots, hIface, hFunc] at he
theorem readAll (u : Uni) : ∀ (ts ts' : List Ty), ReadableAll u ts → ReadableAll u ts' → ∀ s r, Close s → Close r →
    joinComma (showAll ts) ++ s = joinComma (showAll ts') ++ r → eraseAll ts = eraseAll ts' ∧ s = r
  | [], ts', _, h', s, r, hs, hr, he => by
    cases ts' with
    | nil => simpa [joinComma, showAll, eraseAll] using he
    | cons t' ts' =>
      exfalso
      simp only [ReadableAll] at h'
      cases ts' with
      | nil => simp [joinComma, showAll] at he; exact show_not_stop u h'.1 hs.stop he.symm
      | cons =>
        simp only [showAll, jc, List.append_assoc, List.cons_append] at he
        have e0 : joinComma [] ++ s = s := rfl
        rw [e0] at he
        exact show_not_stop u h'.1 hs.stop he.symm
  | [t], ts', h, h', s, r, hs, hr, he => by
    simp only [ReadableAll] at h
    cases ts' with
    | nil => exfalso; simp [joinComma, showAll] at he; exact show_not_stop u h.1 hr.stop he
    | cons t' ts' =>
      simp only [ReadableAll] at h'
      cases ts' with
      | nil =>
        simp only [joinComma, showAll] at he
        obtain ⟨h1, h2⟩ := read u t t' h.1 h'.1 s r hs.stop hr.stop he
        simp only [eraseAll, h1, h2, and_self]
      | cons a as =>
        simp only [showAll, jc, List.append_assoc, List.cons_append] at he
        simp only [joinComma] at he
        obtain ⟨h1, h2⟩ := read u t t' h.1 h'.1 s _ hs.stop (Stop.comma _) he
        exact absurd h2 hs.not_comma
  | t :: a :: as, ts', h, h', s, r, hs, hr, he => by
    simp only [ReadableAll] at h
    cases ts' with
    | nil =>
      exfalso
      simp only [showAll, jc, List.append_assoc, List.cons_append] at he
      simp only [joinComma, List.nil_append] at he
      exact show_not_stop u h.1 hr.stop he
    | cons t' ts' =>
      simp only [ReadableAll] at h'
      cases ts' with
      | nil =>
        simp only [showAll, jc, List.append_assoc, List.cons_append] at he
        simp only [joinComma] at he
        obtain ⟨h1, h2⟩ := read u t t' h.1 h'.1 _ r (Stop.comma _) hr.stop he
        exact absurd h2.symm hr.not_comma
      | cons a' as' =>
        simp only [showAll, jc, List.append_assoc, List.cons_append] at he
        obtain ⟨h1, h2⟩ := read u t t' h.1 h'.1 _ _ (Stop.comma _) (Stop.comma _) he
        simp only [List.cons.injEq, true_and] at h2
        have h2 : joinComma (showAll (a :: as)) ++ s = joinComma (showAll (a' :: as')) ++ r := by simp only [showAll]; exact h2
        obtain ⟨h3, h4⟩ := readAll u (a :: as) (a' :: as') (by simp only [ReadableAll]; exact h.2) (by simp only [ReadableAll]; exact h'.2) s r hs hr h2
        simp only [eraseAll] at h3 ⊢
        simp only [h1, h3, h4, and_self]
theorem readOne (u : Uni) : ∀ (ts ts' : List Ty), ReadableAll u ts → ReadableAll u ts' → ts.length ≤ 1 → ts'.length ≤ 1 → ∀ s r, Stop s → Stop r →
    joinComma (showAll ts) ++ s = joinComma (showAll ts') ++ r → eraseAll ts = eraseAll ts' ∧ s = r
  | [], ts', _, h', _, hl', s, r, hs, hr, he => by
    cases ts' with
    | nil => simpa [joinComma, showAll, eraseAll] using he
    | cons t' ts' =>
      cases ts' with
      | cons => simp at hl'
      | nil =>
        exfalso
        simp only [ReadableAll] at h'
        simp [joinComma, showAll] at he; exact show_not_stop u h'.1 hs he.symm
  | [t], ts', h, h', _, hl', s, r, hs, hr, he => by
    simp only [ReadableAll] at h
    cases ts' with
    | nil => exfalso; simp [joinComma, showAll] at he; exact show_not_stop u h.1 hr he
    | cons t' ts' =>
      cases ts' with
      | cons => simp at hl'
      | nil =>
        simp only [ReadableAll] at h'
        simp only [joinComma, showAll] at he
        obtain ⟨h1, h2⟩ := read u t t' h.1 h'.1 s r hs hr he
        simp only [eraseAll, h1, h2, and_self]
  | _ :: _ :: _, _, _, _, hl, _, _, _, _, _, _ => by simp at hl
end

mutual
theorem erase_inj : ∀ (t t' : Ty) (q : Option Str → Str → Prop), (∀ a b n, q a n → q b n → a = b) → (∀ p n, Mentions t p n → q p n) →
    (∀ p n, Mentions t' p n → q p n) → erase t = erase t' → t = t'
  | .name p n, t', q, hq, h, h', he => by
    cases t' with
    | name p' n' =>
      simp only [erase, Ty.name.injEq, true_and] at he
      subst he
      rw [hq _ _ _ (h p n (by simp only [Mentions, and_self])) (h' p' n (by simp only [Mentions, and_self]))]
    | _ => simp [erase] at he
  | .ptr t, t', q, hq, h, h', he => by
    cases t' with
    | ptr t' =>
      simp only [erase, Ty.ptr.injEq] at he
      simp only [Mentions] at h h'
      rw [erase_inj t t' q hq h h' he]
    | _ => simp [erase] at he
  | .slice t, t', q, hq, h, h', he => by
    cases t' with
    | slice t' =>
      simp only [erase, Ty.slice.injEq] at he
      simp only [Mentions] at h h'
      rw [erase_inj t t' q hq h h' he]
    | _ => simp [erase] at he
  | .array d t, t', q, hq, h, h', he => by
    cases t' with
    | array d' t' =>
      simp only [erase, Ty.array.injEq] at he
      simp only [Mentions] at h h'
      rw [he.1, erase_inj t t' q hq h h' he.2]
    | _ => simp [erase] at he
  | .map k v, t', q, hq, h, h', he => by
    cases t' with
    | map k' v' =>
      simp only [erase, Ty.map.injEq] at he
      simp only [Mentions] at h h'
      rw [erase_inj k k' q hq (fun p n hm => h p n (.inl hm)) (fun p n hm => h' p n (.inl hm)) he.1,
        erase_inj v v' q hq (fun p n hm => h p n (.inr hm)) (fun p n hm => h' p n (.inr hm)) he.2]
    | _ => simp [erase] at he
  | .chan d t, t', q, hq, h, h', he => by
    cases t' with
    | chan d' t' =>
      simp only [erase, Ty.chan.injEq] at he
      simp only [Mentions] at h h'
      rw [he.1, erase_inj t t' q hq h h' he.2]
    | _ => simp [erase] at he
  | .variadic t, t', q, hq, h, h', he => by
    cases t' with
    | variadic t' =>
      simp only [erase, Ty.variadic.injEq] at he
      simp only [Mentions] at h h'
      rw [erase_inj t t' q hq h h' he]
    | _ => simp [erase] at he
  | .any, t', _, _, _, _, he => by
    cases t' with
    | any => rfl
    | _ => simp [erase] at he
  | .app t as, t', q, hq, h, h', he => by
    cases t' with
    | app t' as' =>
      simp only [erase, Ty.app.injEq] at he
      simp only [Mentions] at h h'
      rw [erase_inj t t' q hq (fun p n hm => h p n (.inl hm)) (fun p n hm => h' p n (.inl hm)) he.1,
        eraseAll_inj as as' q hq (fun p n hm => h p n (.inr hm)) (fun p n hm => h' p n (.inr hm)) he.2]
    | _ => simp [erase] at he
  | .func ps rs, t', q, hq, h, h', he => by
    cases t' with
    | func ps' rs' =>
      simp only [erase, Ty.func.injEq] at he
      simp only [Mentions] at h h'
      rw [eraseAll_inj ps ps' q hq (fun p n hm => h p n (.inl hm)) (fun p n hm => h' p n (.inl hm)) he.1,
        eraseAll_inj rs rs' q hq (fun p n hm => h p n (.inr hm)) (fun p n hm => h' p n (.inr hm)) he.2]
    | _ => simp [erase] at he
theorem eraseAll_inj : ∀ (ts ts' : List Ty) (q : Option Str → Str → Prop), (∀ a b n, q a n → q b n → a = b) → (∀ p n, MentionsAny ts p n → q p n) →
    (∀ p n, MentionsAny ts' p n → q p n) → eraseAll ts = eraseAll ts' → ts = ts'
  | [], ts', _, _, _, _, he => by
    cases ts' with
    | nil => rfl
    | cons => simp [eraseAll] at he
  | t :: ts, ts', q, hq, h, h', he => by
    cases ts' with
    | nil => simp [eraseAll] at he
    | cons t' ts' =>
      simp only [eraseAll, List.cons.injEq] at he
      simp only [MentionsAny] at h h'
      rw [erase_inj t t' q hq (fun p n hm => h p n (.inl hm)) (fun p n hm => h' p n (.inl hm)) he.1,
        eraseAll_inj ts ts' q hq (fun p n hm => h p n (.inr hm)) (fun p n hm => h' p n (.inr hm)) he.2]
end

theorem readableAll_append (u : Uni) : ∀ (a b : List Ty), ReadableAll u a → ReadableAll u b → ReadableAll u (a ++ b)
  | [], _, _, h => h
  | _ :: as, b, h, h' => by
    simp only [List.cons_append, ReadableAll] at h ⊢
    exact ⟨h.1, readableAll_append u as b h.2 h'⟩

theorem readableAll_replicate (u : Uni) {t : Ty} (h : Readable u t) : ∀ n, ReadableAll u (List.replicate n t)
  | 0 => by simp only [List.replicate_zero, ReadableAll]
  | n + 1 => by simp only [List.replicate_succ, ReadableAll]; exact ⟨h, readableAll_replicate u h n⟩

theorem oneResults_append : ∀ (a b : List Ty), OneResults (a ++ b) → OneResults a ∧ OneResults b
  | [], _, h => ⟨by simp only [OneResults], h⟩
  | _ :: as, b, h => by
    simp only [List.cons_append, OneResults] at h ⊢
    have := oneResults_append as b h.2
    exact ⟨⟨h.1, this.1⟩, this.2⟩

theorem oneResults_replicate {t : Ty} {n : Nat} (h : OneResults (List.replicate (max n 1) t)) : OneResult t := by
  have : max n 1 = (max n 1 - 1) + 1 := by omega
  rw [this, List.replicate_succ] at h
  simp only [OneResults] at h
  exact h.1

theorem mentionsAny_append (p : Option Str) (n : Str) : ∀ (a b : List Ty), MentionsAny (a ++ b) p n ↔ MentionsAny a p n ∨ MentionsAny b p n
  | [], b => by simp [MentionsAny]
  | t :: as, b => by
    simp only [List.cons_append, MentionsAny, mentionsAny_append p n as b, or_assoc]

mutual
theorem plain_readable (u : Uni) (al : Aliases) : ∀ (e : TE), Plain u al e → OneResult (denote al e) → Readable u (denote al e)
  | .ident p n tp, h, _ => by simp only [Plain] at h; simp only [denote, nameTy, h.2.1, Option.getD_none, Readable]; exact h.2.2
  | .sel p pn n, h, _ => by simp only [Plain] at h; simp only [denote, nameTy, h.1, Option.getD_none, Readable]; exact h.2.2
  | .star e, h, h' => by simp only [Plain] at h; simp only [denote, OneResult, Readable] at h' ⊢; exact plain_readable u al e h h'
  | .paren e, h, _ => by simp only [Plain] at h
  | .array .none e, h, h' => by simp only [Plain] at h; simp only [denote, OneResult, Readable] at h' ⊢; exact plain_readable u al e h h'
  | .array (.lit d) e, h, h' => by simp only [Plain] at h; simp only [denote, OneResult, Readable] at h' ⊢; exact ⟨h.1, plain_readable u al e h.2 h'⟩
  | .array (.const d) e, h, _ => by simp only [Plain] at h
  | .map k v, h, h' => by simp only [Plain] at h; simp only [denote, OneResult, Readable] at h' ⊢; exact ⟨plain_readable u al k h.1 h'.1, plain_readable u al v h.2 h'.2⟩
  | .chan d e, h, h' => by simp only [Plain] at h; simp only [denote, OneResult, Readable] at h' ⊢; exact ⟨h.1, plain_readable u al e h.2 h'⟩
  | .ellipsis e, h, h' => by simp only [Plain] at h; simp only [denote, OneResult, Readable] at h' ⊢; exact plain_readable u al e h h'
  | .emptyIface, _, _ => by simp only [denote, Readable]
  | .inst _ _, h, _ => by simp only [Plain] at h
  | .func ps rs, h, h' => by
    simp only [Plain] at h; simp only [denote, OneResult, Readable] at h' ⊢
    exact ⟨plainAll_readable u al ps h.1 h'.1, plainAll_readable u al rs h.2.1 h'.2.1, h'.2.2⟩
theorem plainAll_readable (u : Uni) (al : Aliases) : ∀ (f : Fields), PlainAll u al f → OneResults (denoteAll al f) → ReadableAll u (denoteAll al f)
  | .nil, _, _ => by simp only [denoteAll, ReadableAll]
  | .cons n e r, h, h' => by
    simp only [PlainAll] at h
    simp only [denoteAll] at h' ⊢
    have h1 := oneResults_append _ _ h'
    exact readableAll_append u _ _ (readableAll_replicate u (plain_readable u al e h.1 (oneResults_replicate h1.1)) _) (plainAll_readable u al r h.2 h1.2)
end

/-- Identical signatures, plainly written, are compared as equal. -/
theorem same_of_sameSig (u : Uni) (al : Aliases) {a b : Sig} (ha : PlainSig u al a) (hb : PlainSig u al b) (h : SameSig al a b) :
    norm u a.str = norm u b.str := by
  rw [norm_sig u al ha, norm_sig u al hb, h.1, h.2]

/-- Plainly written signatures that are compared as equal are identical. -/
theorem sameSig_of_same (u : Uni) (al : Aliases) {a b : Sig} (ha : PlainSig u al a) (hb : PlainSig u al b) (fa : FlatSig al a) (fb : FlatSig al b)
    (hu : Unambiguous al a b) (h : norm u a.str = norm u b.str) : SameSig al a b := by
  rw [norm_sig u al ha, norm_sig u al hb] at h
  simp only [showTy] at h
  have h := List.append_cancel_left h
  have e2 : ∀ x : Str, kClose ++ x = ')' :: ' ' :: x := fun x => by rw [hClose]; rfl
  rw [e2, e2] at h
  have r1 := plainAll_readable u al _ ha.1 fa.1
  have r2 := plainAll_readable u al _ hb.1 fb.1
  have r3 := plainAll_readable u al _ ha.2.1 fa.2
  have r4 := plainAll_readable u al _ hb.2.1 fb.2
  obtain ⟨h1, h2⟩ := readAll u _ _ r1 r2 _ _ (.inr ⟨_, _, rfl, .inl rfl⟩) (.inr ⟨_, _, rfl, .inl rfl⟩) h
  simp only [List.cons.injEq, true_and] at h2
  obtain ⟨h3, -⟩ := readAll u _ _ r3 r4 [] [] (.inl rfl) (.inl rfl) (by simpa using h2)
  refine ⟨eraseAll_inj _ _ (MentionsAny (denoteAll al a.params ++ denoteAll al a.results ++ (denoteAll al b.params ++ denoteAll al b.results))) hu ?_ ?_ h1,
    eraseAll_inj _ _ (MentionsAny (denoteAll al a.params ++ denoteAll al a.results ++ (denoteAll al b.params ++ denoteAll al b.results))) hu ?_ ?_ h3⟩ <;>
  · intro p n hm
    simp only [mentionsAny_append]
    simp [hm]

/-! ## The recorded pairs -/

theorem mem_allTypes (pr : Prog) (x : String × List FuncDecl × TypeDecl) :
    x ∈ allTypes pr ↔ ∃ p, Declares pr x.1 p x.2.2 ∧ x.2.1 = p.funcs := by
  obtain ⟨a, b, c⟩ := x
  simp only [allTypes, sortedPkgs, sortedTypes, List.mem_flatMap, List.mem_map, (isort_perm _ _).mem_iff, Declares]
  constructor
  · rintro ⟨⟨k, p⟩, he, t, ht, h⟩
    injection h with h1 h2
    injection h2 with h2 h3
    subst h1 h2 h3
    exact ⟨p, ⟨he, ht⟩, rfl⟩
  · rintro ⟨p, ⟨h1, h2⟩, h3⟩
    exact ⟨(a, p), h1, c, h2, by simp [h3]⟩

theorem mem_pairs (u : Uni) (pr : Prog) (x : (String × String) × (String × String)) :
    x ∈ pairs u pr ↔ ∃ p s q i es embeds, Declares pr x.1.1 p s ∧ s.name = x.1.2 ∧ s.kind = .struct embeds ∧
      Declares pr x.2.1 q i ∧ i.name = x.2.2 ∧ i.kind = .iface es ∧
      implementsInterface u (typeMethods p.funcs s) (ifaceMethods es) = true := by
  simp only [pairs, List.mem_flatMap]
  constructor
  · rintro ⟨⟨sp, fs, s⟩, hm, h⟩
    obtain ⟨p, hd, hf⟩ := (mem_allTypes pr _).1 hm
    simp only at hf hd h
    subst hf
    split at h
    · rename_i hs
      obtain ⟨⟨ip, fs', i⟩, hm', h⟩ := List.mem_filterMap.1 h
      obtain ⟨q, hd', hf'⟩ := (mem_allTypes pr _).1 hm'
      simp only at hf' hd' h
      unfold ifaceOf at h
      unfold isStruct at hs
      cases hk : s.kind with
      | iface => rw [hk] at hs; simp at hs
      | other => rw [hk] at hs; simp at hs
      | struct embeds =>
        cases hi : i.kind with
        | struct => rw [hi] at h; simp at h
        | other => rw [hi] at h; simp at h
        | iface es =>
          rw [hi] at h
          simp only [Option.ite_none_right_eq_some, Option.some.injEq] at h
          obtain ⟨h1, rfl⟩ := h
          exact ⟨p, s, q, i, es, embeds, hd, rfl, hk, hd', rfl, hi, h1⟩
    · simp at h
  · rintro ⟨p, s, q, i, es, embeds, hd, hn, hk, hd', hn', hi, h⟩
    refine ⟨(x.1.1, p.funcs, s), (mem_allTypes pr _).2 ⟨p, hd, rfl⟩, ?_⟩
    have hs : isStruct s = true := by unfold isStruct; rw [hk]
    simp only [hs, if_true]
    refine List.mem_filterMap.2 ⟨(x.2.1, q.funcs, i), (mem_allTypes pr _).2 ⟨q, hd', rfl⟩, ?_⟩
    have : ifaceOf i = some (ifaceMethods es) := by unfold ifaceOf; rw [hi]
    simp only [this, h, if_true, hn, hn']

theorem mem_typeMethods (p : Pkg) (t : TypeDecl) (m : Method) : m ∈ typeMethods p.funcs t ↔ DeclaredOn p t m.name m.sig := by
  obtain ⟨n, g⟩ := m
  simp only [typeMethods, methodsAt, List.mem_append, List.mem_map, List.mem_filter, beq_iff_eq, DeclaredOn, Method.mk.injEq]
  constructor
  · rintro (⟨f, ⟨h1, h2⟩, h3, h4⟩ | ⟨f, ⟨h1, h2⟩, h3, h4⟩)
    · exact ⟨f, h1, h3, h4, .inl h2⟩
    · exact ⟨f, h1, h3, h4, .inr h2⟩
  · rintro ⟨f, h1, h3, h4, h2 | h2⟩
    · exact .inl ⟨f, ⟨h1, h2⟩, h3, h4⟩
    · exact .inr ⟨f, ⟨h1, h2⟩, h3, h4⟩

theorem mem_ifaceMethods (es : List Elem) (m : Method) : m ∈ ifaceMethods es ↔ .method m.name m.sig ∈ es := by
  induction es with
  | nil => simp [ifaceMethods]
  | cons e es ih =>
    cases e with
    | method n g =>
      obtain ⟨a, b⟩ := m
      simp only [ifaceMethods, List.mem_cons, ih, Method.mk.injEq, Elem.method.injEq]
    | embedded => simp [ifaceMethods, ih]

theorem findMethod_some {pr : Prog} (hg : GoProg pr) {pkg p t} (hd : Declares pr pkg p t) {n d} (h : DeclaredOn p t n d) :
    ∃ m, findMethod (typeMethods p.funcs t) n = some m ∧ m.sig = d := by
  cases hf : findMethod (typeMethods p.funcs t) n with
  | none =>
    unfold findMethod at hf
    have := List.find?_eq_none.1 hf ⟨n, d⟩ (by simpa using (mem_typeMethods p t ⟨n, d⟩).2 h)
    simp at this
  | some m =>
    refine ⟨m, rfl, ?_⟩
    unfold findMethod at hf
    have h1 := List.find?_some hf
    have h2 := List.mem_of_find?_eq_some hf
    rw [List.mem_reverse, mem_typeMethods] at h2
    obtain ⟨f, hf1, hf2, hf3, hf4⟩ := h2
    obtain ⟨g, hg1, hg2, hg3, hg4⟩ := h
    rw [← hf3, ← hg3]
    refine hg.methods pkg p t hd f hf1 g hg1 hf4 hg4 ?_
    rw [hf2, hg2]; simpa using h1

theorem findMethod_declared {p : Pkg} {t n m} (h : findMethod (typeMethods p.funcs t) n = some m) : DeclaredOn p t n m.sig := by
  unfold findMethod at h
  have h1 := List.find?_some h
  have h2 := List.mem_of_find?_eq_some h
  rw [List.mem_reverse, mem_typeMethods] at h2
  have : m.name = n := by simpa using h1
  rw [this] at h2; exact h2

theorem key_inj {a b c d : String} (hb : '.' ∉ b.toList) (hd : '.' ∉ d.toList) (h : key a b = key c d) : a = c ∧ b = d := by
  have h := congrArg String.toList h
  simp only [key, String.toList_append] at h
  have e : ".".toList = ['.'] := rfl
  rw [e] at h
  have h := congrArg List.reverse h
  simp only [List.reverse_append, List.reverse_cons, List.reverse_nil, List.nil_append, List.append_assoc, List.singleton_append] at h
  have key : ∀ (x y s r : List Char), '.' ∉ x → '.' ∉ y → x ++ '.' :: s = y ++ '.' :: r → x = y ∧ s = r := by
    intro x
    induction x with
    | nil =>
      intro y s r _ hy h
      cases y with
      | nil => simpa using h
      | cons a y => simp at h; simp [← h.1] at hy
    | cons b x ih =>
      intro y s r hx hy h
      cases y with
      | nil => simp at h; simp [h.1] at hx
      | cons a y =>
        simp at h
        obtain ⟨h1, h2⟩ := ih y s r (by simp at hx; exact hx.2) (by simp at hy; exact hy.2) h.2
        exact ⟨by rw [h.1, h1], h2⟩
  obtain ⟨h1, h2⟩ := key _ _ _ _ (by simpa using hb) (by simpa using hd) h
  exact ⟨String.ext (List.reverse_inj.1 h2), String.ext (List.reverse_inj.1 h1)⟩

theorem mem_implementsOf (u : Uni) (pr : Prog) (sp sn k : String) :
    k ∈ implementsOf u pr sp sn ↔ ∃ ip iname, ((sp, sn), (ip, iname)) ∈ pairs u pr ∧ k = key ip iname := by
  simp only [implementsOf, List.mem_map, List.mem_filter, beq_iff_eq]
  constructor
  · rintro ⟨⟨a, b⟩, ⟨h1, rfl⟩, rfl⟩; exact ⟨b.1, b.2, h1, rfl⟩
  · rintro ⟨a, b, h1, rfl⟩; exact ⟨_, ⟨h1, rfl⟩, rfl⟩

theorem mem_implementedBy (u : Uni) (pr : Prog) (ip iname k : String) :
    k ∈ implementedBy u pr ip iname ↔ ∃ sp sn, ((sp, sn), (ip, iname)) ∈ pairs u pr ∧ k = key sp sn := by
  simp only [implementedBy, List.mem_map, List.mem_filter, beq_iff_eq]
  constructor
  · rintro ⟨⟨a, b⟩, ⟨h1, rfl⟩, rfl⟩; exact ⟨a.1, a.2, h1, rfl⟩
  · rintro ⟨a, b, h1, rfl⟩; exact ⟨_, ⟨h1, rfl⟩, rfl⟩

theorem pkg_unique {pr : Prog} (hg : GoProg pr) {k p p'} (h : (k, p) ∈ pr) (h' : (k, p') ∈ pr) : p = p' := by
  have hn := hg.pkgs
  clear hg
  induction pr with
  | nil => simp at h
  | cons e pr ih =>
    simp only [List.map_cons, List.nodup_cons] at hn
    rcases List.mem_cons.1 h with h | h <;> rcases List.mem_cons.1 h' with h' | h'
    · rw [← h] at h'; injection h' with _ h'; exact h'.symm
    · exact absurd (List.mem_map.2 ⟨_, h', rfl⟩) (by rw [← h] at hn; exact hn.1)
    · exact absurd (List.mem_map.2 ⟨_, h, rfl⟩) (by rw [← h'] at hn; exact hn.1)
    · exact ih h h' hn.2

theorem type_unique {l : List TypeDecl} (hn : (l.map TypeDecl.name).Nodup) {t t'} (h : t ∈ l) (h' : t' ∈ l) (he : t.name = t'.name) : t = t' := by
  induction l with
  | nil => simp at h
  | cons e pr ih =>
    simp only [List.map_cons, List.nodup_cons] at hn
    rcases List.mem_cons.1 h with h | h <;> rcases List.mem_cons.1 h' with h' | h'
    · rw [h, h']
    · exact absurd (List.mem_map.2 ⟨_, h', he.symm⟩) (by rw [h]; exact hn.1)
    · exact absurd (List.mem_map.2 ⟨_, h, he⟩) (by rw [h']; exact hn.1)
    · exact ih hn.2 h h'

theorem decl_unique {pr : Prog} (hg : GoProg pr) {k p t p' t'} (h : Declares pr k p t) (h' : Declares pr k p' t') (he : t.name = t'.name) :
    p = p' ∧ t = t' := by
  have := pkg_unique hg h.1 h'.1
  subst this
  exact ⟨rfl, type_unique (hg.types _ h.1) h.2 h'.2 he⟩

/-! ## The property -/

/-- **C91, nothing is missed (partial: plainly written signatures, methods declared on the type).**  A
struct type of the program whose declared methods include, with identical signatures, every method
written in an interface with at least one method is recorded as implementing it, and the interface
as implemented by it - whichever packages the two are in and however the types of the signatures are
qualified there. -/
theorem C91_complete_partial (u : Uni) (al : Aliases) (pr : Prog) (hg : GoProg pr) {sp p s embeds ip q i es}
    (hs : Declares pr sp p s) (hk : s.kind = .struct embeds) (hi : Declares pr ip q i) (hik : i.kind = .iface es)
    (hne : ∃ n g, .method n g ∈ es)
    (hp : ∀ n d, DeclaredOn p s n d → PlainSig u al d) (hpi : ∀ n g, .method n g ∈ es → PlainSig u al g)
    (h : ∀ n g, .method n g ∈ es → ∃ d, DeclaredOn p s n d ∧ SameSig al d g) :
    key ip i.name ∈ implementsOf u pr sp s.name ∧ key sp s.name ∈ implementedBy u pr ip i.name := by
  have hm : ((sp, s.name), (ip, i.name)) ∈ pairs u pr := by
    refine (mem_pairs u pr _).2 ⟨p, s, q, i, es, embeds, hs, rfl, hk, hi, rfl, hik, ?_⟩
    unfold implementsInterface
    obtain ⟨n, g, hng⟩ := hne
    have hmem := (mem_ifaceMethods es ⟨n, g⟩).2 hng
    have h1 : (ifaceMethods es).isEmpty = false := by cases hh : ifaceMethods es <;> simp_all
    simp only [h1, Bool.not_false, Bool.true_and, List.all_eq_true]
    intro m hm
    have hm' := (mem_ifaceMethods es m).1 hm
    obtain ⟨d, hd, hsame⟩ := h _ _ hm'
    obtain ⟨x, hx, hxd⟩ := findMethod_some hg hs hd
    simp only [hx, beq_iff_eq, hxd]
    exact same_of_sameSig u al (hp _ _ hd) (hpi _ _ hm') hsame
  exact ⟨(mem_implementsOf u pr _ _ _).2 ⟨_, _, hm, rfl⟩, (mem_implementedBy u pr _ _ _).2 ⟨_, _, hm, rfl⟩⟩

/-- **C91, nothing is invented (partial: plainly written signatures with unambiguous names, functions
inside them returning one value at most, an interface without embedded ones).**  An interface
recorded for a struct type is one it implements. -/
theorem C91_sound_partial (u : Uni) (al : Aliases) (pr : Prog) (hg : GoProg pr) {sp p s ip q i es}
    (hs : Declares pr sp p s) (hi : Declares pr ip q i) (hik : i.kind = .iface es) (hne : ∀ a b, .embedded a b ∉ es)
    (hp : ∀ n d, DeclaredOn p s n d → PlainSig u al d ∧ FlatSig al d) (hpi : ∀ n g, .method n g ∈ es → PlainSig u al g ∧ FlatSig al g)
    (hu : ∀ n d g, DeclaredOn p s n d → .method n g ∈ es → Unambiguous al d g)
    (h : key ip i.name ∈ implementsOf u pr sp s.name ∨ key sp s.name ∈ implementedBy u pr ip i.name) :
    GoImplements al pr sp s.name ip i.name := by
  have hm : ((sp, s.name), (ip, i.name)) ∈ pairs u pr := by
    rcases h with h | h
    · obtain ⟨a, b, hm, hkey⟩ := (mem_implementsOf u pr _ _ _).1 h
      obtain ⟨_, _, q', i', _, _, _, _, _, hd', hn', _, _⟩ := (mem_pairs u pr _).1 hm
      simp only at hd' hn'
      obtain ⟨rfl, rfl⟩ := key_inj (hg.names _ hi.1 _ hi.2) (by rw [← hn']; exact hg.names _ hd'.1 _ hd'.2) hkey
      exact hm
    · obtain ⟨a, b, hm, hkey⟩ := (mem_implementedBy u pr _ _ _).1 h
      obtain ⟨_, _, _, _, _, _, hd', hn', _, _, _, _, _⟩ := (mem_pairs u pr _).1 hm
      simp only at hd' hn'
      obtain ⟨rfl, rfl⟩ := key_inj (hg.names _ hs.1 _ hs.2) (by rw [← hn']; exact hg.names _ hd'.1 _ hd'.2) hkey
      exact hm
  obtain ⟨p', s', q', i', es', _, hd1, hn1, _, hd2, hn2, hk2, himp⟩ := (mem_pairs u pr _).1 hm
  simp only at hd1 hd2 hn1 hn2
  obtain ⟨rfl, rfl⟩ := decl_unique hg hd1 hs hn1
  obtain ⟨rfl, rfl⟩ := decl_unique hg hd2 hi hn2
  rw [hik] at hk2; injection hk2 with hk2; subst hk2
  intro name sig hneed
  generalize hx : i'.name = iname at hneed
  cases hneed with
  | @own _ p2 t2 es2 _ _ hd3 hk3 hmem =>
    obtain ⟨rfl, rfl⟩ := decl_unique hg hd3 hi hx.symm
    rw [hik] at hk3; injection hk3 with hk3; subst hk3
    unfold implementsInterface at himp
    simp only [Bool.and_eq_true, List.all_eq_true] at himp
    have := himp.2 ⟨name, sig⟩ ((mem_ifaceMethods es ⟨name, sig⟩).2 hmem)
    simp only at this
    split at this
    · cases this
    · rename_i d hd
      have hdecl := findMethod_declared hd
      simp only [beq_iff_eq] at this
      refine ⟨d.sig, .own hs hdecl, sameSig_of_same u al (hp _ _ hdecl).1 (hpi _ _ hmem).1 (hp _ _ hdecl).2 (hpi _ _ hmem).2 (hu _ _ _ hdecl hmem) this⟩
  | @embedded _ p2 t2 es2 _ _ _ _ hd3 hk3 hmem _ =>
    obtain ⟨rfl, rfl⟩ := decl_unique hg hd3 hi hx.symm
    rw [hik] at hk3; injection hk3 with hk3; subst hk3
    exact absurd hmem (hne _ _)

/-- **C91, the two sides agree.**  A type lists an interface exactly when the interface lists the type. -/
theorem C91_two_sided (u : Uni) (pr : Prog) (hg : GoProg pr) {sp p s ip q i} (hs : Declares pr sp p s) (hi : Declares pr ip q i) :
    key ip i.name ∈ implementsOf u pr sp s.name ↔ key sp s.name ∈ implementedBy u pr ip i.name := by
  rw [mem_implementsOf, mem_implementedBy]
  constructor
  · rintro ⟨a, b, hm, hkey⟩
    obtain ⟨_, _, q', i', _, _, _, _, _, hd', hn', _, _⟩ := (mem_pairs u pr _).1 hm
    simp only at hd' hn'
    obtain ⟨rfl, rfl⟩ := key_inj (hg.names _ hi.1 _ hi.2) (by rw [← hn']; exact hg.names _ hd'.1 _ hd'.2) hkey
    exact ⟨_, _, hm, rfl⟩
  · rintro ⟨a, b, hm, hkey⟩
    obtain ⟨_, _, _, _, _, _, hd', hn', _, _, _, _, _⟩ := (mem_pairs u pr _).1 hm
    simp only at hd' hn'
    obtain ⟨rfl, rfl⟩ := key_inj (hg.names _ hs.1 _ hs.2) (by rw [← hn']; exact hg.names _ hd'.1 _ hd'.2) hkey
    exact ⟨_, _, hm, rfl⟩

/-- The same packages, each with its types listed in another order. -/
inductive SameTypes : Prog → Prog → Prop
  | nil : SameTypes [] []
  | cons {k ts ts' fs a b} : ts.Perm ts' → SameTypes a b → SameTypes ((k, ⟨ts, fs⟩) :: a) ((k, ⟨ts', fs⟩) :: b)

theorem strLe_antisymm {a b : String} (h : strLe a b = true) (h' : strLe b a = true) : a = b := strLe_ord.antisymm a b h h'

theorem keyPre {α : Type _} (f : α → String) : TotalPre (fun a b : α => strLe (f a) (f b)) where
  total a b := strLe_ord.total (f a) (f b)
  trans a b c := strLe_ord.trans (f a) (f b) (f c)

theorem inj_of_nodup {α : Type _} (f : α → String) {l : List α} (hn : (l.map f).Nodup) : ∀ x ∈ l, ∀ y ∈ l, f x = f y → x = y := by
  induction l with
  | nil => simp
  | cons e l ih =>
    simp only [List.map_cons, List.nodup_cons] at hn
    intro x hx y hy he
    rcases List.mem_cons.1 hx with h | h <;> rcases List.mem_cons.1 hy with h' | h'
    · rw [h, h']
    · exact absurd (List.mem_map.2 ⟨_, h', he.symm⟩) (by rw [h]; exact hn.1)
    · exact absurd (List.mem_map.2 ⟨_, h, he⟩) (by rw [h']; exact hn.1)
    · exact ih hn.2 x h y h' he

theorem sort_same {α : Type _} (f : α → String) {l l' : List α} (h : l.Perm l') (hn : (l.map f).Nodup) :
    isort (fun a b => strLe (f a) (f b)) l = isort (fun a b => strLe (f a) (f b)) l' :=
  isort_eq_of_perm_on (keyPre f) (fun x hx y hy h1 h2 => inj_of_nodup f hn x hx y hy (strLe_antisymm h1 h2)) h

/-- One package's contribution to the loops. -/
def entryTypes (e : String × Pkg) : List (String × List FuncDecl × TypeDecl) := (sortedTypes e.2).map fun t => (e.1, e.2.funcs, t)

theorem insert_sameTypes {a b : Prog} (h : SameTypes a b) (hn : ∀ e ∈ a, (e.2.types.map TypeDecl.name).Nodup) {k ts ts' fs}
    (hp : ts.Perm ts') :
    SameTypes (insertBy (fun a b => strLe a.1 b.1) (k, ⟨ts, fs⟩) a) (insertBy (fun a b => strLe a.1 b.1) (k, ⟨ts', fs⟩) b) := by
  induction h with
  | nil => exact .cons hp .nil
  | @cons k' us us' gs a b hu hr ih =>
    simp only [insertBy]
    by_cases hc : strLe k k' = true
    · rw [if_pos hc, if_pos hc]; exact .cons hp (.cons hu hr)
    · rw [if_neg hc, if_neg hc]; exact .cons hu (ih fun e he => hn e (by simp [he]))

theorem sort_sameTypes {a b : Prog} (h : SameTypes a b) (hn : ∀ e ∈ a, (e.2.types.map TypeDecl.name).Nodup) :
    SameTypes (sortedPkgs a) (sortedPkgs b) := by
  induction h with
  | nil => exact .nil
  | @cons k ts ts' fs a b hp hr ih =>
    simp only [sortedPkgs, isort]
    refine insert_sameTypes (ih fun e he => hn e (by simp [he])) ?_ hp
    intro e he
    exact hn e (List.mem_cons_of_mem _ ((isort_perm _ _).mem_iff.1 he))

theorem flat_sameTypes {a b : Prog} (h : SameTypes a b) (hn : ∀ e ∈ a, (e.2.types.map TypeDecl.name).Nodup) :
    a.flatMap entryTypes = b.flatMap entryTypes := by
  induction h with
  | nil => rfl
  | @cons k ts ts' fs a b hp hr ih =>
    simp only [List.flatMap_cons]
    rw [ih fun e he => hn e (by simp [he])]
    have := hn (k, ⟨ts, fs⟩) (by simp)
    simp only [entryTypes, sortedTypes]
    rw [sort_same TypeDecl.name hp this]

/-- **C91, the same every time.**  Both lists come out in the same order whatever the order in which Go
iterates over the packages and over the types of each. -/
theorem C91_order (u : Uni) (pr mid pr' : Prog) (hg : GoProg pr) (h : pr.Perm mid) (h' : SameTypes mid pr') (pkg name : String) :
    implementsOf u pr pkg name = implementsOf u pr' pkg name ∧ implementedBy u pr pkg name = implementedBy u pr' pkg name := by
  have hn : ∀ e ∈ mid, (e.2.types.map TypeDecl.name).Nodup := fun e he => hg.types e (h.mem_iff.2 he)
  have e1 : sortedPkgs pr = sortedPkgs mid := sort_same Prod.fst h hg.pkgs
  have e2 : allTypes pr = allTypes pr' := by
    have : (sortedPkgs mid).flatMap entryTypes = (sortedPkgs pr').flatMap entryTypes :=
      flat_sameTypes (sort_sameTypes h' hn) fun e he => hn e ((isort_perm _ _).mem_iff.1 he)
    unfold allTypes
    rw [e1]; exact this
  have e3 : pairs u pr = pairs u pr' := by unfold pairs; rw [e2]
  unfold implementsOf implementedBy
  rw [e3]; exact ⟨rfl, rfl⟩

/-! ## Examples, and where the recorded relation is not Go's -/

/-- ASCII letters and digits. -/
def asciiU : Uni where
  letter c := c.isAlpha
  number c := c.isDigit
  plain := by decide
  digits := by decide
  ascii := by decide

def predeclared (n : String) : TE := .ident none n.toList []
def one (e : TE) : Fields := .cons 0 e .nil
def two (e f : TE) : Fields := .cons 0 e (.cons 0 f .nil)

/-- A struct `T` with one method, and an interface `I` of another package with one method. -/
def prog2 (tm im : Sig) : Prog :=
  [("m/b", ⟨[⟨"I", "", .iface [.method "M" im]⟩], []⟩), ("m/a", ⟨[⟨"T", "", .struct []⟩], [⟨"*T", "M", tm⟩]⟩)]

theorem goProg2 (tm im : Sig) : GoProg (prog2 tm im) where
  pkgs := by simp [prog2]
  types := by simp [prog2]
  names := by simp [prog2]
  methods := by
    intro pkg p t hd f hf g hg _ _ _
    have : (pkg, p) ∈ prog2 tm im := hd.1
    simp only [prog2, List.mem_cons, List.not_mem_nil, or_false, Prod.mk.injEq] at this
    rcases this with ⟨rfl, rfl⟩ | ⟨rfl, rfl⟩
    · simp at hf
    · simp at hf hg; rw [hf, hg]

theorem declT (tm im : Sig) : Declares (prog2 tm im) "m/a" ⟨[⟨"T", "", .struct []⟩], [⟨"*T", "M", tm⟩]⟩ ⟨"T", "", .struct []⟩ :=
  ⟨by simp [prog2], by simp⟩

theorem declI (tm im : Sig) : Declares (prog2 tm im) "m/b" ⟨[⟨"I", "", .iface [.method "M" im]⟩], []⟩ ⟨"I", "", .iface [.method "M" im]⟩ :=
  ⟨by simp [prog2], by simp⟩

theorem Has.inv {pr : Prog} (hg : GoProg pr) {k p t n g} (hd : Declares pr k p t) (h : Has pr k t.name n g) :
    DeclaredOn p t n g ∨ ∃ embeds ep en, t.kind = .struct embeds ∧ (ep, en) ∈ embeds ∧ Has pr ep en n g := by
  generalize hx : t.name = tn at h
  cases h with
  | own h1 h2 => obtain ⟨rfl, rfl⟩ := decl_unique hg hd h1 hx; exact .inl h2
  | promoted h1 h2 h3 h4 h5 => obtain ⟨rfl, rfl⟩ := decl_unique hg hd h1 hx; exact .inr ⟨_, _, _, h2, h3, h5⟩

theorem Needs.inv {pr : Prog} (hg : GoProg pr) {k p t n g} (hd : Declares pr k p t) (h : Needs pr k t.name n g) :
    ∃ es, t.kind = .iface es ∧ (.method n g ∈ es ∨ ∃ ep en, .embedded ep en ∈ es ∧ Needs pr ep en n g) := by
  generalize hx : t.name = tn at h
  cases h with
  | own h1 h2 h3 => obtain ⟨rfl, rfl⟩ := decl_unique hg hd h1 hx; exact ⟨_, h2, .inl h3⟩
  | embedded h1 h2 h3 h4 => obtain ⟨rfl, rfl⟩ := decl_unique hg hd h1 hx; exact ⟨_, h2, .inr ⟨_, _, h3, h4⟩⟩

theorem goImplements2 (al : Aliases) (tm im : Sig) : GoImplements al (prog2 tm im) "m/a" "T" "m/b" "I" ↔ SameSig al tm im := by
  constructor
  · intro h
    obtain ⟨d, hd, hsame⟩ := h "M" im (.own (declI tm im) rfl (by simp))
    rcases Has.inv (goProg2 tm im) (declT tm im) hd with h1 | ⟨e, _, _, h1, h2, _⟩
    · obtain ⟨f, hf, _, rfl, _⟩ := h1
      simp at hf; rw [hf] at hsame; exact hsame
    · simp only [Kind.struct.injEq] at h1; subst h1; simp at h2
  · intro h name sig hneed
    obtain ⟨es, h1, h2⟩ := Needs.inv (goProg2 tm im) (declI tm im) hneed
    simp only [Kind.iface.injEq] at h1; subst h1
    simp at h2
    obtain ⟨rfl, rfl⟩ := h2
    exact ⟨tm, .own (declT tm sig) ⟨_, by simp; rfl, rfl, rfl, .inr rfl⟩, h⟩

/-- Is the interface of `prog2` recorded? -/
theorem recorded2 (u : Uni) (tm im : Sig) : key "m/b" "I" ∈ implementsOf u (prog2 tm im) "m/a" "T" ↔ norm u tm.str = norm u im.str := by
  rw [mem_implementsOf]
  have hn : ∀ i, "I" = i → '.' ∉ i.toList := by rintro _ rfl; decide
  constructor
  · rintro ⟨a, b, hm, hkey⟩
    obtain ⟨p', s', q', i', es', _, hd1, hn1, _, hd2, hn2, hk2, himp⟩ := (mem_pairs u _ _).1 hm
    simp only at hd1 hd2 hn1 hn2
    obtain ⟨rfl, rfl⟩ := key_inj (hn _ rfl) (by rw [← hn2]; exact (goProg2 tm im).names _ hd2.1 _ hd2.2) hkey
    obtain ⟨rfl, rfl⟩ := decl_unique (goProg2 tm im) hd1 (declT tm im) hn1
    obtain ⟨rfl, rfl⟩ := decl_unique (goProg2 tm im) hd2 (declI tm im) hn2
    simp only [Kind.iface.injEq] at hk2; subst hk2
    have e1 : findMethod (typeMethods [⟨"*T", "M", tm⟩] ⟨"T", "", .struct []⟩) "M" = some ⟨"M", tm⟩ := by
      simp [findMethod, typeMethods, methodsAt]
    simp [implementsInterface, ifaceMethods, e1] at himp
    exact himp
  · intro h
    refine ⟨"m/b", "I", (mem_pairs u _ _).2 ⟨_, _, _, _, _, _, declT tm im, rfl, rfl, declI tm im, rfl, rfl, ?_⟩, rfl⟩
    have e1 : findMethod (typeMethods [⟨"*T", "M", tm⟩] ⟨"T", "", .struct []⟩) "M" = some ⟨"M", tm⟩ := by
      simp [findMethod, typeMethods, methodsAt]
    simp [implementsInterface, ifaceMethods, e1, h]

/-- No aliases. -/
def noAlias : Aliases := fun _ _ => none

/-- The predeclared alias `any`. -/
def anyAlias : Aliases := fun p n => if p = none ∧ n = "any".toList then some .any else none

def nCtxPkg : Str := "context".toList
def nCtx : Str := "Context".toList
def nOrder : Str := "Order".toList
def nError : Str := "error".toList
def nInt : Str := "int".toList
def nString : Str := "string".toList
def nAny : Str := "any".toList
def nPair : Str := "Pair".toList
def pathA : Str := "m/a".toList
def pathB : Str := "m/b".toList
def nA : Str := "a".toList
def nB : Str := "b".toList

/-- `M(ctx context.Context, o *Order) ([]Order, error)`, declared in the package of `Order`. -/
def demoT : Sig := ⟨.cons 1 (.sel nCtxPkg nCtxPkg nCtx) (.cons 1 (.star (.ident (some pathA) nOrder [])) .nil),
  two (.array .none (.ident (some pathA) nOrder [])) (.ident none nError [])⟩
/-- `M(context.Context, *a.Order) ([]a.Order, error)`, declared in another package. -/
def demoI : Sig := ⟨two (.sel nCtxPkg nCtxPkg nCtx) (.star (.sel pathA nA nOrder)),
  two (.array .none (.sel pathA nA nOrder)) (.ident none nError [])⟩

def wordCheck (w : Str) : Bool := match w with | [] => false | c :: r => asciiU.start c && (c :: r).all asciiU.word

theorem word_of_check {w : Str} (h : wordCheck w = true) : Word asciiU w := by
  cases w with
  | nil => cases h
  | cons c r =>
    simp only [wordCheck, Bool.and_eq_true, List.all_eq_true] at h
    exact ⟨c, r, rfl, h.1, h.2⟩

theorem wCtxPkg : Word asciiU nCtxPkg := word_of_check (by decide)
theorem wCtx : Word asciiU nCtx := word_of_check (by decide)
theorem wOrder : Word asciiU nOrder := word_of_check (by decide)
theorem wError : Word asciiU nError := word_of_check (by decide)
theorem wA : Word asciiU nA := word_of_check (by decide)

theorem demoT_plain : PlainSig asciiU noAlias demoT := by
  simp [PlainSig, demoT, two, PlainAll, Plain, Single, noAlias, wCtxPkg, wCtx, wOrder, wError]

theorem demoI_plain : PlainSig asciiU noAlias demoI := by
  simp [PlainSig, demoI, two, PlainAll, Plain, Single, noAlias, wCtxPkg, wCtx, wOrder, wError, wA]

theorem demo_same : SameSig noAlias demoT demoI := by
  simp [SameSig, demoT, demoI, two, denoteAll, denote]

theorem demo_flat (s : Sig) (h : s = demoT ∨ s = demoI) : FlatSig noAlias s := by
  rcases h with rfl | rfl <;> simp [FlatSig, demoT, demoI, two, denoteAll, denote, OneResults, OneResult, nameTy, noAlias]

theorem unambiguous_of (al : Aliases) (a b : Sig) (f : Str → Option Str)
    (h : ∀ p n, MentionsAny (denoteAll al a.params ++ denoteAll al a.results ++ (denoteAll al b.params ++ denoteAll al b.results)) p n → p = f n) :
    Unambiguous al a b := fun p q n h1 h2 => by rw [h p n h1, h q n h2]

theorem demo_unambiguous : Unambiguous noAlias demoT demoI := by
  refine unambiguous_of _ _ _ (fun n => if n = nOrder then some pathA else if n = nCtx then some nCtxPkg else none) ?_
  intro p n h
  simp [demoT, demoI, two, denoteAll, denote, nameTy, noAlias, MentionsAny, Mentions] at h
  repeat' (refine Or.elim h ?_ ?_ <;> intro h)
  all_goals (obtain ⟨rfl, rfl⟩ := h; decide +kernel)

/-- Non-vacuity of `C91_complete_partial` and `C91_sound_partial`: all hypotheses hold of the program
with these two signatures, and the interface is recorded. -/
example : (key "m/b" "I" ∈ implementsOf asciiU (prog2 demoT demoI) "m/a" "T" ∧ key "m/a" "T" ∈ implementedBy asciiU (prog2 demoT demoI) "m/b" "I") ∧
    GoImplements noAlias (prog2 demoT demoI) "m/a" "T" "m/b" "I" := by
  have hdecl : ∀ n d, DeclaredOn ⟨[⟨"T", "", .struct []⟩], [⟨"*T", "M", demoT⟩]⟩ ⟨"T", "", .struct []⟩ n d → n = "M" ∧ d = demoT := by
    rintro n d ⟨f, hf, rfl, rfl, -⟩
    simp at hf; rw [hf]; exact ⟨rfl, rfl⟩
  have h := C91_complete_partial asciiU noAlias (prog2 demoT demoI) (goProg2 _ _) (declT _ _) rfl (declI _ _) rfl ⟨"M", demoI, by simp⟩
    (fun n d hd => by rw [(hdecl n d hd).2]; exact demoT_plain) (fun n g hg => by simp at hg; rw [hg.2]; exact demoI_plain)
    (fun n g hg => by simp at hg; rw [hg.1, hg.2]; exact ⟨demoT, ⟨_, by simp; rfl, rfl, rfl, .inr rfl⟩, demo_same⟩)
  refine ⟨h, C91_sound_partial asciiU noAlias (prog2 demoT demoI) (goProg2 _ _) (declT _ _) (declI _ _) rfl (by simp)
    (fun n d hd => by rw [(hdecl n d hd).2]; exact ⟨demoT_plain, demo_flat _ (.inl rfl)⟩)
    (fun n g hg => by simp at hg; rw [hg.2]; exact ⟨demoI_plain, demo_flat _ (.inr rfl)⟩) ?_ (.inl h.1)⟩
  intro n d g hd hg
  simp at hg
  rw [(hdecl n d hd).2, hg.2]
  exact demo_unambiguous

/-- Recorded, although Go says otherwise. -/
def Invented (al : Aliases) (tm im : Sig) : Prop :=
  key "m/b" "I" ∈ implementsOf asciiU (prog2 tm im) "m/a" "T" ∧ ¬ GoImplements al (prog2 tm im) "m/a" "T" "m/b" "I"

/-- Not recorded, although Go says it is implemented. -/
def Missed (al : Aliases) (tm im : Sig) : Prop :=
  key "m/b" "I" ∉ implementsOf asciiU (prog2 tm im) "m/a" "T" ∧ GoImplements al (prog2 tm im) "m/a" "T" "m/b" "I"

theorem invented_of {al tm im} (h : norm asciiU tm.str = norm asciiU im.str) (h' : ¬ SameSig al tm im) : Invented al tm im :=
  ⟨(recorded2 _ _ _).2 h, fun hg => h' ((goImplements2 _ _ _).1 hg)⟩

theorem missed_of {al tm im} (h : norm asciiU tm.str ≠ norm asciiU im.str) (h' : SameSig al tm im) : Missed al tm im :=
  ⟨fun hr => h ((recorded2 _ _ _).1 hr), (goImplements2 _ _ _).2 h'⟩

/-- **C91, a disagreement: types of one name.**  `M(a.Order)` is taken for `M(b.Order)`. -/
theorem C91_same_name_invented :
    Invented noAlias ⟨one (.ident (some pathA) nOrder []), .nil⟩ ⟨one (.ident (some pathB) nOrder []), .nil⟩ :=
  invented_of (by decide +kernel) (by simp [SameSig, one, denoteAll, denote, nameTy, noAlias, pathA, pathB])

/-- **C91, a disagreement: results sharing one type.**  `M() (a, b int)` is the method of an interface
that asks for `M() (int, int)`, but is not recorded; it is recorded for one that asks for `M() int`. -/
theorem C91_shared_result :
    Missed noAlias ⟨.nil, .cons 2 (.ident none nInt []) .nil⟩ ⟨.nil, two (.ident none nInt []) (.ident none nInt [])⟩ ∧
    Invented noAlias ⟨.nil, .cons 2 (.ident none nInt []) .nil⟩ ⟨.nil, one (.ident none nInt [])⟩ :=
  ⟨missed_of (by decide +kernel) (by simp [SameSig, two, denoteAll, denote, nameTy, noAlias, List.replicate]),
   invented_of (by decide +kernel) (by simp [SameSig, one, denoteAll, denote, nameTy, noAlias, List.replicate])⟩

/-- **C91, a disagreement: `any`.**  `M(any)` and `M(interface{})` are one signature. -/
theorem C91_any_missed : Missed anyAlias ⟨one (.ident none nAny []), .nil⟩ ⟨one .emptyIface, .nil⟩ :=
  missed_of (by decide +kernel) (by simp [SameSig, one, denoteAll, denote, nameTy, anyAlias, nAny])

/-- **C91, a disagreement: channels.**  `M(<-chan int)` is taken for `M(chan<- int)`. -/
theorem C91_channel_invented :
    Invented noAlias ⟨one (.chan .recv (.ident none nInt [])), .nil⟩ ⟨one (.chan .send (.ident none nInt [])), .nil⟩ :=
  invented_of (by decide +kernel) (by simp [SameSig, one, denoteAll, denote, nameTy, noAlias])

/-- **C91, a disagreement: functions with several results.**  `M(func() (int, string))` is taken for
`M(func() int, string)`. -/
theorem C91_function_invented :
    Invented noAlias ⟨one (.func .nil (two (.ident none nInt []) (.ident none nString []))), .nil⟩
      ⟨two (.func .nil (one (.ident none nInt []))) (.ident none nString []), .nil⟩ :=
  invented_of (by decide +kernel) (by simp [SameSig, one, two, denoteAll, denote, nameTy, noAlias])

/-- **C91, a disagreement: generic types.**  `M(Pair[int])` in the package of `Pair` and
`M(a.Pair[int])` elsewhere are one signature. -/
theorem C91_generic_missed :
    Missed noAlias ⟨one (.inst (.ident (some pathA) nPair "[T any]".toList) (one (.ident none nInt []))), .nil⟩
      ⟨one (.inst (.sel pathA nA nPair) (one (.ident none nInt []))), .nil⟩ :=
  missed_of (by decide +kernel) (by simp [SameSig, one, denoteAll, denote])

/-- The program of the next examples: `type E struct{}` with `M()`, `type T struct{ E }`, `type N int`
with `M()`, and the interfaces `I { M() }`, `J { I }` and `K { I; L() }`; `T` also has `L()`. -/
def nop : Sig := ⟨.nil, .nil⟩
def pkg3 : Pkg :=
  ⟨[⟨"E", "", .struct []⟩, ⟨"T", "", .struct [("m/a", "E")]⟩, ⟨"N", "", .other⟩, ⟨"S", "", .struct []⟩,
      ⟨"I", "", .iface [.method "M" nop]⟩, ⟨"J", "", .iface [.embedded "m/a" "I"]⟩, ⟨"K", "", .iface [.embedded "m/a" "I", .method "L" nop]⟩],
    [⟨"*E", "M", nop⟩, ⟨"N", "M", nop⟩, ⟨"S", "L", nop⟩]⟩
def prog3 : Prog := [("m/a", pkg3)]

theorem goProg3 : GoProg prog3 where
  pkgs := by simp [prog3]
  types := by simp [prog3, pkg3]
  names := by simp [prog3, pkg3]
  methods := by
    intro pkg p t hd f hf g hg _ _ _
    have : (pkg, p) ∈ prog3 := hd.1
    simp only [prog3, List.mem_cons, List.not_mem_nil, or_false, Prod.mk.injEq] at this
    obtain ⟨rfl, rfl⟩ := this
    simp [pkg3] at hf hg
    rcases hf with rfl | rfl | rfl <;> rcases hg with rfl | rfl | rfl <;> rfl

theorem decl3 {t : TypeDecl} (h : t ∈ pkg3.types) : Declares prog3 "m/a" pkg3 t := ⟨by simp [prog3], h⟩

theorem needs3 {n g} (h : Needs prog3 "m/a" "I" n g) : n = "M" ∧ g = nop := by
  obtain ⟨es, h1, h2⟩ := Needs.inv (t := ⟨"I", "", .iface [.method "M" nop]⟩) goProg3 (decl3 (by simp [pkg3])) h
  simp only [Kind.iface.injEq] at h1; subst h1
  simpa using h2

/-- **C91, a disagreement: promoted methods.**  `T` has `M` from the struct it embeds and implements `I`,
but only the methods declared for `T` itself are looked at. -/
theorem C91_promoted_missed (al : Aliases) :
    GoProg prog3 ∧ GoImplements al prog3 "m/a" "T" "m/a" "I" ∧ key "m/a" "I" ∉ implementsOf asciiU prog3 "m/a" "T" := by
  refine ⟨goProg3, ?_, by decide +kernel⟩
  intro n g h
  obtain ⟨rfl, rfl⟩ := needs3 h
  refine ⟨nop, .promoted (t := ⟨"T", "", .struct [("m/a", "E")]⟩) (decl3 (by simp [pkg3])) rfl (by simp) ?_ 
    (.own (t := ⟨"E", "", .struct []⟩) (decl3 (by simp [pkg3])) ⟨⟨"*E", "M", nop⟩, by simp [pkg3], rfl, rfl, .inr rfl⟩), rfl, rfl⟩
  rintro s ⟨f, hf, h1, -, h2⟩
  simp [pkg3] at hf
  rcases hf with rfl | rfl | rfl
  · simp at h2
  · simp at h2
  · simp at h1

/-- **C91, a disagreement: types that are not structs.**  `type N int` with a method `M` implements `I`. -/
theorem C91_named_missed (al : Aliases) :
    GoProg prog3 ∧ GoImplements al prog3 "m/a" "N" "m/a" "I" ∧ key "m/a" "I" ∉ implementsOf asciiU prog3 "m/a" "N" := by
  refine ⟨goProg3, ?_, by decide +kernel⟩
  intro n g h
  obtain ⟨rfl, rfl⟩ := needs3 h
  exact ⟨nop, .own (t := ⟨"N", "", .other⟩) (decl3 (by simp [pkg3])) ⟨⟨"N", "M", nop⟩, by simp [pkg3], rfl, rfl, .inl rfl⟩, rfl, rfl⟩

/-- **C91, a disagreement: embedded interfaces.**  `E` implements `J { I }`, which is not recorded because
`J` has no method of its own; `S` is recorded as implementing `K { I; L() }` although it has no `M`. -/
theorem C91_embedded_wrong (al : Aliases) :
    (GoImplements al prog3 "m/a" "E" "m/a" "J" ∧ key "m/a" "J" ∉ implementsOf asciiU prog3 "m/a" "E") ∧
    (¬ GoImplements al prog3 "m/a" "S" "m/a" "K" ∧ key "m/a" "K" ∈ implementsOf asciiU prog3 "m/a" "S") := by
  refine ⟨⟨?_, by decide +kernel⟩, ?_, by decide +kernel⟩
  · intro n g h
    obtain ⟨es, h1, h2⟩ := Needs.inv (t := ⟨"J", "", .iface [.embedded "m/a" "I"]⟩) goProg3 (decl3 (by simp [pkg3])) h
    simp only [Kind.iface.injEq] at h1; subst h1
    simp at h2
    obtain ⟨_, _, ⟨rfl, rfl⟩, h2⟩ := h2
    obtain ⟨rfl, rfl⟩ := needs3 h2
    exact ⟨nop, .own (t := ⟨"E", "", .struct []⟩) (decl3 (by simp [pkg3])) ⟨⟨"*E", "M", nop⟩, by simp [pkg3], rfl, rfl, .inr rfl⟩, rfl, rfl⟩
  · intro h
    obtain ⟨d, hd, -⟩ := h "M" nop (.embedded (t := ⟨"K", "", .iface [.embedded "m/a" "I", .method "L" nop]⟩) (decl3 (by simp [pkg3])) rfl (by simp)
      (.own (t := ⟨"I", "", .iface [.method "M" nop]⟩) (decl3 (by simp [pkg3])) rfl (by simp)))
    rcases Has.inv (t := ⟨"S", "", .struct []⟩) goProg3 (decl3 (by simp [pkg3])) hd with h1 | ⟨e, _, _, h1, h2, _⟩
    · obtain ⟨f, hf, h1, -, h2⟩ := h1
      simp [pkg3] at hf
      rcases hf with rfl | rfl | rfl
      · simp at h2
      · simp at h2
      · simp at h1
    · simp only [Kind.struct.injEq] at h1; subst h1; simp at h2

/-- Non-vacuity of `C91_two_sided` and `C91_order`: two implementers in two packages, listed backwards. -/
example : implementedBy asciiU (prog2 demoT demoI) "m/b" "I" = ["m/a.T"] ∧ implementsOf asciiU (prog2 demoT demoI).reverse "m/a" "T" = ["m/b.I"] ∧
    implementedBy asciiU prog3 "m/a" "I" = ["m/a.E"] := by decide +kernel

end Verif.ImplModel
