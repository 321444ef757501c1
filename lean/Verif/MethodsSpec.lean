import Verif.MethodsModel
/-!
# Specification: HTTP methods of routes (C31–C33, C55)

Stated with the data types of the model and none of its functions.
-/

namespace Verif.MethodsSpec
open Verif.MethodsModel

/-! ### Dispatch on the method -/

/-- The nine verbs of HTTP. -/
def Verb (v : Str) : Prop :=
  v ∈ (["GET", "HEAD", "POST", "PUT", "PATCH", "DELETE", "CONNECT", "OPTIONS", "TRACE"].map String.toList)

/-- The verbs a list of case expressions names, in order. -/
inductive Names (upper : Str → Str) : List (Option Str) → List Str → Prop
  | nil : Names upper [] []
  | verb {s l vs} : Verb (upper s) → Names upper l vs → Names upper (some s :: l) (upper s :: vs)
  | skip {o l vs} : (∀ s, o = some s → ¬ Verb (upper s)) → Names upper l vs → Names upper (o :: l) vs

/-- An arm of an if / else-if chain comparing the request's method with a verb. -/
inductive ChainArm (upper : Str → Str) : Node → Branch → Prop
  | here {s a b body els} : Verb (upper s) → ChainArm upper (.cond (some s) a b body els) ⟨[upper s], a, b⟩
  | next {o a b body e br} : ChainArm upper e br → ChainArm upper (.cond o a b body e) br

/-- An arm of a statement that dispatches on the request's method. -/
inductive Arm (upper : Str → Str) : Node → Branch → Prop
  | clause {clauses es a b body vs} : (es, a, b, body) ∈ clauses → Names upper es vs → vs ≠ [] → Arm upper (.sw true clauses) ⟨vs, a, b⟩
  | chain {n br} : ChainArm upper n br → Arm upper n br

/-- Direct parts of a statement. -/
inductive Part : Node → Node → Prop
  | clause {m clauses es a b body n} : (es, a, b, body) ∈ clauses → n ∈ body → Part (.sw m clauses) n
  | body {o a b body els n} : n ∈ body → Part (.cond o a b body els) n
  | els {o a b body e} : Part (.cond o a b body e) e
  | kid {kids n} : n ∈ kids → Part (.node kids) n

/-- The statement is a dispatch on the method. -/
def Dispatches (upper : Str → Str) : Node → Prop
  | .sw m _ => m = true
  | n => ∃ br, ChainArm upper n br

/-- Statements reached without entering a dispatch. -/
inductive Reached (upper : Str → Str) (root : Node) : Node → Prop
  | root : Reached upper root root
  | part {n k} : Reached upper root n → ¬ Dispatches upper n → Part n k → Reached upper root k

/-- The handler source says: requests of method `m` run these lines. -/
def BranchOf (bs : List Branch) (m : Str) (line : Int) : Prop := ∃ b ∈ bs, m ∈ b.methods ∧ b.startLine ≤ line ∧ line ≤ b.endLine

/-- The place is known to be in the file the handler is in. -/
def InHandlerFile (file : Str) (s : Site) : Prop := file ≠ [] ∧ 0 < s.line ∧ s.file = file

/-- A list is in order of first mention, without repetition, of another. -/
inductive FirstMentions : List Str → List Str → Prop
  | nil : FirstMentions [] []
  | new {l r x} : FirstMentions l r → x ∉ l → FirstMentions (l ++ [x]) (r ++ [x])
  | old {l r x} : FirstMentions l r → x ∈ l → FirstMentions (l ++ [x]) r

/-! ### Words of a name -/

/-- A word may not continue from `a` to `b` when `next` follows: `aB`, or `ABc` before `B`. -/
def Boundary (u : Uni) (a b : Char) (next : Option Char) : Prop :=
  u.upper b = true ∧ (u.lower a = true ∨ (u.upper a = true ∧ ∃ c, next = some c ∧ u.lower c = true))

/-- `w` is a word of `pre ++ w ++ post`: letters only, no boundary inside, and not extendable. -/
structure WordAt (u : Uni) (pre w post : Str) : Prop where
  nonempty : w ≠ []
  letters : ∀ c ∈ w, u.letter c = true
  inner : ∀ x a b y, w = x ++ a :: b :: y → ¬ Boundary u a b (y ++ post).head?
  left : ∀ x a b y, pre = x ++ [a] → w = b :: y → u.letter a = true → Boundary u a b (y ++ post).head?
  right : ∀ x a b y, w = x ++ [a] → post = b :: y → u.letter b = true → Boundary u a b y.head?

/-- The mapping chosen among those satisfying `P`: highest priority, then first listed. -/
def Best (P : Mapping → Prop) (l : List Mapping) (m : Mapping) : Prop :=
  ∃ pre post, l = pre ++ m :: post ∧ P m ∧ (∀ x ∈ pre, P x → x.priority < m.priority) ∧ ∀ x ∈ post, P x → x.priority ≤ m.priority

/-- Two words are the same under the configured case rule. -/
def Same (u : Uni) (c : Extraction) (a b : Str) : Prop := if c.caseSensitive = true then a = b else u.toLower a = u.toLower b

/-- The name's leading word is a keyword of the mapping. -/
def LeadsWith (u : Uni) (c : Extraction) (name : Str) (m : Mapping) : Prop :=
  c.usePrefix = true ∧ ∃ pre w post, name = pre ++ w ++ post ∧ WordAt u pre w post ∧ (∀ x ∈ pre, u.letter x = false) ∧
    ∃ p ∈ m.patterns, Same u c w p

/-- Some word of the name is a keyword of the mapping. -/
def Mentions (u : Uni) (c : Extraction) (name : Str) (m : Mapping) : Prop :=
  c.useContains = true ∧ ∃ pre w post, name = pre ++ w ++ post ∧ WordAt u pre w post ∧ ∃ p ∈ m.patterns, Same u c w p

/-! ### Verbs in an argument -/

/-- Pieces written one after another, separated by commas. -/
def commaJoin : List Str → Str
  | [] => []
  | [p] => p
  | p :: q :: ps => p ++ ',' :: commaJoin (q :: ps)

/-- A piece is a word with blanks around it and quotes around those. -/
structure Piece where
  q : Str
  b : Str
  word : Str
  b' : Str
  q' : Str
  ok : (∀ c ∈ q ++ q', c = '"' ∨ c = '\'') ∧ (∀ c ∈ b ++ b', c ∈ [' ', '\t', '\n', '\r', '\x0b', '\x0c']) ∧
    (∀ c ∈ word, c ∉ ['"', '\'', ' ', '\t', '\n', '\r', '\x0b', '\x0c', ',']) ∧ word ≠ []

def Piece.text (p : Piece) : Str := p.q ++ (p.b ++ (p.word ++ (p.b' ++ p.q')))

end Verif.MethodsSpec
