/-!
# Specification: gitignore matching, segment by segment

Nothing here refers to regular expressions or to the model.
-/

namespace Verif.GitignoreSpec

abbrev Str := List Char

/-- A path or pattern cut at its slashes. -/
def splitSlash : Str → List Str
  | [] => [[]]
  | c :: s => if c = '/' then [] :: splitSlash s else match splitSlash s with
    | [] => [[c]]
    | x :: xs => (c :: x) :: xs

/-- Membership in a bracket class, given the text between the brackets. -/
def Member : Str → Char → Prop
  | [], _ => False
  | a :: '-' :: b :: rest, c => (a ≤ c ∧ c ≤ b) ∨ Member rest c
  | a :: rest, c => c = a ∨ Member rest c

/-- A pattern segment against a path segment. -/
inductive Glob : Str → Str → Prop
  | nil : Glob [] []
  | lit {c p s} : c ∉ ['*', '?', '['] → Glob p s → Glob (c :: p) (c :: s)
  | any {c p s} : Glob p s → Glob ('?' :: p) (c :: s)
  | star {p s t} : Glob p t → Glob ('*' :: p) (s ++ t)
  | cls {inner c p s} : ']' ∉ inner → Member inner c → Glob p s → Glob ('[' :: (inner ++ ']' :: p)) (c :: s)

/-- The segment `**`. -/
def deep : Str := ['*', '*']

/-- Pattern segments against path segments: `**` stands for any number of segments, any other
segment for exactly one. -/
inductive PathMatch : List Str → List Str → Prop
  | done : PathMatch [] []
  | seg {g gs x xs} : g ≠ deep → Glob g x → PathMatch gs xs → PathMatch (g :: gs) (x :: xs)
  | deep {gs xs ys} : PathMatch gs xs → PathMatch (deep :: gs) (ys ++ xs)

/-- Without one leading slash. -/
def unrooted : Str → Str
  | '/' :: s => s
  | s => s

/-- A pattern without its trailing slash. -/
def body (p : Str) : Str := if p.getLast? = some '/' then p.dropLast else p

/-- The segments a pattern stands for: a pattern without a slash applies at any depth, and a
pattern with a trailing slash covers everything below. -/
def segments (p : Str) : List Str :=
  let l := splitSlash (body p)
  (if l.length = 1 then deep :: l else l) ++ (if p.getLast? = some '/' then [deep] else [])

/-- What a pattern without negation matches. -/
def Hits (p path : Str) : Prop := PathMatch (segments (unrooted p)) (splitSlash (unrooted path))

/-- What a pattern matches. -/
def Ignores : Str → Str → Prop
  | [], _ => False
  | ['!'], _ => False
  | '!' :: p, path => ¬ Hits p path
  | p, path => Hits p path

/-- Bracket classes inside the supported fragment: some members, no nesting, no negation, no
escapes, ascending ranges that do not span the slash. -/
def SimpleClass (inner : Str) : Prop :=
  inner ≠ [] ∧ (∀ c ∈ inner, c ∉ ['[', ']', '\\', '^', '!', '/']) ∧ ¬ Member inner '/' ∧
  ∀ pre a b post, inner = pre ++ a :: '-' :: b :: post → a ≤ b

/-- Segments inside the supported fragment: no doubled star, brackets closed. -/
inductive CleanSeg : Str → Prop
  | nil : CleanSeg []
  | lit {c p} : c ∉ ['*', '?', '[', '/'] → CleanSeg p → CleanSeg (c :: p)
  | any {p} : CleanSeg p → CleanSeg ('?' :: p)
  | star {p} : p.head? ≠ some '*' → CleanSeg p → CleanSeg ('*' :: p)
  | cls {inner p} : SimpleClass inner → CleanSeg p → CleanSeg ('[' :: (inner ++ ']' :: p))

/-- Patterns inside the supported fragment: each segment is `**` or clean, and the pattern does
not end in `**/**`. -/
def Clean (p : Str) : Prop :=
  (∀ g ∈ splitSlash (body p), g = deep ∨ CleanSeg g) ∧ ∀ gs, splitSlash (body p) ≠ gs ++ [deep, deep]

end Verif.GitignoreSpec
