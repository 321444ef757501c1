/-!
# Model: the file in which a function called is looked for

`astFileFromFn` (internal/metadata/metadata.go:1780-1831), which gives the file whose syntax is read for the assignments of
a function called.

Simplified: files and types are lists in the order in which the program sorts them; every file that is named has been
parsed; of a parsed file only its name is kept.
-/

namespace Verif.FnFile

abbrev Text := List Char

structure Method where
  name : Text
  receiver : Text
  file : Text

/-- A file: its name, the functions declared in it and the types declared in it with their methods. -/
structure File where
  name : Text
  functions : List Text
  types : List (Text × List Method)

/-- `strings.TrimPrefix(s, "*")` -/
def trimStar : Text → Text
  | '*' :: s => s
  | s => s

/-- What is kept between files: a function and a method to fall back to. -/
structure Fall where
  func : Option Text
  meth : Option Text

/-- metadata.go:1813-1823: the methods of one type; left is the file that is returned. -/
def methods (fn recv : Text) : Fall → List Method → Text ⊕ Fall
  | s, [] => .inr s
  | s, m :: ms =>
    if m.name ≠ fn then methods fn recv s ms
    else if recv ≠ [] ∧ trimStar m.receiver = recv then .inl m.file
    else methods fn recv (if s.meth = none then { s with meth := some m.file } else s) ms

/-- metadata.go:1812-1824: the types of a file. -/
def types (fn recv : Text) : Fall → List (Text × List Method) → Text ⊕ Fall
  | s, [] => .inr s
  | s, t :: ts => match methods fn recv s t.2 with
    | .inl f => .inl f
    | .inr s => types fn recv s ts

/-- metadata.go:1801-1825: the files. -/
def files (fn recv : Text) : Fall → List File → Text ⊕ Fall
  | s, [] => .inr s
  | s, f :: fs =>
    if fn ∈ f.functions ∧ recv = [] then .inl f.name
    else
      let s := if fn ∈ f.functions ∧ s.func = none then { s with func := some f.name } else s
      match types fn recv s f.types with
      | .inl f => .inl f
      | .inr s => files fn recv s fs

/-- metadata.go:1787-1831 -/
def astFileFromFn (pkg : Option (List File)) (fn recv : Text) : Option Text :=
  match pkg with
  | none => none
  | some fs => match files fn (trimStar recv) ⟨none, none⟩ fs with
    | .inl f => some f
    | .inr s => if s.meth ≠ none then s.meth else s.func

end Verif.FnFile
