import Verif.ConfigModel
/-! # Specification vocabulary for detection and configuration merging -/

namespace Verif.Config

/-- An import counts for the first registered framework one of whose source patterns it
contains. -/
def Belongs (has : String → String → Bool) (reg : List Framework) (path name : String) : Prop :=
  ∃ a f b, reg = a ++ f :: b ∧ f.name = name ∧ (∃ p ∈ f.sourcePatterns, has path p = true) ∧
    ∀ g ∈ a, ∀ p ∈ g.sourcePatterns, has path p = false

/-- The imports of all files that parse, in walk order. -/
def allImports (files : List (Option (List String))) : List String := files.flatMap (·.getD [])

/-- A pattern limited to some receiver or package. -/
def IsScoped (p : Pat) : Prop := p.recvType ≠ "" ∨ p.recvRe ≠ ""

/-- The calls two patterns claim are described the same way. -/
def SameSurface (a b : Pat) : Prop :=
  a.callRe = b.callRe ∧ a.fnRe = b.fnRe ∧ a.recvType = b.recvType ∧ a.recvRe = b.recvRe ∧ a.paramIn = b.paramIn ∧ a.scope = b.scope

/-- No field contains the NUL character. -/
def NulFree (p : Pat) : Prop :=
  ∀ s ∈ [p.callRe, p.fnRe, p.recvType, p.recvRe, p.paramIn, p.scope], '\x00' ∉ s.toList

/-- Fields a pattern kind does not use are empty: only parameters have a location and only
security patterns a scope. -/
def WellKinded : Kind → Pat → Prop
  | .param, p => p.scope = ""
  | .security, p => p.paramIn = ""
  | _, p => p.paramIn = "" ∧ p.scope = ""

/-- What every built-in preset keeps to: outside routes no function-name pattern, and an
exact receiver type only in routes and parameters. -/
def PresetStyle : Kind → Pat → Prop
  | .route, _ => True
  | .param, p => p.fnRe = ""
  | _, p => p.fnRe = "" ∧ p.recvType = ""

end Verif.Config
