import Verif.RegexModel

/-!
# Model: which side of the exchange a header is read from

internal/spec/param_origin.go, the last check of `ParamPatternMatcherImpl.MatchNode`
(internal/spec/extractor.go:3402-3416), `responseWriterOriginRegex` (config.go:505-507), and what of the recorded call
they read: `CalleeVarName` and `ChainParent` (internal/metadata/metadata.go:1735-1764; the building of the graph itself
is `CallsModel`), the recorded types of expressions (internal/metadata/expression.go:112-294).
-/

namespace Verif.HeaderSide

open Verif.RegexModel (Re accepts)

abbrev Str := List Char

/-- Expressions, with what the analyser records of them.  An empty type is none. -/
inductive Exp
  /-- A variable; `obj`: it is declared in the same file. -/
  | var (x : String) (obj : Bool) (ty : Str)
  /-- `e.f`, a field. -/
  | field (e : Exp) (f : String) (ty : Str)
  /-- `e.m(…)`; `forms` are the receiver types recorded for the call (recv_forms.go:36-60), `ty` is that of its
  result. -/
  | method (e : Exp) (m : String) (forms : List Str) (ty : Str)
  /-- `f(…)` or `pkg.f(…)`; `forms` is the package, `root` the name before the dot, `sig` the type of the name. -/
  | func (f : String) (root : String) (forms : List Str) (sig ty : Str)
  /-- `T(e)` -/
  | conv (e : Exp)
  /-- Anything else: assertions, literals, operators; `ty` is the recorded type. -/
  | other (n : Nat) (ty : Str)

/-- `CallArgument.GetType()`: none for conversions (expression.go:262-266). -/
def Exp.type : Exp → Str
  | .var _ _ ty => ty
  | .field _ _ ty => ty
  | .method _ _ _ ty => ty
  | .func _ _ _ _ ty => ty
  | .conv _ => []
  | .other _ ty => ty

/-- The edge recorded before the call in question: its chain, itself first, and its `CalleeVarName`. -/
structure Before where
  chain : List (List Str)
  var : String

/-- metadata.go:1745-1750 and param_origin.go:49-51: the receiver types of the calls that the call on `e` is chained
onto.  A conversion records nothing, and the last recorded edge is taken for it. -/
def parents (b : Before) : Exp → List (List Str)
  | .method e _ forms _ => forms :: parents b e
  | .func _ _ forms _ _ => [forms]
  | .conv _ => b.chain
  | _ => []

/-- metadata.go:1834-1846: `extractRootVariable`. -/
def rootVar : Exp → String
  | .var x _ _ => x
  | .field e _ _ => rootVar e
  | .method e _ _ _ => rootVar e
  | .func _ root _ _ _ => root
  | _ => ""

/-- metadata.go:1740-1763: `CalleeVarName` of a call on `e`. -/
def calleeVar (b : Before) : Exp → String
  | .var x obj _ => if obj then x else ""
  | .method e m forms ty => if calleeVar b e = "" then rootVar (.method e m forms ty) else ""
  | .func _ root _ _ _ => root
  | .conv _ => ""
  | _ => ""

/-- param_origin.go:92-115: `argOriginTypes`, with the remaining steps. -/
def spine : Nat → Exp → List Str
  | 0, _ => []
  | n + 1, e =>
    (if e.type ≠ [] then [e.type] else []) ++
      match e with
      | .method e _ _ _ => spine n e
      | .field e _ _ => spine n e
      | .func _ root _ sig _ => if root = "" ∧ n ≠ 0 ∧ sig ≠ [] then [sig] else []
      | _ => []

/-- param_origin.go:39-66: `receiverOriginTypes` of a call on `e`; `assigns x` are the recorded assignments to `x`. -/
def origins (b : Before) (assigns : String → List Exp) (e : Exp) : List Str :=
  ((parents b e).take 8).flatten ++
    (if calleeVar b e ≠ "" then
      match (assigns (calleeVar b e)).getLast? with
      | some v => spine 8 v
      | none => []
    else [])

/-- extractor.go:3402-3416: the read is not a parameter. -/
def excluded (re : Str → Bool) (b : Before) (assigns : String → List Exp) (e : Exp) : Bool :=
  (origins b assigns e).any re

/-- A literal text as a regular expression. -/
def text : Str → Re
  | [] => .eps
  | c :: s => .cat (.cls (· == c)) (text s)

def opt (r : Re) : Re := .alt r .eps

def digit : Re := .cls fun c => decide ('0' ≤ c) && decide (c ≤ '9')

def httpDot : Str := "net/http.".toList
def echoPath : Str := "github.com/labstack/echo".toList
def ginDot : Str := "github.com/gin-gonic/gin.".toList
def writerName : Str := "ResponseWriter".toList
def responseName : Str := "Response".toList
def version : Str := "/v".toList

/-- config.go:505-507: `responseWriterOriginRegex`. -/
def writerRe : Re :=
  .cat (opt (text ['*']))
    (.alt (.cat (text httpDot) (.cat (opt (text ['*'])) (text writerName)))
      (.alt (.cat (text echoPath) (.cat (opt (.cat (text version) (.cat digit (.star digit)))) (.cat (text ['.'])
          (.cat (opt (text ['*'])) (text responseName)))))
        (.cat (text ginDot) (.cat (opt (text ['*'])) (text writerName)))))

def isWriter (t : Str) : Bool := accepts writerRe t

end Verif.HeaderSide
