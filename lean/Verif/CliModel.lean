import Verif.SourceModel

/-!
# The command line

Models `parseFlags`, `writeOutput` and `main` of cmd/apispec/main.go, with the parsing loop of Go's package flag
(`FlagSet.parseOne`, documented syntax).
-/
namespace Verif.CliModel

open Verif.SourceModel (Str)

inductive Kind
  | bool
  | str
  | int
  | list
deriving DecidableEq

inductive Val
  | b (v : Bool)
  | s (v : Str)
  | i (v : Int)
  | l (v : List Str)
deriving DecidableEq

/-- One registered flag: its name, what it takes, the option it sets and the default. -/
structure Flag where
  name : Str
  kind : Kind
  field : String
  default : Val
deriving DecidableEq

/-- cmd/apispec/main.go:199-332 (defaults: engine.go:86-103, lazytree.go:358, 498). -/
def flags : List Flag := [
  ⟨"version".toList, .bool, "ShowVersion", .b false⟩,
  ⟨"V".toList, .bool, "ShowVersion", .b false⟩,
  ⟨"dir".toList, .str, "InputDir", .s ".".toList⟩,
  ⟨"d".toList, .str, "InputDir", .s ".".toList⟩,
  ⟨"output".toList, .str, "OutputFile", .s "openapi.json".toList⟩,
  ⟨"o".toList, .str, "OutputFile", .s "openapi.json".toList⟩,
  ⟨"title".toList, .str, "Title", .s "Generated API".toList⟩,
  ⟨"t".toList, .str, "Title", .s "Generated API".toList⟩,
  ⟨"api-version".toList, .str, "APIVersion", .s "1.0.0".toList⟩,
  ⟨"v".toList, .str, "APIVersion", .s "1.0.0".toList⟩,
  ⟨"description".toList, .str, "Description", .s "".toList⟩,
  ⟨"D".toList, .str, "Description", .s "".toList⟩,
  ⟨"terms".toList, .str, "TermsOfService", .s "".toList⟩,
  ⟨"T".toList, .str, "TermsOfService", .s "".toList⟩,
  ⟨"contact-name".toList, .str, "ContactName", .s "Ehab".toList⟩,
  ⟨"N".toList, .str, "ContactName", .s "Ehab".toList⟩,
  ⟨"contact-url".toList, .str, "ContactURL", .s "https://ehabterra.github.io/".toList⟩,
  ⟨"U".toList, .str, "ContactURL", .s "https://ehabterra.github.io/".toList⟩,
  ⟨"contact-email".toList, .str, "ContactEmail", .s "ehabterra@hotmail.com".toList⟩,
  ⟨"E".toList, .str, "ContactEmail", .s "ehabterra@hotmail.com".toList⟩,
  ⟨"license-name".toList, .str, "LicenseName", .s "".toList⟩,
  ⟨"L".toList, .str, "LicenseName", .s "".toList⟩,
  ⟨"license-url".toList, .str, "LicenseURL", .s "".toList⟩,
  ⟨"lu".toList, .str, "LicenseURL", .s "".toList⟩,
  ⟨"openapi-version".toList, .str, "OpenAPIVersion", .s "3.1.1".toList⟩,
  ⟨"O".toList, .str, "OpenAPIVersion", .s "3.1.1".toList⟩,
  ⟨"config".toList, .str, "ConfigFile", .s "".toList⟩,
  ⟨"c".toList, .str, "ConfigFile", .s "".toList⟩,
  ⟨"output-config".toList, .str, "OutputConfig", .s "".toList⟩,
  ⟨"oc".toList, .str, "OutputConfig", .s "".toList⟩,
  ⟨"write-metadata".toList, .bool, "WriteMetadata", .b false⟩,
  ⟨"w".toList, .bool, "WriteMetadata", .b false⟩,
  ⟨"split-metadata".toList, .bool, "SplitMetadata", .b false⟩,
  ⟨"s".toList, .bool, "SplitMetadata", .b false⟩,
  ⟨"diagram".toList, .str, "DiagramPath", .s "".toList⟩,
  ⟨"g".toList, .str, "DiagramPath", .s "".toList⟩,
  ⟨"paginated-diagram".toList, .bool, "PaginatedDiagram", .b false⟩,
  ⟨"pd".toList, .bool, "PaginatedDiagram", .b false⟩,
  ⟨"diagram-page-size".toList, .int, "DiagramPageSize", .i 100⟩,
  ⟨"dps".toList, .int, "DiagramPageSize", .i 100⟩,
  ⟨"max-nodes".toList, .int, "MaxNodesPerTree", .i 50000⟩,
  ⟨"mn".toList, .int, "MaxNodesPerTree", .i 50000⟩,
  ⟨"max-children".toList, .int, "MaxChildrenPerNode", .i 500⟩,
  ⟨"mc".toList, .int, "MaxChildrenPerNode", .i 500⟩,
  ⟨"max-args".toList, .int, "MaxArgsPerFunction", .i 100⟩,
  ⟨"ma".toList, .int, "MaxArgsPerFunction", .i 100⟩,
  ⟨"max-nested-args".toList, .int, "MaxNestedArgsDepth", .i 100⟩,
  ⟨"md".toList, .int, "MaxNestedArgsDepth", .i 100⟩,
  ⟨"max-recursion-depth".toList, .int, "MaxRecursionDepth", .i 10⟩,
  ⟨"mrd".toList, .int, "MaxRecursionDepth", .i 10⟩,
  ⟨"max-instances-per-key".toList, .int, "MaxInstancesPerKey", .i 100⟩,
  ⟨"max-nodes-per-route".toList, .int, "MaxNodesPerRoute", .i 1000000⟩,
  ⟨"legacy-tracker".toList, .bool, "LegacyTracker", .b false⟩,
  ⟨"include-file".toList, .list, "IncludeFiles", .l []⟩,
  ⟨"include-package".toList, .list, "IncludePackages", .l []⟩,
  ⟨"include-function".toList, .list, "IncludeFunctions", .l []⟩,
  ⟨"include-type".toList, .list, "IncludeTypes", .l []⟩,
  ⟨"exclude-file".toList, .list, "ExcludeFiles", .l []⟩,
  ⟨"exclude-package".toList, .list, "ExcludePackages", .l []⟩,
  ⟨"exclude-function".toList, .list, "ExcludeFunctions", .l []⟩,
  ⟨"exclude-type".toList, .list, "ExcludeTypes", .l []⟩,
  ⟨"skip-cgo".toList, .bool, "SkipCGOPackages", .b true⟩,
  ⟨"cpu-profile".toList, .bool, "CPUProfile", .b false⟩,
  ⟨"mem-profile".toList, .bool, "MemProfile", .b false⟩,
  ⟨"block-profile".toList, .bool, "BlockProfile", .b false⟩,
  ⟨"mutex-profile".toList, .bool, "MutexProfile", .b false⟩,
  ⟨"trace-profile".toList, .bool, "TraceProfile", .b false⟩,
  ⟨"custom-metrics".toList, .bool, "CustomMetrics", .b false⟩,
  ⟨"profile-dir".toList, .str, "ProfileOutputDir", .s "profiles".toList⟩,
  ⟨"cpu-profile-path".toList, .str, "ProfileCPUPath", .s "cpu.prof".toList⟩,
  ⟨"mem-profile-path".toList, .str, "ProfileMemPath", .s "mem.prof".toList⟩,
  ⟨"block-profile-path".toList, .str, "ProfileBlockPath", .s "block.prof".toList⟩,
  ⟨"mutex-profile-path".toList, .str, "ProfileMutexPath", .s "mutex.prof".toList⟩,
  ⟨"trace-profile-path".toList, .str, "ProfileTracePath", .s "trace.out".toList⟩,
  ⟨"metrics-path".toList, .str, "ProfileMetricsPath", .s "metrics.json".toList⟩,
  ⟨"analyze-framework-dependencies".toList, .bool, "AnalyzeFrameworkDependencies", .b true⟩,
  ⟨"afd".toList, .bool, "AnalyzeFrameworkDependencies", .b true⟩,
  ⟨"auto-include-framework-packages".toList, .bool, "AutoIncludeFrameworkPackages", .b true⟩,
  ⟨"aifp".toList, .bool, "AutoIncludeFrameworkPackages", .b true⟩,
  ⟨"auto-exclude-tests".toList, .bool, "AutoExcludeTests", .b true⟩,
  ⟨"aet".toList, .bool, "AutoExcludeTests", .b true⟩,
  ⟨"auto-exclude-mocks".toList, .bool, "AutoExcludeMocks", .b true⟩,
  ⟨"aem".toList, .bool, "AutoExcludeMocks", .b true⟩,
  ⟨"verbose".toList, .bool, "Verbose", .b false⟩,
  ⟨"vb".toList, .bool, "Verbose", .b false⟩
]

/-- What an argument is: package flag, parseOne. -/
inductive Tok
  | word
  | stop
  | bad
  | flag (name : Str) (value : Option Str)
deriving DecidableEq

/-- The name up to the first `=` after its first character. -/
def cutEq : Str → Str × Option Str
  | [] => ([], none)
  | c :: cs => if c = '=' then ([], some cs) else ((c :: (cutEq cs).1), (cutEq cs).2)

def nameTok : Str → Tok
  | [] => .bad
  | c :: cs => if c = '-' ∨ c = '=' then .bad else .flag (c :: (cutEq cs).1) (cutEq cs).2

def classify : Str → Tok
  | '-' :: '-' :: rest => if rest = [] then .stop else nameTok rest
  | '-' :: c :: rest => nameTok (c :: rest)
  | _ => .word

/-- strconv.ParseBool. -/
def parseBool (t : Str) : Option Bool :=
  if t ∈ ["1".toList, "t".toList, "T".toList, "TRUE".toList, "true".toList, "True".toList] then some true
  else if t ∈ ["0".toList, "f".toList, "F".toList, "FALSE".toList, "false".toList, "False".toList] then some false
  else none

/-- flag.Value.Set of the four kinds (`pInt`: strconv.ParseInt(s, 0, 64); stringSliceFlag.Set, main.go:40-43). -/
def setVal (pInt : Str → Option Int) : Kind → Val → Str → Option Val
  | .bool, _, t => (parseBool t).map .b
  | .str, _, t => some (.s t)
  | .int, _, t => (pInt t).map .i
  | .list, .l xs, t => some (.l (xs ++ [t]))
  | .list, _, _ => none

def lookup (n : Str) : Option Flag := flags.find? fun f => f.name == n

abbrev Config := String → Val

def update (c : Config) (field : String) (v : Val) : Config := fun g => if g = field then v else c g

/-- The options so far and the names of the flags that were set (FlagSet.actual). -/
structure Parsing where
  cfg : Config
  seen : List Str

inductive Outcome
  | help
  | error
  | ok (st : Parsing) (rest : List Str)

/-- FlagSet.Parse. -/
def parse (pInt : Str → Option Int) : Parsing → List Str → Outcome
  | st, [] => .ok st []
  | st, a :: as => match classify a with
    | .word => .ok st (a :: as)
    | .stop => .ok st as
    | .bad => .error
    | .flag n v => match lookup n with
      | none => if n = "help".toList ∨ n = "h".toList then .help else .error
      | some f =>
        if f.kind = .bool then
          match setVal pInt f.kind (st.cfg f.field) (v.getD "true".toList) with
          | none => .error
          | some x => parse pInt ⟨update st.cfg f.field x, st.seen ++ [n]⟩ as
        else match v with
          | some t => match setVal pInt f.kind (st.cfg f.field) t with
            | none => .error
            | some x => parse pInt ⟨update st.cfg f.field x, st.seen ++ [n]⟩ as
          | none => match as with
            | [] => .error
            | t :: as' => match setVal pInt f.kind (st.cfg f.field) t with
              | none => .error
              | some x => parse pInt ⟨update st.cfg f.field x, st.seen ++ [n]⟩ as'

/-- The options before anything is parsed. -/
def defaults : Config := fun field => match flags.find? fun f => f.field == field with
  | some f => f.default
  | none => .s []

/-- main.go:350-354. -/
def clampPage : Val → Val
  | .i n => if n < 50 then .i 50 else if n > 500 then .i 500 else .i n
  | v => v

structure Cli where
  opts : Config
  outputSet : Bool

/-- main.go:338-356. -/
def finish (st : Parsing) (rest : List Str) : Cli :=
  let c1 := match rest with
    | [] => st.cfg
    | d :: _ => update st.cfg "InputDir" (.s d)
  ⟨update c1 "DiagramPageSize" (clampPage (c1 "DiagramPageSize")), st.seen.any fun n => n == "output".toList || n == "o".toList⟩

/-- main.go:192-357 parseFlags. -/
inductive Parsed
  | help
  | error
  | cli (c : Cli)

def parseFlags (pInt : Str → Option Int) (args : List Str) : Parsed :=
  match parse pInt ⟨defaults, []⟩ args with
  | .help => .help
  | .error => .error
  | .ok st rest => .cli (finish st rest)

/-! ## What the command does -/

/-- filepath.Ext. -/
def ext (p : Str) : Str := (extFrom p).getD []
where
  /-- the text after the last dot of the last element, with the dot -/
  extFrom : Str → Option Str
    | [] => none
    | c :: cs => if c = '/' then extFrom cs
      else if c = '.' then match extFrom cs with
        | some e => some e
        | none => if '/' ∈ cs then none else some (c :: cs)
      else extFrom cs

/-- strings.ToLower, on the letters that matter here. -/
def lower (s : Str) : Str := s.map Char.toLower

def isYaml (out : Str) : Bool := lower (ext out) == ".yaml".toList || lower (ext out) == ".yml".toList

inductive Effect
  | print (s : Str)
  | file (path : Str) (content : Str)

/-- The generation as the command sees it. -/
structure Engine (Doc : Type) where
  /-- engine.GenerateOpenAPI -/
  generate : Config → Option Doc
  moduleRoot : Config → Str
  join : Str → Str → Str
  json : Doc → Str
  yaml : Doc → Str
  /-- "Successfully generated: …" or the line for no paths -/
  report : Doc → Str → Str
  notice : Str
  elapsed : Str

def strOpt (c : Config) (field : String) : Str := match c field with
  | .s v => v
  | _ => []

/-- main.go:483-564 writeOutput, encoding and writing succeeding. -/
def writeOutput {Doc} (e : Engine Doc) (c : Cli) (d : Doc) : List Effect :=
  let out := strOpt c.opts "OutputFile"
  if out = "openapi.json".toList ∧ c.outputSet = false then [.print (e.json d)]
  else
    let path := if out.head? = some '/' then out else e.join (e.moduleRoot c.opts) out
    [.file path (if isYaml out then e.yaml d else e.json d), .print (e.report d path)]

/-- main.go:566-634 main, without profiling: what it does, and whether it exits with success. -/
def run {Doc} (e : Engine Doc) (pInt : Str → Option Int) (args : List Str) : List Effect × Bool :=
  match parseFlags pInt args with
  | .help => ([.print e.notice], true)
  | .error => ([.print e.notice], false)
  | .cli c =>
    if c.opts "ShowVersion" = .b true then ([.print e.notice, .print e.notice], true)
    else match e.generate c.opts with
      | none => ([.print e.notice], false)
      | some d => (.print e.notice :: (writeOutput e c d ++ [.print e.elapsed]), true)

end Verif.CliModel
