import Verif.FiltersModel
/-!
# Model: the patterns in the configuration that is written out

`mergeIncludeExcludePatterns` (internal/engine/engine.go:979-1006), the choice of the configuration (729-743) and the file
written for `--output-config` (918-933).  What the written file holds besides patterns is in `Verif.HeadModel`.
-/

namespace Verif.FiltersModel
open Verif.RegexModel Verif.GitignoreModel

/-- engine.go:979-1006: the patterns of the engine are appended to those of the configuration. -/
def mergePatterns (f : Filters) (c : Patterns) : Patterns :=
  ⟨c.incFiles ++ f.incFiles, c.excFiles ++ f.excFiles, c.incPkgs ++ f.incPkgs, c.excPkgs ++ f.excPkgs⟩

/-- engine.go:729-743: the configuration handed over, else the one of the file, else a composed one, which has no
patterns. -/
def chosenConfig (direct file : Option Patterns) : Patterns := direct.getD (file.getD {})

/-- engine.go:803 and 918-933: the patterns of the configuration written after a run. -/
def written (e : Env) (auto : Bool) (modPath : Str) (deps : List Pkg → List Str) (direct file : Option Patterns) (pkgs : List Pkg) (f : Filters) : Patterns :=
  mergePatterns (run e auto modPath deps direct pkgs f).2 (chosenConfig direct file)

end Verif.FiltersModel
