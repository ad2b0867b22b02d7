import Verif.Model.Backtrace
import Verif.Model.WorkDir
/-!
# Model of `RelateFileLine` of `fs/file_line.go`
-/

namespace Verif.WorkDir
open Verif.Spec Verif.Path Verif.Backtrace

/-- `RelateFileLine`, file_line.go:29-34; `env` is the value of the variable GOPATH when the program started. -/
def relateFileLine (R : RelFn) (env : Str) (line : Lines) (stack : List Frame) : Str × Nat :=
  match caller (⟨"github.com/vipally/gx/fs.RelateFileLine", "file_line.go", 0, 0⟩ :: stack) 1 with
  | some f => (relateGoPath R env f.file.toList, line f.call)
  | none => ([], 0)

end Verif.WorkDir
