import Verif.Model.Path
/-!
# Model of the working directory of `fs/file_line.go`, on Unix

The package keeps the working directory in a variable, filled when the program starts and filled again by `Chdir`.  The
operating system is a parameter: which directories can be entered, and what `os.Getwd` answers.
-/

namespace Verif.WorkDir
open Verif.Spec Verif.Path

/-- The operating system, as far as `os.Chdir` and `os.Getwd` of the Go library show it.  A directory is given by the
names that lead to it from the root; there are no symbolic links and nobody renames directories.
Called at file_line.go:60 and 94. -/
structure Os where
  /-- Whether the directory exists and may be entered at that time (counted in calls of `os.Chdir`). -/
  enter : Nat → List Str → Bool
  /-- `os.Getwd` at that time, in that directory; `none` is an error. -/
  getwd : Nat → List Str → Option Str
  /-- "Getwd returns a rooted path name corresponding to the current directory." -/
  getwd_law : ∀ n d s, getwd n d = some s → rooted s = true ∧ ∀ cwd, resolve cwd s = d

/-- The process: its working directory, kept by the operating system; the variable `gWorkPath`, file_line.go:17; and the
number of calls of `os.Chdir` so far. -/
structure Proc where
  cwd : List Str
  gWorkPath : Str
  time : Nat
deriving DecidableEq, Repr

/-- `workPath`, file_line.go:59-66: panics when `os.Getwd` fails. -/
def workPath (O : Os) (n : Nat) (d : List Str) : Res Str :=
  match O.getwd n d with
  | some s => .ok s
  | none => .panic

/-- The initialisation of `gWorkPath`, file_line.go:17, of a program started in the directory `d`. -/
def start (O : Os) (d : List Str) : Res Proc :=
  match workPath O 0 d with
  | .ok s => .ok ⟨d, s, 0⟩
  | .panic => .panic

/-- How a call of `Chdir` ends: nil, an error, or a panic, which the caller may recover.  file_line.go:93-98. -/
inductive Out | nil | err | panic
deriving DecidableEq, Repr

/-- `Chdir`, file_line.go:93-98.  `os.Chdir` resolves the formatted path from the working directory. -/
def chdir (O : Os) (st : Proc) (filePath' : Str) : Proc × Out :=
  let d := resolve st.cwd (filePath filePath')
  let n := st.time + 1
  if O.enter n d then
    match workPath O n d with
    | .ok s => (⟨d, s, n⟩, .nil)
    | .panic => (⟨d, st.gWorkPath, n⟩, .panic)
  else (⟨st.cwd, st.gWorkPath, n⟩, .err)

/-- `os.Chdir` called by other code of the process, not by this package: the variable is not refreshed.
What the package does not see; `workPath` is called only at file_line.go:59-66 and 93-98. -/
def osChdir (O : Os) (st : Proc) (p : Str) : Proc × Out :=
  let d := resolve st.cwd p
  let n := st.time + 1
  if O.enter n d then (⟨d, st.gWorkPath, n⟩, .nil) else (⟨st.cwd, st.gWorkPath, n⟩, .err)

/-- A call that may change the working directory: `Chdir` of the package, or `os.Chdir` directly.
file_line.go:93-98. -/
inductive Call
  | chdir (p : Str)
  | osChdir (p : Str)
deriving DecidableEq, Repr

/-- One call.  file_line.go:93-98. -/
def call (O : Os) (st : Proc) : Call → Proc × Out
  | .chdir p => chdir O st p
  | .osChdir p => osChdir O st p

/-- A history of calls, each recovered if it panics; with how each of them ended.  Calls of file_line.go:93-98. -/
def calls (O : Os) (st : Proc) : List Call → Proc × List Out
  | [] => (st, [])
  | c :: cs =>
    let r := call O st c
    let t := calls O r.1 cs
    (t.1, r.2 :: t.2)

/-- `WorkPath`, file_line.go:69-71. -/
def getWorkPath (st : Proc) : Str := st.gWorkPath

/-- `RelateWorkPath`, file_line.go:79-81: the object made from the path (file_path.go:74-78), then the method
`RelateWorkPath`, file_path.go:141-144. -/
def relateWorkPath (R : RelFn) (st : Proc) (p : Str) : Str := relateTo R (filePath p) st.gWorkPath

/-- `RelateGoPath`, file_line.go:74-76, from the value of the variable GOPATH when the program started. -/
def relateGoPath (R : RelFn) (env p : Str) : Str := relateTo R (filePath p) (goPath env)

end Verif.WorkDir
