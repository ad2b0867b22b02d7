import Verif.Model.Go
import Verif.Spec.Path
/-!
# Model of the path functions of `fs/file_path.go`, `fs/file_line.go` and `fs/fs.go`, on Unix

Written out from the Go library (Unix): `filepath.Clean`, `Join`, `Dir`, `Base`, `HasPrefix`, `strings.Split`;
`ToSlash` is the identity there and `VolumeName` is always empty.  `filepath.Rel` is a parameter of type `RelFn` with the
contract of its documentation.  The operating system calls are not modelled here (see `FsLinks`): of `Rename`, `Link`, `Symlink` and `Move` the
model gives the destination they pass on.
-/

namespace Verif.Path
open Verif.Spec

/-- `strings.Join(ws, "/")`.  Part of the library behind file_path.go:82 and 213. -/
def joinSlash : List Str → Str
  | [] => []
  | [w] => w
  | w :: ws => w ++ '/' :: joinSlash ws

/-- One component in `filepath.Clean` of the Go library: `out` is the output so far, last component first.
Behind file_path.go:82. -/
def push (rtd : Bool) (out : List Str) (c : Str) : List Str :=
  if c = [] ∨ c = ['.'] then out
  else if c = ['.', '.'] then
    match out with
    | [] => if rtd then [] else [c]
    | t :: r => if t = ['.', '.'] then c :: out else r
  else c :: out

/-- `filepath.Clean` of the Go library.  Called at file_path.go:82. -/
def clean (s : Str) : Str :=
  if s = [] then ['.']
  else
    let out := ((comps s).foldl (push (rooted s)) []).reverse
    if rooted s then '/' :: joinSlash out
    else if out = [] then ['.'] else joinSlash out

/-- `filepath.Join` of the Go library: leading empty elements are dropped.  Called at file_path.go:213. -/
def join : List Str → Str
  | [] => []
  | e :: es => if e ≠ [] then clean (joinSlash (e :: es)) else join es

/-- `FilePath`, file_path.go:74-78, and `Set`, 81-83; `FormatPath`, file_line.go:101-103. -/
def filePath (s : Str) : Str := clean s

/-- `Joins`, file_path.go:212-215. -/
def joins (es : List Str) : Str := filePath (join es)

/-- `FilePathObject.Joins`, file_path.go:218-221. -/
def joinsAfter (me : Str) (es : List Str) : Str := joins (me :: es)

/-- `FilePathObject.Join`, file_path.go:224-226. -/
def joinChild (me child : Str) : Str := joins [me, child]

/-- The part of a path up to and with the last slash, and the rest: `filepath.Split` of the Go library
(`Split`, file_path.go:109-111), `path.Split` (`Split`, fs.go:111-113). -/
def split (s : Str) : Str × Str :=
  let n := s.length - (s.reverse.takeWhile (· ≠ '/')).length
  (s.take n, s.drop n)

/-- `Dir`, file_path.go:166-168: `filepath.Dir` of the Go library. -/
def dir (s : Str) : Str := clean (split s).1

/-- Removing trailing slashes.  Part of the library behind file_path.go:162 and 167. -/
def stripSlashes (s : Str) : Str := (s.reverse.dropWhile (· = '/')).reverse

/-- `Base`, file_path.go:161-163: `filepath.Base` of the Go library. -/
def base (s : Str) : Str :=
  if s = [] then ['.']
  else
    let s := stripSlashes s
    let f := (split s).2
    if f = [] then ['/'] else f

/-- `FileName`, fs.go:120-123. -/
def fileName (s : Str) : Str := (split s).2

/-- `Ext`, file_path.go:114-116: `filepath.Ext` of the Go library goes back from the end to the first dot, as far as there
is no slash. -/
def ext (s : Str) : Str :=
  let w := s.reverse.takeWhile (fun c => c ≠ '/' ∧ c ≠ '.')
  if (s.reverse.drop w.length).head? = some '.' then '.' :: w.reverse else []

/-- `HasPrefix`, file_path.go:181-183: `filepath.HasPrefix` of the Go library is `strings.HasPrefix` on Unix. -/
def hasPrefix (me pre : Str) : Bool := (filePath pre).isPrefixOf me

/-- `filepath.Rel` of the Go library (`none` is an error): "Rel returns a relative path that is lexically equivalent to
targpath when joined to basepath with an intervening separator"; "an error is returned if targpath can't be made relative
to basepath or if knowing the current working directory would be necessary to compute it".
Called at file_path.go:130, 136 and 142. -/
structure RelFn where
  rel : Str → Str → Option Str
  sound : ∀ b t s, rel b t = some s → rooted s = false ∧ ∀ cwd, resolve (resolve cwd b) s = resolve cwd t
  complete : ∀ b t s, rooted s = false → (∀ cwd, resolve (resolve cwd b) s = resolve cwd t) → rel b t ≠ none

/-- `Relate`, file_path.go:129-132: the error is dropped, the path is "" then; `RelatePath`, file_line.go:84-86. -/
def relate (R : RelFn) (me root : Str) : Str :=
  let s := match R.rel (filePath root) me with
    | some s => s
    | none => []
  filePath s

/-- `RelateGoPath`, file_path.go:135-138, and `RelateWorkPath`, 141-144: `goPath` and `workPath` are the package
variables, not cleaned again. -/
def relateTo (R : RelFn) (me root : Str) : Str :=
  let s := match R.rel root me with
    | some s => s
    | none => []
  filePath s

/-- `filepath.VolumeName` on Unix.  Called at file_path.go:172. -/
def volumeName (_ : Str) : Str := []

/-- `relateThisPath`, file_path.go:340-346. -/
def relateThisPath (me dest : Str) : Str :=
  let n := filePath dest
  if volumeName n = [] then filePath (joins [dir me, n]) else n

/-- The destination of `Rename`, file_path.go:289-292, `Link`, 255-259, and `Symlink`, 295-299. -/
def renameTo (me newname : Str) : Str := relateThisPath me newname

/-- The destination of `Move`, file_path.go:493-499; `none`: nothing is done and no error is reported. -/
def moveTo (me dest : Str) : Option Str :=
  let n := relateThisPath me dest
  if volumeName me = volumeName n then some (renameTo me n) else none

/-- `goPath`, file_line.go:45-52, from the value of the variable GOPATH: up to the first semicolon. -/
def goPath (env : Str) : Str := filePath (env.takeWhile (· ≠ ';') ++ "/src/".toList)

/-- `Create`, fs.go:96-109, when `opens` says whether `os.Open` of the path succeeds: it calls itself with the same path
(`_parent := _dir`), otherwise it returns nil.  `none`: no result within the fuel; otherwise whether there is an error. -/
def create (opens : Bool) : Nat → Option Bool
  | 0 => none
  | fuel + 1 => if opens then create opens fuel else some false

/-- `Copy`, file_path.go:487-490: returns "" and nil. -/
def copyTo (_me _dest : Str) : Str × Bool := ([], false)

end Verif.Path
