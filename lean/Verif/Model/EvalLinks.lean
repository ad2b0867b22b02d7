import Verif.Model.FsDirs
/-!
# Model of `EvalSymlinks`, on a Unix file system

`filepath.EvalSymlinks` is written out from the Go library (`walkSymlinks`, as before Go 1.8).
-/

namespace Verif.FsLinks
open Verif.Spec Verif.Path

/-- The outcome of `EvalSymlinks`: too many steps, another error, or a path.  Behind file_path.go:119-121. -/
inductive Eval
  | limit
  | err
  | ok (path : Str)
deriving DecidableEq, Repr

/-- The text before the first slash and the text after it, as `walkSymlinks` of the Go library takes the next component.
Behind file_path.go:120. -/
def cut (path : Str) : Str × Str := (path.takeWhile (· ≠ '/'), (path.dropWhile (· ≠ '/')).tail)

/-- The loop of `walkSymlinks` of the Go library with the number of steps that are left, the path so far (`b`) and the path
that is left.  (The text of a symbolic link is never empty on Unix; that is an error here.)  Behind file_path.go:120. -/
noncomputable def evalGo (F : FS) (cwd : List Str) : Nat → Str → Str → Eval
  | 0, b, path => if path = [] then .ok (clean b) else .limit
  | n + 1, b, path =>
    if path = [] then .ok (clean b)
    else
      let p := (cut path).1
      let rest := (cut path).2
      if p = [] then evalGo F cwd n (if b = [] then ['/'] else b) rest
      else
        match lstat F cwd (b ++ p) with
        | none => .err
        | some e =>
          match F e with
          | some (.link t) =>
            if t = [] then .err else evalGo F cwd n (if rooted t then [] else b) (t ++ '/' :: rest)
          | _ => evalGo F cwd n (b ++ p ++ if rest = [] then [] else ['/']) rest

/-- `EvalSymlinks`, file_path.go:119-121, with the limit of steps: 256 in the Go library. -/
noncomputable def evalSymlinks (F : FS) (cwd : List Str) (me : Str) (limit : Nat := 256) : Eval := evalGo F cwd limit [] me

end Verif.FsLinks
