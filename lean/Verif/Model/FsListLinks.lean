import Verif.Model.FsFollow
/-!
# Model of `CollectSubs` on a Unix file system with symbolic links

`CollectSubs` of `fs/fs.go` opens a path, which follows symbolic links; `Readdir` describes each entry without following it.
The function calls itself with the text of a path, which the system follows anew.  The first argument bounds the depth of
the calls, and `none` means that it did not suffice.  The file system does not change during a call, and directories can
be opened and listed.
-/

namespace Verif.FsLinks
open Verif.Spec Verif.Path

/-- `choose_name`, fs.go:29-35. -/
def pick (opt : Fs.Opt) (full name : Str) : Str := if Fs.has opt Fs.fsFullPath then full else name

/-- The loop over the entries of the directory at the place `e`, fs.go:61-87, with the results so far and `_has_sub_dir`; the
last component tells whether the function returned with an error. -/
def entries (rec : Str → Option (List Str × Bool)) (W : World) (opt : Fs.Opt) (dir : Str) (e : List Str) (subs : List Str)
    (hasSubDir : Bool) : List Str → Option (List Str × Bool × Bool)
  | [] => some (subs, hasSubDir, false)
  | c :: cs =>
    let full := joins [dir, c]
    if W.F (e ++ [c]) = some .dir then
      if c = ['.'] ∨ c = ['.', '.'] then entries rec W opt dir e subs hasSubDir cs
      else
        let subs := if Fs.has opt Fs.fsDir && !Fs.has opt Fs.fsLeaf then subs ++ [pick opt full c] else subs
        if Fs.hasAny opt (Fs.fsDeep ||| Fs.fsLeaf) then
          match rec full with
          | none => none
          | some (r, err) => if err = false then entries rec W opt dir e (subs ++ r) true cs else some ([], true, true)
        else entries rec W opt dir e subs true cs
    else
      let subs := if Fs.has opt Fs.fsFile then subs ++ [pick opt full c] else subs
      entries rec W opt dir e subs hasSubDir cs

/-- `CollectSubs`, fs.go:57-94: the texts and the error (`true` is an error).  Failing to open or to list gives no error. -/
noncomputable def collectSubs (W : World) (cwd : List Str) (opt : Fs.Opt) : Nat → Str → Option (List Str × Bool)
  | 0, _ => none
  | k + 1, dir =>
    match W.openPath cwd dir with
    | none => some ([], false)
    | some e =>
      if W.F e = some .dir then
        match entries (collectSubs W cwd opt k) W opt dir e [] false (W.list e) with
        | none => none
        | some (subs, hasSubDir, err) =>
          if err then some ([], true)
          else if !hasSubDir && Fs.has opt (Fs.fsLeaf ||| Fs.fsDir) then some (subs ++ [pick opt dir (fileName dir)], false)
          else some (subs, false)
      else some ([], false)

end Verif.FsLinks
