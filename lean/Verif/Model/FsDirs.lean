import Verif.Model.FsLinks
import Mathlib.Tactic.SplitIfs
/-!
# Model of `Mkdir`, `MkdirAll`, `Remove`, `RemoveAll`, `Stat`, `Lstat`, `Readlink` and `Abs`, on a Unix file system

`os.MkdirAll`, `os.RemoveAll` and `filepath.Abs` are written out from the Go library (as before Go 1.12, the versions of
the time of this code).  The system calls have the meaning of mkdir(2), unlink(2), rmdir(2), stat(2), lstat(2) and
readlink(2).  Left out: rights, limits of length, and changes by others during a call.
-/

namespace Verif.FsLinks
open Verif.Spec Verif.Path

open Classical in
/-- `Stat`, file_path.go:332-334: the place the path leads to, `none` for an error. -/
noncomputable def stat (F : FS) (cwd : List Str) (me : Str) : Option (List Str) :=
  if h : ∃ e, LeadsTo F cwd me e then some h.choose else none

open Classical in
/-- `Lstat`, file_path.go:327-329: as `stat`, but a symbolic link in the last component is not followed.  (Last components
other than names, as in "." or "/", are followed.) -/
noncomputable def lstat (F : FS) (cwd : List Str) (me : Str) : Option (List Str) :=
  if h : ∃ e, Names F cwd me e ∧ F e ≠ none then some h.choose
  else if ∃ cs c, comps me = cs ++ [c] ∧ Plain c then none
  else stat F cwd me

/-- `Readlink`, file_path.go:272-274: the text of the symbolic link that the path names. -/
noncomputable def readlink (F : FS) (cwd : List Str) (me : Str) : Option Str :=
  match lstat F cwd me with
  | none => none
  | some e =>
    match F e with
    | some (.link t) => some t
    | _ => none

open Classical in
/-- `Mkdir`, file_path.go:262-264: `none` is an error.  (Paths are clean: a slash at the end, which mkdir(2) takes, does not
occur.) -/
noncomputable def mkdir (F : FS) (cwd : List Str) (me : Str) : Option FS :=
  if h : ∃ e, Names F cwd me e ∧ F e = none then some (F.put h.choose .dir) else none

/-- The path that `os.MkdirAll` of the Go library calls itself with: slashes at the end are skipped, then the last element;
`path[0:j-1]`, if `j > 1`.  Behind file_path.go:268. -/
def above (s : Str) : Option Str :=
  let i := (s.reverse.dropWhile (· = '/')).reverse
  let j := (i.reverse.dropWhile (· ≠ '/')).reverse
  if j.length > 1 then some j.dropLast else none

theorem above_lt {s t : Str} (h : above s = some t) : t.length < s.length := by
  unfold above at h
  extract_lets i j at h
  split_ifs at h with hj
  cases h
  have h1 := (List.dropWhile_suffix (p := fun c : Char => decide (c = '/')) (l := s.reverse)).length_le
  have h2 := (List.dropWhile_suffix (p := fun c : Char => decide (c ≠ '/')) (l := i.reverse)).length_le
  have h3 : j.length ≤ s.length := by
    simp only [List.length_reverse, i, j] at h1 h2 ⊢
    omega
  rw [List.length_dropLast]
  omega

/-- `MkdirAll`, file_path.go:267-269: the file system afterwards, and whether there was an error. -/
noncomputable def mkdirAll (F : FS) (cwd : List Str) (me : Str) : FS × Bool :=
  match stat F cwd me with
  | some e => (F, decide (F e ≠ some .dir))
  | none =>
    let r := match h : above me with
      | some up => have := above_lt h; mkdirAll F cwd up
      | none => (F, false)
    if r.2 then r
    else
      match mkdir r.1 cwd me with
      | some F' => (F', false)
      | none =>
        match lstat r.1 cwd me with
        | some e => (r.1, decide (r.1 e ≠ some .dir))
        | none => (r.1, true)
termination_by me.length

/-- The file system with nothing at a place, as unlink(2) and rmdir(2) leave it.  Behind file_path.go:278. -/
def FS.del (F : FS) (e : List Str) : FS := fun q => if q = e then none else F q

open Classical in
/-- `Remove`, file_path.go:277-279: a file, a symbolic link or an empty directory that the path names is removed; `none` is
an error. -/
noncomputable def remove (F : FS) (cwd : List Str) (me : Str) : Option FS :=
  if h : ∃ e, Names F cwd me e ∧ F e ≠ none ∧ (F e = some .dir → ∀ c, F (e ++ [c]) = none) then
    some (FS.del F h.choose)
  else none

/-- The loop of `os.RemoveAll` of the Go library over the names in a directory.  Errors do not end it; the first is kept, but
whether there is an error in the end depends on the last removal only.  Behind file_path.go:284. -/
def removeLoop (rec : FS → Str → Option (FS × Bool)) (me : Str) (F : FS) : List Str → Option FS
  | [] => some F
  | c :: cs =>
    match rec F (me ++ '/' :: c) with
    | none => none
    | some (F', _) => removeLoop rec me F' cs

/-- `RemoveAll`, file_path.go:283-285: the file system afterwards, and whether there was an error.  `ls` gives the names in a
directory; they are read before the removals (the library reads a hundred at a time).  The first argument bounds the depth
of the calls, and `none` means that it did not suffice.  That a path does not exist is no error.
(Nor is, in the model, that it runs into a loop of symbolic links.) -/
noncomputable def removeAll (ls : FS → List Str → List Str) (cwd : List Str) : Nat → FS → Str → Option (FS × Bool)
  | 0, _, _ => none
  | k + 1, F, me =>
    match remove F cwd me with
    | some F' => some (F', false)
    | none =>
      match lstat F cwd me with
      | none => some (F, false)
      | some e =>
        if F e ≠ some .dir then some (F, true)
        else
          match stat F cwd me with
          | none => some (F, false)
          | some d =>
            match removeLoop (removeAll ls cwd k) me F (ls F d) with
            | none => none
            | some F1 =>
              match remove F1 cwd me with
              | some F2 => some (F2, false)
              | none => some (F1, decide (lstat F1 cwd me ≠ none))

/-- `Abs`, file_path.go:124-126: `filepath.Abs` of the Go library, with the text of the working directory. -/
def abs (wd me : Str) : Str := if rooted me then clean me else join [wd, me]

end Verif.FsLinks
