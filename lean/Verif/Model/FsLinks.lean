import Verif.Model.Path
import Verif.Spec.Links
/-!
# Model of `Symlink`, `Link` and `Rename` of path objects, on a Unix file system

The system calls are relations with the meaning of symlink(2), link(2) and rename(2), for the cases in which they succeed:
they fail otherwise and change nothing.
-/

namespace Verif.FsLinks
open Verif.Spec Verif.Path

/-- `os.Symlink` of the Go library: a link that holds `old` appears at the place that `new` names, where nothing was.
Called at file_path.go:297. -/
def osSymlink (F : FS) (cwd : List Str) (old new : Str) (F' : FS) : Prop :=
  old ≠ [] ∧ ∃ e, Names F cwd new e ∧ F e = none ∧ F' = F.put e (.link old)

/-- `os.Link` of the Go library: what is at the place that `old` names is also at the place that `new` names.  Directories
are refused.  Called at file_path.go:257. -/
def osLink (F : FS) (cwd : List Str) (old new : Str) (F' : FS) : Prop :=
  ∃ a e n, Names F cwd old a ∧ F a = some n ∧ n ≠ .dir ∧ Names F cwd new e ∧ F e = none ∧ F' = F.put e n

/-- `os.Rename` of the Go library: all that is at the place that `old` names is at the place that `new` names instead.  A
directory at the new place is refused, and so is a file there when a directory is to be moved, and a new place inside the old
one.  Nothing happens when both are the same file already.  Called at file_path.go:291. -/
def osRename (F : FS) (cwd : List Str) (old new : Str) (F' : FS) : Prop :=
  ∃ a e, Names F cwd old a ∧ F a ≠ none ∧ Names F cwd new e ∧ F e ≠ some .dir ∧ (F a = some .dir → F e = none) ∧
    (((a = e ∨ ∃ i, F a = some (.file i) ∧ F e = some (.file i)) ∧ F' = F) ∨
      (¬ (a = e ∨ ∃ i, F a = some (.file i) ∧ F e = some (.file i)) ∧ ¬ a <+: e ∧ F' = F.move a e))

/-- `Symlink`, file_path.go:295-299, when there is no error: the path returned and the file system afterwards. -/
def symlink (F : FS) (cwd : List Str) (me newname n : Str) (F' : FS) : Prop :=
  n = relateThisPath me newname ∧ osSymlink F cwd me n F'

/-- `Link`, file_path.go:255-259, when there is no error. -/
def link (F : FS) (cwd : List Str) (me linkname n : Str) (F' : FS) : Prop :=
  n = relateThisPath me linkname ∧ osLink F cwd me n F'

/-- `Rename`, file_path.go:289-292, when there is no error. -/
def rename (F : FS) (cwd : List Str) (me newname n : Str) (F' : FS) : Prop :=
  n = relateThisPath me newname ∧ osRename F cwd me n F'

end Verif.FsLinks
