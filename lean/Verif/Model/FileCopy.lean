import Verif.Model.IoCopy
import Verif.Model.FsOpen
/-!
# Files as the writers of `Copys`

A file that `Create` has opened is passed to `Copys`.
-/

namespace Verif.FsLinks
open Verif.Spec Verif.Path Verif.IoCopy

/-- An open file, as `Create` (file_path.go:307-309) returns it: its inode in the file system, the bytes for which there is
room on the disk, and the errors its `Write` has returned.  The position is the end of the content, as it is for a file just
created to which only this writer writes. -/
structure File where
  w : Store
  ino : Nat
  room : Nat
  errs : List Err

/-- `Write` of an `os.File` of the Go library: as many bytes as there is room for are added to the content; if these are not
all, the error is `ENOSPC` (28).  Called at io.go:33, with the file of file_path.go:308. -/
def File.write : Write File := fun f p =>
  if p.length ≤ f.room then
    ({ f with w := f.w.write f.ino (f.w.data f.ino ++ p), room := f.room - p.length }, p.length, none)
  else
    ({ f with w := f.w.write f.ino (f.w.data f.ino ++ p.take f.room), room := 0, errs := f.errs ++ [.other 28] }, f.room,
      some (.other 28))

end Verif.FsLinks
