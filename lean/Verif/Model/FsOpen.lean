import Verif.Model.FsDirs
/-!
# Model of `Create`, `Open`, `OpenFile` and `Truncate`, on a Unix file system

The files of the file systems of C131 get contents, by the number of their inode.  `os.Create`, `os.Open`, `os.OpenFile` and
`os.Truncate` have the meaning of open(2) and truncate(2).  Left out: rights, limits of length, special files, the ends of
the disk, and changes by others during a call.
-/

namespace Verif.FsLinks
open Verif.Spec Verif.Path

/-- Bytes, as in the files opened at file_path.go:307-324. -/
abbrev Byte := BitVec 8

/-- A file system, and the content of each inode.  The state behind file_path.go:302-324. -/
structure Store where
  F : FS
  data : Nat → List Byte

/-- The world with another content of an inode.  Behind file_path.go:302-324. -/
def Store.write (w : Store) (i : Nat) (bs : List Byte) : Store := ⟨w.F, fun j => if j = i then bs else w.data j⟩

/-- The world with a new empty file.  Behind file_path.go:307-309. -/
def Store.make (w : Store) (e : List Str) (i : Nat) : Store := (Store.mk (w.F.put e (.file i)) w.data).write i []

/-- Where open(2) with `O_CREAT` makes a file: all components but the last exist; symbolic links are followed, also a link in
the last component.  Behind file_path.go:307-309. -/
inductive Makes (F : FS) : List Str → List Str → List Str → Prop
  | here {d : List Str} {c : Str} : F d = some .dir → Plain c → F (d ++ [c]) = none → Makes F d [c] (d ++ [c])
  | stay {d : List Str} {c : Str} {cs : List Str} {e : List Str} : F d = some .dir → c = [] ∨ c = ['.'] → Makes F d cs e →
    Makes F d (c :: cs) e
  | up {d : List Str} {cs : List Str} {e : List Str} : F d = some .dir → Makes F d.dropLast cs e →
    Makes F d (['.', '.'] :: cs) e
  | down {d : List Str} {c : Str} {cs : List Str} {n : Node} {e : List Str} : F d = some .dir → Plain c →
    F (d ++ [c]) = some n → (∀ t, n ≠ .link t) → Makes F (d ++ [c]) cs e → Makes F d (c :: cs) e
  | follow {d : List Str} {c : Str} {cs : List Str} {t : Str} {e : List Str} : F d = some .dir → Plain c →
    F (d ++ [c]) = some (.link t) → t ≠ [] → Makes F (if rooted t then [] else d) (comps t ++ cs) e → Makes F d (c :: cs) e

/-- Flags of `OpenFile`, file_path.go:322-324: `O_WRONLY` or `O_RDWR`, `O_CREATE`, `O_EXCL`, `O_TRUNC`. -/
structure Flags where
  write : Bool
  creat : Bool
  excl : Bool
  trunc : Bool

open Classical in
/-- `OpenFile`, file_path.go:322-324: the world afterwards and the place opened; `none` is an error.  `i` is the number of
the inode that a new file gets.  With `O_CREATE` and `O_EXCL` a link in the last component is not followed. -/
noncomputable def openFile (w : Store) (cwd : List Str) (me : Str) (f : Flags) (i : Nat) : Option (Store × List Str) :=
  if f.creat && f.excl then
    if h : ∃ e, Names w.F cwd me e ∧ w.F e = none then some (w.make h.choose i, h.choose) else none
  else
    match stat w.F cwd me with
    | some e =>
      match w.F e with
      | some (.file j) => some (if f.trunc then w.write j [] else w, e)
      | _ => if f.write || f.creat || f.trunc then none else some (w, e)
    | none =>
      if f.creat then
        if h : ∃ e, me ≠ [] ∧ Makes w.F (startOf cwd me) (comps me) e then some (w.make h.choose i, h.choose) else none
      else none

/-- `Create`, file_path.go:307-309. -/
noncomputable def create (w : Store) (cwd : List Str) (me : Str) (i : Nat) : Option (Store × List Str) :=
  openFile w cwd me ⟨true, true, false, true⟩ i

/-- `Open`, file_path.go:317-319, with the content of the file (that of a directory cannot be read). -/
noncomputable def openRead (w : Store) (cwd : List Str) (me : Str) : Option (List Byte) :=
  match openFile w cwd me ⟨false, false, false, false⟩ 0 with
  | none => none
  | some (w', e) =>
    match w'.F e with
    | some (.file j) => some (w'.data j)
    | _ => none

/-- `Truncate`, file_path.go:302-304: `none` is an error. -/
noncomputable def truncate (w : Store) (cwd : List Str) (me : Str) (size : Int) : Option Store :=
  if size < 0 then none
  else
    match stat w.F cwd me with
    | none => none
    | some e =>
      match w.F e with
      | some (.file j) =>
        some (w.write j ((w.data j).take size.toNat ++ List.replicate (size.toNat - (w.data j).length) 0))
      | _ => none

end Verif.FsLinks
