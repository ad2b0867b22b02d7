import Verif.Model.Fs
import Verif.Model.FsLinks
/-!
# Model of `Fingerprint`, `Hash` and `Statistic` on a Unix file system with symbolic links

The functions call themselves with the text of a path, which the system follows anew each time.  They need not return: the
first argument bounds the depth of the calls, and `none` means that it did not suffice.  The file system does not change
during a call; files can be read, and directories be listed.
-/

namespace Verif.FsLinks
open Verif.Spec Verif.Path Verif.FileHash Verif.Hash Verif.Tree

/-- A file system, the content of the files and the order in which directories are listed.  What file_path.go:349-484 sees
through `Open`, `Stat`, `Readdir` and `Walk`. -/
structure World where
  F : FS
  content : Nat → List UInt8
  list : List Str → List Str

open Classical in
/-- The place that components lead to from a place, if there is one.  `os.Open` of the Go library, called at
file_path.go:317-319. -/
noncomputable def World.at (W : World) (d cs : List Str) : Option (List Str) :=
  if h : ∃ e, Leads W.F d cs e then some h.choose else none

/-- `Open`, file_path.go:317-319. -/
noncomputable def World.openPath (W : World) (cwd : List Str) (me : Str) : Option (List Str) :=
  if me = [] then none else W.at (startOf cwd me) (comps me)

open Classical in
/-- `os.Lstat` of the Go library, called by `filepath.Walk` (file_path.go:154) for the root and for each entry: a symbolic
link in the last component is not followed.  (Other components than names, as in "." or "/", are.) -/
noncomputable def World.lstat (W : World) (cwd : List Str) (me : Str) : Option (List Str) :=
  if h : ∃ e, Names W.F cwd me e ∧ W.F e ≠ none then some h.choose
  else if ∃ cs c, comps me = cs ++ [c] ∧ Plain c then none
  else W.openPath cwd me

/-- The bytes of a text.  file_path.go:430. -/
def strBytes (s : Str) : Bytes := (String.ofList s).toUTF8.data.toList

/-- The loop over the entries, file_path.go:404-415 and 453-464: an error ends it. -/
def loop (rec : Str → Option (Option (Tree FileHash))) (me : Str) (acc : List (Tree FileHash)) :
    List Str → Option (Option (List (Tree FileHash)))
  | [] => some (some acc)
  | c :: cs =>
    if c ≠ ['.'] ∧ c ≠ ['.', '.'] then
      match rec (filePath (joinChild me c)) with
      | none => none
      | some none => some none
      | some (some sub) => loop rec me (SortSlice.insert ⟨acc⟩ sub (-1)).1.d cs
    else loop rec me acc cs

variable (M S C : Alg) (srt : Fs.Sorter) (W : World) (cwd : List Str)

/-- `Fingerprint`, file_path.go:393-436; `some none` is an error. -/
noncomputable def fingerprint : Nat → Str → Option (Option (Tree FileHash))
  | 0, _ => none
  | k + 1, me =>
    match W.openPath cwd me with
    | none => some none
    | some e =>
      match W.F e with
      | some .dir =>
        match loop (fingerprint k) me [] (W.list e) with
        | none => none
        | some none => some none
        | some (some cs) =>
          let cs := srt.sort cs
          let h := cs.foldl (fun h c => (h.write c.val.hash).1) (FP.new : FP M S C)
          let size := cs.foldl (fun n c => n + c.val.size) 0
          let h := h.resetsize size.toBitVec
          some (some (.node ⟨strBytes me, Fs.textBytes h.string, size, true⟩ cs))
      | some (.file i) =>
        let h := ((FP.new : FP M S C).write (W.content i)).1
        let size := UInt64.ofNat (W.content i).length
        let h := h.resetsize size.toBitVec
        some (some (.node ⟨strBytes me, Fs.textBytes h.string, size, false⟩ []))
      | _ => some none

/-- `Hash`, file_path.go:439-484, for a method of the Go library and a salt; `some none` is an error. -/
noncomputable def hash (A : Alg) (salt : Bytes) : Nat → Str → Option (Option (Tree FileHash))
  | 0, _ => none
  | k + 1, me =>
    match W.openPath cwd me with
    | none => some none
    | some e =>
      let h := if salt ≠ [] then A.write A.init salt else A.init
      match W.F e with
      | some .dir =>
        match loop (hash A salt k) me [] (W.list e) with
        | none => none
        | some none => some none
        | some (some cs) =>
          let cs := srt.sort cs
          let h := cs.foldl (fun h c => A.write h c.val.hash) h
          let size := cs.foldl (fun n c => n + c.val.size) 0
          some (some (.node ⟨strBytes me, Fs.textBytes (hexBytes (A.sum h)), size, true⟩ cs))
      | some (.file i) =>
        let h := A.write h (W.content i)
        some (some (.node ⟨strBytes me, Fs.textBytes (hexBytes (A.sum h)), UInt64.ofNat (W.content i).length, false⟩ []))
      | _ => some none

/-- The entries of a directory in `filepath.Walk`, called at file_path.go:154: `Join` of the Go library and each entry in
turn.  (`Walk` visits in lexical order; the counts do not depend on it.) -/
def walkNames (rec : Fs.Stat → Str → Option Fs.Stat) (me : Str) (s : Fs.Stat) : List Str → Option Fs.Stat
  | [] => some s
  | c :: cs =>
    match rec s (joinChild me c) with
    | none => none
    | some s => walkNames rec me s cs

/-- `Statistic`, file_path.go:349-371, over `filepath.Walk` of the Go library: `Lstat`, and the size of a symbolic link is the
length of its text. -/
noncomputable def statistic : Nat → Fs.Stat → Str → Option Fs.Stat
  | 0, _, _ => none
  | k + 1, s, me =>
    match W.lstat cwd me with
    | none => some { s with nErr := s.nErr + 1 }
    | some e =>
      match W.F e with
      | some .dir => walkNames (statistic k) me { s with nDir := s.nDir + 1 } (W.list e)
      | some (.file i) => some { s with nFile := s.nFile + 1, size := s.size + UInt64.ofNat (W.content i).length }
      | some (.link t) => some { s with nFile := s.nFile + 1, size := s.size + UInt64.ofNat (strBytes t).length }
      | none => some { s with nErr := s.nErr + 1 }

end Verif.FsLinks
