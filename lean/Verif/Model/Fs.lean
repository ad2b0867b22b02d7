import Verif.Model.Tree
import Verif.Model.FileHash
import Verif.Model.Hash
/-!
# Model of the directory functions of `fs/fs.go` and `fs/file_path.go`

A part of the file system is a finite tree.  A directory has its entries in the order in which `Readdir` happens to list
them; it may be impossible to open or to list.  A file may be impossible to open, and reading it may fail after some
bytes.  The tree does not change during a call.  Symbolic links and devices are files here, as for `Readdir`
(`IsDir` is false).  A path is the list of its components, so `Joins(dir, name)` (file_path.go:212-215) is `dir ++ [name]`:
this is the result of `filepath.Join` for a clean `dir` other than "." and a name without separator.
-/

namespace Verif.Fs
open Verif.FileHash Verif.Hash Verif.Tree

/-- What the operating system does with a directory.  `os.Open` and `Readdir` of fs.go:58-60. -/
inductive Status where
  | ok | openFails | listFails
deriving DecidableEq, Repr

mutual
/-- A file or a directory.  What fs.go:58-66 and file_path.go:351-364 see. -/
inductive Node where
  /-- whether it can be opened, its content, and how many bytes can be read before an error -/
  | file (opens : Bool) (content : Bytes) (readable : Nat)
  | dir (st : Status) (es : Entries)
/-- The entries of a directory, in the order they are listed.  fs.go:60. -/
inductive Entries where
  | nil
  | cons (name : String) (n : Node) (rest : Entries)
end

/-- A path as its names, the argument of fs.go:57. -/
abbrev Path := List String

/-! ## CollectSubs -/

/-- `FsOption`, fs.go:9-21. -/
abbrev Opt := BitVec 64

/-- `FsDir`, fs.go:10. -/
def fsDir : Opt := 1#64
/-- `FsFile`, fs.go:11. -/
def fsFile : Opt := 2#64
/-- `FsFullPath`, fs.go:13. -/
def fsFullPath : Opt := 4#64
/-- `FsDeep`, fs.go:14. -/
def fsDeep : Opt := 8#64
/-- `FsLeaf`, fs.go:15. -/
def fsLeaf : Opt := 16#64
/-- fs.go:18 -/
def fsAll : Opt := fsDir ||| fsFile

/-- `has`, fs.go:23-25. -/
def has (me opt : Opt) : Bool := decide (opt ≠ 0) && decide (me &&& opt = opt)

/-- `has_any`, fs.go:26-28. -/
def hasAny (me opt : Opt) : Bool := decide (opt ≠ 0) && decide (me &&& opt ≠ 0)

/-- A string of the result: the full path or the name.  The strings appended at fs.go:57-94. -/
inductive Out where
  | full (p : Path)
  | name (s : String)
deriving DecidableEq, Repr

/-- `choose_name`, fs.go:29-35. -/
def chooseName (me : Opt) (fullName : Path) (name : String) : Out :=
  if has me fsFullPath then .full fullName else .name name

/-- `FileName`, fs.go:120-123: the part after the last separator. -/
def fileName (p : Path) : String := (p.getLast?).getD ""

mutual
/-- `CollectSubs`, fs.go:57-94, of the node at the path: the strings and the error (`true` is an error).  The error
variables of the inner `if` statements shadow the result, so failing to open or to list gives no error; a file can be
opened but not listed. -/
def collect (opt : Opt) (dir : Path) : Node → List Out × Bool
  | .file _ _ _ => ([], false)
  | .dir st es =>
    match st with
    | .openFails => ([], false)
    | .listFails => ([], false)
    | .ok =>
      match walk opt dir [] false es with
      | (subs, hasSubDir, err) =>
        if err then ([], true)
        else if !hasSubDir && has opt (fsLeaf ||| fsDir) then (subs ++ [chooseName opt dir (fileName dir)], false)
        else (subs, false)
/-- The loop over the entries, fs.go:61-87: `subs`, `_has_sub_dir`, and whether the function returned with an error. -/
def walk (opt : Opt) (dir : Path) (subs : List Out) (hasSubDir : Bool) : Entries → List Out × Bool × Bool
  | .nil => (subs, hasSubDir, false)
  | .cons name n rest =>
    let full := dir ++ [name]
    match n with
    | .dir st es =>
      if name = "." ∨ name = ".." then walk opt dir subs hasSubDir rest
      else
        let subs := if has opt fsDir && !has opt fsLeaf then subs ++ [chooseName opt full name] else subs
        if hasAny opt (fsDeep ||| fsLeaf) then
          match collect opt full (.dir st es) with
          | (r, err) => if err = false then walk opt dir (subs ++ r) true rest else ([], true, true)
        else walk opt dir subs true rest
    | .file _ _ _ =>
      let subs := if has opt fsFile then subs ++ [chooseName opt full name] else subs
      walk opt dir subs hasSubDir rest
end

/-- `GetLeafDirs`, fs.go:37-39. -/
def getLeafDirs (dir : Path) (n : Node) := collect (fsDir ||| fsLeaf ||| fsFullPath) dir n
/-- `GetSubDirs`, fs.go:41-43. -/
def getSubDirs (dir : Path) (n : Node) := collect fsDir dir n
/-- `GetSubFiles`, fs.go:45-47. -/
def getSubFiles (dir : Path) (n : Node) := collect fsFile dir n
/-- `GetSubs`, fs.go:49-51. -/
def getSubs (dir : Path) (n : Node) := collect fsAll dir n
/-- `GetDeepFiles`, fs.go:53-55. -/
def getDeepFiles (dir : Path) (n : Node) := collect (fsFile ||| fsDeep) dir n

/-! ## Fingerprint -/

/-- `sort.Sort` of the Go library, as called by `SortChildren` (tree.gp_filehash38b3.go:51-53): it permutes, and the
result is in order. -/
structure Sorter where
  sort : List (Tree FileHash) → List (Tree FileHash)
  perm : ∀ l, (sort l).Perm l
  sorted : ∀ l, (sort l).Pairwise fun a b => nodeLess FileHash.less b a = false

/-- The bytes of an ASCII text.  fs.go:111-123. -/
def textBytes (l : List Char) : Bytes := l.map fun c => UInt8.ofNat c.toNat

/-- The text of a path.  The argument of fs.go:57. -/
def pathBytes (p : Path) : Bytes := ("/".intercalate p).toUTF8.data.toList

variable (M S C : Alg) (srt : Sorter)

mutual
/-- `Fingerprint`, file_path.go:393-436: `none` is an error.  The fields of a node's value are used as if `FileHash` were
embedded (`root.Size` for `root.val.Size`).  The error of `io.Copy` is dropped (426), so a file that can be read only in
part gives the hash of that part. -/
def fingerprint (path : Path) : Node → Option (Tree FileHash)
  | .file opens content readable =>
    if opens then
      let h := ((FP.new : FP M S C).write (content.take readable)).1
      let size := UInt64.ofNat content.length
      let h := h.resetsize size.toBitVec
      some (.node ⟨pathBytes path, textBytes h.string, size, false⟩ [])
    else none
  | .dir st es =>
    match st with
    | .openFails => none
    | .listFails => none
    | .ok => do
      let cs ← children path [] es
      let cs := srt.sort cs
      let h := cs.foldl (fun h c => (h.write c.val.hash).1) (FP.new : FP M S C)
      let size := cs.foldl (fun n c => n + c.val.size) 0
      let h := h.resetsize size.toBitVec
      some (.node ⟨pathBytes path, textBytes h.string, size, true⟩ cs)
/-- The loop over the entries, file_path.go:404-415: `AddChildNode(sub, -1)` appends (`Tree.addChildNode`). -/
def children (path : Path) (acc : List (Tree FileHash)) : Entries → Option (List (Tree FileHash))
  | .nil => some acc
  | .cons name n rest =>
    if name ≠ "." ∧ name ≠ ".." then do
      let sub ← fingerprint (path ++ [name]) n
      children path (SortSlice.insert ⟨acc⟩ sub (-1)).1.d rest
    else children path acc rest
end

mutual
/-- `Hash`, file_path.go:439-484, for a method of the Go library and a salt; the sum is printed with `%x` (478).
`NONE` and `FINGERPRINT` are not covered. -/
def hash (A : Alg) (salt : Bytes) (path : Path) : Node → Option (Tree FileHash)
  | .file opens content readable =>
    if opens then
      let h := if salt ≠ [] then A.write A.init salt else A.init
      let h := A.write h (content.take readable)
      some (.node ⟨pathBytes path, textBytes (hexBytes (A.sum h)), UInt64.ofNat content.length, false⟩ [])
    else none
  | .dir st es =>
    match st with
    | .openFails => none
    | .listFails => none
    | .ok => do
      let h := if salt ≠ [] then A.write A.init salt else A.init
      let cs ← hashChildren A salt path [] es
      let cs := srt.sort cs
      let h := cs.foldl (fun h c => A.write h c.val.hash) h
      let size := cs.foldl (fun n c => n + c.val.size) 0
      some (.node ⟨pathBytes path, textBytes (hexBytes (A.sum h)), size, true⟩ cs)
/-- The loop over the entries, file_path.go:453-464. -/
def hashChildren (A : Alg) (salt : Bytes) (path : Path) (acc : List (Tree FileHash)) :
    Entries → Option (List (Tree FileHash))
  | .nil => some acc
  | .cons name n rest =>
    if name ≠ "." ∧ name ≠ ".." then do
      let sub ← hash A salt (path ++ [name]) n
      hashChildren A salt path (SortSlice.insert ⟨acc⟩ sub (-1)).1.d rest
    else hashChildren A salt path acc rest
end

/-! ## Statistic -/

/-- What `Statistic` (file_path.go:349-371) counts; the error texts are counted instead of kept. -/
structure Stat where
  nDir : Nat
  nFile : Nat
  size : UInt64
  nErr : Nat
deriving DecidableEq

mutual
/-- `Statistic`, file_path.go:349-371, over `filepath.Walk` of the Go library.  For a directory that can be listed `Walk`
calls the function once and goes on with the entries.  For one that cannot be opened or listed newer versions of `Walk`
call it once, with the error; older ones (`early`) call it without an error before they try to list, and again with the
error.  The entries are skipped.  (`Walk` visits in lexical order; the counts do not depend on it.) -/
def statistic (early : Bool) (s : Stat) : Node → Stat
  | .file _ content _ => { s with nFile := s.nFile + 1, size := s.size + UInt64.ofNat content.length }
  | .dir st es =>
    match st with
    | .openFails => { s with nErr := s.nErr + 1, nDir := if early then s.nDir + 1 else s.nDir }
    | .listFails => { s with nErr := s.nErr + 1, nDir := if early then s.nDir + 1 else s.nDir }
    | .ok => statEntries early { s with nDir := s.nDir + 1 } es
/-- The entries of a directory.  file_path.go:351-366. -/
def statEntries (early : Bool) (s : Stat) : Entries → Stat
  | .nil => s
  | .cons _ n rest => statEntries early (statistic early s n) rest
end

/-! ## SplitAll -/

/-- `filepath.Split` of the Go library on Unix: behind the last separator.
Called at file_path.go:195 and, as `path.Split`, at fs.go:112. -/
def split (s : List Char) : List Char × List Char :=
  let n := s.length - (s.reverse.takeWhile (· ≠ '/')).length
  (s.take n, s.drop n)

/-- `strings.TrimSuffix(p, "/")`.  file_path.go:196. -/
def trimSlash (p : List Char) : List Char := if p.getLast? = some '/' then p.dropLast else p

/-- The loop of `SplitAll`, file_path.go:194-207; the counter is `i + 1`.  The result is `b` and the final `i`. -/
def splitLoop (b : List (List Char)) (s : List Char) : Nat → Res (List (List Char) × Int)
  | 0 => .ok (b, -1)
  | i + 1 =>
    let (p, f) := split s
    let s := trimSlash p
    if f ≠ [] then do
      let b ← Go.set b i f
      splitLoop b s i
    else if p ≠ [] then do
      let b ← Go.set b i p
      return (b, (i : Int))
    else .ok (b, (i : Int) + 1)

/-- `SplitAll`, file_path.go:189-209, on Unix.  Slicing from a negative index, or from one above the length, panics. -/
def splitAll (s : List Char) : Res (List (List Char)) := do
  let maxn := s.count '/' + 1
  let b := List.replicate maxn []
  let (b, i) ← splitLoop b s maxn
  if 0 ≤ i ∧ i ≤ (b.length : Int) then return b.drop i.toNat else Res.panic

end Verif.Fs
