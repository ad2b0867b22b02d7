import Verif.Model.Fs
/-!
# Model of `Hash` of `fs/file_path.go` with the method `NONE`

The hash objects of this method are numbered by a global counter (Model/Hash, `World`), so the counter is passed through
the calls.  Writing to such an object does nothing (none_hash.go:22-28), so neither the salt nor the content nor the
hashes of the children matter.  One goroutine.
-/

namespace Verif.Fs
open Verif.FileHash Verif.Hash Verif.Tree

variable (srt : Sorter)

mutual
/-- `Hash(NONE, salt)`, file_path.go:439-484, with the counter before and after.  The object is made once the file has been
opened (446), before the entries are listed and visited. -/
def hashNone (g : BitVec 32) (path : Path) : Node → Option (Tree FileHash) × BitVec 32
  | .file opens content _ =>
    if opens then
      let g := g + 1
      (some (.node ⟨pathBytes path, textBytes (hexBytes (noneSum g)), UInt64.ofNat content.length, false⟩ []), g)
    else (none, g)
  | .dir st es =>
    match st with
    | .openFails => (none, g)
    | .listFails => (none, g + 1)
    | .ok =>
      let id := g + 1
      match noneChildren id path [] es with
      | (none, g) => (none, g)
      | (some cs, g) =>
        let cs := srt.sort cs
        let size := cs.foldl (fun n c => n + c.val.size) 0
        (some (.node ⟨pathBytes path, textBytes (hexBytes (noneSum id)), size, true⟩ cs), g)
/-- The loop over the entries, file_path.go:453-464. -/
def noneChildren (g : BitVec 32) (path : Path) (acc : List (Tree FileHash)) :
    Entries → Option (List (Tree FileHash)) × BitVec 32
  | .nil => (some acc, g)
  | .cons name n rest =>
    if name ≠ "." ∧ name ≠ ".." then
      match hashNone g (path ++ [name]) n with
      | (none, g) => (none, g)
      | (some sub, g) => noneChildren g path (SortSlice.insert ⟨acc⟩ sub (-1)).1.d rest
    else noneChildren g path acc rest
end

end Verif.Fs
