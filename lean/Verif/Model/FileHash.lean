/-!
# Model of `FileHash` (fs/file_path.go:374-390)
-/

namespace Verif.FileHash

/-- Go's `<` on strings: bytewise lexicographic (language specification).  Used at fs/file_path.go:385. -/
def bytesLt : List UInt8 → List UInt8 → Bool
  | [], [] => false
  | [], _ :: _ => true
  | _ :: _, [] => false
  | x :: xs, y :: ys => decide (x < y) || (x == y && bytesLt xs ys)

/-- `type FileHash struct`, file_path.go:374-378; strings are byte sequences, `FileSize` is a `uint64`
(file_size.go). -/
structure FileHash where
  path : List UInt8
  hash : List UInt8
  size : UInt64
  isDir : Bool
  deriving DecidableEq

/-- `Less`, file_path.go:381-390. -/
def FileHash.less (this o : FileHash) : Bool :=
  if this.size < o.size then true
  else if this.size = o.size ∧ bytesLt this.hash o.hash = true then true
  else false

theorem FileHash.less_iff (a b : FileHash) :
    a.less b = true ↔ a.size < b.size ∨ (a.size = b.size ∧ bytesLt a.hash b.hash = true) := by
  unfold FileHash.less
  by_cases h1 : a.size < b.size
  · simp [h1]
  · by_cases h2 : a.size = b.size ∧ bytesLt a.hash b.hash = true
    · rw [if_neg h1, if_pos h2]; simp [h2]
    · rw [if_neg h1, if_neg h2]; simp only [Bool.false_eq_true, false_iff]; rintro (h | h); exact h1 h; exact h2 h

end Verif.FileHash
