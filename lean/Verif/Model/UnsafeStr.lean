import Verif.Model.Go

/-!
# Strings and byte slices over the same memory (unsafe/string.go)

Memory is a function from addresses to bytes together with the first address not yet given out.  Addresses are natural
numbers: the end of the 64-bit address space is not modelled, and memory is never given back (Go frees only what nothing
refers to).  A string is two words (`reflect.StringHeader`), a slice is three (`reflect.SliceHeader`), and reading a
header through an unsafe pointer reads its words in order.
-/

namespace Verif.Unsafe

/-- The memory: the byte at every address, and the first address the allocator has not given out.
What the pointers of string.go:13 lead to. -/
structure Mem where
  at_ : Nat → UInt8
  next : Nat

/-- `reflect.StringHeader`: address and length.  string.go:51. -/
structure Str where
  data : Nat
  len : Nat
deriving DecidableEq, Repr

/-- `reflect.SliceHeader`: address, length and capacity.  string.go:50. -/
structure Bytes where
  data : Nat
  len : Nat
  cap : Nat
deriving DecidableEq, Repr

/-- The words of a slice header as they stand in memory.  Read at string.go:58. -/
def Bytes.words (b : Bytes) : List Nat := [b.data, b.len, b.cap]

/-- Reading a string header: the first two words.  string.go:58. -/
def Str.ofWords : List Nat → Str
  | d :: n :: _ => ⟨d, n⟩
  | _ => ⟨0, 0⟩

/-- `StringBytes`, string.go:49-54: a slice header is filled from the string header, the capacity from the length. -/
def stringBytes (s : Str) : Bytes :=
  let bh : Bytes := ⟨0, 0, 0⟩
  { bh with data := s.data, len := s.len, cap := s.len }

/-- `BytesString`, string.go:57-59: the slice header is read as a string header. -/
def bytesString (b : Bytes) : Str := Str.ofWords b.words

/-- `StringPointer`, string.go:62-65; the method `String.Pointer`, 44-46. -/
def stringPointer (s : Str) : Nat := s.data

/-- `BytesPointer`, string.go:68-71; the method `Bytes.Pointer`, 34-36. -/
def bytesPointer (b : Bytes) : Nat := b.data

/-- `Writeable`, string.go:23-26; `first` is the address `firstPointer` of an integer allocated at program start
(lines 8-11). -/
def writeable (first p : Nat) : Bool := decide (first ≤ p)

/-- `Bytes.Writeable`, string.go:29-32. -/
def Bytes.writeable (first : Nat) (b : Bytes) : Bool := decide (first ≤ bytesPointer b)

/-- `String.Writeable`, string.go:39-42. -/
def Str.writeable (first : Nat) (s : Str) : Bool := decide (first ≤ stringPointer s)

/-! ## What a program can do with the results (the Go language, not code of the repository) -/

/-- The value of a string: what `s[0]`, `s[1]`, … read.  string.go:49 and 57. -/
def Str.val (m : Mem) (s : Str) : List UInt8 := (List.range s.len).map fun i => m.at_ (s.data + i)

/-- The value of a slice: what `b[0]`, `b[1]`, … read.  string.go:49 and 57. -/
def Bytes.val (m : Mem) (b : Bytes) : List UInt8 := (List.range b.len).map fun i => m.at_ (b.data + i)

/-- `s[i:j]` of a string.  On the results of string.go:57. -/
def Str.sub (s : Str) (i j : Nat) : Res Str := if i ≤ j ∧ j ≤ s.len then .ok ⟨s.data + i, j - i⟩ else .panic

/-- `b[i:j]` of a slice: the capacity reaches to the end of the array.  On the results of string.go:49. -/
def Bytes.sub (b : Bytes) (i j : Nat) : Res Bytes :=
  if i ≤ j ∧ j ≤ b.cap then .ok ⟨b.data + i, j - i, b.cap - i⟩ else .panic

/-- The memory with `vs` written from address `a` on.  Through the result of string.go:49. -/
def Mem.write (m : Mem) (a : Nat) (vs : List UInt8) : Mem :=
  { m with at_ := fun x => if x < a then m.at_ x else match vs[x - a]? with | some v => v | none => m.at_ x }

/-- `b[i] = v`.  On the result of string.go:49. -/
def Bytes.set (m : Mem) (b : Bytes) (i : Nat) (v : UInt8) : Res Mem :=
  if i < b.len then .ok (m.write (b.data + i) [v]) else .panic

/-- `append(b, vs...)`: in place when the capacity suffices, otherwise into new memory of at least the needed size
(`extra` more).  On the result of string.go:49. -/
def Bytes.append (m : Mem) (b : Bytes) (vs : List UInt8) (extra : Nat) : Mem × Bytes :=
  if b.len + vs.length ≤ b.cap then (m.write (b.data + b.len) vs, ⟨b.data, b.len + vs.length, b.cap⟩)
  else
    let n := b.len + vs.length
    ({ m.write m.next (b.val m ++ vs) with next := m.next + n + extra }, ⟨m.next, n, n + extra⟩)

/-- The conversion `string(b)` of the language: a copy in new memory.  What string.go:57 avoids. -/
def Bytes.copyString (m : Mem) (b : Bytes) : Mem × Str :=
  ({ m.write m.next (b.val m) with next := m.next + b.len }, ⟨m.next, b.len⟩)

end Verif.Unsafe
