import Verif.Model.Go
/-!
# Model of `io/io.go`

`Copys` and `CopysBuffer`.  The reader and the writers are the caller's: a reader gives the result of its `n`-th `Read`
call (it may depend on the length of the buffer), a writer has a state `S` and a `Write` function.  All writers share
one state type and function, which may be a sum; they are taken to be distinct objects.  The count is a natural number
(the code's `int64` can not overflow before `2^63` bytes).  A loop that reads for ever has no result: the loop takes fuel
and gives `none` when it runs out.
-/

namespace Verif.IoCopy

/-- The elements of the buffer of io.go:14. -/
abbrev Byte := BitVec 8

/-- Error values: `io.EOF`, `io.ErrShortWrite`, and any other.  io.go:42 and 48. -/
inductive Err where
  | eof | shortWrite | other (n : Nat)
deriving DecidableEq, Repr

/-- What one `Read` returns: the bytes put in the buffer and the error.  io.go:29. -/
structure ReadRes where
  data : List Byte
  err : Option Err
deriving DecidableEq

/-- A reader: the result of call number `n` with a buffer of the given length.  `src` of io.go:14. -/
abbrev Reader := Nat → Nat → ReadRes

/-- A writer: from its state and the bytes, the new state, the count and the error of `Write`.  `dst` of io.go:33. -/
abbrev Write (S : Type) := S → List Byte → S × Nat × Option Err

variable {S : Type}

/-- io.go:31-37: write the bytes to every writer, stopping at the first error; `nw` and `ew` are those of the last
`Write` call (initially 0 and nil). -/
def writeAll (W : Write S) (p : List Byte) : List S → Nat → List S × Nat × Option Err
  | [], nw => ([], nw, none)
  | s :: ss, _ =>
    let (s', nw, ew) := W s p
    if ew.isSome then (s' :: ss, nw, ew)
    else
      let (ss', nw, ew) := writeAll W p ss nw
      (s' :: ss', nw, ew)

/-- The loop, io.go:27-54, from `Read` call number `n`. -/
def loop (W : Write S) (src : Reader) (bufLen : Nat) :
    Nat → Nat → List S → Nat → Option (List S × Nat × Option Err)
  | 0, _, _, _ => none
  | fuel + 1, n, dsts, written =>
    let r := src n bufLen
    let nr := r.data.length
    if nr > 0 then
      let (dsts, nw, ew) := writeAll W r.data dsts 0
      if ew.isSome then some (dsts, written, ew)
      else
        let written := if nw > 0 then written + nw else written
        if nr ≠ nw then some (dsts, written, some .shortWrite)
        else if r.err.isSome then
          some (dsts, written, if r.err ≠ some .eof then r.err else none)
        else loop W src bufLen fuel (n + 1) dsts written
    else if r.err.isSome then
      some (dsts, written, if r.err ≠ some .eof then r.err else none)
    else loop W src bufLen fuel (n + 1) dsts written

/-- `CopysBuffer`, io.go:14-55, for a source that is not an `io.WriterTo`; `none` is a nil buffer (io.go:24-26). -/
def copysBuffer (W : Write S) (src : Reader) (buf : Option Nat) (dsts : List S) (fuel : Nat) :
    Option (List S × Nat × Option Err) :=
  let bufLen := match buf with | some n => n | none => 32 * 1024
  loop W src bufLen fuel 0 dsts 0

/-- `Copys`, io.go:9-11. -/
def copys (W : Write S) (src : Reader) (dsts : List S) (fuel : Nat) : Option (List S × Nat × Option Err) :=
  copysBuffer W src none dsts fuel

/-- `WriteTo` of the standard library's `bytes.Buffer`, `bytes.Reader` and `strings.Reader` (not in the repository): the
rest of the content is written with one `Write`, and consumed.  Called at io.go:17. -/
def writeTo (W : Write S) (rest : List Byte) (s : S) : List Byte × S × Nat × Option Err :=
  if rest.length > 0 then
    let (s', m, e) := W s rest
    (rest.drop m, s', m, if e.isSome then e else if m ≠ rest.length then some .shortWrite else none)
  else (rest, s, 0, none)

/-- `CopysBuffer`, io.go:15-22, for a source with `WriteTo`: the source is passed to each writer in turn. -/
def copysWriterTo (W : Write S) : List Byte → List S → Nat → List S × Nat × Option Err
  | _, [], written => ([], written, none)
  | rest, s :: ss, _ =>
    let (rest', s', written, err) := writeTo W rest s
    if err.isSome then (s' :: ss, written, err)
    else
      let (ss', written, err) := copysWriterTo W rest' ss written
      (s' :: ss', written, err)

end Verif.IoCopy
