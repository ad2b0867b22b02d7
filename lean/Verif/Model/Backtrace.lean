/-!
# Model of `debug/backtrace.go` and of the callers' positions of `fs/file_line.go`

A stack is the list of the frames of a goroutine, the innermost first.  A frame knows its function, its file, the address
of its current call instruction (`call`) and the address at which execution goes on behind it (`ret`); lines come from the
line table `line` of the program.  The pieces of the Go library written out here: `runtime.Callers(skip, buf)` gives the
`ret` addresses of the frames, its own frame being number 0, as many as fit; `runtime.Caller(skip)` gives one frame with
the line of its call, the frame of the function that calls it being number 0.  `runtime.FuncForPC` of an address is the
function of the frame it comes from.  Not modelled: inlined functions and assembly, negative depths.
-/

namespace Verif.Backtrace

/-- A frame of a goroutine.
What runtime.Caller and runtime.Callers show of it at backtrace.go:62-69, 76-90 and 98-106. -/
structure Frame where
  fn : String
  file : String
  call : Nat
  ret : Nat
deriving DecidableEq, Repr

/-- The line table of a program: address to line.  `f.FileLine`, backtrace.go:66 and 103. -/
abbrev Lines := Nat → Nat

/-- `%0X` of an address.  backtrace.go:67, 89 and 104. -/
def hexUp (n : Nat) : String := String.ofList ((Nat.toDigits 16 n).map Char.toUpper)

/-- The formats, backtrace.go:19-21. -/
inductive Fmt where
  | fileLine
  | func
  | all
deriving DecidableEq, Repr

/-- `maxBtListLen`, backtrace.go:18. -/
def maxBtListLen : Nat := 50

/-- `BtMe` and `BtFather`, backtrace.go:13-14. -/
def btMe : Nat := 2
/-- `BtFather`, backtrace.go:12-26. -/
def btFather : Nat := btMe + 1

/-- `runtime.Caller(skip)` of the Go library; `stack` begins with the frame of the function that calls it.
Called at backtrace.go:76. -/
def caller (stack : List Frame) (skip : Nat) : Option Frame := stack[skip]?

/-- `runtime.Callers(skip, buf)` of the Go library with a buffer of `n`; `stack` begins with the frame of the function that
calls it, which is number 1.  Called at backtrace.go:62 and 98. -/
def callers (stack : List Frame) (skip n : Nat) : List Frame :=
  ((⟨"runtime.Callers", "extern.go", 0, 0⟩ :: stack).drop skip).take n

/-- The frame of a function of the package `debug`.
The functions of backtrace.go:29-56, which stand between the client and `CallStackInfo`. -/
def dbg (fn : String) : Frame := ⟨"github.com/vipally/gx/debug." ++ fn, "backtrace.go", 0, 0⟩

/-- `CallStackInfo`, backtrace.go:75-94.  `stack` is the stack of its caller. -/
def callStackInfo (line : Lines) (stack : List Frame) (depth : Nat) (fmt : Fmt) (head : String) : String :=
  match caller (dbg "CallStackInfo" :: stack) depth with
  | none => ""
  | some f =>
    match fmt with
    | .fileLine => head ++ " FileLine{" ++ f.file ++ " : " ++ toString (line f.call) ++ "}"
    | .func => head ++ " Func{" ++ f.fn ++ "}"
    | .all => head ++ " Func{" ++ f.fn ++ "} FileLine{" ++ f.file ++ " : " ++ toString (line f.call) ++ "} pc{" ++ hexUp f.call ++ "}"

/-- `Bt`, backtrace.go:29-31. -/
def bt (line : Lines) (stack : List Frame) : String := callStackInfo line (dbg "Bt" :: stack) btMe .all ""

/-- `BtFileLine`, backtrace.go:34-36. -/
def btFileLine (line : Lines) (stack : List Frame) : String := callStackInfo line (dbg "BtFileLine" :: stack) btMe .fileLine ""

/-- `BtFunc`, backtrace.go:39-41. -/
def btFunc (line : Lines) (stack : List Frame) : String := callStackInfo line (dbg "BtFunc" :: stack) btMe .func ""

/-- `Caller`, backtrace.go:44-46. -/
def callerAll (line : Lines) (stack : List Frame) (depth : Nat) : String :=
  callStackInfo line (dbg "Caller" :: stack) (btFather + depth) .all "Caller:"

/-- `CallerFileLine`, backtrace.go:49-51. -/
def callerFileLine (line : Lines) (stack : List Frame) (depth : Nat) : String :=
  callStackInfo line (dbg "CallerFileLine" :: stack) (btFather + depth) .fileLine "Caller:"

/-- `CallerFunc`, backtrace.go:54-56. -/
def callerFunc (line : Lines) (stack : List Frame) (depth : Nat) : String :=
  callStackInfo line (dbg "CallerFunc" :: stack) (btFather + depth) .func "Caller:"

/-- One entry of a list of frames, backtrace.go:101-105: the line is that of the address behind the call. -/
def entry (line : Lines) (f : Frame) : String :=
  "Func{" ++ f.fn ++ "} FileLine{" ++ f.file ++ " : " ++ toString (line f.ret) ++ "} pc{" ++ hexUp f.ret ++ "}"

/-- `CallStackList`, backtrace.go:96-109. -/
def callStackList (line : Lines) (stack : List Frame) (depth : Nat) : List String :=
  (callers (dbg "CallStackList" :: stack) depth maxBtListLen).map (entry line)

/-- The loop of `Bts`, backtrace.go:63-70, from number `i`. -/
def btsLoop (line : Lines) : Nat → List Frame → String
  | _, [] => ""
  | i, f :: fs =>
    "#" ++ toString i ++ " Func{" ++ f.fn ++ "} File{" ++ f.file ++ " : " ++ toString (line f.ret) ++ "} pc{" ++ hexUp f.ret ++ "}\n" ++
      btsLoop line (i + 1) fs

/-- `Bts`, backtrace.go:59-73. -/
def bts (line : Lines) (stack : List Frame) : String :=
  btsLoop line 0 (callers (dbg "Bts" :: stack) btMe maxBtListLen)

/-- `Assert`, assert.go:3-8: the result, or the text of the panic; `at'` is the frame of `Assert` itself. -/
def assert (line : Lines) (at' : Frame) (stack : List Frame) (b : Bool) : Except String Bool :=
  if !b then .error ("Assert fail\n" ++ bts line (at' :: stack)) else .ok b

/-- `FileLine`, file_line.go:21-26; `myCallerFrame` is 1. -/
def fileLine (line : Lines) (stack : List Frame) : String × Nat :=
  match caller (⟨"github.com/vipally/gx/fs.FileLine", "file_line.go", 0, 0⟩ :: stack) 1 with
  | some f => (f.file, line f.call)
  | none => ("", 0)

/-- `Func`, file_line.go:37-43. -/
def func (line : Lines) (stack : List Frame) : String :=
  match caller (⟨"github.com/vipally/gx/fs.Func", "file_line.go", 0, 0⟩ :: stack) 1 with
  | some f => f.fn ++ " : " ++ toString (line f.call)
  | none => ""

end Verif.Backtrace
