import Verif.Model.Backtrace
/-!
# Properties of backtraces (C102)
-/
set_option linter.unusedSectionVars false

namespace Verif.Backtrace

/-! ## Specification -/

/-- Where a frame stands: its file and the line of its current call. -/
def place (line : Lines) (f : Frame) : String := "FileLine{" ++ f.file ++ " : " ++ toString (line f.call) ++ "}"

/-- The texts of a frame: head, function, place and address. -/
def whole (line : Lines) (head : String) (f : Frame) : String :=
  head ++ " Func{" ++ f.fn ++ "} " ++ place line f ++ " pc{" ++ hexUp f.call ++ "}"

/-- The numbered lines of a backtrace, as the code writes them. -/
def numbered (line : Lines) (fs : List Frame) : String :=
  String.join (fs.zipIdx.map fun p => "#" ++ toString p.2 ++ " Func{" ++ p.1.fn ++ "} File{" ++ p.1.file ++ " : " ++
    toString (line p.1.ret) ++ "} pc{" ++ hexUp p.1.ret ++ "}\n")

/-! ## C102 -/

/-- **C102 (the current frame).** On every stack `Bt`, `BtFileLine` and `BtFunc` show the frame of the function that called
them, with the line of that call. -/
theorem C102_current (line : Lines) (me : Frame) (rest : List Frame) :
    bt line (me :: rest) = whole line "" me ∧ btFileLine line (me :: rest) = " " ++ place line me ∧
    btFunc line (me :: rest) = " Func{" ++ me.fn ++ "}" := by
  refine ⟨?_, ?_, ?_⟩ <;>
    simp [bt, btFileLine, btFunc, callStackInfo, caller, btMe, whole, place, String.append_assoc]
  · rw [show "} FileLine{" = "} " ++ "FileLine{" from rfl, String.append_assoc]
  · rw [show " FileLine{" = " " ++ "FileLine{" from rfl, String.append_assoc]

/-- **C102 (callers).** `Caller(d)` and its variants show the frame `d` levels above the function's caller, and are empty
above the stack. -/
theorem C102_caller (line : Lines) (me : Frame) (rest : List Frame) (d : Nat) :
    (∀ f, rest[d]? = some f → callerAll line (me :: rest) d = whole line "Caller:" f ∧
      callerFileLine line (me :: rest) d = "Caller: " ++ place line f ∧
      callerFunc line (me :: rest) d = "Caller: Func{" ++ f.fn ++ "}") ∧
    (rest.length ≤ d → callerAll line (me :: rest) d = "" ∧ callerFileLine line (me :: rest) d = "" ∧
      callerFunc line (me :: rest) d = "") := by
  have e : 2 + 1 + d = d + 1 + 1 + 1 := by omega
  refine ⟨fun f hf => ?_, fun hd => ?_⟩
  · refine ⟨?_, ?_, ?_⟩ <;>
      simp [callerAll, callerFileLine, callerFunc, callStackInfo, caller, btFather, btMe, e, hf, whole, place, String.append_assoc]
    · rw [show "} FileLine{" = "} " ++ "FileLine{" from rfl, String.append_assoc]
    · rw [show "Caller: FileLine{" = "Caller: " ++ "FileLine{" from rfl, String.append_assoc]
  · have hn : rest[d]? = none := by simpa using hd
    refine ⟨?_, ?_, ?_⟩ <;> simp [callerAll, callerFileLine, callerFunc, callStackInfo, caller, btFather, btMe, e, hn]

theorem btsLoop_eq (line : Lines) (fs : List Frame) (i : Nat) :
    btsLoop line i fs = String.join ((fs.zipIdx i).map fun p => "#" ++ toString p.2 ++ " Func{" ++ p.1.fn ++ "} File{" ++
      p.1.file ++ " : " ++ toString (line p.1.ret) ++ "} pc{" ++ hexUp p.1.ret ++ "}\n") := by
  induction fs generalizing i with
  | nil => rfl
  | cons f fs ih => rw [btsLoop, ih, List.zipIdx_cons, List.map_cons, String.join_cons]

/-- **C102 (the whole stack, partial).** `Bts` shows the frames of the stack from the current function outwards, numbered
from 0, and `CallStackList` shows them from the level asked for.  Missing: frames beyond the fiftieth (`C102_depth_false`),
and the lines are those behind the calls (`C102_line_false`). -/
theorem C102_stack_partial (line : Lines) (stack : List Frame) :
    bts line stack = numbered line (stack.take 50) ∧ (stack.length ≤ 50 → bts line stack = numbered line stack) ∧
    ∀ d, callStackList line stack (btMe + d) = ((stack.drop d).take 50).map (entry line) := by
  have h : bts line stack = numbered line (stack.take 50) := by
    simp [bts, callers, btMe, btsLoop_eq, numbered, maxBtListLen]
  refine ⟨h, fun hl => by rw [h, List.take_of_length_le hl], fun d => ?_⟩
  simp [callStackList, callers, btMe, show 2 + d = d + 1 + 1 by omega, maxBtListLen]

/-- **C102 is false of deep stacks.** What is above fifty frames does not appear in `Bts`. -/
theorem C102_depth_false (line : Lines) (inner outer outer' : List Frame) (h : inner.length = 50) :
    bts line (inner ++ outer) = bts line (inner ++ outer') := by
  rw [(C102_stack_partial line _).1, (C102_stack_partial line _).1]
  simp [h]

/-- **C102 is false of the lines of lists.** Wherever the line behind a call differs from the line of the call, `Bt` and
`CallStackList` name different lines for the same frame. -/
theorem C102_line_false (line : Lines) (me : Frame) (rest : List Frame) (hl : line me.call ≠ line me.ret) :
    btFileLine line (me :: rest) = " FileLine{" ++ me.file ++ " : " ++ toString (line me.call) ++ "}" ∧
    (callStackList line (me :: rest) btMe).head? = some ("Func{" ++ me.fn ++ "} FileLine{" ++ me.file ++ " : " ++
      toString (line me.ret) ++ "} pc{" ++ hexUp me.ret ++ "}") ∧ toString (line me.call) ≠ toString (line me.ret) := by
  refine ⟨by simp [btFileLine, callStackInfo, caller, btMe, String.append_assoc], by
    simp [callStackList, callers, btMe, maxBtListLen, entry], fun h => hl ?_⟩
  have h' := congrArg String.toList h
  simp only [Nat.toString_eq_repr, Nat.toList_repr] at h'
  rw [← Nat.ofDigitChars_ten_toDigits (n := line me.call), h', Nat.ofDigitChars_ten_toDigits]

/-- **C102 (the exported depth, false of the code).** With the exported `BtMe`, `CallStackList` begins with the function that
calls it, but `CallStackInfo` shows the caller of the function that calls it. -/
theorem C102_me_false (line : Lines) (me father : Frame) (rest : List Frame) :
    (callStackList line (me :: father :: rest) btMe).head? = some (entry line me) ∧
    callStackInfo line (me :: father :: rest) btMe .func "" = " Func{" ++ father.fn ++ "}" := by
  simp [callStackList, callers, btMe, callStackInfo, caller, maxBtListLen]

/-- **C102 (`Assert`).** It returns true on true; on false it panics with a backtrace that begins with `Assert` itself, followed by
the first 49 frames of the stack. -/
theorem C102_assert (line : Lines) (at' : Frame) (stack : List Frame) (b : Bool) :
    (assert line at' stack b = .ok true ↔ b = true) ∧
    (b = false → assert line at' stack b = .error ("Assert fail\n" ++ numbered line (at' :: stack.take 49))) := by
  constructor
  · cases b <;> simp [assert]
  · rintro rfl
    simp [assert, (C102_stack_partial line _).1]

/-- **C102 (`fs.FileLine`, `fs.Func`).** They show the function that calls them and the line of that call. -/
theorem C102_fileLine (line : Lines) (me : Frame) (rest : List Frame) :
    fileLine line (me :: rest) = (me.file, line me.call) ∧ func line (me :: rest) = me.fn ++ " : " ++ toString (line me.call) := by
  simp [fileLine, func, caller]

/-- A stack: `g` called by `f` called by `main`. -/
def demoStack : List Frame := [⟨"main.g", "a.go", 170, 175⟩, ⟨"main.f", "a.go", 255, 260⟩, ⟨"main.main", "b.go", 31, 36⟩]

example : bt (· / 10) demoStack = " Func{main.g} FileLine{a.go : 17} pc{AA}" ∧
    callerFunc (· / 10) demoStack 1 = "Caller: Func{main.main}" ∧ callerFunc (· / 10) demoStack 2 = "" ∧
    callStackList (· / 10) demoStack 3 = ["Func{main.f} FileLine{a.go : 26} pc{104}", "Func{main.main} FileLine{b.go : 3} pc{24}"] ∧
    (fun n => n / 10) 255 ≠ (fun n => n / 10) 260 := by
  decide +kernel

/-- C102_depth_false on 50 frames of a recursion, with different callers. -/
example : bts (· / 10) (List.replicate 50 ⟨"main.r", "a.go", 70, 75⟩ ++ demoStack) =
    bts (· / 10) (List.replicate 50 ⟨"main.r", "a.go", 70, 75⟩ ++ []) :=
  C102_depth_false _ _ _ _ (by decide)

example := C102_line_false (· / 10) ⟨"main.f", "a.go", 255, 260⟩ demoStack (by decide)

end Verif.Backtrace
