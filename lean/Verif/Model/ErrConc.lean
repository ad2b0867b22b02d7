import Verif.Model.ErrText
import Verif.Spec.Linearizable
/-!
# Model of `errors/errors.go` with many goroutines

`Reg` (lines 83-98), `Get` (112-122) and `ShowAll` (100-109), one step for each access to a package variable.  `String` and
`Error` are `Get` followed by local formatting.  `sync.RWMutex` is a library object: `Lock` goes on when nobody holds the
lock, `RLock` when no writer does (that waiting writers may hold back readers only removes executions).  `ShowAll` reads
`g_id_cur_max` without the lock; such a read is taken to give a value that was written (in Go this is a data race on one
word).
-/

namespace Verif.ErrConc
open Verif.Spec Verif.Errors

/-- Calls on the registry.  errors.go:83, 100 and 112. -/
inductive Op where
  | reg (name : String)
  | get (id : BitVec 32)

/-- Their results.  The results at errors.go:83 and 112. -/
inductive Ret where
  | reg (id : BitVec 32) (err : Bool)
  | get (r : Res (String × Bool))

/-- What can be seen: calls and returns of `Reg` and `Get`, and of `ShowAll`.  Of errors.go:83-121. -/
inductive Event where
  | obj (e : Ev Op Ret)
  | showCall (t : Nat)
  | showRet (t : Nat) (r : Res (List Char))

/-- Where a goroutine is.  `k` is `none` in a `Get` called by the client and the text so far in one called by `ShowAll`.
The points between the accesses of errors.go:83-127. -/
inductive PC where
  | idle
  /-- `Reg`, before lines 84, 88, 89 (load and store), 90 (load and store), 91 and the deferred `Unlock`. -/
  | regLock (name : String)
  | regTest (name : String)
  | regLoad (name : String)
  | regStore (name : String) (l : List String)
  | regIncLoad (name : String)
  | regIncStore (name : String) (c : BitVec 32)
  | regRes
  | regUnlock (id : BitVec 32) (err : Bool)
  /-- `Get`, before lines 113, 124, 117 and the deferred `RUnlock`. -/
  | getLock (id : BitVec 32) (k : Option (List Char))
  | getTest (id : BitVec 32) (k : Option (List Char))
  | getIdx (id : BitVec 32) (k : Option (List Char))
  | getUnlock (id : BitVec 32) (k : Option (List Char)) (r : Res (String × Bool))
  /-- before the return to the client. -/
  | ret (r : Ret)
  /-- `ShowAll`, before lines 102, 104 and 108. -/
  | showHead
  | showTest (id : BitVec 32) (acc : List Char)
  | showDone (r : Res (List Char))

/-- The package variables, lines 53-58, with the holders of the lock, and the goroutines.  errors.go:53-58. -/
structure St where
  id2err : List String
  curMax : BitVec 32
  w : Option Nat
  r : Nat → Bool
  pc : Nat → PC

/-- When the program starts.  errors.go:53-58. -/
def St.init : St := ⟨start.id2err, start.curMax, none, fun _ => false, fun _ => .idle⟩

/-- Goroutine `t` goes on at `p`.  Control flow of errors.go:83-127. -/
def St.go (s : St) (t : Nat) (p : PC) : St := { s with pc := setAt s.pc t p }

/-- What follows a `Get` with result `r`: the return, or the next round of the loop of `ShowAll` with `id.String()`
(lines 106, 129-136) appended to the text.  errors.go:103-109. -/
def afterGet (id : BitVec 32) (k : Option (List Char)) (r : Res (String × Bool)) : PC :=
  match k with
  | none => .ret (.get r)
  | some acc =>
    match r with
    | .panic => .showDone .panic
    | .ok (name, err) =>
      let s := if err then invalidText id else "error#".toList ++ dec id ++ " (".toList ++ name.toList ++ ")".toList
      .showTest (id + 1#32) (acc ++ s)

/-- One step of goroutine `t`.  The statements of errors.go:83-127. -/
inductive Step : St → Option Event → St → Prop
  | callReg (s : St) (t : Nat) (name : String) : s.pc t = .idle →
    Step s (some (.obj (.call t (.reg name)))) (s.go t (.regLock name))
  | callGet (s : St) (t : Nat) (id : BitVec 32) : s.pc t = .idle →
    Step s (some (.obj (.call t (.get id)))) (s.go t (.getLock id none))
  | callShow (s : St) (t : Nat) : s.pc t = .idle → Step s (some (.showCall t)) (s.go t .showHead)
  /-- line 84. -/
  | regLock (s : St) (t : Nat) (name : String) : s.pc t = .regLock name → s.w = none → (∀ u, s.r u = false) →
    Step s none ({ s with w := some t }.go t (.regTest name))
  /-- line 88; 93-95 if there is no room (`debug.Caller` uses no package variable). -/
  | regTest (s : St) (t : Nat) (name : String) : s.pc t = .regTest name →
    Step s none (s.go t (if s.curMax < 9999#32 then .regLoad name else .regUnlock 1000#32 true))
  /-- line 89. -/
  | regLoad (s : St) (t : Nat) (name : String) : s.pc t = .regLoad name → Step s none (s.go t (.regStore name s.id2err))
  | regStore (s : St) (t : Nat) (name : String) (l : List String) : s.pc t = .regStore name l →
    Step s none ({ s with id2err := l ++ [name] }.go t (.regIncLoad name))
  /-- line 90. -/
  | regIncLoad (s : St) (t : Nat) (name : String) : s.pc t = .regIncLoad name →
    Step s none (s.go t (.regIncStore name s.curMax))
  | regIncStore (s : St) (t : Nat) (name : String) (c : BitVec 32) : s.pc t = .regIncStore name c →
    Step s none ({ s with curMax := c + 1#32 }.go t .regRes)
  /-- line 91. -/
  | regRes (s : St) (t : Nat) : s.pc t = .regRes → Step s none (s.go t (.regUnlock s.curMax false))
  /-- line 85. -/
  | regUnlock (s : St) (t : Nat) (id : BitVec 32) (err : Bool) : s.pc t = .regUnlock id err →
    Step s none ({ s with w := none }.go t (.ret (.reg id err)))
  /-- line 113. -/
  | getLock (s : St) (t : Nat) (id : BitVec 32) (k : Option (List Char)) : s.pc t = .getLock id k → s.w = none →
    Step s none ({ s with r := setAt s.r t true }.go t (.getTest id k))
  /-- lines 115, 123-127; 119 if the identifier is not valid. -/
  | getTest (s : St) (t : Nat) (id : BitVec 32) (k : Option (List Char)) : s.pc t = .getTest id k →
    Step s none (s.go t (if 1001#32 ≤ id ∧ id ≤ s.curMax then .getIdx id k else .getUnlock id k (.ok ("", true))))
  /-- lines 116-117. -/
  | getIdx (s : St) (t : Nat) (id : BitVec 32) (k : Option (List Char)) : s.pc t = .getIdx id k →
    Step s none (s.go t (.getUnlock id k (do let name ← Go.get s.id2err (id - 1001#32).toNat; return (name, false))))
  /-- line 114. -/
  | getUnlock (s : St) (t : Nat) (id : BitVec 32) (k : Option (List Char)) (r : Res (String × Bool)) :
    s.pc t = .getUnlock id k r → Step s none ({ s with r := setAt s.r t false }.go t (afterGet id k r))
  | ret (s : St) (t : Nat) (r : Ret) : s.pc t = .ret r → Step s (some (.obj (.ret t r))) (s.go t .idle)
  /-- lines 102-104. -/
  | showHead (s : St) (t : Nat) : s.pc t = .showHead →
    Step s none (s.go t (.showTest 1001#32 ("[errors] Count:".toList ++ dec (s.curMax - 1001#32 + 1#32))))
  /-- lines 104-106. -/
  | showTest (s : St) (t : Nat) (id : BitVec 32) (acc : List Char) : s.pc t = .showTest id acc →
    Step s none (s.go t (if id ≤ s.curMax then .getLock id (some (acc ++ ['\n'])) else .showDone (.ok acc)))
  /-- line 108. -/
  | showRet (s : St) (t : Nat) (r : Res (List Char)) : s.pc t = .showDone r →
    Step s (some (.showRet t r)) (s.go t .idle)

end Verif.ErrConc
