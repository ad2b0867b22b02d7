import Verif.Model.ErrConc
import Verif.Spec.LockRace
/-!
# `errors/errors.go` with the accesses it makes

The machine of Model/ErrConc with the location and the kind of every access to a package variable, and the operations on the lock.
-/

namespace Verif.ErrConc
open Verif.Spec Verif.Errors

/-- Locations: the variable `g_id2err` (errors.go:55; it holds address and length of the list), the elements of the list, and
`g_id_cur_max` (errors.go:57).  When the list moves because it is full, its elements get new locations; here they keep them, which
can only add conflicts. -/
inductive Var where
  | list
  | elem (i : Nat)
  | cur
  deriving DecidableEq

/-- What a goroutine does; the one mutex is `g_id2err_lock`.  errors.go:56. -/
abbrev EAct := Act Var Unit

/-- One step of goroutine `t`, with what it does.  The statements of errors.go:83-127. -/
inductive TStep : St → Nat → List EAct → Option Event → St → Prop
  | callReg (s : St) (t : Nat) (name : String) : s.pc t = .idle →
    TStep s t [] (some (.obj (.call t (.reg name)))) (s.go t (.regLock name))
  | callGet (s : St) (t : Nat) (id : BitVec 32) : s.pc t = .idle →
    TStep s t [] (some (.obj (.call t (.get id)))) (s.go t (.getLock id none))
  | callShow (s : St) (t : Nat) : s.pc t = .idle → TStep s t [] (some (.showCall t)) (s.go t .showHead)
  /-- line 84. -/
  | regLock (s : St) (t : Nat) (name : String) : s.pc t = .regLock name → s.w = none → (∀ u, s.r u = false) →
    TStep s t [.lock ()] none ({ s with w := some t }.go t (.regTest name))
  /-- line 88. -/
  | regTest (s : St) (t : Nat) (name : String) : s.pc t = .regTest name →
    TStep s t [.read .cur] none (s.go t (if s.curMax < 9999#32 then .regLoad name else .regUnlock 1000#32 true))
  /-- line 89: `append` may copy the old elements. -/
  | regLoad (s : St) (t : Nat) (name : String) : s.pc t = .regLoad name →
    TStep s t [.read .list] none (s.go t (.regStore name s.id2err))
  | regStore (s : St) (t : Nat) (name : String) (l : List String) : s.pc t = .regStore name l →
    TStep s t (((List.range l.length).map Var.elem).map Act.read ++ [.write (.elem l.length), .write .list]) none
      ({ s with id2err := l ++ [name] }.go t (.regIncLoad name))
  /-- line 90. -/
  | regIncLoad (s : St) (t : Nat) (name : String) : s.pc t = .regIncLoad name →
    TStep s t [.read .cur] none (s.go t (.regIncStore name s.curMax))
  | regIncStore (s : St) (t : Nat) (name : String) (c : BitVec 32) : s.pc t = .regIncStore name c →
    TStep s t [.write .cur] none ({ s with curMax := c + 1#32 }.go t .regRes)
  /-- line 91. -/
  | regRes (s : St) (t : Nat) : s.pc t = .regRes → TStep s t [.read .cur] none (s.go t (.regUnlock s.curMax false))
  /-- line 85. -/
  | regUnlock (s : St) (t : Nat) (id : BitVec 32) (err : Bool) : s.pc t = .regUnlock id err →
    TStep s t [.unlock ()] none ({ s with w := none }.go t (.ret (.reg id err)))
  /-- line 113. -/
  | getLock (s : St) (t : Nat) (id : BitVec 32) (k : Option (List Char)) : s.pc t = .getLock id k → s.w = none →
    TStep s t [.rlock ()] none ({ s with r := setAt s.r t true }.go t (.getTest id k))
  /-- line 124. -/
  | getTest (s : St) (t : Nat) (id : BitVec 32) (k : Option (List Char)) : s.pc t = .getTest id k →
    TStep s t [.read .cur] none
      (s.go t (if 1001#32 ≤ id ∧ id ≤ s.curMax then .getIdx id k else .getUnlock id k (.ok ("", true))))
  /-- line 117. -/
  | getIdx (s : St) (t : Nat) (id : BitVec 32) (k : Option (List Char)) : s.pc t = .getIdx id k →
    TStep s t [.read .list, .read (.elem (id - 1001#32).toNat)] none
      (s.go t (.getUnlock id k (do let name ← Go.get s.id2err (id - 1001#32).toNat; return (name, false))))
  /-- line 114. -/
  | getUnlock (s : St) (t : Nat) (id : BitVec 32) (k : Option (List Char)) (r : Res (String × Bool)) :
    s.pc t = .getUnlock id k r → TStep s t [.runlock ()] none ({ s with r := setAt s.r t false }.go t (afterGet id k r))
  | ret (s : St) (t : Nat) (r : Ret) : s.pc t = .ret r → TStep s t [] (some (.obj (.ret t r))) (s.go t .idle)
  /-- line 102, without the lock. -/
  | showHead (s : St) (t : Nat) : s.pc t = .showHead →
    TStep s t [.read .cur] none (s.go t (.showTest 1001#32 ("[errors] Count:".toList ++ dec (s.curMax - 1001#32 + 1#32))))
  /-- line 104, without the lock. -/
  | showTest (s : St) (t : Nat) (id : BitVec 32) (acc : List Char) : s.pc t = .showTest id acc →
    TStep s t [.read .cur] none (s.go t (if id ≤ s.curMax then .getLock id (some (acc ++ ['\n'])) else .showDone (.ok acc)))
  /-- line 108. -/
  | showRet (s : St) (t : Nat) (r : Res (List Char)) : s.pc t = .showDone r →
    TStep s t [] (some (.showRet t r)) (s.go t .idle)

end Verif.ErrConc
