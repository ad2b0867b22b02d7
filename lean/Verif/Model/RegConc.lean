import Verif.Model.RegText
import Verif.Spec.Linearizable
/-!
# Model of `regable/reg.go` with many goroutines

First part: the registered values after the registration, one step for each access to a record, with the lock of each
record (`_uint32Record.lock`, reg.go:177).  `sync.RWMutex` is a library object: `Lock` goes on when nobody holds the lock,
`RLock` when no writer does.  The store of a value is two steps, and a load between them may give anything: what protects
the readers is the lock alone.  The lists of registrars and records are not changed after the registration, so that
`get` (reg.go:189-201) is one step.  Second part: `Reg` by many goroutines, which uses no lock.
-/

namespace Verif.RegConc
open Verif.Spec
open Verif.Regable (World Rec Obj)

/-- What a value is accessed by: `Uint32Id` or `Uint32Obj`, reg.go:187, 368-370. -/
inductive Ref where
  | id (cp : BitVec 32)
  | obj (o : Obj)

/-- Calls: `Get` (reg.go:212, 378), `Name` (266, 404), `String` (253, 398), `Set` (230, 388) of identifiers and objects and
`Oject` (277). -/
inductive Op where
  | get (x : Ref)
  | name (x : Ref)
  | str (x : Ref)
  | set (x : Ref) (v : BitVec 32)
  | object (cp : BitVec 32)

/-- Results; `true` is an error.  The results of reg.go:212-292. -/
inductive Ret where
  | val (r : Res (BitVec 32 × Bool))
  | name (r : Res (String × Bool))
  | str (r : Res (List Char))
  | obj (r : Res Obj)

/-- What a call refers to.  The receiver of reg.go:189-300. -/
def Op.ref : Op → Ref
  | .get x | .name x | .str x | .set x _ => x
  | .object cp => .id cp

/-- The call panics.  reg.go:287-365. -/
def panics : Op → Ret
  | .get _ | .set _ _ => .val .panic
  | .name _ => .name .panic
  | .str _ => .str .panic
  | .object _ => .obj .panic

/-- The result when `get` reports an error (reg.go:214-216, 232-234, 256-257, 271, 279-282) or the object is nil
(reg.go:294, 306, 329, 363). -/
def fails (op : Op) : Ret :=
  match op with
  | .get _ | .set _ _ => .val (.ok (0#32, true))
  | .name _ => .name (.ok ("", true))
  | .str (.id cp) => .str (.ok ("invalid Uint32Id#(".toList ++ Regable.dec (Regable.ids cp).1 ++
      '|' :: Regable.dec (Regable.ids cp).2 ++ ")".toList))
  | .str (.obj _) => .str (.ok "invalid uint32 object".toList)
  | .object _ => .obj (.ok none)

/-- The result of a reading call on a record, reg.go:291, 303, 360. -/
def answer (op : Op) (r : Rec) : Ret :=
  match op with
  | .name _ => .name (.ok (r.name, false))
  | .str _ => .str (.ok (Regable.recString r))
  | _ => .val (.ok (r.val, false))

/-- Where a goroutine is; `p` is the place of the record.  The points between the accesses of reg.go:189-365. -/
inductive PC where
  | idle
  | find (op : Op)
  | rlock (op : Op) (p : Nat × Nat)
  | read (op : Op) (p : Nat × Nat)
  | runlock (p : Nat × Nat) (r : Ret)
  | wlock (op : Op) (p : Nat × Nat) (v : BitVec 32)
  | write (op : Op) (p : Nat × Nat) (v : BitVec 32)
  | writing (op : Op) (p : Nat × Nat) (v : BitVec 32)
  | wunlock (p : Nat × Nat) (r : Ret)
  | ret (r : Ret)

/-- The memory, which records are being written, the holders of the locks, the goroutines.
reg.go:95-100 and 173-178. -/
structure St where
  w : World
  torn : Nat × Nat → Bool
  wl : Nat × Nat → Option Nat
  rl : Nat × Nat → Nat → Bool
  pc : Nat → PC

/-- When the registration is finished.  After `FinishReg`, regable.go:57-59. -/
def St.init (w : World) : St := ⟨w, fun _ => false, fun _ => none, fun _ _ => false, fun _ => .idle⟩

/-- Goroutine `t` goes on at `p`.  Control flow of reg.go:189-365. -/
def St.go (s : St) (t : Nat) (p : PC) : St := { s with pc := setAt s.pc t p }

/-- Pointwise update.  Assignments of reg.go:126-145 and 321-331. -/
def upd {β : Type} (f : Nat × Nat → β) (p : Nat × Nat) (b : β) : Nat × Nat → β := fun q => if q = p then b else f q

/-- With the record found: `Oject` is done, `Set` locks, the others lock for reading.  reg.go:212-331. -/
def found (op : Op) (p : Nat × Nat) : PC :=
  match op with
  | .object _ => .ret (.obj (.ok (some p)))
  | .set _ v => .wlock op p v
  | _ => .rlock op p

/-- `get` (reg.go:189-201) and the tests for errors and nil. -/
def resolve (w : World) (op : Op) : PC :=
  match op.ref with
  | .id cp =>
    match Regable.find w cp with
    | .panic => .ret (panics op)
    | .ok (k, i, err) => if err then .ret (fails op) else found op (k, i)
  | .obj none => .ret (fails op)
  | .obj (some p) => found op p

/-- Objects that the program got from `Oject` or `RegO`: nil or a pointer to a record.
reg.go:277-283, 368-370 and 414-422. -/
def Handle (w : World) : Ref → Prop
  | .obj (some p) => ∃ r, Regable.record w p.1 p.2 = .ok r
  | _ => True

/-- One step of goroutine `t`.  The statements of reg.go:189-365. -/
inductive Step : St → Option (Ev Op Ret) → St → Prop
  | call (s : St) (t : Nat) (op : Op) : s.pc t = .idle → Handle s.w op.ref → Step s (some (.call t op)) (s.go t (.find op))
  | find (s : St) (t : Nat) (op : Op) : s.pc t = .find op → Step s none (s.go t (resolve s.w op))
  /-- reg.go:289, 301, 358. -/
  | rlock (s : St) (t : Nat) (op : Op) (p : Nat × Nat) : s.pc t = .rlock op p → s.wl p = none →
    Step s none ({ s with rl := upd s.rl p (setAt (s.rl p) t true) }.go t (.read op p))
  /-- reg.go:291, 303, 360. -/
  | read (s : St) (t : Nat) (op : Op) (p : Nat × Nat) (r : Rec) : s.pc t = .read op p →
    Regable.record s.w p.1 p.2 = .ok r → s.torn p = false → Step s none (s.go t (.runlock p (answer op r)))
  /-- The same while the record is being written. -/
  | readTorn (s : St) (t : Nat) (op : Op) (p : Nat × Nat) (r : Rec) : s.pc t = .read op p → s.torn p = true →
    Step s none (s.go t (.runlock p (answer op r)))
  /-- reg.go:290, 302, 359. -/
  | runlock (s : St) (t : Nat) (p : Nat × Nat) (r : Ret) : s.pc t = .runlock p r →
    Step s none ({ s with rl := upd s.rl p (setAt (s.rl p) t false) }.go t (.ret r))
  /-- reg.go:323. -/
  | wlock (s : St) (t : Nat) (op : Op) (p : Nat × Nat) (v : BitVec 32) : s.pc t = .wlock op p v → s.wl p = none →
    (∀ u, s.rl p u = false) → Step s none ({ s with wl := upd s.wl p (some t) }.go t (.write op p v))
  /-- reg.go:325, begin. -/
  | write (s : St) (t : Nat) (op : Op) (p : Nat × Nat) (v : BitVec 32) : s.pc t = .write op p v →
    Step s none ({ s with torn := upd s.torn p true }.go t (.writing op p v))
  /-- reg.go:325, end, and 326. -/
  | writing (s : St) (t : Nat) (op : Op) (p : Nat × Nat) (v : BitVec 32) (w : World) : s.pc t = .writing op p v →
    Regable.setAt s.w p.1 p.2 v = .ok w →
    Step s none ({ s with w := w, torn := upd s.torn p false }.go t (.wunlock p (.val (.ok (v, false)))))
  /-- reg.go:324. -/
  | wunlock (s : St) (t : Nat) (p : Nat × Nat) (r : Ret) : s.pc t = .wunlock p r →
    Step s none ({ s with wl := upd s.wl p none }.go t (.ret r))
  | ret (s : St) (t : Nat) (r : Ret) : s.pc t = .ret r → Step s (some (.ret t r)) (s.go t .idle)

/-! ## `Reg` by many goroutines -/

/-- Where a goroutine is in `Reg` (reg.go:126-145) on one registrar: before the two loads and the store of the counter (135 with
range_uint32.go:83-89 and 97-103: the argument of `Set` is computed from one load, the result is another), the load and the store of the list (140), and the return. -/
inductive RPC where
  | idle
  | incLoad (name : String) (val : BitVec 32)
  | incRead (name : String) (val : BitVec 32) (c : BitVec 32)
  | incStore (name : String) (val : BitVec 32) (c id : BitVec 32)
  | listLoad (r : Rec)
  | listStore (r : Rec) (l : List Rec)
  | ret (id : BitVec 32)

/-- The registrar and the goroutines.  reg.go:95-100. -/
structure RSt where
  me : Regable.Reger
  pc : Nat → RPC

/-- Goroutine `t` goes on at `p`.  Control flow of reg.go:126-145. -/
def RSt.go (s : RSt) (t : Nat) (p : RPC) : RSt := { s with pc := setAt s.pc t p }

/-- One step of goroutine `t`; the limits are not enforced (see C64), so that `Inc` does not fail.
The statements of reg.go:126-145. -/
inductive RStep : RSt → Option (Ev (String × BitVec 32) (BitVec 32)) → RSt → Prop
  | call (s : RSt) (t : Nat) (name : String) (val : BitVec 32) : s.pc t = .idle →
    RStep s (some (.call t (name, val))) (s.go t (.incLoad name val))
  | incLoad (s : RSt) (t : Nat) (name : String) (val : BitVec 32) : s.pc t = .incLoad name val →
    RStep s none (s.go t (.incRead name val (s.me.idGen.val + 1#32)))
  | incRead (s : RSt) (t : Nat) (name : String) (val c : BitVec 32) : s.pc t = .incRead name val c →
    RStep s none (s.go t (.incStore name val c s.me.idGen.val))
  | incStore (s : RSt) (t : Nat) (name : String) (val c id : BitVec 32) : s.pc t = .incStore name val c id →
    RStep s none ({ s with me := { s.me with idGen := { s.me.idGen with val := c } } }.go t (.listLoad ⟨name, val, id⟩))
  | listLoad (s : RSt) (t : Nat) (r : Rec) : s.pc t = .listLoad r → RStep s none (s.go t (.listStore r s.me.regList))
  | listStore (s : RSt) (t : Nat) (r : Rec) (l : List Rec) : s.pc t = .listStore r l →
    RStep s none ({ s with me := { s.me with regList := l ++ [r] } }.go t
      (.ret (Regable.makeRegedId (s.me.regerId.setWidth 32) r.id)))
  | ret (s : RSt) (t : Nat) (id : BitVec 32) : s.pc t = .ret id → RStep s (some (.ret t id)) (s.go t .idle)

end Verif.RegConc
