import Verif.Model.RegConc
import Verif.Spec.LockRace
/-!
# `regable/reg.go` with the accesses it makes

The machines of Model/RegConc with the location and the kind of every access, and the operations on the locks.
-/

namespace Verif.RegConc
open Verif.Spec
open Verif.Regable (World Rec Obj)

/-- Locations: the lists and counters of registrars and records (reg.go:43 and 95-100; taken as one location, as nothing writes them after
the registration), and the fields of each record (reg.go:173-178). -/
inductive Var where
  | lists
  | name (p : Nat × Nat)
  | val (p : Nat × Nat)
  | id (p : Nat × Nat)
  deriving DecidableEq

/-- What a goroutine does; the mutexes are the locks of the records, by place.  reg.go:177. -/
abbrev VAct := Act Var (Nat × Nat)

/-- What is read of a record, reg.go:291, 303, 357-360. -/
def reads (op : Op) (p : Nat × Nat) : List Var :=
  match op with
  | .name _ => [.name p]
  | .str _ => [.id p, .name p, .val p]
  | _ => [.val p]

/-- What `get` reads, reg.go:189-201: for an identifier the lists, for an object nothing. -/
def looks (op : Op) : List Var :=
  match op.ref with
  | .id _ => [.lists]
  | .obj _ => []

/-- One step of goroutine `t`, with what it does.  The statements of reg.go:189-365.  (`String` reads the field `id` before it takes the lock,
line 357; as nothing writes it the order does not matter.) -/
inductive TStep : St → Nat → List VAct → Option (Ev Op Ret) → St → Prop
  | call (s : St) (t : Nat) (op : Op) : s.pc t = .idle → Handle s.w op.ref → TStep s t [] (some (.call t op)) (s.go t (.find op))
  | find (s : St) (t : Nat) (op : Op) : s.pc t = .find op → TStep s t ((looks op).map .read) none (s.go t (resolve s.w op))
  /-- reg.go:289, 301, 358. -/
  | rlock (s : St) (t : Nat) (op : Op) (p : Nat × Nat) : s.pc t = .rlock op p → s.wl p = none →
    TStep s t [.rlock p] none ({ s with rl := upd s.rl p (setAt (s.rl p) t true) }.go t (.read op p))
  /-- reg.go:291, 303, 360. -/
  | read (s : St) (t : Nat) (op : Op) (p : Nat × Nat) (r : Rec) : s.pc t = .read op p →
    Regable.record s.w p.1 p.2 = .ok r → s.torn p = false →
    TStep s t ((reads op p).map .read) none (s.go t (.runlock p (answer op r)))
  /-- The same while the record is being written. -/
  | readTorn (s : St) (t : Nat) (op : Op) (p : Nat × Nat) (r : Rec) : s.pc t = .read op p → s.torn p = true →
    TStep s t ((reads op p).map .read) none (s.go t (.runlock p (answer op r)))
  /-- reg.go:290, 302, 359. -/
  | runlock (s : St) (t : Nat) (p : Nat × Nat) (r : Ret) : s.pc t = .runlock p r →
    TStep s t [.runlock p] none ({ s with rl := upd s.rl p (setAt (s.rl p) t false) }.go t (.ret r))
  /-- reg.go:323. -/
  | wlock (s : St) (t : Nat) (op : Op) (p : Nat × Nat) (v : BitVec 32) : s.pc t = .wlock op p v → s.wl p = none →
    (∀ u, s.rl p u = false) → TStep s t [.lock p] none ({ s with wl := upd s.wl p (some t) }.go t (.write op p v))
  /-- reg.go:325, begin. -/
  | write (s : St) (t : Nat) (op : Op) (p : Nat × Nat) (v : BitVec 32) : s.pc t = .write op p v →
    TStep s t [.write (.val p)] none ({ s with torn := upd s.torn p true }.go t (.writing op p v))
  /-- reg.go:325, end, and 326. -/
  | writing (s : St) (t : Nat) (op : Op) (p : Nat × Nat) (v : BitVec 32) (w : World) : s.pc t = .writing op p v →
    Regable.setAt s.w p.1 p.2 v = .ok w →
    TStep s t [.write (.val p)] none ({ s with w := w, torn := upd s.torn p false }.go t (.wunlock p (.val (.ok (v, false)))))
  /-- reg.go:324. -/
  | wunlock (s : St) (t : Nat) (p : Nat × Nat) (r : Ret) : s.pc t = .wunlock p r →
    TStep s t [.unlock p] none ({ s with wl := upd s.wl p none }.go t (.ret r))
  | ret (s : St) (t : Nat) (r : Ret) : s.pc t = .ret r → TStep s t [] (some (.ret t r)) (s.go t .idle)

/-! ## `Reg` by many goroutines -/

/-- Locations of one registrar: the current number of `id_gen` (range_uint32.go:14-16) and the list, reg.go:98-99. -/
inductive RVar where
  | count
  | list
  deriving DecidableEq

/-- One step of goroutine `t`, with what it does.  The statements of reg.go:126-145; there is no lock. -/
inductive RTStep : RSt → Nat → List (Act RVar Unit) → Option (Ev (String × BitVec 32) (BitVec 32)) → RSt → Prop
  | call (s : RSt) (t : Nat) (name : String) (val : BitVec 32) : s.pc t = .idle →
    RTStep s t [] (some (.call t (name, val))) (s.go t (.incLoad name val))
  | incLoad (s : RSt) (t : Nat) (name : String) (val : BitVec 32) : s.pc t = .incLoad name val →
    RTStep s t [.read .count] none (s.go t (.incRead name val (s.me.idGen.val + 1#32)))
  | incRead (s : RSt) (t : Nat) (name : String) (val c : BitVec 32) : s.pc t = .incRead name val c →
    RTStep s t [.read .count] none (s.go t (.incStore name val c s.me.idGen.val))
  | incStore (s : RSt) (t : Nat) (name : String) (val c id : BitVec 32) : s.pc t = .incStore name val c id →
    RTStep s t [.write .count] none
      ({ s with me := { s.me with idGen := { s.me.idGen with val := c } } }.go t (.listLoad ⟨name, val, id⟩))
  | listLoad (s : RSt) (t : Nat) (r : Rec) : s.pc t = .listLoad r → RTStep s t [.read .list] none (s.go t (.listStore r s.me.regList))
  | listStore (s : RSt) (t : Nat) (r : Rec) (l : List Rec) : s.pc t = .listStore r l →
    RTStep s t [.write .list] none ({ s with me := { s.me with regList := l ++ [r] } }.go t
      (.ret (Regable.makeRegedId (s.me.regerId.setWidth 32) r.id)))
  | ret (s : RSt) (t : Nat) (id : BitVec 32) : s.pc t = .ret id → RTStep s t [] (some (.ret t id)) (s.go t .idle)

end Verif.RegConc
