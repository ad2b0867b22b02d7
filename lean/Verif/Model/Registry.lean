import Verif.Model.Go
/-!
# Models of `errors/errors.go`, `regable/gp/mapping.gp.go` and `factory/*.go`
-/

namespace Verif.Errors

/-- The package variables `g_id2err` and `g_id_cur_max`, errors.go:53-58.  Both are accessed under one lock, so calls
are taken one after the other.  An error value is the Boolean `true`; its text is not modelled. -/
structure State where
  id2err : List String
  curMax : BitVec 32
deriving DecidableEq

/-- `Reg`, errors.go:83-98. -/
def reg (s : State) (name : String) : State × BitVec 32 × Bool :=
  if s.curMax < 9999#32 then
    let cur := s.curMax + 1#32
    (⟨s.id2err ++ [name], cur⟩, cur, false)
  else (s, 1000#32, true)

/-- The variables before `init` runs: empty table (errors.go:55, 57), then `ERRID_STD` is registered (50). -/
def beforeInit : State × BitVec 32 × Bool := reg ⟨[], 1000#32⟩ "standard error"

/-- The state when the program starts: `init`, errors.go:40-42, replaces the table. -/
def start : State := { beforeInit.1 with id2err := ["unknown error"] }

/-- `ERRID_STD`, errors.go:50. -/
def erridStd : BitVec 32 := beforeInit.2.1

/-- `ERRID_UNKNOWN`, errors.go:46. -/
def erridUnknown : BitVec 32 := 1001#32

/-- `valid`, errors.go:123-128: `true` is an error. -/
def valid (s : State) (cp : BitVec 32) : Bool := !(decide (1001#32 ≤ cp) && decide (cp ≤ s.curMax))

/-- `Get`, errors.go:112-122. -/
def get (s : State) (cp : BitVec 32) : Res (String × Bool) :=
  if valid s cp = false then do
    let idx := cp - 1001#32
    let name ← Go.get s.id2err idx.toNat
    return (name, false)
  else .ok ("", true)

/-- A sequence of registrations, with what each returned.  Repeated calls of errors.go:83-98. -/
def regAll (s : State) : List String → State × List (BitVec 32 × Bool)
  | [] => (s, [])
  | t :: ts =>
    let (s, r) := reg s t
    let (s, rs) := regAll s ts
    (s, r :: rs)

end Verif.Errors

namespace Verif.Mapping

/-- `GOGPGlobalNamePrefixMapping`, mapping.gp.go:36-39.  A Go map is a partial function; keys and values compare as Go's
`==` on types where it is an equivalence (so not NaN). -/
structure M (K V : Type) where
  normal : K → Option V
  reverse : V → Option K

variable {K V : Type} [DecidableEq K] [DecidableEq V]

/-- Assignment `m[k] = v`.  factoryi.go:12, mapping.gp.go:55-67. -/
def put {A B : Type} [DecidableEq A] (m : A → Option B) (k : A) (v : B) : A → Option B :=
  fun x => if x = k then some v else m x

/-- Built-in `delete(m, k)`.  factoryi.go:16, mapping.gp.go:70-87. -/
def del {A B : Type} [DecidableEq A] (m : A → Option B) (k : A) : A → Option B :=
  fun x => if x = k then none else m x

/-- `Init`, mapping.gp.go:49-52, and `New...`, 43-47. -/
def init : M K V := ⟨fun _ => none, fun _ => none⟩

/-- `Find`, mapping.gp.go:90-93. -/
def find (m : M K V) (k : K) : Option V := m.normal k

/-- `ReverseFind`, mapping.gp.go:96-99. -/
def reverseFind (m : M K V) (v : V) : Option K := m.reverse v

/-- `Insert`, mapping.gp.go:55-67: `none` is an error, `some k` the identifier. -/
def insert (m : M K V) (k : K) (v : V) : M K V × Option K :=
  if (find m k).isSome then (m, none)
  else if (reverseFind m v).isSome then (m, none)
  else (⟨put m.normal k v, put m.reverse v k⟩, some k)

/-- `RemoveByKey`, mapping.gp.go:70-77. -/
def removeByKey (m : M K V) (k : K) : M K V × Bool :=
  match find m k with
  | some v => (⟨del m.normal k, del m.reverse v⟩, true)
  | none => (m, false)

/-- `RemoveByValue`, mapping.gp.go:80-87. -/
def removeByValue (m : M K V) (v : V) : M K V × Bool :=
  match reverseFind m v with
  | some k => (⟨del m.normal k, del m.reverse v⟩, true)
  | none => (m, false)

/-- `Clear`, mapping.gp.go:102-104. -/
def clear (_ : M K V) : M K V := init

end Verif.Mapping

namespace Verif.Factory

variable {N A O : Type}

/-- `FactoryS`, factorys.go:7-9, and `FactoryI`, factoryi.go:7-9: the same code for names of type `N`; a creator is a
function from arguments to an object. -/
structure F (N A O : Type) where
  cmap : N → Option (A → O)

/-- `NewFactoryS`, factorys.go:3-5; `NewFactoryI`, factoryi.go:3-5. -/
def new : F N A O := ⟨fun _ => none⟩

/-- `AddCreater`, factorys.go:11-13, factoryi.go:11-13, factory.go:11-13: returns nil (no error). -/
def addCreater (me : F N A O) (_name : N) (_creater : A → O) : F N A O × Bool := (me, false)

/-- `RemoveCreater`, factorys.go:15-17, factoryi.go:15-17, factory.go:14-16. -/
def removeCreater (me : F N A O) (_name : N) : F N A O × Bool := (me, false)

/-- `Create`, factorys.go:19-24, factoryi.go:19-24, factory.go:18-20: `none` is nil. -/
def create (me : F N A O) (name : N) (arg : A) : Option O :=
  match me.cmap name with
  | some p => some (p arg)
  | none => none

/-- The calls on a factory.  factoryi.go:11-24 and factorys.go:11-24. -/
inductive Op (N A O : Type) where
  | add (name : N) (c : A → O)
  | remove (name : N)

/-- A history of calls.  Calls of factoryi.go:11-24. -/
def run (me : F N A O) : List (Op N A O) → F N A O
  | [] => me
  | .add n c :: ops => run (addCreater me n c).1 ops
  | .remove n :: ops => run (removeCreater me n).1 ops

end Verif.Factory
