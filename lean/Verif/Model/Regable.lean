import Verif.Model.RangeU
/-!
# Model of `regable/regable.go` and `regable/reg.go`

The registrars of `uint32` values.  The package imports counters and errors by older paths of the same author
(`amath`, `aerr`); they are taken to be `math/range_uint32.go` and the error package.  Errors are Booleans (`true` is an
error); a Go panic is `Res.panic`.  The locks around single records are left out here, as calls come one
after the other; `RegConc.lean` has them.  The texts made by `String`
and `Show...` are in `RegText.lean`.  Not modelled: `RegList`/`RegedObjMgr` (regable.go:86-100, without code).
-/

namespace Verif.Regable
open Verif.RangeU

/-- `_uint32Record`, reg.go:173-178. -/
structure Rec where
  name : String
  val : BitVec 32
  id : BitVec 32
deriving DecidableEq

/-- `Uint32Reger`, reg.go:95-100. -/
structure Reger where
  regerId : BitVec 8
  name : String
  idGen : R 32
  regList : List Rec
deriving DecidableEq

/-- The package variables: `g_u32_rgr_id_gen` (reg.go:37), `g_u32_reger_list` (reg.go:43), `g_reg_locked`
(regable.go:26). -/
structure World where
  gen : R 32
  regers : List Reger
  locked : Bool
deriving DecidableEq

/-- reg.go:37: value 1, range 0 to 255. -/
def World.init : World := ⟨⟨1#32, 0#32, 255#32⟩, [], false⟩

/-- `Inc` of a counter: the new counter and the old value (`RangeU.step`, range_uint32.go:83-89). -/
def inc (r : R 32) : R 32 × BitVec 32 × Bool := RangeU.set r (r.val + 1#32)

/-- `check_lock`, regable.go:61-68: panics when registration is finished. -/
def checkLock (w : World) : Res Unit := if w.locked then .panic else .ok ()

/-- `FinishReg`, regable.go:57-59. -/
def finishReg (w : World) : World := { w with locked := true }

/-- `Uint32Reger.init`, reg.go:102-110, for a new object. -/
def regerInit (name : String) : Reger × Bool :=
  let err := verifyRange 1#32 0#32 1024#32
  if err = false then (⟨0#8, name, ⟨1#32, 0#32, 1024#32⟩, []⟩, err) else (⟨0#8, name, ⟨0#32, 0#32, 0#32⟩, []⟩, err)

/-- `NewUint32Reger`, reg.go:51-71 (and `MustNewUint32Reger`, 73-80): every error panics.  The registrar is named by its
position in the list. -/
def newReger (w : World) (name : String) : Res (World × Nat) := do
  checkLock w
  let (gen, id, err) := inc w.gen
  if err then Res.panic
  else
    let (p, err) := regerInit name
    if err then Res.panic
    else .ok (⟨gen, w.regers ++ [{ p with regerId := id.setWidth 8 }], w.locked⟩, w.regers.length)

/-- `verify_max_regs`, regable.go:36-41. -/
def verifyMaxRegs (n : BitVec 32) : Bool := decide (n < 1#32) || decide (0xFFFFFF#32 < n)

/-- `MaxReg`, reg.go:113-123, of the `k`-th registrar: the maximum and the error. -/
def maxReg (w : World) (k : Nat) (n : BitVec 32) : Res (World × BitVec 32 × Bool) :=
  if verifyMaxRegs n then .ok (w, 0#32, true)
  else do
    let me ← Go.get w.regers k
    let err := verifyRange me.idGen.val me.idGen.min n
    if err then .ok (w, 0#32, err)
    else
      let regers ← Go.set w.regers k { me with idGen := ⟨me.idGen.val, me.idGen.min, n⟩ }
      .ok ({ w with regers := regers }, n, false)

/-- `MakeRegedId`, regable.go:72-74. -/
def makeRegedId (regerId realId : BitVec 32) : BitVec 32 := (regerId <<< 24) ||| (realId &&& 0xFFFFFF#32)

/-- `ids`, regable.go:75-79; `Ids`, reg.go:248-250. -/
def ids (cp : BitVec 32) : BitVec 32 × BitVec 32 := (cp >>> 24, cp &&& 0xFFFFFF#32)

/-- `Reg`, reg.go:126-145 (and `MustReg`, 147-154), on the `k`-th registrar. -/
def reg (w : World) (k : Nat) (name : String) (val : BitVec 32) : Res (World × BitVec 32) := do
  checkLock w
  let me ← Go.get w.regers k
  let (gen, id, err) := inc me.idGen
  if err then Res.panic
  else
    let regers ← Go.set w.regers k { me with idGen := gen, regList := me.regList ++ [⟨name, val, id⟩] }
    .ok ({ w with regers := regers }, makeRegedId (me.regerId.setWidth 32) id)

/-- `get`, reg.go:189-201: the positions of the registrar and of the record, and the error.  The function goes on after
setting the error, so the index expressions may panic. -/
def find (w : World) (cp : BitVec 32) : Res (Nat × Nat × Bool) := do
  let (idrgr, id) := ids cp
  let idregidx := (idrgr - 0#32 - 1#32).toNat
  let idx := (id - 0#32 - 1#32).toNat
  let err := decide (idrgr = 0#32) || !inCurrentRange w.gen idrgr
  let rg ← Go.get w.regers idregidx
  let err := err || (decide (id = 0#32) || !inCurrentRange rg.idGen id)
  let _ ← Go.get rg.regList idx
  return (idregidx, idx, err)

/-- A record by its position.  reg.go:189-201. -/
def record (w : World) (k i : Nat) : Res Rec := do
  let rg ← Go.get w.regers k
  Go.get rg.regList i

/-- `Valid`, reg.go:204-209. -/
def valid (w : World) (cp : BitVec 32) : Res Bool := do
  let (_, _, err) ← find w cp
  return !err

/-- `Get`, reg.go:212-218 with 299-308: the value and the error. -/
def get (w : World) (cp : BitVec 32) : Res (BitVec 32 × Bool) := do
  let (k, i, err) ← find w cp
  if err then return (0#32, true)
  else
    let r ← record w k i
    return (r.val, false)

/-- `Name`, reg.go:266-274 with 287-296. -/
def nameOf (w : World) (cp : BitVec 32) : Res (String × Bool) := do
  let (k, i, err) ← find w cp
  if err then return ("", true)
  else
    let r ← record w k i
    return (r.name, false)

/-- `Set` on a record, reg.go:321-331, by its position. -/
def setAt (w : World) (k i : Nat) (val : BitVec 32) : Res World := do
  let rg ← Go.get w.regers k
  let r ← Go.get rg.regList i
  let l ← Go.set rg.regList i { r with val := val }
  let regers ← Go.set w.regers k { rg with regList := l }
  return { w with regers := regers }

/-- `Set`, reg.go:230-236. -/
def set (w : World) (cp : BitVec 32) (val : BitVec 32) : Res (World × BitVec 32 × Bool) := do
  let (k, i, err) ← find w cp
  if err then return (w, 0#32, true)
  else
    let w ← setAt w k i val
    return (w, val, false)

/-- `Uint32Obj`, reg.go:368-370: a pointer to a record, here its position; `none` is nil. -/
abbrev Obj := Option (Nat × Nat)

/-- `Oject`, reg.go:277-283. -/
def object (w : World) (cp : BitVec 32) : Res Obj := do
  let (k, i, err) ← find w cp
  if err then return none else return some (k, i)

/-- `Uint32Obj.Get`, reg.go:378-380 with 299-308. -/
def objGet (w : World) : Obj → Res (BitVec 32 × Bool)
  | none => .ok (0#32, true)
  | some (k, i) => do
    let r ← record w k i
    return (r.val, false)

/-- `Uint32Obj.Set`, reg.go:388-390 with 321-331. -/
def objSet (w : World) (o : Obj) (val : BitVec 32) : Res (World × BitVec 32 × Bool) :=
  match o with
  | none => .ok (w, 0#32, true)
  | some (k, i) => do
    let w ← setAt w k i val
    return (w, val, false)

/-- `Uint32Obj.Id`, reg.go:409-411 with 347-352. -/
def objId (w : World) : Obj → Res (BitVec 32)
  | none => .ok 0#32
  | some (k, i) => do
    let r ← record w k i
    return r.id

/-- The calls that change the package variables; a panic leaves them as they were.
reg.go:51-155 and regable.go:57-59. -/
inductive Step : World → World → Prop
  | newReger {w w' name k} (h : newReger w name = .ok (w', k)) : Step w w'
  | reg {w w' k name val id} (h : reg w k name val = .ok (w', id)) : Step w w'
  | set {w w' cp val r} (h : set w cp val = .ok (w', r)) : Step w w'
  | objSet {w w' o val r} (h : objSet w o val = .ok (w', r)) : Step w w'
  | maxReg {w w' k n r} (h : maxReg w k n = .ok (w', r)) : Step w w'
  | finish {w} : Step w (finishReg w)

/-- The states after any history of calls.  Calls of reg.go:51-155 and regable.go:57-59. -/
inductive Reach : World → Prop
  | init : Reach World.init
  | step {w w'} : Reach w → Step w w' → Reach w'

end Verif.Regable
