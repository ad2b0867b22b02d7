import Verif.Model.Go
/-!
# Model of `stl/functorcmp.gp_int.go`

The template is instantiated for `int`, `*IntTreeNode`, `FileHash`, `*FileHashTreeNode`; it only uses
the element's own `<`/`Less`, here the parameter `less`.
-/

namespace Verif.Cmp
variable {α : Type}

/-- `type CmpInt byte`, functorcmp.gp_int.go:31: any byte is a value of the type. -/
abbrev Cmp := UInt8

/-- `CMPLesser = iota`, functorcmp.gp_int.go:25-28, 33-36. -/
def lesser : Cmp := 0
/-- `CMPGreater`, functorcmp.gp_int.go:25-28, 33-36. -/
def greater : Cmp := 1

/-- `F`, functorcmp.gp_int.go:46-54, with `less` (101-106) and `great` (109-114) inlined. -/
def F (less : α → α → Bool) (me : Cmp) (left right : α) : Bool :=
  if me = lesser then less left right
  else if me = greater then less right left
  else false

/-- `CreateByBool`, functorcmp.gp_int.go:76-83. -/
def createByBool (bigFirst : Bool) : Cmp := if bigFirst then greater else lesser

/-- `CreateByName` (functorcmp.gp_int.go:86-98) and `CreateCmpInt` (39-42). -/
def createByName (name : String) : Res Cmp :=
  if name = "" then .ok lesser
  else if name = "Lesser" then .ok lesser
  else if name = "Greater" then .ok greater
  else .panic

/-- `String`, functorcmp.gp_int.go:63-73. -/
def toStr (me : Cmp) : String :=
  if me = lesser then "Lesser" else if me = greater then "Greater" else "error cmp value"

end Verif.Cmp
