import Verif.Model.Go
/-!
# Model of `reflect/reflect.go`

The dynamic type of a value in an `interface{}`, or `none` for the nil interface.  The values themselves are not modelled.
Types are compared by `==` of `reflect.Type`, which is identity of types.  `byte` and `rune` are the types `uint8` and
`int32`.
-/

namespace Verif.Reflect

/-- `reflect.Kind` of the Go library, without `Invalid`.  reflect.go:21. -/
inductive Kind where
  | bool | int | int8 | int16 | int32 | int64 | uint | uint8 | uint16 | uint32 | uint64 | uintptr
  | float32 | float64 | complex64 | complex128
  | array | chan | func | interface | map | ptr | slice | string | struct | unsafePointer
deriving DecidableEq, Repr

/-- Types.  A defined type is its package, its name and the kind of its underlying type; the structure of the others is
written out as far as it matters (`text` stands for the fields of a struct, the methods of an interface, and so on).
What `reflect.TypeOf` shows at reflect.go:9, 16 and 22. -/
inductive Ty where
  | basic (k : Kind)
  | defined (pkg name : String) (k : Kind)
  | ptr (t : Ty)
  | slice (t : Ty)
  | array (n : Nat) (t : Ty)
  | map (k v : Ty)
  | other (k : Kind) (text : String)
deriving DecidableEq, Repr

/-- `reflect.Type.Kind`.  Called at reflect.go:22. -/
def Ty.kind : Ty → Kind
  | .basic k => k
  | .defined _ _ k => k
  | .ptr _ => .ptr
  | .slice _ => .slice
  | .array _ _ => .array
  | .map _ _ => .map
  | .other k _ => k

/-- `New`, reflect.go:8-12: `reflect.New` panics on the nil type, and gives a pointer to a new zero value. -/
def new (sample : Option Ty) : Res (Option Ty) :=
  match sample with
  | none => .panic
  | some t => .ok (some (.ptr t))

/-- `IsSameType`, reflect.go:15-18. -/
def isSameType (l r : Option Ty) : Bool := l == r

/-- `Kind`, reflect.go:21-23: a method of the nil type panics. -/
def kind (l : Option Ty) : Res Kind :=
  match l with
  | none => .panic
  | some t => .ok t.kind

/-- `IsCmpableInnterType`, reflect.go:26-32: a type switch compares whole types. -/
def isCmpableInnterType (t : Option Ty) : Bool :=
  match t with
  | some (.basic k) =>
    match k with
    | .int | .uint | .int8 | .uint8 | .int16 | .uint16 | .int32 | .uint32 | .int64 | .uint64 | .string | .float32 | .float64 => true
    | _ => false
  | _ => false

end Verif.Reflect
