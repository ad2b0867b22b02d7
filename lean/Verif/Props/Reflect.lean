import Verif.Model.Reflect
/-!
# Properties of the type helpers (C104)
-/

namespace Verif.Reflect

/-! ## Specification -/

/-- Kinds whose values can be compared with `<` (the Go language specification). -/
def Spec.Ordered (k : Kind) : Prop :=
  k ∈ [Kind.int, .int8, .int16, .int32, .int64, .uint, .uint8, .uint16, .uint32, .uint64, .uintptr, .float32, .float64, .string]

/-! ## C104 -/

/-- **C104 (same type).** `IsSameType` is true exactly of values with the same dynamic type; two nil interfaces count as the
same, a nil interface and a value never. -/
theorem C104_same (l r : Option Ty) : isSameType l r = true ↔ l = r := by simp [isSameType]

/-- **C104 (`New`, partial).** For every sample that is not nil there is a new value, a pointer to the type of the sample.
Missing: it does not have the type of the sample (`C104_new_false`), and the nil interface panics. -/
theorem C104_new_partial (t : Ty) : new (some t) = .ok (some (.ptr t)) ∧ kind (some (.ptr t)) = .ok .ptr := ⟨rfl, rfl⟩

/-- **C104 is false of `New`**: for no sample at all does the result have the type of the sample. -/
theorem C104_new_false (sample r : Option Ty) (h : new sample = .ok r) : isSameType r sample = false := by
  cases sample with
  | none => simp [new] at h
  | some t =>
    simp only [new, Res.ok.injEq] at h
    subst h
    have : Ty.ptr t ≠ t := fun e => by have := congrArg sizeOf e; simp at this
    simp [isSameType, this]

/-- **C104 (nil).** `New` and `Kind` panic exactly on the nil interface. -/
theorem C104_nil_panics (s : Option Ty) : (new s = .panic ↔ s = none) ∧ (kind s = .panic ↔ s = none) := by
  cases s <;> simp [new, kind]

/-- **C104 (comparable types, partial).** Whatever `IsCmpableInnterType` accepts has values that can be compared with `<`, and
it accepts every predeclared type of that sort but `uintptr`.  Missing: `uintptr` and defined types
(`C104_cmpable_false`). -/
theorem C104_cmpable_partial (t : Ty) :
    (isCmpableInnterType (some t) = true → Spec.Ordered t.kind) ∧
    (∀ k, Spec.Ordered k → k ≠ .uintptr → isCmpableInnterType (some (.basic k)) = true) := by
  constructor
  · cases t with
    | basic k => cases k <;> simp [isCmpableInnterType, Spec.Ordered, Ty.kind]
    | _ => simp [isCmpableInnterType]
  · intro k hk hn
    cases k <;> simp_all [isCmpableInnterType, Spec.Ordered]

/-- **C104 is false of defined types and of `uintptr`**: they are never accepted, even if their values can be compared. -/
theorem C104_cmpable_false (pkg name : String) (k : Kind) :
    isCmpableInnterType (some (.defined pkg name k)) = false ∧ isCmpableInnterType (some (.basic .uintptr)) = false ∧
    Spec.Ordered (Ty.basic .uintptr).kind ∧ (Spec.Ordered k → Spec.Ordered (Ty.defined pkg name k).kind) :=
  ⟨rfl, rfl, by simp [Spec.Ordered, Ty.kind], id⟩

example : isSameType (some (.basic .int)) (some (.defined "main" "Int" .int)) = false ∧
    new (some (.basic .int)) = .ok (some (.ptr (.basic .int))) ∧ kind (some (.defined "main" "Int" .int)) = .ok .int ∧
    isCmpableInnterType (some (.basic .string)) = true ∧ isCmpableInnterType (some (.basic .bool)) = false := by
  decide

example : isSameType (some (.ptr (.basic .int))) (some (.basic .int)) = false := C104_new_false _ _ rfl

end Verif.Reflect
