/-!
# Orders (specification)
-/

namespace Verif.Spec

/-- A strict weak order, the contract every sorting or heap client needs from its comparator:
irreflexive, transitive, and incomparability is transitive (stated as negative transitivity). -/
structure StrictWeak {α : Type} (lt : α → α → Bool) : Prop where
  irrefl : ∀ a, lt a a = false
  trans : ∀ a b c, lt a b = true → lt b c = true → lt a c = true
  negTrans : ∀ a b c, lt a c = true → lt a b = true ∨ lt b c = true

namespace StrictWeak
variable {α : Type} {lt : α → α → Bool}

theorem asymm (h : StrictWeak lt) {a b : α} (hab : lt a b = true) : lt b a = false := by
  cases hba : lt b a with
  | false => rfl
  | true => have := h.trans a b a hab hba; rw [h.irrefl] at this; exact absurd this (by decide)

/-- `lt a b` and `lt b c` both false imply `lt a c` false. -/
theorem ge_trans (h : StrictWeak lt) {a b c : α} (hab : lt a b = false) (hbc : lt b c = false) :
    lt a c = false := by
  cases hac : lt a c with
  | false => rfl
  | true => rcases h.negTrans a b c hac with h' | h' <;> simp_all

/-- The converse of a strict weak order is one. -/
theorem flip (h : StrictWeak lt) : StrictWeak (fun a b => lt b a) :=
  ⟨h.irrefl, fun a b c h1 h2 => h.trans c b a h2 h1, fun a b c h1 => (h.negTrans c b a h1).symm⟩

end StrictWeak

/-- `lt` on integers, the comparison of the generated `int` containers. -/
def intLt (a b : Int) : Bool := decide (a < b)

theorem intLt_strictWeak : StrictWeak intLt :=
  ⟨by simp [intLt], by simp [intLt]; omega, by simp [intLt]; omega⟩

/-- Sorted so that no element precedes (in the sense of `lt`) an element before it. -/
def SortedBy {α : Type} (lt : α → α → Bool) (l : List α) : Prop :=
  l.Pairwise fun a b => lt b a = false

end Verif.Spec
