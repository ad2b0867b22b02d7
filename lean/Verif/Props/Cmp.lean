import Verif.Model.FunctorCmp
import Verif.Model.FileHash
import Verif.Spec.Order
/-!
# C13 — comparators
-/

set_option linter.unusedSectionVars false

namespace Verif.Cmp
open Verif.Spec
variable {α : Type}

/-- **C13.**  Over a strict weak order both comparators (indeed every value of the byte type) are strict
weak orders. -/
theorem C13_strictWeak {less : α → α → Bool} (h : StrictWeak less) (me : Cmp) : StrictWeak (F less me) := by
  by_cases h1 : me = lesser
  · subst h1; exact h
  · by_cases h2 : me = greater
    · subst h2; exact h.flip
    · have : F less me = fun _ _ => false := by funext a b; simp [F, h1, h2]
      rw [this]
      exact ⟨fun _ => rfl, fun _ _ _ h => absurd h (by decide), fun _ _ _ h => absurd h (by decide)⟩

/-- **C13.**  Lesser is the element order and Greater its converse; a default (zero) comparator is Lesser. -/
theorem C13_converse (less : α → α → Bool) (a b : α) :
    F less lesser a b = less a b ∧ F less greater a b = less b a ∧ F less greater a b = F less lesser b a ∧
      (default : Cmp) = lesser := ⟨rfl, rfl, rfl, rfl⟩

/-- **C13.**  Selection by flag. -/
theorem C13_byBool (less : α → α → Bool) (bigFirst : Bool) (a b : α) :
    F less (createByBool bigFirst) a b = if bigFirst then less b a else less a b := by
  cases bigFirst <;> rfl

/-- **C13.**  Selection by name succeeds exactly on "", "Lesser" and "Greater"; "" and "Lesser" select the
element order, "Greater" its converse; a selected non-empty name is what String() prints. -/
theorem C13_byName (less : α → α → Bool) (name : String) :
    (createByName name = .panic ↔ name ≠ "" ∧ name ≠ "Lesser" ∧ name ≠ "Greater") ∧
    (∀ c, createByName name = .ok c →
      F less c = (if name = "Greater" then fun a b => less b a else less) ∧ (name ≠ "" → toStr c = name)) := by
  by_cases h0 : name = ""
  · subst h0; refine ⟨by simp [createByName], ?_⟩
    intro c h; simp [createByName] at h; subst h; exact ⟨rfl, fun h => absurd rfl h⟩
  · by_cases h1 : name = "Lesser"
    · subst h1; refine ⟨by simp [createByName], ?_⟩
      intro c h; simp [createByName] at h; subst h; exact ⟨rfl, fun _ => rfl⟩
    · by_cases h2 : name = "Greater"
      · subst h2; refine ⟨by simp [createByName], ?_⟩
        intro c h; simp [createByName] at h; subst h; exact ⟨rfl, fun _ => rfl⟩
      · refine ⟨by simp [createByName, h0, h1, h2], ?_⟩
        intro c h; simp [createByName, h0, h1, h2] at h

example : createByName "Greater" = .ok greater ∧ createByName "greater" = .panic := by decide

end Verif.Cmp

namespace Verif.FileHash
open Verif.Spec

theorem bytesLt_strictWeak : StrictWeak bytesLt := by
  have htri : ∀ a b : UInt8, a < b ∨ a = b ∨ b < a := by
    intro a b
    rcases Nat.lt_trichotomy a.toNat b.toNat with h | h | h
    · exact Or.inl (UInt8.lt_iff_toNat_lt.mpr h)
    · exact Or.inr (Or.inl (UInt8.toNat_inj.mp h))
    · exact Or.inr (Or.inr (UInt8.lt_iff_toNat_lt.mpr h))
  refine ⟨?_, ?_, ?_⟩
  · intro a; induction a with
    | nil => rfl
    | cons x xs ih => simp [bytesLt, ih]
  · intro a
    induction a with
    | nil =>
      intro b c h1 h2
      cases b with
      | nil => exact h2
      | cons y ys => cases c with
        | nil => simp [bytesLt] at h2
        | cons z zs => rfl
    | cons x xs ih =>
      intro b c h1 h2
      cases b with
      | nil => simp [bytesLt] at h1
      | cons y ys =>
        cases c with
        | nil => simp [bytesLt] at h2
        | cons z zs =>
          simp only [bytesLt, Bool.or_eq_true, Bool.and_eq_true, decide_eq_true_eq, beq_iff_eq] at *
          rcases h1 with h1 | ⟨rfl, h1⟩
          · rcases h2 with h2 | ⟨rfl, h2⟩
            · left; rw [UInt8.lt_iff_toNat_lt] at *; omega
            · left; exact h1
          · rcases h2 with h2 | ⟨rfl, h2⟩
            · left; exact h2
            · right; exact ⟨rfl, ih ys zs h1 h2⟩
  · intro a
    induction a with
    | nil =>
      intro b c h
      cases c with
      | nil => simp [bytesLt] at h
      | cons z zs => cases b with
        | nil => right; rfl
        | cons y ys => left; rfl
    | cons x xs ih =>
      intro b c h
      cases c with
      | nil => simp [bytesLt] at h
      | cons z zs =>
        cases b with
        | nil => right; rfl
        | cons y ys =>
          simp only [bytesLt, Bool.or_eq_true, Bool.and_eq_true, decide_eq_true_eq, beq_iff_eq] at *
          rcases htri x y with h1 | rfl | h1
          · exact Or.inl (Or.inl h1)
          · rcases h with h | ⟨rfl, h⟩
            · exact Or.inr (Or.inl h)
            · rcases ih ys zs h with h' | h'
              · exact Or.inl (Or.inr ⟨rfl, h'⟩)
              · exact Or.inr (Or.inr ⟨rfl, h'⟩)
          · right; left
            rcases h with h | ⟨rfl, h⟩
            · rw [UInt8.lt_iff_toNat_lt] at *; omega
            · exact h1

/-- **C13 (FileHash).**  Ordering by (Size, Hash) is a strict weak order. -/
theorem C13_fileHash_strictWeak : StrictWeak FileHash.less := by
  have hb := bytesLt_strictWeak
  have hsz : ∀ a b : UInt64, a < b ↔ a.toNat < b.toNat := fun a b => UInt64.lt_iff_toNat_lt
  have hse : ∀ a b : UInt64, a = b ↔ a.toNat = b.toNat := fun a b => UInt64.toNat_inj.symm
  refine ⟨?_, ?_, ?_⟩
  · intro a
    have : ¬ a.size < a.size := by rw [hsz]; omega
    simp [FileHash.less, hb.irrefl, this]
  · intro a b c h1 h2
    simp only [FileHash.less_iff, hsz, hse] at *
    rcases h1 with h1 | ⟨e1, h1⟩
    · left; omega
    · rcases h2 with h2 | ⟨e2, h2⟩
      · left; omega
      · right; exact ⟨by omega, hb.trans _ _ _ h1 h2⟩
  · intro a b c h
    simp only [FileHash.less_iff, hsz, hse] at *
    rcases h with h | ⟨e, h⟩
    · omega
    · rcases hb.negTrans _ b.hash _ h with h' | h'
      · rcases Nat.lt_trichotomy a.size.toNat b.size.toNat with h1 | h1 | h1
        · exact Or.inl (Or.inl h1)
        · exact Or.inl (Or.inr ⟨h1, h'⟩)
        · exact Or.inr (Or.inl (by omega))
      · rcases Nat.lt_trichotomy a.size.toNat b.size.toNat with h1 | h1 | h1
        · exact Or.inl (Or.inl h1)
        · exact Or.inr (Or.inr ⟨by omega, h'⟩)
        · exact Or.inr (Or.inl (by omega))

/-- **C13 (FileHash).**  What the order is: by Size, then by Hash bytewise. -/
theorem C13_fileHash_order (a b : FileHash) :
    a.less b = true ↔ a.size < b.size ∨ (a.size = b.size ∧ bytesLt a.hash b.hash = true) := a.less_iff b

example : FileHash.less ⟨[], [1, 2], 5, false⟩ ⟨[], [1, 2, 0], 5, true⟩ = true ∧
    FileHash.less ⟨[], [9], 4, false⟩ ⟨[], [1], 5, true⟩ = true := by decide

example := Cmp.C13_strictWeak bytesLt_strictWeak Cmp.greater

end Verif.FileHash
