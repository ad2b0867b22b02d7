import Verif.Props.Prime
/-!
# Kernel computation: the table of primes agrees with trial division
-/

namespace Verif.Prime

/-! Each block of the table is checked against trial division on its whole interval. -/

theorem block0 : rows0.flatten = (List.range' 0 3990).filter td := by decide +kernel
theorem block1 : rows1.flatten = (List.range' 3990 4842).filter td := by decide +kernel
theorem block2 : rows2.flatten = (List.range' 8832 5136).filter td := by decide +kernel
theorem block3 : rows3.flatten = (List.range' 13968 5456).filter td := by decide +kernel
theorem block4 : rows4.flatten = (List.range' 19424 5454).filter td := by decide +kernel
theorem block5 : rows5.flatten = (List.range' 24878 5682).filter td := by decide +kernel
theorem block6 : rows6.flatten = (List.range' 30560 5718).filter td := by decide +kernel
theorem block7 : rows7.flatten = (List.range' 36278 5796).filter td := by decide +kernel
theorem block8 : rows8.flatten = (List.range' 42074 5976).filter td := by decide +kernel
theorem block9 : rows9.flatten = (List.range' 48050 5944).filter td := by decide +kernel
theorem block10 : rows10.flatten = (List.range' 53994 5894).filter td := by decide +kernel
theorem block11 : rows11.flatten = (List.range' 59888 5650).filter td := by decide +kernel

theorem primes_eq : primes = (List.range 65538).filter td := by
  have h : List.range 65538 = List.range' 0 3990 ++ List.range' 3990 4842 ++ List.range' 8832 5136 ++ List.range' 13968 5456 ++ List.range' 19424 5454 ++ List.range' 24878 5682 ++ List.range' 30560 5718 ++ List.range' 36278 5796 ++ List.range' 42074 5976 ++ List.range' 48050 5944 ++ List.range' 53994 5894 ++ List.range' 59888 5650 := by
    rw [List.range_eq_range']
    simp only [List.append_assoc]
    rw [show (65538 : Nat) = 3990 + 61548 from rfl, ← List.range'_append_1]
    rw [show (61548 : Nat) = 4842 + 56706 from rfl, ← List.range'_append_1]
    rw [show (56706 : Nat) = 5136 + 51570 from rfl, ← List.range'_append_1]
    rw [show (51570 : Nat) = 5456 + 46114 from rfl, ← List.range'_append_1]
    rw [show (46114 : Nat) = 5454 + 40660 from rfl, ← List.range'_append_1]
    rw [show (40660 : Nat) = 5682 + 34978 from rfl, ← List.range'_append_1]
    rw [show (34978 : Nat) = 5718 + 29260 from rfl, ← List.range'_append_1]
    rw [show (29260 : Nat) = 5796 + 23464 from rfl, ← List.range'_append_1]
    rw [show (23464 : Nat) = 5976 + 17488 from rfl, ← List.range'_append_1]
    rw [show (17488 : Nat) = 5944 + 11544 from rfl, ← List.range'_append_1]
    rw [show (11544 : Nat) = 5894 + 5650 from rfl, ← List.range'_append_1]
  rw [h]
  simp only [List.filter_append, ← block0, ← block1, ← block2, ← block3, ← block4, ← block5, ← block6, ← block7, ← block8, ← block9, ← block10, ← block11]
  simp only [primes, List.flatten_append]

end Verif.Prime
