/-!
# The field with 256 elements, for C146

Bytes as polynomials over the field with two elements, modulo x^8 + x^4 + x^3 + x + 1 (FIPS 197, section 4).
-/

namespace Verif.Spec

/-- The product of two polynomials, the coefficients being the binary digits. -/
def polyMul (a b : Nat) : Nat := (List.range 8).foldl (fun s i => if b.testBit i then s ^^^ (a <<< i) else s) 0

/-- The remainder of a polynomial of degree at most 14 modulo x^8 + x^4 + x^3 + x + 1. -/
def polyMod (n : Nat) : Nat := [6, 5, 4, 3, 2, 1, 0].foldl (fun s i => if s.testBit (i + 8) then s ^^^ (0x11b <<< i) else s) n

/-- The product in the field. -/
def gmul (a b : UInt8) : UInt8 := UInt8.ofNat (polyMod (polyMul a.toNat b.toNat))

/-- The affine map of the S-box: digit `i` of the result is the sum of digit `i` and the four digits before it, cyclically, and digit `i` of
0x63 (FIPS 197, section 5.1.1). -/
def affine (y : UInt8) : UInt8 :=
  let d := fun i => y.toNat.testBit (i % 8)
  UInt8.ofNat ((List.range 8).foldl (fun s i =>
    if ((d i).xor ((d (i + 4)).xor ((d (i + 5)).xor ((d (i + 6)).xor (d (i + 7)))))).xor ((0x63 : Nat).testBit i) then s + 2 ^ i else s) 0)

end Verif.Spec
