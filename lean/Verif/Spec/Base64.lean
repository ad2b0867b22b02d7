import Mathlib.Data.List.Basic
/-!
# Base64, independently

Independent of every model.  RFC 4648, section 4: the bits of the bytes, in groups of six, each group as one of 64 characters; the last
group is filled up with zero bits and the last four characters with `=`.
-/

namespace Verif.Spec

/-- The characters, in the order of their values. -/
def base64Alphabet : List Char := "ABCDEFGHIJKLMNOPQRSTUVWXYZabcdefghijklmnopqrstuvwxyz0123456789+/".toList

/-- The lowest `w` bits of a number, the highest first. -/
def natBits : Nat → Nat → List Bool
  | 0, _ => []
  | w + 1, n => natBits w (n / 2) ++ [n % 2 == 1]

/-- The text `s` is the base64 text of the bytes `b`: characters whose groups of six bits are the bits of the bytes and fewer than six
zero bits, then up to two `=`, in total a multiple of four. -/
def IsBase64 (b : List UInt8) (s : List Char) : Prop :=
  ∃ (vs : List Nat) (z e : Nat), (∀ v ∈ vs, v < 64) ∧ z < 6 ∧ e < 3 ∧
    vs.flatMap (natBits 6) = b.flatMap (fun x => natBits 8 x.toNat) ++ List.replicate z false ∧
    s = vs.map (fun v => base64Alphabet.getD v '=') ++ List.replicate e '=' ∧ 4 ∣ s.length

end Verif.Spec
