import Verif.Model.SaltedHash
import Verif.Props.Crypto
/-!
# C112: the salted hash of strings
-/

namespace Verif.Crypto

/-- The digest of a whole message. -/
def Spec.digest (A : Hash.Alg) (m : Bytes) : Bytes := A.sum (A.write A.init m)

/-- The salt, as text. -/
def Spec.salt : Bytes := "ac643718-9730-e711-59210".toList.map fun c => UInt8.ofNat c.toNat

/-- What is hashed for `s`: five copies of `s` between two salts. -/
def Spec.salted (s : Bytes) : Bytes := (List.replicate 5 (Spec.salt ++ s ++ Spec.salt)).flatten

theorem codeKey_eq_salt : codeKey = Spec.salt := by decide +kernel

theorem saltLoop_eq (A : Hash.Alg) (s : Bytes) (n : Nat) (h : A.State) :
    saltLoop A s n h = A.write h (List.replicate n (Spec.salt ++ s ++ Spec.salt)).flatten := by
  induction n generalizing h with
  | zero => simp [saltLoop, A.write_nil]
  | succ n ih => simp only [saltLoop, ih, List.replicate_succ, List.flatten_cons, A.write_append, codeKey_eq_salt]

theorem salted_inj {s t : Bytes} (h : Spec.salted s = Spec.salted t) : s = t := by
  have hl := congrArg List.length h
  simp only [Spec.salted, List.replicate_succ, List.replicate_zero, List.flatten_cons, List.flatten_nil,
    List.length_append, List.length_nil] at hl
  have hl' : s.length = t.length := by omega
  simp only [Spec.salted, List.replicate_succ, List.flatten_cons, List.append_assoc] at h
  have h1 := List.append_cancel_left h
  exact (List.append_inj h1 hl').1

/-- **C112** (`Hash`).  The hash of `s` is the digest of five copies of `s` between two salts; two different byte strings
share a hash only if these two different messages are a collision of SHA-512. -/
theorem C112_hash (A : Hash.Alg) (s : Bytes) :
    saltedHash A s = Spec.digest A (Spec.salted s) ∧ (saltedHash A s).length = A.size ∧
    ∀ t, t ≠ s → saltedHash A t = saltedHash A s →
      Spec.salted t ≠ Spec.salted s ∧ Spec.digest A (Spec.salted t) = Spec.digest A (Spec.salted s) := by
  have key : ∀ s, saltedHash A s = Spec.digest A (Spec.salted s) := fun s => by
    rw [saltedHash, saltLoop_eq]; rfl
  refine ⟨key s, A.sum_length _, fun t ht h => ⟨fun e => ht (salted_inj e), ?_⟩⟩
  rw [← key, ← key, h]

/-- **C112** (`HashString`).  `HashString` of a string is the hexadecimal text of `Hash` of its bytes: reading it back
gives the hash, it has two digits per byte, and two strings share it exactly when they share the hash. -/
theorem C112_hashString (A : Hash.Alg) (s : Bytes) :
    ofHex (saltedHashString A s) = saltedHash A s ∧ (saltedHashString A s).length = 2 * A.size ∧
    (∀ c ∈ saltedHashString A s, c ∈ "0123456789abcdef".toList) ∧
    ∀ t, saltedHashString A t = saltedHashString A s ↔ saltedHash A t = saltedHash A s := by
  obtain ⟨h1, h2, h3, h4⟩ := C51_hex (saltedHash A s)
  refine ⟨h1, ?_, h3, fun t => ⟨h4 _, fun h => ?_⟩⟩
  · rw [show (saltedHashString A s).length = 2 * (saltedHash A s).length from h2]
    rw [saltedHash, A.sum_length]
  · exact congrArg toHex h

/-- A toy hash function meeting the contract: the sum of the bytes. -/
def toyAlg : Hash.Alg where
  State := UInt8
  init := 0
  write s b := b.foldl (· + ·) s
  sum s := [s]
  size := 1
  write_nil _ := rfl
  write_append _ _ _ := List.foldl_append
  sum_length _ := rfl

example : saltedHash toyAlg [1, 2] = [147] ∧ saltedHashString toyAlg [1, 2] = "93".toList := by decide +kernel
example : [2, 1] ≠ ([1, 2] : Bytes) ∧ saltedHash toyAlg [2, 1] = saltedHash toyAlg [1, 2] := by decide +kernel

end Verif.Crypto
