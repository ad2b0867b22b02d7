import Verif.Props.RsaMath
/-!
# C151: what is signed
-/
set_option linter.unusedSectionVars false

namespace Verif.Rsa

open Verif.Hash (bigEndian ofBig)

/-! ## The specification: `DigestInfo` of PKCS #1 -/

/-- An element of fewer than 128 bytes: its tag, its length, its content. -/
def Spec.tlv (tag : Nat) (c : Bytes) : Bytes := UInt8.ofNat tag :: UInt8.ofNat c.length :: c

/-- A number of an object identifier: seven bits per byte, all bytes but the last with the highest bit. -/
def Spec.arc (v : Nat) : Bytes :=
  if v < 128 then [UInt8.ofNat v]
  else if v < 128 ^ 2 then [UInt8.ofNat (128 + v / 128), UInt8.ofNat (v % 128)]
  else [UInt8.ofNat (128 + v / 128 ^ 2), UInt8.ofNat (128 + v / 128 % 128), UInt8.ofNat (v % 128)]

/-- An object identifier; its first two numbers are one. -/
def Spec.oid : List Nat → Bytes
  | a :: b :: r => ((40 * a + b) :: r).flatMap Spec.arc
  | _ => []

/-- `DigestInfo ::= SEQUENCE { SEQUENCE { OBJECT IDENTIFIER, NULL }, OCTET STRING }`. -/
def Spec.digestInfo (name : List Nat) (d : Bytes) : Bytes :=
  Spec.tlv 0x30 (Spec.tlv 0x30 (Spec.tlv 0x06 (Spec.oid name) ++ Spec.tlv 0x05 []) ++ Spec.tlv 0x04 d)

/-- The hash functions: the number that `crypto` gives them, their object identifier, the function. -/
def Spec.signatureHashes : List (Nat × List Nat × Hash.Alg) :=
  [(2, [1, 2, 840, 113549, 2, 5], Hash.md5.alg),
   (3, [1, 3, 14, 3, 2, 26], Hash.sha1.alg),
   (4, [2, 16, 840, 1, 101, 3, 4, 2, 4], Hash.sha224.alg),
   (5, [2, 16, 840, 1, 101, 3, 4, 2, 1], Hash.sha256.alg),
   (6, [2, 16, 840, 1, 101, 3, 4, 2, 2], Hash.sha384.alg),
   (7, [2, 16, 840, 1, 101, 3, 4, 2, 3], Hash.sha512.alg)]

theorem prefix_info : ∀ c ∈ Spec.signatureHashes, hashOf c.1 = some c.2.2 ∧ ∃ pre, hashPrefix c.1 = some pre ∧
    ∀ d : Bytes, d.length = c.2.2.size → Spec.digestInfo c.2.1 d = pre ++ d := by
  intro c hc
  simp only [Spec.signatureHashes, List.mem_cons, List.not_mem_nil, or_false] at hc
  rcases hc with rfl | rfl | rfl | rfl | rfl | rfl <;>
  · refine ⟨rfl, _, rfl, fun d hd => ?_⟩
    simp only [Hash.Scheme.alg, Hash.md5, Hash.sha1, Hash.sha224, Hash.sha256, Hash.sha384, Hash.sha512, Hash.sha512Cut] at hd
    simp [Spec.digestInfo, Spec.tlv, Spec.oid, Spec.arc, hd]

/-- C151: `Verify` accepts a signature exactly when it has the size of the key, is a number below the modulus, and its power with the public
exponent is the padded `DigestInfo` that names the hash function and has the digest of the message. -/
theorem C151_signed (T : KeyTexts) (k : (rsaLib T).Priv) (src sg : Bytes) : ∀ c ∈ Spec.signatureHashes,
    let info := Spec.digestInfo c.2.1 (c.2.2.sum (c.2.2.write c.2.2.init src))
    let size := byteLen k.1.n
    verify (rsaLib T) ((rsaLib T).pub k) src sg c.1 = .ok true ↔
      info.length + 11 ≤ size ∧ sg.length = size ∧ ofBig sg < k.1.n ∧
      bigEndian size (ofBig sg ^ k.1.e % k.1.n) = [0, 1] ++ List.replicate (size - info.length - 3) 0xff ++ [0] ++ info := by
  intro c hc
  obtain ⟨h1, pre, h2, h3⟩ := prefix_info c hc
  have hd := c.2.2.sum_length (c.2.2.write c.2.2.init src)
  rw [h3 _ hd]
  have hl : (pre ++ c.2.2.sum (c.2.2.write c.2.2.init src)).length = pre.length + c.2.2.size := by rw [List.length_append, hd]
  have hv : verify (rsaLib T) ((rsaLib T).pub k) src sg c.1 =
      .ok (verifyPKCS1 k.1.pub c.1 (c.2.2.sum (c.2.2.write c.2.2.init src)) sg) := by
    have hh : (rsaLib T).hash c.1 = some c.2.2 := h1
    simp only [verify, hh]
    rfl
  intro info size
  rw [hv, Res.ok.injEq, verifyPKCS1, padDigest, h1, h2]
  simp only [hd, true_and]
  show _ ↔ (pre ++ _).length + 11 ≤ size ∧ _
  rw [hl]
  have hn : k.1.pub.n = k.1.n := rfl
  have he : k.1.pub.e = k.1.e := rfl
  rw [hn, he]
  by_cases hs : pre.length + c.2.2.size + 11 ≤ byteLen k.1.n
  · rw [if_pos hs]
    simp only [Bool.and_eq_true, beq_iff_eq, decide_eq_true_eq, powMod_eq]
    show _ ↔ pre.length + c.2.2.size + 11 ≤ byteLen k.1.n ∧ _
    constructor
    · rintro ⟨⟨a, b⟩, e⟩
      refine ⟨hs, a, b, ?_⟩
      simpa [info, size] using e
    · rintro ⟨_, a, b, e⟩
      refine ⟨⟨a, b⟩, ?_⟩
      simpa [info, size] using e
  · rw [if_neg hs]
    simp only [Bool.false_eq_true, false_iff]
    rintro ⟨a, _⟩
    exact hs a

/-- C151: the same of the default: it is SHA-512. -/
theorem C151_default (T : KeyTexts) (k : (rsaLib T).Priv) (src sg : Bytes) :
    verifyDefault (rsaLib T) ((rsaLib T).pub k) src sg = .ok true ↔
      94 ≤ byteLen k.1.n ∧ sg.length = byteLen k.1.n ∧ ofBig sg < k.1.n ∧
      bigEndian (byteLen k.1.n) (ofBig sg ^ k.1.e % k.1.n) =
        [0, 1] ++ List.replicate (byteLen k.1.n - 86) 0xff ++ [0] ++
          Spec.digestInfo [2, 16, 840, 1, 101, 3, 4, 2, 3] (Hash.sha512.alg.sum (Hash.sha512.alg.write Hash.sha512.alg.init src)) := by
  have h := C151_signed T k src sg (7, [2, 16, 840, 1, 101, 3, 4, 2, 3], Hash.sha512.alg) (by simp [Spec.signatureHashes])
  simp only at h
  have hl : (Spec.digestInfo [2, 16, 840, 1, 101, 3, 4, 2, 3]
      (Hash.sha512.alg.sum (Hash.sha512.alg.write Hash.sha512.alg.init src))).length = 83 := by
    have hd := Hash.sha512.alg.sum_length (Hash.sha512.alg.write Hash.sha512.alg.init src)
    rw [show Hash.sha512.alg.size = 64 from rfl] at hd
    simp [Spec.digestInfo, Spec.tlv, Spec.oid, Spec.arc, hd]
  rw [hl] at h
  rw [verifyDefault, defaultHash, h, show ∀ x, x - 83 - 3 = x - 86 from fun x => by omega]

/-- The identifier of SHA-1 is the one in the standard. -/
example : Spec.oid [1, 3, 14, 3, 2, 26] = [0x2b, 0x0e, 0x03, 0x02, 0x1a] := by decide

/-- A key of enough bytes for every function. -/
example : ∀ c ∈ Spec.signatureHashes, c.2.2.size + 30 ≤ byteLen exampleKey.n := by
  have : byteLen exampleKey.n = 141 := by decide +kernel
  rw [this]
  intro c hc
  simp only [Spec.signatureHashes, List.mem_cons, List.not_mem_nil, or_false] at hc
  rcases hc with rfl | rfl | rfl | rfl | rfl | rfl <;> decide

end Verif.Rsa
