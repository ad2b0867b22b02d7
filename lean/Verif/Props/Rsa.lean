import Verif.Model.Rsa
import Verif.Props.Hash
/-!
# RSA clients and servers (C92)
-/

set_option linter.unusedSectionVars false

namespace Verif.Rsa

variable (L : Lib)

/-- The digest of a text. -/
def Spec.digest (A : Hash.Alg) (src : Bytes) : Bytes := A.sum (A.write A.init src)

/-- **C92** (keys).  Whenever a key pair can be generated, `GenRsaKeys` returns two texts that `NewServer` and `NewClient`
accept (also `MustNewServer` and `MustNewClient`), and the client's key is the public part of the server's key; it
returns an error otherwise. -/
theorem C92_keys (h : L.Lawful) (r : Nat) (bits : Int) :
    (genRsaKeys L r bits = none ↔ L.generate r bits = none) ∧
    ∀ pri pub, genRsaKeys L r bits = some (pri, pub) → ∃ s, L.generate r bits = some s ∧ newServer L pri = some s ∧
      mustNewServer L pri = .ok s ∧ newClient L pub = .ok (some (L.pub s)) ∧ mustNewClient L pub = .ok (L.pub s) := by
  unfold genRsaKeys
  cases hg : L.generate r bits with
  | none => simp
  | some s =>
    obtain ⟨b, hb, hp⟩ := h.pkix s
    simp only [hb, reduceCtorEq, Option.some.injEq, Prod.mk.injEq, true_and]
    rintro pri pub ⟨rfl, rfl⟩
    refine ⟨s, rfl, ?_⟩
    simp [newServer, mustNewServer, newClient, mustNewClient, h.pem, h.pkcs1, hp]

/-- **C92** (encryption).  For every key pair and message: `Encrypt` fails exactly when the message is longer than the
modulus less 11 bytes; otherwise `Decrypt` gives the message back, whatever random bytes the two calls read. -/
theorem C92_encrypt (h : L.Lawful) (k : L.Priv) (r r' : Nat) (m : Bytes) :
    (encrypt L r (L.pub k) m = none ↔ L.size (L.pub k) < m.length + 11) ∧
    ∀ c, encrypt L r (L.pub k) m = some c → decrypt L r' k c = some m := by
  refine ⟨?_, fun c => h.decrypt_encrypt r r' k m c⟩
  have := h.encrypt_ok r k m
  unfold encrypt
  rw [← Option.not_isSome_iff_eq_none, this]
  omega

/-- **C92** (signatures).  For every key pair, every text and every hash function: if the hash function is not linked,
both calls panic; otherwise `Sign` fails exactly when signatures with the hash function are not defined or the key is too short for
the digest, and every signature it makes is accepted by `Verify` for that text and, for another text, only if the two have the same digest. -/
theorem C92_sign (h : L.Lawful) (k : L.Priv) (r hash : Nat) (src : Bytes) :
    (L.hash hash = none → sign L r k src hash = .panic ∧ ∀ c src sg, verify L c src sg hash = .panic) ∧
    (∀ A, L.hash hash = some A →
      (sign L r k src hash = .ok none ↔ ∀ l, L.prefixLen hash = some l → L.size (L.pub k) < l + A.size + 11) ∧
      ∃ o, sign L r k src hash = .ok o ∧ ∀ sg, o = some sg →
        verify L (L.pub k) src sg hash = .ok true ∧
        ∀ src', verify L (L.pub k) src' sg hash = .ok true ↔ Spec.digest A src' = Spec.digest A src) := by
  constructor
  · intro hh
    simp [sign, verify, hh]
  · intro A hA
    have hs := h.sign_ok r k hash A (Spec.digest A src) hA (A.sum_length _)
    have e : sign L r k src hash = .ok (L.sign r k hash (Spec.digest A src)) := by simp [sign, hA, Spec.digest]
    refine ⟨?_, _, e, ?_⟩
    · rw [e, Res.ok.injEq, ← Option.not_isSome_iff_eq_none, hs]
      simp only [not_exists, not_and, Nat.not_le]
    · intro sg hsg
      have hv := h.verify_sign r k hash _ sg hsg
      have ev : ∀ src', verify L (L.pub k) src' sg hash = .ok (L.verify (L.pub k) hash (Spec.digest A src') sg) := by
        intro src'; simp [verify, hA, Spec.digest]
      refine ⟨by rw [ev, hv], fun src' => ?_⟩
      rw [ev, Res.ok.injEq]
      exact ⟨fun h' => h.verify_digest _ _ _ _ _ h' hv, fun he => by rw [he]; exact hv⟩

/-- **C92** (default hash): the two default calls are the ones with SHA-512. -/
theorem C92_default (k : L.Priv) (c : L.Pub) (r : Nat) (src sg : Bytes) :
    signDefault L r k src = sign L r k src 7 ∧ verifyDefault L c src sg = verify L c src sg 7 := ⟨rfl, rfl⟩

/-- **C92** (bad keys), as far as it holds: a text without a block, or whose block is not a key, gives an error and not a
key (and makes the `Must` functions panic).  Missing: the block holds a public key of another kind, see `C92_false`. -/
theorem C92_bad_partial (txt : Bytes) :
    (newServer L txt = none ↔ ∀ b, L.pemDecode txt = some b → L.parsePKCS1 b = none) ∧
    (mustNewServer L txt = .panic ↔ newServer L txt = none) ∧
    (newClient L txt = .ok none ↔ ∀ b, L.pemDecode txt = some b → L.parsePKIX b = none) ∧
    (mustNewClient L txt = .panic ↔ ∀ k, newClient L txt ≠ .ok (some k)) := by
  refine ⟨?_, ?_, ?_, ?_⟩
  · unfold newServer; cases L.pemDecode txt <;> simp
  · unfold mustNewServer; cases newServer L txt <;> simp
  · unfold newClient
    cases L.pemDecode txt with
    | none => simp
    | some b => cases hp : L.parsePKIX b with
      | none => simp [hp]
      | some x => cases x <;> simp [hp]
  · unfold mustNewClient
    cases newClient L txt with
    | panic => simp
    | ok o => cases o <;> simp

/-- **C92** (bad keys) is false: on every text that holds a public key of another kind, `NewClient` panics instead of
returning an error. -/
theorem C92_false (txt b : Bytes) (k : L.Other) (h1 : L.pemDecode txt = some b) (h2 : L.parsePKIX b = some (.inr k)) :
    newClient L txt = .panic := by
  simp [newClient, h1, h2]

/-! ## A library meeting the contract -/

/-- A toy library: keys are numbers of bytes, encryption and signatures put a mark in front. -/
def toy : Lib where
  Priv := Nat
  Pub := Nat
  Other := Unit
  pub k := k
  size k := k
  pemDecode b := if b.head? = some 80 then some b.tail else none
  pemEncode _ b := 80 :: b
  parsePKCS1 b := if b.head? = some 1 then some (b.length - 1) else none
  marshalPKCS1 k := 1 :: List.replicate k 0
  parsePKIX b := if b.head? = some 2 then some (.inl (b.length - 1)) else if b = [3] then some (.inr ()) else none
  marshalPKIX k := some (2 :: List.replicate k 0)
  generate _ bits := if bits < 8 then none else some (bits / 8).toNat
  encrypt r k m := if m.length + 11 ≤ k then some (UInt8.ofNat r :: m) else none
  decrypt _ _ c := some c.tail
  sign _ k h d := if h = 7 ∧ h + d.length + 11 ≤ k then some d else none
  verify _ _ d s := d == s
  hash h := if h = 7 ∨ h = 14 then some (Hash.toyAlg 64) else none
  prefixLen h := if h = 7 then some h else none

theorem toy_lawful : toy.Lawful where
  pem := by intro t b _; rfl
  pkcs1 := by intro (k : Nat); simp [toy]
  pkix := by intro (k : Nat); exact ⟨_, rfl, by simp [toy]⟩
  encrypt_ok := by intro r k m; simp [toy]
  decrypt_encrypt := by
    intro r r' k m c h
    simp only [toy, Option.ite_none_right_eq_some, Option.some.injEq] at h
    rw [← h.2]; rfl
  sign_ok := by
    intro r k h A d _ hd
    by_cases h7 : h = 7
    · subst h7; simp [toy, hd]
    · simp [toy, h7]
  verify_sign := by
    intro r k h d s hs
    simp only [toy, Option.ite_none_right_eq_some, Option.some.injEq] at hs
    simp [toy, hs.2]
  verify_digest := by
    intro k h d d' s h1 h2
    simp only [toy, beq_iff_eq] at h1 h2
    rw [h1, h2]

example : ∃ pri pub, genRsaKeys toy 0 1024 = some (pri, pub) ∧ newClient toy pub = .ok (some (128 : Nat)) ∧
    newServer toy pri = some (128 : Nat) := ⟨_, _, rfl, by simp [newClient, toy], by simp [newServer, toy]⟩
example : (encrypt toy 5 (128 : Nat) [1, 2, 3]).bind (decrypt toy 9 (128 : Nat)) = some [1, 2, 3] := rfl
example : encrypt toy 5 (12 : Nat) [1, 2, 3] = none := rfl
example : signDefault toy 0 (128 : Nat) [1, 2] = .ok (some (List.replicate 64 3)) := by decide +kernel
example : signDefault toy 0 (64 : Nat) [1, 2] = .ok none := by decide +kernel
example : sign toy 0 (128 : Nat) [1, 2] 5 = .panic := rfl
example : sign toy 0 (128 : Nat) [1, 2] 14 = .ok none := by decide +kernel
example : newClient toy [80, 3] = .panic := rfl

example := C92_keys toy toy_lawful 0 1024
example := C92_encrypt toy toy_lawful (128 : Nat) 5 9 [1, 2, 3]
example := C92_sign toy toy_lawful (128 : Nat) 0 6 [1, 2]

end Verif.Rsa
