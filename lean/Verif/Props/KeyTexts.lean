import Verif.Lemmas.KeyTexts
import Verif.Props.RsaMath
/-!
# C152: texts of RSA keys
-/
set_option linter.unusedSectionVars false

namespace Verif.Rsa

open Verif.Hash (bigEndian ofBig)

/-! ## Reading what was written -/

section
variable {k : PrivKey} (h : k.Valid)
include h

theorem sizes : byteLen k.n < 2 ^ 48 ∧ byteLen k.d < 2 ^ 48 ∧ byteLen k.e < 2 ^ 48 ∧ byteLen k.p < 2 ^ 48 ∧ byteLen k.q < 2 ^ 48 ∧
    byteLen (k.d % (k.p - 1)) < 2 ^ 48 ∧ byteLen (k.d % (k.q - 1)) < 2 ^ 48 ∧ byteLen (modInverse k.q k.p) < 2 ^ 48 := by
  have hp := h.p.pos
  have hq := h.q.pos
  have h1 : k.p ≤ k.n := by rw [h.n]; exact Nat.le_mul_of_pos_right _ hq
  have h2 : k.q ≤ k.n := by rw [h.n]; exact Nat.le_mul_of_pos_left _ hp
  have hs := h.size
  have e : byteLen k.e ≤ byteLen (2 ^ 31) := byteLen_mono (Nat.le_of_lt h.e.2)
  have e31 : byteLen (2 ^ 31) = 4 := by decide +kernel
  have m1 := byteLen_mono h1
  have m2 := byteLen_mono h2
  have m3 := byteLen_mono (Nat.mod_le k.d (k.p - 1))
  have m4 := byteLen_mono (Nat.mod_le k.d (k.q - 1))
  have m5 : modInverse k.q k.p ≤ k.p := by
    have : (Nat.gcdA k.q k.p % (k.p : Int)) < k.p := Int.emod_lt_of_pos _ (by exact_mod_cast hp)
    unfold modInverse
    omega
  have m6 := byteLen_mono m5
  omega

theorem positive : 0 < k.n ∧ 0 < k.e ∧ 0 < k.d ∧ 0 < k.p ∧ 0 < k.q := by
  refine ⟨n_pos h, by have := h.e.1; omega, ?_, h.p.pos, h.q.pos⟩
  rcases Nat.eq_zero_or_pos k.d with h0 | h0
  · have := h.ep
    rw [h0] at this
    simp at this
  · exact h0

/-- The numbers in the text of a private key. -/
def privNumbers (k : PrivKey) : Bytes :=
  derInt 0 ++ derInt k.n ++ derInt k.e ++ derInt k.d ++ derInt k.p ++ derInt k.q ++
    derInt (k.d % (k.p - 1)) ++ derInt (k.d % (k.q - 1)) ++ derInt (modInverse k.q k.p)

theorem privNumbers_length : (privNumbers k).length < 2 ^ 55 := by
  obtain ⟨s1, s2, s3, s4, s5, s6, s7, s8⟩ := sizes h
  have b0 : byteLen 0 < 2 ^ 48 := by unfold byteLen; simp
  have a0 := derInt_length 0 b0
  have a1 := derInt_length _ s1
  have a2 := derInt_length _ s2
  have a3 := derInt_length _ s3
  have a4 := derInt_length _ s4
  have a5 := derInt_length _ s5
  have a6 := derInt_length _ s6
  have a7 := derInt_length _ s7
  have a8 := derInt_length _ s8
  simp only [privNumbers, List.length_append]
  omega

theorem readPriv_marshal : readPriv (marshalPriv k) = some k := by
  obtain ⟨s1, s2, s3, s4, s5, s6, s7, s8⟩ := sizes h
  obtain ⟨p1, p2, p3, p4, p5⟩ := positive h
  have hl : (privNumbers k).length < 2 ^ 56 := Nat.lt_trans (privNumbers_length h) (by decide)
  have he := h.e.2
  have e0 : readDer 0x30 (marshalPriv k) = some (privNumbers k, []) := by
    have := readDer_der 0x30 (privNumbers k) [] hl
    rwa [List.append_nil] at this
  have e8 : skipInt (derInt (modInverse k.q k.p)) = some [] := by
    have := skipInt_derInt (modInverse k.q k.p) [] s8
    rwa [List.append_nil] at this
  have z := readSmall_derInt 0
  rw [readPriv, e0]
  simp only [privNumbers, List.append_assoc, Option.bind_eq_bind, Option.bind_some]
  rw [z _ (by decide)]
  simp only [Option.bind_some]
  rw [readInt_derInt _ _ s1]
  simp only [Option.bind_some]
  rw [readSmall_derInt _ _ (by omega)]
  simp only [Option.bind_some]
  rw [readInt_derInt _ _ s2]
  simp only [Option.bind_some]
  rw [readInt_derInt _ _ s4]
  simp only [Option.bind_some]
  rw [readInt_derInt _ _ s5]
  simp only [Option.bind_some]
  rw [skipInt_derInt _ _ s6]
  simp only [Option.bind_some]
  rw [skipInt_derInt _ _ s7]
  simp only [Option.bind_some]
  rw [e8]
  simp only [Option.bind_some]
  rw [if_pos ⟨trivial, by simp, by decide, by omega, by omega, by omega, by omega, by omega⟩]
  simp only [Int.toNat_natCast]

theorem pubNumbers_length : (derInt k.n ++ derInt k.e).length < 2 ^ 50 := by
  obtain ⟨s1, s2, s3, s4, s5, s6, s7, s8⟩ := sizes h
  have a1 := derInt_length _ s1
  have a3 := derInt_length _ s3
  rw [List.length_append]
  omega

/-- The parts of the text of a public key. -/
def pubBody (k : PubKey) : Bytes := der 0x30 (der 6 rsaOid ++ [5, 0]) ++ der 3 (0 :: der 0x30 (derInt k.n ++ derInt k.e))

theorem marshalPub_length : (pubBody k.pub).length < 2 ^ 55 := by
  have l1 := pubNumbers_length h
  have l2 := der_length 0x30 (derInt k.n ++ derInt k.e) (by omega)
  have l3 := der_length 3 (0 :: der 0x30 (derInt k.n ++ derInt k.e)) (by rw [List.length_cons]; omega)
  rw [List.length_cons] at l3
  have l4 : (der 0x30 (der 6 rsaOid ++ [5, 0])).length = 15 := by decide +kernel
  simp only [pubBody, PrivKey.pub]
  rw [List.length_append]
  omega

theorem readPub_marshal {Other : Type} (other : Bytes → Option Other) : readPub other (marshalPub k.pub) = some (.inl k.pub) := by
  obtain ⟨s1, s2, s3, s4, s5, s6, s7, s8⟩ := sizes h
  obtain ⟨p1, p2, p3, p4, p5⟩ := positive h
  have he := h.e.2
  have l1 := pubNumbers_length h
  have l2 := der_length 0x30 (derInt k.n ++ derInt k.e) (by omega)
  have l3 := der_length 3 (0 :: der 0x30 (derInt k.n ++ derInt k.e)) (by rw [List.length_cons]; omega)
  rw [List.length_cons] at l3
  have l4 : (der 0x30 (der 6 rsaOid ++ [5, 0])).length = 15 := by decide +kernel
  have e0 : readDer 0x30 (marshalPub k.pub) = some (der 0x30 (der 6 rsaOid ++ [5, 0]) ++ der 3 (0 :: der 0x30 (derInt k.n ++ derInt k.e)), []) := by
    have := readDer_der 0x30 (der 0x30 (der 6 rsaOid ++ [5, 0]) ++ der 3 (0 :: der 0x30 (derInt k.n ++ derInt k.e))) []
      (by rw [List.length_append]; omega)
    rwa [List.append_nil] at this
  have e1 := readDer_der 0x30 (der 6 rsaOid ++ [5, 0]) (der 3 (0 :: der 0x30 (derInt k.n ++ derInt k.e))) (by decide +kernel)
  have e2 := readDer_der 6 rsaOid [5, 0] (by decide)
  have e3 : readDer 3 (der 3 (0 :: der 0x30 (derInt k.n ++ derInt k.e))) = some (0 :: der 0x30 (derInt k.n ++ derInt k.e), []) := by
    have := readDer_der 3 (0 :: der 0x30 (derInt k.n ++ derInt k.e)) [] (by rw [List.length_cons]; omega)
    rwa [List.append_nil] at this
  have e4 : bitString (0 :: der 0x30 (derInt k.n ++ derInt k.e)) = some (der 0x30 (derInt k.n ++ derInt k.e)) := by
    generalize der 0x30 (derInt k.n ++ derInt k.e) = r
    have hz : (0 : UInt8).toNat = 0 := rfl
    rw [bitString, hz, if_neg (by simp [Nat.mod_one]), Nat.pow_zero, Nat.div_one, bigEndian_ofBig]
  have e5 : readDer 0x30 (der 0x30 (derInt k.n ++ derInt k.e)) = some (derInt k.n ++ derInt k.e, []) := by
    have := readDer_der 0x30 (derInt k.n ++ derInt k.e) [] (by omega)
    rwa [List.append_nil] at this
  have e6 : readSmall (derInt k.e) = some ((k.e : Int), []) := by
    have := readSmall_derInt k.e [] (by omega)
    rwa [List.append_nil] at this
  simp only [readPub, e0, Option.bind_eq_bind, Option.bind_some, e1, e2, e3, e4, if_true, e5, readInt_derInt _ _ s1, e6]
  rw [if_pos ⟨rfl, trivial, by omega, by omega⟩]
  simp only [Int.toNat_natCast, PrivKey.pub]

end

/-! ## The texts of the library -/

open Classical in
/-- Whether the numbers of a text are a key is decided exactly.  `Validate` of the library, rsa.go:76. -/
noncomputable def checkPriv (k : PrivKey) : Option {k : PrivKey // k.Valid} := if h : k.Valid then some ⟨k, h⟩ else none

theorem checkPriv_valid (k : {k : PrivKey // k.Valid}) : checkPriv k.1 = some k := by
  simp [checkPriv, k.2]

theorem checkPriv_some {k : PrivKey} {k' : {k : PrivKey // k.Valid}} (h : checkPriv k = some k') : k'.1 = k := by
  unfold checkPriv at h
  split at h
  · simp only [Option.some.injEq] at h
    rw [← h]
  · cases h

/-- Texts of keys written out.  What remains a parameter is the generation of keys and what is made of texts with keys of other kinds. -/
noncomputable def keyTexts {Other : Type} (gen : Nat → Int → Option {k : PrivKey // k.Valid}) (other : Bytes → Option Other) : KeyTexts where
  Other := Other
  pemDecode := pemRead
  pemEncode := pemText
  parsePKCS1 b := (readPriv b).bind checkPriv
  marshalPKCS1 k := marshalPriv k.1
  parsePKIX := readPub other
  marshalPKIX k := some (marshalPub k)
  generate := gen

theorem pemRead_pemText (t : String) (b : Bytes) (ht : 10 ∉ bytesOf t.toList ∧ 58 ∉ bytesOf t.toList) : pemRead (pemText t b) = some b := by
  have := pemRead_text (pre := []) (post := []) (eol := [10]) (.inl rfl) (.inl rfl) ht (breakLines_ends (bytesOf (Crypto.b64Enc b))) (pemText_body b)
  have e : pemText t b = [] ++ pemBegin ++ bytesOf t.toList ++ dashes ++ [10] ++ breakLines (bytesOf (Crypto.b64Enc b)) ++ pemEnd ++
      bytesOf t.toList ++ dashes ++ [10] ++ [] := by
    simp only [pemText, List.nil_append, List.append_nil, List.append_assoc, List.cons_append]
  rw [e]
  exact this

theorem pem_private (b : Bytes) : pemRead (pemText "private key" b) = some b := pemRead_pemText _ b (by decide +kernel)

theorem pem_public (b : Bytes) : pemRead (pemText "public key" b) = some b := pemRead_pemText _ b (by decide +kernel)

variable {Other : Type} (gen : Nat → Int → Option {k : PrivKey // k.Valid}) (other : Bytes → Option Other)

theorem newServer_eq (txt : Bytes) : newServer (rsaLib (keyTexts gen other)) txt = (pemRead txt).bind fun b => (readPriv b).bind checkPriv := by
  have hd : (rsaLib (keyTexts gen other)).pemDecode txt = pemRead txt := rfl
  unfold newServer
  rw [hd]
  cases pemRead txt <;> rfl

theorem newClient_eq {txt b : Bytes} (h : pemRead txt = some b) : newClient (rsaLib (keyTexts gen other)) txt =
    match readPub other b with
    | none => .ok none
    | some (.inl pub) => .ok (some pub)
    | some (.inr _) => .panic := by
  have hd : (rsaLib (keyTexts gen other)).pemDecode txt = pemRead txt := rfl
  have hp : (rsaLib (keyTexts gen other)).parsePKIX b = readPub other b := rfl
  unfold newClient
  rw [hd, h]
  cases hr : readPub other b with
  | none =>
    simp only [hp.trans hr]
  | some x =>
    cases x with
    | inl k =>
      simp only [hp.trans hr]
    | inr o => simp only [hp.trans hr]

/-- C152: texts written out meet the contract of C151, so that C92 holds without any assumption on the library but that generated keys are
keys. -/
theorem C152_contract : (keyTexts gen other).Lawful ∧ (rsaLib (keyTexts gen other)).Lawful := by
  have : (keyTexts gen other).Lawful := by
    refine ⟨?_, ?_, ?_⟩
    · intro t b ht
      simp only [keyTexts]
      rcases ht with rfl | rfl
      · exact pem_private b
      · exact pem_public b
    · intro k
      show (readPriv (marshalPriv k.1)).bind checkPriv = some k
      rw [readPriv_marshal k.2]
      exact checkPriv_valid k
    · intro k h
      exact ⟨_, rfl, readPub_marshal h other⟩
  exact ⟨this, C151_contract _ this⟩

/-- C152: `GenRsaKeys` never fails once a key is found, and its two texts give exactly this key to `NewServer` and its public half to
`NewClient`. -/
theorem C152_keys (r : Nat) (bits : Int) :
    (gen r bits = none → genRsaKeys (rsaLib (keyTexts gen other)) r bits = none) ∧
    ∀ k, gen r bits = some k → ∃ pri pub, genRsaKeys (rsaLib (keyTexts gen other)) r bits = some (pri, pub) ∧
      newServer (rsaLib (keyTexts gen other)) pri = some k ∧ newClient (rsaLib (keyTexts gen other)) pub = .ok (some k.1.pub) := by
  have h := C92_keys (rsaLib (keyTexts gen other)) (C152_contract gen other).2 r bits
  have hg : (rsaLib (keyTexts gen other)).generate r bits = gen r bits := rfl
  rw [hg] at h
  refine ⟨h.1.2, fun k hk => ?_⟩
  cases hr : genRsaKeys (rsaLib (keyTexts gen other)) r bits with
  | none =>
    rw [h.1.1 hr] at hk
    cases hk
  | some x =>
    obtain ⟨s, h1, h2, -, h3, -⟩ := h.2 x.1 x.2 hr
    rw [hk] at h1
    cases h1
    exact ⟨x.1, x.2, rfl, h2, h3⟩

/-- What a file with a block has: text before that ends a line and does not look like a block, the block with any label, line breaks and blanks
anywhere in the base64 text, and any text after. -/
structure Spec.File (b file : Bytes) : Prop where
  form : ∃ pre t body post eol : Bytes,
    file = pre ++ "-----BEGIN ".toUTF8.toList ++ t ++ "-----".toUTF8.toList ++ eol ++ body ++ "-----END ".toUTF8.toList ++ t ++
      "-----".toUTF8.toList ++ eol ++ post ∧
    (pre = [] ∨ ∃ x, pre = x ++ [10] ∧ ¬ "-----BEGIN ".toUTF8.toList <:+: x) ∧
    (eol = [10] ∨ eol = [13, 10]) ∧ (10 ∉ t ∧ 58 ∉ t) ∧ (body = [] ∨ ∃ x, body = x ++ [10]) ∧
    (body.filter fun c => c ≠ 10 ∧ c ≠ 13 ∧ c ≠ 32 ∧ c ≠ 9) = (Crypto.b64Enc b).map fun c => UInt8.ofNat c.toNat

theorem texts_eq : "-----BEGIN ".toUTF8.toList = pemBegin ∧ "-----".toUTF8.toList = dashes ∧ "-----END ".toUTF8.toList = pemEnd := by
  decide +kernel

/-- C152: it does not matter what is around a block in a file, which label it has, how its lines are broken and what ends them:
`NewServer` and `NewClient` see the bytes of the first block. -/
theorem C152_file (b file : Bytes) (hf : Spec.File b file) :
    newServer (rsaLib (keyTexts gen other)) file = newServer (rsaLib (keyTexts gen other)) (pemText "private key" b) ∧
    newClient (rsaLib (keyTexts gen other)) file = newClient (rsaLib (keyTexts gen other)) (pemText "public key" b) ∧
    (∀ k : PrivKey, (hk : k.Valid) → b = marshalPriv k → newServer (rsaLib (keyTexts gen other)) file = some ⟨k, hk⟩) ∧
    (∀ k : PrivKey, k.Valid → b = marshalPub k.pub → newClient (rsaLib (keyTexts gen other)) file = .ok (some k.pub)) := by
  obtain ⟨pre, t, body, post, eol, hfile, h1, h2, h3, h4, h5⟩ := hf.form
  rw [texts_eq.1, texts_eq.2.1, texts_eq.2.2] at hfile
  rw [texts_eq.1] at h1
  have hbody : (body.filter fun c => !blank c) = bytesOf (Crypto.b64Enc b) := by
    rw [bytesOf, ← h5]
    congr 1
    funext c
    by_cases a1 : c = 10 <;> by_cases a2 : c = 13 <;> by_cases a3 : c = 32 <;> by_cases a4 : c = 9 <;> simp [blank, a1, a2, a3, a4]
  have hr : pemRead file = some b := by
    rw [hfile]
    exact pemRead_text h1 h2 h3 h4 hbody
  refine ⟨?_, ?_, ?_, ?_⟩
  · rw [newServer_eq, newServer_eq, hr, pem_private]
  · rw [newClient_eq gen other hr, newClient_eq gen other (pem_public b)]
  · rintro k hk rfl
    rw [newServer_eq, hr, Option.bind_some, readPriv_marshal hk, Option.bind_some]
    exact checkPriv_valid ⟨k, hk⟩
  · rintro k hk rfl
    rw [newClient_eq gen other hr, readPub_marshal hk other]

/-- C152: a private key given to `NewClient` and a public key given to `NewServer` are errors (no panic). -/
theorem C152_swapped (k : PrivKey) (hk : k.Valid) :
    newClient (rsaLib (keyTexts gen other)) (pemText "private key" (marshalPriv k)) = .ok none ∧
    newServer (rsaLib (keyTexts gen other)) (pemText "public key" (marshalPub k.pub)) = none := by
  constructor
  · have e0 : readDer 0x30 (marshalPriv k) = some (privNumbers k, []) := by
      have := readDer_der 0x30 (privNumbers k) [] (Nat.lt_trans (privNumbers_length hk) (by decide))
      rwa [List.append_nil] at this
    have e1 : readDer 0x30 (privNumbers k) = none := by
      simp only [privNumbers, List.append_assoc, derInt, der, List.cons_append, readDer]
      rw [if_neg (by decide)]
    have e2 : readPub other (marshalPriv k) = none := by
      simp only [readPub, e0, Option.bind_eq_bind, Option.bind_some, e1, Option.bind_none]
    rw [newClient_eq gen other (pem_private _), e2]
  · have l5 := marshalPub_length hk
    have e0 : readDer 0x30 (marshalPub k.pub) = some (pubBody k.pub, []) := by
      have := readDer_der 0x30 (pubBody k.pub) [] (Nat.lt_trans l5 (by decide))
      rwa [List.append_nil] at this
    have e1 : readSmall (pubBody k.pub) = none := by
      simp only [readSmall, pubBody, der, List.cons_append, readDer]
      rw [if_neg (by decide)]
    rw [newServer_eq, pem_public, Option.bind_some]
    simp only [readPriv, e0, Option.bind_eq_bind, Option.bind_some, e1, Option.bind_none]
    rfl

/-- Bytes that begin an element but not all of it are not read. -/
theorem readDer_truncated (tag : UInt8) (c l : Bytes) (hc : c.length < 2 ^ 55) (hl : l <+: der tag c) (hne : l ≠ der tag c) :
    readDer tag l = none := by
  cases h : readDer tag l with
  | none => rfl
  | some x =>
    obtain ⟨c', r⟩ := x
    have e := der_of_readDer h
    obtain ⟨t, ht⟩ := hl
    rw [e, List.append_assoc] at ht
    have hlen := congrArg List.length ht
    have h1 := readDer_der tag c [] (by omega)
    rw [List.append_nil] at h1
    have hc' : c'.length < 2 ^ 56 := by
      have h3 := der_length tag c (by omega)
      simp only [List.length_append] at hlen
      have h4 : c'.length ≤ (der tag c').length := by
        simp only [der, List.length_cons, List.length_append]
        omega
      omega
    have h2 := readDer_der tag c' (r ++ t) hc'
    rw [ht, h1] at h2
    simp only [Option.some.injEq, Prod.mk.injEq] at h2
    have hr : r = [] := by
      have := h2.2.symm
      simp only [List.append_eq_nil_iff] at this
      exact this.1
    rw [hr, List.append_nil, ← h2.1] at e
    exact absurd e hne

/-- C152: a text in which bytes at the end of the key are missing is an error. -/
theorem C152_truncated (k : PrivKey) (hk : k.Valid) (b : Bytes) :
    (b <+: marshalPriv k → b ≠ marshalPriv k → newServer (rsaLib (keyTexts gen other)) (pemText "private key" b) = none) ∧
    (b <+: marshalPub k.pub → b ≠ marshalPub k.pub → newClient (rsaLib (keyTexts gen other)) (pemText "public key" b) = .ok none) := by
  constructor
  · intro h1 h2
    have e : readDer 0x30 b = none := readDer_truncated 0x30 (privNumbers k) b (privNumbers_length hk) h1 h2
    rw [newServer_eq, pem_private, Option.bind_some]
    simp only [readPriv, e, Option.bind_eq_bind, Option.bind_none]
    rfl
  · intro h1 h2
    have e : readDer 0x30 b = none := readDer_truncated 0x30 (pubBody k.pub) b (marshalPub_length hk) h1 h2
    have e2 : readPub other b = none := by
      simp only [readPub, e, Option.bind_eq_bind, Option.bind_none]
    rw [newClient_eq gen other (pem_public b), e2]

/-- C152: a key that was read is spelled out in the text, in the only form that the numbers have. -/
theorem C152_only (b : Bytes) :
    (∀ k, newServer (rsaLib (keyTexts gen other)) (pemText "private key" b) = some k → ∃ ver t, b = der 0x30 (ver ++ (derInt k.1.n ++
      (derInt k.1.e ++ (derInt k.1.d ++ (derInt k.1.p ++ (derInt k.1.q ++ t))))))) ∧
    (∀ k, newClient (rsaLib (keyTexts gen other)) (pemText "public key" b) = .ok (some k) → ∃ t1 bits t2 t3,
      b = der 0x30 (der 0x30 (der 6 rsaOid ++ (5 :: 0 :: t1)) ++ (der 3 bits ++ t2)) ∧
      bitString bits = some (der 0x30 (derInt k.n ++ (derInt k.e ++ t3)))) := by
  constructor
  · intro k h
    rw [newServer_eq, pem_private, Option.bind_some] at h
    obtain ⟨k', h, hv⟩ := Option.bind_eq_some_iff.1 h
    have hv : k.1 = k' := checkPriv_some hv
    · rw [hv]
      clear hv
      simp only [readPriv, Option.bind_eq_bind, Option.bind_eq_some_iff, Option.ite_none_right_eq_some, Option.some.injEq] at h
      obtain ⟨⟨c, rest⟩, a0, ⟨v, c1⟩, a1, ⟨n, c2⟩, a2, ⟨e, c3⟩, a3, ⟨d, c4⟩, a4, ⟨p, c5⟩, a5, ⟨q, c6⟩, a6, c7, -, c8, -, c9, -, hc, rfl⟩ := h
      obtain ⟨hrest, -, -, hn, he, hd', hp, hq⟩ := hc
      subst hrest
      have b0 := der_of_readDer a0
      rw [List.append_nil] at b0
      simp only at a1 a2 a3 a4 a5 a6
      have w1 : ∃ ver, c = ver ++ c1 := by
        have := readInt_of_readSmall a1
        unfold readInt at this
        split at this
        · cases this
        · next x y hx =>
          cases hi : intValue x with
          | none => rw [hi] at this; cases this
          | some w =>
            rw [hi] at this
            simp only [Option.map_some, Option.some.injEq, Prod.mk.injEq] at this
            exact ⟨der 2 x, by rw [← this.2]; exact der_of_readDer hx⟩
      obtain ⟨ver, w1⟩ := w1
      refine ⟨ver, c6, ?_⟩
      rw [b0, w1, derInt_of_readInt a2 (by omega), derInt_of_readInt (readInt_of_readSmall a3) (by omega), derInt_of_readInt a4 (by omega),
        derInt_of_readInt a5 (by omega), derInt_of_readInt a6 (by omega)]
  · intro k h
    rw [newClient_eq gen other (pem_public b)] at h
    cases hr : readPub other b with
    | none => rw [hr] at h; cases h
    | some x =>
      rw [hr] at h
      cases x with
      | inr o => cases h
      | inl k' =>
        have h : k' = k := by
          injection h with h
          injection h
        subst h
        simp only [readPub, Option.bind_eq_bind, Option.bind_eq_some_iff] at hr
        obtain ⟨⟨c, rest⟩, a0, ⟨alg, c1⟩, a1, ⟨oid, params⟩, a2, ⟨bits, c2⟩, a3, key, a4, hr⟩ := hr
        split at hr
        · next hrest =>
          split at hr
          · next hoid =>
            simp only [Option.bind_eq_some_iff, Option.ite_none_right_eq_some, Option.some.injEq] at hr
            obtain ⟨⟨c3, rest3⟩, a5, ⟨n, c4⟩, a6, ⟨e, c5⟩, a7, hc, hk⟩ := hr
            obtain ⟨hpar, hr3, hn, he⟩ := hc
            cases hk
            simp only at a1 a2 a3 a5 a6 a7 hrest hoid hpar hr3
            subst hrest hoid hr3
            have b0 := der_of_readDer a0
            rw [List.append_nil] at b0
            have b5 := der_of_readDer a5
            rw [List.append_nil] at b5
            refine ⟨params.drop 2, bits, c2, c5, ?_, ?_⟩
            · have hp2 : params = 5 :: 0 :: params.drop 2 := by
                have := List.take_append_drop 2 params
                rw [hpar] at this
                exact this.symm
              rw [b0, der_of_readDer a1, der_of_readDer a2, der_of_readDer a3, ← hp2]
            · rw [a4, b5, derInt_of_readInt a6 (by omega), derInt_of_readInt (readInt_of_readSmall a7) (by omega)]
          · simp at hr
        · cases hr

/-! ## Concrete cases -/

/-- Every number of bits gives the example key. -/
def exampleGen : Nat → Int → Option {k : PrivKey // k.Valid} := fun _ bits => if bits < 12 then none else some ⟨exampleKey, exampleKey_valid⟩

example := C152_keys exampleGen (fun _ => (none : Option Unit)) 0 1024

/-- C152_file: a file with a comment, other line breaks and an indented line. -/
example : Spec.File [1, 2, 3, 4] "my key\n-----BEGIN K-----\r\nAQ\r\n  IDBA==\r\n-----END K-----\r\nrest".toUTF8.toList where
  form := ⟨"my key\n".toUTF8.toList, [75], "AQ\r\n  IDBA==\r\n".toUTF8.toList, "rest".toUTF8.toList, [13, 10], by decide +kernel,
    .inr ⟨"my key".toUTF8.toList, by decide +kernel, by decide +kernel⟩, .inr rfl, by decide, .inr ⟨"AQ\r\n  IDBA==\r".toUTF8.toList, by decide +kernel⟩,
    by decide +kernel⟩

example := C152_swapped exampleGen (fun _ => (none : Option Unit)) exampleKey exampleKey_valid

/-- C152_truncated: the first two bytes. -/
example : [0x30, 0x82] <+: marshalPriv exampleKey ∧ [0x30, 0x82] ≠ marshalPriv exampleKey := by decide +kernel

/-- the text of a small key, as OpenSSL writes it. -/
example : marshalPub ⟨3233, 17⟩ = [48, 27, 48, 13, 6, 9, 42, 134, 72, 134, 247, 13, 1, 1, 1, 5, 0, 3, 10, 0, 48, 7, 2, 2, 12, 161, 2, 1, 17] := by
  decide +kernel

/-- an element with a length in two bytes, a length that is longer than needed, and a number that is. -/
example : derLen 300 = [130, 1, 44] ∧ readLen [130, 1, 44] = some (300, []) ∧ readLen [130, 0, 44] = none ∧ readLen [129, 44] = none ∧
    intValue [0, 44] = none ∧ intValue [0, 200] = some 200 ∧ intValue [200] = some (-56) := by decide +kernel

/-- a malformed block is skipped. -/
example : pemRead "-----BEGIN A-----\n!!\n-----END A-----\n-----BEGIN B-----\nAQID\n-----END B-----\n".toUTF8.toList = some [1, 2, 3] := by
  decide +kernel

/-- the label at the end must be the one at the beginning. -/
example : pemRead "-----BEGIN A-----\nAQID\n-----END B-----\n".toUTF8.toList = none := by decide +kernel

end Verif.Rsa
