import Verif.Props.KeyTexts
import Verif.Props.RsaSignature
import Verif.Props.Ciphers
/-!
# C152: the texts of keys are those of the standards
-/
set_option linter.unusedSectionVars false

namespace Verif.Rsa

open Verif.Hash (bigEndian ofBig)

/-! ## The specification: X.690, RFC 8017, RFC 5280 and RFC 7468 -/

/-- The number that bytes are, the highest byte first. -/
def Spec.bytesValue : Bytes → Nat
  | [] => 0
  | b :: r => b.toNat * 256 ^ r.length + Spec.bytesValue r

/-- `l` states the length `n`: one byte below 128, or the number of bytes that follow with the highest bit set, then these, the first not 0. -/
def Spec.IsLength (n : Nat) (l : Bytes) : Prop :=
  (n < 128 ∧ l.map UInt8.toNat = [n]) ∨
  (128 ≤ n ∧ ∃ b ds, b.toNat = 128 + ds.length ∧ l = b :: ds ∧ ds.head? ≠ some 0 ∧ Spec.bytesValue ds = n)

/-- `b` is the element with this tag and content. -/
def Spec.IsElement (tag : UInt8) (content b : Bytes) : Prop := ∃ l, Spec.IsLength content.length l ∧ b = [tag] ++ l ++ content

/-- `b` is the element `INTEGER` of a number: at least one byte, the highest bit not set, no byte more than needed. -/
def Spec.IsInteger (v : Nat) (b : Bytes) : Prop :=
  ∃ x r, Spec.IsElement 2 (x :: r) b ∧ x.toNat < 128 ∧ Spec.bytesValue (x :: r) = v ∧ (x = 0 → ∀ y ∈ r.head?, 128 ≤ y.toNat)

/-- `b` is the text of a private key in PKCS #1: version 0, modulus, both exponents, the primes, the exponents modulo the primes less one, and
the inverse of the second prime modulo the first. -/
def Spec.IsPKCS1 (k : PrivKey) (b : Bytes) : Prop :=
  ∃ (is : List Bytes) (inv : Nat), Spec.IsElement 0x30 is.flatten b ∧ inv * k.q % k.p = 1 ∧ inv < k.p ∧
    List.Forall₂ Spec.IsInteger [0, k.n, k.e, k.d, k.p, k.q, k.d % (k.p - 1), k.d % (k.q - 1), inv] is

/-- `b` is the text of a public key in PKIX: the algorithm `rsaEncryption` with no parameters, and bits, none of them unused. -/
def Spec.IsPKIX (k : PubKey) (b : Bytes) : Prop :=
  ∃ alg name bits numbers i j, Spec.IsElement 0x30 (alg ++ bits) b ∧
    Spec.IsElement 0x30 (name ++ [5, 0]) alg ∧ Spec.IsElement 6 (Spec.oid [1, 2, 840, 113549, 1, 1, 1]) name ∧
    Spec.IsElement 3 ([0] ++ numbers) bits ∧ Spec.IsElement 0x30 (i ++ j) numbers ∧ Spec.IsInteger k.n i ∧ Spec.IsInteger k.e j

/-- The text is a block: the line that begins it, lines of 64 characters of base64 but for the last one, which is not empty, the line that
ends it. -/
def Spec.IsPem (label : String) (b text : Bytes) : Prop :=
  ∃ (s : List Char) (lines : List (List Char)), Spec.IsBase64 b s ∧ lines.flatten = s ∧
    (∀ i (h : i < lines.length), 0 < lines[i].length ∧ lines[i].length ≤ 64 ∧ (i + 1 < lines.length → lines[i].length = 64)) ∧
    text = ("-----BEGIN " ++ label ++ "-----\n").toUTF8.toList ++
      (lines.flatMap fun l => (l ++ ['\n']).map fun c => UInt8.ofNat c.toNat) ++ ("-----END " ++ label ++ "-----\n").toUTF8.toList

/-! ## The proofs -/

theorem bytesValue_eq : ∀ l : Bytes, Spec.bytesValue l = ofBig l
  | [] => rfl
  | b :: r => by rw [Spec.bytesValue, ofBig_cons, bytesValue_eq r]

theorem derLen_isLength (n : Nat) (hn : n < 2 ^ 56) : Spec.IsLength n (derLen n) := by
  unfold derLen
  split
  · next h =>
    refine .inl ⟨h, ?_⟩
    simp only [List.map_cons, List.map_nil, UInt8.toNat_ofNat']
    rw [Nat.mod_eq_of_lt (by omega)]
  · next h =>
    have h0 : n ≠ 0 := by omega
    obtain ⟨b, t, e, hb, hv, hl⟩ := bigEndian_cons h0
    have hk : byteLen n ≤ 7 := by
      have h2 := byteLen_le n h0
      by_contra hc
      have : 256 ^ 7 ≤ 256 ^ (byteLen n - 1) := Nat.pow_le_pow_right (by decide) (by omega)
      omega
    refine .inr ⟨by omega, _, _, ?_, rfl, ?_, ?_⟩
    · rw [bigEndian_len, UInt8.toNat_ofNat', Nat.mod_eq_of_lt (by omega)]
    · rw [e]
      simpa using hb
    · rw [bytesValue_eq, e, hv]

theorem der_isElement (tag : UInt8) (c : Bytes) (hc : c.length < 2 ^ 56) : Spec.IsElement tag c (der tag c) :=
  ⟨_, derLen_isLength _ hc, by simp [der]⟩

theorem derInt_isInteger (v : Nat) (hv : byteLen v < 2 ^ 48) : Spec.IsInteger v (derInt v) := by
  have hl := (intBytes_length v).1
  have he := der_isElement 2 (intBytes v) (by omega)
  have key : ∃ x r, intBytes v = x :: r ∧ x.toNat < 128 ∧ ofBig (x :: r) = v ∧ (x = 0 → ∀ y ∈ r.head?, 128 ≤ y.toNat) := by
    by_cases h0 : v = 0
    · subst h0
      exact ⟨0, [], by decide +kernel, by decide, by decide, by simp⟩
    · obtain ⟨b, r, e, hb, h1, -⟩ := bigEndian_cons h0
      unfold intBytes
      rw [e]
      simp only
      by_cases h : 128 ≤ b.toNat
      · rw [if_pos h]
        exact ⟨0, b :: r, rfl, by decide, by rw [ofBig_zero, h1], by simpa using h⟩
      · rw [if_neg h]
        exact ⟨b, r, rfl, by omega, h1, fun hb0 => absurd hb0 hb⟩
  obtain ⟨x, r, e, a, b, c⟩ := key
  refine ⟨x, r, ?_, a, by rw [bytesValue_eq, b], c⟩
  rw [← e]
  exact he

theorem inverse_spec {k : PrivKey} (h : k.Valid) : modInverse k.q k.p * k.q % k.p = 1 ∧ modInverse k.q k.p < k.p := by
  have hp := h.p.pos
  have hi : (modInverse k.q k.p : Int) = Nat.gcdA k.q k.p % k.p := by
    rw [modInverse, Int.toNat_of_nonneg (Int.emod_nonneg _ (by omega))]
  constructor
  · have h1 : (modInverse k.q k.p : Int) * k.q ≡ 1 [ZMOD k.p] := by
      rw [hi]
      have h1 : (Nat.gcdA k.q k.p % (k.p : Int)) * k.q ≡ Nat.gcdA k.q k.p * k.q [ZMOD k.p] := (Int.mod_modEq _ _).mul_right _
      have h2 : Nat.gcdA k.q k.p * k.q = 1 - k.p * Nat.gcdB k.q k.p := by
        have hg := Nat.gcd_eq_gcd_ab k.q k.p
        rw [Nat.Coprime.gcd_eq_one (coprime_pq h).symm] at hg
        have : (k.q : Int) * Nat.gcdA k.q k.p = Nat.gcdA k.q k.p * k.q := Int.mul_comm _ _
        push_cast at hg
        omega
      refine h1.trans ?_
      rw [h2, Int.modEq_iff_dvd]
      exact ⟨Nat.gcdB k.q k.p, by omega⟩
    have h3 : modInverse k.q k.p * k.q ≡ 1 [MOD k.p] := by
      rw [← Int.natCast_modEq_iff]
      push_cast
      exact h1
    rw [h3, Nat.mod_eq_of_lt h.p.one_lt]
  · have := Int.emod_lt_of_pos (Nat.gcdA k.q k.p) (show (0 : Int) < k.p by omega)
    rw [← hi] at this
    omega

theorem marshalPriv_format {k : PrivKey} (h : k.Valid) : Spec.IsPKCS1 k (marshalPriv k) := by
  obtain ⟨s1, s2, s3, s4, s5, s6, s7, s8⟩ := sizes h
  have s0 : byteLen 0 < 2 ^ 48 := by unfold byteLen; simp
  refine ⟨[derInt 0, derInt k.n, derInt k.e, derInt k.d, derInt k.p, derInt k.q, derInt (k.d % (k.p - 1)), derInt (k.d % (k.q - 1)),
    derInt (modInverse k.q k.p)], modInverse k.q k.p, ?_, (inverse_spec h).1, (inverse_spec h).2, ?_⟩
  · have := der_isElement 0x30 (privNumbers k) (Nat.lt_trans (privNumbers_length h) (by decide))
    simp only [privNumbers] at this
    simpa only [List.flatten_cons, List.flatten_nil, List.append_nil, List.append_assoc, marshalPriv] using this
  · exact .cons (derInt_isInteger _ s0) (.cons (derInt_isInteger _ s1) (.cons (derInt_isInteger _ s3) (.cons (derInt_isInteger _ s2)
      (.cons (derInt_isInteger _ s4) (.cons (derInt_isInteger _ s5) (.cons (derInt_isInteger _ s6) (.cons (derInt_isInteger _ s7)
      (.cons (derInt_isInteger _ s8) .nil))))))))

theorem rsaOid_eq : rsaOid = Spec.oid [1, 2, 840, 113549, 1, 1, 1] := by decide +kernel

theorem marshalPub_format {k : PrivKey} (h : k.Valid) : Spec.IsPKIX k.pub (marshalPub k.pub) := by
  obtain ⟨s1, s2, s3, s4, s5, s6, s7, s8⟩ := sizes h
  have l1 := pubNumbers_length h
  have l2 := der_length 0x30 (derInt k.n ++ derInt k.e) (by omega)
  have l3 := marshalPub_length h
  refine ⟨der 0x30 (der 6 rsaOid ++ [5, 0]), der 6 rsaOid, der 3 (0 :: der 0x30 (derInt k.n ++ derInt k.e)),
    der 0x30 (derInt k.n ++ derInt k.e), derInt k.n, derInt k.e, ?_, ?_, ?_, ?_, ?_, ?_, ?_⟩
  · exact der_isElement _ _ (Nat.lt_trans l3 (by decide))
  · exact der_isElement _ _ (by decide +kernel)
  · rw [← rsaOid_eq]
    exact der_isElement _ _ (by decide)
  · exact der_isElement _ _ (by rw [List.length_append, List.length_singleton]; omega)
  · exact der_isElement _ _ (by omega)
  · exact derInt_isInteger _ s1
  · exact derInt_isInteger _ s3

/-- Pieces of 64 characters. -/
def pieces (s : List Char) : List (List Char) :=
  if s = [] then [] else s.take 64 :: pieces (s.drop 64)
termination_by s.length
decreasing_by
  have : s.length ≠ 0 := by simp_all
  simp only [List.length_drop]
  omega

theorem pieces_spec (s : List Char) : (pieces s).flatten = s ∧
    (∀ i (h : i < (pieces s).length), 0 < (pieces s)[i].length ∧ (pieces s)[i].length ≤ 64 ∧
      (i + 1 < (pieces s).length → (pieces s)[i].length = 64)) ∧
    breakLines (bytesOf s) = (pieces s).flatMap fun l => (l ++ ['\n']).map fun c => UInt8.ofNat c.toNat := by
  fun_induction pieces s with
  | case1 => exact ⟨rfl, by simp, by unfold breakLines; simp [bytesOf]⟩
  | case2 s h ih =>
    obtain ⟨a, b, c⟩ := ih
    refine ⟨by rw [List.flatten_cons, a, List.take_append_drop], ?_, ?_⟩
    · intro i hi
      cases i with
      | zero =>
        simp only [List.getElem_cons_zero, List.length_take, List.length_cons]
        have hs : s.length ≠ 0 := by simpa using h
        refine ⟨by omega, by omega, fun hl => ?_⟩
        by_contra hc
        have : s.drop 64 = [] := List.drop_eq_nil_of_le (by omega)
        rw [this] at hl
        unfold pieces at hl
        simp at hl
      | succ i =>
        simp only [List.length_cons] at hi
        have := b i (by omega)
        simpa using this
    · have hn : bytesOf s ≠ [] := by simpa [bytesOf] using h
      unfold breakLines
      rw [if_neg hn, List.flatMap_cons, ← c]
      simp [bytesOf, List.map_take, List.map_drop]

theorem pemText_format (label : String) (b : Bytes)
    (hb : ("-----BEGIN " ++ label ++ "-----\n").toUTF8.toList = pemBegin ++ bytesOf label.toList ++ dashes ++ [10])
    (he : ("-----END " ++ label ++ "-----\n").toUTF8.toList = pemEnd ++ bytesOf label.toList ++ dashes ++ [10]) :
    Spec.IsPem label b (pemText label b) := by
  obtain ⟨h1, h2, h3⟩ := pieces_spec (Crypto.b64Enc b)
  refine ⟨Crypto.b64Enc b, pieces (Crypto.b64Enc b), Crypto.C146_base64 b, h1, h2, ?_⟩
  rw [hb, he, ← h3]
  simp [pemText]

variable {Other : Type} (gen : Nat → Int → Option {k : PrivKey // k.Valid}) (other : Bytes → Option Other)

/-- C152: `GenRsaKeys` writes the private key as PKCS #1 and the public key as PKIX, both as blocks of lines of 64 characters of base64. -/
theorem C152_format (r : Nat) (bits : Int) (pri pub : Bytes) (h : genRsaKeys (rsaLib (keyTexts gen other)) r bits = some (pri, pub)) :
    ∃ k b c, gen r bits = some k ∧ Spec.IsPem "private key" b pri ∧ Spec.IsPKCS1 k.1 b ∧ Spec.IsPem "public key" c pub ∧
      Spec.IsPKIX k.1.pub c := by
  have hg : (rsaLib (keyTexts gen other)).generate r bits = gen r bits := rfl
  cases hk : gen r bits with
  | none =>
    rw [genRsaKeys, hg, hk] at h
    cases h
  | some k =>
    have hm : (rsaLib (keyTexts gen other)).marshalPKIX ((rsaLib (keyTexts gen other)).pub k) = some (marshalPub k.1.pub) := rfl
    rw [genRsaKeys, hg, hk] at h
    simp only [hm, Option.some.injEq, Prod.mk.injEq] at h
    refine ⟨k, marshalPriv k.1, marshalPub k.1.pub, rfl, ?_, marshalPriv_format k.2, ?_, marshalPub_format k.2⟩
    · rw [← h.1]
      exact pemText_format "private key" _ (by decide +kernel) (by decide +kernel)
    · rw [← h.2]
      exact pemText_format "public key" _ (by decide +kernel) (by decide +kernel)

theorem isLength_eq {n : Nat} {l : Bytes} (h : Spec.IsLength n l) : l = derLen n := by
  rcases h with ⟨h1, h2⟩ | ⟨h1, b, ds, h2, rfl, h3, h4⟩
  · match l, h2 with
    | [x], h2 =>
      simp only [List.map_cons, List.map_nil, List.cons.injEq, and_true] at h2
      rw [derLen, if_pos h1, ← h2, UInt8.ofNat_toNat]
  · rw [bytesValue_eq] at h4
    match ds, h3, h4, h2 with
    | [], _, h4, _ => exact absurd h4 (by simp [ofBig]; omega)
    | d :: ds, h3, h4, h2 =>
      have hd : d ≠ 0 := by simpa using h3
      have e1 := byteLen_ofBig ds hd
      have e2 := bigEndian_self ds hd
      rw [h4] at e1 e2
      rw [derLen, if_neg (by omega), e2, e1, ← List.length_cons (a := d), ← h2, UInt8.ofNat_toNat]

theorem isElement_eq {tag : UInt8} {c b : Bytes} (h : Spec.IsElement tag c b) : b = der tag c := by
  obtain ⟨l, h1, rfl⟩ := h
  rw [isLength_eq h1, der]
  simp

theorem isInteger_eq {v : Nat} {b : Bytes} (h : Spec.IsInteger v b) : b = derInt v := by
  obtain ⟨x, r, h1, h2, h3, h4⟩ := h
  rw [bytesValue_eq] at h3
  have hv : intValue (x :: r) = some (v : Int) := by
    cases r with
    | nil =>
      rw [intValue, if_neg (by omega), ← h3]
      simp [ofBig]
    | cons y r =>
      rw [intValue, if_neg, if_neg (by omega), h3]
      rintro (⟨a, b⟩ | ⟨a, b⟩)
      · have := h4 a y (by simp)
        omega
      · rw [a] at h2
        simp at h2
  have := intBytes_of_value hv (by omega)
  rw [Int.toNat_natCast] at this
  rw [isElement_eq h1, this, derInt]

theorem isPKIX_eq {k : PubKey} {b : Bytes} (h : Spec.IsPKIX k b) : b = marshalPub k := by
  obtain ⟨alg, name, bits, numbers, i, j, h1, h2, h3, h4, h5, h6, h7⟩ := h
  rw [isElement_eq h1, isElement_eq h2, isElement_eq h3, isElement_eq h4, isElement_eq h5, isInteger_eq h6, isInteger_eq h7, ← rsaOid_eq]
  rfl

theorem isPKCS1_eq {k : PrivKey} (hk : k.Valid) {b : Bytes} (h : Spec.IsPKCS1 k b) : b = marshalPriv k := by
  obtain ⟨is, inv, h1, h2, h3, h4⟩ := h
  have hi : inv = modInverse k.q k.p := by
    obtain ⟨a, b⟩ := inverse_spec hk
    have e : inv * k.q ≡ modInverse k.q k.p * k.q [MOD k.p] := h2.trans a.symm
    have := Nat.ModEq.cancel_right_of_coprime (coprime_pq hk) e
    rw [Nat.ModEq, Nat.mod_eq_of_lt h3, Nat.mod_eq_of_lt b] at this
    exact this
  have hf : is = [0, k.n, k.e, k.d, k.p, k.q, k.d % (k.p - 1), k.d % (k.q - 1), inv].map derInt := by
    generalize [0, k.n, k.e, k.d, k.p, k.q, k.d % (k.p - 1), k.d % (k.q - 1), inv] = vs at h4
    clear h1
    induction h4 with
    | nil => rfl
    | cons a _ ih => rw [List.map_cons, isInteger_eq a, ih]
  rw [isElement_eq h1, hf, hi]
  simp [marshalPriv]

/-- C152: every file with a block whose bytes are a key in the form of the standards, from whichever program it comes, is read as this key. -/
theorem C152_standard (k : PrivKey) (hk : k.Valid) (b file : Bytes) (hf : Spec.File b file) :
    (Spec.IsPKCS1 k b → newServer (rsaLib (keyTexts gen other)) file = some ⟨k, hk⟩) ∧
    (Spec.IsPKIX k.pub b → newClient (rsaLib (keyTexts gen other)) file = .ok (some k.pub)) :=
  ⟨fun h => (C152_file gen other b file hf).2.2.1 k hk (isPKCS1_eq hk h),
   fun h => (C152_file gen other b file hf).2.2.2 k hk (isPKIX_eq h)⟩

/-- There are such bytes. -/
example : (∃ b, Spec.IsPKCS1 exampleKey b) ∧ ∃ b, Spec.IsPKIX exampleKey.pub b :=
  ⟨⟨_, marshalPriv_format exampleKey_valid⟩, _, marshalPub_format exampleKey_valid⟩

/-- A key is generated. -/
example : ∃ pri pub, genRsaKeys (rsaLib (keyTexts (fun _ _ => some ⟨exampleKey, exampleKey_valid⟩) (fun _ => (none : Option Unit)))) 0 1128 =
    some (pri, pub) := by
  obtain ⟨pri, pub, h, -⟩ := (C152_keys (fun _ _ => some ⟨exampleKey, exampleKey_valid⟩) (fun _ => (none : Option Unit)) 0 1128).2 _ rfl
  exact ⟨pri, pub, h⟩

example : ∃ pri pub, genRsaKeys (rsaLib (keyTexts exampleGen (fun _ => (none : Option Unit)))) 0 1024 = some (pri, pub) ∧
    ∃ b, Spec.IsPem "private key" b pri ∧ Spec.IsPKCS1 exampleKey b := by
  obtain ⟨pri, pub, h, -⟩ := (C152_keys exampleGen (fun _ => (none : Option Unit)) 0 1024).2 ⟨exampleKey, exampleKey_valid⟩ (by simp [exampleGen])
  obtain ⟨k, b, c, h1, h2, h3, -⟩ := C152_format _ _ _ _ _ _ h
  simp only [exampleGen, Int.reduceLT, if_false, Option.some.injEq] at h1
  subst h1
  exact ⟨pri, pub, h, b, h2, h3⟩

end Verif.Rsa
