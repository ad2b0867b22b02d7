import Verif.Lemmas.RsaMath
import Verif.Props.Rsa
import Mathlib.NumberTheory.LucasLehmer
/-!
# C151: RSA as the standard defines it
-/
set_option linter.unusedSectionVars false

namespace Verif.Rsa

open Verif.Hash (bigEndian ofBig)

/-! ## Padding -/

theorem nonZero_length (r n : Nat) : (nonZero r n).length = n := by simp [nonZero]

theorem nonZero_ne (r n : Nat) : ∀ b ∈ nonZero r n, b ≠ 0 := by
  intro b hb
  simp only [nonZero, List.mem_map, List.mem_range] at hb
  obtain ⟨i, _, rfl⟩ := hb
  intro h
  have := congrArg UInt8.toNat h
  rw [UInt8.toNat_ofNat'] at this
  have hm := Nat.mod_lt (r / 255 ^ i) (show 0 < 255 by decide)
  rw [Nat.mod_eq_of_lt (by omega)] at this
  simp at this

theorem nonZero_surj : ∀ l : Bytes, (∀ b ∈ l, b ≠ 0) → ∃ r, nonZero r l.length = l
  | [], _ => ⟨0, rfl⟩
  | b :: l, h => by
    obtain ⟨r, hr⟩ := nonZero_surj l fun c hc => h c (by simp [hc])
    have hb := b.toNat_lt
    have h0 : b.toNat ≠ 0 := fun e => h b (by simp) (UInt8.toNat_inj.1 e)
    refine ⟨b.toNat - 1 + 255 * r, ?_⟩
    simp only [nonZero, List.length_cons, List.range_succ_eq_map, List.map_cons, List.map_map, Nat.pow_zero, Nat.div_one] at hr ⊢
    congr 1
    · apply UInt8.toNat_inj.1
      rw [UInt8.toNat_ofNat', Nat.mod_eq_of_lt] <;> omega
    · conv => rhs; rw [← hr]
      refine List.map_congr_left fun i _ => ?_
      have : (b.toNat - 1 + 255 * r) / 255 = r := by omega
      simp only [Function.comp]
      rw [Nat.succ_eq_add_one, Nat.pow_succ, Nat.mul_comm (255 ^ i), ← Nat.div_div_eq_div_mul, this]

theorem dropWhile_pad : ∀ (ps m : Bytes), (∀ b ∈ ps, b ≠ 0) →
    (ps ++ 0 :: m).dropWhile (· ≠ 0) = 0 :: m ∧ (ps ++ 0 :: m).takeWhile (· ≠ 0) = ps
  | [], m, _ => by simp
  | b :: ps, m, h => by
    have hb : b ≠ 0 := h b (by simp)
    have ih := dropWhile_pad ps m fun c hc => h c (by simp [hc])
    simp only [List.cons_append, List.dropWhile_cons, List.takeWhile_cons, hb, ne_eq, not_false_eq_true, decide_true, if_true]
    exact ⟨ih.1, by rw [ih.2]⟩

theorem dropWhile_head : ∀ (l : Bytes) (c : UInt8) (m : Bytes), l.dropWhile (· ≠ 0) = c :: m → c = 0
  | [], c, m, h => by simp at h
  | b :: l, c, m, h => by
    by_cases hb : b = 0
    · subst hb
      simp at h
      exact h.1.symm
    · simp only [List.dropWhile_cons, hb, ne_eq, not_false_eq_true, decide_true, if_true] at h
      exact dropWhile_head l c m h

theorem takeWhile_ne : ∀ (l : Bytes), ∀ b ∈ l.takeWhile (· ≠ 0), b ≠ 0
  | [], b, h => by simp at h
  | a :: l, b, h => by
    by_cases ha : a = 0
    · subst ha
      simp at h
    · simp only [List.takeWhile_cons, ha, ne_eq, not_false_eq_true, decide_true, if_true, List.mem_cons] at h
      rcases h with rfl | h
      · exact ha
      · exact takeWhile_ne l b h

theorem unpad_iff (l m : Bytes) : unpad l = some m ↔ ∃ ps : Bytes, (∀ b ∈ ps, b ≠ 0) ∧ 8 ≤ ps.length ∧ l = 0 :: 2 :: (ps ++ 0 :: m) := by
  constructor
  · intro h
    unfold unpad at h
    split at h
    · next l =>
      split at h
      · cases h
      · next c m' hd =>
        split at h
        · next h8 =>
          cases h
          have hc : c = 0 := dropWhile_head l c m hd
          refine ⟨_, takeWhile_ne l, h8, ?_⟩
          · subst hc
            rw [← hd, List.takeWhile_append_dropWhile]
        · cases h
    · cases h
  · rintro ⟨ps, hn, h8, rfl⟩
    obtain ⟨h1, h2⟩ := dropWhile_pad ps m hn
    simp only [unpad]
    rw [h1, h2]
    simp [h8]

/-! ## Encryption -/

section
variable {k : PrivKey} (h : k.Valid)
include h

theorem check_valid : k.pub.check = true := by
  simp only [PubKey.check, PrivKey.pub, Bool.and_eq_true]
  exact ⟨decide_eq_true h.e.1, decide_eq_true h.e.2⟩

theorem padded_lt (l : Bytes) (hl : (0 :: l).length = byteLen k.n) : ofBig (0 :: l) < k.n := by
  have h1 := ofBig_lt l
  have h2 := byteLen_le k.n (n_pos h).ne'
  rw [← hl] at h2
  simp only [List.length_cons, Nat.add_sub_cancel] at h2
  rw [ofBig_zero]
  omega

/-- The general form of C151 on encryption. -/
theorem decrypt_iff (c m : Bytes) (hc : c.length = byteLen k.n) : decryptPKCS1 k c = some m ↔ ∃ r, encryptPKCS1 r k.pub m = some c := by
  have hck := check_valid h
  have hpub : k.pub.n = k.n := rfl
  have hpube : k.pub.e = k.e := rfl
  constructor
  · intro hd
    simp only [decryptPKCS1, Option.ite_none_right_eq_some, Bool.and_eq_true, decide_eq_true_eq] at hd
    obtain ⟨⟨⟨_, h11⟩, hlt⟩, hu⟩ := hd
    obtain ⟨ps, hn, h8, he⟩ := (unpad_iff _ _).1 hu
    have hlen := congrArg List.length he
    rw [bigEndian_len] at hlen
    simp only [List.length_cons, List.length_append] at hlen
    obtain ⟨r, hr⟩ := nonZero_surj ps hn
    refine ⟨r, ?_⟩
    simp only [encryptPKCS1, hck, Bool.true_and, hpub, hpube]
    rw [if_pos (by simp only [decide_eq_true_eq]; omega), show byteLen k.n - m.length - 3 = ps.length by omega, hr, ← he, ofBig_bigEndian _ _
      (Nat.lt_trans (op_lt h _) (byteLen_lt _)), pow_op h _ hlt, ← hc, bigEndian_ofBig]
  · rintro ⟨r, hr⟩
    simp only [encryptPKCS1, hck, Bool.true_and, Option.ite_none_right_eq_some, decide_eq_true_eq, Option.some.injEq, hpub, hpube] at hr
    obtain ⟨hl, rfl⟩ := hr
    have hlen : (0 :: 2 :: (nonZero r (byteLen k.n - m.length - 3) ++ 0 :: m)).length = byteLen k.n := by
      simp only [List.length_cons, List.length_append, nonZero_length]
      omega
    have hlt := padded_lt h _ hlen
    have hp : powMod (ofBig (0 :: 2 :: (nonZero r (byteLen k.n - m.length - 3) ++ 0 :: m))) k.e k.n < k.n := by
      rw [powMod_eq]
      exact Nat.mod_lt _ (n_pos h)
    simp only [decryptPKCS1]
    rw [ofBig_bigEndian _ _ (Nat.lt_trans hp (byteLen_lt _)), if_pos (by simp [hck, hp]; omega), op_pow h _ hlt]
    have hb := bigEndian_ofBig (0 :: 2 :: (nonZero r (byteLen k.n - m.length - 3) ++ 0 :: m))
    rw [hlen] at hb
    rw [hb]
    refine (unpad_iff _ _).2 ⟨_, nonZero_ne _ _, ?_, rfl⟩
    rw [nonZero_length]
    omega

/-! ## Signatures -/

theorem sign_iff (hs : Nat) (d s : Bytes) : verifyPKCS1 k.pub hs d s = true ↔ signPKCS1 k hs d = some s := by
  have hpub : k.pub.n = k.n := rfl
  have hpube : k.pub.e = k.e := rfl
  simp only [verifyPKCS1, signPKCS1, hpub, hpube]
  cases hem : padDigest (byteLen k.n) hs d with
  | none => simp
  | some em =>
    have hl : em.length = byteLen k.n ∧ ofBig em < k.n := by
      unfold padDigest at hem
      split at hem
      · split at hem
        · next hc =>
          simp only [Option.some.injEq] at hem
          have hlen : em.length = byteLen k.n := by
            rw [← hem]
            simp only [List.length_cons, List.length_append, List.length_replicate, hc.1]
            omega
          refine ⟨hlen, ?_⟩
          subst hem
          exact padded_lt h _ hlen
        · cases hem
      · cases hem
    simp only [Bool.and_eq_true, beq_iff_eq, decide_eq_true_eq]
    rw [if_pos (pow_op h _ hl.2), Option.some.injEq]
    constructor
    · rintro ⟨⟨h1, h2⟩, h3⟩
      have h4 : powMod (ofBig s) k.e k.n = ofBig em := by
        rw [← h3, ofBig_bigEndian]
        rw [powMod_eq]
        exact Nat.lt_trans (Nat.mod_lt _ (n_pos h)) (byteLen_lt _)
      rw [← h4, op_pow h _ h2, ← h1, bigEndian_ofBig]
    · intro e
      have h1 : ofBig s = k.op (ofBig em) := by
        rw [← e, ofBig_bigEndian _ _ (Nat.lt_trans (op_lt h _) (byteLen_lt _))]
      refine ⟨⟨by rw [← e, bigEndian_len], by rw [h1]; exact op_lt h _⟩, ?_⟩
      rw [h1, pow_op h _ hl.2, ← hl.1, bigEndian_ofBig]

end

/-! ## The library with this RSA -/

/-- Keys and texts of keys, which stay parameters: `encoding/pem`, `crypto/x509` and the generation of primes. -/
structure KeyTexts where
  Other : Type
  pemDecode : Bytes → Option Bytes
  pemEncode : String → Bytes → Bytes
  parsePKCS1 : Bytes → Option {k : PrivKey // k.Valid}
  marshalPKCS1 : {k : PrivKey // k.Valid} → Bytes
  parsePKIX : Bytes → Option (PubKey ⊕ Other)
  marshalPKIX : PubKey → Option Bytes
  generate : Nat → Int → Option {k : PrivKey // k.Valid}

/-- Their contract: what is written is read back. -/
structure KeyTexts.Lawful (T : KeyTexts) : Prop where
  pem : ∀ t b, t = "private key" ∨ t = "public key" → T.pemDecode (T.pemEncode t b) = some b
  pkcs1 : ∀ k, T.parsePKCS1 (T.marshalPKCS1 k) = some k
  pkix : ∀ k : PrivKey, k.Valid → ∃ b, T.marshalPKIX k.pub = some b ∧ T.parsePKIX b = some (.inl k.pub)

/-- The library of C92 with RSA written out. -/
def rsaLib (T : KeyTexts) : Lib where
  Priv := {k : PrivKey // k.Valid}
  Pub := PubKey
  Other := T.Other
  pub k := k.1.pub
  size k := byteLen k.n
  pemDecode := T.pemDecode
  pemEncode := T.pemEncode
  parsePKCS1 := T.parsePKCS1
  marshalPKCS1 := T.marshalPKCS1
  parsePKIX := T.parsePKIX
  marshalPKIX := T.marshalPKIX
  generate := T.generate
  encrypt r k m := encryptPKCS1 r k m
  decrypt _ k c := decryptPKCS1 k.1 c
  sign _ k h d := signPKCS1 k.1 h d
  verify k h d s := verifyPKCS1 k h d s
  hash := hashOf
  prefixLen h := (hashPrefix h).map List.length

theorem encrypt_length {r : Nat} {k : PubKey} {m c : Bytes} (h : encryptPKCS1 r k m = some c) : c.length = byteLen k.n := by
  simp only [encryptPKCS1, Option.ite_none_right_eq_some, Option.some.injEq] at h
  rw [← h.2, bigEndian_len]

theorem signPKCS1_isSome {k : PrivKey} (hk : k.Valid) (h : Nat) (A : Hash.Alg) (d : Bytes) (hA' : hashOf h = some A) (hd : d.length = A.size) :
    (signPKCS1 k h d).isSome ↔ ∃ l, (hashPrefix h).map List.length = some l ∧ l + A.size + 11 ≤ byteLen k.n := by
  cases hp : hashPrefix h with
  | none => simp [signPKCS1, padDigest, hp]
  | some pre =>
    simp only [Option.map_some, Option.some.injEq, exists_eq_left']
    by_cases hl : pre.length + A.size + 11 ≤ byteLen k.n
    · have he : padDigest (byteLen k.n) h d =
          some (0 :: 1 :: (List.replicate (byteLen k.n - (pre.length + A.size) - 3) 0xff ++ 0 :: (pre ++ d))) := by
        simp only [padDigest, hp, hA', hd, hl, and_self, if_true]
      have hlen : (0 :: 1 :: (List.replicate (byteLen k.n - (pre.length + A.size) - 3) 0xff ++ 0 :: (pre ++ d))).length =
          byteLen k.n := by
        simp only [List.length_cons, List.length_append, List.length_replicate, hd]
        omega
      simp only [signPKCS1, he, pow_op hk _ (padded_lt hk _ hlen), if_true, Option.isSome_some, hl]
    · simp [signPKCS1, padDigest, hp, hA', hl]

/-- C151: RSA written out meets the contract that C92 assumes. -/
theorem C151_contract (T : KeyTexts) (hT : T.Lawful) : (rsaLib T).Lawful where
  pem := hT.pem
  pkcs1 := hT.pkcs1
  pkix k := hT.pkix k.1 k.2
  encrypt_ok := by
    intro r k m
    show (encryptPKCS1 r k.1.pub m).isSome ↔ m.length + 11 ≤ byteLen k.1.pub.n
    simp only [encryptPKCS1, check_valid k.2, Bool.true_and, decide_eq_true_eq]
    split <;> simp_all
  decrypt_encrypt := by
    intro r r' k m c h
    exact (decrypt_iff k.2 c m (encrypt_length h)).2 ⟨r, h⟩
  sign_ok := by
    intro r k h A d hA hd
    exact signPKCS1_isSome k.2 h A d hA hd
  verify_sign := by
    intro r k h d s hs
    exact (sign_iff k.2 h d s).2 hs
  verify_digest := by
    intro k h d d' s h1 h2
    have h1 : verifyPKCS1 k h d s = true := h1
    have h2 : verifyPKCS1 k h d' s = true := h2
    have key : ∀ d, verifyPKCS1 k h d s = true → ∃ A pre, hashOf h = some A ∧ hashPrefix h = some pre ∧ d.length = A.size ∧
        bigEndian (byteLen k.n) (powMod (ofBig s) k.e k.n) =
          0 :: 1 :: (List.replicate (byteLen k.n - (pre.length + A.size) - 3) 0xff ++ 0 :: (pre ++ d)) := by
      intro d hv
      unfold verifyPKCS1 padDigest at hv
      cases hp : hashPrefix h with
      | none => simp [hp] at hv
      | some pre =>
        cases hA : hashOf h with
        | none => simp [hp, hA] at hv
        | some A =>
          simp only [hp, hA] at hv
          split at hv
          · cases hv
          · next em hem =>
            simp only [Option.ite_none_right_eq_some, Option.some.injEq] at hem
            simp only [Bool.and_eq_true, beq_iff_eq] at hv
            exact ⟨A, pre, rfl, rfl, hem.1.1, by rw [hv.2, hem.2]⟩
    obtain ⟨A, pre, a1, a2, a3, a4⟩ := key d h1
    obtain ⟨A', pre', b1, b2, b3, b4⟩ := key d' h2
    rw [a1] at b1
    rw [a2] at b2
    cases b1
    cases b2
    rw [a4] at b4
    simp only [List.cons.injEq, true_and, List.append_cancel_left_eq] at b4
    exact b4

/-- C151: the two operations of RSA undo each other, on every number below the modulus. -/
theorem C151_inverse (k : PrivKey) (h : k.Valid) (x : Nat) (hx : x < k.n) : k.op (x ^ k.e % k.n) = x ∧ k.op x ^ k.e % k.n = x := by
  have h1 := op_pow h x hx
  have h2 := pow_op h x hx
  rw [powMod_eq] at h1 h2
  exact ⟨h1, h2⟩

/-- C151: `Decrypt` returns a message exactly for the ciphertexts that `Encrypt` makes of it with some random bytes, and an error for all
others of the size of the key. -/
theorem C151_decrypt (T : KeyTexts) (k : (rsaLib T).Priv) (r' : Nat) (c m : Bytes) (hc : c.length = byteLen k.1.n) :
    decrypt (rsaLib T) r' k c = some m ↔ ∃ r, encrypt (rsaLib T) r ((rsaLib T).pub k) m = some c :=
  decrypt_iff k.2 c m hc

/-- C151: two encryptions give the same ciphertext only for the same message and the same random bytes. -/
theorem C151_random (T : KeyTexts) (k : (rsaLib T).Priv) (r r' : Nat) (m m' c : Bytes)
    (h : encrypt (rsaLib T) r ((rsaLib T).pub k) m = some c) (h' : encrypt (rsaLib T) r' ((rsaLib T).pub k) m' = some c) :
    m = m' ∧ nonZero r (byteLen k.1.n - m.length - 3) = nonZero r' (byteLen k.1.n - m.length - 3) := by
  have h1 := (decrypt_iff k.2 c m (encrypt_length h)).2 ⟨r, h⟩
  have h2 := (decrypt_iff k.2 c m' (encrypt_length h')).2 ⟨r', h'⟩
  rw [h1, Option.some.injEq] at h2
  subst h2
  refine ⟨rfl, ?_⟩
  have he : encryptPKCS1 r k.1.pub m = encryptPKCS1 r' k.1.pub m := h.trans h'.symm
  have hi : (encryptPKCS1 r k.1.pub m).isSome := by rw [show encryptPKCS1 r k.1.pub m = some c from h]; rfl
  have hck := check_valid k.2
  have hpub : k.1.pub.n = k.1.n := rfl
  have hpube : k.1.pub.e = k.1.e := rfl
  simp only [encryptPKCS1, hck, Bool.true_and, hpub, hpube, decide_eq_true_eq] at he hi
  split at hi
  · next hl =>
    simp only [if_pos hl, Option.some.injEq] at he
    have hlt : ∀ x, powMod x k.1.e k.1.n < 256 ^ byteLen k.1.n := by
      intro x
      rw [powMod_eq]
      exact Nat.lt_trans (Nat.mod_lt _ (n_pos k.2)) (byteLen_lt _)
    have hlen : ∀ r, (0 :: 2 :: (nonZero r (byteLen k.1.n - m.length - 3) ++ 0 :: m)).length = byteLen k.1.n := by
      intro r
      simp only [List.length_cons, List.length_append, nonZero_length]
      omega
    have e1 := Hash.beBytes_inj _ _ _ (hlt _) (hlt _) he
    have e2 := congrArg k.1.op e1
    rw [op_pow k.2 _ (padded_lt k.2 _ (hlen r)), op_pow k.2 _ (padded_lt k.2 _ (hlen r'))] at e2
    have e3 := congrArg (bigEndian (byteLen k.1.n)) e2
    have b1 := bigEndian_ofBig (0 :: 2 :: (nonZero r (byteLen k.1.n - m.length - 3) ++ 0 :: m))
    have b2 := bigEndian_ofBig (0 :: 2 :: (nonZero r' (byteLen k.1.n - m.length - 3) ++ 0 :: m))
    rw [hlen] at b1 b2
    rw [b1, b2] at e3
    simp only [List.cons.injEq, true_and] at e3
    exact List.append_inj_left e3 (by rw [nonZero_length, nonZero_length])
  · cases hi

/-- C151: `Verify` accepts exactly the one signature that `Sign` makes. -/
theorem C151_signature (T : KeyTexts) (k : (rsaLib T).Priv) (r hash : Nat) (src sg : Bytes) :
    verify (rsaLib T) ((rsaLib T).pub k) src sg hash = .ok true ↔ sign (rsaLib T) r k src hash = .ok (some sg) := by
  have hh : (rsaLib T).hash hash = hashOf hash := rfl
  unfold verify sign
  rw [hh]
  cases hashOf hash with
  | none => simp
  | some A =>
    simp only [Res.ok.injEq]
    exact sign_iff k.2 hash _ sg

/-- C151: which hash functions can be used: SHA-512/224 and SHA-512/256 are linked but not defined for signatures, so `Sign` always fails
and `Verify` accepts nothing; MD5 and the SHA family work with keys of enough bytes; all other numbers panic. -/
theorem C151_hashes (T : KeyTexts) (k : (rsaLib T).Priv) (r : Nat) (src : Bytes) :
    (∀ hash, hash = 14 ∨ hash = 15 → sign (rsaLib T) r k src hash = .ok none ∧
      ∀ sg, verify (rsaLib T) ((rsaLib T).pub k) src sg hash = .ok false) ∧
    (∀ hash, hash < 2 ∨ (7 < hash ∧ hash ≠ 14 ∧ hash ≠ 15) → sign (rsaLib T) r k src hash = .panic) ∧
    (∀ c ∈ [(2, 45), (3, 46), (4, 58), (5, 62), (6, 78), (7, 94)],
      (sign (rsaLib T) r k src c.1 = .ok none ↔ byteLen k.1.n < c.2) ∧ ∃ o, sign (rsaLib T) r k src c.1 = .ok o) := by
  have hh : (rsaLib T).hash = hashOf := rfl
  refine ⟨?_, ?_, ?_⟩
  · rintro hash (rfl | rfl) <;> simp [sign, verify, hashOf, rsaLib, signPKCS1, verifyPKCS1, padDigest, hashPrefix]
  · intro hash hr
    have : hashOf hash = none := by
      unfold hashOf
      split <;> first | omega | rfl
    simp [sign, hh, this]
  · intro c hc
    have key : ∀ (h : Nat) (A : Hash.Alg) (pre : Bytes), hashOf h = some A → hashPrefix h = some pre →
        (sign (rsaLib T) r k src h = .ok none ↔ byteLen k.1.n < pre.length + A.size + 11) ∧ ∃ o, sign (rsaLib T) r k src h = .ok o := by
      intro h A pre hA hp
      have he : sign (rsaLib T) r k src h = .ok (signPKCS1 k.1 h (A.sum (A.write A.init src))) := by
        simp only [sign, hh, hA]
        rfl
      refine ⟨?_, _, he⟩
      rw [he, Res.ok.injEq, ← Option.not_isSome_iff_eq_none, signPKCS1_isSome k.2 h A _ hA (A.sum_length _), hp]
      simp only [Option.map_some, Option.some.injEq, exists_eq_left', Nat.not_le]
    simp only [List.mem_cons, List.not_mem_nil, or_false] at hc
    rcases hc with rfl | rfl | rfl | rfl | rfl | rfl
    · exact key 2 _ _ rfl rfl
    · exact key 3 _ _ rfl rfl
    · exact key 4 _ _ rfl rfl
    · exact key 5 _ _ rfl rfl
    · exact key 6 _ _ rfl rfl
    · exact key 7 _ _ rfl rfl

/-! ## A key, and texts of keys -/

/-- A key of 1128 bits out of two Mersenne primes. -/
def exampleKey : PrivKey where
  n := (2 ^ 521 - 1) * (2 ^ 607 - 1)
  e := 65537
  d := 0x2a7fd5802a7fd5802a7fd5802a7fd5802a7fd5802a7fd5802a7fd5802a7fd5802a7fd5802a7fd5802a7fd5802a7fd5802a7fd5802a7fd5802a7fd5802a7fd5802a5555aaaa5555aaaa5555aa0055ffaa0055ffaa0055ffaa0055ffaa0055ffaa0055ffaa0055ffaa0055ffaa0055ffaa0055ffaa0055ffaa0055ffaa0055ffaa0055ffaa0055ffaa0055ffaa01
  p := 2 ^ 521 - 1
  q := 2 ^ 607 - 1

set_option exponentiation.threshold 1000

theorem exampleKey_valid : exampleKey.Valid where
  p := by
    have : Nat.Prime (mersenne 521) := lucas_lehmer_sufficiency _ (by norm_num) (by norm_num)
    simpa only [mersenne, exampleKey] using this
  q := by
    have : Nat.Prime (mersenne 607) := lucas_lehmer_sufficiency _ (by norm_num) (by norm_num)
    simpa only [mersenne, exampleKey] using this
  p2 := by decide +kernel
  q2 := by decide +kernel
  ne := by decide +kernel
  n := rfl
  ep := by decide +kernel
  eq := by decide +kernel
  e := by decide +kernel
  size := by decide +kernel


/-- A toy text of keys: as many zero bytes as a number says. -/
def exampleNumbers (k : PrivKey) : Nat := Nat.pair k.n (Nat.pair k.e (Nat.pair k.d (Nat.pair k.p k.q)))

def exampleRead (x : Nat) : PrivKey :=
  let a := Nat.unpair x
  let b := Nat.unpair a.2
  let c := Nat.unpair b.2
  let d := Nat.unpair c.2
  ⟨a.1, b.1, c.1, d.1, d.2⟩

open Classical in
/-- Texts of keys that meet the contract. -/
noncomputable def exampleTexts : KeyTexts where
  Other := Unit
  pemDecode := some
  pemEncode _ b := b
  parsePKCS1 b := if h : (exampleRead b.length).Valid then some ⟨_, h⟩ else none
  marshalPKCS1 k := List.replicate (exampleNumbers k.1) 0
  parsePKIX b := some (.inl ⟨(Nat.unpair b.length).1, (Nat.unpair b.length).2⟩)
  marshalPKIX k := some (List.replicate (Nat.pair k.n k.e) 0)
  generate _ _ := some ⟨exampleKey, exampleKey_valid⟩

theorem exampleTexts_lawful : exampleTexts.Lawful where
  pem := fun _ _ _ => rfl
  pkcs1 := by
    rintro ⟨k, hk⟩
    have e : exampleRead (exampleNumbers k) = k := by simp [exampleRead, exampleNumbers]
    simp only [exampleTexts, List.length_replicate, e, hk, dif_pos]
  pkix := by
    intro k _
    refine ⟨_, rfl, ?_⟩
    simp only [exampleTexts, List.length_replicate, Nat.unpair_pair]

/-- so C92 holds without assumptions on RSA, for all lawful texts. -/
example := C92_encrypt (rsaLib exampleTexts) (C151_contract _ exampleTexts_lawful) ⟨exampleKey, exampleKey_valid⟩
example := C92_sign (rsaLib exampleTexts) (C151_contract _ exampleTexts_lawful) ⟨exampleKey, exampleKey_valid⟩

/-- the key has 141 bytes, so it encrypts up to 130 and signs with every hash function. -/
example : byteLen exampleKey.n = 141 := by decide +kernel
example (r r' : Nat) : (encrypt (rsaLib exampleTexts) r ((rsaLib exampleTexts).pub ⟨exampleKey, exampleKey_valid⟩) [1, 2, 3]).bind
    (decrypt (rsaLib exampleTexts) r' ⟨exampleKey, exampleKey_valid⟩) = some [1, 2, 3] := by
  have hc := C92_encrypt (rsaLib exampleTexts) (C151_contract _ exampleTexts_lawful) ⟨exampleKey, exampleKey_valid⟩ r r' [1, 2, 3]
  cases he : encrypt (rsaLib exampleTexts) r ((rsaLib exampleTexts).pub ⟨exampleKey, exampleKey_valid⟩) [1, 2, 3] with
  | none =>
    have h1 := hc.1.1 he
    have h2 : (rsaLib exampleTexts).size ((rsaLib exampleTexts).pub ⟨exampleKey, exampleKey_valid⟩) = 141 := by
      show byteLen exampleKey.n = 141
      decide +kernel
    rw [h2] at h1
    simp at h1
  | some c => exact hc.2 c he
example : exampleKey.op (5 ^ exampleKey.e % exampleKey.n) = 5 := (C151_inverse exampleKey exampleKey_valid 5 (by decide +kernel)).1
example : (signPKCS1 exampleKey 7 (Hash.sha512.alg.sum (Hash.sha512.alg.write Hash.sha512.alg.init [0x61, 0x62, 0x63]))).isSome :=
  (signPKCS1_isSome exampleKey_valid 7 _ _ rfl (Hash.Alg.sum_length _ _)).2 ⟨19, rfl, by decide +kernel⟩

/-- C151_decrypt, C151_random: a ciphertext of three bytes. -/
example : ∃ c, encrypt (rsaLib exampleTexts) 5 ((rsaLib exampleTexts).pub ⟨exampleKey, exampleKey_valid⟩) [1, 2, 3] = some c ∧
    (∀ r m, encrypt (rsaLib exampleTexts) r ((rsaLib exampleTexts).pub ⟨exampleKey, exampleKey_valid⟩) m = some c → m = [1, 2, 3]) ∧
    ∀ r', decrypt (rsaLib exampleTexts) r' ⟨exampleKey, exampleKey_valid⟩ c = some [1, 2, 3] := by
  have hc := fun r' => C92_encrypt (rsaLib exampleTexts) (C151_contract _ exampleTexts_lawful) ⟨exampleKey, exampleKey_valid⟩ 5 r' [1, 2, 3]
  cases he : encrypt (rsaLib exampleTexts) 5 ((rsaLib exampleTexts).pub ⟨exampleKey, exampleKey_valid⟩) [1, 2, 3] with
  | none =>
    have h1 := (hc 0).1.1 he
    have h2 : (rsaLib exampleTexts).size ((rsaLib exampleTexts).pub ⟨exampleKey, exampleKey_valid⟩) = 141 := by
      show byteLen exampleKey.n = 141
      decide +kernel
    rw [h2] at h1
    simp at h1
  | some c =>
    exact ⟨c, rfl, fun r m h => (C151_random _ _ _ _ _ _ _ h he).1, fun r' => (hc r').2 c he⟩

end Verif.Rsa
