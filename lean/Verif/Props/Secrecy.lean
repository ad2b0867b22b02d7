import Verif.Props.Ciphers
/-!
# C147: what keys and ciphertexts give away

Which keys amount to the same, what of a message shows in its ciphertext, and what a decrypter tells about the key.
-/
set_option linter.unusedSectionVars false

namespace Verif.Crypto
open Verif.Spec

/-! ## Keys of triple DES -/

theorem triple_single (C : Cipher) (hC : IsDes C) (data key k : Bytes) (hk : k.length = 8)
    (h : ∀ b, b.length = 8 →
      C.enc ((tkey key).drop 16) (C.dec (((tkey key).take 16).drop 8) (C.enc ((tkey key).take 8) b)) = C.enc k b) :
    tripleEncrypt C data key = .ok (encrypt C (data ++ List.replicate (8 - data.length % 8) 0) k) := by
  have hpl : (data ++ List.replicate (8 - data.length % 8) 0).length = (data.length / 8 + 1) * 8 := by
    rw [List.length_append, List.length_replicate]; omega
  rw [triple_eq C hC, encrypt_ok hC hk (by omega) (by omega), blocks_congr _ _ (by decide) h _ _ hpl]

/-- C147: a key of at most 8 bytes makes triple DES plain DES, for all data: the ciphertext is that of one encryption with the key filled
up with zero bytes. -/
theorem C147_short_key (C : Cipher) (hC : IsDes C) (data key : Bytes) (h : key.length ≤ 8) :
    tripleEncrypt C data key =
      .ok (encrypt C (data ++ List.replicate (8 - data.length % 8) 0) (key ++ List.replicate (8 - key.length) 0)) := by
  have ht : tkey key = (key ++ List.replicate (8 - key.length) 0) ++ (List.replicate 8 0 ++ List.replicate 8 0) := by
    rw [tkey, List.take_of_length_le (by omega), List.append_assoc, List.replicate_append_replicate, List.replicate_append_replicate]
    congr 2; omega
  have hl : (key ++ List.replicate (8 - key.length) (0 : UInt8)).length = 8 := by
    rw [List.length_append, List.length_replicate]; omega
  have k1 : (tkey key).take 8 = key ++ List.replicate (8 - key.length) 0 := by rw [ht]; exact List.take_left' hl
  have k2 : ((tkey key).take 16).drop 8 = List.replicate 8 0 := by
    rw [List.drop_take, ht, List.drop_left' hl]; rfl
  have k3 : (tkey key).drop 16 = List.replicate 8 0 := by
    rw [show 16 = 8 + 8 from rfl, ← List.drop_drop, ht, List.drop_left' hl]; rfl
  refine triple_single C hC data key _ hl fun b hb => ?_
  rw [k1, k2, k3]
  exact C.enc_dec _ _ (by rw [hC.1]; exact (hC.1 ▸ C.enc_len _ b (by rw [hC.1]; exact hb)))

/-- C147: two equal thirds of the key cancel: if the second is the first or the third, one encryption is left. -/
theorem C147_equal_thirds (C : Cipher) (hC : IsDes C) (data k k' : Bytes) (hk : k.length = 8) (hk' : k'.length = 8) :
    tripleEncrypt C data (k ++ k ++ k') = .ok (encrypt C (data ++ List.replicate (8 - data.length % 8) 0) k') ∧
    tripleEncrypt C data (k' ++ k ++ k) = .ok (encrypt C (data ++ List.replicate (8 - data.length % 8) 0) k') := by
  have key : ∀ a b c : Bytes, a.length = 8 → b.length = 8 → c.length = 8 →
      (tkey (a ++ b ++ c)).take 8 = a ∧ ((tkey (a ++ b ++ c)).take 16).drop 8 = b ∧ (tkey (a ++ b ++ c)).drop 16 = c := by
    intro a b c ha hb hc
    have ht : tkey (a ++ b ++ c) = a ++ (b ++ c) := by
      have hl : (a ++ b ++ c).length = 24 := by simp only [List.length_append]; omega
      rw [tkey, List.take_of_length_le (by omega), hl]
      simp
    rw [ht]
    refine ⟨List.take_left' ha, ?_, ?_⟩
    · rw [List.drop_take, List.drop_left' ha, List.take_left' hb]
    · rw [show 16 = 8 + 8 from rfl, ← List.drop_drop, List.drop_left' ha, List.drop_left' hb]
  constructor
  · obtain ⟨h1, h2, h3⟩ := key k k k' hk hk hk'
    refine triple_single C hC data _ k' hk' fun b hb => ?_
    rw [h1, h2, h3, C.dec_enc _ _ (by rw [hC.1]; exact hb)]
  · obtain ⟨h1, h2, h3⟩ := key k' k k hk' hk hk
    refine triple_single C hC data _ k' hk' fun b hb => ?_
    rw [h1, h2, h3]
    exact C.enc_dec _ _ (by rw [hC.1]; exact (hC.1 ▸ C.enc_len _ b (by rw [hC.1]; exact hb)))

theorem byteBits_half : ∀ n : Fin 256, byteBits (UInt8.ofNat n.1) =
    (byteBits (UInt8.ofNat n.1 / 2)).tail ++ [(UInt8.ofNat n.1).toNat.testBit 0] := by decide +kernel

theorem byteBits_low (x : UInt8) : byteBits x = (byteBits (x / 2)).tail ++ [x.toNat.testBit 0] := by
  refine byte_ind (P := fun x => byteBits x = (byteBits (x / 2)).tail ++ [x.toNat.testBit 0]) (fun n => byteBits_half n) x

theorem roundKeys_parity (k k' : Bytes) (hk : k.length = 8) (h : k.map (· / 2) = k'.map (· / 2)) : roundKeys k = roundKeys k' := by
  have hk' : k'.length = 8 := by
    have := congrArg List.length h
    simpa [hk] using this.symm
  have hp : permute tablePC1 (toBits k) = permute tablePC1 (toBits k') := by
    match k, hk, k', hk', h with
    | [a, b, c, d, e, f, g, i], _, [a', b', c', d', e', f', g', i'], _, h =>
      simp only [List.map_cons, List.map_nil, List.cons.injEq, and_true] at h
      obtain ⟨h1, h2, h3, h4, h5, h6, h7, h8⟩ := h
      simp only [toBits, List.flatMap_cons, List.flatMap_nil]
      rw [byteBits_low a, byteBits_low b, byteBits_low c, byteBits_low d, byteBits_low e, byteBits_low f, byteBits_low g, byteBits_low i,
        byteBits_low a', byteBits_low b', byteBits_low c', byteBits_low d', byteBits_low e', byteBits_low f', byteBits_low g', byteBits_low i',
        h1, h2, h3, h4, h5, h6, h7, h8]
      rfl
  unfold roundKeys
  rw [hp]

/-- C147: the lowest bit of every byte of the key does not matter: two keys whose bytes differ in nothing else encrypt and decrypt
everything alike. -/
theorem C147_parity (key key' data : Bytes) (h : key.map (· / 2) = key'.map (· / 2)) :
    tripleEncrypt des data key = tripleEncrypt des data key' ∧ tripleDecrypt des data key = tripleDecrypt des data key' := by
  have hl : key.length = key'.length := by
    have := congrArg List.length h
    simpa using this
  have ht : (tkey key).map (· / 2) = (tkey key').map (· / 2) := by
    simp only [tkey, List.map_append, List.map_take, h, hl]
  have e1 : ∀ b, desEnc ((tkey key).take 8) b = desEnc ((tkey key').take 8) b ∧ desDec ((tkey key).take 8) b = desDec ((tkey key').take 8) b := by
    intro b
    have := roundKeys_parity _ ((tkey key').take 8) (k1_length key) (by rw [List.map_take, List.map_take, ht])
    exact ⟨by rw [desEnc, this]; rfl, by rw [desDec, this]; rfl⟩
  have e2 : ∀ b, desEnc (((tkey key).take 16).drop 8) b = desEnc (((tkey key').take 16).drop 8) b ∧
      desDec (((tkey key).take 16).drop 8) b = desDec (((tkey key').take 16).drop 8) b := by
    intro b
    have := roundKeys_parity _ (((tkey key').take 16).drop 8) (k2_length key) (by rw [List.map_drop, List.map_take, List.map_drop, List.map_take, ht])
    exact ⟨by rw [desEnc, this]; rfl, by rw [desDec, this]; rfl⟩
  have e3 : ∀ b, desEnc ((tkey key).drop 16) b = desEnc ((tkey key').drop 16) b ∧ desDec ((tkey key).drop 16) b = desDec ((tkey key').drop 16) b := by
    intro b
    have := roundKeys_parity _ ((tkey key').drop 16) (k3_length key) (by rw [List.map_drop, List.map_drop, ht])
    exact ⟨by rw [desEnc, this]; rfl, by rw [desDec, this]; rfl⟩
  have fe : ∀ {k k' : Bytes}, (∀ b, desEnc k b = desEnc k' b ∧ desDec k b = desDec k' b) → k.length = 8 → k'.length = 8 →
      ∀ d, encrypt des d k = encrypt des d k' ∧ decrypt des d k = decrypt des d k' := by
    intro k k' hh h1 h2 d
    have f1 : des.enc k = des.enc k' := funext fun b => (hh b).1
    have f2 : des.dec k = des.dec k' := funext fun b => (hh b).2
    simp only [encrypt, decrypt, f1, f2, h1, h2]
    exact ⟨trivial, trivial⟩
  have g1 := fe e1 (k1_length key) (k1_length key')
  have g2 := fe e2 (k2_length key) (k2_length key')
  have g3 := fe e3 (k3_length key) (k3_length key')
  constructor
  · simp only [tripleEncrypt, k1_length, (g1 _).1, (g2 _).2, (g3 _).1]
  · simp only [tripleDecrypt, (g1 _).2, (g2 _).1, (g3 _).2]

/-! ## Blocks of messages -/

/-- C147: the ciphertext of triple DES shows which blocks of the message are equal: for every key, two of its blocks are equal exactly if
those of the data filled up with zero bytes are. -/
theorem C147_equal_blocks (C : Cipher) (hC : IsDes C) (data key : Bytes) :
    ∃ c, tripleEncrypt C data key = .ok (some c) ∧ ∀ i j, i ≤ data.length / 8 → j ≤ data.length / 8 →
      ((c.drop (8 * i)).take 8 = (c.drop (8 * j)).take 8 ↔
        ((data ++ List.replicate (8 - data.length % 8) 0).drop (8 * i)).take 8 =
        ((data ++ List.replicate (8 - data.length % 8) 0).drop (8 * j)).take 8) := by
  have hb := hC.1
  have e (k : Bytes) : ∀ b : Bytes, b.length = 8 → (C.enc k b).length = 8 := by
    intro b h; rw [← hb] at *; exact C.enc_len k b h
  have d (k : Bytes) : ∀ b : Bytes, b.length = 8 → (C.dec k b).length = 8 := by
    intro b h; rw [← hb] at *; exact C.dec_len k b h
  have hpl : (data ++ List.replicate (8 - data.length % 8) 0).length = (data.length / 8 + 1) * 8 := by
    rw [List.length_append, List.length_replicate]; omega
  refine ⟨_, triple_eq C hC data key, fun i j hi hj => ?_⟩
  have bi := blockAt_blocks _ (by decide) (fun b hb => e ((tkey key).drop 16) _ (d (((tkey key).take 16).drop 8) _ (e ((tkey key).take 8) b hb))) _ _ hpl i
    (by omega)
  have bj := blockAt_blocks _ (by decide) (fun b hb => e ((tkey key).drop 16) _ (d (((tkey key).take 16).drop 8) _ (e ((tkey key).take 8) b hb))) _ _ hpl j
    (by omega)
  simp only [blockAt, Nat.mul_comm _ 8] at bi bj
  rw [bi, bj]
  have li : ∀ n, n ≤ data.length / 8 → (((data ++ List.replicate (8 - data.length % 8) 0).drop (8 * n)).take 8).length = 8 := by
    intro n hn
    rw [List.length_take, List.length_drop, hpl]; omega
  constructor
  · intro h
    have l1 := li i hi
    have l2 := li j hj
    exact enc_inj C _ (by rw [hb]; exact l1) (by rw [hb]; exact l2) (dec_inj C _ (by rw [hb]; exact e _ _ l1) (by rw [hb]; exact e _ _ l2)
      (enc_inj C _ (by rw [hb]; exact d _ _ (e _ _ l1)) (by rw [hb]; exact d _ _ (e _ _ l2)) h))
  · intro h; rw [h]

theorem aes_new (C : Cipher) (hC : IsAes C) (key : Bytes) (hk : key.length = 16 ∨ key.length = 24 ∨ key.length = 32) :
    newMode C key = .ok (some ⟨key, key.take 16⟩) := by
  rw [newMode, if_neg (by rw [hC.2, decide_eq_true hk]; simp), if_neg (by rw [hC.1]; omega), hC.1]

theorem aes_first (C : Cipher) (hC : IsAes C) (m : Mode) (b : Bytes) :
    let p := b ++ List.replicate (16 - b.length % 16) (UInt8.ofNat (16 - b.length % 16))
    aesEncrypt C m b = .ok (⟨m.key, (cbcEnc C m.key m.iv p).2⟩, (cbcEnc C m.key m.iv p).1) := by
  intro p
  obtain ⟨e, -, hkk⟩ := C48_padded b (16 : Nat)
  obtain ⟨hp, -, -, -⟩ := hkk 16 rfl (by decide)
  have hpl : p.length = (b.length / 16 + 1) * 16 := by
    simp only [p, List.length_append, List.length_replicate]; omega
  rw [aesEncrypt, hC.1, e, hp]
  simp only [Res.bind_ok]
  rw [if_neg (by rw [hpl]; simp)]

/-- C147: two messages, each the first of an encrypter with the same key: their ciphertexts show how many whole blocks in front the
messages have in common. -/
theorem C147_common_front (C : Cipher) (hC : IsAes C) (key b b' : Bytes) (hk : key.length = 16 ∨ key.length = 24 ∨ key.length = 32) :
    ∃ m m1 m2 c c', newMode C key = .ok (some m) ∧ aesEncrypt C m b = .ok (m1, c) ∧ aesEncrypt C m b' = .ok (m2, c') ∧
      ∀ n, 16 * n ≤ b.length → 16 * n ≤ b'.length → (c.take (16 * n) = c'.take (16 * n) ↔ b.take (16 * n) = b'.take (16 * n)) := by
  refine ⟨_, _, _, _, _, aes_new C hC key hk, aes_first C hC _ b, aes_first C hC _ b', fun n h1 h2 => ?_⟩
  have := cbcEnc_prefix C (by rw [hC.1]; decide) key n (key.take 16) (b.take (16 * n)) (b'.take (16 * n))
    (b.drop (16 * n) ++ List.replicate (16 - b.length % 16) (UInt8.ofNat (16 - b.length % 16)))
    (b'.drop (16 * n) ++ List.replicate (16 - b'.length % 16) (UInt8.ofNat (16 - b'.length % 16)))
    (by rw [hC.1, List.length_take]; omega) (by rw [hC.1, List.length_take]; omega) (by rw [hC.1, List.length_take]; omega)
  rw [← List.append_assoc, ← List.append_assoc, List.take_append_drop, List.take_append_drop, hC.1, Nat.mul_comm n 16] at this
  exact this

/-! ## Different messages -/

theorem trimZeros_fill (l : Bytes) : ∃ n, l = Spec.trimZeros l ++ List.replicate n 0 := by
  induction l with
  | nil => exact ⟨0, rfl⟩
  | cons a l ih =>
    obtain ⟨n, h⟩ := ih
    rw [Spec.trimZeros]
    cases ht : Spec.trimZeros l with
    | nil =>
      rw [ht] at h
      by_cases ha : a = 0
      · exact ⟨n + 1, by simp only [ha, if_true, List.nil_append, List.replicate_succ] at h ⊢; rw [← h]⟩
      · exact ⟨n, by simp only [ha, if_false, List.cons_append, List.nil_append] at h ⊢; rw [← h]⟩
    | cons x t =>
      rw [ht] at h
      exact ⟨n, by simp only [List.cons_append] at h ⊢; rw [← h]⟩

/-- C147: two messages of triple DES have the same ciphertext, under any key, exactly if they have equally many whole blocks and are equal
but for zero bytes at the end. -/
theorem C147_same_ciphertext (C : Cipher) (hC : IsDes C) (data data' key : Bytes) :
    tripleEncrypt C data key = tripleEncrypt C data' key ↔
      data.length / 8 = data'.length / 8 ∧ Spec.trimZeros data = Spec.trimZeros data' := by
  obtain ⟨c, h1, hl, h2⟩ := C49_exact C hC data key
  obtain ⟨c', h1', hl', h2'⟩ := C49_exact C hC data' key
  constructor
  · intro h
    rw [h1, h1'] at h
    simp only [Res.ok.injEq, Option.some.injEq] at h
    rw [h] at hl h2
    exact ⟨by omega, by rw [h2] at h2'; simpa using h2'⟩
  · rintro ⟨hn, ht⟩
    rw [triple_eq C hC, triple_eq C hC]
    suffices e : data ++ List.replicate (8 - data.length % 8) 0 = data' ++ List.replicate (8 - data'.length % 8) 0 by rw [e]
    obtain ⟨n, e⟩ := trimZeros_fill data
    obtain ⟨n', e'⟩ := trimZeros_fill data'
    have l1 := congrArg List.length e
    have l2 := congrArg List.length e'
    rw [List.length_append, List.length_replicate] at l1 l2
    rw [ht] at e l1
    have m1 : 8 * (data.length / 8) + data.length % 8 = data.length := Nat.div_add_mod _ _
    have m2 : 8 * (data'.length / 8) + data'.length % 8 = data'.length := Nat.div_add_mod _ _
    have b1 := Nat.mod_lt data.length (show 0 < 8 by decide)
    have b2 := Nat.mod_lt data'.length (show 0 < 8 by decide)
    generalize hr : 8 - data.length % 8 = r at *
    generalize hr' : 8 - data'.length % 8 = r' at *
    have hnr : n + r = n' + r' := by omega
    generalize Spec.trimZeros data' = t at e e'
    rw [e, e', List.append_assoc, List.append_assoc, List.replicate_append_replicate, List.replicate_append_replicate, hnr]

/-- C147: with AES different messages have different ciphertexts, at every point of a stream. -/
theorem C147_aes_different (C : Cipher) (hC : IsAes C) (m : Mode) (hm : m.iv.length = 16) (b b' : Bytes) (h : b ≠ b') :
    ∃ m1 m2 c c', aesEncrypt C m b = .ok (m1, c) ∧ aesEncrypt C m b' = .ok (m2, c') ∧ c ≠ c' := by
  obtain ⟨m1, c, e, -, -, -, d⟩ := aes_step C hC.1 m hm b
  obtain ⟨m2, c', e', -, -, -, d'⟩ := aes_step C hC.1 m hm b'
  refine ⟨m1, m2, c, c', e, e', fun he => h ?_⟩
  rw [he, d'] at d
  simp only [Res.ok.injEq, Prod.mk.injEq] at d
  exact d.2.symm

/-! ## The key -/

theorem xor_zero_right (a : Bytes) (n : Nat) (h : a.length ≤ n) : xor a (List.replicate n 0) = a := by
  induction a generalizing n with
  | nil => simp [xor]
  | cons x a ih =>
    cases n with
    | zero => simp at h
    | succ n =>
      have := ih n (by simpa using h)
      simp only [xor, List.replicate_succ, List.zipWith_cons_cons, UInt8.xor_zero, List.cons.injEq, true_and] at this ⊢
      exact this

theorem xor_comm (a b : Bytes) : xor a b = xor b a := by
  simp only [xor]
  rw [List.zipWith_comm]
  congr 1
  funext x y
  exact UInt8.xor_comm y x

/-- C147: a decrypter gives the key away.  Take any ciphertext of two blocks or more; hand a new decrypter its first block, a block of
zero bytes, the first block again, and its last two blocks.  The decrypter does not object, and in what it returns the first block and the
third differ by the first 16 bytes of the key: for a key of 16 bytes, by the key. -/
theorem C147_key_revealed (C : Cipher) (hC : IsAes C) (key b : Bytes) (hk : key.length = 16 ∨ key.length = 24 ∨ key.length = 32)
    (hb : 16 ≤ b.length) :
    ∃ m m1 m2 c out, newMode C key = .ok (some m) ∧ aesEncrypt C m b = .ok (m1, c) ∧
      aesDecrypt C m (c.take 16 ++ List.replicate 16 0 ++ c.take 16 ++ c.drop (c.length - 32)) = .ok (m2, out) ∧
      xor (out.take 16) ((out.drop 32).take 16) = key.take 16 := by
  have hbs := hC.1
  have h0 : 0 < C.bs := by rw [hbs]; decide
  have hi : (key.take 16).length = C.bs := by rw [hbs, List.length_take]; omega
  obtain ⟨m1, c, he, -, -, hcl, -⟩ := aes_step C hbs ⟨key, key.take 16⟩ (hi.trans hbs) b
  have he' := aes_first C hC ⟨key, key.take 16⟩ b
  simp only at he'
  set n := 16 - b.length % 16 with hn
  set p := b ++ List.replicate n (UInt8.ofNat n) with hp
  have hpl : p.length = (b.length / 16 + 1) * C.bs := by
    rw [hp, List.length_append, List.length_replicate, hbs]; omega
  obtain ⟨-, -, inv⟩ := cbc_inv C h0 key _ (key.take 16) p hi hpl
  have hc : c = (cbcEnc C key (key.take 16) p).1 := by
    rw [he] at he'
    simp only [Res.ok.injEq, Prod.mk.injEq] at he'
    exact he'.2
  rw [← hc] at inv
  -- the pieces of the ciphertext
  obtain ⟨f, mid, x, y, hcc, hf, hmid, hx, hy⟩ : ∃ f mid x y : Bytes, c = mid ++ (x ++ y) ∧ f = c.take 16 ∧
      mid.length = (b.length / 16 - 1) * C.bs ∧ x.length = C.bs ∧ y.length = C.bs := by
    refine ⟨c.take 16, c.take (c.length - 32), (c.drop (c.length - 32)).take 16, (c.drop (c.length - 32)).drop 16, ?_, rfl, ?_, ?_, ?_⟩
    · rw [List.take_append_drop, List.take_append_drop]
    · rw [List.length_take, hbs]; omega
    · rw [List.length_take, List.length_drop, hbs]; omega
    · rw [List.length_drop, List.length_drop, hbs]; omega
  have hfl : f.length = C.bs := by rw [hf, List.length_take, hbs]; omega
  have htail : c.drop (c.length - 32) = x ++ y := by
    rw [hcc]
    have : (mid ++ (x ++ y)).length - 32 = mid.length := by simp only [List.length_append, hx, hy, hbs]; omega
    rw [this, List.drop_left' rfl]
  have hz : (List.replicate 16 (0 : UInt8)).length = C.bs := by rw [hbs, List.length_replicate]
  -- the last block, in the genuine and in the forged ciphertext
  have last := cbcDec_last C h0 key _ mid hmid hx hy (key.take 16)
  rw [← hcc, inv] at last
  simp only at last
  have hmx : (cbcDec C key (key.take 16) (mid ++ x)).1.length = (mid ++ x).length :=
    cbcDec_length C h0 key (b.length / 16 - 1 + 1) _ (by rw [List.length_append, hmid, hx, Nat.succ_mul]) _ hi
  have hq : (xor (C.dec key y) x).length = 16 := by rw [← hbs]; exact xor_length (C.dec_len key y hy) hx
  have n1 : 1 ≤ n ∧ n ≤ 16 := by omega
  have qlast : (xor (C.dec key y) x).getLast? = some (UInt8.ofNat n) := by
    have h1 : p.getLast? = (xor (C.dec key y) x).getLast? := by
      rw [last, List.getLast?_append_of_ne_nil]
      intro e; rw [e] at hq; simp at hq
    have h2 : p.getLast? = some (UInt8.ofNat n) := by
      rw [hp, List.getLast?_append_of_ne_nil]
      · rw [List.getLast?_replicate, if_neg (by omega)]
      · intro e
        have := congrArg List.length e
        rw [List.length_replicate] at this; simp at this; omega
    rw [← h1, h2]
  have forged := cbcDec_last C h0 key 3 (f ++ (List.replicate 16 0 ++ f)) (by simp only [List.length_append, hfl, hz]; omega) hx hy (key.take 16)
  -- the first three blocks
  have e3 : (cbcDec C key (key.take 16) ((f ++ (List.replicate 16 0 ++ f)) ++ x)).1 =
      xor (C.dec key f) (key.take 16) ++ (xor (C.dec key (List.replicate 16 0)) f ++ (C.dec key f ++ xor (C.dec key x) f)) := by
    have ex := cbcDec_cons C h0 key f (b := x) (l := []) hx
    rw [List.append_nil] at ex
    rw [List.append_assoc, List.append_assoc, cbcDec_cons C h0 key _ hfl, cbcDec_cons C h0 key _ hz, cbcDec_cons C h0 key _ hfl, ex, cbcDec_nil]
    simp only [List.append_nil]
    rw [xor_zero_right (C.dec key f) 16 (by rw [C.dec_len key f hfl, hbs])]
  rw [e3] at forged
  have g1 : (xor (C.dec key f) (key.take 16)).length = 16 := (xor_length (C.dec_len key f hfl) hi).trans hbs
  have g2 : (xor (C.dec key (List.replicate 16 0)) f).length = 16 := (xor_length (C.dec_len key _ hz) hfl).trans hbs
  have g3 : (C.dec key f).length = 16 := by rw [← hbs]; exact C.dec_len key f hfl
  have g4 : (xor (C.dec key x) f).length = 16 := by rw [← hbs]; exact xor_length (C.dec_len key x hx) hfl
  set P0 := xor (C.dec key f) (key.take 16) with hP0
  set P1 := xor (C.dec key (List.replicate 16 0)) f
  set P2 := C.dec key f with hP2
  set P3 := xor (C.dec key x) f
  set Q := xor (C.dec key y) x
  have hform : c.take 16 ++ List.replicate 16 0 ++ c.take 16 ++ c.drop (c.length - 32) = (f ++ (List.replicate 16 0 ++ f)) ++ (x ++ y) := by
    rw [htail, ← hf]; simp only [List.append_assoc]
  have hlen : ((f ++ (List.replicate 16 (0 : UInt8) ++ f)) ++ (x ++ y)).length = 80 := by
    simp only [List.length_append, hfl, hz, hx, hy, hbs]
  have hraw : (P0 ++ (P1 ++ (P2 ++ P3)) ++ Q).length = 80 := by simp only [List.length_append, g1, g2, g3, g4, hq]
  have hun : pkcs7Unpadding (P0 ++ (P1 ++ (P2 ++ P3)) ++ Q) = .ok ((P0 ++ (P1 ++ (P2 ++ P3)) ++ Q).take (80 - n)) := by
    have : (P0 ++ (P1 ++ (P2 ++ P3)) ++ Q).getLast? = some (UInt8.ofNat n) := by
      rw [List.getLast?_append_of_ne_nil, qlast]
      intro e; rw [e] at hq; simp at hq
    have hnn : (UInt8.ofNat n).toNat = n := by rw [UInt8.toNat_ofNat', Nat.mod_eq_of_lt (by omega)]
    rw [pkcs7Unpadding, this]
    simp only [hnn]
    rw [if_pos (by rw [hraw]; omega), hraw]
  have hdec : aesDecrypt C ⟨key, key.take 16⟩ (c.take 16 ++ List.replicate 16 0 ++ c.take 16 ++ c.drop (c.length - 32)) =
      .ok (⟨key, (cbcDec C key (key.take 16) ((f ++ (List.replicate 16 0 ++ f)) ++ (x ++ y))).2⟩, (P0 ++ (P1 ++ (P2 ++ P3)) ++ Q).take (80 - n)) := by
    rw [aesDecrypt, hform, if_neg (by rw [hlen, hbs]; decide)]
    simp only [forged, hun, Res.bind_ok, Res.pure_eq]
  refine ⟨_, _, _, c, _, aes_new C hC key hk, he, hdec, ?_⟩
  have t0 : ((P0 ++ (P1 ++ (P2 ++ P3)) ++ Q).take (80 - n)).take 16 = P0 := by
    rw [List.take_take, Nat.min_eq_left (by omega), List.append_assoc, List.take_left' g1]
  have t2 : (((P0 ++ (P1 ++ (P2 ++ P3)) ++ Q).take (80 - n)).drop 32).take 16 = P2 := by
    rw [List.drop_take, List.take_take, Nat.min_eq_left (by omega), List.append_assoc, List.append_assoc, List.append_assoc,
      show 32 = 16 + 16 from rfl, ← List.drop_drop, List.drop_left' g1, List.drop_left' g2, List.take_left' g3]
  rw [t0, t2, hP0, xor_comm P2 (key.take 16)]
  exact xor_cancel _ _ (by rw [g3, hi, hbs])

/-! ## Concrete cases -/

/-- C147_short_key: a key of three bytes. -/
example := C147_short_key des ⟨rfl, fun _ => rfl⟩ [1, 2, 3] [97, 98, 99] (by decide)

/-- C147_equal_thirds: a key with equal first halves. -/
example := C147_equal_thirds des ⟨rfl, fun _ => rfl⟩ [1, 2, 3] (List.replicate 8 1) (List.replicate 8 7) rfl rfl

/-- C147_parity: the keys "bd" and "ce". -/
example : tripleEncrypt des [1, 2, 3] [98, 100] = tripleEncrypt des [1, 2, 3] [99, 101] := (C147_parity _ _ _ (by decide)).1

/-- C147_equal_blocks: 16 equal bytes. -/
example : ((List.replicate 16 (5 : UInt8) ++ List.replicate 8 0).drop (8 * 0)).take 8 = ((List.replicate 16 (5 : UInt8) ++ List.replicate 8 0).drop (8 * 1)).take 8 ∧
    ((List.replicate 16 (5 : UInt8) ++ List.replicate 8 0).drop (8 * 0)).take 8 ≠ ((List.replicate 16 (5 : UInt8) ++ List.replicate 8 0).drop (8 * 2)).take 8 := by
  decide

/-- C147_same_ciphertext: [1] and [1, 0], which are different. -/
example : tripleEncrypt des [1] [7] = tripleEncrypt des [1, 0] [7] :=
  (C147_same_ciphertext des ⟨rfl, fun _ => rfl⟩ [1] [1, 0] [7]).2 (by decide)

/-- C147_common_front, C147_key_revealed: two messages of more than one block, the first of which they share. -/
example : 16 ≤ (List.replicate 20 (1 : UInt8)).length ∧
    (List.replicate 20 (1 : UInt8)).take 16 = (List.replicate 16 (1 : UInt8) ++ [2, 3]).take 16 := by decide

example := C147_aes_different aes ⟨rfl, fun _ => rfl⟩ ⟨List.replicate 16 3, List.replicate 16 3⟩ (by decide) [1, 2] [1, 2, 0] (by decide)

end Verif.Crypto
