import Verif.Model.Crypto
import Mathlib.Tactic.IntervalCases
import Mathlib.Data.List.Basic
import Mathlib.Data.List.DropRight
/-!
# Padding, triple DES, AES-CBC and text encoding (C48–C51)
-/

set_option linter.unusedSectionVars false

namespace Verif.Crypto

/-! ## Padding -/

/-- The number of bytes to add so that `len` becomes the next larger multiple of `bs`. -/
def Spec.missing (len bs : Nat) : Nat := bs - len % bs

theorem padLen_pos (len : Nat) {bs : Nat} (h : 0 < bs) : padLen len bs = .ok (Spec.missing len bs : Nat) := by
  have : len % bs < bs := Nat.mod_lt _ h
  rw [padLen, if_neg (by omega), ← Int.ofNat_tmod, Spec.missing]
  congr 1; omega

theorem missing_pos (len : Nat) {bs : Nat} (h : 0 < bs) : 1 ≤ Spec.missing len bs ∧ Spec.missing len bs ≤ bs := by
  have : len % bs < bs := Nat.mod_lt _ h
  rw [Spec.missing]; omega

theorem missing_mod (len : Nat) {bs : Nat} (h : 0 < bs) : (len + Spec.missing len bs) % bs = 0 := by
  have h1 : len % bs < bs := Nat.mod_lt _ h
  have h2 := Nat.div_add_mod len bs
  rw [Spec.missing, show len + (bs - len % bs) = bs * (len / bs + 1) by rw [Nat.mul_add]; omega]
  exact Nat.mul_mod_right _ _

theorem toByte_nat (n : Nat) : toByte (n : Int) = UInt8.ofNat n := by
  rw [toByte, show ((n : Int) % 256).toNat = n % 256 by omega]
  apply UInt8.toNat_inj.1
  simp

theorem repeatByte_nat (b : UInt8) (n : Nat) : repeatByte b (n : Int) = .ok (List.replicate n b) := by
  rw [repeatByte, if_neg (by omega)]; simp

/-- **C48** (the padded data).  For every data and every positive block size the padded data is the data followed by
the missing bytes, at least one and at most a block, each holding (the low 8 bits of) their number; the length is a
positive multiple of the block size.  `PKCS7Padding` and `PKCS5Padding` agree on all inputs, and a block size that is
not positive makes both panic. -/
theorem C48_padded (data : Bytes) (blockSize : Int) :
    pkcs7Padding data blockSize = pkcs5Padding data blockSize ∧
    (blockSize ≤ 0 → pkcs5Padding data blockSize = .panic) ∧
    (∀ bs : Nat, blockSize = bs → 0 < bs →
      let n := bs - data.length % bs
      pkcs5Padding data blockSize = .ok (data ++ List.replicate n (UInt8.ofNat n)) ∧
      1 ≤ n ∧ n ≤ bs ∧ bs ∣ data.length + n) := by
  have key : ∀ bs : Nat, 0 < bs → pkcs5Padding data bs =
      .ok (data ++ List.replicate (Spec.missing data.length bs) (UInt8.ofNat (Spec.missing data.length bs))) := by
    intro bs h
    simp only [pkcs5Padding, padLen_pos _ h, Res.bind_ok, repeatByte_nat, toByte_nat, Res.pure_eq]
  have neg : blockSize ≤ 0 → pkcs5Padding data blockSize = .panic ∧ pkcs7Padding data blockSize = .panic := by
    intro h
    by_cases h0 : blockSize = 0
    · simp [pkcs5Padding, pkcs7Padding, padLen, h0, Res.bind_panic]
    · have h1 : 0 ≤ Int.tmod data.length blockSize := Int.tmod_nonneg _ (Int.natCast_nonneg _)
      constructor
      · simp only [pkcs5Padding, padLen, if_neg h0, Res.bind_ok, repeatByte]
        rw [if_pos (by omega)]; rfl
      · simp only [pkcs7Padding, padLen, if_neg h0, Res.bind_ok]
        split_ifs with h2 h3
        · rfl
        · rfl
        · omega
  refine ⟨?_, fun h => (neg h).1, ?_⟩
  · rcases Int.lt_or_le 0 blockSize with h | h
    · obtain ⟨bs, rfl⟩ := Int.eq_ofNat_of_zero_le h.le
      have hp : 0 < bs := by omega
      rw [key bs hp]
      have := missing_pos data.length hp
      simp only [pkcs7Padding, padLen_pos _ hp, Res.bind_ok]
      rw [if_neg (by omega), if_neg (by omega), toByte_nat]
      simp only [List.take_left]
      rw [show ((data.length : Int) + (Spec.missing data.length bs : Nat)).toNat - data.length
        = Spec.missing data.length bs by omega]
    · rw [(neg h).1, (neg h).2]
  · rintro bs rfl h
    exact ⟨key bs h, (missing_pos data.length h).1, (missing_pos data.length h).2,
      Nat.dvd_of_mod_eq_zero (missing_mod data.length h)⟩

theorem unpad_padded (data : Bytes) (n : Nat) (h : 1 ≤ n) :
    pkcs5UnPadding (data ++ List.replicate n (UInt8.ofNat n)) =
      .ok ((data ++ List.replicate n (UInt8.ofNat n)).take (data.length + (n - n % 256))) := by
  obtain ⟨m, rfl⟩ : ∃ m, n = m + 1 := ⟨n - 1, by omega⟩
  have hl : (data ++ List.replicate (m + 1) (UInt8.ofNat (m + 1))).getLast? = some (UInt8.ofNat (m + 1)) := by
    rw [List.replicate_succ', ← List.append_assoc, List.getLast?_append]; simp
  have h1 : (UInt8.ofNat (m + 1)).toNat = (m + 1) % 256 := by simp
  have h2 : (m + 1) % 256 ≤ m + 1 := Nat.mod_le _ _
  simp only [pkcs5UnPadding, hl, h1, List.length_append, List.length_replicate]
  rw [if_pos (by omega)]
  congr 2
  omega

theorem unpad7_eq (b : Bytes) : pkcs7Unpadding b = pkcs5UnPadding b := rfl

/-- **C48** (round trip), as far as it holds: for block sizes 1 to 255 removing the padding gives the data back, for
every data.  Missing: block sizes above 255, see `C48_large_false`. -/
theorem C48_roundtrip_partial (data : Bytes) (bs : Nat) (h : 1 ≤ bs) (h' : bs ≤ 255) :
    (pkcs5Padding data bs >>= pkcs5UnPadding) = .ok data ∧
    (pkcs7Padding data bs >>= pkcs7Unpadding) = .ok data := by
  obtain ⟨e, -, hk⟩ := C48_padded data bs
  obtain ⟨hp, h1, h2, -⟩ := hk bs rfl h
  have : (pkcs5Padding data bs >>= pkcs5UnPadding) = .ok data := by
    rw [hp, Res.bind_ok, unpad_padded data _ h1]
    rw [Nat.mod_eq_of_lt (show bs - data.length % bs < 256 by omega)]
    simp
  exact ⟨this, by rw [e]; exact this⟩

/-- **C48** fails for large block sizes: whenever 256 or more bytes are missing the number does not fit into a byte and
removing the padding does not return the data.  For every block size above 255 this happens, for instance, to the empty
data. -/
theorem C48_large_false :
    (∀ (data : Bytes) (bs : Nat), 256 ≤ bs - data.length % bs →
      (pkcs5Padding data bs >>= pkcs5UnPadding) ≠ .ok data ∧
      (pkcs7Padding data bs >>= pkcs7Unpadding) ≠ .ok data) ∧
    (∀ bs : Nat, 256 ≤ bs → 256 ≤ bs - ([] : Bytes).length % bs) := by
  constructor
  · intro data bs h
    obtain ⟨e, -, hk⟩ := C48_padded data bs
    obtain ⟨hp, h1, h2, -⟩ := hk bs rfl (by omega)
    have : (pkcs5Padding data bs >>= pkcs5UnPadding) ≠ .ok data := by
      rw [hp, Res.bind_ok, unpad_padded data _ h1]
      intro hc
      have hc := congrArg List.length (Res.ok.inj hc)
      simp only [List.length_take, List.length_append, List.length_replicate] at hc
      omega
    exact ⟨this, by rw [e]; exact this⟩
  · intro bs h; simpa using h

/-- **C48** (damaged input): unpadding panics exactly on the empty input and when the last byte exceeds the length;
otherwise it removes as many bytes as the last byte says. -/
theorem C48_unpad (data : Bytes) :
    (pkcs5UnPadding data = .panic ↔ ∀ b, data.getLast? = some b → data.length < b.toNat) ∧
    (∀ b, data.getLast? = some b → b.toNat ≤ data.length →
      pkcs5UnPadding data = .ok (data.take (data.length - b.toNat))) ∧
    pkcs7Unpadding data = pkcs5UnPadding data := by
  refine ⟨?_, ?_, rfl⟩
  · unfold pkcs5UnPadding
    cases h : data.getLast? with
    | none => simp
    | some b =>
      by_cases hb : b.toNat ≤ data.length
      · simp only [if_pos hb, Option.some.injEq, forall_eq', reduceCtorEq, false_iff]; omega
      · simp only [if_neg hb, Option.some.injEq, forall_eq', true_iff]; omega
  · intro b h hb
    simp only [pkcs5UnPadding, h, if_pos hb]

example : pkcs5Padding [1, 2, 3] 8 = .ok [1, 2, 3, 5, 5, 5, 5, 5] := by decide +kernel
example : (pkcs5Padding [1, 2, 3] 8 >>= pkcs5UnPadding) = .ok [1, 2, 3] := (C48_roundtrip_partial _ 8 (by decide) (by decide)).1
example : pkcs5UnPadding [7] = .panic := by decide +kernel

/-! ## Triple DES -/

/-- The data without its trailing zero bytes. -/
def Spec.trimZeros : Bytes → Bytes
  | [] => []
  | a :: l => match Spec.trimZeros l with
    | [] => if a = 0 then [] else [a]
    | r => a :: r

theorem trim_append_zeros (l : Bytes) (n : Nat) : zeroUnPadding (l ++ List.replicate n 0) = zeroUnPadding l := by
  simp only [zeroUnPadding, List.reverse_append, List.reverse_replicate]
  congr 1
  induction n with
  | zero => simp
  | succ n ih => rw [List.replicate_succ, List.cons_append, List.dropWhile_cons]; simp [ih]

theorem zeroUnPadding_cons (a : UInt8) (l : Bytes) :
    zeroUnPadding (a :: l) = if zeroUnPadding l = [] then (if a = 0 then [] else [a]) else a :: zeroUnPadding l := by
  simp only [zeroUnPadding, List.reverse_cons, List.reverse_eq_nil_iff]
  generalize l.reverse = m
  induction m with
  | nil => by_cases h : a = 0 <;> simp [h]
  | cons b m ih =>
    by_cases h : b = 0
    · subst h; simpa using ih
    · simp [h]

theorem zeroUnPadding_eq (l : Bytes) : zeroUnPadding l = Spec.trimZeros l := by
  induction l with
  | nil => rfl
  | cons a l ih =>
    rw [zeroUnPadding_cons, ih, Spec.trimZeros]
    cases h : Spec.trimZeros l <;> simp

theorem trimZeros_eq_self (l : Bytes) : Spec.trimZeros l = l ↔ l.getLast? ≠ some 0 := by
  induction l with
  | nil => simp [Spec.trimZeros]
  | cons a l ih =>
    rw [Spec.trimZeros]
    cases hl : l with
    | nil => by_cases h : a = 0 <;> simp [h, Spec.trimZeros]
    | cons b m =>
      rw [List.getLast?_cons_cons, ← hl, ← ih]
      cases h : Spec.trimZeros l with
      | nil => subst hl; by_cases ha : a = 0 <;> simp [ha]
      | cons c r => simp

theorem blocks_length (f : Bytes → Bytes) (bs : Nat) (hf : ∀ b, b.length = bs → (f b).length = bs) :
    ∀ (n : Nat) (l : Bytes), 0 < bs → l.length = n * bs → (blocks f bs l).length = n * bs := by
  intro n
  induction n with
  | zero =>
    intro l h hl
    have : l = [] := List.length_eq_zero_iff.1 (by omega)
    rw [blocks, if_pos (.inr this)]; simp
  | succ n ih =>
    intro l h hl
    rw [Nat.succ_mul] at hl
    have hne : l ≠ [] := by rintro rfl; simp at hl; omega
    rw [blocks, if_neg (by rintro (h0 | h0); omega; exact hne h0), List.length_append,
      hf _ (by rw [List.length_take]; omega), ih _ h (by rw [List.length_drop]; omega), Nat.succ_mul]
    omega

theorem blocks_inv (f g : Bytes → Bytes) (bs : Nat) (hf : ∀ b, b.length = bs → (f b).length = bs)
    (hg : ∀ b, b.length = bs → g (f b) = b) :
    ∀ (n : Nat) (l : Bytes), 0 < bs → l.length = n * bs → blocks g bs (blocks f bs l) = l := by
  intro n
  induction n with
  | zero =>
    intro l h hl
    have : l = [] := List.length_eq_zero_iff.1 (by omega)
    subst this
    rw [blocks.eq_def f, if_pos (.inr rfl), blocks, if_pos (.inr rfl)]
  | succ n ih =>
    intro l h hl
    rw [Nat.succ_mul] at hl
    have hne : l ≠ [] := by rintro rfl; simp at hl; omega
    have ht : (l.take bs).length = bs := by rw [List.length_take]; omega
    have hft := hf _ ht
    rw [blocks.eq_def f, if_neg (by rintro (h0 | h0); omega; exact hne h0), blocks,
      if_neg (by
        rintro (h0 | h0)
        · omega
        · have := congrArg List.length h0
          rw [List.length_append, hft] at this; simp at this; omega),
      List.take_left' hft, List.drop_left' hft, hg _ ht, ih _ h (by rw [List.length_drop]; omega),
      List.take_append_drop]

/-- The properties of `crypto/des` used below: blocks of 8 bytes, keys of 8 bytes. -/
def IsDes (C : Cipher) : Prop := C.bs = 8 ∧ ∀ n, C.keyOk n = decide (n = 8)

theorem encrypt_ok {C : Cipher} (hC : IsDes C) {data key : Bytes} (hk : key.length = 8) (h0 : data.length ≠ 0)
    (h : data.length % 8 = 0) : encrypt C data key = some (blocks (C.enc key) 8 data) := by
  rw [encrypt, if_neg (by omega), if_neg (by rw [hC.2]; simp [hk]), if_neg (by rw [hC.1]; simpa using h), hC.1]

theorem decrypt_ok {C : Cipher} (hC : IsDes C) {data key : Bytes} (hk : key.length = 8) (h0 : data.length ≠ 0)
    (h : data.length % 8 = 0) : decrypt C data key = some (blocks (C.dec key) 8 data) := by
  rw [decrypt, if_neg (by omega), if_neg (by rw [hC.2]; simp [hk]), if_neg (by rw [hC.1]; simpa using h), hC.1]

theorem tkey_length (key : Bytes) : (tkey key).length = 24 := by
  simp only [tkey, List.length_append, List.length_take, List.length_replicate]; omega

theorem k1_length (key : Bytes) : ((tkey key).take 8).length = 8 := by
  rw [List.length_take, tkey_length]; rfl
theorem k2_length (key : Bytes) : (((tkey key).take 16).drop 8).length = 8 := by
  rw [List.length_drop, List.length_take, tkey_length]; rfl
theorem k3_length (key : Bytes) : ((tkey key).drop 16).length = 8 := by
  rw [List.length_drop, tkey_length]

theorem zeroPadding_ok (data : Bytes) :
    zeroPadding data (8 : Nat) = .ok (data ++ List.replicate (8 - data.length % 8) 0) := by
  simp only [zeroPadding, padLen_pos _ (show 0 < 8 by decide), Res.bind_ok, repeatByte_nat, Res.pure_eq, Spec.missing]

/-- **C49** (exact behaviour).  For every block cipher with the interface of DES, every key of whatever length and all
data, encryption succeeds, the ciphertext has the length of the data rounded up to the next larger multiple of 8, and
decrypting it with the same key gives the data without its trailing zero bytes. -/
theorem C49_exact (C : Cipher) (hC : IsDes C) (data key : Bytes) :
    ∃ c, tripleEncrypt C data key = .ok (some c) ∧ c.length = 8 * (data.length / 8 + 1) ∧
      tripleDecrypt C c key = some (Spec.trimZeros data) := by
  have hb := hC.1
  set p := data ++ List.replicate (8 - data.length % 8) 0 with hp
  have hpl : p.length = (data.length / 8 + 1) * 8 := by
    rw [hp, List.length_append, List.length_replicate]; omega
  have e (k : Bytes) : ∀ b : Bytes, b.length = 8 → (C.enc k b).length = 8 := by
    intro b h; rw [← hb] at *; exact C.enc_len k b h
  have d (k : Bytes) : ∀ b : Bytes, b.length = 8 → (C.dec k b).length = 8 := by
    intro b h; rw [← hb] at *; exact C.dec_len k b h
  have de (k : Bytes) : ∀ b : Bytes, b.length = 8 → C.dec k (C.enc k b) = b := by
    intro b h; exact C.dec_enc k b (by rw [hb]; exact h)
  have ed (k : Bytes) : ∀ b : Bytes, b.length = 8 → C.enc k (C.dec k b) = b := by
    intro b h; exact C.enc_dec k b (by rw [hb]; exact h)
  set k1 := (tkey key).take 8 with hk1
  set k2 := ((tkey key).take 16).drop 8 with hk2
  set k3 := (tkey key).drop 16 with hk3
  have l1 : k1.length = 8 := k1_length key
  have l2 : k2.length = 8 := k2_length key
  have l3 : k3.length = 8 := k3_length key
  have L1 := blocks_length (C.enc k1) 8 (e k1) _ p (by decide) hpl
  set b1 := blocks (C.enc k1) 8 p with hb1
  have L2 := blocks_length (C.dec k2) 8 (d k2) _ b1 (by decide) L1
  set b2 := blocks (C.dec k2) 8 b1 with hb2
  have L3 := blocks_length (C.enc k3) 8 (e k3) _ b2 (by decide) L2
  set b3 := blocks (C.enc k3) 8 b2 with hb3
  refine ⟨b3, ?_, by omega, ?_⟩
  · simp only [tripleEncrypt, ← hk1, ← hk2, ← hk3]
    rw [if_neg (by rw [hC.2]; simp [l1]), hb, zeroPadding_ok, Res.bind_ok, ← hp,
      encrypt_ok hC l1 (by omega) (by omega)]
    simp only [Res.pure_eq, Option.bind_eq_bind, Option.bind_some, ← hb1]
    rw [decrypt_ok hC l2 (by omega) (by omega)]
    simp only [Option.bind_some, ← hb2]
    rw [encrypt_ok hC l3 (by omega) (by omega)]
  · simp only [tripleDecrypt, ← hk1, ← hk2, ← hk3]
    rw [decrypt_ok hC l3 (by omega) (by omega), hb3,
      blocks_inv (C.enc k3) (C.dec k3) 8 (e k3) (de k3) _ b2 (by decide) L2]
    simp only [Option.bind_eq_bind, Option.bind_some]
    rw [encrypt_ok hC l2 (by omega) (by omega), hb2,
      blocks_inv (C.dec k2) (C.enc k2) 8 (d k2) (ed k2) _ b1 (by decide) L1]
    simp only [Option.bind_some]
    rw [decrypt_ok hC l1 (by omega) (by omega), hb1,
      blocks_inv (C.enc k1) (C.dec k1) 8 (e k1) (de k1) _ p (by decide) hpl]
    simp only [Option.bind_some, Option.pure_def, hp]
    rw [trim_append_zeros, zeroUnPadding_eq]

/-- **C49** (round trip), as far as it holds: data that does not end in a zero byte comes back.  Missing: data that ends
in a zero byte, see `C49_false`. -/
theorem C49_roundtrip_partial (C : Cipher) (hC : IsDes C) (data key : Bytes) (h : data.getLast? ≠ some 0) :
    ∃ c, tripleEncrypt C data key = .ok (some c) ∧ tripleDecrypt C c key = some data := by
  obtain ⟨c, h1, -, h2⟩ := C49_exact C hC data key
  exact ⟨c, h1, by rw [h2, (trimZeros_eq_self data).2 h]⟩

/-- **C49** is false for data ending in a zero byte: for every such data and every key, what comes back differs from
the data; and two different data (`[1]` and `[1, 0]`) have the same ciphertext. -/
theorem C49_false (C : Cipher) (hC : IsDes C) (key : Bytes) :
    (∀ data, data.getLast? = some 0 →
      ∃ c out, tripleEncrypt C data key = .ok (some c) ∧ tripleDecrypt C c key = some out ∧ out ≠ data) ∧
    tripleEncrypt C [1] key = tripleEncrypt C [1, 0] key := by
  constructor
  · intro data h
    obtain ⟨c, h1, -, h2⟩ := C49_exact C hC data key
    refine ⟨c, _, h1, h2, fun e => ?_⟩
    exact (trimZeros_eq_self data).1 e h
  · have h : zeroPadding [1] (8 : Nat) = zeroPadding [1, 0] (8 : Nat) := by
      rw [zeroPadding_ok, zeroPadding_ok]; rfl
    simp only [tripleEncrypt, hC.1, h]

/-- **C49** (malformed ciphertext).  Decryption returns an error exactly when the ciphertext is empty or its length is
no multiple of 8; it never fails otherwise, whatever the key. -/
theorem C49_reject (C : Cipher) (hC : IsDes C) (c key : Bytes) :
    tripleDecrypt C c key = none ↔ c = [] ∨ ¬ 8 ∣ c.length := by
  have hb := hC.1
  by_cases h0 : c.length = 0
  · have : c = [] := List.length_eq_zero_iff.1 h0
    subst this
    simp [tripleDecrypt, decrypt]
  by_cases h8 : c.length % 8 = 0
  · have hne : c ≠ [] := by rintro rfl; simp at h0
    simp only [hne, Nat.dvd_of_mod_eq_zero h8, not_true_eq_false, or_self, iff_false]
    have e (k : Bytes) : ∀ b : Bytes, b.length = 8 → (C.enc k b).length = 8 := by
      intro b h; rw [← hb] at *; exact C.enc_len k b h
    have d (k : Bytes) : ∀ b : Bytes, b.length = 8 → (C.dec k b).length = 8 := by
      intro b h; rw [← hb] at *; exact C.dec_len k b h
    have hl : c.length = c.length / 8 * 8 := by omega
    have L1 := blocks_length (C.dec ((tkey key).drop 16)) 8 (d _) _ c (by decide) hl
    have L2 := blocks_length (C.enc (((tkey key).take 16).drop 8)) 8 (e _) _ _ (by decide) L1
    simp only [tripleDecrypt]
    rw [decrypt_ok hC (k3_length key) h0 h8]
    simp only [Option.bind_eq_bind, Option.bind_some]
    rw [encrypt_ok hC (k2_length key) (by omega) (by omega)]
    simp only [Option.bind_some]
    rw [decrypt_ok hC (k1_length key) (by omega) (by omega)]
    simp
  · have : ¬ 8 ∣ c.length := fun h => h8 (Nat.mod_eq_zero_of_dvd h)
    simp only [this, not_false_eq_true, or_true, iff_true]
    have : decrypt C c ((tkey key).drop 16) = none := by
      rw [decrypt, if_neg (by rw [k3_length]; omega), if_neg (by rw [hC.2, k3_length]; simp),
        if_pos (by rw [hb]; exact h8)]
    simp [tripleDecrypt, this]

/-- **C49** (keys).  Only the first 24 bytes of the key matter, and a shorter key is completed with zero bytes. -/
theorem C49_key (C : Cipher) (key data : Bytes) :
    tripleEncrypt C data (key.take 24) = tripleEncrypt C data key ∧
    tripleDecrypt C data (key.take 24) = tripleDecrypt C data key ∧
    (∀ n, key.length + n ≤ 24 →
      tripleEncrypt C data (key ++ List.replicate n 0) = tripleEncrypt C data key ∧
      tripleDecrypt C data (key ++ List.replicate n 0) = tripleDecrypt C data key) := by
  have h1 : tkey (key.take 24) = tkey key := by
    simp only [tkey, List.take_take, Nat.min_self, List.length_take]
    congr 2; omega
  have h2 : ∀ n, key.length + n ≤ 24 → tkey (key ++ List.replicate n 0) = tkey key := by
    intro n h
    simp only [tkey, List.length_append, List.length_replicate]
    rw [List.take_of_length_le (by simpa using h), List.take_of_length_le (by omega), List.append_assoc,
      List.replicate_append_replicate]
    congr 2; omega
  refine ⟨by simp only [tripleEncrypt, h1], by simp only [tripleDecrypt, h1], fun n h => ?_⟩
  exact ⟨by simp only [tripleEncrypt, h2 n h], by simp only [tripleDecrypt, h2 n h]⟩

/-- A toy cipher with the interface of DES: adds the first key byte to every byte. -/
def toyDes : Cipher where
  keyOk n := decide (n = 8)
  bs := 8
  enc k b := b.map (· + k.headD 0)
  dec k b := b.map (· - k.headD 0)
  enc_len := by simp
  dec_len := by simp
  dec_enc := by intro k b _; simp [List.map_map, Function.comp_def]
  enc_dec := by intro k b _; simp [List.map_map, Function.comp_def]

example : IsDes toyDes := ⟨rfl, fun _ => rfl⟩
example : tripleEncrypt toyDes [1, 2, 3] [5, 0, 0, 0, 0, 0, 0, 0, 2] = .ok (some [4, 5, 6, 3, 3, 3, 3, 3]) := by
  decide +kernel
example : tripleDecrypt toyDes [4, 5, 6, 3, 3, 3, 3, 3] [5, 0, 0, 0, 0, 0, 0, 0, 2] = some [1, 2, 3] := by
  decide +kernel

/-! ## AES-CBC -/

theorem xor_length {a b : Bytes} {n : Nat} (h1 : a.length = n) (h2 : b.length = n) : (xor a b).length = n := by
  simp [xor, h1, h2]

theorem xor_cancel : ∀ (a b : Bytes), a.length = b.length → xor (xor a b) b = a := by
  intro a
  induction a with
  | nil => intro b h; simp [xor]
  | cons x a ih =>
    intro b h
    cases b with
    | nil => simp at h
    | cons y b =>
      have := ih b (by simpa using h)
      simp only [xor, List.zipWith_cons_cons, List.cons.injEq] at this ⊢
      exact ⟨by rw [UInt8.xor_assoc, UInt8.xor_self, UInt8.xor_zero], this⟩

theorem cbc_inv (C : Cipher) (hb : 0 < C.bs) (key : Bytes) :
    ∀ (n : Nat) (iv l : Bytes), iv.length = C.bs → l.length = n * C.bs →
      (cbcEnc C key iv l).1.length = n * C.bs ∧ (cbcEnc C key iv l).2.length = C.bs ∧
      cbcDec C key iv (cbcEnc C key iv l).1 = (l, (cbcEnc C key iv l).2) := by
  intro n
  induction n with
  | zero =>
    intro iv l hi hl
    have : l = [] := List.length_eq_zero_iff.1 (by omega)
    subst this
    rw [cbcEnc, if_pos (.inr rfl), cbcDec, if_pos (.inr rfl)]
    exact ⟨by simp, hi, rfl⟩
  | succ n ih =>
    intro iv l hi hl
    rw [Nat.succ_mul] at hl
    have hne : l ≠ [] := by rintro rfl; simp at hl; omega
    have ht : (l.take C.bs).length = C.bs := by rw [List.length_take]; omega
    have hx := xor_length ht hi
    have hc := C.enc_len key _ hx
    obtain ⟨i1, i2, i3⟩ := ih (C.enc key (xor (l.take C.bs) iv)) (l.drop C.bs) hc (by rw [List.length_drop]; omega)
    rw [cbcEnc, if_neg (by rintro (h0 | h0); omega; exact hne h0)]
    refine ⟨by simp only [List.length_append, hc, i1, Nat.succ_mul]; omega, i2, ?_⟩
    rw [cbcDec, if_neg (by
        rintro (h0 | h0)
        · omega
        · have := congrArg List.length h0
          simp only [List.length_append, hc, List.length_nil] at this; omega)]
    simp only [List.take_left' hc, List.drop_left' hc, i3, C.dec_enc key _ hx]
    rw [xor_cancel _ _ (by rw [ht, hi]), List.take_append_drop]

/-- The properties of `crypto/aes` used below: blocks of 16 bytes, keys of 16, 24 or 32 bytes. -/
def IsAes (C : Cipher) : Prop := C.bs = 16 ∧ ∀ n, C.keyOk n = decide (n = 16 ∨ n = 24 ∨ n = 32)

theorem aes_step (C : Cipher) (hC : C.bs = 16) (m : Mode) (hm : m.iv.length = 16) (b : Bytes) :
    ∃ m' c, aesEncrypt C m b = .ok (m', c) ∧ m'.iv.length = 16 ∧ m'.key = m.key ∧
      c.length = 16 * (b.length / 16 + 1) ∧ aesDecrypt C m c = .ok (m', b) := by
  obtain ⟨e, -, hk⟩ := C48_padded b C.bs
  obtain ⟨hp, h1, h2, h3⟩ := hk C.bs rfl (by omega)
  set n := C.bs - b.length % C.bs with hn
  set p := b ++ List.replicate n (UInt8.ofNat n) with hpd
  have hpl : p.length = (b.length / 16 + 1) * C.bs := by
    rw [hpd, List.length_append, List.length_replicate, hn, hC]; omega
  obtain ⟨i1, i2, i3⟩ := cbc_inv C (by omega) m.key _ m.iv p (by omega) hpl
  refine ⟨⟨m.key, (cbcEnc C m.key m.iv p).2⟩, (cbcEnc C m.key m.iv p).1, ?_, by rw [← hC]; exact i2, rfl, ?_, ?_⟩
  · rw [aesEncrypt, e, hp]
    simp only [Res.bind_ok]
    rw [if_neg (by rw [hpl]; simp)]
  · rw [i1, hC]; omega
  · rw [aesDecrypt, if_neg (by rw [i1]; simp), i3]
    simp only [unpad7_eq]
    rw [hpd, unpad_padded b n h1, Nat.mod_eq_of_lt (by omega)]
    simp [Res.bind_ok, Res.pure_eq]

/-- **C50**.  For every block cipher with the interface of AES, every key of an accepted length and every sequence of
messages: an encrypter and a decrypter with that key can be made; encrypting the messages in order succeeds and gives
one ciphertext per message, each a positive multiple of 16 bytes long; and decrypting these in order gives the
messages. -/
theorem C50_stream (C : Cipher) (hC : IsAes C) (key : Bytes)
    (hk : key.length = 16 ∨ key.length = 24 ∨ key.length = 32) (msgs : List Bytes) :
    ∃ m m' cs, newMode C key = .ok (some m) ∧ encryptAll C m msgs = .ok (m', cs) ∧
      cs.map List.length = msgs.map (fun b => 16 * (b.length / 16 + 1)) ∧
      decryptAll C m cs = .ok (m', msgs) := by
  have step : ∀ (msgs : List Bytes) (m : Mode), m.iv.length = 16 → ∃ m' cs, encryptAll C m msgs = .ok (m', cs) ∧
      cs.map List.length = msgs.map (fun b => 16 * (b.length / 16 + 1)) ∧ decryptAll C m cs = .ok (m', msgs) := by
    intro msgs
    induction msgs with
    | nil => intro m _; exact ⟨m, [], rfl, rfl, rfl⟩
    | cons b bs ih =>
      intro m hm
      obtain ⟨m1, c, h1, h2, -, h4, h5⟩ := aes_step C hC.1 m hm b
      obtain ⟨m2, cs, g1, g2, g3⟩ := ih m1 h2
      refine ⟨m2, c :: cs, ?_, by simp [h4, g2], ?_⟩
      · simp [encryptAll, h1, g1, Res.bind_ok, Res.pure_eq]
      · simp [decryptAll, h5, g3, Res.bind_ok, Res.pure_eq]
  obtain ⟨m', cs, h⟩ := step msgs ⟨key, key.take C.bs⟩ (by rw [List.length_take, hC.1]; omega)
  refine ⟨_, m', cs, ?_, h⟩
  rw [newMode, if_neg (by rw [hC.2, decide_eq_true hk]; simp), if_neg (by rw [hC.1]; omega)]

/-- **C50** (keys and malformed ciphertexts).  Other key lengths give an error, and a ciphertext that is empty or no
multiple of 16 bytes makes the decrypter panic. -/
theorem C50_malformed (C : Cipher) (hC : IsAes C) :
    (∀ key : Bytes, ¬ (key.length = 16 ∨ key.length = 24 ∨ key.length = 32) → newMode C key = .ok none) ∧
    (∀ m c, c = [] ∨ ¬ 16 ∣ c.length → aesDecrypt C m c = .panic) := by
  constructor
  · intro key h
    rw [newMode, if_pos (by rw [hC.2]; simpa using h)]
  · rintro m c (rfl | h)
    · rw [aesDecrypt, if_neg (by simp), cbcDec, if_pos (.inr rfl)]; rfl
    · rw [aesDecrypt, if_pos (by rw [hC.1]; exact fun e => h (Nat.dvd_of_mod_eq_zero e))]

/-- A toy cipher with the interface of AES. -/
def toyAes : Cipher where
  keyOk n := decide (n = 16 ∨ n = 24 ∨ n = 32)
  bs := 16
  enc k b := b.map (· + k.headD 0)
  dec k b := b.map (· - k.headD 0)
  enc_len := by simp
  dec_len := by simp
  dec_enc := by intro k b _; simp [List.map_map, Function.comp_def]
  enc_dec := by intro k b _; simp [List.map_map, Function.comp_def]

example : IsAes toyAes := ⟨rfl, fun _ => rfl⟩
example : (encryptAll toyAes ⟨List.replicate 16 3, List.replicate 16 3⟩ [[1, 2], [], [1, 2]] >>= fun r =>
    decryptAll toyAes ⟨List.replicate 16 3, List.replicate 16 3⟩ r.2 >>= fun r => pure r.2) = .ok [[1, 2], [], [1, 2]] := by
  decide +kernel
/-- The order matters: the second ciphertext alone does not decrypt to the second message. -/
example : (encryptAll toyAes ⟨List.replicate 16 3, List.replicate 16 3⟩ [[1, 2], [5]] >>= fun r =>
    decryptAll toyAes ⟨List.replicate 16 3, List.replicate 16 3⟩ (r.2.drop 1) >>= fun r => pure r.2) ≠ .ok [[5]] := by
  decide +kernel

/-! ## Text encoding -/

/-- The key of the text encoding is the text rsa/code.go:11 gives. -/
theorem C51_key : codeKey = "ac643718-9730-e711-59210".toUTF8.toList ∧ codeKey.length = 24 := by decide +kernel

/-- **C51** (Encode/Decode, exact behaviour).  For every byte string, `Decode(Encode(s))` is `s` without its trailing
zero bytes. -/
theorem C51_exact (C : Cipher) (hC : IsDes C) (B : Codec) (s : Bytes) :
    ∃ t, encode C B s = .ok t ∧ decode C B t = Spec.trimZeros s := by
  obtain ⟨c, h1, -, h2⟩ := C49_exact C hC s codeKey
  refine ⟨B.enc c, ?_, ?_⟩
  · simp [encode, h1, Res.bind_ok, Res.pure_eq]
  · simp [decode, B.dec_enc, h2]

/-- **C51** (Encode/Decode), as far as it holds: strings that do not end in a zero byte come back.  Missing: strings
that end in a zero byte, see `C51_false`. -/
theorem C51_roundtrip_partial (C : Cipher) (hC : IsDes C) (B : Codec) (s : Bytes) (h : s.getLast? ≠ some 0) :
    ∃ t, encode C B s = .ok t ∧ decode C B t = s := by
  obtain ⟨t, h1, h2⟩ := C51_exact C hC B s
  exact ⟨t, h1, by rw [h2, (trimZeros_eq_self s).2 h]⟩

/-- **C51** is false for every string that ends in a zero byte. -/
theorem C51_false (C : Cipher) (hC : IsDes C) (B : Codec) (s : Bytes) (h : s.getLast? = some 0) :
    ∃ t, encode C B s = .ok t ∧ decode C B t ≠ s := by
  obtain ⟨t, h1, h2⟩ := C51_exact C hC B s
  exact ⟨t, h1, by rw [h2]; exact fun e => (trimZeros_eq_self s).1 e h⟩

theorem hex_byte : ∀ n : Fin 256, hexVal (hexDigit (n.1 / 16)) = some (n.1 / 16) ∧
    hexVal (hexDigit (n.1 % 16)) = some (n.1 % 16) := by decide +kernel

theorem hexDecode_toHex (b : Bytes) : hexDecode (toHex b) = some b := by
  induction b with
  | nil => rfl
  | cons x b ih =>
    obtain ⟨h1, h2⟩ := hex_byte ⟨x.toNat, x.toNat_lt⟩
    simp only [toHex, List.flatMap_cons, List.cons_append, List.nil_append] at ih ⊢
    simp only [hexDecode, h1, h2, Option.bind_eq_bind, Option.bind_some, ih, Option.pure_def, Option.some.injEq,
      List.cons.injEq, and_true]
    rw [Nat.div_add_mod]
    exact UInt8.ofNat_toNat

/-- The lower-case form of a hexadecimal digit; `none` for other characters. -/
def Spec.lowerHex (c : Char) : Option Char :=
  if c ∈ "0123456789abcdef".toList then some c
  else if c ∈ "ABCDEF".toList then some (Char.ofNat (c.toNat + 32)) else none

theorem hexVal_lower (c : Char) : (hexVal c).map hexDigit = Spec.lowerHex c ∧ ∀ v, hexVal c = some v → v < 16 := by
  constructor
  · have key : ∀ n : Fin 128, (hexVal (Char.ofNat n.1)).map hexDigit = Spec.lowerHex (Char.ofNat n.1) := by
      decide +kernel
    by_cases h : c.toNat < 128
    · have := key ⟨c.toNat, h⟩
      simpa [Char.ofNat_toNat] using this
    · have h1 : hexVal c = none := by
        simp only [hexVal]
        rw [if_neg (by omega), if_neg (by omega), if_neg (by omega)]
      have hm : ∀ d ∈ "0123456789abcdef".toList ++ "ABCDEF".toList, d.toNat < 128 := by decide +kernel
      have h2 : Spec.lowerHex c = none := by
        rw [Spec.lowerHex, if_neg (fun e => h (hm c (List.mem_append_left _ e))),
          if_neg (fun e => h (hm c (List.mem_append_right _ e)))]
      rw [h1, h2]; rfl
  · intro v hv
    simp only [hexVal] at hv
    split_ifs at hv <;> (simp only [Option.some.injEq] at hv; omega)

/-- **C51** (hex).  For every byte string, the hex text has two lower-case digits per byte and reading it gives the
bytes back; so different byte strings have different texts. -/
theorem C51_hex (b : Bytes) :
    ofHex (toHex b) = b ∧ (toHex b).length = 2 * b.length ∧ (∀ c ∈ toHex b, c ∈ "0123456789abcdef".toList) ∧
    (∀ b', toHex b' = toHex b → b' = b) := by
  refine ⟨by rw [ofHex, hexDecode_toHex], ?_, ?_, ?_⟩
  · induction b with
    | nil => rfl
    | cons x b ih => simp only [toHex, List.flatMap_cons, List.length_append, List.length_cons, List.length_nil] at ih ⊢; omega
  · have key : ∀ n : Fin 16, hexDigit n.1 ∈ "0123456789abcdef".toList := by decide +kernel
    intro c hc
    simp only [toHex, List.mem_flatMap, List.mem_cons, List.not_mem_nil, or_false] at hc
    obtain ⟨x, -, rfl | rfl⟩ := hc
    · exact key ⟨x.toNat / 16, by have := x.toNat_lt; omega⟩
    · exact key ⟨x.toNat % 16, by omega⟩
  · intro b' h
    have := hexDecode_toHex b'
    rw [h, hexDecode_toHex] at this
    exact (Option.some.inj this).symm

theorem hexDecode_inv : ∀ (s : List Char) (b : Bytes), hexDecode s = some b →
    s.mapM Spec.lowerHex = some (toHex b)
  | [], b, h => by simp only [hexDecode, Option.some.injEq] at h; subst h; rfl
  | [_], b, h => by simp [hexDecode] at h
  | x :: y :: r, b, h => by
    simp only [hexDecode, Option.bind_eq_bind, Option.bind_eq_some_iff, Option.pure_def, Option.some.injEq] at h
    obtain ⟨u, hu, v, hv, t, ht, rfl⟩ := h
    have ih := hexDecode_inv r t ht
    obtain ⟨xu, xl⟩ := hexVal_lower x
    obtain ⟨yu, yl⟩ := hexVal_lower y
    have := xl u hu
    have := yl v hv
    rw [hu] at xu; rw [hv] at yu
    have e : (UInt8.ofNat (16 * u + v)).toNat = 16 * u + v := by
      rw [UInt8.toNat_ofNat']; omega
    simp only [List.mapM_cons, ← xu, ← yu, ih, Option.map_some, Option.bind_eq_bind, Option.bind_some, Option.pure_def,
      toHex, List.flatMap_cons, e]
    rw [show (16 * u + v) / 16 = u by omega, show (16 * u + v) % 16 = v by omega]
    rfl

theorem hexDecode_total : ∀ (s l : List Char), s.mapM Spec.lowerHex = some l → s.length % 2 = 0 →
    ∃ b, hexDecode s = some b
  | [], _, _, _ => ⟨[], rfl⟩
  | [_], _, _, h => by simp at h
  | x :: y :: r, l, h, hl => by
    simp only [List.mapM_cons, Option.bind_eq_bind, Option.bind_eq_some_iff, Option.pure_def, Option.some.injEq] at h
    obtain ⟨u, hu, w, ⟨v, hv, t, ht, -⟩, -⟩ := h
    obtain ⟨b, hb⟩ := hexDecode_total r t ht (by simp only [List.length_cons] at hl; omega)
    rw [← (hexVal_lower x).1] at hu
    rw [← (hexVal_lower y).1] at hv
    obtain ⟨p, hp, -⟩ := Option.map_eq_some_iff.1 hu
    obtain ⟨q, hq, -⟩ := Option.map_eq_some_iff.1 hv
    exact ⟨UInt8.ofNat (16 * p + q) :: b, by simp [hexDecode, hp, hq, hb]⟩

/-- **C51** (hex, the other direction).  A text of even length made of hexadecimal digits comes back in lower case;
every other text is read as no bytes at all. -/
theorem C51_hex_text (s : List Char) :
    (∀ l, s.mapM Spec.lowerHex = some l → 2 ∣ s.length → toHex (ofHex s) = l) ∧
    (s.mapM Spec.lowerHex = none ∨ ¬ 2 ∣ s.length → ofHex s = []) := by
  constructor
  · intro l h h2
    obtain ⟨b, hb⟩ := hexDecode_total s l h (Nat.mod_eq_zero_of_dvd h2)
    have := hexDecode_inv s b hb
    rw [h] at this
    rw [ofHex, hb]; exact (Option.some.inj this).symm
  · intro h
    rw [ofHex]
    cases hd : hexDecode s with
    | none => rfl
    | some b =>
      exfalso
      have h1 := hexDecode_inv s b hd
      rcases h with h | h
      · rw [h1] at h; simp at h
      · apply h
        clear h h1
        induction s using hexDecode.induct generalizing b with
        | case1 => simp
        | case2 => simp [hexDecode] at hd
        | case3 a c r ih =>
          simp only [hexDecode, Option.bind_eq_bind, Option.bind_eq_some_iff] at hd
          obtain ⟨_, _, _, _, t, ht, _⟩ := hd
          have := ih t ht
          simp only [List.length_cons]; omega

/-- A toy codec. -/
def toyCodec : Codec where
  enc := toHex
  dec := hexDecode
  dec_enc := hexDecode_toHex

example : (encode toyDes toyCodec [1, 2, 3] >>= fun t => pure (decode toyDes toyCodec t)) = .ok [1, 2, 3] := by decide +kernel
example : ofHex "00fF7a".toList = [0, 255, 122] ∧ toHex [0, 255, 122] = "00ff7a".toList := by decide +kernel
example : "00fF7a".toList.mapM Spec.lowerHex = some "00ff7a".toList := by decide +kernel

/-! ## The caller's memory -/

/-- **C74** is false.  A slice of `len` bytes at `off` inside a larger array of the caller: padding writes into the
array behind the slice whenever there is room for the whole padding, for every content, offset and block size.  The
bytes in front of and inside the slice keep their values; exactly the `bs - len % bs` bytes behind it are replaced. -/
theorem C74_exact (s : Slice) (bs : Nat) (hbs : 0 < bs) (hs : s.off + s.len ≤ s.arr.length) (b : UInt8) :
    let n := bs - s.len % bs
    ∃ out, appendRepeat s b bs = .ok out ∧ out.val = s.val ++ List.replicate n b ∧
      (s.off + s.len + n ≤ s.arr.length →
        out.caller = s.arr.take (s.off + s.len) ++ List.replicate n b ++ s.arr.drop (s.off + s.len + n)) ∧
      (s.arr.length < s.off + s.len + n → out.caller = s.arr) := by
  have hm := missing_pos s.len hbs
  simp only [appendRepeat, padLen_pos _ hbs, repeatByte_nat, Res.bind_ok]
  rw [show bs - s.len % bs = Spec.missing s.len bs from rfl]
  generalize Spec.missing s.len bs = n at hm
  by_cases h : s.off + s.len + n ≤ s.arr.length
  · refine ⟨⟨Slice.val ⟨s.arr.take (s.off + s.len) ++ List.replicate n b ++ s.arr.drop (s.off + s.len + n), s.off,
      s.len + n⟩, s.arr.take (s.off + s.len) ++ List.replicate n b ++ s.arr.drop (s.off + s.len + n)⟩,
      by simp only [List.length_replicate, if_pos h, Res.pure_eq], ?_, fun _ => rfl, fun h' => by omega⟩
    simp only [Slice.val]
    have h1 : (s.arr.take (s.off + s.len)).length = s.off + s.len := by rw [List.length_take]; omega
    rw [List.append_assoc, List.drop_append_of_le_length (by omega), List.take_append,
      List.take_of_length_le (by rw [List.length_drop]; omega), List.length_drop, h1,
      show s.len + n - (s.off + s.len - s.off) = n by omega, List.take_left' (by simp), List.drop_take,
      show s.off + s.len - s.off = s.len by omega]
  · refine ⟨⟨s.val ++ List.replicate n b, s.arr⟩, by simp only [List.length_replicate, if_neg h, Res.pure_eq], ?_, fun h' => absurd h' h, fun _ => rfl⟩
    rfl

/-- **C74** is false: bytes of the caller behind the data are overwritten, for every padding byte. -/
theorem C74_false : ∃ s : Slice, s.off + s.len ≤ s.arr.length ∧
    ∀ b : UInt8, b ≠ 9 → ∃ out, appendRepeat s b 8 = .ok out ∧ out.caller ≠ s.arr := by
  refine ⟨⟨[1, 2, 3, 9, 9, 9, 9, 9, 9, 9], 0, 3⟩, by decide, fun b hb => ?_⟩
  obtain ⟨out, h1, -, h2, -⟩ := C74_exact ⟨[1, 2, 3, 9, 9, 9, 9, 9, 9, 9], 0, 3⟩ 8 (by decide) (by decide) b
  refine ⟨out, h1, ?_⟩
  rw [h2 (by decide)]
  intro e
  have := congrArg (fun l => l[3]?) e
  simp at this
  exact hb this

/-- **C74**, as far as it holds: when the data reaches to within less than the padding of the end of its array (in
particular when it is the whole array) the caller's memory keeps its content.  Missing: data with more room behind it,
see `C74_false`. -/
theorem C74_tight_partial (s : Slice) (bs : Nat) (hbs : 0 < bs) (hs : s.off + s.len ≤ s.arr.length)
    (ht : s.arr.length < s.off + s.len + (bs - s.len % bs)) (b : UInt8) :
    ∃ out, appendRepeat s b bs = .ok out ∧ out.caller = s.arr := by
  obtain ⟨out, h1, -, -, h2⟩ := C74_exact s bs hbs hs b
  exact ⟨out, h1, h2 ht⟩

example : ∃ out, appendRepeat ⟨[7, 1, 2, 3], 1, 3⟩ 0 8 = .ok out ∧ out.caller = [7, 1, 2, 3] :=
  C74_tight_partial ⟨[7, 1, 2, 3], 1, 3⟩ 8 (by decide) (by decide) (by decide) 0

/-! ## The theorems on the toy ciphers -/

example := C49_exact toyDes ⟨rfl, fun _ => rfl⟩ [1, 2, 0] [5, 6]
example := C49_roundtrip_partial toyDes ⟨rfl, fun _ => rfl⟩ [1, 2, 0, 3] [5, 6] (by decide)
example : tripleEncrypt toyDes [1] [5] = tripleEncrypt toyDes [1, 0] [5] := (C49_false toyDes ⟨rfl, fun _ => rfl⟩ [5]).2
example := C50_stream toyAes ⟨rfl, fun _ => rfl⟩ (List.replicate 24 3) (by decide) [[1, 2], [], List.replicate 40 7]
example := C51_exact toyDes ⟨rfl, fun _ => rfl⟩ toyCodec [1, 2, 0]
example := C51_roundtrip_partial toyDes ⟨rfl, fun _ => rfl⟩ toyCodec [0, 2, 1] (by decide)
example := C74_exact ⟨[7, 1, 2, 3, 9, 9], 1, 3⟩ 8 (by decide) (by decide) 0

example : tripleDecrypt toyDes [1, 2, 3] [5, 6] = none := (C49_reject toyDes ⟨rfl, fun _ => rfl⟩ [1, 2, 3] [5, 6]).2 (.inr (by decide))
example := C51_false toyDes ⟨rfl, fun _ => rfl⟩ toyCodec [1, 2, 0] rfl

end Verif.Crypto
