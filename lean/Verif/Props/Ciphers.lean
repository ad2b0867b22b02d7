import Verif.Lemmas.CipherBlocks
import Verif.Spec.Base64
/-!
# C146: encryption and text encoding with the ciphers as they are

C49, C50 and C51 hold for any block cipher and any text encoding that can be undone.  Here the ones of the Go library are written out
(Model/Des, Model/Aes, Model/Base64), proved to be such, and what the functions compute is stated without parameters.
-/
set_option linter.unusedSectionVars false

namespace Verif.Crypto
open Verif.Spec

/-! ## Triple DES -/

/-- C146: `TripleDesEncrypt` with DES as the standard defines it, for all data and keys: the data filled up with zero bytes to the next
multiple of 8, and every block of 8 bytes encrypted with the first third of the key, decrypted with the second and encrypted with the
third. -/
theorem C146_triple_des (data key : Bytes) :
    let p := data ++ List.replicate (8 - data.length % 8) 0
    let k := key.take 24 ++ List.replicate (24 - key.length) 0
    ∃ c, tripleEncrypt des data key = .ok (some c) ∧ c.length = p.length ∧
      ∀ i, 8 * i < p.length →
        (c.drop (8 * i)).take 8 = desEnc (k.drop 16) (desDec ((k.drop 8).take 8) (desEnc (k.take 8) ((p.drop (8 * i)).take 8))) := by
  simp only
  have hpl : (data ++ List.replicate (8 - data.length % 8) 0).length = (data.length / 8 + 1) * 8 := by
    rw [List.length_append, List.length_replicate]; omega
  have hf : ∀ b : Bytes, b.length = 8 → (des.enc ((tkey key).drop 16) (des.dec (((tkey key).take 16).drop 8) (des.enc ((tkey key).take 8) b))).length = 8 :=
    fun b _ => desBlock_length _ _
  refine ⟨_, triple_eq des ⟨rfl, fun _ => rfl⟩ data key, ?_, fun i hi => ?_⟩
  · rw [blocks_length _ 8 hf _ _ (by decide) hpl, hpl]
  · have := blockAt_blocks _ (by decide) hf _ _ hpl i (by omega)
    simp only [blockAt, Nat.mul_comm i 8] at this
    rw [this, List.drop_take]
    rfl

/-- C146: and data that does not end in a zero byte comes back; the rest as in C49. -/
theorem C146_triple_des_back (data key : Bytes) :
    ∃ c, tripleEncrypt des data key = .ok (some c) ∧ tripleDecrypt des c key = some (Spec.trimZeros data) := by
  obtain ⟨c, h1, -, h2⟩ := C49_exact des ⟨rfl, fun _ => rfl⟩ data key
  exact ⟨c, h1, h2⟩

/-! ## AES -/

/-- C146: the messages of a stream encrypted with AES as the standard defines it come back, for every key of 16, 24 or 32 bytes. -/
theorem C146_aes_stream (key : Bytes) (hk : key.length = 16 ∨ key.length = 24 ∨ key.length = 32) (msgs : List Bytes) :
    ∃ m m' cs, newMode aes key = .ok (some m) ∧ encryptAll aes m msgs = .ok (m', cs) ∧ decryptAll aes m cs = .ok (m', msgs) := by
  obtain ⟨m, m', cs, h1, h2, -, h3⟩ := C50_stream aes ⟨rfl, fun _ => rfl⟩ key hk msgs
  exact ⟨m, m', cs, h1, h2, h3⟩

/-- C146: the first message of a stream: the message filled up to the next multiple of 16 with bytes that give the number of bytes added;
each block is combined with the block of the ciphertext before it, the first one with the first 16 bytes of the key. -/
theorem C146_aes_blocks (key b : Bytes) (hk : key.length = 16 ∨ key.length = 24 ∨ key.length = 32) :
    let n := 16 - b.length % 16
    let p := b ++ List.replicate n (UInt8.ofNat n)
    ∃ m m' c, newMode aes key = .ok (some m) ∧ aesEncrypt aes m b = .ok (m', c) ∧ c.length = p.length ∧
      ∀ i, 16 * i < p.length →
        (c.drop (16 * i)).take 16 =
          aesEnc key (xor ((p.drop (16 * i)).take 16) (if i = 0 then key.take 16 else (c.drop (16 * (i - 1))).take 16)) := by
  simp only
  obtain ⟨e, -, hkk⟩ := C48_padded b (16 : Nat)
  obtain ⟨hp, -, -, -⟩ := hkk 16 rfl (by decide)
  set p := b ++ List.replicate (16 - b.length % 16) (UInt8.ofNat (16 - b.length % 16)) with hpd
  have hpl : p.length = (b.length / 16 + 1) * 16 := by
    rw [hpd, List.length_append, List.length_replicate]; omega
  have hm : newMode aes key = .ok (some ⟨key, key.take 16⟩) := by
    rw [newMode, if_neg (by simp [aes]; omega), if_neg (by simp [aes]; omega)]
    rfl
  have hi : (key.take 16).length = 16 := by rw [List.length_take]; omega
  have ind : ∀ iv : Bytes, iv.length = 16 → ((cbcEnc aes key iv p).1.length = p.length) ∧ ∀ i, 16 * i < p.length →
      blockAt 16 (cbcEnc aes key iv p).1 i =
        aesEnc key (xor (blockAt 16 p i) (if i = 0 then iv else blockAt 16 (cbcEnc aes key iv p).1 (i - 1))) := by
    refine blocks_ind (bs := 16) (P := fun p => ∀ iv : Bytes, iv.length = 16 → ((cbcEnc aes key iv p).1.length = p.length) ∧ ∀ i, 16 * i < p.length →
      blockAt 16 (cbcEnc aes key iv p).1 i =
        aesEnc key (xor (blockAt 16 p i) (if i = 0 then iv else blockAt 16 (cbcEnc aes key iv p).1 (i - 1)))) ?_ ?_ _ p hpl
    · intro iv _
      rw [cbcEnc_nil]
      exact ⟨rfl, fun i h => by simp at h⟩
    · intro x l hx ih iv hv
      have e1 : (aes.enc key (xor x iv)).length = 16 := aes.enc_len key _ (xor_length hx hv)
      obtain ⟨i1, i2⟩ := ih _ e1
      rw [cbcEnc_cons aes (by decide) key iv hx]
      refine ⟨by simp only [List.length_append, i1, e1, hx], fun i h => ?_⟩
      simp only []
      cases i with
      | zero => rw [blockAt_zero e1, blockAt_zero hx, if_pos rfl]; rfl
      | succ i =>
        rw [blockAt_succ e1, blockAt_succ hx, if_neg (Nat.succ_ne_zero i), Nat.add_sub_cancel,
          i2 i (by rw [List.length_append, hx] at h; omega)]
        cases i with
        | zero => rw [if_pos rfl, blockAt_zero e1]
        | succ i => rw [if_neg (Nat.succ_ne_zero i), blockAt_succ e1, Nat.add_sub_cancel]
  obtain ⟨h1, h2⟩ := ind (key.take 16) hi
  refine ⟨_, ⟨key, (cbcEnc aes key (key.take 16) p).2⟩, (cbcEnc aes key (key.take 16) p).1, hm, ?_, h1, fun i h => ?_⟩
  · rw [aesEncrypt, show ((aes.bs : Nat) : Int) = ((16 : Nat) : Int) from rfl, e, hp]
    simp only [Res.bind_ok]
    rw [if_neg (by rw [hpl]; simp [aes])]
  · have := h2 i h
    simp only [blockAt, Nat.mul_comm _ 16] at this
    exact this

/-! ## Base64 and the text encoding -/

theorem natBits_add (u v n : Nat) : natBits (u + v) n = natBits u (n / 2 ^ v) ++ natBits v (n % 2 ^ v) := by
  induction v generalizing n with
  | zero => simp [natBits]
  | succ v ih =>
    rw [← Nat.add_assoc, natBits, ih, natBits, Nat.div_div_eq_div_mul, ← Nat.pow_succ', List.append_assoc]
    congr 2
    · congr 1
      rw [Nat.pow_succ', Nat.mod_mul_right_div_self]
    · rw [Nat.pow_succ', Nat.mod_mul_right_mod]

theorem byte_natBits (x : UInt8) : natBits 8 x.toNat = byteBits x :=
  byte_ind (P := fun x => natBits 8 x.toNat = byteBits x) (by decide +kernel) x

theorem b64Char_alphabet : ∀ n : Fin 64, b64Char n.1 = base64Alphabet.getD n.1 '=' := by decide +kernel

theorem isBase64_three (a b c : UInt8) (r : Bytes) (s : List Char) (h : IsBase64 r s) :
    let n := a.toNat * 65536 + b.toNat * 256 + c.toNat
    IsBase64 (a :: b :: c :: r) (b64Char (n / 262144) :: b64Char (n / 4096 % 64) :: b64Char (n / 64 % 64) :: b64Char (n % 64) :: s) := by
  intro n
  obtain ⟨vs, z, e, h1, h2, h3, h4, h5, h6⟩ := h
  have ha := a.toNat_lt; have hb := b.toNat_lt; have hc := c.toNat_lt
  have l1 : n / 262144 < 64 := by omega
  have l2 : n / 4096 % 64 < 64 := by omega
  have l3 : n / 64 % 64 < 64 := by omega
  have l4 : n % 64 < 64 := by omega
  refine ⟨n / 262144 :: n / 4096 % 64 :: n / 64 % 64 :: n % 64 :: vs, z, e, ?_, h2, h3, ?_, ?_, ?_⟩
  · intro v hv
    simp only [List.mem_cons] at hv
    rcases hv with rfl | rfl | rfl | rfl | hv
    · exact l1
    · exact l2
    · exact l3
    · exact l4
    · exact h1 v hv
  · have e1 : natBits 24 n = natBits 6 (n / 262144) ++ (natBits 6 (n / 4096 % 64) ++ (natBits 6 (n / 64 % 64) ++ natBits 6 (n % 64))) := by
      rw [natBits_add 6 18, natBits_add 6 12, natBits_add 6 6, show n / 2 ^ 18 = n / 262144 by omega,
        show n % 2 ^ 18 / 2 ^ 12 = n / 4096 % 64 by omega, show n % 2 ^ 18 % 2 ^ 12 / 2 ^ 6 = n / 64 % 64 by omega,
        show n % 2 ^ 18 % 2 ^ 12 % 2 ^ 6 = n % 64 by omega]
    have e2 : natBits 24 n = natBits 8 a.toNat ++ (natBits 8 b.toNat ++ natBits 8 c.toNat) := by
      rw [natBits_add 8 16, natBits_add 8 8, show n / 2 ^ 16 = a.toNat by omega, show n % 2 ^ 16 / 2 ^ 8 = b.toNat by omega,
        show n % 2 ^ 16 % 2 ^ 8 = c.toNat by omega]
    simp only [List.flatMap_cons, h4]
    rw [show ∀ w x y z t : List Bool, w ++ (x ++ (y ++ (z ++ t))) = (w ++ (x ++ (y ++ z))) ++ t by intros; simp only [List.append_assoc], ← e1, e2]
    simp only [List.append_assoc]
  · simp only [List.map_cons, List.cons_append, h5, b64Char_alphabet ⟨_, l1⟩, b64Char_alphabet ⟨_, l2⟩, b64Char_alphabet ⟨_, l3⟩,
      b64Char_alphabet ⟨_, l4⟩]
  · simp only [List.length_cons]; omega

/-- C146: the texts that `Encode` makes are base64 as the standard defines it, for all byte strings. -/
theorem C146_base64 (b : Bytes) : IsBase64 b (b64Enc b) := by
  fun_induction b64Enc b with
  | case1 a b c r n ih => exact isBase64_three a b c r _ ih
  | case2 a b n =>
    have ha := a.toNat_lt; have hb := b.toNat_lt
    have l1 : n / 4096 < 64 := by omega
    have l2 : n / 64 % 64 < 64 := by omega
    have l3 : n % 64 < 64 := by omega
    refine ⟨[n / 4096, n / 64 % 64, n % 64], 2, 1, ?_, by decide, by decide, ?_, ?_, ⟨1, rfl⟩⟩
    · intro v hv
      simp only [List.mem_cons, List.not_mem_nil, or_false] at hv
      rcases hv with rfl | rfl | rfl <;> assumption
    · have e1 : natBits 18 n = natBits 6 (n / 4096) ++ (natBits 6 (n / 64 % 64) ++ natBits 6 (n % 64)) := by
        rw [natBits_add 6 12, natBits_add 6 6, show n / 2 ^ 12 = n / 4096 by omega, show n % 2 ^ 12 / 2 ^ 6 = n / 64 % 64 by omega,
          show n % 2 ^ 12 % 2 ^ 6 = n % 64 by omega]
      have e2 : natBits 18 n = natBits 8 a.toNat ++ (natBits 8 b.toNat ++ [false, false]) := by
        rw [natBits_add 8 10, natBits_add 8 2, show n / 2 ^ 10 = a.toNat by omega, show n % 2 ^ 10 / 2 ^ 2 = b.toNat by omega,
          show n % 2 ^ 10 % 2 ^ 2 = 0 by omega, show natBits 2 0 = [false, false] from rfl]
      simp only [List.flatMap_cons, List.flatMap_nil, List.append_nil]
      rw [← e1, e2, List.append_assoc]; rfl
    · simp only [List.map_cons, List.map_nil, b64Char_alphabet ⟨_, l1⟩, b64Char_alphabet ⟨_, l2⟩, b64Char_alphabet ⟨_, l3⟩]; rfl
  | case3 a n =>
    have ha := a.toNat_lt
    have l1 : n / 64 < 64 := by omega
    have l2 : n % 64 < 64 := by omega
    refine ⟨[n / 64, n % 64], 4, 2, ?_, by decide, by decide, ?_, ?_, ⟨1, rfl⟩⟩
    · intro v hv
      simp only [List.mem_cons, List.not_mem_nil, or_false] at hv
      rcases hv with rfl | rfl <;> assumption
    · have e1 : natBits 12 n = natBits 6 (n / 64) ++ natBits 6 (n % 64) := by
        rw [natBits_add 6 6, show n / 2 ^ 6 = n / 64 by omega, show n % 2 ^ 6 = n % 64 by omega]
      have e2 : natBits 12 n = natBits 8 a.toNat ++ [false, false, false, false] := by
        rw [natBits_add 8 4, show n / 2 ^ 4 = a.toNat by omega, show n % 2 ^ 4 = 0 by omega,
          show natBits 4 0 = [false, false, false, false] from rfl]
      simp only [List.flatMap_cons, List.flatMap_nil, List.append_nil]
      rw [← e1, e2]; rfl
    · simp only [List.map_cons, List.map_nil, b64Char_alphabet ⟨_, l1⟩, b64Char_alphabet ⟨_, l2⟩]; rfl
  | case4 => exact ⟨[], 0, 0, by simp, by decide, by decide, rfl, rfl, ⟨0, rfl⟩⟩

/-- C146: `Encode` and `Decode` with DES and base64 as the standards define them: the text of a byte string, the base64 text of its
ciphertext, decodes to the byte string without its zero bytes at the end. -/
theorem C146_text (s : Bytes) : ∃ c t, tripleEncrypt des s codeKey = .ok (some c) ∧ encode des base64 s = .ok t ∧ IsBase64 c t ∧
    decode des base64 t = Spec.trimZeros s := by
  obtain ⟨c, h1, h2⟩ := C146_triple_des_back s codeKey
  refine ⟨c, b64Enc c, h1, ?_, C146_base64 c, ?_⟩
  · simp [encode, h1, Res.bind_ok, Res.pure_eq, base64]
  · rw [decode, show base64.dec (b64Enc c) = some c from base64.dec_enc c]
    simp only [h2]

/-- C146: line breaks that were inserted anywhere into a text do not matter to `Decode`. -/
theorem C146_line_breaks (s t : List Char) (h : s.filter (fun c => c ≠ '\n' ∧ c ≠ '\r') = t.filter (fun c => c ≠ '\n' ∧ c ≠ '\r')) :
    decode des base64 s = decode des base64 t := by
  simp only [decode, base64, b64Dec, h]

/-- C146: the characters that have a value are those of the table, and their values are their places in it. -/
theorem C146_base64_values (c : Char) (v : Nat) :
    b64Val c = some v ↔ base64Alphabet[v]? = some c := by
  have table : ∀ w : Fin 64, b64Val (base64Alphabet[w.1]'(by
      exact w.2)) = some w.1 := by decide +kernel
  have low : ∀ n : Fin 128, ∀ w, b64Val (Char.ofNat n.1) = some w →
      base64Alphabet[w]? = some (Char.ofNat n.1) := by
    have : ∀ n : Fin 128, (b64Val (Char.ofNat n.1)).all (fun w =>
      base64Alphabet[w]? == some (Char.ofNat n.1)) = true := by decide +kernel
    intro n w h
    have := this n
    rw [h] at this
    simpa using this
  constructor
  · intro h
    have hc : c.toNat < 128 := by
      unfold b64Val at h
      by_contra hc
      simp only at h
      rw [if_neg (by omega), if_neg (by omega), if_neg (by omega), if_neg (by omega), if_neg (by omega)] at h
      simp at h
    have := low ⟨c.toNat, hc⟩ v
    rw [show Char.ofNat c.toNat = c from Char.ofNat_toNat c] at this
    exact this h
  · intro h
    obtain ⟨hv, rfl⟩ := List.getElem?_eq_some_iff.1 h
    exact table ⟨v, hv⟩

theorem b64Groups_chars (s : List Char) : ∀ b, b64Groups s = some b → s.length % 4 = 0 ∧
    (∀ c ∈ s, (b64Val c).isSome ∨ c = '=') ∧ ∃ v p, s = v ++ List.replicate p '=' ∧ p ≤ 2 ∧ '=' ∉ v ∧ b.length + p = s.length / 4 * 3 := by
  have heq : b64Val '=' = none := by decide +kernel
  fun_induction b64Groups s with
  | case1 => intro b h; simp only [Option.some.injEq] at h; subst h; exact ⟨rfl, by simp, [], 0, by simp⟩
  | case2 a b c d r ih =>
    intro bs h
    cases hx : b64Val a with
    | none => simp [hx] at h
    | some x =>
    cases hy : b64Val b with
    | none => simp [hx, hy] at h
    | some y =>
    have na : a ≠ '=' := by rintro rfl; simp [heq] at hx
    have nb : b ≠ '=' := by rintro rfl; simp [heq] at hy
    by_cases hc : c = '='
    · simp only [hx, hy, hc, Option.bind_eq_bind, Option.bind_some, if_true] at h
      split at h
      next hd =>
        obtain ⟨rfl, rfl⟩ := hd
        simp only [Option.some.injEq] at h
        subst h hc
        refine ⟨by simp, by simp [hx, hy], [a, b], 2, rfl, by omega, ?_, by simp⟩
        simp [Ne.symm na, Ne.symm nb]
      next => simp at h
    · cases hz : b64Val c with
      | none => simp [hx, hy, hz, hc] at h
      | some z =>
      by_cases hd : d = '='
      · simp only [hx, hy, hz, hc, hd, Option.bind_eq_bind, Option.bind_some, if_true, if_false] at h
        split at h
        next hr =>
          subst hr hd
          simp only [Option.some.injEq] at h
          subst h
          refine ⟨by simp, by simp [hx, hy, hz], [a, b, c], 1, rfl, by omega, ?_, by simp⟩
          simp [Ne.symm na, Ne.symm nb, Ne.symm hc]
        next => simp at h
      · cases hw : b64Val d with
        | none => simp [hx, hy, hz, hw, hc, hd] at h
        | some w =>
        cases hr : b64Groups r with
        | none => simp [hx, hy, hz, hw, hc, hd, hr] at h
        | some rest =>
        simp [hx, hy, hz, hw, hc, hd, hr] at h
        subst h
        obtain ⟨i1, i2, v, p, rfl, hp, hv, hl⟩ := ih rest hr
        refine ⟨by simp only [List.length_cons] at *; omega, ?_, a :: b :: c :: d :: v, p, rfl, hp, ?_, ?_⟩
        · intro e he
          simp only [List.mem_cons] at he
          rcases he with rfl | rfl | rfl | rfl | he
          · simp [hx]
          · simp [hy]
          · simp [hz]
          · simp [hw]
          · exact i2 e he
        · simp [Ne.symm na, Ne.symm nb, Ne.symm hc, Ne.symm hd, hv]
        · simp only [List.length_cons] at *; omega
  | case3 => intro b h; simp at h

/-- C146: which texts can be decoded: apart from line breaks, groups of four characters of the table, where the last one or two characters may be
`=` instead; any other text makes `Decode` return the empty string. -/
theorem C146_base64_accepted (s : List Char) (b : Bytes) (h : base64.dec s = some b) : ∃ v p,
    s.filter (fun c => c ≠ '\n' ∧ c ≠ '\r') = v ++ List.replicate p '=' ∧ p ≤ 2 ∧ (v.length + p) % 4 = 0 ∧
    (∀ c ∈ v, c ∈ base64Alphabet) ∧
    b.length + p = (v.length + p) / 4 * 3 := by
  obtain ⟨h1, h2, v, p, e, hp, hv, hl⟩ := b64Groups_chars _ b h
  have hlen := congrArg List.length e
  rw [List.length_append, List.length_replicate] at hlen
  refine ⟨v, p, e, hp, by omega, fun c hc => ?_, by rw [← hlen]; exact hl⟩
  rcases h2 c (by rw [e]; exact List.mem_append_left _ hc) with hs | rfl
  · obtain ⟨w, hw⟩ := Option.isSome_iff_exists.1 hs
    exact List.mem_of_getElem? ((C146_base64_values c w).1 hw)
  · exact absurd hc hv

/-! ## Concrete cases -/

/-- C146_base64_accepted: a text that can be decoded, and some that cannot. -/
example : base64.dec "Zm9v\nYg==".toList = some [102, 111, 111, 98] := by decide +kernel
example : base64.dec "Zm9vYg=".toList = none ∧ base64.dec "Zm9[".toList = none ∧ base64.dec "Zg==Zm9v".toList = none := by decide +kernel

/-- DES: a published test vector. -/
example : desEnc [0x13, 0x34, 0x57, 0x79, 0x9B, 0xBC, 0xDF, 0xF1] [0x01, 0x23, 0x45, 0x67, 0x89, 0xAB, 0xCD, 0xEF] =
    [0x85, 0xE8, 0x13, 0x54, 0x0F, 0x0A, 0xB4, 0x05] := by decide +kernel

/-- AES: the test vector of FIPS 197, appendix C.1. -/
example : aesEnc [0, 1, 2, 3, 4, 5, 6, 7, 8, 9, 10, 11, 12, 13, 14, 15]
    [0x00, 0x11, 0x22, 0x33, 0x44, 0x55, 0x66, 0x77, 0x88, 0x99, 0xaa, 0xbb, 0xcc, 0xdd, 0xee, 0xff] =
    [0x69, 0xc4, 0xe0, 0xd8, 0x6a, 0x7b, 0x04, 0x30, 0xd8, 0xcd, 0xb7, 0x80, 0x70, 0xb4, 0xc5, 0x5a] := by decide +kernel

/-- AES: the test vector of FIPS 197, appendix C.3. -/
example : aesEnc ((List.range 32).map UInt8.ofNat)
    [0x00, 0x11, 0x22, 0x33, 0x44, 0x55, 0x66, 0x77, 0x88, 0x99, 0xaa, 0xbb, 0xcc, 0xdd, 0xee, 0xff] =
    [0x8e, 0xa2, 0xb7, 0xca, 0x51, 0x67, 0x45, 0xbf, 0xea, 0xfc, 0x49, 0x90, 0x4b, 0x49, 0x60, 0x89] := by decide +kernel

/-- Base64: "foob" and "fooba" of RFC 4648, section 10. -/
example : b64Enc [102, 111, 111, 98] = "Zm9vYg==".toList ∧ b64Enc [102, 111, 111, 98, 97] = "Zm9vYmE=".toList ∧
    b64Dec "Zm9v\nYmE=\n".toList = some [102, 111, 111, 98, 97] ∧ b64Dec "Zm9vYm=E".toList = none := by decide +kernel

/-- C146_aes_stream, C146_aes_blocks: a key of 24 bytes. -/
example : (List.replicate 24 (7 : UInt8)).length = 24 := rfl

/-- C146_line_breaks: a text and the same text on two lines. -/
example : "Zm9vYmE=".toList.filter (fun c => c ≠ '\n' ∧ c ≠ '\r') = "Zm9v\r\nYmE=\n".toList.filter (fun c => c ≠ '\n' ∧ c ≠ '\r') := by
  decide +kernel

end Verif.Crypto
