import Verif.Model.Des
import Verif.Model.Aes
import Verif.Model.Base64
import Verif.Props.Crypto
import Mathlib.Tactic.IntervalCases
/-!
# Encryption and decryption with DES, AES and base64 are inverse
-/
set_option linter.unusedSectionVars false

namespace Verif.Crypto

/-! ## Bits -/

theorem byteBits_length (x : UInt8) : (byteBits x).length = 8 := rfl

theorem toBits_length (b : Bytes) : (toBits b).length = 8 * b.length := by
  induction b with
  | nil => rfl
  | cons x b ih => simp only [toBits, List.flatMap_cons, List.length_append, byteBits_length, List.length_cons] at ih ⊢; omega

theorem ofBits_byte : ∀ n : Fin 256, ofBits (byteBits (UInt8.ofNat n.1)) = [UInt8.ofNat n.1] := by decide +kernel

theorem byte_ind {P : UInt8 → Prop} (h : ∀ n : Fin 256, P (UInt8.ofNat n.1)) (x : UInt8) : P x := by
  have := h ⟨x.toNat, x.toNat_lt⟩
  simpa using this

theorem ofBits_append (x : UInt8) (l : List Bool) : ofBits (byteBits x ++ l) = x :: ofBits l := by
  have h : ofBits (byteBits x) = [x] := byte_ind (P := fun x => ofBits (byteBits x) = [x]) ofBits_byte x
  simp only [byteBits, List.map_cons, List.map_nil, List.cons_append, List.nil_append, ofBits, List.cons.injEq, and_true] at h ⊢
  exact h

theorem ofBits_toBits (b : Bytes) : ofBits (toBits b) = b := by
  induction b with
  | nil => rfl
  | cons x b ih =>
    simp only [toBits, List.flatMap_cons] at ih ⊢
    rw [ofBits_append, ih]

theorem byteBits_bits : ∀ a b c d e f g h : Bool,
    byteBits (UInt8.ofNat (bitsNat [a, b, c, d, e, f, g, h])) = [a, b, c, d, e, f, g, h] := by decide +kernel

theorem toBits_ofBits : ∀ (n : Nat) (l : List Bool), l.length = 8 * n → toBits (ofBits l) = l ∧ (ofBits l).length = n := by
  intro n
  induction n with
  | zero =>
    intro l h
    have : l = [] := List.length_eq_zero_iff.1 (by omega)
    subst this
    exact ⟨rfl, rfl⟩
  | succ n ih =>
    intro l hl
    match l, hl with
    | a :: b :: c :: d :: e :: f :: g :: h :: r, hl =>
      have hr : r.length = 8 * n := by simp only [List.length_cons] at hl; omega
      obtain ⟨i1, i2⟩ := ih r hr
      refine ⟨?_, by simp only [ofBits, List.length_cons, i2]⟩
      simp only [ofBits, toBits, List.flatMap_cons, byteBits_bits] at i1 ⊢
      rw [i1]; rfl

/-! ## Feistel networks -/

theorem permute_length (t : List Nat) (b : List Bool) : (permute t b).length = t.length := by simp [permute]

theorem xorBits_length {a b : List Bool} {n : Nat} (h1 : a.length = n) (h2 : b.length = n) : (xorBits a b).length = n := by
  simp [xorBits, h1, h2]

theorem xorBits_cancel : ∀ (a b : List Bool), a.length = b.length → xorBits (xorBits a b) b = a := by
  intro a
  induction a with
  | nil => intro b _; simp [xorBits]
  | cons x a ih =>
    intro b h
    cases b with
    | nil => simp at h
    | cons y b =>
      have := ih b (by simpa using h)
      simp only [xorBits, List.zipWith_cons_cons, List.cons.injEq] at this ⊢
      exact ⟨by cases x <;> cases y <;> rfl, this⟩

theorem feistel_length (r k : List Bool) : (feistel r k).length = 32 := by
  simp only [feistel, permute_length]; rfl

theorem rounds_length (ks : List (List Bool)) : ∀ l r : List Bool, l.length = 32 → r.length = 32 →
    (rounds ks (l, r)).1.length = 32 ∧ (rounds ks (l, r)).2.length = 32 := by
  induction ks with
  | nil => intro l r hl hr; exact ⟨hl, hr⟩
  | cons k ks ih =>
    intro l r hl hr
    exact ih r _ hr (xorBits_length hl (feistel_length _ _))

theorem rounds_append (ks ks' : List (List Bool)) (p : List Bool × List Bool) : rounds (ks ++ ks') p = rounds ks' (rounds ks p) := by
  simp [rounds, List.foldl_append]

/-- With the halves exchanged, the same rounds with the keys in the opposite order lead back. -/
theorem rounds_inverse (ks : List (List Bool)) : ∀ l r : List Bool, l.length = 32 → r.length = 32 →
    rounds ks.reverse ((rounds ks (l, r)).2, (rounds ks (l, r)).1) = (r, l) := by
  induction ks with
  | nil => intro l r _ _; rfl
  | cons k ks ih =>
    intro l r hl hr
    have h1 : rounds (k :: ks) (l, r) = rounds ks (r, xorBits l (feistel r k)) := rfl
    rw [h1, List.reverse_cons, rounds_append, ih _ _ hr (xorBits_length hl (feistel_length _ _))]
    simp only [rounds, List.foldl_cons, List.foldl_nil]
    rw [xorBits_cancel _ _ (by rw [hl, feistel_length])]

theorem permute_inverse (t u : List Nat) (n : Nat) (hn : t.length = n) (hu : ∀ i ∈ u, 1 ≤ i ∧ i ≤ n)
    (h : u.map (fun i => t.getD (i - 1) 0) = (List.range n).map (· + 1)) (b : List Bool) (hb : b.length = n) :
    permute u (permute t b) = b := by
  have h2 : ∀ i ∈ u, (permute t b).getD (i - 1) false = b.getD (t.getD (i - 1) 0 - 1) false := by
    intro i hi
    have := hu i hi
    simp only [permute, List.getD_eq_getElem?_getD, List.getElem?_map]
    rw [List.getElem?_eq_getElem (by omega)]
    rfl
  have h3 : permute u (permute t b) = (u.map (fun i => t.getD (i - 1) 0)).map fun j => b.getD (j - 1) false := by
    rw [List.map_map]
    exact List.map_congr_left h2
  rw [h3, h, List.map_map]
  apply List.ext_getElem?
  intro i
  by_cases hi : i < n
  · simp [hi, List.getElem?_eq_getElem (hb ▸ hi)]
  · rw [List.getElem?_eq_none (by simp; omega), List.getElem?_eq_none (by omega)]

theorem fp_ip (b : List Bool) (hb : b.length = 64) : permute tableFP (permute tableIP b) = b :=
  permute_inverse tableIP tableFP 64 rfl (by decide +kernel) (by decide +kernel) b hb

theorem ip_fp (b : List Bool) (hb : b.length = 64) : permute tableIP (permute tableFP b) = b :=
  permute_inverse tableFP tableIP 64 rfl (by decide +kernel) (by decide +kernel) b hb

theorem desBlock_length (ks : List (List Bool)) (b : Bytes) : (desBlock ks b).length = 8 :=
  (toBits_ofBits 8 _ (by rw [permute_length]; rfl)).2

theorem desBlock_inverse (ks : List (List Bool)) (b : Bytes) (hb : b.length = 8) : desBlock ks.reverse (desBlock ks b) = b := by
  have hx : (permute tableIP (toBits b)).length = 64 := by rw [permute_length]; rfl
  unfold desBlock
  simp only []
  rw [(toBits_ofBits 8 _ (by rw [permute_length]; rfl)).1]
  obtain ⟨l1, l2⟩ := rounds_length ks ((permute tableIP (toBits b)).take 32) ((permute tableIP (toBits b)).drop 32)
    (by rw [List.length_take]; omega) (by rw [List.length_drop]; omega)
  have hi := rounds_inverse ks ((permute tableIP (toBits b)).take 32) ((permute tableIP (toBits b)).drop 32)
    (by rw [List.length_take]; omega) (by rw [List.length_drop]; omega)
  rw [ip_fp _ (by rw [List.length_append]; omega), List.take_left' l2, List.drop_left' l2, hi]
  simp only []
  rw [List.take_append_drop, fp_ip _ (by rw [toBits_length]; omega), ofBits_toBits]

/-- DES. -/
def des : Cipher where
  keyOk n := decide (n = 8)
  bs := 8
  enc := desEnc
  dec := desDec
  enc_len _ _ _ := desBlock_length _ _
  dec_len _ _ _ := desBlock_length _ _
  dec_enc k b hb := desBlock_inverse _ b hb
  enc_dec k b hb := by
    have := desBlock_inverse (roundKeys k).reverse b hb
    rw [List.reverse_reverse] at this
    exact this

/-! ## AES -/

theorem sub_inverse : (∀ n : Fin 256, invSubByte (subByte (UInt8.ofNat n.1)) = UInt8.ofNat n.1) ∧
    ∀ n : Fin 256, subByte (invSubByte (UInt8.ofNat n.1)) = UInt8.ofNat n.1 := by decide +kernel

theorem invSub_sub (b : Bytes) : (b.map subByte).map invSubByte = b := by
  rw [List.map_map]
  conv_rhs => rw [← List.map_id b]
  exact List.map_congr_left fun x _ => byte_ind (P := fun x => invSubByte (subByte x) = x) sub_inverse.1 x

theorem sub_invSub (b : Bytes) : (b.map invSubByte).map subByte = b := by
  rw [List.map_map]
  conv_rhs => rw [← List.map_id b]
  exact List.map_congr_left fun x _ => byte_ind (P := fun x => subByte (invSubByte x) = x) sub_inverse.2 x

theorem pick_length (t : List Nat) (b : Bytes) : (pick t b).length = t.length := by simp [pick]

theorem pick_inverse (t u : List Nat) (n : Nat) (hn : t.length = n) (hu : ∀ i ∈ u, i < n)
    (h : u.map (fun i => t.getD i 0) = List.range n) (b : Bytes) (hb : b.length = n) : pick u (pick t b) = b := by
  have h2 : ∀ i ∈ u, (pick t b).getD i 0 = b.getD (t.getD i 0) 0 := by
    intro i hi
    have := hu i hi
    simp only [pick, List.getD_eq_getElem?_getD, List.getElem?_map]
    rw [List.getElem?_eq_getElem (by omega)]
    rfl
  have h3 : pick u (pick t b) = (u.map (fun i => t.getD i 0)).map fun j => b.getD j 0 := by
    rw [List.map_map]
    exact List.map_congr_left h2
  rw [h3, h]
  apply List.ext_getElem?
  intro i
  by_cases hi : i < n
  · simp [hi, List.getElem?_eq_getElem (hb ▸ hi)]
  · rw [List.getElem?_eq_none (by simp; omega), List.getElem?_eq_none (by omega)]

theorem unshift_shift (b : Bytes) (hb : b.length = 16) : pick unshiftTable (pick shiftTable b) = b :=
  pick_inverse shiftTable unshiftTable 16 rfl (by decide) (by decide) b hb

theorem shift_unshift (b : Bytes) (hb : b.length = 16) : pick shiftTable (pick unshiftTable b) = b :=
  pick_inverse unshiftTable shiftTable 16 rfl (by decide) (by decide) b hb

theorem xtime_nat : ∀ n : Fin 256, (xtime (UInt8.ofNat n.1)).toNat = (n.1 <<< 1) ^^^ (if n.1.testBit 7 then 283 else 0) := by
  decide +kernel

theorem xtime_toNat (a : UInt8) : (xtime a).toNat = (a.toNat <<< 1) ^^^ (if a.toNat.testBit 7 then 283 else 0) := by
  have := xtime_nat ⟨a.toNat, a.toNat_lt⟩
  simpa using this

theorem xtime_xor (a b : UInt8) : xtime (a ^^^ b) = xtime a ^^^ xtime b := by
  apply UInt8.toNat.inj
  rw [UInt8.toNat_xor, xtime_toNat, xtime_toNat, xtime_toNat, UInt8.toNat_xor, Nat.shiftLeft_xor_distrib, Nat.testBit_xor]
  generalize a.toNat <<< 1 = x
  generalize b.toNat <<< 1 = y
  have lc : ∀ p q r : Nat, p ^^^ (q ^^^ r) = q ^^^ (p ^^^ r) := fun p q r => by rw [← Nat.xor_assoc, Nat.xor_comm p q, Nat.xor_assoc]
  cases a.toNat.testBit 7 <;> cases b.toNat.testBit 7 <;> simp [Nat.xor_assoc, Nat.xor_comm, lc]

theorem xor_lc (p q r : UInt8) : p ^^^ (q ^^^ r) = q ^^^ (p ^^^ r) := by rw [← UInt8.xor_assoc, UInt8.xor_comm p q, UInt8.xor_assoc]

theorem xor_cc (p q : UInt8) : p ^^^ (p ^^^ q) = q := by rw [← UInt8.xor_assoc, UInt8.xor_self, UInt8.zero_xor]

instance : Std.Associative (α := UInt8) (· ^^^ ·) := ⟨UInt8.xor_assoc⟩
instance : Std.Commutative (α := UInt8) (· ^^^ ·) := ⟨UInt8.xor_comm⟩

/-- A function on bytes that respects exclusive or. -/
def Additive (f : UInt8 → UInt8) : Prop := ∀ a b, f (a ^^^ b) = f a ^^^ f b

theorem add_xtime : Additive xtime := xtime_xor
theorem add_id : Additive fun x => x := fun _ _ => rfl
theorem add_3 : Additive fun x => xtime x ^^^ x := by intro a b; simp only [xtime_xor]; ac_rfl
theorem add_9 : Additive mul9 := by intro a b; simp only [mul9, xtime_xor]; ac_rfl
theorem add_11 : Additive mul11 := by intro a b; simp only [mul11, xtime_xor]; ac_rfl
theorem add_13 : Additive mul13 := by intro a b; simp only [mul13, xtime_xor]; ac_rfl
theorem add_14 : Additive mul14 := by intro a b; simp only [mul14, xtime_xor]; ac_rfl

theorem row {f g h k : UInt8 → UInt8} (hf : Additive f) (hg : Additive g) (hh : Additive h) (hk : Additive k)
    {a1 a2 a3 a4 b1 b2 b3 b4 c1 c2 c3 c4 d1 d2 d3 d4 A B C D : UInt8} (hA : f a1 ^^^ g b1 ^^^ h c1 ^^^ k d1 = A)
    (hB : f a2 ^^^ g b2 ^^^ h c2 ^^^ k d2 = B) (hC : f a3 ^^^ g b3 ^^^ h c3 ^^^ k d3 = C) (hD : f a4 ^^^ g b4 ^^^ h c4 ^^^ k d4 = D) :
    f (a1 ^^^ a2 ^^^ a3 ^^^ a4) ^^^ g (b1 ^^^ b2 ^^^ b3 ^^^ b4) ^^^ h (c1 ^^^ c2 ^^^ c3 ^^^ c4) ^^^ k (d1 ^^^ d2 ^^^ d3 ^^^ d4) =
      A ^^^ B ^^^ C ^^^ D := by
  rw [← hA, ← hB, ← hC, ← hD]
  simp only [hf _ _, hg _ _, hh _ _, hk _ _]
  ac_rfl

theorem mix_id0 (a : UInt8) : mul14 (xtime a) ^^^ mul11 a ^^^ mul13 a ^^^ mul9 (xtime a ^^^ a) = a := by
  simp [mul9, mul11, mul13, mul14, xtime_xor, UInt8.xor_assoc, UInt8.xor_comm, xor_lc, xor_cc]

theorem mix_id1 (a : UInt8) : mul14 (xtime a ^^^ a) ^^^ mul11 (xtime a) ^^^ mul13 a ^^^ mul9 a = 0 := by
  simp [mul9, mul11, mul13, mul14, xtime_xor, UInt8.xor_assoc, UInt8.xor_comm, xor_lc, xor_cc]

theorem mix_id2 (a : UInt8) : mul14 a ^^^ mul11 (xtime a ^^^ a) ^^^ mul13 (xtime a) ^^^ mul9 a = 0 := by
  simp [mul9, mul11, mul13, mul14, xtime_xor, UInt8.xor_assoc, UInt8.xor_comm, xor_lc, xor_cc]

theorem mix_id3 (a : UInt8) : mul14 a ^^^ mul11 a ^^^ mul13 (xtime a ^^^ a) ^^^ mul9 (xtime a) = 0 := by
  simp [mul9, mul11, mul13, mul14, xtime_xor, UInt8.xor_assoc, UInt8.xor_comm, xor_lc, xor_cc]

theorem mix_id4 (a : UInt8) : mul9 (xtime a) ^^^ mul14 a ^^^ mul11 a ^^^ mul13 (xtime a ^^^ a) = 0 := by
  simp [mul9, mul11, mul13, mul14, xtime_xor, UInt8.xor_assoc, UInt8.xor_comm, xor_lc, xor_cc]

theorem mix_id5 (a : UInt8) : mul9 (xtime a ^^^ a) ^^^ mul14 (xtime a) ^^^ mul11 a ^^^ mul13 a = a := by
  simp [mul9, mul11, mul13, mul14, xtime_xor, UInt8.xor_assoc, UInt8.xor_comm, xor_lc, xor_cc]

theorem mix_id6 (a : UInt8) : mul9 a ^^^ mul14 (xtime a ^^^ a) ^^^ mul11 (xtime a) ^^^ mul13 a = 0 := by
  simp [mul9, mul11, mul13, mul14, xtime_xor, UInt8.xor_assoc, UInt8.xor_comm, xor_lc, xor_cc]

theorem mix_id7 (a : UInt8) : mul9 a ^^^ mul14 a ^^^ mul11 (xtime a ^^^ a) ^^^ mul13 (xtime a) = 0 := by
  simp [mul9, mul11, mul13, mul14, xtime_xor, UInt8.xor_assoc, UInt8.xor_comm, xor_lc, xor_cc]

theorem mix_id8 (a : UInt8) : mul13 (xtime a) ^^^ mul9 a ^^^ mul14 a ^^^ mul11 (xtime a ^^^ a) = 0 := by
  simp [mul9, mul11, mul13, mul14, xtime_xor, UInt8.xor_assoc, UInt8.xor_comm, xor_lc, xor_cc]

theorem mix_id9 (a : UInt8) : mul13 (xtime a ^^^ a) ^^^ mul9 (xtime a) ^^^ mul14 a ^^^ mul11 a = 0 := by
  simp [mul9, mul11, mul13, mul14, xtime_xor, UInt8.xor_assoc, UInt8.xor_comm, xor_lc, xor_cc]

theorem mix_id10 (a : UInt8) : mul13 a ^^^ mul9 (xtime a ^^^ a) ^^^ mul14 (xtime a) ^^^ mul11 a = a := by
  simp [mul9, mul11, mul13, mul14, xtime_xor, UInt8.xor_assoc, UInt8.xor_comm, xor_lc, xor_cc]

theorem mix_id11 (a : UInt8) : mul13 a ^^^ mul9 a ^^^ mul14 (xtime a ^^^ a) ^^^ mul11 (xtime a) = 0 := by
  simp [mul9, mul11, mul13, mul14, xtime_xor, UInt8.xor_assoc, UInt8.xor_comm, xor_lc, xor_cc]

theorem mix_id12 (a : UInt8) : mul11 (xtime a) ^^^ mul13 a ^^^ mul9 a ^^^ mul14 (xtime a ^^^ a) = 0 := by
  simp [mul9, mul11, mul13, mul14, xtime_xor, UInt8.xor_assoc, UInt8.xor_comm, xor_lc, xor_cc]

theorem mix_id13 (a : UInt8) : mul11 (xtime a ^^^ a) ^^^ mul13 (xtime a) ^^^ mul9 a ^^^ mul14 a = 0 := by
  simp [mul9, mul11, mul13, mul14, xtime_xor, UInt8.xor_assoc, UInt8.xor_comm, xor_lc, xor_cc]

theorem mix_id14 (a : UInt8) : mul11 a ^^^ mul13 (xtime a ^^^ a) ^^^ mul9 (xtime a) ^^^ mul14 a = 0 := by
  simp [mul9, mul11, mul13, mul14, xtime_xor, UInt8.xor_assoc, UInt8.xor_comm, xor_lc, xor_cc]

theorem mix_id15 (a : UInt8) : mul11 a ^^^ mul13 a ^^^ mul9 (xtime a ^^^ a) ^^^ mul14 (xtime a) = a := by
  simp [mul9, mul11, mul13, mul14, xtime_xor, UInt8.xor_assoc, UInt8.xor_comm, xor_lc, xor_cc]

theorem mix_id16 (a : UInt8) : xtime (mul14 a) ^^^ (xtime (mul9 a) ^^^ (mul9 a)) ^^^ (mul13 a) ^^^ (mul11 a) = a := by
  simp [mul9, mul11, mul13, mul14, xtime_xor, UInt8.xor_assoc, UInt8.xor_comm, xor_lc, xor_cc]

theorem mix_id17 (a : UInt8) : xtime (mul11 a) ^^^ (xtime (mul14 a) ^^^ (mul14 a)) ^^^ (mul9 a) ^^^ (mul13 a) = 0 := by
  simp [mul9, mul11, mul13, mul14, xtime_xor, UInt8.xor_assoc, UInt8.xor_comm, xor_lc, xor_cc]

theorem mix_id18 (a : UInt8) : xtime (mul13 a) ^^^ (xtime (mul11 a) ^^^ (mul11 a)) ^^^ (mul14 a) ^^^ (mul9 a) = 0 := by
  simp [mul9, mul11, mul13, mul14, xtime_xor, UInt8.xor_assoc, UInt8.xor_comm, xor_lc, xor_cc]

theorem mix_id19 (a : UInt8) : xtime (mul9 a) ^^^ (xtime (mul13 a) ^^^ (mul13 a)) ^^^ (mul11 a) ^^^ (mul14 a) = 0 := by
  simp [mul9, mul11, mul13, mul14, xtime_xor, UInt8.xor_assoc, UInt8.xor_comm, xor_lc, xor_cc]

theorem mix_id20 (a : UInt8) : (mul14 a) ^^^ xtime (mul9 a) ^^^ (xtime (mul13 a) ^^^ (mul13 a)) ^^^ (mul11 a) = 0 := by
  simp [mul9, mul11, mul13, mul14, xtime_xor, UInt8.xor_assoc, UInt8.xor_comm, xor_lc, xor_cc]

theorem mix_id21 (a : UInt8) : (mul11 a) ^^^ xtime (mul14 a) ^^^ (xtime (mul9 a) ^^^ (mul9 a)) ^^^ (mul13 a) = a := by
  simp [mul9, mul11, mul13, mul14, xtime_xor, UInt8.xor_assoc, UInt8.xor_comm, xor_lc, xor_cc]

theorem mix_id22 (a : UInt8) : (mul13 a) ^^^ xtime (mul11 a) ^^^ (xtime (mul14 a) ^^^ (mul14 a)) ^^^ (mul9 a) = 0 := by
  simp [mul9, mul11, mul13, mul14, xtime_xor, UInt8.xor_assoc, UInt8.xor_comm, xor_lc, xor_cc]

theorem mix_id23 (a : UInt8) : (mul9 a) ^^^ xtime (mul13 a) ^^^ (xtime (mul11 a) ^^^ (mul11 a)) ^^^ (mul14 a) = 0 := by
  simp [mul9, mul11, mul13, mul14, xtime_xor, UInt8.xor_assoc, UInt8.xor_comm, xor_lc, xor_cc]

theorem mix_id24 (a : UInt8) : (mul14 a) ^^^ (mul9 a) ^^^ xtime (mul13 a) ^^^ (xtime (mul11 a) ^^^ (mul11 a)) = 0 := by
  simp [mul9, mul11, mul13, mul14, xtime_xor, UInt8.xor_assoc, UInt8.xor_comm, xor_lc, xor_cc]

theorem mix_id25 (a : UInt8) : (mul11 a) ^^^ (mul14 a) ^^^ xtime (mul9 a) ^^^ (xtime (mul13 a) ^^^ (mul13 a)) = 0 := by
  simp [mul9, mul11, mul13, mul14, xtime_xor, UInt8.xor_assoc, UInt8.xor_comm, xor_lc, xor_cc]

theorem mix_id26 (a : UInt8) : (mul13 a) ^^^ (mul11 a) ^^^ xtime (mul14 a) ^^^ (xtime (mul9 a) ^^^ (mul9 a)) = a := by
  simp [mul9, mul11, mul13, mul14, xtime_xor, UInt8.xor_assoc, UInt8.xor_comm, xor_lc, xor_cc]

theorem mix_id27 (a : UInt8) : (mul9 a) ^^^ (mul13 a) ^^^ xtime (mul11 a) ^^^ (xtime (mul14 a) ^^^ (mul14 a)) = 0 := by
  simp [mul9, mul11, mul13, mul14, xtime_xor, UInt8.xor_assoc, UInt8.xor_comm, xor_lc, xor_cc]

theorem mix_id28 (a : UInt8) : (xtime (mul14 a) ^^^ (mul14 a)) ^^^ (mul9 a) ^^^ (mul13 a) ^^^ xtime (mul11 a) = 0 := by
  simp [mul9, mul11, mul13, mul14, xtime_xor, UInt8.xor_assoc, UInt8.xor_comm, xor_lc, xor_cc]

theorem mix_id29 (a : UInt8) : (xtime (mul11 a) ^^^ (mul11 a)) ^^^ (mul14 a) ^^^ (mul9 a) ^^^ xtime (mul13 a) = 0 := by
  simp [mul9, mul11, mul13, mul14, xtime_xor, UInt8.xor_assoc, UInt8.xor_comm, xor_lc, xor_cc]

theorem mix_id30 (a : UInt8) : (xtime (mul13 a) ^^^ (mul13 a)) ^^^ (mul11 a) ^^^ (mul14 a) ^^^ xtime (mul9 a) = 0 := by
  simp [mul9, mul11, mul13, mul14, xtime_xor, UInt8.xor_assoc, UInt8.xor_comm, xor_lc, xor_cc]

theorem mix_id31 (a : UInt8) : (xtime (mul9 a) ^^^ (mul9 a)) ^^^ (mul13 a) ^^^ (mul11 a) ^^^ xtime (mul14 a) = a := by
  simp [mul9, mul11, mul13, mul14, xtime_xor, UInt8.xor_assoc, UInt8.xor_comm, xor_lc, xor_cc]

theorem invMix_mix : ∀ (n : Nat) (b : Bytes), b.length = 4 * n →
    invMixColumns (mixColumns b) = b ∧ mixColumns (invMixColumns b) = b ∧ (mixColumns b).length = 4 * n ∧ (invMixColumns b).length = 4 * n := by
  intro n
  induction n with
  | zero =>
    intro b h
    have : b = [] := List.length_eq_zero_iff.1 (by omega)
    subst this
    exact ⟨rfl, rfl, rfl, rfl⟩
  | succ n ih =>
    intro b hb
    match b, hb with
    | a :: b :: c :: d :: r, hb =>
      obtain ⟨h1, h2, h3, h4⟩ := ih r (by simp only [List.length_cons] at hb; omega)
      refine ⟨?_, ?_, by simp only [mixColumns, List.length_cons, h3]; omega, by simp only [invMixColumns, List.length_cons, h4]; omega⟩
      · simp only [mixColumns, invMixColumns, h1, List.cons.injEq, and_true]
        exact ⟨(row add_14 add_11 add_13 add_9 (mix_id0 _) (mix_id1 _) (mix_id2 _) (mix_id3 _)).trans (by simp),
          (row add_9 add_14 add_11 add_13 (mix_id4 _) (mix_id5 _) (mix_id6 _) (mix_id7 _)).trans (by simp),
          (row add_13 add_9 add_14 add_11 (mix_id8 _) (mix_id9 _) (mix_id10 _) (mix_id11 _)).trans (by simp),
          (row add_11 add_13 add_9 add_14 (mix_id12 _) (mix_id13 _) (mix_id14 _) (mix_id15 _)).trans (by simp)⟩
      · simp only [mixColumns, invMixColumns, h2, List.cons.injEq, and_true]
        exact ⟨(row add_xtime add_3 add_id add_id (mix_id16 _) (mix_id17 _) (mix_id18 _) (mix_id19 _)).trans (by simp),
          (row add_id add_xtime add_3 add_id (mix_id20 _) (mix_id21 _) (mix_id22 _) (mix_id23 _)).trans (by simp),
          (row add_id add_id add_xtime add_3 (mix_id24 _) (mix_id25 _) (mix_id26 _) (mix_id27 _)).trans (by simp),
          (row add_3 add_id add_id add_xtime (mix_id28 _) (mix_id29 _) (mix_id30 _) (mix_id31 _)).trans (by simp)⟩

theorem aesRoundKey_length (w : Bytes) (i : Nat) : (aesRoundKey w i).length = 16 := by simp [aesRoundKey]

theorem aesRound_inverse (b k : Bytes) (hb : b.length = 16) (hk : k.length = 16) :
    aesUnround (aesRound b k) k = b ∧ aesRound (aesUnround b k) k = b ∧ (aesRound b k).length = 16 ∧ (aesUnround b k).length = 16 := by
  have p1 : (pick shiftTable (b.map subByte)).length = 4 * 4 := by rw [pick_length]; rfl
  have x1 : (xor b k).length = 4 * 4 := xor_length hb hk
  obtain ⟨h1, h2, h3, h4⟩ := invMix_mix 4 _ p1
  obtain ⟨g1, g2, g3, g4⟩ := invMix_mix 4 _ x1
  refine ⟨?_, ?_, xor_length h3 hk, by rw [aesUnround, List.length_map, pick_length]; rfl⟩
  · rw [aesUnround, aesRound, xor_cancel _ _ (by rw [h3, hk]), h1, unshift_shift _ (by simpa using hb), invSub_sub]
  · rw [aesRound, aesUnround, sub_invSub, shift_unshift _ g4, g2, xor_cancel _ _ (by rw [hb, hk])]

theorem rounds_inverse_aes (ks : List Bytes) (hk : ∀ k ∈ ks, k.length = 16) : ∀ b : Bytes, b.length = 16 →
    ks.reverse.foldl aesUnround (ks.foldl aesRound b) = b ∧ ks.foldl aesRound (ks.reverse.foldl aesUnround b) = b ∧
    (ks.foldl aesRound b).length = 16 ∧ (ks.reverse.foldl aesUnround b).length = 16 := by
  induction ks with
  | nil => intro b hb; exact ⟨rfl, rfl, hb, hb⟩
  | cons k ks ih =>
    intro b hb
    have hk0 := hk k (by simp)
    have ih := ih fun k h => hk k (by simp [h])
    obtain ⟨h1, h2, h3, h4⟩ := aesRound_inverse b k hb hk0
    obtain ⟨i1, i2, i3, i4⟩ := ih _ h3
    obtain ⟨j1, j2, j3, j4⟩ := ih b hb
    obtain ⟨k1, k2, k3, k4⟩ := aesRound_inverse _ k j4 hk0
    simp only [List.reverse_cons, List.foldl_append, List.foldl_cons, List.foldl_nil]
    exact ⟨by rw [i1, h1], by rw [k2, j2], i3, k4⟩

/-- AES. -/
def aes : Cipher where
  keyOk n := decide (n = 16 ∨ n = 24 ∨ n = 32)
  bs := 16
  enc := aesEnc
  dec := aesDec
  enc_len k b hb := by
    simp only [aesEnc]
    exact xor_length (by rw [pick_length]; rfl) (aesRoundKey_length _ _)
  dec_len k b hb := by
    simp only [aesDec]
    refine xor_length ?_ (aesRoundKey_length _ _)
    exact (rounds_inverse_aes _ (by simp [aesRoundKey_length]) _ (by rw [List.length_map, pick_length]; rfl)).2.2.2
  dec_enc k b hb := by
    have x0 := xor_length hb (aesRoundKey_length (expandKey k) 0)
    obtain ⟨h1, _, h3, _⟩ := rounds_inverse_aes ((List.range (numRounds k - 1)).map fun i => aesRoundKey (expandKey k) (i + 1))
      (by simp [aesRoundKey_length]) _ x0
    simp only [aesEnc, aesDec]
    rw [xor_cancel _ _ (by rw [pick_length, aesRoundKey_length]; rfl), unshift_shift _ (by simpa using h3), invSub_sub, h1,
      xor_cancel _ _ (by rw [hb, aesRoundKey_length])]
  enc_dec k b hb := by
    have x0 := xor_length hb (aesRoundKey_length (expandKey k) (numRounds k))
    have l : ((pick unshiftTable (xor b (aesRoundKey (expandKey k) (numRounds k)))).map invSubByte).length = 16 := by
      rw [List.length_map, pick_length]; rfl
    obtain ⟨_, h2, _, h4⟩ := rounds_inverse_aes ((List.range (numRounds k - 1)).map fun i => aesRoundKey (expandKey k) (i + 1))
      (by simp [aesRoundKey_length]) _ l
    simp only [aesEnc, aesDec]
    rw [xor_cancel _ _ (by rw [h4, aesRoundKey_length]), h2, sub_invSub, shift_unshift _ x0, xor_cancel _ _ (by rw [hb, aesRoundKey_length])]

/-! ## Base64 -/

theorem b64_char : ∀ n : Fin 64, b64Val (b64Char n.1) = some n.1 ∧ b64Char n.1 ≠ '=' ∧ b64Char n.1 ≠ '\n' ∧ b64Char n.1 ≠ '\r' := by
  decide +kernel

theorem b64_char' {n : Nat} (h : n < 64) :
    b64Val (b64Char n) = some n ∧ b64Char n ≠ '=' ∧ b64Char n ≠ '\n' ∧ b64Char n ≠ '\r' := b64_char ⟨n, h⟩

theorem b64Enc_plain (b : Bytes) : ∀ c ∈ b64Enc b, c ≠ '\n' ∧ c ≠ '\r' := by
  fun_induction b64Enc b with
  | case1 a b c r n ih =>
    have := a.toNat_lt; have := b.toNat_lt; have := c.toNat_lt
    intro x hx
    simp only [List.mem_cons] at hx
    rcases hx with rfl | rfl | rfl | rfl | hx
    · exact (b64_char' (by omega)).2.2
    · exact (b64_char' (by omega)).2.2
    · exact (b64_char' (by omega)).2.2
    · exact (b64_char' (by omega)).2.2
    · exact ih x hx
  | case2 a b n =>
    have := a.toNat_lt; have := b.toNat_lt
    intro x hx
    simp only [List.mem_cons, List.not_mem_nil, or_false] at hx
    rcases hx with rfl | rfl | rfl | rfl
    · exact (b64_char' (by omega)).2.2
    · exact (b64_char' (by omega)).2.2
    · exact (b64_char' (by omega)).2.2
    · decide
  | case3 a n =>
    have := a.toNat_lt
    intro x hx
    simp only [List.mem_cons, List.not_mem_nil, or_false] at hx
    rcases hx with rfl | rfl | rfl | rfl
    · exact (b64_char' (by omega)).2.2
    · exact (b64_char' (by omega)).2.2
    · decide
    · decide
  | case4 => simp

theorem ofNat_toNat (x : UInt8) : UInt8.ofNat x.toNat = x := by simp

theorem b64Groups_enc (b : Bytes) : b64Groups (b64Enc b) = some b := by
  fun_induction b64Enc b with
  | case1 a b c r n ih =>
    have ha := a.toNat_lt; have hb := b.toNat_lt; have hc := c.toNat_lt
    obtain ⟨v1, -, -⟩ := b64_char' (n := n / 262144) (by omega)
    obtain ⟨v2, -, -⟩ := b64_char' (n := n / 4096 % 64) (by omega)
    obtain ⟨v3, n3, -⟩ := b64_char' (n := n / 64 % 64) (by omega)
    obtain ⟨v4, n4, -⟩ := b64_char' (n := n % 64) (by omega)
    simp only [b64Groups, v1, v2, v3, v4, n3, n4, ih, Option.bind_eq_bind, Option.bind_some, if_false, Option.some.injEq, List.cons.injEq, and_true]
    have e1 : n / 262144 * 4 + n / 4096 % 64 / 16 = a.toNat := by omega
    have e2 : n / 4096 % 64 % 16 * 16 + n / 64 % 64 / 4 = b.toNat := by omega
    have e3 : n / 64 % 64 % 4 * 64 + n % 64 = c.toNat := by omega
    rw [e1, e2, e3]
    exact ⟨ofNat_toNat a, ofNat_toNat b, ofNat_toNat c⟩
  | case2 a b n =>
    have ha := a.toNat_lt; have hb := b.toNat_lt
    obtain ⟨v1, -, -⟩ := b64_char' (n := n / 4096) (by omega)
    obtain ⟨v2, -, -⟩ := b64_char' (n := n / 64 % 64) (by omega)
    obtain ⟨v3, n3, -⟩ := b64_char' (n := n % 64) (by omega)
    simp only [b64Groups, v1, v2, v3, n3, Option.bind_eq_bind, Option.bind_some, if_false, if_true, Option.some.injEq, List.cons.injEq, and_true]
    have e1 : n / 4096 * 4 + n / 64 % 64 / 16 = a.toNat := by omega
    have e2 : n / 64 % 64 % 16 * 16 + n % 64 / 4 = b.toNat := by omega
    rw [e1, e2]
    exact ⟨ofNat_toNat a, ofNat_toNat b⟩
  | case3 a n =>
    have ha := a.toNat_lt
    obtain ⟨v1, -, -⟩ := b64_char' (n := n / 64) (by omega)
    obtain ⟨v2, -, -⟩ := b64_char' (n := n % 64) (by omega)
    simp only [b64Groups, v1, v2, Option.bind_eq_bind, Option.bind_some, if_true, and_self, Option.some.injEq, List.cons.injEq, and_true]
    have e1 : n / 64 * 4 + n % 64 / 16 = a.toNat := by omega
    rw [e1]
    exact ofNat_toNat a
  | case4 => rfl

/-- Base64. -/
def base64 : Codec where
  enc := b64Enc
  dec := b64Dec
  dec_enc b := by
    rw [b64Dec, List.filter_eq_self.mpr, b64Groups_enc]
    intro c hc
    simpa using b64Enc_plain b c hc

end Verif.Crypto
