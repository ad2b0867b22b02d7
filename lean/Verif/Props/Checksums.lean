import Verif.Model.Digests
import Verif.Props.Hash
import Mathlib.Data.Fintype.Pigeonhole
/-!
# C149: what checksums detect
-/
set_option linter.unusedSectionVars false

namespace Verif.Hash

variable {w : Nat}

/-! ## One bit, one byte -/

theorem crcBit_eq (poly x : BitVec w) : crcBit poly x = (x >>> 1) ^^^ (if x.getLsbD 0 then poly else 0) := by
  unfold crcBit
  split <;> simp

/-- A polynomial whose constant coefficient is 1 (the highest bit, in reverse order): no two values become the same. -/
theorem crcBit_inj {poly : BitVec w} (hp : poly.msb = true) {x y : BitVec w} (h : crcBit poly x = crcBit poly y) : x = y := by
  have hw : 0 < w := by
    cases w with
    | zero => simp [BitVec.msb, BitVec.getMsbD] at hp
    | succ n => omega
  have top : ∀ z : BitVec w, (crcBit poly z).msb = z.getLsbD 0 := by
    intro z
    rw [crcBit_eq, BitVec.msb_xor]
    have h1 : (z >>> 1).msb = false := by rw [BitVec.msb_eq_getLsbD_last, BitVec.getLsbD_ushiftRight]; exact BitVec.getLsbD_of_ge _ _ (by omega)
    rw [h1, Bool.false_xor]
    cases z.getLsbD 0
    · simp
    · simpa using hp
  have h0 : x.getLsbD 0 = y.getLsbD 0 := by rw [← top x, ← top y, h]
  rw [crcBit_eq, crcBit_eq, h0] at h
  have h1 : x >>> 1 = y >>> 1 := by
    have := congrArg (· ^^^ (if y.getLsbD 0 then poly else 0)) h
    simpa [BitVec.xor_assoc] using this
  apply BitVec.eq_of_getLsbD_eq
  intro i hi
  cases i with
  | zero => exact h0
  | succ i =>
    have := congrArg (fun z => BitVec.getLsbD z i) h1
    simpa [BitVec.getLsbD_ushiftRight, Nat.add_comm] using this

theorem shift_back (y : BitVec w) (n : Nat) (hy : y.toNat * 2 ^ n < 2 ^ w) : (y <<< n) >>> n = y := by
  apply BitVec.eq_of_toNat_eq
  rw [BitVec.toNat_ushiftRight, BitVec.toNat_shiftLeft, Nat.shiftLeft_eq, Nat.mod_eq_of_lt hy, Nat.shiftRight_eq_div_pow,
    Nat.mul_div_cancel _ (Nat.two_pow_pos n)]

theorem crcBit_shift (poly x y : BitVec w) (hy : y.toNat * 2 < 2 ^ w) : crcBit poly (x ^^^ (y <<< 1)) = crcBit poly x ^^^ y := by
  have hw : (y <<< 1).getLsbD 0 = false := by simp
  rw [crcBit_eq, crcBit_eq, BitVec.getLsbD_xor, hw, Bool.xor_false, BitVec.ushiftRight_xor_distrib, shift_back y 1 (by simpa using hy)]
  rw [BitVec.xor_assoc, BitVec.xor_assoc, BitVec.xor_comm y]

theorem crcBits_shift (poly : BitVec w) (n : Nat) : ∀ x y : BitVec w, y.toNat * 2 ^ n < 2 ^ w →
    Nat.repeat (crcBit poly) n (x ^^^ (y <<< n)) = Nat.repeat (crcBit poly) n x ^^^ y := by
  induction n with
  | zero => intro x y _; simp [Nat.repeat]
  | succ n ih =>
    intro x y hy
    have h1 : y.toNat * 2 < 2 ^ w := by
      refine Nat.lt_of_le_of_lt ?_ hy
      rw [Nat.pow_succ, Nat.mul_comm (2 ^ n), ← Nat.mul_assoc]
      exact Nat.le_mul_of_pos_right _ (Nat.two_pow_pos n)
    have e : y <<< (n + 1) = (y <<< 1) <<< n := by rw [← BitVec.shiftLeft_add, Nat.add_comm]
    have h2 : (y <<< 1).toNat * 2 ^ n < 2 ^ w := by
      rw [BitVec.toNat_shiftLeft, Nat.shiftLeft_eq, Nat.pow_one, Nat.mod_eq_of_lt h1, Nat.mul_assoc, ← Nat.pow_succ']
      exact hy
    rw [Nat.repeat, Nat.repeat, e, ih x (y <<< 1) h2, crcBit_shift _ _ _ h1]

theorem repeat_inj {α : Type} {f : α → α} (hf : ∀ x y, f x = f y → x = y) (n : Nat) {x y : α} (h : Nat.repeat f n x = Nat.repeat f n y) :
    x = y := by
  induction n with
  | zero => exact h
  | succ n ih => exact ih (hf _ _ h)

theorem repeat_comm {α : Type} (f : α → α) (n : Nat) (x : α) : Nat.repeat f n (f x) = f (Nat.repeat f n x) := by
  induction n with
  | zero => rfl
  | succ n ih => rw [Nat.repeat, ih]; rfl

/-- Eight bits at once. -/
def crc8 (poly x : BitVec w) : BitVec w := Nat.repeat (crcBit poly) 8 x

theorem ofNat_add_shift (b L : Nat) (hb : b < 256) : BitVec.ofNat w (b + 256 * L) = BitVec.ofNat w b ^^^ (BitVec.ofNat w L <<< 8) := by
  have h : b + 256 * L = b ^^^ (L <<< 8) := by
    rw [Nat.shiftLeft_eq, Nat.mul_comm L, Nat.add_comm, show (256 : Nat) = 2 ^ 8 from rfl, Nat.two_pow_add_eq_or_of_lt hb]
    apply Nat.eq_of_testBit_eq
    intro i
    rw [Nat.testBit_or, Nat.testBit_xor, Nat.testBit_two_pow_mul]
    by_cases hi : 8 ≤ i
    · have : b.testBit i = false := Nat.testBit_lt_two_pow (Nat.lt_of_lt_of_le hb (Nat.pow_le_pow_right (n := 2) (by decide) hi))
      simp [this]
    · simp [hi]
  rw [h]
  apply BitVec.eq_of_getLsbD_eq
  intro i hi
  rw [BitVec.getLsbD_xor, BitVec.getLsbD_shiftLeft, BitVec.getLsbD_ofNat, BitVec.getLsbD_ofNat, BitVec.getLsbD_ofNat, Nat.testBit_xor,
    Nat.testBit_shiftLeft]
  by_cases h8 : i < 8
  · simp [hi, h8, Nat.not_le.2 h8]
  · have : i - 8 < w := by omega
    simp [hi, h8, this, show 8 ≤ i by omega]

theorem crcByte_eq (poly crc : BitVec w) (b : UInt8) : crcByte poly crc b = crc8 poly (crc ^^^ BitVec.ofNat w b.toNat) := by
  have hb := b.toNat_lt
  set x := crc ^^^ BitVec.ofNat w b.toNat with hx
  have hs : x >>> 8 = crc >>> 8 := by
    rw [hx, BitVec.ushiftRight_xor_distrib]
    have : BitVec.ofNat w b.toNat >>> 8 = 0 := by
      apply BitVec.eq_of_toNat_eq
      rw [BitVec.toNat_ushiftRight, Nat.shiftRight_eq_div_pow, BitVec.toNat_ofNat]
      have : b.toNat % 2 ^ w ≤ b.toNat := Nat.mod_le _ _
      simp
      omega
    rw [this]
    simp
  have hd : x = BitVec.ofNat w (x.toNat % 256) ^^^ ((x >>> 8) <<< 8) := by
    have h1 : BitVec.ofNat w x.toNat = x := by simp
    have h2 : BitVec.ofNat w (x.toNat / 256) = x >>> 8 := by
      apply BitVec.eq_of_toNat_eq
      rw [BitVec.toNat_ushiftRight, Nat.shiftRight_eq_div_pow, BitVec.toNat_ofNat, Nat.mod_eq_of_lt]
      exact Nat.lt_of_le_of_lt (Nat.div_le_self _ _) x.isLt
    rw [← h2, ← ofNat_add_shift _ _ (Nat.mod_lt _ (by decide)), Nat.mod_add_div, h1]
  have hf : (x >>> 8).toNat * 2 ^ 8 < 2 ^ w := by
    rw [BitVec.toNat_ushiftRight, Nat.shiftRight_eq_div_pow]
    exact Nat.lt_of_le_of_lt (Nat.div_mul_le_self _ _) x.isLt
  conv => rhs; rw [hd]
  rw [crc8, crcBits_shift _ _ _ _ hf, hs]
  rfl

/-! ## Several bytes -/

theorem ofLittle_lt : ∀ u : Bytes, ofLittle u < 256 ^ u.length
  | [] => by simp [ofLittle]
  | b :: u => by
    have := ofLittle_lt u
    have hb := b.toNat_lt
    simp only [ofLittle, List.foldr_cons, List.length_cons, Nat.pow_succ] at this ⊢
    omega

theorem ofLittle_inj : ∀ u u' : Bytes, u.length = u'.length → ofLittle u = ofLittle u' → u = u'
  | [], [], _, _ => rfl
  | b :: u, b' :: u', hl, h => by
    have hb := b.toNat_lt
    have hb' := b'.toNat_lt
    simp only [ofLittle, List.foldr_cons] at h
    have e1 : b.toNat = b'.toNat := by omega
    have e2 := ofLittle_inj u u' (by simpa using hl) (by simp only [ofLittle]; omega)
    rw [UInt8.toNat_inj.1 e1, e2]

/-- Up to as many bytes as the check has are added all at once. -/
theorem crc_pack (poly : BitVec w) : ∀ (u : Bytes) (s : BitVec w), 8 * u.length ≤ w →
    u.foldl (crcByte poly) s = Nat.repeat (crc8 poly) u.length (s ^^^ BitVec.ofNat w (ofLittle u))
  | [], s, _ => by simp [ofLittle, Nat.repeat]
  | b :: u, s, h => by
    have hl : 8 * u.length + 8 ≤ w := by simp only [List.length_cons] at h; omega
    have hlt := ofLittle_lt u
    have hw : 256 ^ u.length * 256 ≤ 2 ^ w := by
      rw [← Nat.pow_succ, show (256 : Nat) = 2 ^ 8 from rfl, ← Nat.pow_mul]
      exact Nat.pow_le_pow_right (by decide) (by omega)
    have hfit : (BitVec.ofNat w (ofLittle u)).toNat * 2 ^ 8 < 2 ^ w := by
      rw [BitVec.toNat_ofNat]
      have := Nat.mod_le (ofLittle u) (2 ^ w)
      omega
    rw [List.foldl_cons, crc_pack poly u _ (by omega), List.length_cons, crcByte_eq]
    have e : ofLittle (b :: u) = b.toNat + 256 * ofLittle u := rfl
    rw [e, ofNat_add_shift _ _ b.toNat_lt, ← BitVec.xor_assoc]
    rw [show Nat.repeat (crc8 poly) (u.length + 1) _ = _ from (repeat_comm (crc8 poly) u.length _).symm]
    congr 1
    exact (crcBits_shift poly 8 _ _ hfit).symm

theorem crc8_inj {poly : BitVec w} (hp : poly.msb = true) (x y : BitVec w) (h : crc8 poly x = crc8 poly y) : x = y :=
  repeat_inj (fun _ _ => crcBit_inj hp) 8 h

theorem crc_fold_inj {poly : BitVec w} (hp : poly.msb = true) : ∀ (u : Bytes) (s s' : BitVec w),
    u.foldl (crcByte poly) s = u.foldl (crcByte poly) s' → s = s'
  | [], _, _, h => h
  | b :: u, s, s', h => by
    have := crc_fold_inj hp u _ _ h
    rw [crcByte_eq, crcByte_eq] at this
    have := crc8_inj hp _ _ this
    have := congrArg (· ^^^ BitVec.ofNat w b.toNat) this
    simpa [BitVec.xor_assoc] using this

theorem not_inj {x y : BitVec w} (h : ~~~x = ~~~y) : x = y := by
  have := congrArg (~~~ ·) h
  simpa using this

theorem beBytes_inj (n : Nat) : ∀ a b : Nat, a < 256 ^ n → b < 256 ^ n → bigEndian n a = bigEndian n b → a = b := by
  intro a b ha hb h
  have key : ∀ k, k ≤ n → a / 256 ^ (n - k) = b / 256 ^ (n - k) := by
    intro k
    induction k with
    | zero => intro _; rw [Nat.sub_zero, Nat.div_eq_of_lt ha, Nat.div_eq_of_lt hb]
    | succ k ih =>
      intro hk
      have h1 := ih (by omega)
      have h2 : UInt8.ofNat (a / 256 ^ (n - 1 - k)) = UInt8.ofNat (b / 256 ^ (n - 1 - k)) := by
        have := congrArg (fun l : Bytes => l[k]?) h
        simp only [bigEndian, List.getElem?_map, List.getElem?_range (show k < n by omega), Option.map_some, Option.some.injEq] at this
        exact this
      have h3 : a / 256 ^ (n - 1 - k) % 256 = b / 256 ^ (n - 1 - k) % 256 := by
        have := congrArg UInt8.toNat h2
        simpa [UInt8.toNat_ofNat'] using this
      have e : n - k = (n - 1 - k) + 1 := by omega
      rw [e, Nat.pow_succ, ← Nat.div_div_eq_div_mul, ← Nat.div_div_eq_div_mul] at h1
      rw [show n - (k + 1) = n - 1 - k by omega]
      omega
  have := key n (Nat.le_refl n)
  simpa using this

/-- The general case of C149: a check of `8 * n` bits tells contents apart that differ within `n` consecutive bytes. -/
theorem crc_detects (n : Nat) (poly : BitVec (8 * n)) (hp : poly.msb = true) (p u u' s : Bytes) (hl : u.length = u'.length) (hn : u.length ≤ n)
    (hne : u ≠ u') : Spec.digest (crcAlg n poly) (p ++ u ++ s) ≠ Spec.digest (crcAlg n poly) (p ++ u' ++ s) := by
  intro h
  simp only [Spec.digest, crcAlg, crcUpdate] at h
  have hw : ∀ x : BitVec (8 * n), x.toNat < 256 ^ n := by
    intro x
    have := x.isLt
    rw [Nat.pow_mul] at this
    exact this
  have h1 := not_inj (BitVec.eq_of_toNat_eq (beBytes_inj n _ _ (hw _) (hw _) h))
  rw [List.foldl_append, List.foldl_append (l' := s)] at h1
  have h2 := crc_fold_inj hp s _ _ h1
  rw [List.foldl_append, List.foldl_append, crc_pack poly u _ (by omega), crc_pack poly u' _ (by omega), ← hl] at h2
  have h3 := repeat_inj (crc8_inj hp) _ h2
  have h4 : BitVec.ofNat (8 * n) (ofLittle u) = BitVec.ofNat (8 * n) (ofLittle u') := by
    have := congrArg (p.foldl (crcByte poly) (~~~0#(8 * n)) ^^^ ·) h3
    simpa [← BitVec.xor_assoc] using this
  have hb : ∀ v : Bytes, v.length ≤ n → ofLittle v < 2 ^ (8 * n) := by
    intro v hv
    refine Nat.lt_of_lt_of_le (ofLittle_lt v) ?_
    rw [Nat.pow_mul]
    exact Nat.pow_le_pow_right (by decide) hv
  have h5 := congrArg BitVec.toNat h4
  rw [BitVec.toNat_ofNat, BitVec.toNat_ofNat, Nat.mod_eq_of_lt (hb u hn), Nat.mod_eq_of_lt (hb u' (hl ▸ hn))] at h5
  exact hne (ofLittle_inj u u' hl h5)

theorem ofLittle_surj : ∀ (n v : Nat), v < 256 ^ n → ∃ u : Bytes, u.length = n ∧ ofLittle u = v
  | 0, v, h => ⟨[], rfl, by simp [ofLittle] at h ⊢; omega⟩
  | n + 1, v, h => by
    obtain ⟨u, hu, hv⟩ := ofLittle_surj n (v / 256) (by rw [Nat.pow_succ] at h; omega)
    refine ⟨UInt8.ofNat (v % 256) :: u, by simp [hu], ?_⟩
    show (UInt8.ofNat (v % 256)).toNat + 256 * ofLittle u = v
    rw [hv, UInt8.toNat_ofNat']
    omega

theorem littleEndian_ofLittle : ∀ u : Bytes, littleEndian u.length (ofLittle u) = u
  | [] => rfl
  | b :: u => by
    have hb := b.toNat_lt
    have e : ofLittle (b :: u) = b.toNat + 256 * ofLittle u := rfl
    have ih := littleEndian_ofLittle u
    rw [e]
    simp only [littleEndian, List.length_cons, List.range_succ_eq_map, List.map_cons, List.map_map, Nat.pow_zero, Nat.div_one] at ih ⊢
    congr 1
    · apply UInt8.toNat_inj.1
      rw [UInt8.toNat_ofNat']
      omega
    · conv => rhs; rw [← ih]
      refine List.map_congr_left fun i _ => ?_
      have : (b.toNat + 256 * ofLittle u) / 256 = ofLittle u := by omega
      simp only [Function.comp]
      rw [Nat.succ_eq_add_one, Nat.pow_succ, Nat.mul_comm (256 ^ i), ← Nat.div_div_eq_div_mul, this]

theorem bigEndian_reverse (n v : Nat) : bigEndian n v = (littleEndian n v).reverse := by
  apply List.ext_getElem
  · simp [bigEndian, littleEndian]
  · intro i h1 h2
    simp [bigEndian, littleEndian]

/-- The general case of C149: any content gets any check by putting as many bytes as the check has somewhere into it. -/
theorem crc_forge (n : Nat) (poly : BitVec (8 * n)) (hp : poly.msb = true) (p s t : Bytes) (ht : t.length = n) :
    ∃ u : Bytes, u.length = n ∧ Spec.digest (crcAlg n poly) (p ++ u ++ s) = t := by
  have hw : 2 ^ (8 * n) = 256 ^ n := Nat.pow_mul 2 8 n
  have fin : Finite (BitVec (8 * n)) := Finite.of_injective BitVec.toFin fun a b h => BitVec.eq_of_toFin_eq h
  have surj := Finite.surjective_of_injective (f := fun x : BitVec (8 * n) => s.foldl (crcByte poly) (Nat.repeat (crc8 poly) n x))
    fun a b h => repeat_inj (crc8_inj hp) _ (crc_fold_inj hp _ _ _ h)
  have hlt : ofLittle t.reverse < 2 ^ (8 * n) := by
    have := ofLittle_lt t.reverse
    rw [List.length_reverse, ht] at this
    omega
  obtain ⟨x, hx⟩ := surj (~~~ BitVec.ofNat (8 * n) (ofLittle t.reverse))
  obtain ⟨u, hu, hv⟩ := ofLittle_surj n (p.foldl (crcByte poly) (~~~0) ^^^ x).toNat (by rw [← hw]; exact BitVec.isLt _)
  refine ⟨u, hu, ?_⟩
  simp only [Spec.digest, crcAlg, crcUpdate]
  rw [List.foldl_append, List.foldl_append, crc_pack poly u _ (by omega), hu, hv, BitVec.ofNat_toNat, BitVec.setWidth_eq, ← BitVec.xor_assoc,
    BitVec.xor_self, BitVec.zero_xor]
  have hx' : s.foldl (crcByte poly) (Nat.repeat (crc8 poly) n x) = ~~~ BitVec.ofNat (8 * n) (ofLittle t.reverse) := hx
  rw [hx', BitVec.not_not, BitVec.toNat_ofNat, Nat.mod_eq_of_lt hlt, bigEndian_reverse]
  have := littleEndian_ofLittle t.reverse
  rw [List.length_reverse, ht] at this
  rw [this, List.reverse_reverse]

/-- C149: the CRC-32 of two contents of the same length that differ only within four consecutive bytes is different, wherever the bytes
are. -/
theorem C149_crc32 (p u u' s : Bytes) (hl : u.length = u'.length) (hn : u.length ≤ 4) (hne : u ≠ u') :
    Spec.digest crc32 (p ++ u ++ s) ≠ Spec.digest crc32 (p ++ u' ++ s) :=
  crc_detects 4 _ (by decide) p u u' s hl hn hne

/-- C149: the CRC-64 of two contents of the same length that differ only within eight consecutive bytes is different. -/
theorem C149_crc64 (p u u' s : Bytes) (hl : u.length = u'.length) (hn : u.length ≤ 8) (hne : u ≠ u') :
    Spec.digest crc64 (p ++ u ++ s) ≠ Spec.digest crc64 (p ++ u' ++ s) :=
  crc_detects 8 _ (by decide) p u u' s hl hn hne

/-- C149: but the checks are no protection against intent: four bytes put anywhere into any content give it any CRC-32, and eight bytes
any CRC-64. -/
theorem C149_forged (p s : Bytes) :
    (∀ t : Bytes, t.length = 4 → ∃ u : Bytes, u.length = 4 ∧ Spec.digest crc32 (p ++ u ++ s) = t) ∧
    (∀ t : Bytes, t.length = 8 → ∃ u : Bytes, u.length = 8 ∧ Spec.digest crc64 (p ++ u ++ s) = t) :=
  ⟨fun t ht => crc_forge 4 _ (by decide) p s t ht, fun t ht => crc_forge 8 _ (by decide) p s t ht⟩

/-! ## The fingerprint -/

theorem crcBit_xor (poly x y : BitVec w) : crcBit poly (x ^^^ y) = crcBit poly x ^^^ crcBit poly y := by
  rw [crcBit_eq, crcBit_eq, crcBit_eq, BitVec.getLsbD_xor, BitVec.ushiftRight_xor_distrib]
  apply BitVec.eq_of_getLsbD_eq
  intro i hi
  cases x.getLsbD 0 <;> cases y.getLsbD 0 <;> simp [hi] <;>
    cases (x.getLsbD (1 + i)) <;> cases (y.getLsbD (1 + i)) <;> cases poly[i] <;> rfl

theorem crcBits_xor (poly : BitVec w) (n : Nat) (x y : BitVec w) :
    Nat.repeat (crcBit poly) n (x ^^^ y) = Nat.repeat (crcBit poly) n x ^^^ Nat.repeat (crcBit poly) n y := by
  induction n with
  | zero => rfl
  | succ n ih => rw [Nat.repeat, ih, crcBit_xor]; rfl

/-- Which last bytes the six middle bytes of the CRC-64 tell apart. -/
theorem crc64_table : ∀ i : BitVec 8, (crcTable 0xd800000000000000#64 i.toNat).extractLsb' 8 48 = 0#48 ↔ i.extractLsb' 0 4 = 0#4 := by
  decide +kernel

theorem middle_bytes (v : Nat) : ((bigEndian 8 v).drop 1).take 6 = bigEndian 6 (v / 256 % 256 ^ 6) := by
  have h8 : bigEndian 8 v = [7, 6, 5, 4, 3, 2, 1, 0].map fun i => UInt8.ofNat (v / 256 ^ i) := rfl
  have h6 : bigEndian 6 (v / 256 % 256 ^ 6) = [5, 4, 3, 2, 1, 0].map fun i => UInt8.ofNat (v / 256 % 256 ^ 6 / 256 ^ i) := rfl
  rw [h8, h6]
  simp only [List.map_cons, List.map_nil, List.drop_succ_cons, List.drop_zero, List.take_succ_cons, List.take_zero, List.cons.injEq, and_true]
  refine ⟨?_, ?_, ?_, ?_, ?_, ?_⟩ <;>
  · apply UInt8.toNat_inj.1
    rw [UInt8.toNat_ofNat', UInt8.toNat_ofNat']
    omega

theorem middle_eq (x y : BitVec 64) :
    ((bigEndian 8 x.toNat).drop 1).take 6 = ((bigEndian 8 y.toNat).drop 1).take 6 ↔ x.extractLsb' 8 48 = y.extractLsb' 8 48 := by
  rw [middle_bytes, middle_bytes]
  have e : ∀ z : BitVec 64, z.toNat / 256 % 256 ^ 6 = (z.extractLsb' 8 48).toNat := by
    intro z
    rw [BitVec.extractLsb'_toNat, Nat.shiftRight_eq_div_pow]
    rfl
  constructor
  · intro h
    have := beBytes_inj 6 _ _ (Nat.mod_lt _ (by decide)) (Nat.mod_lt _ (by decide)) h
    rw [e, e] at this
    exact BitVec.eq_of_toNat_eq this
  · intro h
    rw [e, e, h]

theorem crc64_last (p : Bytes) (b b' : UInt8) :
    ((Spec.digest crc64 (p ++ [b])).drop 1).take 6 = ((Spec.digest crc64 (p ++ [b'])).drop 1).take 6 ↔ b.toNat % 16 = b'.toNat % 16 := by
  simp only [Spec.digest, crc64, crcAlg, crcUpdate]
  refine (middle_eq _ _).trans ?_
  rw [List.foldl_append, List.foldl_append, List.foldl_cons, List.foldl_cons, List.foldl_nil, List.foldl_nil, crcByte_eq, crcByte_eq]
  generalize p.foldl (crcByte _) _ = s
  have h1 : ∀ x y : BitVec 64, (~~~x).extractLsb' 8 48 = (~~~y).extractLsb' 8 48 ↔ (x ^^^ y).extractLsb' 8 48 = 0#48 := by
    intro x y
    rw [BitVec.extractLsb'_not_of_lt (by decide), BitVec.extractLsb'_not_of_lt (by decide), BitVec.extractLsb'_xor]
    rw [BitVec.not_inj, BitVec.xor_eq_zero_iff]
  rw [h1, crc8, crc8, ← crcBits_xor]
  have h2 : (s ^^^ BitVec.ofNat 64 b.toNat) ^^^ (s ^^^ BitVec.ofNat 64 b'.toNat) = BitVec.ofNat 64 (b.toNat ^^^ b'.toNat) := by
    rw [BitVec.xor_comm s, BitVec.xor_assoc, ← BitVec.xor_assoc s, BitVec.xor_self, BitVec.zero_xor]
    apply BitVec.eq_of_getLsbD_eq
    intro i hi
    rw [BitVec.getLsbD_xor, BitVec.getLsbD_ofNat, BitVec.getLsbD_ofNat, BitVec.getLsbD_ofNat, Nat.testBit_xor]
    simp [hi]
  have h3 : b.toNat ^^^ b'.toNat = (b.toBitVec ^^^ b'.toBitVec).toNat := rfl
  rw [show (8 * 8 : Nat) = 64 from rfl] at *
  rw [h2, h3]
  refine (crc64_table _).trans ?_
  rw [BitVec.extractLsb'_xor, BitVec.xor_eq_zero_iff]
  have e : ∀ c : UInt8, (c.toBitVec.extractLsb' 0 4).toNat = c.toNat % 16 := by
    intro c
    rw [BitVec.extractLsb'_toNat]
    rfl
  rw [← e, ← e]
  exact ⟨congrArg _, BitVec.eq_of_toNat_eq⟩

/-- C149: of two contents that differ in their last byte only, the last six bytes of the fingerprint, which come from the CRC-64, are
different exactly if the low halves of the bytes are. -/
theorem C149_fingerprint (p : Bytes) (b b' : UInt8) :
    (((FP.new : FP md5.alg sha1.alg crc64).writes [p ++ [b]]).sum []).drop 18 =
      (((FP.new : FP md5.alg sha1.alg crc64).writes [p ++ [b']]).sum []).drop 18 ↔ b.toNat % 16 = b'.toNat % 16 := by
  have hs : Sizes md5.alg sha1.alg crc64 := ⟨rfl, rfl, rfl⟩
  have key : ∀ c : Bytes, (((FP.new : FP md5.alg sha1.alg crc64).writes [c]).sum []).drop 18 = ((Spec.digest crc64 c).drop 1).take 6 := by
    intro c
    rw [(C52_content hs [c] []).1]
    simp only [List.flatten_cons, List.flatten_nil, List.append_nil]
    refine List.drop_left' ?_
    simp only [List.length_append, bigEndian_length, List.length_take, List.length_drop, Spec.digest, Alg.sum_length]
    rfl
  rw [key, key]
  exact crc64_last p b b'

/-- C149: among more contents than there are digests, two have the same; for every hash function. -/
theorem C149_collision (A : Alg) (f : Nat → Bytes) : ∃ i j, i < j ∧ j ≤ 256 ^ A.size ∧ Spec.digest A (f i) = Spec.digest A (f j) := by
  have hd : ∀ m, ofLittle (Spec.digest A m) < 256 ^ A.size := by
    intro m
    have := ofLittle_lt (Spec.digest A m)
    rwa [Spec.digest, A.sum_length] at this
  obtain ⟨i, j, hne, h⟩ := Fintype.exists_ne_map_eq_of_card_lt
    (fun i : Fin (256 ^ A.size + 1) => (⟨ofLittle (Spec.digest A (f i.1)), hd _⟩ : Fin (256 ^ A.size))) (by simp)
  have h' : Spec.digest A (f i.1) = Spec.digest A (f j.1) := by
    apply ofLittle_inj
    · simp only [Spec.digest, A.sum_length]
    · exact congrArg Fin.val h
  rcases Nat.lt_or_gt_of_ne (fun e => hne (Fin.ext e)) with c | c
  · exact ⟨i, j, c, Nat.le_of_lt_succ j.2, h'⟩
  · exact ⟨j, i, c, Nat.le_of_lt_succ i.2, h'.symm⟩

/-! ## Examples -/

/-- the check value of the CRC-32 and of the CRC-64 of the digits 1 to 9. -/
example : Spec.digest crc32 [0x31, 0x32, 0x33, 0x34, 0x35, 0x36, 0x37, 0x38, 0x39] = [0xcb, 0xf4, 0x39, 0x26] := by decide +kernel

example : Spec.digest crc64 [0x31, 0x32, 0x33, 0x34, 0x35, 0x36, 0x37, 0x38, 0x39] = [0xb9, 0x09, 0x56, 0xc7, 0x75, 0xa4, 0x10, 0x01] := by
  decide +kernel

/-- two bytes swapped are noticed, wherever they are. -/
example (p s : Bytes) : Spec.digest crc32 (p ++ [1, 2] ++ s) ≠ Spec.digest crc32 (p ++ [2, 1] ++ s) :=
  C149_crc32 p _ _ s rfl (by decide) (by decide)

example (p s : Bytes) : Spec.digest crc64 (p ++ [1, 0, 0, 0, 0, 0, 0, 2] ++ s) ≠ Spec.digest crc64 (p ++ [2, 0, 0, 0, 0, 0, 0, 1] ++ s) :=
  C149_crc64 p _ _ s rfl (by decide) (by decide)

/-- the last letter in the other case is not noticed by it, a digit one higher is. -/
example (p : Bytes) : (((FP.new : FP md5.alg sha1.alg crc64).writes [p ++ [0x41]]).sum []).drop 18 =
    (((FP.new : FP md5.alg sha1.alg crc64).writes [p ++ [0x61]]).sum []).drop 18 := (C149_fingerprint p _ _).2 rfl

example (p : Bytes) : (((FP.new : FP md5.alg sha1.alg crc64).writes [p ++ [0x31]]).sum []).drop 18 ≠
    (((FP.new : FP md5.alg sha1.alg crc64).writes [p ++ [0x32]]).sum []).drop 18 :=
  fun h => absurd ((C149_fingerprint p _ _).1 h) (by decide)

/-- four bytes with the CRC-32 zero. -/
example : Spec.digest crc32 ([] ++ [0x9d, 0x0a, 0xd9, 0x6d] ++ []) = [0, 0, 0, 0] := by decide +kernel

end Verif.Hash
