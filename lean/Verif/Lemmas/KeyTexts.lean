import Verif.Model.KeyTexts
import Verif.Lemmas.RsaMath
import Verif.Lemmas.Ciphers
/-!
# Lemmas on texts of keys
-/
set_option linter.unusedSectionVars false

namespace Verif.Rsa

open Verif.Hash (bigEndian ofBig)

/-! ## Numbers -/

theorem byteLen_unique {v k : Nat} (h1 : 256 ^ k ≤ v) (h2 : v < 256 ^ (k + 1)) : byteLen v = k + 1 := by
  have h0 : v ≠ 0 := by
    have : 0 < 256 ^ k := Nat.pow_pos (by decide)
    omega
  have a := byteLen_lt v
  have b := byteLen_le v h0
  have c1 : k < byteLen v := (Nat.pow_lt_pow_iff_right (by decide : 1 < 256)).1 (Nat.lt_of_le_of_lt h1 a)
  have c2 : byteLen v - 1 < k + 1 := (Nat.pow_lt_pow_iff_right (by decide : 1 < 256)).1 (Nat.lt_of_le_of_lt b h2)
  omega

theorem ofBig_cons (b : UInt8) (r : Bytes) : ofBig (b :: r) = b.toNat * 256 ^ r.length + ofBig r := by
  have key : ∀ (r : Bytes) (n : Nat), r.foldl (fun n b => 256 * n + b.toNat) n = n * 256 ^ r.length + r.foldl (fun n b => 256 * n + b.toNat) 0 := by
    intro r
    induction r with
    | nil => intro n; simp
    | cons c r ih =>
      intro n
      simp only [List.foldl_cons, List.length_cons]
      rw [ih, ih (256 * 0 + c.toNat), Nat.pow_succ]
      ring
  show (b :: r).foldl (fun n b => 256 * n + b.toNat) 0 = _
  rw [List.foldl_cons, key]
  simp [ofBig]

theorem byteLen_ofBig {b : UInt8} (r : Bytes) (hb : b ≠ 0) : byteLen (ofBig (b :: r)) = r.length + 1 := by
  apply byteLen_unique
  · rw [ofBig_cons]
    have h0 : b.toNat ≠ 0 := fun e => hb (UInt8.toNat_inj.1 e)
    have : 256 ^ r.length * 1 ≤ 256 ^ r.length * b.toNat := Nat.mul_le_mul_left _ (by omega)
    rw [Nat.mul_comm b.toNat]
    omega
  · exact ofBig_lt (b :: r)

/-- The bytes of a number that is not zero. -/
theorem bigEndian_cons {v : Nat} (h : v ≠ 0) : ∃ b r, bigEndian (byteLen v) v = b :: r ∧ b ≠ 0 ∧ ofBig (b :: r) = v ∧ r.length + 1 = byteLen v := by
  have hl := bigEndian_len (byteLen v) v
  have hv := ofBig_bigEndian _ v (byteLen_lt v)
  cases hb : bigEndian (byteLen v) v with
  | nil =>
    rw [hb] at hv
    exact absurd hv.symm h
  | cons b r =>
    rw [hb] at hl hv
    refine ⟨b, r, rfl, ?_, hv, hl⟩
    rintro rfl
    rw [ofBig_zero] at hv
    have h1 := ofBig_lt r
    have h2 := byteLen_le v h
    simp only [List.length_cons] at hl
    rw [← hl, Nat.add_sub_cancel] at h2
    omega

theorem bigEndian_self {b : UInt8} (r : Bytes) (hb : b ≠ 0) : bigEndian (byteLen (ofBig (b :: r))) (ofBig (b :: r)) = b :: r := by
  rw [byteLen_ofBig r hb]
  exact bigEndian_ofBig (b :: r)

theorem byteLen_mono {a b : Nat} (h : a ≤ b) : byteLen a ≤ byteLen b := by
  by_cases h0 : a = 0
  · subst h0
    unfold byteLen
    simp
  · have h1 := byteLen_le a h0
    have h2 := byteLen_lt b
    have := (Nat.pow_lt_pow_iff_right (by decide : 1 < 256)).1 (Nat.lt_of_le_of_lt (Nat.le_trans h1 h) h2)
    omega

theorem intBytes_length (v : Nat) : (intBytes v).length ≤ byteLen v + 1 ∧ (v < 2 ^ 63 → (intBytes v).length ≤ 8) := by
  by_cases h : v = 0
  · subst h
    have : byteLen 0 = 0 := by unfold byteLen; simp
    have e : intBytes 0 = [0] := by decide +kernel
    simp [e, this]
  · obtain ⟨b, r, e, hb, hv, hl⟩ := bigEndian_cons h
    unfold intBytes
    rw [e]
    simp only
    split
    · next h128 =>
      refine ⟨by simp only [List.length_cons]; omega, fun h63 => ?_⟩
      simp only [List.length_cons]
      rw [ofBig_cons] at hv
      by_contra hc
      have h7 : 7 ≤ r.length := by omega
      have : 256 ^ 7 ≤ 256 ^ r.length := Nat.pow_le_pow_right (by decide) h7
      have : 128 * 256 ^ 7 ≤ b.toNat * 256 ^ r.length := Nat.mul_le_mul h128 this
      omega
    · refine ⟨by simp only [List.length_cons]; omega, fun h63 => ?_⟩
      simp only [List.length_cons]
      have h2 := byteLen_le v h
      by_contra hc
      have : 256 ^ 8 ≤ 256 ^ (byteLen v - 1) := Nat.pow_le_pow_right (by decide) (by omega)
      omega

theorem intValue_intBytes (v : Nat) : intValue (intBytes v) = some (v : Int) := by
  by_cases h : v = 0
  · subst h
    decide +kernel
  · obtain ⟨b, r, e, hb, hv, hl⟩ := bigEndian_cons h
    unfold intBytes
    rw [e]
    simp only
    split
    · next h128 =>
      have hn : ¬(((0 : UInt8) = 0 ∧ b.toNat < 128) ∨ ((0 : UInt8) = 255 ∧ 128 ≤ b.toNat)) := by
        rintro (⟨-, h⟩ | ⟨h, -⟩)
        · omega
        · exact absurd h (by decide)
      show (if ((0 : UInt8) = 0 ∧ b.toNat < 128) ∨ ((0 : UInt8) = 255 ∧ 128 ≤ b.toNat) then none
        else some (if 128 ≤ (0 : UInt8).toNat then (ofBig (0 :: b :: r) : Int) - 256 ^ (r.length + 2) else ofBig (0 :: b :: r))) = _
      rw [if_neg hn, if_neg (by decide), ofBig_zero, hv]
    · next h128 =>
      cases r with
      | nil =>
        simp only [intValue, h128, if_false]
        rw [ofBig_cons] at hv
        simp [ofBig] at hv
        rw [hv]
      | cons c r =>
        have hn : ¬((b = 0 ∧ c.toNat < 128) ∨ (b = 255 ∧ 128 ≤ c.toNat)) := by
          rintro (⟨h, -⟩ | ⟨h, -⟩)
          · exact hb h
          · subst h
            exact h128 (by decide)
        simp only [intValue, if_neg hn, if_neg h128, hv]

theorem intBytes_of_value {c : Bytes} {v : Int} (h : intValue c = some v) (h0 : 0 ≤ v) : c = intBytes v.toNat := by
  match c, h with
  | [a], h =>
    simp only [intValue, Option.some.injEq] at h
    have ha := a.toNat_lt
    split at h
    · omega
    · next h128 =>
      subst h
      by_cases hz : a = 0
      · subst hz
        decide +kernel
      · have e := bigEndian_self [] hz
        have e1 : ofBig [a] = a.toNat := by simp [ofBig]
        rw [e1] at e
        simp only [Int.toNat_natCast, intBytes, e, h128, if_false]
  | a :: b :: r, h =>
    simp only [intValue] at h
    split at h
    · cases h
    · next hn =>
      simp only [Option.some.injEq] at h
      split at h
      · have := ofBig_lt (a :: b :: r)
        simp only [List.length_cons] at this
        have h2 : ((256 : Int) ^ (r.length + 2)) = ((256 ^ (r.length + 1 + 1) : Nat) : Int) := by push_cast; rfl
        omega
      · next h128 =>
        subst h
        rw [Int.toNat_natCast]
        by_cases hz : a = 0
        · subst hz
          have hb : 128 ≤ b.toNat := by
            by_contra hc
            exact hn (Or.inl ⟨rfl, by omega⟩)
          have hb0 : b ≠ 0 := by rintro rfl; exact absurd hb (by decide)
          rw [ofBig_zero]
          simp only [intBytes, bigEndian_self r hb0, hb, if_true]
        · simp only [intBytes, bigEndian_self (b :: r) hz, h128, if_false]

/-! ## Elements -/

theorem readLen_derLen (n : Nat) (hn : n < 2 ^ 56) (r : Bytes) : readLen (derLen n ++ r) = some (n, r) := by
  unfold derLen
  split
  · next h =>
    have e : (UInt8.ofNat n).toNat = n := by rw [UInt8.toNat_ofNat', Nat.mod_eq_of_lt (by omega)]
    simp only [List.cons_append, List.nil_append, readLen, e, h, if_true]
  · next h =>
    have h0 : n ≠ 0 := by omega
    obtain ⟨b, t, e, hb, hv, hl⟩ := bigEndian_cons h0
    have hk : byteLen n ≤ 7 := by
      have h2 := byteLen_le n h0
      by_contra hc
      have : 256 ^ 7 ≤ 256 ^ (byteLen n - 1) := Nat.pow_le_pow_right (by decide) (by omega)
      omega
    have e1 : (UInt8.ofNat (128 + byteLen n)).toNat = 128 + byteLen n := by rw [UInt8.toNat_ofNat', Nat.mod_eq_of_lt (by omega)]
    have hlen := bigEndian_len (byteLen n) n
    have ht : (bigEndian (byteLen n) n ++ r).take (byteLen n) = b :: t := by rw [List.take_left' hlen, e]
    have hd : (bigEndian (byteLen n) n ++ r).drop (byteLen n) = r := by rw [List.drop_left' hlen]
    simp only [List.cons_append, readLen, e1, Nat.add_sub_cancel_left, ht, hd, hv]
    rw [if_neg (by omega), if_neg (by rw [List.length_append, hlen]; omega), if_neg]
    rintro (h1 | h1)
    · simp only [List.head?_cons, Option.some.injEq] at h1
      exact hb h1
    · omega

theorem derLen_of_readLen {l r : Bytes} {n : Nat} (h : readLen l = some (n, r)) : l = derLen n ++ r := by
  match l, h with
  | b :: l, h =>
    have hb := b.toNat_lt
    simp only [readLen] at h
    split at h
    · next h128 =>
      simp only [Option.some.injEq, Prod.mk.injEq] at h
      obtain ⟨rfl, rfl⟩ := h
      simp [derLen, h128]
    · next h128 =>
      split at h
      · cases h
      · next hk =>
        split at h
        · cases h
        · next hz =>
          simp only [Option.some.injEq, Prod.mk.injEq] at h
          obtain ⟨rfl, rfl⟩ := h
          simp only [not_or, Nat.not_lt] at hk hz
          have hl : (l.take (b.toNat - 128)).length = b.toNat - 128 := by rw [List.length_take]; omega
          cases ht : l.take (b.toNat - 128) with
          | nil => rw [ht] at hl; simp only [List.length_nil] at hl; omega
          | cons c t =>
            rw [ht] at hz hl
            have hc : c ≠ 0 := by
              rintro rfl
              exact hz.1 rfl
            have e1 := byteLen_ofBig t hc
            have e2 := bigEndian_self t hc
            simp only [List.length_cons] at hl
            unfold derLen
            rw [if_neg (by omega), e2, e1, ← ht, hl, show 128 + (b.toNat - 128) = b.toNat by omega]
            simp

theorem readDer_der (tag : UInt8) (c r : Bytes) (hc : c.length < 2 ^ 56) : readDer tag (der tag c ++ r) = some (c, r) := by
  simp only [der, List.cons_append, List.append_assoc, readDer, if_true, readLen_derLen _ hc]
  rw [if_pos (by rw [List.length_append]; omega), List.take_left' rfl, List.drop_left' rfl]

theorem der_of_readDer {tag : UInt8} {l c r : Bytes} (h : readDer tag l = some (c, r)) : l = der tag c ++ r := by
  match l, h with
  | t :: l, h =>
    have h' : (if t = tag then
      match readLen l with
      | none => none
      | some (n, r) => if n ≤ r.length then some (r.take n, r.drop n) else none
      else none) = some (c, r) := h
    clear h
    split at h'
    · next ht =>
      subst ht
      split at h'
      · cases h'
      · next n l' hl =>
        split at h'
        · next hn =>
          simp only [Option.some.injEq, Prod.mk.injEq] at h'
          obtain ⟨rfl, rfl⟩ := h'
          have := derLen_of_readLen hl
          have e : (l'.take n).length = n := by rw [List.length_take]; omega
          rw [this, der, e, List.cons_append, List.append_assoc, List.take_append_drop]
        · cases h'
    · cases h'

theorem readInt_derInt (v : Nat) (r : Bytes) (hv : byteLen v < 2 ^ 48) : readInt (derInt v ++ r) = some ((v : Int), r) := by
  have := (intBytes_length v).1
  simp only [readInt, derInt]
  rw [readDer_der _ _ _ (by omega)]
  simp only [intValue_intBytes, Option.map_some]

theorem readSmall_derInt (v : Nat) (r : Bytes) (hv : v < 2 ^ 63) : readSmall (derInt v ++ r) = some ((v : Int), r) := by
  have := (intBytes_length v).2 hv
  simp only [readSmall, derInt]
  rw [readDer_der _ _ _ (by omega)]
  simp only [intValue_intBytes, Option.map_some, this, if_true]

theorem derInt_of_readInt {l r : Bytes} {v : Int} (h : readInt l = some (v, r)) (h0 : 0 ≤ v) : l = derInt v.toNat ++ r := by
  unfold readInt at h
  split at h
  · cases h
  · next c r' hd =>
    cases hv : intValue c with
    | none => rw [hv] at h; cases h
    | some w =>
      rw [hv] at h
      simp only [Option.map_some, Option.some.injEq, Prod.mk.injEq] at h
      obtain ⟨rfl, rfl⟩ := h
      rw [der_of_readDer hd, derInt, ← intBytes_of_value hv h0]

theorem readInt_of_readSmall {l r : Bytes} {v : Int} (h : readSmall l = some (v, r)) : readInt l = some (v, r) := by
  unfold readSmall at h
  unfold readInt
  split at h
  · cases h
  · next c r' hd =>
    split at h
    · simpa only using h
    · cases h

theorem skipInt_derInt (v : Nat) (r : Bytes) (hv : byteLen v < 2 ^ 48) : skipInt (derInt v ++ r) = some r := by
  unfold skipInt
  rw [readInt_derInt v r hv, if_pos (by simp [derInt, der])]
  rfl

theorem der_length (tag : UInt8) (c : Bytes) (hc : c.length < 2 ^ 56) : (der tag c).length ≤ c.length + 10 := by
  have : (derLen c.length).length ≤ 9 := by
    unfold derLen
    split
    · simp
    · next h =>
      rw [List.length_cons, bigEndian_len]
      have h2 := byteLen_le c.length (by omega)
      by_contra hcon
      have : 256 ^ 8 ≤ 256 ^ (byteLen c.length - 1) := Nat.pow_le_pow_right (by decide) (by omega)
      omega
  simp only [der, List.length_cons, List.length_append]
  omega

theorem derInt_length (v : Nat) (hv : byteLen v < 2 ^ 48) : (derInt v).length < 2 ^ 49 := by
  have h1 := (intBytes_length v).1
  have := der_length 2 (intBytes v) (by omega)
  unfold derInt
  omega

/-! ## PEM -/

theorem cut_first {p : Bytes} (hp : 10 ∉ p) (rest : Bytes) :
    ∀ pre : Bytes, ¬ (10 :: p) <:+: pre → cut (10 :: p) (pre ++ 10 :: (p ++ rest)) = some (pre, rest)
  | [], _ => by
    have h : (10 :: p) <+: 10 :: (p ++ rest) := ⟨rest, rfl⟩
    simp only [List.nil_append, cut, h, if_true]
    simp
  | b :: pre, hn => by
    have ih := cut_first hp rest pre fun h => hn (h.trans ⟨[b], [], by simp⟩)
    have h : ¬ (10 :: p) <+: b :: (pre ++ 10 :: (p ++ rest)) := by
      intro h
      by_cases hl : (10 :: p).length ≤ (b :: pre).length
      · have h2 : (b :: pre) <+: (b :: (pre ++ 10 :: (p ++ rest))) := ⟨10 :: (p ++ rest), rfl⟩
        exact hn (List.prefix_of_prefix_length_le h h2 hl).isInfix
      · obtain ⟨t, ht⟩ := h
        simp only [List.cons_append, List.cons.injEq] at ht
        simp only [List.length_cons, Nat.not_le] at hl
        have e := congrArg (fun l => l[pre.length]?) ht.2
        rw [List.getElem?_append_left (by omega), List.getElem?_append_right (Nat.le_refl _), Nat.sub_self] at e
        exact hp (List.mem_of_getElem? e)
    simp only [List.cons_append, cut, h, if_false, ih, Option.map_some]

theorem takeWhile_line : ∀ (x y : Bytes), 10 ∉ x → (x ++ 10 :: y).takeWhile (· ≠ 10) = x ∧ (x ++ 10 :: y).dropWhile (· ≠ 10) = 10 :: y
  | [], y, _ => by simp
  | a :: x, y, h => by
    have ha : a ≠ 10 := fun e => h (by simp [e])
    have ih := takeWhile_line x y fun hx => h (by simp [hx])
    simp only [List.cons_append, List.takeWhile_cons, List.dropWhile_cons, ha, ne_eq, not_false_eq_true, decide_true, if_true]
    exact ⟨by rw [ih.1], ih.2⟩

/-- Line breaks: as on Unix or as on Windows. -/
def IsBreak (eol : Bytes) : Prop := eol = [10] ∨ eol = [13, 10]

theorem trimRight_append (x : Bytes) (b : UInt8) (h : b ≠ 32 ∧ b ≠ 9) : trimRight (x ++ [b]) = x ++ [b] := by
  simp [trimRight, h.1, h.2]

theorem getLine_dashes {eol : Bytes} (he : IsBreak eol) (t rest : Bytes) (ht : 10 ∉ t) : getLine (t ++ dashes ++ (eol ++ rest)) = (t ++ dashes, rest) := by
  have e0 : t ++ dashes = t ++ [45, 45, 45, 45] ++ [45] := by simp [dashes]
  have ht' : 10 ∉ t ++ dashes := by simp [dashes, ht]
  rcases he with rfl | rfl
  · obtain ⟨h1, h2⟩ := takeWhile_line (t ++ dashes) rest ht'
    simp only [List.cons_append, List.nil_append, getLine, h1, h2, List.drop_one, List.tail_cons]
    rw [if_neg (by rw [e0]; simp), e0, trimRight_append _ _ (by decide)]
  · have ht2 : 10 ∉ t ++ dashes ++ [13] := by simp [dashes, ht]
    obtain ⟨h1, h2⟩ := takeWhile_line (t ++ dashes ++ [13]) rest ht2
    have e1 : t ++ dashes ++ ([13, 10] ++ rest) = t ++ dashes ++ [13] ++ 10 :: rest := by simp
    rw [e1]
    simp only [getLine, h1, h2, List.drop_one, List.tail_cons]
    rw [if_pos (by simp), List.dropLast_concat, e0, trimRight_append _ _ (by decide)]

theorem getLine_empty {eol : Bytes} (he : IsBreak eol) (rest : Bytes) : (getLine (eol ++ rest)).1 = [] := by
  rcases he with rfl | rfl <;> simp [getLine, trimRight]

theorem mem_getLine {c : UInt8} {l : Bytes} (h : c ∈ (getLine l).1) : c ∈ l.takeWhile (· ≠ 10) := by
  simp only [getLine, trimRight, List.mem_reverse] at h
  have h := (List.dropWhile_sublist _).subset h
  rw [List.mem_reverse] at h
  split at h
  · exact (List.dropLast_sublist _).subset h
  · exact h

theorem mem_takeWhile_line {c : UInt8} : ∀ {x y : Bytes}, c ∈ (x ++ 10 :: y).takeWhile (· ≠ 10) → c ∈ x
  | [], y, h => by simp at h
  | a :: x, y, h => by
    by_cases ha : a = 10
    · subst ha
      simp at h
    · simp only [List.cons_append, List.takeWhile_cons, ha, ne_eq, not_false_eq_true, decide_true, if_true, List.mem_cons] at h
      rcases h with rfl | h
      · simp
      · exact List.mem_cons_of_mem _ (mem_takeWhile_line h)

/-- The characters of base64. -/
theorem b64Enc_mem (b : Bytes) : ∀ c ∈ Crypto.b64Enc b, c = '=' ∨ ∃ n : Fin 64, c = Crypto.b64Char n.1 := by
  have key : ∀ n, n < 64 → ∃ m : Fin 64, Crypto.b64Char n = Crypto.b64Char m.1 := fun n h => ⟨⟨n, h⟩, rfl⟩
  fun_induction Crypto.b64Enc b with
  | case1 a b c r n ih =>
    have := a.toNat_lt; have := b.toNat_lt; have := c.toNat_lt
    intro x hx
    simp only [List.mem_cons] at hx
    rcases hx with rfl | rfl | rfl | rfl | hx
    · exact .inr (key _ (by omega))
    · exact .inr (key _ (by omega))
    · exact .inr (key _ (by omega))
    · exact .inr (key _ (by omega))
    · exact ih x hx
  | case2 a b n =>
    have := a.toNat_lt; have := b.toNat_lt
    intro x hx
    simp only [List.mem_cons, List.not_mem_nil, or_false] at hx
    rcases hx with rfl | rfl | rfl | rfl
    · exact .inr (key _ (by omega))
    · exact .inr (key _ (by omega))
    · exact .inr (key _ (by omega))
    · exact .inl rfl
  | case3 a n =>
    have := a.toNat_lt
    intro x hx
    simp only [List.mem_cons, List.not_mem_nil, or_false] at hx
    rcases hx with rfl | rfl | rfl | rfl
    · exact .inr (key _ (by omega))
    · exact .inr (key _ (by omega))
    · exact .inl rfl
    · exact .inl rfl
  | case4 => simp

/-- Blanks and line breaks. -/
def blank (b : UInt8) : Bool := b = 10 || b = 13 || b = 32 || b = 9

theorem b64_bytes : ∀ n : Fin 64, (Crypto.b64Char n.1).toNat < 256 ∧ UInt8.ofNat (Crypto.b64Char n.1).toNat ≠ 45 ∧
    UInt8.ofNat (Crypto.b64Char n.1).toNat ≠ 58 ∧ blank (UInt8.ofNat (Crypto.b64Char n.1).toNat) = false := by decide +kernel

theorem b64_byte {b : Bytes} {c : Char} (h : c ∈ Crypto.b64Enc b) :
    c.toNat < 256 ∧ UInt8.ofNat c.toNat ≠ 45 ∧ UInt8.ofNat c.toNat ≠ 58 ∧ blank (UInt8.ofNat c.toNat) = false := by
  rcases b64Enc_mem b c h with rfl | ⟨n, rfl⟩
  · decide +kernel
  · exact b64_bytes n

theorem charsOf_bytesOf : ∀ s : List Char, (∀ c ∈ s, c.toNat < 256) → charsOf (bytesOf s) = s
  | [], _ => rfl
  | c :: s, h => by
    have hc := h c (by simp)
    have ih := charsOf_bytesOf s fun d hd => h d (by simp [hd])
    simp only [charsOf, bytesOf, List.map_cons, List.map_map] at ih ⊢
    rw [ih, UInt8.toNat_ofNat', Nat.mod_eq_of_lt (by simpa using hc)]
    simp

theorem charsOf_filter (l : Bytes) : (charsOf l).filter (fun c => c ≠ '\n' ∧ c ≠ '\r') = charsOf (l.filter fun b => b ≠ 10 ∧ b ≠ 13) := by
  have key : ∀ b : UInt8, decide (Char.ofNat b.toNat ≠ '\n' ∧ Char.ofNat b.toNat ≠ '\r') = decide (b ≠ 10 ∧ b ≠ 13) := by
    have : ∀ n : Fin 256, decide (Char.ofNat (UInt8.ofNat n.1).toNat ≠ '\n' ∧ Char.ofNat (UInt8.ofNat n.1).toNat ≠ '\r') =
      decide (UInt8.ofNat n.1 ≠ 10 ∧ UInt8.ofNat n.1 ≠ 13) := by decide +kernel
    intro b
    have hb := this ⟨b.toNat, b.toNat_lt⟩
    simpa only [UInt8.ofNat_toNat] using hb
  induction l with
  | nil => rfl
  | cons b l ih =>
    simp only [charsOf, List.map_cons] at ih ⊢
    rw [List.filter_cons, List.filter_cons, key b, ih]
    split <;> rfl

theorem filter_blank (l : Bytes) : (removeBlanks l).filter (fun b => b ≠ 10 ∧ b ≠ 13) = l.filter fun b => !blank b := by
  rw [removeBlanks, List.filter_filter]
  congr 1
  funext b
  by_cases h1 : b = 10 <;> by_cases h2 : b = 13 <;> by_cases h3 : b = 32 <;> by_cases h4 : b = 9 <;> simp [blank, h1, h2, h3, h4]

/-- A body of base64 with blanks and line breaks is decoded. -/
theorem decode_body {body b : Bytes} (h : (body.filter fun c => !blank c) = bytesOf (Crypto.b64Enc b)) :
    Crypto.b64Dec (charsOf (removeBlanks body)) = some b := by
  have hp := Crypto.b64Groups_enc b
  rw [Crypto.b64Dec, charsOf_filter, filter_blank, h, charsOf_bytesOf _ fun c hc => (b64_byte hc).1]
  exact hp

theorem body_mem {body b : Bytes} (h : (body.filter fun c => !blank c) = bytesOf (Crypto.b64Enc b)) {c : UInt8} (hc : c ∈ body) :
    c ≠ 45 ∧ c ≠ 58 := by
  by_cases hb : blank c = true
  · simp only [blank, Bool.or_eq_true, decide_eq_true_eq] at hb
    rcases hb with ((rfl | rfl) | rfl) | rfl <;> decide
  · have : c ∈ body.filter fun c => !blank c := List.mem_filter.2 ⟨hc, by simpa using hb⟩
    rw [h, bytesOf, List.mem_map] at this
    obtain ⟨d, hd, rfl⟩ := this
    exact ⟨(b64_byte hd).2.1, (b64_byte hd).2.2.1⟩

/-- The general form: what `pem.Decode` reads. -/
theorem pemRead_text {pre t body post eol b : Bytes} (hpre : pre = [] ∨ ∃ x, pre = x ++ [10] ∧ ¬ pemBegin <:+: x)
    (he : IsBreak eol) (ht : 10 ∉ t ∧ 58 ∉ t) (hb : body = [] ∨ ∃ x, body = x ++ [10])
    (hbody : (body.filter fun c => !blank c) = bytesOf (Crypto.b64Enc b)) :
    pemRead (pre ++ pemBegin ++ t ++ dashes ++ eol ++ body ++ pemEnd ++ t ++ dashes ++ eol ++ post) = some b := by
  have hend : (10 : UInt8) ∈ eol ∧ ∃ y, eol = y ++ [10] ∧ 58 ∉ y := by
    rcases he with rfl | rfl
    · exact ⟨by simp, [], rfl, by simp⟩
    · exact ⟨by simp, [13], rfl, by simp⟩
  obtain ⟨y, hy, hy58⟩ := hend.2
  unfold pemRead
  generalize hN : (pre ++ pemBegin ++ t ++ dashes ++ eol ++ body ++ pemEnd ++ t ++ dashes ++ eol ++ post).length = N
  clear hN
  have hs : (if pemBegin <+: pre ++ pemBegin ++ t ++ dashes ++ eol ++ body ++ pemEnd ++ t ++ dashes ++ eol ++ post then
      some ((pre ++ pemBegin ++ t ++ dashes ++ eol ++ body ++ pemEnd ++ t ++ dashes ++ eol ++ post).drop pemBegin.length)
      else (cut (10 :: pemBegin) (pre ++ pemBegin ++ t ++ dashes ++ eol ++ body ++ pemEnd ++ t ++ dashes ++ eol ++ post)).map Prod.snd) =
      some (t ++ dashes ++ (eol ++ (body ++ (pemEnd ++ (t ++ dashes ++ (eol ++ post)))))) := by
    rcases hpre with rfl | ⟨x, rfl, hx⟩
    · rw [if_pos ⟨_, by simp only [List.nil_append, List.append_assoc]; rfl⟩]
      simp only [List.nil_append, List.append_assoc]
      rw [List.drop_left' rfl]
    · have hx2 : ¬ (10 :: pemBegin) <:+: x := fun h => hx ((List.suffix_cons 10 pemBegin).isInfix.trans h)
      have e := cut_first (p := pemBegin) (by decide) (t ++ dashes ++ (eol ++ (body ++ (pemEnd ++ (t ++ dashes ++ (eol ++ post)))))) x hx2
      have e1 : x ++ [10] ++ pemBegin ++ t ++ dashes ++ eol ++ body ++ pemEnd ++ t ++ dashes ++ eol ++ post =
          x ++ 10 :: (pemBegin ++ (t ++ dashes ++ (eol ++ (body ++ (pemEnd ++ (t ++ dashes ++ (eol ++ post))))))) := by
        simp only [List.append_assoc, List.cons_append, List.nil_append]
      rw [e1, e, if_neg]
      · rfl
      · intro hpr
        by_cases hl : pemBegin.length ≤ x.length
        · exact hx (List.prefix_of_prefix_length_le hpr ⟨_, rfl⟩ hl).isInfix
        · obtain ⟨z, hz⟩ := hpr
          have e := congrArg (fun l => l[x.length]?) hz
          rw [List.getElem?_append_left (by omega), List.getElem?_append_right (Nat.le_refl _), Nat.sub_self] at e
          exact absurd (List.mem_of_getElem? e) (by decide)
  unfold pemBlock
  rw [hs]
  simp only [getLine_dashes he t _ ht.1]
  rw [if_pos ⟨t, rfl⟩]
  have hty : (t ++ dashes).take ((t ++ dashes).length - dashes.length) = t := by
    rw [List.length_append, Nat.add_sub_cancel, List.take_left' rfl]
  rw [hty]
  have hh : skipHeaders ((body ++ (pemEnd ++ (t ++ dashes ++ (eol ++ post)))).length + 1) (body ++ (pemEnd ++ (t ++ dashes ++ (eol ++ post)))) =
      some (false, body ++ (pemEnd ++ (t ++ dashes ++ (eol ++ post)))) := by
    unfold skipHeaders
    rw [if_neg (by simp [pemEnd]), if_neg]
    intro h
    have h := mem_getLine h
    have e : body ++ (pemEnd ++ (t ++ dashes ++ (eol ++ post))) = (body ++ (pemEnd ++ (t ++ dashes ++ y))) ++ 10 :: post := by
      rw [hy]
      simp only [List.append_assoc, List.cons_append, List.nil_append]
    rw [e] at h
    have h := mem_takeWhile_line h
    simp only [List.mem_append] at h
    rcases h with h | h | (h | h) | h
    · exact (body_mem hbody h).2 rfl
    · exact absurd h (by decide)
    · exact ht.2 h
    · exact absurd h (by decide)
    · exact hy58 h
  rw [hh]
  have hc : ∃ body', (if (!false) = true ∧ pemEnd <+: body ++ (pemEnd ++ (t ++ dashes ++ (eol ++ post))) then
      some ([], (body ++ (pemEnd ++ (t ++ dashes ++ (eol ++ post)))).drop pemEnd.length)
      else cut (10 :: pemEnd) (body ++ (pemEnd ++ (t ++ dashes ++ (eol ++ post))))) = some (body', t ++ dashes ++ (eol ++ post)) ∧
      (body'.filter fun c => !blank c) = bytesOf (Crypto.b64Enc b) := by
    rcases hb with rfl | ⟨x, rfl⟩
    · refine ⟨[], ?_, hbody⟩
      rw [if_pos ⟨rfl, _, rfl⟩]
      simp only [List.nil_append]
      rw [List.drop_left' rfl]
    · refine ⟨x, ?_, ?_⟩
      · have hx : ¬ (10 :: pemEnd) <:+: x := by
          intro h
          have : (45 : UInt8) ∈ x := h.subset (by decide)
          exact (body_mem hbody (List.mem_append_left _ this)).1 rfl
        have e := cut_first (p := pemEnd) (by decide) (t ++ dashes ++ (eol ++ post)) x hx
        have e1 : x ++ [10] ++ (pemEnd ++ (t ++ dashes ++ (eol ++ post))) = x ++ 10 :: (pemEnd ++ (t ++ dashes ++ (eol ++ post))) := by
          simp only [List.append_assoc, List.cons_append, List.nil_append]
        rw [e1, e, if_neg]
        rintro ⟨-, z, hz⟩
        cases x with
        | nil => simp [pemEnd] at hz
        | cons c x =>
          simp only [pemEnd, List.cons_append, List.cons.injEq] at hz
          exact (body_mem hbody (c := c) (by simp)).1 hz.1.symm
      · rw [List.filter_append] at hbody
        simpa [blank] using hbody
  obtain ⟨body', hc1, hc2⟩ := hc
  simp only [hc1]
  have hlen : (t ++ dashes).length = t.length + dashes.length := List.length_append
  have htk : (t ++ dashes ++ (eol ++ post)).take (t.length + dashes.length) = t ++ dashes := List.take_left' hlen
  have hdr : (t ++ dashes ++ (eol ++ post)).drop (t.length + dashes.length) = eol ++ post := List.drop_left' hlen
  rw [htk, hdr, getLine_empty he, if_pos ⟨by rw [List.length_append, hlen]; omega, ⟨dashes, rfl⟩, ⟨t, rfl⟩, rfl⟩, decode_body hc2]

theorem breakLines_ends (l : Bytes) : breakLines l = [] ∨ ∃ x, breakLines l = x ++ [10] := by
  induction h : l.length using Nat.strong_induction_on generalizing l with
  | _ n ih =>
    subst h
    unfold breakLines
    split
    · exact .inl rfl
    · next hl =>
      have h0 : l.length ≠ 0 := by simpa using hl
      right
      rcases ih (l.drop 64).length (by rw [List.length_drop]; omega) (l.drop 64) rfl with e | ⟨x, e⟩
      · exact ⟨l.take 64, by rw [e]⟩
      · exact ⟨l.take 64 ++ 10 :: x, by rw [e]; simp⟩

theorem breakLines_filter (l : Bytes) (h : ∀ c ∈ l, blank c = false) : ((breakLines l).filter fun c => !blank c) = l := by
  induction hn : l.length using Nat.strong_induction_on generalizing l with
  | _ n ih =>
    subst hn
    unfold breakLines
    split
    · next hl => rw [hl]; rfl
    · next hl =>
      have h0 : l.length ≠ 0 := by simpa using hl
      have e := ih (l.drop 64).length (by rw [List.length_drop]; omega) (l.drop 64) (fun c hc => h c (List.mem_of_mem_drop hc)) rfl
      rw [List.filter_append, List.filter_cons, e]
      simp only [show blank 10 = true from rfl, Bool.not_true, Bool.false_eq_true, if_false]
      rw [List.filter_eq_self.2, List.take_append_drop]
      intro c hc
      simp [h c (List.mem_of_mem_take hc)]

theorem pemText_body (b : Bytes) : ((breakLines (bytesOf (Crypto.b64Enc b))).filter fun c => !blank c) = bytesOf (Crypto.b64Enc b) := by
  apply breakLines_filter
  intro c hc
  rw [bytesOf, List.mem_map] at hc
  obtain ⟨d, hd, rfl⟩ := hc
  exact (b64_byte hd).2.2.2

end Verif.Rsa
