import Verif.Lemmas.Ciphers
import Verif.Spec.Galois
/-!
# C146: the tables and steps of the ciphers, checked against what the standards say about them
-/
set_option linter.unusedSectionVars false

namespace Verif.Crypto
open Verif.Spec

/-! ## AES -/

/-- C146: the S-box of AES takes the inverse in the field of 256 elements and applies the affine map, for every byte; and the inverse
S-box undoes it. -/
theorem C146_aes_sbox (x : UInt8) :
    (∃ y, (if x = 0 then y = 0 else gmul x y = 1) ∧ subByte x = affine y) ∧ invSubByte (subByte x) = x ∧ subByte (invSubByte x) = x := by
  refine byte_ind (P := fun x => (∃ y, (if x = 0 then y = 0 else gmul x y = 1) ∧ subByte x = affine y) ∧
    invSubByte (subByte x) = x ∧ subByte (invSubByte x) = x) (fun n => ⟨?_, ?_⟩) x
  · let x2 := gmul (UInt8.ofNat n.1) (UInt8.ofNat n.1)
    let x4 := gmul x2 x2
    let x8 := gmul x4 x4
    let x16 := gmul x8 x8
    let x32 := gmul x16 x16
    let x64 := gmul x32 x32
    let x128 := gmul x64 x64
    refine ⟨gmul x2 (gmul x4 (gmul x8 (gmul x16 (gmul x32 (gmul x64 x128))))), ?_⟩
    revert n
    decide +kernel
  · revert n
    decide +kernel

theorem gmul_two (x : UInt8) : gmul 2 x = xtime x := by
  refine byte_ind (P := fun x => gmul 2 x = xtime x) ?_ x
  decide +kernel

theorem gmul_three (x : UInt8) : gmul 3 x = xtime x ^^^ x := by
  refine byte_ind (P := fun x => gmul 3 x = xtime x ^^^ x) ?_ x
  decide +kernel

theorem gmul_inv (x : UInt8) : gmul 9 x = mul9 x ∧ gmul 11 x = mul11 x ∧ gmul 13 x = mul13 x ∧ gmul 14 x = mul14 x := by
  refine byte_ind (P := fun x => gmul 9 x = mul9 x ∧ gmul 11 x = mul11 x ∧ gmul 13 x = mul13 x ∧ gmul 14 x = mul14 x) ?_ x
  decide +kernel

/-- C146: a column of AES is multiplied by the matrix of the standard, and backwards by the inverse one. -/
theorem C146_aes_columns (a b c d : UInt8) (r : Bytes) :
    mixColumns (a :: b :: c :: d :: r) =
      [gmul 2 a ^^^ gmul 3 b ^^^ c ^^^ d, a ^^^ gmul 2 b ^^^ gmul 3 c ^^^ d, a ^^^ b ^^^ gmul 2 c ^^^ gmul 3 d,
        gmul 3 a ^^^ b ^^^ c ^^^ gmul 2 d] ++ mixColumns r ∧
    invMixColumns (a :: b :: c :: d :: r) =
      [gmul 14 a ^^^ gmul 11 b ^^^ gmul 13 c ^^^ gmul 9 d, gmul 9 a ^^^ gmul 14 b ^^^ gmul 11 c ^^^ gmul 13 d,
        gmul 13 a ^^^ gmul 9 b ^^^ gmul 14 c ^^^ gmul 11 d, gmul 11 a ^^^ gmul 13 b ^^^ gmul 9 c ^^^ gmul 14 d] ++ invMixColumns r := by
  simp only [gmul_two, gmul_three, (gmul_inv _).1, (gmul_inv _).2.1, (gmul_inv _).2.2.1, (gmul_inv _).2.2.2]
  exact ⟨rfl, rfl⟩

/-- C146: in the state of AES, column by column, row `r` is moved `r` places to the left. -/
theorem C146_aes_rows (b : Bytes) (r c : Nat) (hr : r < 4) (hc : c < 4) :
    (pick shiftTable b).getD (4 * c + r) 0 = b.getD (4 * ((c + r) % 4) + r) 0 := by
  have h : ∀ r c : Fin 4, shiftTable[4 * c.1 + r.1]? = some (4 * ((c.1 + r.1) % 4) + r.1) := by decide
  have := h ⟨r, hr⟩ ⟨c, hc⟩
  simp only at this
  rw [pick, List.getD_eq_getElem?_getD, List.getElem?_map, this]
  rfl

/-! ### The key schedule -/

theorem repeat_words (nk : Nat) (n : Nat) (ws : List Bytes) :
    Nat.repeat (fun ws => nextWord nk ws :: ws) (n + 1) ws =
      nextWord nk (Nat.repeat (fun ws => nextWord nk ws :: ws) n ws) :: Nat.repeat (fun ws => nextWord nk ws :: ws) n ws := rfl

theorem repeat_length (nk : Nat) (n : Nat) (ws : List Bytes) :
    (Nat.repeat (fun ws => nextWord nk ws :: ws) n ws).length = n + ws.length := by
  induction n with
  | zero => simp [Nat.repeat]
  | succ n ih => rw [repeat_words, List.length_cons, ih]; omega

theorem repeat_suffix (nk : Nat) (n : Nat) (ws : List Bytes) (i : Nat) (hi : i < ws.length) :
    (Nat.repeat (fun ws => nextWord nk ws :: ws) n ws).reverse[i]? = ws.reverse[i]? := by
  induction n with
  | zero => rfl
  | succ n ih =>
    rw [repeat_words, List.reverse_cons, List.getElem?_append_left (by rw [List.length_reverse, repeat_length]; omega), ih]

theorem repeat_word (nk : Nat) (n : Nat) (ws : List Bytes) (i : Nat) (h1 : ws.length ≤ i) (h2 : i < n + ws.length) :
    (Nat.repeat (fun ws => nextWord nk ws :: ws) n ws).reverse[i]? =
      some (nextWord nk (Nat.repeat (fun ws => nextWord nk ws :: ws) (i - ws.length) ws)) := by
  induction n with
  | zero => omega
  | succ n ih =>
    rw [repeat_words, List.reverse_cons]
    by_cases h : i < n + ws.length
    · rw [List.getElem?_append_left (by rw [List.length_reverse, repeat_length]; omega), ih h]
    · have e : i = n + ws.length := by omega
      rw [List.getElem?_append_right (by rw [List.length_reverse, repeat_length]; omega), List.length_reverse, repeat_length, e]
      simp

theorem repeat_prev (nk : Nat) (n : Nat) (ws : List Bytes) (m j : Nat) (hm : m ≤ n) (hj : j < m + ws.length) :
    (Nat.repeat (fun ws => nextWord nk ws :: ws) m ws)[j]? =
      (Nat.repeat (fun ws => nextWord nk ws :: ws) n ws).reverse[m + ws.length - 1 - j]? := by
  induction n with
  | zero =>
    have : m = 0 := by omega
    subst this
    rw [List.getElem?_reverse (by rw [repeat_length]; omega), repeat_length]
    congr 1; omega
  | succ n ih =>
    by_cases e : m = n + 1
    · subst e
      rw [List.getElem?_reverse (by rw [repeat_length]; omega), repeat_length]
      congr 1; omega
    · rw [ih (by omega), repeat_words nk n, List.reverse_cons,
        List.getElem?_append_left (by rw [List.length_reverse, repeat_length]; omega)]

theorem flatten_word : ∀ (l : List Bytes) (i : Nat), (∀ w ∈ l, w.length = 4) → i < l.length → l[i]? = some ((l.flatten.drop (4 * i)).take 4)
  | [], i, _, h => by simp at h
  | w :: l, 0, hl, _ => by
    have hw := hl w (by simp)
    rw [List.flatten_cons, Nat.mul_zero, List.drop_zero, List.take_left' hw]; rfl
  | w :: l, i + 1, hl, h => by
    have hw := hl w (by simp)
    rw [List.flatten_cons, show 4 * (i + 1) = 4 + 4 * i by omega, ← List.drop_drop, List.drop_left' hw, List.getElem?_cons_succ,
      flatten_word l i (fun w hw => hl w (by simp [hw])) (by simpa using h)]

theorem rcon_eq (n : Nat) : rcon n = Nat.repeat (gmul 2) n 1 := by
  induction n with
  | zero => rfl
  | succ n ih => rw [rcon, ih, ← gmul_two]; rfl

theorem rotate_four (w : Bytes) (h : w.length = 4) : (w.rotateLeft 1).length = 4 := by
  match w, h with
  | [_, _, _, _], _ => rfl

theorem nextWord_length (nk : Nat) (ws : List Bytes) (h0 : 0 < nk) (h1 : nk ≤ ws.length) (h : ∀ w ∈ ws, w.length = 4) :
    (nextWord nk ws).length = 4 := by
  cases ws with
  | nil => simp at h1; omega
  | cons a ws =>
    have ha := h a (by simp)
    have hg : ((a :: ws).getD (nk - 1) []).length = 4 := by
      rw [List.getD_eq_getElem?_getD, List.getElem?_eq_getElem (by omega)]
      exact h _ (List.getElem_mem _)
    unfold nextWord
    simp only [List.headD_cons]
    refine xor_length hg ?_
    split
    · exact xor_length (by rw [List.length_map, rotate_four a ha]) rfl
    · split
      · rw [List.length_map, ha]
      · exact ha

theorem repeat_fours (nk : Nat) (n : Nat) (ws : List Bytes) (h0 : 0 < nk) (h1 : nk ≤ ws.length) (h : ∀ w ∈ ws, w.length = 4) :
    ∀ w ∈ Nat.repeat (fun ws => nextWord nk ws :: ws) n ws, w.length = 4 := by
  induction n with
  | zero => exact h
  | succ n ih =>
    rw [repeat_words]
    intro w hw
    rcases List.mem_cons.1 hw with rfl | hw
    · exact nextWord_length nk _ h0 (by rw [repeat_length]; omega) ih
    · exact ih w hw

theorem flatten_fours : ∀ (l : List Bytes), (∀ w ∈ l, w.length = 4) → l.flatten.length = 4 * l.length
  | [], _ => rfl
  | w :: l, h => by
    rw [List.flatten_cons, List.length_append, h w (by simp), flatten_fours l (fun w hw => h w (by simp [hw])), List.length_cons]; omega

/-- C146: the round keys of AES, for every key of 4, 6 or 8 words: the words of the key come first; each further word is the word `nk`
places before it, combined with the word just before it, which is first rotated, substituted and combined with a power of x if the number
of the word is a multiple of `nk`, and only substituted in the middle of a long key. -/
theorem C146_aes_schedule (key : Bytes) (nk : Nat) (hk : key.length = 4 * nk) (h : nk = 4 ∨ nk = 6 ∨ nk = 8) :
    let w := fun i => ((expandKey key).drop (4 * i)).take 4
    (expandKey key).length = 16 * (nk + 7) ∧ (∀ i, i < nk → w i = (key.drop (4 * i)).take 4) ∧
    ∀ i, nk ≤ i → i < 4 * (nk + 7) → w i = xor (w (i - nk))
      (if i % nk = 0 then xor (((w (i - 1)).rotateLeft 1).map subByte) [Nat.repeat (gmul 2) (i / nk - 1) 1, 0, 0, 0]
       else if nk = 8 ∧ i % 8 = 4 then (w (i - 1)).map subByte
       else w (i - 1)) := by
  intro w
  have hkw : (keyWords key).length = nk := by simp only [keyWords, List.length_reverse, List.length_map, List.length_range]; omega
  have hdiv : key.length / 4 = nk := by omega
  have hk4 : ∀ w ∈ keyWords key, w.length = 4 := by
    intro w hw
    simp only [keyWords, List.mem_reverse, List.mem_map, List.mem_range] at hw
    obtain ⟨i, hi, rfl⟩ := hw
    rw [List.length_take, List.length_drop]; omega
  have hN : 4 * (numRounds key + 1) - key.length / 4 + nk = 4 * (nk + 7) := by rw [numRounds, hdiv]; omega
  set N := 4 * (numRounds key + 1) - key.length / 4 with hNd
  set L := (Nat.repeat (fun ws => nextWord nk ws :: ws) N (keyWords key)).reverse with hL
  have hexp : expandKey key = L.flatten := by rw [expandKey, hL, hNd, hdiv]
  have hl4 : ∀ w ∈ L, w.length = 4 := by
    intro w hw
    exact repeat_fours nk N _ (by omega) (by omega) hk4 w (List.mem_reverse.1 hw)
  have hll : L.length = 4 * (nk + 7) := by rw [hL, List.length_reverse, repeat_length, hkw]; omega
  have hw : ∀ i, i < 4 * (nk + 7) → L[i]? = some (w i) := by
    intro i hi
    have := flatten_word L i hl4 (by omega)
    rw [← hexp] at this
    exact this
  refine ⟨by rw [hexp, flatten_fours L hl4, hll]; omega, fun i hi => ?_, fun i h1 h2 => ?_⟩
  · have e1 := hw i (by omega)
    rw [hL, repeat_suffix nk N _ i (by omega)] at e1
    have e2 : (keyWords key).reverse[i]? = some ((key.drop (4 * i)).take 4) := by
      rw [keyWords, List.reverse_reverse, List.getElem?_map, List.getElem?_range (by omega)]; rfl
    rw [e2] at e1
    exact (Option.some.inj e1).symm
  · have e1 := hw i h2
    rw [hL, repeat_word nk N _ i (by omega) (by omega)] at e1
    have hR := repeat_length nk (i - (keyWords key).length) (keyWords key)
    have p0 := repeat_prev nk N (keyWords key) (i - (keyWords key).length) 0 (by omega) (by omega)
    have p1 := repeat_prev nk N (keyWords key) (i - (keyWords key).length) (nk - 1) (by omega) (by omega)
    rw [hkw] at e1 hR p0 p1
    rw [← hL, show i - nk + nk - 1 - 0 = i - 1 by omega, hw (i - 1) (by omega)] at p0
    rw [← hL, show i - nk + nk - 1 - (nk - 1) = i - nk by omega, hw (i - nk) (by omega)] at p1
    rw [← Option.some.inj e1]
    generalize Nat.repeat (fun ws => nextWord nk ws :: ws) (i - nk) (keyWords key) = ws at hR p0 p1
    unfold nextWord
    have h0 : ws.headD [] = w (i - 1) := by
      cases ws with
      | nil => simp at p0
      | cons a ws => simpa using p0
    have hn : ws.getD (nk - 1) [] = w (i - nk) := by rw [List.getD_eq_getElem?_getD, p1]; rfl
    have hli : ws.length = i := by omega
    simp only [h0, hn, hli, rcon_eq]
    by_cases hz : i % nk = 0
    · simp only [if_pos hz]
    · simp only [if_neg hz]
      have : (6 < nk ∧ i % nk = 4) ↔ (nk = 8 ∧ i % 8 = 4) := by
        rcases h with rfl | rfl | rfl <;> omega
      simp only [this]

/-! ## DES -/

/-- C146: the tables of DES: every row of every S-box takes each value from 0 to 15 once; the permutation of a round takes each bit once;
the final permutation undoes the initial one; the bits of the key that matter are all but every eighth, each taken once; the second choice
takes 48 of the 56 bits; the halves of the key are rotated by one place in the rounds 1, 2, 9 and 16 and by two in the others. -/
theorem C146_des_tables :
    sBoxes.length = 8 ∧ (∀ s ∈ sBoxes, s.length = 64 ∧ ∀ r < 4, ∀ v < 16, v ∈ (s.drop (16 * r)).take 16) ∧
    tableP.length = 32 ∧ (∀ i < 32, i + 1 ∈ tableP) ∧
    tableIP.length = 64 ∧ tableFP.length = 64 ∧ (∀ i < 64, tableIP.getD (tableFP.getD i 0 - 1) 0 = i + 1) ∧
    (∀ i < 8, ∀ j < 8, tableIP.getD (8 * i + j) 0 = (if i < 4 then 58 + 2 * i else 49 + 2 * i) - 8 * j) ∧
    (∀ i < 8, (tableE.drop (6 * i)).take 6 = (List.range 6).map fun j => (4 * i + j + 31) % 32 + 1) ∧ tableE.length = 48 ∧
    tablePC1.length = 56 ∧ (∀ i < 64, i + 1 ∈ tablePC1 ↔ (i + 1) % 8 ≠ 0) ∧
    (∀ k < 28, tablePC1.getD k 0 = 57 + k / 8 - 8 * (k % 8) ∧
      tablePC1.getD (28 + k) 0 = (if k < 24 then 63 - k / 8 else 28) - 8 * (k % 8)) ∧
    tablePC2.length = 48 ∧ tablePC2.Nodup ∧ (∀ i ∈ tablePC2.take 24, 1 ≤ i ∧ i ≤ 28) ∧ (∀ i ∈ tablePC2.drop 24, 29 ≤ i ∧ i ≤ 56) ∧
    rotations.length = 16 ∧ (∀ i < 16, rotations.getD i 0 = (if i = 0 then 0 else rotations.getD (i - 1) 0) +
      (if i = 0 ∨ i = 1 ∨ i = 8 ∨ i = 15 then 1 else 2)) := by
  decide +kernel

/-- The shifts of the halves of the key in each round.  FIPS 46-3, page 24. -/
def shifts : List Nat := [1, 1, 2, 2, 2, 2, 2, 2, 1, 2, 2, 2, 2, 2, 2, 1]

/-- A half of the key after `i` rounds: shifted cyclically, round after round. -/
def halfKey {α : Type} (h : List α) : Nat → List α
  | 0 => h
  | i + 1 => (halfKey h i).drop (shifts.getD i 0) ++ (halfKey h i).take (shifts.getD i 0)

theorem halfKey_map {α β : Type} (f : α → β) (l : List α) (i : Nat) : halfKey (l.map f) i = (halfKey l i).map f := by
  induction i with
  | zero => rfl
  | succ i ih => simp only [halfKey, ih, List.map_append, List.map_drop, List.map_take]

theorem rotateLeft_map {α β : Type} (f : α → β) (l : List α) (n : Nat) : (l.map f).rotateLeft n = (l.rotateLeft n).map f := by
  unfold List.rotateLeft
  simp only [List.length_map]
  split
  · rfl
  · simp only [List.map_append, List.map_drop, List.map_take]

theorem halfKey_eq (h : List Bool) (hl : h.length = 28) (i : Nat) (hi : i < 16) : halfKey h (i + 1) = h.rotateLeft (rotations.getD i 0) := by
  have e : h = (List.range 28).map fun j => h.getD j false := by
    refine List.ext_getElem (by simp [hl]) fun j h1 h2 => ?_
    simp [List.getD_eq_getElem?_getD, List.getElem?_eq_getElem h1]
  rw [e, halfKey_map, rotateLeft_map]
  congr 1
  have : ∀ i : Fin 16, halfKey (List.range 28) (i.1 + 1) = (List.range 28).rotateLeft (rotations.getD i.1 0) := by decide +kernel
  exact this ⟨i, hi⟩

/-- C146: the round keys of DES, for every key: 56 bits of the key in two halves, which are shifted cyclically from round to round; each
round takes 48 bits of them. -/
theorem C146_des_schedule (key : Bytes) (i : Nat) (hi : i < 16) :
    let c := (tablePC1.take 28).map fun j => (toBits key).getD (j - 1) false
    let d := (tablePC1.drop 28).map fun j => (toBits key).getD (j - 1) false
    (roundKeys key).getD i [] = tablePC2.map fun j => (halfKey c (i + 1) ++ halfKey d (i + 1)).getD (j - 1) false := by
  intro c d
  have hr : rotations.length = 16 := rfl
  rw [halfKey_eq c (by simp [c, tablePC1]) i hi, halfKey_eq d (by simp [d, tablePC1]) i hi]
  unfold roundKeys
  rw [List.getD_eq_getElem?_getD, List.getElem?_map, List.getD_eq_getElem?_getD, List.getElem?_eq_getElem (by omega)]
  simp only [Option.map_some, Option.getD_some, permute, List.map_take, List.map_drop, c, d]

/-- C146: an S-box of DES: of six bits the outer two give the row and the inner four the column, the entry there is written with four bits. -/
theorem C146_des_sbox (n : Nat) (l : List Bool) (b0 b1 b2 b3 b4 b5 : Bool) (hn : n < 8) (hl : (l.drop (6 * n)).take 6 = [b0, b1, b2, b3, b4, b5]) :
    (sBox n l).length = 4 ∧ bitsNat (sBox n l) =
      (sBoxes.getD n []).getD (16 * (2 * b0.toNat + b5.toNat) + (8 * b1.toNat + 4 * b2.toNat + 2 * b3.toNat + b4.toNat)) 0 := by
  have g : ∀ i, i < 6 → l.getD (6 * n + i) false = [b0, b1, b2, b3, b4, b5].getD i false := by
    intro i hi
    rw [← hl, List.getD_eq_getElem?_getD, List.getD_eq_getElem?_getD, List.getElem?_take, if_pos hi, List.getElem?_drop]
  have key : ∀ n : Fin 8, ∀ b0 b1 b2 b3 b4 b5 : Bool,
      let v := (sBoxes.getD n.1 []).getD (bitsNat [b0, b5, b1, b2, b3, b4]) 0
      bitsNat ([3, 2, 1, 0].map fun i => v.testBit i) =
        (sBoxes.getD n.1 []).getD (16 * (2 * b0.toNat + b5.toNat) + (8 * b1.toNat + 4 * b2.toNat + 2 * b3.toNat + b4.toNat)) 0 := by
    decide +kernel
  unfold sBox
  simp only [g 0 (by decide), g 1 (by decide), g 2 (by decide), g 3 (by decide), g 4 (by decide), g 5 (by decide)]
  exact ⟨rfl, key ⟨n, hn⟩ b0 b1 b2 b3 b4 b5⟩

/-! ## Concrete cases -/

/-- C146_aes_schedule: a key of 24 bytes; and the first new word of the key schedule in FIPS 197, appendix A.1. -/
example : (List.range 24).length = 4 * 6 ∧
    ((expandKey [0x2b, 0x7e, 0x15, 0x16, 0x28, 0xae, 0xd2, 0xa6, 0xab, 0xf7, 0x15, 0x88, 0x09, 0xcf, 0x4f, 0x3c]).drop 16).take 4 =
      [0xa0, 0xfa, 0xfe, 0x17] := by
  decide +kernel

/-- C146_des_schedule, C146_des_sbox: the last round; six bits of eight. -/
example : (15 : Nat) < 16 ∧ (([true, false, true, true, false, true, true, true]).drop (6 * 0)).take 6 = [true, false, true, true, false, true] := by decide

/-- C146_aes_rows: the second row of the third column. -/
example : (1 : Nat) < 4 ∧ (2 : Nat) < 4 := by decide

/-- The products in FIPS 197, section 4.2. -/
example : gmul 0x57 0x83 = 0xc1 ∧ gmul 0x57 0x13 = 0xfe := by decide +kernel

end Verif.Crypto
