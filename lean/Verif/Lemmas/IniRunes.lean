import Verif.Lemmas.IniBytes
/-!
# `strings.TrimSpace` on bytes
-/

set_option linter.unusedSectionVars false

namespace Verif.IniBytes

theorem whites_eq : Spec.whites = [[9], [10], [11], [12], [13], [32], [0xC2, 0x85], [0xC2, 0xA0], [0xE1, 0x9A, 0x80],
    [0xE2, 0x80, 0x80], [0xE2, 0x80, 0x81], [0xE2, 0x80, 0x82], [0xE2, 0x80, 0x83], [0xE2, 0x80, 0x84], [0xE2, 0x80, 0x85],
    [0xE2, 0x80, 0x86], [0xE2, 0x80, 0x87], [0xE2, 0x80, 0x88], [0xE2, 0x80, 0x89], [0xE2, 0x80, 0x8A], [0xE2, 0x80, 0xA8],
    [0xE2, 0x80, 0xA9], [0xE2, 0x80, 0xAF], [0xE2, 0x81, 0x9F], [0xE3, 0x80, 0x80]] := by decide +kernel

theorem isSpace_iff (n : Nat) : isSpace n = true ↔ n ∈ Spec.whiteCodes := by
  unfold isSpace Spec.whiteCodes
  simp
  omega

theorem toNat_eq {b : UInt8} {n : Nat} (h : b.toNat = n) (hn : n < 256 := by decide) : b = UInt8.ofNat n := by
  apply UInt8.toNat_inj.1
  rw [h, UInt8.toNat_ofNat']
  omega

theorem decode2_space (a : Nat) (t : Bytes) (h1 : 0xC2 ≤ a) (h2 : a < 0xE0) (h : isSpace (decode2 a t).1 = true) :
    a = 0xC2 ∧ (decode2 a t).2 = 2 ∧ (t.take 1 = [0x85] ∨ t.take 1 = [0xA0]) := by
  unfold decode2 at h ⊢
  split at h
  · rename_i b r
    split at h
    · rename_i hw
      simp only [hw, if_true]
      simp only [within, Bool.and_eq_true, decide_eq_true_eq] at hw
      rw [isSpace_iff] at h
      simp only [Spec.whiteCodes, List.mem_cons, List.not_mem_nil, or_false] at h
      have : a = 0xC2 ∧ (b.toNat = 0x85 ∨ b.toNat = 0xA0) := by omega
      refine ⟨this.1, trivial, ?_⟩
      rcases this.2 with e | e
      · left; rw [toNat_eq e]; rfl
      · right; rw [toNat_eq e]; rfl
    · simp [isSpace] at h
  · simp [isSpace] at h

theorem decode3_space (a : Nat) (t : Bytes) (h1 : 0xE0 ≤ a) (h2 : a < 0xF0) (h : isSpace (decode3 a t).1 = true) :
    (decode3 a t).2 = 3 ∧ (UInt8.ofNat a :: t.take 2) ∈ Spec.whites := by
  unfold decode3 at h ⊢
  split at h
  · rename_i b c r
    have hlo : a = 0xE0 → 0xA0 ≤ (if a = 0xE0 then 0xA0 else 0x80) := by intro e; rw [if_pos e]
    have hlo' : 0x80 ≤ (if a = 0xE0 then 0xA0 else 0x80) := by split_ifs <;> omega
    have hhi : (if a = 0xED then 0x9F else 0xBF) ≤ 0xBF := by split_ifs <;> omega
    generalize (if a = 0xE0 then 0xA0 else 0x80) = lo at *
    generalize (if a = 0xED then 0x9F else 0xBF) = hi at *
    split at h
    · rename_i hw
      simp only [hw, if_true, true_and]
      simp only [within, Bool.and_eq_true, decide_eq_true_eq] at hw
      rw [isSpace_iff] at h
      simp only [Spec.whiteCodes, List.mem_cons, List.not_mem_nil, or_false] at h
      have key : ∀ n : Nat, (a - 0xE0) * 4096 + (b.toNat - 0x80) * 64 + (c.toNat - 0x80) = n → a = 0xE0 + n / 4096 ∧
          b.toNat = 0x80 + n / 64 % 64 ∧ c.toNat = 0x80 + n % 64 := by
        intro n hn; omega
      simp only [List.take_succ_cons, List.take_zero]
      rw [whites_eq]
      rcases h with h | h | h | h | h | h | h | h | h | h | h | h | h | h | h | h | h | h | h | h | h | h | h | h | h <;>
        obtain ⟨e1, e2, e3⟩ := key _ h <;>
        first
        | (exfalso; omega)
        | (rw [toNat_eq e2, toNat_eq e3, e1]; decide)
    · simp [isSpace] at h
  · simp [isSpace] at h

theorem decode4_space (a : Nat) (t : Bytes) (h1 : 0xF0 ≤ a) : isSpace (decode4 a t).1 = false := by
  unfold decode4
  split
  · rename_i b c d r
    have hlo : a = 0xF0 → 0x90 ≤ (if a = 0xF0 then 0x90 else 0x80) := by intro e; rw [if_pos e]
    generalize (if a = 0xF0 then 0x90 else 0x80) = lo at *
    generalize (if a = 0xF4 then 0x8F else 0xBF) = hi at *
    split
    · rename_i hw
      simp only [within, Bool.and_eq_true, decide_eq_true_eq] at hw
      cases hs : isSpace ((a - 0xF0) * 262144 + (b.toNat - 0x80) * 4096 + (c.toNat - 0x80) * 64 + (d.toNat - 0x80)) with
      | false => rfl
      | true =>
        exfalso
        rw [isSpace_iff] at hs
        simp only [Spec.whiteCodes, List.mem_cons, List.not_mem_nil, or_false] at hs
        have : 0x10000 ≤ (a - 0xF0) * 262144 + (b.toNat - 0x80) * 4096 := by
          by_cases e : a = 0xF0
          · have := hlo e; omega
          · omega
        omega
    · simp [isSpace]
  · simp [isSpace]

/-- A space at the front is one of the words. -/
theorem space_front (s : Bytes) (h : isSpace (decodeRune s).1 = true) :
    s.take (decodeRune s).2 ∈ Spec.whites := by
  cases s with
  | nil => simp [decodeRune, isSpace] at h
  | cons p t =>
    rw [decodeRune] at h ⊢
    have hp : p.toNat < 256 := UInt8.toNat_lt p
    by_cases h1 : p.toNat < 0x80
    · rw [if_pos h1] at h ⊢
      rw [isSpace_iff] at h
      simp only [Spec.whiteCodes, List.mem_cons, List.not_mem_nil, or_false] at h
      simp only [List.take_succ_cons, List.take_zero]
      rw [whites_eq]
      rcases h with h | h | h | h | h | h | h | h | h | h | h | h | h | h | h | h | h | h | h | h | h | h | h | h | h <;>
        first
        | (exfalso; omega)
        | (rw [toNat_eq h]; decide)
    · rw [if_neg h1] at h ⊢
      by_cases h2 : (decide (p.toNat < 0xC2) || decide (0xF4 < p.toNat)) = true
      · rw [if_pos h2] at h; simp [isSpace] at h
      · rw [if_neg h2] at h ⊢
        simp only [Bool.or_eq_true, decide_eq_true_eq, not_or, not_lt] at h2
        by_cases h3 : p.toNat < 0xE0
        · rw [if_pos h3] at h ⊢
          obtain ⟨e1, e2, e3⟩ := decode2_space _ t h2.1 h3 h
          rw [e2, List.take_succ_cons, toNat_eq e1, whites_eq]
          rcases e3 with e | e <;> rw [e] <;> decide
        · rw [if_neg h3] at h ⊢
          by_cases h4 : p.toNat < 0xF0
          · rw [if_pos h4] at h ⊢
            obtain ⟨e1, e2⟩ := decode3_space _ t (by omega) h4 h
            rw [e1, List.take_succ_cons]
            simpa using e2
          · rw [if_neg h4] at h
            rw [decode4_space _ _ (by omega)] at h
            cases h

/-- More bytes behind a rune of two bytes or more change nothing. -/
theorem decode_append (x y : Bytes) (h : 2 ≤ (decodeRune x).2) : decodeRune (x ++ y) = decodeRune x := by
  cases x with
  | nil => simp [decodeRune] at h
  | cons p t =>
    rw [List.cons_append]
    simp only [decodeRune] at h ⊢
    split_ifs at h ⊢ with h1 h2 h3 h4
    · simp at h
    · simp at h
    · match t with
      | [] => simp [decode2] at h
      | b :: r => rfl
    · match t with
      | [] => simp [decode3] at h
      | [b] => simp [decode3] at h
      | b :: c :: r => rfl
    · match t with
      | [] => simp [decode4] at h
      | [b] => simp [decode4] at h
      | [b, c] => simp [decode4] at h
      | b :: c :: d :: r => rfl

/-- A rune of two bytes or more goes on with a byte that starts none. -/
theorem decode_second (p : UInt8) (t : Bytes) (h : 2 ≤ (decodeRune (p :: t)).2) :
    ∃ b r, t = b :: r ∧ runeStart b = false := by
  have hw : ∀ lo hi b, 0x80 ≤ lo → hi ≤ 0xBF → within lo hi b = true → runeStart b = false := by
    intro lo hi b h1 h2 h3
    simp only [within, runeStart, Bool.and_eq_true, decide_eq_true_eq, Bool.or_eq_false_iff, decide_eq_false_iff_not] at h3 ⊢
    omega
  simp only [decodeRune] at h
  split_ifs at h with h1 h2 h3 h4
  · simp at h
  · simp at h
  · unfold decode2 at h
    split at h
    · rename_i b r
      split at h
      · rename_i hb; exact ⟨b, r, rfl, hw _ _ b (by omega) (by omega) hb⟩
      · simp at h
    · simp at h
  · unfold decode3 at h
    split at h
    · rename_i b c r
      have hlo : 0x80 ≤ (if p.toNat = 0xE0 then 0xA0 else 0x80) := by split_ifs <;> omega
      have hhi : (if p.toNat = 0xED then 0x9F else 0xBF) ≤ 0xBF := by split_ifs <;> omega
      generalize (if p.toNat = 0xE0 then 0xA0 else 0x80) = lo at *
      generalize (if p.toNat = 0xED then 0x9F else 0xBF) = hi at *
      split at h
      · rename_i hb
        rw [Bool.and_eq_true] at hb
        exact ⟨b, _, rfl, hw _ _ b hlo hhi hb.1⟩
      · simp at h
    · simp at h
  · unfold decode4 at h
    split at h
    · rename_i b c d r
      have hlo : 0x80 ≤ (if p.toNat = 0xF0 then 0x90 else 0x80) := by split_ifs <;> omega
      have hhi : (if p.toNat = 0xF4 then 0x8F else 0xBF) ≤ 0xBF := by split_ifs <;> omega
      generalize (if p.toNat = 0xF0 then 0x90 else 0x80) = lo at *
      generalize (if p.toNat = 0xF4 then 0x8F else 0xBF) = hi at *
      split at h
      · rename_i hb
        rw [Bool.and_eq_true, Bool.and_eq_true] at hb
        exact ⟨b, _, rfl, hw _ _ b hlo hhi hb.1.1⟩
      · simp at h
    · simp at h

theorem whites_shape : ∀ w ∈ Spec.whites, isSpace (decodeRune w).1 = true ∧ (decodeRune w).2 = w.length ∧
    ((∃ x, w = [x] ∧ x.toNat < 0x80) ∨ (∃ a b, w = [a, b] ∧ runeStart a = true ∧ runeStart b = false) ∨
      (∃ a b c, w = [a, b, c] ∧ runeStart a = true ∧ runeStart b = false ∧ runeStart c = false)) := by
  rw [whites_eq]
  simp only [List.forall_mem_cons, List.not_mem_nil, false_implies, implies_true, and_true]
  refine ⟨?_, ?_, ?_, ?_, ?_, ?_, ?_, ?_, ?_, ?_, ?_, ?_, ?_, ?_, ?_, ?_, ?_, ?_, ?_, ?_, ?_, ?_, ?_, ?_, ?_⟩
  all_goals first
    | exact ⟨by decide, by decide, .inl ⟨_, rfl, by decide⟩⟩
    | exact ⟨by decide, by decide, .inr (.inl ⟨_, _, rfl, by decide, by decide⟩)⟩
    | exact ⟨by decide, by decide, .inr (.inr ⟨_, _, _, rfl, by decide, by decide, by decide⟩)⟩

/-- A word at the front is a space. -/
theorem front_space (w s : Bytes) (hw : w ∈ Spec.whites) :
    isSpace (decodeRune (w ++ s)).1 = true ∧ (decodeRune (w ++ s)).2 = w.length := by
  obtain ⟨h1, h2, h3⟩ := whites_shape w hw
  rcases h3 with ⟨x, rfl, hx⟩ | ⟨a, b, rfl, -⟩ | ⟨a, b, c, rfl, -⟩
  · simp only [decodeRune, hx, if_true, List.cons_append] at h1 h2 ⊢
    exact ⟨h1, h2⟩
  · rw [decode_append _ _ (by rw [h2]; simp)]; exact ⟨h1, h2⟩
  · rw [decode_append _ _ (by rw [h2]; simp)]; exact ⟨h1, h2⟩

theorem find_front (ws : List Bytes) (s w : Bytes) (h : ws.find? (fun w => w.isPrefixOf s) = some w) :
    w ∈ ws ∧ s = w ++ s.drop w.length := by
  have h1 := List.find?_some h
  have h2 := List.mem_of_find?_eq_some h
  obtain ⟨r, hr⟩ := List.isPrefixOf_iff_prefix.1 h1
  exact ⟨h2, by rw [← hr]; simp⟩

theorem trimLeft_nil : trimLeft [] = [] := by rw [trimLeft.eq_def]

theorem trimLeft_cons (p : UInt8) (t : Bytes) : trimLeft (p :: t) =
    if isSpace (decodeRune (p :: t)).1 then trimLeft ((p :: t).drop (decodeRune (p :: t)).2) else p :: t := by
  rw [trimLeft.eq_def]

theorem trimLeft_eq (n : Nat) (s : Bytes) (h : s.length ≤ n) : trimLeft s = Spec.lstrip Spec.whites n s := by
  induction n generalizing s with
  | zero =>
    obtain rfl : s = [] := List.length_eq_zero_iff.1 (by omega)
    rw [trimLeft_nil, Spec.lstrip]
  | succ n ih =>
    rw [Spec.lstrip]
    cases hf : Spec.whites.find? (fun w => w.isPrefixOf s) with
    | none =>
      cases s with
      | nil => rw [trimLeft_nil]
      | cons p t =>
        rw [trimLeft_cons, if_neg]
        intro hsp
        have := space_front _ hsp
        have h1 := List.find?_eq_none.1 hf _ this
        exact h1 (List.isPrefixOf_iff_prefix.2 (List.take_prefix _ _))
    | some w =>
      obtain ⟨hw, hs⟩ := find_front _ _ _ hf
      obtain ⟨h1, h2⟩ := front_space w (s.drop w.length) hw
      rw [← hs] at h1 h2
      have hl : 0 < w.length := by
        rcases (whites_shape w hw).2.2 with ⟨x, rfl, _⟩ | ⟨a, b, rfl, -⟩ | ⟨a, b, c, rfl, -⟩ <;> simp
      cases s with
      | nil => simp only [decodeRune] at h2; omega
      | cons p t =>
        rw [trimLeft_cons, if_pos h1, h2]
        simp only
        apply ih
        rw [List.length_drop]; omega

/-! ## From the back -/

theorem decodeLast_concat (v : Bytes) (b : UInt8) (h : b.toNat < 0x80) : decodeLast (v ++ [b]) = (b.toNat, 1) := by
  simp [decodeLast, h]

theorem backTo_le (s : Bytes) (lim p : Nat) : backTo s lim p ≤ p := by
  induction p with
  | zero => rw [backTo]
  | succ p ih => rw [backTo]; split_ifs <;> omega

/-- A space at the back is one of the words. -/
theorem space_back (s : Bytes) (h : isSpace (decodeLast s).1 = true) :
    (decodeLast s).2 ≤ s.length ∧ s.drop (s.length - (decodeLast s).2) ∈ Spec.whites := by
  rcases List.eq_nil_or_concat s with rfl | ⟨v, b, rfl⟩
  · simp [decodeLast, isSpace] at h
  · rw [List.concat_eq_append] at h ⊢
    by_cases hb : b.toNat < 0x80
    · rw [decodeLast_concat v b hb] at h ⊢
      have := space_front [b] (by simpa [decodeRune, hb] using h)
      simp only [decodeRune, hb, if_true, List.take_succ_cons, List.take_zero] at this
      simpa using this
    · unfold decodeLast at h ⊢
      simp only [List.getLast?_concat, hb, if_false] at h ⊢
      split_ifs at h ⊢ with he
      · simp [isSpace] at h
      · simp only [ne_eq, not_not] at he
        have h1 := space_front _ h
        generalize backTo (v ++ [b]) ((v ++ [b]).length - 4) ((v ++ [b]).length - 1) = st at h h1 he ⊢
        refine ⟨by omega, ?_⟩
        rw [show (v ++ [b]).length - (decodeRune (List.drop st (v ++ [b]))).2 = st by omega]
        rwa [List.take_of_length_le] at h1
        rw [List.length_drop]; omega

/-- A word at the back is a space. -/
theorem back_space (v w : Bytes) (hw : w ∈ Spec.whites) :
    isSpace (decodeLast (v ++ w)).1 = true ∧ (decodeLast (v ++ w)).2 = w.length := by
  obtain ⟨h1, h2, h3⟩ := whites_shape w hw
  rcases h3 with ⟨x, rfl, hx⟩ | ⟨a, b, rfl, ha, hb⟩ | ⟨a, b, c, rfl, ha, hb, hc⟩
  · rw [decodeLast_concat v x hx]
    simp only [decodeRune, hx, if_true] at h1
    exact ⟨h1, rfl⟩
  · have hst : backTo (v ++ [a, b]) ((v ++ [a, b]).length - 4) ((v ++ [a, b]).length - 1) = v.length := by
      rw [show (v ++ [a, b]).length - 1 = v.length + 1 by simp, backTo, if_pos (by simp), if_pos]
      simpa using ha
    have hl : (v ++ [a, b]).getLast? = some b := by simp
    have hb' : ¬ b.toNat < 0x80 := by
      simp only [runeStart, Bool.or_eq_false_iff, decide_eq_false_iff_not] at hb; exact hb.1
    unfold decodeLast
    simp only [hl, hb', if_false, hst, List.drop_left, h2]
    simp [h1, h2]
  · have hst : backTo (v ++ [a, b, c]) ((v ++ [a, b, c]).length - 4) ((v ++ [a, b, c]).length - 1) = v.length := by
      rw [show (v ++ [a, b, c]).length - 1 = v.length + 1 + 1 by simp, backTo, if_pos (by simp; omega), if_neg, backTo,
        if_pos (by simp), if_pos]
      · simpa using ha
      · simpa [List.getD_eq_getElem?_getD, List.getElem?_append_right] using hb
    have hl : (v ++ [a, b, c]).getLast? = some c := by simp
    have hb' : ¬ c.toNat < 0x80 := by
      simp only [runeStart, Bool.or_eq_false_iff, decide_eq_false_iff_not] at hc; exact hc.1
    unfold decodeLast
    simp only [hl, hb', if_false, hst, List.drop_left, h2]
    simp [h1, h2]

/-- White space taken off the back. -/
def rstrip (n : Nat) (u : Bytes) : Bytes := (Spec.lstrip (Spec.whites.map List.reverse) n u.reverse).reverse

theorem find_back (u x : Bytes) (h : (Spec.whites.map List.reverse).find? (fun w => w.isPrefixOf u.reverse) = some x) :
    ∃ w ∈ Spec.whites, x = w.reverse ∧ ∃ v, u = v ++ w := by
  obtain ⟨h1, h2⟩ := find_front _ _ _ h
  obtain ⟨w, hw, rfl⟩ := List.mem_map.1 h1
  refine ⟨w, hw, rfl, (u.reverse.drop w.reverse.length).reverse, ?_⟩
  have := congrArg List.reverse h2
  rw [List.reverse_append, List.reverse_reverse, List.reverse_reverse] at this
  exact this

theorem find_back_none (u : Bytes) (h : (Spec.whites.map List.reverse).find? (fun w => w.isPrefixOf u.reverse) = none)
    (v w : Bytes) (hw : w ∈ Spec.whites) : u ≠ v ++ w := by
  rintro rfl
  have h1 := List.find?_eq_none.1 h w.reverse (List.mem_map.2 ⟨w, hw, rfl⟩)
  exact h1 (List.isPrefixOf_iff_prefix.2 (by rw [List.reverse_append]; exact List.prefix_append _ _))

theorem white_pos (w : Bytes) (hw : w ∈ Spec.whites) : ∃ a r, w = a :: r ∧ runeStart a = true := by
  rcases (whites_shape w hw).2.2 with ⟨x, rfl, hx⟩ | ⟨a, b, rfl, ha, -⟩ | ⟨a, b, c, rfl, ha, -⟩
  · exact ⟨x, [], rfl, by simp [runeStart, hx]⟩
  · exact ⟨a, _, rfl, ha⟩
  · exact ⟨a, _, rfl, ha⟩

theorem rstrip_none (n : Nat) (u : Bytes)
    (h : (Spec.whites.map List.reverse).find? (fun w => w.isPrefixOf u.reverse) = none) : rstrip n u = u := by
  cases n with
  | zero => simp [rstrip, Spec.lstrip]
  | succ n => simp [rstrip, Spec.lstrip, h]

theorem rstrip_some (n : Nat) (v w : Bytes)
    (h : (Spec.whites.map List.reverse).find? (fun x => x.isPrefixOf (v ++ w).reverse) = some w.reverse) :
    rstrip (n + 1) (v ++ w) = rstrip n v := by
  simp only [rstrip, Spec.lstrip, h]
  rw [List.reverse_append, List.drop_left]

/-- What is behind position `k` does not go on with a rune begun before. -/
def Clean (s : Bytes) (k : Nat) : Prop := ∀ b ∈ (s.drop k).head?, runeStart b = true

theorem lastIndex_zero (s : Bytes) (n : Nat) : lastIndex s n 0 = none := by
  cases n <;> rfl

theorem lastIndex_succ (s : Bytes) (n i : Nat) (hi : 0 < i) : lastIndex s (n + 1) i =
    if isSpace (decodeLast (s.take i)).1 then lastIndex s n (i - (decodeLast (s.take i)).2)
    else some (i - (decodeLast (s.take i)).2) := by
  cases i with
  | zero => omega
  | succ i => rfl

theorem lastIndex_spec (s : Bytes) (n i : Nat) (h1 : i ≤ n) (h2 : i ≤ s.length) (hc : Clean s i) :
    rstrip n (s.take i) = s.take (rstrip n (s.take i)).length ∧ Clean s (rstrip n (s.take i)).length ∧
    lastIndex s n i = if rstrip n (s.take i) = [] then none
      else some ((rstrip n (s.take i)).length - (decodeLast (rstrip n (s.take i))).2) := by
  induction n generalizing i with
  | zero =>
    obtain rfl : i = 0 := by omega
    have e : rstrip 0 (s.take 0) = [] := rfl
    rw [e, if_pos rfl]
    exact ⟨rfl, hc, lastIndex_zero s 0⟩
  | succ n ih =>
    have hlen : (s.take i).length = i := by rw [List.length_take]; omega
    cases hf : (Spec.whites.map List.reverse).find? (fun x => x.isPrefixOf (s.take i).reverse) with
    | none =>
      rw [rstrip_none _ _ hf, hlen]
      refine ⟨rfl, hc, ?_⟩
      by_cases h0 : i = 0
      · subst h0; simp [lastIndex_zero]
      · have hne : s.take i ≠ [] := by intro e; rw [e] at hlen; simp at hlen; omega
        rw [if_neg hne, lastIndex_succ _ _ _ (by omega), if_neg]
        intro hsp
        obtain ⟨h3, h4⟩ := space_back _ hsp
        exact find_back_none _ hf ((s.take i).take ((s.take i).length - (decodeLast (s.take i)).2)) _ h4
          (List.take_append_drop _ _).symm
    | some x =>
      obtain ⟨w, hw, rfl, v, hv⟩ := find_back _ _ hf
      obtain ⟨h3, h4⟩ := back_space v w hw
      obtain ⟨a, r, hwa, ha⟩ := white_pos w hw
      have hl : i = v.length + w.length := by rw [← hlen, hv, List.length_append]
      have hwl : 0 < w.length := by rw [hwa]; simp
      have hvt : v = s.take (i - w.length) := by
        rw [show i - w.length = v.length by omega]
        have : (s.take i).take v.length = v := by rw [hv, List.take_left]
        rw [List.take_take, Nat.min_eq_left (by omega)] at this
        exact this.symm
      have hcl : Clean s (i - w.length) := by
        intro b hb
        have hd : s = v ++ (w ++ s.drop i) := by
          rw [← List.append_assoc, ← hv, List.take_append_drop]
        rw [show i - w.length = v.length by omega, hd, List.drop_left, hwa] at hb
        simp at hb
        rw [← hb]; exact ha
      have := ih (i - w.length) (by omega) (by omega) hcl
      rw [hv] at hf ⊢
      rw [rstrip_some n v w hf, lastIndex_succ _ _ _ (by omega), hv, if_pos h3, h4]
      rw [← hvt] at this
      exact this

theorem decodeLast_pos (s : Bytes) (h : s ≠ []) : 0 < (decodeLast s).2 := by
  unfold decodeLast
  rw [List.getLast?_eq_some_getLast h]
  simp only
  split_ifs with h1 h2
  · exact Nat.one_pos
  · exact Nat.one_pos
  · cases hd : s.drop (backTo s (s.length - 4) (s.length - 1)) with
    | nil =>
      exfalso
      have h3 := congrArg List.length hd
      have h4 := backTo_le s (s.length - 4) (s.length - 1)
      have h5 := List.length_pos_iff.2 h
      rw [List.length_drop, List.length_nil] at h3
      omega
    | cons p t => exact decodeRune_pos p t

/-- Where the last rune of `s` begins, a rune of the same length begins also when more follows. -/
theorem last_width (s : Bytes) (k : Nat) (hk : k ≤ s.length) (h0 : s.take k ≠ []) (hc : Clean s k) :
    let j := k - (decodeLast (s.take k)).2
    (if 0x80 ≤ (s.getD j 0).toNat then j + (decodeRune (s.drop j)).2 else j + 1) = k := by
  have hlen : (s.take k).length = k := by rw [List.length_take]; omega
  have hkp : 0 < k := by
    have := List.length_pos_iff.2 h0; omega
  -- a rune of one byte
  have one : (decodeLast (s.take k)).2 = 1 →
      (if 0x80 ≤ (s.getD (k - 1) 0).toNat then k - 1 + (decodeRune (s.drop (k - 1))).2 else k - 1 + 1) = k := by
    intro _
    have hd : s.drop (k - 1) = s[k - 1] :: s.drop k := by
      rw [List.drop_eq_getElem_cons (by omega)]
      congr 2; omega
    have h1 : ¬ 2 ≤ (decodeRune (s.drop (k - 1))).2 := by
      intro h2
      rw [hd] at h2
      obtain ⟨b, r, e1, e2⟩ := decode_second _ _ h2
      have := hc b (by rw [e1]; rfl)
      rw [this] at e2; cases e2
    have h2 := decodeRune_pos s[k - 1] (s.drop k)
    rw [← hd] at h2
    split_ifs <;> omega
  intro j
  by_cases h1 : (decodeLast (s.take k)).2 = 1
  · have : j = k - 1 := by simp only [j, h1]
    rw [this]; exact one h1
  · have hne : decodeLast (s.take k) ≠ (0xFFFD, 1) := fun e => h1 (by rw [e])
    have hj : j + (decodeLast (s.take k)).2 = k ∧ decodeRune ((s.take k).drop j) = decodeLast (s.take k) := by
      have hd : decodeLast (s.take k) = decodeLast (s.take k) := rfl
      conv at hd => rhs; unfold decodeLast
      rw [List.getLast?_eq_some_getLast h0] at hd
      simp only at hd
      split_ifs at hd with h2 h3
      · exact absurd (by rw [hd]) h1
      · exact absurd hd hne
      · rw [← hd, hlen] at h3
        simp only [ne_eq, not_not] at h3
        have hj : j = backTo (s.take k) ((s.take k).length - 4) ((s.take k).length - 1) := by
          simp only [j]; rw [hlen]; omega
        rw [hj, ← hd, hlen]
        exact ⟨h3, rfl⟩
    have hp := decodeLast_pos _ h0
    have hw2 : 2 ≤ (decodeRune ((s.take k).drop j)).2 := by rw [hj.2]; omega
    have hs : s.drop j = (s.take k).drop j ++ s.drop k := by
      have h5 : j ≤ k := Nat.sub_le _ _
      conv_lhs => rw [← List.take_append_drop k s]
      rw [List.drop_append_of_le_length (by omega)]
    have hdec : decodeRune (s.drop j) = decodeLast (s.take k) := by
      rw [hs, decode_append _ _ hw2, hj.2]
    have hbig : 0x80 ≤ (s.getD j 0).toNat := by
      by_contra hlt
      have hd : s.drop j = s[j] :: s.drop (j + 1) := List.drop_eq_getElem_cons (by omega)
      have he : s.getD j 0 = s[j] := by simp [List.getD_eq_getElem?_getD, List.getElem?_eq_getElem (show j < s.length by omega)]
      rw [he] at hlt
      rw [hd, decodeRune, if_pos (by omega)] at hdec
      exact h1 (by rw [← hdec])
    rw [if_pos hbig, hdec]; exact hj.1

theorem trimRight_eq (s : Bytes) : trimRight s = rstrip s.length s := by
  have h := lastIndex_spec s s.length s.length (le_refl _) (le_refl _) (by intro b hb; simp at hb)
  rw [List.take_length] at h
  obtain ⟨h1, h2, h3⟩ := h
  rw [trimRight, h3]
  by_cases h0 : rstrip s.length s = []
  · simp [h0]
  · rw [if_neg h0]
    simp only
    have hk : (rstrip s.length s).length ≤ s.length := by
      have := congrArg List.length h1
      rw [List.length_take] at this; omega
    have h4 := last_width s _ hk (by rw [← h1]; exact h0) h2
    rw [← h1] at h4
    simp only at h4
    rw [← apply_ite (fun k => s.take k), h4]
    exact h1.symm

/-- `strings.TrimSpace` removes the white-space words at both ends. -/
theorem trimSpace_eq (s : Bytes) : trimSpace s = Spec.strip s := by
  rw [trimSpace, trimLeft_eq s.length s (le_refl _), trimRight_eq]
  rfl

end Verif.IniBytes
