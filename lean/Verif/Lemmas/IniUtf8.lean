import Verif.Lemmas.IniStrip
import Verif.Props.Ini
/-!
# UTF-8
-/

set_option linter.unusedSectionVars false

namespace Verif.IniBytes

theorem byte_toNat (n : Nat) (h : n < 256) : (UInt8.ofNat n).toNat = n := by
  rw [UInt8.toNat_ofNat']; omega

/-- The code of a character, in numbers. -/
theorem encode_cases (c : Char) :
    (c.toNat < 0x80 ∧ String.utf8EncodeChar c = [UInt8.ofNat c.toNat]) ∨
    (0x80 ≤ c.toNat ∧ c.toNat < 0x800 ∧
      String.utf8EncodeChar c = [UInt8.ofNat (0xC0 + c.toNat / 64), UInt8.ofNat (0x80 + c.toNat % 64)]) ∨
    (0x800 ≤ c.toNat ∧ c.toNat < 0x10000 ∧ (c.toNat < 0xD800 ∨ 0xDFFF < c.toNat) ∧
      String.utf8EncodeChar c = [UInt8.ofNat (0xE0 + c.toNat / 4096), UInt8.ofNat (0x80 + c.toNat / 64 % 64),
        UInt8.ofNat (0x80 + c.toNat % 64)]) ∨
    (0x10000 ≤ c.toNat ∧ c.toNat < 0x110000 ∧
      String.utf8EncodeChar c = [UInt8.ofNat (0xF0 + c.toNat / 262144), UInt8.ofNat (0x80 + c.toNat / 4096 % 64),
        UInt8.ofNat (0x80 + c.toNat / 64 % 64), UInt8.ofNat (0x80 + c.toNat % 64)]) := by
  have hv : c.toNat < 0xD800 ∨ (0xDFFF < c.toNat ∧ c.toNat < 0x110000) := c.valid
  have hd : String.utf8EncodeChar c = if c.toNat ≤ 0x7f then [UInt8.ofNat c.toNat]
    else if c.toNat ≤ 0x7ff then [UInt8.ofNat (c.toNat / 64 % 0x20 + 0xc0), UInt8.ofNat (c.toNat % 0x40 + 0x80)]
    else if c.toNat ≤ 0xffff then [UInt8.ofNat (c.toNat / 4096 % 0x10 + 0xe0), UInt8.ofNat (c.toNat / 64 % 0x40 + 0x80),
      UInt8.ofNat (c.toNat % 0x40 + 0x80)]
    else [UInt8.ofNat (c.toNat / 262144 % 0x08 + 0xf0), UInt8.ofNat (c.toNat / 4096 % 0x40 + 0x80),
      UInt8.ofNat (c.toNat / 64 % 0x40 + 0x80), UInt8.ofNat (c.toNat % 0x40 + 0x80)] := rfl
  rw [hd]
  generalize c.toNat = n at hv
  by_cases h1 : n ≤ 0x7f
  · left; rw [if_pos h1]; exact ⟨by omega, rfl⟩
  · right; rw [if_neg h1]
    by_cases h2 : n ≤ 0x7ff
    · left; rw [if_pos h2]
      refine ⟨by omega, by omega, ?_⟩
      rw [show n / 64 % 0x20 + 0xc0 = 0xC0 + n / 64 by omega, Nat.add_comm (n % 0x40)]
    · right; rw [if_neg h2]
      by_cases h3 : n ≤ 0xffff
      · left; rw [if_pos h3]
        refine ⟨by omega, by omega, by omega, ?_⟩
        rw [show n / 4096 % 0x10 + 0xe0 = 0xE0 + n / 4096 by omega, Nat.add_comm (n / 64 % 0x40), Nat.add_comm (n % 0x40)]
      · right; rw [if_neg h3]
        refine ⟨by omega, by omega, ?_⟩
        rw [show n / 262144 % 0x08 + 0xf0 = 0xF0 + n / 262144 by omega, Nat.add_comm (n / 4096 % 0x40), Nat.add_comm (n / 64 % 0x40), Nat.add_comm (n % 0x40)]

theorem decode_encode (c : Char) (x : Bytes) :
    decodeRune (String.utf8EncodeChar c ++ x) = (c.toNat, (String.utf8EncodeChar c).length) := by
  rcases encode_cases c with ⟨h1, e⟩ | ⟨h1, h2, e⟩ | ⟨h1, h2, h3, e⟩ | ⟨h1, h2, e⟩ <;> rw [e] <;> generalize c.toNat = n at *
  · simp only [List.cons_append, List.nil_append, decodeRune, byte_toNat n (by omega), h1, if_true]
    rfl
  · have ha := byte_toNat (0xC0 + n / 64) (by omega)
    have hb := byte_toNat (0x80 + n % 64) (by omega)
    generalize UInt8.ofNat (0xC0 + n / 64) = a at *
    generalize UInt8.ofNat (0x80 + n % 64) = b at *
    simp only [List.cons_append, List.nil_append, decodeRune]
    rw [if_neg (by omega), if_neg (by simp; omega), if_pos (by omega), decode2, if_pos (by simp [within]; omega)]
    simp only [List.length_cons, List.length_nil, Prod.mk.injEq, and_true]
    omega
  · have ha := byte_toNat (0xE0 + n / 4096) (by omega)
    have hb := byte_toNat (0x80 + n / 64 % 64) (by omega)
    have hc := byte_toNat (0x80 + n % 64) (by omega)
    generalize UInt8.ofNat (0xE0 + n / 4096) = a at *
    generalize UInt8.ofNat (0x80 + n / 64 % 64) = b at *
    generalize UInt8.ofNat (0x80 + n % 64) = d at *
    simp only [List.cons_append, List.nil_append, decodeRune]
    rw [if_neg (by omega), if_neg (by simp; omega), if_neg (by omega), if_pos (by omega), decode3, if_pos]
    · simp only [List.length_cons, List.length_nil, Prod.mk.injEq, and_true]
      omega
    · simp only [within, Bool.and_eq_true, decide_eq_true_eq]
      split_ifs <;> omega
  · have ha := byte_toNat (0xF0 + n / 262144) (by omega)
    have hb := byte_toNat (0x80 + n / 4096 % 64) (by omega)
    have hc := byte_toNat (0x80 + n / 64 % 64) (by omega)
    have hd := byte_toNat (0x80 + n % 64) (by omega)
    generalize UInt8.ofNat (0xF0 + n / 262144) = a at *
    generalize UInt8.ofNat (0x80 + n / 4096 % 64) = b at *
    generalize UInt8.ofNat (0x80 + n / 64 % 64) = d at *
    generalize UInt8.ofNat (0x80 + n % 64) = f at *
    simp only [List.cons_append, List.nil_append, decodeRune]
    rw [if_neg (by omega), if_neg (by simp; omega), if_neg (by omega), if_neg (by omega), decode4, if_pos]
    · simp only [List.length_cons, List.length_nil, Prod.mk.injEq, and_true]
      omega
    · simp only [within, Bool.and_eq_true, decide_eq_true_eq]
      split_ifs <;> omega

/-- The first byte of a code starts a rune, the others do not and are not ASCII. -/
theorem encode_shape (c : Char) : ∃ a r, String.utf8EncodeChar c = a :: r ∧ runeStart a = true ∧
    (∀ b ∈ r, runeStart b = false) ∧ (c.toNat < 0x80 → a.toNat = c.toNat ∧ r = []) ∧ (0x80 ≤ c.toNat → 0x80 ≤ a.toNat) := by
  rcases encode_cases c with ⟨h1, e⟩ | ⟨h1, h2, e⟩ | ⟨h1, h2, h3, e⟩ | ⟨h1, h2, e⟩ <;> rw [e] <;> generalize c.toNat = n at *
  all_goals refine ⟨_, _, rfl, ?_, ?_, ?_, ?_⟩
  · simp only [runeStart, byte_toNat n (by omega)]; simp [h1]
  · simp
  · exact fun _ => ⟨byte_toNat n (by omega), rfl⟩
  · omega
  · simp only [runeStart, byte_toNat (0xC0 + n / 64) (by omega)]; simp
  · simp only [List.mem_singleton, forall_eq, runeStart, byte_toNat (0x80 + n % 64) (by omega)]; simp; omega
  · omega
  · rw [byte_toNat (0xC0 + n / 64) (by omega)]; omega
  · simp only [runeStart, byte_toNat (0xE0 + n / 4096) (by omega)]; simp; omega
  · simp only [List.mem_cons, List.not_mem_nil, or_false, forall_eq_or_imp, forall_eq, runeStart, byte_toNat (0x80 + n % 64) (by omega),
      byte_toNat (0x80 + n / 64 % 64) (by omega)]; simp; omega
  · omega
  · rw [byte_toNat (0xE0 + n / 4096) (by omega)]; omega
  · simp only [runeStart, byte_toNat (0xF0 + n / 262144) (by omega)]; simp; omega
  · simp only [List.mem_cons, List.not_mem_nil, or_false, forall_eq_or_imp, forall_eq, runeStart, byte_toNat (0x80 + n % 64) (by omega),
      byte_toNat (0x80 + n / 64 % 64) (by omega), byte_toNat (0x80 + n / 4096 % 64) (by omega)]; simp; omega
  · omega
  · rw [byte_toNat (0xF0 + n / 262144) (by omega)]; omega

theorem not_start {b : UInt8} (h : runeStart b = false) : 0x80 ≤ b.toNat := by
  simp only [runeStart, Bool.or_eq_false_iff, decide_eq_false_iff_not] at h; omega

/-- A code that is the beginning of a text is the code of its first character. -/
theorem encode_prefix (c d : Char) (x : Bytes) (h : String.utf8EncodeChar d <+: String.utf8EncodeChar c ++ x) : c = d := by
  obtain ⟨y, hy⟩ := h
  have h1 := decode_encode c x
  rw [← hy, decode_encode d y] at h1
  exact Char.toNat_inj.1 (congrArg Prod.fst h1).symm

/-- A code that is the end of a text is the code of its last character. -/
theorem encode_suffix (c d : Char) (x : Bytes) (h : String.utf8EncodeChar d <:+ x ++ String.utf8EncodeChar c) : c = d := by
  obtain ⟨a, r, e1, ha, hr, -⟩ := encode_shape c
  obtain ⟨b, q, e2, hb, hq, -⟩ := encode_shape d
  have key : String.utf8EncodeChar c = String.utf8EncodeChar d := by
    rcases List.suffix_or_suffix_of_suffix h (List.suffix_append x _) with ⟨u, hu⟩ | ⟨u, hu⟩
    · cases u with
      | nil => exact hu.symm
      | cons z u =>
        rw [e1, e2] at hu
        simp only [List.cons_append, List.cons.injEq] at hu
        have := hr b (by rw [← hu.2]; simp)
        rw [hb] at this; cases this
    · cases u with
      | nil => exact hu
      | cons z u =>
        rw [e1, e2] at hu
        simp only [List.cons_append, List.cons.injEq] at hu
        have := hq a (by rw [← hu.2]; simp)
        rw [ha] at this; cases this
  exact encode_prefix c d [] (by rw [key]; simp)

theorem utf8_cons (c : Char) (cs : List Char) : Spec.utf8 (c :: cs) = String.utf8EncodeChar c ++ Spec.utf8 cs := by
  simp [Spec.utf8]

theorem utf8_append (a b : List Char) : Spec.utf8 (a ++ b) = Spec.utf8 a ++ Spec.utf8 b := by
  simp [Spec.utf8]

theorem utf8_singleton (c : Char) : Spec.utf8 [c] = String.utf8EncodeChar c := by simp [Spec.utf8]

theorem utf8_nil_iff (cs : List Char) : Spec.utf8 cs = [] ↔ cs = [] := by
  constructor
  · intro h
    cases cs with
    | nil => rfl
    | cons c cs =>
      obtain ⟨a, r, e, -⟩ := encode_shape c
      rw [utf8_cons, e] at h; simp at h
  · rintro rfl; rfl

theorem utf8_inj (a b : List Char) (h : Spec.utf8 a = Spec.utf8 b) : a = b := by
  induction a generalizing b with
  | nil => exact ((utf8_nil_iff b).1 h.symm).symm
  | cons c a ih =>
    cases b with
    | nil => exact absurd ((utf8_nil_iff _).1 h) (by simp)
    | cons d b =>
      rw [utf8_cons, utf8_cons] at h
      have : c = d := encode_prefix c d (Spec.utf8 a) ⟨Spec.utf8 b, h.symm⟩
      subst this
      rw [ih b (List.append_cancel_left h)]

/-- The white-space words are the codes of the white-space characters. -/
theorem white_iff (c : Char) : String.utf8EncodeChar c ∈ Spec.whites ↔ Ini.Spec.white c = true := by
  have hw : Ini.Spec.white c = true ↔ c.toNat ∈ Spec.whiteCodes := by
    simp [Ini.Spec.white, Spec.whiteCodes]
  have hof : ∀ n ∈ Spec.whiteCodes, (Char.ofNat n).toNat = n := by decide
  rw [hw]
  constructor
  · intro h
    obtain ⟨n, hn, e⟩ := List.mem_map.1 h
    have := encode_prefix c (Char.ofNat n) [] (by rw [List.append_nil, e]; exact List.prefix_refl _)
    rw [this, hof n hn]; exact hn
  · intro h
    refine List.mem_map.2 ⟨c.toNat, h, ?_⟩
    congr 1
    exact Char.toNat_inj.1 (hof _ h)

theorem whites_codes (w : Bytes) (h : w ∈ Spec.whites) : ∃ c, w = String.utf8EncodeChar c ∧ Ini.Spec.white c = true := by
  obtain ⟨n, hn, e⟩ := List.mem_map.1 h
  refine ⟨Char.ofNat n, e.symm, ?_⟩
  rw [← white_iff, e]; exact h

theorem stripped_utf8 (cs : List Char) (h : Ini.Spec.strip cs = cs) : Stripped (Spec.utf8 cs) := by
  intro w hw
  obtain ⟨d, rfl, hd⟩ := whites_codes w hw
  constructor
  · intro hp
    cases cs with
    | nil =>
      obtain ⟨a, r, e, -⟩ := encode_shape d
      have := List.prefix_nil.1 hp
      rw [e] at this; cases this
    | cons c cs =>
      rw [utf8_cons] at hp
      have hc := encode_prefix c d _ hp
      have := Ini.head_of_strip _ h c rfl
      rw [hc, hd] at this; cases this
  · intro hs
    rcases List.eq_nil_or_concat cs with rfl | ⟨v, c, rfl⟩
    · obtain ⟨a, r, e, -⟩ := encode_shape d
      have := List.suffix_nil.1 hs
      rw [e] at this; cases this
    · rw [List.concat_eq_append] at *
      rw [utf8_append, utf8_singleton] at hs
      have hc := encode_suffix c d _ hs
      have := Ini.last_of_strip _ h c (by simp)
      rw [hc, hd] at this; cases this

theorem strip_idem (cs : List Char) : Ini.Spec.strip (Ini.Spec.strip cs) = Ini.Spec.strip cs := by
  apply Ini.strip_of_ends
  · intro c hc
    unfold Ini.Spec.strip at hc
    have hp := List.rdropWhile_prefix Ini.Spec.white (cs.dropWhile Ini.Spec.white)
    have hne : (cs.dropWhile Ini.Spec.white).rdropWhile Ini.Spec.white ≠ [] := by
      intro e; rw [e] at hc; simp at hc
    obtain ⟨q, hq⟩ := hp
    have : (cs.dropWhile Ini.Spec.white).head? = some c := by
      rw [← hq, List.head?_append_of_ne_nil _ hne]; exact hc
    have h2 : cs.dropWhile Ini.Spec.white ≠ [] := by intro e; rw [e] at this; simp at this
    have h3 := List.head_dropWhile_not (p := Ini.Spec.white) (l := cs) h2
    rw [List.head?_eq_some_head h2] at this
    rw [← Option.some.inj this]; simpa using h3
  · intro c hc
    unfold Ini.Spec.strip at hc
    have hne : (cs.dropWhile Ini.Spec.white).rdropWhile Ini.Spec.white ≠ [] := by
      intro e; rw [e] at hc; simp at hc
    have h3 := List.rdropWhile_last_not Ini.Spec.white _ hne
    rw [List.getLast?_eq_some_getLast hne] at hc
    rw [← Option.some.inj hc]; simpa using h3

theorem map_flatten_utf8 (cs : List Char) : Spec.utf8 cs = (cs.map String.utf8EncodeChar).flatten := by
  simp [Spec.utf8, List.flatMap_def]

/-- White space is taken off a text and off its bytes alike. -/
theorem strip_utf8 (cs : List Char) : Spec.strip (Spec.utf8 cs) = Spec.utf8 (Ini.Spec.strip cs) := by
  have h1 := List.takeWhile_append_dropWhile (p := Ini.Spec.white) (l := cs)
  have h2 := List.rdropWhile_append_rtakeWhile (p := Ini.Spec.white) (l := cs.dropWhile Ini.Spec.white)
  have hs : Spec.utf8 cs = ((cs.takeWhile Ini.Spec.white).map String.utf8EncodeChar).flatten ++ Spec.utf8 (Ini.Spec.strip cs) ++
      (((cs.dropWhile Ini.Spec.white).rtakeWhile Ini.Spec.white).map String.utf8EncodeChar).flatten := by
    rw [← map_flatten_utf8, ← map_flatten_utf8, List.append_assoc, ← utf8_append, ← utf8_append]
    congr 1
    rw [Ini.Spec.strip, h2, h1]
  rw [hs]
  apply strip_unique
  · intro w hw
    obtain ⟨c, hc, rfl⟩ := List.mem_map.1 hw
    exact (white_iff c).2 (List.mem_takeWhile_imp hc)
  · intro w hw
    obtain ⟨c, hc, rfl⟩ := List.mem_map.1 hw
    exact (white_iff c).2 (List.mem_rtakeWhile_imp hc)
  · exact stripped_utf8 _ (strip_idem cs)

/-- An ASCII byte is found in a text only as the character. -/
theorem ascii_mem (c : Char) (b : UInt8) (hb : b.toNat < 0x80) (h : b ∈ String.utf8EncodeChar c) :
    c.toNat = b.toNat ∧ String.utf8EncodeChar c = [b] := by
  obtain ⟨a, r, e, ha, hr, h1, h2⟩ := encode_shape c
  rw [e] at h
  rcases List.mem_cons.1 h with rfl | h
  · by_cases hc : c.toNat < 0x80
    · obtain ⟨e1, rfl⟩ := h1 hc
      exact ⟨e1.symm, e⟩
    · have := h2 (by omega); omega
  · have := not_start (hr b h); omega

theorem encode_ascii (c : Char) (hc : c.toNat < 0x80) : String.utf8EncodeChar c = [UInt8.ofNat c.toNat] := by
  rcases encode_cases c with ⟨_, e⟩ | ⟨h, _⟩ | ⟨h, _⟩ | ⟨h, _⟩
  · exact e
  all_goals omega

theorem ascii_not_mem (c d : Char) (hd : d.toNat < 0x80) (h : c ≠ d) : UInt8.ofNat d.toNat ∉ String.utf8EncodeChar c := by
  intro hm
  have hb := byte_toNat d.toNat (by omega)
  have := (ascii_mem c _ (by rw [hb]; exact hd) hm).1
  rw [hb] at this
  exact h (Char.toNat_inj.1 this)

end Verif.IniBytes
