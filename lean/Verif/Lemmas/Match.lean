import Verif.Model.Match
import Verif.Spec.Match
import Verif.Lemmas.IniRunes
set_option linter.unusedSectionVars false
/-! # Lemmas on `Match` -/

namespace Verif.Match
open Verif.IniBytes Verif.Spec.Glob

/-! ## Runes -/

theorem decode_cases (p : UInt8) (t : Bytes) : (decodeRune (p :: t)).2 = 1 ∨
    ∃ w u, p :: t = w ++ u ∧ w.length = (decodeRune (p :: t)).2 ∧ 2 ≤ w.length ∧ (∀ b ∈ w, 128 ≤ b.toNat) ∧
      ∀ y, decodeRune (w ++ y) = decodeRune (p :: t) := by
  have hw : ∀ lo hi b, 0x80 ≤ lo → IniBytes.within lo hi b = true → 128 ≤ b.toNat := by
    intro lo hi b h1 h3
    simp only [IniBytes.within, Bool.and_eq_true, decide_eq_true_eq] at h3
    omega
  by_cases h1 : p.toNat < 0x80
  · left; simp only [decodeRune, if_pos h1]
  by_cases h2 : (decide (p.toNat < 0xC2) || decide (0xF4 < p.toNat)) = true
  · left; simp only [decodeRune, if_neg h1, if_pos h2]
  by_cases h3 : p.toNat < 0xE0
  · match t with
    | [] => left; simp only [decodeRune, if_neg h1, if_neg h2, if_pos h3, decode2]
    | b :: r =>
      by_cases hb : IniBytes.within 0x80 0xBF b = true
      · right
        refine ⟨[p, b], r, rfl, ?_, by simp, ?_, fun y => ?_⟩
        · simp only [decodeRune, if_neg h1, if_neg h2, if_pos h3, decode2, if_pos hb]; rfl
        · intro x hx
          rcases List.mem_cons.1 hx with rfl | hx
          · omega
          · rw [List.mem_singleton.1 hx]; exact hw _ _ b (by omega) hb
        · simp only [decodeRune, List.cons_append, if_neg h1, if_neg h2, if_pos h3, decode2]
      · left; simp only [decodeRune, if_neg h1, if_neg h2, if_pos h3, decode2, if_neg hb]
  by_cases h4 : p.toNat < 0xF0
  · match t with
    | [] => left; simp only [decodeRune, if_neg h1, if_neg h2, if_neg h3, if_pos h4, decode3]
    | [b] => left; simp only [decodeRune, if_neg h1, if_neg h2, if_neg h3, if_pos h4, decode3]
    | b :: c :: r =>
      by_cases hb : (IniBytes.within (if p.toNat = 0xE0 then 0xA0 else 0x80) (if p.toNat = 0xED then 0x9F else 0xBF) b &&
          IniBytes.within 0x80 0xBF c) = true
      · right
        refine ⟨[p, b, c], r, rfl, ?_, by simp, ?_, fun y => ?_⟩
        · simp only [decodeRune, if_neg h1, if_neg h2, if_neg h3, if_pos h4, decode3, if_pos hb]; rfl
        · rw [Bool.and_eq_true] at hb
          intro x hx
          rcases List.mem_cons.1 hx with rfl | hx
          · omega
          rcases List.mem_cons.1 hx with rfl | hx
          · exact hw _ _ x (by split_ifs <;> omega) hb.1
          · rw [List.mem_singleton.1 hx]; exact hw _ _ c (by omega) hb.2
        · simp only [decodeRune, List.cons_append, if_neg h1, if_neg h2, if_neg h3, if_pos h4, decode3]
      · left; simp only [decodeRune, if_neg h1, if_neg h2, if_neg h3, if_pos h4, decode3, if_neg hb]
  · match t with
    | [] => left; simp only [decodeRune, if_neg h1, if_neg h2, if_neg h3, if_neg h4, decode4]
    | [b] => left; simp only [decodeRune, if_neg h1, if_neg h2, if_neg h3, if_neg h4, decode4]
    | [b, c] => left; simp only [decodeRune, if_neg h1, if_neg h2, if_neg h3, if_neg h4, decode4]
    | b :: c :: d :: r =>
      by_cases hb : (IniBytes.within (if p.toNat = 0xF0 then 0x90 else 0x80) (if p.toNat = 0xF4 then 0x8F else 0xBF) b &&
          IniBytes.within 0x80 0xBF c && IniBytes.within 0x80 0xBF d) = true
      · right
        refine ⟨[p, b, c, d], r, rfl, ?_, by simp, ?_, fun y => ?_⟩
        · simp only [decodeRune, if_neg h1, if_neg h2, if_neg h3, if_neg h4, decode4, if_pos hb]; rfl
        · rw [Bool.and_eq_true, Bool.and_eq_true] at hb
          intro x hx
          rcases List.mem_cons.1 hx with rfl | hx
          · omega
          rcases List.mem_cons.1 hx with rfl | hx
          · exact hw _ _ x (by split_ifs <;> omega) hb.1.1
          rcases List.mem_cons.1 hx with rfl | hx
          · exact hw _ _ x (by omega) hb.1.2
          · rw [List.mem_singleton.1 hx]; exact hw _ _ d (by omega) hb.2
        · simp only [decodeRune, List.cons_append, if_neg h1, if_neg h2, if_neg h3, if_neg h4, decode4]
      · left; simp only [decodeRune, if_neg h1, if_neg h2, if_neg h3, if_neg h4, decode4, if_neg hb]

theorem decode_ascii {p : UInt8} (h : p.toNat < 128) (t : Bytes) : decodeRune (p :: t) = (p.toNat, 1) := by
  simp only [decodeRune, if_pos h]

theorem ite_one {c : Prop} [Decidable c] {a n k : Nat} (hn : n ≠ 1) (h : (if c then (a, n) else (k, 1)).2 = 1) :
    (if c then (a, n) else (k, 1)).1 = k := by
  split_ifs at h ⊢
  · exact absurd h hn
  · rfl

/-- A single byte that is a rune is ASCII. -/
theorem decode_one {p : UInt8} {t : Bytes} (h1 : (decodeRune (p :: t)).2 = 1)
    (h2 : ¬ ((decodeRune (p :: t)).1 = 0xFFFD ∧ (decodeRune (p :: t)).2 = 1)) : p.toNat < 128 := by
  by_contra hp
  apply h2
  refine ⟨?_, h1⟩
  unfold decodeRune at h1 ⊢
  simp only [if_neg hp] at h1 ⊢
  by_cases c2 : (decide (p.toNat < 0xC2) || decide (0xF4 < p.toNat)) = true
  · simp only [if_pos c2]
  simp only [if_neg c2] at h1 ⊢
  by_cases c3 : p.toNat < 0xE0
  · simp only [if_pos c3] at h1 ⊢
    unfold decode2 at h1 ⊢
    split at h1
    · exact ite_one (by omega) h1
    · rfl
  simp only [if_neg c3] at h1 ⊢
  by_cases c4 : p.toNat < 0xF0
  · simp only [if_pos c4] at h1 ⊢
    unfold decode3 at h1 ⊢
    split at h1
    · exact ite_one (by omega) h1
    · rfl
  · simp only [if_neg c4] at h1 ⊢
    unfold decode4 at h1 ⊢
    split at h1
    · exact ite_one (by omega) h1
    · rfl

/-- The bytes of a rune: one that is ASCII, or several that are not. -/
theorem rune_shape {w : Bytes} {r : Nat} (h : Rune w r) :
    (∃ p, w = [p] ∧ p.toNat < 128 ∧ r = p.toNat) ∨
    (2 ≤ w.length ∧ (∀ b ∈ w, 128 ≤ b.toNat) ∧ ∀ y, decodeRune (w ++ y) = (r, w.length)) := by
  obtain ⟨h1, h2, h3⟩ := h
  cases w with
  | nil => exact absurd rfl h1
  | cons p t =>
    rcases decode_cases p t with h4 | ⟨w', u, h4, h5, h6, h7, h8⟩
    · left
      have hl : (p :: t).length = 1 := by rw [h2] at h4; exact h4
      have ht : t = [] := by simpa using hl
      subst ht
      have hp := decode_one h4 (by rw [h2]; exact h3)
      refine ⟨p, rfl, hp, ?_⟩
      rw [decode_ascii hp] at h2
      exact (Prod.mk.inj h2).1.symm
    · right
      rw [h2] at h5 h8
      have hu : u = [] := by
        have := congrArg List.length h4
        rw [List.length_append, h5] at this
        exact List.eq_nil_of_length_eq_zero (by omega)
      subst hu
      rw [List.append_nil] at h4
      rw [h4]
      exact ⟨h6, h7, fun y => by rw [h8 y, h4]⟩

theorem getRune_rune {w t : Bytes} {r : Nat} (h : Rune w r) (ht : t ≠ []) : getRune (w ++ t) = some (r, t) := by
  have hd : decodeRune (w ++ t) = (r, w.length) := by
    rcases rune_shape h with ⟨p, rfl, hp, rfl⟩ | ⟨-, -, h1⟩
    · exact decode_ascii hp t
    · exact h1 t
  unfold getRune
  rw [hd, if_neg (by simp [ht]), if_neg h.2.2]
  simp only [List.drop_left]
  rw [if_neg ht]

theorem rune_getRune {s t : Bytes} {r : Nat} (h : getRune s = some (r, t)) : ∃ w, s = w ++ t ∧ Rune w r ∧ t ≠ [] := by
  unfold getRune at h
  split_ifs at h with h1 h2 h3
  cases h
  cases s with
  | nil => exact absurd rfl h1
  | cons p s =>
    rcases decode_cases p s with h4 | ⟨w, u, h4, h5, h6, h7, h8⟩
    · have hp := decode_one h4 h2
      rw [decode_ascii hp] at *
      exact ⟨[p], rfl, ⟨by simp, decode_ascii hp [], by simpa using h2⟩, h3⟩
    · refine ⟨w, ?_, ⟨?_, ?_, ?_⟩, h3⟩
      · rw [← h5, h4, List.drop_left]
      · rintro rfl; simp at h6
      · have := h8 []
        rw [List.append_nil] at this
        rw [this, h5]
      · rw [h5]; exact h2

theorem esc_getEsc {w t : Bytes} {r : Nat} (h : Esc w r) (ht : t ≠ []) : getEsc (w ++ t) = some (r, t) := by
  cases h with
  | plain h h1 h2 h3 =>
    cases w with
    | nil => exact absurd rfl h.1
    | cons c w =>
      simp only [List.head?_cons, ne_eq, Option.some.injEq] at h1 h2 h3
      rw [List.cons_append, getEsc, if_neg (by simp [h1, h2]), if_neg h3]
      exact getRune_rune h ht
  | quoted h =>
    rw [List.cons_append, getEsc, if_neg (by decide), if_pos rfl]
    exact getRune_rune h ht

theorem getEsc_esc {s t : Bytes} {r : Nat} (h : getEsc s = some (r, t)) : ∃ w, s = w ++ t ∧ Esc w r ∧ t ≠ [] := by
  cases s with
  | nil => cases h
  | cons c cs =>
    rw [getEsc] at h
    by_cases hc : c = 45 ∨ c = 93
    · rw [if_pos hc] at h; cases h
    · rw [if_neg hc] at h
      by_cases h9 : c = 92
      · rw [if_pos h9] at h
        obtain ⟨w, h1, h2, h3⟩ := rune_getRune h
        exact ⟨92 :: w, by rw [h9, h1]; rfl, .quoted h2, h3⟩
      · rw [if_neg h9] at h
        obtain ⟨w, h1, h2, h3⟩ := rune_getRune h
        have hh : w.head? = some c := by
          cases w with
          | nil => exact absurd rfl h2.1
          | cons x w => cases h1; rfl
        simp only [not_or] at hc
        exact ⟨w, h1, .plain h2 (by rw [hh]; simp [hc.1]) (by rw [hh]; simp [hc.2]) (by rw [hh]; simp [h9]), h3⟩

theorem esc_ne {w : Bytes} {r : Nat} (h : Esc w r) : w ≠ [] := by
  cases h with
  | plain h _ _ _ => exact h.1
  | quoted _ => simp

theorem esc_head {w : Bytes} {r : Nat} (h : Esc w r) (t : Bytes) : (w ++ t).head? ≠ some 93 ∧ (w ++ t).head? ≠ some 45 := by
  cases h with
  | plain h h1 h2 h3 =>
    cases w with
    | nil => exact absurd rfl h.1
    | cons c w => exact ⟨h2, h1⟩
  | quoted _ => exact ⟨by simp, by simp⟩

/-! ## Classes -/

theorem ranges_items {w : Bytes} {rs : List (Nat × Nat)} (h : Items w rs) (r : Nat) (t : Bytes) :
    ∀ (n : Nat) (m : Bool), (rs = [] → 0 < n) → ranges r n m (w ++ 93 :: t) = some (m || within rs r, t) := by
  induction h with
  | nil =>
    intro n m hn
    rw [ranges, if_pos ⟨rfl, hn rfl⟩]
    simp [Spec.Glob.within]
  | @single w u x rs he hi ih =>
    intro n m _
    have e1 : getEsc (w ++ u ++ 93 :: t) = some (x, u ++ 93 :: t) := by
      rw [List.append_assoc]; exact esc_getEsc he (by simp)
    have hnh : (u ++ 93 :: t).head? ≠ some 45 := by
      cases hi with
      | nil => simp
      | single h1 _ => rw [List.append_assoc]; exact (esc_head h1 _).2
      | range h1 _ _ => rw [List.append_assoc]; exact (esc_head h1 _).2
    rw [ranges, if_neg (by rw [List.append_assoc]; exact fun h => (esc_head he _).1 h.1)]
    split
    · rename_i h; rw [e1] at h; cases h
    · rename_i lo c1 h
      rw [e1] at h
      cases h
      rw [if_neg hnh, ih _ _ (fun _ => Nat.succ_pos _)]
      simp [Spec.Glob.within, Bool.or_assoc]
  | @range w v u lo hi rs he hv hi ih =>
    intro n m _
    have e1 : getEsc (w ++ 45 :: (v ++ u) ++ 93 :: t) = some (lo, 45 :: (v ++ (u ++ 93 :: t))) := by
      rw [List.append_assoc, List.cons_append, List.append_assoc]; exact esc_getEsc he (by simp)
    have e2 := esc_getEsc hv (t := u ++ 93 :: t) (by simp)
    rw [ranges, if_neg (by rw [List.append_assoc]; exact fun h => (esc_head he _).1 h.1)]
    split
    · rename_i h; rw [e1] at h; cases h
    · rename_i lo' c1 h
      rw [e1] at h
      cases h
      rw [if_pos (List.head?_cons ..)]
      simp only [List.tail_cons]
      split
      · rename_i h; rw [e2] at h; cases h
      · rename_i hi' c2 h
        rw [e2] at h
        cases h
        rw [ih _ _ (fun _ => Nat.succ_pos _)]
        simp [Spec.Glob.within, Bool.or_assoc]

theorem items_ranges (r : Nat) (chunk : Bytes) : ∀ (n : Nat) (m b : Bool) (t : Bytes), ranges r n m chunk = some (b, t) →
    ∃ w rs, chunk = w ++ 93 :: t ∧ Items w rs ∧ (rs = [] → 0 < n) := by
  induction h : chunk.length using Nat.strongRecOn generalizing chunk with
  | _ k ih =>
    subst h
    intro n m b t h
    rw [ranges] at h
    split_ifs at h with h1
    · cases h
      cases chunk with
      | nil => simp at h1
      | cons c cs =>
        have : c = 93 := by simpa using h1.1
        exact ⟨[], [], by simp [this], .nil, fun _ => h1.2⟩
    · split at h
      · cases h
      · rename_i lo c1 he
        obtain ⟨w, e1, e2, e3⟩ := getEsc_esc he
        split_ifs at h with h2
        · split at h
          · cases h
          · rename_i hi c2 he'
            obtain ⟨v, e4, e5, e6⟩ := getEsc_esc he'
            have l1 := getEsc_lt he
            have l2 := getEsc_lt he'
            rw [List.length_tail] at l2
            obtain ⟨u, rs, e7, e8, -⟩ := ih c2.length (by omega) c2 rfl _ _ _ _ h
            refine ⟨w ++ 45 :: (v ++ u), (lo, hi) :: rs, ?_, .range e2 e5 e8, by simp⟩
            cases c1 with
            | nil => exact absurd rfl e3
            | cons d c1 =>
              have : d = 45 := by simpa using h2
              subst this
              rw [List.tail_cons] at e4
              rw [e1, e4, e7]
              simp
        · obtain ⟨u, rs, e7, e8, -⟩ := ih c1.length (getEsc_lt he) c1 rfl _ _ _ _ h
          exact ⟨w ++ u, (lo, lo) :: rs, by rw [e1, e7]; simp, .single e2 e8, by simp⟩

/-! ## Chunks and scanning -/

theorem scan_high {b : UInt8} (h : 128 ≤ b.toNat) (i : Bool) (t : Bytes) : scan i (b :: t) = (b :: (scan i t).1, (scan i t).2) := by
  have h1 : b ≠ 92 := by rintro rfl; simp at h
  have h2 : b ≠ 91 := by rintro rfl; simp at h
  have h3 : b ≠ 93 := by rintro rfl; simp at h
  have h4 : ¬ (b = 42 ∧ i = false) := by rintro ⟨rfl, -⟩; simp at h
  rw [scan.eq_def]
  simp only [if_neg h1, if_neg h2, if_neg h3, if_neg h4]

theorem scan_highs {w : Bytes} (h : ∀ b ∈ w, 128 ≤ b.toNat) (i : Bool) (t : Bytes) :
    scan i (w ++ t) = (w ++ (scan i t).1, (scan i t).2) := by
  induction w with
  | nil => rfl
  | cons b w ih =>
    rw [List.cons_append, scan_high (h b (List.mem_cons_self ..)), ih fun x hx => h x (List.mem_cons_of_mem _ hx)]
    rfl

/-- Inside a class everything but `]` and backslashes is passed over. -/
theorem scan_true {b : UInt8} (h1 : b ≠ 92) (h2 : b ≠ 93) (t : Bytes) :
    scan true (b :: t) = (b :: (scan true t).1, (scan true t).2) := by
  rw [scan.eq_def]
  by_cases h : b = 91
  · simp only [if_neg h1, if_pos h]
  · simp [h1, h2, h]

theorem scan_quoted (i : Bool) (b : UInt8) (t : Bytes) :
    scan i (92 :: b :: t) = (92 :: b :: (scan i t).1, (scan i t).2) := by
  rw [scan.eq_def]; simp

theorem scan_esc {w : Bytes} {r : Nat} (h : Esc w r) (t : Bytes) : scan true (w ++ t) = (w ++ (scan true t).1, (scan true t).2) := by
  cases h with
  | plain h h1 h2 h3 =>
    rcases rune_shape h with ⟨p, rfl, -, -⟩ | ⟨-, hb, -⟩
    · exact scan_true (by simpa using h3) (by simpa using h2) t
    · exact scan_highs hb true t
  | @quoted w r h =>
    rcases rune_shape h with ⟨p, rfl, -, -⟩ | ⟨-, hb, -⟩
    · exact scan_quoted true p t
    · cases w with
      | nil => exact absurd rfl h.1
      | cons b w =>
        rw [List.cons_append, List.cons_append, scan_quoted, scan_highs fun x hx => hb x (List.mem_cons_of_mem _ hx)]
        rfl

theorem scan_items {w : Bytes} {rs : List (Nat × Nat)} (h : Items w rs) (t : Bytes) :
    scan true (w ++ 93 :: t) = (w ++ 93 :: (scan false t).1, (scan false t).2) := by
  induction h with
  | nil => rw [List.nil_append, scan.eq_def]; simp
  | single he _ ih => rw [List.append_assoc, scan_esc he, ih]; simp
  | range he hv _ ih =>
    rw [List.append_assoc, scan_esc he, List.cons_append, scan_true (by decide) (by decide), List.append_assoc, scan_esc hv, ih]
    simp

theorem scan_open (i : Bool) (t : Bytes) : scan i (91 :: t) = (91 :: (scan true t).1, (scan true t).2) := by
  rw [scan.eq_def]; simp

theorem scan_plain {b : UInt8} (h1 : b ≠ 42) (h2 : b ≠ 91) (h3 : b ≠ 92) (t : Bytes) :
    scan false (b :: t) = (b :: (scan false t).1, (scan false t).2) := by
  rw [scan.eq_def]
  by_cases h : b = 93
  · simp [h]
  · simp [h1, h2, h3, h]

/-- What several elements other than stars take from the front of a name. -/
def eat : List Tok → Bytes → Option Bytes
  | [], s => some s
  | k :: ts, s => (take1 k s).elim none (eat ts)

/-- The outcome of a chunk. -/
def out : Option Bytes → Res
  | none => .no
  | some t => .yes t

theorem matchGo_cls {w t : Bytes} {rs : List (Nat × Nat)} (neg : Bool) (hw : Items w rs) (hne : rs ≠ [])
    (hh : neg = false → w.head? ≠ some 94) (k : Nat) (x : UInt8) (s : Bytes) :
    matchGo (k + 1) (91 :: ((if neg then [94] else []) ++ (w ++ 93 :: t))) (x :: s) =
      (take1 (.cls neg rs) (x :: s)).elim .no (matchGo k t) := by
  have h1 : ranges (decodeRune (x :: s)).1 0 false (w ++ 93 :: t) = some (Spec.Glob.within rs (decodeRune (x :: s)).1, t) := by
    rw [ranges_items hw _ _ _ _ (fun h => absurd h hne)]; simp
  rw [matchGo.eq_def]
  simp only [if_true]
  cases neg with
  | true =>
    simp only [if_true, List.singleton_append, reduceCtorEq, if_false, List.head?_cons, decide_true, List.tail_cons, h1, take1]
    split_ifs <;> rfl
  | false =>
    have h2 : ¬ (w ++ 93 :: t).head? = some 94 := by
      cases w with
      | nil => simp
      | cons c w => exact hh rfl
    simp only [Bool.false_eq_true, if_false, List.nil_append, List.append_eq_nil_iff, reduceCtorEq, and_false, decide_eq_false h2, h1,
      take1]
    split_ifs <;> rfl

theorem matchGo_eq {p : Bytes} {ts : List Tok} (h : Pattern p ts) (hs : Tok.star ∉ ts) :
    ∀ (k : Nat) (s : Bytes), p.length ≤ k → matchGo k p s = out (eat ts s) := by
  induction h with
  | nil =>
    intro k s _
    cases k <;> rfl
  | star _ _ => exact absurd (List.mem_cons_self ..) hs
  | any _ ih =>
    intro k s hk
    obtain ⟨k, rfl⟩ : ∃ j, k = j + 1 := ⟨k - 1, by simp only [List.length_cons] at hk; omega⟩
    cases s with
    | nil => rfl
    | cons x s =>
      rw [matchGo.eq_def]
      simp only
      rw [if_neg (by decide), if_pos trivial, eat, take1]
      split_ifs
      · rfl
      · exact ih (fun h => hs (List.mem_cons_of_mem _ h)) _ _ (by simp only [List.length_cons] at hk; omega)
  | quoted _ ih =>
    intro k s hk
    obtain ⟨k, rfl⟩ : ∃ j, k = j + 1 := ⟨k - 1, by simp only [List.length_cons] at hk; omega⟩
    cases s with
    | nil => rfl
    | cons x s =>
      rw [matchGo.eq_def]
      simp only
      rw [if_neg (by decide), if_neg (by decide), if_pos trivial, eat, take1]
      simp only [ne_eq, ite_not]
      split_ifs
      on_goal 2 => rfl
      · exact ih (fun h => hs (List.mem_cons_of_mem _ h)) _ _ (by simp only [List.length_cons] at hk; omega)
  | plain h1 h2 h3 h4 _ ih =>
    intro k s hk
    obtain ⟨k, rfl⟩ : ∃ j, k = j + 1 := ⟨k - 1, by simp only [List.length_cons] at hk; omega⟩
    cases s with
    | nil => rfl
    | cons x s =>
      rw [matchGo.eq_def]
      simp only
      rw [if_neg h3, if_neg h2, if_neg h4, eat, take1]
      simp only [ne_eq, ite_not]
      split_ifs
      · exact ih (fun h => hs (List.mem_cons_of_mem _ h)) _ _ (by simp only [List.length_cons] at hk; omega)
      · rfl
  | @cls w t rs ts h1 h2 h3 _ ih =>
    intro k s hk
    obtain ⟨k, rfl⟩ : ∃ j, k = j + 1 := ⟨k - 1, by simp only [List.length_cons] at hk; omega⟩
    cases s with
    | nil => rfl
    | cons x s =>
      refine (matchGo_cls false h1 h2 (fun _ => h3) k x s).trans ?_
      rw [eat]
      cases take1 (.cls false rs) (x :: s) with
      | none => rfl
      | some u =>
        exact ih (fun h => hs (List.mem_cons_of_mem _ h)) _ _
          (by simp only [List.length_cons, List.length_append] at hk; omega)
  | @ncls w t rs ts h1 h2 _ ih =>
    intro k s hk
    obtain ⟨k, rfl⟩ : ∃ j, k = j + 1 := ⟨k - 1, by simp only [List.length_cons] at hk; omega⟩
    cases s with
    | nil => rfl
    | cons x s =>
      refine (matchGo_cls true h1 h2 (fun h => by cases h) k x s).trans ?_
      rw [eat]
      cases take1 (.cls true rs) (x :: s) with
      | none => rfl
      | some u =>
        exact ih (fun h => hs (List.mem_cons_of_mem _ h)) _ _
          (by simp only [List.length_cons, List.length_append] at hk; omega)

theorem matchChunk_eq {p : Bytes} {ts : List Tok} (h : Pattern p ts) (hs : Tok.star ∉ ts) (s : Bytes) :
    matchChunk p s = out (eat ts s) := matchGo_eq h hs _ _ (Nat.le_refl _)

/-- A well-formed pattern is cut where a star is. -/
theorem scan_pattern {p : Bytes} {ts : List Tok} (h : Pattern p ts) : ∃ t1 t2, ts = t1 ++ t2 ∧ Tok.star ∉ t1 ∧
    Pattern (scan false p).1 t1 ∧ Pattern (scan false p).2 t2 ∧ (t2 = [] ∨ t2.head? = some .star) := by
  induction h with
  | nil => exact ⟨[], [], rfl, by simp, .nil, .nil, .inl rfl⟩
  | @star t ts h _ =>
    refine ⟨[], .star :: ts, rfl, by simp, ?_, ?_, .inr rfl⟩ <;> rw [scan.eq_def] <;> simp
    · exact .nil
    · exact .star h
  | any h ih =>
    obtain ⟨t1, t2, e1, e2, e3, e4, e5⟩ := ih
    refine ⟨.any :: t1, t2, by rw [e1]; rfl, by simp [e2], ?_, ?_, e5⟩ <;> rw [scan_plain (by decide) (by decide) (by decide)]
    · exact .any e3
    · exact e4
  | quoted h ih =>
    obtain ⟨t1, t2, e1, e2, e3, e4, e5⟩ := ih
    refine ⟨_ :: t1, t2, by rw [e1]; rfl, by simp [e2], ?_, ?_, e5⟩ <;> rw [scan_quoted]
    · exact .quoted e3
    · exact e4
  | plain h1 h2 h3 h4 h ih =>
    obtain ⟨t1, t2, e1, e2, e3, e4, e5⟩ := ih
    refine ⟨_ :: t1, t2, by rw [e1]; rfl, by simp [e2], ?_, ?_, e5⟩ <;> rw [scan_plain h1 h3 h4]
    · exact .plain h1 h2 h3 h4 e3
    · exact e4
  | cls h1 h2 h3 h ih =>
    obtain ⟨t1, t2, e1, e2, e3, e4, e5⟩ := ih
    refine ⟨_ :: t1, t2, by rw [e1]; rfl, by simp [e2], ?_, ?_, e5⟩ <;> rw [scan_open, scan_items h1]
    · exact .cls h1 h2 h3 e3
    · exact e4
  | ncls h1 h2 h ih =>
    obtain ⟨t1, t2, e1, e2, e3, e4, e5⟩ := ih
    refine ⟨_ :: t1, t2, by rw [e1]; rfl, by simp [e2], ?_, ?_, e5⟩ <;>
      rw [scan_open, scan_true (by decide) (by decide), scan_items h1]
    · exact .ncls h1 h2 e3
    · exact e4

theorem pattern_nil {ts : List Tok} (h : Pattern [] ts) : ts = [] := by cases h; rfl

theorem pattern_nil' {p : Bytes} (h : Pattern p []) : p = [] := by cases h; rfl

/-- The stars in front of a well-formed pattern. -/
theorem pattern_stars {p : Bytes} {ts : List Tok} (h : Pattern p ts) :
    ∃ n us, ts = List.replicate n .star ++ us ∧ Pattern (p.dropWhile (· = 42)) us ∧ us.head? ≠ some .star ∧
      (0 < n ↔ (p.dropWhile (· = 42)).length < p.length) := by
  have hp : ∀ {c : UInt8} {t : Bytes} {k : Tok} {us : List Tok}, Pattern (c :: t) (k :: us) → c ≠ 42 → k ≠ .star →
      ∃ n us', k :: us = List.replicate n .star ++ us' ∧ Pattern ((c :: t).dropWhile (· = 42)) us' ∧ us'.head? ≠ some .star ∧
      (0 < n ↔ ((c :: t).dropWhile (· = 42)).length < (c :: t).length) := by
    intro c t k us h h1 h2
    refine ⟨0, k :: us, rfl, ?_, by simpa using h2, ?_⟩
    · rw [List.dropWhile_cons_of_neg (by simpa using h1)]; exact h
    · rw [List.dropWhile_cons_of_neg (by simpa using h1)]; simp
  induction h with
  | nil => exact ⟨0, [], rfl, .nil, by simp, by simp⟩
  | @star t ts h ih =>
    obtain ⟨n, us, e1, e2, e3, -⟩ := ih
    refine ⟨n + 1, us, by rw [e1]; rfl, ?_, e3, ?_⟩
    · rw [List.dropWhile_cons_of_pos (by simp)]; exact e2
    · rw [List.dropWhile_cons_of_pos (by simp)]
      have := (List.dropWhile_suffix (p := fun c : UInt8 => decide (c = 42)) (l := t)).length_le
      simp only [List.length_cons]
      omega
  | any h _ => exact hp (.any h) (by decide) (by simp)
  | quoted h _ => exact hp (.quoted h) (by decide) (by simp)
  | plain h1 h2 h3 h4 h _ => exact hp (.plain h1 h2 h3 h4 h) h1 (by simp)
  | cls h1 h2 h3 h _ => exact hp (.cls h1 h2 h3 h) (by decide) (by simp)
  | ncls h1 h2 h _ => exact hp (.ncls h1 h2 h) (by decide) (by simp)

/-! ## Names that match -/

theorem matches_eat {ts us : List Tok} (hs : Tok.star ∉ ts) {s : Bytes} :
    Matches (ts ++ us) s ↔ ∃ t, eat ts s = some t ∧ Matches us t := by
  induction ts generalizing s with
  | nil => simp [eat]
  | cons k ts ih =>
    have hs' : Tok.star ∉ ts := fun h => hs (List.mem_cons_of_mem _ h)
    have hk : k ≠ .star := fun h => hs (by simp [h])
    rw [List.cons_append, eat]
    constructor
    · intro h
      cases h with
      | star _ _ => exact absurd rfl hk
      | one h1 h2 => rw [h1]; exact (ih hs').1 h2
    · rintro ⟨t, h1, h2⟩
      cases h3 : take1 k s with
      | none => rw [h3] at h1; cases h1
      | some u => rw [h3] at h1; exact .one h3 ((ih hs').2 ⟨t, h1, h2⟩)

theorem matches_star {ts : List Tok} {s : Bytes} :
    Matches (.star :: ts) s ↔ ∃ w u, s = w ++ u ∧ 47 ∉ w ∧ Matches ts u := by
  constructor
  · intro h
    cases h with
    | star h1 h2 => exact ⟨_, _, rfl, h1, h2⟩
    | one h1 _ => cases s <;> cases h1
  · rintro ⟨w, u, rfl, h1, h2⟩
    exact .star h1 h2

theorem matches_stars {ts : List Tok} {s : Bytes} (n : Nat) :
    Matches (List.replicate (n + 1) .star ++ ts) s ↔ ∃ w u, s = w ++ u ∧ 47 ∉ w ∧ Matches ts u := by
  induction n generalizing s with
  | zero => exact matches_star
  | succ n ih =>
    rw [List.replicate_succ, List.cons_append, matches_star]
    constructor
    · rintro ⟨w, u, rfl, h1, h2⟩
      obtain ⟨w', u', rfl, h3, h4⟩ := ih.1 h2
      exact ⟨w ++ w', u', by simp, by simp [h1, h3], h4⟩
    · rintro ⟨w, u, rfl, h1, h2⟩
      exact ⟨w, u, rfl, h1, ih.2 ⟨[], u, rfl, by simp, h2⟩⟩

theorem matches_nil {s : Bytes} : Matches [] s ↔ s = [] := ⟨fun h => by cases h; rfl, fun h => h ▸ .nil⟩

theorem seek_sound {chunk : Bytes} {last : Bool} {name t : Bytes} (h : seek chunk last name = .yes t) :
    ∃ w u, name = w ++ u ∧ 47 ∉ w ∧ matchChunk chunk u = .yes t ∧ (last = true → t = []) := by
  induction name with
  | nil => cases h
  | cons x s ih =>
    rw [seek] at h
    split_ifs at h with h1
    have step : seek chunk last s = .yes t →
        ∃ w u, x :: s = w ++ u ∧ 47 ∉ w ∧ matchChunk chunk u = .yes t ∧ (last = true → t = []) := by
      intro h'
      obtain ⟨w, u, e1, e2, e3, e4⟩ := ih h'
      exact ⟨x :: w, u, by rw [e1]; rfl, by simp [e2, Ne.symm h1], e3, e4⟩
    cases hc : matchChunk chunk s with
    | bad => rw [hc] at h; cases h
    | no => rw [hc] at h; exact step h
    | yes v =>
      rw [hc] at h
      simp only at h
      split_ifs at h with h2
      · exact step h
      · cases h
        refine ⟨[x], s, rfl, by simp [Ne.symm h1], hc, fun hl => ?_⟩
        by_contra h3
        exact h2 ⟨hl, h3⟩

theorem seek_not_bad {chunk : Bytes} {last : Bool} (hb : ∀ s, matchChunk chunk s ≠ .bad) (name : Bytes) :
    seek chunk last name ≠ .bad := by
  induction name with
  | nil => simp [seek]
  | cons x s ih =>
    rw [seek]
    split_ifs with h1
    · simp
    · cases hc : matchChunk chunk s with
      | bad => exact absurd hc (hb s)
      | no => exact ih
      | yes v =>
        simp only
        split_ifs
        · exact ih
        · simp

/-- The first place from which the chunk matches. -/
theorem seek_first {chunk : Bytes} {last : Bool} (hb : ∀ s, matchChunk chunk s ≠ .bad) {t : Bytes} :
    ∀ {w u : Bytes}, w ≠ [] → 47 ∉ w → matchChunk chunk u = .yes t → (last = true → t = []) →
    ∃ t' w' u', seek chunk last (w ++ u) = .yes t' ∧ w ++ u = w' ++ u' ∧ w'.length ≤ w.length ∧ matchChunk chunk u' = .yes t'
      ∧ (last = true → t' = []) := by
  intro w
  induction w with
  | nil => intro u h; exact absurd rfl h
  | cons x w ih =>
    intro u _ hw hm hl
    have hx : x ≠ 47 := fun h => hw (by simp [h])
    have hw' : 47 ∉ w := fun h => hw (List.mem_cons_of_mem _ h)
    have step : w ≠ [] → ∃ t' w' u', seek chunk last (w ++ u) = .yes t' ∧ x :: (w ++ u) = w' ++ u' ∧ w'.length ≤ (x :: w).length ∧
        matchChunk chunk u' = .yes t' ∧ (last = true → t' = []) := by
      intro h
      obtain ⟨t', w', u', e1, e2, e3, e4, e5⟩ := ih h hw' hm hl
      exact ⟨t', x :: w', u', e1, by rw [e2]; rfl, by simpa using e3, e4, e5⟩
    rw [List.cons_append, seek, if_neg hx]
    cases hc : matchChunk chunk (w ++ u) with
    | bad => exact absurd hc (hb _)
    | no =>
      refine step ?_
      rintro rfl
      rw [List.nil_append, hm] at hc
      cases hc
    | yes v =>
      simp only
      split_ifs with h2
      · refine step ?_
        rintro rfl
        rw [List.nil_append, hm] at hc
        cases hc
        exact h2.2 (hl h2.1)
      · refine ⟨v, [x], w ++ u, rfl, rfl, by simp, hc, fun h => ?_⟩
        by_contra h3
        exact h2 ⟨h, h3⟩

/-! ## The loop of `Match` -/

/-- The match of one chunk of the pattern, at the front of the name or, after a star, further on. -/
def find (star : Bool) (chunk : Bytes) (last : Bool) (name : Bytes) : Res :=
  match matchChunk chunk name with
  | .yes t => if t = [] ∨ last = false then .yes t else if star then seek chunk last name else .no
  | .bad => .bad
  | .no => if star then seek chunk last name else .no

def Res.andThen : Res → (Bytes → Res) → Res
  | .yes t, f => f t
  | .bad, _ => .bad
  | .no, _ => .no

theorem matchPath_eq {p : Bytes} (h : p ≠ []) (name : Bytes) : matchPath p name =
    if (scanChunk p).1 = true ∧ (scanChunk p).2.1 = [] then (if 47 ∈ name then .no else .yes [])
    else (find (scanChunk p).1 (scanChunk p).2.1 (decide ((scanChunk p).2.2 = [])) name).andThen
      (matchPath (scanChunk p).2.2) := by
  rw [matchPath, dif_neg h]
  by_cases h1 : (scanChunk p).1 = true ∧ (scanChunk p).2.1 = []
  · simp only [if_pos h1]
  · simp only [if_neg h1]
    unfold find
    cases matchChunk (scanChunk p).2.1 name with
    | bad => rfl
    | no =>
      simp only
      split_ifs
      · cases seek (scanChunk p).2.1 (decide ((scanChunk p).2.2 = [])) name <;> rfl
      · rfl
    | yes t =>
      simp only
      split_ifs
      · rfl
      · cases seek (scanChunk p).2.1 (decide ((scanChunk p).2.2 = [])) name <;> rfl
      · rfl

theorem find_sound {star last : Bool} {chunk name t : Bytes} (h : find star chunk last name = .yes t) :
    ∃ w u, name = w ++ u ∧ 47 ∉ w ∧ (star = false → w = []) ∧ matchChunk chunk u = .yes t ∧ (last = true → t = []) := by
  unfold find at h
  have hs : ∀ {r : Res}, (if star = true then seek chunk last name else .no) = r → r = .yes t →
      ∃ w u, name = w ++ u ∧ 47 ∉ w ∧ (star = false → w = []) ∧ matchChunk chunk u = .yes t ∧ (last = true → t = []) := by
    rintro r h rfl
    split_ifs at h with h1
    obtain ⟨w, u, e1, e2, e3, e4⟩ := seek_sound h
    exact ⟨w, u, e1, e2, fun h => (by rw [h1] at h; cases h), e3, e4⟩
  cases hc : matchChunk chunk name with
  | bad => rw [hc] at h; cases h
  | no => rw [hc] at h; exact hs h rfl
  | yes v =>
    rw [hc] at h
    simp only at h
    by_cases h1 : v = [] ∨ last = false
    · rw [if_pos h1] at h
      cases h
      exact ⟨[], name, rfl, by simp, fun _ => rfl, hc, fun h => h1.resolve_right (by simp [h])⟩
    · rw [if_neg h1] at h
      exact hs h rfl

theorem find_not_bad {star last : Bool} {chunk : Bytes} (hb : ∀ s, matchChunk chunk s ≠ .bad) (name : Bytes) :
    find star chunk last name ≠ .bad := by
  have hk := seek_not_bad (last := last) hb name
  unfold find
  cases hc : matchChunk chunk name with
  | bad => exact absurd hc (hb _)
  | no => simp only; split_ifs <;> simp [hk]
  | yes v => simp only; split_ifs <;> simp [hk]

theorem find_first {star last : Bool} {chunk : Bytes} (hb : ∀ s, matchChunk chunk s ≠ .bad) {t w u : Bytes}
    (h0 : star = false → w = []) (hw : 47 ∉ w) (hm : matchChunk chunk u = .yes t) (hl : last = true → t = []) :
    ∃ t' w' u', find star chunk last (w ++ u) = .yes t' ∧ w ++ u = w' ++ u' ∧ w'.length ≤ w.length ∧
      matchChunk chunk u' = .yes t' ∧ (last = true → t' = []) := by
  have hs : w ≠ [] → ∃ t' w' u', (if star = true then seek chunk last (w ++ u) else .no) = .yes t' ∧ w ++ u = w' ++ u' ∧
      w'.length ≤ w.length ∧ matchChunk chunk u' = .yes t' ∧ (last = true → t' = []) := by
    intro h
    have h1 : star = true := by
      cases star with
      | true => rfl
      | false => exact absurd (h0 rfl) h
    rw [if_pos h1]
    exact seek_first hb h hw hm hl
  unfold find
  cases hc : matchChunk chunk (w ++ u) with
  | bad => exact absurd hc (hb _)
  | no =>
    refine hs ?_
    rintro rfl
    rw [List.nil_append, hm] at hc
    cases hc
  | yes v =>
    simp only
    by_cases h1 : v = [] ∨ last = false
    · rw [if_pos h1]
      exact ⟨v, [], w ++ u, rfl, rfl, by simp, hc, fun h => h1.resolve_right (by simp [h])⟩
    · rw [if_neg h1]
      refine hs ?_
      rintro rfl
      rw [List.nil_append, hm] at hc
      cases hc
      cases last with
      | true => exact h1 (.inl (hl rfl))
      | false => exact h1 (.inr rfl)

/-- The pieces of a well-formed pattern that is not empty. -/
theorem pieces {p : Bytes} {ts : List Tok} (h : Pattern p ts) : ∃ n t1 t2, ts = List.replicate n .star ++ (t1 ++ t2) ∧ Tok.star ∉ t1 ∧
    Pattern (scanChunk p).2.1 t1 ∧ Pattern (scanChunk p).2.2 t2 ∧ (t2 = [] ∨ t2.head? = some .star) ∧
    ((scanChunk p).1 = true ↔ 0 < n) ∧ (t1 = [] → t2 = []) := by
  obtain ⟨n, us, e1, e2, e3, e4⟩ := pattern_stars h
  obtain ⟨t1, t2, f1, f2, f3, f4, f5⟩ := scan_pattern e2
  refine ⟨n, t1, t2, by rw [e1, f1], f2, f3, f4, f5, ?_, ?_⟩
  · rw [scanChunk]; simp only [decide_eq_true_eq]; exact e4.symm
  · rintro rfl
    rw [List.nil_append] at f1
    rcases f5 with h | h
    · exact h
    · rw [f1] at e3; exact absurd h e3

theorem out_not_bad (o : Option Bytes) : out o ≠ .bad := by cases o <;> simp [out]

theorem out_yes {o : Option Bytes} {t : Bytes} : out o = .yes t ↔ o = some t := by cases o <;> simp [out]

/-- On well-formed patterns there is no error. -/
theorem matchPath_not_bad {p : Bytes} {ts : List Tok} (h : Pattern p ts) (name : Bytes) : matchPath p name ≠ .bad := by
  induction hl : p.length using Nat.strongRecOn generalizing p ts name with
  | _ k ih =>
    subst hl
    by_cases hp : p = []
    · rw [matchPath, dif_pos hp]; split_ifs <;> simp
    · obtain ⟨n, t1, t2, -, f2, f3, f4, -⟩ := pieces h
      rw [matchPath_eq hp]
      split_ifs
      · simp
      · simp
      · have hb : ∀ s, matchChunk (scanChunk p).2.1 s ≠ .bad := fun s => by rw [matchChunk_eq f3 f2]; exact out_not_bad _
        cases hf : find (scanChunk p).1 (scanChunk p).2.1 (decide ((scanChunk p).2.2 = [])) name with
        | bad => exact absurd hf (find_not_bad hb name)
        | no => simp [Res.andThen]
        | yes t => exact ih _ (scanChunk_lt hp) f4 t rfl

/-- What is reported to match does match. -/
theorem matchPath_sound {p : Bytes} {ts : List Tok} (h : Pattern p ts) {name r : Bytes} (hy : matchPath p name = .yes r) :
    Matches ts name := by
  induction hl : p.length using Nat.strongRecOn generalizing p ts name with
  | _ k ih =>
    subst hl
    by_cases hp : p = []
    · rw [matchPath, dif_pos hp] at hy
      subst hp
      rw [pattern_nil h, matches_nil]
      by_contra hn
      rw [if_neg hn] at hy
      cases hy
    · obtain ⟨n, t1, t2, f1, f2, f3, f4, f5, f6, f7⟩ := pieces h
      rw [matchPath_eq hp] at hy
      by_cases hc : (scanChunk p).1 = true ∧ (scanChunk p).2.1 = []
      · rw [if_pos hc] at hy
        have ht : t1 = [] := by rw [hc.2] at f3; exact pattern_nil f3
        have ht2 := f7 ht
        obtain ⟨m, rfl⟩ : ∃ m, n = m + 1 := ⟨n - 1, by have := f6.1 hc.1; omega⟩
        rw [f1, ht, ht2, matches_stars]
        refine ⟨name, [], by simp, fun hn => ?_, .nil⟩
        rw [if_pos hn] at hy
        cases hy
      · rw [if_neg hc] at hy
        cases hf : find (scanChunk p).1 (scanChunk p).2.1 (decide ((scanChunk p).2.2 = [])) name with
        | bad => rw [hf] at hy; cases hy
        | no => rw [hf] at hy; cases hy
        | yes t =>
          rw [hf] at hy
          have h2 := ih _ (scanChunk_lt hp) f4 hy rfl
          obtain ⟨w, u, e1, e2, e3, e4, -⟩ := find_sound hf
          rw [matchChunk_eq f3 f2, out_yes] at e4
          have h3 : Matches (t1 ++ t2) u := (matches_eat f2).2 ⟨t, e4, h2⟩
          cases n with
          | zero =>
            have : (scanChunk p).1 = false := by
              rw [← Bool.not_eq_true]; exact fun h => absurd (f6.1 h) (by omega)
            rw [f1, e1, e3 this]
            exact h3
          | succ m => rw [f1, matches_stars]; exact ⟨w, u, e1, e2, h3⟩

theorem matchPath_yes {p name r : Bytes} (hy : matchPath p name = .yes r) : r = [] := by
  induction hl : p.length using Nat.strongRecOn generalizing p name with
  | _ k ih =>
    subst hl
    by_cases hp : p = []
    · rw [matchPath, dif_pos hp] at hy
      split_ifs at hy
      cases hy; rfl
    · rw [matchPath_eq hp] at hy
      split_ifs at hy
      · cases hy; rfl
      · cases hf : find (scanChunk p).1 (scanChunk p).2.1 (decide ((scanChunk p).2.2 = [])) name with
        | bad => rw [hf] at hy; cases hy
        | no => rw [hf] at hy; cases hy
        | yes t => rw [hf] at hy; exact ih _ (scanChunk_lt hp) hy rfl

/-! ## What is reported to match is well formed -/

theorem pattern_append {a b : Bytes} {ts us : List Tok} (h : Pattern a ts) (h' : Pattern b us) : Pattern (a ++ b) (ts ++ us) := by
  induction h with
  | nil => exact h'
  | star _ ih => exact .star ih
  | any _ ih => exact .any ih
  | quoted _ ih => exact .quoted ih
  | plain h1 h2 h3 h4 _ ih => exact .plain h1 h2 h3 h4 ih
  | cls h1 h2 h3 _ ih =>
    rw [List.cons_append, List.append_assoc]
    exact .cls h1 h2 h3 ih
  | ncls h1 h2 _ ih =>
    rw [List.cons_append, List.cons_append, List.append_assoc]
    exact .ncls h1 h2 ih

/-- The pattern with its stars, chunk and rest. -/
theorem scan_append (b : Bool) (p : Bytes) : (scan b p).1 ++ (scan b p).2 = p := by
  induction h : p.length using Nat.strongRecOn generalizing b p with
  | _ n ih =>
    subst h
    cases p with
    | nil => rfl
    | cons c cs =>
      unfold scan
      split
      · cases cs with
        | nil => rfl
        | cons d cs =>
          have := ih cs.length (by simp only [List.length_cons]; omega) b cs rfl
          simp [this]
      · have h1 := ih cs.length (by simp) true cs rfl
        have h2 := ih cs.length (by simp) false cs rfl
        have h3 := ih cs.length (by simp) b cs rfl
        (repeat' split) <;> simp [h1, h2, h3]

theorem scan_again (b : Bool) (p : Bytes) : scan b (scan b p).1 = ((scan b p).1, []) := by
  induction h : p.length using Nat.strongRecOn generalizing b p with
  | _ n ih =>
    subst h
    cases p with
    | nil => rfl
    | cons c cs =>
      have h1 := ih cs.length (by simp) true cs rfl
      have h2 := ih cs.length (by simp) false cs rfl
      have h3 := ih cs.length (by simp) b cs rfl
      by_cases c1 : c = 92
      · subst c1
        cases cs with
        | nil => rw [scan.eq_def]; simp [scan.eq_def]
        | cons d cs =>
          have := ih cs.length (by simp only [List.length_cons]; omega) b cs rfl
          rw [scan_quoted, scan_quoted, this]
      by_cases c2 : c = 91
      · subst c2; rw [scan_open, scan_open, h1]
      by_cases c3 : c = 93
      · subst c3
        have hc : ∀ t, scan b (93 :: t) = (93 :: (scan false t).1, (scan false t).2) := by
          intro t; rw [scan.eq_def]; simp
        rw [hc, hc, h2]
      by_cases c4 : c = 42 ∧ b = false
      · have : scan b (c :: cs) = ([], c :: cs) := by rw [scan.eq_def]; simp only [if_neg c1, if_neg c2, if_neg c3, if_pos c4]
        rw [this]
        rfl
      · have hc : ∀ t, scan b (c :: t) = (c :: (scan b t).1, (scan b t).2) := by
          intro t; rw [scan.eq_def]; simp only [if_neg c1, if_neg c2, if_neg c3, if_neg c4]
        rw [hc, hc, h3]

theorem matchGo_wf (k : Nat) : ∀ (chunk s t : Bytes), chunk.length ≤ k → scan false chunk = (chunk, []) →
    matchGo k chunk s = .yes t → ∃ ts, Pattern chunk ts := by
  induction k with
  | zero =>
    intro chunk s t hk _ _
    rw [List.eq_nil_of_length_eq_zero (Nat.le_zero.1 hk)]
    exact ⟨[], .nil⟩
  | succ k ih =>
    intro chunk s t hk hs h
    cases chunk with
    | nil => exact ⟨[], .nil⟩
    | cons c cs =>
      cases s with
      | nil => cases h
      | cons x s =>
        rw [matchGo.eq_def] at h
        simp only at h
        by_cases c1 : c = 91
        · subst c1
          rw [if_pos rfl] at h
          by_cases c2 : cs = []
          · rw [if_pos c2] at h; cases h
          rw [if_neg c2] at h
          rw [scan_open, Prod.mk.injEq, List.cons.injEq] at hs
          have key : ∀ {neg : Bool} {r : Nat} {body : Bytes}, cs = (if neg = true then [94] else []) ++ body →
              (neg = false → cs.head? ≠ some 94) →
              (match ranges r 0 false body with
                | none => Res.bad
                | some (m, cs') => if m = neg then .no else matchGo k cs' ((x :: s).drop (decodeRune (x :: s)).2)) = .yes t →
              ∃ ts, Pattern (91 :: cs) ts := by
            intro neg r body e1 e2 h
            cases hr : ranges r 0 false body with
            | none => rw [hr] at h; cases h
            | some q =>
              obtain ⟨m, cs'⟩ := q
              rw [hr] at h
              simp only at h
              split_ifs at h
              obtain ⟨w, rs, g1, g2, g3⟩ := items_ranges _ _ _ _ _ _ hr
              have g4 : rs ≠ [] := fun h => absurd (g3 h) (by omega)
              have g5 : scan true body = (w ++ 93 :: (scan false cs').1, (scan false cs').2) := by rw [g1, scan_items g2]
              have g6 : scan false cs' = (cs', []) := by
                have h1 := hs.1.2
                have h2 := hs.2
                rw [e1] at h1 h2
                cases neg with
                | true =>
                  rw [if_pos rfl, List.singleton_append, scan_true (by decide) (by decide), g5] at h1 h2
                  rw [g1] at h1
                  simp only [List.cons.injEq, List.append_cancel_left_eq, true_and] at h1 h2
                  exact Prod.ext h1 h2
                | false =>
                  rw [if_neg (by decide), List.nil_append, g5] at h1 h2
                  rw [g1] at h1
                  simp only [List.cons.injEq, List.append_cancel_left_eq, true_and] at h1 h2
                  exact Prod.ext h1 h2
              have g7 : cs'.length ≤ k := by
                have := congrArg List.length e1
                rw [g1] at this
                simp only [List.length_cons, List.length_append] at this hk
                omega
              obtain ⟨ts, g8⟩ := ih cs' _ _ g7 g6 h
              cases neg with
              | true =>
                rw [e1, g1]
                exact ⟨_, .ncls g2 g4 g8⟩
              | false =>
                have h9 := e2 rfl
                rw [e1, g1] at h9 ⊢
                refine ⟨_, .cls g2 g4 ?_ g8⟩
                intro hw
                cases w with
                | nil => cases hw
                | cons y w => exact h9 hw
          by_cases c3 : cs.head? = some 94
          · simp only [c3, decide_true, if_true] at h
            refine key (neg := true) (body := cs.tail) ?_ (by simp) h
            cases cs with
            | nil => cases c3
            | cons y cs => cases c3; rfl
          · simp only [c3, decide_false] at h
            exact key (neg := false) (body := cs) rfl (fun _ => c3) h
        rw [if_neg c1] at h
        have hkc : cs.length ≤ k := by simpa using hk
        by_cases c2 : c = 63
        · subst c2
          rw [if_pos rfl] at h
          split_ifs at h
          rw [scan_plain (by decide) (by decide) (by decide), Prod.mk.injEq, List.cons.injEq] at hs
          obtain ⟨ts, g⟩ := ih cs _ _ hkc (Prod.ext hs.1.2 hs.2) h
          exact ⟨_, .any g⟩
        rw [if_neg c2] at h
        by_cases c3 : c = 92
        · subst c3
          rw [if_pos rfl] at h
          cases cs with
          | nil => cases h
          | cons d cs =>
            simp only [ne_eq, ite_not] at h
            split_ifs at h
            rw [scan_quoted, Prod.mk.injEq, List.cons.injEq, List.cons.injEq] at hs
            obtain ⟨ts, g⟩ := ih cs _ _ (by simp only [List.length_cons] at hkc; omega) (Prod.ext hs.1.2.2 hs.2) h
            exact ⟨_, .quoted g⟩
        rw [if_neg c3] at h
        simp only [ne_eq, ite_not] at h
        split_ifs at h
        have c4 : c ≠ 42 := by
          rintro rfl
          rw [scan.eq_def] at hs
          simp at hs
        rw [scan_plain c4 c1 c3, Prod.mk.injEq, List.cons.injEq] at hs
        obtain ⟨ts, g⟩ := ih cs _ _ hkc (Prod.ext hs.1.2 hs.2) h
        exact ⟨_, .plain c4 c2 c1 c3 g⟩

theorem pattern_undrop {p : Bytes} {ts : List Tok} (h : Pattern (p.dropWhile (· = 42)) ts) : ∃ us, Pattern p us := by
  induction p with
  | nil => exact ⟨[], .nil⟩
  | cons c p ih =>
    by_cases hc : c = 42
    · rw [List.dropWhile_cons_of_pos (by simpa using hc)] at h
      obtain ⟨us, h1⟩ := ih h
      exact ⟨_, by rw [hc]; exact .star h1⟩
    · rw [List.dropWhile_cons_of_neg (by simpa using hc)] at h
      exact ⟨ts, h⟩

theorem matchPath_wf {p name r : Bytes} (hy : matchPath p name = .yes r) : ∃ ts, Pattern p ts := by
  induction hl : p.length using Nat.strongRecOn generalizing p name with
  | _ k ih =>
    subst hl
    by_cases hp : p = []
    · rw [hp]; exact ⟨[], .nil⟩
    · rw [matchPath_eq hp] at hy
      have ha := scan_append false (p.dropWhile (· = 42))
      by_cases hc : (scanChunk p).1 = true ∧ (scanChunk p).2.1 = []
      · suffices p.dropWhile (· = 42) = [] from pattern_undrop (ts := []) (by rw [this]; exact .nil)
        have h1 : (scan false (p.dropWhile (· = 42))).1 = [] := hc.2
        cases hd : p.dropWhile (· = 42) with
        | nil => rfl
        | cons c q =>
          exfalso
          have hn : c ≠ 42 := by
            have := List.head_dropWhile_not (fun c : UInt8 => decide (c = 42)) (l := p) (by rw [hd]; simp)
            simpa [hd] using this
          rw [hd, scan.eq_def] at h1
          simp only at h1
          (repeat' split at h1) <;> simp_all
      · rw [if_neg hc] at hy
        cases hf : find (scanChunk p).1 (scanChunk p).2.1 (decide ((scanChunk p).2.2 = [])) name with
        | bad => rw [hf] at hy; cases hy
        | no => rw [hf] at hy; cases hy
        | yes t =>
          rw [hf] at hy
          obtain ⟨us, h1⟩ := ih _ (scanChunk_lt hp) hy rfl
          obtain ⟨w, u, -, -, -, e4, -⟩ := find_sound hf
          obtain ⟨ts, h2⟩ := matchGo_wf _ _ _ _ (Nat.le_refl _) (scan_again false _) e4
          refine pattern_undrop (ts := ts ++ us) ?_
          rw [← ha]
          exact pattern_append h2 h1

end Verif.Match
