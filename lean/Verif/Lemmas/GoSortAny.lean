import Verif.Lemmas.GoSort
/-!
# Lemmas about `sort.Sort`: whatever `Less` answers

`Within n c P`: on every way through the program `P` all indices are below `n` and there are at most `c` comparisons.
-/
set_option linter.unusedSectionVars false

namespace Verif.SortProg
variable {α : Type}

def Within (n : Nat) : Nat → Prog → Prop
  | _, .done => True
  | c, .less i j k => i < n ∧ j < n ∧ 0 < c ∧ ∀ r, Within n (c - 1) (k r)
  | c, .swap i j k => i < n ∧ j < n ∧ Within n c k

theorem Within.mono {n : Nat} : ∀ {P : Prog} {c d : Nat}, c ≤ d → Within n c P → Within n d P := by
  intro P
  induction P with
  | done => intro c d _ _; trivial
  | less i j k ih =>
    intro c d h hP
    obtain ⟨h1, h2, h3, h4⟩ := hP
    exact ⟨h1, h2, by omega, fun r => ih r (by omega) (h4 r)⟩
  | swap i j k ih =>
    intro c d h hP
    obtain ⟨h1, h2, h3⟩ := hP
    exact ⟨h1, h2, ih h h3⟩

/-- Such a program comes to its end, and makes at most `c` comparisons, whatever the comparison is. -/
theorem Within.run (cmp : α → α → Bool) : ∀ {P : Prog} {c : Nat} {l : List α}, Within l.length c P →
    (listSort (total cmp) l P).2 = true ∧ calls (total cmp) l P ≤ c := by
  intro P
  induction P with
  | done => intro c l _; exact ⟨rfl, by simp [calls]⟩
  | less i j k ih =>
    intro c l h
    obtain ⟨h1, h2, h3, h4⟩ := h
    obtain ⟨a, b⟩ := ih (cmp l[i] l[j]) (h4 _)
    simp only [listSort, calls, List.getElem?_eq_getElem h1, List.getElem?_eq_getElem h2, total]
    exact ⟨a, by omega⟩
  | swap i j k ih =>
    intro c l h
    obtain ⟨h1, h2, h3⟩ := h
    simp only [listSort, calls, List.getElem?_eq_getElem h1, List.getElem?_eq_getElem h2]
    exact ih (by simpa using h3)

theorem Within.less {n c i j : Nat} {k : Bool → Prog} (hi : i < n) (hj : j < n) (h : ∀ r, Within n c (k r)) : Within n (c + 1) (.less i j k) :=
  ⟨hi, hj, by omega, h⟩

theorem Within.swap {n c i j : Nat} {k : Prog} (hi : i < n) (hj : j < n) (h : Within n c k) : Within n c (.swap i j k) := ⟨hi, hj, h⟩

section Proofs
variable {n : Nat}

theorem slide_within {c a : Nat} {k : Prog} (hk : Within n c k) : ∀ t, a + t < n → Within n (t + c) (slide a t k) := by
  intro t
  induction t with
  | zero => intro _; exact hk.mono (by omega)
  | succ t ih =>
    intro h
    refine (Within.less (c := t + c) (by omega) (by omega) fun r => ?_).mono (by omega)
    cases r
    · exact hk.mono (by omega)
    · exact Within.swap (by omega) (by omega) (ih (by omega))

theorem insertAll_within {c a : Nat} {k : Prog} (hk : Within n c k) : ∀ r t, a + t + r ≤ n → Within n (r * (t + r) + c) (insertAll a t r k) := by
  intro r
  induction r with
  | zero => intro t _; exact hk.mono (by omega)
  | succ r ih =>
    intro t h
    exact (slide_within (ih (t + 1) (by omega)) t (by omega)).mono (by nlinarith)

theorem siftDown_within {c first hi : Nat} {k : Prog} (hn : first + hi ≤ n) (hk : Within n c k) : ∀ fuel t root, hi ≤ (root + 1) * 2 ^ t →
    Within n (2 * t + c) (siftDown first hi fuel root k) := by
  intro fuel
  induction fuel with
  | zero => intro t root _; exact hk.mono (by omega)
  | succ fuel ih =>
    intro t root ht
    unfold siftDown
    simp only
    by_cases hch : hi ≤ 2 * root + 1
    · rw [if_pos hch]; exact hk.mono (by omega)
    · rw [if_neg hch]
      obtain ⟨t, rfl⟩ : ∃ u, t = u + 1 := by
        cases t with
        | zero => rw [Nat.pow_zero, Nat.mul_one] at ht; omega
        | succ u => exact ⟨u, rfl⟩
      have e : (root + 1) * 2 ^ (t + 1) = (2 * root + 2) * 2 ^ t := by rw [Nat.pow_succ]; ring
      rw [e] at ht
      have sink : ∀ child, 2 * root + 1 ≤ child → child < hi → Within n (2 * t + c + 1) (.less (first + root) (first + child) fun r =>
            if r then .swap (first + root) (first + child) (siftDown first hi fuel child k) else k) := by
        intro child h1 h2
        refine Within.less (by omega) (by omega) fun r => ?_
        cases r
        · exact hk.mono (by omega)
        · exact Within.swap (by omega) (by omega) (ih t child (ht.trans (Nat.mul_le_mul_right _ (by omega))))
      by_cases h2 : 2 * root + 1 + 1 < hi
      · rw [if_pos h2]
        refine (Within.less (c := 2 * t + c + 1) (by omega) (by omega) fun r => ?_).mono (by omega)
        cases r
        · exact sink _ (by omega) (by omega)
        · exact sink _ (by omega) (by omega)
      · rw [if_neg h2]
        exact (sink _ (by omega) (by omega)).mono (by omega)

theorem heapify_within {c first hi t : Nat} {k : Prog} (hn : first + hi ≤ n) (ht : hi ≤ 2 ^ t) (hk : Within n c k) : ∀ i,
    Within n ((i + 1) * (2 * t) + c) (heapify first hi i k) := by
  intro i
  induction i with
  | zero => exact (siftDown_within hn hk hi t 0 (by omega)).mono (by omega)
  | succ i ih =>
    exact (siftDown_within hn ih hi t (i + 1) (ht.trans (Nat.le_mul_of_pos_left _ (by omega)))).mono (by nlinarith)

theorem popAll_within {c first t : Nat} {k : Prog} (hk : Within n c k) : ∀ i, first + i ≤ n → i ≤ 2 ^ t →
    Within n (i * (2 * t) + c) (popAll first i k) := by
  intro i
  induction i with
  | zero => intro _ _; exact hk.mono (by omega)
  | succ i ih =>
    intro h1 h2
    exact Within.swap (by omega) (by omega) ((siftDown_within (by omega) (ih (by omega) (by omega)) i t 0 (by omega)).mono (by nlinarith))

theorem heapSort_within {c a b t : Nat} {k : Prog} (hab : a < b) (hn : b ≤ n) (ht : b - a ≤ 2 ^ t) (hk : Within n c k) :
    Within n ((b - a) * (4 * t) + c) (heapSort a b k) := by
  refine (heapify_within (by omega) ht (popAll_within hk (b - a) (by omega) ht) ((b - a - 1) / 2)).mono ?_
  have : (b - a - 1) / 2 + 1 ≤ b - a := by omega
  have := Nat.mul_le_mul_right (2 * t) this
  have : (b - a) * (4 * t) = (b - a) * (2 * t) + (b - a) * (2 * t) := by ring
  omega

theorem medianOfThree_within {c m1 m0 m2 : Nat} {k : Prog} (h1 : m1 < n) (h0 : m0 < n) (h2 : m2 < n) (hk : Within n c k) :
    Within n (c + 3) (medianOfThree m1 m0 m2 k) := by
  have last : Within n (c + 2) (.less m2 m1 fun r =>
      if r then .swap m2 m1 (.less m1 m0 fun r => if r then .swap m1 m0 k else k) else k) := by
    refine Within.less h2 h1 fun r => ?_
    cases r
    · exact hk.mono (by omega)
    · refine Within.swap h2 h1 (Within.less h1 h0 fun r => ?_)
      cases r
      · exact hk
      · exact Within.swap h1 h0 hk
  refine Within.less h1 h0 fun r => ?_
  cases r
  · exact last
  · exact Within.swap h1 h0 last

theorem scanLess_within {p : Nat} (hp : p < n) {k : Nat → Prog} : ∀ m a C, a + m ≤ n → m ≤ C →
    (∀ a' d, a ≤ a' → a' ≤ a + m → (a' < a + m → d + (a' - a) + 1 = C) → (a' = a + m → d + m = C) → Within n d (k a')) → Within n C (scanLess p m a k) := by
  intro m
  induction m with
  | zero => intro a C _ hC h; exact h a C (le_refl _) (by omega) (by omega) (by omega)
  | succ m ih =>
    intro a C ha hC h
    refine (Within.less (c := C - 1) (by omega) hp fun r => ?_).mono (by omega)
    cases r
    · exact h a (C - 1) (le_refl _) (by omega) (by omega) (by omega)
    · exact ih (a + 1) (C - 1) (by omega) (by omega) fun a' d h1 h2 h3 h4 => h a' d (by omega) (by omega) (by omega) (by omega)

theorem scanNotGreater_within {p : Nat} (hp : p < n) {k : Nat → Prog} : ∀ m a C, a + m ≤ n → m ≤ C →
    (∀ a' d, a ≤ a' → a' ≤ a + m → (a' < a + m → d + (a' - a) + 1 = C) → (a' = a + m → d + m = C) → Within n d (k a')) → Within n C (scanNotGreater p m a k) := by
  intro m
  induction m with
  | zero => intro a C _ hC h; exact h a C (le_refl _) (by omega) (by omega) (by omega)
  | succ m ih =>
    intro a C ha hC h
    refine (Within.less (c := C - 1) hp (by omega) fun r => ?_).mono (by omega)
    cases r
    · exact ih (a + 1) (C - 1) (by omega) (by omega) fun a' d h1 h2 h3 h4 => h a' d (by omega) (by omega) (by omega) (by omega)
    · exact h a (C - 1) (le_refl _) (by omega) (by omega) (by omega)

theorem scanGreater_within {p : Nat} (hp : p < n) {k : Nat → Prog} : ∀ m c C, m ≤ c → c ≤ n → m ≤ C →
    (∀ c' d, c - m ≤ c' → c' ≤ c → (c - m < c' → d + (c - c') + 1 = C) → (c' = c - m → d + m = C) → Within n d (k c')) → Within n C (scanGreater p m c k) := by
  intro m
  induction m with
  | zero => intro c C _ _ hC h; exact h c C (by omega) (le_refl _) (by omega) (by omega)
  | succ m ih =>
    intro c C h0 hn hC h
    refine (Within.less (c := C - 1) hp (by omega) fun r => ?_).mono (by omega)
    cases r
    · exact h c (C - 1) (by omega) (le_refl _) (by omega) (by omega)
    · exact ih (c - 1) (C - 1) (by omega) (by omega) (by omega) fun c' d h1 h2 h3 h4 => h c' d (by omega) (by omega) (by omega) (by omega)

theorem scanNotLess_within {p : Nat} (hp : p < n) {k : Nat → Prog} : ∀ m c C, m ≤ c → c ≤ n → m ≤ C →
    (∀ c' d, c - m ≤ c' → c' ≤ c → (c - m < c' → d + (c - c') + 1 = C) → (c' = c - m → d + m = C) → Within n d (k c')) → Within n C (scanNotLess p m c k) := by
  intro m
  induction m with
  | zero => intro c C _ _ hC h; exact h c C (by omega) (le_refl _) (by omega) (by omega)
  | succ m ih =>
    intro c C h0 hn hC h
    refine (Within.less (c := C - 1) (by omega) hp fun r => ?_).mono (by omega)
    cases r
    · exact ih (c - 1) (C - 1) (by omega) (by omega) (by omega) fun c' d h1 h2 h3 h4 => h c' d (by omega) (by omega) (by omega) (by omega)
    · exact h c (C - 1) (by omega) (le_refl _) (by omega) (by omega)

/-- The places may cross by one, if `Less` gives different answers to the same question. -/
theorem part_within {p e : Nat} (hp : p < n) (he : e < n) {k : Nat → Nat → Prog} : ∀ fuel b c C, b ≤ c + 1 → b ≤ e → c ≤ e → c + 1 - b < fuel →
    c + 1 - b ≤ C → (∀ b' c', b ≤ b' → b' ≤ e → c' ≤ b' → b' ≤ c' + 1 → Within n (C - (c + 1 - b)) (k b' c')) →
    Within n C (part p fuel b c k) := by
  intro fuel
  induction fuel with
  | zero => intro b c C h1 h2 h3 hf; omega
  | succ fuel ih =>
    intro b c C h1 h2 h3 hf hC h
    unfold part
    refine scanNotGreater_within hp (c - b) b C (by omega) (by omega) fun b' d hb1 hb2 hd hd0 => ?_
    refine scanGreater_within hp (c - b') c d (by omega) (by omega) (by omega) fun c' d' hc1 hc2 hd' hd0' => ?_
    by_cases hend : c' ≤ b'
    · rw [if_pos hend]
      exact (h b' c' hb1 (by omega) hend (by omega)).mono (by omega)
    · rw [if_neg hend]
      refine Within.swap (by omega) (by omega) (ih (b' + 1) (c' - 1) d' (by omega) (by omega) (by omega) (by omega) (by omega) fun b'' c'' g1 g2 g3 g4 => ?_)
      exact (h b'' c'' (by omega) g2 g3 g4).mono (by omega)

theorem gather_within {p lo : Nat} (hp : p < n) {k : Nat → Prog} : ∀ fuel a b C, lo < a → lo < b → b ≤ n → a ≤ n → b + 1 - a < fuel → b + 1 - a ≤ C →
    (∀ b', lo < b' → b' ≤ b → Within n (C - (b + 1 - a)) (k b')) →
    Within n C (gather p fuel a b k) := by
  intro fuel
  induction fuel with
  | zero => intro a b C h1 h2 h3 h3' hf; omega
  | succ fuel ih =>
    intro a b C h1 h2 h3 h3' hf hC h
    unfold gather
    refine scanNotLess_within hp (b - a) b C (by omega) (by omega) (by omega) fun b' d hb1 hb2 hd hd0 => ?_
    refine scanLess_within hp (b' - a) a d (by omega) (by omega) fun a' d' ha1 ha2 hd' hd0' => ?_
    by_cases hend : b' ≤ a'
    · rw [if_pos hend]
      exact (h b' (by omega) hb2).mono (by omega)
    · rw [if_neg hend]
      refine Within.swap (by omega) (by omega)
        (ih (a' + 1) (b' - 1) d' (by omega) (by omega) (by omega) (by omega) (by omega) (by omega) fun b'' g1 g2 => ?_)
      exact (h b'' g1 (by omega)).mono (by omega)

theorem testDups_within {lo hi b c C : Nat} {k : Nat → Nat → Bool → Prog} (hn : hi ≤ n) (hlo : lo < b) (hcb : c ≤ b) (hbc : b ≤ c + 1)
    (hb : b < hi) (h : ∀ b' c' pr, lo < b' → b' ≤ b → c ≤ c' → c' ≤ c + 1 → c' ≤ hi → Within n C (k b' c' pr)) :
    Within n (C + 3) (testDups lo ((lo + hi) / 2) hi b c k) := by
  unfold testDups
  by_cases h5 : hi - c < 5
  · rw [if_pos h5]; exact (h b c true hlo (le_refl _) (le_refl _) (by omega) (by omega)).mono (by omega)
  rw [if_neg h5]
  by_cases h4 : hi - c < (hi - lo) / 4
  swap
  · rw [if_neg h4]; exact (h b c false hlo (le_refl _) (le_refl _) (by omega) (by omega)).mono (by omega)
  rw [if_pos h4]
  set m := (lo + hi) / 2 with hm
  have third : ∀ b' c' d, b ≤ b' + 1 → b' ≤ b → c ≤ c' → c' ≤ c + 1 → Within n (C + 1) (Prog.less m lo fun r =>
      if r then k b' c' (decide (1 < d)) else .swap m (b' - 1) (k (b' - 1) c' (decide (1 < d + 1)))) := by
    intro b' c' d h1 h2 h3 h6
    refine Within.less (by omega) (by omega) fun r => ?_
    cases r
    · exact Within.swap (by omega) (by omega) (h _ _ _ (by omega) (by omega) (by omega) (by omega) (by omega))
    · exact h _ _ _ (by omega) (by omega) (by omega) (by omega) (by omega)
  have second : ∀ c' d, c ≤ c' → c' ≤ c + 1 → Within n (C + 2) (Prog.less (b - 1) lo fun r => if r then (Prog.less m lo fun r =>
        if r then k b c' (decide (1 < d)) else .swap m (b - 1) (k (b - 1) c' (decide (1 < d + 1)))) else
        (Prog.less m lo fun r =>
        if r then k (b - 1) c' (decide (1 < d + 1)) else .swap m (b - 1 - 1) (k (b - 1 - 1) c' (decide (1 < d + 1 + 1))))) := by
    intro c' d h3 h6
    refine Within.less (by omega) (by omega) fun r => ?_
    cases r
    · exact third (b - 1) c' (d + 1) (by omega) (by omega) h3 h6
    · exact third b c' d (by omega) (by omega) h3 h6
  refine Within.less (by omega) (by omega) fun r => ?_
  cases r
  · exact Within.swap (by omega) (by omega) (second (c + 1) 1 (by omega) (by omega))
  · exact second c 0 (by omega) (by omega)

theorem doPivot_within {lo hi C : Nat} {k : Nat → Nat → Prog} (h12 : 12 < hi - lo) (hn : hi ≤ n)
    (h : ∀ mlo mhi, lo ≤ mlo → mlo ≤ mhi → mhi ≤ hi → Within n C (k mlo mhi)) :
    Within n (C + 4 * (hi - lo)) (doPivot lo hi k) := by
  set m := (lo + hi) / 2 with hm
  have main : Within n (C + (2 * (hi - lo) + 8)) (medianOfThree lo m (hi - 1) <|
      scanLess lo (hi - 1 - (lo + 1)) (lo + 1) fun a =>
      part lo (hi - lo) a (hi - 1) fun b c =>
      testDups lo m hi b c fun b c protect =>
      if protect then gather lo (hi - lo) a b (fun b => Prog.swap lo (b - 1) (k (b - 1) c)) else Prog.swap lo (b - 1) (k (b - 1) c)) := by
    refine (medianOfThree_within (c := C + (2 * (hi - lo) + 5)) (by omega) (by omega) (by omega) ?_).mono (by omega)
    refine scanLess_within (by omega) _ _ _ (by omega) (by omega) fun a d ha1 ha2 hd hd0 => ?_
    refine part_within (e := hi - 1) (by omega) (by omega) (hi - lo) a (hi - 1) d (by omega) (by omega) (by omega) (by omega) (by omega)
      fun b c hb1 hb2 hb3 hb4 => ?_
    refine (testDups_within (C := C + (hi - lo)) hn (by omega) hb3 hb4 (by omega) fun b' c' pr g1 g2 g3 g4 g5 => ?_).mono (by omega)
    have fin : ∀ b'', lo < b'' → b'' ≤ b' → Within n C (Prog.swap lo (b'' - 1) (k (b'' - 1) c')) := fun b'' q1 q2 =>
      Within.swap (by omega) (by omega) (h _ _ (by omega) (by omega) g5)
    cases pr
    · exact (fin b' g1 (le_refl _)).mono (by omega)
    · refine gather_within (lo := lo) (by omega) (hi - lo) a b' (C + (hi - lo)) (by omega) g1 (by omega) (by omega) (by omega) (by omega) fun b'' q1 q2 => ?_
      exact (fin b'' q1 q2).mono (by omega)
  unfold doPivot
  simp only
  rw [← hm]
  by_cases h40 : 40 < hi - lo
  · rw [if_pos h40]
    exact (medianOfThree_within (by omega) (by omega) (by omega) (medianOfThree_within (by omega) (by omega) (by omega)
      (medianOfThree_within (by omega) (by omega) (by omega) main))).mono (by omega)
  · rw [if_neg h40]
    exact main.mono (by omega)

theorem shellPass_within {c : Nat} {k : Prog} (hk : Within n c k) : ∀ r i, i + r ≤ n → Within n (r + c) (shellPass i r k) := by
  intro r
  induction r with
  | zero => intro i _; exact hk.mono (by omega)
  | succ r ih =>
    intro i h
    refine (Within.less (c := r + c) (by omega) (by omega) fun x => ?_).mono (by omega)
    cases x
    · exact ih (i + 1) (by omega)
    · exact Within.swap (by omega) (by omega) (ih (i + 1) (by omega))

theorem quickSort_within (t : Nat) : ∀ (depth a b c : Nat) (k : Prog), b ≤ n → b - a ≤ 2 ^ t → Within n c k →
    Within n ((b - a) * (4 * depth + 4 * t + 12) + c) (quickSort depth a b k) := by
  have short : ∀ (d a b c : Nat) (k : Prog), b ≤ n → ¬ 12 < b - a → Within n c k → Within n ((b - a) * (4 * d + 4 * t + 12) + c)
      (if 1 < b - a then shellPass (a + 6) (b - (a + 6)) (insertionSort a b k) else k) := by
    intro d a b c k hn h12 hk
    by_cases h1 : 1 < b - a
    · rw [if_pos h1]
      have hi : Within n ((b - (a + 1)) * (b - a) + c) (insertionSort a b k) := by
        have := insertAll_within hk (a := a) (b - (a + 1)) 1 (by omega)
        rw [show 1 + (b - (a + 1)) = b - a by omega] at this
        exact this
      have e1 : (b - (a + 1)) * (b - a) ≤ 11 * (b - a) := Nat.mul_le_mul_right _ (by omega)
      have e2 : (b - a) * 12 ≤ (b - a) * (4 * d + 4 * t + 12) := Nat.mul_le_mul_left _ (by omega)
      by_cases h6 : a + 6 ≤ b
      · exact (shellPass_within hi (b - (a + 6)) (a + 6) (by omega)).mono (by omega)
      · rw [show b - (a + 6) = 0 by omega]
        exact hi.mono (by omega)
    · rw [if_neg h1]
      exact hk.mono (by omega)
  intro depth
  induction depth with
  | zero =>
    intro a b c k hn ht hk
    unfold quickSort
    by_cases h12 : 12 < b - a
    · rw [if_pos h12]
      refine (heapSort_within (by omega) hn ht hk).mono (Nat.add_le_add_right (Nat.mul_le_mul_left _ (by omega)) _)
    · rw [if_neg h12]
      exact short 0 a b c k hn h12 hk
  | succ depth ih =>
    intro a b c k hn ht hk
    unfold quickSort
    by_cases h12 : 12 < b - a
    · rw [if_pos h12]
      simp only
      refine (doPivot_within (C := (b - a) * (4 * depth + 4 * t + 12) + c) h12 hn fun mlo mhi h1 h2 h3 => ?_).mono ?_
      · have : (mlo - a) + (b - mhi) ≤ b - a := by omega
        have := Nat.mul_le_mul_right (4 * depth + 4 * t + 12) this
        rw [Nat.add_mul] at this
        by_cases hc : mlo - a < b - mhi
        · rw [if_pos hc]
          exact (ih a mlo _ _ (by omega) (by omega) (ih mhi b c k hn (by omega) hk)).mono (by omega)
        · rw [if_neg hc]
          exact (ih mhi b _ _ (by omega) (by omega) (ih a mlo c k (by omega) (by omega) hk)).mono (by omega)
      · have e : (b - a) * (4 * (depth + 1) + 4 * t + 12) = 4 * (b - a) + (b - a) * (4 * depth + 4 * t + 12) := by ring
        omega
    · rw [if_neg h12]
      exact short (depth + 1) a b c k hn h12 hk

end Proofs
end Verif.SortProg
