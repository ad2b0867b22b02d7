import Verif.Model.GoSort
import Mathlib.Logic.Equiv.Basic
import Mathlib.Tactic.Linarith
import Mathlib.Tactic.Ring
import Mathlib.Tactic.SplitIfs
/-!
# Lemmas about `sort.Sort`

The elements are looked at as a function of the index.  `Reach P f c Q g`: the program `P` on the elements `f` does the same as `Q` on `g`, after at
most `c` comparisons.
-/
set_option linter.unusedSectionVars false

namespace Verif.SortProg
open Verif.Spec
variable {α : Type}

def arr (n : Nat) (f : Nat → α) : List α := (List.range n).map f

def swp (f : Nat → α) (i j : Nat) : Nat → α := fun x => if x = i then f j else if x = j then f i else f x

theorem swp_left (f : Nat → α) (i j : Nat) : swp f i j i = f j := by simp [swp]
theorem swp_right (f : Nat → α) (i j : Nat) : swp f i j j = f i := by
  unfold swp; by_cases h : j = i <;> simp [h]
theorem swp_other (f : Nat → α) {i j x : Nat} (h1 : x ≠ i) (h2 : x ≠ j) : swp f i j x = f x := by simp [swp, h1, h2]

/-- A property of the elements of a range holds after a swap within the range. -/
theorem swp_forall {f : Nat → α} {i j a b : Nat} {P : α → Prop} (h : ∀ x, a ≤ x → x < b → P (f x)) (hi : a ≤ i ∧ i < b) (hj : a ≤ j ∧ j < b) :
    ∀ x, a ≤ x → x < b → P (swp f i j x) := by
  intro x h1 h2
  unfold swp
  split_ifs
  · exact h _ hj.1 hj.2
  · exact h _ hi.1 hi.2
  · exact h _ h1 h2

theorem arr_length (n : Nat) (f : Nat → α) : (arr n f).length = n := by simp [arr]
theorem arr_get (n : Nat) (f : Nat → α) {i : Nat} (h : i < n) : (arr n f)[i]? = some (f i) := by simp [arr, h]

theorem arr_swap (n : Nat) (f : Nat → α) {i j : Nat} (hi : i < n) (hj : j < n) :
    ((arr n f).set i (f j)).set j (f i) = arr n (swp f i j) := by
  apply List.ext_getElem?
  intro x
  by_cases hx : x < n
  · rw [arr_get n _ hx, List.getElem?_set]
    simp only [List.length_set, arr_length, hj, if_true]
    by_cases h : j = x
    · subst h; simp [swp_right]
    · rw [if_neg h, List.getElem?_set]
      simp only [arr_length, hi, if_true]
      by_cases h' : i = x
      · subst h'; simp [swp_left]
      · rw [if_neg h', arr_get n _ hx, swp_other f (Ne.symm h') (Ne.symm h)]
  · rw [List.getElem?_eq_none (by simp [arr_length]; omega), List.getElem?_eq_none (by simp [arr_length]; omega)]

/-- `P` on `f` goes on like `Q` on `g` after at most `c` comparisons. -/
structure Reach (lt : α → α → Bool) (n : Nat) (P : Prog) (f : Nat → α) (c : Nat) (Q : Prog) (g : Nat → α) : Prop where
  run : listSort (total lt) (arr n f) P = listSort (total lt) (arr n g) Q
  cost : calls (total lt) (arr n f) P ≤ c + calls (total lt) (arr n g) Q

namespace Reach
variable {lt : α → α → Bool} {n : Nat}

theorem refl (P : Prog) (f : Nat → α) (c : Nat) : Reach lt n P f c P f := ⟨rfl, by omega⟩

theorem trans {P Q R : Prog} {f g h : Nat → α} {c d : Nat} (a : Reach lt n P f c Q g) (b : Reach lt n Q g d R h) :
    Reach lt n P f (c + d) R h := ⟨a.run.trans b.run, by have := a.cost; have := b.cost; omega⟩

theorem weaken {P Q : Prog} {f g : Nat → α} {c d : Nat} (a : Reach lt n P f c Q g) (h : c ≤ d) : Reach lt n P f d Q g :=
  ⟨a.run, by have := a.cost; omega⟩

theorem less {i j : Nat} (k : Bool → Prog) (f : Nat → α) (hi : i < n) (hj : j < n) :
    Reach lt n (.less i j k) f 1 (k (lt (f i) (f j))) f := by
  refine ⟨?_, ?_⟩
  · simp only [listSort, arr_get n f hi, arr_get n f hj, total]
  · simp only [calls, arr_get n f hi, arr_get n f hj, total]; omega

theorem swap {i j : Nat} (k : Prog) (f : Nat → α) (hi : i < n) (hj : j < n) : Reach lt n (.swap i j k) f 0 k (swp f i j) := by
  refine ⟨?_, ?_⟩
  · simp only [listSort, arr_get n f hi, arr_get n f hj, arr_swap n f hi hj]
  · simp only [calls, arr_get n f hi, arr_get n f hj, arr_swap n f hi hj]; omega

end Reach

/-- `g` has the elements of `f`, moved within `[a, b)`. -/
def PermOn (a b : Nat) (f g : Nat → α) : Prop := ∃ s : Equiv.Perm Nat, (∀ x, x < a ∨ b ≤ x → s x = x) ∧ g = f ∘ s

namespace PermOn
variable {a b : Nat} {f g h : Nat → α}

theorem refl (a b : Nat) (f : Nat → α) : PermOn a b f f := ⟨Equiv.refl _, fun _ _ => rfl, rfl⟩

theorem trans (p : PermOn a b f g) (q : PermOn a b g h) : PermOn a b f h := by
  obtain ⟨s, h1, rfl⟩ := p
  obtain ⟨t, h2, rfl⟩ := q
  refine ⟨t.trans s, fun x hx => ?_, rfl⟩
  simp only [Equiv.trans_apply, h2 x hx, h1 x hx]

theorem mono (p : PermOn a b f g) {a' b' : Nat} (h1 : a' ≤ a) (h2 : b ≤ b') : PermOn a' b' f g := by
  obtain ⟨s, h, e⟩ := p
  exact ⟨s, fun x hx => h x (by omega), e⟩

theorem swp {i j : Nat} (f : Nat → α) (hi : a ≤ i ∧ i < b) (hj : a ≤ j ∧ j < b) : PermOn a b f (swp f i j) := by
  refine ⟨Equiv.swap i j, fun x hx => Equiv.swap_apply_of_ne_of_ne (by omega) (by omega), ?_⟩
  funext x
  simp only [SortProg.swp, Function.comp, Equiv.swap_apply_def]
  split_ifs <;> rfl

theorem outside (p : PermOn a b f g) {x : Nat} (hx : x < a ∨ b ≤ x) : g x = f x := by
  obtain ⟨s, h, rfl⟩ := p
  simp [h x hx]

theorem inside {s : Equiv.Perm Nat} (h : ∀ x, x < a ∨ b ≤ x → s x = x) {x : Nat} (hx : a ≤ x ∧ x < b) : a ≤ s x ∧ s x < b := by
  by_contra hc
  have e : s (s x) = s x := h (s x) (by omega)
  have := s.injective e
  omega

theorem all (p : PermOn a b f g) {P : α → Prop} (hP : ∀ x, a ≤ x → x < b → P (f x)) : ∀ x, a ≤ x → x < b → P (g x) := by
  obtain ⟨s, h, rfl⟩ := p
  intro x h1 h2
  obtain ⟨h3, h4⟩ := inside h ⟨h1, h2⟩
  exact hP _ h3 h4

end PermOn

/-- The elements of `[a, b)` are in order. -/
def Ordered (lt : α → α → Bool) (a b : Nat) (f : Nat → α) : Prop := ∀ x y, a ≤ x → x < y → y < b → lt (f y) (f x) = false

section Proofs
variable {lt : α → α → Bool} (hw : StrictWeak lt) {n : Nat}
include hw

/-! ## Insertion sort -/

theorem slide_spec (a i : Nat) (hi : a + i < n) (k : Prog) : ∀ (t : Nat) (f : Nat → α), t ≤ i →
    (∀ x y, a ≤ x → x < y → y ≤ a + i → x ≠ a + t → y ≠ a + t → lt (f y) (f x) = false) →
    (∀ y, a + t < y → y ≤ a + i → lt (f y) (f (a + t)) = false) →
    ∃ g, Reach lt n (slide a t k) f t k g ∧ PermOn a (a + i + 1) f g ∧ Ordered lt a (a + i + 1) g := by
  intro t
  induction t with
  | zero =>
    intro f _ h1 h2
    refine ⟨f, Reach.refl _ _ _, PermOn.refl _ _ _, fun x y hx hxy hy => ?_⟩
    by_cases e : x = a
    · subst e; exact h2 y (by omega) (by omega)
    · exact h1 x y hx hxy (by omega) (by omega) (by omega)
  | succ t ih =>
    intro f ht h1 h2
    have hl : Reach lt n (slide a (t + 1) k) f 1 _ f := Reach.less _ f (by omega) (by omega)
    cases hc : lt (f (a + t + 1)) (f (a + t)) with
    | false =>
      rw [hc] at hl
      refine ⟨f, hl.weaken (by omega), PermOn.refl _ _ _, fun x y hx hxy hy => ?_⟩
      by_cases ex : x = a + (t + 1)
      · subst ex; exact h2 y hxy (by omega)
      · by_cases ey : y = a + (t + 1)
        · subst ey
          by_cases e : x = a + t
          · subst e; exact hc
          · exact hw.ge_trans hc (h1 x (a + t) hx (by omega) (by omega) (by omega) (by omega))
        · exact h1 x y hx hxy (by omega) ex ey
    | true =>
      rw [hc] at hl
      have hs : Reach lt n _ f 0 (slide a t k) (swp f (a + t + 1) (a + t)) := Reach.swap _ f (by omega) (by omega)
      obtain ⟨g, r, p, o⟩ := ih (swp f (a + t + 1) (a + t)) (by omega) (by
        intro x y hx hxy hy nx ny
        have vx : x ≠ a + t := nx
        have vy : y ≠ a + t := ny
        by_cases ex : x = a + t + 1
        · subst ex
          rw [swp_left, swp_other f (by omega) (by omega)]
          exact h1 (a + t) y (by omega) (by omega) hy (by omega) (by omega)
        · by_cases ey : y = a + t + 1
          · subst ey
            rw [swp_left, swp_other f ex vx]
            exact h1 x (a + t) hx (by omega) (by omega) (by omega) (by omega)
          · rw [swp_other f ex vx, swp_other f ey vy]
            exact h1 x y hx hxy hy ex ey) (by
        intro y hy hy'
        rw [swp_right]
        by_cases ey : y = a + t + 1
        · subst ey
          rw [swp_left]
          exact hw.asymm hc
        · rw [swp_other f ey (by omega)]
          exact h2 y (by omega) hy')
      exact ⟨g, ((hl.trans (hs.trans r))).weaken (by omega),
        (PermOn.swp f (by omega) (by omega)).trans p, o⟩

theorem insertAll_spec (a : Nat) (k : Prog) : ∀ (r t : Nat) (f : Nat → α), a + t + r ≤ n → Ordered lt a (a + t) f →
    ∃ g, Reach lt n (insertAll a t r k) f (r * (t + r)) k g ∧ PermOn a (a + t + r) f g ∧ Ordered lt a (a + t + r) g := by
  intro r
  induction r with
  | zero => intro t f _ h; exact ⟨f, Reach.refl _ _ _, PermOn.refl _ _ _, h⟩
  | succ r ih =>
    intro t f hn h
    obtain ⟨g, r1, p1, o1⟩ := slide_spec (n := n) hw a t (by omega) (insertAll a (t + 1) r k) t f (le_refl _)
      (fun x y hx hxy hy _ ny => h x y hx hxy (by omega)) (fun y hy hy' => by omega)
    obtain ⟨g', r2, p2, o2⟩ := ih (t + 1) g (by omega) o1
    refine ⟨g', (r1.trans r2).weaken ?_, ?_, ?_⟩
    · nlinarith
    · rw [show a + t + (r + 1) = a + (t + 1) + r by omega]
      exact (p1.mono (le_refl _) (by omega)).trans p2
    · rw [show a + t + (r + 1) = a + (t + 1) + r by omega]; exact o2

/-! ## Heapsort -/

/-- No parent from `lo` on, except `skip`, is below one of its children. -/
def HeapBut (lt : α → α → Bool) (first lo hi : Nat) (skip : Nat → Prop) (f : Nat → α) : Prop :=
  ∀ i c, lo ≤ i → ¬ skip i → (c = 2 * i + 1 ∨ c = 2 * i + 2) → c < hi → lt (f (first + i)) (f (first + c)) = false

theorem siftDown_spec (first hi lo : Nat) (hn : first + hi ≤ n) (k : Prog) : ∀ (fuel t root : Nat) (f : Nat → α), hi ≤ fuel + root → lo ≤ root →
    hi ≤ (root + 1) * 2 ^ t → HeapBut lt first lo hi (· = root) f →
    (∀ i c, lo ≤ i → (root = 2 * i + 1 ∨ root = 2 * i + 2) → (c = 2 * root + 1 ∨ c = 2 * root + 2) → c < hi →
      lt (f (first + i)) (f (first + c)) = false) →
    ∃ g, Reach lt n (siftDown first hi fuel root k) f (2 * t) k g ∧ PermOn first (first + hi) f g ∧
      HeapBut lt first lo hi (fun _ => False) g := by
  intro fuel
  induction fuel with
  | zero =>
    intro t root f hf hlo ht h1 h2
    refine ⟨f, Reach.refl _ _ _, PermOn.refl _ _ _, fun i c hi _ hc hc' => h1 i c hi (by omega) hc hc'⟩
  | succ fuel ih =>
    intro t root f hf hlo ht h1 h2
    unfold siftDown
    simp only
    by_cases hch : hi ≤ 2 * root + 1
    · rw [if_pos hch]
      exact ⟨f, Reach.refl _ _ _, PermOn.refl _ _ _, fun i c hi _ hc hc' => h1 i c hi (by omega) hc hc'⟩
    · rw [if_neg hch]
      obtain ⟨t, rfl⟩ : ∃ u, t = u + 1 := by
        cases t with
        | zero => rw [Nat.pow_zero, Nat.mul_one] at ht; omega
        | succ u => exact ⟨u, rfl⟩
      have sink : ∀ child, (child = 2 * root + 1 ∨ child = 2 * root + 2) → child < hi →
          (∀ c, (c = 2 * root + 1 ∨ c = 2 * root + 2) → c < hi → lt (f (first + child)) (f (first + c)) = false) →
          ∃ g, Reach lt n (.less (first + root) (first + child) fun r =>
            if r then .swap (first + root) (first + child) (siftDown first hi fuel child k) else k) f (2 * t + 1) k g ∧
            PermOn first (first + hi) f g ∧ HeapBut lt first lo hi (fun _ => False) g := by
        intro child hc hc' hmax
        have hl := Reach.less (lt := lt) (n := n) (i := first + root) (j := first + child) (fun r =>
            if r then .swap (first + root) (first + child) (siftDown first hi fuel child k) else k) f (by omega) (by omega)
        cases hcmp : lt (f (first + root)) (f (first + child)) with
        | false =>
          rw [hcmp] at hl
          refine ⟨f, hl.weaken (by omega), PermOn.refl _ _ _, fun i c hi' _ hcc hcl => ?_⟩
          by_cases e : i = root
          · subst e
            exact hw.ge_trans hcmp (hmax c hcc hcl)
          · exact h1 i c hi' e hcc hcl
        | true =>
          rw [hcmp] at hl
          have hs : Reach lt n _ f 0 (siftDown first hi fuel child k) (swp f (first + root) (first + child)) :=
            Reach.swap _ f (by omega) (by omega)
          obtain ⟨g, r, p, o⟩ := ih t child (swp f (first + root) (first + child)) (by omega) (by omega) (by
              have : (root + 1) * 2 ^ (t + 1) = (2 * root + 2) * 2 ^ t := by rw [Nat.pow_succ]; ring
              rw [this] at ht
              exact ht.trans (Nat.mul_le_mul_right _ (by omega))) (by
              intro i c hi' ne hcc hcl
              by_cases e : i = root
              · subst e
                rw [swp_left]
                by_cases ec : c = child
                · subst ec; rw [swp_right]; exact hw.asymm hcmp
                · rw [swp_other f (by omega) (by omega)]; exact hmax c hcc hcl
              · rw [swp_other f (x := first + i) (by omega) (by omega)]
                by_cases ec : c = root
                · subst ec
                  rw [swp_left]
                  exact h2 i child hi' hcc hc hc'
                · rw [swp_other f (x := first + c) (by omega) (by omega)]
                  exact h1 i c hi' e hcc hcl) (by
              intro i c hi' hpi hcc hcl
              have ei : i = root := by omega
              subst ei
              rw [swp_left, swp_other f (x := first + c) (by omega) (by omega)]
              exact h1 child c (by omega) (by omega) hcc hcl)
          exact ⟨g, (hl.trans (hs.trans r)).weaken (by omega), (PermOn.swp f (by omega) (by omega)).trans p, o⟩
      by_cases h2nd : 2 * root + 1 + 1 < hi
      · rw [if_pos h2nd]
        have hl := Reach.less (lt := lt) (n := n) (i := first + (2 * root + 1)) (j := first + (2 * root + 1) + 1) (fun r => if r then
            (Prog.less (first + root) (first + (2 * root + 1 + 1)) fun r =>
              if r then .swap (first + root) (first + (2 * root + 1 + 1)) (siftDown first hi fuel (2 * root + 1 + 1) k) else k) else
            (Prog.less (first + root) (first + (2 * root + 1)) fun r =>
              if r then .swap (first + root) (first + (2 * root + 1)) (siftDown first hi fuel (2 * root + 1) k) else k)) f (by omega) (by omega)
        cases hcmp : lt (f (first + (2 * root + 1))) (f (first + (2 * root + 1) + 1)) with
        | true =>
          rw [hcmp] at hl
          obtain ⟨g, r, p, o⟩ := sink (2 * root + 1 + 1) (by omega) (by omega) (by
            intro c hc hcl
            rcases hc with rfl | rfl
            · exact hw.asymm hcmp
            · exact hw.irrefl _)
          exact ⟨g, (hl.trans r).weaken (by omega), p, o⟩
        | false =>
          rw [hcmp] at hl
          obtain ⟨g, r, p, o⟩ := sink (2 * root + 1) (by omega) (by omega) (by
            intro c hc hcl
            rcases hc with rfl | rfl
            · exact hw.irrefl _
            · exact hcmp)
          exact ⟨g, (hl.trans r).weaken (by omega), p, o⟩
      · rw [if_neg h2nd]
        obtain ⟨g, r, p, o⟩ := sink (2 * root + 1) (by omega) (by omega) (by
            intro c hc hcl
            have : c = 2 * root + 1 := by omega
            subst this
            exact hw.irrefl _)
        exact ⟨g, r.weaken (by omega), p, o⟩

theorem heapify_spec (first hi t : Nat) (hn : first + hi ≤ n) (ht : hi ≤ 2 ^ t) (k : Prog) : ∀ (i : Nat) (f : Nat → α),
    HeapBut lt first (i + 1) hi (fun _ => False) f →
    ∃ g, Reach lt n (heapify first hi i k) f ((i + 1) * (2 * t)) k g ∧ PermOn first (first + hi) f g ∧
      HeapBut lt first 0 hi (fun _ => False) g := by
  have one : ∀ (i : Nat) (k : Prog) (f : Nat → α), HeapBut lt first (i + 1) hi (fun _ => False) f →
      ∃ g, Reach lt n (siftDown first hi hi i k) f (2 * t) k g ∧ PermOn first (first + hi) f g ∧
        HeapBut lt first i hi (fun _ => False) g := fun i k f h =>
    siftDown_spec hw first hi i hn k hi t i f (by omega) (le_refl _)
      (ht.trans (Nat.le_mul_of_pos_left _ (by omega)))
      (fun j c hj ne hc hcl => h j c (by omega) (fun e => e) hc hcl) (fun j c hj hp => by omega)
  intro i
  induction i with
  | zero =>
    intro f h
    obtain ⟨g, r, p, o⟩ := one 0 k f h
    exact ⟨g, r.weaken (by omega), p, o⟩
  | succ i ih =>
    intro f h
    obtain ⟨g, r, p, o⟩ := one (i + 1) (heapify first hi i k) f h
    obtain ⟨g', r', p', o'⟩ := ih g o
    exact ⟨g', (r.trans r').weaken (by nlinarith), p.trans p', o'⟩

/-- The first element of a heap is the greatest. -/
theorem heap_max {first hi : Nat} {f : Nat → α} (h : HeapBut lt first 0 hi (fun _ => False) f) : ∀ c, c < hi → lt (f (first + 0)) (f (first + c)) = false := by
  intro c
  induction c using Nat.strong_induction_on with
  | _ c ih =>
    intro hc
    by_cases e : c = 0
    · subst e; exact hw.irrefl _
    · exact hw.ge_trans (ih ((c - 1) / 2) (by omega) (by omega)) (h ((c - 1) / 2) c (by omega) (fun e => e) (by omega) hc)

theorem popAll_spec (first hi t : Nat) (hn : first + hi ≤ n) (ht : hi ≤ 2 ^ t) (k : Prog) : ∀ (i : Nat) (f : Nat → α), i ≤ hi →
    HeapBut lt first 0 i (fun _ => False) f → Ordered lt (first + i) (first + hi) f →
    (∀ x y, x < i → i ≤ y → y < hi → lt (f (first + y)) (f (first + x)) = false) →
    ∃ g, Reach lt n (popAll first i k) f (i * (2 * t)) k g ∧ PermOn first (first + hi) f g ∧ Ordered lt first (first + hi) g := by
  intro i
  induction i with
  | zero => intro f _ _ h _; exact ⟨f, Reach.refl _ _ _, PermOn.refl _ _ _, h⟩
  | succ i ih =>
    intro f hi' hh ho hb
    have hs : Reach lt n (popAll first (i + 1) k) f 0 (siftDown first i i 0 (popAll first i k)) (swp f first (first + i)) :=
      Reach.swap _ f (by omega) (by omega)
    obtain ⟨g, r, p, o⟩ := siftDown_spec hw first i 0 (n := n) (by omega) (popAll first i k) i t 0 (swp f first (first + i)) (by omega) (by omega)
      (by omega) (by
        intro j c _ hj hc hcl
        have hj : j ≠ 0 := hj
        rw [swp_other f (x := first + j) (by omega) (by omega), swp_other f (x := first + c) (by omega) (by omega)]
        exact hh j c (by omega) (fun e => e) hc (by omega)) (fun j c _ hp => by omega)
    have hmax := heap_max hw hh
    have pf : PermOn first (first + i + 1) f g := (PermOn.swp f (by omega) (by omega)).trans (p.mono (le_refl _) (by omega))
    have gi : g (first + i) = f first := by rw [p.outside (by omega), swp_right]
    obtain ⟨g', r', p', o'⟩ := ih g (by omega) o (by
        intro x y hx hxy hy
        have ey : g y = f y := pf.outside (by omega)
        by_cases e : x = first + i
        · subst e
          rw [gi, ey]
          obtain ⟨z, rfl⟩ : ∃ z, y = first + z := ⟨y - first, by omega⟩
          exact hb 0 z (by omega) (by omega) (by omega)
        · rw [ey, pf.outside (x := x) (by omega)]
          exact ho x y (by omega) hxy hy) (by
        intro x y hx hy hyh
        by_cases e : y = i
        · subst e
          rw [gi]
          exact pf.all (P := fun v => lt (f first) v = false) (fun z h1 h2 => by
            obtain ⟨w, rfl⟩ : ∃ w, z = first + w := ⟨z - first, by omega⟩
            exact hmax w (by omega)) (first + x) (by omega) (by omega)
        · rw [pf.outside (x := first + y) (by omega)]
          exact pf.all (P := fun v => lt (f (first + y)) v = false) (fun z h1 h2 => by
            obtain ⟨w, rfl⟩ : ∃ w, z = first + w := ⟨z - first, by omega⟩
            exact hb w y (by omega) (by omega) hyh) (first + x) (by omega) (by omega))
    exact ⟨g', (hs.trans (r.trans r')).weaken (by nlinarith), (pf.mono (le_refl _) (by omega)).trans p', o'⟩

theorem heapSort_spec (a b t : Nat) (hab : a < b) (hn : b ≤ n) (ht : b - a ≤ 2 ^ t) (k : Prog) (f : Nat → α) :
    ∃ g, Reach lt n (heapSort a b k) f ((b - a) * (4 * t)) k g ∧ PermOn a b f g ∧ Ordered lt a b g := by
  have eb : a + (b - a) = b := by omega
  obtain ⟨g, r, p, o⟩ := heapify_spec (n := n) hw a (b - a) t (by omega) ht (popAll a (b - a) k) ((b - a - 1) / 2) f
    (fun i c h1 _ h2 h3 => by omega)
  obtain ⟨g', r', p', o'⟩ := popAll_spec (n := n) hw a (b - a) t (by omega) ht k (b - a) g (le_refl _) o
    (fun x y h1 h2 h3 => by omega) (fun x y h1 h2 h3 => by omega)
  rw [eb] at p p' o'
  refine ⟨g', (r.trans r').weaken ?_, p.trans p', o'⟩
  have : (b - a - 1) / 2 + 1 ≤ b - a := by omega
  have := Nat.mul_le_mul_right (2 * t) this
  have : (b - a) * (4 * t) = (b - a) * (2 * t) + (b - a) * (2 * t) := by ring
  omega

end Proofs
end Verif.SortProg
