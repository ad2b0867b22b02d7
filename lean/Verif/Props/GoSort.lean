import Verif.Lemmas.GoPivot
import Verif.Lemmas.GoSortAny
import Verif.Props.SortProg
import Mathlib.Data.Nat.Log
/-!
# C154: `Sort` with the algorithm of the Go library

C15, C129 and C134 hold for every algorithm that sorts by `Less` and `Swap`.  Here the one of the library (Go 1.6 to 1.18) is written out in
Model/GoSort and proved to be such an algorithm, with a bound for the number of comparisons.
-/
set_option linter.unusedSectionVars false

namespace Verif.SortProg
open Verif.Spec Verif.SliceMem
variable {α : Type}

section Proofs
variable {lt : α → α → Bool} (hw : StrictWeak lt) {n : Nat}
include hw

omit hw in
theorem shellPass_spec (a b : Nat) (hn : b ≤ n) (k : Prog) : ∀ (r i : Nat) (f : Nat → α), a + 6 ≤ i → i + r ≤ b →
    ∃ g, Reach lt n (shellPass i r k) f r k g ∧ PermOn a b f g := by
  intro r
  induction r with
  | zero => intro i f _ _; exact ⟨f, Reach.refl _ _ _, PermOn.refl _ _ _⟩
  | succ r ih =>
    intro i f h1 h2
    have hl : Reach lt n (shellPass i (r + 1) k) f 1 _ f := Reach.less _ f (by omega) (by omega)
    cases hc : lt (f i) (f (i - 6)) with
    | false =>
      rw [hc] at hl
      obtain ⟨g, r', p⟩ := ih (i + 1) f (by omega) (by omega)
      exact ⟨g, (hl.trans r').weaken (by omega), p⟩
    | true =>
      rw [hc] at hl
      have hs : Reach lt n _ f 0 (shellPass (i + 1) r k) (swp f i (i - 6)) := Reach.swap _ f (by omega) (by omega)
      obtain ⟨g, r', p⟩ := ih (i + 1) (swp f i (i - 6)) (by omega) (by omega)
      exact ⟨g, (hl.trans (hs.trans r')).weaken (by omega), (PermOn.swp f (by omega) (by omega)).trans p⟩

theorem quickSort_spec (t : Nat) : ∀ (depth a b : Nat) (k : Prog) (f : Nat → α), b ≤ n → b - a ≤ 2 ^ t →
    ∃ g, Reach lt n (quickSort depth a b k) f ((b - a) * (4 * depth + 4 * t + 12)) k g ∧ PermOn a b f g ∧ Ordered lt a b g := by
  intro depth
  induction depth with
  | zero =>
    intro a b k f hn ht
    unfold quickSort
    by_cases h12 : 12 < b - a
    · rw [if_pos h12]
      obtain ⟨g, r, p, o⟩ := heapSort_spec (n := n) hw a b t (by omega) hn ht k f
      exact ⟨g, r.weaken (Nat.mul_le_mul_left _ (by omega)), p, o⟩
    · rw [if_neg h12]
      exact short t 0 a b k f hn h12
  | succ depth ih =>
    intro a b k f hn ht
    unfold quickSort
    by_cases h12 : 12 < b - a
    · rw [if_pos h12]
      simp only
      obtain ⟨mlo, mhi, g, r, p, h1, h2, h3, o1, o2, o3⟩ := doPivot_spec (n := n) hw a b (fun mlo mhi =>
        if mlo - a < b - mhi then quickSort depth a mlo (quickSort depth mhi b k)
        else quickSort depth mhi b (quickSort depth a mlo k)) f h12 hn
      have hcost : 4 * (b - a) + ((mlo - a) * (4 * depth + 4 * t + 12) + (b - mhi) * (4 * depth + 4 * t + 12)) ≤
          (b - a) * (4 * (depth + 1) + 4 * t + 12) := by
        have : (mlo - a) + (b - mhi) ≤ b - a := by omega
        have := Nat.mul_le_mul_right (4 * depth + 4 * t + 12) this
        rw [Nat.add_mul] at this
        have e : (b - a) * (4 * (depth + 1) + 4 * t + 12) = 4 * (b - a) + (b - a) * (4 * depth + 4 * t + 12) := by ring
        omega
      -- once both parts are in order, so is the whole
      have glue : ∀ g1 g2 : Nat → α, PermOn a mlo g g1 → PermOn mhi b g g2 → ∀ h : Nat → α,
          (∀ x, x < mlo → h x = g1 x) → (∀ x, mhi ≤ x → h x = g2 x) → (∀ x, mlo ≤ x → x < mhi → h x = g x) →
          Ordered lt a mlo g1 → Ordered lt mhi b g2 → Ordered lt a b h := by
        intro g1 g2 p1 p2 h e1 e2 e3 q1 q2 x y hx hxy hy
        have L := p1.all (P := fun v => lt (g mlo) v = false) o1
        have U := p2.all (P := fun v => lt v (g mlo) = false) o3
        by_cases hx1 : x < mlo
        · have l := L x hx hx1
          rw [e1 x hx1]
          by_cases hy1 : y < mlo
          · rw [e1 y hy1]; exact q1 x y hx hxy hy1
          · by_cases hy2 : y < mhi
            · rw [e3 y (by omega) hy2]; exact hw.ge_trans (o2 y (by omega) hy2).2 l
            · rw [e2 y (by omega)]; exact hw.ge_trans (U y (by omega) hy) l
        · by_cases hx2 : x < mhi
          · rw [e3 x (by omega) hx2]
            have l := (o2 x (by omega) hx2).1
            by_cases hy2 : y < mhi
            · rw [e3 y (by omega) hy2]; exact hw.ge_trans (o2 y (by omega) hy2).2 l
            · rw [e2 y (by omega)]; exact hw.ge_trans (U y (by omega) hy) l
          · rw [e2 x (by omega), e2 y (by omega)]; exact q2 x y (by omega) hxy hy
      by_cases hc : mlo - a < b - mhi
      · rw [if_pos hc] at r
        obtain ⟨g1, r1, p1, q1⟩ := ih a mlo (quickSort depth mhi b k) g (by omega) (by omega)
        obtain ⟨g2, r2, p2, q2⟩ := ih mhi b k g1 hn (by omega)
        refine ⟨g2, (r.trans (r1.trans r2)).weaken hcost, p.trans ((p1.mono (le_refl _) (by omega)).trans (p2.mono (by omega) (le_refl _))), ?_⟩
        obtain ⟨s, hs, rfl⟩ := p2
        have key : ∀ x, mhi ≤ x → (g1 ∘ s) x = (g ∘ s) x := fun x hx => by
          by_cases hxb : x < b
          · have := PermOn.inside hs ⟨hx, hxb⟩
            exact p1.outside (by omega)
          · have := hs x (by omega)
            simp only [Function.comp, this]
            exact p1.outside (by omega)
        refine glue g1 (g ∘ s) p1 ⟨s, hs, rfl⟩ (g1 ∘ s) (fun x hx => ?_) key (fun x hx hx' => ?_) q1 (fun x y hx hxy hy => ?_)
        · simp [hs x (by omega)]
        · simp only [Function.comp, hs x (by omega)]; exact p1.outside (by omega)
        · rw [← key x hx, ← key y (by omega)]; exact q2 x y hx hxy hy
      · rw [if_neg hc] at r
        obtain ⟨g1, r1, p1, q1⟩ := ih mhi b (quickSort depth a mlo k) g hn (by omega)
        obtain ⟨g2, r2, p2, q2⟩ := ih a mlo k g1 (by omega) (by omega)
        refine ⟨g2, (r.trans (r1.trans r2)).weaken (by omega), p.trans ((p1.mono (by omega) (le_refl _)).trans (p2.mono (le_refl _) (by omega))), ?_⟩
        obtain ⟨s, hs, rfl⟩ := p2
        have key : ∀ x, x < mlo → (g1 ∘ s) x = (g ∘ s) x := fun x hx => by
          by_cases hxb : a ≤ x
          · have := PermOn.inside hs ⟨hxb, hx⟩
            exact p1.outside (by omega)
          · have := hs x (by omega)
            simp only [Function.comp, this]
            exact p1.outside (by omega)
        refine glue (g ∘ s) g1 ⟨s, hs, rfl⟩ p1 (g1 ∘ s) key (fun x hx => ?_) (fun x hx hx' => ?_) (fun x y hx hxy hy => ?_) q1
        · simp [hs x (by omega)]
        · simp only [Function.comp, hs x (by omega)]; exact p1.outside (by omega)
        · rw [← key x (by omega), ← key y hy]; exact q2 x y hx hxy hy
    · rw [if_neg h12]
      exact short t (depth + 1) a b k f hn h12
where
  short (t d a b : Nat) (k : Prog) (f : Nat → α) (hn : b ≤ n) (h12 : ¬ 12 < b - a) :
      ∃ g, Reach lt n (if 1 < b - a then shellPass (a + 6) (b - (a + 6)) (insertionSort a b k) else k) f
        ((b - a) * (4 * d + 4 * t + 12)) k g ∧ PermOn a b f g ∧ Ordered lt a b g := by
    by_cases h1 : 1 < b - a
    · rw [if_pos h1]
      obtain ⟨g1, r1, p1⟩ : ∃ g, Reach lt n (shellPass (a + 6) (b - (a + 6)) (insertionSort a b k)) f (b - (a + 6)) (insertionSort a b k) g ∧
          PermOn a b f g := by
        by_cases h6 : a + 6 ≤ b
        · exact shellPass_spec a b hn _ _ _ f (le_refl _) (by omega)
        · rw [show b - (a + 6) = 0 by omega]
          exact ⟨f, Reach.refl _ _ _, PermOn.refl _ _ _⟩
      obtain ⟨g2, r2, p2, o2⟩ := insertAll_spec (n := n) hw a k (b - (a + 1)) 1 g1 (by omega) (fun x y _ _ _ => by omega)
      rw [show a + 1 + (b - (a + 1)) = b by omega] at p2 o2
      refine ⟨g2, (r1.trans r2).weaken ?_, p1.trans p2, o2⟩
      rw [show 1 + (b - (a + 1)) = b - a by omega]
      have e1 : (b - (a + 1)) * (b - a) ≤ 11 * (b - a) := Nat.mul_le_mul_right _ (by omega)
      have e2 : (b - a) * 12 ≤ (b - a) * (4 * d + 4 * t + 12) := Nat.mul_le_mul_left _ (by omega)
      omega
    · rw [if_neg h1]
      exact ⟨f, Reach.refl _ _ _, PermOn.refl _ _ _, fun x y _ _ _ => by omega⟩

end Proofs

theorem goSort_run {lt : α → α → Bool} (hw : StrictWeak lt) (l : List α) :
    (listSort (total lt) l (goSort l.length)).2 = true ∧ SortedBy lt (listSort (total lt) l (goSort l.length)).1 ∧
    calls (total lt) l (goSort l.length) ≤ l.length * (12 * l.length.size + 12) := by
  cases l with
  | nil => exact ⟨rfl, .nil, by simp [goSort, quickSort, calls]⟩
  | cons v r =>
    set l := v :: r with hl
    have e : l = arr l.length (fun i => l.getD i v) := by
      apply List.ext_getElem
      · rw [arr_length]
      · intro i h1 h2
        simp [arr, List.getD_eq_getElem?_getD, h1]
    obtain ⟨g, r, -, o⟩ := quickSort_spec (n := l.length) hw l.length.size (2 * l.length.size) 0 l.length .done (fun i => l.getD i v)
      (le_refl _) (by rw [Nat.sub_zero]; exact (Nat.lt_size_self _).le)
    have h1 := r.run
    have h2 := r.cost
    rw [← e] at h1 h2
    refine ⟨by rw [goSort, h1]; rfl, ?_, ?_⟩
    · rw [goSort, h1]
      show SortedBy lt (arr l.length g)
      unfold SortedBy
      rw [List.pairwise_iff_getElem]
      intro i j hi hj hij
      rw [arr_length] at hi hj
      simp only [arr, List.getElem_map, List.getElem_range]
      exact o i j (by omega) hij hj
    · refine h2.trans ?_
      simp only [calls, Nat.sub_zero, Nat.add_zero]
      exact Nat.mul_le_mul_left _ (by omega)

/-- `sort.Sort` of the Go library is an algorithm as C15, C129 and C134 assume it. -/
def go : SortAlg where
  prog := goSort
  short n hn := by
    unfold goSort quickSort
    rw [if_neg (by omega), if_neg (by omega)]
  sorts lt hw l := ⟨(goSort_run hw l).1, (goSort_run hw l).2.1⟩

/-- C154: the algorithm of the library leaves the elements of every slice in order, and they are the elements there were, for every strict weak
order. -/
theorem C154_sorts (lt : α → α → Bool) (hw : StrictWeak lt) (l : List α) :
    ∃ l', listSort (total lt) l (go.prog l.length) = (l', true) ∧ l'.Perm l ∧ SortedBy lt l' :=
  ⟨_, Prod.ext rfl (go.sorts lt hw l).1, listSort_perm _ _ _, (go.sorts lt hw l).2⟩

/-- C154: whatever the comparison function is, even one that is no order at all: `Sort` comes to its end without a panic, the elements are those there
were, and `Less` is called at most 12 n (log₂ n + 2) times.  No input and no comparison function makes `Sort` quadratic. -/
theorem C154_any (cmp : α → α → Bool) (l : List α) :
    (listSort (total cmp) l (go.prog l.length)).2 = true ∧ (listSort (total cmp) l (go.prog l.length)).1.Perm l ∧
    calls (total cmp) l (go.prog l.length) ≤ 12 * l.length * (Nat.log 2 l.length + 2) := by
  have hw : Within l.length _ (goSort l.length) := quickSort_within (n := l.length) l.length.size (2 * l.length.size) 0 l.length 0 .done (le_refl _)
    (by rw [Nat.sub_zero]; exact (Nat.lt_size_self _).le) trivial
  obtain ⟨h1, h2⟩ := hw.run cmp
  refine ⟨h1, listSort_perm _ _ _, h2.trans ?_⟩
  by_cases h : l.length = 0
  · simp [h]
  · have e : l.length.size ≤ Nat.log 2 l.length + 1 := by
      rw [Nat.size_le]
      exact Nat.lt_pow_succ_log_self (by decide) _
    calc (l.length - 0) * (4 * (2 * l.length.size) + 4 * l.length.size + 12) + 0 ≤ l.length * (12 * (Nat.log 2 l.length + 1) + 12) := by
          rw [Nat.sub_zero, Nat.add_zero]; exact Nat.mul_le_mul_left _ (by omega)
      _ = 12 * l.length * (Nat.log 2 l.length + 2) := by ring

/-- C154: so `Sort` of a slice in memory returns for every comparison function, and only its own elements are written; with a strict weak order they are
in order afterwards. -/
theorem C154_slice [Inhabited α] (less : α → α → Bool) (m : Mem α) (d : Slice) :
    (sort go less m d).2 = true ∧ (toList (sort go less m d).1 d).Perm (toList m d) ∧
    (∀ c q, (c ≠ d.arr ∨ q < d.off ∨ d.off + d.len ≤ q) → (sort go less m d).1.cell c q = m.cell c q) ∧
    (StrictWeak less → SortedBy less (toList (sort go less m d).1 d)) := by
  obtain ⟨_, h2, _, h4, h5⟩ := C129_run less d (go.prog d.len) m
  have h := (C154_any less (toList m d)).1
  rw [length_toList] at h
  exact ⟨h2.trans h, h5, h4, fun hw => (C129_sort go hw m d).2.1⟩

/-! ## Equal elements -/

/-- Elements with a rank: by the order, and by rank where the order does not tell them apart. -/
def byRank (lt : α → α → Bool) (x y : α × Nat) : Bool := lt x.1 y.1 || (!lt y.1 x.1 && decide (x.2 < y.2))

theorem byRank_weak {lt : α → α → Bool} (hw : StrictWeak lt) : StrictWeak (byRank lt) := by
  refine ⟨fun a => ?_, fun a b c h1 h2 => ?_, fun a b c h => ?_⟩
  · simp [byRank, hw.irrefl]
  · simp only [byRank, Bool.or_eq_true, Bool.and_eq_true, Bool.not_eq_true', decide_eq_true_eq] at h1 h2 ⊢
    rcases h1 with h1 | ⟨h1, h1'⟩ <;> rcases h2 with h2 | ⟨h2, h2'⟩
    · exact .inl (hw.trans _ _ _ h1 h2)
    · left
      rcases hw.negTrans _ c.1 _ h1 with h | h
      · exact h
      · rw [h2] at h; simp at h
    · left
      rcases hw.negTrans _ a.1 _ h2 with h | h
      · rw [h1] at h; simp at h
      · exact h
    · exact .inr ⟨hw.ge_trans h2 h1, by omega⟩
  · simp only [byRank, Bool.or_eq_true, Bool.and_eq_true, Bool.not_eq_true', decide_eq_true_eq] at h ⊢
    rcases h with h | ⟨h, h'⟩
    · rcases hw.negTrans _ b.1 _ h with g | g
      · exact .inl (.inl g)
      · exact .inr (.inl g)
    · cases h1 : lt a.1 b.1 with
      | true => exact .inl (.inl rfl)
      | false =>
        cases h2 : lt b.1 c.1 with
        | true => exact .inr (.inl rfl)
        | false =>
          cases h3 : lt b.1 a.1 with
          | true =>
            rcases hw.negTrans _ c.1 _ h3 with g | g
            · rw [h2] at g; simp at g
            · rw [h] at g; simp at g
          | false =>
            cases h4 : lt c.1 b.1 with
            | true =>
              rcases hw.negTrans _ a.1 _ h4 with g | g
              · rw [h] at g; simp at g
              · rw [h1] at g; simp at g
            | false =>
              by_cases hab : a.2 < b.2
              · exact .inl (.inr ⟨rfl, hab⟩)
              · exact .inr (.inr ⟨rfl, by omega⟩)

section Stable
variable {lt : α → α → Bool} {n : Nat}

/-- An element that ranks behind all elements before it moves the same way by the order and by rank. -/
theorem slide_same (a : Nat) (k : Prog) : ∀ (t : Nat) (f : Nat → α × Nat), a + t < n → (∀ x, a ≤ x → x < a + t → (f x).2 < (f (a + t)).2) →
    ∃ g, Reach (fun x y => lt x.1 y.1) n (slide a t k) f t k g ∧ Reach (byRank lt) n (slide a t k) f t k g ∧ PermOn a (a + t + 1) f g := by
  intro t
  induction t with
  | zero => intro f _ _; exact ⟨f, Reach.refl _ _ _, Reach.refl _ _ _, PermOn.refl _ _ _⟩
  | succ t ih =>
    intro f hn h
    have e : byRank lt (f (a + t + 1)) (f (a + t)) = lt (f (a + t + 1)).1 (f (a + t)).1 := by
      have := h (a + t) (by omega) (by omega)
      rw [← Nat.add_assoc] at this
      simp [byRank, show ¬ (f (a + t + 1)).2 < (f (a + t)).2 by omega]
    have l1 : Reach (fun x y : α × Nat => lt x.1 y.1) n (slide a (t + 1) k) f 1 _ f := Reach.less _ f (by omega) (by omega)
    have l2 : Reach (byRank lt) n (slide a (t + 1) k) f 1 _ f := Reach.less _ f (by omega) (by omega)
    rw [e] at l2
    cases hc : lt (f (a + t + 1)).1 (f (a + t)).1 with
    | false =>
      simp only [hc] at l1 l2
      exact ⟨f, l1.weaken (by omega), l2.weaken (by omega), PermOn.refl _ _ _⟩
    | true =>
      simp only [hc] at l1 l2
      have s1 : Reach (fun x y : α × Nat => lt x.1 y.1) n _ f 0 (slide a t k) (swp f (a + t + 1) (a + t)) := Reach.swap _ f (by omega) (by omega)
      have s2 : Reach (byRank lt) n _ f 0 (slide a t k) (swp f (a + t + 1) (a + t)) := Reach.swap _ f (by omega) (by omega)
      obtain ⟨g, r1, r2, p⟩ := ih (swp f (a + t + 1) (a + t)) (by omega) (fun x h1 h2 => by
        rw [swp_right, swp_other f (by omega) (by omega)]
        exact h x h1 (by omega))
      exact ⟨g, (l1.trans (s1.trans r1)).weaken (by omega), (l2.trans (s2.trans r2)).weaken (by omega),
        (PermOn.swp f (by omega) (by omega)).trans (p.mono (le_refl _) (by omega))⟩

theorem insertAll_same (k : Prog) : ∀ (r t : Nat) (f : Nat → α × Nat), t + r ≤ n →
    (∀ x y, x < y → t ≤ y → y < t + r → (f x).2 < (f y).2) →
    ∃ g c, Reach (fun x y => lt x.1 y.1) n (insertAll 0 t r k) f c k g ∧ Reach (byRank lt) n (insertAll 0 t r k) f c k g := by
  intro r
  induction r with
  | zero => intro t f _ _; exact ⟨f, 0, Reach.refl _ _ _, Reach.refl _ _ _⟩
  | succ r ih =>
    intro t f hn h
    obtain ⟨g, r1, r2, p⟩ := slide_same (lt := lt) (n := n) 0 (insertAll 0 (t + 1) r k) t f (by omega) (fun x _ hx => by
      rw [Nat.zero_add]; exact h x t (by omega) (le_refl _) (by omega))
    obtain ⟨g', c, r1', r2'⟩ := ih (t + 1) g (by omega) (fun x y hxy hy hy' => by
      rw [p.outside (x := y) (by omega)]
      by_cases hx : x < t + 1
      · exact p.all (P := fun v => v.2 < (f y).2) (fun z _ hz => h z y (by omega) (by omega) (by omega)) x (by omega) (by omega)
      · rw [p.outside (x := x) (by omega)]; exact h x y hxy (by omega) (by omega))
    exact ⟨g', t + c, r1.trans r1', r2.trans r2'⟩

/-- C154: up to six elements keep their order where the comparison does not tell them apart: the result is the list of the elements with their old
places, in ascending order, equal ones by their old places. -/
theorem C154_stable_short (hw : StrictWeak lt) (l : List α) (hl : l.length ≤ 6) :
    ∃ T : List (α × Nat), T.Perm l.zipIdx ∧ (listSort (total lt) l (go.prog l.length)).1 = T.map Prod.fst ∧
      T.Pairwise fun x y => lt y.1 x.1 = false ∧ (lt x.1 y.1 = true ∨ x.2 < y.2) := by
  set Z := l.zipIdx with hZ
  have hZl : Z.length = l.length := by simp [hZ]
  have hZm : Z.map Prod.fst = l := by simp [hZ, List.zipIdx_map_fst]
  -- both comparisons give the same
  have same : listSort (total fun x y : α × Nat => lt x.1 y.1) Z (goSort Z.length) = listSort (total (byRank lt)) Z (goSort Z.length) := by
    by_cases h1 : l.length ≤ 1
    · rw [show goSort Z.length = .done from go.short _ (by omega)]; rfl
    · obtain ⟨v, hv⟩ : ∃ v, v ∈ Z := List.exists_mem_of_length_pos (by omega)
      have e : Z = arr Z.length (fun i => Z.getD i v) := by
        apply List.ext_getElem
        · rw [arr_length]
        · intro i g1 g2
          simp [arr, List.getD_eq_getElem?_getD, g1]
      have hp : goSort Z.length = insertAll 0 1 (Z.length - 1) .done := by
        unfold goSort quickSort
        rw [if_neg (by omega), if_pos (by omega), show Z.length - (0 + 6) = 0 by omega]
        rfl
      obtain ⟨g, c, r1, r2⟩ := insertAll_same (lt := lt) (n := Z.length) .done (Z.length - 1) 1 (fun i => Z.getD i v) (by omega) (by
        intro x y hxy h2 h3
        have hy : y < Z.length := by omega
        have hx : x < Z.length := by omega
        simp only [List.getD_eq_getElem?_getD, List.getElem?_eq_getElem hx, List.getElem?_eq_getElem hy, Option.getD_some]
        simp [hZ, hxy])
      have a1 := r1.run
      have a2 := r2.run
      rw [← e, ← hp] at a1 a2
      rw [a1, a2]; rfl
  have hw' : StrictWeak (fun x y : α × Nat => lt x.1 y.1) :=
    ⟨fun a => hw.irrefl _, fun a b c => hw.trans _ _ _, fun a b c => hw.negTrans _ _ _⟩
  have hs := go.sorts (byRank lt) (byRank_weak hw) Z
  have hT := listSort_perm (total (byRank lt)) (go.prog Z.length) Z
  refine ⟨_, hT, ?_, ?_⟩
  · have hf := listSort_follow Prod.fst (total lt) (total fun x y : α × Nat => lt x.1 y.1) Z
      (fun x _ y _ r hr => hr) (go.prog Z.length) Z (fun _ h => h) (by
        rw [hZm, hZl]; exact (go.sorts lt hw l).1)
    rw [hZm] at hf
    rw [show go.prog = goSort from rfl] at hf ⊢
    rw [← same, hf.2.1, hZl]
  · have hnd : (listSort (total (byRank lt)) Z (go.prog Z.length)).1.Pairwise fun x y => x.2 ≠ y.2 := by
      have : (Z.map Prod.snd).Nodup := by
        rw [hZ, List.zipIdx_map_snd]; exact List.nodup_range' ..
      exact List.pairwise_map.1 ((hT.map Prod.snd).nodup_iff.2 this)
    refine (hs.2.and hnd).imp ?_
    rintro x y ⟨h1, h2⟩
    simp only [byRank, Bool.or_eq_false_iff, Bool.and_eq_false_iff, Bool.not_eq_false', decide_eq_false_iff_not] at h1
    refine ⟨h1.1, ?_⟩
    rcases h1.2 with h | h
    · exact .inl h
    · exact .inr (by omega)

end Stable

/-- C154: with seven elements they need not: here all but the last are equal, and the first is put behind the others. -/
theorem C154_unstable : ∃ l : List (Int × Nat), l.length = 7 ∧
    (listSort (total fun x y => intLt x.1 y.1) l (go.prog l.length)).1.map Prod.snd = [6, 1, 2, 3, 4, 5, 0] ∧
    l.map Prod.snd = [0, 1, 2, 3, 4, 5, 6] ∧ l.map Prod.fst = [1, 1, 1, 1, 1, 1, 0] :=
  ⟨[(1, 0), (1, 1), (1, 2), (1, 3), (1, 4), (1, 5), (0, 6)], by decide +kernel⟩

/-- The pairs of elements that are compared, one after the other; `none` for an index that is out of range, where the program ends. -/
def Spec.compared (cmp : α → α → Res Bool) : List α → Prog → List (Option (α × α))
  | _, .done => []
  | l, .less i j k =>
    match l[i]?, l[j]? with
    | some a, some b => some (a, b) :: match cmp a b with
      | .ok r => Spec.compared cmp l (k r)
      | .panic => []
    | _, _ => [none]
  | l, .swap i j k =>
    match l[i]?, l[j]? with
    | some a, some b => Spec.compared cmp ((l.set i b).set j a) k
    | _, _ => []

/-- C154: what is counted is how many pairs are compared. -/
theorem C154_calls (cmp : α → α → Res Bool) (p : Prog) : ∀ l : List α, calls cmp l p = (Spec.compared cmp l p).length := by
  induction p with
  | done => intro l; rfl
  | less i j k ih =>
    intro l
    rw [calls, Spec.compared]
    cases l[i]? with
    | none => rfl
    | some a =>
      cases l[j]? with
      | none => rfl
      | some b =>
        simp only
        cases cmp a b with
        | panic => rfl
        | ok r => simp only [List.length_cons, ih]
  | swap i j k ih =>
    intro l
    rw [calls, Spec.compared]
    cases l[i]? with
    | none => rfl
    | some a =>
      cases l[j]? with
      | none => rfl
      | some b => exact ih _

/-! ## Concrete cases -/

/-- C154_sorts: fifty elements, with many equal ones, and how often they are compared. -/
example : (listSort (total intLt) ((List.range 50).map fun i => ((i * 7 % 10 : Nat) : Int)) (go.prog 50)).1 =
      (List.range 50).map (fun i => ((i / 5 : Nat) : Int)) ∧
    calls (total intLt) ((List.range 50).map fun i => ((i * 7 % 10 : Nat) : Int)) (go.prog 50) ≤ 300 ∧
    100 ≤ calls (total intLt) ((List.range 50).map fun i => ((i * 7 % 10 : Nat) : Int)) (go.prog 50) := by decide +kernel
/-- C154_any: a comparison that always says yes. -/
example : (listSort (total fun _ _ => true) ((List.range 30).map fun i => i) (go.prog 30)).2 = true := (C154_any _ (List.range 30)).1
example := C154_sorts intLt intLt_strictWeak [3, 1, 2]
example := C154_slice intLt exMem ⟨0, 0, 3, 4⟩
example := C154_stable_short intLt_strictWeak [3, 1, 3, 2] (by decide)

end Verif.SortProg
