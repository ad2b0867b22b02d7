import Verif.Model.SortProg
import Verif.Props.SliceMem
import Verif.Lemmas.TreeHeap
import Mathlib.Data.List.Nodup
/-!
# C129: sorting through `Len`, `Less` and `Swap`
-/

set_option linter.unusedSectionVars false

namespace Verif.SortProg
open Verif.Spec Verif.SliceMem

/-! ## Facts about every algorithm -/

section
variable {α β : Type}

theorem listSort_perm (cmp : α → α → Res Bool) (p : Prog) : ∀ l, (listSort cmp l p).1.Perm l := by
  induction p with
  | done => intro l; exact .refl _
  | less i j k ih =>
    intro l
    unfold listSort
    split
    · split
      · exact ih _ l
      · exact .refl _
    · exact .refl _
  | swap i j k ih =>
    intro l
    unfold listSort
    split
    · rename_i a b ha hb
      obtain ⟨hi, rfl⟩ := List.getElem?_eq_some_iff.1 ha
      obtain ⟨hj, rfl⟩ := List.getElem?_eq_some_iff.1 hb
      have : Inhabited α := ⟨l[i]⟩
      exact (ih _).trans (SortSlice.perm_set_set l i j hi hj)
    · exact .refl _

/-- If a run comes to its end, the same run on other elements, whose comparisons agree, goes the same way. -/
theorem listSort_follow (f : β → α) (cmp : α → α → Res Bool) (cmp' : β → β → Res Bool) (T0 : List β)
    (hag : ∀ x ∈ T0, ∀ y ∈ T0, ∀ r, cmp (f x) (f y) = .ok r → cmp' x y = .ok r) (p : Prog) :
    ∀ T : List β, T ⊆ T0 → (listSort cmp (T.map f) p).2 = true →
      (listSort cmp' T p).2 = true ∧ (listSort cmp' T p).1.map f = (listSort cmp (T.map f) p).1 ∧
      ∀ cmp'' : β → β → Res Bool,
        (∀ x ∈ T0, ∀ y ∈ T0, ∀ r, cmp (f x) (f y) = .ok r → cmp'' x y = .ok r) →
        listSort cmp'' T p = listSort cmp' T p := by
  induction p with
  | done => intro T _ _; exact ⟨rfl, rfl, fun _ _ => rfl⟩
  | less i j k ih =>
    intro T hT h
    simp only [listSort, List.getElem?_map] at h ⊢
    cases hi : T[i]? with
    | none => simp [hi] at h
    | some a =>
      cases hj : T[j]? with
      | none => simp [hi, hj] at h
      | some b =>
        simp only [hi, hj, Option.map_some] at h ⊢
        have ma : a ∈ T0 := hT (List.mem_of_getElem? hi)
        have mb : b ∈ T0 := hT (List.mem_of_getElem? hj)
        cases hc : cmp (f a) (f b) with
        | panic => simp [hc] at h
        | ok r =>
          simp only [hc] at h ⊢
          rw [hag a ma b mb r hc]
          obtain ⟨h1, h2, h3⟩ := ih r T hT h
          refine ⟨h1, h2, fun c2 hc2 => ?_⟩
          rw [hc2 a ma b mb r hc]
          exact h3 c2 hc2
  | swap i j k ih =>
    intro T hT h
    simp only [listSort, List.getElem?_map] at h ⊢
    cases hi : T[i]? with
    | none => simp [hi] at h
    | some a =>
      cases hj : T[j]? with
      | none => simp [hi, hj] at h
      | some b =>
        simp only [hi, hj, Option.map_some] at h ⊢
        have ma : a ∈ T0 := hT (List.mem_of_getElem? hi)
        have mb : b ∈ T0 := hT (List.mem_of_getElem? hj)
        rw [← List.map_set, ← List.map_set] at h ⊢
        refine ih _ ?_ h
        intro x hx
        rcases List.mem_or_eq_of_mem_set hx with hx | rfl
        · rcases List.mem_or_eq_of_mem_set hx with hx | rfl
          · exact hT hx
          · exact mb
        · exact ma

/-- Runs with comparisons that agree on the elements are the same. -/
theorem listSort_congr (cmp cmp' : α → α → Res Bool) (l0 : List α)
    (hag : ∀ x ∈ l0, ∀ y ∈ l0, cmp x y = cmp' x y) (p : Prog) :
    ∀ l, l ⊆ l0 → listSort cmp l p = listSort cmp' l p := by
  induction p with
  | done => intro l _; rfl
  | less i j k ih =>
    intro l hl
    simp only [listSort]
    cases hi : l[i]? with
    | none => rfl
    | some a =>
      cases hj : l[j]? with
      | none => rfl
      | some b =>
        simp only [hag a (hl (List.mem_of_getElem? hi)) b (hl (List.mem_of_getElem? hj))]
        split
        · exact ih _ l hl
        · rfl
  | swap i j k ih =>
    intro l hl
    simp only [listSort]
    cases hi : l[i]? with
    | none => rfl
    | some a =>
      cases hj : l[j]? with
      | none => rfl
      | some b =>
        refine ih _ ?_
        intro x hx
        rcases List.mem_or_eq_of_mem_set hx with hx | rfl
        · rcases List.mem_or_eq_of_mem_set hx with hx | rfl
          · exact hl hx
          · exact hl (List.mem_of_getElem? hj)
        · exact hl (List.mem_of_getElem? hi)

end

/-! ## Sorting in memory -/

section
variable {α : Type} [Inhabited α]

theorem lessAt_eq' (less : α → α → Bool) (m : Mem α) (d : Slice) (i j : Nat) :
    SliceMem.lessAt less m d i j = SortSlice.lessAt less ⟨toList m d⟩ i j := by
  simp only [SliceMem.lessAt, SortSlice.lessAt, get_eq]

/-- **C129** (`Less`).  `Less(i, j)` compares the element shown at `i` with the one shown at `j`, in this order; it panics
exactly when one of them does not exist. -/
theorem C129_less (less : α → α → Bool) (m : Mem α) (d : Slice) (i j : Nat) :
    SliceMem.lessAt less m d i j =
      match (toList m d)[i]?, (toList m d)[j]? with
      | some a, some b => .ok (less a b)
      | _, _ => .panic := by
  rw [lessAt_eq']
  simp only [SortSlice.lessAt, Go.get]
  cases (toList m d)[i]? with
  | none => rfl
  | some a =>
    cases (toList m d)[j]? with
    | none => rfl
    | some b => rfl

theorem swap_cases (m : Mem α) (d : Slice) (i j : Nat) :
    match (toList m d)[i]?, (toList m d)[j]? with
    | some a, some b => ∃ m', SliceMem.swap m d i j = .ok m' ∧ toList m' d = ((toList m d).set i b).set j a ∧
        m'.next = m.next ∧ ∀ c q, (c ≠ d.arr ∨ q < d.off ∨ d.off + d.len ≤ q) → m'.cell c q = m.cell c q
    | _, _ => SliceMem.swap m d i j = .panic := by
  by_cases hi : i < d.len
  · by_cases hj : j < d.len
    · rw [getElem?_toList _ _ _ hi, getElem?_toList _ _ _ hj]
      refine ⟨_, swap_ok m d i j hi hj, ?_, rfl, ?_⟩
      · rw [toList_swap m d i j hi hj]; simp
      · intro c q h
        rw [put_cell, if_neg (by rintro ⟨rfl, rfl⟩; rcases h with h | h | h <;> first | exact h rfl | omega),
          put_cell, if_neg (by rintro ⟨rfl, rfl⟩; rcases h with h | h | h <;> first | exact h rfl | omega)]
    · rw [getElem?_toList _ _ _ hi, List.getElem?_eq_none (by simpa using hj)]
      simp [SliceMem.swap, SliceMem.get, hj]
  · rw [List.getElem?_eq_none (l := toList m d) (i := i) (by simpa using hi)]
    by_cases hj : j < d.len
    · simp [SliceMem.swap, SliceMem.get, hi, hj]
    · simp [SliceMem.swap, SliceMem.get, hj]

/-- **C129** (every algorithm).  Whatever algorithm works on the slice through `Less` and `Swap`, and whatever `Less`
answers: what happens to the elements is what happens to the list of them; nothing outside the elements of the slice is
written and no memory is asked for; the elements stay the same up to order, even when the run ends in a panic. -/
theorem C129_run (less : α → α → Bool) (d : Slice) (p : Prog) : ∀ m : Mem α,
    toList (memSort less d m p).1 d = (listSort (total less) (toList m d) p).1 ∧
    (memSort less d m p).2 = (listSort (total less) (toList m d) p).2 ∧
    (memSort less d m p).1.next = m.next ∧
    (∀ c q, (c ≠ d.arr ∨ q < d.off ∨ d.off + d.len ≤ q) → (memSort less d m p).1.cell c q = m.cell c q) ∧
    (toList (memSort less d m p).1 d).Perm (toList m d) := by
  have key : ∀ m : Mem α,
    toList (memSort less d m p).1 d = (listSort (total less) (toList m d) p).1 ∧
    (memSort less d m p).2 = (listSort (total less) (toList m d) p).2 ∧
    (memSort less d m p).1.next = m.next ∧
    (∀ c q, (c ≠ d.arr ∨ q < d.off ∨ d.off + d.len ≤ q) → (memSort less d m p).1.cell c q = m.cell c q) := by
    induction p with
    | done => intro m; exact ⟨rfl, rfl, rfl, fun _ _ _ => rfl⟩
    | less i j k ih =>
      intro m
      simp only [memSort, listSort, C129_less]
      cases (toList m d)[i]? with
      | none => exact ⟨rfl, rfl, rfl, fun _ _ _ => rfl⟩
      | some a =>
        cases (toList m d)[j]? with
        | none => exact ⟨rfl, rfl, rfl, fun _ _ _ => rfl⟩
        | some b => exact ih _ m
    | swap i j k ih =>
      intro m
      have hs := swap_cases m d i j
      simp only [memSort, listSort]
      cases hi : (toList m d)[i]? with
      | none => simp only [hi] at hs; rw [hs]; exact ⟨rfl, rfl, rfl, fun _ _ _ => rfl⟩
      | some a =>
        cases hj : (toList m d)[j]? with
        | none => simp only [hi, hj] at hs; rw [hs]; exact ⟨rfl, rfl, rfl, fun _ _ _ => rfl⟩
        | some b =>
          simp only [hi, hj] at hs
          obtain ⟨m', e, el, en, ef⟩ := hs
          rw [e]
          obtain ⟨h1, h2, h3, h4⟩ := ih m'
          rw [el] at h1 h2
          exact ⟨h1, h2, h3.trans en, fun c q h => (h4 c q h).trans (ef c q h)⟩
  intro m
  obtain ⟨h1, h2, h3, h4⟩ := key m
  exact ⟨h1, h2, h3, h4, by rw [h1]; exact listSort_perm _ _ _⟩

/-- **C129** (`Sort`).  With a strict weak order `Sort` returns, for every slice in every memory; afterwards the slice, and
whatever `Buffer` returned before, shows the same elements in ascending order.  Slices of other arrays and of other parts
of the same array show what they showed, and no memory is asked for. -/
theorem C129_sort (A : SortAlg) {less : α → α → Bool} (hw : StrictWeak less) (m : Mem α) (d : Slice) :
    (sort A less m d).2 = true ∧ SortedBy less (toList (sort A less m d).1 d) ∧
    (toList (sort A less m d).1 d).Perm (toList m d) ∧ (sort A less m d).1.next = m.next ∧
    ∀ e : Slice, (e.arr ≠ d.arr ∨ e.off + e.len ≤ d.off ∨ d.off + d.len ≤ e.off) →
      toList (sort A less m d).1 e = toList m e := by
  obtain ⟨h1, h2, h3, h4, h5⟩ := C129_run less d (A.prog d.len) m
  have hs := A.sorts less hw (toList m d)
  rw [length_toList] at hs
  refine ⟨h2.trans hs.1, ?_, h5, h3, fun e he => toList_congr _ _ _ fun i hi => h4 _ _ ?_⟩
  · unfold sort; rw [h1]; exact hs.2
  · rcases he with h | h | h
    · exact .inl h
    · exact .inr (.inl (by omega))
    · exact .inr (.inr (by omega))

/-- **C129** (integers).  For integers the result is the one ascending arrangement, whatever algorithm is used. -/
theorem C129_sort_int (A B : SortAlg) (m : Mem Int) (d : Slice) :
    toList (sort A intLt m d).1 d = toList (sort B intLt m d).1 d ∧
    (toList (sort A intLt m d).1 d).Pairwise (· ≤ ·) := by
  obtain ⟨_, s1, p1, _, _⟩ := C129_sort A intLt_strictWeak m d
  obtain ⟨_, s2, p2, _, _⟩ := C129_sort B intLt_strictWeak m d
  have q1 : (toList (sort A intLt m d).1 d).Pairwise (· ≤ ·) := s1.imp (by intro a b; simp [intLt])
  have q2 : (toList (sort B intLt m d).1 d).Pairwise (· ≤ ·) := s2.imp (by intro a b; simp [intLt])
  exact ⟨List.Perm.eq_of_pairwise (fun a b _ _ => Int.le_antisymm) q1 q2 (p1.trans p2.symm), q1⟩

/-- **C129** (`Init` and `NewIntSortSlice`).  A negative capacity panics.  Otherwise the slice is empty, in an array of its
own with exactly the room asked for, and all that other slices show stays. -/
theorem C129_init (m : Mem α) (capacity : Int) :
    (capacity < 0 → sortInit m capacity = .panic) ∧
    (0 ≤ capacity → ∃ m' d, sortInit m capacity = .ok (m', d) ∧ WF m' d ∧ toList m' d = [] ∧ (d.cap : Int) = capacity ∧
      m.next ≤ d.arr ∧ ∀ b q, b < m.next → m'.cell b q = m.cell b q) := by
  refine ⟨fun h => by simp [sortInit, make, h], fun h => ?_⟩
  refine ⟨(alloc m [] capacity.toNat).1, (alloc m [] capacity.toNat).2,
    by simp [sortInit, make, show ¬ capacity < 0 by omega], ⟨by simp [alloc], by simp [alloc, store]⟩,
    by simp [alloc, toList], by simp [alloc]; omega, by simp [alloc], ?_⟩
  intro b q hb
  simp only [alloc, store, List.length_nil]
  rw [if_neg (by omega), if_neg (by omega)]

end

/-! ## Children of a tree node -/

section
variable {α : Type}

/-- The elements with their positions. -/
def tagged (l : List α) : List (Nat × α) := l.zipIdx.map fun p => (p.2, p.1)

theorem tagged_snd (l : List α) : (tagged l).map Prod.snd = l := by
  simp [tagged, Function.comp_def]

theorem tagged_nodup (l : List α) : ((tagged l).map Prod.fst).Nodup := by
  have : (tagged l).map Prod.fst = List.range l.length := by
    simp only [tagged, List.map_map, Function.comp_def]
    rw [show (fun x : α × Nat => x.2) = Prod.snd from rfl, List.zipIdx_map_snd, List.range_eq_range']
  rw [this]; exact List.nodup_range

/-- **C129** (every element is compared).  An algorithm that sorts cannot leave out an element: if the comparison panics
whenever a certain element takes part, sorting two or more elements panics whenever this element is among them. -/
theorem C129_all_compared (A : SortAlg) (cmp : α → α → Res Bool) {lt : α → α → Bool} (hw : StrictWeak lt) (l : List α)
    (hag : ∀ a b r, cmp a b = .ok r → lt a b = r) (bad : α) (hb : bad ∈ l)
    (hbad : ∀ a, cmp bad a = .panic ∧ cmp a bad = .panic) (hl : 2 ≤ l.length) :
    (listSort cmp l (A.prog l.length)).2 = false := by
  by_contra hne
  have hok : (listSort cmp l (A.prog l.length)).2 = true := by simpa using hne
  -- the position of the element, put before all others and behind all others
  obtain ⟨p, hp, hpe⟩ := List.mem_iff_getElem.1 hb
  set T := tagged l with hT
  have hmem : (p, bad) ∈ T := by
    rw [hT, tagged, List.mem_map]
    exact ⟨(bad, p), by rw [List.mem_zipIdx_iff_getElem?]; simp [hp, hpe], rfl⟩
  have huniq : ∀ x ∈ T, x.1 = p → x.2 = bad := by
    intro x hx e
    rw [hT, tagged, List.mem_map] at hx
    obtain ⟨y, hy, rfl⟩ := hx
    have := List.mem_zipIdx_iff_getElem?.1 hy
    simp only at e
    rw [e, List.getElem?_eq_getElem hp, hpe] at this
    simpa using this.symm
  let lo : Nat × α → Nat × α → Bool := fun x y =>
    if x.1 = p then decide (y.1 ≠ p) else if y.1 = p then false else lt x.2 y.2
  let hi : Nat × α → Nat × α → Bool := fun x y =>
    if y.1 = p then decide (x.1 ≠ p) else if x.1 = p then false else lt x.2 y.2
  have wlo : StrictWeak lo := by
    refine ⟨fun a => ?_, fun a b c => ?_, fun a b c => ?_⟩
    · simp only [lo]; split
      · next h => simp [h]
      · exact hw.irrefl _
    · simp only [lo]
      by_cases ha : a.1 = p <;> by_cases hb : b.1 = p <;> by_cases hc : c.1 = p <;> simp [ha, hb, hc]
      exact hw.trans _ _ _
    · simp only [lo]
      by_cases ha : a.1 = p <;> by_cases hb : b.1 = p <;> by_cases hc : c.1 = p <;> simp [ha, hb, hc]
      exact hw.negTrans _ _ _
  have whi : StrictWeak hi := by
    refine ⟨fun a => ?_, fun a b c => ?_, fun a b c => ?_⟩
    · simp only [hi]; split
      · next h => simp [h]
      · exact hw.irrefl _
    · simp only [hi]
      by_cases ha : a.1 = p <;> by_cases hb : b.1 = p <;> by_cases hc : c.1 = p <;> simp [ha, hb, hc]
      exact hw.trans _ _ _
    · simp only [hi]
      by_cases ha : a.1 = p <;> by_cases hb : b.1 = p <;> by_cases hc : c.1 = p <;> simp [ha, hb, hc]
      exact hw.negTrans _ _ _
  have aglo : ∀ x ∈ T, ∀ y ∈ T, ∀ r, cmp x.2 y.2 = .ok r → total lo x y = .ok r := by
    intro x hx y hy r hr
    have h1 : x.1 ≠ p := fun e => by rw [huniq x hx e, (hbad _).1] at hr; cases hr
    have h2 : y.1 ≠ p := fun e => by rw [huniq y hy e, (hbad _).2] at hr; cases hr
    simp [total, lo, h1, h2, hag _ _ _ hr]
  have aghi : ∀ x ∈ T, ∀ y ∈ T, ∀ r, cmp x.2 y.2 = .ok r → total hi x y = .ok r := by
    intro x hx y hy r hr
    have h1 : x.1 ≠ p := fun e => by rw [huniq x hx e, (hbad _).1] at hr; cases hr
    have h2 : y.1 ≠ p := fun e => by rw [huniq y hy e, (hbad _).2] at hr; cases hr
    simp [total, hi, h1, h2, hag _ _ _ hr]
  have hmap : T.map Prod.snd = l := tagged_snd l
  have hlen : T.length = l.length := by rw [← hmap, List.length_map]
  obtain ⟨_, _, hsame⟩ := listSort_follow Prod.snd cmp (total lo) T aglo (A.prog l.length) T (fun _ h => h)
    (by rw [hmap]; exact hok)
  have heq := hsame (total hi) aghi
  have slo := (A.sorts lo wlo T).2
  have shi := (A.sorts hi whi T).2
  rw [hlen] at slo shi
  rw [heq] at shi
  have hperm := listSort_perm (total lo) (A.prog l.length) T
  set R := (listSort (total lo) T (A.prog l.length)).1 with hR
  have hnd : (R.map Prod.fst).Nodup := (hperm.map Prod.fst).nodup_iff.2 (tagged_nodup l)
  have hRmem : (p, bad) ∈ R := hperm.mem_iff.2 hmem
  obtain ⟨q, hq, hqe⟩ := List.mem_iff_getElem.1 hRmem
  have hRlen : R.length = l.length := hperm.length_eq.trans hlen
  -- first for `lo`, last for `hi`
  have other : ∀ s (hs : s < R.length), s ≠ q → R[s].1 ≠ p := by
    intro s hs hsq e
    refine hsq ((List.Nodup.getElem_inj_iff hnd (hi := by simpa using hs) (hj := by simpa using hq)).1 ?_)
    simp [e, hqe]
  have hq0 : q = 0 := by
    by_contra h0
    have := List.pairwise_iff_getElem.1 slo 0 q (by omega) hq (by omega)
    simp only [lo, hqe] at this
    simp [other 0 (by omega) (by omega)] at this
  have := List.pairwise_iff_getElem.1 shi q 1 hq (by omega) (by omega)
  simp only [hi, hqe] at this
  simp [other 1 (by omega) (by omega)] at this

/-- **C129** (`SortChildren`).  For a node whose children are nil or nodes, with a strict weak order on the values: if there
are two children or more and one of them is nil, `SortChildren` panics, and otherwise it returns with the children in the
order of their values.  In both cases the children are the same ones as before. -/
theorem C129_children (A : SortAlg) {less : α → α → Bool} (hw : StrictWeak less) (h : TreeHeap.Heap α) (n : TreeHeap.Node α)
    (hc : ∀ c ∈ n.children, c = 0 ∨ ∃ x, TreeHeap.deref h c = .ok x) :
    (sortNode A less h n).1.Perm n.children ∧
    ((sortNode A less h n).2 = false ↔ 2 ≤ n.children.length ∧ 0 ∈ n.children) ∧
    ((sortNode A less h n).2 = true →
      (sortNode A less h n).1.Pairwise fun a b => ∀ x y, TreeHeap.deref h a = .ok x → TreeHeap.deref h b = .ok y →
        less y.val x.val = false) := by
  refine ⟨listSort_perm _ _ _, ?_⟩
  -- values, nil before all of them
  let v : TreeHeap.Ptr → Option α := fun p => match TreeHeap.deref h p with | .ok x => some x.val | .panic => none
  let lt : TreeHeap.Ptr → TreeHeap.Ptr → Bool := fun a b =>
    match v a, v b with
    | some x, some y => less x y
    | none, some _ => true
    | _, none => false
  have wlt : StrictWeak lt := by
    refine ⟨fun a => ?_, fun a b c => ?_, fun a b c => ?_⟩
    · simp only [lt]; cases v a with
      | none => rfl
      | some x => exact hw.irrefl x
    · simp only [lt]
      cases v a <;> cases v b <;> cases v c <;> simp
      exact hw.trans _ _ _
    · simp only [lt]
      cases v a <;> cases v b <;> cases v c <;> simp
      exact hw.negTrans _ _ _
  have hag : ∀ a b r, cmpPtr less h a b = .ok r → lt a b = r := by
    intro a b r hr
    simp only [cmpPtr] at hr
    simp only [lt, v]
    cases ha : TreeHeap.deref h a with
    | panic => simp [ha] at hr
    | ok x =>
      cases hb : TreeHeap.deref h b with
      | panic => simp [ha, hb] at hr
      | ok y => simpa [ha, hb] using hr
  have hnil : ∀ a, cmpPtr less h 0 a = .panic ∧ cmpPtr less h a 0 = .panic := by
    intro a
    have h0 : TreeHeap.deref h 0 = .panic := by simp [TreeHeap.deref]
    refine ⟨by simp [cmpPtr, h0], ?_⟩
    simp only [cmpPtr, h0]
    cases TreeHeap.deref h a <;> rfl
  by_cases hz : 2 ≤ n.children.length ∧ 0 ∈ n.children
  · have := C129_all_compared A (cmpPtr less h) wlt n.children hag 0 hz.2 hnil hz.1
    refine ⟨⟨fun _ => hz, fun _ => this⟩, fun e => ?_⟩
    rw [sortNode, this] at e; cases e
  · -- every comparison can be made, or there is at most one child
    by_cases h1 : n.children.length ≤ 1
    · have hp := A.short n.children.length (by omega)
      rw [sortNode, hp]
      refine ⟨⟨fun e => (nomatch e), fun e => absurd e hz⟩, fun _ => ?_⟩
      rcases hch : n.children with _ | ⟨a, _ | ⟨b, t⟩⟩
      · exact .nil
      · exact List.pairwise_singleton _ _
      · rw [hch] at h1; simp at h1
    · have hd : ∀ c ∈ n.children, ∃ x, TreeHeap.deref h c = .ok x := fun c hcm =>
        (hc c hcm).resolve_left (fun e => hz ⟨by omega, e ▸ hcm⟩)
      have hcg := listSort_congr (cmpPtr less h) (total lt) n.children (by
        intro a ha b hb
        obtain ⟨x, ex⟩ := hd a ha
        obtain ⟨y, ey⟩ := hd b hb
        simp [cmpPtr, total, lt, v, ex, ey]) (A.prog n.children.length) n.children (fun _ h => h)
      have hs := A.sorts lt wlt n.children
      rw [← hcg] at hs
      refine ⟨⟨fun e => ?_, fun e => absurd e hz⟩, fun _ => ?_⟩
      · rw [sortNode, hs.1] at e; cases e
      · refine List.Pairwise.imp (fun {a b} hab x y hx hy => ?_) hs.2
        simpa [lt, v, hx, hy] using hab

/-- The function that an algorithm computes, in the form that C117 uses. -/
def SortAlg.fn (A : SortAlg) : TreeHeap.SortFn where
  sort less l := (listSort (total less) l (A.prog l.length)).1
  perm less l := listSort_perm _ _ _
  sorted less l h := by
    obtain ⟨lt, hw, hag⟩ := h
    have hcg := listSort_congr (total less) (total lt) l (fun x hx y hy => by simp [total, hag x hx y hy])
      (A.prog l.length) l (fun _ h => h)
    rw [hcg]
    have hp := listSort_perm (total lt) (A.prog l.length) l
    refine List.Pairwise.imp_of_mem (fun {a b} ha hb hab => ?_) (A.sorts lt hw l).2
    rw [hag b (hp.mem_iff.1 hb) a (hp.mem_iff.1 ha)]
    exact hab

/-- **C129** (`SortChildren` of C117).  The model of `SortChildren` used in C117 panics exactly when every sorting
algorithm does, and gives its result otherwise. -/
theorem C129_sortChildren (A : SortAlg) {less : α → α → Bool} (hw : StrictWeak less) (h : TreeHeap.Heap α)
    (this : TreeHeap.Ptr) (n : TreeHeap.Node α) (hd : TreeHeap.deref h this = .ok n)
    (hc : ∀ c ∈ n.children, c = 0 ∨ ∃ x, TreeHeap.deref h c = .ok x) :
    TreeHeap.sortChildren less A.fn h this =
      if (sortNode A less h n).2 = true then .ok (TreeHeap.store h this { n with children := (sortNode A less h n).1 })
      else .panic := by
  obtain ⟨_, h2, _⟩ := C129_children A hw h n hc
  simp only [TreeHeap.sortChildren, hd, Res.bind_ok]
  by_cases hz : 2 ≤ n.children.length ∧ 0 ∈ n.children
  · rw [if_pos hz, if_neg (by rw [h2.2 hz]; decide)]
  · have ht : (sortNode A less h n).2 = true := by
      cases e : (sortNode A less h n).2 with
      | true => rfl
      | false => exact absurd (h2.1 e) hz
    rw [if_neg hz, if_pos ht]
    have hcg : sortNode A less h n = listSort (total (TreeHeap.lessPtr less h)) n.children (A.prog n.children.length) := by
      by_cases h1 : n.children.length ≤ 1
      · rw [sortNode, A.short _ (by omega)]; rfl
      · refine listSort_congr _ _ n.children (fun a ha b hb => ?_) _ _ (fun _ h => h)
        obtain ⟨x, ex⟩ := (hc a ha).resolve_left (fun e => hz ⟨by omega, e ▸ ha⟩)
        obtain ⟨y, ey⟩ := (hc b hb).resolve_left (fun e => hz ⟨by omega, e ▸ hb⟩)
        simp [cmpPtr, total, TreeHeap.lessPtr, ex, ey]
    rw [hcg]; rfl

end

/-! ## An algorithm that meets the contract -/

section
variable {β : Type}

theorem insInner_run (lt : β → β → Bool) (hw : StrictWeak lt) (k : Prog) (j : Nat) : ∀ (a : List β) (x : β) (s : List β),
    a.length = j → SortedBy lt a → ∃ a', a'.Perm (x :: a) ∧ SortedBy lt a' ∧
      listSort (total lt) (a ++ x :: s) (insInner j k) = listSort (total lt) (a' ++ s) k := by
  induction j with
  | zero =>
    intro a x s ha _
    obtain rfl := List.length_eq_zero_iff.1 ha
    exact ⟨[x], .refl _, List.pairwise_singleton _ _, rfl⟩
  | succ j ih =>
    intro a x s ha hs
    obtain ⟨a0, y, rfl⟩ : ∃ a0 y, a = a0 ++ [y] :=
      ⟨a.dropLast, a.getLast (by rintro rfl; simp at ha), (List.dropLast_append_getLast _).symm⟩
    have h0 : a0.length = j := by simpa using ha
    have hs0 : SortedBy lt a0 := (List.pairwise_append.1 hs).1
    have hy : ∀ z ∈ a0, lt y z = false := fun z hz => (List.pairwise_append.1 hs).2.2 z hz y (by simp)
    have e1 : (a0 ++ [y] ++ x :: s)[j + 1]? = some x := by simp [h0]
    have e2 : (a0 ++ [y] ++ x :: s)[j]? = some y := by simp [h0]
    simp only [insInner, listSort, e1, e2, total]
    cases hxy : lt x y with
    | false =>
      refine ⟨a0 ++ [y] ++ [x], ?_, ?_, by simp⟩
      · exact List.perm_append_singleton x _
      · refine List.pairwise_append.2 ⟨hs, List.pairwise_singleton _ _, ?_⟩
        intro z hz w hw'
        obtain rfl := List.mem_singleton.1 hw'
        rcases List.mem_append.1 hz with hz | hz
        · exact hw.ge_trans hxy (hy z hz)
        · obtain rfl := List.mem_singleton.1 hz; exact hxy
    | true =>
      have e3 : ((a0 ++ [y] ++ x :: s).set (j + 1) y).set j x = a0 ++ x :: (y :: s) := by
        simp [h0]
      obtain ⟨a', hp, hs', he⟩ := ih a0 x (y :: s) h0 hs0
      refine ⟨a' ++ [y], ?_, ?_, ?_⟩
      · exact (hp.append_right [y]).trans (by simp)
      · refine List.pairwise_append.2 ⟨hs', List.pairwise_singleton _ _, ?_⟩
        intro z hz w hw'
        obtain rfl := List.mem_singleton.1 hw'
        rcases List.mem_cons.1 (hp.mem_iff.1 hz) with rfl | hz
        · exact hw.asymm hxy
        · exact hy z hz
      · simp only [if_true, listSort, e1, e2, e3]
        exact he.trans (by simp)

theorem insOuter_run (lt : β → β → Bool) (hw : StrictWeak lt) (r : Nat) : ∀ (i : Nat) (a s : List β),
    a.length = i → s.length = r → SortedBy lt a →
      (listSort (total lt) (a ++ s) (insOuter i r)).2 = true ∧
      SortedBy lt (listSort (total lt) (a ++ s) (insOuter i r)).1 := by
  induction r with
  | zero =>
    intro i a s _ hs ha
    obtain rfl := List.length_eq_zero_iff.1 hs
    simpa [insOuter, listSort] using ha
  | succ r ih =>
    intro i a s hi hs ha
    obtain ⟨x, s, rfl⟩ := List.exists_cons_of_length_eq_add_one hs
    obtain ⟨a', hp, hs', he⟩ := insInner_run lt hw (insOuter (i + 1) r) i a x s hi ha
    simp only [insOuter]
    rw [he]
    exact ih (i + 1) a' s (by simp [hp.length_eq, hi]) (by simpa using hs) hs'

/-- The insertion sort of the Go library meets the contract. -/
def insertion : SortAlg where
  prog n := insOuter 1 (n - 1)
  short n hn := by
    have : n - 1 = 0 := by omega
    rw [this]; rfl
  sorts lt hw l := by
    cases l with
    | nil => exact ⟨rfl, .nil⟩
    | cons x s => exact insOuter_run lt hw s.length 1 [x] s rfl (by simp) (List.pairwise_singleton _ _)

end

/-! ## Cases -/

example := C129_sort insertion intLt_strictWeak exMem ⟨0, 0, 3, 4⟩
example : toList (sort insertion intLt exMem ⟨0, 0, 3, 4⟩).1 ⟨0, 0, 3, 4⟩ = [1, 2, 3] := by decide +kernel
example := C129_sort_int insertion insertion exMem ⟨0, 0, 3, 4⟩
example := (C129_init exMem (-1)).1 (by decide)
example := (C129_init exMem 0).2 (by decide)
example : SliceMem.lessAt intLt exMem ⟨0, 0, 3, 4⟩ 1 0 = .ok true := by decide +kernel

/-- A node with a child and a nil child: sorting panics. -/
example : (sortNode insertion intLt ⟨[⟨5, [0, 2]⟩, ⟨7, []⟩]⟩ ⟨5, [0, 2]⟩).2 = false := by decide +kernel
example := (C129_children insertion intLt_strictWeak ⟨[⟨5, [0, 2]⟩, ⟨7, []⟩]⟩ ⟨5, [0, 2]⟩ (by
  intro c hc
  rcases List.mem_cons.1 hc with rfl | hc
  · exact .inl rfl
  · obtain rfl := List.mem_singleton.1 hc
    exact .inr ⟨⟨7, []⟩, rfl⟩)).2.1.2 ⟨by decide, by decide⟩
example := C129_all_compared insertion (cmpPtr intLt ⟨[⟨5, []⟩]⟩) (lt := fun a b : Nat => Nat.blt a b)
  ⟨fun a => by simp only [Nat.blt, Bool.eq_false_iff, ne_eq, Nat.ble_eq]; omega, fun a b c => by simp only [Nat.blt_eq]; omega, fun a b c => by simp only [Nat.blt_eq]; omega⟩ [1, 0] (by
    intro a b r hr
    have : ∀ p, TreeHeap.deref (⟨[⟨5, []⟩]⟩ : TreeHeap.Heap Int) p = if p = 1 then .ok ⟨5, []⟩ else .panic := by
      intro p
      rcases p with _ | _ | p <;> simp [TreeHeap.deref, Go.get]
    simp only [cmpPtr, this] at hr
    by_cases ha : a = 1 <;> by_cases hb : b = 1 <;> simp [ha, hb] at hr
    subst ha hb hr; decide) 0 (by decide) (by
    intro a
    have h0 : TreeHeap.deref (⟨[⟨5, []⟩]⟩ : TreeHeap.Heap Int) 0 = .panic := rfl
    refine ⟨by simp [cmpPtr, h0], ?_⟩
    simp only [cmpPtr, h0]
    cases TreeHeap.deref (⟨[⟨5, []⟩]⟩ : TreeHeap.Heap Int) a <;> rfl) (by decide)
example := C129_sortChildren insertion intLt_strictWeak ⟨[⟨5, [2]⟩, ⟨7, []⟩]⟩ 1 ⟨5, [2]⟩ rfl (by
  intro c hc
  obtain rfl := List.mem_singleton.1 hc
  exact .inr ⟨⟨7, []⟩, rfl⟩)
/-- Two nodes in the wrong order. -/
example : sortNode insertion intLt ⟨[⟨5, [3, 2]⟩, ⟨7, []⟩, ⟨9, []⟩]⟩ ⟨5, [3, 2]⟩ = ([2, 3], true) := by decide +kernel

end Verif.SortProg
