import Verif.Props.HeapStlTop
/-!
# C71: the lengths at which `MakeHeap` and `SortHeap` of the STL configuration are right
-/

set_option linter.unusedSectionVars false

namespace Verif.Heap
open Verif.Spec Verif.Cmp
variable {α : Type}

/-- **C71, partial.**  Up to three elements `MakeHeap` of the STL configuration makes a heap.  See `C71_makeHeap_every_false`. -/
theorem C71_makeHeap_short_partial {less : α → α → Bool} (hw : StrictWeak less) (maxTop : Bool) (b : List α)
    (hl : b.length ≤ 3) : IsHeap (below maxTop less) (makeHeapStl (cmpOf less maxTop) b) := by
  intro i p c h0 hc hp
  have hperm := C71_makeHeap_perm (cmpOf less maxTop) b
  have hi := lt_of_some hc
  rw [hperm.length_eq] at hi
  rw [show (i - 1) / 2 = 0 by omega, ← List.head?_eq_getElem?] at hp
  exact C71_makeHeap_top_partial hw maxTop b p hp c (hperm.mem_iff.mp (List.mem_of_getElem? hc))

example : makeHeapStl (cmpOf intLt true) [1, 2, 3] = [3, 1, 2] := by decide +kernel

theorem sinkHole_down {lt : α → α → Bool} (hw : StrictWeak lt) (b : List α) (x : Nat) (hx : x < b.length) (v : α)
    (hl : lchild x < b.length) : ∃ c, ∃ hcl : c < b.length, parent c = x ∧ x < c ∧
      sinkHole (fun c p => !lt p c) b x hx v =
        sinkHole (fun c p => !lt p c) (b.set x b[c]) c (by simpa using hcl) v := by
  refine ⟨_, bestChild_lt (fun c p => !lt p c) b x hl, (bestChild_spec hw b x hl).1, lt_bestChild _ b x hl, ?_⟩
  rw [sinkHole, dif_pos hl]

theorem adjustUp_ignores (f : α → α → Bool) (b : List α) (x : Nat) (hx : x < b.length) (v y : α)
    (hx' : x < (b.set x y).length) : adjustUp f (b.set x y) x hx' v = adjustUp f b x hx v := by
  rw [adjustUp]
  conv => rhs; rw [adjustUp]
  split
  · next h =>
    have hp := parent_lt h
    have e : (b.set x y)[parent x]'(Nat.lt_trans hp hx') = b[parent x] := List.getElem_set_ne (by omega) _
    simp only [e, List.set_set]
  · rw [List.set_set]

/-- The hole comes back from the leaf if everything below it is smaller. -/
theorem sink_back {lt : α → α → Bool} (hw : StrictWeak lt) (b : List α) (x : Nat) (hx : x < b.length) (v a : α)
    (hav : lt a v = true) (hb : ∀ j w, Over x j → b[j]? = some w → w = a) :
    sinkHole (fun c p => !lt p c) b x hx v = adjustUp (fun c p => !lt p c) b x hx v := by
  generalize hn : b.length - x = n
  induction n using Nat.strongRecOn generalizing b x with
  | ind n ih =>
    by_cases hl : lchild x < b.length
    · obtain ⟨c, hcl, hpc, hlt, e0⟩ := sinkHole_down hw b x hx v hl
      have hxc : Over x c := by have := Over.one (k := c) (by omega); rwa [hpc] at this
      have hca : b[c] = a := hb c _ hxc (List.getElem?_eq_getElem hcl)
      rw [e0, ih _ (by rw [List.length_set]; omega) (b.set x b[c]) c (by simpa using hcl) ?_ rfl, adjustUp, dif_pos (show c > 0 by omega)]
      · have e : (b.set x b[c])[parent c]'(by simp; omega) = a := by simp [hpc, hca]
        have e2 : (b.set x b[c]).set c ((b.set x b[c])[parent c]'(by simp; omega)) = b.set x b[c] := by
          rw [e]
          apply List.ext_getElem?
          intro j
          by_cases hj : j = c
          · subst hj
            rw [List.getElem?_set_self (by simpa using hcl), List.getElem?_set_ne (by omega), List.getElem?_eq_getElem hcl, hca]
          · rw [List.getElem?_set_ne (Ne.symm hj)]
        rw [if_pos (by simp [e, hav])]
        simp only [e2]
        have : ∀ y (hy : y < (b.set x b[c]).length), y = x →
            adjustUp (fun c p => !lt p c) (b.set x b[c]) y hy v = adjustUp (fun c p => !lt p c) b x hx v := by
          rintro y hy rfl
          exact adjustUp_ignores ..
        exact this _ _ hpc
      · intro j w hj hw'
        have := hj.lt
        rw [List.getElem?_set_ne (by omega)] at hw'
        exact hb j w (hxc.trans hj) hw'
    · rw [sinkHole, dif_neg hl]

theorem adjustUp_root (lt : α → α → Bool) (b : List α) (x : Nat) (hx : x < b.length) (v r : α) (h0 : 0 < x)
    (hr : b[0]? = some r) (hlt : lt r v = false) : (adjustUp (fun c p => !lt p c) b x hx v)[0]? = some r := by
  fun_induction adjustUp (fun c p => !lt p c) b x hx v with
  | case1 b x hx h hf ih =>
    have hp : parent x ≠ 0 := by
      intro e
      have : b[parent x]'(Nat.lt_trans (parent_lt h) hx) = r := by
        have h1 := List.getElem?_eq_getElem (Nat.lt_trans (parent_lt h) hx)
        simp only [e] at h1 ⊢
        rw [h1] at hr
        exact Option.some.inj hr
      simp [this, hlt] at hf
    exact ih (by omega) (by rwa [List.getElem?_set_ne (by omega)])
  | case2 b x hx h hf => rwa [List.getElem?_set_ne (by omega)]
  | case3 b x hx h => omega

theorem sink_root (lt : α → α → Bool) (b : List α) (x : Nat) (hx : x < b.length) (v r : α) (h0 : 0 < x)
    (hr : b[0]? = some r) (hlt : lt r v = false) : (sinkHole (fun c p => !lt p c) b x hx v)[0]? = some r := by
  fun_induction sinkHole (fun c p => !lt p c) b x hx v with
  | case1 b x hx hl ih =>
    have := lt_bestChild (fun c p => !lt p c) b x hl
    exact ih (by omega) (by rwa [List.getElem?_set_ne (by omega)])
  | case2 b x hx hl => exact adjustUp_root lt b x hx v r h0 hr hlt

section family
variable {lt : α → α → Bool} (hw : StrictWeak lt) {a b c d : α} (hab : lt a b = true) (hbc : lt b c = true) (hcd : lt c d = true)
include hw hab hbc hcd

theorem fam_tail (x0 x1 x2 x3 : α) (k j : Nat) (w : α) (hj : 4 ≤ j) (h : (x0 :: x1 :: x2 :: x3 :: List.replicate k a)[j]? = some w) :
    w = a := by
  obtain ⟨j, rfl⟩ : ∃ i, j = i + 4 := ⟨j - 4, by omega⟩
  simp [List.getElem?_replicate] at h
  exact h.2.symm

theorem fam_low (k y : Nat) (w : α) (h : (a :: d :: b :: c :: List.replicate k a)[y]? = some w) : lt w a = false := by
  have hbd := hw.trans _ _ _ hbc hcd
  have hac := hw.trans _ _ _ hab hbc
  have had := hw.trans _ _ _ hab hbd
  match y, h with
  | 0, h => simp at h; subst h; exact hw.irrefl _
  | 1, h => simp at h; subst h; exact hw.asymm had
  | 2, h => simp at h; subst h; exact hw.asymm hab
  | 3, h => simp at h; subst h; exact hw.asymm hac
  | y + 4, h => rw [fam_tail hw hab hbc hcd _ _ _ _ k (y + 4) w (by omega) h]; exact hw.irrefl _

theorem fam_flat (k x : Nat) (h4 : 4 ≤ x) (hx : x < (a :: d :: b :: c :: List.replicate k a).length) :
    sinkHole (fun c p => !lt p c) (a :: d :: b :: c :: List.replicate k a) x hx a = a :: d :: b :: c :: List.replicate k a := by
  generalize hn : (a :: d :: b :: c :: List.replicate k a).length - x = n
  have same : ∀ y (_ : 4 ≤ y) (_ : y < (a :: d :: b :: c :: List.replicate k a).length),
      (a :: d :: b :: c :: List.replicate k a).set y a = a :: d :: b :: c :: List.replicate k a := by
    intro y hy hyl
    apply List.ext_getElem?
    intro j
    by_cases hj : j = y
    · subst hj
      rw [List.getElem?_set_self hyl, List.getElem?_eq_getElem hyl]
      exact congrArg some (fam_tail hw hab hbc hcd _ _ _ _ k j _ hy (List.getElem?_eq_getElem hyl)).symm
    · rw [List.getElem?_set_ne (Ne.symm hj)]
  induction n using Nat.strongRecOn generalizing x with
  | ind n ih =>
    by_cases hl : lchild x < (a :: d :: b :: c :: List.replicate k a).length
    · obtain ⟨e, hcl, hpc, hlt, e0⟩ := sinkHole_down hw _ x hx a hl
      have ha : (a :: d :: b :: c :: List.replicate k a)[e] = a :=
        fam_tail hw hab hbc hcd _ _ _ _ k e _ (by omega) (List.getElem?_eq_getElem hcl)
      rw [e0]
      simp only [ha, same x h4 hx]
      exact ih _ (by omega) e (by omega) hcl rfl
    · rw [sinkHole, dif_neg hl, adjustUp, dif_pos (by omega), if_neg, same x h4 hx]
      have h1 : parent x < (a :: d :: b :: c :: List.replicate k a).length := Nat.lt_trans (parent_lt (by omega)) hx
      rw [fam_low hw hab hbc hcd k (parent x) _ (List.getElem?_eq_getElem h1)]
      decide

/-- The steps at 1 and 0. -/
theorem fam_one (k : Nat) (y : α) (hx : 1 < (b :: y :: a :: c :: List.replicate k a).length) :
    sinkHole (fun c p => !lt p c) (b :: y :: a :: c :: List.replicate k a) 1 hx d = d :: b :: a :: c :: List.replicate k a := by
  have hbd := hw.trans _ _ _ hbc hcd
  have hac := hw.trans _ _ _ hab hbc
  have had := hw.trans _ _ _ hab hbd
  have hbest : ∀ hl, bestChild (fun c p => !lt p c) (b :: y :: a :: c :: List.replicate k a) 1 hl = 3 := by
    intro hl
    unfold bestChild
    split
    · next hr =>
      have : (b :: y :: a :: c :: List.replicate k a)[lchild 1 + 1] = a :=
        fam_tail hw hab hbc hcd _ _ _ _ k (lchild 1 + 1) _ (by decide) (List.getElem?_eq_getElem hr)
      have h3 : (b :: y :: a :: c :: List.replicate k a)[lchild 1]'hl = c := rfl
      simp [hw.asymm hac, lchild]
    · rfl
  rw [sinkHole, dif_pos (by simp [lchild])]
  simp only [hbest]
  have e1 : (b :: y :: a :: c :: List.replicate k a).set 1 ((b :: y :: a :: c :: List.replicate k a)[3]'(by simp)) =
      b :: c :: a :: c :: List.replicate k a := rfl
  simp only [e1]
  rw [sink_back hw _ 3 _ d a had]
  · rw [adjustUp, dif_pos (by decide)]
    have p3 : parent 3 = 1 := rfl
    have p1 : parent 1 = 0 := rfl
    simp only [p3]
    rw [if_pos (by simp [hcd])]
    have e2 : (b :: c :: a :: c :: List.replicate k a).set 3 ((b :: c :: a :: c :: List.replicate k a)[1]'(by simp)) =
      b :: c :: a :: c :: List.replicate k a := rfl
    simp only [e2]
    rw [adjustUp, dif_pos (by decide)]
    simp only [p1]
    rw [if_pos (by simp [hbd]), adjustUp, dif_neg (by decide)]
    rfl
  · intro j w hj hjw
    have := hj.lt
    exact fam_tail hw hab hbc hcd _ _ _ _ k j w (by omega) hjw

theorem fam_make (k : Nat) : makeHeapStl (fun c p => !lt p c) (a :: d :: b :: c :: List.replicate k a) =
    d :: b :: a :: c :: List.replicate k a := by
  have hbd := hw.trans _ _ _ hbc hcd
  have hac := hw.trans _ _ _ hab hbc
  have two : ∀ h, makeLoopStl (fun c p => !lt p c) (a :: d :: b :: c :: List.replicate k a) 2 h =
      d :: b :: a :: c :: List.replicate k a := by
    intro h
    have s2 : sinkHole (fun c p => !lt p c) (a :: d :: b :: c :: List.replicate k a) 2 h
        ((a :: d :: b :: c :: List.replicate k a)[2]) = b :: d :: a :: c :: List.replicate k a := by
      have e0 : (a :: d :: b :: c :: List.replicate k a)[2] = b := rfl
      rw [e0, sink_back hw _ 2 _ b a hab]
      · rw [adjustUp, dif_pos (by decide)]
        have p2 : parent 2 = 0 := rfl
        simp only [p2]
        rw [if_pos (by simp [hab]), adjustUp, dif_neg (by decide)]
        rfl
      · intro j w hj hjw
        refine fam_tail hw hab hbc hcd _ _ _ _ k j w ?_ hjw
        obtain ⟨e, h0, hp, he⟩ := hj.child
        unfold parent at hp
        rcases he with rfl | he
        · omega
        · have := he.lt; omega
    have s1 : ∀ hx, sinkHole (fun c p => !lt p c) (b :: d :: a :: c :: List.replicate k a) 1 hx
        ((b :: d :: a :: c :: List.replicate k a)[1]) = d :: b :: a :: c :: List.replicate k a :=
      fun hx => fam_one hw hab hbc hcd k d hx
    have s0 : ∀ hx, sinkHole (fun c p => !lt p c) (d :: b :: a :: c :: List.replicate k a) 0 hx
        ((d :: b :: a :: c :: List.replicate k a)[0]) = d :: b :: a :: c :: List.replicate k a := by
      intro hx
      have hbest : ∀ hl, bestChild (fun c p => !lt p c) (d :: b :: a :: c :: List.replicate k a) 0 hl = 1 := by
        intro hl
        unfold bestChild
        split
        · have h1 : (d :: b :: a :: c :: List.replicate k a)[lchild 0 + 1]'(by simp [lchild]) = a := rfl
          have h2 : (d :: b :: a :: c :: List.replicate k a)[lchild 0]'hl = b := rfl
          simp [h1, h2, hw.asymm hab, lchild]
        · rfl
      rw [sinkHole, dif_pos (by simp [lchild])]
      simp only [hbest]
      exact fam_one hw hab hbc hcd k b (by simp)
    simp only [makeLoopStl, s2, s1, s0]
  have up : ∀ i (h2 : 2 ≤ i) hi, makeLoopStl (fun c p => !lt p c) (a :: d :: b :: c :: List.replicate k a) i hi =
      d :: b :: a :: c :: List.replicate k a := by
    intro i h2
    induction i with
    | zero => omega
    | succ i ih =>
      intro hi
      by_cases h1 : i + 1 = 2
      · obtain rfl : i = 1 := by omega
        exact two hi
      · have hs : sinkHole (fun c p => !lt p c) (a :: d :: b :: c :: List.replicate k a) (i + 1) hi
            ((a :: d :: b :: c :: List.replicate k a)[i + 1]) = a :: d :: b :: c :: List.replicate k a := by
          by_cases h3 : i + 1 = 3
          · obtain rfl : i = 2 := by omega
            have e0 : (a :: d :: b :: c :: List.replicate k a)[2 + 1] = c := rfl
            rw [e0, sink_back hw _ 3 _ c a hac]
            · rw [adjustUp, dif_pos (by decide)]
              have p3 : parent 3 = 1 := rfl
              simp only [p3]
              rw [if_neg (by simp [hw.asymm hcd])]
              rfl
            · intro j w hj hjw
              have := hj.lt
              exact fam_tail hw hab hbc hcd _ _ _ _ k j w (by omega) hjw
          · have : (a :: d :: b :: c :: List.replicate k a)[i + 1] = a :=
              fam_tail hw hab hbc hcd _ _ _ _ k (i + 1) _ (by omega) (List.getElem?_eq_getElem hi)
            rw [this]
            exact fam_flat hw hab hbc hcd k (i + 1) (by omega) hi
        simp only [makeLoopStl, hs]
        exact ih (by omega) _
  unfold makeHeapStl
  rw [dif_pos (by simp)]
  exact up _ (by simp; omega) _

end family

/-- **C71 is false for MakeHeap at every length from four on**, whatever the order, as long as it has four different values. -/
theorem C71_makeHeap_every_false {less : α → α → Bool} (hw : StrictWeak less) (maxTop : Bool) (n : Nat) (hn : 4 ≤ n)
    (a b c d : α) (hab : below maxTop less a b = true) (hbc : below maxTop less b c = true) (hcd : below maxTop less c d = true) :
    ∃ l : List α, l.length = n ∧ ¬ IsHeap (below maxTop less) (makeHeapStl (cmpOf less maxTop) l) := by
  have hb := below_strictWeak hw maxTop
  refine ⟨a :: d :: b :: c :: List.replicate (n - 4) a, by simp; omega, ?_⟩
  rw [cmpOf_eq, fam_make hb hab hbc hcd]
  intro h
  have := h 3 b c (by omega) rfl rfl
  rw [hbc] at this
  cases this

example : below false intLt 4 3 = true ∧ below false intLt 3 2 = true ∧ below false intLt 2 1 = true := by decide

theorem popStl_eq (f : α → α → Bool) (b : List α) (h : 0 < b.length) :
    ∃ t, popBufStl f b = t ++ [b[0]] ∧ b.Perm (t ++ [b[0]]) ∧ t.length = b.length - 1 := by
  unfold popBufStl
  by_cases h1 : b.length > 1
  · rw [dif_pos h1]
    refine ⟨_, rfl, ?_, by rw [sinkHole_length]; simp⟩
    refine List.Perm.symm (((sinkHole_perm ..).append_right _).trans ?_)
    match b, h1 with
    | x :: xs, h1 =>
      obtain ⟨ys, y, rfl⟩ : ∃ ys y, xs = ys ++ [y] := by
        rcases List.eq_nil_or_concat xs with rfl | ⟨ys, y, rfl⟩
        · exact absurd h1 (by simp)
        · exact ⟨ys, y, by simp⟩
      simp
      refine (List.perm_append_comm (l₁ := y :: ys) (l₂ := [x])).trans ?_
      exact ((List.perm_append_comm (l₁ := [y]) (l₂ := ys))).cons x
  · rw [dif_neg h1]
    match b, h, h1 with
    | [x], _, _ => exact ⟨[], rfl, List.Perm.refl _, rfl⟩
    | _ :: _ :: _, _, h => simp at h

theorem sortStl_step (f : α → α → Bool) (t s : List α) (n : Nat) (hl : t.length = n + 1) :
    ∃ t' x, popBufStl f t = t' ++ [x] ∧ t.head? = some x ∧ t.Perm (t' ++ [x]) ∧ t'.length = n ∧
      sortLoopStl f (t ++ s) (n + 1) = sortLoopStl f (t' ++ ([x] ++ s)) n := by
  obtain ⟨t', e, p, l⟩ := popStl_eq f t (by omega)
  refine ⟨t', _, e, ?_, p, by omega, ?_⟩
  · rw [List.head?_eq_getElem?, List.getElem?_eq_getElem (by omega)]
  · have h1 : (t ++ s).take (n + 1) = t := by rw [← hl]; exact List.take_left
    have h2 : (t ++ s).drop (n + 1) = s := by rw [← hl]; exact List.drop_left
    conv => lhs; unfold sortLoopStl
    by_cases h : n + 1 > 1
    · rw [if_pos h, h1, h2, e, List.append_assoc]
    · rw [if_neg h]
      obtain rfl : n = 0 := by omega
      have : t' = [] := List.length_eq_zero_iff.mp (by omega)
      subst this
      match t, hl with
      | [y], _ => rfl

theorem sortStl_keeps (f : α → α → Bool) (n : Nat) : ∀ (t s : List α), t.length = n →
    ∃ r, sortLoopStl f (t ++ s) n = r ++ s ∧ r.Perm t := by
  induction n with
  | zero => exact fun t s hl => ⟨t, rfl, .refl _⟩
  | succ n ih =>
    intro t s hl
    obtain ⟨t', x, -, -, p, l, e⟩ := sortStl_step f t s n hl
    obtain ⟨r, e2, p2⟩ := ih t' ([x] ++ s) l
    exact ⟨r ++ [x], by rw [e, e2]; simp, (p2.append_right _).trans p.symm⟩

/-- C71: `SortHeap` of the STL configuration, though it does not always sort, keeps all elements. -/
theorem C71_sort_perm (f : α → α → Bool) (b : List α) : (sortHeapStl f b).Perm b := by
  obtain ⟨r, e, p⟩ := sortStl_keeps f _ (makeHeapStl f b) [] rfl
  unfold sortHeapStl
  rw [List.append_nil] at e
  rw [e, List.append_nil]
  exact p.trans (C71_makeHeap_perm f b)

theorem sortStl_heap {lt : α → α → Bool} (hw : StrictWeak lt) (n : Nat) : ∀ (t s : List α), t.length = n → HeapFrom lt 0 t →
    SortedBy lt s → (∀ x ∈ t, ∀ y ∈ s, lt y x = false) → SortedBy lt (sortLoopStl (fun c p => !lt p c) (t ++ s) n) := by
  induction n with
  | zero =>
    intro t s hl _ hs _
    obtain rfl : t = [] := List.length_eq_zero_iff.mp hl
    exact hs
  | succ n ih =>
    intro t s hl hh hs hx
    obtain ⟨t', x, e, hd, p, l, e2⟩ := sortStl_step (fun c p => !lt p c) t s n hl
    rw [e2]
    have hpos : 0 < t.length := by omega
    have hx0 : t[0] = x := by rw [List.head?_eq_getElem?, List.getElem?_eq_getElem hpos] at hd; exact Option.some.inj hd
    have hroot := root_best_mem hw _ hh hpos
    rw [hx0] at hroot
    have hmem : x ∈ t := p.mem_iff.mpr (by simp)
    refine ih t' _ l ?_ ?_ ?_
    · -- what is left is a heap
      by_cases h1 : t.length > 1
      · have e3 := e
        unfold popBufStl at e3
        rw [dif_pos h1] at e3
        have : t' = sinkHole (fun c p => !lt p c) ((t.set 0 t[t.length - 1]).take (t.length - 1)) 0 (by simp; omega) t[t.length - 1] :=
          (List.append_inj_left e3 (by rw [sinkHole_length]; simp; omega)).symm
        rw [this]
        refine sinkHole_heap hw _ _ _ _ ⟨?_, ?_⟩
        · intro i hi h0 h2 h3
          simp only [List.length_take, List.length_set] at hi
          rw [List.getElem_take, List.getElem_take, List.getElem_set_ne (Ne.symm h3), List.getElem_set_ne (Ne.symm h2)]
          exact hh i (by omega) h0 (Nat.zero_le _)
        · intro i hi h0 hp hc; exact absurd hc (by omega)
      · have : t' = [] := List.length_eq_zero_iff.mp (by omega)
        subst this
        intro i hi; simp at hi
    · exact List.pairwise_cons.mpr ⟨fun y hy => hx x hmem y hy, hs⟩
    · intro z hz y hy
      have hzt : z ∈ t := p.mem_iff.mpr (by simp [hz])
      rcases List.mem_cons.mp hy with rfl | hy
      · exact hroot z hzt
      · exact hx z hzt y hy

/-- **C71, partial.**  Up to four elements `SortHeap` of the STL configuration sorts.  See `C71_sort_every_false`. -/
theorem C71_sort_short_partial {less : α → α → Bool} (hw : StrictWeak less) (maxTop : Bool) (b : List α)
    (hl : b.length ≤ 4) : SortedBy (below maxTop less) (sortHeapStl (cmpOf less maxTop) b) := by
  have hb := below_strictWeak hw maxTop
  have hperm := C71_makeHeap_perm (cmpOf less maxTop) b
  have htop := C71_makeHeap_top_partial hw maxTop b
  unfold sortHeapStl
  rw [cmpOf_eq] at *
  generalize makeHeapStl (fun c p => !below maxTop less p c) b = m at *
  have hml : m.length ≤ 4 := by rw [hperm.length_eq]; exact hl
  rcases hn : m.length with _ | n
  · rw [List.length_eq_zero_iff.mp hn]; exact List.Pairwise.nil
  · obtain ⟨t', x, e, hd, p, l, e2⟩ := sortStl_step (fun c p => !below maxTop less p c) m [] n hn
    rw [List.append_nil] at e2
    rw [e2]
    refine sortStl_heap hb n t' _ l ?_ (List.pairwise_singleton _ _) ?_
    · by_cases h1 : m.length > 1
      · have e3 := e
        unfold popBufStl at e3
        rw [dif_pos h1] at e3
        have : t' = sinkHole (fun c p => !below maxTop less p c) ((m.set 0 m[m.length - 1]).take (m.length - 1)) 0
            (by simp; omega) m[m.length - 1] :=
          (List.append_inj_left e3 (by rw [sinkHole_length]; simp; omega)).symm
        rw [this]
        refine sinkHole_heap hb _ _ _ _ ⟨?_, ?_⟩
        · intro i hi h0 h2 h3
          simp only [List.length_take, List.length_set] at hi
          unfold parent at h3; omega
        · intro i hi h0 hp hc; exact absurd hc (by omega)
      · have : t' = [] := List.length_eq_zero_iff.mp (by omega)
        subst this
        intro i hi; simp at hi
    · intro z hz y hy
      simp at hy
      subst hy
      exact htop y hd z (hperm.mem_iff.mp (p.mem_iff.mpr (by simp [hz])))

example : sortHeapStl (cmpOf intLt true) [0, 3, 1, 2] = [0, 1, 2, 3] := by decide +kernel

/-- **C71 is false for SortHeap at every length from five on**, whatever the order, as long as it has four different values. -/
theorem C71_sort_every_false {less : α → α → Bool} (hw : StrictWeak less) (maxTop : Bool) (n : Nat) (hn : 5 ≤ n)
    (a b c d : α) (hab : below maxTop less a b = true) (hbc : below maxTop less b c = true) (hcd : below maxTop less c d = true) :
    ∃ l : List α, l.length = n ∧ ¬ SortedBy (below maxTop less) (sortHeapStl (cmpOf less maxTop) l) := by
  have hb := below_strictWeak hw maxTop
  refine ⟨a :: d :: b :: c :: List.replicate (n - 4) a, by simp; omega, ?_⟩
  unfold sortHeapStl
  rw [cmpOf_eq, fam_make hb hab hbc hcd]
  generalize below maxTop less = lt at *
  obtain ⟨k, hk⟩ : ∃ k, n - 4 = k + 1 := ⟨n - 5, by omega⟩
  rw [hk]
  have hlen : (d :: b :: a :: c :: List.replicate (k + 1) a).length = (k + 4) + 1 := by simp
  obtain ⟨t1, x1, e1, hd1, p1, l1, s1⟩ := sortStl_step (fun c p => !lt p c) (d :: b :: a :: c :: List.replicate (k + 1) a) [] (k + 4) hlen
  obtain rfl : d = x1 := by simpa using hd1
  -- the first element of what is left is `b`
  have ht1 : t1.head? = some b := by
    unfold popBufStl at e1
    rw [dif_pos (by simp)] at e1
    have hlast : (d :: b :: a :: c :: List.replicate (k + 1) a)[(d :: b :: a :: c :: List.replicate (k + 1) a).length - 1]'(by simp) = a :=
      fam_tail hb hab hbc hcd _ _ _ _ (k + 1) _ _ (by simp) (List.getElem?_eq_getElem (by simp))
    have htake : ((d :: b :: a :: c :: List.replicate (k + 1) a).set 0 a).take ((d :: b :: a :: c :: List.replicate (k + 1) a).length - 1) =
        a :: b :: a :: c :: List.replicate k a := by
      simp [List.take_replicate]
    simp only [hlast, htake] at e1
    have : t1 = _ := (List.append_inj_left e1 (by rw [sinkHole_length]; simp [l1])).symm
    rw [this, List.head?_eq_getElem?, sinkHole, dif_pos (by simp [lchild])]
    have hbest : ∀ hl, bestChild (fun c p => !lt p c) (a :: b :: a :: c :: List.replicate k a) 0 hl = 1 := by
      intro hl
      unfold bestChild
      split
      · have h1 : (a :: b :: a :: c :: List.replicate k a)[lchild 0 + 1]'(by simp [lchild]) = a := rfl
        have h2 : (a :: b :: a :: c :: List.replicate k a)[lchild 0]'hl = b := rfl
        simp [h1, h2, hb.asymm hab, lchild]
      · rfl
    simp only [hbest]
    exact sink_root lt _ 1 _ a b (by decide) rfl (hb.asymm hab)
  obtain ⟨t2, x2, e2, hd2, p2, l2, s2⟩ := sortStl_step (fun c p => !lt p c) t1 ([d] ++ []) (k + 3) (by omega)
  obtain rfl : b = x2 := by rw [ht1] at hd2; exact Option.some.inj hd2
  obtain ⟨r, e3, p3⟩ := sortStl_keeps (fun c p => !lt p c) (k + 3) t2 ([b] ++ ([d] ++ [])) (by omega)
  rw [hlen]
  rw [List.append_nil] at s1
  rw [s1, s2, e3]
  intro hs
  have hbd := hb.trans _ _ _ hbc hcd
  have hac := hb.trans _ _ _ hab hbc
  have hne : ∀ {x y : α}, lt x y = true → y ≠ x := by
    rintro x y h rfl; rw [hb.irrefl] at h; cases h
  have hc1 : c ∈ t1 := by
    have : c ∈ t1 ++ [d] := p1.mem_iff.mp (by simp)
    rcases List.mem_append.mp this with h | h
    · exact h
    · exact absurd (List.mem_singleton.mp h).symm (hne hcd)
  have hc2 : c ∈ t2 := by
    have : c ∈ t2 ++ [b] := p2.mem_iff.mp hc1
    rcases List.mem_append.mp this with h | h
    · exact h
    · exact absurd (List.mem_singleton.mp h) (hne hbc)
  have := (List.pairwise_append.mp hs).2.2 c (p3.mem_iff.mpr hc2) b (by simp)
  rw [hbc] at this
  cases this

example : sortHeapStl (cmpOf intLt true) [0, 3, 1, 2, 0] = [0, 0, 2, 1, 3] := by decide +kernel

end Verif.Heap
