import Verif.Model.Heap
import Verif.Spec.Heap
/-!
# Helper lemmas for the heap proofs
-/

set_option linter.unusedSectionVars false

namespace Verif.Heap
open Verif.Spec
variable {α : Type}

theorem set_perm_cons_eraseIdx {b : List α} {i : Nat} (hi : i < b.length) (v : α) :
    (b.set i v).Perm (v :: b.eraseIdx i) := by
  induction b generalizing i with
  | nil => simp at hi
  | cons x xs ih =>
    cases i with
    | zero => simp
    | succ i =>
      simp only [List.set_cons_succ, List.eraseIdx_cons_succ]
      exact ((ih (by simpa using hi)).cons x).trans (List.Perm.swap _ _ _)

/-- Replacing slot `i` by the value of slot `j` and then slot `j` by `v` is a permutation of writing
`v` into slot `i`. -/
theorem set_set_perm (b : List α) (i j : Nat) (hi : i < b.length) (hj : j < b.length) (hij : i ≠ j)
    (v : α) : ((b.set i b[j]).set j v).Perm (b.set i v) := by
  have hj' : j < (b.set i b[j]).length := by simpa using hj
  have hx : (b.set i b[j])[j] = b[j] := by
    rw [List.getElem_set_ne hij]
  have p1 : ((b.set i b[j]).set j v).Perm (v :: (b.set i b[j]).eraseIdx j) :=
    set_perm_cons_eraseIdx hj' v
  have p2 : (b.set i b[j]).Perm (b[j] :: (b.set i b[j]).eraseIdx j) := by
    have := set_perm_cons_eraseIdx hj' b[j]
    have e : (b.set i b[j]).set j b[j] = b.set i b[j] := by
      conv => lhs; arg 3; rw [← hx]
      exact List.set_getElem_self hj'
    rwa [e] at this
  have p3 : (b.set i b[j]).Perm (b[j] :: b.eraseIdx i) := set_perm_cons_eraseIdx hi _
  have p4 : ((b.set i b[j]).eraseIdx j).Perm (b.eraseIdx i) := (p2.symm.trans p3).cons_inv
  exact p1.trans ((p4.cons v).trans (set_perm_cons_eraseIdx hi v).symm)

theorem adjustDown_perm (f : α → α → Bool) (b : List α) (hole : Nat) (hh : hole < b.length) (v : α) :
    (adjustDown f b hole hh v).Perm (b.set hole v) := by
  fun_induction adjustDown f b hole hh v with
  | case1 => exact List.Perm.refl _
  | case2 b hole hh hl hf ih =>
    exact ih.trans (set_set_perm b hole _ hh (bestChild_lt f b hole hl)
      (Nat.ne_of_lt (lt_bestChild f b hole hl)) v)
  | case3 => exact List.Perm.refl _

theorem adjustUp_perm (f : α → α → Bool) (b : List α) (hole : Nat) (hh : hole < b.length) (v : α) :
    (adjustUp f b hole hh v).Perm (b.set hole v) := by
  fun_induction adjustUp f b hole hh v with
  | case1 b hole hh h hf ih =>
    exact ih.trans (set_set_perm b hole _ hh _ (Nat.ne_of_gt (parent_lt h)) v)
  | case2 => exact List.Perm.refl _
  | case3 => exact List.Perm.refl _

theorem adjustUp_length (f : α → α → Bool) (b : List α) (hole : Nat) (hh : hole < b.length) (v : α) :
    (adjustUp f b hole hh v).length = b.length := by
  rw [(adjustUp_perm f b hole hh v).length_eq]; simp

/-- Heap order for all nodes whose parent index is at least `k`. -/
def HeapFrom (lt : α → α → Bool) (k : Nat) (b : List α) : Prop :=
  ∀ i (hi : i < b.length), 0 < i → k ≤ parent i → lt (b[parent i]'(by unfold parent; omega)) b[i] = false

theorem isHeap_iff_heapFrom (lt : α → α → Bool) (b : List α) : IsHeap lt b ↔ HeapFrom lt 0 b := by
  constructor
  · intro h i hi h0 _
    exact h i _ _ h0 (List.getElem?_eq_getElem hi) (List.getElem?_eq_getElem _)
  · intro h i p c h0 hc hp
    obtain ⟨hi, rfl⟩ := List.getElem?_eq_some_iff.mp hc
    obtain ⟨hp', rfl⟩ := List.getElem?_eq_some_iff.mp hp
    exact h i hi h0 (Nat.zero_le _)

/-- Facts about the selected child. -/
theorem bestChild_spec {lt : α → α → Bool} (hw : StrictWeak lt) (b : List α) (hole : Nat)
    (hl : lchild hole < b.length) :
    let f := fun c p => !lt p c
    parent (bestChild f b hole hl) = hole ∧
    ∀ i (hi : i < b.length), 0 < i → parent i = hole →
      lt (b[bestChild f b hole hl]'(bestChild_lt f b hole hl)) b[i] = false := by
  intro f
  have hcases : ∀ i, 0 < i → parent i = hole → i = lchild hole ∨ i = lchild hole + 1 := by
    intro i h0 hp; unfold parent at hp; unfold lchild; omega
  unfold bestChild
  by_cases hr : lchild hole + 1 < b.length
  · simp only [hr, dif_pos]
    cases hlt : lt b[lchild hole] b[lchild hole + 1] with
    | true =>
      have : (!f b[lchild hole + 1] b[lchild hole]) = true := by simp [f, hlt]
      simp only [this, if_true]
      refine ⟨by unfold parent lchild; omega, ?_⟩
      intro i hi h0 hp
      rcases hcases i h0 hp with rfl | rfl
      · exact hw.asymm hlt
      · exact hw.irrefl _
    | false =>
      have : (!f b[lchild hole + 1] b[lchild hole]) = false := by simp [f, hlt]
      simp only [this, Bool.false_eq_true, if_false]
      refine ⟨by unfold parent lchild; omega, ?_⟩
      intro i hi h0 hp
      rcases hcases i h0 hp with rfl | rfl
      · exact hw.irrefl _
      · exact hlt
  · simp only [hr, dif_neg, not_false_iff]
    refine ⟨by unfold parent lchild; omega, ?_⟩
    intro i hi h0 hp
    rcases hcases i h0 hp with rfl | rfl
    · exact hw.irrefl _
    · exact absurd hi hr

/-- Loop invariant of `adjustDown`. -/
structure DownInv (lt : α → α → Bool) (k : Nat) (b : List α) (hole : Nat) (hh : hole < b.length) (v : α) : Prop where
  other : ∀ i (hi : i < b.length), 0 < i → k ≤ parent i → i ≠ hole → parent i ≠ hole →
    lt (b[parent i]'(by unfold parent; omega)) b[i] = false
  above : 0 < hole → k ≤ parent hole → lt (b[parent hole]'(by unfold parent; omega)) v = false
  skip : ∀ i (hi : i < b.length), 0 < i → parent i = hole → 0 < hole → k ≤ parent hole →
    lt (b[parent hole]'(by unfold parent; omega)) b[i] = false

theorem DownInv.step {lt : α → α → Bool} (hw : StrictWeak lt) {k : Nat} {b : List α} {hole : Nat}
    {hh : hole < b.length} {v : α} (hinv : DownInv lt k b hole hh v) (c : Nat) (hcl : c < b.length)
    (hlt : hole < c) (hpc : parent c = hole)
    (hbest : ∀ i (hi : i < b.length), 0 < i → parent i = hole → lt b[c] b[i] = false)
    (hvc : lt v b[c] = true) : DownInv lt k (b.set hole b[c]) c (by simpa using hcl) v := by
  refine ⟨?_, ?_, ?_⟩
  · intro i hi h0 hk h1 h2
    have hi' : i < b.length := by simpa using hi
    by_cases h3 : i = hole
    · subst h3
      have hp : parent i ≠ i := Nat.ne_of_lt (parent_lt h0)
      rw [List.getElem_set_self, List.getElem_set_ne (Ne.symm hp)]
      exact hinv.skip c hcl (by omega) hpc h0 hk
    · by_cases h4 : parent i = hole
      · rw [List.getElem_set_ne (Ne.symm h3)]
        have : (b.set hole b[c])[parent i]'(by simp; unfold parent; omega) = b[c] := by simp [h4]
        rw [this]
        exact hbest i hi' h0 h4
      · rw [List.getElem_set_ne (Ne.symm h3), List.getElem_set_ne (Ne.symm h4)]
        exact hinv.other i hi' h0 hk h3 h4
  · intro h0 hk
    have : (b.set hole b[c])[parent c]'(by simp; unfold parent; omega) = b[c] := by simp [hpc]
    rw [this]
    exact hw.asymm hvc
  · intro i hi h0 hp h0' hk
    have hi' : i < b.length := by simpa using hi
    have : (b.set hole b[c])[parent c]'(by simp; unfold parent; omega) = b[c] := by simp [hpc]
    rw [this]
    have hci : c < i := by rw [← hp]; exact parent_lt h0
    rw [List.getElem_set_ne (by omega)]
    have := hinv.other i hi' h0 (by rw [hp]; omega) (by omega) (by omega)
    simp only [hp] at this
    exact this

theorem adjustDown_heap {lt : α → α → Bool} (hw : StrictWeak lt) (k : Nat) (b : List α) (hole : Nat)
    (hh : hole < b.length) (v : α) (hinv : DownInv lt k b hole hh v) :
    HeapFrom lt k (adjustDown (fun c p => !lt p c) b hole hh v) := by
  have finish : ∀ (b : List α) (hole : Nat) (hh : hole < b.length), DownInv lt k b hole hh v →
      (∀ i (hi : i < b.length), 0 < i → parent i = hole → lt v b[i] = false) →
      HeapFrom lt k (b.set hole v) := by
    intro b hole hh hinv hch i hi h0 hk
    have hi' : i < b.length := by simpa using hi
    by_cases h1 : i = hole
    · subst h1
      have hp : parent i ≠ i := Nat.ne_of_lt (parent_lt h0)
      rw [List.getElem_set_self, List.getElem_set_ne (Ne.symm hp)]
      exact hinv.above h0 hk
    · by_cases h2 : parent i = hole
      · rw [List.getElem_set_ne (Ne.symm h1)]
        have : (b.set hole v)[parent i]'(by simp; unfold parent; omega) = v := by
          simp [h2]
        rw [this]
        exact hch i hi' h0 h2
      · rw [List.getElem_set_ne (Ne.symm h1), List.getElem_set_ne (Ne.symm h2)]
        exact hinv.other i hi' h0 hk h1 h2
  fun_induction adjustDown (fun c p => !lt p c) b hole hh v with
  | case1 b hole hh hl hf =>
    apply finish b hole hh hinv
    intro i hi h0 hp
    have hbest := (bestChild_spec hw b hole hl).2 i hi h0 hp
    exact hw.ge_trans (by simpa using hf) hbest
  | case2 b hole hh hl hf ih =>
    apply ih
    obtain ⟨hpc, hbest⟩ := bestChild_spec hw b hole hl
    have hlt := lt_bestChild (fun c p => !lt p c) b hole hl
    have hcl := bestChild_lt (fun c p => !lt p c) b hole hl
    exact hinv.step hw _ hcl hlt hpc hbest (by simpa using hf)
  | case3 b hole hh hl =>
    apply finish b hole hh hinv
    intro i hi h0 hp
    exfalso
    unfold parent at hp; unfold lchild at hl; omega

/-- Loop invariant of `adjustUp`. -/
structure UpInv (lt : α → α → Bool) (b : List α) (hole : Nat) (hh : hole < b.length) (v : α) : Prop where
  other : ∀ i (hi : i < b.length), 0 < i → i ≠ hole → parent i ≠ hole →
    lt (b[parent i]'(by unfold parent; omega)) b[i] = false
  below : ∀ i (hi : i < b.length), 0 < i → parent i = hole → lt v b[i] = false
  skip : ∀ i (hi : i < b.length), 0 < i → parent i = hole → 0 < hole →
    lt (b[parent hole]'(by unfold parent; omega)) b[i] = false

theorem UpInv.step {lt : α → α → Bool} (hw : StrictWeak lt) {b : List α} {hole : Nat}
    {hh : hole < b.length} {v : α} (hinv : UpInv lt b hole hh v) (p : Nat) (hpl : p < b.length)
    (h : 0 < hole) (hlt : p < hole) (hp : parent hole = p)
    (hpv : lt b[p] v = true) : UpInv lt (b.set hole b[p]) p (by simpa using hpl) v := by
  refine ⟨?_, ?_, ?_⟩
  · intro i hi h0 h1 h2
    have hi' : i < b.length := by simpa using hi
    have h3 : i ≠ hole := by intro hc; subst hc; exact h2 hp
    rw [List.getElem_set_ne (Ne.symm h3)]
    by_cases h4 : parent i = hole
    · have : (b.set hole b[p])[parent i]'(by simp; unfold parent; omega) = b[p] := by simp [h4]
      rw [this]
      have := hinv.skip i hi' h0 h4 h
      simp only [hp] at this
      exact this
    · rw [List.getElem_set_ne (Ne.symm h4)]
      exact hinv.other i hi' h0 h3 h4
  · intro i hi h0 hpi
    have hi' : i < b.length := by simpa using hi
    by_cases h3 : i = hole
    · subst h3; rw [List.getElem_set_self]; exact hw.asymm hpv
    · rw [List.getElem_set_ne (Ne.symm h3)]
      have hpne : parent i ≠ hole := by omega
      have hb := hinv.other i hi' h0 h3 hpne
      simp only [hpi] at hb
      cases hvi : lt v b[i] with
      | false => rfl
      | true => have := hw.trans _ _ _ hpv hvi; rw [hb] at this; exact absurd this (by decide)
  · intro i hi h0 hpi h0'
    have hi' : i < b.length := by simpa using hi
    have hppl := parent_lt h0'
    rw [List.getElem_set_ne (by omega)]
    have hpp := hinv.other p hpl h0' (by omega) (by omega)
    by_cases h3 : i = hole
    · subst h3; rw [List.getElem_set_self]; exact hpp
    · rw [List.getElem_set_ne (Ne.symm h3)]
      have hpne : parent i ≠ hole := by omega
      have hb := hinv.other i hi' h0 h3 hpne
      simp only [hpi] at hb
      exact hw.ge_trans hpp hb

theorem adjustUp_heap {lt : α → α → Bool} (hw : StrictWeak lt) (b : List α) (hole : Nat)
    (hh : hole < b.length) (v : α) (hinv : UpInv lt b hole hh v) :
    HeapFrom lt 0 (adjustUp (fun c p => !lt p c) b hole hh v) := by
  have finish : ∀ (b : List α) (hole : Nat) (hh : hole < b.length), UpInv lt b hole hh v →
      (0 < hole → lt (b[parent hole]'(by unfold parent; omega)) v = false) →
      HeapFrom lt 0 (b.set hole v) := by
    intro b hole hh hinv hab i hi h0 hk
    have hi' : i < b.length := by simpa using hi
    by_cases h1 : i = hole
    · subst h1
      have hp : parent i ≠ i := Nat.ne_of_lt (parent_lt h0)
      rw [List.getElem_set_self, List.getElem_set_ne (Ne.symm hp)]
      exact hab h0
    · by_cases h2 : parent i = hole
      · rw [List.getElem_set_ne (Ne.symm h1)]
        have : (b.set hole v)[parent i]'(by simp; unfold parent; omega) = v := by
          simp [h2]
        rw [this]
        exact hinv.below i hi' h0 h2
      · rw [List.getElem_set_ne (Ne.symm h1), List.getElem_set_ne (Ne.symm h2)]
        exact hinv.other i hi' h0 h1 h2
  fun_induction adjustUp (fun c p => !lt p c) b hole hh v with
  | case1 b hole hh h hf ih =>
    apply ih ?_ finish
    exact hinv.step hw _ (Nat.lt_trans (parent_lt h) hh) h (parent_lt h) rfl (by simpa using hf)
  | case2 b hole hh h hf =>
    apply finish b hole hh hinv
    intro _; simpa using hf
  | case3 b hole hh h =>
    apply finish b hole hh hinv
    intro h'; exact absurd h' h

theorem pushHeap_heap {lt : α → α → Bool} (hw : StrictWeak lt) (b : List α) (v : α)
    (h : HeapFrom lt 0 b) : HeapFrom lt 0 (pushHeap (fun c p => !lt p c) b v) := by
  apply adjustUp_heap hw
  refine ⟨?_, ?_, ?_⟩
  · intro i hi h0 h1 h2
    have hi' : i < b.length := by simp at hi; omega
    rw [List.getElem_append_left hi', List.getElem_append_left (by unfold parent; omega)]
    exact h i hi' h0 (Nat.zero_le _)
  · intro i hi h0 hp; exfalso; simp at hi; unfold parent at hp; omega
  · intro i hi h0 hp; exfalso; simp at hi; unfold parent at hp; omega

theorem pushHeap_perm (f : α → α → Bool) (b : List α) (v : α) : (pushHeap f b v).Perm (v :: b) := by
  unfold pushHeap
  refine (adjustUp_perm f _ _ _ v).trans ?_
  rw [List.set_append_right _ _ (Nat.le_refl _)]
  simp

theorem popBuf_eq (f : α → α → Bool) (b : List α) (h : 0 < b.length) :
    ∃ t, popBuf f b = t ++ [b[0]] ∧ (b.Perm (t ++ [b[0]])) ∧ t.length = b.length - 1 := by
  unfold popBuf
  by_cases h1 : b.length > 1
  · simp only [h1, dif_pos]
    refine ⟨_, rfl, ?_, ?_⟩
    · have hl : b.length - 1 < b.length := by omega
      have p1 := adjustDown_perm f ((b.set 0 b[b.length - 1]).take (b.length - 1)) 0
        (by simp; omega) b[b.length - 1]
      have e1 : ((b.set 0 b[b.length - 1]).take (b.length - 1)).set 0 b[b.length - 1]
          = (b.set 0 b[b.length - 1]).take (b.length - 1) := by
        rw [← List.take_set]; simp
      rw [e1] at p1
      have e2 : (b.set 0 b[b.length - 1]).set (b.length - 1) b[0]
          = (b.set 0 b[b.length - 1]).take (b.length - 1) ++ [b[0]] := by
        rw [List.set_eq_take_append_cons_drop, if_pos (by simp; omega)]
        congr 1
        rw [List.drop_of_length_le (by simp; omega)]
      have p2 := set_set_perm b 0 (b.length - 1) h hl (by omega) b[0]
      rw [e2] at p2
      have e3 : b.set 0 b[0] = b := List.set_getElem_self h
      rw [e3] at p2
      exact p2.symm.trans ((p1.append_right [b[0]]).symm)
    · rw [adjustDown_length]; simp
  · simp only [h1, dif_neg, not_false_iff]
    have : b.length = 1 := by omega
    obtain ⟨x, rfl⟩ := List.length_eq_one_iff.mp this
    exact ⟨[], rfl, by simp, rfl⟩

theorem popBuf_heap {lt : α → α → Bool} (hw : StrictWeak lt) (b : List α) (h : HeapFrom lt 0 b) :
    HeapFrom lt 0 ((popBuf (fun c p => !lt p c) b).take (b.length - 1)) := by
  unfold popBuf
  by_cases h1 : b.length > 1
  · simp only [h1, dif_pos]
    rw [List.take_left' (by rw [adjustDown_length]; simp)]
    apply adjustDown_heap hw
    refine ⟨?_, ?_, ?_⟩
    · intro i hi h0 _ h2 h3
      simp at hi
      rw [List.getElem_take, List.getElem_take, List.getElem_set_ne (Ne.symm h3), List.getElem_set_ne (Ne.symm h2)]
      exact h i (by omega) h0 (Nat.zero_le _)
    · intro hc; exact absurd hc (by omega)
    · intro i hi h0 hp hc; exact absurd hc (by omega)
  · simp only [h1, dif_neg, not_false_iff]
    intro i hi h0
    simp at hi
    omega

/-- In a heap nothing is above the root. -/
theorem root_best {lt : α → α → Bool} (hw : StrictWeak lt) (b : List α) (h : HeapFrom lt 0 b)
    (h0 : 0 < b.length) : ∀ i (hi : i < b.length), lt b[0] b[i] = false := by
  intro i
  induction i using Nat.strongRecOn with
  | _ i ih =>
    intro hi
    by_cases hz : i = 0
    · subst hz; exact hw.irrefl _
    · have hp := parent_lt (Nat.pos_of_ne_zero hz)
      exact hw.ge_trans (ih _ hp (by omega)) (h i hi (by omega) (Nat.zero_le _))

theorem root_best_mem {lt : α → α → Bool} (hw : StrictWeak lt) (b : List α) (h : HeapFrom lt 0 b)
    (h0 : 0 < b.length) : ∀ x ∈ b, lt b[0] x = false := by
  intro x hx
  obtain ⟨i, hi, rfl⟩ := List.getElem_of_mem hx
  exact root_best hw b h h0 i hi

theorem makeLoop_perm (f : α → α → Bool) (i : Nat) : ∀ (b : List α) (h : i < b.length),
    (makeLoop f b i h).Perm b := by
  induction i with
  | zero =>
    intro b h
    have := adjustDown_perm f b 0 h b[0]
    rwa [List.set_getElem_self] at this
  | succ i ih =>
    intro b h
    have := adjustDown_perm f b (i + 1) h b[i + 1]
    rw [List.set_getElem_self] at this
    exact (ih _ _).trans this

theorem adjustDown_self_heap {lt : α → α → Bool} (hw : StrictWeak lt) (b : List α) (k : Nat)
    (hk : k < b.length) (h : HeapFrom lt (k + 1) b) :
    HeapFrom lt k (adjustDown (fun c p => !lt p c) b k hk b[k]) := by
  apply adjustDown_heap hw
  refine ⟨?_, ?_, ?_⟩
  · intro i hi h0 h1 h2 h3
    exact h i hi h0 (by omega)
  · intro h0 h1; exfalso; unfold parent at h1; omega
  · intro i hi h0 hp h0' h1; exfalso; unfold parent at h1; omega

theorem makeLoop_heap {lt : α → α → Bool} (hw : StrictWeak lt) (i : Nat) : ∀ (b : List α)
    (h : i < b.length), HeapFrom lt (i + 1) b → HeapFrom lt 0 (makeLoop (fun c p => !lt p c) b i h) := by
  induction i with
  | zero => intro b h hb; exact adjustDown_self_heap hw b 0 h hb
  | succ i ih =>
    intro b h hb
    exact ih _ _ (adjustDown_self_heap hw b (i + 1) h hb)

theorem makeHeap_perm (f : α → α → Bool) (b : List α) : (makeHeap f b).Perm b := by
  unfold makeHeap; split
  · exact makeLoop_perm f _ b _
  · exact List.Perm.refl _

theorem makeHeap_heap {lt : α → α → Bool} (hw : StrictWeak lt) (b : List α) :
    HeapFrom lt 0 (makeHeap (fun c p => !lt p c) b) := by
  unfold makeHeap; split
  · apply makeLoop_heap hw
    intro i hi h0 hk; exfalso; unfold parent at hk; omega
  · intro i hi h0; omega

/-- Invariant of the `SortHeap` loop: the first `n` elements are a heap, the rest is sorted and
nothing in it precedes anything in the heap. -/
theorem sortLoop_spec {lt : α → α → Bool} (hw : StrictWeak lt) (n : Nat) : ∀ (b : List α),
    n ≤ b.length → HeapFrom lt 0 (b.take n) → SortedBy lt (b.drop n) →
    (∀ x ∈ b.take n, ∀ y ∈ b.drop n, lt y x = false) →
    (sortLoop (fun c p => !lt p c) b n).Perm b ∧ SortedBy lt (sortLoop (fun c p => !lt p c) b n) := by
  induction n with
  | zero =>
    intro b _ _ hs _
    exact ⟨List.Perm.refl _, by simpa [sortLoop] using hs⟩
  | succ n ih =>
    intro b hn hh hs hx
    unfold sortLoop
    by_cases h1 : n + 1 > 1
    · rw [if_pos h1]
      have hlen : (b.take (n + 1)).length = n + 1 := by simp; omega
      have hpos : 0 < (b.take (n + 1)).length := by omega
      obtain ⟨t, e, p, hl⟩ := popBuf_eq (fun c p => !lt p c) (b.take (n + 1)) hpos
      have hheap := popBuf_heap hw (b.take (n + 1)) hh
      have hroot := root_best_mem hw _ hh hpos
      have htl : t.length = n := by omega
      rw [hlen, e, Nat.add_sub_cancel, List.take_left' htl] at hheap
      have e2 : (t ++ [(b.take (n + 1))[0]] ++ b.drop (n + 1)).take n = t := by
        rw [List.append_assoc, List.take_left' htl]
      have e3 : (t ++ [(b.take (n + 1))[0]] ++ b.drop (n + 1)).drop n
          = (b.take (n + 1))[0] :: b.drop (n + 1) := by
        rw [List.append_assoc, List.drop_left' htl]; rfl
      have hmem : (b.take (n + 1))[0] ∈ b.take (n + 1) := List.getElem_mem _
      rw [e]
      obtain ⟨q1, q2⟩ := ih (t ++ [(b.take (n + 1))[0]] ++ b.drop (n + 1)) (by simp; omega)
        (by rw [e2]; exact hheap)
        (by
          rw [e3]
          refine List.pairwise_cons.mpr ⟨?_, hs⟩
          intro y hy
          exact hx _ hmem y hy)
        (by
          rw [e2, e3]
          intro x hxt y hy
          have hxb : x ∈ b.take (n + 1) := p.mem_iff.mpr (by simp [hxt])
          rcases List.mem_cons.mp hy with rfl | hy
          · exact hroot x hxb
          · exact hx x hxb y hy)
      refine ⟨q1.trans ?_, q2⟩
      have := (p.symm.append_right (b.drop (n + 1)))
      rwa [List.take_append_drop] at this
    · rw [if_neg h1]
      have : n = 0 := by omega
      subst this
      refine ⟨List.Perm.refl _, ?_⟩
      rw [← List.take_append_drop 1 b]
      refine List.pairwise_append.mpr ⟨?_, hs, hx⟩
      cases b with
      | nil => simp
      | cons x xs => simp

end Verif.Heap

namespace Verif.Heap
open Verif.Spec Verif.Cmp
variable {α : Type}

theorem F_createByBool (less : α → α → Bool) (maxTop : Bool) :
    F less (createByBool (!maxTop)) = below maxTop less := by
  funext a b
  cases maxTop <;> simp [F, createByBool, below, lesser, greater]

theorem cmpV_eq (less : α → α → Bool) (maxTop : Bool) :
    cmpV less (createByBool (!maxTop)) = fun c p => !below maxTop less p c := by
  funext c p
  simp [cmpV, F_createByBool]

theorem below_strictWeak {less : α → α → Bool} (h : StrictWeak less) (maxTop : Bool) :
    StrictWeak (below maxTop less) := by
  cases maxTop with
  | true => exact h
  | false => exact h.flip

theorem checkLoop_iff (lt : α → α → Bool) (b : List α) (i : Nat) (h : i < b.length) :
    checkLoop (fun c p => !lt p c) b i h = true ↔
      ∀ j (hj : j ≤ i), 0 < j → lt (b[parent j]'(by unfold parent; omega)) (b[j]'(by omega)) = false := by
  induction i with
  | zero => simp [checkLoop]; intro j hj h0; omega
  | succ i ih =>
    unfold checkLoop
    cases hlt : lt (b[parent (i + 1)]'(by unfold parent; omega)) b[i + 1] with
    | true =>
      simp only [Bool.not_true, Bool.not_false, if_true, Bool.false_eq_true, false_iff]
      intro hc
      have := hc (i + 1) (Nat.le_refl _) (Nat.succ_pos _)
      rw [hlt] at this; exact absurd this (by decide)
    | false =>
      simp only [Bool.not_true, Bool.not_false, Bool.false_eq_true, if_false]
      rw [ih (Nat.lt_of_succ_lt h)]
      constructor
      · intro hc j hj h0
        by_cases hji : j = i + 1
        · subst hji; exact hlt
        · exact hc j (by omega) h0
      · intro hc j hj h0; exact hc j (by omega) h0

theorem swapI_eq (b : List α) (i j : Nat) (hi : i < b.length) (hj : j < b.length) :
    swapI b i j = .ok ((b.set i b[j]).set j b[i]) := by
  have e1 : ¬ ((i : Int) < 0) := by omega
  have e2 : ¬ ((j : Int) < 0) := by omega
  simp [swapI, getI, Go.get, hi, hj, e1, e2]

theorem revLoop_spec (i : Nat) : ∀ (b : List α) (l : Nat), b.length = l + 1 → 2 * i ≤ l →
    ∃ r, revLoop (l : Int) b i = .ok r ∧ r.length = l + 1 ∧
      ∀ j, j ≤ l → r[j]? = if j ≤ i ∨ l - i ≤ j then b[l - j]? else b[j]? := by
  induction i with
  | zero =>
    intro b l hl h2
    have := swapI_eq b 0 l (by omega) (by omega)
    refine ⟨_, by simpa [revLoop] using this, by simp [hl], ?_⟩
    intro j hj
    rw [List.getElem?_set, List.getElem?_set]
    have hb0 : b[0]? = some (b[0]'(by omega)) := List.getElem?_eq_getElem _
    have hbl : b[l]? = some (b[l]'(by omega)) := List.getElem?_eq_getElem _
    by_cases h1 : l = j
    · subst h1; simp [hl]
    · by_cases h3 : 0 = j
      · subst h3; simp [hl, h1]
      · rw [if_neg h1, if_neg h3, if_neg (by omega)]
  | succ i ih =>
    intro b l hl h2
    have hs := swapI_eq b (i + 1) (l - (i + 1)) (by omega) (by omega)
    have hc : ((l - (i + 1) : Nat) : Int) = (l : Int) - ((i + 1 : Nat) : Int) := by omega
    rw [hc] at hs
    obtain ⟨r, e, hr, hx⟩ := ih ((b.set (i + 1) (b[l - (i + 1)]'(by omega))).set (l - (i + 1)) (b[i + 1]'(by omega)))
      l (by simp [hl]) (by omega)
    refine ⟨r, by simp only [revLoop, hs]; exact e, hr, ?_⟩
    intro j hj
    rw [hx j hj]
    by_cases hin : j ≤ i ∨ l - i ≤ j
    · rw [if_pos hin, if_pos (by omega), List.getElem?_set, List.getElem?_set, if_neg (by omega), if_neg (by omega)]
    · rw [if_neg hin, List.getElem?_set, List.getElem?_set]
      have hb0 : b[i + 1]? = some (b[i + 1]'(by omega)) := List.getElem?_eq_getElem _
      have hbl : b[l - (i + 1)]? = some (b[l - (i + 1)]'(by omega)) := List.getElem?_eq_getElem _
      by_cases h1 : l - (i + 1) = j
      · subst h1
        rw [if_pos rfl, if_pos (by simp; omega), if_pos (by omega)]
        rw [show l - (l - (i + 1)) = i + 1 by omega, hb0]
      · rw [if_neg h1]
        by_cases h3 : i + 1 = j
        · subst h3
          rw [if_pos rfl, if_pos (by omega), if_pos (by omega), hbl]
        · rw [if_neg h3, if_neg (by omega)]

end Verif.Heap
