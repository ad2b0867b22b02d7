import Verif.Model.HeapMem
import Verif.Props.SliceMem
import Verif.Props.Heap
/-!
# C128: heap objects in memory that slices share
-/
set_option linter.unusedSectionVars false

namespace Verif.SliceMem
open Verif.Cmp Verif.Spec
variable {α : Type} [Inhabited α]

/-! ## Supporting facts -/

theorem adjustUp_next (f : α → α → Bool) (m : Mem α) (b : Slice) (hole : Nat) (v : α) :
    (adjustUp f m b hole v).next = m.next := by
  fun_induction adjustUp f m b hole v with
  | case1 m hole h hf ih => rw [ih]; rfl
  | case2 => rfl
  | case3 => rfl

theorem adjustDown_next (f : α → α → Bool) (m : Mem α) (b : Slice) (hole : Nat) (v : α) :
    (adjustDown f m b hole v).next = m.next := by
  fun_induction adjustDown f m b hole v with
  | case1 => rfl
  | case2 m hole hl hf ih => rw [ih]; rfl
  | case3 => rfl

theorem popHeap_next (f : α → α → Bool) (m : Mem α) (b : Slice) (h : WF m b) {m' : Mem α} {t : Slice} {v : α} {ok : Bool}
    (e : popHeap f m b = .ok (m', t, v, ok)) : m'.next = m.next := by
  have hlc := h.len_le
  unfold popHeap at e
  by_cases hb : b.len > 0
  · simp only [hb, if_true, get, Res.bind_ok] at e
    by_cases h1 : b.len > 1
    · simp only [h1, if_true] at e
      rw [swap_ok m b 0 (b.len - 1) hb (by omega), sub_ok b 0 (b.len - 1) (by omega) (by omega)] at e
      simp only [Res.bind_ok, Res.pure_eq, Res.ok.injEq, Prod.mk.injEq] at e
      rw [← e.1, adjustDown_next]; rfl
    · simp only [h1, if_false] at e
      rw [sub_ok b 0 (b.len - 1) (by omega) (by omega)] at e
      simp only [Res.bind_ok, Res.pure_eq, Res.ok.injEq, Prod.mk.injEq] at e
      rw [← e.1]
  · simp only [hb, if_false, Res.pure_eq, Res.ok.injEq, Prod.mk.injEq] at e
    rw [← e.1]

/-- What `PushHeap` does, with where the slice goes. -/
theorem pushHeap_place (g : Grow) (f : α → α → Bool) (m : Mem α) (b : Slice) (h : WF m b) (v : α) :
    WF (pushHeap g f m b v).1 (pushHeap g f m b v).2 ∧
    toList (pushHeap g f m b v).1 (pushHeap g f m b v).2 = Heap.pushHeap f (toList m b) v ∧
    Frame m (pushHeap g f m b v).1 b b.cap ∧
    if b.len + 1 ≤ b.cap then
      (pushHeap g f m b v).1.next = m.next ∧ (pushHeap g f m b v).2 = { b with len := b.len + 1 }
    else m.next ≤ (pushHeap g f m b v).2.arr ∧ ∀ a q, a < m.next → (pushHeap g f m b v).1.cell a q = m.cell a q := by
  obtain ⟨w, l, -, -⟩ := C113_pushHeap g f m b h v
  refine ⟨w, l, ?_⟩
  have a := append_spec g m b [v] h
  simp only [pushHeap]
  generalize hm1 : (append g m b [v]).1 = m1 at *
  generalize hd1 : (append g m b [v]).2 = d1 at *
  have hlen : d1.len = b.len + 1 := by
    have := congrArg List.length a.list; simpa using this
  have hh : d1.len - 1 < (toList m1 d1).length := by simp; omega
  obtain ⟨-, u2⟩ := adjustUp_eq f m1 d1 (d1.len - 1) v hh
  have hp := a.place
  have hn := a.frame.next_le
  by_cases hc : b.len + 1 ≤ b.cap
  · rw [if_pos (by simpa using hc)] at hp
    obtain ⟨hp, rfl⟩ := hp
    refine ⟨a.frame.trans (u2.mono rfl (Nat.le_refl _) (by simp; omega)), ?_⟩
    rw [if_pos hc]
    exact ⟨by rw [adjustUp_next]; exact hp, rfl⟩
  · rw [if_neg (by simpa using hc)] at hp
    have hs : ∀ a q, a < m.next → (adjustUp f m1 d1 (d1.len - 1) v).cell a q = m.cell a q := fun b' q hb => by
      rw [u2.cell_eq _ _ (by omega) (.inl (by omega))]
      exact a.same (by simp; omega) _ _ hb
    refine ⟨⟨Nat.le_trans hn u2.next_le, fun b' q hb _ => hs b' q hb⟩, ?_⟩
    rw [if_neg hc]
    exact ⟨by omega, hs⟩

/-! ## `CheckHeap` and `Reverse` -/

theorem checkLoop_eq (f : α → α → Bool) (m : Mem α) (b : Slice) : ∀ (i : Nat) (hi : i < (toList m b).length),
    checkLoop f m b i = .ok (Heap.checkLoop f (toList m b) i hi)
  | 0, _ => rfl
  | i + 1, hi => by
    have hi' : i + 1 < b.len := by simpa using hi
    have hp : Heap.parent (i + 1) < b.len := Nat.lt_trans (Heap.parent_lt (Nat.succ_pos i)) hi'
    simp only [checkLoop, Heap.checkLoop, get, if_pos hi', if_pos hp, Res.bind_ok, at_, getElem_toList]
    split
    · rfl
    · exact checkLoop_eq f m b i _

/-- **C128** (`CheckHeap`).  On every slice of every memory it never panics and answers whether each element is in order
with its parent; it takes the memory and returns none, so nothing is written. -/
theorem C128_checkHeap {less : α → α → Bool} (maxTop : Bool) (m : Mem α) (b : Slice) :
    ∃ r, checkHeap (Heap.cmpOf less maxTop) m b = .ok r ∧
      (r = true ↔ IsHeap (below maxTop less) (toList m b)) := by
  have key : checkHeap (Heap.cmpOf less maxTop) m b = .ok (Heap.checkHeap (Heap.cmpOf less maxTop) (toList m b)) := by
    unfold checkHeap Heap.checkHeap
    by_cases h : b.len = 0
    · rw [dif_pos (by simpa using h), h]; rfl
    · rw [dif_neg (by simpa using h), checkLoop_eq _ _ _ _ (by simp; omega)]
      simp
  exact ⟨_, key, Heap.C10_checkHeap less maxTop (toList m b)⟩

theorem swapAt_eq (m : Mem α) (b : Slice) (i j : Int) :
    match swapAt m b i j with
    | .panic => Heap.swapI (toList m b) i j = .panic
    | .ok m' => Heap.swapI (toList m b) i j = .ok (toList m' b) ∧ Frame m m' b b.len ∧ m'.next = m.next := by
  unfold swapAt Heap.swapI Heap.getI
  by_cases hi : i < 0
  · rw [if_pos (.inl hi)]; simp [hi]
  by_cases hj : j < 0
  · rw [if_pos (.inr hj)]
    simp only [hi, hj, if_true, if_false]
    cases Go.get (toList m b) i.toNat <;> rfl
  rw [if_neg (by omega)]
  simp only [hi, hj, if_false]
  rw [← get_eq, ← get_eq]
  by_cases h1 : i.toNat < b.len
  · by_cases h2 : j.toNat < b.len
    · rw [swap_ok m b _ _ h1 h2]
      refine ⟨?_, (frame_put _ _ _ _ h1).trans (frame_put _ _ _ _ h2), rfl⟩
      simp only [get, if_pos h1, if_pos h2, Res.bind_ok, Res.pure_eq, toList_put]
    · have : swap m b i.toNat j.toNat = .panic := by simp [swap, get, h2]
      rw [this]
      simp [get, h1, h2]
  · have : swap m b i.toNat j.toNat = .panic := by
      unfold swap get
      rw [if_neg h1]
      split <;> rfl
    rw [this]
    simp [get, h1]

theorem revLoop_eq (b : Slice) (l : Int) : ∀ (i : Nat) (m : Mem α),
    match revLoop b l m i with
    | .panic => Heap.revLoop l (toList m b) i = .panic
    | .ok m' => Heap.revLoop l (toList m b) i = .ok (toList m' b) ∧ Frame m m' b b.len ∧ m'.next = m.next
  | 0, m => swapAt_eq m b 0 (l - 0)
  | i + 1, m => by
    have h := swapAt_eq m b (i + 1 : Nat) (l - (i + 1 : Nat))
    simp only [revLoop, Heap.revLoop]
    cases hs : swapAt m b (i + 1 : Nat) (l - (i + 1 : Nat)) with
    | panic => rw [hs] at h; rw [show Heap.swapI _ _ _ = _ from h]; rfl
    | ok m1 =>
      rw [hs] at h
      rw [h.1]
      simp only [Res.bind_ok]
      have ih := revLoop_eq b l i m1
      cases hr : revLoop b l m1 i with
      | panic => rw [hr] at ih; exact ih
      | ok m2 =>
        rw [hr] at ih
        exact ⟨ih.1, h.2.1.trans ih.2.1, ih.2.2.trans h.2.2⟩

/-- **C128** (`Reverse`).  A non-empty slice is reversed in place and nothing else is written; the empty slice makes it
panic (C12). -/
theorem C128_reverse (m : Mem α) (b : Slice) :
    if b.len = 0 then reverse m b = .panic else
      ∃ m', reverse m b = .ok m' ∧ toList m' b = (toList m b).reverse ∧
        ∀ t : Slice, t.arr < m.next → (t.arr ≠ b.arr ∨ t.off + t.len ≤ b.off ∨ b.off + b.len ≤ t.off) →
          toList m' t = toList m t := by
  have h := revLoop_eq b ((b.len : Int) - 1) (((b.len : Int) - 1).tdiv 2).toNat m
  have e : Heap.revLoop ((b.len : Int) - 1) (toList m b) (((b.len : Int) - 1).tdiv 2).toNat = Heap.reverse (toList m b) := by
    unfold Heap.reverse; simp
  rw [e] at h
  unfold reverse
  by_cases h0 : b.len = 0
  · rw [if_pos h0]
    have hn : toList m b = [] := List.eq_nil_of_length_eq_zero (by simpa using h0)
    rw [hn, Heap.C12_reverse_nil_panics] at h
    cases hr : revLoop b ((b.len : Int) - 1) m (((b.len : Int) - 1).tdiv 2).toNat with
    | panic => rfl
    | ok m1 => rw [hr] at h; exact absurd h.1 (by simp)
  · rw [if_neg h0]
    have hn : toList m b ≠ [] := fun e => h0 (by have := congrArg List.length e; simpa using this)
    rw [Heap.C12_reverse_partial _ hn] at h
    cases hr : revLoop b ((b.len : Int) - 1) m (((b.len : Int) - 1).tdiv 2).toNat with
    | panic => rw [hr] at h; exact absurd h (by simp)
    | ok m1 =>
      rw [hr] at h
      refine ⟨m1, rfl, ?_, fun t ht hd => h.2.1.toList_eq ht hd⟩
      have := h.1
      simp only [Res.ok.injEq] at this
      exact this.symm

/-! ## The object -/

/-- Client calls on a heap object in memory. -/
inductive HCall (α : Type) where
  | op (o : HeapOp α)
  | init (capacity limitN : Int) (maxTop : Bool)

/-- One call, in memory; `Init` returns nothing. -/
def hCall (g : Grow) (less : α → α → Bool) (m : Mem α) (s : HeapObj) :
    HCall α → Res (Mem α × HeapObj × Option (HeapEvent α))
  | .op (.push v) => do let (m, s) ← heapPush g less m s v; return (m, s, some (.push v))
  | .op .pop => do let (m, s, v, ok) ← heapPop less m s; return (m, s, some (.pop v ok))
  | .op .top => do let (v, ok) ← heapTop m s; return (m, s, some (.top v ok))
  | .op .size => return (m, s, some (.size (heapSize s)))
  | .op .empty => return (m, s, some (.empty (heapEmpty s)))
  | .init capacity limitN maxTop => do let (m, s) ← heapInit m s capacity limitN maxTop; return (m, s, none)

/-- One call, in the model where the buffer is the list of its elements (C07, C08, C11). -/
def hList (less : α → α → Bool) (l : Heap.Heap α) : HCall α → Res (Heap.Heap α × Option (HeapEvent α))
  | .op o => do let (l, e) ← Heap.step less l o; return (l, some e)
  | .init _ limitN maxTop => return (Heap.init limitN maxTop, none)

/-- What the object shows. -/
def view (m : Mem α) (s : HeapObj) : Heap.Heap α := ⟨toList m s.b, s.limitN, s.cmp⟩

/-- The call leaves the elements in their array of capacity `cap`: a `Pop` is not on an empty heap, an `Init` asks for no
more than `cap`, and the elements after the call fit. -/
def Room (cap : Nat) (l : Heap.Heap α) (c : HCall α) (l' : Heap.Heap α) : Prop :=
  l'.b.length ≤ cap ∧ match c with
    | .op .pop => l.b ≠ []
    | .init capacity _ _ => capacity ≤ cap
    | _ => True

/-- What one call in memory does besides its result. -/
structure Moved (m : Mem α) (s : HeapObj) (c : HCall α) (m' : Mem α) (s' : HeapObj) : Prop where
  wf : WF m' s'.b
  frame : Frame m m' s.b s.b.cap
  stay : Room s.b.cap (view m s) c (view m' s') → Stays s.b s'.b ∧ m'.next = m.next
  move : ¬ Room s.b.cap (view m s) c (view m' s') → (s'.b.cap = 0 ∧ m' = m) ∨
    (m.next ≤ s'.b.arr ∧ ∀ a q, a < m.next → m'.cell a q = m.cell a q)

theorem Moved.of_stay {m m' : Mem α} {s s' : HeapObj} {c : HCall α} (wf : WF m' s'.b) (fr : Frame m m' s.b s.b.cap)
    (st : Stays s.b s'.b) (nx : m'.next = m.next) (hc : match c with
      | .op .pop => (view m s).b ≠ [] | .init capacity _ _ => capacity ≤ s.b.cap | _ => True) : Moved m s c m' s' :=
  ⟨wf, fr, fun _ => ⟨st, nx⟩, fun h => absurd ⟨by have := wf.len_le; rw [st.2.2] at this; simpa [view] using this, hc⟩ h⟩

theorem heapTop_eq (m : Mem α) (s : HeapObj) : heapTop m s = Heap.top (view m s) := by
  unfold heapTop Heap.top heapEmpty Heap.empty heapSize Heap.size
  simp [view, get_eq]

/-- **C128** (one call).  For every memory, growth policy, comparison, heap object and call: the call does not panic,
returns what it returns on the list of elements (C08), and afterwards the object shows that list.  Nothing outside
the window of its array is written.  As long as there is room the elements stay where they are and nothing is
allocated; otherwise they move to a new array, no old array being written, or (a `Pop` of the empty heap) the array
is given up. -/
theorem C128_call (g : Grow) (less : α → α → Bool) (m : Mem α) (s : HeapObj) (h : WF m s.b) (c : HCall α) :
    ∃ m' s' r, hCall g less m s c = .ok (m', s', r) ∧ hList less (view m s) c = .ok (view m' s', r) ∧
      Moved m s c m' s' := by
  have hlc := h.len_le
  cases c with
  | init capacity limitN maxTop =>
    by_cases hc : (s.b.cap : Int) < capacity
    · refine ⟨(alloc m [] capacity.toNat).1, ⟨⟨m.next, 0, 0, capacity.toNat⟩, limitN, createByBool (!maxTop)⟩, none, ?_, ?_, ?_⟩
      · simp [hCall, heapInit, hc, make, show ¬ capacity < 0 by omega, alloc, sub]
      · simp [hList, view, toList, Heap.init]
      · refine ⟨⟨by simp, by simp [alloc, store]⟩, ⟨by simp [alloc, store], fun a q ha _ => ?_⟩, fun hr => ?_,
          fun _ => .inr ⟨by simp, fun a q ha => ?_⟩⟩
        · simp only [alloc, store_cell]; rw [if_neg (by omega), if_neg (by omega)]
        · exact absurd hr.2 (by simp; omega)
        · simp only [alloc, store_cell]; rw [if_neg (by omega), if_neg (by omega)]
    · refine ⟨m, ⟨⟨s.b.arr, s.b.off, 0, s.b.cap⟩, limitN, createByBool (!maxTop)⟩, none, ?_, ?_, ?_⟩
      · simp [hCall, heapInit, if_neg hc, sub]
      · simp [hList, view, toList, Heap.init]
      · exact .of_stay ⟨by simp, h.arr_lt⟩ (.refl ..) ⟨rfl, rfl, rfl⟩ rfl (by show capacity ≤ _; omega)
  | op o =>
    have hpop : ∀ {f : α → α → Bool}, f = Heap.cmpV less s.cmp → 0 < s.b.len → ∃ m',
        popHeap f m s.b = .ok (m', ⟨s.b.arr, s.b.off, s.b.len - 1, s.b.cap⟩, (Heap.popHeap f (toList m s.b)).2.1, true) ∧
        toList m' ⟨s.b.arr, s.b.off, s.b.len - 1, s.b.cap⟩ = (Heap.popHeap f (toList m s.b)).1 ∧
        (Heap.popHeap f (toList m s.b)).2.2 = true ∧ Frame m m' s.b s.b.cap ∧ m'.next = m.next := by
      intro f hf h0
      obtain ⟨m', t, e1, e2, e3, e4, e5⟩ := C113_popHeap f m s.b h h0
      rw [sub_ok _ _ _ (by omega) (by omega)] at e2
      simp only [Nat.add_zero, Nat.sub_zero, Res.ok.injEq] at e2
      subst e2
      refine ⟨m', e1, e3, ?_, e5.mono rfl (Nat.le_refl _) (by omega), popHeap_next f m s.b h e1⟩
      unfold Heap.popHeap
      rw [dif_pos (by simpa using h0)]
    cases o with
    | push v =>
      simp only [hCall, hList, Heap.step, heapPush, Heap.push]
      rw [heapTop_eq]
      have hsz : heapSize s = Heap.size (view m s) := by simp [heapSize, Heap.size, view]
      rw [hsz]
      have hplain : ∃ m' b', pushHeap g (Heap.cmpV less s.cmp) m s.b v = (m', b') ∧
          toList m' b' = Heap.pushHeap (Heap.cmpV less s.cmp) (toList m s.b) v ∧
          Moved m s (.op (.push v)) m' { s with b := b' } := by
        obtain ⟨p1, p2, p3, p4⟩ := pushHeap_place g (Heap.cmpV less s.cmp) m s.b h v
        refine ⟨(pushHeap g (Heap.cmpV less s.cmp) m s.b v).1, (pushHeap g (Heap.cmpV less s.cmp) m s.b v).2, rfl, p2, p1, p3,
          fun hr => ?_, fun hr => ?_⟩
        · have hl : s.b.len + 1 ≤ s.b.cap := by
            have := hr.1
            simp only [view] at this
            rw [p2, Heap.pushHeap, Heap.adjustUp_length'] at this
            simpa using this
          rw [if_pos hl] at p4
          exact ⟨by rw [p4.2]; exact ⟨rfl, rfl, rfl⟩, p4.1⟩
        · have hl : ¬ s.b.len + 1 ≤ s.b.cap := fun hl => hr ⟨by
            simp only [view]
            rw [p2, Heap.pushHeap, Heap.adjustUp_length']
            simpa using hl, trivial⟩
          rw [if_neg hl] at p4
          exact .inr p4
      by_cases hfull : s.limitN > 0 ∧ (Heap.size (view m s) : Int) ≥ s.limitN
      · have h0 : 0 < s.b.len := by rw [← hsz] at hfull; unfold heapSize at hfull; omega
        rw [if_pos hfull, if_pos (show (view m s).limitN > 0 ∧ (Heap.size (view m s) : Int) ≥ (view m s).limitN from hfull)]
        have htop : Heap.top (view m s) = .ok (at_ m s.b 0, true) := by
          rw [← heapTop_eq]
          simp [heapTop, heapEmpty, heapSize, get, h0, show s.b.len ≠ 0 by omega]
        rw [htop]
        simp only [Res.bind_ok, Bool.true_and]
        by_cases hv : Heap.cmpV less s.cmp v (at_ m s.b 0) = true
        · rw [if_pos hv, if_pos (show Heap.cmpV less (view m s).cmp v (at_ m s.b 0) = true from hv)]
          obtain ⟨m1, q1, q2, q3, q4, q5⟩ := hpop rfl h0
          have hw1 : WF m1 ⟨s.b.arr, s.b.off, s.b.len - 1, s.b.cap⟩ := ⟨by dsimp only; omega, by rw [q5]; exact h.arr_lt⟩
          obtain ⟨p1, p2, p3, p4⟩ := pushHeap_place g (Heap.cmpV less s.cmp) m1 ⟨s.b.arr, s.b.off, s.b.len - 1, s.b.cap⟩ hw1 v
          rw [if_pos (by dsimp only; omega)] at p4
          refine ⟨(pushHeap g (Heap.cmpV less s.cmp) m1 ⟨s.b.arr, s.b.off, s.b.len - 1, s.b.cap⟩ v).1,
            { s with b := (pushHeap g (Heap.cmpV less s.cmp) m1 ⟨s.b.arr, s.b.off, s.b.len - 1, s.b.cap⟩ v).2 },
            some (.push v), ?_, ?_, ?_⟩
          · simp only [heapPop, q1, Res.bind_ok, Res.pure_eq]
          · simp only [Res.pure_eq, Res.bind_ok, view, Heap.pop, p2, q2]
          · refine .of_stay p1 (q4.trans (p3.mono rfl (Nat.le_refl _) (Nat.le_refl _))) ?_ (p4.1.trans q5) trivial
            simp only [p4.2]; exact ⟨rfl, rfl, rfl⟩
        · rw [if_neg hv, if_neg (show ¬ Heap.cmpV less (view m s).cmp v (at_ m s.b 0) = true from hv)]
          exact ⟨m, s, _, rfl, rfl, .of_stay h (.refl ..) ⟨rfl, rfl, rfl⟩ rfl trivial⟩
      · rw [if_neg hfull, if_neg (show ¬ ((view m s).limitN > 0 ∧ (Heap.size (view m s) : Int) ≥ (view m s).limitN) from hfull)]
        obtain ⟨m', b', e, el, mv⟩ := hplain
        refine ⟨m', { s with b := b' }, _, by rw [e]; rfl, ?_, mv⟩
        simp only [Res.pure_eq, Res.bind_ok, view, el]
    | pop =>
      by_cases h0 : 0 < s.b.len
      · obtain ⟨m', q1, q2, q3, q4, q5⟩ := hpop rfl h0
        refine ⟨m', { s with b := ⟨s.b.arr, s.b.off, s.b.len - 1, s.b.cap⟩ }, _, by simp only [hCall, heapPop, q1, Res.bind_ok]; rfl, ?_, ?_⟩
        · simp only [hList, Heap.step, Heap.pop, view, Res.pure_eq, Res.bind_ok, q2, q3]
        · refine .of_stay ⟨by dsimp only; omega, by rw [q5]; exact h.arr_lt⟩ q4 ⟨rfl, rfl, rfl⟩ q5 ?_
          exact fun e => by have := congrArg List.length e; simp [view] at this; omega
      · have hz : s.b.len = 0 := by omega
        have hn : toList m s.b = [] := List.eq_nil_of_length_eq_zero (by simpa using hz)
        refine ⟨m, { s with b := ⟨s.b.arr, s.b.off, 0, 0⟩ }, some (.pop default false), by simp [hCall, heapPop, popHeap, hz], ?_, ?_⟩
        · have ht : toList m ⟨s.b.arr, s.b.off, 0, 0⟩ = [] := rfl
          simp [hList, Heap.step, Heap.pop, view, hn, ht, Heap.popHeap]
        · exact ⟨⟨by simp, h.arr_lt⟩, .refl .., fun hr => absurd hn hr.2, fun _ => .inl ⟨rfl, rfl⟩⟩
    | top =>
      have ht := heapTop_eq m s
      by_cases h0 : 0 < s.b.len
      · have : heapTop m s = .ok (at_ m s.b 0, true) := by
          simp [heapTop, heapEmpty, heapSize, get, h0, show s.b.len ≠ 0 by omega]
        refine ⟨m, s, some (.top (at_ m s.b 0) true), by simp [hCall, this], ?_, .of_stay h (.refl ..) ⟨rfl, rfl, rfl⟩ rfl trivial⟩
        simp [hList, Heap.step, ← ht, this]
      · have : heapTop m s = .ok (default, false) := by
          simp [heapTop, heapEmpty, heapSize, show s.b.len = 0 by omega]
        refine ⟨m, s, some (.top default false), by simp [hCall, this], ?_, .of_stay h (.refl ..) ⟨rfl, rfl, rfl⟩ rfl trivial⟩
        simp [hList, Heap.step, ← ht, this]
    | size =>
      exact ⟨m, s, _, rfl, by simp [hList, Heap.step, Heap.size, heapSize, view], .of_stay h (.refl ..) ⟨rfl, rfl, rfl⟩ rfl trivial⟩
    | empty =>
      exact ⟨m, s, _, rfl, by simp [hList, Heap.step, Heap.empty, Heap.size, heapEmpty, heapSize, view],
        .of_stay h (.refl ..) ⟨rfl, rfl, rfl⟩ rfl trivial⟩

/-- A history of calls on one object, in memory. -/
def hRun (g : Grow) (less : α → α → Bool) (m : Mem α) (s : HeapObj) :
    List (HCall α) → Res (Mem α × HeapObj × List (Option (HeapEvent α)))
  | [] => return (m, s, [])
  | c :: cs => do
    let (m, s, r) ← hCall g less m s c
    let (m, s, rs) ← hRun g less m s cs
    return (m, s, r :: rs)

/-- The same history on the list of elements. -/
def hListRun (less : α → α → Bool) (l : Heap.Heap α) : List (HCall α) → Res (Heap.Heap α × List (Option (HeapEvent α)))
  | [] => return (l, [])
  | c :: cs => do
    let (l, r) ← hList less l c
    let (l, rs) ← hListRun less l cs
    return (l, r :: rs)

/-- Every call of the history leaves the elements in their array of capacity `cap`. -/
def Rooms (cap : Nat) (less : α → α → Bool) (l : Heap.Heap α) : List (HCall α) → Prop
  | [] => True
  | c :: cs => match hList less l c with
    | .ok (l', _) => Room cap l c l' ∧ Rooms cap less l' cs
    | .panic => True

theorem hRun_spec (g : Grow) (less : α → α → Bool) (cs : List (HCall α)) : ∀ (m : Mem α) (s : HeapObj), WF m s.b →
    ∃ m' s' rs, hRun g less m s cs = .ok (m', s', rs) ∧ hListRun less (view m s) cs = .ok (view m' s', rs) ∧
      WF m' s'.b ∧ Frame m m' s.b s.b.cap ∧
      (Rooms s.b.cap less (view m s) cs → Stays s.b s'.b ∧ m'.next = m.next) ∧
      (Stays s.b s'.b ∨ s'.b.cap = 0 ∨ m.next ≤ s'.b.arr) ∧
      (¬ Rooms s.b.cap less (view m s) cs → s'.b.cap = 0 ∨ m.next ≤ s'.b.arr) := by
  induction cs with
  | nil => intro m s h; exact ⟨m, s, [], rfl, rfl, h, .refl .., fun _ => ⟨⟨rfl, rfl, rfl⟩, rfl⟩, .inl ⟨rfl, rfl, rfl⟩,
      fun hf => absurd trivial hf⟩
  | cons c cs ih =>
    intro m s h
    obtain ⟨m1, s1, r, e1, e2, mv⟩ := C128_call g less m s h c
    obtain ⟨m2, s2, rs, f1, f2, w2, fr2, st2, an2, mo2⟩ := ih m1 s1 mv.wf
    have hn := mv.frame.next_le
    refine ⟨m2, s2, r :: rs, by simp [hRun, e1, f1], by simp [hListRun, e2, f2], w2, ?_⟩
    have hrooms : Rooms s.b.cap less (view m s) (c :: cs) ↔
        Room s.b.cap (view m s) c (view m1 s1) ∧ Rooms s.b.cap less (view m1 s1) cs := by
      simp only [Rooms, e2]
    rw [hrooms]
    by_cases hr : Room s.b.cap (view m s) c (view m1 s1)
    · obtain ⟨⟨sa, so, sc⟩, nx⟩ := mv.stay hr
      rw [sc] at fr2 st2 mo2
      refine ⟨mv.frame.trans (fr2.mono sa.symm (by omega) (by omega)), fun hR => ?_, ?_, fun hR => ?_⟩
      · obtain ⟨⟨ta, tq, tc⟩, ny⟩ := st2 hR.2
        exact ⟨⟨ta.trans sa, tq.trans so, tc.trans sc⟩, ny.trans nx⟩
      · rcases an2 with ⟨ta, tq, tc⟩ | e | e
        · exact .inl ⟨ta.trans sa, tq.trans so, tc.trans sc⟩
        · exact .inr (.inl e)
        · exact .inr (.inr (by omega))
      · rcases mo2 fun hh => hR ⟨hr, hh⟩ with e | e
        · exact .inl e
        · exact .inr (by omega)
    · have hmove := mv.move hr
      have key : s2.b.cap = 0 ∨ m.next ≤ s2.b.arr := by
        rcases an2 with ⟨ta, tq, tc⟩ | e | e
        · rcases hmove with e | e
          · exact .inl (tc.trans e.1)
          · exact .inr (by rw [ta]; exact e.1)
        · exact .inl e
        · exact .inr (by omega)
      refine ⟨⟨Nat.le_trans hn fr2.next_le, fun a q ha _ => ?_⟩, fun hR => absurd hR.1 hr, .inr key, fun _ => key⟩
      rcases hmove with ⟨e, rfl⟩ | ⟨e, hs⟩
      · exact fr2.cell_eq a q ha (by omega)
      · rw [fr2.cell_eq a q (by omega) (.inl (by omega)), hs a q ha]

/-- **C128** (`NewIntHeap`).  It never panics, whatever the capacity (also a negative one), returns an empty heap with room
for `capacity` elements in an array of its own, and writes no array that was there before. -/
theorem C128_new (m : Mem α) (capacity limitN : Int) (maxTop : Bool) :
    ∃ m' s', heapNew m capacity limitN maxTop = .ok (m', s') ∧ view m' s' = Heap.init limitN maxTop ∧ WF m' s'.b ∧
      (s'.b.cap : Int) = max 0 capacity ∧ m.next ≤ s'.b.arr ∧ m.next ≤ m'.next ∧
      ∀ a q, a < m.next → m'.cell a q = m.cell a q := by
  have hw : WF (alloc m [] 0).1 (alloc m [] 0).2 := ⟨by simp [alloc], by simp [alloc, store]⟩
  have hcell : ∀ a q, a < m.next → (alloc m [] 0).1.cell a q = m.cell a q := fun a q ha => by
    simp only [alloc, store_cell]; rw [if_neg (by omega), if_neg (by omega)]
  have hnx : (alloc m [] 0).1.next = m.next + 1 := rfl
  unfold heapNew
  by_cases hc : (0 : Int) < capacity
  · refine ⟨(alloc (alloc m [] 0).1 [] capacity.toNat).1, ⟨⟨m.next + 1, 0, 0, capacity.toNat⟩, limitN, createByBool (!maxTop)⟩,
      ?_, ?_, ⟨by simp, by simp [alloc, store]⟩, ?_, by simp, by simp [alloc, store]; omega, fun a q ha => ?_⟩
    · simp [heapInit, make, alloc, sub, hc, show ¬ capacity < 0 by omega, store]
    · simp [view, toList, Heap.init]
    · simp; omega
    · rw [← hcell a q ha]
      generalize (alloc m [] 0).1 = m0 at *
      simp only [alloc, store_cell]; rw [if_neg (by omega), if_neg (by omega)]
  · refine ⟨(alloc m [] 0).1, ⟨⟨m.next, 0, 0, 0⟩, limitN, createByBool (!maxTop)⟩, ?_, ?_, ⟨by simp, by simp [alloc, store]⟩, ?_,
      by simp, by omega, hcell⟩
    · simp [heapInit, alloc, sub, hc]
    · simp [view, toList, Heap.init]
    · simp; omega

theorem hListRun_ops (less : α → α → Bool) (ops : List (HeapOp α)) : ∀ (l l' : Heap.Heap α) (es : List (HeapEvent α)),
    Heap.run less l ops = .ok (l', es) → hListRun less l (ops.map .op) = .ok (l', es.map some) := by
  induction ops with
  | nil => intro l l' es h; simp only [Heap.run, Res.pure_eq, Res.ok.injEq, Prod.mk.injEq] at h; obtain ⟨rfl, rfl⟩ := h; rfl
  | cons op ops ih =>
    intro l l' es h
    simp only [Heap.run] at h
    cases hs : Heap.step less l op with
    | panic => rw [hs] at h; exact absurd h (by simp)
    | ok r =>
      obtain ⟨l1, e⟩ := r
      rw [hs] at h
      simp only [Res.bind_ok] at h
      cases hr : Heap.run less l1 ops with
      | panic => rw [hr] at h; exact absurd h (by simp)
      | ok r2 =>
        obtain ⟨l2, es2⟩ := r2
        rw [hr] at h
        simp only [Res.bind_ok, Res.pure_eq, Res.ok.injEq, Prod.mk.injEq] at h
        obtain ⟨rfl, rfl⟩ := h
        simp [hListRun, hList, hs, ih l1 l2 es2 hr]

/-- **C128** (history).  A heap made in any memory, with any capacity and growth policy, used by any history of calls,
behaves as the priority queue of C08; every slice that was there before shows what it showed. -/
theorem C128_history {less : α → α → Bool} (hw : StrictWeak less) (g : Grow) (m : Mem α) (capacity limitN : Int)
    (maxTop : Bool) (ops : List (HeapOp α)) :
    ∃ m1 s1 m' s' es, heapNew m capacity limitN maxTop = .ok (m1, s1) ∧
      hRun g less m1 s1 (ops.map .op) = .ok (m', s', es.map some) ∧ es.map HeapEvent.op = ops ∧
      HeapRun (below maxTop less) limitN [] es (toList m' s'.b) ∧
      ∀ t : Slice, t.arr < m.next → toList m' t = toList m t := by
  obtain ⟨m1, s1, e1, v1, w1, -, a1, n1, c1⟩ := C128_new m capacity limitN maxTop
  obtain ⟨m', s', rs, f1, f2, -, fr, -, -, -⟩ := hRun_spec g less (ops.map .op) m1 s1 w1
  obtain ⟨l', es, r1, r2, r3⟩ := Heap.C08_heap_history hw limitN maxTop ops
  rw [v1, hListRun_ops less ops _ _ _ r1] at f2
  simp only [Res.ok.injEq, Prod.mk.injEq] at f2
  obtain ⟨rfl, rfl⟩ := f2
  refine ⟨m1, s1, m', s', es, e1, f1, r2, r3, fun t ht => ?_⟩
  rw [fr.toList_eq (by omega) (.inl (by omega))]
  exact toList_congr _ _ _ fun i _ => c1 _ _ ht

/-- **C128** (`Buffer`, live).  Let `b` be what `Buffer` returned, and let any history of calls follow in which the
elements always fitted the capacity of `b`, no `Pop` was made on an empty heap and no `Init` asked for more.  Then
`b` still shares the elements: it shows them at the same positions, and writing `b[i]` sets element `i` of the heap
and nothing else. -/
theorem C128_buffer_live (g : Grow) (less : α → α → Bool) (m : Mem α) (s : HeapObj) (h : WF m s.b) (cs : List (HCall α))
    (hf : Rooms (heapBuffer s).cap less (view m s) cs) {m' : Mem α} {s' : HeapObj} {rs : List (Option (HeapEvent α))}
    (hr : hRun g less m s cs = .ok (m', s', rs)) :
    (∀ i, i < (heapBuffer s).len → i < heapSize s' → (toList m' (heapBuffer s))[i]? = (toList m' s'.b)[i]?) ∧
    ∀ i v, i < (heapBuffer s).len → ∃ m2, set m' (heapBuffer s) i v = .ok m2 ∧
      toList m2 s'.b = (toList m' s'.b).set i v := by
  obtain ⟨m2, s2, rs2, f1, -, -, -, st, -, -⟩ := hRun_spec g less cs m s h
  rw [hr] at f1
  simp only [Res.ok.injEq, Prod.mk.injEq] at f1
  obtain ⟨rfl, rfl, rfl⟩ := f1
  obtain ⟨⟨sa, so, -⟩, -⟩ := st hf
  refine ⟨fun i hb hi => ?_, fun i v hb => ⟨_, set_eq _ _ _ _ hb, ?_⟩⟩
  · rw [getElem?_toList _ _ _ hb, getElem?_toList _ _ _ hi, sa, so]; rfl
  · have e : put m' (heapBuffer s) i v = put m' s'.b i v := by simp [put, sa, so, heapBuffer]
    rw [e, toList_put]

/-- **C128** (`Buffer`, detached).  If one call of the history did not leave the elements in the array (they did not fit,
the empty heap was popped, or `Init` asked for more), `b` has nothing to do with the heap any more: writing to it
does not change the heap, and no further call changes what it shows. -/
theorem C128_buffer_detached (g : Grow) (less : α → α → Bool) (m : Mem α) (s : HeapObj) (h : WF m s.b) (cs : List (HCall α))
    (hf : ¬ Rooms (heapBuffer s).cap less (view m s) cs) {m' : Mem α} {s' : HeapObj} {rs : List (Option (HeapEvent α))}
    (hr : hRun g less m s cs = .ok (m', s', rs)) :
    (∀ i v m2, set m' (heapBuffer s) i v = .ok m2 → toList m2 s'.b = toList m' s'.b) ∧
    ∀ cs' m2 s2 rs', hRun g less m' s' cs' = .ok (m2, s2, rs') → toList m2 (heapBuffer s) = toList m' (heapBuffer s) := by
  obtain ⟨m2, s2, rs2, f1, -, w, fr, -, -, mo⟩ := hRun_spec g less cs m s h
  rw [hr] at f1
  simp only [Res.ok.injEq, Prod.mk.injEq] at f1
  obtain ⟨rfl, rfl, rfl⟩ := f1
  have ha := mo hf
  have hb := h.arr_lt
  have hl := w.len_le
  have hn := fr.next_le
  refine ⟨fun i v m2 e => ?_, fun cs' m2 s2 rs' e => ?_⟩
  · unfold set at e
    split at e
    · cases e
      exact toList_congr _ _ _ fun j hj => by
        rw [put_cell, if_neg (by rcases ha with ha | ha <;> simp only [heapBuffer] <;> omega)]
    · cases e
  · obtain ⟨m3, s3, rs3, k1, -, -, fr2, -⟩ := hRun_spec g less cs' m' s' w
    rw [e] at k1
    simp only [Res.ok.injEq, Prod.mk.injEq] at k1
    obtain ⟨rfl, rfl, rfl⟩ := k1
    refine toList_congr _ _ _ fun i _ => fr2.cell_eq _ _ (by simp only [heapBuffer]; omega) ?_
    rcases ha with ha | ha
    · rw [ha]; omega
    · exact .inl (by simp only [heapBuffer]; omega)

theorem heapStep_length {lt : α → α → Bool} {limitN : Int} {bag bag' : List α} {e : HeapEvent α} (hl : 0 < limitN)
    (h : HeapStep lt limitN bag e bag') (hb : (bag.length : Int) ≤ limitN) : (bag'.length : Int) ≤ limitN := by
  cases h with
  | push _ v _ h1 h2 => have := h2.length_eq; simp at this; omega
  | pushFull _ v m _ h1 h2 h3 h4 => have := h3.length_eq; simp at this; omega
  | pop _ m _ h2 h3 => have := h2.length_eq; simp at this; omega
  | _ => exact hb

theorem heapStep_pop_empty {lt : α → α → Bool} {limitN : Int} {bag bag' : List α} {e : HeapEvent α}
    (h : HeapStep lt limitN bag e bag') (ho : e.op = .pop) (hb : bag = []) : ∃ v, e = .pop v false := by
  cases h with
  | popEmpty => exact ⟨_, rfl⟩
  | pop _ m _ h2 h3 => subst hb; exact absurd h2.length_eq (by simp)
  | _ => cases ho

/-- **C128** (bounded heap).  A heap made with a limit and at least that capacity never allocates again and never leaves
its array, whatever is pushed and popped, as long as no `Pop` finds it empty. -/
theorem C128_bounded {less : α → α → Bool} (hw : StrictWeak less) (g : Grow) (m : Mem α) (capacity limitN : Int)
    (maxTop : Bool) (hl : 0 < limitN) (hc : limitN ≤ capacity) (ops : List (HeapOp α)) {m1 m' : Mem α} {s1 s' : HeapObj}
    {es : List (HeapEvent α)} (hn : heapNew m capacity limitN maxTop = .ok (m1, s1))
    (hr : hRun g less m1 s1 (ops.map .op) = .ok (m', s', es.map some)) (hp : ∀ v, HeapEvent.pop v false ∉ es) :
    m'.next = m1.next ∧ Stays s1.b s'.b := by
  obtain ⟨m2, s2, e1, v1, w1, cap1, -, -, -⟩ := C128_new m capacity limitN maxTop
  rw [hn] at e1
  simp only [Res.ok.injEq, Prod.mk.injEq] at e1
  obtain ⟨rfl, rfl⟩ := e1
  obtain ⟨m3, s3, rs, f1, f2, -, -, st, -, -⟩ := hRun_spec g less (ops.map .op) m1 s1 w1
  rw [hr] at f1
  simp only [Res.ok.injEq, Prod.mk.injEq] at f1
  obtain ⟨rfl, rfl, rfl⟩ := f1
  rw [v1] at f2 st
  suffices H : ∀ (ops : List (HeapOp α)) (l l' : Heap.Heap α) (es : List (HeapEvent α)), Heap.Inv less limitN maxTop l →
      (l.b.length : Int) ≤ limitN → hListRun less l (ops.map .op) = .ok (l', es.map some) →
      (∀ v, HeapEvent.pop v false ∉ es) → Rooms s1.b.cap less l (ops.map .op) from
    (st (H ops _ _ es (Heap.init_inv less limitN maxTop) (by simp [Heap.init]; omega) f2 hp)).symm
  intro ops
  induction ops with
  | nil => intro l l' es _ _ _ _; trivial
  | cons op ops ih =>
    intro l l' es inv hlen hrun hpop
    obtain ⟨l1, e, t1, i1, o1, hs⟩ := Heap.step_spec hw inv op
    simp only [List.map_cons, hListRun, hList, t1, Res.bind_ok, Res.pure_eq] at hrun
    cases hr2 : hListRun less l1 (ops.map .op) with
    | panic => rw [hr2] at hrun; exact absurd hrun (by simp)
    | ok r2 =>
      obtain ⟨l2, rs2⟩ := r2
      rw [hr2] at hrun
      cases es with
      | nil => simp at hrun
      | cons e' es =>
        simp only [Res.bind_ok, Res.ok.injEq, List.map_cons, Prod.mk.injEq, List.cons.injEq, Option.some.injEq] at hrun
        obtain ⟨rfl, rfl, rfl⟩ := hrun
        have hlen1 : (l1.b.length : Int) ≤ limitN := heapStep_length hl hs hlen
        simp only [List.map_cons, Rooms, hList, t1, Res.bind_ok, Res.pure_eq]
        refine ⟨⟨by omega, ?_⟩, ih l1 l2 es i1 hlen1 hr2 fun v hv => hpop v (List.mem_cons_of_mem _ hv)⟩
        cases op with
        | pop =>
          intro hz
          obtain ⟨v, rfl⟩ := heapStep_pop_empty hs o1 hz
          exact hpop v (by simp)
        | _ => trivial

/-- Two slices with no cell in common. -/
def Apart (s t : Slice) : Prop := s.cap = 0 ∨ t.cap = 0 ∨ s.arr ≠ t.arr

/-- A history of calls on two heap objects in one memory: `true` is a call on the first. -/
def hRun2 (g : Grow) (less : α → α → Bool) (m : Mem α) (s t : HeapObj) :
    List (Bool × HCall α) → Res (Mem α × HeapObj × HeapObj × List (Option (HeapEvent α)))
  | [] => return (m, s, t, [])
  | (true, c) :: cs => do
    let (m, s, r) ← hCall g less m s c
    let (m, s, t, rs) ← hRun2 g less m s t cs
    return (m, s, t, r :: rs)
  | (false, c) :: cs => do
    let (m, t, r) ← hCall g less m t c
    let (m, s, t, rs) ← hRun2 g less m s t cs
    return (m, s, t, r :: rs)

/-- The same history on two separate lists of elements. -/
def hListRun2 (less : α → α → Bool) (k l : Heap.Heap α) :
    List (Bool × HCall α) → Res (Heap.Heap α × Heap.Heap α × List (Option (HeapEvent α)))
  | [] => return (k, l, [])
  | (true, c) :: cs => do
    let (k, r) ← hList less k c
    let (k, l, rs) ← hListRun2 less k l cs
    return (k, l, r :: rs)
  | (false, c) :: cs => do
    let (l, r) ← hList less l c
    let (k, l, rs) ← hListRun2 less k l cs
    return (k, l, r :: rs)

theorem call_apart (g : Grow) (less : α → α → Bool) {m : Mem α} {s : HeapObj} {t : Slice} (h : WF m s.b) (ht : WF m t)
    (ha : Apart s.b t) (c : HCall α) : ∃ m' s' r, hCall g less m s c = .ok (m', s', r) ∧
      hList less (view m s) c = .ok (view m' s', r) ∧ WF m' s'.b ∧ WF m' t ∧ Apart s'.b t ∧ toList m' t = toList m t := by
  obtain ⟨m', s', r, e1, e2, mv⟩ := C128_call g less m s h c
  have htl := ht.len_le
  have hta := ht.arr_lt
  refine ⟨m', s', r, e1, e2, mv.wf, ⟨ht.len_le, Nat.lt_of_lt_of_le ht.arr_lt mv.frame.next_le⟩, ?_, ?_⟩
  · by_cases hr : Room s.b.cap (view m s) c (view m' s')
    · obtain ⟨⟨sa, -, sc⟩, -⟩ := mv.stay hr
      unfold Apart at *
      rw [sa, sc]; exact ha
    · rcases mv.move hr with e | e
      · exact .inl e.1
      · exact .inr (.inr (by omega))
  · refine toList_congr _ _ _ fun i hi => mv.frame.cell_eq _ _ hta ?_
    rcases ha with e | e | e
    · rw [e]; omega
    · omega
    · exact .inl fun e' => e e'.symm

/-- **C128** (two heaps).  Two heap objects whose arrays are different do not disturb each other: any interleaving of calls
gives each of them the results it would give alone. -/
theorem C128_two_heaps (g : Grow) (less : α → α → Bool) (cs : List (Bool × HCall α)) : ∀ (m : Mem α) (s t : HeapObj),
    WF m s.b → WF m t.b → Apart s.b t.b →
    ∃ m' s' t' rs, hRun2 g less m s t cs = .ok (m', s', t', rs) ∧
      hListRun2 less (view m s) (view m t) cs = .ok (view m' s', view m' t', rs) := by
  induction cs with
  | nil => intro m s t _ _ _; exact ⟨m, s, t, [], rfl, rfl⟩
  | cons c cs ih =>
    intro m s t hs ht ha
    obtain ⟨b, c⟩ := c
    cases b with
    | true =>
      obtain ⟨m1, s1, r, e1, e2, w1, w2, a1, l1⟩ := call_apart g less hs ht ha c
      obtain ⟨m', s', t', rs, f1, f2⟩ := ih m1 s1 t w1 w2 a1
      have hv : view m1 t = view m t := by simp [view, l1]
      rw [hv] at f2
      exact ⟨m', s', t', r :: rs, by simp [hRun2, e1, f1], by simp [hListRun2, e2, f2]⟩
    | false =>
      have ha' : Apart t.b s.b := by unfold Apart at *; rcases ha with e | e | e; exacts [.inr (.inl e), .inl e, .inr (.inr (Ne.symm e))]
      obtain ⟨m1, t1, r, e1, e2, w1, w2, a1, l1⟩ := call_apart g less ht hs ha' c
      have ha1 : Apart s.b t1.b := by unfold Apart at *; rcases a1 with e | e | e; exacts [.inr (.inl e), .inl e, .inr (.inr (Ne.symm e))]
      obtain ⟨m', s', t', rs, f1, f2⟩ := ih m1 s t1 w2 w1 ha1
      have hv : view m1 s = view m s := by simp [view, l1]
      rw [hv] at f2
      exact ⟨m', s', t', r :: rs, by simp [hRun2, e1, f1], by simp [hListRun2, e2, f2]⟩

/-! ## Concrete cases -/

/-- A max-top heap over the array of `exMem`: 3, 1, 2 of capacity 4. -/
def exObj : HeapObj := ⟨⟨0, 0, 3, 4⟩, 0, 0⟩

example := C128_call exGrow intLt exMem exObj ex_wf (.op (.push 9))
example := C128_history intLt_strictWeak exGrow exMem 2 3 true [.push 5, .push 1, .push 4, .push 2, .pop, .top, .size]
example := C128_new exMem (-3) 0 false
example : checkHeap (Heap.cmpOf intLt true) exMem ⟨0, 0, 4, 4⟩ = .ok false ∧
    checkHeap (Heap.cmpOf intLt true) exMem ⟨0, 0, 3, 4⟩ = .ok true := by decide +kernel
example : (do let m ← reverse exMem ⟨0, 1, 3, 3⟩; pure (toList m ⟨0, 0, 4, 4⟩)) = .ok [3, 7, 2, 1] := by decide +kernel

/-- One push fits the array of the buffer; a second one does not; emptying the heap and popping once more gives the
array up. -/
example := C128_buffer_live exGrow intLt exMem exObj ex_wf [.op (.push 9)]
  ⟨⟨by decide +kernel, trivial⟩, trivial⟩ rfl
example := C128_buffer_detached exGrow intLt exMem exObj ex_wf [.op (.push 9), .op (.push 8)]
  (fun h => absurd h.2.1.1 (by decide +kernel)) rfl
example := C128_buffer_detached exGrow intLt exMem exObj ex_wf [.op .pop, .op .pop, .op .pop, .op .pop]
  (fun h => absurd h.2.2.2.1.2 (by decide +kernel)) rfl
example : ∃ m1 s1 m' s', heapNew exMem 2 2 true = .ok (m1, s1) ∧ m'.next = m1.next ∧ Stays s1.b s'.b ∧
    ∃ rs, hRun exGrow intLt m1 s1 (([.push 5, .push 1, .push 4, .top] : List (HeapOp Int)).map .op) = .ok (m', s', rs) := by
  obtain ⟨m1, s1, m', s', es, e1, e2, e3, -, -⟩ := C128_history intLt_strictWeak exGrow exMem 2 2 true [.push 5, .push 1, .push 4, .top]
  obtain ⟨h1, h2⟩ := C128_bounded intLt_strictWeak exGrow exMem 2 2 true (by decide) (by decide) _ e1 e2 fun v hv => by
    have := List.mem_map_of_mem (f := HeapEvent.op) hv
    rw [e3] at this
    simp [HeapEvent.op] at this
  exact ⟨m1, s1, m', s', e1, h1, h2, _, e2⟩
/-- The premise about `Pop` is needed: after a `Pop` of the empty heap the next `Push` allocates. -/
example : (do
    let (m, s) ← heapNew exMem 2 2 true
    let (m', s', _) ← hRun exGrow intLt m s [.op .pop, .op (.push 5)]
    pure (m.next, m'.next, s'.b.cap)) = .ok (3, 4, 2) := by decide +kernel
example := C128_two_heaps exGrow intLt [(true, .op (.push 9)), (false, .op (.push 8)), (true, .op .pop), (false, .init 7 0 false)]
  ⟨exMem.cell, 2⟩ exObj ⟨⟨1, 0, 0, 1⟩, 0, 0⟩ ⟨by decide, by decide⟩ ⟨by decide, by decide⟩ (.inr (.inr (by decide)))

end Verif.SliceMem
