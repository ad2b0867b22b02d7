import Verif.Lemmas.SliceMem
import Verif.Props.SortSlice
import Verif.Props.Heap
import Verif.Props.Stack
/-!
# C113: containers over shared memory

`Buffer` hands out the array of a sort slice or heap, and the heap functions work on the caller's slice.
-/

set_option linter.unusedSectionVars false

namespace Verif.SliceMem
open Verif.Spec
variable {α : Type} [Inhabited α]

/-- A call on a sort slice; `swap` is what `sort.Sort` uses. -/
inductive Call (α : Type) where
  | op (o : SeqOp α)
  | swap (i j : Nat)

/-- One call, in memory. -/
def memCall (g : Grow) (m : Mem α) (d : Slice) : Call α → Res (Mem α × Slice × Out α)
  | .op (.push v) => let (m, d, n) := push g m d v; return (m, d, .nat n)
  | .op (.insert v idx) => do let (m, d, n) ← insert g m d v idx; return (m, d, .nat n)
  | .op (.remove idx) => do let (m, d, v, ok) ← remove g m d idx; return (m, d, .val v ok)
  | .op .pop => do let (m, d, v, ok) ← pop m d; return (m, d, .val v ok)
  | .op (.get idx) => do let (v, ok) ← getAt m d idx; return (m, d, .val v ok)
  | .op (.mustGet idx) => do let v ← mustGet m d idx; return (m, d, .val v true)
  | .op .len => return (m, d, .nat d.len)
  | .swap i j => do let m ← swap m d i j; return (m, d, .unit)

/-- One call, in the model where a slice is the list of its elements (C14, C15). -/
def listCall (l : List α) : Call α → Res (List α × Out α)
  | .op o => do let (s, r) ← SortSlice.step ⟨l⟩ o; return (s.d, r)
  | .swap i j => do let s ← SortSlice.swap ⟨l⟩ i j; return (s.d, .unit)

/-- The slice stayed where it was. -/
def Stays (d d' : Slice) : Prop := d'.arr = d.arr ∧ d'.off = d.off ∧ d'.cap = d.cap

/-- What one call in memory does, compared with the call on the list of elements. -/
structure Agrees (m : Mem α) (d : Slice) (l' : List α) (m' : Mem α) (d' : Slice) : Prop where
  wf : WF m' d'
  list : toList m' d' = l'
  frame : Frame m m' d d.cap
  place : if l'.length ≤ d.cap then Stays d d' else
    m.next ≤ d'.arr ∧ ∀ b q, b < m.next → m'.cell b q = m.cell b q

theorem Agrees.of_frame {m m' : Mem α} {d d' : Slice} {l' : List α} (wf : WF m' d') (list : toList m' d' = l')
    (fr : Frame m m' d d.cap) (st : Stays d d') : Agrees m d l' m' d' := by
  refine ⟨wf, list, fr, ?_⟩
  have := wf.len_le
  rw [if_pos (by rw [← list, length_toList]; rw [st.2.2] at this; exact this)]
  exact st

theorem append_agrees (g : Grow) (m : Mem α) (d : Slice) (v : α) (h : WF m d) :
    Agrees m d (toList m d ++ [v]) (append g m d [v]).1 (append g m d [v]).2 := by
  have a := append_spec g m d [v] h
  refine ⟨a.wf, a.list, a.frame, ?_⟩
  have hl : (toList m d ++ [v]).length = d.len + [v].length := by simp
  have hp := a.place
  rw [hl]
  by_cases hc : d.len + [v].length ≤ d.cap
  · rw [if_pos hc] at hp ⊢; rw [hp.2]; exact ⟨rfl, rfl, rfl⟩
  · rw [if_neg hc] at hp ⊢; exact ⟨by omega, a.same (by omega)⟩

theorem getAt_eq (m : Mem α) (d : Slice) (idx : Int) : getAt m d idx = SortSlice.get ⟨toList m d⟩ idx := by
  unfold getAt SortSlice.get SortSlice.len
  simp only [length_toList, get_eq]

theorem mustGet_eq (m : Mem α) (d : Slice) (idx : Int) : mustGet m d idx = SortSlice.mustGet ⟨toList m d⟩ idx := by
  unfold mustGet SortSlice.mustGet
  rw [getAt_eq]

theorem swap_ok (m : Mem α) (d : Slice) (i j : Nat) (hi : i < d.len) (hj : j < d.len) :
    swap m d i j = .ok (put (put m d i (at_ m d j)) d j (at_ m d i)) := by
  simp [swap, get, hi, hj, set]

theorem toList_swap (m : Mem α) (d : Slice) (i j : Nat) (hi : i < d.len) (hj : j < d.len) :
    toList (put (put m d i (at_ m d j)) d j (at_ m d i)) d =
      ((toList m d).set i ((toList m d)[j]'(by simpa using hj))).set j ((toList m d)[i]'(by simpa using hi)) := by
  simp [toList_put, at_]

/-- **C113** (one call).  For every memory, every slice in it, every growth policy and every call: the call panics, or
returns what it returns on the list of elements, exactly where C14 and C15 say so, and afterwards the slice shows that
list.  Nothing outside the window of the slice is written; as long as the elements fit, the slice stays where it is;
otherwise it moves to a new array and no old array is written at all. -/
theorem C113_call (g : Grow) (m : Mem α) (d : Slice) (h : WF m d) (c : Call α) :
    match memCall g m d c with
    | .panic => listCall (toList m d) c = .panic
    | .ok (m', d', o) => ∃ l', listCall (toList m d) c = .ok (l', o) ∧ Agrees m d l' m' d' := by
  have stay : Agrees m d (toList m d) m d := .of_frame h rfl (.refl ..) ⟨rfl, rfl, rfl⟩
  cases c with
  | swap i j =>
    by_cases hij : i < d.len ∧ j < d.len
    · obtain ⟨hi, hj⟩ := hij
      simp only [memCall, swap_ok m d i j hi hj, Res.bind_ok, Res.pure_eq, listCall]
      refine ⟨_, ?_, .of_frame ⟨h.len_le, h.arr_lt⟩ rfl ?_ ⟨rfl, rfl, rfl⟩⟩
      · rw [SortSlice.swap_eq _ i j (by simpa using hi) (by simpa using hj)]
        simp [toList_swap m d i j hi hj]
      · have := h.len_le
        exact (frame_put m d i _ (by omega)).trans (frame_put _ d j _ (by omega))
    · simp only [memCall, swap, get_eq, listCall, SortSlice.swap]
      by_cases hi : i < d.len
      · have hj : ¬ j < d.len := fun e => hij ⟨hi, e⟩
        have hg : Go.get (toList m d) j = .panic := by
          unfold Go.get; rw [List.getElem?_eq_none (by simpa using hj)]
        rw [hg]; simp only [Res.bind_panic]
        cases Go.get (toList m d) i <;> rfl
      · have hg : Go.get (toList m d) i = .panic := by
          unfold Go.get; rw [List.getElem?_eq_none (by simpa using hi)]
        rw [hg]
        cases Go.get (toList m d) j <;> simp
  | op o =>
    cases o with
    | push v =>
      have a := append_agrees g m d v h
      simp only [memCall, push, Res.pure_eq, listCall, SortSlice.step, SortSlice.push, SortSlice.len, Res.bind_ok]
      refine ⟨_, ?_, a⟩
      rw [← a.list]; simp
    | insert v idx =>
      simp only [memCall, insert, listCall, SortSlice.step, SortSlice.insert, SortSlice.len, length_toList]
      by_cases hidx : idx ≥ 0 ∧ idx < (d.len : Int)
      · have hi : idx.toNat < d.len := by omega
        have hlc := h.len_le
        simp only [if_pos hidx]
        rw [sub_ok d _ _ (by omega) h.len_le, sub_ok d 0 _ (by omega) (by omega)]
        simp only [Res.bind_ok, Nat.sub_zero, Nat.add_zero]
        set left : Slice := ⟨d.arr, d.off, idx.toNat, d.cap⟩ with hleft
        set right : Slice := ⟨d.arr, d.off + (idx.toNat + 1), d.len - (idx.toNat + 1), d.cap - (idx.toNat + 1)⟩ with hright
        have wl : WF m left := ⟨by simp [hleft]; omega, h.arr_lt⟩
        have a := append_spec g m left [v] wl
        have hp := a.place
        rw [if_pos (by simp [hleft]; omega)] at hp
        generalize hm1 : (append g m left [v]).1 = m1 at *
        generalize hd1 : (append g m left [v]).2 = d1 at *
        obtain ⟨hn, rfl⟩ := hp
        have hr : toList m1 right = (toList m d).drop (idx.toNat + 1) := by
          rw [← toList_drop m d (idx.toNat + 1) (by omega) (d.cap - (idx.toNat + 1))]
          refine toList_congr _ _ _ fun i hi' => a.low _ _ h.arr_lt ?_
          have ho : right.off = d.off + (idx.toNat + 1) := rfl
          simp only [hleft, List.length_singleton]; omega
        have a2 := append_spec g m1 { left with len := left.len + [v].length } (toList m1 right) a.wf
        have hp2 := a2.place
        rw [if_pos (by simp [hleft, hright]; omega)] at hp2
        generalize hm2 : (append g m1 { left with len := left.len + [v].length } (toList m1 right)).1 = m2 at *
        generalize hd2 : (append g m1 { left with len := left.len + [v].length } (toList m1 right)).2 = d2 at *
        obtain ⟨hn2, rfl⟩ := hp2
        simp only [Res.pure_eq, Res.bind_ok]
        have hl : toList m2 { left with len := left.len + [v].length + (toList m1 right).length } =
            (toList m d).take idx.toNat ++ [v] ++ (toList m d).drop (idx.toNat + 1) := by
          have := a2.list
          rw [a.list, hr, toList_take m d idx.toNat (by omega)] at this
          simpa [hr] using this
        refine ⟨_, ?_, .of_frame a2.wf hl ?_ ⟨rfl, rfl, rfl⟩⟩
        · rw [← hl]; simp
        · exact (a.frame.mono (t := d) rfl (Nat.le_refl _) (Nat.le_refl _)).trans
            (a2.frame.mono (t := d) rfl (Nat.le_refl _) (Nat.le_refl _))
      · simp only [if_neg hidx, Res.pure_eq, Res.bind_ok]
        have a := append_agrees g m d v h
        refine ⟨_, ?_, a⟩
        rw [← a.list]; simp
    | remove idx =>
      simp only [memCall, remove, listCall, SortSlice.step, SortSlice.remove, getAt_eq]
      have hg := SortSlice.get_eq (⟨toList m d⟩ : SortSlice.SortSlice α) idx
      by_cases hidx : 0 ≤ idx ∧ idx < (d.len : Int)
      · have hi : idx.toNat < d.len := by omega
        have hlc := h.len_le
        rw [show pos? (toList m d) idx = some idx.toNat by unfold pos?; rw [if_pos (by simpa using hidx)]] at hg
        rw [Option.bind_some, getElem?_toList _ _ _ hi] at hg
        rw [hg]
        simp only [Res.bind_ok, if_true]
        rw [sub_ok d _ _ (by omega) h.len_le, sub_ok d 0 _ (by omega) (by omega)]
        simp only [Res.bind_ok, Nat.sub_zero, Nat.add_zero]
        set left : Slice := ⟨d.arr, d.off, idx.toNat, d.cap⟩ with hleft
        set right : Slice := ⟨d.arr, d.off + (idx.toNat + 1), d.len - (idx.toNat + 1), d.cap - (idx.toNat + 1)⟩ with hright
        have wl : WF m left := ⟨by simp [hleft]; omega, h.arr_lt⟩
        have hr : toList m right = (toList m d).drop (idx.toNat + 1) :=
          toList_drop m d (idx.toNat + 1) (by omega) (d.cap - (idx.toNat + 1))
        have a := append_spec g m left (toList m right) wl
        have hp := a.place
        rw [if_pos (by simp [hleft, hright]; omega)] at hp
        generalize hm1 : (append g m left (toList m right)).1 = m1 at *
        generalize hd1 : (append g m left (toList m right)).2 = d1 at *
        obtain ⟨hn, rfl⟩ := hp
        simp only [Res.pure_eq, Res.bind_ok]
        have hl := a.list
        rw [hr, toList_take m d idx.toNat (by omega)] at hl
        refine ⟨_, rfl, .of_frame (by simpa [hr] using a.wf) (by simpa [hr] using hl) ?_ ⟨rfl, rfl, rfl⟩⟩
        exact a.frame.mono (t := d) rfl (Nat.le_refl _) (Nat.le_refl _)
      · rw [show pos? (toList m d) idx = none by unfold pos?; rw [if_neg (by simpa using hidx)]] at hg
        rw [hg]
        exact ⟨_, rfl, stay⟩
    | pop =>
      simp only [memCall, pop, listCall, SortSlice.step, SortSlice.pop, get_eq, length_toList]
      by_cases hd : d.len > 0
      · have hlc := h.len_le
        simp only [if_pos hd]
        rw [sub_ok d 0 _ (by omega) (by omega)]
        have hg : Go.get (toList m d) (d.len - 1) = .ok (at_ m d (d.len - 1)) := by
          rw [← get_eq]; unfold get; rw [if_pos (by omega)]
        rw [hg]
        simp only [Res.bind_ok, Res.pure_eq, Nat.sub_zero, Nat.add_zero]
        refine ⟨_, rfl, .of_frame ⟨by dsimp only; omega, h.arr_lt⟩ ?_ (.refl ..) ⟨rfl, rfl, rfl⟩⟩
        exact toList_take m d _ (by omega) _
      · simp only [if_neg hd]; rfl
    | get idx =>
      simp only [memCall, listCall, SortSlice.step, getAt_eq]
      rw [SortSlice.get_eq]
      exact ⟨_, rfl, stay⟩
    | mustGet idx =>
      simp only [memCall, listCall, SortSlice.step, mustGet_eq]
      cases SortSlice.mustGet (⟨toList m d⟩ : SortSlice.SortSlice α) idx with
      | panic => rfl
      | ok v => exact ⟨_, rfl, stay⟩
    | len =>
      refine ⟨_, ?_, stay⟩
      simp [listCall, SortSlice.step, SortSlice.len]

/-! ## Histories and `Buffer` -/

/-- A history of calls, in memory. -/
def memRun (g : Grow) (m : Mem α) (d : Slice) : List (Call α) → Res (Mem α × Slice × List (Out α))
  | [] => return (m, d, [])
  | c :: cs => do
    let (m, d, o) ← memCall g m d c
    let (m, d, os) ← memRun g m d cs
    return (m, d, o :: os)

/-- The same history on the list of elements. -/
def listRun (l : List α) : List (Call α) → Res (List α × List (Out α))
  | [] => return (l, [])
  | c :: cs => do
    let (l, o) ← listCall l c
    let (l, os) ← listRun l cs
    return (l, o :: os)

/-- All states of a history have at most `n` elements. -/
def Fits (n : Nat) (l : List α) : List (Call α) → Prop
  | [] => True
  | c :: cs => ∀ l' o, listCall l c = .ok (l', o) → l'.length ≤ n ∧ Fits n l' cs

theorem memRun_spec (g : Grow) (cs : List (Call α)) : ∀ (m : Mem α) (d : Slice), WF m d →
    match memRun g m d cs with
    | .panic => listRun (toList m d) cs = .panic
    | .ok (m', d', os) => listRun (toList m d) cs = .ok (toList m' d', os) ∧ WF m' d' ∧ m.next ≤ m'.next ∧
        Frame m m' d d.cap ∧ (Fits d.cap (toList m d) cs → Stays d d') ∧
        (d'.arr = d.arr ∨ m.next ≤ d'.arr) ∧
        (¬ Fits d.cap (toList m d) cs → m.next ≤ d'.arr) := by
  induction cs with
  | nil =>
    intro m d h
    exact ⟨rfl, h, Nat.le_refl _, .refl .., fun _ => ⟨rfl, rfl, rfl⟩, .inl rfl, fun hf => absurd trivial hf⟩
  | cons c cs ih =>
    intro m d h
    have h1 := C113_call g m d h c
    simp only [memRun, listRun]
    cases hc : memCall g m d c with
    | panic => rw [hc] at h1; rw [show listCall (toList m d) c = .panic from h1]; rfl
    | ok r =>
      obtain ⟨m1, d1, o⟩ := r
      rw [hc] at h1
      obtain ⟨l1, e1, ag⟩ := h1
      have h2 := ih m1 d1 ag.wf
      rw [e1]
      simp only [Res.bind_ok]
      rw [ag.list] at h2
      cases hr : memRun g m1 d1 cs with
      | panic => rw [hr] at h2; rw [show listRun l1 cs = .panic from h2]; rfl
      | ok r =>
        obtain ⟨m2, d2, os⟩ := r
        rw [hr] at h2
        obtain ⟨e2, wf2, n2, fr2, fit2, arr2, nf2⟩ := h2
        have hp := ag.place
        have hn := ag.frame.next_le
        rw [e2]
        refine ⟨rfl, wf2, Nat.le_trans hn n2, ?_, ?_, ?_, ?_⟩
        · by_cases hl : l1.length ≤ d.cap
          · rw [if_pos hl] at hp
            exact ag.frame.trans (fr2.mono (t := d) hp.1.symm (Nat.le_of_eq hp.2.1.symm) (by rw [hp.2.1, hp.2.2]; exact Nat.le_refl _))
          · rw [if_neg hl] at hp
            refine ⟨Nat.le_trans hn n2, fun b q hb hq => ?_⟩
            rw [fr2.cell_eq b q (by omega) (.inl (by omega)), hp.2 b q hb]
        · intro hf
          obtain ⟨hl, hf'⟩ := hf _ _ e1
          rw [if_pos hl] at hp
          rw [hp.2.2] at fit2
          obtain ⟨a, b, c⟩ := fit2 hf'
          exact ⟨a.trans hp.1, b.trans hp.2.1, by rw [c, hp.2.2]⟩
        · by_cases hl : l1.length ≤ d.cap
          · rw [if_pos hl] at hp
            rcases arr2 with e | e
            · exact .inl (e.trans hp.1)
            · exact .inr (Nat.le_trans hn e)
          · rw [if_neg hl] at hp
            rcases arr2 with e | e
            · exact .inr (by rw [e]; exact hp.1)
            · exact .inr (Nat.le_trans hn e)
        · intro hnf
          by_cases hl : l1.length ≤ d.cap
          · rw [if_pos hl] at hp
            have : ¬ Fits d1.cap l1 cs := fun hf => hnf fun l' o' e => by
              rw [e1] at e
              obtain ⟨rfl, rfl⟩ : l1 = l' ∧ o = o' := by simpa using e
              exact ⟨hl, by rw [← hp.2.2]; exact hf⟩
            exact Nat.le_trans hn (nf2 this)
          · rw [if_neg hl] at hp
            rcases arr2 with e | e
            · rw [e]; exact hp.1
            · exact Nat.le_trans hn e

/-- **C113** (histories).  Every history of calls on a sort slice in memory gives the results, or the panic, of the same
history on the list of its elements, whatever the initial capacity and the growth policy; other slices keep their
elements when they lie in another array or outside the capacity of this one. -/
theorem C113_history (g : Grow) (m : Mem α) (d : Slice) (h : WF m d) (cs : List (Call α)) :
    match memRun g m d cs with
    | .panic => listRun (toList m d) cs = .panic
    | .ok (m', d', os) => listRun (toList m d) cs = .ok (toList m' d', os) ∧ WF m' d' ∧
        ∀ t : Slice, t.arr < m.next → (t.arr ≠ d.arr ∨ t.off + t.len ≤ d.off ∨ d.off + d.cap ≤ t.off) →
          toList m' t = toList m t := by
  have := memRun_spec g cs m d h
  cases hr : memRun g m d cs with
  | panic => rw [hr] at this; exact this
  | ok r =>
    obtain ⟨m', d', os⟩ := r
    rw [hr] at this
    exact ⟨this.1, this.2.1, fun t ht hd => this.2.2.2.1.toList_eq ht hd⟩

/-- **C113** (`Buffer`, live).  Let `b` be what `Buffer` returned, and let any history of calls follow in which the number
of elements never exceeded the capacity of `b`.  Then `b` still shares the elements: it shows them at the same
positions, and writing `b[i]` sets element `i` of the sort slice and nothing else. -/
theorem C113_buffer_live (g : Grow) (m : Mem α) (b : Slice) (h : WF m b) (cs : List (Call α))
    (hf : Fits b.cap (toList m b) cs) {m' : Mem α} {d' : Slice} {os : List (Out α)}
    (hr : memRun g m b cs = .ok (m', d', os)) :
    (∀ i, i < b.len → i < d'.len → (toList m' b)[i]? = (toList m' d')[i]?) ∧
    ∀ i v, i < b.len → ∃ m2, set m' b i v = .ok m2 ∧ toList m2 d' = (toList m' d').set i v := by
  have := memRun_spec g cs m b h
  rw [hr] at this
  obtain ⟨sa, so, _⟩ := this.2.2.2.2.1 hf
  refine ⟨fun i hb hi => by rw [getElem?_toList _ _ _ hb, getElem?_toList _ _ _ hi, sa, so], fun i v hb => ⟨_, set_eq _ _ _ _ hb, ?_⟩⟩
  have e : put m' b i v = put m' d' i v := by simp [put, sa, so]
  rw [e, toList_put]

/-- **C113** (`Buffer`, detached).  If the number of elements exceeded the capacity of `b` at some point of the history,
`b` has nothing to do with the sort slice any more: writing to it does not change the sort slice, and no further
call changes what it shows. -/
theorem C113_buffer_detached (g : Grow) (m : Mem α) (b : Slice) (h : WF m b) (cs : List (Call α))
    (hf : ¬ Fits b.cap (toList m b) cs) {m' : Mem α} {d' : Slice} {os : List (Out α)}
    (hr : memRun g m b cs = .ok (m', d', os)) :
    (∀ i v m2, set m' b i v = .ok m2 → toList m2 d' = toList m' d') ∧
    ∀ cs' m2 d2 os', memRun g m' d' cs' = .ok (m2, d2, os') → toList m2 b = toList m' b := by
  have := memRun_spec g cs m b h
  rw [hr] at this
  have ha := this.2.2.2.2.2.2 hf
  have hb := h.arr_lt
  refine ⟨fun i v m2 e => ?_, fun cs' m2 d2 os' e => ?_⟩
  · unfold set at e
    split at e
    · cases e
      exact toList_congr _ _ _ fun j _ => by rw [put_cell, if_neg (by omega)]
    · cases e
  · have h2 := memRun_spec g cs' m' d' this.2.1
    rw [e] at h2
    exact h2.2.2.2.1.toList_eq (Nat.lt_of_lt_of_le hb this.2.2.1) (.inl (by omega))

/-! ## The heap functions on the caller's slice -/

theorem bestChild_eq (f : α → α → Bool) (m : Mem α) (b : Slice) (hole : Nat) (hl : Heap.lchild hole < (toList m b).length) :
    bestChild f m b hole = Heap.bestChild f (toList m b) hole hl := by
  unfold bestChild Heap.bestChild
  by_cases hr : Heap.lchild hole + 1 < b.len
  · rw [dif_pos (by simpa using hr)]
    simp only [hr, true_and, getElem_toList, at_]
  · rw [dif_neg (by simpa using hr), if_neg (by simp [hr])]

theorem adjustDown_eq (f : α → α → Bool) (m : Mem α) (b : Slice) (hole : Nat) (v : α) (hh : hole < (toList m b).length) :
    toList (adjustDown f m b hole v) b = Heap.adjustDown f (toList m b) hole hh v ∧
    Frame m (adjustDown f m b hole v) b b.len := by
  fun_induction adjustDown f m b hole v with
  | case1 m hole hl hf =>
    have hl' : Heap.lchild hole < (toList m b).length := by simpa using hl
    rw [Heap.adjustDown, dif_pos hl', toList_put]
    have e : (toList m b)[Heap.bestChild f (toList m b) hole hl']'(Heap.bestChild_lt f _ hole hl') =
        at_ m b (bestChild f m b hole) := by simp only [getElem_toList, at_, bestChild_eq f m b hole hl']
    rw [if_pos (by rw [e]; exact hf)]
    exact ⟨rfl, frame_put _ _ _ _ (by simpa using hh)⟩
  | case2 m hole hl hf ih =>
    have hl' : Heap.lchild hole < (toList m b).length := by simpa using hl
    have e : (toList m b)[Heap.bestChild f (toList m b) hole hl']'(Heap.bestChild_lt f _ hole hl') =
        at_ m b (bestChild f m b hole) := by simp only [getElem_toList, at_, bestChild_eq f m b hole hl']
    have hb : bestChild f m b hole < (toList m b).length := by
      rw [bestChild_eq f m b hole hl']; exact Heap.bestChild_lt f _ hole hl'
    obtain ⟨i1, i2⟩ := ih (by simpa using hb)
    refine ⟨?_, (frame_put _ _ _ _ (by simpa using hh)).trans i2⟩
    rw [i1]
    conv_rhs => rw [Heap.adjustDown, dif_pos hl']
    rw [if_neg (by rw [e]; exact hf)]
    congr 1
    · rw [toList_put, e]
    · rw [bestChild_eq f m b hole hl']
  | case3 m hole hl =>
    rw [Heap.adjustDown, dif_neg (by simpa using hl), toList_put]
    exact ⟨rfl, frame_put _ _ _ _ (by simpa using hh)⟩

theorem adjustUp_eq (f : α → α → Bool) (m : Mem α) (b : Slice) (hole : Nat) (v : α) (hh : hole < (toList m b).length) :
    toList (adjustUp f m b hole v) b = Heap.adjustUp f (toList m b) hole hh v ∧
    Frame m (adjustUp f m b hole v) b b.len := by
  fun_induction adjustUp f m b hole v with
  | case1 m hole h hf ih =>
    have hp := Heap.parent_lt h
    obtain ⟨i1, i2⟩ := ih (by simp at hh ⊢; omega)
    refine ⟨?_, (frame_put _ _ _ _ (by simpa using hh)).trans i2⟩
    rw [i1]
    conv_rhs => rw [Heap.adjustUp, dif_pos h]
    simp only [getElem_toList]
    rw [if_pos (show (!f v (m.cell b.arr (b.off + Heap.parent hole))) = true from hf)]
    congr 1
    rw [toList_put]; rfl
  | case2 m hole h hf =>
    rw [Heap.adjustUp, dif_pos h, toList_put]
    simp only [getElem_toList]
    rw [if_neg (show ¬ (!f v (m.cell b.arr (b.off + Heap.parent hole))) = true from hf)]
    exact ⟨rfl, frame_put _ _ _ _ (by simpa using hh)⟩
  | case3 m hole h =>
    rw [Heap.adjustUp, dif_neg h, toList_put]
    exact ⟨rfl, frame_put _ _ _ _ (by simpa using hh)⟩

theorem adjustDown_congr (f : α → α → Bool) {b b' : List α} (e : b = b') {i j : Nat} (hij : i = j) (h : i < b.length)
    (h' : j < b'.length) {v v' : α} (hv : v = v') : Heap.adjustDown f b i h v = Heap.adjustDown f b' j h' v' := by
  subst e; subst hij; subst hv; rfl

/-- **C113** (`PushHeap`).  The returned slice shows the elements of the argument with the new one pushed (C07).  When the
argument has spare capacity, its array is written, also behind the argument: a longer slice over the same array loses
the element there.  When it is full, no old array is written. -/
theorem C113_pushHeap (g : Grow) (f : α → α → Bool) (m : Mem α) (b : Slice) (h : WF m b) (v : α) :
    WF (pushHeap g f m b v).1 (pushHeap g f m b v).2 ∧
    toList (pushHeap g f m b v).1 (pushHeap g f m b v).2 = Heap.pushHeap f (toList m b) v ∧
    (∀ w : Slice, w.arr = b.arr → w.off = b.off → b.len < w.len → b.len < b.cap →
      toList (pushHeap g f m b v).1 w = Heap.pushHeap f (toList m b) v ++ (toList m w).drop (b.len + 1)) ∧
    (b.len = b.cap → ∀ t : Slice, t.arr < m.next → toList (pushHeap g f m b v).1 t = toList m t) := by
  have a := append_spec g m b [v] h
  simp only [pushHeap]
  generalize hm1 : (append g m b [v]).1 = m1 at *
  generalize hd1 : (append g m b [v]).2 = d1 at *
  have hlen : d1.len = b.len + 1 := by
    have := congrArg List.length a.list; simpa using this
  have hh : d1.len - 1 < (toList m1 d1).length := by simp; omega
  obtain ⟨u1, u2⟩ := adjustUp_eq f m1 d1 (d1.len - 1) v hh
  have hlist : toList (adjustUp f m1 d1 (d1.len - 1) v) d1 = Heap.pushHeap f (toList m b) v := by
    rw [u1, Heap.pushHeap]
    congr 1
    · exact a.list
    · rw [length_toList]; omega
  have hp := a.place
  refine ⟨⟨a.wf.len_le, Nat.lt_of_lt_of_le a.wf.arr_lt u2.next_le⟩, hlist, fun w wa wo wl hc => ?_, fun hc t ht => ?_⟩
  · rw [if_pos (by simp; omega)] at hp
    obtain ⟨-, rfl⟩ := hp
    rw [← hlist]
    have hwl : b.len + 1 ≤ w.len := wl
    have hsplit := toList_split (adjustUp f m1 { b with len := b.len + [v].length } (b.len + 1 - 1) v) w (b.len + 1) hwl b.cap 0
    simp only [List.length_singleton] at hsplit ⊢
    rw [hsplit, wa, wo]
    congr 1
    rw [← toList_drop m w (b.len + 1) hwl 0]
    rw [wa, wo]
    refine toList_congr _ _ _ fun i _ => ?_
    simp only [List.length_singleton] at u2
    have hn := a.frame.next_le
    rw [u2.cell_eq _ _ (by have := h.arr_lt; dsimp only; omega) (by dsimp only; omega)]
    exact a.low _ _ h.arr_lt (.inr (.inr (by simp; omega)))
  · rw [if_neg (by simp; omega)] at hp
    have hn := a.frame.next_le
    rw [u2.toList_eq (by omega) (.inl (by omega))]
    exact toList_congr _ _ _ fun i _ => a.same (by simp; omega) _ _ ht

/-- **C113** (`PopHeap`).  The caller's slice is permuted in place as C07 says, the returned slice is its beginning, and
nothing outside the elements of the argument is written. -/
theorem C113_popHeap (f : α → α → Bool) (m : Mem α) (b : Slice) (h : WF m b) (hb : 0 < b.len) :
    ∃ m' t, popHeap f m b = .ok (m', t, (Heap.popHeap f (toList m b)).2.1, true) ∧
      sub b 0 (b.len - 1) = .ok t ∧
      toList m' t = (Heap.popHeap f (toList m b)).1 ∧ toList m' b = Heap.popBuf f (toList m b) ∧
      Frame m m' b b.len := by
  have hlc := h.len_le
  have hpos : (toList m b).length > 0 := by simpa using hb
  have htop : (Heap.popHeap f (toList m b)).2.1 = at_ m b 0 := by
    unfold Heap.popHeap; rw [dif_pos hpos]; simp [at_]
  have hres : ∀ m' : Mem α, toList m' b = Heap.popBuf f (toList m b) →
      toList m' ⟨b.arr, b.off + 0, b.len - 1 - 0, b.cap - 0⟩ = (Heap.popHeap f (toList m b)).1 := fun m' e => by
    unfold Heap.popHeap; rw [dif_pos hpos]
    simp only [Nat.add_zero, Nat.sub_zero]
    rw [toList_take m' b _ (by omega), e]; simp
  have hs := sub_ok b 0 (b.len - 1) (by omega) (by omega)
  have hg0 : ∀ m : Mem α, get m b 0 = .ok (at_ m b 0) := fun m => if_pos hb
  by_cases h1 : b.len > 1
  · have hsw := swap_ok m b 0 (b.len - 1) hb (by omega)
    have htl := toList_swap m b 0 (b.len - 1) hb (by omega)
    generalize hm1 : put (put m b 0 (at_ m b (b.len - 1))) b (b.len - 1) (at_ m b 0) = m1 at *
    have hfr1 : Frame m m1 b b.len := by
      rw [← hm1]; exact (frame_put m b 0 _ hb).trans (frame_put _ b _ _ (by omega))
    simp only [popHeap, hb, if_true, hg0, Res.bind_ok, h1, hsw, hs, Res.pure_eq, Nat.add_zero, Nat.sub_zero]
    have hlt : 0 < (toList m1 ⟨b.arr, b.off, b.len - 1, b.cap⟩).length := by simp; omega
    obtain ⟨d1, d2⟩ := adjustDown_eq f m1 ⟨b.arr, b.off, b.len - 1, b.cap⟩ 0 (at_ m1 b 0) hlt
    have hv : at_ m1 b 0 = (toList m b)[b.len - 1]'(by simp; omega) := by
      have e : at_ m1 b 0 = (toList m1 b)[0]'(by simpa using hb) := by simp [at_]
      rw [e]
      simp only [htl]
      rw [List.getElem_set_ne (by omega), List.getElem_set_self]
    have hbuf : toList (adjustDown f m1 ⟨b.arr, b.off, b.len - 1, b.cap⟩ 0 (at_ m1 b 0)) b = Heap.popBuf f (toList m b) := by
      rw [toList_split _ b (b.len - 1) (by omega) b.cap 0, d1]
      unfold Heap.popBuf
      rw [dif_pos (by simpa using h1)]
      congr 1
      · apply adjustDown_congr
        · rw [toList_take m1 b _ (by omega), htl, List.take_set_of_le (by omega)]; simp
        · rfl
        · rw [hv]; simp
      · have hlast : m1.cell b.arr (b.off + (b.len - 1)) = (toList m b)[0] := by
          have e : m1.cell b.arr (b.off + (b.len - 1)) = (toList m1 b)[b.len - 1]'(by simp; omega) := by simp
          rw [e]
          simp only [htl, List.getElem_set_self]
        rw [← hlast]
        have e1 : b.len - (b.len - 1) = 1 := by omega
        rw [e1]
        simp only [toList, List.range_one, List.map_cons, List.map_nil, Nat.add_zero, List.cons.injEq, and_true]
        exact d2.cell_eq _ _ (by have := h.arr_lt; have := hfr1.next_le; omega) (.inr (.inr (by dsimp only; omega)))
    refine ⟨_, _, by rw [htop], rfl, ?_, hbuf, hfr1.trans (d2.mono rfl (Nat.le_refl _) (by dsimp only; omega))⟩
    have := hres _ hbuf
    simpa only [Nat.add_zero, Nat.sub_zero] using this
  · have hbuf : toList m b = Heap.popBuf f (toList m b) := by
      unfold Heap.popBuf; rw [dif_neg (by simpa using h1)]
    refine ⟨m, _, ?_, hs, hres m hbuf, hbuf, .refl ..⟩
    simp only [popHeap, hb, if_true, hg0, Res.bind_ok, h1, if_false, hs, Res.pure_eq]
    rw [htop]

theorem makeLoop_eq (f : α → α → Bool) (b : Slice) (i : Nat) : ∀ (m : Mem α) (hi : i < (toList m b).length),
    toList (makeLoop f m b i) b = Heap.makeLoop f (toList m b) i hi ∧ Frame m (makeLoop f m b i) b b.len := by
  induction i with
  | zero =>
    intro m hi
    have := adjustDown_eq f m b 0 (at_ m b 0) hi
    simp only [makeLoop, Heap.makeLoop]
    refine ⟨this.1.trans ?_, this.2⟩
    apply adjustDown_congr _ rfl rfl; simp [at_]
  | succ i ih =>
    intro m hi
    obtain ⟨a1, a2⟩ := adjustDown_eq f m b (i + 1) (at_ m b (i + 1)) hi
    simp only [makeLoop, Heap.makeLoop]
    obtain ⟨b1, b2⟩ := ih (adjustDown f m b (i + 1) (at_ m b (i + 1))) (by simp at hi ⊢; omega)
    refine ⟨b1.trans ?_, a2.trans b2⟩
    congr 1
    rw [a1]
    apply adjustDown_congr _ rfl rfl; simp [at_]

/-- **C113** (`MakeHeap`).  The caller's slice is rearranged in place as C07 says; nothing else is written. -/
theorem C113_makeHeap (f : α → α → Bool) (m : Mem α) (b : Slice) :
    toList (makeHeap f m b) b = Heap.makeHeap f (toList m b) ∧ Frame m (makeHeap f m b) b b.len := by
  unfold makeHeap Heap.makeHeap
  by_cases h : b.len > 1
  · rw [if_pos h, dif_pos (by simpa using h)]
    have := makeLoop_eq f b (b.len / 2) m (by simp; omega)
    refine ⟨this.1.trans ?_, this.2⟩
    congr 1; simp
  · rw [if_neg h, dif_neg (by simpa using h)]
    exact ⟨rfl, .refl ..⟩

theorem sortLoop_eq (f : α → α → Bool) (b : Slice) (n : Nat) : ∀ (m : Mem α) (t : Slice) (fuel : Nat),
    WF m b → t.arr = b.arr → t.off = b.off → t.cap = b.cap → t.len = n → n ≤ b.len → n ≤ fuel →
    ∃ m', sortLoop f fuel m t = .ok m' ∧ (∀ fuel' ≥ n, sortLoop f fuel' m t = .ok m') ∧
      toList m' b = Heap.sortLoop f (toList m b) n ∧ Frame m m' b b.len := by
  induction n with
  | zero =>
    intro m t fuel _ _ _ _ hl _ _
    have key : ∀ fuel, sortLoop f fuel m t = .ok m := fun fuel => by
      cases fuel <;> simp [sortLoop, hl]
    exact ⟨m, key _, fun _ _ => key _, rfl, .refl ..⟩
  | succ n ih =>
    intro m t fuel hw ta tof tc hl hn hf
    by_cases h1 : n + 1 > 1
    · have hwt : WF m t := ⟨by rw [tc, hl]; exact Nat.le_trans hn hw.len_le, by rw [ta]; exact hw.arr_lt⟩
      obtain ⟨m1, t1, e1, e2, e3, e4, e5⟩ := C113_popHeap f m t hwt (by omega)
      have ht1 : t1 = ⟨t.arr, t.off, n, t.cap⟩ := by
        have := sub_ok t 0 (t.len - 1) (by omega) (by have := hwt.len_le; omega)
        rw [this] at e2
        simp only [Res.ok.injEq] at e2
        rw [← e2, hl]; simp
      have hw1 : WF m1 b := ⟨hw.len_le, Nat.lt_of_lt_of_le hw.arr_lt e5.next_le⟩
      have hfr : Frame m m1 b b.len := e5.mono ta.symm (by omega) (by omega)
      obtain ⟨m2, s1, s2, s3, s4⟩ := ih m1 t1 n hw1 (by rw [ht1]; exact ta) (by rw [ht1]; exact tof)
        (by rw [ht1]; exact tc) (by rw [ht1]) (by omega) (Nat.le_refl _)
      have key : ∀ fuel ≥ n + 1, sortLoop f fuel m t = .ok m2 := fun fuel hfu => by
        obtain ⟨k, rfl⟩ : ∃ k, fuel = k + 1 := ⟨fuel - 1, by omega⟩
        simp only [sortLoop, hl, h1, if_true, e1, Res.bind_ok]
        exact s2 k (by omega)
      refine ⟨m2, key fuel hf, key, ?_, hfr.trans s4⟩
      rw [s3]
      conv_rhs => rw [Heap.sortLoop, if_pos h1]
      congr 1
      have htt : toList m t = (toList m b).take (n + 1) := by
        have := toList_take m b (n + 1) hn t.cap
        rw [← this, ← ta, ← tof, ← hl]
      rw [← htt, ← e4, toList_split m1 b (n + 1) hn t.cap 0]
      congr 1
      · rw [← ta, ← tof, ← hl]
      · rw [← toList_drop m b (n + 1) hn 0]
        refine toList_congr _ _ _ fun i _ => e5.cell_eq _ _ hw.arr_lt (.inr (.inr (by dsimp only; omega)))
    · have key : ∀ fuel ≥ n + 1, sortLoop f fuel m t = .ok m := fun fuel hfu => by
        obtain ⟨k, rfl⟩ : ∃ k, fuel = k + 1 := ⟨fuel - 1, by omega⟩
        simp [sortLoop, hl, h1]
      refine ⟨m, key fuel hf, key, ?_, .refl ..⟩
      rw [Heap.sortLoop, if_neg h1]

/-- **C113, `PopHeap` of an empty slice.** Memory stays as it is; the result is empty, has no room, and reports the absence
of a value. -/
theorem C113_popHeap_empty (f : α → α → Bool) (m : Mem α) (b : Slice) (hb : b.len = 0) :
    ∃ t, popHeap f m b = .ok (m, t, default, false) ∧ toList m t = [] ∧ t.cap = 0 := by
  refine ⟨⟨b.arr, b.off, 0, 0⟩, by simp [popHeap, hb], rfl, rfl⟩

example := C113_popHeap_empty intLt (⟨fun _ _ => 0, 1⟩ : Mem Int) ⟨0, 2, 0, 4⟩ rfl

/-- **C113** (`SortHeap`).  It never panics, its loop ends after at most as many rounds as there are elements, and
afterwards the caller's own slice is sorted (C09): a permutation of what it was, ascending for a max-top heap and
descending for a min-top heap.  Nothing outside the elements of the slice is written. -/
theorem C113_sortHeap {less : α → α → Bool} (hw : StrictWeak less) (maxTop : Bool) (m : Mem α) (b : Slice) (h : WF m b) :
    ∃ m', sortHeap (Heap.cmpOf less maxTop) m b = .ok (m', b) ∧
      (∀ fuel ≥ b.len, sortLoop (Heap.cmpOf less maxTop) fuel (makeHeap (Heap.cmpOf less maxTop) m b) b = .ok m') ∧
      (toList m' b).Perm (toList m b) ∧ SortedBy (if maxTop then less else fun x y => less y x) (toList m' b) ∧
      ∀ t : Slice, t.arr < m.next → (t.arr ≠ b.arr ∨ t.off + t.len ≤ b.off ∨ b.off + b.len ≤ t.off) →
        toList m' t = toList m t := by
  obtain ⟨a1, a2⟩ := C113_makeHeap (Heap.cmpOf less maxTop) m b
  obtain ⟨m', s1, s2, s3, s4⟩ := sortLoop_eq (Heap.cmpOf less maxTop) b b.len (makeHeap (Heap.cmpOf less maxTop) m b) b b.len
    ⟨h.len_le, Nat.lt_of_lt_of_le h.arr_lt a2.next_le⟩ rfl rfl rfl rfl (Nat.le_refl _) (Nat.le_refl _)
  have e : toList m' b = Heap.sortHeap (Heap.cmpOf less maxTop) (toList m b) := by
    rw [s3, Heap.sortHeap, ← a1, length_toList]
  obtain ⟨c1, c2⟩ := Heap.C09_sortHeap hw maxTop (toList m b)
  refine ⟨m', by simp [sortHeap, s1], s2, by rw [e]; exact c1, by rw [e]; exact c2, fun t ht hd => ?_⟩
  exact (a2.trans s4).toList_eq ht hd

/-! ## The stack -/

/-- A stack in memory: its slice, and whether it is nil. -/
structure StackMem where
  d : Slice
  isNil : Bool

/-- One call on a stack, in memory. -/
def stackCall (g : Grow) (m : Mem α) (s : StackMem) : StackOp α → Res (Mem α × StackMem × Out α)
  | .init n => do
    let (m, d) ← stackInit m s.d s.isNil n
    return (m, ⟨d, s.isNil && !((if -1 = n then 10 else n) > 0)⟩, .unit)
  | .clear => do
    let (m, d) ← stackInit m s.d s.isNil (-1)
    return (m, ⟨d, false⟩, .unit)
  | .push v => let (m, d, ok) := stackPush g m s.d v; return (m, ⟨d, false⟩, .bool ok)
  | .pop => do let (m, d, v, ok) ← stackPop m s.d; return (m, ⟨d, s.isNil⟩, .val v ok)
  | .top => do let (v, ok) ← stackTop m s.d; return (m, s, .val v ok)
  | .size => return (m, s, .nat s.d.len)
  | .empty => return (m, s, .bool (s.d.len == 0))

/-- A history of calls on a stack, in memory. -/
def stackRun (g : Grow) (m : Mem α) (s : StackMem) : List (StackOp α) → Res (Mem α × StackMem × List (Out α))
  | [] => return (m, s, [])
  | c :: cs => do
    let (m, s, o) ← stackCall g m s c
    let (m, s, os) ← stackRun g m s cs
    return (m, s, o :: os)

theorem stackInit_spec (m : Mem α) (d : Slice) (isNil : Bool) (n : Int) (h : WF m d) :
    ∃ m' d', stackInit m d isNil n = .ok (m', d') ∧ WF m' d' ∧ toList m' d' = [] ∧ m.next ≤ m'.next ∧
      (∀ b q, b < m.next → m'.cell b q = m.cell b q) ∧ (Stays d d' ∨ m.next ≤ d'.arr) := by
  have base : ∀ (m : Mem α) (d : Slice), WF m d → ∃ d', sub d 0 0 = .ok d' ∧ WF m d' ∧ toList m d' = [] ∧ Stays d d' :=
    fun m d h => ⟨_, sub_ok d 0 0 (Nat.le_refl _) (Nat.zero_le _), ⟨by simp, h.arr_lt⟩, by simp [toList], rfl, rfl, rfl⟩
  unfold stackInit
  by_cases hn : isNil = true ∧ (if -1 = n then 10 else n) > 0
  · obtain ⟨rfl, hn⟩ := hn
    simp only [if_true, hn]
    rw [make, if_neg (by omega)]
    simp only [Res.bind_ok]
    obtain ⟨d', e1, e2, e3, e4⟩ := base (alloc m [] (if -1 = n then 10 else n).toNat).1
      (alloc m [] (if -1 = n then 10 else n).toNat).2 ⟨by simp [alloc], by simp [alloc, store]⟩
    rw [e1]
    refine ⟨_, d', rfl, e2, e3, by simp [alloc, store], fun b q hb => ?_, .inr ?_⟩
    · simp only [alloc, store_cell]; rw [if_neg (by omega), if_neg (by omega)]
    · rw [e4.1]; exact Nat.le_refl _
  · obtain ⟨d', e1, e2, e3, e4⟩ := base m d h
    refine ⟨m, d', ?_, e2, e3, Nat.le_refl _, fun _ _ _ => rfl, .inl e4⟩
    cases isNil
    · simp [e1]
    · have : ¬ (if -1 = n then 10 else n) > 0 := fun e => hn ⟨rfl, e⟩
      simp [this, e1]

/-- **C113** (stack).  Every history of calls on a stack in memory gives the results of C01 whatever the capacity and the
growth policy, never panics, and keeps the elements of every slice in another array. -/
theorem C113_stack (g : Grow) (cs : List (StackOp α)) : ∀ (m : Mem α) (s : StackMem), WF m s.d →
    ∃ m' s' os, stackRun g m s cs = .ok (m', s', os) ∧ WF m' s'.d ∧
      runSpec stackStep (toList m s.d).reverse cs = ((toList m' s'.d).reverse, os) ∧
      (∀ t : Slice, t.arr < m.next → t.arr ≠ s.d.arr → toList m' t = toList m t) ∧
      m.next ≤ m'.next ∧ (s'.d.arr = s.d.arr ∨ m.next ≤ s'.d.arr) := by
  induction cs with
  | nil => intro m s h; exact ⟨m, s, [], rfl, h, rfl, fun _ _ _ => rfl, Nat.le_refl _, .inl rfl⟩
  | cons c cs ih =>
    intro m s h
    have step : ∃ m1 s1 o, stackCall g m s c = .ok (m1, s1, o) ∧ WF m1 s1.d ∧
        stackStep (toList m s.d).reverse c = ((toList m1 s1.d).reverse, o) ∧
        (∀ b q, b < m.next → b ≠ s.d.arr → m1.cell b q = m.cell b q) ∧ m.next ≤ m1.next ∧
        (s1.d.arr = s.d.arr ∨ m.next ≤ s1.d.arr) := by
      have hlc := h.len_le
      have hst : ∀ {d' : Slice}, Stays s.d d' ∨ m.next ≤ d'.arr → d'.arr = s.d.arr ∨ m.next ≤ d'.arr :=
        fun e => e.imp (fun e => e.1) id
      have topE : stackTop m s.d = .ok (match (toList m s.d).reverse.head? with
          | some v => (v, true) | none => (default, false)) := by
        unfold stackTop
        by_cases hp : s.d.len > 0
        · rw [if_pos hp, get, if_pos (by omega)]
          have : (toList m s.d).reverse.head? = some (at_ m s.d (s.d.len - 1)) := by
            rw [List.head?_reverse, List.getLast?_eq_getElem?, length_toList, getElem?_toList _ _ _ (by omega)]; rfl
          rw [this]; rfl
        · rw [if_neg hp]
          have : toList m s.d = [] := List.eq_nil_of_length_eq_zero (by simp; omega)
          rw [this]; rfl
      cases c with
      | init n =>
        obtain ⟨m', d', e1, e2, e3, e4, e5, e6⟩ := stackInit_spec m s.d s.isNil n h
        refine ⟨m', ⟨d', _⟩, .unit, by simp only [stackCall, e1, Res.bind_ok]; rfl, e2, ?_, fun b q hb _ => e5 b q hb, e4,
          hst e6⟩
        simp [stackStep, e3]
      | clear =>
        obtain ⟨m', d', e1, e2, e3, e4, e5, e6⟩ := stackInit_spec m s.d s.isNil (-1) h
        refine ⟨m', ⟨d', _⟩, .unit, by simp only [stackCall, e1, Res.bind_ok]; rfl, e2, ?_, fun b q hb _ => e5 b q hb, e4,
          hst e6⟩
        simp [stackStep, e3]
      | push v =>
        have a := append_spec g m s.d [v] h
        refine ⟨(append g m s.d [v]).1, ⟨(append g m s.d [v]).2, false⟩, .bool true, rfl, a.wf, ?_, fun b q hb hne => a.frame.cell_eq b q hb (.inl hne), a.frame.next_le, ?_⟩
        · simp only [stackStep]; rw [a.list]; simp
        · have hp := a.place
          split at hp
          · exact .inl (by dsimp only; rw [hp.2])
          · exact .inr (by dsimp only; omega)
      | pop =>
        simp only [stackCall, stackPop, topE, Res.bind_ok, stackStep]
        by_cases hp : s.d.len > 0
        · have hl : toList m s.d ≠ [] := fun e => by have := congrArg List.length e; simp at this; omega
          obtain ⟨x, l, e⟩ := List.exists_cons_of_ne_nil (List.reverse_ne_nil_iff.mpr hl)
          rw [e]
          simp only [List.head?_cons, if_true]
          rw [sub_ok s.d 0 _ (by omega) (by omega)]
          refine ⟨_, _, _, rfl, ⟨by dsimp only; omega, h.arr_lt⟩, ?_, fun _ _ _ _ => rfl, Nat.le_refl _, .inl rfl⟩
          simp only [Nat.add_zero, Nat.sub_zero, outOpt, List.tail_cons]
          rw [toList_take m s.d _ (by omega)]
          have hr : toList m s.d = l.reverse ++ [x] := by
            have := congrArg List.reverse e; simpa using this
          have hlen : s.d.len - 1 = l.reverse.length := by
            have := congrArg List.length hr; simp at this; simp; omega
          rw [hr, hlen, List.take_left' rfl, List.reverse_reverse]
        · have hl : toList m s.d = [] := List.eq_nil_of_length_eq_zero (by simp; omega)
          rw [hl]
          exact ⟨_, _, _, rfl, h, by simp [hl, outOpt], fun _ _ _ _ => rfl, Nat.le_refl _, .inl rfl⟩
      | top =>
        simp only [stackCall, topE, Res.bind_ok, stackStep]
        refine ⟨_, _, _, rfl, h, ?_, fun _ _ _ _ => rfl, Nat.le_refl _, .inl rfl⟩
        cases (toList m s.d).reverse.head? <;> rfl
      | size => exact ⟨_, _, _, rfl, h, by simp [stackStep], fun _ _ _ _ => rfl, Nat.le_refl _, .inl rfl⟩
      | empty =>
        refine ⟨_, _, _, rfl, h, ?_, fun _ _ _ _ => rfl, Nat.le_refl _, .inl rfl⟩
        simp only [stackStep, Prod.mk.injEq, true_and, Out.bool.injEq]
        rw [Bool.eq_iff_iff, List.isEmpty_iff_length_eq_zero]; simp
    obtain ⟨m1, s1, o, c1, c2, c3, c4, c5, c6⟩ := step
    obtain ⟨m2, s2, os, d1, d2, d3, d4, d5, d6⟩ := ih m1 s1 c2
    refine ⟨m2, s2, o :: os, by simp [stackRun, c1, d1], d2, by simp [runSpec, c3, d3], fun t ht hne => ?_,
      Nat.le_trans c5 d5, ?_⟩
    · rw [d4 t (by omega) (by omega)]
      exact toList_congr _ _ _ fun i _ => c4 _ _ ht hne
    · omega

/-! ## Instances -/

/-- A memory with one array `[3, 1, 2, 7]`. -/
def exMem : Mem Int := ⟨fun a q => if a = 0 then [3, 1, 2, 7].getD q 0 else 0, 1⟩

/-- Doubling. -/
def exGrow : Grow := ⟨fun _ n => 2 * n, fun _ n => by omega⟩

example : WF exMem ⟨0, 0, 3, 4⟩ := ⟨by decide, by decide⟩
example : Fits 4 (toList exMem ⟨0, 0, 3, 4⟩) [.op (.push 9), .op (.remove 0), .swap 0 2] := by
  simp [Fits, listCall, SortSlice.step, SortSlice.push, SortSlice.remove, SortSlice.get, SortSlice.len, SortSlice.swap,
    toList, exMem, List.range_succ, Go.get, Go.set]
example : ¬ Fits 4 (toList exMem ⟨0, 0, 3, 4⟩) [.op (.push 9), .op (.push 8)] := by
  simp [Fits, listCall, SortSlice.step, SortSlice.push, toList, exMem, List.range_succ]
/-- `PushHeap(b[:3], 9)` overwrites `b[3]`. -/
example : toList (pushHeap exGrow (Heap.cmpOf intLt true) exMem ⟨0, 0, 3, 4⟩ 9).1 ⟨0, 0, 4, 4⟩ = [9, 3, 2, 1] := by
  decide +kernel
example : (match sortHeap (Heap.cmpOf intLt true) exMem ⟨0, 0, 4, 4⟩ with
    | .ok (m, b) => toList m b | .panic => []) = [1, 2, 3, 7] := by decide +kernel
example : (match memRun exGrow exMem ⟨0, 0, 3, 4⟩ [.op (.push 9), .op (.push 8), .op (.remove 0)] with
    | .ok (m, b, _) => (toList m b, toList m ⟨0, 0, 4, 4⟩) | .panic => ([], [])) = ([1, 2, 9, 8], [3, 1, 2, 9]) := by
  decide +kernel

theorem ex_wf : WF exMem ⟨0, 0, 3, 4⟩ := ⟨by decide, by decide⟩

example := C113_call exGrow exMem ⟨0, 0, 3, 4⟩ ex_wf (.op (.push 9))
example := C113_history exGrow exMem ⟨0, 0, 3, 4⟩ ex_wf [.op (.push 9), .op (.push 8), .swap 0 1]
example := C113_pushHeap exGrow intLt exMem ⟨0, 0, 3, 4⟩ ex_wf 9
example := C113_popHeap intLt exMem ⟨0, 0, 3, 4⟩ ex_wf (by decide)
example := C113_sortHeap intLt_strictWeak true exMem ⟨0, 0, 3, 4⟩ ex_wf

/-- One push fits into the array of the buffer, and a second one does not. -/
example := C113_buffer_live exGrow exMem ⟨0, 0, 3, 4⟩ ex_wf [.op (.push 9)]
  (by simp [Fits, listCall, SortSlice.step, SortSlice.push, toList, exMem, List.range_succ]) rfl
example := C113_buffer_detached exGrow exMem ⟨0, 0, 3, 4⟩ ex_wf [.op (.push 9), .op (.push 8)]
  (by simp [Fits, listCall, SortSlice.step, SortSlice.push, toList, exMem, List.range_succ]) rfl

end Verif.SliceMem
