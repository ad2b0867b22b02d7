import Verif.Lemmas.Heap
/-!
# C07–C12 — heaps

A heap created with `maxTop` has the comparator `createByBool (!maxTop)`; the specification side only
uses `below maxTop less` (Spec/Heap): `less` itself for a max-top heap, its converse for a min-top one.
-/

set_option linter.unusedSectionVars false

namespace Verif.Heap
open Verif.Spec Verif.Cmp
variable {α : Type}

/-- The comparison function of a heap created with `maxTop`. -/
abbrev cmpOf (less : α → α → Bool) (maxTop : Bool) : α → α → Bool :=
  cmpV less (init 0 maxTop : Heap α).cmp

theorem cmpOf_eq (less : α → α → Bool) (maxTop : Bool) :
    cmpOf less maxTop = fun c p => !below maxTop less p c := cmpV_eq less maxTop

/-! ## C07 -/

/-- **C07 (PushHeap).** -/
theorem C07_pushHeap {less : α → α → Bool} (hw : StrictWeak less) (maxTop : Bool) (b : List α) (v : α)
    (h : IsHeap (below maxTop less) b) :
    IsHeap (below maxTop less) (pushHeap (cmpOf less maxTop) b v) ∧
      (pushHeap (cmpOf less maxTop) b v).Perm (v :: b) := by
  rw [cmpOf_eq, isHeap_iff_heapFrom]
  exact ⟨pushHeap_heap (below_strictWeak hw maxTop) b v ((isHeap_iff_heapFrom _ _).mp h), pushHeap_perm _ b v⟩

/-- **C07 (PopHeap).**  On a non-empty slice: the result slice is a heap, the returned value is the
former root, together they are the former elements, and the argument slice holds the result slice
followed by the former root. -/
theorem C07_popHeap [Inhabited α] {less : α → α → Bool} (hw : StrictWeak less) (maxTop : Bool) (x : α) (xs : List α)
    (h : IsHeap (below maxTop less) (x :: xs)) :
    ∃ t, popHeap (cmpOf less maxTop) (x :: xs) = (t, x, true) ∧ IsHeap (below maxTop less) t ∧
      (x :: xs).Perm (x :: t) ∧ popBuf (cmpOf less maxTop) (x :: xs) = t ++ [x] := by
  rw [cmpOf_eq]
  have hp : 0 < (x :: xs).length := by simp
  obtain ⟨t, e, p, hl⟩ := popBuf_eq (fun c p => !below maxTop less p c) (x :: xs) hp
  have hh := popBuf_heap (below_strictWeak hw maxTop) _ ((isHeap_iff_heapFrom _ _).mp h)
  rw [e, ← hl, List.take_left' rfl] at hh
  refine ⟨t, ?_, (isHeap_iff_heapFrom _ _).mpr hh, p.trans (by simp), e⟩
  unfold popHeap
  rw [dif_pos hp, e, ← hl, List.take_left' rfl]
  rfl

/-- **C07 (PopHeap on an empty slice)** reports false. -/
theorem C07_popHeap_nil [Inhabited α] (less : α → α → Bool) (maxTop : Bool) :
    popHeap (cmpOf less maxTop) [] = ([], default, false) := rfl

/-- **C07 (MakeHeap).** -/
theorem C07_makeHeap {less : α → α → Bool} (hw : StrictWeak less) (maxTop : Bool) (b : List α) :
    IsHeap (below maxTop less) (makeHeap (cmpOf less maxTop) b) ∧ (makeHeap (cmpOf less maxTop) b).Perm b := by
  rw [cmpOf_eq, isHeap_iff_heapFrom]
  exact ⟨makeHeap_heap (below_strictWeak hw maxTop) b, makeHeap_perm _ b⟩

/-- Instances of the hypotheses: the integers are strictly weakly ordered and `[9, 7, 8, 1, 7]` is a
max-heap. -/
example : StrictWeak intLt ∧ IsHeap (below true intLt) [9, 7, 8, 1, 7] := by
  refine ⟨intLt_strictWeak, (isHeap_iff_heapFrom _ _).mpr ?_⟩
  have : ∀ i (hi : i < 5), 0 < i → below true intLt ([9, 7, 8, 1, 7][parent i]'(by simp [parent]; omega)) [9, 7, 8, 1, 7][i] = false := by
    decide
  intro i hi h0 _
  exact this i hi h0

example : makeHeap (cmpOf intLt true) [1, 5, 2, 9, 7] = [9, 7, 2, 5, 1] := by
  decide +kernel

/-! ## C08, and C11 for mixed histories -/

/-- One client call on the heap, with the event it produces. -/
def step [Inhabited α] (less : α → α → Bool) (s : Heap α) : HeapOp α → Res (Heap α × HeapEvent α)
  | .push v => do let s' ← push less s v; return (s', .push v)
  | .pop => return ((pop less s).1, .pop (pop less s).2.1 (pop less s).2.2)
  | .top => do let (v, ok) ← top s; return (s, .top v ok)
  | .size => return (s, .size (size s))
  | .empty => return (s, .empty (empty s))

/-- A history of client calls. -/
def run [Inhabited α] (less : α → α → Bool) (s : Heap α) : List (HeapOp α) → Res (Heap α × List (HeapEvent α))
  | [] => return (s, [])
  | op :: ops => do
    let (s', e) ← step less s op
    let (s'', es) ← run less s' ops
    return (s'', e :: es)

/-- Facts kept by every call. -/
structure Inv (less : α → α → Bool) (limitN : Int) (maxTop : Bool) (s : Heap α) : Prop where
  heap : IsHeap (below maxTop less) s.b
  limit : s.limitN = limitN
  cmp : s.cmp = (init 0 maxTop : Heap α).cmp

theorem init_inv (less : α → α → Bool) (limitN : Int) (maxTop : Bool) :
    Inv less limitN maxTop (init limitN maxTop) :=
  ⟨by intro i p c _ h; simp [init] at h, rfl, rfl⟩

variable [Inhabited α]

theorem pop_spec {less : α → α → Bool} (hw : StrictWeak less) {limitN : Int} {maxTop : Bool} {s : Heap α}
    (h : Inv less limitN maxTop s) (x : α) (xs : List α) (hb : s.b = x :: xs) :
    ∃ s', pop less s = (s', x, true) ∧ Inv less limitN maxTop s' ∧ s.b.Perm (x :: s'.b) ∧
      ∀ y ∈ s.b, below maxTop less x y = false := by
  have hh := h.heap
  rw [hb] at hh
  obtain ⟨t, e, ht, p, _⟩ := C07_popHeap hw maxTop x xs hh
  refine ⟨{ s with b := t }, ?_, ⟨ht, h.limit, h.cmp⟩, by rw [hb]; exact p, ?_⟩
  · unfold pop
    rw [h.cmp, hb]
    have : cmpV less (init 0 maxTop : Heap α).cmp = cmpOf less maxTop := rfl
    rw [this, e, ← h.cmp]
  · intro y hy
    rw [hb] at hy
    exact root_best_mem (below_strictWeak hw maxTop) _ ((isHeap_iff_heapFrom _ _).mp hh) (by simp) y hy

theorem top_spec {s : Heap α} (x : α) (xs : List α) (hb : s.b = x :: xs) : top s = .ok (x, true) := by
  simp [top, empty, size, hb, Go.get]

theorem push_spec {less : α → α → Bool} (hw : StrictWeak less) {limitN : Int} {maxTop : Bool} {s : Heap α}
    (h : Inv less limitN maxTop s) (v : α) :
    ∃ s', push less s v = .ok s' ∧ Inv less limitN maxTop s' ∧
      HeapStep (below maxTop less) limitN s.b (.push v) s'.b := by
  have hb' := below_strictWeak hw maxTop
  unfold push
  by_cases hc : s.limitN > 0 ∧ (size s : Int) ≥ s.limitN
  · rw [if_pos hc]
    obtain ⟨h1, h2⟩ := hc
    rw [h.limit] at h1 h2
    cases hb : s.b with
    | nil => simp [size, hb] at h2; omega
    | cons x xs =>
      rw [top_spec x xs hb]
      simp only [Res.bind_ok]
      have hcv : cmpV less s.cmp v x = !below maxTop less x v := by
        rw [h.cmp]; exact congrFun (congrFun (cmpOf_eq less maxTop) v) x
      obtain ⟨s1, e1, i1, p1, m1⟩ := pop_spec hw h x xs hb
      rw [hb] at p1 m1
      have hsz : ((x :: xs).length : Int) ≥ limitN := by simpa [size, hb] using h2
      cases hlt : below maxTop less x v with
      | true =>
        simp only [hcv, hlt, Bool.not_true, Bool.and_false, Bool.false_eq_true, if_false]
        refine ⟨s, rfl, h, ?_⟩
        rw [hb]
        refine HeapStep.pushFull _ v v _ h1 hsz (List.Perm.refl _) ?_
        intro y hy
        rcases List.mem_cons.mp hy with rfl | hy
        · exact hb'.irrefl _
        · exact hb'.ge_trans (hb'.asymm hlt) (m1 y hy)
      | false =>
        simp only [hcv, hlt, Bool.not_false, Bool.and_true, if_true]
        rw [e1]
        obtain ⟨q1, q2⟩ := C07_pushHeap hw maxTop s1.b v i1.heap
        refine ⟨_, rfl, ⟨?_, i1.limit, i1.cmp⟩, ?_⟩
        · simpa [h.cmp] using q1
        · refine HeapStep.pushFull _ v x _ h1 hsz ?_ ?_
          · simp only [h.cmp]
            exact ((p1.cons v).trans (List.Perm.swap _ _ _)).trans (q2.symm.cons x)
          · intro y hy
            rcases List.mem_cons.mp hy with rfl | hy
            · exact hlt
            · exact m1 y hy
  · rw [if_neg hc]
    obtain ⟨q1, q2⟩ := C07_pushHeap hw maxTop s.b v h.heap
    refine ⟨_, rfl, ⟨?_, h.limit, h.cmp⟩, ?_⟩
    · simpa [h.cmp] using q1
    · refine HeapStep.push _ v _ ?_ ?_
      · rw [h.limit] at hc; unfold size at hc; omega
      · simpa [h.cmp] using q2

theorem step_spec {less : α → α → Bool} (hw : StrictWeak less) {limitN : Int} {maxTop : Bool} {s : Heap α}
    (h : Inv less limitN maxTop s) (op : HeapOp α) :
    ∃ s' e, step less s op = .ok (s', e) ∧ Inv less limitN maxTop s' ∧ e.op = op ∧
      HeapStep (below maxTop less) limitN s.b e s'.b := by
  cases op with
  | push v =>
    obtain ⟨s', e, i, hs⟩ := push_spec hw h v
    exact ⟨s', .push v, by simp [step, e], i, rfl, hs⟩
  | pop =>
    refine ⟨_, _, rfl, ?_, rfl, ?_⟩
    · cases hb : s.b with
      | nil => simp only [pop, hb, popHeap]; exact ⟨by intro i p c _ hn; simp at hn, h.limit, h.cmp⟩
      | cons x xs => obtain ⟨s1, e1, i1, _⟩ := pop_spec hw h x xs hb; rw [e1]; exact i1
    · cases hb : s.b with
      | nil => simp only [pop, hb, popHeap]; exact HeapStep.popEmpty
      | cons x xs =>
        obtain ⟨s1, e1, _, p1, m1⟩ := pop_spec hw h x xs hb
        rw [e1, ← hb]
        exact HeapStep.pop _ x _ p1 m1
  | top =>
    cases hb : s.b with
    | nil =>
      refine ⟨s, .top default false, by simp [step, top, empty, size, hb], h, rfl, ?_⟩
      rw [hb]; exact HeapStep.topEmpty
    | cons x xs =>
      refine ⟨s, .top x true, by simp [step, top_spec x xs hb], h, rfl, ?_⟩
      rw [hb]
      have hh := h.heap
      rw [hb] at hh
      exact HeapStep.top _ x (by simp) (fun y hy =>
        root_best_mem (below_strictWeak hw maxTop) _ ((isHeap_iff_heapFrom _ _).mp hh) (by simp) y hy)
  | size => exact ⟨s, _, rfl, h, rfl, HeapStep.size _⟩
  | empty =>
    refine ⟨s, _, rfl, h, rfl, ?_⟩
    have : empty s = s.b.isEmpty := by
      unfold empty size; cases s.b <;> simp
    rw [this]; exact HeapStep.empty _

theorem run_spec {less : α → α → Bool} (hw : StrictWeak less) {limitN : Int} {maxTop : Bool}
    (ops : List (HeapOp α)) : ∀ {s : Heap α}, Inv less limitN maxTop s →
    ∃ s' es, run less s ops = .ok (s', es) ∧ Inv less limitN maxTop s' ∧ es.map HeapEvent.op = ops ∧
      HeapRun (below maxTop less) limitN s.b es s'.b := by
  induction ops with
  | nil => intro s h; exact ⟨s, [], rfl, h, rfl, HeapRun.nil _⟩
  | cons op ops ih =>
    intro s h
    obtain ⟨s1, e, e1, i1, o1, h1⟩ := step_spec hw h op
    obtain ⟨s2, es, e2, i2, o2, h2⟩ := ih i1
    exact ⟨s2, e :: es, by simp [run, e1, e2], i2, by simp [o1, o2], HeapRun.cons _ _ _ _ _ h1 h2⟩

/-- **C08.**  Every history of calls on a new heap (unbounded for `limitN ≤ 0`, bounded otherwise, either
direction) runs without panic and is a history of a priority queue: every value returned by Top or Pop
has nothing above it in the multiset of values stored at that moment, and Pop removes exactly it. -/
theorem C08_heap_history {less : α → α → Bool} (hw : StrictWeak less) (limitN : Int) (maxTop : Bool)
    (ops : List (HeapOp α)) :
    ∃ s' es, run less (init limitN maxTop) ops = .ok (s', es) ∧ es.map HeapEvent.op = ops ∧
      HeapRun (below maxTop less) limitN [] es s'.b := by
  obtain ⟨s', es, e, _, o, h⟩ := run_spec hw ops (init_inv less limitN maxTop)
  exact ⟨s', es, e, o, h⟩

/-- `n` calls of Pop: the values returned and the final heap. -/
def drain (less : α → α → Bool) : Nat → Heap α → List (α × Bool) × Heap α
  | 0, s => ([], s)
  | n + 1, s =>
    let (s', v, ok) := pop less s
    let (vs, s'') := drain less n s'
    ((v, ok) :: vs, s'')

theorem drain_spec {less : α → α → Bool} (hw : StrictWeak less) {limitN : Int} {maxTop : Bool} (n : Nat) :
    ∀ (s : Heap α), Inv less limitN maxTop s → s.b.length = n →
    ∃ (vs : List α) (s' : Heap α), drain less n s = (vs.map (fun v => (v, true)), s') ∧ s'.b = [] ∧ vs.Perm s.b ∧
      vs.Pairwise (fun a b => below maxTop less a b = false) := by
  induction n with
  | zero => intro s h hl; exact ⟨[], s, rfl, List.length_eq_zero_iff.mp hl, by rw [List.length_eq_zero_iff.mp hl], List.Pairwise.nil⟩
  | succ n ih =>
    intro s h hl
    cases hb : s.b with
    | nil => rw [hb] at hl; simp at hl
    | cons x xs =>
      obtain ⟨s1, e1, i1, p1, m1⟩ := pop_spec hw h x xs hb
      have hl1 : s1.b.length = n := by have := p1.length_eq; simp at this; omega
      obtain ⟨vs, s2, e2, hn, p2, so⟩ := ih s1 i1 hl1
      refine ⟨x :: vs, s2, by simp [drain, e1, e2], hn, ?_, ?_⟩
      · rw [← hb]; exact (p2.cons x).trans p1.symm
      · refine List.pairwise_cons.mpr ⟨fun y hy => m1 y ?_, so⟩
        exact p1.mem_iff.mpr (List.mem_cons_of_mem _ (p2.mem_iff.mp hy))

/-- **C08 (draining).**  After any history, popping as many times as there are elements succeeds every
time, returns exactly the stored multiset, best first, and leaves the heap empty. -/
theorem C08_heap_drain {less : α → α → Bool} (hw : StrictWeak less) (limitN : Int) (maxTop : Bool)
    (ops : List (HeapOp α)) (s : Heap α) (es : List (HeapEvent α))
    (hr : run less (init limitN maxTop) ops = .ok (s, es)) :
    ∃ (vs : List α) (s' : Heap α), drain less (size s) s = (vs.map (fun v => (v, true)), s') ∧ s'.b = [] ∧ vs.Perm s.b ∧
      vs.Pairwise (fun a b => below maxTop less a b = false) := by
  obtain ⟨s1, es1, e, i, _, _⟩ := run_spec hw ops (init_inv less limitN maxTop)
  rw [hr] at e
  cases e
  exact drain_spec hw _ s i rfl

/-- Instance: a history on a min-top heap of integers. -/
example : run intLt (init 0 false) [.push 5, .push 2, .push 9, .push 2, .top, .pop, .size]
    = .ok (⟨[2, 5, 9], 0, greater⟩, [.push 5, .push 2, .push 9, .push 2, .top 2 true, .pop 2 true, .size 3]) := by
  decide +kernel

/-! ## C09 -/

/-- **C09.**  `SortHeap` sorts any slice: the result is a permutation of the input, ascending for a
max-top heap and descending for a min-top heap. -/
theorem C09_sortHeap {less : α → α → Bool} (hw : StrictWeak less) (maxTop : Bool) (b : List α) :
    (sortHeap (cmpOf less maxTop) b).Perm b ∧
      SortedBy (if maxTop then less else fun x y => less y x) (sortHeap (cmpOf less maxTop) b) := by
  have hb := below_strictWeak hw maxTop
  have hm := C07_makeHeap hw maxTop b
  have e : (if maxTop then less else fun x y => less y x) = below maxTop less := by
    funext x y; cases maxTop <;> rfl
  rw [e]
  rw [cmpOf_eq] at *
  have := sortLoop_spec hb (makeHeap (fun c p => !below maxTop less p c) b).length
    (makeHeap (fun c p => !below maxTop less p c) b) (Nat.le_refl _)
    (by rw [List.take_length]; exact (isHeap_iff_heapFrom _ _).mp hm.1)
    (by rw [List.drop_length]; exact List.Pairwise.nil)
    (by intro x _ y hy; simp at hy)
  exact ⟨this.1.trans hm.2, this.2⟩

/-- **C09 (integers).**  Ascending or descending in the usual sense. -/
theorem C09_sortHeap_int (b : List Int) :
    ((sortHeap (cmpOf intLt true) b).Perm b ∧ (sortHeap (cmpOf intLt true) b).Pairwise (· ≤ ·)) ∧
    ((sortHeap (cmpOf intLt false) b).Perm b ∧ (sortHeap (cmpOf intLt false) b).Pairwise (· ≥ ·)) := by
  have h1 := C09_sortHeap intLt_strictWeak true b
  have h2 := C09_sortHeap intLt_strictWeak false b
  refine ⟨⟨h1.1, ?_⟩, ⟨h2.1, ?_⟩⟩
  · refine h1.2.imp ?_; intro x y; simp [intLt]
  · refine h2.2.imp ?_; intro x y; simp [intLt]

example : sortHeap (cmpOf intLt true) [3, 1, 2, 1] = [1, 1, 2, 3] := by
  decide +kernel

/-! ## C10 -/

/-- **C10.**  For any comparison function at all. -/
theorem C10_checkHeap (less : α → α → Bool) (maxTop : Bool) (b : List α) :
    checkHeap (cmpOf less maxTop) b = true ↔ IsHeap (below maxTop less) b := by
  rw [cmpOf_eq, isHeap_iff_heapFrom]
  unfold checkHeap
  by_cases h : b.length = 0
  · rw [dif_pos h]; simp only [true_iff]; intro i hi; omega
  · rw [dif_neg h, checkLoop_iff]
    constructor
    · intro hc i hi h0 _; exact hc i (by omega) h0
    · intro hc j hj h0; exact hc j (by omega) h0 (Nat.zero_le _)

example : checkHeap (cmpOf intLt true) [9, 7, 8] = true ∧ checkHeap (cmpOf intLt true) [9, 7, 10] = false := by
  decide

/-! ## C11 -/

/-- Pushing a sequence of values. -/
def pushAll (less : α → α → Bool) (s : Heap α) : List α → Res (Heap α)
  | [] => return s
  | v :: vs => do let s' ← push less s v; pushAll less s' vs

theorem pushAll_spec {less : α → α → Bool} (hw : StrictWeak less) {N : Nat} (hN : 0 < N) {maxTop : Bool} (vs : List α) :
    ∀ (s : Heap α) (seen dropped : List α), Inv less N maxTop s → seen.Perm (s.b ++ dropped) →
      s.b.length = min N seen.length → (∀ k ∈ s.b, ∀ d ∈ dropped, below maxTop less d k = false) →
    ∃ s' dropped', pushAll less s vs = .ok s' ∧ (seen ++ vs).Perm (s'.b ++ dropped') ∧
      s'.b.length = min N (seen ++ vs).length ∧ ∀ k ∈ s'.b, ∀ d ∈ dropped', below maxTop less d k = false := by
  have hb := below_strictWeak hw maxTop
  induction vs with
  | nil => intro s seen dropped h p l d; exact ⟨s, dropped, rfl, by simpa using p, by simpa using l, d⟩
  | cons v vs ih =>
    intro s seen dropped h p l d
    obtain ⟨s1, e1, i1, st⟩ := push_spec hw h v
    have pl := p.length_eq
    rw [List.length_append] at pl
    have hstep : ∃ dropped1, (seen ++ [v]).Perm (s1.b ++ dropped1) ∧
        s1.b.length = min N (seen ++ [v]).length ∧ ∀ k ∈ s1.b, ∀ d ∈ dropped1, below maxTop less d k = false := by
      have hsv : (seen ++ [v]).Perm (v :: (s.b ++ dropped)) :=
        (List.perm_append_comm (l₁ := seen) (l₂ := [v])).trans (p.cons v)
      generalize hev : HeapEvent.push v = ev at st
      generalize hsb : s.b = sb at *
      generalize hsb1 : s1.b = sb1 at *
      cases st <;> cases hev
      case push hlim hp =>
        have hd : dropped = [] := List.length_eq_zero_iff.mp (by omega)
        subst hd
        refine ⟨[], ?_, ?_, by simp⟩
        · simp only [List.append_nil] at *
          exact hsv.trans hp.symm
        · have := hp.length_eq; simp at this ⊢; omega
      case pushFull m hlim0 hlim hm hp =>
        refine ⟨m :: dropped, ?_, ?_, ?_⟩
        · refine hsv.trans ?_
          have := hp.append_right dropped
          exact this.trans (List.perm_middle).symm
        · have := hp.length_eq; simp at this ⊢; omega
        · intro k hk x hx
          have hkm : k ∈ v :: sb := hp.mem_iff.mpr (List.mem_cons_of_mem _ hk)
          rcases List.mem_cons.mp hx with rfl | hx
          · exact hm k hkm
          · rcases List.mem_cons.mp hkm with rfl | hkb
            · -- `k` is the new value: `m ≥ k`, and `x ≥ m` as `m` was in the heap (or is `k`)
              rcases List.mem_cons.mp (hp.mem_iff.mpr (List.mem_cons_self (a := m))) with rfl | hmb
              · -- `k = m` dropped one copy and kept another one, which was in the heap
                have hk' : m ∈ sb := by
                  have := hp.cons_inv.mem_iff (a := m)
                  exact this.mpr hk
                exact d m hk' x hx
              · exact hb.ge_trans (d m hmb x hx) (hm k (by simp))
            · exact d k hkb x hx
    obtain ⟨dropped1, p1, l1, d1⟩ := hstep
    obtain ⟨s2, dropped2, e2, p2, l2, d2⟩ := ih s1 (seen ++ [v]) dropped1 i1 p1 l1 d1
    refine ⟨s2, dropped2, by simp [pushAll, e1, e2], ?_, ?_, d2⟩
    · simpa using p2
    · simpa using l2

/-- **C11.**  Pushing any sequence into a heap limited to `N > 0` keeps `min N n` of the `n` values, and
no dropped value would rank better: for a max-top heap no dropped value is smaller than a kept one. -/
theorem C11_bounded_heap {less : α → α → Bool} (hw : StrictWeak less) (N : Nat) (hN : 0 < N) (maxTop : Bool)
    (vs : List α) :
    ∃ s dropped, pushAll less (init N maxTop) vs = .ok s ∧ vs.Perm (s.b ++ dropped) ∧
      s.b.length = min N vs.length ∧ ∀ k ∈ s.b, ∀ d ∈ dropped, below maxTop less d k = false := by
  obtain ⟨s, d, h⟩ := pushAll_spec hw hN vs (init N maxTop) [] [] (init_inv less N maxTop) (List.Perm.refl _)
    (by simp [init]) (by simp)
  exact ⟨s, d, by simpa using h⟩

/-- **C11 (integers, as a multiset).**  In increasing order, a max-top heap holds the first `N` of the
sorted input and a min-top heap (in decreasing order) the first `N` of the input sorted downwards. -/
theorem C11_bounded_heap_int (N : Nat) (hN : 0 < N) (vs sorted : List Int) (hp : sorted.Perm vs) :
    (sorted.Pairwise (· ≤ ·) → ∃ s, pushAll intLt (init N true) vs = .ok s ∧ s.b.Perm (sorted.take N)) ∧
    (sorted.Pairwise (· ≥ ·) → ∃ s, pushAll intLt (init N false) vs = .ok s ∧ s.b.Perm (sorted.take N)) := by
  have key : ∀ (maxTop : Bool) (le : Int → Int → Prop), (∀ a b, le a b → le b a → a = b) →
      (∀ a b c, le a b → le b c → le a c) → (∀ a b, le a b ∨ le b a) →
      (∀ a b, below maxTop intLt b a = false ↔ le a b) → sorted.Pairwise le →
      ∃ s, pushAll intLt (init N maxTop) vs = .ok s ∧ s.b.Perm (sorted.take N) := by
    intro maxTop le anti trans total hle hs
    obtain ⟨s, dropped, e, p, l, d⟩ := C11_bounded_heap intLt_strictWeak N hN maxTop vs
    refine ⟨s, e, ?_⟩
    classical
    let f : Int → Int → Bool := fun a b => decide (le a b)
    have hf1 : ∀ a b c, f a b = true → f b c = true → f a c = true := by
      intro a b c h1 h2; simp [f] at *; exact trans a b c h1 h2
    have hf2 : ∀ a b, (f a b || f b a) = true := by
      intro a b; simp [f]; exact total a b
    have s1 : (s.b.mergeSort f ++ dropped.mergeSort f).Pairwise le := by
      refine List.pairwise_append.mpr ⟨?_, ?_, ?_⟩
      · refine (List.pairwise_mergeSort hf1 hf2 s.b).imp ?_; intro a b h; simpa [f] using h
      · refine (List.pairwise_mergeSort hf1 hf2 dropped).imp ?_; intro a b h; simpa [f] using h
      · intro a ha b hb
        exact (hle a b).mp (d a ((List.mergeSort_perm _ _).mem_iff.mp ha) b ((List.mergeSort_perm _ _).mem_iff.mp hb))
    have heq : s.b.mergeSort f ++ dropped.mergeSort f = sorted := by
      refine List.Perm.eq_of_pairwise (le := le) ?_ s1 hs ?_
      · intro a b _ _ h1 h2; exact anti a b h1 h2
      · exact ((List.mergeSort_perm _ _).append (List.mergeSort_perm _ _)).trans (p.symm.trans hp.symm)
    rw [← heq]
    by_cases hv : vs.length ≤ N
    · have : dropped = [] := by
        have := p.length_eq; simp at this
        exact List.length_eq_zero_iff.mp (by omega)
      subst this
      rw [List.take_of_length_le (by simp; omega)]
      simpa using (List.mergeSort_perm s.b f).symm
    · rw [List.take_left' (by simp; omega)]
      exact (List.mergeSort_perm s.b f).symm
  constructor
  · intro hs
    exact key true (· ≤ ·) (fun a b => Int.le_antisymm) (fun a b c => Int.le_trans) Int.le_total
      (fun a b => by simp [below, intLt]) hs
  · intro hs
    exact key false (· ≥ ·) (fun a b h1 h2 => Int.le_antisymm h2 h1) (fun a b c h1 h2 => Int.le_trans h2 h1)
      (fun a b => Int.le_total b a) (fun a b => by simp [below, intLt]) hs

/-- Instance: the 2 smallest of five values. -/
example : pushAll intLt (init 2 true) [5, 1, 4, 1, 3] = .ok ⟨[1, 1], 2, lesser⟩ := by
  decide +kernel

/-! ## C12 -/

/-- **C12 is false**: `Reverse` of an empty slice panics. -/
theorem C12_reverse_false : ¬ ∀ b : List Int, reverse b = .ok b.reverse := by
  intro h; have := h []; revert this; decide

/-- **C12, partial.**  Missing: the empty slice, on which `Reverse` panics
(`C12_reverse_nil_panics`).  Every non-empty slice is reversed. -/
theorem C12_reverse_partial (b : List α) (hb : b ≠ []) : reverse b = .ok b.reverse := by
  have hpos : 0 < b.length := List.length_pos_iff.mpr hb
  obtain ⟨l, hl⟩ : ∃ l, b.length = l + 1 := ⟨b.length - 1, by omega⟩
  obtain ⟨r, e, hr, hx⟩ := revLoop_spec (l / 2) b l hl (by omega)
  have e1 : ((b.length : Int) - 1) = (l : Int) := by omega
  have e2 : ((l : Int).tdiv 2).toNat = l / 2 := by
    rw [Int.tdiv_eq_ediv_of_nonneg (by omega)]; omega
  unfold reverse
  rw [e1, e2, e]
  congr 1
  apply List.ext_getElem?
  intro j
  by_cases hj : j ≤ l
  · rw [hx j hj, if_pos (by omega), List.getElem?_reverse (by omega)]
    congr 1; omega
  · rw [List.getElem?_eq_none (by omega), List.getElem?_eq_none (by simp; omega)]

/-- **C12, what goes wrong.** -/
theorem C12_reverse_nil_panics : reverse ([] : List α) = .panic := by
  simp [reverse, revLoop, swapI, getI, Go.get]

example : reverse [1, 2, 3, 4] = .ok [4, 3, 2, 1] := by decide

/-! The theorems on the heap 9, 7, 8, 1, 7. -/

theorem ex_heap : IsHeap (below true intLt) [9, 7, 8, 1, 7] := by
  refine (isHeap_iff_heapFrom _ _).mpr ?_
  have : ∀ i (hi : i < 5), 0 < i → below true intLt ([9, 7, 8, 1, 7][parent i]'(by simp [parent]; omega)) [9, 7, 8, 1, 7][i] = false := by
    decide
  intro i hi h0 _
  exact this i hi h0
example := C07_pushHeap intLt_strictWeak true [9, 7, 8, 1, 7] 8 ex_heap
example := C07_popHeap intLt_strictWeak true 9 [7, 8, 1, 7] ex_heap
example := C08_heap_history intLt_strictWeak 3 true [.push 5, .push 2, .push 9, .pop, .push 2, .top, .pop, .size]
example := C11_bounded_heap intLt_strictWeak 2 (by decide) true [5, 1, 4, 1, 3]

example := C09_sortHeap intLt_strictWeak true [3, 1, 2, 1]
example := C12_reverse_partial [1, 2, 3, 4] (by decide)

end Verif.Heap
