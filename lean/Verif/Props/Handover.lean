import Verif.Lemmas.LFQueueHandover
import Verif.Lemmas.RingHandover
import Verif.Lemmas.LFDequeHandover
import Verif.Lemmas.SpinHandover
import Mathlib.Tactic.IntervalCases
/-!
# C145: handing values over between goroutines

What a goroutine did before it put a value into a container happens before what another goroutine does after it has taken the value
out.  The executions are those of C142: sequentially consistent interleavings of single accesses.  Specification: Spec/Handover.
-/
set_option linter.unusedSectionVars false

namespace Verif.Handover
open Verif.Spec
variable {V : Type} [Inhabited V]

/-- C145: the lock-free list, with any number of goroutines that push, pop, clear and ask.  Every `PopFront` that returns a value
belongs to a `PushFront` of that value, each to a different one, and what came before the push happens before what comes after the
pop. -/
theorem C145_lfqueue {τ : List (LFQueue.FLab V)} {s : LFQueue.FSt V} (h : Exec LFQueue.FStep LFQueue.FSt.init τ s) :
    HandsOver LFQueue.Op.push (fun v => LFQueue.Ret.popped v true) τ := by
  obtain ⟨_, mk, hd, hI⟩ := LFQueue.Fine.hinv_exec h
  exact LFQueue.Fine.handsOver_of hI

/-- C145: the ring buffer, with any number of goroutines in `MustPush` and `MustPop`, while the tickets are below the width of the
counters. -/
theorem C145_ringbuffer (k : Nat) {τ : List (RingBuffer.RLab V)} {s : RingBuffer.St V}
    (h : Exec (fun s e s' => RingBuffer.RStep s e s' ∧ RingBuffer.NoWrap s) (RingBuffer.start k) τ s) :
    HandsOver RingBuffer.Op.mustPush (fun v => RingBuffer.Ret.popped v true) τ := RingBuffer.handsOver_exec h

/-- C145: the deque of `n` slots between one goroutine in `PushBack` and one in `PopFront`, any number of others asking for its size.
Missing: several goroutines on one side, see `C145_deque_consumers_false`. -/
theorem C145_deque_partial (n : Nat) (h0 : 0 < n) (hn : n < 2 ^ 31) {τ : List (LFDeque.DLab V)} {s : LFDeque.DSt V}
    (h : Exec (fun s e s' => LFDeque.DStep s e s' ∧ LFDeque.DRoles e) (LFDeque.dstart n) τ s) :
    HandsOver (fun v => LFDeque.WOp.base (.pushBack v)) (fun v => LFDeque.WRet.base (.popped v true)) τ :=
  LFDeque.handsOver_exec h0 hn h

/-- C145: with two goroutines in `PopFront` one value is taken out twice. -/
theorem C145_deque_consumers_false : ∃ (τ : List (LFDeque.DLab Nat)) (s : LFDeque.DSt Nat),
    Exec LFDeque.DStep (LFDeque.dstart 2) τ s ∧
    evs τ = [.call 0 (.base (.pushBack 5)), .ret 0 (.base .pushed), .call 2 (.base .popFront), .call 1 (.base .popFront),
      .ret 1 (.base (.popped 5 true)), .call 0 (.base (.pushBack 6)), .ret 0 (.base .pushed), .call 1 (.base .popFront),
      .ret 1 (.base (.popped 6 true)), .call 0 (.base (.pushBack 7)), .ret 0 (.base .pushed), .ret 2 (.base (.popped 5 true))] ∧
    ¬ HandsOver (fun v => LFDeque.WOp.base (.pushBack v)) (fun v => LFDeque.WRet.base (.popped v true)) τ := by
  have h := Exec.refl (step := LFDeque.DStep) (LFDeque.dstart 2 : LFDeque.DSt Nat)
  have h := h.visible (.callPB _ 0 5 rfl rfl)
  have h := h.visible (.pbLoad _ 0 5 rfl rfl (by decide))
  have h := h.visible (.pbWrite _ 0 5 _ _ _ _ rfl rfl)
  have h := h.visible (.pbCasOk _ 0 5 _ _ _ rfl rfl)
  have h := h.visible (.ret _ 0 _ rfl)
  have h := h.visible (.callOF _ 2 rfl rfl)
  have h := h.visible (.ofLoad _ 2 _ rfl (by decide))
  have h := h.visible (.ofRead _ 2 _ _ _ _ rfl rfl)
  have h := h.visible (.callOF _ 1 rfl rfl)
  have h := h.visible (.ofLoad _ 1 _ rfl (by decide))
  have h := h.visible (.ofRead _ 1 _ _ _ _ rfl rfl)
  have h := h.visible (.ofCasOk _ 1 _ _ _ _ rfl rfl)
  have h := h.visible (.ret _ 1 _ rfl)
  have h := h.visible (.callPB _ 0 6 rfl rfl)
  have h := h.visible (.pbLoad _ 0 6 rfl rfl (by decide))
  have h := h.visible (.pbWrite _ 0 6 _ _ _ _ rfl rfl)
  have h := h.visible (.pbCasOk _ 0 6 _ _ _ rfl rfl)
  have h := h.visible (.ret _ 0 _ rfl)
  have h := h.visible (.callOF _ 1 rfl rfl)
  have h := h.visible (.ofLoad _ 1 _ rfl (by decide))
  have h := h.visible (.ofRead _ 1 _ _ _ _ rfl rfl)
  have h := h.visible (.ofCasOk _ 1 _ _ _ _ rfl rfl)
  have h := h.visible (.ret _ 1 _ rfl)
  have h := h.visible (.callPB _ 0 7 rfl rfl)
  have h := h.visible (.pbLoad _ 0 7 rfl rfl (by decide))
  have h := h.visible (.pbWrite _ 0 7 _ _ _ _ rfl rfl)
  have h := h.visible (.pbCasOk _ 0 7 _ _ _ rfl rfl)
  have h := h.visible (.ret _ 0 _ rfl)
  have h := h.visible (.ofCasOk _ 2 _ _ _ _ rfl rfl)
  have h := h.visible (.ret _ 2 _ rfl)
  refine ⟨_, _, h, rfl, ?_⟩
  rintro ⟨src, h1, h2⟩
  obtain ⟨⟨u, hu⟩, _⟩ := h1 12 1 5 rfl
  obtain ⟨⟨w, hw⟩, _⟩ := h1 29 2 5 rfl
  have only : ∀ {τ : List (LFDeque.DLab Nat)} {i u : Nat}, τ[i]? = some (.ev (.call u (.base (.pushBack 5)))) →
      (∀ k, 0 < k → k < τ.length → ∀ u, τ[k]? ≠ some (.ev (.call u (.base (.pushBack 5))))) → i = 0 := by
    intro τ i u hi hk
    by_contra hc
    exact hk i (by omega) (List.getElem?_eq_some_iff.mp hi).1 u hi
  have e1 := only hu (by intro k h1 h2; simp only [List.nil_append, List.cons_append, List.length_cons, List.length_nil] at h2; interval_cases k <;> intro u <;> simp)
  have e2 := only hw (by intro k h1 h2; simp only [List.nil_append, List.cons_append, List.length_cons, List.length_nil] at h2; interval_cases k <;> intro u <;> simp)
  exact absurd (h2 12 29 1 2 5 5 rfl rfl (e1.trans e2.symm)) (by decide)

/-- C145: the spin lock.  If nobody unlocks what they have not locked: what was done before a call of `Unlock` happens before
everything a later holder of the lock does, from its successful attempt on. -/
theorem C145_spinlock {D : Type} {τ : List (SpinLock.GLab D)} {s : SpinLock.St}
    (h : Exec (fun s e s' => SpinLock.GStep s e s' ∧ SpinLock.GDisciplined s e) SpinLock.St.init τ s)
    {i j t : Nat} {l : SpinLock.GLab D} (hij : i < j) (hi : τ[i]? = some (.ev (.call t .unlock))) (hj : τ[j]? = some l)
    (hl : (∃ a, l = .acc a ∧ (a.loc ≠ .state ∨ a.kind = .rmw)) ∨ ∃ u, l = .ev (.call u .unlock)) : EvBefore τ i j := by
  refine (SpinLock.hinv_exec h).ord i j t l hij hi hj ?_
  rcases hl with ⟨a, rfl, ha⟩ | ⟨u, rfl⟩
  · exact ha
  · exact ⟨u, rfl⟩

/-! ## The order of events is that of the accesses -/

/-- C145: the order used here, on the positions of calls, returns and accesses together, is the order of the accesses alone (Spec/Race)
where it speaks of accesses: calls and returns order nothing but what their own goroutine does anyway. -/
theorem C145_order_of_accesses {Op Ret L : Type} (τ : List (Lab (Ev Op Ret) L)) (i j : Nat) (a b : Acc L)
    (hi : τ[i]? = some (.acc a)) (hj : τ[j]? = some (.acc b)) :
    EvBefore τ i j ↔ HappensBefore (accs τ) (accs (τ.take i)).length (accs (τ.take j)).length := evBefore_accs hi hj

/-! ## Concrete cases -/

/-- C145_lfqueue: goroutine 1 takes the value that goroutine 0 has just published, at position 13, and has not yet counted.  It can only
be the one put in at position 0. -/
example : ∃ (τ : List (LFQueue.FLab Nat)) (s : LFQueue.FSt Nat), Exec LFQueue.FStep LFQueue.FSt.init τ s ∧
    τ[0]? = some (.ev (.call 0 (.push 5))) ∧ τ[13]? = some (.ev (.ret 1 (.popped 5 true))) := by
  have h := Exec.refl (step := LFQueue.FStep) (LFQueue.FSt.init : LFQueue.FSt Nat)
  have h := h.visible (.callPush _ 0 5 rfl)
  have h := h.visible (.pVal _ 0 5 0 rfl)
  have h := h.visible (.pNil _ 0 5 0 rfl)
  have h := h.visible (.pLoad _ 0 5 0 rfl)
  have h := h.visible (.pNext _ 0 5 0 none rfl)
  have h := h.visible (.pOld _ 0 5 0 rfl)
  have h := h.visible (.pCasOk _ 0 5 0 none rfl rfl)
  have h := h.visible (.callPop _ 1 rfl)
  have h := h.visible (.oLoad _ 1 0 rfl rfl)
  have h := h.visible (.oNext _ 1 0 rfl)
  have h := h.visible (.oCasOk _ 1 0 none rfl rfl)
  have h := h.visible (.oVal _ 1 0 rfl)
  have h := h.visible (.oSub _ 1 5 true rfl)
  have h := h.visible (.ret _ 1 _ rfl)
  exact ⟨_, _, h, rfl, rfl⟩

/-- C145_ringbuffer: two pushes at the same time; the second to begin gets the first ticket. -/
example : ∃ (τ : List (RingBuffer.RLab Nat)) (s : RingBuffer.St Nat),
    Exec (fun s e s' => RingBuffer.RStep s e s' ∧ RingBuffer.NoWrap s) (RingBuffer.start 1) τ s ∧
    evs τ = [.call 0 (.mustPush 7), .call 2 (.mustPush 8), .call 1 .mustPop, .ret 1 (.popped 8 true)] := by
  have h := Exec.refl (step := fun s e s' => RingBuffer.RStep s e s' ∧ RingBuffer.NoWrap s) (RingBuffer.start 1 : RingBuffer.St Nat)
  have h := h.visible ⟨.callPush _ 0 7 rfl, by decide, by decide⟩
  have h := h.visible ⟨.callPush _ 2 8 rfl, by decide, by decide⟩
  have h := h.visible ⟨.puAdd _ 2 8 rfl, by decide, by decide⟩
  have h := h.visible ⟨.puAdd _ 0 7 rfl, by decide, by decide⟩
  have h := h.visible ⟨.puWait _ 2 8 0 rfl, by decide, by decide⟩
  have h := h.visible ⟨.puWrite _ 2 8 0 _ rfl rfl, by decide, by decide⟩
  have h := h.visible ⟨.puCasOk _ 2 8 0 rfl rfl, by decide, by decide⟩
  have h := h.visible ⟨.callPop _ 1 rfl, by decide, by decide⟩
  have h := h.visible ⟨.poAdd _ 1 rfl, by decide, by decide⟩
  have h := h.visible ⟨.poWait _ 1 0 rfl, by decide, by decide⟩
  have h := h.visible ⟨.poRead _ 1 0 _ rfl rfl, by decide, by decide⟩
  have h := h.visible ⟨.poCasOk _ 1 0 _ rfl rfl, by decide, by decide⟩
  have h := h.visible ⟨.ret _ 1 _ rfl, by decide, by decide⟩
  exact ⟨_, _, h, rfl⟩

/-- C145_deque_partial: the value taken out while the next one is being put in. -/
example : ∃ (τ : List (LFDeque.DLab Nat)) (s : LFDeque.DSt Nat),
    Exec (fun s e s' => LFDeque.DStep s e s' ∧ LFDeque.DRoles e) (LFDeque.dstart 2) τ s ∧
    evs τ = [.call 0 (.base (.pushBack 5)), .ret 0 (.base .pushed), .call 0 (.base (.pushBack 6)), .call 1 (.base .popFront),
      .ret 1 (.base (.popped 5 true))] := by
  have h := Exec.refl (step := fun s e s' => LFDeque.DStep s e s' ∧ LFDeque.DRoles e) (LFDeque.dstart 2 : LFDeque.DSt Nat)
  have h := h.visible ⟨.callPB _ 0 5 rfl rfl, rfl⟩
  have h := h.visible ⟨.pbLoad _ 0 5 rfl rfl (by decide), trivial⟩
  have h := h.visible ⟨.pbWrite _ 0 5 _ _ _ _ rfl rfl, trivial⟩
  have h := h.visible ⟨.pbCasOk _ 0 5 _ _ _ rfl rfl, trivial⟩
  have h := h.visible ⟨.ret _ 0 _ rfl, trivial⟩
  have h := h.visible ⟨.callPB _ 0 6 rfl rfl, rfl⟩
  have h := h.visible ⟨.callOF _ 1 rfl rfl, rfl⟩
  have h := h.visible ⟨.ofLoad _ 1 _ rfl (by decide), trivial⟩
  have h := h.visible ⟨.ofRead _ 1 _ _ _ _ rfl rfl, trivial⟩
  have h := h.visible ⟨.ofCasOk _ 1 _ _ _ _ rfl rfl, trivial⟩
  have h := h.visible ⟨.ret _ 1 _ rfl, trivial⟩
  exact ⟨_, _, h, rfl⟩

/-- C145_spinlock: goroutine 0 unlocks at position 5; goroutine 1 gets the lock at position 7 and reads at position 8. -/
example : ∃ (τ : List (SpinLock.GLab Nat)) (s : SpinLock.St),
    Exec (fun s e s' => SpinLock.GStep s e s' ∧ SpinLock.GDisciplined s e) SpinLock.St.init τ s ∧
    τ[5]? = some (.ev (.call 0 .unlock)) ∧ τ[7]? = some (.acc ⟨1, .rmw, .state⟩) ∧ τ[8]? = some (.acc ⟨1, .read, .data 3⟩) := by
  refine ⟨_, _, .visible (.visible (.visible (.visible (.visible (.visible (.visible (.visible (.visible (.refl _) ⟨.callLock _ 0 rfl, ?_⟩)
    ⟨.callLock _ 1 rfl, ?_⟩) ⟨.acquire _ 0 0 rfl (by decide) rfl, ?_⟩) ⟨.again _ 1 0 rfl (by decide) (by decide), ?_⟩) ⟨.data _ 0 .write 3 rfl, ?_⟩)
    ⟨.callUnlock _ 0 (.inr rfl), ?_⟩) ⟨.release _ 0 rfl rfl, ?_⟩) ⟨.acquire _ 1 1 rfl (by decide) rfl, ?_⟩) ⟨.data _ 1 .read 3 rfl, ?_⟩, rfl, rfl, rfl⟩
  all_goals intro t ht
  all_goals cases ht
  rfl

/-- C145_order_of_accesses: an access, a call and an access of one goroutine. -/
example : ∃ τ : List (Lab (Ev Nat Nat) Nat), τ[0]? = some (.acc ⟨0, .write, 3⟩) ∧ τ[2]? = some (.acc ⟨0, .store, 4⟩) ∧ (accs τ).length = 2 :=
  ⟨[.acc ⟨0, .write, 3⟩, .ev (.call 0 1), .acc ⟨0, .store, 4⟩], rfl, rfl, rfl⟩

end Verif.Handover
