import Verif.Lemmas.LFQueueFine
import Verif.Lemmas.RingRace
import Verif.Lemmas.LFDequeRace
import Verif.Lemmas.SpinRace
import Verif.Props.LFQueue
/-!
# C142: concurrent use without data races

The executions below are sequentially consistent interleavings of single accesses.  Where no such execution has a data race, the Go
memory model promises that there are no other executions.  Specification: Spec/Race.
-/
set_option linter.unusedSectionVars false

namespace Verif.Race
open Verif.Spec
variable {V : Type} [Inhabited V]

/-! ## The lock-free queue -/

/-- C142: the lock-free queue.  However many goroutines call `PushFront`, `PopFront`, `Clear`, `Empty` and `Size`, and however they
are scheduled, no two accesses to memory race. -/
theorem C142_lfqueue_race_free {τ : List (LFQueue.FLab V)} {s : LFQueue.FSt V} (h : Exec LFQueue.FStep LFQueue.FSt.init τ s) :
    RaceFree (accs τ) := (LFQueue.Fine.finv_exec h).rf

/-- C142: and when every single access is a step of its own, the accesses to private nodes included, the calls and returns that the
clients see are still those of a stack. -/
theorem C142_lfqueue_fine {τ : List (LFQueue.FLab V)} {s : LFQueue.FSt V} (h : Exec LFQueue.FStep LFQueue.FSt.init τ s) :
    ∃ a, Exec (AStep LFQueue.lifo) (AState.init []) (evs τ) a := by
  obtain ⟨c, hc, _⟩ := LFQueue.Fine.sim_exec h
  exact LFQueue.C30_linearizable _ _ hc

/-! ## The ring buffer -/

/-- C142: the ring buffer.  Any number of goroutines calling `MustPush` and `MustPop`: no two accesses race, and the clients see a
bounded queue. -/
theorem C142_ringbuffer_race_free (k : Nat) {τ : List (RingBuffer.RLab V)} {s : RingBuffer.St V}
    (h : Exec (fun s e s' => RingBuffer.RStep s e s' ∧ RingBuffer.NoWrap s) (RingBuffer.start k) τ s) :
    RaceFree (accs τ) ∧ ∃ a, Exec (AStep RingBuffer.fifo) (AState.init []) (evs τ) a ∧ a.s.length ≤ 2 ^ k := by
  obtain ⟨h1, tk, h2⟩ := RingBuffer.rinv_exec h
  obtain ⟨a, ha, hl, _⟩ := RingBuffer.C34_linearizable k h1
  exact ⟨h2.rf, a, ha, hl⟩

/-! ## The deque -/

/-- C142: the deque, of `n` slots.  One goroutine calls `PushBack`, one calls `PopFront`, any number call `Size`, `Empty` and `Busy`: no
two accesses race.  Missing: several goroutines on one side, and `Clear`; see the executions below. -/
theorem C142_deque_race_free_partial (n : Nat) (h0 : 0 < n) (hn : n < 2 ^ 31) {τ : List (LFDeque.DLab V)} {s : LFDeque.DSt V}
    (h : Exec (fun s e s' => LFDeque.DStep s e s' ∧ LFDeque.DRoles e) (LFDeque.dstart n) τ s) : RaceFree (accs τ) := by
  obtain ⟨a, _, h2⟩ := LFDeque.dinv_exec h0 hn h
  exact h2.rf

/-- C142: two goroutines in `PushBack` write the same slot, in no order. -/
theorem C142_deque_producers_race : ∃ (τ : List (LFDeque.DLab Nat)) (s : LFDeque.DSt Nat),
    Exec LFDeque.DStep (LFDeque.dstart 4) τ s ∧ 
    evs τ = [.call 0 (.base (.pushBack 5)), .call 1 (.base (.pushBack 6))] ∧ ¬ RaceFree (accs τ) := by
  refine ⟨_, _, .visible (.visible (.visible (.visible (.visible (.visible (.refl _) (.callPB _ 0 5 rfl rfl))
    (.pbLoad _ 0 5 rfl rfl (by decide))) (.callPB _ 1 6 rfl rfl)) (.pbLoad _ 1 6 rfl rfl (by decide)))
    (.pbWrite _ 0 5 _ _ _ _ rfl rfl)) (.pbWrite _ 1 6 _ _ _ _ rfl rfl), rfl, ?_⟩
  · exact race_of (L := LFDeque.Loc) [⟨0, .load, .headtail⟩, ⟨1, .load, .headtail⟩, ⟨0, .write, .slot 0⟩] ⟨1, .write, .slot 0⟩ [] 2 _ rfl
      (by decide) (by decide)

/-- C142: one goroutine pushes and two pop.  The second pops late: it reads the slot that is being filled again. -/
theorem C142_deque_consumers_race : ∃ (τ : List (LFDeque.DLab Nat)) (s : LFDeque.DSt Nat),
    Exec LFDeque.DStep (LFDeque.dstart 2) τ s ∧
    evs τ = [.call 0 (.base (.pushBack 5)), .ret 0 (.base .pushed), .call 1 (.base .popFront), .call 2 (.base .popFront),
      .ret 1 (.base (.popped 5 true)), .call 0 (.base (.pushBack 6)), .ret 0 (.base .pushed), .call 1 (.base .popFront),
      .call 0 (.base (.pushBack 7))] ∧ ¬ RaceFree (accs τ) := by
  have h := Exec.refl (step := LFDeque.DStep) (LFDeque.dstart 2 : LFDeque.DSt Nat)
  have h := h.visible (.callPB _ 0 5 rfl rfl)
  have h := h.visible (.pbLoad _ 0 5 rfl rfl (by decide))
  have h := h.visible (.pbWrite _ 0 5 _ _ _ _ rfl rfl)
  have h := h.visible (.pbCasOk _ 0 5 _ _ _ rfl rfl)
  have h := h.visible (.ret _ 0 _ rfl)
  have h := h.visible (.callOF _ 1 rfl rfl)
  have h := h.visible (.ofLoad _ 1 _ rfl (by decide))
  have h := h.visible (.callOF _ 2 rfl rfl)
  have h := h.visible (.ofLoad _ 2 _ rfl (by decide))
  have h := h.visible (.ofRead _ 1 _ _ _ _ rfl rfl)
  have h := h.visible (.ofCasOk _ 1 _ _ _ _ rfl rfl)
  have h := h.visible (.ret _ 1 _ rfl)
  have h := h.visible (.callPB _ 0 6 rfl rfl)
  have h := h.visible (.pbLoad _ 0 6 rfl rfl (by decide))
  have h := h.visible (.pbWrite _ 0 6 _ _ _ _ rfl rfl)
  have h := h.visible (.pbCasOk _ 0 6 _ _ _ rfl rfl)
  have h := h.visible (.ret _ 0 _ rfl)
  have h := h.visible (.callOF _ 1 rfl rfl)
  have h := h.visible (.ofLoad _ 1 _ rfl (by decide))
  have h := h.visible (.ofRead _ 1 _ _ _ _ rfl rfl)
  have h := h.visible (.ofCasOk _ 1 _ _ _ _ rfl rfl)
  have h := h.visible (.callPB _ 0 7 rfl rfl)
  have h := h.visible (.pbLoad _ 0 7 rfl rfl (by decide))
  have h := h.visible (.ofRead _ 2 _ _ _ _ rfl rfl)
  have h := h.visible (.pbWrite _ 0 7 _ _ _ _ rfl rfl)
  refine ⟨_, _, h, rfl, ?_⟩
  · exact race_of (L := LFDeque.Loc) [⟨0, .load, .headtail⟩, ⟨0, .write, .slot 0⟩, ⟨0, .rmw, .headtail⟩, ⟨1, .load, .headtail⟩, ⟨2, .load, .headtail⟩,
      ⟨1, .read, .slot 0⟩, ⟨1, .rmw, .headtail⟩, ⟨0, .load, .headtail⟩, ⟨0, .write, .slot 1⟩, ⟨0, .rmw, .headtail⟩, ⟨1, .load, .headtail⟩,
      ⟨1, .read, .slot 1⟩, ⟨1, .rmw, .headtail⟩, ⟨0, .load, .headtail⟩, ⟨2, .read, .slot 0⟩] ⟨0, .write, .slot 0⟩ [] 14 _ rfl
      (by decide) (by decide)

/-- C142: `Clear` races with `Busy`, and with a `PushBack` that finds the deque full, at the counter. -/
theorem C142_deque_clear_race :
    (∃ (τ : List (LFDeque.DLab Nat)) (s : LFDeque.DSt Nat), Exec LFDeque.DStep (LFDeque.dstart 4) τ s ∧
      evs τ = [.call 0 (.quick .clear)] ∧ ¬ RaceFree (accs τ)) ∧
    ∃ (τ : List (LFDeque.DLab Nat)) (s : LFDeque.DSt Nat), Exec LFDeque.DStep (LFDeque.dstart 1) τ s ∧
      evs τ = [.call 0 (.base (.pushBack 5)), .call 1 (.quick .clear)] ∧ ¬ RaceFree (accs τ) := by
  constructor
  · refine ⟨_, _, .visible (.visible (.visible (.visible (.refl _) (.callClear _ 0 rfl rfl)) (.clear _ 0 rfl)) (.reset _ 0 rfl))
      (.busy _ 1 rfl rfl), rfl, ?_⟩
    exact race_of (L := LFDeque.Loc) [⟨0, .store, .headtail⟩, ⟨0, .write, .busy⟩] ⟨1, .load, .busy⟩ [] 1 _ rfl (by decide) (by decide)
  · refine ⟨_, _, .visible (.visible (.visible (.visible (.visible (.visible (.refl _) (.callPB _ 0 5 rfl rfl)) (.pbFull _ 0 5 rfl rfl (by decide)))
      (.callClear _ 1 rfl rfl)) (.clear _ 1 rfl)) (.pbBusy _ 0 rfl)) (.reset _ 1 rfl), rfl, ?_⟩
    exact race_of (L := LFDeque.Loc) [⟨0, .load, .headtail⟩, ⟨1, .store, .headtail⟩, ⟨0, .rmw, .busy⟩] ⟨1, .write, .busy⟩ [] 2 _ rfl
      (by decide) (by decide)

/-! ## The spin lock -/

/-- C142: the spin lock.  If nobody unlocks what they have not locked, then whatever the goroutines do with data while they hold the
lock, no two accesses race: neither to the data nor to the lock. -/
theorem C142_spinlock_race_free {D : Type} {τ : List (SpinLock.GLab D)} {s : SpinLock.St}
    (h : Exec (fun s e s' => SpinLock.GStep s e s' ∧ SpinLock.GDisciplined s e) SpinLock.St.init τ s) : RaceFree (accs τ) :=
  (SpinLock.ginv_exec h).rf

/-- C142: a goroutine that unlocks what another one has locked, and then locks, races with it. -/
theorem C142_spinlock_foreign_unlock_race : ∃ (τ : List (SpinLock.GLab Nat)) (s : SpinLock.St),
    Exec SpinLock.GStep SpinLock.St.init τ s ∧ evs τ = [.call 0 .lock, .call 1 .unlock, .call 1 .lock] ∧ ¬ RaceFree (accs τ) := by
  refine ⟨_, _, .visible (.visible (.visible (.visible (.visible (.visible (.visible (.visible (.refl _) (.callLock _ 0 rfl))
    (.acquire _ 0 0 rfl (by decide) rfl)) (.data _ 0 .write 3 rfl)) (.callUnlock _ 1 (.inl rfl))) (.release _ 1 rfl rfl)) (.callLock _ 1 rfl))
    (.acquire _ 1 0 rfl (by decide) rfl)) (.data _ 1 .write 3 rfl), rfl, ?_⟩
  exact race_of (L := SpinLock.Loc Nat) [⟨0, .rmw, .state⟩, ⟨0, .write, .data 3⟩, ⟨1, .rmw, .state⟩, ⟨1, .rmw, .state⟩] ⟨1, .write, .data 3⟩ [] 1 _ rfl
    (by decide) (by decide)

/-! ## Concrete cases -/

/-- C142_lfqueue_race_free, C142_lfqueue_fine: goroutine 1 pops the node that goroutine 0 has just published and has not yet counted. -/
example : ∃ (τ : List (LFQueue.FLab Nat)) (s : LFQueue.FSt Nat), Exec LFQueue.FStep LFQueue.FSt.init τ s ∧
    evs τ = [.call 0 (.push 5), .call 1 .pop, .ret 1 (.popped 5 true)] ∧ (accs τ).length = 12 := by
  have h := Exec.refl (step := LFQueue.FStep) (LFQueue.FSt.init : LFQueue.FSt Nat)
  have h := h.visible (.callPush _ 0 5 rfl)
  have h := h.visible (.pVal _ 0 5 0 rfl)
  have h := h.visible (.pNil _ 0 5 0 rfl)
  have h := h.visible (.pLoad _ 0 5 0 rfl)
  have h := h.visible (.pNext _ 0 5 0 none rfl)
  have h := h.visible (.pOld _ 0 5 0 rfl)
  have h := h.visible (.pCasOk _ 0 5 0 none rfl rfl)
  have h := h.visible (.callPop _ 1 rfl)
  have h := h.visible (.oLoad _ 1 0 rfl rfl)
  have h := h.visible (.oNext _ 1 0 rfl)
  have h := h.visible (.oCasOk _ 1 0 none rfl rfl)
  have h := h.visible (.oVal _ 1 0 rfl)
  have h := h.visible (.oSub _ 1 5 true rfl)
  have h := h.visible (.ret _ 1 _ rfl)
  have h := h.visible (.size _ 2 rfl)
  exact ⟨_, _, h, rfl, rfl⟩

/-- C142_ringbuffer_race_free: a push, and the pop that reads the same slot. -/
example : ∃ (τ : List (RingBuffer.RLab Nat)) (s : RingBuffer.St Nat),
    Exec (fun s e s' => RingBuffer.RStep s e s' ∧ RingBuffer.NoWrap s) (RingBuffer.start 1) τ s ∧
    accs τ = [⟨0, .rmw, .tailR⟩, ⟨0, .load, .head⟩, ⟨0, .write, .slot 0⟩, ⟨0, .rmw, .tail⟩, ⟨1, .rmw, .headR⟩, ⟨1, .load, .tail⟩,
      ⟨1, .read, .slot 0⟩] := by
  refine ⟨_, _, .visible (.visible (.visible (.visible (.visible (.visible (.visible (.visible (.visible (.refl _)
    ⟨.callPush _ 0 7 rfl, ?_⟩) ⟨.puAdd _ 0 7 rfl, ?_⟩) ⟨.puWait _ 0 7 0 rfl, ?_⟩) ⟨.puWrite _ 0 7 0 _ rfl rfl, ?_⟩)
    ⟨.puCasOk _ 0 7 0 rfl rfl, ?_⟩) ⟨.callPop _ 1 rfl, ?_⟩) ⟨.poAdd _ 1 rfl, ?_⟩) ⟨.poWait _ 1 0 rfl, ?_⟩) ⟨.poRead _ 1 0 _ rfl rfl, ?_⟩, rfl⟩
  all_goals exact ⟨by decide, by decide⟩

/-- C142_deque_race_free_partial: the two sides at work at the same time, and a third goroutine that asks. -/
example : ∃ (τ : List (LFDeque.DLab Nat)) (s : LFDeque.DSt Nat),
    Exec (fun s e s' => LFDeque.DStep s e s' ∧ LFDeque.DRoles e) (LFDeque.dstart 2) τ s ∧
    accs τ = [⟨0, .load, .headtail⟩, ⟨0, .write, .slot 0⟩, ⟨0, .rmw, .headtail⟩, ⟨1, .load, .headtail⟩, ⟨0, .load, .headtail⟩,
      ⟨1, .read, .slot 0⟩, ⟨0, .rmw, .busy⟩, ⟨2, .load, .busy⟩] := by
  have h := Exec.refl (step := fun s e s' => LFDeque.DStep s e s' ∧ LFDeque.DRoles e) (LFDeque.dstart 2 : LFDeque.DSt Nat)
  have h := h.visible ⟨.callPB _ 0 5 rfl rfl, rfl⟩
  have h := h.visible ⟨.pbLoad _ 0 5 rfl rfl (by decide), trivial⟩
  have h := h.visible ⟨.pbWrite _ 0 5 _ _ _ _ rfl rfl, trivial⟩
  have h := h.visible ⟨.pbCasOk _ 0 5 _ _ _ rfl rfl, trivial⟩
  have h := h.visible ⟨.ret _ 0 _ rfl, trivial⟩
  have h := h.visible ⟨.callPB _ 0 6 rfl rfl, rfl⟩
  have h := h.visible ⟨.callOF _ 1 rfl rfl, rfl⟩
  have h := h.visible ⟨.ofLoad _ 1 _ rfl (by decide), trivial⟩
  have h := h.visible ⟨.pbFull _ 0 6 rfl rfl (by decide), trivial⟩
  have h := h.visible ⟨.ofRead _ 1 _ _ _ _ rfl rfl, trivial⟩
  have h := h.visible ⟨.pbBusy _ 0 rfl, trivial⟩
  have h := h.visible ⟨.busy _ 2 rfl rfl, trivial⟩
  exact ⟨_, _, h, rfl⟩

/-- C142_spinlock_race_free: two goroutines write the same variable, one after the other. -/
example : ∃ (τ : List (SpinLock.GLab Nat)) (s : SpinLock.St),
    Exec (fun s e s' => SpinLock.GStep s e s' ∧ SpinLock.GDisciplined s e) SpinLock.St.init τ s ∧
    accs τ = [⟨0, .rmw, .state⟩, ⟨1, .load, .state⟩, ⟨0, .write, .data 3⟩, ⟨0, .rmw, .state⟩, ⟨1, .rmw, .state⟩, ⟨1, .write, .data 3⟩] := by
  refine ⟨_, _, .visible (.visible (.visible (.visible (.visible (.visible (.visible (.visible (.visible (.refl _) ⟨.callLock _ 0 rfl, ?_⟩)
    ⟨.callLock _ 1 rfl, ?_⟩) ⟨.acquire _ 0 0 rfl (by decide) rfl, ?_⟩) ⟨.again _ 1 0 rfl (by decide) (by decide), ?_⟩) ⟨.data _ 0 .write 3 rfl, ?_⟩)
    ⟨.callUnlock _ 0 (.inr rfl), ?_⟩) ⟨.release _ 0 rfl rfl, ?_⟩) ⟨.acquire _ 1 1 rfl (by decide) rfl, ?_⟩) ⟨.data _ 1 .write 3 rfl, ?_⟩, rfl⟩
  all_goals intro t ht
  all_goals cases ht
  rfl

end Verif.Race
