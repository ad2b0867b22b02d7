import Verif.Model.SpinLock
import Verif.Model.LFQueue
import Verif.Model.FileLock
import Verif.Lemmas.Tracks
import Mathlib.Tactic.SplitIfs
import Mathlib.Tactic.ByContra
/-!
# C111: a call that has begun is never stuck, and what it does next is determined by the shared memory

A step is one of goroutine `t` when it changes where `t` is.
-/

set_option linter.unusedSectionVars false
set_option linter.unusedSimpArgs false

open Verif.Spec

namespace Verif

theorem setAt_at {β : Type} (f : Nat → β) (i : Nat) (v : β) : setAt f i v i = v := by simp [setAt]

theorem setAt_other {β : Type} (f : Nat → β) (i j : Nat) (v : β) (hj : j ≠ i) : setAt f i v j = f j := by simp [setAt, hj]

theorem mover {P : Type} {pc : Nat → P} {t u : Nat} {q : P} (h : setAt pc u q t ≠ pc t) : u = t := by
  by_contra hut
  exact h (setAt_other _ _ _ _ (Ne.symm hut))

namespace SpinLock

/-- The next step of a goroutine inside a call. -/
def nextStep (s : St) (t : Nat) : Option (Ev Op Unit) × St :=
  match s.pc t with
  | .spin i =>
    if i > maxLoop then (none, ⟨s.state, setAt s.pc t .deadlock⟩)
    else if s.state = 0 then (some (.ret t ()), ⟨1, setAt s.pc t .held⟩)
    else (none, ⟨s.state, setAt s.pc t (.spin (i + 1))⟩)
  | .unlocking =>
    if s.state = 1 then (some (.ret t ()), ⟨0, setAt s.pc t .idle⟩) else (none, ⟨s.state, setAt s.pc t .misuse⟩)
  | _ => (none, s)

/-- **C111**: `Lock` and `Unlock` of the spin lock. -/
theorem C111_spinlock (s : St) (t : Nat) (h : (∃ i, s.pc t = .spin i) ∨ s.pc t = .unlocking) :
    ∃! p : Option (Ev Op Unit) × St, Step s p.1 p.2 ∧ p.2.pc t ≠ s.pc t := by
  refine ⟨nextStep s t, ?_, ?_⟩
  · rcases h with ⟨i, hp⟩ | hp
    · simp only [nextStep, hp]
      by_cases h1 : i > maxLoop
      · rw [if_pos h1]; exact ⟨.giveUp s t i hp h1, by simp [setAt_at]⟩
      · rw [if_neg h1]
        by_cases h2 : s.state = 0
        · rw [if_pos h2]; exact ⟨.acquire s t i hp h1 h2, by simp [setAt_at]⟩
        · rw [if_neg h2]; exact ⟨.again s t i hp h1 h2, by simp [setAt_at]⟩
    · simp only [nextStep, hp]
      by_cases h1 : s.state = 1
      · rw [if_pos h1]; exact ⟨.release s t hp h1, by simp [setAt_at]⟩
      · rw [if_neg h1]; exact ⟨.misuse s t hp h1, by simp [setAt_at]⟩
  · rintro ⟨e, s'⟩ ⟨hs, hne⟩
    cases hs with
    | callLock u hp => obtain rfl := mover hne; rw [hp] at h; simp at h
    | giveUp u i hp h1 => obtain rfl := mover hne; simp only [nextStep, hp, if_pos h1]
    | acquire u i hp h1 h2 => obtain rfl := mover hne; simp only [nextStep, hp, if_neg h1, if_pos h2]
    | again u i hp h1 h2 => obtain rfl := mover hne; simp only [nextStep, hp, if_neg h1, if_neg h2]
    | callUnlock u hp => obtain rfl := mover hne; rcases hp with hp | hp <;> rw [hp] at h <;> simp at h
    | release u hp h1 => obtain rfl := mover hne; simp only [nextStep, hp, if_pos h1]
    | misuse u hp h1 => obtain rfl := mover hne; simp only [nextStep, hp, if_neg h1]

example : ∃ s : St, (∃ i, s.pc 3 = .spin i) ∧ s.pc 4 = .unlocking :=
  ⟨⟨1, fun t => if t = 4 then .unlocking else .spin 7⟩, ⟨7, rfl⟩, rfl⟩

end SpinLock

namespace RWSpinLock
open SpinLock (maxLoop)

/-- The next step of a goroutine inside a call. -/
def nextStep (s : St) (t : Nat) : Option (Ev Op Unit) × St :=
  match s.pc t with
  | .wSpin i =>
    if i > maxLoop then (none, s.goto t .crashed)
    else if s.w = 0 then (none, ⟨1, s.rc, setAt s.pc t .wAdd⟩)
    else (none, s.goto t (.wSpin (i + 1)))
  | .wAdd => (some (.ret t ()), ⟨s.w, add32 s.rc (-maxReaders), setAt s.pc t .wHeld⟩)
  | .wuAdd => (none, ⟨s.w, add32 s.rc maxReaders,
      setAt s.pc t (if add32 s.rc maxReaders ≥ maxReaders then .crashed else .wuUnlock)⟩)
  | .wuUnlock => if s.w = 1 then (some (.ret t ()), ⟨0, s.rc, setAt s.pc t .idle⟩) else (none, s.goto t .crashed)
  | .rLoad i => if i > maxLoop then (none, s.goto t .crashed)
      else (none, s.goto t (if s.rc ≥ 0 then .rAdd else .rLoad (i + 1)))
  | .rAdd => if add32 s.rc 1 = 1 then (none, ⟨s.w, add32 s.rc 1, setAt s.pc t (.rSpin 0)⟩)
      else (some (.ret t ()), ⟨s.w, add32 s.rc 1, setAt s.pc t .rHeld⟩)
  | .rSpin j =>
    if j > maxLoop then (none, s.goto t .rCrashed)
    else if s.w = 0 then (some (.ret t ()), ⟨1, s.rc, setAt s.pc t .rHeld⟩)
    else (none, s.goto t (.rSpin (j + 1)))
  | .ruAdd =>
    if add32 s.rc (-1) < 0 ∧ (add32 (add32 s.rc (-1)) 1 = 0 ∨ add32 (add32 s.rc (-1)) 1 = -maxReaders) then
      (none, ⟨s.w, add32 s.rc (-1), setAt s.pc t .crashed⟩)
    else (some (.ret t ()), ⟨(if add32 s.rc (-1) < 0 ∧ add32 s.rc (-1) = 0 then 0 else s.w), add32 s.rc (-1), setAt s.pc t .idle⟩)
  | _ => (none, s)

/-- Between two calls, or panicked. -/
def Outside (p : PC) : Prop := p = .idle ∨ p = .wHeld ∨ p = .rHeld ∨ p = .crashed ∨ p = .rCrashed

/-- **C111**: all four calls of the reader-writer spin lock. -/
theorem C111_rwspinlock (s : St) (t : Nat) (h : ¬ Outside (s.pc t)) :
    ∃! p : Option (Ev Op Unit) × St, Step s p.1 p.2 ∧ p.2.pc t ≠ s.pc t := by
  refine ⟨nextStep s t, ?_, ?_⟩
  · cases hp : s.pc t with
    | idle => exact absurd (.inl hp) h
    | wHeld => exact absurd (.inr (.inl hp)) h
    | rHeld => exact absurd (.inr (.inr (.inl hp))) h
    | crashed => exact absurd (.inr (.inr (.inr (.inl hp)))) h
    | rCrashed => exact absurd (.inr (.inr (.inr (.inr hp)))) h
    | wSpin i =>
      simp only [nextStep, hp]
      by_cases h1 : i > maxLoop
      · rw [if_pos h1]; exact ⟨.wGiveUp s t i hp h1, by simp [St.goto, setAt_at]⟩
      · rw [if_neg h1]
        by_cases h2 : s.w = 0
        · rw [if_pos h2]; exact ⟨.wAcquire s t i hp h1 h2, by simp [setAt_at]⟩
        · rw [if_neg h2]; exact ⟨.wAgain s t i hp h1 h2, by simp [St.goto, setAt_at]⟩
    | wAdd => simp only [nextStep, hp]; exact ⟨.wAdd s t hp, by simp [setAt_at]⟩
    | wuAdd => simp only [nextStep, hp]; exact ⟨.wuAdd s t hp, by simp only [setAt_at]; split_ifs <;> simp⟩
    | wuUnlock =>
      simp only [nextStep, hp]
      by_cases h1 : s.w = 1
      · rw [if_pos h1]; exact ⟨.wuUnlock s t hp h1, by simp [setAt_at]⟩
      · rw [if_neg h1]; exact ⟨.wuMisuse s t hp h1, by simp [St.goto, setAt_at]⟩
    | rLoad i =>
      simp only [nextStep, hp]
      by_cases h1 : i > maxLoop
      · rw [if_pos h1]; exact ⟨.rGiveUp s t i hp h1, by simp [St.goto, setAt_at]⟩
      · rw [if_neg h1]; exact ⟨.rLoad s t i hp h1, by simp only [St.goto, setAt_at]; split_ifs <;> simp⟩
    | rAdd =>
      simp only [nextStep, hp]
      by_cases h1 : add32 s.rc 1 = 1
      · rw [if_pos h1]; exact ⟨.rAddFirst s t hp h1, by simp [setAt_at]⟩
      · rw [if_neg h1]; exact ⟨.rAdd s t hp h1, by simp [setAt_at]⟩
    | rSpin i =>
      simp only [nextStep, hp]
      by_cases h1 : i > maxLoop
      · rw [if_pos h1]; exact ⟨.rsGiveUp s t i hp h1, by simp [St.goto, setAt_at]⟩
      · rw [if_neg h1]
        by_cases h2 : s.w = 0
        · rw [if_pos h2]; exact ⟨.rsAcquire s t i hp h1 h2, by simp [setAt_at]⟩
        · rw [if_neg h2]; exact ⟨.rsAgain s t i hp h1 h2, by simp [St.goto, setAt_at]⟩
    | ruAdd =>
      simp only [nextStep, hp]
      split_ifs with h1
      · exact ⟨.ruPanic s t hp h1.1 h1.2, by simp [setAt_at]⟩
      · rename_i h2
        have := Step.ruAdd s t hp h1
        rw [if_pos h2] at this
        exact ⟨this, by simp [setAt_at]⟩
      · rename_i h2
        have := Step.ruAdd s t hp h1
        rw [if_neg h2] at this
        exact ⟨this, by simp [setAt_at]⟩
  · rintro ⟨e, s'⟩ ⟨hs, hne⟩
    cases hs with
    | callLock u hp => obtain rfl := mover hne; exact absurd (.inl hp) h
    | wGiveUp u i hp h1 => obtain rfl := mover hne; simp only [nextStep, St.goto, hp, if_pos h1]
    | wAcquire u i hp h1 h2 => obtain rfl := mover hne; simp only [nextStep, St.goto, hp, if_neg h1, if_pos h2]
    | wAgain u i hp h1 h2 => obtain rfl := mover hne; simp only [nextStep, St.goto, hp, if_neg h1, if_neg h2]
    | wAdd u hp => obtain rfl := mover hne; simp only [nextStep, St.goto, hp]
    | callUnlock u hp => obtain rfl := mover hne; exact absurd (.inr (.inl hp)) h
    | wuAdd u hp => obtain rfl := mover hne; simp only [nextStep, St.goto, hp]
    | wuUnlock u hp h1 => obtain rfl := mover hne; simp only [nextStep, St.goto, hp, if_pos h1]
    | wuMisuse u hp h1 => obtain rfl := mover hne; simp only [nextStep, St.goto, hp, if_neg h1]
    | callRLock u hp => obtain rfl := mover hne; exact absurd (.inl hp) h
    | rGiveUp u i hp h1 => obtain rfl := mover hne; simp only [nextStep, St.goto, hp, if_pos h1]
    | rLoad u i hp h1 => obtain rfl := mover hne; simp only [nextStep, St.goto, hp, if_neg h1]
    | rAddFirst u hp h1 => obtain rfl := mover hne; simp only [nextStep, St.goto, hp, if_pos h1]
    | rAdd u hp h1 => obtain rfl := mover hne; simp only [nextStep, St.goto, hp, if_neg h1]
    | rsGiveUp u i hp h1 => obtain rfl := mover hne; simp only [nextStep, St.goto, hp, if_pos h1]
    | rsAcquire u i hp h1 h2 => obtain rfl := mover hne; simp only [nextStep, St.goto, hp, if_neg h1, if_pos h2]
    | rsAgain u i hp h1 h2 => obtain rfl := mover hne; simp only [nextStep, St.goto, hp, if_neg h1, if_neg h2]
    | callRUnlock u hp => obtain rfl := mover hne; exact absurd (.inr (.inr (.inl hp))) h
    | ruPanic u hp h1 h2 => obtain rfl := mover hne; simp only [nextStep, St.goto, hp, if_pos (And.intro h1 h2)]
    | ruAdd u hp h1 => obtain rfl := mover hne; simp only [nextStep, St.goto, hp, if_neg h1]

example : ∃ s : St, ¬ Outside (s.pc 0) ∧ ¬ Outside (s.pc 1) :=
  ⟨⟨1, 1, fun t => if t = 0 then .ruAdd else .rAdd⟩, by simp [Outside], by simp [Outside]⟩

end RWSpinLock

namespace LFQueue
variable {V : Type} [Inhabited V]

/-- The next step of a goroutine inside a call. -/
def nextStep (s : St V) (t : Nat) : Option (Ev (Op V) (Ret V)) × St V :=
  match s.pc t with
  | .idle => (none, s)
  | .pushLoad v n => (none,
      { s with mem := setAt s.mem n { s.mem n with next := s.head }, pc := setAt s.pc t (.pushCas v n) })
  | .pushCas v n => if s.head = (s.mem n).next then (none, { s with head := some n, pc := setAt s.pc t .pushAdd })
      else (none, { s with pc := setAt s.pc t (.pushLoad v n) })
  | .pushAdd => (some (.ret t (.pushed true)), { s with size := s.size + 1, pc := setAt s.pc t .idle })
  | .popLoad => match s.head with
    | none => (none, { s with pc := setAt s.pc t (.popSub default false) })
    | some n => (none, { s with pc := setAt s.pc t (.popRead n) })
  | .popRead n => (none, { s with pc := setAt s.pc t (.popCas n (s.mem n).next) })
  | .popCas n nx =>
    if s.head = some n then (none, { s with head := nx, pc := setAt s.pc t (.popSub (s.mem n).val true) })
    else (none, { s with pc := setAt s.pc t .popLoad })
  | .popSub v ok => (some (.ret t (.popped v ok)), { s with size := s.size - 1, pc := setAt s.pc t .idle })
  | .clear => (none, { s with head := none, pc := setAt s.pc t .retClear })
  | .empty => (none, { s with pc := setAt s.pc t (.retEmpty s.head.isNone) })
  | .retClear => (some (.ret t .cleared), { s with pc := setAt s.pc t .idle })
  | .retEmpty b => (some (.ret t (.isEmpty b)), { s with pc := setAt s.pc t .idle })

/-- **C111**: all calls of the lock-free list. -/
theorem C111_lfqueue (s : St V) (t : Nat) (h : s.pc t ≠ .idle) :
    ∃! p : Option (Ev (Op V) (Ret V)) × St V, Step s p.1 p.2 ∧ p.2.pc t ≠ s.pc t := by
  refine ⟨nextStep s t, ?_, ?_⟩
  · cases hp : s.pc t with
    | idle => exact absurd hp h
    | pushLoad v n => simp only [nextStep, hp]; exact ⟨.pushLoad s t v n hp, by simp [setAt_at]⟩
    | pushCas v n =>
      simp only [nextStep, hp]
      by_cases h1 : s.head = (s.mem n).next
      · rw [if_pos h1]; exact ⟨.pushCasOk s t v n hp h1, by simp [setAt_at]⟩
      · rw [if_neg h1]; exact ⟨.pushCasFail s t v n hp h1, by simp [setAt_at]⟩
    | pushAdd => simp only [nextStep, hp]; exact ⟨.pushAdd s t hp, by simp [setAt_at]⟩
    | popLoad =>
      obtain h1 | ⟨n, h1⟩ : s.head = none ∨ ∃ n, s.head = some n := by cases s.head <;> simp
      · have e : nextStep s t = (none, { s with pc := setAt s.pc t (.popSub default false) }) := by simp only [nextStep, hp, h1]
        rw [e]; exact ⟨.popNil s t hp h1, by simp [setAt_at]⟩
      · have e : nextStep s t = (none, { s with pc := setAt s.pc t (.popRead n) }) := by simp only [nextStep, hp, h1]
        rw [e]; exact ⟨.popLoad s t n hp h1, by simp [setAt_at]⟩
    | popRead n => simp only [nextStep, hp]; exact ⟨.popRead s t n hp, by simp [setAt_at]⟩
    | popCas n nx =>
      simp only [nextStep, hp]
      by_cases h1 : s.head = some n
      · rw [if_pos h1]; exact ⟨.popCasOk s t n nx hp h1, by simp [setAt_at]⟩
      · rw [if_neg h1]; exact ⟨.popCasFail s t n nx hp h1, by simp [setAt_at]⟩
    | popSub v ok => simp only [nextStep, hp]; exact ⟨.popSub s t v ok hp, by simp [setAt_at]⟩
    | clear => simp only [nextStep, hp]; exact ⟨.clear s t hp, by simp [setAt_at]⟩
    | empty => simp only [nextStep, hp]; exact ⟨.empty s t hp, by simp [setAt_at]⟩
    | retClear => simp only [nextStep, hp]; exact ⟨.retClear s t hp, by simp [setAt_at]⟩
    | retEmpty b => simp only [nextStep, hp]; exact ⟨.retEmpty s t b hp, by simp [setAt_at]⟩
  · rintro ⟨e, s'⟩ ⟨hs, hne⟩
    cases hs with
    | callPush u v hp => obtain rfl := mover hne; exact absurd hp h
    | pushLoad u v n hp => obtain rfl := mover hne; simp only [nextStep, hp]
    | pushCasOk u v n hp h1 => obtain rfl := mover hne; simp only [nextStep, hp, if_pos h1]
    | pushCasFail u v n hp h1 => obtain rfl := mover hne; simp only [nextStep, hp, if_neg h1]
    | pushAdd u hp => obtain rfl := mover hne; simp only [nextStep, hp]
    | callPop u hp => obtain rfl := mover hne; exact absurd hp h
    | popNil u hp h1 => obtain rfl := mover hne; simp only [nextStep, hp, h1]
    | popLoad u n hp h1 => obtain rfl := mover hne; simp only [nextStep, hp, h1]
    | popRead u n hp => obtain rfl := mover hne; simp only [nextStep, hp]
    | popCasOk u n nx hp h1 => obtain rfl := mover hne; simp only [nextStep, hp, if_pos h1]
    | popCasFail u n nx hp h1 => obtain rfl := mover hne; simp only [nextStep, hp, if_neg h1]
    | popSub u v ok hp => obtain rfl := mover hne; simp only [nextStep, hp]
    | callClear u hp => obtain rfl := mover hne; exact absurd hp h
    | clear u hp => obtain rfl := mover hne; simp only [nextStep, hp]
    | callEmpty u hp => obtain rfl := mover hne; exact absurd hp h
    | empty u hp => obtain rfl := mover hne; simp only [nextStep, hp]
    | retClear u hp => obtain rfl := mover hne; simp only [nextStep, hp]
    | retEmpty u b hp => obtain rfl := mover hne; simp only [nextStep, hp]

example : ∃ s : St Nat, s.pc 0 ≠ .idle ∧ s.pc 1 ≠ .idle :=
  ⟨{ (St.init : St Nat) with pc := fun t => if t = 0 then .popLoad else .pushAdd }, by simp, by simp⟩

end LFQueue

namespace FileLock

/-- **C111**: all calls of the file lock.  Inside the inner mutex, in front of it when it is free, and in the sleep a
goroutine can always go on, in exactly one way; in front of the inner mutex while somebody else is inside it cannot. -/
theorem C111_filelock (eacces : Bool) (exist : String → Prop) (s : St) (t : Nat) (h : s.pc t ≠ .idle) :
    ((∀ m op, s.pc t = .wait m op → s.w m = none) →
      ∃! p : Option Event × St, Step eacces exist s p.1 p.2 ∧ p.2.pc t ≠ s.pc t) ∧
    (∀ m op, s.pc t = .wait m op → s.w m ≠ none → ∀ e s', Step eacces exist s e s' → s'.pc t = s.pc t) := by
  constructor
  · intro hw
    classical
    refine ⟨match s.pc t with
      | .idle => (none, s)
      | .wait m op => (none, { s with w := setAt s.w m (some t), pc := setAt s.pc t (.inside m op) })
      | .inside m (.init p) => (some (.inited t m (s.path m == "")),
          { s with path := setAt s.path m (if s.path m = "" then p else s.path m) }.done t m)
      | .inside m .lock =>
        if ¬ (exist (s.path m) ∧ s.path m ≠ "") then (some (.failed t m), s.done t m)
        else if s.opened (s.path m) = none then (some (.acquired t m (s.path m)),
          { s with h := setAt s.h m s.next, opened := setKey s.opened (s.path m) (some s.next), next := s.next + 1 }.done t m)
        else if eacces = false then (some (.failed t m), s.done t m)
        else (none, { s with pc := setAt s.pc t (.sleep m) })
      | .inside m .unlock => (some (.released t m),
          { s with h := setAt s.h m 0, opened := closeHandle s.opened (s.h m) }.done t m)
      | .sleep m => (none, { s with pc := setAt s.pc t (.inside m .lock) }), ?_, ?_⟩
    · cases hp : s.pc t with
      | idle => exact absurd hp h
      | wait m op => exact ⟨.enter s t m op hp (hw m op hp), by simp [setAt_at]⟩
      | sleep m => exact ⟨.wake s t m hp, by simp [setAt_at]⟩
      | inside m op =>
        cases op with
        | init p => exact ⟨.init s t m p hp, by simp [St.done, setAt_at]⟩
        | unlock => exact ⟨.unlock s t m hp, by simp [St.done, setAt_at]⟩
        | lock =>
          simp only
          by_cases h1 : exist (s.path m) ∧ s.path m ≠ ""
          · rw [if_neg (not_not.2 h1)]
            by_cases h2 : s.opened (s.path m) = none
            · rw [if_pos h2]; exact ⟨.acquire s t m hp h1.1 h1.2 h2, by simp [St.done, setAt_at]⟩
            · rw [if_neg h2]
              by_cases h3 : eacces = false
              · rw [if_pos h3]; exact ⟨.busy s t m hp h1.1 h1.2 h2 h3, by simp [St.done, setAt_at]⟩
              · rw [if_neg h3]; exact ⟨.sleep s t m hp h1.1 h1.2 h2 (by simpa using h3), by simp [setAt_at]⟩
          · rw [if_pos h1]; exact ⟨.missing s t m hp h1, by simp [St.done, setAt_at]⟩
    · rintro ⟨e, s'⟩ ⟨hs, hne⟩
      cases hs with
      | call u m op hp => obtain rfl := mover hne; exact absurd hp h
      | enter u m op hp h1 => obtain rfl := mover hne; simp only [St.done, hp]
      | init u m p hp => obtain rfl := mover hne; simp only [St.done, hp]
      | acquire u m hp h1 h2 h3 => obtain rfl := mover hne; simp only [St.done, hp, if_neg (not_not.2 (And.intro h1 h2)), if_pos h3]
      | missing u m hp h1 => obtain rfl := mover hne; simp only [St.done, hp, if_pos h1]
      | busy u m hp h1 h2 h3 h4 =>
        obtain rfl := mover hne; simp only [St.done, hp, if_neg (not_not.2 (And.intro h1 h2)), if_neg h3, if_pos h4]
      | sleep u m hp h1 h2 h3 h4 =>
        obtain rfl := mover hne
        simp only [St.done, hp, if_neg (not_not.2 (And.intro h1 h2)), if_neg h3]
        rw [if_neg (by rw [h4]; simp)]
      | wake u m hp => obtain rfl := mover hne; simp only [St.done, hp]
      | unlock u m hp => obtain rfl := mover hne; simp only [St.done, hp]
      | envOpen p h1 => exact absurd rfl hne
      | envClose p n h1 h2 => exact absurd rfl hne
  · intro m op hp hw e s' hs
    by_contra hne
    have bad : ∀ {q : PC}, s.pc t = q → (∀ m op, q ≠ .wait m op) → False := fun e1 h2 => h2 m op (e1 ▸ hp)
    cases hs with
    | call u m' op' hp' => obtain rfl := mover hne; exact h hp'
    | enter u m' op' hp' h1 =>
      obtain rfl := mover hne
      rw [hp] at hp'
      obtain ⟨rfl, rfl⟩ := PC.wait.inj hp'
      exact hw h1
    | init u m' p hp' => obtain rfl := mover hne; exact bad hp' (by simp)
    | acquire u m' hp' h1 h2 h3 => obtain rfl := mover hne; exact bad hp' (by simp)
    | missing u m' hp' h1 => obtain rfl := mover hne; exact bad hp' (by simp)
    | busy u m' hp' h1 h2 h3 h4 => obtain rfl := mover hne; exact bad hp' (by simp)
    | sleep u m' hp' h1 h2 h3 h4 => obtain rfl := mover hne; exact bad hp' (by simp)
    | wake u m' hp' => obtain rfl := mover hne; exact bad hp' (by simp)
    | unlock u m' hp' => obtain rfl := mover hne; exact bad hp' (by simp)
    | envOpen p h1 => exact hne rfl
    | envClose p n h1 h2 => exact hne rfl

/-- Both parts are met: one goroutine inside, another in front of the mutex. -/
example : ∃ s : St, s.pc 0 = .inside 5 .lock ∧ s.pc 1 = .wait 5 .lock ∧ s.w 5 ≠ none :=
  ⟨{ St.start with w := fun _ => some 0, pc := fun t => if t = 0 then .inside 5 .lock else .wait 5 .lock },
    rfl, rfl, by simp⟩

end FileLock

end Verif
