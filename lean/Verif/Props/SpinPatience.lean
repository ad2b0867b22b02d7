import Verif.Props.SpinLock
/-!
# C36, C37: locks give up only after very many attempts
-/

set_option linter.unusedSectionVars false

namespace Verif.SpinLock
open Verif.Spec

/-- Goroutine `t` tried to take the lock in this step while somebody had it, and stays in `Lock`. -/
def Failed (s s' : St) (t : Nat) : Prop :=
  s.state ≠ 0 ∧ ∃ i j, i ≠ j ∧ s.pc t = .spin i ∧ s'.pc t = .spin j

/-- Steps, with a count for every goroutine of the failed attempts since it was last outside all calls. -/
def Counted (s : St × (Nat → Nat)) (e : Option (Ev Op Unit)) (s' : St × (Nat → Nat)) : Prop :=
  Step s.1 e s'.1 ∧ ∀ t, (Failed s.1 s'.1 t → s'.2 t = s.2 t + 1) ∧
    (¬ Failed s.1 s'.1 t → s'.2 t = if s.1.pc t = .idle then 0 else s.2 t)

/-- **C36** `Lock` panics exactly after 2^24 + 1 failed attempts, each made while somebody had the lock. -/
theorem C36_patience {τ : List (Ev Op Unit)} {s : St × (Nat → Nat)} (h : Exec Counted (St.init, fun _ => 0) τ s) (t : Nat)
    (ht : s.1.pc t = .deadlock) : s.2 t = 2 ^ 24 + 1 := by
  have key : ∀ (a b : St × (Nat → Nat)) (e : Option (Ev Op Unit)),
      (∀ t, (∀ i, a.1.pc t = .spin i → i = a.2 t ∧ i ≤ 2 ^ 24 + 1) ∧ (a.1.pc t = .deadlock → a.2 t = 2 ^ 24 + 1)) → Counted a e b →
      (∀ t, (∀ i, b.1.pc t = .spin i → i = b.2 t ∧ i ≤ 2 ^ 24 + 1) ∧ (b.1.pc t = .deadlock → b.2 t = 2 ^ 24 + 1)) := by
    rintro ⟨a, n⟩ ⟨b, m⟩ e hI ⟨hs, hc⟩ t
    obtain ⟨h1, h2⟩ := hI t
    obtain ⟨c1, c2⟩ := hc t
    simp only at h1 h2 c1 c2 hs ⊢
    -- a step that leaves the place of `t` alone
    have stay : b.pc t = a.pc t → (∀ i, b.pc t = .spin i → i = m t ∧ i ≤ 2 ^ 24 + 1) ∧ (b.pc t = .deadlock → m t = 2 ^ 24 + 1) := by
      intro e
      have hn : ¬ Failed a b t := by
        rintro ⟨-, i, j, hij, h3, h4⟩
        rw [e, h3] at h4
        exact hij (PC.spin.inj h4)
      have hm := c2 hn
      rw [e]
      constructor
      · intro i hi
        rw [hm, if_neg (by rw [hi]; simp)]
        exact h1 i hi
      · intro hd
        rw [hm, if_neg (by rw [hd]; simp)]
        exact h2 hd
    cases hs with
    | callLock t' hp =>
      by_cases et : t = t'
      · subst et
        simp only [setAt_same]
        have hn : ¬ Failed a ⟨a.state, setAt a.pc t (.spin 0)⟩ t := by
          rintro ⟨-, i, j, -, h3, -⟩
          rw [hp] at h3; cases h3
        refine ⟨fun i hi => ?_, by simp⟩
        rw [c2 hn, if_pos hp, PC.spin.inj hi.symm]
        omega
      · exact stay (setAt_ne _ _ _ _ et)
    | giveUp t' i hp hi =>
      by_cases et : t = t'
      · subst et
        simp only [setAt_same]
        refine ⟨by simp, fun _ => ?_⟩
        have hn : ¬ Failed a ⟨a.state, setAt a.pc t .deadlock⟩ t := by
          rintro ⟨-, i, j, -, -, h4⟩
          simp [setAt_same] at h4
        rw [c2 hn, if_neg (by rw [hp]; simp)]
        have := h1 i hp
        simp only [maxLoop] at hi
        omega
      · exact stay (setAt_ne _ _ _ _ et)
    | again t' i hp hi h0 =>
      by_cases et : t = t'
      · subst et
        simp only [setAt_same]
        refine ⟨fun j hj => ?_, by simp⟩
        have hf : Failed a ⟨a.state, setAt a.pc t (.spin (i + 1))⟩ t :=
          ⟨h0, i, i + 1, by omega, hp, setAt_same _ _ _⟩
        rw [c1 hf, ← PC.spin.inj hj]
        have := h1 i hp
        simp only [maxLoop] at hi
        omega
      · exact stay (setAt_ne _ _ _ _ et)
    | acquire t' i hp hi h0 =>
      by_cases et : t = t'
      · subst et; simp [setAt_same]
      · exact stay (setAt_ne _ _ _ _ et)
    | callUnlock t' hp =>
      by_cases et : t = t'
      · subst et; simp [setAt_same]
      · exact stay (setAt_ne _ _ _ _ et)
    | release t' hp h1 =>
      by_cases et : t = t'
      · subst et; simp [setAt_same]
      · exact stay (setAt_ne _ _ _ _ et)
    | misuse t' hp h1 =>
      by_cases et : t = t'
      · subst et; simp [setAt_same]
      · exact stay (setAt_ne _ _ _ _ et)
  refine (Exec.invariant (fun _ a => ∀ t, (∀ i, a.1.pc t = .spin i → i = a.2 t ∧ i ≤ 2 ^ 24 + 1) ∧ (a.1.pc t = .deadlock → a.2 t = 2 ^ 24 + 1))
    ?_ (fun _ a b hp hs => key a b _ hp hs) (fun _ a _ b hp hs => key a b _ hp hs) h t).2 ht
  intro t; simp [St.init]

/-- The count exists along every step. -/
theorem counted_exists {s s' : St} {e : Option (Ev Op Unit)} (hs : Step s e s') (n : Nat → Nat) :
    ∃ m, Counted (s, n) e (s', m) := by
  classical
  exact ⟨fun t => if Failed s s' t then n t + 1 else if s.pc t = .idle then 0 else n t, hs, fun t =>
    ⟨fun h => by simp [h], fun h => by simp [h]⟩⟩

/-- A goroutine that waits for a lock never released does panic in the end: `k` failed attempts are possible for every
`k` up to 2^24 + 1, and then only giving up. -/
theorem waits (s : St) (t : Nat) (h0 : s.state ≠ 0) (hp : s.pc t = .spin 0) (k : Nat) (hk : k ≤ maxLoop + 1) :
    ∃ s', Exec Step s [] s' ∧ s'.state = s.state ∧ s'.pc t = .spin k := by
  induction k with
  | zero => exact ⟨s, .refl _, rfl, hp⟩
  | succ k ih =>
    obtain ⟨s', he, h1, h2⟩ := ih (by omega)
    exact ⟨_, .silent he (.again s' t k h2 (by omega) (by omega)), h1, setAt_same _ _ _⟩

/-- **C36** Waiting for a lock that is never released ends in the panic. -/
theorem C36_deadlock_detected (s : St) (t : Nat) (h0 : s.state ≠ 0) (hp : s.pc t = .spin 0) :
    ∃ s', Exec Step s [] s' ∧ s'.pc t = .deadlock := by
  obtain ⟨s', he, -, h2⟩ := waits s t h0 hp (maxLoop + 1) (by omega)
  exact ⟨_, .silent he (.giveUp s' t _ h2 (by omega)), setAt_same _ _ _⟩

example : ∃ s, Exec Step St.init [.call 0 .lock, .ret 0 (), .call 0 .unlock, .ret 0 (), .call 1 .lock, .ret 1 (), .call 0 .lock] s ∧
    s.pc 0 = .spin 0 ∧ s.state ≠ 0 :=
  ⟨_, .visible (.visible (.visible (.visible (.visible (.visible (.visible (.refl _) (.callLock _ 0 rfl))
    (.acquire _ 0 0 rfl (by decide) rfl)) (.callUnlock _ 0 (.inr rfl))) (.release _ 0 rfl rfl)) (.callLock _ 1 rfl))
    (.acquire _ 1 0 rfl (by decide) rfl)) (.callLock _ 0 rfl), rfl, by decide⟩

/-- Every run can be counted along. -/
theorem Counted.of_step {a s : St} {τ : List (Ev Op Unit)} (m : Nat → Nat) (h : Exec Step a τ s) :
    ∃ m', Exec Counted (a, m) τ (s, m') := by
  classical
  have next : ∀ (b c : St) (e : Option (Ev Op Unit)) (m : Nat → Nat), Step b e c → ∃ m', Counted (b, m) e (c, m') := by
    intro b c e m hs
    refine ⟨fun t => if Failed b c t then m t + 1 else if b.pc t = .idle then 0 else m t, hs, fun t => ⟨?_, ?_⟩⟩
    · intro hf; simp [hf]
    · intro hf; simp [hf]
  induction h with
  | refl => exact ⟨m, .refl _⟩
  | silent _ hs ih =>
    obtain ⟨m1, h1⟩ := ih
    obtain ⟨m2, h2⟩ := next _ _ _ m1 hs
    exact ⟨m2, h1.silent h2⟩
  | visible _ hs ih =>
    obtain ⟨m1, h1⟩ := ih
    obtain ⟨m2, h2⟩ := next _ _ _ m1 hs
    exact ⟨m2, h1.visible h2⟩

/-- A goroutine that waits for a lock held for ever may come to the deadlock report. -/
example : ∃ τ, ∃ s : St × (Nat → Nat), Exec Counted (St.init, fun _ => 0) τ s ∧ s.1.pc 1 = .deadlock := by
  have h : ∃ τ s, Exec Step St.init τ s ∧ s.state ≠ 0 ∧ s.pc 1 = .spin 0 :=
    ⟨_, _, .visible (.visible (.visible (.refl _) (.callLock _ 0 rfl)) (.acquire _ 0 0 rfl (by decide) rfl))
      (.callLock _ 1 rfl), by decide, rfl⟩
  obtain ⟨τ, a, h, h0, hp⟩ := h
  obtain ⟨m, hm⟩ := Counted.of_step (fun _ => 0) h
  obtain ⟨s, hs, hd⟩ := C36_deadlock_detected a 1 h0 hp
  obtain ⟨m', hm'⟩ := Counted.of_step m hs
  exact ⟨_, (s, m'), hm.trans hm', hd⟩

end Verif.SpinLock

namespace Verif.RWSpinLock
open Verif.Spec
open Verif.SpinLock (maxLoop)

/-- The round of a waiting goroutine. -/
def round : PC → Option Nat
  | .wSpin i | .rLoad i | .rSpin i => some i
  | _ => none

/-- A waiting goroutine went to another round of the same loop. -/
def Waited (s s' : St) (t : Nat) : Prop := ∃ i j, i ≠ j ∧
  ((s.pc t = .wSpin i ∧ s'.pc t = .wSpin j ∧ s.w ≠ 0) ∨ (s.pc t = .rLoad i ∧ s'.pc t = .rLoad j ∧ s.rc < 0) ∨
    (s.pc t = .rSpin i ∧ s'.pc t = .rSpin j ∧ s.w ≠ 0))

/-- Steps, with a count for every goroutine of its rounds of waiting since it was last outside the loops. -/
def Counted (s : St × (Nat → Nat)) (e : Option (Ev Op Unit)) (s' : St × (Nat → Nat)) : Prop :=
  Step s.1 e s'.1 ∧ ∀ t, (Waited s.1 s'.1 t → s'.2 t = s.2 t + 1) ∧
    (¬ Waited s.1 s'.1 t → s'.2 t = if round (s.1.pc t) = none then 0 else s.2 t)

theorem setAt_same' {β : Type} (f : Nat → β) (i : Nat) (v : β) : setAt f i v i = v := by simp [setAt]
theorem setAt_ne' {β : Type} (f : Nat → β) (i j : Nat) (v : β) (hj : j ≠ i) : setAt f i v j = f j := by simp [setAt, hj]

theorem rounds_step {a b : St × (Nat → Nat)} {e : Option (Ev Op Unit)}
    (hI : ∀ t i, round (a.1.pc t) = some i → i ≤ a.2 t) (h : Counted a e b) :
    ∀ t i, round (b.1.pc t) = some i → i ≤ b.2 t := by
  obtain ⟨a, n⟩ := a
  obtain ⟨b, m⟩ := b
  obtain ⟨hs, hc⟩ := h
  intro t
  have hI := hI t
  obtain ⟨c1, c2⟩ := hc t
  simp only at hI c1 c2 hs ⊢
  have stay : b.pc t = a.pc t → ∀ i, round (b.pc t) = some i → i ≤ m t := by
    intro e i hi
    have hn : ¬ Waited a b t := by
      rintro ⟨i, j, hij, ⟨h3, h4, -⟩ | ⟨h3, h4, -⟩ | ⟨h3, h4, -⟩⟩ <;> rw [e, h3] at h4 <;> simp_all
    rw [e] at hi
    rw [c2 hn, if_neg (by rw [hi]; simp)]
    exact hI i hi
  -- `t` is now in no loop, or in round 0 of one
  have fresh : (round (b.pc t) = none ∨ round (b.pc t) = some 0) → ∀ i, round (b.pc t) = some i → i ≤ m t := by
    intro h i hi
    rw [hi] at h
    rcases h with h | h
    · cases h
    · have : i = 0 := by simpa using h
      omega
  have wait : ∀ i, round (a.pc t) = some i → Waited a b t → round (b.pc t) = some (i + 1) →
      ∀ j, round (b.pc t) = some j → j ≤ m t := by
    intro i hi hw hb j hj
    rw [hb] at hj
    have := hI i hi
    have e : i + 1 = j := by simpa using hj
    rw [c1 hw]
    omega
  cases hs with
  | wAgain t' i hp hi h0 =>
    by_cases et : t = t'
    · subst et
      exact wait i (by simp [hp, round]) ⟨i, i + 1, by omega, .inl ⟨hp, setAt_same' _ _ _, h0⟩⟩
        (by simp [St.goto, setAt_same', round])
    · exact stay (setAt_ne' _ _ _ _ et)
  | rsAgain t' i hp hi h0 =>
    by_cases et : t = t'
    · subst et
      exact wait i (by simp [hp, round]) ⟨i, i + 1, by omega, .inr (.inr ⟨hp, setAt_same' _ _ _, h0⟩)⟩
        (by simp [St.goto, setAt_same', round])
    · exact stay (setAt_ne' _ _ _ _ et)
  | rLoad t' i hp hi =>
    by_cases et : t = t'
    · subst et
      by_cases h0 : a.rc ≥ 0
      · exact fresh (by simp [St.goto, setAt_same', h0, round])
      · rw [if_neg h0] at wait stay fresh c1 c2 ⊢
        exact wait i (by simp [hp, round]) ⟨i, i + 1, by omega, .inr (.inl ⟨hp, setAt_same' _ _ _, by omega⟩)⟩
          (by simp [St.goto, setAt_same', round])
    · exact stay (setAt_ne' _ _ _ _ et)
  | wuAdd t' hp =>
    by_cases et : t = t'
    · subst et
      exact fresh (by simp only [setAt_same']; split <;> simp [round])
    · exact stay (setAt_ne' _ _ _ _ et)
  | _ t' =>
    by_cases et : t = t'
    · subst et
      exact fresh (by simp [St.goto, setAt_same', round])
    · exact stay (setAt_ne' _ _ _ _ et)

/-- **C37** A goroutine that waits for the lock, as a reader or as a writer, panics only after at least 2^24 rounds of
waiting, in each of which it saw the lock taken. -/
theorem C37_patience {τ : List (Ev Op Unit)} {s s' : St × (Nat → Nat)} {e : Option (Ev Op Unit)}
    (h : Exec Counted (St.init, fun _ => 0) τ s) (hs : Step s.1 e s'.1) (t : Nat) (hw : round (s.1.pc t) ≠ none)
    (hc : s'.1.pc t = .crashed ∨ s'.1.pc t = .rCrashed) : 2 ^ 24 < s.2 t := by
  have hI := Exec.invariant (fun _ (a : St × (Nat → Nat)) => ∀ t i, round (a.1.pc t) = some i → i ≤ a.2 t)
    (by intro t i; simp [St.init, round]) (fun _ _ _ hp hs => rounds_step hp hs) (fun _ _ _ _ hp hs => rounds_step hp hs) h t
  obtain ⟨a, n⟩ := s
  obtain ⟨b, m⟩ := s'
  simp only at hs hw hc hI ⊢
  have same : b.pc t = a.pc t → False := by
    intro e; rw [e] at hc
    rcases hc with hc | hc <;> rw [hc] at hw <;> simp [round] at hw
  have up : ∀ i, round (a.pc t) = some i → i > maxLoop → 2 ^ 24 < n t := by
    intro i hi hl
    have := hI i hi
    simp only [maxLoop] at hl
    omega
  cases hs with
  | wGiveUp t' i hp hi =>
    by_cases et : t = t'
    · subst et; exact up i (by simp [hp, round]) hi
    · exact (same (setAt_ne' _ _ _ _ et)).elim
  | rGiveUp t' i hp hi =>
    by_cases et : t = t'
    · subst et; exact up i (by simp [hp, round]) hi
    · exact (same (setAt_ne' _ _ _ _ et)).elim
  | rsGiveUp t' i hp hi =>
    by_cases et : t = t'
    · subst et; exact up i (by simp [hp, round]) hi
    · exact (same (setAt_ne' _ _ _ _ et)).elim
  | wuAdd t' hp =>
    by_cases et : t = t'
    · subst et; rw [hp] at hw; simp [round] at hw
    · exact (same (setAt_ne' _ _ _ _ et)).elim
  | wuMisuse t' hp =>
    by_cases et : t = t'
    · subst et; rw [hp] at hw; simp [round] at hw
    · exact (same (setAt_ne' _ _ _ _ et)).elim
  | ruPanic t' hp =>
    by_cases et : t = t'
    · subst et; rw [hp] at hw; simp [round] at hw
    · exact (same (setAt_ne' _ _ _ _ et)).elim
  | rLoad t' i hp hi =>
    by_cases et : t = t'
    · subst et
      simp only [St.goto, setAt_same'] at hc
      split at hc <;> simp at hc
    · exact (same (setAt_ne' _ _ _ _ et)).elim
  | _ t' =>
    by_cases et : t = t'
    · subst et
      simp [St.goto, setAt_same'] at hc
    · exact (same (setAt_ne' _ _ _ _ et)).elim

/-- A reader waits one round for a writer. -/
example : ∃ s, Exec Step St.init [.call 0 .lock, .ret 0 (), .call 1 .rlock] s ∧ round (s.pc 1) = some 1 :=
  ⟨_, .silent (.visible (.visible (.silent (.visible (.refl _) (.callLock _ 0 rfl)) (.wAcquire _ 0 0 rfl (by decide) rfl))
    (.wAdd _ 0 rfl)) (.callRLock _ 1 rfl)) (.rLoad _ 1 0 rfl (by decide)), rfl⟩

end Verif.RWSpinLock
