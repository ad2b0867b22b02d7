import Verif.Props.SpinLock
/-!
# Unlocking an RWSpinLock that is not locked (C115)
-/
set_option linter.unusedSectionVars false

namespace Verif.RWSpinLock
open Verif.Spec
open Verif.SpinLock (setAt_same setAt_ne maxLoop)

/-- Some goroutine holds the write lock or is returning from `Lock` or into `Unlock` with it. -/
def Spec.Writer (s : St) : Prop := ∃ t, s.pc t = .wHeld ∨ s.pc t = .wuAdd
/-- Some goroutine holds a read lock, or waits for it behind the check of the counter, or is on the way into `RUnlock`. -/
def Spec.Reader (s : St) : Prop := ∃ t, s.pc t = .rHeld ∨ (∃ j, s.pc t = .rSpin j) ∨ s.pc t = .ruAdd ∨ s.pc t = .rCrashed

theorem rc_cases {N : Nat} (hN : (N : Int) < maxReaders) {s : St} (h : Cnt N s) :
    (¬ Spec.Writer s → 0 ≤ s.rc ∧ s.rc < maxReaders) ∧ (¬ Spec.Reader s → s.rc = 0 ∨ s.rc = -maxReaders) := by
  obtain ⟨R, X, hR, hX, he⟩ := h.eq
  have b1 := few_length rfl hR h.few
  have b2 := one_length hX h.w
  refine ⟨fun hw => ?_, fun hr => ?_⟩
  · have : X = [] := by
      refine List.eq_nil_iff_forall_not_mem.2 fun p hp => hw ?_
      have := (hX.mem p.1 p.2).1 hp
      refine ⟨p.1, ?_⟩
      unfold wr at this
      split at this <;> simp_all
    subst this
    simp only [maxReaders, List.length_nil] at *
    omega
  · have : R = [] := by
      refine List.eq_nil_iff_forall_not_mem.2 fun p hp => hr ?_
      have := (hR.mem p.1 p.2).1 hp
      refine ⟨p.1, ?_⟩
      unfold rd at this
      split at this <;> simp_all
    subst this
    simp only [maxReaders, List.length_nil] at *
    omega

/-- **C115 (Unlock).** With fewer than 2^30 goroutines that so far unlocked only what they locked: a goroutine that calls
`Unlock` while nobody holds the write lock panics, whether or not there are readers. -/
theorem C115_unlock_panics {N : Nat} (hN : (N : Int) < maxReaders) {τ : List (Ev Op Unit)} {s s' : St}
    {e : Option (Ev Op Unit)} (t : Nat) (h : Exec (fun s e s' => Step s e s' ∧ Few N e) St.init τ s)
    (hw : ¬ Spec.Writer s) (hs : StepM (s.goto t .wuAdd) e s') (hm : s'.pc t ≠ .wuAdd) : s'.pc t = .crashed := by
  have hb := (rc_cases hN (cnt_exec hN h)).1 hw
  have e0 : (s.goto t .wuAdd).pc t = .wuAdd := setAt_same _ _ _
  have other : ∀ t' p, t' ≠ t → setAt (s.goto t .wuAdd).pc t' p t = .wuAdd := fun t' p hne => by
    rw [setAt_ne _ _ _ _ (Ne.symm hne)]; exact e0
  have far : ∀ t' p (w rc : Int), s' = ⟨w, rc, setAt (s.goto t .wuAdd).pc t' p⟩ → t' = t := by
    intro t' p w rc hs'
    by_contra hne
    exact hm (by rw [hs']; exact other _ _ hne)
  cases hs with
  | unlockFree t' hp => have := far _ _ _ _ rfl; subst this; rw [e0] at hp; cases hp
  | runlockFree t' hp => have := far _ _ _ _ rfl; subst this; rw [e0] at hp; cases hp
  | use _ _ hst =>
    cases hst with
    | wuAdd t' hp =>
      have := far _ _ _ _ rfl
      subst this
      simp only [setAt_same]
      rw [if_pos]
      simp only [St.goto, add32, maxReaders] at *
      rw [bmod_id (by omega) (by omega)]
      omega
    | _ t' => have := far _ _ _ _ rfl; subst this; simp_all

/-- **C115 (RUnlock).** In the same setting: a goroutine that calls `RUnlock` while there are no readers panics, whether or
not somebody holds the write lock. -/
theorem C115_runlock_panics {N : Nat} (hN : (N : Int) < maxReaders) {τ : List (Ev Op Unit)} {s s' : St}
    {e : Option (Ev Op Unit)} (t : Nat) (h : Exec (fun s e s' => Step s e s' ∧ Few N e) St.init τ s)
    (hw : ¬ Spec.Reader s) (hs : StepM (s.goto t .ruAdd) e s') (hm : s'.pc t ≠ .ruAdd) : s'.pc t = .crashed := by
  have hb := (rc_cases hN (cnt_exec hN h)).2 hw
  have e0 : (s.goto t .ruAdd).pc t = .ruAdd := setAt_same _ _ _
  have other : ∀ t' p, t' ≠ t → setAt (s.goto t .ruAdd).pc t' p t = .ruAdd := fun t' p hne => by
    rw [setAt_ne _ _ _ _ (Ne.symm hne)]; exact e0
  have far : ∀ t' p (w rc : Int), s' = ⟨w, rc, setAt (s.goto t .ruAdd).pc t' p⟩ → t' = t := by
    intro t' p w rc hs'
    by_contra hne
    exact hm (by rw [hs']; exact other _ _ hne)
  cases hs with
  | unlockFree t' hp => have := far _ _ _ _ rfl; subst this; rw [e0] at hp; cases hp
  | runlockFree t' hp => have := far _ _ _ _ rfl; subst this; rw [e0] at hp; cases hp
  | use _ _ hst =>
    cases hst with
    | ruPanic t' hp h1 h2 =>
      have := far _ _ _ _ rfl
      subst this
      simp only [setAt_same]
    | ruAdd t' hp h1 =>
      exfalso
      apply h1
      simp only [St.goto, add32, maxReaders] at *
      rw [bmod_id (x := s.rc + -1) (by omega) (by omega), bmod_id (by omega) (by omega)]
      omega
    | _ t' => have := far _ _ _ _ rfl; subst this; simp_all

/-- **C115 (the panic leaves the lock broken).** A caller that recovers from the panic of `Unlock` has changed the counter:
afterwards another goroutine that locks and unlocks correctly, with nobody else around, panics as well. -/
theorem C115_panic_sticks : ∃ s, Exec StepM St.init [.call 0 .unlock, .call 1 .lock, .ret 1 (), .call 1 .unlock] s ∧
    s.pc 0 = .crashed ∧ s.pc 1 = .crashed :=
  ⟨_, .silent (.visible (.visible (.silent (.visible (.silent (.visible (.refl _)
    (.unlockFree _ 0 rfl)) (.use _ _ _ (.wuAdd _ 0 rfl))) (.use _ _ _ (.callLock _ 1 rfl)))
    (.use _ _ _ (.wAcquire _ 1 0 rfl (by decide) rfl))) (.use _ _ _ (.wAdd _ 1 rfl)))
    (.use _ _ _ (.callUnlock _ 1 rfl))) (.use _ _ _ (.wuAdd _ 1 rfl)), by decide, by decide⟩

/-- **C115 (not detected).** `RUnlock` by a goroutine that holds nothing goes unnoticed while another one reads; it is the
reader that panics when it unlocks. -/
theorem C115_blames_reader : ∃ s, Exec StepM St.init [.call 0 .rlock, .ret 0 (), .call 1 .runlock, .ret 1 (), .call 0 .runlock] s ∧
    s.pc 1 = .idle ∧ s.pc 0 = .crashed :=
  ⟨_, .silent (.visible (.visible (.visible (.visible (.silent (.silent (.visible (.refl _)
    (.use _ _ _ (.callRLock _ 0 rfl))) (.use _ _ _ (.rLoad _ 0 0 rfl (by decide)))) (.use _ _ _ (.rAddFirst _ 0 rfl (by decide))))
    (.use _ _ _ (.rsAcquire _ 0 0 rfl (by decide) rfl))) (.runlockFree _ 1 rfl)) (.use _ _ _ (.ruAdd _ 1 rfl (by decide))))
    (.use _ _ _ (.callRUnlock _ 0 rfl))) (.use _ _ _ (.ruPanic _ 0 rfl (by decide) (by decide))), by decide, by decide⟩

/-- The hypotheses of both theorems: the lock before any use. -/
example : Exec (fun s e s' => Step s e s' ∧ Few 3 e) St.init [] St.init ∧ ¬ Spec.Writer St.init ∧ ¬ Spec.Reader St.init := by
  refine ⟨.refl _, ?_, ?_⟩
  · rintro ⟨t, h | h⟩ <;> cases h
  · rintro ⟨t, h | ⟨j, h⟩ | h | h⟩ <;> cases h

/-- A state with a reader and no writer. -/
example : ∃ s, Exec (fun s e s' => Step s e s' ∧ Few 3 e) St.init [.call 0 .rlock, .ret 0 ()] s ∧ s.pc 0 = .rHeld :=
  ⟨_, .visible (.silent (.silent (.visible (.refl _) ⟨.callRLock _ 0 rfl, by rintro t op ⟨⟩; decide⟩)
    ⟨.rLoad _ 0 0 rfl (by decide), by rintro t op ⟨⟩⟩) ⟨.rAddFirst _ 0 rfl (by decide), by rintro t op ⟨⟩⟩)
    ⟨.rsAcquire _ 0 0 rfl (by decide) rfl, by rintro t op ⟨⟩⟩, rfl⟩

/-- `Unlock` of a lock nobody holds. -/
example : ∃ s' : St, StepM (St.init.goto 5 .wuAdd) none s' ∧ s'.pc 5 ≠ .wuAdd :=
  ⟨_, .use _ _ _ (.wuAdd _ 5 rfl), by decide⟩

end Verif.RWSpinLock
