import Verif.Spec.LockHistory
import Verif.Props.SpinLock
/-!
# C143: the spin locks as seen in the history of calls

Specification: Spec/LockHistory.
-/
set_option linter.unusedSectionVars false

namespace Verif.Spec
variable {Op Ret : Type}

theorem lastCall_append (t : Nat) (τ : List (Ev Op Ret)) (e : Ev Op Ret) :
    lastCall t (τ ++ [e]) = match e with
      | .call u op => if u = t then some (op, false) else lastCall t τ
      | .ret u _ => if u = t then (lastCall t τ).map (fun p => (p.1, true)) else lastCall t τ := by
  unfold lastCall
  rw [List.foldl_append]
  cases e <;> rfl

theorem ownUnlocks_append {l u : Op} {τ : List (Ev Op Ret)} {e : Ev Op Ret} :
    OwnUnlocks l u (τ ++ [e]) ↔ OwnUnlocks l u τ ∧ ∀ t, e = .call t u → HoldsAfter l τ t := by
  constructor
  · intro h
    refine ⟨fun τ₁ t τ₂ he => h τ₁ t (τ₂ ++ [e]) (by rw [he]; simp), fun t he => h τ t [] (by rw [he])⟩
  · rintro ⟨h1, h2⟩ τ₁ t τ₂ he
    rcases List.eq_nil_or_concat τ₂ with h' | ⟨τ₃, x, h'⟩
    · subst h'
      obtain ⟨h3, h4⟩ := List.append_inj' he rfl
      subst h3
      exact h2 t (by simpa using h4)
    · subst h'
      rw [List.concat_eq_append] at he
      have he' : τ ++ [e] = (τ₁ ++ .call t u :: τ₃) ++ [x] := by rw [he]; simp
      obtain ⟨h3, _⟩ := List.append_inj' he' rfl
      exact h1 τ₁ t τ₃ h3

end Verif.Spec

namespace Verif.SpinLock
open Verif.Spec

/-- What the history says about a goroutine. -/
def Shows (p : PC) (o : Option (Op × Bool)) : Prop :=
  match p with
  | .idle => o ≠ some (.lock, true)
  | .spin _ => o = some (.lock, false)
  | .held => o = some (.lock, true)
  | .unlocking => o = some (.unlock, false)
  | .deadlock => o = some (.lock, false)
  | .misuse => o = some (.unlock, false)

theorem shows_move {τ : List (Ev Op Unit)} {pc : Nat → PC} (h : ∀ u, Shows (pc u) (lastCall u τ)) (e : Ev Op Unit) (t : Nat) (p : PC)
    (he : ∀ u, u ≠ t → lastCall u (τ ++ [e]) = lastCall u τ) (ht : Shows p (lastCall t (τ ++ [e]))) :
    ∀ u, Shows (setAt pc t p u) (lastCall u (τ ++ [e])) := by
  intro u
  by_cases hu : u = t
  · subst hu; rw [setAt_same]; exact ht
  · rw [setAt_ne _ _ _ _ hu, he u hu]; exact h u

theorem shows_silent {τ : List (Ev Op Unit)} {pc : Nat → PC} (h : ∀ u, Shows (pc u) (lastCall u τ)) (t : Nat) (p : PC)
    (ht : Shows p (lastCall t τ)) : ∀ u, Shows (setAt pc t p u) (lastCall u τ) := by
  intro u
  by_cases hu : u = t
  · subst hu; rw [setAt_same]; exact ht
  · rw [setAt_ne _ _ _ _ hu]; exact h u

theorem shows_step {τ : List (Ev Op Unit)} {s s' : St} {e : Option (Ev Op Unit)} (h : ∀ u, Shows (s.pc u) (lastCall u τ)) (hs : Step s e s') :
    ∀ u, Shows (s'.pc u) (lastCall u (τ ++ e.toList)) := by
  cases hs with
  | callLock t hp =>
    refine shows_move h _ t _ (fun u hu => ?_) ?_
    · rw [lastCall_append]; simp [Ne.symm hu]
    · rw [lastCall_append]; simp [Shows]
  | callUnlock t hp =>
    refine shows_move h _ t _ (fun u hu => ?_) ?_
    · rw [lastCall_append]; simp [Ne.symm hu]
    · rw [lastCall_append]; simp [Shows]
  | acquire t i hp hi h0 =>
    have := h t
    rw [hp] at this
    refine shows_move h _ t _ (fun u hu => ?_) ?_
    · rw [lastCall_append]; simp [Ne.symm hu]
    · rw [lastCall_append, this]; simp [Shows]
  | release t hp h1 =>
    have := h t
    rw [hp] at this
    refine shows_move h _ t _ (fun u hu => ?_) ?_
    · rw [lastCall_append]; simp [Ne.symm hu]
    · rw [lastCall_append, this]; simp [Shows]
  | giveUp t i hp hi =>
    have := h t
    rw [hp] at this
    simp only [Option.toList, List.append_nil]
    exact shows_silent h t _ this
  | again t i hp hi h0 =>
    have := h t
    rw [hp] at this
    simp only [Option.toList, List.append_nil]
    exact shows_silent h t _ this
  | misuse t hp h1 =>
    have := h t
    rw [hp] at this
    simp only [Option.toList, List.append_nil]
    exact shows_silent h t _ this

theorem shows_exec {τ : List (Ev Op Unit)} {s : St} (h : Exec Step St.init τ s) : ∀ u, Shows (s.pc u) (lastCall u τ) := by
  induction h with
  | refl => intro u; simp [Shows, St.init, lastCall]
  | silent _ hs ih => simpa using shows_step ih hs
  | visible _ hs ih => exact shows_step ih hs

theorem holds_iff {p : PC} {o : Option (Op × Bool)} (h : Shows p o) : o = some (.lock, true) ↔ p = .held := by
  cases p <;> simp only [Shows] at h <;> first | (subst h; simp) | simp [h]

/-- Discipline in the sense of the states is discipline in the sense of the history. -/
theorem disciplined_iff {τ : List (Ev Op Unit)} {s : St} :
    Exec (fun s e s' => Step s e s' ∧ Disciplined s e) St.init τ s ↔ Exec Step St.init τ s ∧ OwnUnlocks .lock .unlock τ := by
  constructor
  · intro h
    induction h with
    | refl => exact ⟨.refl _, fun τ₁ t τ₂ he => by simp at he⟩
    | silent _ hs ih => exact ⟨.silent ih.1 hs.1, ih.2⟩
    | visible h0 hs ih =>
      refine ⟨.visible ih.1 hs.1, ownUnlocks_append.mpr ⟨ih.2, fun t he => ?_⟩⟩
      have := hs.2 t (by rw [he])
      exact (holds_iff (shows_exec ih.1 t)).mpr this
  · rintro ⟨h, hu⟩
    induction h with
    | refl => exact .refl _
    | silent _ hs ih => exact .silent (ih hu) ⟨hs, by simp [Disciplined]⟩
    | visible h0 hs ih =>
      obtain ⟨h1, h2⟩ := ownUnlocks_append.mp hu
      refine .visible (ih h1) ⟨hs, fun t he => ?_⟩
      exact (holds_iff (shows_exec h0 t)).mp (h2 t (Option.some.inj he))

/-- C143: in every history in which each `Unlock` is called by the goroutine that holds the lock, at most one goroutine is between the
return of its `Lock` and its next call, and no `Unlock` panics. -/
theorem C143_exclusion {τ : List (Ev Op Unit)} {s : St} (h : Exec Step St.init τ s) (hu : OwnUnlocks .lock .unlock τ) :
    (∀ t t', HoldsAfter .lock τ t → HoldsAfter .lock τ t' → t = t') ∧ ∀ t, s.pc t ≠ .misuse := by
  have hI := inv_exec (disciplined_iff.mpr ⟨h, hu⟩)
  have hv := shows_exec h
  refine ⟨fun t t' h1 h2 => ?_, (C36_mutual_exclusion (disciplined_iff.mpr ⟨h, hu⟩)).2.1⟩
  exact hI.one t t' (.inl ((holds_iff (hv t)).mp h1)) (.inl ((holds_iff (hv t')).mp h2))

/-- C143: and when nobody holds the lock nor is inside `Unlock`, the next attempt of any waiting `Lock` succeeds. -/
theorem C143_free {τ : List (Ev Op Unit)} {s : St} (h : Exec Step St.init τ s) (hu : OwnUnlocks .lock .unlock τ)
    (hn : ∀ t, lastCall t τ ≠ some (.lock, true) ∧ lastCall t τ ≠ some (.unlock, false)) (t i : Nat) (ht : s.pc t = .spin i)
    (hi : i ≤ maxLoop) : ∃ s', Step s (some (.ret t ())) s' := by
  have hv := shows_exec h
  have h0 : s.state = 0 := (C36_mutual_exclusion (disciplined_iff.mpr ⟨h, hu⟩)).2.2.mpr fun u => by
    have h1 := hv u
    have h2 := hn u
    constructor <;> intro e <;> rw [e] at h1 <;> simp only [Shows] at h1
    · exact h2.1 h1
    · exact h2.2 h1
  exact ⟨_, C36_free_lock_acquired s t i ht hi h0⟩

/-- What goroutine 0 does in one round. -/
def useOnce : List (Ev Op Unit) := [.call 0 .lock, .ret 0 (), .call 0 .unlock, .ret 0 ()]

/-- C143, the last clause is false: a `Lock` panics (supposing a deadlock) though there is none.  Goroutine 1 makes one call of `Lock`; in the
meantime goroutine 0 locks and unlocks the lock 2^24 + 1 times, each time as it should; in the end the lock is free and goroutine 1 has panicked. -/
theorem C143_spurious_false : ∃ s, Exec Step St.init (.call 1 .lock :: (List.replicate (2 ^ 24 + 1) useOnce).flatten) s ∧
    OwnUnlocks .lock .unlock (.call 1 .lock :: (List.replicate (2 ^ 24 + 1) useOnce).flatten) ∧ s.pc 1 = .deadlock ∧ s.state = 0 := by
  have start : Exec (fun s e s' => Step s e s' ∧ Disciplined s e) St.init [.call 1 .lock] ⟨0, setAt (fun _ => .idle) 1 (.spin 0)⟩ :=
    .visible (.refl _) ⟨.callLock _ 1 rfl, by simp [Disciplined]⟩
  have round : ∀ n, n ≤ 2 ^ 24 + 1 → Exec (fun s e s' => Step s e s' ∧ Disciplined s e) St.init
      (.call 1 .lock :: (List.replicate n useOnce).flatten) ⟨0, setAt (fun _ => .idle) 1 (.spin n)⟩ := by
    intro n
    induction n with
    | zero => intro _; simpa using start
    | succ n ih =>
      intro hn
      have h := ih (by omega)
      have h := h.visible ⟨.callLock _ 0 rfl, by simp [Disciplined]⟩
      have h := h.visible ⟨.acquire _ 0 0 rfl (by decide) rfl, by simp [Disciplined]⟩
      have h := h.silent ⟨.again _ 1 n rfl (by unfold maxLoop; omega) (fun h => by cases h), by simp [Disciplined]⟩
      have h := h.visible ⟨.callUnlock _ 0 (.inr rfl), by intro t ht; cases ht; rfl⟩
      have h := h.visible ⟨.release _ 0 rfl rfl, by simp [Disciplined]⟩
      have e1 : (.call 1 .lock :: (List.replicate n useOnce).flatten ++ [.call 0 .lock] ++ [.ret 0 ()] ++ [.call 0 .unlock] ++ [.ret 0 ()] :
          List (Ev Op Unit)) = .call 1 .lock :: (List.replicate (n + 1) useOnce).flatten := by
        rw [List.replicate_succ', List.flatten_append]
        simp [useOnce]
      rw [e1] at h
      have e2 : setAt (setAt (setAt (setAt (setAt (setAt (fun _ => PC.idle) 1 (.spin n)) 0 (.spin 0)) 0 .held) 1 (.spin (n + 1))) 0 .unlocking) 0
          .idle = setAt (fun _ => PC.idle) 1 (.spin (n + 1)) := by
        funext u
        unfold setAt
        by_cases h0 : u = 0
        · subst h0; rfl
        · by_cases h1 : u = 1
          · subst h1; rfl
          · simp [h0, h1]
      rw [← e2]
      exact h
  have h := (round (2 ^ 24 + 1) (Nat.le_refl _)).silent ⟨.giveUp _ 1 (2 ^ 24 + 1) (by simp only [setAt_same]) (by unfold maxLoop; omega), by simp [Disciplined]⟩
  obtain ⟨h1, h2⟩ := disciplined_iff.mp h
  exact ⟨_, h1, h2, by simp only [setAt_same], rfl⟩

/-- C143_exclusion, C143_free: goroutine 0 has left, goroutine 1 waits. -/
example : ∃ s, Exec Step St.init [.call 0 .lock, .ret 0 (), .call 1 .lock, .call 0 .unlock, .ret 0 ()] s ∧ s.pc 1 = .spin 1 ∧
    OwnUnlocks .lock .unlock ([.call 0 .lock, .ret 0 (), .call 1 .lock, .call 0 .unlock, .ret 0 ()] : List (Ev Op Unit)) ∧
    ∀ t, lastCall t ([.call 0 .lock, .ret 0 (), .call 1 .lock, .call 0 .unlock, .ret 0 ()] : List (Ev Op Unit)) ≠ some (.lock, true) ∧
      lastCall t ([.call 0 .lock, .ret 0 (), .call 1 .lock, .call 0 .unlock, .ret 0 ()] : List (Ev Op Unit)) ≠ some (.unlock, false) := by
  have h : Exec (fun s e s' => Step s e s' ∧ Disciplined s e) St.init [.call 0 .lock, .ret 0 (), .call 1 .lock, .call 0 .unlock, .ret 0 ()] _ :=
    .visible (.visible (.silent (.visible (.visible (.visible (.refl _) ⟨.callLock _ 0 rfl, by simp [Disciplined]⟩)
    ⟨.acquire _ 0 0 rfl (by decide) rfl, by simp [Disciplined]⟩) ⟨.callLock _ 1 rfl, by simp [Disciplined]⟩)
    ⟨.again _ 1 0 rfl (by decide) (by decide), by simp [Disciplined]⟩)
    ⟨.callUnlock _ 0 (.inr rfl), by intro t ht; cases ht; rfl⟩) ⟨.release _ 0 rfl rfl, by simp [Disciplined]⟩
  obtain ⟨h1, h2⟩ := disciplined_iff.mp h
  refine ⟨_, h1, rfl, h2, fun t => ?_⟩
  by_cases h0 : t = 0
  · subst h0; decide
  · by_cases h1 : t = 1
    · subst h1; decide
    · simp [lastCall, Ne.symm h0, Ne.symm h1]

end Verif.SpinLock

namespace Verif.RWSpinLock
open Verif.Spec

/-- What the history says about a goroutine, as far as the write lock is concerned. -/
def Shows (p : PC) (o : Option (Op × Bool)) : Prop :=
  match p with
  | .wSpin _ | .wAdd => o = some (.lock, false)
  | .wHeld => o = some (.lock, true)
  | .wuAdd | .wuUnlock => o = some (.unlock, false)
  | .rLoad _ | .rAdd | .rSpin _ => o = some (.rlock, false)
  | .rHeld => o = some (.rlock, true)
  | .ruAdd => o = some (.runlock, false)
  | .idle | .crashed | .rCrashed => ∀ op, o = some (op, true) → op = .unlock ∨ op = .runlock

theorem shows_set {τ : List (Ev Op Unit)} {pc : Nat → PC} (h : ∀ u, Shows (pc u) (lastCall u τ)) (e : Option (Ev Op Unit)) (t : Nat) (p : PC)
    (he : ∀ u, u ≠ t → lastCall u (τ ++ e.toList) = lastCall u τ) (ht : Shows p (lastCall t (τ ++ e.toList))) :
    ∀ u, Shows (setAt pc t p u) (lastCall u (τ ++ e.toList)) := by
  intro u
  by_cases hu : u = t
  · subst hu; simpa [setAt] using ht
  · simpa [setAt, hu, he u hu] using h u

theorem shows_step {τ : List (Ev Op Unit)} {s s' : St} {e : Option (Ev Op Unit)} (h : ∀ u, Shows (s.pc u) (lastCall u τ)) (hs : Step s e s') :
    ∀ u, Shows (s'.pc u) (lastCall u (τ ++ e.toList)) := by
  have hsil : ∀ u t : Nat, u ≠ t → lastCall u (τ ++ (none : Option (Ev Op Unit)).toList) = lastCall u τ := by simp
  have hcall : ∀ (u t : Nat) (op : Op), u ≠ t → lastCall u (τ ++ (some (.call t op) : Option (Ev Op Unit)).toList) = lastCall u τ := by
    intro u t op hu
    simp only [Option.toList]
    rw [lastCall_append]; simp [Ne.symm hu]
  have hret : ∀ (u t : Nat), u ≠ t → lastCall u (τ ++ (some (.ret t ()) : Option (Ev Op Unit)).toList) = lastCall u τ := by
    intro u t hu
    simp only [Option.toList]
    rw [lastCall_append]; simp [Ne.symm hu]
  cases hs with
  | callLock t hp => exact shows_set h _ t _ (fun u hu => hcall u t _ hu) (by simp only [Option.toList]; rw [lastCall_append]; simp [Shows])
  | callUnlock t hp => exact shows_set h _ t _ (fun u hu => hcall u t _ hu) (by simp only [Option.toList]; rw [lastCall_append]; simp [Shows])
  | callRLock t hp => exact shows_set h _ t _ (fun u hu => hcall u t _ hu) (by simp only [Option.toList]; rw [lastCall_append]; simp [Shows])
  | callRUnlock t hp => exact shows_set h _ t _ (fun u hu => hcall u t _ hu) (by simp only [Option.toList]; rw [lastCall_append]; simp [Shows])
  | wAdd t hp =>
    have ht := h t; rw [hp] at ht
    exact shows_set h _ t _ (fun u hu => hret u t hu) (by simp only [Option.toList]; rw [lastCall_append, ht]; simp [Shows])
  | wuUnlock t hp h1 =>
    have ht := h t; rw [hp] at ht
    exact shows_set h _ t _ (fun u hu => hret u t hu) (by simp only [Option.toList]; rw [lastCall_append, ht]; simp [Shows])
  | rAdd t hp h1 =>
    have ht := h t; rw [hp] at ht
    exact shows_set h _ t _ (fun u hu => hret u t hu) (by simp only [Option.toList]; rw [lastCall_append, ht]; simp [Shows])
  | rsAcquire t j hp hj h1 =>
    have ht := h t; rw [hp] at ht
    exact shows_set h _ t _ (fun u hu => hret u t hu) (by simp only [Option.toList]; rw [lastCall_append, ht]; simp [Shows])
  | ruAdd t hp h1 =>
    have ht := h t; rw [hp] at ht
    exact shows_set h _ t _ (fun u hu => hret u t hu) (by simp only [Option.toList]; rw [lastCall_append, ht]; simp [Shows])
  | wuAdd t hp =>
    have ht := h t; rw [hp] at ht
    refine shows_set h none t _ (fun u hu => hsil u t hu) ?_
    simp only [Option.toList, List.append_nil]
    split <;> simp [Shows, show lastCall t τ = _ from ht]
  | rLoad t i hp hi =>
    have ht := h t; rw [hp] at ht
    refine shows_set h none t _ (fun u hu => hsil u t hu) ?_
    simp only [Option.toList, List.append_nil]
    split <;> simp [Shows, show lastCall t τ = _ from ht]
  | wGiveUp t i hp hi =>
    have ht := h t; rw [hp] at ht
    exact shows_set h none t _ (fun u hu => hsil u t hu) (by simp [Shows, show lastCall t τ = _ from ht])
  | wAcquire t i hp hi h0 =>
    have ht := h t; rw [hp] at ht
    exact shows_set h none t _ (fun u hu => hsil u t hu) (by simp [Shows, show lastCall t τ = _ from ht])
  | wAgain t i hp hi h0 =>
    have ht := h t; rw [hp] at ht
    exact shows_set h none t _ (fun u hu => hsil u t hu) (by simp [Shows, show lastCall t τ = _ from ht])
  | wuMisuse t hp h1 =>
    have ht := h t; rw [hp] at ht
    exact shows_set h none t _ (fun u hu => hsil u t hu) (by simp [Shows, show lastCall t τ = _ from ht])
  | rGiveUp t i hp hi =>
    have ht := h t; rw [hp] at ht
    exact shows_set h none t _ (fun u hu => hsil u t hu) (by simp [Shows, show lastCall t τ = _ from ht])
  | rAddFirst t hp h1 =>
    have ht := h t; rw [hp] at ht
    exact shows_set h none t _ (fun u hu => hsil u t hu) (by simp [Shows, show lastCall t τ = _ from ht])
  | rsGiveUp t j hp hj =>
    have ht := h t; rw [hp] at ht
    exact shows_set h none t _ (fun u hu => hsil u t hu) (by simp [Shows, show lastCall t τ = _ from ht])
  | rsAgain t j hp hj h1 =>
    have ht := h t; rw [hp] at ht
    exact shows_set h none t _ (fun u hu => hsil u t hu) (by simp [Shows, show lastCall t τ = _ from ht])
  | ruPanic t hp h1 h2 =>
    have ht := h t; rw [hp] at ht
    exact shows_set h none t _ (fun u hu => hsil u t hu) (by simp [Shows, show lastCall t τ = _ from ht])

theorem shows_exec {τ : List (Ev Op Unit)} {s : St} (h : Exec Step St.init τ s) : ∀ u, Shows (s.pc u) (lastCall u τ) := by
  induction h with
  | refl => intro u; simp [Shows, St.init, lastCall]
  | silent _ hs ih => simpa using shows_step ih hs
  | visible _ hs ih => exact shows_step ih hs

theorem holds_iff {p : PC} {o : Option (Op × Bool)} (h : Shows p o) : o = some (.lock, true) ↔ p = .wHeld := by
  cases p <;> simp only [Shows] at h <;> first
    | (subst h; simp)
    | (constructor
       · intro e; rcases h _ e with h' | h' <;> cases h'
       · intro e; cases e)

/-- C143: in every history of the reader-writer lock, at most one goroutine is between the return of its `Lock` and its next call.
Missing: readers, for which it is false (`C143_rw_false`). -/
theorem C143_rw_writers_partial {τ : List (Ev Op Unit)} {s : St} (h : Exec Step St.init τ s) (t t' : Nat)
    (h1 : HoldsAfter .lock τ t) (h2 : HoldsAfter .lock τ t') : t = t' :=
  C37_writers_partial h t t' ((holds_iff (shows_exec h t)).mp h1) ((holds_iff (shows_exec h t')).mp h2)

/-- C143: with readers it is false: a history at whose end one goroutine holds the write lock and another one a read lock. -/
theorem C143_rw_false : ∃ τ s, Exec Step St.init τ s ∧ HoldsAfter .lock τ 1 ∧ HoldsAfter .rlock τ 0 := by
  obtain ⟨s, h, _⟩ := C37_false
  exact ⟨_, s, h, by simp [HoldsAfter, lastCall], by simp [HoldsAfter, lastCall]⟩

/-- C143_rw_writers_partial: one writer holds the lock, another one waits. -/
example : ∃ s, Exec Step St.init [.call 0 .lock, .ret 0 (), .call 1 .lock] s ∧
    HoldsAfter .lock ([.call 0 .lock, .ret 0 (), .call 1 .lock] : List (Ev Op Unit)) 0 :=
  ⟨_, .visible (.visible (.silent (.visible (.refl _) (.callLock _ 0 rfl)) (.wAcquire _ 0 0 rfl (by decide) rfl)) (.wAdd _ 0 rfl))
    (.callLock _ 1 rfl), by simp [HoldsAfter, lastCall]⟩

end Verif.RWSpinLock
