import Verif.Model.SpinLock
import Verif.Lemmas.Tracks
import Mathlib.Data.List.Perm.Subperm
import Mathlib.Data.List.Range
import Mathlib.Tactic.Ring
/-!
# Properties C36, C37 and C38: the spin locks
-/

set_option linter.unusedSectionVars false

namespace Verif.SpinLock
open Verif.Spec

theorem setAt_same {β : Type} (f : Nat → β) (i : Nat) (v : β) : setAt f i v i = v := by simp [setAt]
theorem setAt_ne {β : Type} (f : Nat → β) (i j : Nat) (v : β) (hj : j ≠ i) : setAt f i v j = f j := by
  simp [setAt, hj]

/-- Each goroutine unlocks only what it locked. -/
def Disciplined (s : St) (e : Option (Ev Op Unit)) : Prop := ∀ t, e = some (.call t .unlock) → s.pc t = .held

/-- Between a returned `Lock` and the end of `Unlock`. -/
def Owns (p : PC) : Prop := p = .held ∨ p = .unlocking

structure Inv (s : St) : Prop where
  one : ∀ t t', Owns (s.pc t) → Owns (s.pc t') → t = t'
  own : ∀ t, Owns (s.pc t) → s.state = 1
  free : s.state = 0 ∨ s.state = 1 ∧ ∃ t, Owns (s.pc t)
  ok : ∀ t, s.pc t ≠ .misuse

theorem inv_move {s : St} (h : Inv s) (t : Nat) (p : PC) (hp : Owns p ↔ Owns (s.pc t)) (hm : p ≠ .misuse) :
    Inv ⟨s.state, setAt s.pc t p⟩ := by
  have key : ∀ t', Owns (setAt s.pc t p t') ↔ Owns (s.pc t') := by
    intro t'
    by_cases e : t' = t
    · subst e; rw [setAt_same]; exact hp
    · rw [setAt_ne _ _ _ _ e]
  refine ⟨fun t1 t2 h1 h2 => h.one t1 t2 ((key _).1 h1) ((key _).1 h2), fun t1 h1 => h.own t1 ((key _).1 h1), ?_, ?_⟩
  · rcases h.free with h0 | ⟨h1, t', h2⟩
    · exact .inl h0
    · exact .inr ⟨h1, t', (key _).2 h2⟩
  · intro t'
    simp only
    by_cases e : t' = t
    · subst e; rw [setAt_same]; exact hm
    · rw [setAt_ne _ _ _ _ e]; exact h.ok t'

theorem inv_step {s s' : St} {e : Option (Ev Op Unit)} (h : Inv s) (hs : Step s e s') (hd : Disciplined s e) : Inv s' := by
  cases hs with
  | callLock t hp => exact inv_move h t _ (by simp [Owns, hp]) (by simp)
  | giveUp t i hp hi => exact inv_move h t _ (by simp [Owns, hp]) (by simp)
  | again t i hp hi h0 => exact inv_move h t _ (by simp [Owns, hp]) (by simp)
  | callUnlock t hp => exact inv_move h t _ (by simp [Owns, hd t rfl]) (by simp)
  | acquire t i hp hi h0 =>
    have none : ∀ t', ¬ Owns (s.pc t') := fun t' ho => by have := h.own t' ho; omega
    refine ⟨fun t1 t2 h1 h2 => ?_, fun _ _ => rfl, .inr ⟨rfl, t, by simp [setAt_same, Owns]⟩, fun t' => ?_⟩
    · by_cases e1 : t1 = t
      · by_cases e2 : t2 = t
        · rw [e1, e2]
        · simp only [setAt_ne _ _ _ _ e2] at h2; exact absurd h2 (none _)
      · simp only [setAt_ne _ _ _ _ e1] at h1; exact absurd h1 (none _)
    · by_cases e1 : t' = t
      · subst e1; simp [setAt_same]
      · simp only [setAt_ne _ _ _ _ e1]; exact h.ok t'
  | release t hp h1 =>
    have hno : ∀ t', ¬ Owns (setAt s.pc t .idle t') := by
      intro t' ho
      by_cases e1 : t' = t
      · subst e1; simp [setAt_same, Owns] at ho
      · rw [setAt_ne _ _ _ _ e1] at ho
        exact e1 (h.one t' t ho (by simp [Owns, hp]))
    refine ⟨fun t1 t2 h1 h2 => absurd h1 (hno t1), fun t1 h1 => absurd h1 (hno t1), .inl rfl, fun t' => ?_⟩
    by_cases e1 : t' = t
    · subst e1; simp [setAt_same]
    · simp only [setAt_ne _ _ _ _ e1]; exact h.ok t'
  | misuse t hp h1 => exact absurd (h.own t (by simp [Owns, hp])) h1

theorem inv_exec {τ : List (Ev Op Unit)} {s : St} (h : Exec (fun s e s' => Step s e s' ∧ Disciplined s e) St.init τ s) :
    Inv s := by
  refine Exec.invariant (fun _ s => Inv s) ?_ (fun _ _ _ h hs => inv_step h hs.1 hs.2)
    (fun _ _ _ _ h hs => inv_step h hs.1 hs.2) h
  refine ⟨?_, ?_, .inl rfl, ?_⟩ <;> simp [St.init, Owns]

/-- C36: with any number of goroutines, each unlocking only what it locked, under every interleaving at most one
goroutine is between a returned `Lock` and its `Unlock`; `Unlock` never panics; and the lock word is free exactly
when nobody is in that region. -/
theorem C36_mutual_exclusion {τ : List (Ev Op Unit)} {s : St}
    (h : Exec (fun s e s' => Step s e s' ∧ Disciplined s e) St.init τ s) :
    (∀ t t', s.pc t = .held → s.pc t' = .held → t = t') ∧ (∀ t, s.pc t ≠ .misuse) ∧
    (s.state = 0 ↔ ∀ t, s.pc t ≠ .held ∧ s.pc t ≠ .unlocking) := by
  have hi := inv_exec h
  refine ⟨fun t t' h1 h2 => hi.one t t' (.inl h1) (.inl h2), hi.ok, fun h0 t => ?_, fun hn => ?_⟩
  · have : ¬ Owns (s.pc t) := fun ho => by have := hi.own t ho; omega
    simpa [Owns] using this
  · rcases hi.free with h0 | ⟨_, t, ho⟩
    · exact h0
    · rcases ho with ho | ho
      · exact absurd ho (hn t).1
      · exact absurd ho (hn t).2

/-- C36: `Lock` obtains a free lock at its next attempt. -/
theorem C36_free_lock_acquired (s : St) (t i : Nat) (hp : s.pc t = .spin i) (hi : i ≤ maxLoop) (h0 : s.state = 0) :
    Step s (some (.ret t ())) ⟨1, setAt s.pc t .held⟩ :=
  .acquire s t i hp (by omega) h0

/-- C36: `Unlock` of a lock that is not locked panics, whoever calls it: the calling goroutine has no other step. -/
theorem C36_unlock_unlocked_panics {s s' : St} {e : Option (Ev Op Unit)} (t : Nat) (hp : s.pc t = .unlocking) (h0 : s.state = 0)
    (hs : Step s e s') : s'.pc t = .misuse ∨ s'.pc t = .unlocking := by
  have other : ∀ t' p, t' ≠ t → setAt s.pc t' p t = .unlocking := fun t' p hne => by rw [setAt_ne _ _ _ _ (Ne.symm hne), hp]
  cases hs with
  | callLock t' hp' => exact .inr (other _ _ (by rintro rfl; rw [hp] at hp'; cases hp'))
  | giveUp t' i hp' hi => exact .inr (other _ _ (by rintro rfl; rw [hp] at hp'; cases hp'))
  | acquire t' i hp' hi h1 => exact .inr (other _ _ (by rintro rfl; rw [hp] at hp'; cases hp'))
  | again t' i hp' hi h1 => exact .inr (other _ _ (by rintro rfl; rw [hp] at hp'; cases hp'))
  | callUnlock t' hp' => exact .inr (other _ _ (by rintro rfl; rw [hp] at hp'; rcases hp' with h | h <;> cases h))
  | release t' hp' h1 => omega
  | misuse t' hp' h1 =>
    by_cases e1 : t' = t
    · subst e1; exact .inl (setAt_same _ _ _)
    · exact .inr (other _ _ e1)

/-- Two goroutines compete; 1 gets the lock after 0 released it. -/
example : ∃ s, Exec (fun s e s' => Step s e s' ∧ Disciplined s e) St.init
    [.call 0 .lock, .call 1 .lock, .ret 0 (), .call 0 .unlock, .ret 0 (), .ret 1 ()] s ∧ s.pc 1 = .held := by
  refine ⟨_, .visible (.visible (.visible (.silent (.visible (.visible (.visible (.refl _)
    ⟨.callLock _ 0 rfl, ?_⟩) ⟨.callLock _ 1 rfl, ?_⟩) ⟨.acquire _ 0 0 rfl (by decide) rfl, ?_⟩)
    ⟨.again _ 1 0 rfl (by decide) (by decide), ?_⟩) ⟨.callUnlock _ 0 (.inr rfl), ?_⟩) ⟨.release _ 0 rfl rfl, ?_⟩)
    ⟨.acquire _ 1 1 rfl (by decide) rfl, ?_⟩, rfl⟩
  all_goals intro t ht
  all_goals cases ht
  rfl

/-- A goroutine that never locked panics in `Unlock`. -/
example : ∃ s, Exec Step St.init [.call 0 .unlock] s ∧ s.pc 0 = .misuse :=
  ⟨_, .silent (.visible (.refl _) (.callUnlock _ 0 (.inl rfl))) (.misuse _ 0 rfl (by decide)), rfl⟩

/-- Goroutine 0 holds the lock, then gives it back; goroutine 1 finds it free. -/
example : ∃ s τ, Exec (fun s e s' => Step s e s' ∧ Disciplined s e) St.init τ s ∧ s.pc 1 = .spin 1 ∧ 1 ≤ maxLoop ∧ s.state = 0 := by
  refine ⟨_, _, .visible (.visible (.silent (.visible (.visible (.visible (.refl _)
    ⟨.callLock _ 0 rfl, ?_⟩) ⟨.callLock _ 1 rfl, ?_⟩) ⟨.acquire _ 0 0 rfl (by decide) rfl, ?_⟩)
    ⟨.again _ 1 0 rfl (by decide) (by decide), ?_⟩) ⟨.callUnlock _ 0 (.inr rfl), ?_⟩) ⟨.release _ 0 rfl rfl, ?_⟩,
    rfl, by decide, rfl⟩
  all_goals intro t ht
  all_goals cases ht
  rfl

end Verif.SpinLock

namespace Verif.RWSpinLock
open Verif.Spec
open Verif.SpinLock (setAt_same setAt_ne maxLoop)

/-- Between taking the inner lock and releasing it. -/
def Inside (p : PC) : Prop := p = .wAdd ∨ p = .wHeld ∨ p = .wuAdd ∨ p = .wuUnlock

structure WInv (s : St) : Prop where
  one : ∀ t t', Inside (s.pc t) → Inside (s.pc t') → t = t'
  own : ∀ t, Inside (s.pc t) → s.w = 1

theorem winv_move {s : St} (h : WInv s) (t : Nat) (p : PC) (rc : Int) (hp : Inside p → Inside (s.pc t)) :
    WInv ⟨s.w, rc, setAt s.pc t p⟩ := by
  have key : ∀ t', Inside (setAt s.pc t p t') → Inside (s.pc t') := by
    intro t'
    by_cases e : t' = t
    · subst e; rw [setAt_same]; exact hp
    · rw [setAt_ne _ _ _ _ e]; exact id
  exact ⟨fun t1 t2 h1 h2 => h.one t1 t2 (key _ h1) (key _ h2), fun t1 h1 => h.own t1 (key _ h1)⟩

theorem winv_step {s s' : St} {e : Option (Ev Op Unit)} (h : WInv s) (hs : Step s e s') : WInv s' := by
  cases hs with
  | callLock t hp => exact winv_move h t _ _ (by simp [Inside])
  | wGiveUp t i hp hi => exact winv_move h t _ _ (by simp [Inside])
  | wAgain t i hp hi h0 => exact winv_move h t _ _ (by simp [Inside])
  | wAdd t hp => exact winv_move h t _ _ (by simp [Inside, hp])
  | callUnlock t hp => exact winv_move h t _ _ (by simp [Inside, hp])
  | wuAdd t hp => exact winv_move h t _ _ (by simp [Inside, hp])
  | wuMisuse t hp h1 => exact winv_move h t _ _ (by simp [Inside])
  | callRLock t hp => exact winv_move h t _ _ (by simp [Inside])
  | rGiveUp t i hp hi => exact winv_move h t _ _ (by simp [Inside])
  | rLoad t i hp hi => exact winv_move h t _ _ (by split <;> simp [Inside])
  | rAddFirst t hp h1 => exact winv_move h t _ _ (by simp [Inside])
  | rAdd t hp h1 => exact winv_move h t _ _ (by simp [Inside])
  | rsGiveUp t j hp hj => exact winv_move h t _ _ (by simp [Inside])
  | rsAgain t j hp hj h0 => exact winv_move h t _ _ (by simp [Inside])
  | callRUnlock t hp => exact winv_move h t _ _ (by simp [Inside])
  | ruPanic t hp h1 h2 => exact winv_move h t _ _ (by simp [Inside])
  | ruAdd t hp h1 =>
    rw [if_neg (by omega)]
    exact winv_move h t _ _ (by simp [Inside])
  | wAcquire t i hp hi h0 =>
    have none : ∀ t', ¬ Inside (s.pc t') := fun t' ho => by have := h.own t' ho; omega
    refine ⟨fun t1 t2 h1 h2 => ?_, fun _ _ => rfl⟩
    by_cases e1 : t1 = t
    · by_cases e2 : t2 = t
      · rw [e1, e2]
      · simp only [setAt_ne _ _ _ _ e2] at h2; exact absurd h2 (none _)
    · simp only [setAt_ne _ _ _ _ e1] at h1; exact absurd h1 (none _)
  | rsAcquire t j hp hj h0 =>
    have none : ∀ t', ¬ Inside (s.pc t') := fun t' ho => by have := h.own t' ho; omega
    have none' : ∀ t', ¬ Inside (setAt s.pc t .rHeld t') := by
      intro t'
      by_cases e1 : t' = t
      · subst e1; simp [setAt_same, Inside]
      · rw [setAt_ne _ _ _ _ e1]; exact none t'
    exact ⟨fun t1 t2 h1 h2 => absurd h1 (none' _), fun t1 h1 => absurd h1 (none' _)⟩
  | wuUnlock t hp h1 =>
    have none' : ∀ t', ¬ Inside (setAt s.pc t .idle t') := by
      intro t' ho
      by_cases e1 : t' = t
      · subst e1; simp [setAt_same, Inside] at ho
      · rw [setAt_ne _ _ _ _ e1] at ho
        exact e1 (h.one t' t ho (by simp [Inside, hp]))
    exact ⟨fun t1 t2 h1 h2 => absurd h1 (none' _), fun t1 h1 => absurd h1 (none' _)⟩

theorem winv_exec {τ : List (Ev Op Unit)} {s : St} (h : Exec Step St.init τ s) : WInv s := by
  refine Exec.invariant (fun _ s => WInv s) ?_ (fun _ _ _ h hs => winv_step h hs) (fun _ _ _ _ h hs => winv_step h hs) h
  refine ⟨?_, ?_⟩ <;> simp [St.init, Inside]

/-- C37, writers: under every interleaving of any number of readers and writers at most one goroutine holds the
write lock.  Missing from C37: the exclusion of readers, which is false, see `C37_false`. -/
theorem C37_writers_partial {τ : List (Ev Op Unit)} {s : St} (h : Exec Step St.init τ s) (t t' : Nat)
    (h1 : s.pc t = .wHeld) (h2 : s.pc t' = .wHeld) : t = t' :=
  (winv_exec h).one t t' (.inr (.inl h1)) (.inr (.inl h2))

/-- C37 is false of the code: a reader that has checked the counter before the writer announced itself gets its
read lock while the writer holds the write lock. -/
theorem C37_false : ∃ s, Exec Step St.init [.call 0 .rlock, .call 1 .lock, .ret 1 (), .ret 0 ()] s ∧
    s.pc 1 = .wHeld ∧ s.pc 0 = .rHeld :=
  ⟨_, .visible (.visible (.silent (.visible (.silent (.visible (.refl _)
    (.callRLock _ 0 rfl)) (.rLoad _ 0 0 rfl (by decide))) (.callLock _ 1 rfl)) (.wAcquire _ 1 0 rfl (by decide) rfl))
    (.wAdd _ 1 rfl)) (.rAdd _ 0 rfl (by decide)), rfl, rfl⟩

/-! ### The reader counter -/

/-- Counted as a reader. -/
def rd : PC → Option Unit
  | .rSpin _ | .rHeld | .ruAdd | .rCrashed => some ()
  | _ => none

/-- Announced as a writer. -/
def wr : PC → Option Unit
  | .wHeld | .wuAdd => some ()
  | _ => none

/-- At most `N` goroutines use the lock. -/
def Few (N : Nat) (e : Option (Ev Op Unit)) : Prop := ∀ t op, e = some (.call t op) → t < N

structure Cnt (N : Nat) (s : St) : Prop where
  w : WInv s
  few : ∀ t, s.pc t ≠ .idle → t < N
  eq : ∃ R X, Tracks R (fun t => rd (s.pc t)) ∧ Tracks X (fun t => wr (s.pc t)) ∧
    s.rc = (R.length : Int) - maxReaders * X.length

theorem bmod_id {x : Int} (h1 : -2147483648 ≤ x) (h2 : x < 2147483648) : Int.bmod x 4294967296 = x :=
  Int.bmod_eq_of_le (by omega) (by omega)

theorem few_length {N : Nat} {s : St} {R : List (Nat × Unit)} {g : PC → Option Unit} (hg : g .idle = none)
    (hR : Tracks R (fun t => g (s.pc t))) (hf : ∀ t, s.pc t ≠ .idle → t < N) : R.length ≤ N := by
  have hsub : (R.map Prod.fst).Subperm (List.range N) := by
    refine List.Nodup.subperm hR.nodup (fun t ht => ?_)
    obtain ⟨⟨x, y⟩, hxy, e⟩ := List.mem_map.1 ht
    simp only at e
    subst e
    have := (hR.mem _ _).1 hxy
    simp only [List.mem_range]
    refine hf x (fun e => ?_)
    simp only [e, hg] at this
    cases this
  simpa using hsub.length_le

theorem one_length {s : St} {X : List (Nat × Unit)} (hX : Tracks X (fun t => wr (s.pc t))) (hw : WInv s) :
    X.length ≤ 1 := by
  have key : ∀ p ∈ X, Inside (s.pc p.1) := by
    intro p hp
    have := (hX.mem p.1 p.2).1 hp
    unfold wr at this
    unfold Inside
    split at this <;> simp_all
  match X, hX, key with
  | [], _, _ => simp
  | [_], _, _ => simp
  | a :: b :: r, hX, key =>
    exfalso
    have := hw.one a.1 b.1 (key a (by simp)) (key b (by simp))
    have hn := hX.nodup
    simp [this] at hn

/-- How many a goroutine at `p` counts for. -/
def one (o : Option Unit) : Int := if o = some () then 1 else 0

theorem tracks_set {L : List (Nat × Unit)} {g : PC → Option Unit} {f : Nat → PC} (h : Tracks L (fun t => g (f t)))
    (t : Nat) (p : PC) : ∃ L', Tracks L' (fun t' => g (setAt f t p t')) ∧
      (L'.length : Int) = L.length + one (g p) - one (g (f t)) := by
  have hne : ∀ t', t' ≠ t → g (setAt f t p t') = g (f t') := fun t' e => by rw [setAt_ne _ _ _ _ e]
  cases h0 : g (f t) with
  | none =>
    cases h1 : g p with
    | none =>
      refine ⟨L, h.keep (fun t' => ?_), by simp [one]⟩
      by_cases e : t' = t
      · subst e; simp only [setAt_same, h0, h1]
      · exact hne t' e
    | some u =>
      exact ⟨_, h.add t u h0 (by simp only [setAt_same, h1]) hne, by simp [one]⟩
  | some u =>
    cases h1 : g p with
    | none =>
      obtain ⟨L', hp, hT⟩ := h.rem t u h0 (f' := fun t' => g (setAt f t p t')) (by simp only [setAt_same, h1]) hne
      exact ⟨L', hT, by have := hp.length_eq; simp [one, this]⟩
    | some u' =>
      refine ⟨L, h.keep (fun t' => ?_), by simp [one]⟩
      by_cases e : t' = t
      · subst e; simp only [setAt_same, h0, h1]
      · exact hne t' e

theorem cnt_move {N : Nat} (hN : (N : Int) < maxReaders) {s : St} (h : Cnt N s) {w rc : Int} (t : Nat) (p : PC)
    (hw : WInv ⟨w, rc, setAt s.pc t p⟩) (ht : t < N)
    (hrc : rc = s.rc + (one (rd p) - one (rd (s.pc t))) - maxReaders * (one (wr p) - one (wr (s.pc t))) ∨
      rc = add32 s.rc ((one (rd p) - one (rd (s.pc t))) - maxReaders * (one (wr p) - one (wr (s.pc t))))) :
    Cnt N ⟨w, rc, setAt s.pc t p⟩ := by
  obtain ⟨R, X, hR, hX, he⟩ := h.eq
  obtain ⟨R', hR', lR⟩ := tracks_set hR t p
  obtain ⟨X', hX', lX⟩ := tracks_set hX t p
  have hf : ∀ t', setAt s.pc t p t' ≠ .idle → t' < N := by
    intro t' hne
    by_cases e : t' = t
    · rw [e]; exact ht
    · rw [setAt_ne _ _ _ _ e] at hne; exact h.few t' hne
  have b1 := few_length (s := ⟨w, rc, setAt s.pc t p⟩) rfl hR' hf
  have b2 := one_length (s := ⟨w, rc, setAt s.pc t p⟩) hX' hw
  refine ⟨hw, hf, R', X', hR', hX', ?_⟩
  simp only [maxReaders] at *
  have e : s.rc + (one (rd p) - one (rd (s.pc t))) - 1073741824 * (one (wr p) - one (wr (s.pc t))) =
      (R'.length : Int) - 1073741824 * X'.length := by rw [lR, lX, he]; ring
  rcases hrc with hrc | hrc
  · rw [hrc, e]
  · rw [hrc, add32, ← add_sub_assoc, e]
    exact bmod_id (by omega) (by omega)

theorem cnt_step {N : Nat} (hN : (N : Int) < maxReaders) {s s' : St} {e : Option (Ev Op Unit)} (h : Cnt N s)
    (hs : Step s e s') (hd : Few N e) : Cnt N s' := by
  have hw := winv_step h.w hs
  cases hs with
  | callLock t hp => exact cnt_move hN h t _ hw (hd t _ rfl) (.inl (by simp [rd, wr, one, hp]))
  | callRLock t hp => exact cnt_move hN h t _ hw (hd t _ rfl) (.inl (by simp [rd, wr, one, hp]))
  | wGiveUp t i hp hi => exact cnt_move hN h t _ hw (h.few t (by simp [hp])) (.inl (by simp [rd, wr, one, hp]))
  | wAcquire t i hp hi h0 => exact cnt_move hN h t _ hw (h.few t (by simp [hp])) (.inl (by simp [rd, wr, one, hp]))
  | wAgain t i hp hi h0 => exact cnt_move hN h t _ hw (h.few t (by simp [hp])) (.inl (by simp [rd, wr, one, hp]))
  | wAdd t hp => exact cnt_move hN h t _ hw (h.few t (by simp [hp])) (.inr (by simp [rd, wr, one, hp]))
  | callUnlock t hp => exact cnt_move hN h t _ hw (h.few t (by simp [hp])) (.inl (by simp [rd, wr, one, hp]))
  | wuAdd t hp =>
    exact cnt_move hN h t _ hw (h.few t (by simp [hp])) (.inr (by split <;> simp [rd, wr, one, hp]))
  | wuUnlock t hp h1 => exact cnt_move hN h t _ hw (h.few t (by simp [hp])) (.inl (by simp [rd, wr, one, hp]))
  | wuMisuse t hp h1 => exact cnt_move hN h t _ hw (h.few t (by simp [hp])) (.inl (by simp [rd, wr, one, hp]))
  | rGiveUp t i hp hi => exact cnt_move hN h t _ hw (h.few t (by simp [hp])) (.inl (by simp [rd, wr, one, hp]))
  | rLoad t i hp hi =>
    exact cnt_move hN h t _ hw (h.few t (by simp [hp])) (.inl (by split <;> simp [rd, wr, one, hp]))
  | rAddFirst t hp h1 => exact cnt_move hN h t _ hw (h.few t (by simp [hp])) (.inr (by simp [rd, wr, one, hp]))
  | rAdd t hp h1 => exact cnt_move hN h t _ hw (h.few t (by simp [hp])) (.inr (by simp [rd, wr, one, hp]))
  | rsGiveUp t j hp hj => exact cnt_move hN h t _ hw (h.few t (by simp [hp])) (.inl (by simp [rd, wr, one, hp]))
  | rsAcquire t j hp hj h0 => exact cnt_move hN h t _ hw (h.few t (by simp [hp])) (.inl (by simp [rd, wr, one, hp]))
  | rsAgain t j hp hj h0 => exact cnt_move hN h t _ hw (h.few t (by simp [hp])) (.inl (by simp [rd, wr, one, hp]))
  | callRUnlock t hp => exact cnt_move hN h t _ hw (h.few t (by simp [hp])) (.inl (by simp [rd, wr, one, hp]))
  | ruPanic t hp h1 h2 => exact cnt_move hN h t _ hw (h.few t (by simp [hp])) (.inr (by simp [rd, wr, one, hp]))
  | ruAdd t hp h1 => exact cnt_move hN h t _ hw (h.few t (by simp [hp])) (.inr (by simp [rd, wr, one, hp]))

theorem cnt_exec {N : Nat} (hN : (N : Int) < maxReaders) {τ : List (Ev Op Unit)} {s : St}
    (h : Exec (fun s e s' => Step s e s' ∧ Few N e) St.init τ s) : Cnt N s := by
  refine Exec.invariant (fun _ s => Cnt N s) ?_ (fun _ _ _ h hs => cnt_step hN h hs.1 hs.2)
    (fun _ _ _ _ h hs => cnt_step hN h hs.1 hs.2) h
  refine ⟨⟨?_, ?_⟩, ?_, [], [], Tracks.nil (fun _ => rfl), Tracks.nil (fun _ => rfl), rfl⟩ <;> simp [St.init, Inside]

theorem rc_bounds {N : Nat} (hN : (N : Int) < maxReaders) {s : St} (h : Cnt N s) :
    (∀ t, wr (s.pc t) = some () → s.rc < 0) ∧
    (∀ t, rd (s.pc t) = some () → s.rc ≠ 0 ∧ s.rc ≠ -maxReaders) ∧
    (-maxReaders ≤ s.rc ∧ s.rc < maxReaders) := by
  obtain ⟨R, X, hR, hX, he⟩ := h.eq
  have b1 := few_length rfl hR h.few
  have b2 := one_length hX h.w
  simp only [maxReaders] at *
  refine ⟨fun t ht => ?_, fun t ht => ?_, by omega, by omega⟩
  · have : 0 < X.length := List.length_pos_of_mem ((hX.mem t ()).2 ht)
    omega
  · have : 0 < R.length := List.length_pos_of_mem ((hR.mem t ()).2 ht)
    omega

/-- C37, readers that arrive late: with fewer than 2^30 goroutines, a reader that has not yet passed its check of
the reader count when a writer holds the lock does not get its read lock for as long as that writer holds on: in
every continuation it is still waiting (or has panicked after 2^24 rounds).  Missing from C37: a reader that had
already passed the check, see `C37_false`. -/
theorem C37_late_reader_partial {N : Nat} (hN : (N : Int) < maxReaders) {τ τ' : List (Ev Op Unit)} {s s' : St} {wtr t i : Nat}
    (h : Exec (fun s e s' => Step s e s' ∧ Few N e) St.init τ s) (hw : s.pc wtr = .wHeld) (ht : s.pc t = .rLoad i)
    (h' : Exec (fun a e b => (Step a e b ∧ Few N e) ∧ b.pc wtr = .wHeld) s τ' s') :
    (∃ i', s'.pc t = .rLoad i') ∨ s'.pc t = .crashed := by
  have key : ∀ (a b : St) (e : Option (Ev Op Unit)), (Cnt N a ∧ a.pc wtr = .wHeld ∧
      ((∃ i', a.pc t = .rLoad i') ∨ a.pc t = .crashed)) → (Step a e b ∧ Few N e) ∧ b.pc wtr = .wHeld →
      (Cnt N b ∧ b.pc wtr = .wHeld ∧ ((∃ i', b.pc t = .rLoad i') ∨ b.pc t = .crashed)) := by
    intro a b e ⟨hc, haw, hat⟩ hst
    refine ⟨cnt_step hN hc hst.1.1 hst.1.2, hst.2, ?_⟩
    have hrc := (rc_bounds hN hc).1 wtr (by rw [haw]; rfl)
    have other : ∀ t' p, t' ≠ t → setAt a.pc t' p t = a.pc t := fun t' p hne => setAt_ne _ _ _ _ (Ne.symm hne)
    cases hst.1.1 with
    | rLoad t' i' hp hi =>
      rw [if_neg (by omega)]
      by_cases e : t' = t
      · subst e; exact .inl ⟨_, setAt_same _ _ _⟩
      · simp only [St.goto, other _ _ e]; exact hat
    | rGiveUp t' i' hp hi =>
      by_cases e : t' = t
      · subst e; exact .inr (setAt_same _ _ _)
      · simp only [St.goto, other _ _ e]; exact hat
    | _ t' =>
      have : t' ≠ t := by rintro rfl; rcases hat with ⟨i', hat⟩ | hat <;> simp_all
      simp only [St.goto, other _ _ this]; exact hat
  exact (Exec.invariant (fun _ a => Cnt N a ∧ a.pc wtr = .wHeld ∧ ((∃ i', a.pc t = .rLoad i') ∨ a.pc t = .crashed))
    ⟨cnt_exec hN h, hw, .inl ⟨i, ht⟩⟩ (fun _ a b hp hs => key a b _ hp hs) (fun _ a _ b hp hs => key a b _ hp hs) h').2.2

/-- With fewer than 2^30 goroutines, each unlocking what it locked, `Unlock` and `RUnlock` never panic. -/
theorem C37_unlock_safe {N : Nat} (hN : (N : Int) < maxReaders) {τ : List (Ev Op Unit)} {s s' : St} {e : Option (Ev Op Unit)} (t : Nat)
    (h : Exec (fun s e s' => Step s e s' ∧ Few N e) St.init τ s)
    (ht : s.pc t = .wuAdd ∨ s.pc t = .wuUnlock ∨ s.pc t = .ruAdd) (hs : Step s e s') : s'.pc t ≠ .crashed := by
  have hc := cnt_exec hN h
  have hb := rc_bounds hN hc
  have hc' : s.pc t ≠ .crashed := by rcases ht with ht | ht | ht <;> simp [ht]
  have other : ∀ t' p, t' ≠ t → setAt s.pc t' p t = s.pc t := fun t' p hne => setAt_ne _ _ _ _ (Ne.symm hne)
  have near : ∀ t' p, (t' = t → p ≠ PC.crashed) → setAt s.pc t' p t ≠ .crashed := by
    intro t' p hp
    by_cases e : t' = t
    · subst e; rw [setAt_same]; exact hp rfl
    · rw [other _ _ e]; exact hc'
  simp only [maxReaders] at hb hN
  cases hs with
  | wuAdd t' hp =>
    refine near _ _ (fun _ => ?_)
    have h1 := hb.1 t' (by rw [hp]; rfl)
    rw [if_neg]
    · simp
    · simp only [maxReaders, add32]
      rw [bmod_id (by omega) (by omega)]
      omega
  | wuMisuse t' hp h1 => exact absurd (hc.w.own t' (by simp [Inside, hp])) h1
  | ruPanic t' hp h1 h2 =>
    refine near _ _ (fun _ => ?_)
    exfalso
    have h3 := hb.2.1 t' (by rw [hp]; rfl)
    simp only [maxReaders, add32] at h1 h2
    rw [bmod_id (x := s.rc + -1) (by omega) (by omega)] at h1 h2
    rw [bmod_id (by omega) (by omega)] at h2
    omega
  | wGiveUp t' i hp hi => exact near _ _ (by rintro rfl; rcases ht with ht | ht | ht <;> simp_all)
  | rGiveUp t' i hp hi => exact near _ _ (by rintro rfl; rcases ht with ht | ht | ht <;> simp_all)
  | rLoad t' i hp hi => exact near _ _ (by intro _; split <;> simp)
  | _ t' => exact near _ _ (by intro _; simp)

/-- A writer holds the lock, a reader waits. -/
example : ∃ s, Exec (fun s e s' => Step s e s' ∧ Few 2 e) St.init [.call 0 .lock, .ret 0 (), .call 1 .rlock] s ∧
    s.pc 0 = .wHeld ∧ s.pc 1 = .rLoad 1 := by
  refine ⟨_, .silent (.visible (.visible (.silent (.visible (.refl _) ⟨.callLock _ 0 rfl, ?_⟩)
    ⟨.wAcquire _ 0 0 rfl (by decide) rfl, ?_⟩) ⟨.wAdd _ 0 rfl, ?_⟩) ⟨.callRLock _ 1 rfl, ?_⟩)
    ⟨.rLoad _ 1 0 rfl (by decide), ?_⟩, rfl, rfl⟩
  all_goals intro t op ht
  all_goals cases ht
  all_goals decide

/-! ### C38 -/

/-- C38 is false of the code, and this is the exact consequence: once the inner lock is taken while no writer is
inside (what the first reader leaves behind), it stays taken in every continuation, under every schedule, and no
goroutine ever obtains the write lock again. -/
theorem C38_stuck {s s' : St} {τ : List (Ev Op Unit)} (h1 : s.w = 1) (hn : ∀ t, ¬ Inside (s.pc t))
    (h : Exec Step s τ s') : s'.w = 1 ∧ ∀ t, s'.pc t ≠ .wHeld := by
  have key : ∀ (a b : St) (e : Option (Ev Op Unit)), (a.w = 1 ∧ ∀ t, ¬ Inside (a.pc t)) → Step a e b →
      (b.w = 1 ∧ ∀ t, ¬ Inside (b.pc t)) := by
    intro a b e ⟨hw, hna⟩ hs
    have move : ∀ t p, ¬ Inside p → ∀ t', ¬ Inside (setAt a.pc t p t') := by
      intro t p hp t'
      by_cases e : t' = t
      · subst e; rw [setAt_same]; exact hp
      · rw [setAt_ne _ _ _ _ e]; exact hna t'
    cases hs with
    | wAdd t hp => exact absurd (by simp [Inside, hp]) (hna t)
    | callUnlock t hp => exact absurd (by simp [Inside, hp]) (hna t)
    | wuAdd t hp => exact absurd (by simp [Inside, hp]) (hna t)
    | wuUnlock t hp => exact absurd (by simp [Inside, hp]) (hna t)
    | wAcquire t i hp hi h0 => omega
    | rsAcquire t j hp hj h0 => omega
    | rLoad t i hp hi => exact ⟨hw, move _ _ (by split <;> simp [Inside])⟩
    | ruAdd t hp h1 => exact ⟨by simp only; rw [if_neg (by omega)]; exact hw, move _ _ (by simp [Inside])⟩
    | _ t => exact ⟨hw, move _ _ (by simp [Inside])⟩
  have := Exec.invariant (fun _ a => a.w = 1 ∧ ∀ t, ¬ Inside (a.pc t)) ⟨h1, hn⟩ (fun _ a b hp hs => key a b _ hp hs)
    (fun _ a _ b hp hs => key a b _ hp hs) h
  exact ⟨this.1, fun t ht => this.2 t (by simp [Inside, ht])⟩

/-- C38 is false of the code: after one `RLock` and `RUnlock` with nobody else around, every goroutine idle and no
lock held, no goroutine can ever hold the write lock, under any continuation. -/
theorem C38_false : ∃ s, Exec Step St.init [.call 0 .rlock, .ret 0 (), .call 0 .runlock, .ret 0 ()] s ∧
    (∀ t, s.pc t = .idle) ∧ ∀ τ s', Exec Step s τ s' → ∀ t, s'.pc t ≠ .wHeld := by
  refine ⟨_, .visible (.visible (.visible (.silent (.silent (.visible (.refl _) (.callRLock _ 0 rfl))
    (.rLoad _ 0 0 rfl (by decide))) (.rAddFirst _ 0 rfl (by decide))) (.rsAcquire _ 0 0 rfl (by decide) rfl))
    (.callRUnlock _ 0 rfl)) (.ruAdd _ 0 rfl (by decide)), ?_, ?_⟩
  · intro t
    by_cases e : t = 0
    · subst e; rfl
    · simp [setAt, St.goto, St.init, e]
  · intro τ s' h
    refine (C38_stuck rfl (fun t => ?_) h).2
    by_cases e : t = 0
    · subst e; simp [setAt, Inside]
    · simp [setAt, St.goto, St.init, e, Inside]

/-- C38, the readers: in the same situation a first reader that waits for the inner lock never gets it either, under any
continuation; it goes on waiting or has panicked. -/
theorem C38_reader_stuck {s s' : St} {τ : List (Ev Op Unit)} {t j : Nat} (h1 : s.w = 1) (hn : ∀ t, ¬ Inside (s.pc t))
    (ht : s.pc t = .rSpin j) (h : Exec Step s τ s') : (∃ j', s'.pc t = .rSpin j') ∨ s'.pc t = .rCrashed := by
  have key : ∀ (a b : St) (e : Option (Ev Op Unit)), a.w = 1 → ((∃ j', a.pc t = .rSpin j') ∨ a.pc t = .rCrashed) →
      Step a e b → ((∃ j', b.pc t = .rSpin j') ∨ b.pc t = .rCrashed) := by
    intro a b e hw ha hs
    have near : ∀ t' p, (t' = t → (∃ j', p = .rSpin j') ∨ p = .rCrashed) →
        (∃ j', setAt a.pc t' p t = .rSpin j') ∨ setAt a.pc t' p t = .rCrashed := by
      intro t' p hp
      by_cases e : t = t'
      · subst e; rw [setAt_same]; exact hp rfl
      · rw [setAt_ne _ _ _ _ e]; exact ha
    cases hs with
    | rsAcquire t' j' hp hj h0 => omega
    | rsGiveUp t' j' hp hj => exact near _ _ (fun _ => .inr rfl)
    | rsAgain t' j' hp hj h0 => exact near _ _ (fun _ => .inl ⟨_, rfl⟩)
    | _ t' hp => exact near _ _ (by rintro rfl; rcases ha with ⟨j', ha⟩ | ha <;> simp_all)
  have stuck : ∀ σ a, Exec Step s σ a → a.w = 1 := fun σ a ha => (C38_stuck h1 hn ha).1
  induction h with
  | refl => exact .inl ⟨j, ht⟩
  | silent hp hs ih => exact key _ _ _ (stuck _ _ hp) ih hs
  | visible hp hs ih => exact key _ _ _ (stuck _ _ hp) ih hs

/-- Only goroutine `t` calls anything. -/
def OnlyCaller (t : Nat) (e : Option (Ev Op Unit)) : Prop := ∀ u op, e = some (.call u op) → u = t

/-- What a goroutine alone can get to after the last reader has left. -/
def ReaderOut (t : Nat) (s : St) : Prop := s.w = 1 ∧ (∀ u, u ≠ t → s.pc u = .idle) ∧
  ((s.rc = 0 ∧ (s.pc t = .idle ∨ (∃ i, s.pc t = .wSpin i) ∨ (∃ i, s.pc t = .rLoad i) ∨ s.pc t = .rAdd)) ∨
    s.pc t = .crashed ∨ (∃ i, s.pc t = .rSpin i) ∨ s.pc t = .rCrashed)

theorem ReaderOut.step {t : Nat} {a b : St} {e : Option (Ev Op Unit)} (h : ReaderOut t a) (hs : Step a e b)
    (hc : OnlyCaller t e) : ReaderOut t b := by
  obtain ⟨hw, ho, ht⟩ := h
  have other : ∀ u p, u = t → ∀ v, v ≠ t → setAt a.pc u p v = .idle := by
    rintro u p rfl v hv
    rw [setAt_ne _ _ _ _ hv]; exact ho v hv
  have this : ∀ u, a.pc u ≠ .idle → u = t := fun u hu => by
    by_cases e : u = t
    · exact e
    · exact absurd (ho u e) hu
  cases hs with
  | callLock u hp =>
    have := hc u _ rfl; subst this
    exact ⟨hw, other _ _ rfl, by simp_all [St.goto, setAt_same]⟩
  | callRLock u hp =>
    have := hc u _ rfl; subst this
    exact ⟨hw, other _ _ rfl, by simp_all [St.goto, setAt_same]⟩
  | rAdd u hp h1 =>
    have := this u (by simp [hp]); subst this
    exfalso
    simp_all [add32]
  | wGiveUp u i hp | wAcquire u i hp | wAgain u i hp | rGiveUp u i hp | rLoad u i hp | rsGiveUp u i hp | rsAcquire u i hp
  | rsAgain u i hp =>
    have := this u (by simp [hp]); subst this
    exact ⟨by simp_all [St.goto], other _ _ rfl, by simp_all [St.goto, setAt_same]⟩
  | _ u hp =>
    have := this u (by simp [hp]); subst this
    exact ⟨by simp_all, other _ _ rfl, by simp_all [setAt_same]⟩

/-- C38 is false of the code for readers too: after one `RLock` and `RUnlock`, with every goroutine idle and no lock held, a
goroutine that uses the lock alone never obtains a read lock again: its `RLock` waits until it panics. -/
theorem C38_reader_false : ∃ s, Exec Step St.init [.call 0 .rlock, .ret 0 (), .call 0 .runlock, .ret 0 ()] s ∧
    (∀ t, s.pc t = .idle) ∧ ∀ t τ s', Exec (fun a e b => Step a e b ∧ OnlyCaller t e) s τ s' → ∀ u, s'.pc u ≠ .rHeld := by
  refine ⟨_, .visible (.visible (.visible (.silent (.silent (.visible (.refl _) (.callRLock _ 0 rfl))
    (.rLoad _ 0 0 rfl (by decide))) (.rAddFirst _ 0 rfl (by decide))) (.rsAcquire _ 0 0 rfl (by decide) rfl))
    (.callRUnlock _ 0 rfl)) (.ruAdd _ 0 rfl (by decide)), ?_⟩
  have idle : ∀ t, setAt (setAt (setAt (setAt (setAt (setAt St.init.pc 0 (.rLoad 0)) 0 .rAdd) 0 (.rSpin 0)) 0 .rHeld) 0 .ruAdd) 0 .idle t
      = .idle := by
    intro t
    by_cases e : t = 0
    · subst e; rfl
    · simp [setAt, St.init, e]
  refine ⟨idle, fun t τ s' h => ?_⟩
  suffices H : ReaderOut t s' by
    intro u hu
    by_cases e : u = t
    · subst e; rcases H.2.2 with ⟨_, e | ⟨i, e⟩ | ⟨i, e⟩ | e⟩ | e | ⟨i, e⟩ | e <;> rw [e] at hu <;> cases hu
    · rw [H.2.1 u e] at hu; cases hu
  exact Exec.invariant (fun _ a => ReaderOut t a) ⟨rfl, fun u _ => idle u, .inl ⟨rfl, .inl (idle t)⟩⟩
    (fun _ a b hp hs => ReaderOut.step hp hs.1 hs.2)
    (fun _ a _ b hp hs => ReaderOut.step hp hs.1 hs.2) h

/-- No goroutine asks for a read lock. -/
def WritersOnly (e : Option (Ev Op Unit)) : Prop := ∀ t, e ≠ some (.call t .rlock)

/-- The states of `RLock` and `RUnlock`. -/
def isReader : PC → Bool
  | .rLoad _ | .rAdd | .rSpin _ | .rHeld | .ruAdd | .rCrashed => true
  | _ => false

/-- Announced. -/
def Ann (p : PC) : Prop := p = .wHeld ∨ p = .wuAdd

structure PInv (s : St) : Prop where
  w : WInv s
  no : ∀ t, isReader (s.pc t) = false
  ann : ∀ t, Ann (s.pc t) → s.rc = -maxReaders
  una : (∀ t, ¬ Ann (s.pc t)) → s.rc = 0
  free : s.w = 0 ∨ s.w = 1 ∧ ∃ t, Inside (s.pc t)

theorem ann_inside {p : PC} (h : Ann p) : Inside p := by
  rcases h with h | h <;> simp [Inside, h]

theorem pinv_keep {s : St} (h : PInv s) (t : Nat) (p : PC) (hw : WInv (s.goto t p)) (hp : isReader p = false)
    (ha : Ann p ↔ Ann (s.pc t)) (hi : Inside p ↔ Inside (s.pc t)) : PInv (s.goto t p) := by
  have kA : ∀ t', Ann ((s.goto t p).pc t') ↔ Ann (s.pc t') := by
    intro t'
    by_cases e : t' = t
    · subst e; simp only [St.goto, setAt_same]; exact ha
    · simp only [St.goto, setAt_ne _ _ _ _ e]
  have kI : ∀ t', Inside ((s.goto t p).pc t') ↔ Inside (s.pc t') := by
    intro t'
    by_cases e : t' = t
    · subst e; simp only [St.goto, setAt_same]; exact hi
    · simp only [St.goto, setAt_ne _ _ _ _ e]
  refine ⟨hw, fun t' => ?_, fun t' h' => h.ann t' ((kA _).1 h'), fun h' => h.una (fun t' h2 => h' t' ((kA _).2 h2)), ?_⟩
  · by_cases e : t' = t
    · subst e; simp only [St.goto, setAt_same]; exact hp
    · simp only [St.goto, setAt_ne _ _ _ _ e]; exact h.no t'
  · rcases h.free with h0 | ⟨h1, t', h2⟩
    · exact .inl h0
    · exact .inr ⟨h1, t', (kI _).2 h2⟩

theorem pinv_step {s s' : St} {e : Option (Ev Op Unit)} (h : PInv s) (hs : Step s e s') (hd : WritersOnly e) : PInv s' := by
  have hw := winv_step h.w hs
  have no' : ∀ t p, isReader p = false → ∀ t', isReader (setAt s.pc t p t') = false := by
    intro t p hp t'
    by_cases e : t' = t
    · subst e; rw [setAt_same]; exact hp
    · rw [setAt_ne _ _ _ _ e]; exact h.no t'
  cases hs with
  | callLock t hp => exact pinv_keep h t _ hw rfl (by simp [Ann, hp]) (by simp [Inside, hp])
  | wGiveUp t i hp hi => exact pinv_keep h t _ hw rfl (by simp [Ann, hp]) (by simp [Inside, hp])
  | wAgain t i hp hi h0 => exact pinv_keep h t _ hw rfl (by simp [Ann, hp]) (by simp [Inside, hp])
  | callUnlock t hp => exact pinv_keep h t _ hw rfl (by simp [Ann, hp]) (by simp [Inside, hp])
  | callRLock t hp => exact absurd rfl (hd t)
  | wAcquire t i hp hi h0 =>
    have none : ∀ t', ¬ Ann (s.pc t') := fun t' ha => by have := h.w.own t' (ann_inside ha); omega
    have none' : ∀ t', ¬ Ann (setAt s.pc t .wAdd t') := by
      intro t'
      by_cases e : t' = t
      · subst e; simp [setAt_same, Ann]
      · rw [setAt_ne _ _ _ _ e]; exact none t'
    exact ⟨hw, no' t _ rfl, fun t' h' => absurd h' (none' t'), fun _ => h.una none,
      .inr ⟨rfl, t, by simp [setAt_same, Inside]⟩⟩
  | wAdd t hp =>
    have none : ∀ t', ¬ Ann (s.pc t') := fun t' ha => by
      have := h.w.one t' t (ann_inside ha) (by simp [Inside, hp])
      subst this; simp [Ann, hp] at ha
    have h0 := h.una none
    refine ⟨hw, no' t _ rfl, fun _ _ => by simp only; rw [h0]; decide, fun h' => ?_, .inr ⟨h.w.own t (by simp [Inside, hp]), t, by simp [setAt_same, Inside]⟩⟩
    exact absurd (by simp [setAt_same, Ann]) (h' t)
  | wuAdd t hp =>
    have h0 := h.ann t (by simp [Ann, hp])
    have hz : add32 s.rc maxReaders = 0 := by rw [h0]; decide
    rw [hz] at hw ⊢
    rw [if_neg (by decide)] at hw ⊢
    have none' : ∀ t', ¬ Ann (setAt s.pc t .wuUnlock t') := by
      intro t' ha
      by_cases e : t' = t
      · subst e; simp [setAt_same, Ann] at ha
      · rw [setAt_ne _ _ _ _ e] at ha
        exact e (h.w.one t' t (ann_inside ha) (by simp [Inside, hp]))
    exact ⟨hw, no' t _ rfl, fun t' h' => absurd h' (none' t'), fun _ => rfl,
      .inr ⟨h.w.own t (by simp [Inside, hp]), t, by simp [setAt_same, Inside]⟩⟩
  | wuUnlock t hp h1 =>
    have none : ∀ t', ¬ Ann (s.pc t') := fun t' ha => by
      have := h.w.one t' t (ann_inside ha) (by simp [Inside, hp])
      subst this; simp [Ann, hp] at ha
    have none' : ∀ t', ¬ Ann (setAt s.pc t .idle t') := by
      intro t'
      by_cases e : t' = t
      · subst e; simp [setAt_same, Ann]
      · rw [setAt_ne _ _ _ _ e]; exact none t'
    exact ⟨hw, no' t _ rfl, fun t' h' => absurd h' (none' t'), fun _ => h.una none, .inl rfl⟩
  | wuMisuse t hp h1 => exact absurd (h.w.own t (by simp [Inside, hp])) h1
  | _ t hp => have := h.no t; simp_all [isReader]

/-- C38 for writers among themselves: as long as nobody calls `RLock`, whenever no goroutine is between a returned
`Lock` and the end of its `Unlock` (or just about to return from `Lock`), the lock is free, so that the next
attempt of any waiting `Lock` obtains it.  Missing from C38: the same after an `RUnlock`, which is false, see
`C38_false`. -/
theorem C38_writers_partial {τ : List (Ev Op Unit)} {s : St}
    (h : Exec (fun s e s' => Step s e s' ∧ WritersOnly e) St.init τ s) (hn : ∀ t, ¬ Inside (s.pc t)) :
    s.w = 0 ∧ ∀ t i, s.pc t = .wSpin i → i ≤ maxLoop →
      ∃ s1 s2, Step s none s1 ∧ Step s1 (some (.ret t ())) s2 ∧ s2.pc t = .wHeld := by
  have hi : PInv s := by
    refine Exec.invariant (fun _ s => PInv s) ?_ (fun _ _ _ h hs => pinv_step h hs.1 hs.2)
      (fun _ _ _ _ h hs => pinv_step h hs.1 hs.2) h
    refine ⟨⟨?_, ?_⟩, ?_, ?_, ?_, .inl rfl⟩ <;> simp [St.init, Inside, Ann, isReader]
  have h0 : s.w = 0 := by
    rcases hi.free with h0 | ⟨_, t, h2⟩
    · exact h0
    · exact absurd h2 (hn t)
  refine ⟨h0, fun t i hp hi' => ⟨_, _, .wAcquire s t i hp (by omega) h0, .wAdd _ t (setAt_same _ _ _), setAt_same _ _ _⟩⟩

/-- A reader has come and gone: the lock word stays 1, nobody is inside, and the next reader spins. -/
example : ∃ s τ, Exec Step St.init τ s ∧ s.w = 1 ∧ (∀ t, ¬ Inside (s.pc t)) ∧ s.pc 1 = .rSpin 0 := by
  have h0 := Exec.refl (step := Step) St.init
  have h1 := h0.visible (.callRLock _ 0 rfl)
  have h2 := h1.silent (.rLoad _ 0 0 rfl (by decide))
  have h3 := h2.silent (.rAddFirst _ 0 rfl (by decide))
  have h4 := h3.visible (.rsAcquire _ 0 0 rfl (by decide) rfl)
  have h5 := h4.visible (.callRUnlock _ 0 rfl)
  have h6 := h5.visible (.ruAdd _ 0 rfl (by decide))
  have h7 := h6.visible (.callRLock _ 1 rfl)
  have h8 := h7.silent (.rLoad _ 1 0 rfl (by decide))
  have h9 := h8.silent (.rAddFirst _ 1 rfl (by decide))
  refine ⟨_, _, h9, rfl, fun t => ?_, rfl⟩
  by_cases e1 : t = 1
  · subst e1; simp [setAt, Inside]
  · by_cases e0 : t = 0
    · subst e0; simp [setAt, Inside, St.goto]
    · simp [setAt, Inside, St.goto, St.init, e0, e1]

end Verif.RWSpinLock
