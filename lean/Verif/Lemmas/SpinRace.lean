import Verif.Model.SpinRace
import Verif.Lemmas.RaceAll
import Verif.Props.SpinLock
/-!
# The spin lock and what it guards: invariant
-/
set_option linter.unusedSectionVars false

namespace Verif.SpinLock
open Verif.Spec
variable {D : Type}

/-- Each goroutine unlocks only what it locked. -/
def GDisciplined (s : St) (e : Option (GLab D)) : Prop := ∀ t, e = some (.ev (.call t .unlock)) → s.pc t = .held

theorem GStep.step {s s' : St} {l : Option (GLab D)} (h : GStep s l s') (hd : GDisciplined s l) :
    s' = s ∨ ∃ e, Step s e s' ∧ Disciplined s e := by
  cases h with
  | callLock t hp => exact .inr ⟨_, .callLock s t hp, by simp [Disciplined]⟩
  | giveUp t i hp hi => exact .inr ⟨_, .giveUp s t i hp hi, by simp [Disciplined]⟩
  | acquire t i hp hi h0 => exact .inr ⟨_, .acquire s t i hp hi h0, by simp [Disciplined]⟩
  | again t i hp hi h0 => exact .inr ⟨_, .again s t i hp hi h0, by simp [Disciplined]⟩
  | data => exact .inl rfl
  | callUnlock t hp =>
    refine .inr ⟨_, .callUnlock s t hp, ?_⟩
    intro u hu
    cases hu
    exact hd t rfl
  | release t hp h1 => exact .inr ⟨_, .release s t hp h1, by simp [Disciplined]⟩
  | misuse t hp h1 => exact .inr ⟨_, .misuse s t hp h1, by simp [Disciplined]⟩

/-- The invariant: `τ` are the accesses so far. -/
structure GInv (τ : List (Acc (Loc D))) (s : St) : Prop where
  base : Inv s
  rf : RaceFree τ
  atomic : All τ fun _ a => a.loc = .state → a.kind.atomic = true
  held : ∀ t, Owns (s.pc t) → All τ fun i a => a.loc ≠ .state → Known τ t i
  free : s.state = 0 → All τ fun i a => a.loc ≠ .state → Passed τ .state i

/-- One more access to the lock, whatever happens to the state. -/
theorem ginv_acc {τ : List (Acc (Loc D))} {s : St} (h : GInv τ s) (a : Acc (Loc D)) (hl : a.loc = .state) (ha : a.kind.atomic = true)
    (hst : a.kind = .rmw ∨ a.kind.writes = false) : GInv (τ ++ [a]) s := by
  refine ⟨h.base, ?_, all_append.mpr ⟨h.atomic, fun _ => ha⟩, ?_, ?_⟩
  · refine raceFree_append.mpr ⟨h.rf, fun i b hb hc => ?_⟩
    have := h.atomic i b hb (hc.1.trans hl)
    rcases hc.2.2 with h' | h'
    · rw [this] at h'; cases h'
    · rw [ha] at h'; cases h'
  · intro t ht
    exact all_append.mpr ⟨(h.held t ht).imp fun i b hb h1 => known_mono (hb h1), fun h' => absurd hl h'⟩
  · intro h0
    exact all_append.mpr ⟨(h.free h0).imp fun i b hb h1 => passed_mono (fun _ => hst) (hb h1), fun h' => absurd hl h'⟩

/-- A goroutine moves and neither gets nor loses the lock. -/
theorem ginv_pc {τ : List (Acc (Loc D))} {s : St} (h : GInv τ s) (t : Nat) (p : PC) (hp : Owns p → Owns (s.pc t)) (hI : Inv ⟨s.state, setAt s.pc t p⟩) :
    GInv τ ⟨s.state, setAt s.pc t p⟩ := by
  refine ⟨hI, h.rf, h.atomic, fun u hu => h.held u ?_, h.free⟩
  by_cases e : u = t
  · subst e; exact hp (by simpa [setAt] using hu)
  · simpa [setAt_ne _ _ _ _ e] using hu

theorem ginv_step {τ : List (GLab D)} {s s' : St} {e : Option (GLab D)} (h : GInv (accs τ) s) (hs : GStep s e s') (hd : GDisciplined s e) :
    GInv (accs (τ ++ e.toList)) s' := by
  have hI : Inv s' := by
    rcases hs.step hd with he | ⟨e', h1, h2⟩
    · rw [he]; exact h.base
    · exact inv_step h.base h1 h2
  cases hs with
  | callLock t hp =>
    simp only [Option.toList, accs_append, accs_ev, List.append_nil]
    exact ginv_pc h t _ (by simp [Owns]) hI
  | giveUp t i hp hi =>
    simp only [Option.toList, List.append_nil]
    exact ginv_pc h t _ (by simp [Owns]) hI
  | again t i hp hi h0 =>
    simp only [Option.toList, accs_append, accs_acc]
    exact ginv_pc (ginv_acc h ⟨t, .load, .state⟩ rfl rfl (.inr rfl)) t _ (by simp [Owns]) hI
  | callUnlock t hp =>
    simp only [Option.toList, accs_append, accs_ev, List.append_nil]
    exact ginv_pc h t _ (fun _ => by rw [hd t rfl]; exact .inl rfl) hI
  | misuse t hp h1 => exact absurd (h.base.own t (by simp [Owns, hp])) h1
  | data t k x hp =>
    simp only [Option.toList, accs_append, accs_acc]
    have ho : Owns (s.pc t) := .inl hp
    refine ⟨hI, ?_, all_append.mpr ⟨h.atomic, by simp⟩, ?_, fun h0 => by have := h.base.own t ho; omega⟩
    · refine raceFree_append.mpr ⟨h.rf, fun i b hb hc => .inl (h.held t ho i b hb (by rw [hc.1]; simp))⟩
    · intro u hu
      have := h.base.one u t hu ho
      subst this
      exact all_append.mpr ⟨(h.held u hu).imp fun i b hb h1 => known_mono (hb h1), fun _ => known_append.mpr (.inr ⟨rfl, .inl rfl⟩)⟩
  | acquire t i hp hi h0 =>
    simp only [Option.toList, accs_append, accs_acc]
    have h1 := ginv_acc h ⟨t, .rmw, .state⟩ rfl rfl (.inl rfl)
    refine ⟨hI, h1.rf, h1.atomic, ?_, fun h' => by simp at h'⟩
    intro u hu
    have hut : u = t := by
      by_contra e
      have : Owns (s.pc u) := by simpa [setAt_ne _ _ _ _ e] using hu
      have := h.base.own u this
      omega
    subst hut
    exact all_append.mpr ⟨(h.free h0).imp fun i b hb h1 => known_append.mpr (.inr ⟨rfl, .inr ⟨rfl, hb h1⟩⟩), by simp⟩
  | release t hp h1 =>
    simp only [Option.toList, accs_append, accs_acc]
    have ho : Owns (s.pc t) := .inr hp
    have h2 := ginv_acc h ⟨t, .rmw, .state⟩ rfl rfl (.inl rfl)
    refine ⟨hI, h2.rf, h2.atomic, ?_, fun _ => ?_⟩
    · intro u hu
      have := hI.own u hu
      simp at this
    · exact all_append.mpr ⟨(h.held t ho).imp fun i b hb h1 => passed_append.mpr (.inl ⟨rfl, rfl, rfl, known_mono (hb h1)⟩), by simp⟩

theorem ginv_exec {τ : List (GLab D)} {s : St} (h : Exec (fun s e s' => GStep s e s' ∧ GDisciplined s e) St.init τ s) : GInv (accs τ) s := by
  induction h with
  | refl =>
    refine ⟨inv_exec (.refl _), raceFree_nil, ?_, ?_, ?_⟩
    all_goals intros
    all_goals intro i a h
    all_goals simp [accs] at h
  | silent _ hs ih => simpa using ginv_step ih hs.1 hs.2
  | visible _ hs ih => exact ginv_step ih hs.1 hs.2

end Verif.SpinLock
