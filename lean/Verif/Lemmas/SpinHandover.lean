import Verif.Lemmas.SpinRace
import Verif.Lemmas.Handover
/-!
# The spin lock hands over what was done before `Unlock`: invariant
-/
set_option linter.unusedSectionVars false

namespace Verif.SpinLock
open Verif.Spec
variable {D : Type}

/-- What a goroutine does with the lock: it takes it or gives it back (the successful attempts), it uses the data, it calls
`Unlock`. -/
def ByHolder : GLab D → Prop
  | .acc a => a.loc ≠ .state ∨ a.kind = .rmw
  | .ev e => ∃ u, e = .call u .unlock

/-- The invariant. -/
structure HInv (τ : List (GLab D)) (s : St) : Prop where
  base : Inv s
  held : ∀ u, Owns (s.pc u) → ∀ i t, τ[i]? = some (.ev (.call t .unlock)) → Kn τ u i
  free : s.state = 0 → ∀ i t, τ[i]? = some (.ev (.call t .unlock)) → Ps τ .state i
  ord : ∀ i j t l, i < j → τ[i]? = some (.ev (.call t .unlock)) → τ[j]? = some l → ByHolder l → EvBefore τ i j

theorem ord_append {τ : List (GLab D)} {s : St} (h : HInv τ s) (l : GLab D)
    (hl : ByHolder l → ∀ i t, τ[i]? = some (.ev (.call t .unlock)) → EvBefore (τ ++ [l]) i τ.length) :
    ∀ i j t m, i < j → (τ ++ [l])[i]? = some (.ev (.call t .unlock)) → (τ ++ [l])[j]? = some m → ByHolder m → EvBefore (τ ++ [l]) i j := by
  intro i j t m hij hi hj hm
  rcases lab_split hj with hj | ⟨rfl, rfl⟩
  · have hjl := (List.getElem?_eq_some_iff.mp hj).1
    rw [List.getElem?_append_left (by omega)] at hi
    exact evBefore_mono hjl (h.ord i j t m hij hi hj hm)
  · rw [List.getElem?_append_left (by omega)] at hi
    exact hl hm i t hi

theorem hinv_step {τ : List (GLab D)} {s s' : St} {e : Option (GLab D)} (h : HInv τ s) (hs : GStep s e s') (hd : GDisciplined s e) :
    HInv (τ ++ e.toList) s' := by
  have hI : Inv s' := by
    rcases hs.step hd with he | ⟨e', h1, h2⟩
    · rw [he]; exact h.base
    · exact inv_step h.base h1 h2
  have hown : ∀ t p u, Owns (setAt s.pc t p u) → ¬ Owns p → Owns (s.pc u) := by
    intro t p u hu hp
    by_cases e : u = t
    · subst e; rw [setAt_same] at hu; exact absurd hu hp
    · rwa [setAt_ne _ _ _ _ e] at hu
  have split : ∀ {l : GLab D} {i t : Nat}, (τ ++ [l])[i]? = some (.ev (.call t .unlock)) → (∀ t, l ≠ .ev (.call t .unlock)) →
      τ[i]? = some (.ev (.call t .unlock)) := by
    intro l i t hi hl
    rcases lab_split hi with hi | ⟨_, hi⟩
    · exact hi
    · exact absurd hi.symm (hl t)
  cases hs with
  | callLock t hp =>
    refine ⟨hI, fun u hu i t' hi => kn_mono (h.held u (hown t _ u hu (by simp [Owns])) i t' (split hi (by simp))),
      fun h0 i t' hi => ps_mono (by simp) (h.free h0 i t' (split hi (by simp))), ord_append h _ (by simp [ByHolder])⟩
  | giveUp t i hp hi =>
    simp only [Option.toList, List.append_nil]
    exact ⟨hI, fun u hu => h.held u (hown t _ u hu (by simp [Owns])), h.free, h.ord⟩
  | again t i hp hi h0 =>
    refine ⟨hI, fun u hu i t' hi => kn_mono (h.held u (hown t _ u hu (by simp [Owns])) i t' (split hi (by simp))),
      fun h0 i t' hi => ps_mono (by simp [AccKind.writes]) (h.free h0 i t' (split hi (by simp))), ord_append h _ (by simp [ByHolder])⟩
  | misuse t hp h1 => exact absurd (h.base.own t (by simp [Owns, hp])) h1
  | callUnlock t hp =>
    have ho : Owns (s.pc t) := by rw [hd t rfl]; exact .inl rfl
    have hkn : ∀ i t', (τ ++ [Lab.ev (Ev.call t Op.unlock)])[i]? = some (.ev (.call t' .unlock)) → Kn (τ ++ [Lab.ev (Ev.call t Op.unlock)]) t i := by
      intro i t' hi
      rcases lab_split hi with hi | ⟨rfl, _⟩
      · exact kn_mono (h.held t ho i t' hi)
      · exact kn_self (Ev.call t Op.unlock)
    refine ⟨hI, fun u hu i t' hi => ?_, fun h0 => ?_, ord_append h _ fun _ i t' hi => evBefore_last (h.held t ho i t' hi)⟩
    · have hu : Owns (s.pc u) := by
        by_cases e : u = t
        · rw [e]; exact ho
        · simpa [setAt_ne _ _ _ _ e] using hu
      have := h.base.one u t hu ho
      subst this
      exact hkn i t' hi
    · have := h.base.own t ho
      dsimp only at h0
      omega
  | data t k x hp =>
    have ho : Owns (s.pc t) := .inl hp
    exact ⟨hI, fun u hu i t' hi => kn_mono (h.held u hu i t' (split hi (by simp))),
      fun h0 => by have := h.base.own t ho; omega,
      ord_append h _ fun _ i t' hi => evBefore_last (h.held t ho i t' hi)⟩
  | acquire t i hp hi h0 =>
    refine ⟨hI, fun u hu i t' hi => ?_, fun h' => by simp at h', ord_append h _ fun _ i t' hi => evBefore_obs rfl (h.free h0 i t' hi)⟩
    have hut : u = t := by
      by_contra e
      have : Owns (s.pc u) := by simpa [setAt_ne _ _ _ _ e] using hu
      have := h.base.own u this
      omega
    subst hut
    exact kn_obs rfl (h.free h0 i t' (split hi (by simp)))
  | release t hp h1 =>
    have ho : Owns (s.pc t) := .inr hp
    refine ⟨hI, fun u hu => ?_, fun _ i t' hi => ps_pub rfl rfl (h.held t ho i t' (split hi (by simp))),
      ord_append h _ fun _ i t' hi => evBefore_last (h.held t ho i t' hi)⟩
    have := hI.own u hu
    simp at this

theorem hinv_exec {τ : List (GLab D)} {s : St} (h : Exec (fun s e s' => GStep s e s' ∧ GDisciplined s e) St.init τ s) : HInv τ s := by
  induction h with
  | refl => exact ⟨inv_exec (.refl _), by simp, by simp, by simp⟩
  | silent _ hs ih => simpa using hinv_step ih hs.1 hs.2
  | visible _ hs ih => exact hinv_step ih hs.1 hs.2

end Verif.SpinLock
