import Verif.Spec.ListWorld
import Mathlib.Data.List.Perm.Basic
import Mathlib.Data.List.Nodup
/-!
# Finitely many goroutines inside a certain region of code

`Tracks L f`: the list `L` enumerates, without repetition, the goroutines `t` with `f t = some b`, together
with that `b`.  Used to count over an unbounded set of goroutines.
-/

namespace Verif
open Verif.Spec

structure Tracks {β : Type} (L : List (Nat × β)) (f : Nat → Option β) : Prop where
  nodup : (L.map Prod.fst).Nodup
  mem : ∀ t b, (t, b) ∈ L ↔ f t = some b

namespace Tracks
variable {β : Type} {L : List (Nat × β)} {f f' : Nat → Option β}

theorem nil (h : ∀ t, f t = none) : Tracks [] f := ⟨by simp, fun t b => by simp [h t]⟩

theorem eq_nil (hT : Tracks L f) (h : ∀ t, f t = none) : L = [] := by
  cases L with
  | nil => rfl
  | cons p r => exact absurd ((hT.mem p.1 p.2).1 (by simp)) (by simp [h])

theorem keep (h : Tracks L f) (hf : ∀ t, f' t = f t) : Tracks L f' :=
  ⟨h.nodup, fun t b => by rw [h.mem, hf]⟩

theorem add (h : Tracks L f) (t : Nat) (b : β) (h0 : f t = none) (h1 : f' t = some b)
    (hf : ∀ t', t' ≠ t → f' t' = f t') : Tracks ((t, b) :: L) f' := by
  refine ⟨?_, fun t' b' => ?_⟩
  · simp only [List.map_cons, List.nodup_cons]
    refine ⟨?_, h.nodup⟩
    intro hm
    obtain ⟨⟨x, y⟩, hxy, e⟩ := List.mem_map.1 hm
    simp only at e; subst e
    have := (h.mem _ _).1 hxy
    rw [h0] at this; cases this
  · by_cases e : t' = t
    · subst e
      rw [h1]
      constructor
      · intro hm
        rcases List.mem_cons.1 hm with hm | hm
        · cases hm; rfl
        · have := (h.mem _ _).1 hm; rw [h0] at this; cases this
      · intro hb; cases hb; simp
    · rw [hf t' e, ← h.mem]
      simp [e]

theorem rem (h : Tracks L f) (t : Nat) (b : β) (h0 : f t = some b) (h1 : f' t = none)
    (hf : ∀ t', t' ≠ t → f' t' = f t') : ∃ L', L.Perm ((t, b) :: L') ∧ Tracks L' f' := by
  obtain ⟨l1, l2, rfl⟩ := List.append_of_mem ((h.mem t b).2 h0)
  have hp : (l1 ++ (t, b) :: l2).Perm ((t, b) :: (l1 ++ l2)) := List.perm_middle
  have hn := (hp.map Prod.fst).nodup_iff.1 h.nodup
  simp only [List.map_cons, List.nodup_cons] at hn
  refine ⟨l1 ++ l2, hp, hn.2, fun t' b' => ?_⟩
  by_cases e : t' = t
  · subst e
    rw [h1]
    constructor
    · intro hm
      exact absurd (List.mem_map.2 ⟨_, hm, rfl⟩) hn.1
    · intro hb; cases hb
  · rw [hf t' e, ← h.mem, hp.mem_iff]
    simp [e]

theorem rem_perm {L L' : List (Nat × β)} {p : Nat × β} (h : L.Perm (p :: L')) :
    (L.map Prod.snd).Perm (p.2 :: L'.map Prod.snd) := h.map Prod.snd

end Tracks
end Verif
