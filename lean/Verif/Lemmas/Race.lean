import Verif.Spec.Race
import Verif.Spec.ListWorld
import Mathlib.Tactic.ByContra
import Mathlib.Tactic.SplitIfs
import Mathlib.Tactic.Tauto
import Mathlib.Data.List.Induction
/-!
# Happens-before along an execution
-/

namespace Verif.Spec
variable {L : Type}

/-- Access `i` is known to goroutine `t`: it happens before the next access of `t`. -/
def Known (τ : List (Acc L)) (t i : Nat) : Prop :=
  ∃ j b, τ[j]? = some b ∧ b.t = t ∧ (i = j ∨ HappensBefore τ i j)

/-- Access `i` is passed on by location `x`: it happens before every atomic operation that observes the location next. -/
def Passed (τ : List (Acc L)) (x : L) (i : Nat) : Prop :=
  ∃ j b, LastWrite τ τ.length x j ∧ τ[j]? = some b ∧ b.kind.atomic = true ∧ (i = j ∨ HappensBefore τ i j)

theorem getElem?_lt {τ : List (Acc L)} {i : Nat} {a : Acc L} (h : τ[i]? = some a) : i < τ.length :=
  (List.getElem?_eq_some_iff.mp h).1

theorem get_append {τ : List (Acc L)} {a : Acc L} {i : Nat} (h : i < τ.length) : (τ ++ [a])[i]? = τ[i]? :=
  List.getElem?_append_left h

theorem get_last {τ : List (Acc L)} {a : Acc L} : (τ ++ [a])[τ.length]? = some a := by simp

theorem hb_lt {τ : List (Acc L)} {i j : Nat} (h : HappensBefore τ i j) : i < j := by
  induction h with
  | single h => rcases h with h | ⟨_, _, _, _, _, _, h⟩ <;> exact h.1
  | tail _ h ih => rcases h with h | ⟨_, _, _, _, _, _, h⟩ <;> exact Nat.lt_trans ih h.1

theorem lastWrite_append {τ : List (Acc L)} {a : Acc L} {n i : Nat} {x : L} (hn : n ≤ τ.length) :
    LastWrite (τ ++ [a]) n x i ↔ LastWrite τ n x i := by
  unfold LastWrite
  constructor
  · rintro ⟨h1, ⟨b, hb, h2⟩, h3⟩
    rw [get_append (by omega)] at hb
    exact ⟨h1, ⟨b, hb, h2⟩, fun k hk hk' c hc => h3 k hk hk' c (by rwa [get_append (by omega)])⟩
  · rintro ⟨h1, ⟨b, hb, h2⟩, h3⟩
    refine ⟨h1, ⟨b, by rwa [get_append (by omega)], h2⟩, fun k hk hk' c hc => h3 k hk hk' c ?_⟩
    rwa [get_append (by omega)] at hc

theorem edge_append {τ : List (Acc L)} {a : Acc L} {i j : Nat} (hj : j < τ.length) :
    (ProgOrder (τ ++ [a]) i j ∨ Observed (τ ++ [a]) i j) ↔ (ProgOrder τ i j ∨ Observed τ i j) := by
  by_cases hi : i < τ.length
  · unfold ProgOrder Observed
    simp only [get_append hi, get_append hj, lastWrite_append (Nat.le_of_lt hj)]
  · constructor
    · rintro (h | ⟨_, _, _, _, _, _, h⟩) <;> exact absurd h.1 (by omega)
    · rintro (h | ⟨_, _, _, _, _, _, h⟩) <;> exact absurd h.1 (by omega)

theorem hb_append {τ : List (Acc L)} {a : Acc L} {i j : Nat} (hj : j < τ.length) :
    HappensBefore (τ ++ [a]) i j ↔ HappensBefore τ i j := by
  constructor
  · intro h
    induction h with
    | single h => exact .single ((edge_append hj).mp h)
    | tail h1 h ih =>
      have := (edge_append hj).mp h
      refine .tail (ih ?_) this
      rcases this with h | ⟨_, _, _, _, _, _, h⟩ <;> have := h.1 <;> omega
  · intro h
    induction h with
    | single h => exact .single ((edge_append hj).mpr h)
    | tail h1 h ih =>
      refine .tail (ih ?_) ((edge_append hj).mpr h)
      rcases h with h | ⟨_, _, _, _, _, _, h⟩ <;> have := h.1 <;> omega

/-- The edges into the new access. -/
theorem hb_last {τ : List (Acc L)} {a : Acc L} {i : Nat} :
    HappensBefore (τ ++ [a]) i τ.length ↔ Known τ a.t i ∨ (a.kind.observes = true ∧ Passed τ a.loc i) := by
  have edge : ∀ j, (ProgOrder (τ ++ [a]) j τ.length ∨ Observed (τ ++ [a]) j τ.length) ↔
      ((∃ b, τ[j]? = some b ∧ b.t = a.t) ∨
        (a.kind.observes = true ∧ LastWrite τ τ.length a.loc j ∧ ∃ b, τ[j]? = some b ∧ b.kind.atomic = true)) := by
    intro j
    constructor
    · rintro (⟨h, b, c, hb, hc, e⟩ | ⟨b, c, hb, hc, h1, h2, h3⟩)
      · rw [get_last] at hc
        rw [get_append h] at hb
        cases hc
        exact .inl ⟨b, hb, e⟩
      · rw [get_last] at hc
        cases hc
        rw [lastWrite_append (Nat.le_refl _)] at h3
        rw [get_append h3.1] at hb
        exact .inr ⟨h2, h3, b, hb, h1⟩
    · rintro (⟨b, hb, e⟩ | ⟨h2, h3, b, hb, h1⟩)
      · have := getElem?_lt hb
        exact .inl ⟨this, b, a, by rwa [get_append this], get_last, e⟩
      · exact .inr ⟨b, a, by rwa [get_append h3.1], get_last, h1, h2, (lastWrite_append (Nat.le_refl _)).mpr h3⟩
  constructor
  · intro h
    cases h with
    | single h =>
      rcases (edge i).mp h with ⟨b, hb, e⟩ | ⟨h2, h3, b, hb, h1⟩
      · exact .inl ⟨i, b, hb, e, .inl rfl⟩
      · exact .inr ⟨h2, i, b, h3, hb, h1, .inl rfl⟩
    | @tail j _ h' h =>
      rcases (edge j).mp h with ⟨b, hb, e⟩ | ⟨h2, h3, b, hb, h1⟩
      · exact .inl ⟨j, b, hb, e, .inr ((hb_append (getElem?_lt hb)).mp h')⟩
      · exact .inr ⟨h2, j, b, h3, hb, h1, .inr ((hb_append h3.1).mp h')⟩
  · rintro (⟨j, b, hb, e, h⟩ | ⟨h2, j, b, h3, hb, h1, h⟩)
    · have hs := (edge j).mpr (.inl ⟨b, hb, e⟩)
      rcases h with rfl | h
      · exact .single hs
      · exact .tail ((hb_append (getElem?_lt hb)).mpr h) hs
    · have hs := (edge j).mpr (.inr ⟨h2, h3, b, hb, h1⟩)
      rcases h with rfl | h
      · exact .single hs
      · exact .tail ((hb_append h3.1).mpr h) hs

/-- What is known after one more access. -/
theorem known_append {τ : List (Acc L)} {a : Acc L} {t i : Nat} :
    Known (τ ++ [a]) t i ↔
      Known τ t i ∨ (t = a.t ∧ (i = τ.length ∨ (a.kind.observes = true ∧ Passed τ a.loc i))) := by
  constructor
  · rintro ⟨j, b, hb, e, h⟩
    by_cases hj : j < τ.length
    · rw [get_append hj] at hb
      refine .inl ⟨j, b, hb, e, h.imp_right (hb_append hj).mp⟩
    · have : j = τ.length := by
        have := getElem?_lt hb
        simp at this; omega
      subst this
      rw [get_last] at hb
      cases hb
      rcases h with rfl | h
      · exact .inr ⟨e.symm, .inl rfl⟩
      · rcases hb_last.mp h with h | h
        · exact .inl (e ▸ h)
        · exact .inr ⟨e.symm, .inr h⟩
  · rintro (⟨j, b, hb, e, h⟩ | ⟨rfl, rfl | h⟩)
    · have hj := getElem?_lt hb
      exact ⟨j, b, by rwa [get_append hj], e, h.imp_right (hb_append hj).mpr⟩
    · exact ⟨τ.length, a, get_last, rfl, .inl rfl⟩
    · exact ⟨τ.length, a, get_last, rfl, .inr (hb_last.mpr (.inr h))⟩

/-- What is passed on after one more access. -/
theorem passed_append {τ : List (Acc L)} {a : Acc L} {x : L} {i : Nat} :
    Passed (τ ++ [a]) x i ↔
      (a.loc = x ∧ a.kind.writes = true ∧ a.kind.atomic = true ∧ Known (τ ++ [a]) a.t i) ∨
      (¬ (a.loc = x ∧ a.kind.writes = true) ∧ Passed τ x i) := by
  by_cases hw : a.loc = x ∧ a.kind.writes = true
  · have hl : LastWrite (τ ++ [a]) (τ ++ [a]).length x τ.length :=
      ⟨by simp, ⟨a, get_last, hw⟩, fun k h1 h2 => by simp at h2; omega⟩
    have hu : ∀ j, LastWrite (τ ++ [a]) (τ ++ [a]).length x j → j = τ.length := by
      intro j hj
      by_contra hc
      have hlt : j < τ.length := by have := hj.1; simp at this; omega
      have := hj.2.2 τ.length hlt (by simp) a get_last hw.1
      rw [hw.2] at this
      exact absurd this (by simp)
    constructor
    · rintro ⟨j, b, hj, hb, hat, h⟩
      have := hu j hj
      subst this
      rw [get_last] at hb
      cases hb
      exact .inl ⟨hw.1, hw.2, hat, τ.length, a, get_last, rfl, h⟩
    · rintro (⟨_, _, hat, j, b, hb, e, h⟩ | ⟨h, _⟩)
      · refine ⟨τ.length, a, hl, get_last, hat, ?_⟩
        by_cases hj : j = τ.length
        · subst hj; exact h
        · have hjl : j < τ.length := by have := getElem?_lt hb; simp at this; omega
          have hs : HappensBefore (τ ++ [a]) j τ.length := .single (.inl ⟨hjl, b, a, hb, get_last, e⟩)
          rcases h with rfl | h
          · exact .inr hs
          · exact .inr (h.trans hs)
      · exact absurd hw h
  · have hl : ∀ j, LastWrite (τ ++ [a]) (τ ++ [a]).length x j ↔ LastWrite τ τ.length x j := by
      intro j
      constructor
      · rintro ⟨h1, ⟨b, hb, h2⟩, h3⟩
        have hj : j < τ.length := by
          by_contra hc
          have : j = τ.length := by simp at h1; omega
          subst this
          rw [get_last] at hb
          cases hb
          exact hw h2
        rw [get_append hj] at hb
        exact ⟨hj, ⟨b, hb, h2⟩, fun k hk hk' c hc => h3 k hk (by simp; omega) c (by rwa [get_append hk'])⟩
      · rintro ⟨h1, ⟨b, hb, h2⟩, h3⟩
        refine ⟨by simp; omega, ⟨b, by rwa [get_append h1], h2⟩, fun k hk hk' c hc e => ?_⟩
        by_cases hkl : k < τ.length
        · rw [get_append hkl] at hc
          exact h3 k hk hkl c hc e
        · have : k = τ.length := by simp at hk'; omega
          subst this
          rw [get_last] at hc
          cases hc
          by_contra hc
          exact hw ⟨e, by simpa using hc⟩
    constructor
    · rintro ⟨j, b, hj, hb, hat, h⟩
      rw [hl] at hj
      rw [get_append hj.1] at hb
      exact .inr ⟨hw, j, b, hj, hb, hat, h.imp_right (hb_append hj.1).mp⟩
    · rintro (⟨h1, h2, _⟩ | ⟨_, j, b, hj, hb, hat, h⟩)
      · exact absurd ⟨h1, h2⟩ hw
      · exact ⟨j, b, (hl j).mpr hj, by rwa [get_append hj.1], hat, h.imp_right (hb_append hj.1).mpr⟩

/-- One more access: it must know, or learn, the conflicting ones. -/
theorem raceFree_append {τ : List (Acc L)} {a : Acc L} :
    RaceFree (τ ++ [a]) ↔ RaceFree τ ∧ ∀ i b, τ[i]? = some b → Conflict b a →
      Known τ a.t i ∨ (a.kind.observes = true ∧ Passed τ a.loc i) := by
  constructor
  · intro h
    constructor
    · intro i j b c hij hb hc hcf
      have hj := getElem?_lt hc
      exact (hb_append hj).mp (h i j b c hij (by rwa [get_append (by omega)]) (by rwa [get_append hj]) hcf)
    · intro i b hb hcf
      have hi := getElem?_lt hb
      exact hb_last.mp (h i τ.length b a hi (by rwa [get_append hi]) get_last hcf)
  · rintro ⟨h1, h2⟩ i j b c hij hb hc hcf
    have hi : i < τ.length := by have := getElem?_lt hc; simp at this; omega
    rw [get_append hi] at hb
    by_cases hj : j < τ.length
    · rw [get_append hj] at hc
      exact (hb_append hj).mpr (h1 i j b c hij hb hc hcf)
    · have : j = τ.length := by have := getElem?_lt hc; simp at this; omega
      subst this
      rw [get_last] at hc
      cases hc
      exact hb_last.mpr (h2 i b hb hcf)

theorem raceFree_nil : RaceFree ([] : List (Acc L)) := by
  intro i j a b _ h
  simp at h

/-- A goroutine knows its own accesses. -/
theorem known_own {τ : List (Acc L)} {i : Nat} {a : Acc L} (h : τ[i]? = some a) : Known τ a.t i :=
  ⟨i, a, h, rfl, .inl rfl⟩

theorem accs_append {E : Type} (τ σ : List (Lab E L)) : accs (τ ++ σ) = accs τ ++ accs σ := by
  simp [accs]

theorem evs_append {E : Type} (τ σ : List (Lab E L)) : evs (τ ++ σ) = evs τ ++ evs σ := by
  simp [evs]

@[simp] theorem accs_acc {E : Type} (a : Acc L) : accs [(.acc a : Lab E L)] = [a] := rfl
@[simp] theorem accs_ev {E : Type} (e : E) : accs [(.ev e : Lab E L)] = [] := rfl
@[simp] theorem evs_acc {E : Type} (a : Acc L) : evs [(.acc a : Lab E L)] = [] := rfl
@[simp] theorem evs_ev {E : Type} (e : E) : evs [(.ev e : Lab E L)] = [e] := rfl

/-! ## A check for concrete executions -/

variable [DecidableEq L]

/-- What every goroutine knows and every location passes on, as lists. -/
structure Clocks (L : Type) where
  k : Nat → List Nat
  r : L → List Nat

/-- One more access, the `n`-th. -/
def Clocks.step (c : Clocks L) (n : Nat) (a : Acc L) : Clocks L :=
  let k := n :: (if a.kind.observes then c.k a.t ++ c.r a.loc else c.k a.t)
  ⟨setAt c.k a.t k, fun x => if x = a.loc ∧ a.kind.writes then (if a.kind.atomic then k else []) else c.r x⟩

/-- The accesses so far, and what is known. -/
def clocks (τ : List (Acc L)) : Clocks L :=
  (τ.foldl (fun p a => (p.1 + 1, p.2.step p.1 a)) (0, ⟨fun _ => [], fun _ => []⟩)).2

theorem clocks_append (τ : List (Acc L)) (a : Acc L) : clocks (τ ++ [a]) = (clocks τ).step τ.length a := by
  have : ∀ (τ : List (Acc L)) (p : Nat × Clocks L),
      (τ.foldl (fun p a => (p.1 + 1, p.2.step p.1 a)) p).1 = p.1 + τ.length := by
    intro τ
    induction τ with
    | nil => simp
    | cons b r ih => intro p; simp [ih]; omega
  unfold clocks
  rw [List.foldl_append]
  simp [this]

theorem clocks_spec (τ : List (Acc L)) :
    (∀ t i, i ∈ (clocks τ).k t ↔ Known τ t i) ∧ ∀ x i, i ∈ (clocks τ).r x ↔ Passed τ x i := by
  induction τ using List.reverseRecOn with
  | nil => simp [clocks, Known, Passed, LastWrite]
  | append_singleton τ a ih =>
    obtain ⟨ihk, ihr⟩ := ih
    have hk : ∀ t i, i ∈ (clocks (τ ++ [a])).k t ↔ Known (τ ++ [a]) t i := by
      intro t i
      rw [clocks_append, known_append, ← ihk, ← ihr]
      unfold Clocks.step setAt
      dsimp only
      by_cases ht : t = a.t
      · subst ht
        simp only [if_true, true_and, List.mem_cons]
        split_ifs with ho
        · simp only [List.mem_append]; tauto
        · tauto
      · simp [ht]
    refine ⟨hk, fun x i => ?_⟩
    have hk' := hk a.t i
    rw [clocks_append] at hk' ⊢
    rw [passed_append, ← ihr, ← hk']
    unfold Clocks.step setAt
    dsimp only
    by_cases hw : a.kind.writes = true
    · by_cases hx : x = a.loc
      · subst hx
        by_cases hat : a.kind.atomic = true <;> simp [hw, hat]
      · simp [hw, hx, Ne.symm hx]
    · simp [hw]

instance (a b : Acc L) : Decidable (Conflict a b) := by unfold Conflict; infer_instance

/-- A race in a concrete execution: two accesses, and a computation of what the second goroutine knows. -/
theorem race_of (τ : List (Acc L)) (a : Acc L) (σ : List (Acc L)) (i : Nat) (b : Acc L) (h : τ[i]? = some b) (hc : Conflict b a)
    (hn : i ∉ (clocks (τ ++ [a])).k a.t) : ¬ RaceFree (τ ++ a :: σ) := by
  have h0 : ¬ RaceFree (τ ++ [a]) := by
    intro hr
    rw [raceFree_append] at hr
    rw [(clocks_spec _).1, known_append] at hn
    rcases hr.2 i b h hc with h | h
    · exact hn (.inl h)
    · exact hn (.inr ⟨rfl, .inr h⟩)
  have h1 : ∀ σ : List (Acc L), ¬ RaceFree (τ ++ [a] ++ σ) := by
    intro σ
    induction σ using List.reverseRecOn with
    | nil => simpa using h0
    | append_singleton σ c ih =>
      rw [← List.append_assoc, raceFree_append]
      exact fun h => ih h.1
  simpa using h1 σ

end Verif.Spec
