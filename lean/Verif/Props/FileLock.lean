import Verif.Model.FileLock
import Mathlib.Tactic.SplitIfs
import Mathlib.Tactic.ByContra
/-!
# File locks (C94)
-/

set_option linter.unusedSectionVars false

namespace Verif.FileLock
open Verif.Spec

/-- Which mutex holds the lock on which file, after one more event. -/
def Spec.after (H : String → Option Nat) : Event → String → Option Nat
  | .acquired _ m p => fun q => if q = p then some m else H q
  | .released _ m => fun q => if H q = some m then none else H q
  | _ => H

/-- Which mutex holds the lock on which file, after a history: the one whose `Lock` succeeded and that has not been
unlocked since. -/
def Spec.holder (τ : List Event) : String → Option Nat := τ.foldl Spec.after (fun _ => none)

theorem setAt_same {β : Type} (f : Nat → β) (i : Nat) (v : β) : setAt f i v i = v := by simp [setAt]
theorem setAt_ne {β : Type} (f : Nat → β) (i j : Nat) (v : β) (hj : j ≠ i) : setAt f i v j = f j := by
  simp [setAt, hj]

/-- The tables are consistent, and say who holds which lock. -/
structure Inv (s : St) (H : String → Option Nat) : Prop where
  live : ∀ m, s.h m ≠ 0 → s.opened (s.path m) = some (s.h m) ∧ s.path m ≠ ""
  fresh : ∀ p n, s.opened p = some n → 0 < n ∧ n < s.next
  inj : ∀ p q n, s.opened p = some n → s.opened q = some n → p = q
  held : ∀ p m, H p = some m ↔ s.h m ≠ 0 ∧ s.path m = p
  hinj : ∀ m m', s.h m ≠ 0 → s.h m = s.h m' → m = m'
  pos : 0 < s.next

theorem inv_start : Inv St.start (fun _ => none) := by
  constructor <;> simp [St.start]

variable {eacces : Bool} {exist : String → Prop}

/-- Steps that change neither the files, nor the handles, nor the paths. -/
theorem inv_same {s s' : St} {H : String → Option Nat} (h : Inv s H) (h1 : s'.path = s.path) (h2 : s'.h = s.h)
    (h3 : s'.opened = s.opened) (h4 : s'.next = s.next) : Inv s' H := by
  obtain ⟨a, b, c, d, e, f⟩ := h
  constructor <;> simp only [h1, h2, h3, h4] <;> assumption

/-- The holders after a step. -/
def afterStep (H : String → Option Nat) : Option Event → String → Option Nat
  | none => H
  | some e => Spec.after H e

theorem inv_step {s s' : St} {e : Option Event} {H : String → Option Nat}
    (h : Inv s H) (hs : Step eacces exist s e s') :
    Inv s' (afterStep H e) ∧ ∀ t m p, e = some (.acquired t m p) → H p = none := by
  cases hs with
  | call t m op _ => exact ⟨inv_same h rfl rfl rfl rfl, by simp⟩
  | enter t m op _ _ => exact ⟨inv_same h rfl rfl rfl rfl, by simp⟩
  | sleep t m _ _ _ _ _ => exact ⟨inv_same h rfl rfl rfl rfl, by simp⟩
  | wake t m _ => exact ⟨inv_same h rfl rfl rfl rfl, by simp⟩
  | missing t m _ _ => exact ⟨inv_same h rfl rfl rfl rfl, by simp⟩
  | busy t m _ _ _ _ _ => exact ⟨inv_same h rfl rfl rfl rfl, by simp⟩
  | init t m p hp =>
    refine ⟨?_, by simp⟩
    have key : ∀ m', s.h m' ≠ 0 → setAt s.path m (if s.path m = "" then p else s.path m) m' = s.path m' := by
      intro m' hm'
      by_cases e : m' = m
      · subst e; rw [setAt_same, if_neg (h.live m' hm').2]
      · rw [setAt_ne _ _ _ _ e]
    constructor
    · intro m' hm'
      simp only [St.done] at hm' ⊢
      rw [key m' hm']; exact h.live m' hm'
    · exact h.fresh
    · exact h.inj
    · intro q m'
      simp only [St.done, afterStep, Spec.after]
      rw [h.held]
      constructor
      · rintro ⟨a, b⟩; exact ⟨a, by rw [key m' a]; exact b⟩
      · rintro ⟨a, b⟩; exact ⟨a, by rw [key m' a] at b; exact b⟩
    · exact h.hinj
    · exact h.pos
  | acquire t m hp he hne ho =>
    have hm0 : s.h m = 0 := by
      by_contra hc
      have := (h.live m hc).1
      rw [ho] at this; cases this
    have hfree : H (s.path m) = none := by
      cases hH : H (s.path m) with
      | none => rfl
      | some m' =>
        obtain ⟨a, b⟩ := (h.held _ _).1 hH
        have := (h.live m' a).1
        rw [b, ho] at this; cases this
    refine ⟨?_, by rintro t' m' p e; cases e; exact hfree⟩
    simp only [afterStep, Spec.after]
    constructor
    · intro m' hm'
      simp only [St.done] at hm' ⊢
      by_cases e : m' = m
      · subst e; rw [setAt_same]; simp [setKey, hne]
      · rw [setAt_ne _ _ _ _ e] at hm' ⊢
        have := h.live m' hm'
        refine ⟨?_, this.2⟩
        rw [setKey, if_neg]
        · exact this.1
        · intro e2; rw [e2, ho] at this; cases this.1
    · intro p n hn
      simp only [St.done, setKey] at hn ⊢
      split_ifs at hn with e
      · cases hn; exact ⟨h.pos, by omega⟩
      · have := h.fresh p n hn; omega
    · intro p q n h1 h2
      simp only [St.done, setKey] at h1 h2
      split_ifs at h1 h2 with e1 e2 e2
      · rw [e1, e2]
      · cases h1; have := (h.fresh q _ h2).2; omega
      · cases h2; have := (h.fresh p _ h1).2; omega
      · exact h.inj p q n h1 h2
    · intro q m'
      simp only [St.done]
      by_cases e : m' = m
      · subst e
        rw [setAt_same]
        constructor
        · intro hq
          split_ifs at hq with e1
          · exact ⟨by have := h.pos; omega, e1.symm⟩
          · exact absurd hm0 ((h.held _ _).1 hq).1
        · rintro ⟨-, e2⟩; rw [if_pos e2.symm]
      · rw [setAt_ne _ _ _ _ e]
        constructor
        · intro hq
          split_ifs at hq with e1
          · cases hq; exact absurd rfl e
          · exact (h.held _ _).1 hq
        · intro hq
          have := (h.held q m').2 hq
          rw [if_neg]
          · exact this
          · intro e1; rw [e1, hfree] at this; cases this
    · intro m1 m2 h1 h2
      simp only [St.done] at h1 h2
      by_cases e1 : m1 = m <;> by_cases e2 : m2 = m
      · rw [e1, e2]
      · subst e1
        rw [setAt_same, setAt_ne _ _ _ _ e2] at h2
        exfalso
        have := (h.fresh _ _ (h.live m2 (by have := h.pos; omega)).1).2
        omega
      · subst e2
        rw [setAt_same, setAt_ne _ _ _ _ e1] at h2
        exfalso
        have := (h.fresh _ _ (h.live m1 (by have := h.pos; omega)).1).2
        omega
      · rw [setAt_ne _ _ _ _ e1] at h1 h2
        rw [setAt_ne _ _ _ _ e2] at h2
        exact h.hinj m1 m2 h1 h2
    · simp only [St.done]; omega
  | unlock t m hp =>
    refine ⟨?_, by simp⟩
    simp only [afterStep, Spec.after]
    constructor
    · intro m' hm'
      simp only [St.done] at hm' ⊢
      by_cases e : m' = m
      · subst e; rw [setAt_same] at hm'; exact absurd rfl hm'
      · rw [setAt_ne _ _ _ _ e] at hm' ⊢
        have := h.live m' hm'
        refine ⟨?_, this.2⟩
        rw [closeHandle, if_neg]
        · exact this.1
        · rw [this.1]; intro e2; exact e (h.hinj m' m hm' (by injection e2))
    · intro p n hn
      simp only [St.done, closeHandle] at hn ⊢
      split_ifs at hn
      exact h.fresh p n hn
    · intro p q n h1 h2
      simp only [St.done, closeHandle] at h1 h2
      split_ifs at h1 h2
      exact h.inj p q n h1 h2
    · intro q m'
      simp only [St.done]
      by_cases e : m' = m
      · subst e
        rw [setAt_same]
        constructor
        · intro hq; split_ifs at hq with e1; exact absurd hq e1
        · rintro ⟨a, -⟩; exact absurd rfl a
      · rw [setAt_ne _ _ _ _ e]
        constructor
        · intro hq; split_ifs at hq with e1; exact (h.held _ _).1 hq
        · intro hq
          have := (h.held q m').2 hq
          rw [if_neg]
          · exact this
          · rw [this]; intro e2; exact e (by injection e2)
    · intro m1 m2 h1 h2
      simp only [St.done] at h1 h2
      by_cases e1 : m1 = m
      · subst e1; rw [setAt_same] at h1; exact absurd rfl h1
      · rw [setAt_ne _ _ _ _ e1] at h1 h2
        by_cases e2 : m2 = m
        · subst e2; rw [setAt_same] at h2; exact absurd h2 h1
        · rw [setAt_ne _ _ _ _ e2] at h2; exact h.hinj m1 m2 h1 h2
    · exact h.pos
  | envOpen p ho =>
    refine ⟨?_, by simp⟩
    constructor
    · intro m' hm'
      have := h.live m' hm'
      refine ⟨?_, this.2⟩
      simp only [setKey]
      rw [if_neg]
      · exact this.1
      · intro e2; rw [e2, ho] at this; cases this.1
    · intro q n hn
      simp only [setKey] at hn ⊢
      split_ifs at hn with e
      · cases hn; exact ⟨h.pos, by omega⟩
      · have := h.fresh q n hn; omega
    · intro q q' n h1 h2
      simp only [setKey] at h1 h2
      split_ifs at h1 h2 with e1 e2 e2
      · rw [e1, e2]
      · cases h1; have := (h.fresh q' _ h2).2; omega
      · cases h2; have := (h.fresh q _ h1).2; omega
      · exact h.inj q q' n h1 h2
    · exact h.held
    · exact h.hinj
    · simp only; omega
  | envClose p n ho hm =>
    refine ⟨?_, by simp⟩
    constructor
    · intro m' hm'
      have := h.live m' hm'
      refine ⟨?_, this.2⟩
      simp only [setKey]
      rw [if_neg]
      · exact this.1
      · intro e2
        rw [e2, ho] at this
        exact hm m' (by injection this.1 with e; exact e.symm)
    · intro q k hk
      simp only [setKey] at hk ⊢
      split_ifs at hk
      exact h.fresh q k hk
    · intro q q' k h1 h2
      simp only [setKey] at h1 h2
      split_ifs at h1 h2
      exact h.inj q q' k h1 h2
    · exact h.held
    · exact h.hinj
    · exact h.pos

theorem holder_snoc (τ : List Event) (e : Event) : Spec.holder (τ ++ [e]) = Spec.after (Spec.holder τ) e := by
  simp [Spec.holder]

theorem inv_exec {τ : List Event} {s : St} (h : Exec (Step eacces exist) St.start τ s) : Inv s (Spec.holder τ) := by
  refine Exec.invariant (fun τ s => Inv s (Spec.holder τ)) inv_start ?_ ?_ h
  · intro τ s' s'' hi hs
    exact (inv_step hi hs).1
  · intro τ s' e s'' hi hs
    rw [holder_snoc]
    exact (inv_step hi hs).1

/-- **C94** (mutual exclusion).  Whatever the goroutines, processes and other programs do, in whatever order: whenever a
`Lock` returns without error, no mutex holds the lock on that file. -/
theorem C94_exclusion {τ : List Event} {s : St} (h : Exec (Step eacces exist) St.start τ s)
    (τ₁ τ₂ : List Event) (t m : Nat) (p : String) (e : τ = τ₁ ++ .acquired t m p :: τ₂) : Spec.holder τ₁ p = none := by
  have key : Inv s (Spec.holder τ) ∧ ∀ τ₁ τ₂ t m p, τ = τ₁ ++ .acquired t m p :: τ₂ → Spec.holder τ₁ p = none := by
    refine Exec.invariant (fun τ s => Inv s (Spec.holder τ) ∧
      ∀ τ₁ τ₂ t m p, τ = τ₁ ++ .acquired t m p :: τ₂ → Spec.holder τ₁ p = none) ⟨inv_start, by simp⟩ ?_ ?_ h
    · rintro τ s' s'' ⟨hi, hx⟩ hs
      exact ⟨(inv_step hi hs).1, hx⟩
    · rintro τ s' e s'' ⟨hi, hx⟩ hs
      have := inv_step hi hs
      refine ⟨by rw [holder_snoc]; exact this.1, ?_⟩
      intro τ₁ τ₂ t m p he
      rcases List.eq_nil_or_concat τ₂ with rfl | ⟨τ₃, x, rfl⟩
      · obtain ⟨rfl, e2⟩ := List.append_inj' he rfl
        exact this.2 t m p (by simpa using e2)
      · rw [List.concat_eq_append, ← List.cons_append, ← List.append_assoc] at he
        exact hx τ₁ τ₃ t m p (List.append_inj' he rfl).1
  exact key.2 τ₁ τ₂ t m p e

/-- **C94** (progress), as far as it holds: a `Lock` whose turn it is gets a file that exists and is not open; and if
its error is the one expected, it fails only for a missing file.  Missing: it waits while the lock is held, see
`C94_no_wait_false`, and it is given the lock later, see `C94_deadlock_false`. -/
theorem C94_progress_partial (s : St) (t m : Nat) (hp : s.pc t = .inside m .lock) :
    (exist (s.path m) → s.path m ≠ "" → s.opened (s.path m) = none →
      ∃ s', Step eacces exist s (some (.acquired t m (s.path m))) s') ∧
    (∀ s', Step true exist s (some (.failed t m)) s' → ¬ (exist (s.path m) ∧ s.path m ≠ "")) := by
  constructor
  · intro h1 h2 h3; exact ⟨_, .acquire s t m hp h1 h2 h3⟩
  · intro s' hs
    cases hs with
    | missing hm _ => assumption
    | busy h => contradiction

/-- **C94** (waiting) is false on Windows: while the file is open, a `Lock` whose turn it is can do nothing but return an
error. -/
theorem C94_no_wait_false (s : St) (t m : Nat) (hp : s.pc t = .inside m .lock) (h1 : exist (s.path m))
    (h2 : s.path m ≠ "") (h3 : s.opened (s.path m) ≠ none) :
    (∃ s', Step false exist s (some (.failed t m)) s') ∧
    ∀ e s', Step false exist s e s' → s'.pc t ≠ s.pc t → e = some (.failed t m) := by
  refine ⟨⟨_, .busy s t m hp h1 h2 h3 rfl⟩, ?_⟩
  have move : ∀ (t' : Nat) (p : PC), setAt s.pc t' p t ≠ s.pc t → t' = t := by
    intro t' p h
    by_contra hc
    exact h (setAt_ne _ _ _ _ (Ne.symm hc))
  intro e s' hs hpc
  cases hs with
  | call t' m' op h => obtain rfl := move t' _ hpc; rw [hp] at h; cases h
  | enter t' m' op h _ => obtain rfl := move t' _ hpc; rw [hp] at h; cases h
  | init t' m' p h => obtain rfl := move t' _ hpc; rw [hp] at h; cases h
  | acquire t' m' h _ _ ho =>
    obtain rfl := move t' _ hpc
    rw [hp] at h; cases h
    exact absurd ho h3
  | missing t' m' h hm =>
    obtain rfl := move t' _ hpc
    rw [hp] at h; cases h
    exact absurd ⟨h1, h2⟩ hm
  | busy t' m' h _ _ _ _ =>
    obtain rfl := move t' _ hpc
    rw [hp] at h; cases h
    rfl
  | sleep t' m' h _ _ _ hf => cases hf
  | wake t' m' h => obtain rfl := move t' _ hpc; rw [hp] at h; cases h
  | unlock t' m' h => obtain rfl := move t' _ hpc; rw [hp] at h; cases h
  | envOpen p _ => exact absurd rfl hpc
  | envClose p n _ _ => exact absurd rfl hpc

/-- Whoever is inside a call has the inner mutex. -/
def WInv (s : St) : Prop := ∀ t m, (∃ op, s.pc t = .inside m op) ∨ s.pc t = .sleep m → s.w m = some t

/-- Goroutine `t'` is in a call on mutex `m`, inside the inner mutex. -/
def In (p : PC) (m : Nat) : Prop := (∃ op, p = .inside m op) ∨ p = .sleep m

theorem winv_done {s : St} (h : WInv s) (s₁ : St) (hw : s₁.w = s.w) (hp : s₁.pc = s.pc) (t m : Nat) (ht : In (s.pc t) m) :
    WInv (s₁.done t m) := by
  intro t' m' h'
  simp only [St.done, hw, hp] at h' ⊢
  by_cases e : t' = t
  · subst e; rw [setAt_same] at h'; rcases h' with ⟨_, h'⟩ | h' <;> cases h'
  · rw [setAt_ne _ _ _ _ e] at h'
    have h1 := h t' m' h'
    have h2 := h t m ht
    rw [setAt_ne]
    · exact h1
    · rintro rfl; rw [h1] at h2; exact e (by injection h2)

theorem winv_step {s s' : St} {e : Option Event} (h : WInv s) (hs : Step eacces exist s e s') : WInv s' := by
  cases hs with
  | call t m op hp =>
    intro t' m' h'
    simp only at h' ⊢
    by_cases e : t' = t
    · subst e; rw [setAt_same] at h'; rcases h' with ⟨_, h'⟩ | h' <;> cases h'
    · rw [setAt_ne _ _ _ _ e] at h'; exact h t' m' h'
  | enter t m op hp hw =>
    intro t' m' h'
    simp only at h' ⊢
    by_cases e : t' = t
    · subst e
      rw [setAt_same] at h'
      rcases h' with ⟨_, h'⟩ | h' <;> cases h'
      rw [setAt_same]
    · rw [setAt_ne _ _ _ _ e] at h'
      have h1 := h t' m' h'
      rw [setAt_ne]
      · exact h1
      · rintro rfl; rw [hw] at h1; cases h1
  | sleep t m hp _ _ _ _ =>
    intro t' m' h'
    simp only at h' ⊢
    by_cases e : t' = t
    · subst e
      rw [setAt_same] at h'
      rcases h' with ⟨_, h'⟩ | h' <;> cases h'
      exact h t' m (.inl ⟨_, hp⟩)
    · rw [setAt_ne _ _ _ _ e] at h'; exact h t' m' h'
  | wake t m hp =>
    intro t' m' h'
    simp only at h' ⊢
    by_cases e : t' = t
    · subst e
      rw [setAt_same] at h'
      rcases h' with ⟨_, h'⟩ | h' <;> cases h'
      exact h t' m (.inr hp)
    · rw [setAt_ne _ _ _ _ e] at h'; exact h t' m' h'
  | init t m p hp => exact winv_done h _ rfl rfl t m (.inl ⟨_, hp⟩)
  | acquire t m hp _ _ _ => exact winv_done h _ rfl rfl t m (.inl ⟨_, hp⟩)
  | missing t m hp _ => exact winv_done h _ rfl rfl t m (.inl ⟨_, hp⟩)
  | busy t m hp _ _ _ _ => exact winv_done h _ rfl rfl t m (.inl ⟨_, hp⟩)
  | unlock t m hp => exact winv_done h _ rfl rfl t m (.inl ⟨_, hp⟩)
  | envOpen p _ => exact h
  | envClose p n _ _ => exact h

theorem winv_exec {τ : List Event} {s : St} (h : Exec (Step eacces exist) St.start τ s) : WInv s :=
  Exec.invariant (fun _ s => WInv s) (by intro t m h; simp [St.start] at h) (fun _ _ _ h hs => winv_step h hs)
    (fun _ _ _ _ h hs => winv_step h hs) h

/-- The mutex an event is about. -/
def Event.mutex : Event → Nat
  | .acquired _ m _ => m
  | .failed _ m => m
  | .released _ m => m
  | .inited _ m _ => m

/-- **C94** (deadlock): if the error were the one expected, a `Lock` that waits for a lock held through the same mutex would
never return, and neither would the `Unlock` it waits for: whatever happens later, no call on that mutex returns. -/
theorem C94_deadlock_false {τ τ' : List Event} {s s' : St} {t m : Nat} {p : String}
    (h0 : Exec (Step true exist) St.start τ s) (hh : Spec.holder τ p = some m) (hx : exist p)
    (ht : s.pc t = .inside m .lock ∨ s.pc t = .sleep m) (h : Exec (Step true exist) s τ' s') :
    (∀ e ∈ τ', e.mutex ≠ m) ∧ (s'.pc t = .inside m .lock ∨ s'.pc t = .sleep m) ∧ Spec.holder (τ ++ τ') p = some m := by
  have key : ∀ (H : String → Option Nat) (s s' : St) (e : Option Event), Inv s H → WInv s → H p = some m →
      (s.pc t = .inside m .lock ∨ s.pc t = .sleep m) → Step true exist s e s' →
      (∀ e' ∈ e, e'.mutex ≠ m) ∧ (s'.pc t = .inside m .lock ∨ s'.pc t = .sleep m) ∧ afterStep H e p = some m := by
    intro H s s' e hi hw hH ht hs
    obtain ⟨a1, a2⟩ := (hi.held p m).1 hH
    obtain ⟨a3, a4⟩ := hi.live m a1
    have hwm : s.w m = some t := hw t m (by rcases ht with h | h; exacts [.inl ⟨_, h⟩, .inr h])
    have only : ∀ t' op, s.pc t' = .inside m op → t' = t ∧ op = .lock := by
      intro t' op h'
      have h1 := hw t' m (.inl ⟨_, h'⟩)
      rw [hwm] at h1
      injection h1 with h1
      subst h1
      rcases ht with h | h <;> rw [h] at h' <;> cases h'
      exact ⟨rfl, rfl⟩
    have stay : ∀ (t' : Nat) (q : PC), t' ≠ t → setAt s.pc t' q t = s.pc t := fun t' q hne => setAt_ne _ _ _ _ (Ne.symm hne)
    cases hs with
    | call t' m' op hp =>
      have : t' ≠ t := by rintro rfl; rcases ht with h | h <;> rw [hp] at h <;> cases h
      exact ⟨by simp, by simp only; rw [stay _ _ this]; exact ht, hH⟩
    | enter t' m' op hp _ =>
      have : t' ≠ t := by rintro rfl; rcases ht with h | h <;> rw [hp] at h <;> cases h
      exact ⟨by simp, by simp only; rw [stay _ _ this]; exact ht, hH⟩
    | sleep t' m' hp _ _ _ _ =>
      refine ⟨by simp, ?_, hH⟩
      simp only
      by_cases e : t' = t
      · subst e
        rcases ht with h | h <;> rw [hp] at h <;> cases h
        rw [setAt_same]; exact .inr rfl
      · rw [stay _ _ e]; exact ht
    | wake t' m' hp =>
      refine ⟨by simp, ?_, hH⟩
      simp only
      by_cases e : t' = t
      · subst e
        rcases ht with h | h <;> rw [hp] at h <;> cases h
        rw [setAt_same]; exact .inl rfl
      · rw [stay _ _ e]; exact ht
    | init t' m' q hp =>
      have hm : m' ≠ m := by rintro rfl; cases (only _ _ hp).2
      have : t' ≠ t := by rintro rfl; rcases ht with h | h <;> rw [hp] at h <;> cases h
      refine ⟨by simpa [Event.mutex] using hm, by simp only [St.done]; rw [stay _ _ this]; exact ht, hH⟩
    | acquire t' m' hp _ _ ho =>
      have hm : m' ≠ m := by rintro rfl; rw [a3] at ho; cases ho
      have : t' ≠ t := by
        rintro rfl
        rcases ht with h | h <;> rw [hp] at h <;> cases h
        exact hm rfl
      refine ⟨by simpa [Event.mutex] using hm, by simp only [St.done]; rw [stay _ _ this]; exact ht, ?_⟩
      simp only [afterStep, Spec.after]
      rw [if_neg]
      · exact hH
      · rintro rfl; rw [← a2, a3] at ho; cases ho
    | missing t' m' hp hm' =>
      have hm : m' ≠ m := by rintro rfl; exact hm' ⟨by rw [a2]; exact hx, a4⟩
      have : t' ≠ t := by
        rintro rfl
        rcases ht with h | h <;> rw [hp] at h <;> cases h
        exact hm rfl
      exact ⟨by simpa [Event.mutex] using hm, by simp only [St.done]; rw [stay _ _ this]; exact ht, hH⟩
    | busy t' m' hp _ _ _ hf => cases hf
    | unlock t' m' hp =>
      have hm : m' ≠ m := by rintro rfl; cases (only _ _ hp).2
      have : t' ≠ t := by rintro rfl; rcases ht with h | h <;> rw [hp] at h <;> cases h
      refine ⟨by simpa [Event.mutex] using hm, by simp only [St.done]; rw [stay _ _ this]; exact ht, ?_⟩
      simp only [afterStep, Spec.after]
      rw [if_neg]
      · exact hH
      · rw [hH]; intro e; exact hm (by injection e with e; exact e.symm)
    | envOpen q _ => exact ⟨by simp, ht, hH⟩
    | envClose q n _ _ => exact ⟨by simp, ht, hH⟩
  have main := Exec.invariant (fun τ' s' => Exec (Step true exist) St.start (τ ++ τ') s' ∧ (∀ e ∈ τ', e.mutex ≠ m) ∧
    (s'.pc t = .inside m .lock ∨ s'.pc t = .sleep m) ∧ Spec.holder (τ ++ τ') p = some m)
    (s := s) ⟨by simpa using h0, by simp, ht, by simpa using hh⟩ ?_ ?_ h
  · exact main.2
  · rintro τ' s' s'' ⟨b1, b2, b3, b4⟩ hs
    obtain ⟨-, c2, c3⟩ := key _ _ _ _ (inv_exec b1) (winv_exec b1) b4 b3 hs
    exact ⟨.silent b1 hs, b2, c2, b4⟩
  · rintro τ' s' e s'' ⟨b1, b2, b3, b4⟩ hs
    obtain ⟨c1, c2, c3⟩ := key _ _ _ _ (inv_exec b1) (winv_exec b1) b4 b3 hs
    refine ⟨by rw [← List.append_assoc]; exact .visible b1 hs, ?_, c2, by rw [← List.append_assoc, holder_snoc]; exact c3⟩
    intro e' he'
    rcases List.mem_append.1 he' with he' | he'
    · exact b2 e' he'
    · rw [List.mem_singleton] at he'
      subst he'
      exact c1 e' rfl

/-! ## Executions meeting the hypotheses -/

/-- One goroutine initialises mutex 0 with the path "f" and locks it. -/
theorem one_lock (eacces : Bool) : ∃ s, Exec (Step eacces (fun p => p = "f")) St.start
    [.inited 0 0 true, .acquired 0 0 "f"] s ∧ s.pc 1 = .idle ∧ s.w 0 = none ∧ s.path 0 = "f" ∧ s.opened "f" = some 1 := by
  have e1 := Exec.silent (Exec.refl St.start) (Step.call (eacces := eacces) (exist := fun p => p = "f") St.start 0 0 (.init "f") rfl)
  have e2 := Exec.silent e1 (.enter _ 0 0 (.init "f") rfl rfl)
  have e3 := Exec.visible e2 (.init _ 0 0 "f" rfl)
  have e4 := Exec.silent e3 (.call _ 0 0 .lock rfl)
  have e5 := Exec.silent e4 (.enter _ 0 0 .lock rfl rfl)
  have e6 := Exec.visible e5 (.acquire _ 0 0 rfl rfl (by decide) rfl)
  exact ⟨_, e6, rfl, rfl, rfl, rfl⟩

example : Spec.holder [.inited 0 0 true, .acquired 0 0 "f"] "f" = some 0 := by decide
example : Spec.holder [.inited 0 0 true, .acquired 0 0 "f", .released 0 0] "f" = none := by decide

/-- A second goroutine waits for it through the same mutex: the hypotheses of `C94_deadlock_false`. -/
example : ∃ τ s, Exec (Step true (fun p => p = "f")) St.start τ s ∧ Spec.holder τ "f" = some 0 ∧
    s.pc 1 = .inside 0 .lock := by
  obtain ⟨s, h, h1, h2, h3, h4⟩ := one_lock true
  have e1 := Exec.silent h (.call _ 1 0 .lock h1)
  have e2 := Exec.silent e1 (.enter _ 1 0 .lock (by simp [setAt]) h2)
  exact ⟨_, _, e2, by decide, by simp [setAt]⟩

/-- A second goroutine gets an error: the hypotheses of `C94_no_wait_false`. -/
example : ∃ τ s, Exec (Step false (fun p => p = "f")) St.start τ s ∧ s.pc 1 = .inside 0 .lock ∧
    s.opened (s.path 0) ≠ none := by
  obtain ⟨s, h, h1, h2, h3, h4⟩ := one_lock false
  have e1 := Exec.silent h (.call _ 1 0 .lock h1)
  have e2 := Exec.silent e1 (.enter _ 1 0 .lock (by simp [setAt]) h2)
  exact ⟨_, _, e2, by simp [setAt], by simp [h3, h4]⟩

example : Spec.holder [.inited 0 0 true] "f" = none := by
  obtain ⟨s, h, -⟩ := one_lock true
  exact C94_exclusion h [.inited 0 0 true] [] 0 0 "f" rfl
example : ∃ s : St, s.pc 1 = .inside 0 .lock ∧ ∀ s', Step true (fun p => p = "f") s (some (.failed 1 0)) s' →
    ¬ (s.path 0 = "f" ∧ s.path 0 ≠ "") := by
  obtain ⟨s, h, h1, h2, h3, h4⟩ := one_lock true
  have e : ({ s with pc := setAt s.pc 1 (.inside 0 .lock) } : St).pc 1 = .inside 0 .lock := by simp [setAt]
  exact ⟨_, e, (C94_progress_partial (eacces := true) (exist := fun p => p = "f") _ 1 0 e).2⟩

end Verif.FileLock
