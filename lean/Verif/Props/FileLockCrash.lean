import Verif.Model.FileLockCrash
import Verif.Props.FileLock
/-!
# File locks and crashes (C140)
-/

set_option linter.unusedSectionVars false

namespace Verif.FileLock
open Verif.Spec

/-- Which mutex holds the lock on which file, after one more event: a crash releases what the process holds. -/
def Spec.afterC (mp : Nat → Nat) (H : String → Option Nat) : CEvent → String → Option Nat
  | .ev e => Spec.after H e
  | .crash P => fun q => (H q).filter fun m => mp m ≠ P

/-- Which mutex holds the lock on which file, after a history with crashes. -/
def Spec.holderC (mp : Nat → Nat) (τ : List CEvent) : String → Option Nat := τ.foldl (Spec.afterC mp) (fun _ => none)

/-- The goroutine that returns. -/
def Event.goroutine : Event → Nat
  | .acquired t _ _ => t
  | .failed t _ => t
  | .released t _ => t
  | .inited t _ _ => t

/-- The mutex a goroutine is busy with. -/
def PC.mutex? : PC → Option Nat
  | .idle => none
  | .wait m _ => some m
  | .inside m _ => some m
  | .sleep m => some m

variable {eacces : Bool} {exist : String → Prop} {mp tp : Nat → Nat}

theorem holderC_snoc (τ : List CEvent) (e : CEvent) :
    Spec.holderC mp (τ ++ [e]) = Spec.afterC mp (Spec.holderC mp τ) e := by
  simp [Spec.holderC]

structure CInv (mp tp : Nat → Nat) (s : CSt) (H : String → Option Nat) : Prop where
  base : Inv s.base H
  own : ∀ m, s.base.h m ≠ 0 → s.own (s.base.h m) = some (mp m)
  fresh : ∀ n P, s.own n = some P → n < s.base.next
  gone : ∀ t, s.dead (tp t) = true → s.base.pc t = .idle
  home : ∀ t m, (s.base.pc t).mutex? = some m → mp m = tp t
  quiet : ∀ m, s.dead (mp m) = true → s.base.h m = 0
  kept : ∀ p n P, s.base.opened p = some n → s.own n = some P → ∃ m, mp m = P ∧ s.base.h m = n

theorem cinv_start : CInv mp tp CSt.start (fun _ => none) := by
  refine ⟨inv_start, ?_, ?_, ?_, ?_, ?_, ?_⟩ <;> simp [CSt.start, St.start, PC.mutex?]

/-- What a step does to the goroutines. -/
theorem step_pc {s b : St} {e : Option Event} (h : Step eacces exist s e b) (t : Nat) :
    b.pc t = s.pc t ∨ (s.pc t = .idle ∧ ∃ m op, b.pc t = .wait m op) ∨
      (s.pc t ≠ .idle ∧ ((b.pc t).mutex? = (s.pc t).mutex? ∨ b.pc t = .idle)) := by
  have key : ∀ (u : Nat) (q : PC), (s.pc u = .idle ∧ ∃ m op, q = .wait m op) ∨
      (s.pc u ≠ .idle ∧ (q.mutex? = (s.pc u).mutex? ∨ q = .idle)) →
      setAt s.pc u q t = s.pc t ∨ (s.pc t = .idle ∧ ∃ m op, setAt s.pc u q t = .wait m op) ∨
      (s.pc t ≠ .idle ∧ ((setAt s.pc u q t).mutex? = (s.pc t).mutex? ∨ setAt s.pc u q t = .idle)) := by
    intro u q hq
    by_cases e : t = u
    · subst e; rw [setAt_same]; exact .inr hq
    · exact .inl (setAt_ne _ _ _ _ e)
  cases h with
  | call u m op hp => exact key u _ (.inl ⟨hp, m, op, rfl⟩)
  | enter u m op hp _ => exact key u _ (.inr ⟨by simp [hp], .inl (by simp [hp, PC.mutex?])⟩)
  | init u m p hp => exact key u _ (.inr ⟨by simp [hp], .inr rfl⟩)
  | acquire u m hp _ _ _ => exact key u _ (.inr ⟨by simp [hp], .inr rfl⟩)
  | missing u m hp _ => exact key u _ (.inr ⟨by simp [hp], .inr rfl⟩)
  | busy u m hp _ _ _ _ => exact key u _ (.inr ⟨by simp [hp], .inr rfl⟩)
  | sleep u m hp _ _ _ _ => exact key u _ (.inr ⟨by simp [hp], .inl (by simp [hp, PC.mutex?])⟩)
  | wake u m hp => exact key u _ (.inr ⟨by simp [hp], .inl (by simp [hp, PC.mutex?])⟩)
  | unlock u m hp => exact key u _ (.inr ⟨by simp [hp], .inr rfl⟩)
  | envOpen => exact .inl rfl
  | envClose => exact .inl rfl

/-- Who returns was inside a call. -/
theorem step_event {s b : St} {e : Event} (h : Step eacces exist s (some e) b) :
    (s.pc e.goroutine).mutex? = some e.mutex := by
  generalize he : some e = e' at h
  cases h <;> simp at he <;> subst he <;> simp [Event.goroutine, Event.mutex, PC.mutex?, *]

/-- The holders after a step. -/
def afterStepC (mp : Nat → Nat) (H : String → Option Nat) : Option CEvent → String → Option Nat
  | none => H
  | some e => Spec.afterC mp H e

theorem afterStepC_map (H : String → Option Nat) (e : Option Event) :
    afterStepC mp H (e.map .ev) = afterStep H e := by
  cases e <;> rfl

theorem cinv_run {s : CSt} {H : String → Option Nat} {e : Option Event} {b : St} (h : CInv mp tp s H)
    (hs : Step eacces exist s.base e b)
    (hc : ∀ t, s.base.pc t = .idle → b.pc t ≠ .idle →
      s.dead (tp t) = false ∧ ∀ m op, b.pc t = .wait m op → mp m = tp t) :
    CInv mp tp ⟨b, owns mp s.own s.base.next e, s.dead⟩ (afterStep H e) := by
  have hbase := (inv_step h.base hs).1
  have hgone : ∀ t, s.dead (tp t) = true → b.pc t = .idle := by
    intro t ht
    have h0 := h.gone t ht
    rcases step_pc hs t with h1 | ⟨_, m, op, h1⟩ | ⟨h1, _⟩
    · rw [h1, h0]
    · have := (hc t h0 (by simp [h1])).1
      rw [ht] at this; cases this
    · exact absurd h0 h1
  have hhome : ∀ t m, (b.pc t).mutex? = some m → mp m = tp t := by
    intro t m hm
    rcases step_pc hs t with h1 | ⟨h0, m', op, h1⟩ | ⟨_, h1 | h1⟩
    · rw [h1] at hm; exact h.home t m hm
    · have := (hc t h0 (by simp [h1])).2 m' op h1
      rw [h1] at hm
      simp only [PC.mutex?, Option.some.injEq] at hm
      rw [← hm]; exact this
    · rw [h1] at hm; exact h.home t m hm
    · rw [h1] at hm; cases hm
  have same : b.h = s.base.h → b.opened = s.base.opened → b.next = s.base.next → owns mp s.own s.base.next e = s.own →
      CInv mp tp ⟨b, owns mp s.own s.base.next e, s.dead⟩ (afterStep H e) := by
    intro h1 h2 h3 h4
    refine ⟨hbase, ?_, ?_, hgone, hhome, ?_, ?_⟩
    · simp only [h1, h4]; exact h.own
    · simp only [h3, h4]; exact h.fresh
    · simp only [h1]; exact h.quiet
    · simp only [h1, h2, h4]; exact h.kept
  cases hs with
  | call t m op _ => exact same rfl rfl rfl rfl
  | enter t m op _ _ => exact same rfl rfl rfl rfl
  | sleep t m _ _ _ _ _ => exact same rfl rfl rfl rfl
  | wake t m _ => exact same rfl rfl rfl rfl
  | missing t m _ _ => exact same rfl rfl rfl rfl
  | busy t m _ _ _ _ _ => exact same rfl rfl rfl rfl
  | init t m p _ => exact same rfl rfl rfl rfl
  | acquire t m hp hx hne ho =>
    have hm0 : s.base.h m = 0 := by
      by_contra hc
      have := (h.base.live m hc).1
      rw [ho] at this; cases this
    have hlt : ∀ m', s.base.h m' ≠ 0 → s.base.h m' < s.base.next := fun m' hm' =>
      (h.base.fresh _ _ (h.base.live m' hm').1).2
    refine ⟨hbase, ?_, ?_, hgone, hhome, ?_, ?_⟩
    · intro m' hm'
      simp only [St.done, owns] at hm' ⊢
      by_cases e : m' = m
      · subst e; rw [setAt_same, setAt_same]
      · rw [setAt_ne _ _ _ _ e] at hm' ⊢
        rw [setAt_ne]
        · exact h.own m' hm'
        · have := hlt m' hm'; omega
    · intro n P hn
      simp only [St.done, owns] at hn ⊢
      by_cases e : n = s.base.next
      · omega
      · rw [setAt_ne _ _ _ _ e] at hn
        have := h.fresh n P hn; omega
    · intro m' hd
      simp only [St.done]
      have hne' : m' ≠ m := by
        rintro rfl
        have h1 := h.home t m' (by simp [hp, PC.mutex?])
        simp only at hd
        rw [h1] at hd
        have := h.gone t hd
        rw [hp] at this; cases this
      rw [setAt_ne _ _ _ _ hne']
      exact h.quiet m' hd
    · intro p n P h1 h2
      simp only [St.done, owns, setKey] at h1 h2 ⊢
      split_ifs at h1 with e
      · injection h1 with h1
        subst h1
        rw [setAt_same] at h2
        injection h2 with h2
        exact ⟨m, h2, setAt_same ..⟩
      · have hn := (h.base.fresh p n h1).2
        rw [setAt_ne _ _ _ _ (by omega)] at h2
        obtain ⟨m', a1, a2⟩ := h.kept p n P h1 h2
        refine ⟨m', a1, ?_⟩
        rw [setAt_ne]
        · exact a2
        · rintro rfl; rw [hm0] at a2; have := (h.base.fresh p n h1).1; omega
  | unlock t m hp =>
    refine ⟨hbase, ?_, ?_, hgone, hhome, ?_, ?_⟩
    · intro m' hm'
      simp only [St.done, owns] at hm' ⊢
      by_cases e : m' = m
      · subst e; rw [setAt_same] at hm'; exact absurd rfl hm'
      · rw [setAt_ne _ _ _ _ e] at hm' ⊢
        exact h.own m' hm'
    · exact h.fresh
    · intro m' hd
      simp only [St.done]
      by_cases e : m' = m
      · subst e; rw [setAt_same]
      · rw [setAt_ne _ _ _ _ e]; exact h.quiet m' hd
    · intro p n P h1 h2
      simp only [St.done, owns, closeHandle] at h1 h2 ⊢
      split_ifs at h1 with e
      obtain ⟨m', a1, a2⟩ := h.kept p n P h1 h2
      refine ⟨m', a1, ?_⟩
      rw [setAt_ne]
      · exact a2
      · rintro rfl; rw [a2] at e; exact e h1
  | envOpen p ho =>
    refine ⟨hbase, h.own, ?_, hgone, hhome, h.quiet, ?_⟩
    · intro n P hn
      have := h.fresh n P hn
      simp only; omega
    · intro q n P h1 h2
      simp only [owns, setKey] at h1 h2 ⊢
      split_ifs at h1 with e
      · injection h1 with h1
        subst h1
        have := h.fresh _ _ h2; omega
      · exact h.kept q n P h1 h2
  | envClose p n ho hm =>
    refine ⟨hbase, h.own, h.fresh, hgone, hhome, h.quiet, ?_⟩
    intro q k P h1 h2
    simp only [owns, setKey] at h1 h2 ⊢
    split_ifs at h1 with e
    exact h.kept q k P h1 h2

theorem opened_crash {own : Nat → Option Nat} {P : Nat} {s : St} {p : String} {n : Nat} :
    (s.crash mp tp own P).opened p = some n ↔ s.opened p = some n ∧ own n ≠ some P := by
  simp only [St.crash]
  cases h : s.opened p with
  | none => simp
  | some k =>
    by_cases e : own k = some P
    · simp only [e, if_true]
      constructor
      · intro h; cases h
      · rintro ⟨h1, h2⟩; injection h1 with h1; subst h1; exact absurd e h2
    · simp only [e, if_false]
      constructor
      · intro h; injection h with h; subst h; exact ⟨rfl, e⟩
      · exact fun h => h.1

theorem cinv_crash {s : CSt} {H : String → Option Nat} (P : Nat) (h : CInv mp tp s H) :
    CInv mp tp ⟨s.base.crash mp tp s.own P, s.own, setAt s.dead P true⟩ (Spec.afterC mp H (.crash P)) := by
  have live : ∀ m, (s.base.crash mp tp s.own P).h m ≠ 0 → mp m ≠ P ∧ s.base.h m ≠ 0 := by
    intro m hm
    simp only [St.crash] at hm
    split_ifs at hm with e
    · exact absurd rfl hm
    · exact ⟨e, hm⟩
  have hh : ∀ m, mp m ≠ P → (s.base.crash mp tp s.own P).h m = s.base.h m := fun m hm => by simp [St.crash, hm]
  have hpath : ∀ m, mp m ≠ P → (s.base.crash mp tp s.own P).path m = s.base.path m := fun m hm => by simp [St.crash, hm]
  refine ⟨⟨?_, ?_, ?_, ?_, ?_, h.base.pos⟩, ?_, h.fresh, ?_, ?_, ?_, ?_⟩
  · intro m hm
    obtain ⟨a, b⟩ := live m hm
    obtain ⟨c, d⟩ := h.base.live m b
    rw [hpath m a, hh m a, opened_crash, h.own m b]
    exact ⟨⟨c, by simpa using a⟩, d⟩
  · intro p n hn
    exact h.base.fresh p n (opened_crash.1 hn).1
  · intro p q n h1 h2
    exact h.base.inj p q n (opened_crash.1 h1).1 (opened_crash.1 h2).1
  · intro p m
    simp only [Spec.afterC, Option.filter_eq_some_iff, h.base.held, decide_eq_true_eq]
    constructor
    · rintro ⟨⟨a, b⟩, c⟩
      rw [hh m c, hpath m c]; exact ⟨a, b⟩
    · rintro ⟨a, b⟩
      obtain ⟨c, d⟩ := live m a
      rw [hpath m c] at b
      exact ⟨⟨d, b⟩, c⟩
  · intro m m' h1 h2
    obtain ⟨a, b⟩ := live m h1
    have h3 := h1
    rw [h2] at h3
    obtain ⟨c, d⟩ := live m' h3
    rw [hh m a, hh m' c] at h2
    exact h.base.hinj m m' b h2
  · intro m hm
    obtain ⟨a, b⟩ := live m hm
    simp only at hm ⊢
    rw [hh m a]; exact h.own m b
  · intro t ht
    simp only [St.crash]
    split_ifs with e
    · rfl
    · simp only at ht
      rw [setAt_ne _ _ _ _ e] at ht; exact h.gone t ht
  · intro t m hm
    simp only [St.crash] at hm
    split_ifs at hm with e
    · cases hm
    · exact h.home t m hm
  · intro m hm
    by_cases e : mp m = P
    · simp [St.crash, e]
    · simp only at hm ⊢
      rw [setAt_ne _ _ _ _ e] at hm
      rw [hh m e]; exact h.quiet m hm
  · intro p n Q h1 h2
    simp only at h1 h2 ⊢
    obtain ⟨h3, h4⟩ := opened_crash.1 h1
    obtain ⟨m, a, b⟩ := h.kept p n Q h3 h2
    have : mp m ≠ P := by rw [a]; rintro rfl; exact h4 h2
    exact ⟨m, a, by rw [hh m this]; exact b⟩

theorem cinv_step {s s' : CSt} {H : String → Option Nat} {e : Option CEvent} (h : CInv mp tp s H)
    (hs : CStep eacces exist mp tp s e s') : CInv mp tp s' (afterStepC mp H e) ∧
    ∀ t m p, e = some (.ev (.acquired t m p)) → H p = none := by
  cases hs with
  | run e b hb hc =>
    rw [afterStepC_map]
    refine ⟨cinv_run h hb hc, ?_⟩
    intro t m p he
    cases e with
    | none => cases he
    | some e => injection he with he; injection he with he; subst he; exact (inv_step h.base hb).2 t m p rfl
  | crash P _ => exact ⟨cinv_crash P h, by simp⟩

theorem cinv_exec {τ : List CEvent} {s : CSt} (h : Exec (CStep eacces exist mp tp) CSt.start τ s) :
    CInv mp tp s (Spec.holderC mp τ) := by
  refine Exec.invariant (fun τ s => CInv mp tp s (Spec.holderC mp τ)) cinv_start ?_ ?_ h
  · intro τ s' s'' hi hs
    exact (cinv_step hi hs).1
  · intro τ s' e s'' hi hs
    rw [holderC_snoc]
    exact (cinv_step hi hs).1

/-- **C140** (mutual exclusion with crashes).  Whatever the goroutines of whatever processes do, and whenever processes
crash, also in the middle of a call: whenever a `Lock` returns without error, no living holder has that file. -/
theorem C140_exclusion {τ : List CEvent} {s : CSt} (h : Exec (CStep eacces exist mp tp) CSt.start τ s)
    (τ₁ τ₂ : List CEvent) (t m : Nat) (p : String) (e : τ = τ₁ ++ .ev (.acquired t m p) :: τ₂) :
    Spec.holderC mp τ₁ p = none := by
  have key : CInv mp tp s (Spec.holderC mp τ) ∧
      ∀ τ₁ τ₂ t m p, τ = τ₁ ++ .ev (.acquired t m p) :: τ₂ → Spec.holderC mp τ₁ p = none := by
    refine Exec.invariant (fun τ s => CInv mp tp s (Spec.holderC mp τ) ∧
      ∀ τ₁ τ₂ t m p, τ = τ₁ ++ .ev (.acquired t m p) :: τ₂ → Spec.holderC mp τ₁ p = none) ⟨cinv_start, by simp⟩ ?_ ?_ h
    · rintro τ s' s'' ⟨hi, hx⟩ hs
      exact ⟨(cinv_step hi hs).1, hx⟩
    · rintro τ s' e s'' ⟨hi, hx⟩ hs
      have := cinv_step hi hs
      refine ⟨by rw [holderC_snoc]; exact this.1, ?_⟩
      intro τ₁ τ₂ t m p he
      rcases List.eq_nil_or_concat τ₂ with rfl | ⟨τ₃, x, rfl⟩
      · obtain ⟨rfl, e2⟩ := List.append_inj' he rfl
        exact this.2 t m p (by simpa using e2)
      · rw [List.concat_eq_append, ← List.cons_append, ← List.append_assoc] at he
        exact hx τ₁ τ₃ t m p (List.append_inj' he rfl).1
  exact key.2 τ₁ τ₂ t m p e

/-- **C140** (a crash releases).  When the process that holds a file crashes, wherever it is, nobody has the file open any
more, and every `Lock` of another process on this file whose turn it is can succeed at once. -/
theorem C140_released {τ : List CEvent} {s s' : CSt} (h : Exec (CStep eacces exist mp tp) CSt.start τ s) (p : String)
    (m : Nat) (hh : Spec.holderC mp τ p = some m) (hs : CStep eacces exist mp tp s (some (.crash (mp m))) s') :
    s'.base.opened p = none ∧
    ∀ t m', s'.base.pc t = .inside m' .lock → s'.base.path m' = p → exist p → p ≠ "" →
      ∃ s'', CStep eacces exist mp tp s' (some (.ev (.acquired t m' p))) s'' := by
  have hi := cinv_exec h
  obtain ⟨a, b⟩ := (hi.base.held p m).1 hh
  have ho : s'.base.opened p = none := by
    generalize he : some (CEvent.crash (mp m)) = e' at hs
    cases hs with
    | run e b _ _ => cases e <;> cases he
    | crash P _ =>
      injection he with he; injection he with he; subst he
      cases hn : (s.base.crash mp tp s.own (mp m)).opened p with
      | none => rfl
      | some n =>
        obtain ⟨h1, h2⟩ := opened_crash.1 hn
        rw [← b, (hi.base.live m a).1] at h1
        injection h1 with h1
        subst h1
        exact absurd (hi.own m a) h2
  refine ⟨ho, ?_⟩
  intro t m' hp hq hx hne
  subst hq
  refine ⟨_, CStep.run s' (some (.acquired t m' (s'.base.path m'))) _ (.acquire _ t m' hp hx hne ho) ?_⟩
  intro u h1 h2
  refine absurd ?_ h2
  simp only [St.done]
  by_cases e : u = t
  · subst e; exact setAt_same ..
  · rw [setAt_ne _ _ _ _ e]; exact h1

/-- **C140** (a crash disturbs nobody else).  The locks held through mutexes of other processes stay held and their files
stay open, files that other programs have open stay open, and the goroutines and mutexes of the other processes are as
before. -/
theorem C140_others {τ : List CEvent} {s s' : CSt} (h : Exec (CStep eacces exist mp tp) CSt.start τ s) (P : Nat)
    (hs : CStep eacces exist mp tp s (some (.crash P)) s') :
    (∀ p m, mp m ≠ P → (Spec.holderC mp (τ ++ [.crash P]) p = some m ↔ Spec.holderC mp τ p = some m)) ∧
    (∀ p m, Spec.holderC mp τ p = some m → mp m ≠ P → s'.base.opened p = s.base.opened p ∧ s'.base.opened p ≠ none) ∧
    (∀ p, (∀ m, mp m = P → Spec.holderC mp τ p ≠ some m) → s'.base.opened p = s.base.opened p) ∧
    (∀ m, mp m ≠ P → s'.base.path m = s.base.path m ∧ s'.base.w m = s.base.w m ∧ s'.base.h m = s.base.h m) ∧
    (∀ t, tp t ≠ P → s'.base.pc t = s.base.pc t) ∧
    (∀ Q, Q ≠ P → s'.dead Q = s.dead Q) := by
  have hi := cinv_exec h
  generalize he : some (CEvent.crash P) = e' at hs
  cases hs with
  | run e b _ _ => cases e <;> cases he
  | crash P' _ =>
    injection he with he; injection he with he; subst he
    have hkeep : ∀ p, (∀ m, mp m = P → Spec.holderC mp τ p ≠ some m) →
        (s.base.crash mp tp s.own P).opened p = s.base.opened p := by
      intro p hp
      cases hn : s.base.opened p with
      | none => simp [St.crash, hn]
      | some n =>
        rw [opened_crash]
        refine ⟨hn, ?_⟩
        intro ho
        obtain ⟨m, a, b⟩ := hi.kept p n P hn ho
        have hm : s.base.h m ≠ 0 := by
          have := (hi.base.fresh p n hn).1; omega
        have h1 := (hi.base.live m hm).1
        rw [b] at h1
        exact hp m a ((hi.base.held p m).2 ⟨hm, hi.base.inj _ _ n h1 hn⟩)
    refine ⟨?_, ?_, hkeep, ?_, ?_, ?_⟩
    · intro p m hm
      rw [holderC_snoc]
      simp only [Spec.afterC, Option.filter_eq_some_iff, decide_eq_true_eq]
      exact ⟨fun h => h.1, fun h => ⟨h, hm⟩⟩
    · intro p m hh hm
      have h1 := hkeep p (by
        intro m' hm' h'
        rw [hh] at h'; injection h' with h'
        subst h'; exact hm hm')
      obtain ⟨a, b⟩ := (hi.base.held p m).1 hh
      refine ⟨h1, ?_⟩
      simp only at h1 ⊢
      rw [h1, ← b, (hi.base.live m a).1]
      simp
    · intro m hm; simp [St.crash, hm]
    · intro t ht; simp [St.crash, ht]
    · intro Q hQ; exact setAt_ne _ _ _ _ hQ

/-- **C140** (gone for good).  After its crash a process does nothing and holds nothing, for ever. -/
theorem C140_gone {τ : List CEvent} {s : CSt} (h : Exec (CStep eacces exist mp tp) CSt.start τ s) (P : Nat)
    (τ₁ τ₂ : List CEvent) (e : τ = τ₁ ++ .crash P :: τ₂) :
    (∀ x, CEvent.ev x ∈ τ₂ → tp x.goroutine ≠ P ∧ mp x.mutex ≠ P) ∧ CEvent.crash P ∉ τ₂ ∧
    (∀ p m, Spec.holderC mp τ p = some m → mp m ≠ P) ∧ ∀ t, tp t = P → s.base.pc t = .idle := by
  have key : Exec (CStep eacces exist mp tp) CSt.start τ s ∧
      ∀ τ₁ τ₂, τ = τ₁ ++ .crash P :: τ₂ → s.dead P = true ∧
        (∀ x, CEvent.ev x ∈ τ₂ → tp x.goroutine ≠ P ∧ mp x.mutex ≠ P) ∧ CEvent.crash P ∉ τ₂ := by
    refine Exec.invariant (fun τ s => Exec (CStep eacces exist mp tp) CSt.start τ s ∧
      ∀ τ₁ τ₂, τ = τ₁ ++ .crash P :: τ₂ → s.dead P = true ∧
        (∀ x, CEvent.ev x ∈ τ₂ → tp x.goroutine ≠ P ∧ mp x.mutex ≠ P) ∧ CEvent.crash P ∉ τ₂)
      ⟨.refl _, by simp⟩ ?_ ?_ h
    · rintro τ s' s'' ⟨hx, hi⟩ hs
      refine ⟨.silent hx hs, fun τ₁ τ₂ e => ?_⟩
      obtain ⟨a, b⟩ := hi τ₁ τ₂ e
      refine ⟨?_, b⟩
      generalize he : (none : Option CEvent) = e' at hs
      cases hs with
      | run e b _ _ => exact a
      | crash P' _ => cases he
    · rintro τ s' e s'' ⟨hx, hi⟩ hs
      refine ⟨.visible hx hs, fun τ₁ τ₂ e0 => ?_⟩
      rcases List.eq_nil_or_concat τ₂ with rfl | ⟨τ₃, x, rfl⟩
      · obtain ⟨-, e2⟩ := List.append_inj' e0 rfl
        injection e2 with e2
        subst e2
        refine ⟨?_, by simp, by simp⟩
        generalize he : some (CEvent.crash P) = e' at hs
        cases hs with
        | run e b _ _ => cases e <;> cases he
        | crash P' _ =>
          injection he with he; injection he with he; subst he
          exact setAt_same ..
      · rw [List.concat_eq_append, ← List.cons_append, ← List.append_assoc] at e0
        obtain ⟨e1, e2⟩ := List.append_inj' e0 rfl
        injection e2 with e2
        subst e2
        obtain ⟨a, b, c⟩ := hi τ₁ τ₃ e1
        have ci := cinv_exec hx
        generalize he : some e = e' at hs
        cases hs with
        | run x b' hb _ =>
          cases x with
          | none => cases he
          | some x =>
            injection he with he
            subst he
            have h1 := step_event hb
            have h2 := ci.home _ _ h1
            have h3 : tp x.goroutine ≠ P := by
              intro h3
              have := ci.gone x.goroutine (by rw [h3]; exact a)
              rw [this] at h1; cases h1
            refine ⟨a, ?_, by simpa using c⟩
            intro y hy
            rw [List.concat_eq_append, List.mem_append, List.mem_singleton] at hy
            rcases hy with hy | hy
            · exact b y hy
            · injection hy with hy
              subst hy
              exact ⟨h3, by rw [h2]; exact h3⟩
        | crash P' hd =>
          injection he with he
          subst he
          have hne : P' ≠ P := by rintro rfl; rw [a] at hd; cases hd
          refine ⟨?_, by simpa using b, ?_⟩
          · simp only; rw [setAt_ne _ _ _ _ hne.symm]; exact a
          · simp only [List.concat_eq_append, List.mem_append, List.mem_singleton, not_or]
            exact ⟨c, by rintro ⟨⟩; exact hne rfl⟩
  obtain ⟨a, b, c⟩ := key.2 τ₁ τ₂ e
  have ci := cinv_exec h
  refine ⟨b, c, ?_, ?_⟩
  · intro p m hm hP
    have := ((ci.base.held p m).1 hm).1
    exact this (ci.quiet m (by rw [hP]; exact a))
  · intro t ht
    exact ci.gone t (by rw [ht]; exact a)

/-! ## Executions meeting the hypotheses -/

/-- Goroutine and mutex `i` belong to process `i`: a program starts a call. -/
theorem cstep_call (s : CSt) (t : Nat) (op : Op) (h : s.base.pc t = .idle) (hd : s.dead t = false) :
    CStep eacces exist id id s none ⟨{ s.base with pc := setAt s.base.pc t (.wait t op) }, s.own, s.dead⟩ := by
  refine CStep.run s none _ (.call _ t t op h) ?_
  intro u h1 h2
  simp only at h2 ⊢
  by_cases e : u = t
  · subst e
    refine ⟨hd, ?_⟩
    intro m op' he
    rw [setAt_same] at he
    injection he with he
    exact he.symm
  · rw [setAt_ne _ _ _ _ e] at h2; exact absurd h1 h2

/-- A step of goroutine `t` inside a call. -/
theorem cstep_run (s : CSt) (e : Option Event) (b : St) (t : Nat) (q : PC) (hs : Step eacces exist s.base e b)
    (hp : s.base.pc t ≠ .idle) (hb : b.pc = setAt s.base.pc t q) :
    CStep eacces exist id id s (e.map .ev) ⟨b, owns id s.own s.base.next e, s.dead⟩ := by
  refine CStep.run s e b hs ?_
  intro u h1 h2
  rw [hb] at h2
  by_cases e : u = t
  · subst e; exact absurd h1 hp
  · rw [setAt_ne _ _ _ _ e] at h2; exact absurd h1 h2

/-- Process 0 locks "f"; process 1 asks for it and is inside `Lock`. -/
theorem two_processes : ∃ s, Exec (CStep true (fun p => p = "f") id id) CSt.start
    [.ev (.inited 0 0 true), .ev (.acquired 0 0 "f"), .ev (.inited 1 1 true)] s ∧ s.base.pc 1 = .inside 1 .lock ∧
    s.base.path 1 = "f" ∧ s.dead 0 = false ∧ s.dead 1 = false := by
  have e1 := Exec.silent (Exec.refl CSt.start)
    (cstep_call (eacces := true) (exist := fun p => p = "f") CSt.start 0 (.init "f") rfl rfl)
  have e2 := Exec.silent e1 (cstep_run _ none _ 0 _ (.enter _ 0 0 (.init "f") rfl rfl) (by decide) rfl)
  have e3 := Exec.visible e2 (cstep_run _ (some _) _ 0 _ (.init _ 0 0 "f" rfl) (by decide) rfl)
  have e4 := Exec.silent e3 (cstep_call _ 0 .lock rfl rfl)
  have e5 := Exec.silent e4 (cstep_run _ none _ 0 _ (.enter _ 0 0 .lock rfl rfl) (by decide) rfl)
  have e6 := Exec.visible e5 (cstep_run _ (some _) _ 0 _ (.acquire _ 0 0 rfl rfl (by decide) rfl) (by decide) rfl)
  have e7 := Exec.silent e6 (cstep_call _ 1 (.init "f") rfl rfl)
  have e8 := Exec.silent e7 (cstep_run _ none _ 1 _ (.enter _ 1 1 (.init "f") rfl rfl) (by decide) rfl)
  have e9 := Exec.visible e8 (cstep_run _ (some _) _ 1 _ (.init _ 1 1 "f" rfl) (by decide) rfl)
  have e10 := Exec.silent e9 (cstep_call _ 1 .lock rfl rfl)
  have e11 := Exec.silent e10 (cstep_run _ none _ 1 _ (.enter _ 1 1 .lock rfl rfl) (by decide) rfl)
  exact ⟨_, e11, rfl, rfl, rfl, rfl⟩

example : Spec.holderC id [.ev (.inited 0 0 true), .ev (.acquired 0 0 "f"), .ev (.inited 1 1 true)] "f" = some 0 := by decide

/-- Process 0 crashes, and process 1 gets the lock. -/
theorem takeover : ∃ s, Exec (CStep true (fun p => p = "f") id id) CSt.start
    [.ev (.inited 0 0 true), .ev (.acquired 0 0 "f"), .ev (.inited 1 1 true), .crash 0, .ev (.acquired 1 1 "f")] s := by
  obtain ⟨s, h, h1, h2, h3, h4⟩ := two_processes
  have hc := CStep.crash (eacces := true) (exist := fun p => p = "f") (mp := id) (tp := id) s 0 h3
  obtain ⟨-, h6⟩ := C140_released h "f" 0 (by decide) hc
  obtain ⟨s'', h7⟩ := h6 1 1 (by simp [St.crash, h1]) (by simp [St.crash, h2]) rfl (by decide)
  exact ⟨s'', by simpa using Exec.visible (Exec.visible h hc) h7⟩

example : Spec.holderC id [.ev (.inited 0 0 true), .ev (.acquired 0 0 "f"), .ev (.inited 1 1 true), .crash 0] "f" = none := by
  obtain ⟨s, h⟩ := takeover
  exact C140_exclusion h _ [] 1 1 "f" rfl

/-- The mutex of process 0 is not the holder in the end, and goroutine 0 is gone. -/
example : ∃ s, Exec (CStep true (fun p => p = "f") id id) CSt.start
    [.ev (.inited 0 0 true), .ev (.acquired 0 0 "f"), .ev (.inited 1 1 true), .crash 0, .ev (.acquired 1 1 "f")] s ∧
    s.base.pc 0 = .idle := by
  obtain ⟨s, h⟩ := takeover
  exact ⟨s, h, (C140_gone h 0 [_, _, _] [_] rfl).2.2.2 0 rfl⟩

/-- The crash of process 1 leaves the lock of process 0 alone. -/
example : ∃ s s', Exec (CStep true (fun p => p = "f") id id) CSt.start
    [.ev (.inited 0 0 true), .ev (.acquired 0 0 "f"), .ev (.inited 1 1 true)] s ∧
    CStep true (fun p => p = "f") id id s (some (.crash 1)) s' ∧ s'.base.opened "f" ≠ none := by
  obtain ⟨s, h, h1, h2, h3, h4⟩ := two_processes
  have hc := CStep.crash (eacces := true) (exist := fun p => p = "f") (mp := id) (tp := id) s 1 h4
  exact ⟨s, _, h, hc, ((C140_others h 1 hc).2.1 "f" 0 (by decide) (by decide)).2⟩

end Verif.FileLock
