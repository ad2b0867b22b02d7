import Verif.Props.RingBuffer
import Verif.Spec.Progress
import Mathlib.Algebra.BigOperators.Group.Finset.Basic
import Mathlib.Algebra.Order.BigOperators.Group.Finset
import Mathlib.Tactic.SplitIfs
import Mathlib.Tactic.ByContra
/-!
# C107: the ring buffer does not deadlock
-/

set_option linter.unusedSectionVars false

namespace Verif.RingBuffer
open Verif.Spec
open Verif.LFDeque (setAt_same setAt_ne)
variable {V : Type} [Inhabited V]

/-! ## Specification: counting calls -/

/-- The number of calls of `MustPush`. -/
def pushes (τ : List (Ev (Op V) (Ret V))) : Nat :=
  τ.countP fun e => match e with
    | .call _ (.mustPush _) => true
    | _ => false

/-- The number of calls of `MustPop`. -/
def pops (τ : List (Ev (Op V) (Ret V))) : Nat :=
  τ.countP fun e => match e with
    | .call _ .mustPop => true
    | _ => false

/-! ## Counting goroutines -/

/-- Steps left if the goroutine never has to wait. -/
def rank : PC V → Nat
  | .idle | .crashed => 0
  | .puAdd _ | .poAdd => 5
  | .puWait _ _ | .poWait _ => 4
  | .puWrite _ _ | .poRead _ => 3
  | .puCas _ _ | .poCas _ _ => 2
  | .ret _ => 1

/-- Has no push ticket yet. -/
def wPuAdd : PC V → Nat
  | .puAdd _ => 1
  | _ => 0

/-- Is pushing and has not finished it. -/
def wPush : PC V → Nat
  | .puAdd _ | .puWait _ _ | .puWrite _ _ | .puCas _ _ => 1
  | _ => 0

/-- Has no pop ticket yet. -/
def wPoAdd : PC V → Nat
  | .poAdd => 1
  | _ => 0

/-- Is popping and has not finished it. -/
def wPop : PC V → Nat
  | .poAdd | .poWait _ | .poRead _ | .poCas _ _ => 1
  | _ => 0

/-- Sum of a weight over a set of goroutines. -/
def sumW (T : Finset Nat) (w : PC V → Nat) (pc : Nat → PC V) : Nat := ∑ t ∈ T, w (pc t)

theorem sumW_set (T : Finset Nat) (w : PC V → Nat) (pc : Nat → PC V) (t : Nat) (c : PC V) (ht : t ∈ T) :
    sumW T w (setAt pc t c) + w (pc t) = sumW T w pc + w c := by
  unfold sumW
  have h1 := Finset.sum_erase_add T (fun x => w (pc x)) ht
  have h2 := Finset.sum_erase_add T (fun x => w (setAt pc t c x)) ht
  have h3 : ∑ x ∈ T.erase t, w (setAt pc t c x) = ∑ x ∈ T.erase t, w (pc x) :=
    Finset.sum_congr rfl fun x hx => by rw [setAt_ne _ _ _ _ (Finset.ne_of_mem_erase hx)]
  simp only [setAt_same] at h2
  omega

theorem sumW_pos {T : Finset Nat} {w : PC V → Nat} {pc : Nat → PC V} {t : Nat} (ht : t ∈ T) (h : 1 ≤ w (pc t)) :
    1 ≤ sumW T w pc :=
  Nat.le_trans h (Finset.single_le_sum (f := fun x => w (pc x)) (fun _ _ => Nat.zero_le _) ht)

theorem sumW_zero {T : Finset Nat} {w : PC V → Nat} {pc : Nat → PC V} (h : ∀ t, w (pc t) = 0) : sumW T w pc = 0 :=
  Finset.sum_eq_zero fun x _ => h x

/-- The goroutines that are not idle belong to the set. -/
def Within (T : Finset Nat) (pc : Nat → PC V) : Prop := ∀ t, pc t ≠ .idle → t ∈ T

theorem Within.set {T : Finset Nat} {pc : Nat → PC V} {t : Nat} {c : PC V} (hw : Within T pc) (ht : t ∈ T) :
    Within T (setAt pc t c) := by
  intro t' h'
  by_cases e : t' = t
  · rw [e]; exact ht
  · rw [setAt_ne _ _ _ _ e] at h'; exact hw t' h'

/-- What a step adds to a count of calls. -/
def dPush : Option (Ev (Op V) (Ret V)) → Nat
  | some (.call _ (.mustPush _)) => 1
  | _ => 0

/-- What a step adds to a count of calls. -/
def dPop : Option (Ev (Op V) (Ret V)) → Nat
  | some (.call _ .mustPop) => 1
  | _ => 0

/-- Counters, goroutines and calls, for `p` calls of `MustPush` and `q` of `MustPop`. -/
structure Count (T : Finset Nat) (p q : Nat) (s : St V) : Prop where
  within : Within T s.pc
  tailR : s.b.tailR + sumW T wPuAdd s.pc = p
  tail : s.b.tail + sumW T wPush s.pc = p
  headR : s.b.headR + sumW T wPoAdd s.pc = q
  head : s.b.head + sumW T wPop s.pc = q
  covPush : ∀ o, s.b.tail ≤ o → o < s.b.tailR → ∃ t, pushTicket (s.pc t) = some o
  covPop : ∀ o, s.b.head ≤ o → o < s.b.headR → ∃ t, popTicket (s.pc t) = some o

theorem cov_set {g : PC V → Option Nat} {pc : Nat → PC V} {t : Nat} {c : PC V} {o : Nat}
    (h : ∃ t, g (pc t) = some o) (hc : g (pc t) = some o → g c = some o) : ∃ t', g (setAt pc t c t') = some o := by
  obtain ⟨x, hx⟩ := h
  by_cases e : x = t
  · subst e; exact ⟨x, by rw [setAt_same]; exact hc hx⟩
  · exact ⟨x, by rw [setAt_ne _ _ _ _ e]; exact hx⟩

/-- A step that does not touch the counters. -/
theorem Count.move {T : Finset Nat} {p q : Nat} {s : St V} (h : Count T p q s) (t : Nat) (c : PC V) (d : List V)
    (ht : t ∈ T) {p' q' : Nat} (h1 : p + wPuAdd c = p' + wPuAdd (s.pc t)) (h2 : p + wPush c = p' + wPush (s.pc t))
    (h3 : q + wPoAdd c = q' + wPoAdd (s.pc t)) (h4 : q + wPop c = q' + wPop (s.pc t))
    (h5 : ∀ o, pushTicket (s.pc t) = some o → pushTicket c = some o)
    (h6 : ∀ o, popTicket (s.pc t) = some o → popTicket c = some o) :
    Count T p' q' ⟨{ s.b with d := d }, setAt s.pc t c⟩ := by
  have e1 := sumW_set T wPuAdd s.pc t c ht
  have e2 := sumW_set T wPush s.pc t c ht
  have e3 := sumW_set T wPoAdd s.pc t c ht
  have e4 := sumW_set T wPop s.pc t c ht
  have := h.tailR; have := h.tail; have := h.headR; have := h.head
  exact ⟨h.within.set ht, by simp only; omega, by simp only; omega, by simp only; omega, by simp only; omega,
    fun o a b => cov_set (h.covPush o a b) (h5 o), fun o a b => cov_set (h.covPop o a b) (h6 o)⟩

theorem count_step {k : Nat} (T : Finset Nat) {p q : Nat} {s s' : St V} {a : AState (List V) (Op V) (Ret V)}
    {e : Option (Ev (Op V) (Ret V))} (hS : Sim k s a) (h : Count T p q s) (hp : p + 2 ^ k < W) (hq : q + 1 < W)
    (hc : ∀ t op, e = some (.call t op) → t ∈ T) (hs : Step s e s') : Count T (p + dPush e) (q + dPop e) s' := by
  have hpos : 0 < 2 ^ k := Nat.two_pow_pos k
  have c1 := h.tailR
  have c2 := h.tail
  have c3 := h.headR
  have c4 := h.head
  cases hs with
  | callPush t v hp =>
    exact h.move t (.puAdd v) s.b.d (hc _ _ rfl) (by simp [hp, wPuAdd, dPush]) (by simp [hp, wPush, dPush])
      (by simp [hp, wPoAdd, dPop]) (by simp [hp, wPop, dPop]) (by simp [hp, pushTicket]) (by simp [hp, popTicket])
  | callPop t hp =>
    exact h.move t .poAdd s.b.d (hc _ _ rfl) (by simp [hp, wPuAdd, dPush]) (by simp [hp, wPush, dPush])
      (by simp [hp, wPoAdd, dPop]) (by simp [hp, wPop, dPop]) (by simp [hp, pushTicket]) (by simp [hp, popTicket])
  | ret t r hp =>
    exact h.move t .idle s.b.d (h.within t (by simp [hp])) (by simp [hp, wPuAdd, dPush]) (by simp [hp, wPush, dPush])
      (by simp [hp, wPoAdd, dPop]) (by simp [hp, wPop, dPop]) (by simp [hp, pushTicket]) (by simp [hp, popTicket])
  | puWait t v old hp =>
    have ht := h.within t (by simp [hp])
    split
    all_goals
      exact h.move t _ s.b.d ht (by simp [hp, wPuAdd, dPush]) (by simp [hp, wPush, dPush])
        (by simp [hp, wPoAdd, dPop]) (by simp [hp, wPop, dPop]) (by simp [hp, pushTicket]) (by simp [hp, popTicket])
  | poWait t old hp =>
    have ht := h.within t (by simp [hp])
    split
    all_goals
      exact h.move t _ s.b.d ht (by simp [hp, wPuAdd, dPush]) (by simp [hp, wPush, dPush])
        (by simp [hp, wPoAdd, dPop]) (by simp [hp, wPop, dPop]) (by simp [hp, pushTicket]) (by simp [hp, popTicket])
  | puWrite t v old hp =>
    have ht := h.within t (by simp [hp])
    have hl : old &&& s.b.mask < s.b.d.length := by
      rw [hS.mask, hS.len, Nat.and_two_pow_sub_one_eq_mod]; exact Nat.mod_lt _ hpos
    unfold Go.set
    rw [if_pos hl]
    exact h.move t (.puCas v old) _ ht (by simp [hp, wPuAdd, dPush]) (by simp [hp, wPush, dPush])
        (by simp [hp, wPoAdd, dPop]) (by simp [hp, wPop, dPop]) (by simp [hp, pushTicket]) (by simp [hp, popTicket])
  | poRead t old hp =>
    have ht := h.within t (by simp [hp])
    have hl : old &&& s.b.mask < s.b.d.length := by
      rw [hS.mask, hS.len, Nat.and_two_pow_sub_one_eq_mod]; exact Nat.mod_lt _ hpos
    unfold Go.get
    rw [List.getElem?_eq_getElem hl]
    exact h.move t (.poCas old _) s.b.d ht (by simp [hp, wPuAdd, dPush]) (by simp [hp, wPush, dPush])
        (by simp [hp, wPoAdd, dPop]) (by simp [hp, wPop, dPop]) (by simp [hp, pushTicket]) (by simp [hp, popTicket])
  | puAdd t v hpc =>
    have ht := h.within t (by simp [hpc])
    have e1 := sumW_set T wPuAdd s.pc t (.puWait v s.b.tailR) ht
    have e2 := sumW_set T wPush s.pc t (.puWait v s.b.tailR) ht
    have e3 := sumW_set T wPoAdd s.pc t (.puWait v s.b.tailR) ht
    have e4 := sumW_set T wPop s.pc t (.puWait v s.b.tailR) ht
    simp only [hpc, wPuAdd, wPush, wPoAdd, wPop] at e1 e2 e3 e4
    have hm : (s.b.tailR + 1) % W = s.b.tailR + 1 := Nat.mod_eq_of_lt (by omega)
    refine ⟨h.within.set ht, ?_, ?_, ?_, ?_, ?_, ?_⟩ <;> simp only [dPush, dPop, hm]
    · omega
    · omega
    · omega
    · omega
    · intro o a b
      by_cases ho : o = s.b.tailR
      · exact ⟨t, by rw [setAt_same, ho]; rfl⟩
      · exact cov_set (h.covPush o a (by omega)) (by simp [hpc, pushTicket])
    · exact fun o a b => cov_set (h.covPop o a b) (by simp [hpc, popTicket])
  | poAdd t hpc =>
    have ht := h.within t (by simp [hpc])
    have e1 := sumW_set T wPuAdd s.pc t (.poWait s.b.headR) ht
    have e2 := sumW_set T wPush s.pc t (.poWait s.b.headR) ht
    have e3 := sumW_set T wPoAdd s.pc t (.poWait s.b.headR) ht
    have e4 := sumW_set T wPop s.pc t (.poWait s.b.headR) ht
    simp only [hpc, wPuAdd, wPush, wPoAdd, wPop] at e1 e2 e3 e4
    have hm : (s.b.headR + 1) % W = s.b.headR + 1 := Nat.mod_eq_of_lt (by omega)
    refine ⟨h.within.set ht, ?_, ?_, ?_, ?_, ?_, ?_⟩ <;> simp only [dPush, dPop, hm]
    · omega
    · omega
    · omega
    · omega
    · exact fun o a b => cov_set (h.covPush o a b) (by simp [hpc, pushTicket])
    · intro o a b
      by_cases ho : o = s.b.headR
      · exact ⟨t, by rw [setAt_same, ho]; rfl⟩
      · exact cov_set (h.covPop o a (by omega)) (by simp [hpc, popTicket])
  | puCas t v old hpc =>
    have ht := h.within t (by simp [hpc])
    split
    · rename_i heq
      have hlt := (hS.pushLt t old (by rw [hpc]; rfl)).2
      have e1 := sumW_set T wPuAdd s.pc t (.ret (.pushed true)) ht
      have e2 := sumW_set T wPush s.pc t (.ret (.pushed true)) ht
      have e3 := sumW_set T wPoAdd s.pc t (.ret (.pushed true)) ht
      have e4 := sumW_set T wPop s.pc t (.ret (.pushed true)) ht
      simp only [hpc, wPuAdd, wPush, wPoAdd, wPop] at e1 e2 e3 e4
      have hm : (old + 1) % W = old + 1 := Nat.mod_eq_of_lt (by omega)
      refine ⟨h.within.set ht, ?_, ?_, ?_, ?_, ?_, ?_⟩ <;> simp only [dPush, dPop, hm]
      · omega
      · omega
      · omega
      · omega
      · intro o a b
        refine cov_set (h.covPush o (by omega) b) (fun e => ?_)
        rw [hpc] at e
        simp only [pushTicket, Option.some.injEq] at e
        omega
      · exact fun o a b => cov_set (h.covPop o a b) (by simp [hpc, popTicket])
    · exact h
  | poCas t old v hpc =>
    have ht := h.within t (by simp [hpc])
    split
    · rename_i heq
      have hlt := (hS.popLt t old (by rw [hpc]; rfl)).2
      have e1 := sumW_set T wPuAdd s.pc t (.ret (.popped v true)) ht
      have e2 := sumW_set T wPush s.pc t (.ret (.popped v true)) ht
      have e3 := sumW_set T wPoAdd s.pc t (.ret (.popped v true)) ht
      have e4 := sumW_set T wPop s.pc t (.ret (.popped v true)) ht
      simp only [hpc, wPuAdd, wPush, wPoAdd, wPop] at e1 e2 e3 e4
      have hm : (old + 1) % W = old + 1 := Nat.mod_eq_of_lt (by omega)
      refine ⟨h.within.set ht, ?_, ?_, ?_, ?_, ?_, ?_⟩ <;> simp only [dPush, dPop, hm]
      · omega
      · omega
      · omega
      · omega
      · exact fun o a b => cov_set (h.covPush o a b) (by simp [hpc, pushTicket])
      · intro o a b
        refine cov_set (h.covPop o (by omega) b) (fun e => ?_)
        rw [hpc] at e
        simp only [popTicket, Option.some.injEq] at e
        omega
    · exact h

/-- Few calls: the counters do not wrap. -/
theorem Count.noWrap {k : Nat} {T : Finset Nat} {p q : Nat} {s : St V} {a : AState (List V) (Op V) (Ret V)}
    (hS : Sim k s a) (h : Count T p q s) (hp : p + 2 ^ k < W) (hq : q + 1 < W) : NoWrap s := by
  have := h.tailR
  have := h.headR
  have := hS.mask
  have hpos : 0 < 2 ^ k := Nat.two_pow_pos k
  exact ⟨by omega, by omega⟩

/-- What is known in every reachable state. -/
theorem reach (k : Nat) (T : Finset Nat) {τ : List (Ev (Op V) (Ret V))} {s : St V} (h : Exec Step (start k) τ s)
    (hT : CallsBy (· ∈ T) τ) (hp : pushes τ + 2 ^ k < W) (hq : pops τ + 1 < W) :
    Exec (fun s e s' => Step s e s' ∧ NoWrap s) (start k) τ s ∧ (∃ a, Sim k s a) ∧ Count T (pushes τ) (pops τ) s := by
  induction h with
  | refl =>
    refine ⟨.refl _, ⟨_, sim_init k⟩, fun t ht => absurd rfl ht, ?_, ?_, ?_, ?_, ?_, ?_⟩
    · simp [start, pushes, sumW, wPuAdd]
    · simp [start, pushes, sumW, wPush]
    · simp [start, pops, sumW, wPoAdd]
    · simp [start, pops, sumW, wPop]
    · simp [start]
    · simp [start]
  | silent _ hs ih =>
    obtain ⟨h1, ⟨a, h2⟩, h3⟩ := ih hT hp hq
    have hn := h3.noWrap h2 hp hq
    obtain ⟨a', _, h2'⟩ := sim_step _ _ _ _ h2 ⟨hs, hn⟩
    exact ⟨.silent h1 ⟨hs, hn⟩, ⟨a', h2'⟩, count_step T h2 h3 hp hq (by simp) hs⟩
  | @visible s' s'' τ e _ hs ih =>
    have q1 : pushes (τ ++ [e]) = pushes τ + dPush (some e) := by
      unfold pushes
      rw [List.countP_append]
      cases e with
      | call t op => cases op <;> simp [dPush]
      | ret t r => simp [dPush]
    have q2 : pops (τ ++ [e]) = pops τ + dPop (some e) := by
      unfold pops
      rw [List.countP_append]
      cases e with
      | call t op => cases op <;> simp [dPop]
      | ret t r => simp [dPop]
    have hp' : pushes τ + 2 ^ k < W := by omega
    have hq' : pops τ + 1 < W := by omega
    obtain ⟨h1, ⟨a, h2⟩, h3⟩ := ih (fun t op hm => hT t op (List.mem_append_left _ hm)) hp' hq'
    have hn := h3.noWrap h2 hp' hq'
    obtain ⟨a', _, h2'⟩ := sim_step _ _ _ _ h2 ⟨hs, hn⟩
    rw [q1, q2]
    exact ⟨.visible h1 ⟨hs, hn⟩, ⟨a', h2'⟩, count_step T h2 h3 hp' hq' (fun t op e' => by cases e'; exact hT t op (by simp)) hs⟩

/-- What a step adds to the steps left. -/
def credit : Option (Ev (Op V) (Ret V)) → Nat
  | some (.call _ _) => 6
  | _ => 0

theorem goto_same {s : St V} {t : Nat} {p : PC V} (h : s.pc t = p) : s.goto t p = s := by
  cases s
  simp only [St.goto]
  congr
  funext x
  by_cases e : x = t
  · subst e; rw [setAt_same]; exact h.symm
  · rw [setAt_ne _ _ _ _ e]

/-- A step that changes the state brings its goroutine nearer to its return. -/
theorem rank_step (T : Finset Nat) {s s' : St V} {e : Option (Ev (Op V) (Ret V))} (hw : Within T s.pc)
    (hc : ∀ t op, e = some (.call t op) → t ∈ T) (hs : Step s e s') (hne : s' ≠ s) :
    Within T s'.pc ∧ sumW T rank s'.pc + 1 ≤ sumW T rank s.pc + credit e := by
  have key : ∀ t c, t ∈ T → s'.pc = setAt s.pc t c → rank c + 1 ≤ rank (s.pc t) + credit e →
      Within T s'.pc ∧ sumW T rank s'.pc + 1 ≤ sumW T rank s.pc + credit e := by
    intro t c ht h hr
    have := sumW_set T rank s.pc t c ht
    rw [h]
    exact ⟨hw.set ht, by omega⟩
  cases hs with
  | callPush t v hp => exact key t _ (hc _ _ rfl) rfl (by simp [hp, rank, credit])
  | callPop t hp => exact key t _ (hc _ _ rfl) rfl (by simp [hp, rank, credit])
  | ret t r hp => exact key t _ (hw t (by simp [hp])) rfl (by simp [hp, rank, credit])
  | puAdd t v hp => exact key t _ (hw t (by simp [hp])) rfl (by simp [hp, rank, credit])
  | poAdd t hp => exact key t _ (hw t (by simp [hp])) rfl (by simp [hp, rank, credit])
  | puWait t v old hp =>
    split at hne
    · exact absurd (goto_same hp) hne
    · rename_i hif
      exact key t (.puWrite v old) (hw t (by simp [hp])) (by rw [if_neg hif]; rfl) (by simp [hp, rank, credit])
  | poWait t old hp =>
    split at hne
    · exact absurd (goto_same hp) hne
    · rename_i hif
      exact key t (.poRead old) (hw t (by simp [hp])) (by rw [if_neg hif]; rfl) (by simp [hp, rank, credit])
  | puWrite t v old hp =>
    cases hg : Go.set s.b.d (old &&& s.b.mask) v with
    | ok d => rw [← hg]; exact key t (.puCas v old) (hw t (by simp [hp])) (by rw [hg]) (by simp [hp, rank, credit])
    | panic => rw [← hg]; exact key t .crashed (hw t (by simp [hp])) (by rw [hg]; rfl) (by simp [hp, rank, credit])
  | poRead t old hp =>
    cases hg : Go.get s.b.d (old &&& s.b.mask) with
    | ok v => rw [← hg]; exact key t (.poCas old v) (hw t (by simp [hp])) (by rw [hg]; rfl) (by simp [hp, rank, credit])
    | panic => rw [← hg]; exact key t .crashed (hw t (by simp [hp])) (by rw [hg]; rfl) (by simp [hp, rank, credit])
  | puCas t v old hp =>
    by_cases hif : s.b.tail = old
    · exact key t (.ret (.pushed true)) (hw t (by simp [hp])) (by rw [if_pos hif]) (by simp [hp, rank, credit])
    · rw [if_neg hif] at hne; exact absurd rfl hne
  | poCas t old v hp =>
    by_cases hif : s.b.head = old
    · exact key t (.ret (.popped v true)) (hw t (by simp [hp])) (by rw [if_pos hif]) (by simp [hp, rank, credit])
    · rw [if_neg hif] at hne; exact absurd rfl hne

/-- Steps that are not idle spinning. -/
def Moves (s : St V) (e : Option (Ev (Op V) (Ret V))) (s' : St V) : Prop := Step s e s' ∧ s' ≠ s

theorem rank_exec (T : Finset Nat) {s s' : St V} {n : Nat} {τ : List (Ev (Op V) (Ret V))} (hw : Within T s.pc)
    (h : ExecN Moves s n τ s') (hc : CallsBy (· ∈ T) τ) :
    Within T s'.pc ∧ sumW T rank s'.pc + n ≤ sumW T rank s.pc + 6 * calls τ := by
  induction h with
  | refl => exact ⟨hw, by simp⟩
  | silent _ hs ih =>
    obtain ⟨h2, h3⟩ := ih hc
    obtain ⟨q1, q2⟩ := rank_step T h2 (by simp) hs.1 hs.2
    simp only [credit] at q2
    exact ⟨q1, by omega⟩
  | @visible s' s'' n τ e _ hs ih =>
    obtain ⟨h2, h3⟩ := ih (fun t op hm => hc t op (List.mem_append_left _ hm))
    obtain ⟨q1, q2⟩ := rank_step T h2 (fun t op e' => by cases e'; exact hc t op (by simp)) hs.1 hs.2
    refine ⟨q1, ?_⟩
    cases e with
    | call t op =>
      simp only [credit] at q2
      have : calls (τ ++ [Ev.call t op]) = calls τ + 1 := by simp [calls, Ev.isCall]
      omega
    | ret t r =>
      simp only [credit] at q2
      have : calls (τ ++ [Ev.ret t r]) = calls τ := by simp [calls, Ev.isCall]
      omega

/-! ## The theorems -/

/-- **C34** without a hypothesis about the counters: fewer than 2^64 calls of each kind (less the size of the buffer)
keep them from wrapping. -/
theorem C34_few_calls (k : Nat) {τ : List (Ev (Op V) (Ret V))} {s : St V} (h : Exec Step (start k) τ s)
    (hp : pushes τ + 2 ^ k < W) (hq : pops τ + 1 < W) :
    ∃ a, Exec (AStep fifo) (AState.init []) τ a ∧ a.s.length ≤ 2 ^ k ∧ (∀ t, s.pc t ≠ .crashed) ∧
      (∀ t v ok, .ret t (.popped v ok) ∈ τ → ok = true) :=
  C34_linearizable k (reach k _ h (callsBy_callers τ) hp hq).1

/-- **C107**: apart from rounds of waiting that change nothing, an execution with `n` calls has at most `6 n` steps. -/
theorem C107_bounded (k : Nat) {n : Nat} {τ : List (Ev (Op V) (Ret V))} {s : St V}
    (h : ExecN Moves (start k) n τ s) : n ≤ 6 * calls τ := by
  have := (rank_exec (callers τ) (fun t ht => absurd rfl ht) h (callsBy_callers τ)).2
  have h0 : sumW (callers τ) rank (start k : St V).pc = 0 := sumW_zero (fun t => rfl)
  omega

/-- **C107**: pushing and popping goroutines never wait for each other.  In every reachable state where a call has not
returned, some goroutine can make a step that is not waiting, unless all of them push into a full buffer or all of
them pop from an empty one, with more calls than can be served. -/
theorem C107_no_deadlock (k : Nat) {τ : List (Ev (Op V) (Ret V))} {s : St V} (h : Exec Step (start k) τ s)
    (hp : pushes τ + 2 ^ k < W) (hq : pops τ + 1 < W) (hpend : ∃ t, s.pc t ≠ .idle) :
    (∃ e s', Moves s e s' ∧ ∀ t op, e ≠ some (.call t op)) ∨
    (pops τ + 2 ^ k < pushes τ ∧ s.b.tail = s.b.head + 2 ^ k ∧ ∀ t, s.pc t = .idle ∨ ∃ v o, s.pc t = .puWait v o) ∨
    (pushes τ < pops τ ∧ s.b.tail = s.b.head ∧ ∀ t, s.pc t = .idle ∨ ∃ o, s.pc t = .poWait o) := by
  obtain ⟨_, ⟨a, hS⟩, hC⟩ := reach k (callers τ) h (callsBy_callers τ) hp hq
  by_cases hm : ∃ e s', Moves s e s' ∧ ∀ t op, e ≠ some (.call t op)
  · exact .inl hm
  right
  have c1 := hC.tailR
  have c2 := hC.tail
  have c3 := hC.headR
  have c4 := hC.head
  have hpos : 0 < 2 ^ k := Nat.two_pow_pos k
  have hmask := hS.mask
  have hht := hS.ht
  have hth := hS.th
  have hhr := hS.hr
  have htr := hS.tr
  -- what a goroutine looks like when nothing can move
  have stuck : ∀ e s', Step s e s' → (∀ t op, e ≠ some (.call t op)) → s' = s :=
    fun e s' hs hc => by_contra fun hne => hm ⟨e, s', ⟨hs, hne⟩, hc⟩
  have pcne : ∀ s' : St V, ∀ t, s'.pc t ≠ s.pc t → s' ≠ s := fun s' t hne e => hne (by rw [e])
  have form : ∀ t, s.pc t = .idle ∨ (∃ v o, s.pc t = .puWait v o ∧ s.b.head + 2 ^ k ≤ o) ∨
      (∃ v o, s.pc t = .puCas v o ∧ s.b.tail ≠ o) ∨ (∃ o, s.pc t = .poWait o ∧ s.b.tail ≤ o) ∨
      (∃ o v, s.pc t = .poCas o v ∧ s.b.head ≠ o) := by
    intro t
    cases hpc : s.pc t with
    | idle => exact .inl rfl
    | puAdd v =>
      refine absurd (stuck _ _ (.puAdd s t v hpc) (by simp)) (pcne _ t ?_)
      simp [setAt_same, hpc]
    | poAdd =>
      refine absurd (stuck _ _ (.poAdd s t hpc) (by simp)) (pcne _ t ?_)
      simp [setAt_same, hpc]
    | puWait v o =>
      refine .inr (.inl ⟨v, o, rfl, ?_⟩)
      have ho := hS.pushLt t o (by rw [hpc]; rfl)
      by_contra hlt
      refine absurd (stuck _ _ (.puWait s t v o hpc) (by simp)) (pcne _ t ?_)
      rw [Nat.mod_eq_of_lt (by omega), Nat.mod_eq_of_lt (by omega), if_neg (by omega)]
      simp [St.goto, setAt_same, hpc]
    | poWait o =>
      refine .inr (.inr (.inr (.inl ⟨o, rfl, ?_⟩)))
      by_contra hlt
      refine absurd (stuck _ _ (.poWait s t o hpc) (by simp)) (pcne _ t ?_)
      rw [if_neg (by omega)]
      simp [St.goto, setAt_same, hpc]
    | puWrite v o =>
      refine absurd (stuck _ _ (.puWrite s t v o hpc) (by simp)) (pcne _ t ?_)
      cases Go.set s.b.d (o &&& s.b.mask) v <;> simp [St.goto, setAt_same, hpc]
    | poRead o =>
      refine absurd (stuck _ _ (.poRead s t o hpc) (by simp)) (pcne _ t ?_)
      cases Go.get s.b.d (o &&& s.b.mask) <;> simp [St.goto, setAt_same, hpc]
    | puCas v o =>
      refine .inr (.inr (.inl ⟨v, o, rfl, fun he => ?_⟩))
      refine absurd (stuck _ _ (.puCas s t v o hpc) (by simp)) (pcne _ t ?_)
      rw [if_pos he]
      simp [setAt_same, hpc]
    | poCas o v =>
      refine .inr (.inr (.inr (.inr ⟨o, v, rfl, fun he => ?_⟩)))
      refine absurd (stuck _ _ (.poCas s t o v hpc) (by simp)) (pcne _ t ?_)
      rw [if_pos he]
      simp [setAt_same, hpc]
    | ret r =>
      refine absurd (stuck _ _ (.ret s t r hpc) (by simp)) (pcne _ t ?_)
      simp [St.goto, setAt_same, hpc]
    | crashed => have := hS.loc t; rw [hpc] at this; exact absurd this id
  -- a push that cannot go on finds the buffer full
  have full : (∃ t o, pushTicket (s.pc t) = some o) → s.b.tail = s.b.head + 2 ^ k := by
    rintro ⟨t, o, ho⟩
    have := hS.pushLt t o ho
    obtain ⟨t', ht'⟩ := hC.covPush s.b.tail (Nat.le_refl _) (by omega)
    rcases form t' with h | ⟨v, o', h, hge⟩ | ⟨v, o', h, hne⟩ | ⟨o', h, _⟩ | ⟨o', v, h, _⟩
    · rw [h] at ht'; simp [pushTicket] at ht'
    · rw [h] at ht'; simp only [pushTicket, Option.some.injEq] at ht'; omega
    · rw [h] at ht'; simp only [pushTicket, Option.some.injEq] at ht'; exact absurd ht'.symm hne
    · rw [h] at ht'; simp [pushTicket] at ht'
    · rw [h] at ht'; simp [pushTicket] at ht'
  -- a pop that cannot go on finds the buffer empty
  have emp : (∃ t o, popTicket (s.pc t) = some o) → s.b.tail = s.b.head := by
    rintro ⟨t, o, ho⟩
    have := hS.popLt t o ho
    obtain ⟨t', ht'⟩ := hC.covPop s.b.head (Nat.le_refl _) (by omega)
    rcases form t' with h | ⟨v, o', h, hge⟩ | ⟨v, o', h, hne⟩ | ⟨o', h, _⟩ | ⟨o', v, h, hne⟩
    · rw [h] at ht'; simp [popTicket] at ht'
    · rw [h] at ht'; simp [popTicket] at ht'
    · rw [h] at ht'; simp [popTicket] at ht'
    · rw [h] at ht'; simp only [popTicket, Option.some.injEq] at ht'; omega
    · rw [h] at ht'; simp only [popTicket, Option.some.injEq] at ht'; exact absurd ht'.symm hne
  by_cases hpu : ∃ t o, pushTicket (s.pc t) = some o
  · left
    have hf := full hpu
    have hnp : ¬ ∃ t o, popTicket (s.pc t) = some o := fun hpo => by have := emp hpo; omega
    have shape : ∀ t, s.pc t = .idle ∨ ∃ v o, s.pc t = .puWait v o := by
      intro t
      rcases form t with h | ⟨v, o', h, hge⟩ | ⟨v, o', h, hne⟩ | ⟨o', h, _⟩ | ⟨o', v, h, hne⟩
      · exact .inl h
      · exact .inr ⟨v, o', h⟩
      · have := hS.loc t
        rw [h] at this
        have h2 := hS.pushLt t o' (by rw [h]; rfl)
        have h3 := this.1
        omega
      · exact absurd ⟨t, o', by rw [h]; rfl⟩ hnp
      · exact absurd ⟨t, o', by rw [h]; rfl⟩ hnp
    have z : sumW (callers τ) wPop s.pc = 0 := sumW_zero fun t => by
      rcases shape t with h | ⟨v, o, h⟩ <;> rw [h] <;> rfl
    have o1 : 1 ≤ sumW (callers τ) wPush s.pc := by
      obtain ⟨t, o, ho⟩ := hpu
      rcases shape t with h | ⟨v, o', h⟩
      · rw [h] at ho; simp [pushTicket] at ho
      · exact sumW_pos (hC.within t (by simp [h])) (by rw [h]; exact Nat.le_refl 1)
    exact ⟨by omega, hf, shape⟩
  · right
    have shape : ∀ t, s.pc t = .idle ∨ ∃ o, popTicket (s.pc t) = some o := by
      intro t
      rcases form t with h | ⟨v, o', h, hge⟩ | ⟨v, o', h, hne⟩ | ⟨o', h, _⟩ | ⟨o', v, h, hne⟩
      · exact .inl h
      · exact absurd ⟨t, o', by rw [h]; rfl⟩ hpu
      · exact absurd ⟨t, o', by rw [h]; rfl⟩ hpu
      · exact .inr ⟨o', by rw [h]; rfl⟩
      · exact .inr ⟨o', by rw [h]; rfl⟩
    obtain ⟨t0, ht0⟩ := hpend
    have hpo : ∃ t o, popTicket (s.pc t) = some o := by
      rcases shape t0 with h | h
      · exact absurd h ht0
      · exact ⟨t0, h⟩
    have he := emp hpo
    have shape' : ∀ t, s.pc t = .idle ∨ ∃ o, s.pc t = .poWait o := by
      intro t
      rcases form t with h | ⟨v, o', h, hge⟩ | ⟨v, o', h, hne⟩ | ⟨o', h, _⟩ | ⟨o', v, h, hne⟩
      · exact .inl h
      · exact absurd ⟨t, o', by rw [h]; rfl⟩ hpu
      · exact absurd ⟨t, o', by rw [h]; rfl⟩ hpu
      · exact .inr ⟨o', h⟩
      · have := hS.loc t
        rw [h] at this
        have h2 := hS.popLt t o' (by rw [h]; rfl)
        have h3 := this.1
        omega
    have z : sumW (callers τ) wPush s.pc = 0 := sumW_zero fun t => by
      rcases shape' t with h | ⟨o, h⟩ <;> rw [h] <;> rfl
    have o1 : 1 ≤ sumW (callers τ) wPop s.pc := by
      rcases shape' t0 with h | ⟨o', h⟩
      · exact absurd h ht0
      · exact sumW_pos (hC.within t0 ht0) (by rw [h]; exact Nat.le_refl 1)
    exact ⟨by omega, he, shape'⟩

theorem moves_exec {s s' : St V} {n : Nat} {τ : List (Ev (Op V) (Ret V))} (h : ExecN Moves s n τ s') :
    Exec Step s τ s' := by
  induction h with
  | refl => exact .refl _
  | silent _ hs ih => exact .silent ih hs.1
  | visible _ hs ih => exact .visible ih hs.1

/-- **C107**: every reachable state can run on, without further calls, until nobody is left but pushes in excess of
pops and slots, or pops in excess of pushes: a balanced set of calls always completes. -/
theorem C107_completes (k : Nat) {τ : List (Ev (Op V) (Ret V))} {s : St V} (h : Exec Step (start k) τ s)
    (hp : pushes τ + 2 ^ k < W) (hq : pops τ + 1 < W) :
    ∃ n τ' s', ExecN Moves s n τ' s' ∧ calls τ' = 0 ∧
      (pops τ ≤ pushes τ → pushes τ ≤ pops τ + 2 ^ k → ∀ t, s'.pc t = .idle) ∧
      (pops τ + 2 ^ k < pushes τ → ∀ t, s'.pc t = .idle ∨ ∃ v o, s'.pc t = .puWait v o) ∧
      (pushes τ < pops τ → ∀ t, s'.pc t = .idle ∨ ∃ o, s'.pc t = .poWait o) := by
  have hw : Within (callers τ) s.pc := (reach k (callers τ) h (callsBy_callers τ) hp hq).2.2.within
  have hpos : 0 < 2 ^ k := Nat.two_pow_pos k
  by_contra hno
  have hlong : ∀ n, ∃ τ' s', ExecN Moves s n τ' s' ∧ calls τ' = 0 := by
    intro n
    induction n with
    | zero => exact ⟨[], s, .refl _, rfl⟩
    | succ n ih =>
      obtain ⟨τ', s', h', h0⟩ := ih
      have e1 : pushes (τ ++ τ') = pushes τ := by
        unfold pushes
        rw [List.countP_append, Nat.add_eq_left, List.countP_eq_zero]
        intro e he
        simp only [calls, List.countP_eq_zero] at h0
        cases e with
        | call t op => exact absurd rfl (h0 _ he)
        | ret t r => simp
      have e2 : pops (τ ++ τ') = pops τ := by
        unfold pops
        rw [List.countP_append, Nat.add_eq_left, List.countP_eq_zero]
        intro e he
        simp only [calls, List.countP_eq_zero] at h0
        cases e with
        | call t op => exact absurd rfl (h0 _ he)
        | ret t r => simp
      have key : ∃ e s'', Moves s' e s'' ∧ ∀ t op, e ≠ some (.call t op) := by
        by_contra hst
        refine hno ⟨n, τ', s', h', h0, ?_⟩
        by_cases hpend : ∃ t, s'.pc t ≠ .idle
        · have := C107_no_deadlock k (h.trans (moves_exec h')) (by rw [e1]; exact hp) (by rw [e2]; exact hq) hpend
          rw [e1, e2] at this
          rcases this with h1 | ⟨h1, _, h2⟩ | ⟨h1, _, h2⟩
          · exact absurd h1 hst
          · exact ⟨fun _ _ => by omega, fun _ => h2, fun _ => by omega⟩
          · exact ⟨fun _ _ => by omega, fun _ => by omega, fun _ => h2⟩
        · have hall : ∀ t, s'.pc t = .idle := fun t => by_contra fun ht => hpend ⟨t, ht⟩
          exact ⟨fun _ _ => hall, fun _ t => .inl (hall t), fun _ t => .inl (hall t)⟩
      obtain ⟨e, s'', hs, hc⟩ := key
      cases e with
      | none => exact ⟨τ', s'', .silent h' hs, h0⟩
      | some e =>
        refine ⟨τ' ++ [e], s'', .visible h' hs, ?_⟩
        cases e with
        | call t op => exact absurd rfl (hc t op)
        | ret t r => simpa [calls, Ev.isCall] using h0
  obtain ⟨τ', s', h', h0⟩ := hlong (sumW (callers τ) rank s.pc + 1)
  have hn : CallsBy (· ∈ callers τ) τ' := by
    intro t op hmem
    simp only [calls, List.countP_eq_zero] at h0
    exact absurd rfl (h0 _ hmem)
  have := (rank_exec (callers τ) hw h' hn).2
  omega

/-- A pop that comes first on a buffer of one slot waits until the push is through. -/
example : ∃ (τ : List (Ev (Op Nat) (Ret Nat))) (s : St Nat), Exec Step (start 0) τ s ∧ pops τ = 1 ∧ pushes τ = 1 ∧
    s.pc 0 = .poWait 0 ∧ s.pc 1 = .puCas 7 0 := by
  have h0 := Exec.refl (step := Step) (start 0 : St Nat)
  have h1 := Exec.visible h0 (.callPop _ 0 rfl)
  have h2 := Exec.silent h1 (.poAdd _ 0 rfl)
  have h3 := Exec.silent h2 (.poWait _ 0 0 rfl)
  have h4 := Exec.visible h3 (.callPush _ 1 7 rfl)
  have h5 := Exec.silent h4 (.puAdd _ 1 7 rfl)
  have h6 := Exec.silent h5 (.puWait _ 1 7 0 rfl)
  have h7 := Exec.silent h6 (.puWrite _ 1 7 0 rfl)
  exact ⟨_, _, h7, rfl, rfl, rfl, rfl⟩

/-- The bounds of `C34_few_calls`, `C107_bounded` and `C107_no_deadlock` hold of this run. -/
example : ∃ (τ : List (Ev (Op Nat) (Ret Nat))) (s : St Nat), ExecN Moves (start 0) 2 τ s ∧ Exec Step (start 0) τ s ∧
    pushes τ + 2 ^ 0 < W ∧ pops τ + 1 < W ∧ s.pc 0 ≠ .idle := by
  have h0 := ExecN.refl (step := Moves) (start 0 : St Nat)
  have g0 := Exec.refl (step := Step) (start 0 : St Nat)
  have s1 := Step.callPop (start 0 : St Nat) 0 rfl
  have s2 := Step.poAdd ((start 0 : St Nat).goto 0 .poAdd) 0 rfl
  have h1 := ExecN.visible h0 ⟨s1, fun e => by simpa [St.goto, setAt, start] using congrArg (fun s => s.pc 0) e⟩
  have h2 := ExecN.silent h1 ⟨s2, fun e => by simpa [St.goto, setAt, start] using congrArg (fun s => s.pc 0) e⟩
  refine ⟨_, _, h2, (g0.visible s1).silent s2, by decide, by decide, by simp [St.goto, setAt]⟩

/-! ## The next step -/

/-- Goroutine `t` waits: for room, for an element, or for the goroutine with the ticket before its own. -/
def Waits (s : St V) (t : Nat) : Prop :=
  (∃ v o, s.pc t = .puWait v o ∧ (o + 1) % W > (s.b.head + s.b.mask + 1) % W) ∨
  (∃ o, s.pc t = .poWait o ∧ o ≥ s.b.tail) ∨
  (∃ v o, s.pc t = .puCas v o ∧ s.b.tail ≠ o) ∨ (∃ o v, s.pc t = .poCas o v ∧ s.b.head ≠ o)

/-- The next step of a goroutine inside a call. -/
def nextStep (s : St V) (t : Nat) : Option (Ev (Op V) (Ret V)) × St V :=
  match s.pc t with
  | .idle | .crashed => (none, s)
  | .puAdd v => (none, ⟨{ s.b with tailR := (s.b.tailR + 1) % W }, setAt s.pc t (.puWait v s.b.tailR)⟩)
  | .puWait v old => (none,
      s.goto t (if (old + 1) % W > (s.b.head + s.b.mask + 1) % W then .puWait v old else .puWrite v old))
  | .puWrite v old => (none, match Go.set s.b.d (old &&& s.b.mask) v with
        | .ok d => ⟨{ s.b with d := d }, setAt s.pc t (.puCas v old)⟩
        | .panic => s.goto t .crashed)
  | .puCas _ old => (none,
      if s.b.tail = old then ⟨{ s.b with tail := (old + 1) % W }, setAt s.pc t (.ret (.pushed true))⟩ else s)
  | .poAdd => (none, ⟨{ s.b with headR := (s.b.headR + 1) % W }, setAt s.pc t (.poWait s.b.headR)⟩)
  | .poWait old => (none, s.goto t (if old ≥ s.b.tail then .poWait old else .poRead old))
  | .poRead old => (none, match Go.get s.b.d (old &&& s.b.mask) with
        | .ok v => s.goto t (.poCas old v)
        | .panic => s.goto t .crashed)
  | .poCas old v => (none,
      if s.b.head = old then ⟨{ s.b with head := (old + 1) % W }, setAt s.pc t (.ret (.popped v true))⟩ else s)
  | .ret r => (some (.ret t r), s.goto t .idle)

theorem mover' {s s' : St V} {t u : Nat} {q : PC V} (hq : s'.pc = setAt s.pc u q) (h : s'.pc t ≠ s.pc t) : u = t := by
  by_contra hut
  rw [hq, setAt_ne _ _ _ _ (Ne.symm hut)] at h
  exact h rfl

/-- **C107**: what a goroutine inside a call does next is determined: there is exactly one step that moves it, unless it
has panicked or waits. -/
theorem C107_next (s : St V) (t : Nat) (h : s.pc t ≠ .idle) (hc : s.pc t ≠ .crashed) (hw : ¬ Waits s t) :
    ∃! p : Option (Ev (Op V) (Ret V)) × St V, Step s p.1 p.2 ∧ p.2.pc t ≠ s.pc t := by
  refine ⟨nextStep s t, ⟨?_, ?_⟩, ?_⟩
  · cases hp : s.pc t with
    | idle => exact absurd hp h
    | crashed => exact absurd hp hc
    | puAdd v => simp only [nextStep, hp]; exact .puAdd s t v hp
    | puWait v o => simp only [nextStep, hp]; exact .puWait s t v o hp
    | puWrite v o => simp only [nextStep, hp]; exact .puWrite s t v o hp
    | puCas v o => simp only [nextStep, hp]; exact .puCas s t v o hp
    | poAdd => simp only [nextStep, hp]; exact .poAdd s t hp
    | poWait o => simp only [nextStep, hp]; exact .poWait s t o hp
    | poRead o => simp only [nextStep, hp]; exact .poRead s t o hp
    | poCas o v => simp only [nextStep, hp]; exact .poCas s t o v hp
    | ret r => simp only [nextStep, hp]; exact .ret s t r hp
  · cases hp : s.pc t with
    | idle => exact absurd hp h
    | crashed => exact absurd hp hc
    | puAdd v => simp [nextStep, hp, setAt_same]
    | puWait v o =>
      have : ¬ (o + 1) % W > (s.b.head + s.b.mask + 1) % W := fun hf => hw (.inl ⟨v, o, hp, hf⟩)
      simp only [nextStep, hp, if_neg this, St.goto, setAt_same]; simp
    | puWrite v o => simp only [nextStep, hp]; split <;> simp [St.goto, setAt_same]
    | puCas v o =>
      have : s.b.tail = o := by_contra fun hf => hw (.inr (.inr (.inl ⟨v, o, hp, hf⟩)))
      simp only [nextStep, hp, if_pos this, setAt_same]; simp
    | poAdd => simp [nextStep, hp, setAt_same]
    | poWait o =>
      have : ¬ o ≥ s.b.tail := fun hf => hw (.inr (.inl ⟨o, hp, hf⟩))
      simp only [nextStep, hp, if_neg this, St.goto, setAt_same]; simp
    | poRead o => simp only [nextStep, hp]; split <;> simp [St.goto, setAt_same]
    | poCas o v =>
      have : s.b.head = o := by_contra fun hf => hw (.inr (.inr (.inr ⟨o, v, hp, hf⟩)))
      simp only [nextStep, hp, if_pos this, setAt_same]; simp
    | ret r => simp [nextStep, hp, St.goto, setAt_same]
  · rintro ⟨e, s'⟩ ⟨hs, hne⟩
    dsimp only at hs hne
    cases hs with
    | callPush u v hp => obtain rfl := mover' rfl hne; exact absurd hp h
    | callPop u hp => obtain rfl := mover' rfl hne; exact absurd hp h
    | puAdd u v hp => obtain rfl := mover' rfl hne; simp only [nextStep, hp]
    | poAdd u hp => obtain rfl := mover' rfl hne; simp only [nextStep, hp]
    | puWait u v o hp => obtain rfl := mover' rfl hne; simp only [nextStep, hp, St.goto]
    | poWait u o hp => obtain rfl := mover' rfl hne; simp only [nextStep, hp, St.goto]
    | ret u r hp => obtain rfl := mover' rfl hne; simp only [nextStep, hp, St.goto]
    | puWrite u v o hp =>
      have : u = t := by
        split at hne
        · exact mover' rfl hne
        · exact mover' rfl hne
      subst this; simp only [nextStep, hp]; rfl
    | poRead u o hp =>
      have : u = t := by
        split at hne
        · exact mover' rfl hne
        · exact mover' rfl hne
      subst this; simp only [nextStep, hp]; rfl
    | puCas u v o hp =>
      have : u = t := by
        split at hne
        · exact mover' rfl hne
        · exact absurd rfl hne
      subst this; simp only [nextStep, hp]
    | poCas u o v hp =>
      have : u = t := by
        split at hne
        · exact mover' rfl hne
        · exact absurd rfl hne
      subst this; simp only [nextStep, hp]

/-- On an empty buffer of one slot, with ticket 0 for both, the pop waits and the push does not. -/
example : ∃ s : St Nat, Waits s 0 ∧ ¬ Waits s 1 ∧ s.pc 1 ≠ .idle ∧ s.pc 1 ≠ .crashed :=
  ⟨⟨(start 0 : St Nat).b, fun t => if t = 0 then .poWait 0 else .puCas 7 0⟩,
    .inr (.inl ⟨0, rfl, Nat.le_refl _⟩), by simp [Waits, start], by simp, by simp⟩

end Verif.RingBuffer
