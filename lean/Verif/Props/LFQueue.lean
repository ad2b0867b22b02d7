import Verif.Model.LFQueue
import Verif.Lemmas.Tracks
import Mathlib.Tactic.NormNum
/-!
# Properties C30 and C31: the lock-free list
-/

set_option linter.unusedSectionVars false

namespace Verif.LFQueue
open Verif.Spec
variable {V : Type} [Inhabited V]

/-! ## Specification: a stack of values -/

/-- The sequential object: a LIFO sequence. -/
def lifo (s : List V) : Op V → List V × Ret V
  | .push v => (v :: s, .pushed true)
  | .pop =>
    match s with
    | [] => ([], .popped default false)
    | v :: r => (r, .popped v true)
  | .clear => ([], .cleared)
  | .empty => (s, .isEmpty s.isEmpty)

/-! ## The simulation -/

/-- Following `next` from `p` visits the nodes `l` and ends at nil. -/
def Chain (m : Nat → Node V) : Ptr → List Nat → Prop
  | p, [] => p = none
  | p, a :: t => p = some a ∧ Chain m (m a).next t

theorem Chain.frame {m m' : Nat → Node V} {l : List Nat} {p : Ptr} (h : Chain m p l)
    (hf : ∀ x ∈ l, m' x = m x) : Chain m' p l := by
  induction l generalizing p with
  | nil => exact h
  | cons a t ih =>
    refine ⟨h.1, ?_⟩
    rw [hf a (by simp)]
    exact ih h.2 (fun x hx => hf x (by simp [hx]))

/-- The node a goroutine has created but not yet published. -/
def priv : PC V → Option (V × Nat)
  | .pushLoad v n | .pushCas v n => some (v, n)
  | _ => none

/-- The published node a popping goroutine has in its hands. -/
def inHand : PC V → Option Nat
  | .popRead n | .popCas n _ => some n
  | _ => none

/-- What the goroutine looks like from the atomic object. -/
def status : PC V → AStatus (Op V) (Ret V)
  | .idle => .idle
  | .pushLoad v _ | .pushCas v _ => .pending (.push v)
  | .pushAdd => .done (.pushed true)
  | .popLoad | .popRead _ | .popCas _ _ => .pending .pop
  | .popSub v ok => .done (.popped v ok)
  | .clear => .pending .clear
  | .empty => .pending .empty
  | .retClear => .done .cleared
  | .retEmpty b => .done (.isEmpty b)

/-- The invariant, with the list of nodes. -/
structure Inv (s : St V) (l : List Nat) : Prop where
  chain : Chain s.mem s.head l
  lt : ∀ x ∈ l, x < s.alloc
  privLt : ∀ t v n, priv (s.pc t) = some (v, n) → n < s.alloc ∧ (s.mem n).val = v ∧ n ∉ l
  privNe : ∀ t t' v v' n, priv (s.pc t) = some (v, n) → priv (s.pc t') = some (v', n) → t = t'
  hand : ∀ t n, inHand (s.pc t) = some n → n < s.alloc ∧ ∀ t' v, priv (s.pc t') ≠ some (v, n)
  cas : ∀ t n nx, s.pc t = .popCas n nx → (s.mem n).next = nx

/-- The simulation relation. -/
def Rel (s : St V) (a : AState (List V) (Op V) (Ret V)) : Prop :=
  (∃ l, Inv s l ∧ a.s = l.map fun x => (s.mem x).val) ∧ ∀ t, a.th t = status (s.pc t)

theorem setAt_same {β : Type} (f : Nat → β) (i : Nat) (v : β) : setAt f i v i = v := by simp [setAt]
theorem setAt_ne {β : Type} (f : Nat → β) (i j : Nat) (v : β) (hj : j ≠ i) : setAt f i v j = f j := by
  simp [setAt, hj]

/-- A step that changes only the program counter of `t`, to one without private node or node in hand. -/
theorem Inv.pcOnly {s : St V} {l : List Nat} (h : Inv s l) (t : Nat) (p : PC V) (sz : BitVec 32)
    (h1 : priv p = none ∨ priv p = priv (s.pc t)) (h2 : inHand p = none ∨ inHand p = inHand (s.pc t))
    (h3 : ∀ n nx, p = .popCas n nx → (s.mem n).next = nx) :
    Inv { s with size := sz, pc := setAt s.pc t p } l := by
  have pv : ∀ t' x, priv (setAt s.pc t p t') = some x → priv (s.pc t') = some x := by
    intro t' x hx
    by_cases e : t' = t
    · subst e; rw [setAt_same] at hx
      rcases h1 with h1 | h1
      · rw [h1] at hx; cases hx
      · rw [← h1]; exact hx
    · rwa [setAt_ne _ _ _ _ e] at hx
  have hd : ∀ t' x, inHand (setAt s.pc t p t') = some x → inHand (s.pc t') = some x := by
    intro t' x hx
    by_cases e : t' = t
    · subst e; rw [setAt_same] at hx
      rcases h2 with h2 | h2
      · rw [h2] at hx; cases hx
      · rw [← h2]; exact hx
    · rwa [setAt_ne _ _ _ _ e] at hx
  refine ⟨h.chain, h.lt, fun t' v n hp => h.privLt t' v n (pv _ _ hp),
    fun t1 t2 v v' n e1 e2 => h.privNe t1 t2 v v' n (pv _ _ e1) (pv _ _ e2),
    fun t' n e => ⟨(h.hand t' n (hd _ _ e)).1, fun t2 v e2 => (h.hand t' n (hd _ _ e)).2 t2 v (pv _ _ e2)⟩,
    fun t' n nx e => ?_⟩
  by_cases e' : t' = t
  · subst e'; simp only [setAt_same] at e; exact h3 _ _ e
  · simp only [setAt_ne _ _ _ _ e'] at e; exact h.cas _ _ _ e

theorem status_set {s : St V} {a : AState (List V) (Op V) (Ret V)} (h : ∀ t, a.th t = status (s.pc t)) (t : Nat)
    (p : PC V) (q : AStatus (Op V) (Ret V)) (hq : q = status p) :
    ∀ t', setAt a.th t q t' = status (setAt s.pc t p t') := by
  intro t'
  by_cases e : t' = t
  · subst e; simp [setAt_same, hq]
  · simp [setAt_ne _ _ _ _ e, h]

theorem status_keep {s : St V} {a : AState (List V) (Op V) (Ret V)} (h : ∀ t, a.th t = status (s.pc t)) (t : Nat)
    (p : PC V) (hq : status p = status (s.pc t)) : ∀ t', a.th t' = status (setAt s.pc t p t') := by
  intro t'
  by_cases e : t' = t
  · subst e; simp [setAt_same, hq, h]
  · simp [setAt_ne _ _ _ _ e, h]

theorem Exec.one {S E : Type} {step : S → Option E → S → Prop} {s s' : S} {e : Option E} (h : step s e s') :
    Exec step s e.toList s' := by
  cases e with
  | none => exact .silent (.refl _) h
  | some e => exact .visible (.refl _) h

theorem sim (s : St V) (a : AState (List V) (Op V) (Ret V)) (e : Option (Ev (Op V) (Ret V))) (s' : St V)
    (hr : Rel s a) (hs : Step s e s') : ∃ a', Exec (AStep lifo) a e.toList a' ∧ Rel s' a' := by
  obtain ⟨⟨l, hI, hv⟩, hst⟩ := hr
  cases hs with
  | callPush t v hp =>
    refine ⟨_, Exec.one (.call a t (.push v) (by rw [hst, hp]; rfl)), ⟨l, ?_, ?_⟩, status_set hst t _ _ rfl⟩
    · have hl : ∀ x ∈ l, x ≠ s.alloc := fun x hx => Nat.ne_of_lt (hI.lt x hx)
      refine ⟨hI.chain.frame (fun x hx => setAt_ne _ _ _ _ (hl x hx)), fun x hx => Nat.lt_succ_of_lt (hI.lt x hx),
        ?_, ?_, ?_, ?_⟩
      · intro t' v' n e
        by_cases h : t' = t
        · subst h
          simp only [setAt_same, priv, Option.some.injEq, Prod.mk.injEq] at e
          obtain ⟨rfl, rfl⟩ := e
          exact ⟨Nat.lt_succ_self _, by simp [setAt_same], fun hx => hl _ hx rfl⟩
        · simp only [setAt_ne _ _ _ _ h] at e
          obtain ⟨q1, q2, q3⟩ := hI.privLt t' v' n e
          exact ⟨Nat.lt_succ_of_lt q1, by simp only [setAt_ne _ _ _ _ (Nat.ne_of_lt q1)]; exact q2, q3⟩
      · intro t1 t2 v1 v2 n e1 e2
        by_cases h1 : t1 = t <;> by_cases h2 : t2 = t
        · rw [h1, h2]
        · subst h1
          simp only [setAt_same, setAt_ne _ _ _ _ h2, priv, Option.some.injEq, Prod.mk.injEq] at e1 e2
          obtain ⟨_, rfl⟩ := e1
          exact absurd (hI.privLt _ _ _ e2).1 (Nat.lt_irrefl _)
        · subst h2
          simp only [setAt_same, setAt_ne _ _ _ _ h1, priv, Option.some.injEq, Prod.mk.injEq] at e1 e2
          obtain ⟨_, rfl⟩ := e2
          exact absurd (hI.privLt _ _ _ e1).1 (Nat.lt_irrefl _)
        · simp only [setAt_ne _ _ _ _ h1, setAt_ne _ _ _ _ h2] at e1 e2
          exact hI.privNe _ _ _ _ _ e1 e2
      · intro t' n e
        have h : t' ≠ t := by rintro rfl; simp [setAt_same, inHand] at e
        simp only [setAt_ne _ _ _ _ h] at e
        obtain ⟨q1, q2⟩ := hI.hand _ _ e
        refine ⟨Nat.lt_succ_of_lt q1, fun t2 v2 e2 => ?_⟩
        by_cases h2 : t2 = t
        · subst h2
          simp only [setAt_same, priv, Option.some.injEq, Prod.mk.injEq] at e2
          obtain ⟨_, rfl⟩ := e2
          exact Nat.lt_irrefl _ q1
        · simp only [setAt_ne _ _ _ _ h2] at e2
          exact q2 _ _ e2
      · intro t' n nx e
        have h : t' ≠ t := by rintro rfl; simp [setAt_same] at e
        simp only [setAt_ne _ _ _ _ h] at e
        have := (hI.hand t' n (by rw [e]; rfl)).1
        simp only [setAt_ne _ _ _ _ (Nat.ne_of_lt this)]
        exact hI.cas _ _ _ e
    · simp only [hv]
      exact List.map_congr_left (fun x hx => by simp only [setAt_ne _ _ _ _ (Nat.ne_of_lt (hI.lt x hx))])
  | pushLoad t v n hp =>
    have hpr : priv (s.pc t) = some (v, n) := by rw [hp]; rfl
    obtain ⟨q1, q2, q3⟩ := hI.privLt t v n hpr
    have hl : ∀ x ∈ l, x ≠ n := fun x hx e => q3 (e ▸ hx)
    refine ⟨a, .refl _, ⟨l, ?_, ?_⟩, status_keep hst t _ (by rw [hp]; rfl)⟩
    · have pv : ∀ t' x, priv (setAt s.pc t (.pushCas v n) t') = some x → priv (s.pc t') = some x := by
        intro t' x hx
        by_cases h : t' = t
        · subst h; rw [setAt_same] at hx; rw [hpr]; exact hx
        · rwa [setAt_ne _ _ _ _ h] at hx
      have hd : ∀ t' x, inHand (setAt s.pc t (.pushCas v n) t') = some x → inHand (s.pc t') = some x := by
        intro t' x hx
        by_cases h : t' = t
        · subst h; rw [setAt_same] at hx; cases hx
        · rwa [setAt_ne _ _ _ _ h] at hx
      refine ⟨hI.chain.frame (fun x hx => setAt_ne _ _ _ _ (hl x hx)), hI.lt, ?_, ?_, ?_, ?_⟩
      · intro t' v' n' e
        obtain ⟨r1, r2, r3⟩ := hI.privLt _ _ _ (pv _ _ e)
        refine ⟨r1, ?_, r3⟩
        by_cases h : n' = n
        · subst h; simp only [setAt_same]; exact r2
        · simp only [setAt_ne _ _ _ _ h]; exact r2
      · exact fun t1 t2 v1 v2 n' e1 e2 => hI.privNe _ _ _ _ _ (pv _ _ e1) (pv _ _ e2)
      · exact fun t' n' e => ⟨(hI.hand _ _ (hd _ _ e)).1, fun t2 v2 e2 => (hI.hand _ _ (hd _ _ e)).2 _ _ (pv _ _ e2)⟩
      · intro t' n' nx e
        have h : t' ≠ t := by rintro rfl; simp [setAt_same] at e
        simp only [setAt_ne _ _ _ _ h] at e
        have hne : n' ≠ n := by
          rintro rfl
          exact (hI.hand t' n' (by rw [e]; rfl)).2 _ _ hpr
        simp only [setAt_ne _ _ _ _ hne]
        exact hI.cas _ _ _ e
    · simp only [hv]
      exact List.map_congr_left (fun x hx => by simp only [setAt_ne _ _ _ _ (hl x hx)])
  | pushCasOk t v n hp hh =>
    have hpr : priv (s.pc t) = some (v, n) := by rw [hp]; rfl
    obtain ⟨q1, q2, q3⟩ := hI.privLt t v n hpr
    refine ⟨_, Exec.one (.effect a t (.push v) (by rw [hst, hp]; rfl)), ⟨n :: l, ?_, ?_⟩, status_set hst t _ _ rfl⟩
    · have hb := hI.pcOnly t .pushAdd s.size (.inl rfl) (.inl rfl) (fun n' nx e => by cases e)
      refine ⟨⟨rfl, by rw [← hh]; exact hI.chain⟩, ?_, ?_, hb.privNe, hb.hand, hb.cas⟩
      · intro x hx
        rcases List.mem_cons.1 hx with rfl | hx
        · exact q1
        · exact hI.lt x hx
      · intro t' v' n' e
        have h : t' ≠ t := by rintro rfl; simp [setAt_same, priv] at e
        obtain ⟨r1, r2, r3⟩ := hb.privLt t' v' n' e
        refine ⟨r1, r2, ?_⟩
        rw [List.mem_cons, not_or]
        refine ⟨?_, r3⟩
        rintro rfl
        simp only [setAt_ne _ _ _ _ h] at e
        exact h (hI.privNe _ _ _ _ _ e hpr)
    · simp [lifo, hv, q2]
  | pushCasFail t v n hp hh =>
    refine ⟨a, .refl _, ⟨l, ?_, hv⟩, status_keep hst t _ (by rw [hp]; rfl)⟩
    exact hI.pcOnly t (.pushLoad v n) s.size (.inr (by rw [hp]; rfl)) (.inl rfl) (fun n' nx e => by cases e)
  | pushAdd t hp =>
    refine ⟨_, Exec.one (.ret a t _ (by rw [hst, hp]; rfl)), ⟨l, ?_, hv⟩, status_set hst t _ _ rfl⟩
    exact hI.pcOnly t .idle _ (.inl rfl) (.inl rfl) (fun n' nx e => by cases e)
  | callPop t hp =>
    refine ⟨_, Exec.one (.call a t .pop (by rw [hst, hp]; rfl)), ⟨l, ?_, hv⟩, status_set hst t _ _ rfl⟩
    exact hI.pcOnly t .popLoad s.size (.inl rfl) (.inl rfl) (fun n' nx e => by cases e)
  | popNil t hp hh =>
    have hl : l = [] := by
      cases l with
      | nil => rfl
      | cons x r => have := hI.chain.1; rw [hh] at this; cases this
    subst hl
    have ha : a.s = [] := by simpa using hv
    refine ⟨_, Exec.one (.effect a t .pop (by rw [hst, hp]; rfl)), ⟨[], ?_, ?_⟩, status_set hst t _ _ ?_⟩
    · exact hI.pcOnly t _ s.size (.inl rfl) (.inl rfl) (fun n' nx e => by cases e)
    · rw [ha]; rfl
    · rw [ha]; rfl
  | popLoad t n hp hh =>
    refine ⟨a, .refl _, ⟨l, ?_, hv⟩, status_keep hst t _ (by rw [hp]; rfl)⟩
    have hn : n ∈ l := by
      cases l with
      | nil => have : s.head = none := hI.chain; rw [hh] at this; cases this
      | cons x r => have := hI.chain.1; rw [hh] at this; cases this; simp
    have hb := hI.pcOnly t .idle s.size (.inl rfl) (.inl rfl) (fun n' nx e => by cases e)
    have pv : ∀ t' x, priv (setAt s.pc t (.popRead n) t') = some x → priv (s.pc t') = some x := by
      intro t' x hx
      by_cases h : t' = t
      · subst h; rw [setAt_same] at hx; cases hx
      · rwa [setAt_ne _ _ _ _ h] at hx
    refine ⟨hI.chain, hI.lt, fun t' v n' e => hI.privLt _ _ _ (pv _ _ e),
      fun t1 t2 v v' n' e1 e2 => hI.privNe _ _ _ _ _ (pv _ _ e1) (pv _ _ e2), ?_, ?_⟩
    · intro t' n' e
      by_cases h : t' = t
      · subst h
        simp only [setAt_same, inHand, Option.some.injEq] at e
        subst e
        exact ⟨hI.lt _ hn, fun t2 v2 e2 => (hI.privLt _ _ _ (pv _ _ e2)).2.2 hn⟩
      · simp only [setAt_ne _ _ _ _ h] at e
        exact ⟨(hI.hand _ _ e).1, fun t2 v2 e2 => (hI.hand _ _ e).2 _ _ (pv _ _ e2)⟩
    · intro t' n' nx e
      by_cases h : t' = t
      · subst h; simp [setAt_same] at e
      · simp only [setAt_ne _ _ _ _ h] at e
        exact hI.cas _ _ _ e
  | popRead t n hp =>
    refine ⟨a, .refl _, ⟨l, ?_, hv⟩, status_keep hst t _ (by rw [hp]; rfl)⟩
    exact hI.pcOnly t (.popCas n (s.mem n).next) s.size (.inl rfl) (.inr (by rw [hp]; rfl))
      (fun n' nx e => by cases e; rfl)
  | popCasOk t n nx hp hh =>
    have hcas := hI.cas t n nx hp
    cases l with
    | nil => have : s.head = none := hI.chain; rw [hh] at this; cases this
    | cons x r =>
      have hx := hI.chain.1
      rw [hh] at hx
      cases hx
      refine ⟨_, Exec.one (.effect a t .pop (by rw [hst, hp]; rfl)), ⟨r, ?_, ?_⟩, status_set hst t _ _ ?_⟩
      · have hb := hI.pcOnly t (.popSub (s.mem n).val true) s.size (.inl rfl) (.inl rfl) (fun n' nx e => by cases e)
        refine ⟨?_, fun y hy => hI.lt y (by simp [hy]), ?_, hb.privNe, hb.hand, hb.cas⟩
        · rw [← hcas]; exact hI.chain.2
        · intro t' v' n' e
          obtain ⟨r1, r2, r3⟩ := hb.privLt _ _ _ e
          exact ⟨r1, r2, fun h => r3 (by simp [h])⟩
      · rw [hv]; rfl
      · rw [hv]; rfl
  | popCasFail t n nx hp hh =>
    refine ⟨a, .refl _, ⟨l, ?_, hv⟩, status_keep hst t _ (by rw [hp]; rfl)⟩
    exact hI.pcOnly t .popLoad s.size (.inl rfl) (.inl rfl) (fun n' nx e => by cases e)
  | popSub t v ok hp =>
    refine ⟨_, Exec.one (.ret a t _ (by rw [hst, hp]; rfl)), ⟨l, ?_, hv⟩, status_set hst t _ _ rfl⟩
    exact hI.pcOnly t .idle _ (.inl rfl) (.inl rfl) (fun n' nx e => by cases e)
  | callClear t hp =>
    refine ⟨_, Exec.one (.call a t .clear (by rw [hst, hp]; rfl)), ⟨l, ?_, hv⟩, status_set hst t _ _ rfl⟩
    exact hI.pcOnly t .clear s.size (.inl rfl) (.inl rfl) (fun n' nx e => by cases e)
  | clear t hp =>
    refine ⟨_, Exec.one (.effect a t .clear (by rw [hst, hp]; rfl)), ⟨[], ?_, rfl⟩, status_set hst t _ _ rfl⟩
    have hb := hI.pcOnly t .retClear s.size (.inl rfl) (.inl rfl) (fun n' nx e => by cases e)
    refine ⟨rfl, by simp, ?_, hb.privNe, hb.hand, hb.cas⟩
    intro t' v' n' e
    obtain ⟨r1, r2, _⟩ := hb.privLt _ _ _ e
    exact ⟨r1, r2, by simp⟩
  | callEmpty t hp =>
    refine ⟨_, Exec.one (.call a t .empty (by rw [hst, hp]; rfl)), ⟨l, ?_, hv⟩, status_set hst t _ _ rfl⟩
    exact hI.pcOnly t .empty s.size (.inl rfl) (.inl rfl) (fun n' nx e => by cases e)
  | empty t hp =>
    have hh : s.head.isNone = a.s.isEmpty := by
      rw [hv]
      cases l with
      | nil => have : s.head = none := hI.chain; rw [this]; rfl
      | cons x r => have := hI.chain.1; rw [this]; rfl
    refine ⟨_, Exec.one (.effect a t .empty (by rw [hst, hp]; rfl)), ⟨l, ?_, hv⟩, status_set hst t _ _ (by rw [hh]; rfl)⟩
    exact hI.pcOnly t _ s.size (.inl rfl) (.inl rfl) (fun n' nx e => by cases e)
  | retClear t hp =>
    refine ⟨_, Exec.one (.ret a t _ (by rw [hst, hp]; rfl)), ⟨l, ?_, hv⟩, status_set hst t _ _ rfl⟩
    exact hI.pcOnly t .idle s.size (.inl rfl) (.inl rfl) (fun n' nx e => by cases e)
  | retEmpty t b hp =>
    refine ⟨_, Exec.one (.ret a t _ (by rw [hst, hp]; rfl)), ⟨l, ?_, hv⟩, status_set hst t _ _ rfl⟩
    exact hI.pcOnly t .idle s.size (.inl rfl) (.inl rfl) (fun n' nx e => by cases e)

theorem Rel.init : Rel (St.init : St V) (AState.init []) := by
  refine ⟨⟨[], ⟨rfl, by simp, ?_, ?_, ?_, ?_⟩, rfl⟩, fun t => rfl⟩ <;> simp [St.init, priv, inHand]

/-- C30: under every interleaving of any number of goroutines the lock-free list is linearizable to the
sequential LIFO object. -/
theorem C30_linearizable : Linearizable Step (St.init : St V) lifo [] := by
  intro τ s' h
  obtain ⟨a, ha, _⟩ := linearizable_of_simulation Rel Rel.init sim h
  exact ⟨a, ha⟩

/-! ## Nothing lost, duplicated or invented -/

/-- The values of the `PushFront` calls seen. -/
def pushCalls (τ : List (Ev (Op V) (Ret V))) : List V :=
  τ.filterMap fun | .call _ (.push v) => some v | _ => none

/-- The values successfully returned by `PopFront`. -/
def popRets (τ : List (Ev (Op V) (Ret V))) : List V :=
  τ.filterMap fun | .ret _ (.popped v true) => some v | _ => none

/-- Number of `PushFront` calls that have returned. -/
def pushDone (τ : List (Ev (Op V) (Ret V))) : Nat :=
  τ.countP fun | .ret _ (.pushed _) => true | _ => false

/-- Number of `PopFront` calls that have returned, with or without a value. -/
def popDone (τ : List (Ev (Op V) (Ret V))) : Nat :=
  τ.countP fun | .ret _ (.popped _ _) => true | _ => false

/-- Number of `PopFront` calls that have returned without a value. -/
def popFailed (τ : List (Ev (Op V) (Ret V))) : Nat :=
  τ.countP fun | .ret _ (.popped _ false) => true | _ => false

/-- Nobody has called `Clear`. -/
def NoClear (τ : List (Ev (Op V) (Ret V))) : Prop := ∀ t, Ev.call t .clear ∉ τ

/-- The stored elements, first to last. -/
def Holds (s : St V) (xs : List V) : Prop := ∃ l, Chain s.mem s.head l ∧ xs = l.map fun x => (s.mem x).val

/-- No call is in progress. -/
def Quiescent (s : St V) : Prop := ∀ t, s.pc t = .idle

/-- Pending pushes. -/
def pPush : AStatus (Op V) (Ret V) → Option V
  | .pending (.push v) => some v
  | _ => none
/-- Pops that took effect but have not returned. -/
def pPop : AStatus (Op V) (Ret V) → Option V
  | .done (.popped v true) => some v
  | _ => none
/-- Pushes that took effect but have not returned. -/
def pDone : AStatus (Op V) (Ret V) → Option Unit
  | .done (.pushed _) => some ()
  | _ => none

/-- The counting invariant on the atomic object. -/
def Cons (τ : List (Ev (Op V) (Ret V))) (a : AState (List V) (Op V) (Ret V)) : Prop :=
  NoClear τ → (∀ t, a.th t ≠ .pending .clear) ∧
  ∃ P D Q, Tracks P (fun t => pPush (a.th t)) ∧ Tracks D (fun t => pPop (a.th t)) ∧
    Tracks Q (fun t => pDone (a.th t)) ∧
    (pushCalls τ).Perm (P.map Prod.snd ++ (D.map Prod.snd ++ (popRets τ ++ a.s))) ∧
    (pushCalls τ).length = P.length + Q.length + pushDone τ

theorem NoClear.left {τ : List (Ev (Op V) (Ret V))} {e : Ev (Op V) (Ret V)} (h : NoClear (τ ++ [e])) : NoClear τ :=
  fun t hm => h t (by simp [hm])

theorem cons_exec {τ : List (Ev (Op V) (Ret V))} {a : AState (List V) (Op V) (Ret V)}
    (h : Exec (AStep lifo) (AState.init []) τ a) : Cons τ a := by
  have other : ∀ {γ : Type} (g : AStatus (Op V) (Ret V) → Option γ) (th : Nat → AStatus (Op V) (Ret V)) (t : Nat)
      (x : AStatus (Op V) (Ret V)) (t' : Nat), t' ≠ t → g (setAt th t x t') = g (th t') :=
    fun g th t x t' hne => by rw [setAt_ne _ _ _ _ hne]
  have all : ∀ {γ : Type} (g : AStatus (Op V) (Ret V) → Option γ) (th : Nat → AStatus (Op V) (Ret V)) (t : Nat)
      (x : AStatus (Op V) (Ret V)), g x = g (th t) → ∀ t', g (setAt th t x t') = g (th t') := by
    intro γ g th t x hx t'
    by_cases e : t' = t
    · subst e; rw [setAt_same, hx]
    · rw [setAt_ne _ _ _ _ e]
  refine Exec.invariant Cons ?_ ?_ ?_ h
  · intro _
    exact ⟨fun t => by simp [AState.init], [], [], [], .nil fun t => rfl, .nil fun t => rfl, .nil fun t => rfl,
      by simp [pushCalls, popRets, AState.init], rfl⟩
  · intro τ a a' hC hs hN
    obtain ⟨hc, P, D, Q, hP, hD, hQ, hperm, hcount⟩ := hC hN
    cases hs with
    | effect t op hp =>
      have hc' : ∀ t', setAt a.th t (.done (lifo a.s op).2) t' ≠ .pending .clear := by
        intro t'
        by_cases e : t' = t
        · subst e; simp [setAt_same]
        · rw [setAt_ne _ _ _ _ e]; exact hc t'
      refine ⟨hc', ?_⟩
      cases op with
      | push v =>
        obtain ⟨P', hPP, hP'⟩ := hP.rem (f' := fun t' => pPush (setAt a.th t (.done (lifo a.s (.push v)).2) t')) t v
          (by rw [hp]; rfl) (by simp only [setAt_same]; rfl) (other _ _ _ _)
        refine ⟨P', D, (t, ()) :: Q, hP', hD.keep (all _ _ _ _ (by rw [hp]; rfl)),
          hQ.add t () (by rw [hp]; rfl) (by simp only [setAt_same]; rfl) (other _ _ _ _), ?_, ?_⟩
        · refine hperm.trans (((Tracks.rem_perm hPP).append_right _).trans ?_)
          simp only [lifo]
          refine List.Perm.trans ?_ ((List.perm_middle (a := v) (l₁ := P'.map Prod.snd ++ (D.map Prod.snd ++ popRets τ)) (l₂ := a.s)).symm.trans ?_)
          · simp
          · simp
        · rw [hcount, hPP.length_eq]; simp; omega
      | pop =>
        cases ha : a.s with
        | nil =>
          refine ⟨P, D, Q, hP.keep (all _ _ _ _ (by rw [hp]; rfl)), hD.keep (all _ _ _ _ (by rw [hp]; rfl)),
            hQ.keep (all _ _ _ _ (by rw [hp]; rfl)), ?_, hcount⟩
          rw [ha] at hperm
          exact hperm
        | cons v r =>
          refine ⟨P, (t, v) :: D, Q, hP.keep (all _ _ _ _ (by rw [hp]; rfl)),
            hD.add t v (by rw [hp]; rfl) (by simp only [setAt_same]; rfl) (other _ _ _ _),
            hQ.keep (all _ _ _ _ (by rw [hp]; rfl)), ?_, hcount⟩
          rw [ha] at hperm
          refine hperm.trans (List.Perm.append_left _ ?_)
          simp only [lifo, List.map_cons, List.cons_append]
          refine List.Perm.trans ?_ ((List.perm_middle (a := v) (l₁ := D.map Prod.snd ++ popRets τ) (l₂ := r)).trans ?_)
          · simp
          · simp
      | clear => exact absurd hp (hc t)
      | empty =>
        exact ⟨P, D, Q, hP.keep (all _ _ _ _ (by rw [hp]; rfl)), hD.keep (all _ _ _ _ (by rw [hp]; rfl)),
            hQ.keep (all _ _ _ _ (by rw [hp]; rfl)), hperm, hcount⟩
  · intro τ a e a' hC hs hN
    obtain ⟨hc, P, D, Q, hP, hD, hQ, hperm, hcount⟩ := hC hN.left
    cases hs with
    | call t op hp =>
      have hc' : ∀ t', setAt a.th t (.pending op) t' ≠ .pending .clear := by
        intro t'
        by_cases e : t' = t
        · subst e
          rw [setAt_same]
          intro e
          cases e
          exact hN t' (by simp)
        · rw [setAt_ne _ _ _ _ e]; exact hc t'
      refine ⟨hc', ?_⟩
      cases op with
      | push v =>
        refine ⟨(t, v) :: P, D, Q, hP.add t v (by rw [hp]; rfl) (by simp only [setAt_same]; rfl) (other _ _ _ _),
          hD.keep (all _ _ _ _ (by rw [hp]; rfl)), hQ.keep (all _ _ _ _ (by rw [hp]; rfl)), ?_, ?_⟩
        · have e1 : pushCalls (τ ++ [Ev.call t (.push v)]) = pushCalls τ ++ [v] := by simp [pushCalls]
          have e2 : popRets (τ ++ [Ev.call t (.push v)]) = popRets τ := by simp [popRets]
          rw [e1, e2]
          exact (List.perm_append_singleton _ _).trans (hperm.cons v)
        · simp only [pushCalls, pushDone] at hcount ⊢
          simp
          omega
      | _ =>
        refine ⟨P, D, Q, hP.keep (all _ _ _ _ (by rw [hp]; rfl)), hD.keep (all _ _ _ _ (by rw [hp]; rfl)),
            hQ.keep (all _ _ _ _ (by rw [hp]; rfl)), ?_, ?_⟩
        · simpa [pushCalls, popRets] using hperm
        · simpa [pushCalls, pushDone] using hcount
    | ret t r hp =>
      have hc' : ∀ t', setAt a.th t .idle t' ≠ .pending .clear := by
        intro t'
        by_cases e : t' = t
        · subst e; simp [setAt_same]
        · rw [setAt_ne _ _ _ _ e]; exact hc t'
      refine ⟨hc', ?_⟩
      cases r with
      | pushed ok =>
        obtain ⟨Q', hQQ, hQ'⟩ := hQ.rem (f' := fun t' => pDone (setAt a.th t .idle t')) t () (by rw [hp]; rfl)
          (by simp only [setAt_same]; rfl) (other _ _ _ _)
        refine ⟨P, D, Q', hP.keep (all _ _ _ _ (by rw [hp]; rfl)), hD.keep (all _ _ _ _ (by rw [hp]; rfl)), hQ', ?_, ?_⟩
        · simpa [pushCalls, popRets] using hperm
        · rw [hQQ.length_eq] at hcount
          simp only [pushCalls, pushDone] at hcount ⊢
          simp at hcount ⊢
          omega
      | popped v ok =>
        cases ok with
        | false =>
          refine ⟨P, D, Q, hP.keep (all _ _ _ _ (by rw [hp]; rfl)), hD.keep (all _ _ _ _ (by rw [hp]; rfl)),
            hQ.keep (all _ _ _ _ (by rw [hp]; rfl)), ?_, ?_⟩
          · simpa [pushCalls, popRets] using hperm
          · simpa [pushCalls, pushDone] using hcount
        | true =>
          obtain ⟨D', hDD, hD'⟩ := hD.rem (f' := fun t' => pPop (setAt a.th t .idle t')) t v (by rw [hp]; rfl)
            (by simp only [setAt_same]; rfl) (other _ _ _ _)
          refine ⟨P, D', Q, hP.keep (all _ _ _ _ (by rw [hp]; rfl)), hD', hQ.keep (all _ _ _ _ (by rw [hp]; rfl)), ?_, ?_⟩
          · have e1 : pushCalls (τ ++ [Ev.ret t (.popped v true)]) = pushCalls τ := by simp [pushCalls]
            have e2 : popRets (τ ++ [Ev.ret t (.popped v true)]) = popRets τ ++ [v] := by simp [popRets]
            rw [e1, e2]
            refine hperm.trans (List.Perm.append_left _ ?_)
            refine ((Tracks.rem_perm hDD).append_right _).trans ?_
            simp only [List.append_assoc, List.singleton_append]
            refine List.Perm.trans ?_ ((List.perm_middle (a := v) (l₁ := D'.map Prod.snd ++ popRets τ) (l₂ := a.s)).symm.trans ?_)
            · simp
            · simp
          · simpa [pushCalls, pushDone] using hcount
      | _ =>
        refine ⟨P, D, Q, hP.keep (all _ _ _ _ (by rw [hp]; rfl)), hD.keep (all _ _ _ _ (by rw [hp]; rfl)),
            hQ.keep (all _ _ _ _ (by rw [hp]; rfl)), ?_, ?_⟩
        · simpa [pushCalls, popRets] using hperm
        · simpa [pushCalls, pushDone] using hcount

/-- C30: at rest, the values pushed are exactly the values popped together with the values still stored,
counted with multiplicity. -/
theorem C30_conservation {τ : List (Ev (Op V) (Ret V))} {s : St V} (h : Exec Step St.init τ s) (hq : Quiescent s)
    (hN : NoClear τ) : ∃ xs, Holds s xs ∧ (pushCalls τ).Perm (popRets τ ++ xs) := by
  obtain ⟨a, ha, ⟨l, hI, hv⟩, hst⟩ := linearizable_of_simulation Rel Rel.init sim h
  obtain ⟨_, P, D, Q, hP, hD, hQ, hperm, _⟩ := cons_exec ha hN
  have hidle : ∀ t, a.th t = .idle := fun t => by rw [hst, hq t]; rfl
  rw [hP.eq_nil (fun t => by rw [hidle t]; rfl), hD.eq_nil (fun t => by rw [hidle t]; rfl)] at hperm
  exact ⟨a.s, ⟨l, hI.chain, hv⟩, by simpa using hperm⟩

theorem Chain.unique {m : Nat → Node V} {l l' : List Nat} {p : Ptr} (h : Chain m p l) (h' : Chain m p l') : l = l' := by
  induction l generalizing p l' with
  | nil =>
    cases l' with
    | nil => rfl
    | cons a t => have h1 : p = none := h; have := h'.1; rw [h1] at this; cases this
  | cons a t ih =>
    cases l' with
    | nil => have h1 : p = none := h'; have := h.1; rw [h1] at this; cases this
    | cons b u =>
      have e := h.1.symm.trans h'.1
      cases e
      rw [ih h.2 h'.2]

/-- The stored elements are determined by the state. -/
theorem Holds.unique {s : St V} {xs ys : List V} (h : Holds s xs) (h' : Holds s ys) : xs = ys := by
  obtain ⟨l, hl, rfl⟩ := h
  obtain ⟨l', hl', rfl⟩ := h'
  rw [hl.unique hl']

/-! ## Size -/

theorem size_exec {τ : List (Ev (Op V) (Ret V))} {s : St V} (h : Exec Step St.init τ s) :
    s.size = BitVec.ofInt 32 ((pushDone τ : Int) - popDone τ) := by
  refine Exec.invariant (fun τ s => s.size = BitVec.ofInt 32 ((pushDone τ : Int) - popDone τ)) ?_ ?_ ?_ h
  · rfl
  · intro τ s s' hs hst
    cases hst <;> exact hs
  · intro τ s e s' hs hst
    cases hst with
    | pushAdd t hp =>
      simp only [pushDone, popDone] at hs ⊢
      simp only [List.countP_append, List.countP_singleton, hs]
      simp only [if_true, Bool.false_eq_true, if_false, Nat.add_zero]
      rw [show ((1 : BitVec 32)) = BitVec.ofInt 32 1 from rfl, ← BitVec.ofInt_add]
      congr 1
      push_cast
      omega
    | popSub t v ok hp =>
      simp only [pushDone, popDone] at hs ⊢
      simp only [List.countP_append, List.countP_singleton, hs]
      simp only [if_true, Bool.false_eq_true, if_false, Nat.add_zero]
      rw [show ((1 : BitVec 32)) = BitVec.ofInt 32 1 from rfl, BitVec.sub_eq_add_neg, ← BitVec.ofInt_neg, ← BitVec.ofInt_add]
      congr 1
      push_cast
      omega
    | _ => simpa [pushDone, popDone] using hs

theorem popDone_split (τ : List (Ev (Op V) (Ret V))) : popDone τ = (popRets τ).length + popFailed τ := by
  induction τ with
  | nil => rfl
  | cons e τ ih =>
    simp only [popDone, popRets, popFailed] at ih ⊢
    rcases e with ⟨t, op⟩ | ⟨t, r⟩
    · simpa using ih
    · rcases r with _ | ⟨v, ok⟩ | _ | _
      · simpa using ih
      · cases ok <;> simp [ih] <;> omega
      · simpa using ih
      · simpa using ih

/-- C31, the exact behaviour: at rest, and if nobody has called `Clear`, the 32-bit counter holds the number of
stored elements minus the number of `PopFront` calls that found the list empty. -/
theorem C31_size_exact {τ : List (Ev (Op V) (Ret V))} {s : St V} (h : Exec Step St.init τ s) (hq : Quiescent s)
    (hN : NoClear τ) : ∃ xs, Holds s xs ∧ s.size = BitVec.ofInt 32 ((xs.length : Int) - popFailed τ) := by
  obtain ⟨a, ha, ⟨l, hI, hv⟩, hst⟩ := linearizable_of_simulation Rel Rel.init sim h
  obtain ⟨_, P, D, Q, hP, hD, hQ, hperm, hcount⟩ := cons_exec ha hN
  have hidle : ∀ t, a.th t = .idle := fun t => by rw [hst, hq t]; rfl
  rw [hP.eq_nil (fun t => by rw [hidle t]; rfl), hD.eq_nil (fun t => by rw [hidle t]; rfl)] at hperm
  rw [hP.eq_nil (fun t => by rw [hidle t]; rfl), hQ.eq_nil (fun t => by rw [hidle t]; rfl)] at hcount
  refine ⟨a.s, ⟨l, hI.chain, hv⟩, ?_⟩
  rw [size_exec h, popDone_split]
  have := hperm.length_eq
  simp at this hcount
  congr 1
  omega

/-- C31 as far as it is true: at rest, if nobody has called `Clear` and no `PopFront` has found the list empty,
`Size` is the number of stored elements (below 2^31) and `Empty` agrees.  Missing: executions with `Clear` or
with a `PopFront` on the empty list, where `Size` is wrong, see `C31_size_exact` and `C31_false`. -/
theorem C31_size_partial {τ : List (Ev (Op V) (Ret V))} {s : St V} (h : Exec Step St.init τ s) (hq : Quiescent s)
    (hN : NoClear τ) (hF : popFailed τ = 0) :
    ∃ xs, Holds s xs ∧ (xs.length < 2 ^ 31 → size s = xs.length) ∧ (isEmpty s = true ↔ xs = []) := by
  obtain ⟨xs, hx, hs⟩ := C31_size_exact h hq hN
  refine ⟨xs, hx, fun hlt => ?_, ?_⟩
  · unfold size
    rw [hs, hF, BitVec.toInt_ofInt]
    have : (xs.length : Int) < 2 ^ 31 := by exact_mod_cast hlt
    simp only [Int.bmod]
    norm_num
    rw [Int.emod_eq_of_lt (by omega) (by omega)]
    split <;> omega
  · obtain ⟨l, hl, rfl⟩ := hx
    unfold isEmpty
    cases l with
    | nil => have : s.head = none := hl; simp [this]
    | cons a t => simp [hl.1]

/-- C31 is false of the code: one `PopFront` on an empty list leaves `Size` at -1, and one `PushFront` followed
by `Clear` leaves it at 1 although nothing is stored. -/
theorem C31_false :
    (∃ (τ : List (Ev (Op V) (Ret V))) (s : St V), Exec Step St.init τ s ∧ Quiescent s ∧ Holds s [] ∧ size s = -1) ∧
    ∀ v : V, ∃ (τ : List (Ev (Op V) (Ret V))) (s : St V),
      Exec Step St.init τ s ∧ pushCalls τ = [v] ∧ Quiescent s ∧ Holds s [] ∧ size s = 1 := by
  have idle : ∀ (t t' : Nat) (f : Nat → PC V), (∀ t', f t' = .idle) → setAt f t .idle t' = .idle := by
    intro t t' f hf
    simp [setAt, hf]
  constructor
  · refine ⟨_, _, .visible (.silent (.visible (.refl _) (.callPop _ 0 rfl)) (.popNil _ 0 ?_ rfl))
      (.popSub _ 0 default false ?_), ?_, ⟨[], rfl, rfl⟩, ?_⟩
    · simp [setAt_same]
    · simp [setAt_same]
    · intro t
      by_cases e : t = 0 <;> simp [setAt, St.init, e]
    · rfl
  · intro v
    refine ⟨_, _, .visible (.silent (.visible (.visible (.silent (.silent (.visible (.refl _) (.callPush _ 0 v rfl))
      (.pushLoad _ 0 v 0 ?_)) (.pushCasOk _ 0 v 0 ?_ ?_)) (.pushAdd _ 0 ?_)) (.callClear _ 0 ?_))
      (.clear _ 0 ?_)) (.retClear _ 0 ?_), rfl, ?_, ⟨[], rfl, rfl⟩, ?_⟩
    any_goals simp [setAt, St.init]
    · intro t
      by_cases e : t = 0 <;> simp [setAt, e]
    · rfl

/-- Two goroutines: 1 reads the head, 0 pushes 7, the CAS of 1 fails, it retries, pushes 8; the list is 8, 7. -/
example : ∃ (τ : List (Ev (Op Nat) (Ret Nat))) (s : St Nat), Exec Step St.init τ s ∧ Quiescent s ∧ NoClear τ ∧
    popFailed τ = 0 ∧ Holds s [8, 7] := by
  refine ⟨_, _, .visible (.silent (.silent (.silent (.visible (.silent (.silent (.silent (.visible (.visible (.refl _)
    (.callPush _ 0 7 rfl)) (.callPush _ 1 8 ?_)) (.pushLoad _ 1 8 1 ?_)) (.pushLoad _ 0 7 0 ?_)) (.pushCasOk _ 0 7 0 ?_ ?_))
    (.pushAdd _ 0 ?_)) (.pushCasFail _ 1 8 1 ?_ ?_)) (.pushLoad _ 1 8 1 ?_)) (.pushCasOk _ 1 8 1 ?_ ?_)) (.pushAdd _ 1 ?_),
    ?_, ?_, ?_, ?_⟩
  any_goals simp [setAt, St.init]
  · intro t
    by_cases e : t = 0 <;> by_cases e1 : t = 1 <;> simp [setAt, e, e1]
  · simp [NoClear]
  · simp [popFailed]
  · exact ⟨[1, 0], by simp [Chain, setAt], by simp [setAt]⟩

/-- C30_conservation and C31_size_exact after a push and a pop that finds nothing. -/
example : ∃ s : St Nat, Exec Step St.init [.call 0 (.push 7), .ret 0 (.pushed true)] s ∧ (∃ xs, Holds s xs ∧ [7].Perm ([] ++ xs)) ∧
    ∃ xs, Holds s xs ∧ s.size = BitVec.ofInt 32 ((xs.length : Int) - (0 : Nat)) := by
  have h0 := Exec.refl (step := Step) (St.init : St Nat)
  have h1 := h0.visible (.callPush _ 0 7 rfl)
  have h2 := h1.silent (.pushLoad _ 0 7 0 rfl)
  have h3 := h2.silent (.pushCasOk _ 0 7 0 rfl rfl)
  have h4 := h3.visible (.pushAdd _ 0 rfl)
  refine ⟨_, h4, C30_conservation h4 ?_ (by simp [NoClear]), C31_size_exact h4 ?_ (by simp [NoClear])⟩
  all_goals
    intro t
    by_cases e : t = 0 <;> simp [setAt, St.init, e]

end Verif.LFQueue
