import Verif.Model.LFDequeWatch
import Verif.Props.LFDeque
import Verif.Spec.LinCheck
/-!
# Property C136: the lock-free deque with one producer, one consumer and any number of observers
-/

set_option linter.unusedSectionVars false

namespace Verif.LFDeque
open Verif.Spec
variable {V : Type} [Inhabited V]

/-- The sequential object: a FIFO with `Clear`, `Size`, `Empty`, and `Cap` answering `n`. -/
def fifoW (n : Nat) (l : List V) : WOp V → List V × WRet V
  | .base op => ((deque l op).1, .base (deque l op).2)
  | .quick .clear => ([], .cleared)
  | .quick .size => (l, .num (BitVec.ofNat 32 l.length))
  | .quick .empty => (l, .flag l.isEmpty)
  | .quick .cap => (l, .num (BitVec.ofNat 32 n))

/-- Goroutine 0 is the only one to call `PushBack`, goroutine 1 the only one to call `PopFront` and `Clear`; `Size`, `Empty` and
`Cap` are called by any goroutine. -/
def Roles : Option (Ev (WOp V) (WRet V)) → Prop
  | some (.call t (.base (.pushBack _))) => t = 0
  | some (.call t (.base .popFront)) => t = 1
  | some (.call _ (.base _)) => False
  | some (.call t (.quick .clear)) => t = 1
  | _ => True

/-- A new deque of `n` slots and idle goroutines. -/
def wstart (n : Nat) : WSt V := ⟨start n, fun _ => .out⟩

/-- The slot of the buffer a goroutine is about to access, and whether it is about to write it. -/
def touches : PC V → Option (BitVec 32 × Bool)
  | .pbWrite _ _ t _ => some (t, true)
  | .pfWrite _ h _ _ => some (h, true)
  | .ofRead h _ _ => some (h, false)
  | .obRead _ t _ => some (t, false)
  | _ => none

/-! ## One producer, one consumer that also clears -/

/-- The producer has seen an index word from before a `Clear`. -/
def Stale (s : St V) (v : V) : Prop :=
  ∃ h tl ht, (s.pc 0 = .pbWrite v h tl ht ∨ s.pc 0 = .pbCas v h tl ht) ∧ s.q.headtail = 0 ∧ ht ≠ 0 ∧ tl.toNat < s.q.d.length

/-- The simulation relation with `Clear`: as without, or the producer has been overtaken by a `Clear` and will load again. -/
def SpC (c : Nat) (s : St V) (a : AState (List V) (Op V) (Ret V)) : Prop :=
  Sp c s a ∨ ∃ v, Stale s v ∧ Sp c ⟨s.q, setAt s.pc 0 (.pbLoad v)⟩ a

theorem SpC.st {c : Nat} {s : St V} {a : AState (List V) (Op V) (Ret V)} (h : SpC c s a) : ∀ t, a.th t = status (s.pc t) := by
  rcases h with h | ⟨v, ⟨h', tl, ht, hp, _⟩, h⟩
  · exact h.st
  · intro t
    rw [h.st t]
    by_cases e : t = 0
    · subst e
      rcases hp with hp | hp <;> simp [setAt, hp, status]
    · simp [setAt, e]

theorem SpC.len {c : Nat} {s : St V} {a : AState (List V) (Op V) (Ret V)} (h : SpC c s a) : s.q.d.length = c + 1 := by
  rcases h with h | ⟨v, _, h⟩ <;> exact h.len

theorem SpC.bound {c : Nat} {s : St V} {a : AState (List V) (Op V) (Ret V)} (h : SpC c s a) : c + 1 < 2 ^ 31 := by
  rcases h with h | ⟨v, _, h⟩ <;> exact h.bound

theorem SpC.ring {c : Nat} {s : St V} {a : AState (List V) (Op V) (Ret V)} (h : SpC c s a) :
    Ring.Rel (headTail s.q.headtail).1.toNat (headTail s.q.headtail).2.toNat s.q.d a.s := by
  rcases h with h | ⟨v, _, h⟩ <;> exact h.ring

theorem SpC.cons {c : Nat} {s : St V} {a : AState (List V) (Op V) (Ret V)} (h : SpC c s a) : ConsOk s.q a.s (s.pc 1) := by
  rcases h with h | ⟨v, _, h⟩
  · exact h.cons
  · simpa [setAt] using h.cons

theorem SpC.rest {c : Nat} {s : St V} {a : AState (List V) (Op V) (Ret V)} (h : SpC c s a) : ∀ t, t ≠ 0 → t ≠ 1 → s.pc t = .idle := by
  rcases h with h | ⟨v, _, h⟩
  · exact h.rest
  · intro t h0 h1
    simpa [setAt, h0] using h.rest t h0 h1

/-- Emptied by a `Clear`. -/
theorem ring_zero {d l : List V} (h : Ring.Rel (headTail (0 : BitVec 64)).1.toNat (headTail (0 : BitVec 64)).2.toNat d l) : l = [] :=
  h.empty_iff.1 rfl

theorem ring_nil (d : List V) (h : 0 < d.length) :
    Ring.Rel (headTail (0 : BitVec 64)).1.toNat (headTail (0 : BitVec 64)).2.toNat d [] := by
  have e : headTail (0 : BitVec 64) = (0, 0) := rfl
  rw [e]
  exact ⟨by simpa using h, by simpa using h, by simp [Ring.wrap], by simp⟩

/-- A step of the consumer or an idle goroutine while the producer is overtaken. -/
theorem stale_goto {c : Nat} {s : St V} {v : V} {a : AState (List V) (Op V) (Ret V)} (hst : Stale s v)
    (h : Sp c ⟨s.q, setAt s.pc 0 (.pbLoad v)⟩ a) (p : PC V) (hp : ConsOk s.q a.s p) (th : Nat → AStatus (Op V) (Ret V))
    (hth : ∀ t, th t = status (setAt (setAt s.pc 0 (.pbLoad v)) 1 p t)) : SpC c (s.goto 1 p) ⟨a.s, th⟩ := by
  refine .inr ⟨v, ?_, ?_⟩
  · obtain ⟨h', tl, ht, h1, h2⟩ := hst
    exact ⟨h', tl, ht, by simpa [St.goto, setAt] using h1, h2⟩
  · have := h.gotoC p hp th hth
    have e : setAt (setAt s.pc 0 (.pbLoad v)) 1 p = setAt (setAt s.pc 1 p) 0 (.pbLoad v) := by
      funext t
      by_cases e0 : t = 0
      · subst e0; simp [setAt]
      · simp [setAt, e0]
    simp only [St.goto] at this ⊢
    rw [e] at this
    exact this

/-- One step of an operation that inserts or removes. -/
theorem spc_sim {c : Nat} (s : St V) (a : AState (List V) (Op V) (Ret V)) (e : Option (Ev (Op V) (Ret V))) (s' : St V)
    (hS : SpC c s a) (hs : Step s e s' ∧ Spsc e) : ∃ a', Exec (AStep deque) a e.toList a' ∧ SpC c s' a' := by
  rcases hS with hS | ⟨v0, hst, hS⟩
  · obtain ⟨a', h1, h2⟩ := sp_sim s a e s' hS hs
    exact ⟨a', h1, .inl h2⟩
  · obtain ⟨hs, hsp⟩ := hs
    have hC : SpC c s a := .inr ⟨v0, hst, hS⟩
    obtain ⟨h', tl', ht', hpc, hz, hne, hlt⟩ := hst
    have hst : Stale s v0 := ⟨h', tl', ht', hpc, hz, hne, hlt⟩
    have hnil : a.s = [] := by
      have := hS.ring
      simp only [hz] at this
      exact ring_zero this
    have hcons := hC.cons
    rw [hnil] at hcons
    have h01 : ∀ t, s.pc t ≠ .idle → t ≠ 0 → t = 1 := by
      intro t h1 h2
      by_contra h3
      exact h1 (hC.rest t h2 h3)
    have hth : ∀ t, a.th t = status (setAt s.pc 0 (.pbLoad v0) t) := hS.st
    cases hs with
    | callPB t v hp =>
      obtain rfl : t = 0 := hsp
      rw [hp] at hpc
      rcases hpc with hpc | hpc <;> cases hpc
    | callPF t v hp => exact absurd hsp (by simp [Spsc])
    | callOB t hp => exact absurd hsp (by simp [Spsc])
    | callOF t hp =>
      obtain rfl : t = 1 := hsp
      exact ⟨_, Exec.one (.call a 1 .popFront (by rw [hC.st, hp]; rfl)),
        stale_goto hst hS (.ofLoad default) (fun _ => rfl) _
          (status_set (s := ⟨s.q, setAt s.pc 0 (.pbLoad v0)⟩) hth 1 _ _ rfl)⟩
    | pbLoad t v hp =>
      by_cases h0 : t = 0
      · subst h0
        rw [hp] at hpc
        rcases hpc with hpc | hpc <;> cases hpc
      · obtain rfl := h01 t (by rw [hp]; simp) h0
        rw [hp] at hcons
        exact absurd hcons (by simp [ConsOk])
    | pbWrite t v h tl ht hp =>
      by_cases h0 : t = 0
      · subst h0
        rw [hp] at hpc
        have hv : v = v0 ∧ tl = tl' ∧ ht = ht' := by
          rcases hpc with hpc | hpc
          · cases hpc; exact ⟨rfl, rfl, rfl⟩
          · cases hpc
        obtain ⟨rfl, rfl, rfl⟩ := hv
        refine ⟨a, .refl _, ?_⟩
        unfold Go.set
        rw [if_pos hlt]
        refine .inr ⟨v, ⟨h, tl, ht, .inr (by simp [setAt]), hz, hne, by simpa using hlt⟩, ?_⟩
        have e : setAt (setAt s.pc 0 (.pbCas v h tl ht)) 0 (.pbLoad v) = setAt s.pc 0 (.pbLoad v) := by
          funext t
          by_cases e0 : t = 0 <;> simp [setAt, e0]
        simp only [e]
        refine ⟨by simpa using hS.len, hS.bound, ?_, by simp [setAt, ProdOk], ?_, hS.rest, hS.st⟩
        · simp only [hz, hnil]
          exact ring_nil _ (by rw [List.length_set]; omega)
        · simp only [setAt_ne s.pc 0 1 _ (by decide), hnil]
          cases hpc1 : s.pc 1 <;> rw [hpc1] at hcons <;> simp [ConsOk] at hcons ⊢
          exact hcons
      · obtain rfl := h01 t (by rw [hp]; simp) h0
        rw [hp] at hcons
        exact absurd hcons (by simp [ConsOk])
    | pbCas t v h tl ht hp =>
      by_cases h0 : t = 0
      · subst h0
        rw [hp] at hpc
        have hv : v = v0 ∧ ht = ht' := by
          rcases hpc with hpc | hpc
          · cases hpc
          · cases hpc; exact ⟨rfl, rfl⟩
        obtain ⟨rfl, rfl⟩ := hv
        rw [if_neg (by rw [hz]; exact fun e => hne e.symm)]
        exact ⟨a, .refl _, .inl hS⟩
      · obtain rfl := h01 t (by rw [hp]; simp) h0
        rw [hp] at hcons
        exact absurd hcons (by simp [ConsOk])
    | ofLoad t v hp =>
      obtain rfl := h01 t (by rw [hp]; simp) (by
        rintro rfl
        rw [hp] at hpc
        rcases hpc with hpc | hpc <;> cases hpc)
      rw [hp] at hcons
      have hv : v = default := hcons rfl
      subst hv
      rw [if_pos (by rw [hz]; rfl)]
      refine ⟨_, Exec.one (.effect a 1 .popFront (by rw [hC.st, hp]; rfl)), ?_⟩
      have := stale_goto hst hS (.ret (.popped default false)) (by simp [ConsOk]) (setAt a.th 1 (.done (.popped default false)))
        (status_set (s := ⟨s.q, setAt s.pc 0 (.pbLoad v0)⟩) hth 1 _ _ rfl)
      rw [hnil] at this ⊢
      exact this
    | ret t r hp =>
      obtain rfl := h01 t (by rw [hp]; simp) (by
        rintro rfl
        rw [hp] at hpc
        rcases hpc with hpc | hpc <;> cases hpc)
      exact ⟨_, Exec.one (.ret a 1 r (by rw [hC.st, hp]; rfl)),
        stale_goto hst hS .idle trivial _ (status_set (s := ⟨s.q, setAt s.pc 0 (.pbLoad v0)⟩) hth 1 _ _ rfl)⟩
    | pfLoad t v hp | pfWrite t v h tl ht hp | pfCas t v h tl ht hp | obLoad t v hp | obRead t h tl ht hp | obCas t v h tl ht hp
    | ofRead t h tl ht hp | ofCas t v h tl ht hp =>
      obtain rfl := h01 t (by rw [hp]; simp) (by
        rintro rfl
        rw [hp] at hpc
        rcases hpc with hpc | hpc <;> cases hpc)
      rw [hp] at hcons
      exact absurd hcons (by simp [ConsOk])

/-- `Clear` by the consumer, which is then in no other operation. -/
theorem spc_clear {c : Nat} (s : St V) (a : AState (List V) (Op V) (Ret V)) (hS : SpC c s a) (h1 : s.pc 1 = .idle) :
    SpC c ⟨clear s.q, s.pc⟩ ⟨[], a.th⟩ := by
  have hlen : 0 < s.q.d.length := by rw [hS.len]; omega
  have key : ∀ pc : Nat → PC V, pc 1 = .idle → (∀ t, t ≠ 0 → t ≠ 1 → pc t = .idle) → (∀ t, a.th t = status (pc t)) →
      ProdOk (clear s.q) (pc 0) → Sp c ⟨clear s.q, pc⟩ ⟨[], a.th⟩ := by
    intro pc p1 p2 p3 p4
    exact ⟨hS.len, hS.bound, ring_nil _ hlen, p4, by simp only [p1]; trivial, p2, p3⟩
  have stale : ∀ v h tl ht, (s.pc 0 = .pbWrite v h tl ht ∨ s.pc 0 = .pbCas v h tl ht) → ht ≠ 0 → tl.toNat < s.q.d.length →
      SpC c ⟨clear s.q, s.pc⟩ ⟨[], a.th⟩ := by
    intro v h tl ht hp hne hlt
    refine .inr ⟨v, ⟨h, tl, ht, hp, rfl, hne, hlt⟩, key _ ?_ ?_ ?_ ?_⟩
    · simpa [setAt] using h1
    · intro t t0 t1
      simpa [setAt, t0] using hS.rest t t0 t1
    · intro t
      rw [hS.st t]
      by_cases e : t = 0
      · subst e; rcases hp with hp | hp <;> simp [setAt, hp, status]
      · simp [setAt, e]
    · simp [setAt, ProdOk]
  have hrest := hS.rest
  have hstat := hS.st
  rcases hS with hS' | ⟨v, ⟨h, tl, ht, hp, _, hne, hlt⟩, hS'⟩
  · have hpr := hS'.prod
    cases hp : s.pc 0 with
    | pbWrite v h tl ht =>
      rw [hp] at hpr
      obtain ⟨p1, p2, p3⟩ := hpr
      by_cases hz : ht = 0
      · subst hz
        have ez : headTail (0 : BitVec 64) = (0, 0) := rfl
        rw [ez] at p1
        cases p1
        refine .inl (key _ h1 hrest hstat ?_)
        rw [hp]
        exact ⟨rfl, (congrArg Prod.snd ez).symm, p3⟩
      · exact stale v h tl ht (.inl hp) hz (by rw [p2]; exact hS'.ring.tail_lt)
    | pbCas v h tl ht =>
      rw [hp] at hpr
      obtain ⟨p1, p2, p3, p4⟩ := hpr
      by_cases hz : ht = 0
      · subst hz
        have ez : headTail (0 : BitVec 64) = (0, 0) := rfl
        rw [ez] at p1
        cases p1
        refine .inl (key _ h1 hrest hstat ?_)
        rw [hp]
        exact ⟨rfl, (congrArg Prod.snd ez).symm, p3, p4⟩
      · exact stale v h tl ht (.inr hp) hz (by rw [p2]; exact hS'.ring.tail_lt)
    | _ =>
      refine .inl (key _ h1 hrest hstat ?_)
      rw [hp] at hpr ⊢
      exact hpr
  · exact stale v h tl ht hp hne hlt

/-! ## With the quick operations -/

/-- What a goroutine looks like from the atomic object with all operations. -/
def upStatus : AStatus (Op V) (Ret V) → AStatus (WOp V) (WRet V)
  | .idle => .idle
  | .pending op => .pending (.base op)
  | .done r => .done (.base r)

/-- The goroutines in quick operations joined to the others. -/
def joinTh (th : Nat → AStatus (Op V) (Ret V)) (w : Nat → WPC V) (t : Nat) : AStatus (WOp V) (WRet V) :=
  match w t with
  | .out => upStatus (th t)
  | .before k => .pending (.quick k)
  | .after r => .done r

theorem joinTh_set {th : Nat → AStatus (Op V) (Ret V)} {w : Nat → WPC V} {t : Nat} (hw : w t = .out)
    (x : AStatus (Op V) (Ret V)) : joinTh (setAt th t x) w = setAt (joinTh th w) t (upStatus x) := by
  funext u
  by_cases e : u = t
  · subst e; simp [joinTh, setAt, hw]
  · simp [joinTh, setAt, e]

/-- Executions of the smaller atomic object are executions of the larger one. -/
theorem lift_exec {n : Nat} {w : Nat → WPC V} {a a' : AState (List V) (Op V) (Ret V)} {τ : List (Ev (Op V) (Ret V))}
    (h : Exec (AStep deque) a τ a') (hidle : ∀ t, w t ≠ .out → a.th t = .idle)
    (hcall : ∀ t op, .call t op ∈ τ → w t = .out) :
    Exec (AStep (fifoW n)) ⟨a.s, joinTh a.th w⟩ (τ.map up) ⟨a'.s, joinTh a'.th w⟩ ∧ ∀ t, w t ≠ .out → a'.th t = .idle := by
  induction h with
  | refl => exact ⟨.refl _, hidle⟩
  | @silent b _ _ _ hs ih =>
    obtain ⟨h1, h2⟩ := ih hcall
    cases hs with
    | effect t op hp =>
      have hw : w t = .out := by
        by_contra hw
        rw [h2 t hw] at hp; cases hp
      refine ⟨?_, fun u hu => ?_⟩
      · have := AStep.effect (seq := fifoW n) ⟨b.s, joinTh b.th w⟩ t (.base op) (by simp [joinTh, hw, hp, upStatus])
        simp only [joinTh_set hw]
        exact .silent h1 this
      · have : u ≠ t := fun e => hu (e ▸ hw)
        simpa [setAt, this] using h2 u hu
  | @visible b _ τ' e _ hs ih =>
    obtain ⟨h1, h2⟩ := ih fun t op h => hcall t op (List.mem_append_left _ h)
    rw [List.map_append]
    cases hs with
    | call t op hp =>
      have hw : w t = .out := hcall t op (List.mem_append_right _ (List.mem_singleton.2 rfl))
      refine ⟨?_, fun u hu => ?_⟩
      · have := AStep.call (seq := fifoW n) ⟨b.s, joinTh b.th w⟩ t (.base op) (by simp [joinTh, hw, hp, upStatus])
        simp only [joinTh_set hw]
        exact .visible h1 this
      · have : u ≠ t := fun e => hu (e ▸ hw)
        simpa [setAt, this] using h2 u hu
    | ret t r hp =>
      have hw : w t = .out := by
        by_contra hw
        rw [h2 t hw] at hp; cases hp
      refine ⟨?_, fun u hu => ?_⟩
      · have := AStep.ret (seq := fifoW n) ⟨b.s, joinTh b.th w⟩ t (.base r) (by simp [joinTh, hw, hp, upStatus])
        simp only [joinTh_set hw]
        exact .visible h1 this
      · have : u ≠ t := fun e => hu (e ▸ hw)
        simpa [setAt, this] using h2 u hu

/-- The simulation relation. -/
structure Wp (n : Nat) (s : WSt V) (a : AState (List V) (WOp V) (WRet V)) : Prop where
  ex : ∃ th, SpC (n - 1) s.base ⟨a.s, th⟩ ∧ a.th = joinTh th s.w
  idle : ∀ t, s.w t ≠ .out → s.base.pc t = .idle
  one : ∀ t, s.w t = .before .clear → t = 1

theorem rep_of_spc {c : Nat} {s : St V} {a : AState (List V) (Op V) (Ret V)} (h : SpC c s a) : Rep c s.q a.s :=
  .inl ⟨h.len, h.bound, h.ring⟩

/-- An access that does not change anything, or empties the deque, joined to the goroutines of the atomic object. -/
theorem joinTh_w {th : Nat → AStatus (Op V) (Ret V)} {w : Nat → WPC V} {t : Nat} (p : WPC V) (x : AStatus (WOp V) (WRet V))
    (hx : x = joinTh th (setAt w t p) t) : setAt (joinTh th w) t x = joinTh th (setAt w t p) := by
  funext u
  by_cases e : u = t
  · subst e; simp [setAt, hx]
  · simp [joinTh, setAt, e]

theorem pc_idle_keep {s s' : St V} {e : Option (Ev (Op V) (Ret V))} (h : Step s e s') (t : Nat) (ht : s.pc t = .idle)
    (hc : ∀ op, e ≠ some (.call t op)) : s'.pc t = .idle := by
  have key : ∀ (u : Nat) (p : PC V), s.pc u ≠ .idle → setAt s.pc u p t = .idle := by
    intro u p hu
    have : t ≠ u := fun e => hu (e ▸ ht)
    simpa [setAt, this] using ht
  cases h with
  | callPB u v hp | callPF u v hp | callOF u hp | callOB u hp =>
    have : t ≠ u := fun e => hc _ (by rw [e])
    simpa [St.goto, setAt, this] using ht
  | pbLoad u v hp | pfLoad u v hp | ofLoad u v hp | obLoad u v hp => exact key u _ (by rw [hp]; simp)
  | ofRead u h tl x hp | obRead u h tl x hp => exact key u _ (by rw [hp]; simp)
  | pbWrite u v h tl x hp | pfWrite u v h tl x hp => split <;> exact key u _ (by rw [hp]; simp)
  | pbCas u v h tl x hp | pfCas u v h tl x hp | ofCas u v h tl x hp | obCas u v h tl x hp =>
    split <;> exact key u _ (by rw [hp]; simp)
  | ret u r hp => exact key u _ (by rw [hp]; simp)

theorem quickAns_eq {c : Nat} {s : St V} {a : AState (List V) (Op V) (Ret V)} (h : SpC c s a) (k : Quick) :
    quickAns s.q k = (fifoW (c + 1) a.s (.quick k)).2 := by
  have hs := size_rep (rep_of_spc h)
  have hsz : size s.q = BitVec.ofNat 32 a.s.length := by
    rw [← hs, BitVec.ofNat_toNat, BitVec.setWidth_eq]
  cases k with
  | clear => rfl
  | size => simp only [quickAns, fifoW, hsz]
  | empty =>
    simp only [quickAns, fifoW, empty]
    congr 1
    rw [Bool.eq_iff_iff]
    simp only [beq_iff_eq, List.isEmpty_iff]
    rw [← BitVec.toNat_inj, hs]
    simp
  | cap => simp only [quickAns, fifoW, cap, h.len]

theorem wp_sim {n : Nat} (h0 : 0 < n) (s : WSt V) (a : AState (List V) (WOp V) (WRet V)) (e : Option (Ev (WOp V) (WRet V)))
    (s' : WSt V) (hS : Wp n s a) (hs : WStep s e s' ∧ Roles e) :
    ∃ a', Exec (AStep (fifoW n)) a e.toList a' ∧ Wp n s' a' := by
  obtain ⟨hs, hr⟩ := hs
  obtain ⟨⟨th, hC, hth⟩, hidle, hone⟩ := hS
  obtain ⟨l, ath⟩ := a
  simp only at hth hC
  subst hth
  cases hs with
  | base e b hb hcall =>
    have hsp : Spsc e := by
      rcases e with _ | (⟨t, op⟩ | ⟨t, r⟩)
      · trivial
      · cases op <;> exact hr
      · trivial
    obtain ⟨⟨l', th'⟩, h1, h2⟩ := spc_sim s.base ⟨l, th⟩ e b hC ⟨hb, hsp⟩
    have hc' : ∀ t op, .call t op ∈ e.toList → s.w t = .out := by
      intro t op h
      rcases e with _ | e
      · cases h
      · simp only [Option.toList_some, List.mem_singleton] at h
        exact hcall t op (by rw [h])
    obtain ⟨h3, h4⟩ := lift_exec (n := n) (w := s.w) h1 (fun t ht => by rw [hC.st t, hidle t ht]; rfl) hc'
    refine ⟨⟨l', joinTh th' s.w⟩, ?_, ⟨th', h2, rfl⟩, ?_, hone⟩
    · have e1 : (e.map up).toList = e.toList.map up := by cases e <;> rfl
      rw [e1]
      exact h3
    · intro t ht
      exact pc_idle_keep hb t (hidle t ht) fun op he => ht (hcall t op he)
  | call t k hp hw =>
    refine ⟨_, Exec.one (AStep.call ⟨l, joinTh th s.w⟩ t (.quick k) ?_), ⟨th, hC, ?_⟩, ?_, ?_⟩
    · have := hC.st t
      simp only at this
      simp [joinTh, hw, this, hp, status, upStatus]
    · exact joinTh_w _ _ (by simp [joinTh, setAt])
    · intro u hu
      by_cases e : u = t
      · subst e; exact hp
      · exact hidle u (by simpa [setAt, e] using hu)
    · intro u hu
      by_cases e : u = t
      · subst e
        simp only [setAt_same, WPC.before.injEq] at hu
        subst hu
        exact hr
      · exact hone u (by simpa [setAt, e] using hu)
  | access t k hw =>
    have hcap : n - 1 + 1 = n := by omega
    have hans := quickAns_eq hC k
    rw [hcap] at hans
    refine ⟨_, Exec.one (AStep.effect ⟨l, joinTh th s.w⟩ t (.quick k) (by simp [joinTh, hw])), ⟨th, ?_, ?_⟩, ?_, ?_⟩
    · cases k with
      | clear =>
        have h1 := hone t hw
        subst h1
        exact spc_clear _ _ hC (hidle 1 (by rw [hw]; simp))
      | size => exact hC
      | empty => exact hC
      | cap => exact hC
    · refine joinTh_w _ _ ?_
      simp only [joinTh, setAt_same]
      rw [hans]
    · intro u hu
      by_cases e : u = t
      · subst e; exact hidle u (by rw [hw]; simp)
      · exact hidle u (by simpa [setAt, e] using hu)
    · intro u hu
      by_cases e : u = t
      · subst e; simp [setAt] at hu
      · exact hone u (by simpa [setAt, e] using hu)
  | ret t r hw =>
    refine ⟨_, Exec.one (AStep.ret ⟨l, joinTh th s.w⟩ t r (by simp [joinTh, hw])), ⟨th, hC, ?_⟩, ?_, ?_⟩
    · refine joinTh_w _ _ ?_
      have := hC.st t
      simp only at this
      simp [joinTh, setAt, this, hidle t (by rw [hw]; simp), status, upStatus]
    · intro u hu
      by_cases e : u = t
      · subst e; simp [setAt] at hu
      · exact hidle u (by simpa [setAt, e] using hu)
    · intro u hu
      by_cases e : u = t
      · subst e; simp [setAt] at hu
      · exact hone u (by simpa [setAt, e] using hu)

theorem wp_reach (n : Nat) (h0 : 0 < n) (hn : n < 2 ^ 31) {τ : List (Ev (WOp V) (WRet V))} {s : WSt V}
    (h : Exec (fun s e s' => WStep s e s' ∧ Roles e) (wstart n) τ s) :
    ∃ a, Exec (AStep (fifoW n)) (AState.init []) τ a ∧ Wp n s a := by
  refine linearizable_of_simulation (Wp n) ?_ (wp_sim h0) h
  exact ⟨⟨fun _ => .idle, .inl (sp_init n h0 hn), by funext t; rfl⟩, fun t ht => absurd rfl ht, fun t ht => by cases ht⟩

/-! ## C136 -/

/-- C136: one goroutine calls `PushBack`, another one `PopFront` and `Clear`, and any number of goroutines call `Size`, `Empty` and
`Cap`.  Under every interleaving the deque of `n` slots is linearizable to the FIFO with these operations. -/
theorem C136_linearizable (n : Nat) (h0 : 0 < n) (hn : n < 2 ^ 31) :
    Linearizable (fun (s : WSt V) e s' => WStep s e s' ∧ Roles e) (wstart n) (fifoW n) [] := by
  intro τ s h
  obtain ⟨a, ha, _⟩ := wp_reach n h0 hn h
  exact ⟨a, ha⟩

/-- C136: no goroutine ever panics, and never are two goroutines both about to access the same slot of the buffer while one of the
accesses is a write. -/
theorem C136_no_race (n : Nat) (h0 : 0 < n) (hn : n < 2 ^ 31) {τ : List (Ev (WOp V) (WRet V))} {s : WSt V}
    (h : Exec (fun s e s' => WStep s e s' ∧ Roles e) (wstart n) τ s) :
    (∀ t, s.base.pc t ≠ .crashed) ∧
    ∀ t u i j b, t ≠ u → touches (s.base.pc t) = some (i, true) → touches (s.base.pc u) = some (j, b) → i ≠ j := by
  obtain ⟨a, _, ⟨th, hC, _⟩, _, _⟩ := wp_reach n h0 hn h
  have h01 : ∀ t, s.base.pc t ≠ .idle → t = 0 ∨ t = 1 := by
    intro t ht
    by_contra hc
    exact ht (hC.rest t (fun e => hc (.inl e)) (fun e => hc (.inr e)))
  have hcons := hC.cons
  refine ⟨?_, ?_⟩
  · intro t e
    rcases h01 t (by rw [e]; simp) with rfl | rfl
    · rcases hC with hC | ⟨v, ⟨_, _, _, hp, _⟩, _⟩
      · have := hC.prod
        rw [e] at this
        exact this
      · rw [e] at hp; rcases hp with hp | hp <;> cases hp
    · rw [e] at hcons
      exact hcons
  · intro t u i j b htu h1 h2 hij
    subst hij
    rcases h01 t (fun e => by rw [e] at h1; cases h1) with rfl | rfl
    · rcases h01 u (fun e => by rw [e] at h2; cases h2) with rfl | rfl
      · exact htu rfl
      · cases hp1 : s.base.pc 1 with
        | ofRead h' tl' ht' =>
          rw [hp1] at hcons h2
          obtain ⟨r1, r2, r3⟩ := hcons
          cases h2
          rcases hC with hC | ⟨v, ⟨_, _, _, hp, hz, _⟩, hC⟩
          · have hprod := hC.prod
            cases hp0 : s.base.pc 0 with
            | pbWrite v h tl ht =>
              rw [hp0] at hprod h1
              cases h1
              obtain ⟨p1, p2, p3⟩ := hprod
              exact r3 (hC.ring.empty_iff.1 (by rw [← r2, ← p2]))
            | pfWrite v h tl ht => rw [hp0] at hprod; exact hprod
            | _ => rw [hp0] at h1; cases h1
          · have := hC.ring
            simp only [hz] at this
            exact r3 (ring_zero this)
        | obRead h' tl' ht' => rw [hp1] at hcons; exact hcons
        | pbWrite v h' tl' ht' => rw [hp1] at hcons; exact hcons
        | pfWrite v h' tl' ht' => rw [hp1] at hcons; exact hcons
        | _ => rw [hp1] at h2; cases h2
    · cases hp1 : s.base.pc 1 with
      | pbWrite v h' tl' ht' => rw [hp1] at hcons; exact hcons
      | pfWrite v h' tl' ht' => rw [hp1] at hcons; exact hcons
      | _ => rw [hp1] at h1; cases h1

/-! ## Where it fails -/

/-- The next step of goroutine `t`, computed. -/
def wact (s : WSt V) (t : Nat) : Option (Option (Ev (WOp V) (WRet V)) × WSt V) :=
  match s.w t with
  | .before k => some (none, ⟨⟨quickDo s.base.q k, s.base.pc⟩, setAt s.w t (.after (quickAns s.base.q k))⟩)
  | .after r => some (some (.ret t r), ⟨s.base, setAt s.w t .out⟩)
  | .out => (act s.base t).map fun p => (p.1.map up, ⟨p.2, s.w⟩)

theorem act_no_call {s s' : St V} {t u : Nat} {op : Op V} (h : act s t = some (some (.call u op), s')) : False := by
  unfold act at h
  split at h <;> cases h

theorem wact_sound {s s' : WSt V} {t : Nat} {e : Option (Ev (WOp V) (WRet V))} (h : wact s t = some (e, s')) : WStep s e s' := by
  unfold wact at h
  split at h
  · cases h; exact .access s t _ (by assumption)
  · cases h; exact .ret s t _ (by assumption)
  · simp only [Option.map_eq_some_iff] at h
    obtain ⟨⟨e', b⟩, h1, h2⟩ := h
    cases h2
    exact .base s e' b (act_sound h1) fun u op he => by subst he; exact absurd h1 fun h => act_no_call h

/-- A schedule: goroutine `t` calls an operation, or takes its next step. -/
def wsched (s : WSt V) : List (Nat × Option (WOp V)) → Option (List (Ev (WOp V) (WRet V)) × WSt V)
  | [] => some ([], s)
  | (t, none) :: r => (wact s t).bind fun p => (wsched p.2 r).map fun x => (p.1.toList ++ x.1, x.2)
  | (t, some (.base (.pushBack v))) :: r =>
    match s.base.pc t, s.w t with
    | .idle, .out => (wsched ⟨s.base.goto t (.pbLoad v), s.w⟩ r).map fun x => (.call t (.base (.pushBack v)) :: x.1, x.2)
    | _, _ => none
  | (t, some (.base .popFront)) :: r =>
    match s.base.pc t, s.w t with
    | .idle, .out => (wsched ⟨s.base.goto t (.ofLoad default), s.w⟩ r).map fun x => (.call t (.base .popFront) :: x.1, x.2)
    | _, _ => none
  | (t, some (.quick k)) :: r =>
    match s.base.pc t, s.w t with
    | .idle, .out => (wsched ⟨s.base, setAt s.w t (.before k)⟩ r).map fun x => (.call t (.quick k) :: x.1, x.2)
    | _, _ => none
  | _ => none

theorem wsched_sound (r : List (Nat × Option (WOp V))) : ∀ (s s' : WSt V) (τ : List (Ev (WOp V) (WRet V))),
    wsched s r = some (τ, s') → Exec WStep s τ s' := by
  induction r with
  | nil => intro s s' τ h; cases h; exact .refl _
  | cons x r ih =>
    intro s s' τ h
    obtain ⟨t, o⟩ := x
    rcases o with _ | (op | k)
    · simp only [wsched, Option.bind_eq_some_iff, Option.map_eq_some_iff] at h
      obtain ⟨⟨e, s1⟩, h1, ⟨τ', s2⟩, h2, h3⟩ := h
      cases h3
      exact (Exec.one (wact_sound h1)).trans (ih _ _ _ h2)
    · cases op with
      | pushBack v =>
        simp only [wsched] at h
        split at h
        · rename_i hp hw
          simp only [Option.map_eq_some_iff] at h
          obtain ⟨⟨τ', s2⟩, h2, h3⟩ := h
          cases h3
          exact (Exec.one (e := some _) (.base s (some (.call t (.pushBack v))) _ (.callPB s.base t v hp)
            (fun u op he => by cases he; exact hw))).trans (ih _ _ _ h2)
        · cases h
      | popFront =>
        simp only [wsched] at h
        split at h
        · rename_i hp hw
          simp only [Option.map_eq_some_iff] at h
          obtain ⟨⟨τ', s2⟩, h2, h3⟩ := h
          cases h3
          exact (Exec.one (e := some _) (.base s (some (.call t .popFront)) _ (.callOF s.base t hp)
            (fun u op he => by cases he; exact hw))).trans (ih _ _ _ h2)
        · cases h
      | pushFront v => simp [wsched] at h
      | popBack => simp [wsched] at h
    · simp only [wsched] at h
      split at h
      · rename_i hp hw
        simp only [Option.map_eq_some_iff] at h
        obtain ⟨⟨τ', s2⟩, h2, h3⟩ := h
        cases h3
        exact (Exec.one (e := some _) (.call s t k hp hw)).trans (ih _ _ _ h2)
      · cases h

/-- An execution whose events all obey a discipline is an execution under that discipline. -/
theorem exec_filter {S E : Type} {step : S → Option E → S → Prop} {P : Option E → Prop} (h0 : P none) {s s' : S} {τ : List E}
    (h : Exec step s τ s') (hP : ∀ e ∈ τ, P (some e)) : Exec (fun s e s' => step s e s' ∧ P e) s τ s' := by
  induction h with
  | refl => exact .refl _
  | silent _ hs ih => exact .silent (ih hP) ⟨hs, h0⟩
  | visible _ hs ih =>
    exact .visible (ih fun x hx => hP x (List.mem_append_left _ hx)) ⟨hs, hP _ (List.mem_append_right _ (List.mem_singleton.2 rfl))⟩

theorem wsched_exec {s : WSt V} {r : List (Nat × Option (WOp V))} {τ : List (Ev (WOp V) (WRet V))}
    (h : (wsched s r).map Prod.fst = some τ) : ∃ s', Exec WStep s τ s' := by
  simp only [Option.map_eq_some_iff] at h
  obtain ⟨⟨τ', s'⟩, h1, rfl⟩ := h
  exact ⟨s', wsched_sound r _ _ _ h1⟩

/-- Goroutine 0 calls `PushBack` and `Clear`, goroutine 1 calls `PopFront`, and nothing else is called. -/
def ProducerClears : Option (Ev (WOp V) (WRet V)) → Prop
  | some (.call t (.base (.pushBack _))) => t = 0
  | some (.call t (.base .popFront)) => t = 1
  | some (.call t (.quick .clear)) => t = 0
  | some (.call _ _) => False
  | _ => True

/-- The producer clears the deque and inserts again while the consumer is between reading a slot and its compare-and-swap. -/
def clearTrace : List (Ev (WOp Nat) (WRet Nat)) :=
  [.call 0 (.base (.pushBack 5)), .ret 0 (.base .pushed), .call 1 (.base .popFront), .call 0 (.quick .clear), .ret 0 .cleared,
   .call 0 (.base (.pushBack 6)), .ret 0 (.base .pushed), .ret 1 (.base (.popped 5 true)),
   .call 1 (.base .popFront), .ret 1 (.base (.popped 0 false))]

/-- C136 is about a consumer that clears.  When the producer calls `Clear` instead, the deque is not linearizable: the consumer gets
5, which was inserted before the `Clear`, and removes 6, which was inserted after it and which nobody gets. -/
theorem C136_producer_clears_false :
    ¬ Linearizable (fun (s : WSt Nat) e s' => WStep s e s' ∧ ProducerClears e) (wstart 4) (fifoW 4) [] := by
  obtain ⟨s, hs⟩ : ∃ s, Exec WStep (wstart 4) clearTrace s :=
    wsched_exec (r := [(0, some (.base (.pushBack 5))), (0, none), (0, none), (0, none), (0, none),
      (1, some (.base .popFront)), (1, none), (1, none),
      (0, some (.quick .clear)), (0, none), (0, none),
      (0, some (.base (.pushBack 6))), (0, none), (0, none), (0, none), (0, none),
      (1, none), (1, none), (1, some (.base .popFront)), (1, none), (1, none)]) (by decide +kernel)
  refine not_linearizable [0, 1] (exec_filter (P := ProducerClears) trivial hs ?_) (by decide +kernel) (by decide +kernel)
  simp [clearTrace, ProducerClears]

/-- C33 is false of the code: with two producers the deque is not linearizable. -/
theorem C33_two_producers_false : ¬ Linearizable (Step (V := Nat)) (start 4) deque [] := by
  obtain ⟨s, hs⟩ := C33_concurrent_false
  exact not_linearizable [0, 1] hs (by decide +kernel) (by decide +kernel)

/-- Only goroutine 0 calls `PushBack`; any goroutine calls `PopFront`; nothing else is called. -/
def OneProducer : Option (Ev (Op V) (Ret V)) → Prop
  | some (.call t (.pushBack _)) => t = 0
  | some (.call _ .popFront) => True
  | some (.call _ _) => False
  | _ => True

/-- C33 is false of the code: with one producer and two consumers the deque is not linearizable. -/
theorem C33_two_consumers_false :
    ¬ Linearizable (fun (s : St Nat) e s' => Step s e s' ∧ OneProducer e) (start 2) deque [] := by
  obtain ⟨s, hs⟩ := C33_aba_false
  exact not_linearizable [0, 1, 2] (exec_filter (P := OneProducer) trivial hs (by simp [OneProducer])) (by decide +kernel) (by decide +kernel)

/-- C136_linearizable and C136_no_race: the producer is overtaken by a `Clear` between its load and its compare-and-swap, while goroutine 7
asks for the size. -/
example : ∃ s : WSt Nat, Exec (fun s e s' => WStep s e s' ∧ Roles e) (wstart 4)
    [.call 0 (.base (.pushBack 5)), .ret 0 (.base .pushed), .call 0 (.base (.pushBack 6)), .call 7 (.quick .size), .call 1 (.quick .clear),
     .ret 7 (.num 1), .ret 1 .cleared, .ret 0 (.base .pushed), .call 1 (.base .popFront), .ret 1 (.base (.popped 6 true))] s := by
  obtain ⟨s, hs⟩ := wsched_exec (s := (wstart 4 : WSt Nat)) (r := [(0, some (.base (.pushBack 5))), (0, none), (0, none), (0, none), (0, none),
      (0, some (.base (.pushBack 6))), (0, none), (7, some (.quick .size)), (1, some (.quick .clear)), (7, none), (0, none), (1, none),
      (7, none), (1, none), (0, none), (0, none), (0, none), (0, none), (0, none),
      (1, some (.base .popFront)), (1, none), (1, none), (1, none), (1, none)]) (τ := [.call 0 (.base (.pushBack 5)), .ret 0 (.base .pushed), .call 0 (.base (.pushBack 6)), .call 7 (.quick .size), .call 1 (.quick .clear),
     .ret 7 (.num 1), .ret 1 .cleared, .ret 0 (.base .pushed), .call 1 (.base .popFront), .ret 1 (.base (.popped 6 true))]) (by decide +kernel)
  exact ⟨s, exec_filter (P := Roles) trivial hs (by simp [Roles])⟩

/-- The check refutes wrong histories and only those: a history of the FIFO is left with a state. -/
example : (after (fifoW (V := Nat) 4) [] [0, 1] ([.call 0 (.base (.pushBack 5)), .call 1 (.base .popFront), .ret 1 (.base (.popped 5 true)),
    .ret 0 (.base .pushed)] : List (Ev (WOp Nat) (WRet Nat))).reverse).length ≠ 0 := by decide +kernel

end Verif.LFDeque
