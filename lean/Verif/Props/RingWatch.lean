import Verif.Model.RingWatch
import Verif.Spec.LinCheck
import Verif.Props.RingBufferProgress
import Verif.Props.LFDequeWatch
/-!
# C138: looking at the ring buffer while others use it
-/

set_option linter.unusedSectionVars false

namespace Verif.RingBuffer
open Verif.Spec
open Verif.LFDeque (setAt_same setAt_ne Exec.one)
variable {V : Type} [Inhabited V]

/-! ## Specification -/

/-- The sequential FIFO of `n` slots with the operations that look. -/
def fifoW (n : Nat) (l : List V) : WOp V → List V × WRet V
  | .base op => ((fifo l op).1, .base (fifo l op).2)
  | .look .size => (l, .num l.length)
  | .look .empty => (l, .flag l.isEmpty)
  | .look .cap => (l, .slots n)

/-- Who calls what: `Push`, `Pop` and `Ask` are the goroutines that call `MustPush`, `MustPop`, and `Size` or `Empty`. -/
def Roles (Push Pop Ask : Nat → Prop) : Option (Ev (WOp V) (WRet V)) → Prop
  | some (.call t (.base (.mustPush _))) => Push t
  | some (.call t (.base .mustPop)) => Pop t
  | some (.call _ (.look .cap)) => True
  | some (.call t (.look _)) => Ask t
  | _ => True

/-- A goroutine that asks is the only one that pushes, or the only one that pops. -/
def Alone (Push Pop Ask : Nat → Prop) : Prop := ∀ t, Ask t → (∀ u, Push u → u = t) ∨ (∀ u, Pop u → u = t)

/-- A buffer of `2 ^ k` slots and idle goroutines. -/
def wstart (k : Nat) : WSt V := ⟨start k, fun _ => .out⟩

/-- The events of `MustPush` and `MustPop` only. -/
def down : Ev (WOp V) (WRet V) → Option (Ev (Op V) (Ret V))
  | .call t (.base op) => some (.call t op)
  | .ret t (.base r) => some (.ret t r)
  | _ => none

/-- Fewer than 2^64 calls (less the size of the buffer). -/
def FewCalls (k : Nat) (τ : List (Ev (WOp V) (WRet V))) : Prop :=
  pushes (τ.filterMap down) + 2 ^ k < W ∧ pops (τ.filterMap down) + 1 < W

/-! ## The others are not disturbed -/

theorem down_up (e : Ev (Op V) (Ret V)) : down (up e) = some e := by cases e <;> rfl

/-- The results of `MustPush` and `MustPop` come from these operations. -/
def AfterLook : WPC V → Prop
  | .after (.base _) => False
  | _ => True

theorem afterLook_step {s s' : WSt V} {e : Option (Ev (WOp V) (WRet V))} (h : WStep s e s') (hl : ∀ t, AfterLook (s.w t)) :
    ∀ t, AfterLook (s'.w t) := by
  have key : ∀ (t : Nat) (p : WPC V), AfterLook p → ∀ u, AfterLook (setAt s.w t p u) := by
    intro t p hp u
    by_cases e : u = t
    · subst e; rw [setAt_same]; exact hp
    · rw [setAt_ne _ _ _ _ e]; exact hl u
  cases h with
  | base e b hb hc => exact hl
  | call t k hp hw => exact key t _ trivial
  | cap t hw => exact key t _ trivial
  | loadTail t k hw hk => exact key t _ trivial
  | loadHead t k tl hw => exact key t _ (by cases k <;> trivial)
  | ret t r hw => exact key t _ trivial

theorem project {s0 s : WSt V} {τ : List (Ev (WOp V) (WRet V))} (h : Exec WStep s0 τ s) (h0 : ∀ t, AfterLook (s0.w t)) :
    Exec Step s0.base (τ.filterMap down) s.base ∧ ∀ t, AfterLook (s.w t) := by
  induction h with
  | refl => exact ⟨.refl _, h0⟩
  | @silent b _ _ _ hs ih =>
    obtain ⟨h1, h2⟩ := ih
    refine ⟨?_, afterLook_step hs h2⟩
    generalize he : (none : Option (Ev (WOp V) (WRet V))) = e at hs
    cases hs with
    | base e b hb hc =>
      rcases e with _ | e
      · exact .silent h1 hb
      · cases he
    | call t k hp hw => cases he
    | cap t hw => exact h1
    | loadTail t k hw hk => exact h1
    | loadHead t k tl hw => exact h1
    | ret t r hw => cases he
  | @visible b _ τ e _ hs ih =>
    obtain ⟨h1, h2⟩ := ih
    refine ⟨?_, afterLook_step hs h2⟩
    rw [List.filterMap_append]
    generalize he : some e = e' at hs
    cases hs with
    | base e' b hb hc =>
      rcases e' with _ | e'
      · cases he
      · simp only [Option.map_some, Option.some.injEq] at he
        subst he
        simp only [List.filterMap_cons, down_up, List.filterMap_nil]
        exact .visible h1 hb
    | call t k hp hw => cases he; simpa [List.filterMap_cons, down] using h1
    | cap t hw => cases he
    | loadTail t k hw hk => cases he
    | loadHead t k tl hw => cases he
    | ret t r hw =>
      cases he
      have := h2 t
      rw [hw] at this
      cases r with
      | base r => exact this.elim
      | _ => simpa [List.filterMap_cons, down] using h1

/-- Few calls: the counters do not wrap. -/
theorem noWrap_reach (k : Nat) {τ : List (Ev (WOp V) (WRet V))} {s : WSt V} (h : Exec WStep (wstart k) τ s) (hf : FewCalls k τ) :
    NoWrap s.base ∧ ∃ a, Sim k s.base a := by
  obtain ⟨h1, _⟩ := project h fun t => trivial
  obtain ⟨_, ⟨a, h3⟩, h4⟩ := reach k _ h1 (callsBy_callers _) hf.1 hf.2
  exact ⟨h4.noWrap h3 hf.1 hf.2, a, h3⟩

theorem fewCalls_prefix {k : Nat} {τ τ' : List (Ev (WOp V) (WRet V))} (h : FewCalls k (τ ++ τ')) : FewCalls k τ := by
  have h1 : pushes (τ.filterMap down) ≤ pushes ((τ ++ τ').filterMap down) := by
    rw [List.filterMap_append]; unfold pushes; rw [List.countP_append]; omega
  have h2 : pops (τ.filterMap down) ≤ pops ((τ ++ τ').filterMap down) := by
    rw [List.filterMap_append]; unfold pops; rw [List.countP_append]; omega
  exact ⟨by have := h.1; omega, by have := h.2; omega⟩

theorem noWrap_exec (k : Nat) {P : Option (Ev (WOp V) (WRet V)) → Prop} {τ : List (Ev (WOp V) (WRet V))} {s : WSt V}
    (h : Exec (fun s e s' => WStep s e s' ∧ P e) (wstart k) τ s) (hf : FewCalls k τ) :
    Exec WStep (wstart k) τ s ∧ Exec (fun s e s' => (WStep s e s' ∧ P e) ∧ NoWrap s.base) (wstart k) τ s := by
  induction h with
  | refl => exact ⟨.refl _, .refl _⟩
  | silent _ hs ih =>
    obtain ⟨h1, h2⟩ := ih hf
    exact ⟨.silent h1 hs.1, .silent h2 ⟨hs, (noWrap_reach k h1 hf).1⟩⟩
  | visible _ hs ih =>
    have hf' := fewCalls_prefix hf
    obtain ⟨h1, h2⟩ := ih hf'
    exact ⟨.visible h1 hs.1, .visible h2 ⟨hs, (noWrap_reach k h1 hf').1⟩⟩

/-! ## The simulation -/

/-- What a goroutine looks like from the atomic object with all operations. -/
def upStatus : AStatus (Op V) (Ret V) → AStatus (WOp V) (WRet V)
  | .idle => .idle
  | .pending op => .pending (.base op)
  | .done r => .done (.base r)

/-- The goroutines in operations that look, as `x` tells, joined to the others. -/
def joinTh (th : Nat → AStatus (Op V) (Ret V)) (w : Nat → WPC V) (x : Nat → AStatus (WOp V) (WRet V)) (t : Nat) : AStatus (WOp V) (WRet V) :=
  match w t with
  | .out => upStatus (th t)
  | _ => x t

theorem joinTh_out {th : Nat → AStatus (Op V) (Ret V)} {w : Nat → WPC V} {x : Nat → AStatus (WOp V) (WRet V)} {t : Nat} (h : w t = .out) :
    joinTh th w x t = upStatus (th t) := by simp [joinTh, h]

theorem joinTh_in {th : Nat → AStatus (Op V) (Ret V)} {w : Nat → WPC V} {x : Nat → AStatus (WOp V) (WRet V)} {t : Nat} (h : w t ≠ .out) :
    joinTh th w x t = x t := by
  unfold joinTh
  split
  · rename_i e; exact absurd e h
  · rfl

theorem joinTh_set {th : Nat → AStatus (Op V) (Ret V)} {w : Nat → WPC V} {x : Nat → AStatus (WOp V) (WRet V)} {t : Nat} (hw : w t = .out)
    (y : AStatus (Op V) (Ret V)) : joinTh (setAt th t y) w x = setAt (joinTh th w x) t (upStatus y) := by
  funext u
  by_cases e : u = t
  · subst e; simp [joinTh, setAt, hw]
  · simp [joinTh, setAt, e]

/-- Executions of the smaller atomic object are executions of the larger one. -/
theorem lift_exec {n : Nat} {w : Nat → WPC V} {x : Nat → AStatus (WOp V) (WRet V)} {a a' : AState (List V) (Op V) (Ret V)}
    {τ : List (Ev (Op V) (Ret V))}
    (h : Exec (AStep fifo) a τ a') (hidle : ∀ t, w t ≠ .out → a.th t = .idle) (hcall : ∀ t op, .call t op ∈ τ → w t = .out) :
    Exec (AStep (fifoW n)) ⟨a.s, joinTh a.th w x⟩ (τ.map up) ⟨a'.s, joinTh a'.th w x⟩ ∧ ∀ t, w t ≠ .out → a'.th t = .idle := by
  induction h with
  | refl => exact ⟨.refl _, hidle⟩
  | @silent b _ _ _ hs ih =>
    obtain ⟨h1, h2⟩ := ih hcall
    cases hs with
    | effect t op hp =>
      have hw : w t = .out := by
        by_contra hw
        rw [h2 t hw] at hp; cases hp
      refine ⟨?_, fun u hu => ?_⟩
      · have := AStep.effect (seq := fifoW n) ⟨b.s, joinTh b.th w x⟩ t (.base op) (by simp [joinTh_out hw, hp, upStatus])
        simp only [joinTh_set hw]
        exact .silent h1 this
      · have : u ≠ t := fun e => hu (e ▸ hw)
        simpa [setAt, this] using h2 u hu
  | @visible b _ τ' e _ hs ih =>
    obtain ⟨h1, h2⟩ := ih fun t op h => hcall t op (List.mem_append_left _ h)
    rw [List.map_append]
    cases hs with
    | call t op hp =>
      have hw : w t = .out := hcall t op (List.mem_append_right _ (List.mem_singleton.2 rfl))
      refine ⟨?_, fun u hu => ?_⟩
      · have := AStep.call (seq := fifoW n) ⟨b.s, joinTh b.th w x⟩ t (.base op) (by simp [joinTh_out hw, hp, upStatus])
        simp only [joinTh_set hw]
        exact .visible h1 this
      · have : u ≠ t := fun e => hu (e ▸ hw)
        simpa [setAt, this] using h2 u hu
    | ret t r hp =>
      have hw : w t = .out := by
        by_contra hw
        rw [h2 t hw] at hp; cases hp
      refine ⟨?_, fun u hu => ?_⟩
      · have := AStep.ret (seq := fifoW n) ⟨b.s, joinTh b.th w x⟩ t (.base r) (by simp [joinTh_out hw, hp, upStatus])
        simp only [joinTh_set hw]
        exact .visible h1 this
      · have : u ≠ t := fun e => hu (e ▸ hw)
        simpa [setAt, this] using h2 u hu

/-- The goroutine pops and no other does. -/
def OnlyPop (Pop : Nat → Prop) (t : Nat) : Prop := ∀ u, Pop u → u = t

open Classical in
/-- What a goroutine in an operation that looks looks like from the atomic object.  For the only one that pops, the first load is
the moment; for the only one that pushes, the second. -/
noncomputable def lookSt (Pop : Nat → Prop) (head t : Nat) : WPC V → AStatus (WOp V) (WRet V)
  | .out => .idle
  | .before k => .pending (.look k)
  | .between k tl => if OnlyPop Pop t then .done (lookAns k tl head) else .pending (.look k)
  | .after r => .done r

/-- Who is where. -/
def Who (Push Pop : Nat → Prop) (t : Nat) : PC V → Prop
  | .puAdd _ | .puWait _ _ | .puWrite _ _ | .puCas _ _ => Push t
  | .poAdd | .poWait _ | .poRead _ | .poCas _ _ => Pop t
  | _ => True

theorem who_step {Push Pop Ask : Nat → Prop} {s s' : St V} {e : Option (Ev (Op V) (Ret V))} (h : Step s e s')
    (hw : ∀ t, Who Push Pop t (s.pc t)) (hr : Roles Push Pop Ask (e.map up)) : ∀ t, Who Push Pop t (s'.pc t) := by
  have key : ∀ (t : Nat) (p : PC V), Who Push Pop t p → ∀ u, Who Push Pop u (setAt s.pc t p u) := by
    intro t p hp u
    by_cases e : u = t
    · subst e; rw [setAt_same]; exact hp
    · rw [setAt_ne _ _ _ _ e]; exact hw u
  cases h with
  | callPush t v hp => exact key t _ hr
  | callPop t hp => exact key t _ hr
  | puAdd t v hp => exact key t _ (by have := hw t; rw [hp] at this; exact this)
  | puWait t v o hp => exact key t _ (by have := hw t; rw [hp] at this; split <;> exact this)
  | puWrite t v o hp =>
    split
    · exact key t _ (by have := hw t; rw [hp] at this; exact this)
    · exact key t _ trivial
  | puCas t v o hp =>
    split
    · exact key t _ trivial
    · exact hw
  | poAdd t hp => exact key t _ (by have := hw t; rw [hp] at this; exact this)
  | poWait t o hp => exact key t _ (by have := hw t; rw [hp] at this; split <;> exact this)
  | poRead t o hp =>
    split
    · exact key t _ (by have := hw t; rw [hp] at this; exact this)
    · exact key t _ trivial
  | poCas t o v hp =>
    split
    · exact key t _ trivial
    · exact hw
  | ret t r hp => exact key t _ trivial

theorem head_step {s s' : St V} {e : Option (Ev (Op V) (Ret V))} (h : Step s e s') :
    s'.b.head = s.b.head ∨ ∃ u o v, s.pc u = .poCas o v := by
  cases h with
  | poCas t o v hp => exact .inr ⟨t, o, v, hp⟩
  | puWrite t v o hp => left; split <;> rfl
  | puCas t v o hp => left; split <;> rfl
  | poRead t o hp => left; split <;> rfl
  | _ => left; rfl

theorem tail_step {s s' : St V} {e : Option (Ev (Op V) (Ret V))} (h : Step s e s') :
    s'.b.tail = s.b.tail ∨ ∃ u v o, s.pc u = .puCas v o := by
  cases h with
  | puCas t v o hp => exact .inr ⟨t, v, o, hp⟩
  | puWrite t v o hp => left; split <;> rfl
  | poCas t o v hp => left; split <;> rfl
  | poRead t o hp => left; split <;> rfl
  | _ => left; rfl

theorem pc_idle_keep {s s' : St V} {e : Option (Ev (Op V) (Ret V))} (h : Step s e s') (t : Nat) (ht : s.pc t = .idle)
    (hc : ∀ op, e ≠ some (.call t op)) : s'.pc t = .idle := by
  have key : ∀ (u : Nat) (p : PC V), s.pc u ≠ .idle → setAt s.pc u p t = .idle := by
    intro u p hu
    have : t ≠ u := fun e => hu (e ▸ ht)
    simpa [setAt, this] using ht
  cases h with
  | callPush u v hp =>
    have : t ≠ u := fun e => hc _ (by rw [e])
    simpa [St.goto, setAt, this] using ht
  | callPop u hp =>
    have : t ≠ u := fun e => hc _ (by rw [e])
    simpa [St.goto, setAt, this] using ht
  | puAdd u v hp => exact key u _ (by rw [hp]; simp)
  | puWait u v o hp => exact key u _ (by rw [hp]; simp)
  | puWrite u v o hp => split <;> exact key u _ (by rw [hp]; simp)
  | puCas u v o hp =>
    split
    · exact key u _ (by rw [hp]; simp)
    · exact ht
  | poAdd u hp => exact key u _ (by rw [hp]; simp)
  | poWait u o hp => exact key u _ (by rw [hp]; simp)
  | poRead u o hp => split <;> exact key u _ (by rw [hp]; simp)
  | poCas u o v hp =>
    split
    · exact key u _ (by rw [hp]; simp)
    · exact ht
  | ret u r hp => exact key u _ (by rw [hp]; simp)

/-- The difference of the two values. -/
theorem look_val {k head tail : Nat} (hk : k < 63) (h1 : head ≤ tail) (h2 : tail ≤ head + 2 ^ k) (h3 : tail < W) :
    (BitVec.ofNat 64 (tail + (W - head))).toInt = ((tail - head : Nat) : Int) := by
  have hp : 2 ^ k < 2 ^ 63 := Nat.pow_lt_pow_right (by decide) hk
  have e1 : (BitVec.ofNat 64 (tail + (W - head))).toNat = tail - head := by
    rw [BitVec.toNat_ofNat]
    have : tail + (W - head) = (tail - head) + 2 ^ 64 := by unfold W at *; omega
    rw [this, Nat.add_mod_right, Nat.mod_eq_of_lt]
    omega
  rw [BitVec.toInt_eq_toNat_of_lt (by rw [e1]; omega), e1]

theorem look_ans {k head tail : Nat} (hk : k < 63) (h1 : head ≤ tail) (h2 : tail ≤ head + 2 ^ k) (h3 : tail < W) (l : List V)
    (hl : l.length = tail - head) (n : Nat) (q : Look) (hq : q ≠ .cap) : lookAns q tail head = (fifoW n l (.look q)).2 := by
  cases q with
  | cap => exact absurd rfl hq
  | size => simp only [lookAns, fifoW, look_val hk h1 h2 h3, hl]
  | empty =>
    simp only [lookAns, fifoW, look_val hk h1 h2 h3]
    rw [← hl]
    cases l <;> simp; omega

/-- The simulation relation. -/
structure Wp (k : Nat) (Push Pop Ask : Nat → Prop) (s : WSt V) (a : AState (List V) (WOp V) (WRet V)) : Prop where
  ex : ∃ th, Sim k s.base ⟨a.s, th⟩ ∧ a.th = joinTh th s.w (fun t => lookSt Pop s.base.b.head t (s.w t))
  idle : ∀ t, s.w t ≠ .out → s.base.pc t = .idle
  who : ∀ t, Who Push Pop t (s.base.pc t)
  ask : ∀ t q, s.w t = .before q → q ≠ .cap → Ask t
  mid : ∀ t q tl, s.w t = .between q tl → q ≠ .cap ∧ Ask t ∧ (¬ OnlyPop Pop t → tl = s.base.b.tail)

theorem setAt_join {th : Nat → AStatus (Op V) (Ret V)} {w : Nat → WPC V} {f : Nat → WPC V → AStatus (WOp V) (WRet V)} {t : Nat} (p : WPC V)
    (y : AStatus (WOp V) (WRet V)) (hy : y = joinTh th (setAt w t p) (fun u => f u (setAt w t p u)) t) :
    setAt (joinTh th w fun u => f u (w u)) t y = joinTh th (setAt w t p) (fun u => f u (setAt w t p u)) := by
  funext u
  by_cases e : u = t
  · subst e; simp [setAt_same, hy]
  · simp [joinTh, setAt, e]

theorem join_keep {th : Nat → AStatus (Op V) (Ret V)} {w : Nat → WPC V} {f : Nat → WPC V → AStatus (WOp V) (WRet V)} {t : Nat} (p : WPC V)
    (h1 : w t ≠ .out) (h2 : p ≠ .out) (h3 : f t p = f t (w t)) :
    (joinTh th w fun u => f u (w u)) = joinTh th (setAt w t p) (fun u => f u (setAt w t p u)) := by
  funext u
  by_cases e : u = t
  · subst e
    rw [joinTh_in h1, joinTh_in (by rw [setAt_same]; exact h2), setAt_same, h3]
  · simp [joinTh, setAt, e]

theorem wp_sim {k : Nat} (hk : k < 63) {Push Pop Ask : Nat → Prop} (hA : Alone Push Pop Ask) (s : WSt V)
    (a : AState (List V) (WOp V) (WRet V)) (e : Option (Ev (WOp V) (WRet V))) (s' : WSt V) (hS : Wp k Push Pop Ask s a)
    (hs : (WStep s e s' ∧ Roles Push Pop Ask e) ∧ NoWrap s.base) :
    ∃ a', Exec (AStep (fifoW (2 ^ k % 2 ^ 32))) a e.toList a' ∧ Wp k Push Pop Ask s' a' := by
  obtain ⟨⟨hs, hr⟩, hnw⟩ := hs
  obtain ⟨⟨th, hC, hth⟩, hidle, hwho, hask, hmid⟩ := hS
  obtain ⟨l, ath⟩ := a
  simp only at hth hC
  subst hth
  have htW : s.base.b.tail < W := by have := hC.tr; have := hnw.1; omega
  have inn : ∀ {t : Nat} {p : WPC V}, s.w t = p → p ≠ .out → s.base.pc t = .idle := fun h1 h2 => hidle _ (by rw [h1]; exact h2)
  have keepIdle : ∀ (t : Nat) (p : WPC V), s.base.pc t = .idle → ∀ u, setAt s.w t p u ≠ .out → s.base.pc u = .idle := by
    intro t p hp u hu
    by_cases e : u = t
    · subst e; exact hp
    · exact hidle u (by rwa [setAt_ne _ _ _ _ e] at hu)
  have keepAsk : ∀ (t : Nat) (p : WPC V), (∀ q, p = .before q → q ≠ .cap → Ask t) →
      ∀ u q, setAt s.w t p u = .before q → q ≠ .cap → Ask u := by
    intro t p hp u q hu hq
    by_cases e : u = t
    · subst e; rw [setAt_same] at hu; exact hp q hu hq
    · rw [setAt_ne _ _ _ _ e] at hu; exact hask u q hu hq
  have keepMid : ∀ (t : Nat) (p : WPC V), (∀ q tl, p = .between q tl → q ≠ .cap ∧ Ask t ∧ (¬ OnlyPop Pop t → tl = s.base.b.tail)) →
      ∀ u q tl, setAt s.w t p u = .between q tl → q ≠ .cap ∧ Ask u ∧ (¬ OnlyPop Pop u → tl = s.base.b.tail) := by
    intro t p hp u q tl hu
    by_cases e : u = t
    · subst e; rw [setAt_same] at hu; exact hp q tl hu
    · rw [setAt_ne _ _ _ _ e] at hu; exact hmid u q tl hu
  cases hs with
  | base e b hb hcall =>
    obtain ⟨⟨l', th'⟩, h1, h2⟩ := sim_step s.base ⟨l, th⟩ e b hC ⟨hb, hnw⟩
    have hc' : ∀ t op, .call t op ∈ e.toList → s.w t = .out := by
      intro t op h
      rcases e with _ | e
      · cases h
      · simp only [Option.toList_some, List.mem_singleton] at h
        exact hcall t op (by rw [h])
    obtain ⟨h3, h4⟩ := lift_exec (n := 2 ^ k % 2 ^ 32) (w := s.w) (x := fun t => lookSt Pop s.base.b.head t (s.w t)) h1
      (fun t ht => by rw [hC.st t, hidle t ht]; rfl) hc'
    refine ⟨⟨l', joinTh th' s.w fun t => lookSt Pop s.base.b.head t (s.w t)⟩, ?_, ⟨th', h2, ?_⟩, ?_, who_step hb hwho hr, hask, ?_⟩
    · have e1 : (e.map up).toList = e.toList.map up := by cases e <;> rfl
      rw [e1]
      exact h3
    · have key : (joinTh th' s.w fun t => lookSt Pop s.base.b.head t (s.w t)) = joinTh th' s.w fun t => lookSt Pop b.b.head t (s.w t) := by
        funext t
        by_cases hout : s.w t = .out
        · rw [joinTh_out hout, joinTh_out hout]
        rw [joinTh_in hout, joinTh_in hout]
        cases hw : s.w t with
        | out => rfl
        | before q => rfl
        | after r => rfl
        | between q tl =>
          simp only [lookSt]
          by_cases ho : OnlyPop Pop t
          · rw [if_pos ho, if_pos ho]
            rcases head_step hb with h | ⟨u, o, v, hu⟩
            · rw [h]
            · have := hwho u
              rw [hu] at this
              have := ho u this
              subst this
              rw [inn hw (by simp)] at hu
              cases hu
          · rw [if_neg ho, if_neg ho]
      exact key
    · intro t ht
      exact pc_idle_keep hb t (hidle t ht) fun op he => ht (hcall t op he)
    · intro t q tl hw
      obtain ⟨m1, m2, m3⟩ := hmid t q tl hw
      refine ⟨m1, m2, fun ho => ?_⟩
      rcases tail_step hb with h | ⟨u, v, o, hu⟩
      · rw [m3 ho]; exact h.symm
      · have h5 := hwho u
        rw [hu] at h5
        have h6 := ((hA t m2).resolve_right ho) u h5
        subst h6
        rw [inn hw (by simp)] at hu
        cases hu
  | call t q hp hw =>
    refine ⟨_, Exec.one (AStep.call ⟨l, joinTh th s.w fun t => lookSt Pop s.base.b.head t (s.w t)⟩ t (WOp.look q) ?_), ⟨th, (by exact hC), ?_⟩, keepIdle t _ hp, hwho, keepAsk t _ ?_, keepMid t _ ?_⟩
    · have := hC.st t
      simp only at this
      simp [joinTh_out hw, this, hp, status, upStatus]
    · exact setAt_join (f := fun t => lookSt Pop s.base.b.head t) _ _ (by simp [joinTh, setAt, lookSt])
    · intro q' e hq
      cases e
      cases q with
      | cap => exact absurd rfl hq
      | _ => exact hr
    · intro q' tl e; cases e
  | cap t hw =>
    refine ⟨_, Exec.one (AStep.effect ⟨l, joinTh th s.w fun t => lookSt Pop s.base.b.head t (s.w t)⟩ t (WOp.look .cap) ?_), ⟨th, (by exact hC), ?_⟩, keepIdle t _ (inn hw (by simp)), hwho,
      keepAsk t _ (fun q e => by cases e), keepMid t _ (fun q tl e => by cases e)⟩
    · simp [joinTh, hw, lookSt]
    · refine setAt_join (f := fun t => lookSt Pop s.base.b.head t) _ _ ?_
      simp [joinTh, setAt, lookSt, fifoW, cap, hC.len]
  | loadTail t q hw hq =>
    by_cases ho : OnlyPop Pop t
    · refine ⟨_, Exec.one (AStep.effect ⟨l, joinTh th s.w fun t => lookSt Pop s.base.b.head t (s.w t)⟩ t (WOp.look q) ?_), ⟨th, ?_, ?_⟩, keepIdle t _ (inn hw (by simp)), hwho,
        keepAsk t _ (fun q e => by cases e), keepMid t _ (fun q' tl e => by cases e; exact ⟨hq, hask t q hw hq, fun _ => rfl⟩)⟩
      · simp [joinTh, hw, lookSt]
      · cases q with
        | cap => exact absurd rfl hq
        | _ => exact hC
      · refine setAt_join (f := fun t => lookSt Pop s.base.b.head t) _ _ ?_
        simp only [joinTh, setAt_same, lookSt, if_pos ho]
        rw [look_ans hk hC.ht hC.th htW l hC.slen _ q hq]
    · refine ⟨_, .refl _, ⟨th, hC, ?_⟩, keepIdle t _ (inn hw (by simp)), hwho,
        keepAsk t _ (fun q e => by cases e), keepMid t _ (fun q' tl e => by cases e; exact ⟨hq, hask t q hw hq, fun _ => rfl⟩)⟩
      exact join_keep (f := fun t => lookSt Pop s.base.b.head t) _ (by rw [hw]; simp) (by simp) (by simp [lookSt, hw, ho])
  | loadHead t q tl hw =>
    obtain ⟨m1, m2, m3⟩ := hmid t q tl hw
    by_cases ho : OnlyPop Pop t
    · refine ⟨_, .refl _, ⟨th, hC, ?_⟩, keepIdle t _ (inn hw (by simp)), hwho, keepAsk t _ (fun q e => by cases e),
        keepMid t _ (fun q' tl e => by cases e)⟩
      exact join_keep (f := fun t => lookSt Pop s.base.b.head t) _ (by rw [hw]; simp) (by simp) (by simp [lookSt, hw, ho])
    · have htl := m3 ho
      subst htl
      refine ⟨_, Exec.one (AStep.effect ⟨l, joinTh th s.w fun t => lookSt Pop s.base.b.head t (s.w t)⟩ t (WOp.look q) ?_), ⟨th, ?_, ?_⟩, keepIdle t _ (inn hw (by simp)), hwho,
        keepAsk t _ (fun q e => by cases e), keepMid t _ (fun q' tl e => by cases e)⟩
      · simp [joinTh, hw, lookSt, ho]
      · cases q with
        | cap => exact absurd rfl m1
        | _ => exact hC
      · refine setAt_join (f := fun t => lookSt Pop s.base.b.head t) _ _ ?_
        simp only [joinTh, setAt_same, lookSt]
        rw [look_ans hk hC.ht hC.th htW l hC.slen _ q m1]
  | ret t r hw =>
    refine ⟨_, Exec.one (AStep.ret ⟨l, joinTh th s.w fun t => lookSt Pop s.base.b.head t (s.w t)⟩ t r ?_), ⟨th, hC, ?_⟩, keepIdle t _ (inn hw (by simp)), hwho,
      keepAsk t _ (fun q e => by cases e), keepMid t _ (fun q' tl e => by cases e)⟩
    · simp [joinTh, hw, lookSt]
    · refine setAt_join (f := fun t => lookSt Pop s.base.b.head t) _ _ ?_
      have := hC.st t
      simp only at this
      simp [joinTh, setAt, this, inn hw (by simp), status, upStatus]

/-! ## C138 -/

/-- **C138** (partial: a goroutine may ask only if no other one pushes, or no other one pops; the number of slots fits into an `int`).
Then, with any number of goroutines in `MustPush`, `MustPop`, `Size`, `Empty` and `Cap`, every call takes effect in one moment
between its start and its end: the buffer of `2 ^ k` slots is linearizable to the FIFO with these operations. -/
theorem C138_linearizable_partial (k : Nat) (hk : k < 63) {Push Pop Ask : Nat → Prop} (hA : Alone Push Pop Ask)
    {τ : List (Ev (WOp V) (WRet V))} {s : WSt V} (h : Exec (fun s e s' => WStep s e s' ∧ Roles Push Pop Ask e) (wstart k) τ s)
    (hf : FewCalls k τ) : ∃ a, Exec (AStep (fifoW (2 ^ k % 2 ^ 32))) (AState.init []) τ a := by
  obtain ⟨_, h2⟩ := noWrap_exec k h hf
  have h0 : Wp k Push Pop Ask (wstart k : WSt V) (AState.init []) :=
    ⟨⟨fun _ => .idle, sim_init k, by funext t; rfl⟩, fun t ht => absurd rfl ht, fun t => trivial, fun t q hw => (by cases hw),
      fun t q tl hw => by cases hw⟩
  obtain ⟨a, ha, _⟩ := linearizable_of_simulation (Wp k Push Pop Ask) h0 (wp_sim hk hA) h2
  exact ⟨a, ha⟩

/-- **C138** Looking does not disturb: whoever asks, `MustPush` and `MustPop` are linearizable to the FIFO and do not panic. -/
theorem C138_others (k : Nat) {τ : List (Ev (WOp V) (WRet V))} {s : WSt V} (h : Exec WStep (wstart k) τ s) (hf : FewCalls k τ) :
    ∃ a, Exec (AStep fifo) (AState.init []) (τ.filterMap down) a ∧ a.s.length ≤ 2 ^ k ∧ ∀ t, s.base.pc t ≠ .crashed := by
  obtain ⟨h1, _⟩ := project h fun t => trivial
  obtain ⟨a, h2, h3, h4, _⟩ := C34_few_calls k h1 hf.1 hf.2
  exact ⟨a, h2, h3, h4⟩

/-! ## What `Size` can report -/

theorem look_range {k head tail q : Nat} (hk : k < 63) (h2 : tail ≤ head + 2 ^ k) (hq : q < 2 ^ 63) (hh : head ≤ q) (h3 : tail < W) :
    -(q : Int) ≤ (BitVec.ofNat 64 (tail + (W - head))).toInt ∧ (BitVec.ofNat 64 (tail + (W - head))).toInt ≤ 2 ^ k := by
  by_cases h1 : head ≤ tail
  · rw [look_val hk h1 h2 h3]
    constructor
    · omega
    · have : tail - head ≤ 2 ^ k := by omega
      exact_mod_cast this
  · have e1 : (BitVec.ofNat 64 (tail + (W - head))).toNat = 2 ^ 64 - (head - tail) := by
      rw [BitVec.toNat_ofNat]
      have : tail + (W - head) = 2 ^ 64 - (head - tail) := by unfold W at *; omega
      rw [this, Nat.mod_eq_of_lt]
      omega
    have e2 : (BitVec.ofNat 64 (tail + (W - head))).toInt = -((head - tail : Nat) : Int) := by
      rw [BitVec.toInt_eq_toNat_cond, e1]
      rw [if_neg (by omega)]
      omega
    rw [e2]
    constructor
    · omega
    · have : (0 : Int) ≤ 2 ^ k := by positivity
      omega

theorem head_mono {k : Nat} {s s' : St V} {e : Option (Ev (Op V) (Ret V))} {a : AState (List V) (Op V) (Ret V)} (hS : Sim k s a)
    (hn : NoWrap s) (h : Step s e s') : s.b.head ≤ s'.b.head := by
  cases h with
  | poCas t o v hp =>
    split
    · rename_i hc
      have := hS.hr
      have := hn.2
      simp only
      rw [Nat.mod_eq_of_lt (by omega)]
      omega
    · exact Nat.le_refl _
  | puWrite t v o hp => split <;> exact Nat.le_refl _
  | puCas t v o hp => split <;> exact Nat.le_refl _
  | poRead t o hp => split <;> exact Nat.le_refl _
  | _ => exact Nat.le_refl _

/-- What is known about a goroutine that looks, with `q` pops so far. -/
def LookOk (k q head : Nat) : WPC V → Prop
  | .between _ tl => tl ≤ head + 2 ^ k ∧ tl < W
  | .after (.num n) => -(q : Int) ≤ n ∧ n ≤ 2 ^ k
  | _ => True

theorem LookOk.mono {k q q' h h' : Nat} {p : WPC V} (hp : LookOk k q h p) (h1 : q ≤ q') (h2 : h ≤ h') : LookOk k q' h' p := by
  cases p with
  | between l tl => exact ⟨Nat.le_trans hp.1 (by omega), hp.2⟩
  | after r =>
    cases r with
    | num n => exact ⟨Int.le_trans (by omega) hp.1, hp.2⟩
    | _ => trivial
  | _ => trivial

theorem lookOk_step {k q : Nat} (hk : k < 63) (hq : q < 2 ^ 63) {s s' : WSt V} {e : Option (Ev (WOp V) (WRet V))}
    {a : AState (List V) (Op V) (Ret V)} (hS : Sim k s.base a) (hn : NoWrap s.base) (hh : s.base.b.head ≤ q)
    (hl : ∀ t, LookOk k q s.base.b.head (s.w t)) (h : WStep s e s') : ∀ t, LookOk k q s'.base.b.head (s'.w t) := by
  have key : ∀ (t : Nat) (p : WPC V), LookOk k q s.base.b.head p → ∀ u, LookOk k q s.base.b.head (setAt s.w t p u) := by
    intro t p hp u
    by_cases e : u = t
    · subst e; rw [setAt_same]; exact hp
    · rw [setAt_ne _ _ _ _ e]; exact hl u
  have htW : s.base.b.tail < W := by have := hS.tr; have := hn.1; omega
  cases h with
  | base e b hb hc => exact fun t => (hl t).mono (Nat.le_refl _) (head_mono hS hn hb)
  | call t l hp hw => exact key t _ trivial
  | cap t hw => exact key t _ trivial
  | loadTail t l hw hq => exact key t _ ⟨hS.th, htW⟩
  | loadHead t l tl hw =>
    refine key t _ ?_
    have h1 := hl t
    rw [hw] at h1
    have h2 := look_range hk h1.1 hq hh h1.2
    cases l with
    | empty => trivial
    | size => exact h2
    | cap => exact h2
  | ret t r hw => exact key t _ trivial

theorem head_le_pops (k : Nat) {τ : List (Ev (WOp V) (WRet V))} {s : WSt V} (h : Exec WStep (wstart k) τ s) (hf : FewCalls k τ) :
    s.base.b.head ≤ pops (τ.filterMap down) := by
  obtain ⟨h1, _⟩ := project h fun t => trivial
  obtain ⟨_, _, h4⟩ := reach k _ h1 (callsBy_callers _) hf.1 hf.2
  have := h4.head
  have e : (wstart k : WSt V).base = start k := rfl
  omega

theorem lookOk_reach (k : Nat) (hk : k < 63) {τ : List (Ev (WOp V) (WRet V))} {s : WSt V} (h : Exec WStep (wstart k) τ s)
    (hf : FewCalls k τ) (hq : pops (τ.filterMap down) < 2 ^ 63) :
    (∀ t, LookOk k (pops (τ.filterMap down)) s.base.b.head (s.w t)) ∧
    ∀ t n, .ret t (.num n) ∈ τ → -(pops (τ.filterMap down) : Int) ≤ n ∧ n ≤ 2 ^ k := by
  induction h with
  | refl => exact ⟨fun t => trivial, fun t n h => by cases h⟩
  | silent hex hs ih =>
    obtain ⟨h1, h2⟩ := ih hf hq
    obtain ⟨hn, a, hS⟩ := noWrap_reach k hex hf
    exact ⟨lookOk_step hk hq hS hn (head_le_pops k hex hf) h1 hs, h2⟩
  | @visible s' s'' τ e hex hs ih =>
    have hf' := fewCalls_prefix hf
    have hle : pops (τ.filterMap down) ≤ pops ((τ ++ [e]).filterMap down) := by
      rw [List.filterMap_append]; unfold pops; rw [List.countP_append]; omega
    obtain ⟨h1, h2⟩ := ih hf' (by omega)
    obtain ⟨hn, a, hS⟩ := noWrap_reach k hex hf'
    refine ⟨lookOk_step hk hq hS hn (Nat.le_trans (head_le_pops k hex hf') hle) (fun t => (h1 t).mono hle (Nat.le_refl _)) hs, ?_⟩
    intro t n hm
    rcases List.mem_append.1 hm with hm | hm
    · have := h2 t n hm
      exact ⟨by omega, this.2⟩
    · rw [List.mem_singleton] at hm
      subst hm
      generalize he : some (Ev.ret t (WRet.num n)) = e' at hs
      cases hs with
      | base e' b hb hc =>
        rcases e' with _ | (_ | _) <;> cases he
      | call u l hp hw => cases he
      | cap u hw => cases he
      | loadTail u l hw hq => cases he
      | loadHead u l tl hw => cases he
      | ret u r hw =>
        cases he
        have := h1 t
        rw [hw] at this
        exact ⟨by have := this.1; omega, this.2⟩

/-- **C138** Whoever asks, and whatever the others do meanwhile: `Size` never reports more than the number of slots, and never less
than minus the number of `MustPop` calls made (fewer than 2^63). -/
theorem C138_size_range (k : Nat) (hk : k < 63) {τ : List (Ev (WOp V) (WRet V))} {s : WSt V} (h : Exec WStep (wstart k) τ s)
    (hf : FewCalls k τ) (hq : pops (τ.filterMap down) < 2 ^ 63) (t : Nat) (n : Int) (hm : .ret t (.num n) ∈ τ) :
    -(pops (τ.filterMap down) : Int) ≤ n ∧ n ≤ 2 ^ k :=
  (lookOk_reach k hk h hf hq).2 t n hm

/-! ## Where it fails -/

/-- Goroutines 0 and 1 are there, the others idle. -/
def pcs (p0 p1 : PC V) (t : Nat) : PC V := if t = 0 then p0 else if t = 1 then p1 else .idle

theorem pcs0 (p0 p1 q : PC V) : setAt (pcs p0 p1) 0 q = pcs q p1 := by
  funext t
  by_cases e : t = 0
  · subst e; rfl
  · simp [setAt, pcs, e]

theorem pcs1 (p0 p1 q : PC V) : setAt (pcs p0 p1) 1 q = pcs p0 q := by
  funext t
  by_cases e : t = 1
  · subst e; rfl
  · simp [setAt, pcs, e]

/-- One slot; `m` values have passed. -/
def passed (m : Nat) (x : V) : St V := ⟨⟨m, m, m, m, 0, [x]⟩, pcs .idle .idle⟩

/-- Another value passes. -/
theorem pass_one (m : Nat) (hm : m + 1 < W) (x v : V) :
    Exec Step (passed m x) [.call 0 (.mustPush v), .ret 0 (.pushed true), .call 1 .mustPop, .ret 1 (.popped v true)] (passed (m + 1) v) := by
  have hmod : (m + 1) % W = m + 1 := Nat.mod_eq_of_lt hm
  have h1 : Step (passed m x) (some (.call 0 (.mustPush v))) ⟨⟨m, m, m, m, 0, [x]⟩, pcs (.puAdd v) .idle⟩ := by
    have := Step.callPush (passed m x) 0 v rfl
    simpa only [passed, St.goto, pcs0] using this
  have h2 : Step ⟨⟨m, m, m, m, 0, [x]⟩, pcs (.puAdd v) .idle⟩ none ⟨⟨m, m, m, m + 1, 0, [x]⟩, pcs (.puWait v m) .idle⟩ := by
    have := Step.puAdd (⟨⟨m, m, m, m, 0, [x]⟩, pcs (.puAdd v) .idle⟩ : St V) 0 v rfl
    simpa only [pcs0, hmod] using this
  have h3 : Step ⟨⟨m, m, m, m + 1, 0, [x]⟩, pcs (.puWait v m) .idle⟩ none ⟨⟨m, m, m, m + 1, 0, [x]⟩, pcs (.puWrite v m) .idle⟩ := by
    have := Step.puWait (⟨⟨m, m, m, m + 1, 0, [x]⟩, pcs (.puWait v m) .idle⟩ : St V) 0 v m rfl
    simpa only [St.goto, pcs0, hmod, Nat.add_zero, gt_iff_lt, Nat.lt_irrefl, if_false] using this
  have h4 : Step ⟨⟨m, m, m, m + 1, 0, [x]⟩, pcs (.puWrite v m) .idle⟩ none ⟨⟨m, m, m, m + 1, 0, [v]⟩, pcs (.puCas v m) .idle⟩ := by
    have := Step.puWrite (⟨⟨m, m, m, m + 1, 0, [x]⟩, pcs (.puWrite v m) .idle⟩ : St V) 0 v m rfl
    simpa [pcs0, Go.set] using this
  have h5 : Step ⟨⟨m, m, m, m + 1, 0, [v]⟩, pcs (.puCas v m) .idle⟩ none
      ⟨⟨m, m, m + 1, m + 1, 0, [v]⟩, pcs (.ret (.pushed true)) .idle⟩ := by
    have := Step.puCas (⟨⟨m, m, m, m + 1, 0, [v]⟩, pcs (.puCas v m) .idle⟩ : St V) 0 v m rfl
    simpa only [if_true, pcs0, hmod] using this
  have h6 : Step ⟨⟨m, m, m + 1, m + 1, 0, [v]⟩, pcs (.ret (.pushed true)) .idle⟩ (some (.ret 0 (.pushed true)))
      ⟨⟨m, m, m + 1, m + 1, 0, [v]⟩, pcs .idle .idle⟩ := by
    have := Step.ret (⟨⟨m, m, m + 1, m + 1, 0, [v]⟩, pcs (.ret (.pushed true)) .idle⟩ : St V) 0 (.pushed true) rfl
    simpa only [St.goto, pcs0] using this
  have h7 : Step ⟨⟨m, m, m + 1, m + 1, 0, [v]⟩, pcs .idle .idle⟩ (some (.call 1 .mustPop)) ⟨⟨m, m, m + 1, m + 1, 0, [v]⟩, pcs .idle .poAdd⟩ := by
    have := Step.callPop (⟨⟨m, m, m + 1, m + 1, 0, [v]⟩, pcs .idle .idle⟩ : St V) 1 rfl
    simpa only [St.goto, pcs1] using this
  have h8 : Step ⟨⟨m, m, m + 1, m + 1, 0, [v]⟩, pcs .idle .poAdd⟩ none ⟨⟨m, m + 1, m + 1, m + 1, 0, [v]⟩, pcs .idle (.poWait m)⟩ := by
    have := Step.poAdd (⟨⟨m, m, m + 1, m + 1, 0, [v]⟩, pcs .idle .poAdd⟩ : St V) 1 rfl
    simpa only [pcs1, hmod] using this
  have h9 : Step ⟨⟨m, m + 1, m + 1, m + 1, 0, [v]⟩, pcs .idle (.poWait m)⟩ none ⟨⟨m, m + 1, m + 1, m + 1, 0, [v]⟩, pcs .idle (.poRead m)⟩ := by
    have := Step.poWait (⟨⟨m, m + 1, m + 1, m + 1, 0, [v]⟩, pcs .idle (.poWait m)⟩ : St V) 1 m rfl
    simpa [St.goto, pcs1] using this
  have h10 : Step ⟨⟨m, m + 1, m + 1, m + 1, 0, [v]⟩, pcs .idle (.poRead m)⟩ none ⟨⟨m, m + 1, m + 1, m + 1, 0, [v]⟩, pcs .idle (.poCas m v)⟩ := by
    have := Step.poRead (⟨⟨m, m + 1, m + 1, m + 1, 0, [v]⟩, pcs .idle (.poRead m)⟩ : St V) 1 m rfl
    simpa [St.goto, pcs1, Go.get] using this
  have h11 : Step ⟨⟨m, m + 1, m + 1, m + 1, 0, [v]⟩, pcs .idle (.poCas m v)⟩ none
      ⟨⟨m + 1, m + 1, m + 1, m + 1, 0, [v]⟩, pcs .idle (.ret (.popped v true))⟩ := by
    have := Step.poCas (⟨⟨m, m + 1, m + 1, m + 1, 0, [v]⟩, pcs .idle (.poCas m v)⟩ : St V) 1 m v rfl
    simpa only [if_true, pcs1, hmod] using this
  have h12 : Step ⟨⟨m + 1, m + 1, m + 1, m + 1, 0, [v]⟩, pcs .idle (.ret (.popped v true))⟩ (some (.ret 1 (.popped v true))) (passed (m + 1) v) := by
    have := Step.ret (⟨⟨m + 1, m + 1, m + 1, m + 1, 0, [v]⟩, pcs .idle (.ret (.popped v true))⟩ : St V) 1 (.popped v true) rfl
    simpa only [St.goto, pcs1, passed] using this
  have e := (((((((Exec.one h1).silent h2).silent h3).silent h4).silent h5).visible h6).visible h7).silent h8
  exact ((((e.silent h9).silent h10).silent h11).visible h12)

/-- `n` values pass, one after the other. -/
def passing (v : V) : Nat → List (Ev (Op V) (Ret V))
  | 0 => []
  | n + 1 => passing v n ++ [.call 0 (.mustPush v), .ret 0 (.pushed true), .call 1 .mustPop, .ret 1 (.popped v true)]

theorem pass_all (v : V) (n : Nat) (hn : n < W) : Exec Step (passed 0 v) (passing v n) (passed n v) := by
  induction n with
  | zero => exact .refl _
  | succ n ih => exact (ih (by omega)).trans (pass_one n hn v v)

theorem passing_calls (v : V) (n : Nat) : pushes (passing v n) = n ∧ pops (passing v n) = n ∧ ∀ t op, .call t op ∈ passing v n → t < 2 := by
  induction n with
  | zero => exact ⟨rfl, rfl, fun t op h => by cases h⟩
  | succ n ih =>
    refine ⟨?_, ?_, ?_⟩
    · have := ih.1
      unfold pushes at this ⊢
      simp [passing, List.countP_append, this]
    · have := ih.2.1
      unfold pops at this ⊢
      simp [passing, List.countP_append, this]
    · intro t op h
      simp only [passing, List.mem_append] at h
      rcases h with h | h
      · exact ih.2.2 t op h
      · simp at h
        omega

theorem lift_base {w : Nat → WPC V} {b b' : St V} {τ : List (Ev (Op V) (Ret V))} (h : Exec Step b τ b')
    (hc : ∀ t op, .call t op ∈ τ → w t = .out) : Exec WStep ⟨b, w⟩ (τ.map up) ⟨b', w⟩ := by
  induction h with
  | refl => exact .refl _
  | @silent b1 _ _ _ hs ih => exact .silent (ih hc) (.base ⟨b1, w⟩ none _ hs (fun t op e => by cases e))
  | @visible b1 _ τ e _ hs ih =>
    rw [List.map_append]
    exact .visible (ih fun t op h => hc t op (List.mem_append_left _ h))
      (.base ⟨b1, w⟩ (some e) _ hs (fun t op e' => by cases e'; exact hc t op (by simp)))

/-- **C138 is false of the code** when somebody else asks: `Size` can report any negative number.  While goroutine 2 is in one call
of `Size` on the buffer that `Init` makes, `n` values pass from goroutine 0 to goroutine 1 and it reports `-n`. -/
theorem C138_any_negative_false (n : Nat) (hn : n < 2 ^ 63) :
    ∃ s, Exec WStep (wstart 0 : WSt V) (.call 2 (.look .size) :: (passing default n).map up ++ [.ret 2 (.num (-n))]) s := by
  have hst : (wstart 0 : WSt V) = ⟨passed 0 default, fun _ => .out⟩ := by
    have : (fun _ => PC.idle : Nat → PC V) = pcs .idle .idle := by
      funext t; unfold pcs; split
      · rfl
      · split <;> rfl
    simp only [wstart, start, passed, this]; rfl
  have h1 : WStep (wstart 0 : WSt V) (some (.call 2 (.look .size))) ⟨passed 0 default, setAt (fun _ => .out) 2 (.before .size)⟩ := by
    rw [hst]; exact .call _ 2 .size rfl rfl
  have h2 := WStep.loadTail (⟨passed 0 default, setAt (fun _ => .out) 2 (.before .size)⟩ : WSt V) 2 .size rfl (by simp)
  have h3 := lift_base (w := setAt (setAt (fun _ => .out) 2 (.before .size)) 2 (.between .size 0))
    (pass_all (default : V) n (by unfold W; omega)) (by
      intro t op h
      have := (passing_calls (default : V) n).2.2 t op h
      rw [setAt_ne _ _ _ _ (by omega), setAt_ne _ _ _ _ (by omega)])
  have h4 := WStep.loadHead (⟨passed n default, setAt (setAt (fun _ => .out) 2 (.before .size)) 2 (.between .size 0)⟩ : WSt V) 2 .size 0 rfl
  have hval : (lookAns .size 0 (passed n (default : V)).b.head : WRet V) = .num (-n) := by
    simp only [lookAns, passed]
    congr 1
    rcases Nat.eq_zero_or_pos n with rfl | hpos
    · decide
    · have e1 : (BitVec.ofNat 64 (0 + (W - n))).toNat = 2 ^ 64 - n := by
        rw [BitVec.toNat_ofNat]
        have : 0 + (W - n) = 2 ^ 64 - n := by unfold W; omega
        rw [this, Nat.mod_eq_of_lt]; omega
      rw [BitVec.toInt_eq_toNat_cond, e1, if_neg (by omega)]
      omega
  simp only [hval] at h4
  have h5 := WStep.ret (⟨passed n default, setAt (setAt (setAt (fun _ => .out) 2 (.before .size)) 2 (.between .size 0)) 2
    (.after (.num (-n)))⟩ : WSt V) 2 (.num (-n)) rfl
  exact ⟨_, (((((Exec.one h1).silent h2).trans h3).silent h4).visible h5)⟩

/-- The next step of goroutine `t`, computed. -/
def wact (s : WSt V) (t : Nat) : Option (Option (Ev (WOp V) (WRet V)) × WSt V) :=
  match s.w t with
  | .before .cap => some (none, ⟨s.base, setAt s.w t (.after (.slots (cap s.base.b)))⟩)
  | .before k => some (none, ⟨s.base, setAt s.w t (.between k s.base.b.tail)⟩)
  | .between k tail => some (none, ⟨s.base, setAt s.w t (.after (lookAns k tail s.base.b.head))⟩)
  | .after r => some (some (.ret t r), ⟨s.base, setAt s.w t .out⟩)
  | .out =>
    match s.base.pc t with
    | .idle | .crashed => none
    | _ => some ((nextStep s.base t).1.map up, ⟨(nextStep s.base t).2, s.w⟩)

theorem nextStep_sound (s : St V) (t : Nat) (h : s.pc t ≠ .idle) (hc : s.pc t ≠ .crashed) : Step s (nextStep s t).1 (nextStep s t).2 := by
  cases hp : s.pc t with
  | idle => exact absurd hp h
  | crashed => exact absurd hp hc
  | puAdd v => simp only [nextStep, hp]; exact .puAdd s t v hp
  | puWait v o => simp only [nextStep, hp]; exact .puWait s t v o hp
  | puWrite v o => simp only [nextStep, hp]; exact .puWrite s t v o hp
  | puCas v o => simp only [nextStep, hp]; exact .puCas s t v o hp
  | poAdd => simp only [nextStep, hp]; exact .poAdd s t hp
  | poWait o => simp only [nextStep, hp]; exact .poWait s t o hp
  | poRead o => simp only [nextStep, hp]; exact .poRead s t o hp
  | poCas o v => simp only [nextStep, hp]; exact .poCas s t o v hp
  | ret r => simp only [nextStep, hp]; exact .ret s t r hp

theorem nextStep_no_call (s : St V) (t u : Nat) (op : Op V) : (nextStep s t).1 ≠ some (.call u op) := by
  unfold nextStep
  split <;> simp

theorem wact_sound {s s' : WSt V} {t : Nat} {e : Option (Ev (WOp V) (WRet V))} (h : wact s t = some (e, s')) : WStep s e s' := by
  unfold wact at h
  split at h
  · cases h; exact .cap s t (by assumption)
  · rename_i k hw _
    cases h
    refine .loadTail s t k (by assumption) ?_
    rintro rfl
    simp_all
  · cases h; exact .loadHead s t _ _ (by assumption)
  · cases h; exact .ret s t _ (by assumption)
  · split at h
    · cases h
    · cases h
    · rename_i h1 h2
      cases h
      exact .base s _ _ (nextStep_sound s.base t h1 h2) (fun u op he => absurd he (nextStep_no_call _ _ _ _))

/-- A schedule: goroutine `t` calls an operation, or takes its next step. -/
def wsched (s : WSt V) : List (Nat × Option (WOp V)) → Option (List (Ev (WOp V) (WRet V)) × WSt V)
  | [] => some ([], s)
  | (t, none) :: r => (wact s t).bind fun p => (wsched p.2 r).map fun x => (p.1.toList ++ x.1, x.2)
  | (t, some op) :: r =>
    match s.base.pc t, s.w t with
    | .idle, .out =>
      (wsched (match op with
        | .base (.mustPush v) => ⟨s.base.goto t (.puAdd v), s.w⟩
        | .base .mustPop => ⟨s.base.goto t .poAdd, s.w⟩
        | .look k => ⟨s.base, setAt s.w t (.before k)⟩) r).map fun x => (.call t op :: x.1, x.2)
    | _, _ => none

theorem wsched_sound (r : List (Nat × Option (WOp V))) : ∀ (s s' : WSt V) (τ : List (Ev (WOp V) (WRet V))),
    wsched s r = some (τ, s') → Exec WStep s τ s' := by
  induction r with
  | nil => intro s s' τ h; cases h; exact .refl _
  | cons x r ih =>
    intro s s' τ h
    obtain ⟨t, o⟩ := x
    cases o with
    | none =>
      simp only [wsched, Option.bind_eq_some_iff, Option.map_eq_some_iff] at h
      obtain ⟨⟨e, s1⟩, h1, ⟨τ', s2⟩, h2, h3⟩ := h
      cases h3
      exact (Exec.one (wact_sound h1)).trans (ih _ _ _ h2)
    | some op =>
      simp only [wsched] at h
      split at h
      · rename_i hp hw
        simp only [Option.map_eq_some_iff] at h
        obtain ⟨⟨τ', s2⟩, h2, h3⟩ := h
        cases h3
        refine Exec.trans (τ := [Ev.call t op]) (Exec.one (e := some (Ev.call t op)) ?_) (ih _ _ _ h2)
        rcases op with (v | _) | k
        · exact .base s (some (.call t (.mustPush v))) _ (.callPush s.base t v hp) (fun u op he => by cases he; exact hw)
        · exact .base s (some (.call t .mustPop)) _ (.callPop s.base t hp) (fun u op he => by cases he; exact hw)
        · exact .call s t k hp hw
      · cases h

theorem wsched_exec {s : WSt V} {r : List (Nat × Option (WOp V))} {τ : List (Ev (WOp V) (WRet V))}
    (h : (wsched s r).map Prod.fst = some τ) : ∃ s', Exec WStep s τ s' := by
  simp only [Option.map_eq_some_iff] at h
  obtain ⟨⟨τ', s'⟩, h1, rfl⟩ := h
  exact ⟨s', wsched_sound r _ _ _ h1⟩

/-- The events of the next two theorems: a value is in the buffer, another one is pushed and the first popped while goroutine 2
asks. -/
def askTrace (k : Look) (r : WRet Nat) : List (Ev (WOp Nat) (WRet Nat)) :=
  [.call 0 (.base (.mustPush 5)), .ret 0 (.base (.pushed true)), .call 2 (.look k),
   .call 0 (.base (.mustPush 6)), .ret 0 (.base (.pushed true)), .call 1 (.base .mustPop), .ret 1 (.base (.popped 5 true)), .ret 2 r]

/-- The schedule for it. -/
def askSched (k : Look) : List (Nat × Option (WOp Nat)) :=
  [(0, some (.base (.mustPush 5))), (0, none), (0, none), (0, none), (0, none), (0, none),
   (2, some (.look k)), (2, none),
   (0, some (.base (.mustPush 6))), (0, none), (0, none), (0, none), (0, none), (0, none),
   (1, some (.base .mustPop)), (1, none), (1, none), (1, none), (1, none), (1, none), (2, none), (2, none)]

/-- Nothing but `k` is asked. -/
def Asks (k : Look) : Option (Ev (WOp V) (WRet V)) → Prop
  | some (.call _ (.look q)) => q = k
  | _ => True

/-- **C138 is false of the code** when somebody else asks: `Empty` reports an empty buffer that was never empty during the call. -/
theorem C138_empty_false : ¬ Linearizable (fun (s : WSt Nat) e s' => WStep s e s' ∧ Asks .empty e) (wstart 1) (fifoW 2) [] := by
  obtain ⟨s, hs⟩ : ∃ s, Exec WStep (wstart 1) (askTrace .empty (.flag true)) s := wsched_exec (r := askSched .empty) (by decide +kernel)
  exact not_linearizable [0, 1, 2] (LFDeque.exec_filter (P := Asks .empty) trivial hs (by simp [askTrace, Asks])) (by decide +kernel) (by decide +kernel)

/-- **C138 is false of the code** when somebody else asks: `Size` reports 0 while there were 1 or 2 values. -/
theorem C138_size_false : ¬ Linearizable (fun (s : WSt Nat) e s' => WStep s e s' ∧ Asks .size e) (wstart 1) (fifoW 2) [] := by
  obtain ⟨s, hs⟩ : ∃ s, Exec WStep (wstart 1) (askTrace .size (.num 0)) s := wsched_exec (r := askSched .size) (by decide +kernel)
  exact not_linearizable [0, 1, 2] (LFDeque.exec_filter (P := Asks .size) trivial hs (by simp [askTrace, Asks])) (by decide +kernel) (by decide +kernel)

/-- The same events but asked by the consumer, who is told the truth: 1 before it pops. -/
example : ∃ s : WSt Nat, Exec (fun s e s' => WStep s e s' ∧ Roles (· = 0) (· = 1) (· < 2) e) (wstart 1)
    [.call 0 (.base (.mustPush 5)), .ret 0 (.base (.pushed true)), .call 1 (.look .size),
     .call 0 (.base (.mustPush 6)), .ret 0 (.base (.pushed true)), .ret 1 (.num 1)] s := by
  obtain ⟨s, hs⟩ := wsched_exec (V := Nat) (s := wstart 1) (r := [(0, some (.base (.mustPush 5))), (0, none), (0, none), (0, none), (0, none), (0, none),
    (1, some (.look .size)), (1, none), (0, some (.base (.mustPush 6))), (0, none), (0, none), (0, none), (0, none), (0, none),
    (1, none), (1, none)]) (τ := _) rfl
  exact ⟨s, LFDeque.exec_filter (P := Roles (· = 0) (· = 1) (· < 2)) trivial hs (by simp [Roles])⟩

example : Alone (· = 0) (· = 1) (· < 2) := by
  intro t ht
  rcases (by omega : t = 0 ∨ t = 1) with rfl | rfl
  · exact .inl fun u h => h
  · exact .inr fun u h => h

example := C138_any_negative_false (V := Nat) 3 (by decide)

end Verif.RingBuffer
