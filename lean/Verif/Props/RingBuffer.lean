import Verif.Model.RingBuffer
import Verif.Spec.Containers
import Verif.Props.LFDeque
import Mathlib.Data.Nat.ModEq
/-!
# Properties C34 and C35: the ring buffer
-/

set_option linter.unusedSectionVars false

namespace Verif.RingBuffer
open Verif.Spec
open Verif.LFDeque (setAt_same setAt_ne Exec.one)
variable {V : Type} [Inhabited V]

/-! ## C34 -/

/-- The sequential FIFO. -/
def fifo (l : List V) : Op V → List V × Ret V
  | .mustPush v => (l ++ [v], .pushed true)
  | .mustPop =>
    match l with
    | [] => ([], .popped default false)
    | v :: r => (r, .popped v true)

/-- A buffer of `2 ^ k` slots and idle goroutines. -/
def start (k : Nat) : St V := ⟨⟨0, 0, 0, 0, 2 ^ k - 1, List.replicate (2 ^ k) default⟩, fun _ => .idle⟩

/-- The ticket counters have not come near 2^64. -/
def NoWrap (s : St V) : Prop := s.b.tailR + s.b.mask + 1 < W ∧ s.b.headR + 1 < W

/-- Ticket of a pusher. -/
def pushTicket : PC V → Option Nat
  | .puWait _ o | .puWrite _ o | .puCas _ o => some o
  | _ => none

/-- Ticket of a popper. -/
def popTicket : PC V → Option Nat
  | .poWait o | .poRead o | .poCas o _ => some o
  | _ => none

/-- What a goroutine looks like from the atomic object. -/
def status : PC V → AStatus (Op V) (Ret V)
  | .idle | .crashed => .idle
  | .puAdd v | .puWait v _ | .puWrite v _ | .puCas v _ => .pending (.mustPush v)
  | .poAdd | .poWait _ | .poRead _ | .poCas _ _ => .pending .mustPop
  | .ret r => .done r

/-- What is known about a goroutine with a ticket. -/
def Local (n : Nat) (b : B V) : PC V → Prop
  | .puWrite _ o => o < b.head + n
  | .puCas v o => o < b.head + n ∧ b.d[o % n]? = some v
  | .poRead o => o < b.tail
  | .poCas o v => o < b.tail ∧ b.d[o % n]? = some v
  | .ret (.popped _ ok) => ok = true
  | .ret (.pushed ok) => ok = true
  | .crashed => False
  | _ => True

/-- The simulation relation for `n = 2 ^ k` slots. -/
structure Sim (k : Nat) (s : St V) (a : AState (List V) (Op V) (Ret V)) : Prop where
  mask : s.b.mask = 2 ^ k - 1
  len : s.b.d.length = 2 ^ k
  ht : s.b.head ≤ s.b.tail
  th : s.b.tail ≤ s.b.head + 2 ^ k
  hr : s.b.head ≤ s.b.headR
  tr : s.b.tail ≤ s.b.tailR
  slen : a.s.length = s.b.tail - s.b.head
  content : ∀ i, i < a.s.length → s.b.d[(s.b.head + i) % 2 ^ k]? = a.s[i]?
  pushLt : ∀ t o, pushTicket (s.pc t) = some o → s.b.tail ≤ o ∧ o < s.b.tailR
  pushNe : ∀ t t' o, pushTicket (s.pc t) = some o → pushTicket (s.pc t') = some o → t = t'
  popLt : ∀ t o, popTicket (s.pc t) = some o → s.b.head ≤ o ∧ o < s.b.headR
  popNe : ∀ t t' o, popTicket (s.pc t) = some o → popTicket (s.pc t') = some o → t = t'
  loc : ∀ t, Local (2 ^ k) s.b (s.pc t)
  st : ∀ t, a.th t = status (s.pc t)

theorem status_set {s : St V} {a : AState (List V) (Op V) (Ret V)} (h : ∀ t, a.th t = status (s.pc t)) (t : Nat)
    (p : PC V) (q : AStatus (Op V) (Ret V)) (hq : q = status p) :
    ∀ t', setAt a.th t q t' = status (setAt s.pc t p t') := by
  intro t'
  by_cases e : t' = t
  · subst e; simp [setAt_same, hq]
  · simp [setAt_ne _ _ _ _ e, h]

theorem status_keep {s : St V} {a : AState (List V) (Op V) (Ret V)} (h : ∀ t, a.th t = status (s.pc t)) (t : Nat)
    (p : PC V) (hq : status p = status (s.pc t)) : ∀ t', a.th t' = status (setAt s.pc t p t') := by
  intro t'
  by_cases e : t' = t
  · subst e; simp [setAt_same, hq, h]
  · simp [setAt_ne _ _ _ _ e, h]

/-- Properties of all goroutines after one of them moved. -/
theorem all_set {P : PC V → Prop} {f : Nat → PC V} (t : Nat) (p : PC V) (h1 : P p) (h2 : ∀ t', t' ≠ t → P (f t')) :
    ∀ t', P (setAt f t p t') := by
  intro t'
  by_cases e : t' = t
  · subst e; rw [setAt_same]; exact h1
  · rw [setAt_ne _ _ _ _ e]; exact h2 t' e

theorem ne_set {g : PC V → Option Nat} {f : Nat → PC V} (t : Nat) (p : PC V)
    (h0 : ∀ t t' o, g (f t) = some o → g (f t') = some o → t = t')
    (h1 : ∀ o, g p = some o → g (f t) = some o ∨ ∀ t', t' ≠ t → g (f t') ≠ some o) :
    ∀ t1 t2 o, g (setAt f t p t1) = some o → g (setAt f t p t2) = some o → t1 = t2 := by
  intro t1 t2 o e1 e2
  by_cases h : t1 = t <;> by_cases h' : t2 = t
  · rw [h, h']
  · subst h
    rw [setAt_same] at e1
    rw [setAt_ne _ _ _ _ h'] at e2
    rcases h1 o e1 with h1 | h1
    · exact h0 _ _ _ h1 e2
    · exact absurd e2 (h1 _ h')
  · subst h'
    rw [setAt_same] at e2
    rw [setAt_ne _ _ _ _ h] at e1
    rcases h1 o e2 with h1 | h1
    · exact h0 _ _ _ e1 h1
    · exact absurd e1 (h1 _ h)
  · rw [setAt_ne _ _ _ _ h] at e1
    rw [setAt_ne _ _ _ _ h'] at e2
    exact h0 _ _ _ e1 e2

/-- A step that changes nothing shared, and keeps or drops the ticket. -/
theorem Sim.move {k : Nat} {s : St V} {a : AState (List V) (Op V) (Ret V)} (h : Sim k s a) (t : Nat) (p : PC V)
    (h1 : ∀ o, pushTicket p = some o → pushTicket (s.pc t) = some o)
    (h2 : ∀ o, popTicket p = some o → popTicket (s.pc t) = some o)
    (h3 : Local (2 ^ k) s.b p) (th : Nat → AStatus (Op V) (Ret V)) (hth : ∀ t', th t' = status (setAt s.pc t p t')) :
    Sim k (s.goto t p) ⟨a.s, th⟩ :=
  ⟨h.mask, h.len, h.ht, h.th, h.hr, h.tr, h.slen, h.content,
    fun t' o => all_set (P := fun p => pushTicket p = some o → s.b.tail ≤ o ∧ o < s.b.tailR) t p
      (fun e => h.pushLt t o (h1 o e)) (fun t' _ => h.pushLt t' o) t',
    ne_set t p h.pushNe (fun o e => .inl (h1 o e)),
    fun t' o => all_set (P := fun p => popTicket p = some o → s.b.head ≤ o ∧ o < s.b.headR) t p
      (fun e => h.popLt t o (h2 o e)) (fun t' _ => h.popLt t' o) t',
    ne_set t p h.popNe (fun o e => .inl (h2 o e)),
    all_set t p h3 (fun t' _ => h.loc t'), hth⟩

theorem mod_ne {n x y b : Nat} (hx : b ≤ x) (hx' : x < b + n) (hy : b ≤ y) (hy' : y < b + n) (h : x ≠ y) :
    x % n ≠ y % n := by
  intro e
  rcases Nat.lt_or_ge x y with hlt | hge
  · have : n ∣ y - x := (Nat.modEq_iff_dvd' (Nat.le_of_lt hlt)).1 e
    have := Nat.le_of_dvd (by omega) this
    omega
  · have hlt : y < x := by omega
    have : n ∣ x - y := (Nat.modEq_iff_dvd' (Nat.le_of_lt hlt)).1 (Eq.symm e)
    have := Nat.le_of_dvd (by omega) this
    omega

theorem sim_step {k : Nat} (s : St V) (a : AState (List V) (Op V) (Ret V)) (e : Option (Ev (Op V) (Ret V))) (s' : St V)
    (h : Sim k s a) (hs : Step s e s' ∧ NoWrap s) : ∃ a', Exec (AStep fifo) a e.toList a' ∧ Sim k s' a' := by
  obtain ⟨hs, hw1, hw2⟩ := hs
  have hm := h.mask
  have hpos : 0 < 2 ^ k := Nat.two_pow_pos k
  have hht := h.ht
  have hth := h.th
  have hhr := h.hr
  have htr := h.tr
  have hland : ∀ o, o &&& s.b.mask = o % 2 ^ k := fun o => by rw [hm]; exact Nat.and_two_pow_sub_one_eq_mod _ _
  cases hs with
  | callPush t v hp =>
    exact ⟨_, Exec.one (.call a t (.mustPush v) (by rw [h.st, hp]; rfl)),
      h.move t (.puAdd v) (by simp [pushTicket]) (by simp [popTicket]) trivial _ (status_set h.st t _ _ rfl)⟩
  | callPop t hp =>
    exact ⟨_, Exec.one (.call a t .mustPop (by rw [h.st, hp]; rfl)),
      h.move t .poAdd (by simp [pushTicket]) (by simp [popTicket]) trivial _ (status_set h.st t _ _ rfl)⟩
  | ret t r hp =>
    exact ⟨_, Exec.one (.ret a t r (by rw [h.st, hp]; rfl)),
      h.move t .idle (by simp [pushTicket]) (by simp [popTicket]) trivial _ (status_set h.st t _ _ rfl)⟩
  | puAdd t v hp =>
    refine ⟨a, .refl _, h.mask, h.len, h.ht, h.th, h.hr, ?_, h.slen, h.content, ?_, ?_, ?_, ?_, ?_,
      status_keep h.st t _ (by rw [hp]; rfl)⟩
    · simp only; rw [Nat.mod_eq_of_lt (by omega)]; omega
    · intro t' o
      simp only
      rw [Nat.mod_eq_of_lt (by omega)]
      refine all_set (P := fun p => pushTicket p = some o → s.b.tail ≤ o ∧ o < s.b.tailR + 1) t _ ?_ ?_ t'
      · intro e; simp only [pushTicket, Option.some.injEq] at e; subst e; exact ⟨htr, by omega⟩
      · intro t' _ e; have := h.pushLt t' o e; omega
    · refine ne_set t _ h.pushNe (fun o e => .inr (fun t' _ e' => ?_))
      simp only [pushTicket, Option.some.injEq] at e
      have := h.pushLt t' o e'
      omega
    · intro t' o
      exact all_set (P := fun p => popTicket p = some o → s.b.head ≤ o ∧ o < s.b.headR) t _ (by simp [popTicket])
        (fun t' _ => h.popLt t' o) t'
    · exact ne_set t _ h.popNe (fun o e => by simp [popTicket] at e)
    · exact all_set (P := fun p => Local (2 ^ k) _ p) t _ trivial (fun t' _ => h.loc t')
  | poAdd t hp =>
    refine ⟨a, .refl _, h.mask, h.len, h.ht, h.th, ?_, h.tr, h.slen, h.content, ?_, ?_, ?_, ?_, ?_,
      status_keep h.st t _ (by rw [hp]; rfl)⟩
    · simp only; rw [Nat.mod_eq_of_lt (by omega)]; omega
    · intro t' o
      exact all_set (P := fun p => pushTicket p = some o → s.b.tail ≤ o ∧ o < s.b.tailR) t _ (by simp [pushTicket])
        (fun t' _ => h.pushLt t' o) t'
    · exact ne_set t _ h.pushNe (fun o e => by simp [pushTicket] at e)
    · intro t' o
      simp only
      rw [Nat.mod_eq_of_lt (by omega)]
      refine all_set (P := fun p => popTicket p = some o → s.b.head ≤ o ∧ o < s.b.headR + 1) t _ ?_ ?_ t'
      · intro e; simp only [popTicket, Option.some.injEq] at e; subst e; exact ⟨hhr, by omega⟩
      · intro t' _ e; have := h.popLt t' o e; omega
    · refine ne_set t _ h.popNe (fun o e => .inr (fun t' _ e' => ?_))
      simp only [popTicket, Option.some.injEq] at e
      have := h.popLt t' o e'
      omega
    · exact all_set (P := fun p => Local (2 ^ k) _ p) t _ trivial (fun t' _ => h.loc t')
  | puWait t v old hp =>
    have hold := h.pushLt t old (by rw [hp]; rfl)
    refine ⟨a, .refl _, ?_⟩
    rw [Nat.mod_eq_of_lt (by omega), Nat.mod_eq_of_lt (by omega)]
    split
    · exact h.move t (.puWait v old) (by simp [hp, pushTicket]) (by simp [popTicket]) trivial _
        (status_keep h.st t _ (by rw [hp]))
    · exact h.move t (.puWrite v old) (by simp [hp, pushTicket]) (by simp [popTicket]) (by simp only [Local]; omega) _
        (status_keep h.st t _ (by rw [hp]; rfl))
  | poWait t old hp =>
    have hold := h.popLt t old (by rw [hp]; rfl)
    refine ⟨a, .refl _, ?_⟩
    split
    · exact h.move t (.poWait old) (by simp [pushTicket]) (by simp [hp, popTicket]) trivial _
        (status_keep h.st t _ (by rw [hp]))
    · exact h.move t (.poRead old) (by simp [pushTicket]) (by simp [hp, popTicket]) (by simp only [Local]; omega) _
        (status_keep h.st t _ (by rw [hp]; rfl))
  | poRead t old hp =>
    have hl := h.loc t
    rw [hp] at hl
    simp only [Local] at hl
    have hlt : old % 2 ^ k < s.b.d.length := by rw [h.len]; exact Nat.mod_lt _ hpos
    have hg : s.b.d[old % 2 ^ k]? = some s.b.d[old % 2 ^ k] := List.getElem?_eq_getElem hlt
    refine ⟨a, .refl _, ?_⟩
    unfold Go.get
    rw [hland, hg]
    exact h.move t (.poCas old _) (by simp [pushTicket]) (by simp [hp, popTicket]) ⟨hl, hg⟩ _
        (status_keep h.st t _ (by rw [hp]; rfl))
  | puWrite t v old hp =>
    have hold := h.pushLt t old (by rw [hp]; rfl)
    have hl := h.loc t
    rw [hp] at hl
    simp only [Local] at hl
    have hlt : old % 2 ^ k < s.b.d.length := by rw [h.len]; exact Nat.mod_lt _ hpos
    refine ⟨a, .refl _, ?_⟩
    unfold Go.set
    rw [hland, if_pos hlt]
    have other : ∀ o, s.b.head ≤ o → o < s.b.head + 2 ^ k → o ≠ old →
        (s.b.d.set (old % 2 ^ k) v)[o % 2 ^ k]? = s.b.d[o % 2 ^ k]? := by
      intro o h1 h2 h3
      exact List.getElem?_set_ne (mod_ne (b := s.b.head) (by omega) (by omega) (by omega) (by omega) (Ne.symm h3))
    refine ⟨h.mask, by simpa using h.len, h.ht, h.th, h.hr, h.tr, h.slen, ?_, ?_, ?_, ?_, ?_, ?_,
      status_keep h.st t _ (by rw [hp]; rfl)⟩
    · intro i hi
      have hs := h.slen
      simp only
      rw [other _ (by omega) (by omega) (by omega)]
      exact h.content i hi
    · intro t' o
      exact all_set (P := fun p => pushTicket p = some o → s.b.tail ≤ o ∧ o < s.b.tailR) t _
        (by intro e; exact h.pushLt t o (by rw [hp]; exact e)) (fun t' _ => h.pushLt t' o) t'
    · exact ne_set t _ h.pushNe (fun o e => .inl (by rw [hp]; exact e))
    · intro t' o
      exact all_set (P := fun p => popTicket p = some o → s.b.head ≤ o ∧ o < s.b.headR) t _ (by simp [popTicket])
        (fun t' _ => h.popLt t' o) t'
    · exact ne_set t _ h.popNe (fun o e => by simp [popTicket] at e)
    · refine all_set (P := fun p => Local (2 ^ k) _ p) t _ ⟨hl, by simp [hlt]⟩ (fun t' hne => ?_)
      have hl' := h.loc t'
      cases hpc : s.pc t' with
      | puCas w o =>
        rw [hpc] at hl'
        obtain ⟨r1, r2⟩ := hl'
        have ho := h.pushLt t' o (by rw [hpc]; rfl)
        refine ⟨r1, ?_⟩
        simp only
        rw [other o (by omega) r1 ?_]
        · exact r2
        · rintro rfl
          exact hne (h.pushNe t' t o (by rw [hpc]; rfl) (by rw [hp]; rfl))
      | poCas o w =>
        rw [hpc] at hl'
        obtain ⟨r1, r2⟩ := hl'
        have ho := h.popLt t' o (by rw [hpc]; rfl)
        refine ⟨r1, ?_⟩
        simp only
        rw [other o (by omega) (by omega) (by omega)]
        exact r2
      | ret r => rw [hpc] at hl'; cases r <;> exact hl'
      | _ => rw [hpc] at hl'; exact hl'
  | puCas t v old hp =>
    have hold := h.pushLt t old (by rw [hp]; rfl)
    have hl := h.loc t
    rw [hp] at hl
    simp only [Local] at hl
    by_cases hc : s.b.tail = old
    · subst hc
      rw [if_pos rfl, Nat.mod_eq_of_lt (by omega)]
      have hsl := h.slen
      refine ⟨_, Exec.one (.effect a t (.mustPush v) (by rw [h.st, hp]; rfl)), h.mask, h.len, ?_, ?_, h.hr, ?_, ?_, ?_, ?_, ?_, ?_, ?_, ?_,
        status_set h.st t _ _ rfl⟩
      · simp only; omega
      · simp only; omega
      · simp only; omega
      · simp only [fifo, List.length_append, List.length_singleton]; omega
      · intro i hi
        simp only [fifo, List.length_append, List.length_singleton] at hi ⊢
        by_cases e : i < a.s.length
        · rw [List.getElem?_append_left e]; exact h.content i e
        · have : i = a.s.length := by omega
          subst this
          rw [List.getElem?_append_right (by omega), hsl, show s.b.head + (s.b.tail - s.b.head) = s.b.tail by omega, hl.2]
          simp
      · intro t' o
        refine all_set (P := fun p => pushTicket p = some o → s.b.tail + 1 ≤ o ∧ o < s.b.tailR) t _ (by simp [pushTicket])
          (fun t' hne e => ?_) t'
        have := h.pushLt t' o e
        refine ⟨?_, this.2⟩
        have : o ≠ s.b.tail := by
          rintro rfl
          exact hne (h.pushNe _ _ _ e (by rw [hp]; rfl))
        omega
      · exact ne_set t _ h.pushNe (fun o e => by simp [pushTicket] at e)
      · intro t' o
        exact all_set (P := fun p => popTicket p = some o → s.b.head ≤ o ∧ o < s.b.headR) t _ (by simp [popTicket])
          (fun t' _ => h.popLt t' o) t'
      · exact ne_set t _ h.popNe (fun o e => by simp [popTicket] at e)
      · refine all_set (P := fun p => Local (2 ^ k) _ p) t _ rfl (fun t' hne => ?_)
        have hl' := h.loc t'
        cases hpc : s.pc t' with
        | poRead o => rw [hpc] at hl'; simp only [Local] at hl' ⊢; omega
        | poCas o w => rw [hpc] at hl'; simp only [Local] at hl' ⊢; exact ⟨by omega, hl'.2⟩
        | ret r => rw [hpc] at hl'; cases r <;> exact hl'
        | _ => rw [hpc] at hl'; exact hl'
    · rw [if_neg hc]
      exact ⟨a, .refl _, h⟩
  | poCas t old v hp =>
    have hold := h.popLt t old (by rw [hp]; rfl)
    have hl := h.loc t
    rw [hp] at hl
    simp only [Local] at hl
    by_cases hc : s.b.head = old
    · subst hc
      rw [if_pos rfl, Nat.mod_eq_of_lt (by omega)]
      have hsl := h.slen
      have hv := h.content 0 (by omega)
      rw [Nat.add_zero, hl.2] at hv
      cases ha : a.s with
      | nil => rw [ha] at hv; simp at hv
      | cons w r =>
        rw [ha] at hv hsl
        simp only [List.getElem?_cons_zero, Option.some.injEq] at hv
        subst hv
        have hcont := h.content
        rw [ha] at hcont
        simp only [List.length_cons] at hsl hcont
        refine ⟨_, Exec.one (.effect a t .mustPop (by rw [h.st, hp]; rfl)), ?_⟩
        rw [ha]
        refine ⟨h.mask, h.len, ?_, ?_, ?_, h.tr, ?_, ?_, ?_, ?_, ?_, ?_, ?_, status_set h.st t _ _ rfl⟩
        · simp only; omega
        · simp only; omega
        · simp only; omega
        · simp only [fifo]; omega
        · intro i hi
          simp only [fifo] at hi ⊢
          have := hcont (i + 1) (by omega)
          rw [List.getElem?_cons_succ] at this
          rw [← this]
          congr 2
          omega
        · intro t' o
          exact all_set (P := fun p => pushTicket p = some o → s.b.tail ≤ o ∧ o < s.b.tailR) t _ (by simp [pushTicket])
            (fun t' _ => h.pushLt t' o) t'
        · exact ne_set t _ h.pushNe (fun o e => by simp [pushTicket] at e)
        · intro t' o
          refine all_set (P := fun p => popTicket p = some o → s.b.head + 1 ≤ o ∧ o < s.b.headR) t _ (by simp [popTicket])
            (fun t' hne e => ?_) t'
          have := h.popLt t' o e
          refine ⟨?_, this.2⟩
          have : o ≠ s.b.head := by
            rintro rfl
            exact hne (h.popNe _ _ _ e (by rw [hp]; rfl))
          omega
        · exact ne_set t _ h.popNe (fun o e => by simp [popTicket] at e)
        · refine all_set (P := fun p => Local (2 ^ k) _ p) t _ rfl (fun t' hne => ?_)
          have hl' := h.loc t'
          cases hpc : s.pc t' with
          | puWrite w o => rw [hpc] at hl'; simp only [Local] at hl' ⊢; omega
          | puCas w o => rw [hpc] at hl'; simp only [Local] at hl' ⊢; exact ⟨by omega, hl'.2⟩
          | ret r => rw [hpc] at hl'; cases r <;> exact hl'
          | _ => rw [hpc] at hl'; exact hl'
    · rw [if_neg hc]
      exact ⟨a, .refl _, h⟩

theorem sim_init (k : Nat) : Sim (V := V) k (start k) (AState.init []) := by
  refine ⟨rfl, by simp [start], by simp [start], by simp [start], by simp [start], by simp [start], rfl, ?_, ?_, ?_, ?_,
    ?_, fun _ => trivial, fun _ => rfl⟩
  all_goals simp [start, AState.init, pushTicket, popTicket]

/-- C34: under every interleaving of any number of goroutines calling `MustPush` and `MustPop` on a buffer of any
power-of-two size, as long as the 64-bit ticket counters do not wrap, the buffer is linearizable to a FIFO, never
holds more values than it has slots, never panics, and every call that returns reports success. -/
theorem C34_linearizable (k : Nat) {τ : List (Ev (Op V) (Ret V))} {s : St V}
    (h : Exec (fun s e s' => Step s e s' ∧ NoWrap s) (start k) τ s) :
    ∃ a, Exec (AStep fifo) (AState.init []) τ a ∧ a.s.length ≤ 2 ^ k ∧ (∀ t, s.pc t ≠ .crashed) ∧
      (∀ t v ok, .ret t (.popped v ok) ∈ τ → ok = true) := by
  obtain ⟨a, ha, hr⟩ := linearizable_of_simulation (Sim k) (sim_init k) sim_step h
  refine ⟨a, ha, ?_, ?_, ?_⟩
  · have := hr.slen
    have := hr.th
    have := hr.ht
    have : 0 < 2 ^ k := Nat.two_pow_pos k
    omega
  · intro t e
    have := hr.loc t
    rw [e] at this
    exact this
  · clear hr ha a
    induction h with
    | refl => simp
    | silent _ _ ih => exact ih
    | visible hex hs ih =>
      intro t v ok hm
      rcases List.mem_append.1 hm with hm | hm
      · exact ih t v ok hm
      · rw [List.mem_singleton] at hm
        subst hm
        obtain ⟨a, _, hr⟩ := linearizable_of_simulation (Sim k) (sim_init k) sim_step hex
        cases hs.1 with
        | ret _ _ hp =>
          have := hr.loc t
          rw [hp] at this
          exact this

/-- Non-vacuous: a push and a pop overlap, the pop waits for the push and returns its value. -/
example : ∃ s : St Nat, Exec (fun s e s' => Step s e s' ∧ NoWrap s) (start 1)
    [.call 1 .mustPop, .call 0 (.mustPush 7), .ret 1 (.popped 7 true)] s := by
  refine ⟨_, .visible (.silent (.silent (.silent (.silent (.silent (.silent (.silent (.visible (.silent (.silent (.visible (.refl _)
    ⟨.callPop _ 1 rfl, ?_⟩) ⟨.poAdd _ 1 rfl, ?_⟩) ⟨.poWait _ 1 0 rfl, ?_⟩) ⟨.callPush _ 0 7 rfl, ?_⟩)
    ⟨.puAdd _ 0 7 rfl, ?_⟩) ⟨.puWait _ 0 7 0 rfl, ?_⟩) ⟨.puWrite _ 0 7 0 rfl, ?_⟩) ⟨.puCas _ 0 7 0 rfl, ?_⟩)
    ⟨.poWait _ 1 0 rfl, ?_⟩) ⟨.poRead _ 1 0 rfl, ?_⟩) ⟨.poCas _ 1 0 7 rfl, ?_⟩) ⟨.ret _ 1 (.popped 7 true) rfl, ?_⟩⟩
  all_goals exact ⟨by decide, by decide⟩

/-! ## C35 -/

theorem roundUp_slt {x n : BitVec 64} {fuel : Nat} (h : x.slt n) : roundUp x n (fuel + 1) = roundUp (x * 2) n fuel := by
  rw [roundUp, if_pos h]

theorem roundUp_ends (k : Nat) : ∀ (n x : BitVec 64), x.toNat * 2 ^ k ≤ 2 ^ 62 → 0 < x.toNat → n.toInt ≤ x.toNat * 2 ^ k →
    ∃ F, ∀ fuel ≥ F, roundUp x n fuel = some () := by
  induction k with
  | zero =>
    intro n x h1 h2 h3
    refine ⟨1, fun fuel hf => ?_⟩
    obtain ⟨f, rfl⟩ : ∃ f, fuel = f + 1 := ⟨fuel - 1, by omega⟩
    rw [roundUp, if_neg]
    rw [BitVec.slt_eq_decide, decide_eq_true_eq, BitVec.toInt_eq_toNat_of_lt (x := x) (by omega)]
    simp at h3
    omega
  | succ k ih =>
    intro n x h1 h2 h3
    have hp : 0 < 2 ^ k := Nat.two_pow_pos k
    have hx : x.toNat * 2 ≤ 2 ^ 62 := by
      refine Nat.le_trans ?_ h1
      rw [Nat.pow_succ]
      exact Nat.mul_le_mul_left _ (by omega)
    have hx2 : (x * 2).toNat = x.toNat * 2 := by
      rw [BitVec.toNat_mul, Nat.mod_eq_of_lt]
      · rfl
      · simp; omega
    have h1' : (x * 2).toNat * 2 ^ k ≤ 2 ^ 62 := by
      rw [hx2]
      refine Nat.le_trans (Nat.le_of_eq ?_) h1
      rw [Nat.pow_succ, Nat.mul_assoc, Nat.mul_comm 2]
    have h3' : n.toInt ≤ (x * 2).toNat * 2 ^ k := by
      rw [hx2]
      refine Int.le_trans h3 (Int.le_of_eq ?_)
      push_cast
      rw [pow_succ, mul_assoc, mul_comm (2 : Int)]
    obtain ⟨F, hF⟩ := ih n (x * 2) h1' (by omega) h3'
    refine ⟨F + 1, fun fuel hf => ?_⟩
    obtain ⟨f, rfl⟩ : ∃ f, fuel = f + 1 := ⟨fuel - 1, by omega⟩
    rw [roundUp]
    split
    · exact hF f (by omega)
    · rfl

theorem roundUp_zero {n : BitVec 64} (h : 0 < n.toInt) : ∀ fuel, roundUp 0 n fuel = none := by
  intro fuel
  induction fuel with
  | zero => rfl
  | succ f ih =>
    rw [roundUp, if_pos]
    · exact ih
    · rw [BitVec.slt_eq_decide, decide_eq_true_eq]
      exact h

theorem roundUp_diverges {n : BitVec 64} (h : 2 ^ 62 < n.toInt) : ∀ fuel, roundUp 1 n fuel = none := by
  have step : ∀ (x : BitVec 64), x.toInt ≤ 2 ^ 62 → (∀ f, roundUp (x * 2) n f = none) → ∀ f, roundUp x n f = none := by
    intro x hx hf f
    cases f with
    | zero => rfl
    | succ f =>
      rw [roundUp, if_pos]
      · exact hf f
      · rw [BitVec.slt_eq_decide, decide_eq_true_eq]; omega
  have hneg : ∀ f, roundUp (BitVec.ofNat 64 (2 ^ 63)) n f = none :=
    step _ (by decide) (roundUp_zero (by omega))
  have hk : ∀ k, k ≤ 62 → ∀ f, roundUp (BitVec.ofNat 64 (2 ^ (62 - k))) n f = none := by
    intro k
    induction k with
    | zero => intro _; exact step _ (by decide) hneg
    | succ k ih =>
      intro hk
      refine step _ ?_ ?_
      · have h1 : 2 ^ (62 - (k + 1)) ≤ 2 ^ 62 := Nat.pow_le_pow_right (by omega) (by omega)
        rw [BitVec.toInt_eq_toNat_of_lt, BitVec.toNat_ofNat, Nat.mod_eq_of_lt (by omega)]
        · exact_mod_cast h1
        · rw [BitVec.toNat_ofNat, Nat.mod_eq_of_lt (by omega)]; omega
      · have := ih (by omega)
        have e : BitVec.ofNat 64 (2 ^ (62 - (k + 1))) * 2 = BitVec.ofNat 64 (2 ^ (62 - k)) := by
          apply BitVec.eq_of_toNat_eq
          have h1 : 2 ^ (62 - (k + 1)) ≤ 2 ^ 61 := Nat.pow_le_pow_right (by omega) (by omega)
          have h2 : (2 : BitVec 64).toNat = 2 := rfl
          rw [BitVec.toNat_mul, BitVec.toNat_ofNat, BitVec.toNat_ofNat, h2,
            show 62 - k = (62 - (k + 1)) + 1 by omega, Nat.pow_succ, Nat.mod_eq_of_lt (a := 2 ^ (62 - (k + 1))) (by omega)]
          rfl
        rw [e]
        exact this
  exact hk 62 (by omega)

/-- C35 is false of the code.  `Init(n)` on a fresh buffer: for every `n` up to 2^62 the buffer gets exactly one
slot, whatever `n`; for larger `n` the call never returns. -/
theorem C35_init_exact (n : BitVec 64) :
    (n.toInt ≤ 2 ^ 62 → ∃ F, ∀ fuel ≥ F, ∃ b : B V, init fuel B.zero n = some b ∧ cap b = 1 ∧ b.mask = 0 ∧
      b.d = [default] ∧ b.head = 0 ∧ b.headR = 0 ∧ b.tail = 0 ∧ b.tailR = 0) ∧
    (2 ^ 62 < n.toInt → ∀ fuel, init (V := V) fuel B.zero n = none) := by
  constructor
  · intro h
    have hb : (if n.sle 8 then 8 else n).toInt ≤ ((1 : BitVec 64).toNat * 2 ^ 62 : Nat) := by
      split
      · decide
      · simpa using h
    obtain ⟨F, hF⟩ := roundUp_ends 62 (if n.sle 8 then 8 else n) 1 (by decide) (by decide) (by push_cast at hb ⊢; exact hb)
    refine ⟨F, fun fuel hf => ⟨⟨0, 0, 0, 0, 0, [default]⟩, ?_, rfl, rfl, rfl, rfl, rfl, rfl, rfl⟩⟩
    have := hF fuel hf
    simp only [BitVec.ofNat_eq_ofNat] at this
    simp [init, B.zero, this]
  · intro h fuel
    have hn : ¬ n.sle 8 := by
      rw [BitVec.sle_eq_decide, decide_eq_true_eq]
      have : (8 : BitVec 64).toInt = 8 := rfl
      omega
    have := roundUp_diverges h fuel
    simp only [BitVec.ofNat_eq_ofNat] at this hn
    simp [init, B.zero, hn, this]

/-- Only goroutine 0 runs. -/
def solo (b : B V) (p : PC V) : St V := ⟨b, setAt (fun _ => .idle) 0 p⟩

theorem solo_set (b : B V) (p q : PC V) : setAt (solo b p).pc 0 q = (solo b q).pc := by
  funext t
  by_cases e : t = 0 <;> simp [solo, setAt, e]

theorem solo_goto (b : B V) (p q : PC V) : (solo b p).goto 0 q = solo b q := by
  unfold St.goto
  rw [solo_set]
  rfl

/-- C35: therefore after `Init(n)` (any `n` up to 2^62, see `C35_init_exact`) and one `MustPush`, a second `MustPush`
waits although it was asked for room for more: the goroutine is at the waiting loop, nobody else runs, and its
next step leaves everything as it is. -/
theorem C35_room_false (v w : V) :
    ∃ s : St V, Exec Step (start 0) [.call 0 (.mustPush v), .ret 0 (.pushed true), .call 0 (.mustPush w)] s ∧
      s.pc 0 = .puWait w 1 ∧ (∀ t, t ≠ 0 → s.pc t = .idle) ∧ ∀ s', Step s none s' → s' = s := by
  have e0 : (start 0 : St V) = solo ⟨0, 0, 0, 0, 0, [default]⟩ .idle := by
    have : ∀ t, setAt (fun _ => PC.idle) 0 (PC.idle : PC V) t = .idle := fun t => by simp [setAt]
    simp [start, solo, funext this]
  have s1 : Step (V := V) (solo ⟨0, 0, 0, 0, 0, [default]⟩ .idle) (some (.call 0 (.mustPush v)))
      (solo ⟨0, 0, 0, 0, 0, [default]⟩ (.puAdd v)) := by
    rw [← solo_goto _ .idle (.puAdd v)]; exact .callPush _ 0 v rfl
  have s2 : Step (V := V) (solo ⟨0, 0, 0, 0, 0, [default]⟩ (.puAdd v)) none (solo ⟨0, 0, 0, 1, 0, [default]⟩ (.puWait v 0)) := by
    have := Step.puAdd (solo ⟨0, 0, 0, 0, 0, [default]⟩ (.puAdd v)) 0 v rfl
    rw [solo_set] at this
    exact this
  have s3 : Step (V := V) (solo ⟨0, 0, 0, 1, 0, [default]⟩ (.puWait v 0)) none (solo ⟨0, 0, 0, 1, 0, [default]⟩ (.puWrite v 0)) := by
    rw [← solo_goto _ (.puWait v 0) (.puWrite v 0)]; exact .puWait _ 0 v 0 rfl
  have s4 : Step (V := V) (solo ⟨0, 0, 0, 1, 0, [default]⟩ (.puWrite v 0)) none (solo ⟨0, 0, 0, 1, 0, [v]⟩ (.puCas v 0)) := by
    have := Step.puWrite (solo ⟨0, 0, 0, 1, 0, [default]⟩ (.puWrite v 0)) 0 v 0 rfl
    rw [solo_set] at this
    have e : Go.set (solo ⟨0, 0, 0, 1, 0, [default]⟩ (.puWrite v 0) : St V).b.d (0 &&& 0) v = .ok [v] := by
      simp [Go.set, solo]
    rw [show (solo ⟨0, 0, 0, 1, 0, [default]⟩ (.puWrite v 0) : St V).b.mask = 0 from rfl, e] at this
    exact this
  have s5 : Step (V := V) (solo ⟨0, 0, 0, 1, 0, [v]⟩ (.puCas v 0)) none (solo ⟨0, 0, 1, 1, 0, [v]⟩ (.ret (.pushed true))) := by
    have := Step.puCas (solo ⟨0, 0, 0, 1, 0, [v]⟩ (.puCas v 0)) 0 v 0 rfl
    rw [solo_set] at this
    exact this
  have s6 : Step (V := V) (solo ⟨0, 0, 1, 1, 0, [v]⟩ (.ret (.pushed true))) (some (.ret 0 (.pushed true)))
      (solo ⟨0, 0, 1, 1, 0, [v]⟩ .idle) := by
    rw [← solo_goto _ (.ret (.pushed true)) .idle]; exact .ret _ 0 _ rfl
  have s7 : Step (V := V) (solo ⟨0, 0, 1, 1, 0, [v]⟩ .idle) (some (.call 0 (.mustPush w))) (solo ⟨0, 0, 1, 1, 0, [v]⟩ (.puAdd w)) := by
    rw [← solo_goto _ .idle (.puAdd w)]; exact .callPush _ 0 w rfl
  have s8 : Step (V := V) (solo ⟨0, 0, 1, 1, 0, [v]⟩ (.puAdd w)) none (solo ⟨0, 0, 1, 2, 0, [v]⟩ (.puWait w 1)) := by
    have := Step.puAdd (solo ⟨0, 0, 1, 1, 0, [v]⟩ (.puAdd w)) 0 w rfl
    rw [solo_set] at this
    exact this
  have hid : ∀ t, t ≠ 0 → (solo (⟨0, 0, 1, 2, 0, [v]⟩ : B V) (.puWait w 1)).pc t = .idle :=
    fun t ht => by simp [solo, setAt_ne _ _ _ _ ht]
  refine ⟨solo ⟨0, 0, 1, 2, 0, [v]⟩ (.puWait w 1), ?_, rfl, hid, ?_⟩
  · rw [e0]
    exact .silent (.visible (.visible (.silent (.silent (.silent (.silent (.visible (.refl _) s1) s2) s3) s4) s5) s6) s7) s8
  · have h0 : (solo (⟨0, 0, 1, 2, 0, [v]⟩ : B V) (.puWait w 1)).pc 0 = .puWait w 1 := rfl
    have key : ∀ t p, (solo (⟨0, 0, 1, 2, 0, [v]⟩ : B V) (.puWait w 1)).pc t = p → p ≠ .idle → t = 0 ∧ p = .puWait w 1 := by
      intro t p hp hi
      by_cases ht : t = 0
      · subst ht; exact ⟨rfl, hp.symm.trans h0⟩
      · exact absurd (hp.symm.trans (hid t ht)) hi
    intro s' hs
    cases hs with
    | puWait t x old hp =>
      obtain ⟨rfl, e⟩ := key t _ hp (by simp)
      cases e
      rw [if_pos (by simp [solo, W]), solo_goto]
    | puAdd t x hp => exact absurd (key t _ hp (by simp)).2 (by simp)
    | puWrite t x old hp => exact absurd (key t _ hp (by simp)).2 (by simp)
    | puCas t x old hp => exact absurd (key t _ hp (by simp)).2 (by simp)
    | poAdd t hp => exact absurd (key t _ hp (by simp)).2 (by simp)
    | poWait t old hp => exact absurd (key t _ hp (by simp)).2 (by simp)
    | poRead t old hp => exact absurd (key t _ hp (by simp)).2 (by simp)
    | poCas t old x hp => exact absurd (key t _ hp (by simp)).2 (by simp)

/-- Between calls: the reserved and the published counters agree, there are `2 ^ k` slots. -/
def Rest (k : Nat) (b : B V) : Prop :=
  b.mask = 2 ^ k - 1 ∧ b.d.length = 2 ^ k ∧ b.tail = b.tailR ∧ b.head = b.headR ∧ b.tailR + 1 < W ∧ b.headR + 1 < W

theorem old_eq {x : Nat} (h : x + 1 < W) : ((x + 1) % W + (W - 1)) % W = x := by
  rw [Nat.mod_eq_of_lt h, show x + 1 + (W - 1) = x + W by unfold W at *; omega, Nat.add_mod_right,
    Nat.mod_eq_of_lt (by omega)]

/-- C35, the exact behaviour of `Push` without other goroutines: it always overwrites the next slot, full or not,
and always reports false. -/
theorem C35_push_exact {k : Nat} {b : B V} (h : Rest k b) (v : V) :
    push b v = .ok (some
      (⟨b.head, b.headR, b.tailR + 1, b.tailR + 1, b.mask, b.d.set ((b.tailR + 1) % 2 ^ k) v⟩, false)) := by
  obtain ⟨h1, h2, h3, h4, h5, h6⟩ := h
  have hlt : (b.tailR + 1) % 2 ^ k < b.d.length := by rw [h2]; exact Nat.mod_lt _ (Nat.two_pow_pos k)
  unfold push Go.set
  simp only [old_eq h5, h1, Nat.and_two_pow_sub_one_eq_mod]
  rw [Nat.mod_eq_of_lt h5, if_pos hlt]
  simp [h3]

/-- C35, the exact behaviour of `Pop` without other goroutines: it always returns the content of the next slot,
empty or not, and always reports true. -/
theorem C35_pop_exact {k : Nat} {b : B V} (h : Rest k b) :
    ∃ v, b.d[(b.headR + 1) % 2 ^ k]? = some v ∧
      pop b = .ok (some ({ b with headR := b.headR + 1, head := b.headR + 1 }, v, true)) := by
  obtain ⟨h1, h2, h3, h4, h5, h6⟩ := h
  have hlt : (b.headR + 1) % 2 ^ k < b.d.length := by rw [h2]; exact Nat.mod_lt _ (Nat.two_pow_pos k)
  refine ⟨_, List.getElem?_eq_getElem hlt, ?_⟩
  unfold pop Go.get
  simp only [old_eq h6, h1, Nat.and_two_pow_sub_one_eq_mod]
  rw [Nat.mod_eq_of_lt h6, List.getElem?_eq_getElem hlt]
  simp [h4]

/-- C35 is false of the code: `Pop` on the buffer made by `Init` reports success although nothing was stored, and
`Size` is then -1. -/
theorem C35_pop_empty_false : ∃ b' : B V, pop ⟨0, 0, 0, 0, 0, [default]⟩ = .ok (some (b', default, true)) ∧ size b' = -1 :=
  by
  obtain ⟨v, hv, hp⟩ := C35_pop_exact (V := V) (k := 0) (b := ⟨0, 0, 0, 0, 0, [default]⟩)
    ⟨rfl, rfl, rfl, rfl, by simp [W], by simp [W]⟩
  have e : v = default := by simpa using hv.symm
  subst e
  refine ⟨_, hp, ?_⟩
  show (BitVec.ofNat 64 (0 + (W - 1))).toInt = -1
  decide +kernel

/-- A history of `Push v` (`some v`) and `Pop` (`none`) that never overfills or over-empties `2 ^ k` slots, starting
from the contents `l`. -/
def Disciplined (k : Nat) (l : List V) : List (Option V) → Prop
  | [] => True
  | some v :: r => l.length < 2 ^ k ∧ Disciplined k (l ++ [v]) r
  | none :: r => match l with
    | [] => False
    | _ :: t => Disciplined k t r

/-- What the pops of the history should return. -/
def expected (l : List V) : List (Option V) → List V
  | [] => []
  | some v :: r => expected (l ++ [v]) r
  | none :: r => match l with
    | [] => []
    | x :: t => x :: expected t r

/-- What the history leaves in the buffer. -/
def remaining (l : List V) : List (Option V) → List V
  | [] => l
  | some v :: r => remaining (l ++ [v]) r
  | none :: r => remaining l.tail r

/-- The code on a history: final buffer and values popped. -/
def runPP (b : B V) : List (Option V) → Res (Option (B V × List V))
  | [] => .ok (some (b, []))
  | some v :: r => do
    match ← push b v with
    | some (b', _) => runPP b' r
    | none => return none
  | none :: r => do
    match ← pop b with
    | some (b', x, _) =>
      match ← runPP b' r with
      | some (b'', xs) => return some (b'', x :: xs)
      | none => return none
    | none => return none

theorem runPP_spec (k : Nat) (ops : List (Option V)) : ∀ (b : B V) (l : List V), b.mask = 2 ^ k - 1 → b.d.length = 2 ^ k →
    b.tail = b.tailR → b.head = b.headR → b.tailR = b.headR + l.length → b.tailR + ops.length < W →
    b.headR + ops.length < W → l.length ≤ 2 ^ k →
    (∀ i, i < l.length → b.d[(b.headR + 1 + i) % 2 ^ k]? = l[i]?) → Disciplined k l ops →
    ∃ b', runPP b ops = .ok (some (b', expected l ops)) ∧ b'.tail = b'.head + (remaining l ops).length ∧ b'.tail < W ∧
      (remaining l ops).length ≤ 2 ^ k := by
  induction ops with
  | nil =>
    intro b l _ _ h3 h4 h5 h6 _ h8 _ _
    exact ⟨b, rfl, by rw [h3, h4]; exact h5, by rw [h3]; simpa using h6, h8⟩
  | cons o r ih =>
    intro b l h1 h2 h3 h4 h5 h6 h7 h8 h9 hd
    simp only [List.length_cons] at h6 h7
    have hrest : Rest k b := ⟨h1, h2, h3, h4, by omega, by omega⟩
    have hpos : 0 < 2 ^ k := Nat.two_pow_pos k
    cases o with
    | some v =>
      obtain ⟨hl, hd⟩ := hd
      unfold runPP
      rw [C35_push_exact hrest v]
      simp only [Res.bind_ok, expected]
      refine ih _ (l ++ [v]) h1 (by simpa using h2) rfl h4 (by simp; omega) (by simp only; omega) (by simp only; omega)
        (by simp; omega) (fun i hi => ?_) hd
      simp only [List.length_append, List.length_singleton] at hi
      simp only
      by_cases e : i < l.length
      · rw [List.getElem?_append_left e, List.getElem?_set_ne, h9 i e]
        exact mod_ne (b := b.headR + 1) (by omega) (by omega) (by omega) (by omega) (by omega)
      · have : i = l.length := by omega
        subst this
        rw [List.getElem?_append_right (by omega), show b.headR + 1 + l.length = b.tailR + 1 by omega,
          List.getElem?_set_self (by rw [h2]; exact Nat.mod_lt _ hpos)]
        simp
    | none =>
      cases l with
      | nil => exact absurd hd id
      | cons x t =>
        obtain ⟨w, hw, hp⟩ := C35_pop_exact hrest
        have hx := h9 0 (by simp)
        rw [Nat.add_zero, hw] at hx
        simp only [List.getElem?_cons_zero, Option.some.injEq] at hx
        subst hx
        simp only [List.length_cons] at h5 h8 h9
        obtain ⟨b', hb', hr'⟩ := ih { b with headR := b.headR + 1, head := b.headR + 1 } t h1 h2 h3 rfl (by simp only; omega)
          (by simp only; omega) (by simp only; omega) (by omega) (fun i hi => by
            have := h9 (i + 1) (by omega)
            rw [List.getElem?_cons_succ] at this
            rw [← this]
            congr 2
            simp only
            omega) hd
        refine ⟨b', ?_, hr'⟩
        unfold runPP
        rw [hp]
        simp only [Res.bind_ok]
        rw [hb']
        rfl

/-- C35 as far as it is true: in a single-threaded history of `Push` and `Pop` (fewer than 2^64 calls) in which the
client itself never pushes into a full buffer of `2 ^ k` slots and never pops an empty one, the pops return the
pushed values in FIFO order.  Missing: the results of `Push` and `Pop` (see `C35_push_exact`, `C35_pop_exact`) and the
size requested from `Init` (see `C35_init_exact`; the code reaches only `k = 0`). -/
theorem C35_fifo_partial (k : Nat) (ops : List (Option V)) (hlen : ops.length < W) (hd : Disciplined k [] ops) :
    ∃ b', runPP ⟨0, 0, 0, 0, 2 ^ k - 1, List.replicate (2 ^ k) default⟩ ops = .ok (some (b', expected [] ops)) := by
  obtain ⟨b', h, -⟩ := runPP_spec k ops ⟨0, 0, 0, 0, 2 ^ k - 1, List.replicate (2 ^ k) default⟩ [] rfl (by simp) rfl rfl rfl
    (by simpa using hlen) (by simpa using hlen) (by simp) (by simp) hd
  exact ⟨b', h⟩

/-- C35 as far as it is true: after such a history (with at most `2 ^ 62` slots) `Size` is the number of values pushed
and not popped, and `Empty` tells whether there are none. -/
theorem C35_size_partial (k : Nat) (hk : k ≤ 62) (ops : List (Option V)) (hlen : ops.length < W) (hd : Disciplined k [] ops) :
    ∃ b' out, runPP ⟨0, 0, 0, 0, 2 ^ k - 1, List.replicate (2 ^ k) default⟩ ops = .ok (some (b', out)) ∧
      size b' = (remaining [] ops).length ∧ (empty b' = true ↔ remaining [] ops = []) := by
  obtain ⟨b', h, h1, h2, h3⟩ := runPP_spec k ops ⟨0, 0, 0, 0, 2 ^ k - 1, List.replicate (2 ^ k) default⟩ [] rfl (by simp) rfl
    rfl rfl (by simpa using hlen) (by simpa using hlen) (by simp) (by simp) hd
  have hp : 2 ^ k ≤ 2 ^ 62 := Nat.pow_le_pow_right (by decide) hk
  have hs : size b' = (remaining [] ops).length := by
    unfold size
    rw [h1]
    generalize (remaining [] ops).length = n at *
    have e : b'.head + n + (W - b'.head) = n + W := by omega
    rw [e, BitVec.toInt_eq_toNat_cond, BitVec.toNat_ofNat, show n + W = n + 2 ^ 64 from rfl, Nat.add_mod_right,
      Nat.mod_eq_of_lt (by omega), if_pos (by omega)]
  refine ⟨b', _, h, hs, ?_⟩
  unfold empty
  rw [hs]
  simp

/-- C35 is false of the code: after a `Pop` of the buffer made by `Init`, which stored nothing, `Empty` is false. -/
theorem C35_empty_false : ∃ (b' : B V) (v : V), pop ⟨0, 0, 0, 0, 0, [default]⟩ = .ok (some (b', v, true)) ∧ empty b' = false := by
  obtain ⟨b', h, hs⟩ := C35_pop_empty_false (V := V)
  exact ⟨b', _, h, by simp [empty, hs]⟩

example := C35_size_partial 1 (by decide) [some 1, some 2, none, some 3] (by decide) (by simp [Disciplined])

example : Disciplined 1 ([] : List Nat) [some 1, some 2, none, some 3, none, none] ∧
    expected ([] : List Nat) [some 1, some 2, none, some 3, none, none] = [1, 2, 3] := by
  simp [Disciplined, expected]

/-- A buffer of four, wrapped around once. -/
example := C35_push_exact (k := 2) (b := (⟨3, 3, 5, 5, 3, [4, 5, 2, 3]⟩ : B Nat))
  ⟨rfl, rfl, rfl, rfl, by decide, by decide⟩ 6
example := C35_pop_exact (k := 2) (b := (⟨3, 3, 5, 5, 3, [4, 5, 2, 3]⟩ : B Nat))
  ⟨rfl, rfl, rfl, rfl, by decide, by decide⟩

end Verif.RingBuffer
