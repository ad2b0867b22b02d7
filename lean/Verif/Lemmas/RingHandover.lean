import Verif.Lemmas.RingRace
import Verif.Lemmas.Handover
/-!
# The ring buffer hands values over: invariant
-/
set_option linter.unusedSectionVars false
set_option linter.unusedSimpArgs false

namespace Verif.RingBuffer
open Verif.Spec
open Verif.LFDeque (setAt_same setAt_ne)
variable {V : Type} [Inhabited V]

/-- The value a goroutine is pushing, and its ticket. -/
def pushing : PC V → Option (V × Nat)
  | .puWait v o => some (v, o)
  | .puWrite v o => some (v, o)
  | .puCas v o => some (v, o)
  | _ => none

theorem pushing_ticket {p : PC V} {v : V} {o : Nat} (h : pushing p = some (v, o)) : pushTicket p = some o := by
  cases p <;> simp_all [pushing, pushTicket]

/-- The ticket of a popper that has seen the value's counter. -/
def popping : PC V → Option Nat
  | .poRead o => some o
  | .poCas o _ => some o
  | _ => none

theorem popping_ticket {p : PC V} {o : Nat} (h : popping p = some o) : popTicket p = some o := by
  cases p <;> simp_all [popping, popTicket]

/-- The invariant: the value with ticket `o` is `vl o`, its call stands at position `mk o`, and `hd o` has it. -/
structure HInv (n : Nat) (τ : List (RLab V)) (s : St V) (mk : Nat → Nat) (vl : Nat → V) (hd : Nat → Holder) : Prop where
  lt : ∀ o, o < s.b.tailR → mk o < τ.length
  inj : ∀ o o', o < s.b.tailR → o' < s.b.tailR → mk o = mk o' → o = o'
  pend : ∀ t v, s.pc t = .puAdd v → ∃ i, τ[i]? = some (.ev (.call t (.mustPush v))) ∧ Kn τ t i ∧ ∀ o, o < s.b.tailR → mk o ≠ i
  push : ∀ t v o, pushing (s.pc t) = some (v, o) → PutAt Op.mustPush τ (mk o) v ∧ vl o = v ∧ Kn τ t (mk o)
  put : ∀ o, o < s.b.tail → PutAt Op.mustPush τ (mk o) (vl o) ∧ Ps τ .tail (mk o)
  content : ∀ o, s.b.head ≤ o → o < s.b.tail → s.b.d[o % n]? = some (vl o)
  pop : ∀ t o, popping (s.pc t) = some o → Kn τ t (mk o)
  got : ∀ t o v, s.pc t = .poCas o v → vl o = v
  taking : ∀ t o, popTicket (s.pc t) = some o → hd o = .taker t
  free : ∀ o, s.b.headR ≤ o → hd o = .free
  taken : ∀ t v, s.pc t = .ret (.popped v true) →
    ∃ o, o < s.b.tail ∧ hd o = .taker t ∧ PutAt Op.mustPush τ (mk o) v ∧ Kn τ t (mk o)
  done : ∀ j t v, τ[j]? = some (.ev (.ret t (.popped v true))) →
    ∃ o, o < s.b.tail ∧ hd o = .gone j ∧ PutAt Op.mustPush τ (mk o) v ∧ EvBefore τ (mk o) j

theorem hinv_init (k : Nat) : HInv (2 ^ k) [] (start k : St V) (fun _ => 0) (fun _ => default) (fun _ => .free) where
  lt := by simp [start]
  inj := by simp [start]
  pend := by simp [start]
  push := by simp [start, pushing]
  put := by simp [start]
  content := by simp [start]
  pop := by simp [start, popping]
  got := by simp [start]
  taking := by simp [start, popTicket]
  free := by simp
  taken := by simp [start]
  done := by simp

/-- One more label that is not the return of a value. -/
theorem hinv_lab {n : Nat} {τ : List (RLab V)} {s : St V} {mk : Nat → Nat} {vl : Nat → V} {hd : Nat → Holder} (h : HInv n τ s mk vl hd)
    (l : RLab V) (hl : ∀ t v, l ≠ .ev (.ret t (.popped v true)))
    (hst : ∀ a, l = .acc a → a.loc = .tail → a.kind = .rmw ∨ a.kind.writes = false) : HInv n (τ ++ [l]) s mk vl hd where
  lt o ho := by have := h.lt o ho; simp; omega
  inj := h.inj
  pend t v hp := by
    obtain ⟨i, h1, h2, h3⟩ := h.pend t v hp
    exact ⟨i, lab_get h1, kn_mono h2, h3⟩
  push t v o hp := ⟨putAt_mono (h.push t v o hp).1, (h.push t v o hp).2.1, kn_mono (h.push t v o hp).2.2⟩
  put o ho := ⟨putAt_mono (h.put o ho).1, ps_mono hst (h.put o ho).2⟩
  content := h.content
  pop t o hp := kn_mono (h.pop t o hp)
  got := h.got
  taking := h.taking
  free := h.free
  taken t v hp := by
    obtain ⟨o, h1, h2, h3, h4⟩ := h.taken t v hp
    exact ⟨o, h1, h2, putAt_mono h3, kn_mono h4⟩
  done j t v hj := by
    rcases lab_split hj with hj | ⟨_, e⟩
    · obtain ⟨o, h1, h2, h3, h4⟩ := h.done j t v hj
      exact ⟨o, h1, h2, putAt_mono h3, evBefore_mono (List.getElem?_eq_some_iff.mp hj).1 h4⟩
    · exact absurd e.symm (hl t v)

/-- A goroutine moves; the buffer is not concerned. -/
theorem hinv_pc {n : Nat} {τ : List (RLab V)} {s : St V} {mk : Nat → Nat} {vl : Nat → V} {hd : Nat → Holder} (h : HInv n τ s mk vl hd)
    (t : Nat) (p : PC V)
    (h1 : ∀ v, p = .puAdd v → ∃ i, τ[i]? = some (.ev (.call t (.mustPush v))) ∧ Kn τ t i ∧ ∀ o, o < s.b.tailR → mk o ≠ i)
    (h2 : ∀ x, pushing p = some x → pushing (s.pc t) = some x)
    (h3 : ∀ o, popping p = some o → Kn τ t (mk o))
    (h4 : ∀ o v, p = .poCas o v → vl o = v)
    (h5 : ∀ o, popTicket p = some o → popTicket (s.pc t) = some o)
    (h6 : ∀ v, p = .ret (.popped v true) → ∃ o, o < s.b.tail ∧ hd o = .taker t ∧ PutAt Op.mustPush τ (mk o) v ∧ Kn τ t (mk o)) :
    HInv n τ (s.goto t p) mk vl hd where
  lt := h.lt
  inj := h.inj
  pend u v hu := by
    by_cases e : u = t
    · subst e; simp only [St.goto, setAt_same] at hu; exact h1 v hu
    · simp only [St.goto, setAt_ne _ _ _ _ e] at hu; exact h.pend u v hu
  push u v o hu := by
    by_cases e : u = t
    · subst e; simp only [St.goto, setAt_same] at hu; exact h.push u v o (h2 _ hu)
    · simp only [St.goto, setAt_ne _ _ _ _ e] at hu; exact h.push u v o hu
  put := h.put
  content := h.content
  pop u o hu := by
    by_cases e : u = t
    · subst e; simp only [St.goto, setAt_same] at hu; exact h3 o hu
    · simp only [St.goto, setAt_ne _ _ _ _ e] at hu; exact h.pop u o hu
  got u o v hu := by
    by_cases e : u = t
    · subst e; simp only [St.goto, setAt_same] at hu; exact h4 o v hu
    · simp only [St.goto, setAt_ne _ _ _ _ e] at hu; exact h.got u o v hu
  taking u o hu := by
    by_cases e : u = t
    · subst e; simp only [St.goto, setAt_same] at hu; exact h.taking u o (h5 o hu)
    · simp only [St.goto, setAt_ne _ _ _ _ e] at hu; exact h.taking u o hu
  free := h.free
  taken u v hu := by
    by_cases e : u = t
    · subst e; simp only [St.goto, setAt_same] at hu; exact h6 v hu
    · simp only [St.goto, setAt_ne _ _ _ _ e] at hu; exact h.taken u v hu
  done := h.done

theorem hinv_step {k : Nat} {τ : List (RLab V)} {s s' : St V} {a : AState (List V) (Op V) (Ret V)} {e : Option (RLab V)}
    {mk : Nat → Nat} {vl : Nat → V} {hd : Nat → Holder}
    (h : HInv (2 ^ k) τ s mk vl hd) (hS : Sim k s a) (hw : NoWrap s) (hs : RStep s e s') :
    ∃ mk' vl' hd', HInv (2 ^ k) (τ ++ e.toList) s' mk' vl' hd' := by
  obtain ⟨hw1, hw2⟩ := hw
  have hm := hS.mask
  have hpos : 0 < 2 ^ k := Nat.two_pow_pos k
  have hht := hS.ht
  have hth := hS.th
  have hhr := hS.hr
  have htr := hS.tr
  have hland : ∀ o, o &&& s.b.mask = o % 2 ^ k := fun o => by rw [hm]; exact Nat.and_two_pow_sub_one_eq_mod _ _
  cases hs with
  | callPush t v hp =>
    have h1 := hinv_lab h (.ev (.call t (.mustPush v))) (by simp) (by simp)
    refine ⟨mk, vl, hd, hinv_pc h1 t _ ?_ (by simp [pushing]) (by simp [popping]) (by simp) (by simp [popTicket]) (by simp)⟩
    intro w hw
    cases hw
    refine ⟨τ.length, by simp, kn_self (Ev.call t (Op.mustPush v)), fun o ho => ?_⟩
    have := h.lt o ho
    omega
  | callPop t hp =>
    have h1 := hinv_lab h (.ev (.call t .mustPop)) (by simp) (by simp)
    exact ⟨mk, vl, hd, hinv_pc h1 t _ (by simp) (by simp [pushing]) (by simp [popping]) (by simp) (by simp [popTicket]) (by simp)⟩
  | puPanic t v old hp hdd =>
    simp only [Option.toList, List.append_nil]
    exact ⟨mk, vl, hd, hinv_pc h t _ (by simp) (by simp [pushing]) (by simp [popping]) (by simp) (by simp [popTicket]) (by simp)⟩
  | poPanic t old hp hdd =>
    simp only [Option.toList, List.append_nil]
    exact ⟨mk, vl, hd, hinv_pc h t _ (by simp) (by simp [pushing]) (by simp [popping]) (by simp) (by simp [popTicket]) (by simp)⟩
  | puCasFail t v old hp hc => exact ⟨mk, vl, hd, hinv_lab h _ (by simp) (by simp [AccKind.writes])⟩
  | poCasFail t old v hp hc => exact ⟨mk, vl, hd, hinv_lab h _ (by simp) (by simp)⟩
  | puWait t v old hp =>
    have h1 := hinv_lab h (.acc ⟨t, .load, .head⟩) (by simp) (by simp)
    refine ⟨mk, vl, hd, hinv_pc h1 t _ (by split <;> simp) (by split <;> simp [hp, pushing]) (by split <;> simp [popping])
      (by split <;> simp) (by split <;> simp [popTicket]) (by split <;> simp)⟩
  | poWait t old hp =>
    have h1 := hinv_lab h (.acc ⟨t, .load, .tail⟩) (by simp) (by simp [AccKind.writes])
    refine ⟨mk, vl, hd, hinv_pc h1 t _ (by split <;> simp) (by split <;> simp [pushing]) ?_
      (by split <;> simp) (by split <;> simp [hp, popTicket]) (by split <;> simp)⟩
    intro o ho
    split at ho
    · cases ho
    · simp only [popping, Option.some.injEq] at ho
      subst ho
      exact kn_obs rfl (h.put old (by omega)).2
  | poRead t old v hp hdd =>
    have h1 := hinv_lab h (.acc ⟨t, .read, .slot (old &&& s.b.mask)⟩) (by simp) (by simp)
    have hold := hS.popLt t old (by rw [hp]; rfl)
    have hloc := hS.loc t
    rw [hp] at hloc
    have hloc : old < s.b.tail := hloc
    refine ⟨mk, vl, hd, hinv_pc h1 t _ (by simp) (by simp [pushing]) ?_ ?_ (by simp [hp, popTicket]) (by simp)⟩
    · intro o ho
      simp only [popping, Option.some.injEq] at ho
      subst ho
      exact h1.pop t old (by rw [hp]; rfl)
    · intro o w ho
      cases ho
      have := h.content old hold.1 hloc
      rw [hland] at hdd
      unfold Go.get at hdd
      rw [this] at hdd
      exact Res.ok.inj hdd
  | puAdd t v hp =>
    have h1 := hinv_lab h (.acc ⟨t, .rmw, .tailR⟩) (by simp) (by simp)
    obtain ⟨i, g1, g2, g3⟩ := h1.pend t v hp
    have hne : ∀ o, o < s.b.tailR → setAt mk s.b.tailR i o = mk o := fun o ho => setAt_ne _ _ _ _ (by omega)
    have hve : ∀ o, o < s.b.tailR → setAt vl s.b.tailR v o = vl o := fun o ho => setAt_ne _ _ _ _ (by omega)
    have hpc : ∀ {α : Type} (f : PC V → Option α) u x, f (.puWait v s.b.tailR) = none →
        f (setAt s.pc t (.puWait v s.b.tailR) u) = some x → f (s.pc u) = some x := by
      intro α f u x h0 hu
      unfold setAt at hu
      split at hu
      · rw [h0] at hu; cases hu
      · exact hu
    refine ⟨setAt mk s.b.tailR i, setAt vl s.b.tailR v, hd, ?_⟩
    simp only [Option.toList]
    rw [Nat.mod_eq_of_lt (by omega)]
    refine ⟨?_, ?_, ?_, ?_, ?_, ?_, ?_, ?_, ?_, h1.free, ?_, ?_⟩
    · intro o ho
      dsimp only at ho
      by_cases e : o = s.b.tailR
      · subst e
        rw [setAt_same]
        exact (List.getElem?_eq_some_iff.mp g1).1
      · rw [hne o (by omega)]
        exact h1.lt o (by omega)
    · intro o o' ho ho' e
      dsimp only at ho ho'
      by_cases e1 : o = s.b.tailR <;> by_cases e2 : o' = s.b.tailR
      · rw [e1, e2]
      · subst e1
        rw [setAt_same, hne o' (by omega)] at e
        exact absurd e.symm (g3 o' (by omega))
      · subst e2
        rw [setAt_same, hne o (by omega)] at e
        exact absurd e (g3 o (by omega))
      · rw [hne o (by omega), hne o' (by omega)] at e
        exact h.inj o o' (by omega) (by omega) e
    · intro u w hu
      by_cases e : u = t
      · subst e; simp [setAt_same, pushing, popping, popTicket] at hu
      · simp only [setAt_ne _ _ _ _ e] at hu
        obtain ⟨i', f1, f2, f3⟩ := h1.pend u w hu
        refine ⟨i', f1, f2, fun o ho => ?_⟩
        dsimp only at ho
        by_cases e' : o = s.b.tailR
        · subst e'
          rw [setAt_same]
          rintro rfl
          rw [g1] at f1
          simp only [Option.some.injEq, Lab.ev.injEq, Ev.call.injEq] at f1
          exact e f1.1.symm
        · rw [hne o (by omega)]
          exact f3 o (by omega)
    · intro u w o hu
      by_cases e : u = t
      · subst e
        simp only [setAt_same] at hu
        simp only [pushing, Option.some.injEq, Prod.mk.injEq] at hu
        obtain ⟨rfl, rfl⟩ := hu
        rw [setAt_same, setAt_same]
        exact ⟨⟨u, g1⟩, rfl, g2⟩
      · simp only [setAt_ne _ _ _ _ e] at hu
        have := (hS.pushLt u o (pushing_ticket hu)).2
        rw [hne o this, hve o this]
        exact h1.push u w o hu
    · intro o ho
      dsimp only at ho
      rw [hne o (by omega), hve o (by omega)]
      exact h1.put o ho
    · intro o ho ho'
      dsimp only at ho ho' ⊢
      rw [hve o (by omega)]
      exact h.content o ho ho'
    · intro u o hu
      have hu := hpc popping u o rfl hu
      have hl := hS.loc u
      have : o < s.b.tail := by
        cases hq : s.pc u <;> rw [hq] at hu hl <;> simp only [popping, reduceCtorEq, Option.some.injEq] at hu
        · subst hu; exact hl
        · subst hu; exact hl.1
      rw [hne o (by omega)]
      exact h1.pop u o hu
    · intro u o w hu
      by_cases e : u = t
      · subst e; simp [setAt_same, pushing, popping, popTicket] at hu
      · simp only [setAt_ne _ _ _ _ e] at hu
        have hl := hS.loc u
        rw [hu] at hl
        have := hl.1
        rw [hve o (by omega)]
        exact h.got u o w hu
    · exact fun u o hu => h.taking u o (hpc popTicket u o rfl hu)
    · intro u w hu
      by_cases e : u = t
      · subst e; simp [setAt_same, pushing, popping, popTicket] at hu
      · simp only [setAt_ne _ _ _ _ e] at hu
        obtain ⟨o, f1, f2⟩ := h1.taken u w hu
        refine ⟨o, f1, ?_⟩
        rw [hne o (by omega)]
        exact f2
    · intro j u w hj
      obtain ⟨o, f1, f2⟩ := h1.done j u w hj
      refine ⟨o, f1, ?_⟩
      rw [hne o (by omega)]
      exact f2
  | poAdd t hp =>
    have h1 := hinv_lab h (.acc ⟨t, .rmw, .headR⟩) (by simp) (by simp)
    have h2 := hinv_pc h1 t .idle (by simp) (by simp [pushing]) (by simp [popping]) (by simp) (by simp [popTicket]) (by simp)
    have hfree : hd s.b.headR = .free := h.free _ (Nat.le_refl _)
    have hne : ∀ o x, hd o = x → x ≠ .free → setAt hd s.b.headR (.taker t) o = x := by
      intro o x ho hx
      rw [setAt_ne _ _ _ _ (by rintro rfl; exact hx (ho.symm.trans hfree))]
      exact ho
    refine ⟨mk, vl, setAt hd s.b.headR (.taker t), ?_⟩
    simp only [Option.toList]
    rw [Nat.mod_eq_of_lt (by omega)]
    refine ⟨h1.lt, h1.inj, ?_, ?_, h1.put, h1.content, ?_, ?_, ?_, ?_, ?_, ?_⟩
    · intro u w hu
      by_cases e : u = t
      · subst e; simp [setAt_same, pushing, popping, popTicket] at hu
      · simp only [setAt_ne _ _ _ _ e] at hu; exact h1.pend u w hu
    · intro u w o hu
      by_cases e : u = t
      · subst e; simp [setAt_same, pushing, popping, popTicket] at hu
      · simp only [setAt_ne _ _ _ _ e] at hu; exact h1.push u w o hu
    · intro u o hu
      by_cases e : u = t
      · subst e; simp [setAt_same, pushing, popping, popTicket] at hu
      · simp only [setAt_ne _ _ _ _ e] at hu; exact h1.pop u o hu
    · intro u o w hu
      by_cases e : u = t
      · subst e; simp [setAt_same, pushing, popping, popTicket] at hu
      · simp only [setAt_ne _ _ _ _ e] at hu; exact h1.got u o w hu
    · intro u o hu
      by_cases e : u = t
      · subst e
        simp only [setAt_same] at hu
        simp only [popTicket, Option.some.injEq] at hu
        subst hu
        exact setAt_same _ _ _
      · simp only [setAt_ne _ _ _ _ e] at hu
        exact hne o _ (h.taking u o hu) (by simp)
    · intro o ho
      dsimp only at ho
      rw [setAt_ne _ _ _ _ (by omega)]
      exact h.free o (by omega)
    · intro u w hu
      by_cases e : u = t
      · subst e; simp [setAt_same, pushing, popping, popTicket] at hu
      · simp only [setAt_ne _ _ _ _ e] at hu
        obtain ⟨o, f1, f2, f3⟩ := h1.taken u w hu
        exact ⟨o, f1, hne o _ f2 (by simp), f3⟩
    · intro j u w hj
      obtain ⟨o, f1, f2, f3⟩ := h1.done j u w hj
      exact ⟨o, f1, hne o _ f2 (by simp), f3⟩
  | puWrite t v old d hp hdd =>
    have h1 := hinv_lab h (.acc ⟨t, .write, .slot (old &&& s.b.mask)⟩) (by simp) (by simp)
    have h2 := hinv_pc h1 t (.puCas v old) (by simp) (by simp [hp, pushing]) (by simp [popping]) (by simp) (by simp [popTicket]) (by simp)
    refine ⟨mk, vl, hd, h2.lt, h2.inj, h2.pend, h2.push, h2.put, ?_, h2.pop, h2.got, h2.taking, h2.free, h2.taken, h2.done⟩
    intro o ho ho'
    dsimp only at ho ho' ⊢
    have hold := hS.pushLt t old (by rw [hp]; rfl)
    have hloc := hS.loc t
    rw [hp] at hloc
    have hloc : old < s.b.head + 2 ^ k := hloc
    rw [hland] at hdd
    unfold Go.set at hdd
    split at hdd
    · have hd' := Res.ok.inj hdd
      rw [← hd', List.getElem?_set_ne]
      · exact h.content o ho ho'
      · intro hmod
        have hdv : 2 ^ k ∣ old - o := (Nat.modEq_iff_dvd' (by omega)).1 hmod.symm
        have := Nat.le_of_dvd (by omega) hdv
        omega
    · cases hdd
  | puCasOk t v old hp hc =>
    subst hc
    have h1 := hinv_lab h (.acc ⟨t, .rmw, .tail⟩) (by simp) (by simp)
    have h2 := hinv_pc h1 t (.ret (.pushed true)) (by simp) (by simp [pushing]) (by simp [popping]) (by simp) (by simp [popTicket]) (by simp)
    have hold := hS.pushLt t _ (by rw [hp]; rfl)
    have hpu := h.push t v s.b.tail (by rw [hp]; rfl)
    refine ⟨mk, vl, hd, ?_⟩
    simp only [Option.toList]
    rw [Nat.mod_eq_of_lt (by omega)]
    refine ⟨h2.lt, h2.inj, h2.pend, h2.push, ?_, ?_, h2.pop, h2.got, h2.taking, h2.free, ?_, ?_⟩
    · intro o ho
      dsimp only at ho
      by_cases e : o = s.b.tail
      · subst e
        refine ⟨?_, ps_pub rfl rfl hpu.2.2⟩
        rw [hpu.2.1]
        exact putAt_mono hpu.1
      · exact h1.put o (by omega)
    · intro o ho ho'
      dsimp only at ho ho' ⊢
      by_cases e : o = s.b.tail
      · subst e
        have hloc := hS.loc t
        rw [hp] at hloc
        rw [hpu.2.1]
        exact hloc.2
      · exact h.content o ho (by omega)
    · intro u w hu
      obtain ⟨o, f1, f2⟩ := h2.taken u w hu
      exact ⟨o, Nat.lt_succ_of_lt f1, f2⟩
    · intro j u w hj
      obtain ⟨o, f1, f2⟩ := h2.done j u w hj
      exact ⟨o, Nat.lt_succ_of_lt f1, f2⟩
  | poCasOk t old v hp hc =>
    subst hc
    have h1 := hinv_lab h (.acc ⟨t, .rmw, .head⟩) (by simp) (by simp)
    have hold := hS.popLt t _ (by rw [hp]; rfl)
    have hloc := hS.loc t
    rw [hp] at hloc
    have hgot := h.got t _ v hp
    have h2 := hinv_pc h1 t (.ret (.popped v true)) (by simp) (by simp [pushing]) (by simp [popping]) (by simp) (by simp [popTicket])
      (by
        intro w hw
        cases hw
        refine ⟨s.b.head, hloc.1, h.taking t _ (by rw [hp]; rfl), ?_, h1.pop t _ (by rw [hp]; rfl)⟩
        have := (h1.put _ hloc.1).1
        rwa [hgot] at this)
    refine ⟨mk, vl, hd, h2.lt, h2.inj, h2.pend, h2.push, h2.put, ?_, h2.pop, h2.got, h2.taking, h2.free, h2.taken, h2.done⟩
    intro o ho ho'
    dsimp only at ho ho' ⊢
    rw [Nat.mod_eq_of_lt (by omega)] at ho
    exact h.content o (by omega) ho'
  | ret t r hp =>
    by_cases hr : ∃ v, r = .popped v true
    · obtain ⟨v, rfl⟩ := hr
      obtain ⟨n, g1, g2, g3, g4⟩ := h.taken t v hp
      have hne : ∀ k x, hd k = x → x ≠ .taker t → setAt hd n (.gone τ.length) k = x := by
        intro k x hk hx
        rw [setAt_ne _ _ _ _ (by rintro rfl; exact hx (hk.symm.trans g2))]
        exact hk
      have hpc : ∀ {α : Type} (f : PC V → Option α) u x, f .idle = none → f (setAt s.pc t .idle u) = some x → u ≠ t ∧ f (s.pc u) = some x := by
        intro α f u x h0 hu
        unfold setAt at hu
        split at hu
        · rw [h0] at hu; cases hu
        · exact ⟨‹_›, hu⟩
      have hpq : ∀ q u, q ≠ .idle → setAt s.pc t .idle u = q → u ≠ t ∧ s.pc u = q := by
        intro q u h0 hu
        unfold setAt at hu
        split at hu
        · exact absurd hu.symm h0
        · exact ⟨‹_›, hu⟩
      refine ⟨mk, vl, setAt hd n (.gone τ.length), ?_⟩
      simp only [Option.toList, St.goto]
      refine ⟨?_, h.inj, ?_, ?_, ?_, h.content, ?_, ?_, ?_, ?_, ?_, ?_⟩
      · intro o ho
        have := h.lt o ho
        simp; omega
      · intro u w hu
        obtain ⟨i, f1, f2, f3⟩ := h.pend u w (hpq _ u (by simp) hu).2
        exact ⟨i, lab_get f1, kn_mono f2, f3⟩
      · intro u w o hu
        have := h.push u w o (hpc pushing u _ rfl hu).2
        exact ⟨putAt_mono this.1, this.2.1, kn_mono this.2.2⟩
      · exact fun o ho => ⟨putAt_mono (h.put o ho).1, ps_mono (by simp) (h.put o ho).2⟩
      · exact fun u o hu => kn_mono (h.pop u o (hpc popping u _ rfl hu).2)
      · exact fun u o w hu => h.got u o w (hpq _ u (by simp) hu).2
      · intro u o hu
        have hu := hpc popTicket u _ rfl hu
        exact hne o _ (h.taking u o hu.2) (by simp [hu.1])
      · exact fun o ho => hne o _ (h.free o ho) (by simp)
      · intro u w hu
        have hu := hpq _ u (by simp) hu
        obtain ⟨o, f1, f2, f3, f4⟩ := h.taken u w hu.2
        exact ⟨o, f1, hne o _ f2 (by simp [hu.1]), putAt_mono f3, kn_mono f4⟩
      · intro j u w hj
        rcases lab_split hj with hj | ⟨rfl, e⟩
        · obtain ⟨o, f1, f2, f3, f4⟩ := h.done j u w hj
          exact ⟨o, f1, hne o _ f2 (by simp), putAt_mono f3, evBefore_mono (List.getElem?_eq_some_iff.mp hj).1 f4⟩
        · cases e
          exact ⟨n, g1, setAt_same _ _ _, putAt_mono g3, evBefore_last g4⟩
    · have h1 := hinv_lab h (.ev (.ret t r)) (by rintro u v hc; cases hc; exact hr ⟨v, rfl⟩) (by simp)
      exact ⟨mk, vl, hd, hinv_pc h1 t _ (by simp) (by simp [pushing]) (by simp [popping]) (by simp) (by simp [popTicket]) (by simp)⟩

theorem handsOver_exec {k : Nat} {τ : List (RLab V)} {s : St V} (h : Exec (fun s e s' => RStep s e s' ∧ NoWrap s) (start k) τ s) :
    HandsOver Op.mustPush (fun v => .popped v true) τ := by
  have key : ∃ mk vl hd, HInv (2 ^ k) τ s mk vl hd := by
    induction h with
    | refl => exact ⟨_, _, _, hinv_init k⟩
    | silent h1 hs ih =>
      obtain ⟨mk, vl, hd, hr⟩ := ih
      obtain ⟨a, _, hS⟩ := linearizable_of_simulation (Sim k) (sim_init k) sim_step (rinv_exec h1).1
      have := hinv_step hr hS hs.2 hs.1
      simpa only [Option.toList, List.append_nil] using this
    | visible h1 hs ih =>
      obtain ⟨mk, vl, hd, hr⟩ := ih
      obtain ⟨a, _, hS⟩ := linearizable_of_simulation (Sim k) (sim_init k) sim_step (rinv_exec h1).1
      exact hinv_step hr hS hs.2 hs.1
  obtain ⟨mk, vl, hd, hr⟩ := key
  obtain ⟨a, _, hS⟩ := linearizable_of_simulation (Sim k) (sim_init k) sim_step (rinv_exec h).1
  have htr := hS.tr
  refine handsOver_ghost (fun o => o < s.b.tail) mk hd (fun n m hn hm => hr.inj n m (by omega) (by omega)) hr.done (fun v w e => by cases e; rfl)

end Verif.RingBuffer
