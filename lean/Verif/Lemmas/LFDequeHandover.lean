import Verif.Lemmas.LFDequeRace
import Verif.Lemmas.Handover
/-!
# The deque between one producer and one consumer hands values over: invariant
-/
set_option linter.unusedSectionVars false
set_option linter.unusedSimpArgs false

namespace Verif.LFDeque
open Verif.Spec
variable {V : Type} [Inhabited V]

/-- The value a goroutine is pushing. -/
def pushing : PC V → Option V
  | .pbLoad v => some v
  | .pbWrite v _ _ _ => some v
  | .pbCas v _ _ _ => some v
  | _ => none

/-- The goroutine has found the queue not empty. -/
def popping : PC V → Prop
  | .ofRead _ _ _ => True
  | .ofCas _ _ _ _ => True
  | _ => False

/-- The call that puts a value in. -/
abbrev putBack (v : V) : WOp V := .base (.pushBack v)

/-- The invariant: `q` are the positions of the calls whose values are stored, with the values; `hd i` has the value of the call at
position `i`. -/
structure HInv (τ : List (DLab V)) (s : DSt V) (q : List (Nat × V)) (hd : Nat → Holder) : Prop where
  fresh : ∀ i, hd i ≠ .free → i < τ.length
  ring : Ring.Rel (headTail s.base.q.headtail).1.toNat (headTail s.base.q.headtail).2.toNat s.base.q.d (q.map (·.2))
  nodup : (q.map (·.1)).Nodup
  items : ∀ x ∈ q, PutAt putBack τ x.1 x.2 ∧ Ps τ .headtail x.1 ∧ hd x.1 = .free
  push : ∀ t v, pushing (s.base.pc t) = some v → ∃ i, PutAt putBack τ i v ∧ Kn τ t i ∧ hd i = .free ∧ i ∉ q.map (·.1)
  pop : ∀ t, popping (s.base.pc t) → ∃ x r, q = x :: r ∧ Kn τ t x.1
  taken : ∀ t v, s.base.pc t = .ret (.popped v true) → ∃ i, hd i = .taker t ∧ PutAt putBack τ i v ∧ Kn τ t i
  done : ∀ j t v, τ[j]? = some (.ev (.ret t (.base (.popped v true)))) → ∃ i, hd i = .gone j ∧ PutAt putBack τ i v ∧ EvBefore τ i j

theorem hinv_init (n : Nat) (h0 : 0 < n) (hn : n < 2 ^ 31) : HInv [] (dstart n : DSt V) [] (fun _ => .free) where
  fresh := by simp
  ring := (sp_init (V := V) n h0 hn).ring
  nodup := by simp
  items := by simp
  push := by simp [dstart, start, pushing]
  pop := by simp [dstart, start, popping]
  taken := by simp [dstart, start]
  done := by simp

/-- One more label that is not the return of a value. -/
theorem hinv_lab {τ : List (DLab V)} {s : DSt V} {q : List (Nat × V)} {hd : Nat → Holder} (h : HInv τ s q hd)
    (l : DLab V) (hl : ∀ t v, l ≠ .ev (.ret t (.base (.popped v true))))
    (hst : ∀ a, l = .acc a → a.loc = .headtail → a.kind = .rmw ∨ a.kind.writes = false) : HInv (τ ++ [l]) s q hd where
  fresh i hi := by have := h.fresh i hi; simp; omega
  ring := h.ring
  nodup := h.nodup
  items x hx := ⟨putAt_mono (h.items x hx).1, ps_mono hst (h.items x hx).2.1, (h.items x hx).2.2⟩
  push t v hp := by
    obtain ⟨i, h1, h2, h3⟩ := h.push t v hp
    exact ⟨i, putAt_mono h1, kn_mono h2, h3⟩
  pop t hp := by
    obtain ⟨x, r, h1, h2⟩ := h.pop t hp
    exact ⟨x, r, h1, kn_mono h2⟩
  taken t v hp := by
    obtain ⟨i, h1, h2, h3⟩ := h.taken t v hp
    exact ⟨i, h1, putAt_mono h2, kn_mono h3⟩
  done j t v hj := by
    rcases lab_split hj with hj | ⟨_, e⟩
    · obtain ⟨i, h1, h2, h3⟩ := h.done j t v hj
      exact ⟨i, h1, putAt_mono h2, evBefore_mono (List.getElem?_eq_some_iff.mp hj).1 h3⟩
    · exact absurd e.symm (hl t v)

/-- A goroutine moves; the buffer is not concerned. -/
theorem hinv_pc {τ : List (DLab V)} {s s' : DSt V} {q : List (Nat × V)} {hd : Nat → Holder} (h : HInv τ s q hd) (t : Nat) (p : PC V)
    (hq : s'.base.q = s.base.q) (hp : s'.base.pc = setAt s.base.pc t p)
    (h1 : ∀ v, pushing p = some v → ∃ i, PutAt putBack τ i v ∧ Kn τ t i ∧ hd i = .free ∧ i ∉ q.map (·.1))
    (h2 : popping p → ∃ x r, q = x :: r ∧ Kn τ t x.1)
    (h3 : ∀ v, p ≠ .ret (.popped v true)) : HInv τ s' q hd where
  fresh := h.fresh
  ring := by rw [hq]; exact h.ring
  nodup := h.nodup
  items := h.items
  push u v hu := by
    rw [hp] at hu
    by_cases e : u = t
    · subst e; rw [setAt_same] at hu; exact h1 v hu
    · rw [setAt_ne _ _ _ _ e] at hu; exact h.push u v hu
  pop u hu := by
    rw [hp] at hu
    by_cases e : u = t
    · subst e; rw [setAt_same] at hu; exact h2 hu
    · rw [setAt_ne _ _ _ _ e] at hu; exact h.pop u hu
  taken u v hu := by
    rw [hp] at hu
    by_cases e : u = t
    · subst e; rw [setAt_same] at hu; exact absurd hu (h3 v)
    · rw [setAt_ne _ _ _ _ e] at hu; exact h.taken u v hu
  done := h.done

theorem hinv_step {c : Nat} {τ : List (DLab V)} {s s' : DSt V} {a : AState (List V) (Op V) (Ret V)} {e : Option (DLab V)}
    {q : List (Nat × V)} {hd : Nat → Holder} (h : HInv τ s q hd) (hS : Sp c s.base a) (hx : ∀ t, s.x t = .out ∨ s.x t = .full)
    (hr : DRoles e) (hs : DStep s e s') : ∃ q' hd', HInv (τ ++ e.toList) s' q' hd' := by
  have hself : ∀ t (s : St V), s.pc = setAt s.pc t (s.pc t) := by
    intro t s
    funext u
    by_cases e : u = t
    · subst e; simp [setAt]
    · simp [setAt, e]
  have hsame : ∀ {τ : List (DLab V)} {x : Nat → XPC}, HInv τ s q hd → HInv τ ⟨s.base, x⟩ q hd :=
    fun h => ⟨h.fresh, h.ring, h.nodup, h.items, h.push, h.pop, h.taken, h.done⟩
  have hlen := hS.len
  have hbd := hS.bound
  cases hs with
  | callPB t v hp _ =>
    have h1 := hinv_lab h (.ev (.call t (.base (.pushBack v)))) (by simp) (by simp)
    refine ⟨q, hd, hinv_pc h1 t (.pbLoad v) rfl rfl ?_ (by simp [popping]) (by simp)⟩
    intro w hw
    simp only [pushing, Option.some.injEq] at hw
    subst hw
    refine ⟨τ.length, ⟨t, by simp⟩, kn_self (Ev.call t (putBack v)), ?_, ?_⟩
    · by_contra hc
      have := h.fresh _ hc
      omega
    · intro hm
      obtain ⟨x, hx, e⟩ := List.mem_map.mp hm
      obtain ⟨u, hu⟩ := (h.items x hx).1
      have := (List.getElem?_eq_some_iff.mp hu).1
      omega
  | pbFull t v hp _ hc => exact ⟨q, hd, hsame (hinv_lab h _ (by simp) (by simp [AccKind.writes]))⟩
  | pbBusy t _ => exact ⟨q, hd, hsame (hinv_lab h _ (by simp) (by simp))⟩
  | pbLoad t v hp _ hc =>
    have h1 := hinv_lab h (.acc ⟨t, .load, .headtail⟩) (by simp) (by simp [AccKind.writes])
    exact ⟨q, hd, hinv_pc h1 t (.pbWrite v _ _ _) rfl rfl (fun w hw => h1.push t w (by rw [hp]; exact hw)) (by simp [popping]) (by simp)⟩
  | pbWrite t v g tl ht d hp hdd =>
    have h1 := hinv_lab h (.acc ⟨t, .write, .slot tl.toNat⟩) (by simp) (by simp)
    have h2 := hinv_pc (s' := ⟨s.base.goto t (.pbCas v g tl ht), s.x⟩) h1 t (.pbCas v g tl ht) rfl rfl
      (fun w hw => h1.push t w (by rw [hp]; exact hw)) (by simp [popping]) (by simp)
    obtain rfl := hS.t0 t _ hp (by simp [ConsOk]) (by simp)
    have hprod := hS.prod
    rw [hp] at hprod
    obtain ⟨q1, q2, q3⟩ := hprod
    refine ⟨q, hd, h2.fresh, ?_, h2.nodup, h2.items, h2.push, h2.pop, h2.taken, h2.done⟩
    obtain ⟨r1, r2, r3, r4⟩ := h.ring
    unfold Go.set at hdd
    split at hdd
    · have hd' := Res.ok.inj hdd
      subst hd'
      refine ⟨by simpa using r1, by simpa using r2, by simpa using r3, fun i hi => ?_⟩
      dsimp only
      rw [List.length_set, List.getElem?_set_ne]
      · exact r4 i hi
      · rw [q2, r3]
        unfold Ring.wrap
        split <;> split <;> omega
    · cases hdd
  | pbPanic t v g tl ht hp hdd =>
    simp only [Option.toList, List.append_nil]
    exact ⟨q, hd, hinv_pc h t .crashed rfl rfl (by simp [pushing]) (by simp [popping]) (by simp)⟩
  | pbCasOk t v g tl ht hp hc =>
    obtain rfl := hS.t0 t _ hp (by simp [ConsOk]) (by simp)
    have h1 := hinv_lab h (.acc ⟨0, .rmw, .headtail⟩) (by simp) (by simp)
    have hprod := hS.prod
    rw [hp] at hprod
    obtain ⟨q1, q2, q3, q4⟩ := hprod
    obtain ⟨i, g1, g2, g3, g4⟩ := h.push 0 v (by rw [hp]; rfl)
    have hg : g = (headTail s.base.q.headtail).1 := by rw [hc, q1]
    have htl := h.ring.tail_lt
    rw [← q2] at htl
    have hn := toNat_next (d := s.base.q.d) (by omega) tl htl
    have hpc : ∀ u p, setAt s.base.pc 0 (.ret .pushed) u = p → p ≠ .ret .pushed → s.base.pc u = p := by
      intro u p hu hp
      by_cases e : u = 0
      · subst e; rw [setAt_same] at hu; exact absurd hu.symm hp
      · rw [setAt_ne _ _ _ _ e] at hu; exact hu
    refine ⟨q ++ [(i, v)], hd, h1.fresh, ?_, ?_, ?_, ?_, ?_, ?_, h1.done⟩
    · have hnf : ¬ g.toNat = (next s.base.q.d tl).toNat := fun e => q3 (BitVec.eq_of_toNat_eq e)
      have hroom : (q.map (·.2)).length + 1 < s.base.q.d.length := by
        by_contra hc
        exact hnf (by rw [hn, hg, q2]; exact (rel_full_iff h.ring).mpr hc)
      have := h.ring.pushBack v hroom
      simp only [C32_unpack_pack, List.map_append, List.map_cons, List.map_nil]
      rw [hn, hg]
      rw [← q2] at this
      have hset : s.base.q.d.set tl.toNat v = s.base.q.d := by
        obtain ⟨hl, hv⟩ := List.getElem?_eq_some_iff.mp q4
        rw [← hv, List.set_getElem_self]
      rw [hset] at this
      exact this
    · rw [List.map_append, List.nodup_append]
      refine ⟨h.nodup, by simp, ?_⟩
      intro a ha b hb e
      simp at hb
      subst hb
      exact g4 (by rw [← e]; exact ha)
    · intro x hx
      rcases List.mem_append.mp hx with hx | hx
      · exact h1.items x hx
      · simp at hx
        subst hx
        exact ⟨putAt_mono g1, ps_pub rfl rfl g2, g3⟩
    · intro u w hu
      by_cases e : u = 0
      · subst e; simp [setAt_same, pushing] at hu
      · simp only [setAt_ne _ _ _ _ e] at hu
        have hu' : ∃ p, s.base.pc u = p := ⟨_, rfl⟩
        obtain ⟨p, hp'⟩ := hu'
        rw [hp'] at hu
        have := hS.t0 u p hp' (by clear hp'; cases p <;> simp [pushing, ConsOk] at hu ⊢) (by rintro rfl; cases hu)
        exact absurd this e
    · intro u hu
      by_cases e : u = 0
      · subst e; simp [setAt_same, popping] at hu
      · simp only [setAt_ne _ _ _ _ e] at hu
        obtain ⟨x, r, f1, f2⟩ := h1.pop u hu
        exact ⟨x, r ++ [(i, v)], by rw [f1]; rfl, f2⟩
    · intro u w hu
      exact h1.taken u w (hpc u _ hu (by simp))
  | pbCasFail t v g tl ht hp hc =>
    have h1 := hinv_lab h (.acc ⟨t, .load, .headtail⟩) (by simp) (by simp [AccKind.writes])
    exact ⟨q, hd, hinv_pc h1 t (.pbLoad v) rfl rfl (fun w hw => h1.push t w (by rw [hp]; exact hw)) (by simp [popping]) (by simp)⟩
  | callOF t hp _ =>
    have h1 := hinv_lab h (.ev (.call t (.base .popFront))) (by simp) (by simp)
    exact ⟨q, hd, hinv_pc h1 t (.ofLoad default) rfl rfl (by simp [pushing]) (by simp [popping]) (by simp)⟩
  | ofEmpty t v hp hc =>
    have h1 := hinv_lab h (.acc ⟨t, .load, .headtail⟩) (by simp) (by simp [AccKind.writes])
    exact ⟨q, hd, hinv_pc h1 t (.ret (.popped v false)) rfl rfl (by simp [pushing]) (by simp [popping]) (by simp)⟩
  | ofLoad t v hp hc =>
    have h1 := hinv_lab h (.acc ⟨t, .load, .headtail⟩) (by simp) (by simp [AccKind.writes])
    refine ⟨q, hd, hinv_pc h1 t (.ofRead _ _ _) rfl rfl (by simp [pushing]) (fun _ => ?_) (by simp)⟩
    cases hq : q with
    | nil =>
      have := h.ring.empty_iff.mpr (by rw [hq]; rfl)
      exact absurd (BitVec.eq_of_toNat_eq this) hc
    | cons x r => exact ⟨x, r, rfl, kn_obs rfl (h.items x (by rw [hq]; simp)).2.1⟩
  | ofRead t g tl ht v hp hdd =>
    have h1 := hinv_lab h (.acc ⟨t, .read, .slot g.toNat⟩) (by simp) (by simp)
    exact ⟨q, hd, hinv_pc h1 t (.ofCas v g tl ht) rfl rfl (by simp [pushing]) (fun _ => h1.pop t (by rw [hp]; trivial)) (by simp)⟩
  | ofPanic t g tl ht hp hdd =>
    simp only [Option.toList, List.append_nil]
    exact ⟨q, hd, hinv_pc h t .crashed rfl rfl (by simp [pushing]) (by simp [popping]) (by simp)⟩
  | ofCasOk t v g tl ht hp hc =>
    obtain rfl := hS.t1 t _ hp (by simp [ProdOk]) (by simp)
    have h1 := hinv_lab h (.acc ⟨1, .rmw, .headtail⟩) (by simp) (by simp)
    have hcons := hS.cons
    rw [hp] at hcons
    obtain ⟨q1, q2, q3, q4⟩ := hcons
    obtain ⟨x, r, rfl, g2⟩ := h1.pop 1 (by rw [hp]; trivial)
    have htl : tl = (headTail s.base.q.headtail).2 := by rw [hc, q1]
    have hfront := h.ring.front (by simp)
    rw [← q2, q4] at hfront
    simp only [List.map_cons, List.head?_cons, Option.some.injEq] at hfront
    have hx := h1.items x (by simp)
    have hnd := h.nodup
    simp only [List.map_cons, List.nodup_cons] at hnd
    have hfresh : hd x.1 = .free := hx.2.2
    have hne : ∀ i y, hd i = y → y ≠ .free → setAt hd x.1 (.taker 1) i = y := by
      intro i y hi hy
      rw [setAt_ne _ _ _ _ (by rintro rfl; exact hy (hi.symm.trans hfresh))]
      exact hi
    refine ⟨r, setAt hd x.1 (.taker 1), ?_, ?_, hnd.2, ?_, ?_, ?_, ?_, ?_⟩
    · intro i hi
      by_cases e : i = x.1
      · subst e
        obtain ⟨u, hu⟩ := hx.1
        exact (List.getElem?_eq_some_iff.mp hu).1
      · rw [setAt_ne _ _ _ _ e] at hi
        exact h1.fresh i hi
    · simp only [C32_unpack_pack]
      have hh := h.ring.1
      rw [← q2] at hh
      rw [toNat_next (by omega) g hh, q2, htl]
      simpa using h.ring.popFront (by simp)
    · intro y hy
      have := h1.items y (by simp [hy])
      refine ⟨this.1, this.2.1, ?_⟩
      rw [setAt_ne _ _ _ _ (by intro e; exact hnd.1 (by rw [← e]; exact List.mem_map.mpr ⟨y, hy, rfl⟩))]
      exact this.2.2
    · intro u w hu
      by_cases e : u = 1
      · subst e; simp [setAt_same, pushing] at hu
      · simp only [setAt_ne _ _ _ _ e] at hu
        obtain ⟨i, f1, f2, f3, f4⟩ := h1.push u w hu
        simp only [List.map_cons, List.mem_cons, not_or] at f4
        refine ⟨i, f1, f2, ?_, f4.2⟩
        rw [setAt_ne _ _ _ _ f4.1]
        exact f3
    · intro u hu
      by_cases e : u = 1
      · subst e; simp [setAt_same, popping] at hu
      · simp only [setAt_ne _ _ _ _ e] at hu
        obtain ⟨p, hp'⟩ : ∃ p, s.base.pc u = p := ⟨_, rfl⟩
        rw [hp'] at hu
        have := hS.t1 u p hp' (by clear hp'; cases p <;> simp [popping, ProdOk] at hu ⊢) (by rintro rfl; exact hu)
        exact absurd this e
    · intro u w hu
      by_cases e : u = 1
      · subst e
        simp only [setAt_same, PC.ret.injEq, Ret.popped.injEq, and_true] at hu
        subst hu
        exact ⟨x.1, setAt_same _ _ _, by rw [hfront]; exact hx.1, g2⟩
      · simp only [setAt_ne _ _ _ _ e] at hu
        obtain ⟨i, f1, f2⟩ := h1.taken u w hu
        exact ⟨i, hne i _ f1 (by simp), f2⟩
    · intro j u w hj
      obtain ⟨i, f1, f2⟩ := h1.done j u w hj
      exact ⟨i, hne i _ f1 (by simp), f2⟩
  | ofCasFail t v g tl ht hp hc =>
    have h1 := hinv_lab h (.acc ⟨t, .load, .headtail⟩) (by simp) (by simp [AccKind.writes])
    exact ⟨q, hd, hinv_pc h1 t (.ofLoad v) rfl rfl (by simp [pushing]) (by simp [popping]) (by simp)⟩
  | ret t r hp =>
    by_cases hr : ∃ v, r = .popped v true
    · obtain ⟨v, rfl⟩ := hr
      obtain ⟨n, g2, g3, g4⟩ := h.taken t v hp
      have hne : ∀ k x, hd k = x → x ≠ .taker t → setAt hd n (.gone τ.length) k = x := by
        intro k x hk hx
        rw [setAt_ne _ _ _ _ (by rintro rfl; exact hx (hk.symm.trans g2))]
        exact hk
      refine ⟨q, setAt hd n (.gone τ.length), ?_⟩
      simp only [Option.toList, St.goto]
      refine ⟨?_, h.ring, h.nodup, ?_, ?_, ?_, ?_, ?_⟩
      · intro i hi
        by_cases e : i = n
        · subst e
          have := h.fresh i (by rw [g2]; simp)
          simp; omega
        · rw [setAt_ne _ _ _ _ e] at hi
          have := h.fresh i hi
          simp; omega
      · intro x hx
        have := h.items x hx
        exact ⟨putAt_mono this.1, ps_mono (by simp) this.2.1, hne _ _ this.2.2 (by simp)⟩
      · intro u w hu
        by_cases e : u = t
        · subst e; simp [setAt_same, pushing] at hu
        · simp only [setAt_ne _ _ _ _ e] at hu
          obtain ⟨i, f1, f2, f3, f4⟩ := h.push u w hu
          exact ⟨i, putAt_mono f1, kn_mono f2, hne _ _ f3 (by simp), f4⟩
      · intro u hu
        by_cases e : u = t
        · subst e; simp [setAt_same, popping] at hu
        · simp only [setAt_ne _ _ _ _ e] at hu
          obtain ⟨x, r, f1, f2⟩ := h.pop u hu
          exact ⟨x, r, f1, kn_mono f2⟩
      · intro u w hu
        by_cases e : u = t
        · subst e; simp [setAt_same] at hu
        · simp only [setAt_ne _ _ _ _ e] at hu
          obtain ⟨i, f1, f2, f3⟩ := h.taken u w hu
          exact ⟨i, hne _ _ f1 (by simp [e]), putAt_mono f2, kn_mono f3⟩
      · intro j u w hj
        rcases lab_split hj with hj | ⟨rfl, e⟩
        · obtain ⟨i, f1, f2, f3⟩ := h.done j u w hj
          exact ⟨i, hne _ _ f1 (by simp), putAt_mono f2, evBefore_mono (List.getElem?_eq_some_iff.mp hj).1 f3⟩
        · cases e
          exact ⟨n, setAt_same _ _ _, putAt_mono g3, evBefore_last g4⟩
    · have h1 := hinv_lab h (.ev (.ret t (.base r))) (by rintro u v hc; cases hc; exact hr ⟨v, rfl⟩) (by simp)
      exact ⟨q, hd, hinv_pc h1 t .idle rfl rfl (by simp [pushing]) (by simp [popping]) (by simp)⟩
  | callClear t hp _ => exact absurd hr (by simp [DRoles])
  | clear t hc => have := hx t; rw [hc] at this; simp at this
  | reset t hc => have := hx t; rw [hc] at this; simp at this
  | retClear t hc => have := hx t; rw [hc] at this; simp at this
  | size t hp _ => exact ⟨q, hd, hinv_lab h _ (by simp) (by simp [AccKind.writes])⟩
  | busy t hp _ => exact ⟨q, hd, hinv_lab h _ (by simp) (by simp)⟩

theorem handsOver_exec {n : Nat} (h0 : 0 < n) (hn : n < 2 ^ 31) {τ : List (DLab V)} {s : DSt V}
    (h : Exec (fun s e s' => DStep s e s' ∧ DRoles e) (dstart n) τ s) :
    HandsOver putBack (fun v => .base (.popped v true)) τ := by
  have key : ∃ q hd, HInv τ s q hd := by
    induction h with
    | refl => exact ⟨_, _, hinv_init n h0 hn⟩
    | silent h1 hs ih =>
      obtain ⟨q, hd, hI⟩ := ih
      obtain ⟨a, hS, hD⟩ := dinv_exec h0 hn h1
      have := hinv_step hI hS hD.noClear hs.2 hs.1
      simpa using this
    | visible h1 hs ih =>
      obtain ⟨q, hd, hI⟩ := ih
      obtain ⟨a, hS, hD⟩ := dinv_exec h0 hn h1
      exact hinv_step hI hS hD.noClear hs.2 hs.1
  obtain ⟨q, hd, hI⟩ := key
  refine handsOver_ghost (fun _ => True) id hd (fun n m _ _ e => e) (fun j t v hj => ?_) (fun v w e => by cases e; rfl)
  obtain ⟨i, f1, f2, f3⟩ := hI.done j t v hj
  exact ⟨i, trivial, f1, f2, f3⟩

end Verif.LFDeque
