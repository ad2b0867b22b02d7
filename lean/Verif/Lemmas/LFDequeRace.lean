import Verif.Model.LFDequeRace
import Verif.Lemmas.RaceAll
import Verif.Props.LFDeque
/-!
# The deque with its accesses, one producer and one consumer: invariant
-/
set_option linter.unusedSectionVars false
set_option linter.unusedSimpArgs false

namespace Verif.LFDeque
open Verif.Spec
variable {V : Type} [Inhabited V]

/-- Goroutine 0 is the only one to call `PushBack`, goroutine 1 the only one to call `PopFront`; nobody calls `Clear`. -/
def DRoles : Option (DLab V) → Prop
  | some (.ev (.call t (.base (.pushBack _)))) => t = 0
  | some (.ev (.call t (.base .popFront))) => t = 1
  | some (.ev (.call _ _)) => False
  | _ => True

/-- A new deque of `n` slots and idle goroutines. -/
def dstart (n : Nat) : DSt V := ⟨start n, fun _ => .out⟩

/-- The slot `x` holds an element. -/
def Live (n : Nat) (ht : BitVec 64) (x : Nat) : Prop :=
  x < n ∧ if (headTail ht).1.toNat ≤ (headTail ht).2.toNat then (headTail ht).1.toNat ≤ x ∧ x < (headTail ht).2.toNat
  else (headTail ht).1.toNat ≤ x ∨ x < (headTail ht).2.toNat

theorem live_head {n : Nat} {ht : BitVec 64} (hn : (headTail ht).1.toNat < n) (h : (headTail ht).1 ≠ (headTail ht).2) :
    Live n ht (headTail ht).1.toNat := by
  unfold Live
  have : (headTail ht).1.toNat ≠ (headTail ht).2.toNat := fun e => h (BitVec.eq_of_toNat_eq e)
  refine ⟨hn, ?_⟩
  split <;> omega

theorem live_tail (n : Nat) (ht : BitVec 64) : ¬ Live n ht (headTail ht).2.toNat := by
  unfold Live
  split <;> omega

/-- The invariant: `τ` are the accesses so far. -/
structure DInv (n : Nat) (τ : List (Acc Loc)) (s : DSt V) : Prop where
  rf : RaceFree τ
  kinds : All τ fun _ a => (a.kind.atomic = true ∧ ∀ x, a.loc ≠ .slot x) ∨
    (∃ x, a = ⟨0, .write, .slot x⟩) ∨ ∃ x, a = ⟨1, .read, .slot x⟩
  noClear : ∀ t, s.x t = .out ∨ s.x t = .full
  filled : ∀ x, Live n s.base.q.headtail x → All τ fun i a => a.loc = .slot x → a.kind = .write → Passed τ .headtail i
  freed : ∀ x, ¬ Live n s.base.q.headtail x → All τ fun i a => a.loc = .slot x → a.kind = .read → Passed τ .headtail i
  reading : ∀ h tl ht, s.base.pc 1 = .ofRead h tl ht → All τ fun i a => a.loc = .slot h.toNat → a.kind = .write → Known τ 1 i
  writing : ∀ v h tl ht, s.base.pc 0 = .pbWrite v h tl ht → All τ fun i a => a.loc = .slot tl.toNat → a.kind = .read → Known τ 0 i

/-- One more atomic access. -/
theorem dinv_acc {n : Nat} {τ : List (Acc Loc)} {s : DSt V} (h : DInv n τ s) (a : Acc Loc)
    (ha : a.kind.atomic = true) (hl : ∀ x, a.loc ≠ .slot x) (hst : a.kind = .rmw ∨ a.kind.writes = false) : DInv n (τ ++ [a]) s := by
  refine ⟨?_, all_append.mpr ⟨h.kinds, .inl ⟨ha, hl⟩⟩, h.noClear, ?_, ?_, ?_, ?_⟩
  · refine raceFree_append.mpr ⟨h.rf, fun i b hb hc => ?_⟩
    rcases h.kinds i b hb with ⟨hk, _⟩ | ⟨x, hk⟩ | ⟨x, hk⟩
    · rcases hc.2.2 with h' | h'
      · rw [hk] at h'; cases h'
      · rw [ha] at h'; cases h'
    · have := hc.1
      rw [hk] at this
      exact absurd this.symm (hl _)
    · have := hc.1
      rw [hk] at this
      exact absurd this.symm (hl _)
  · intro x hx
    exact all_append.mpr ⟨(h.filled x hx).imp fun i b hb h1 h2 => passed_mono (fun _ => hst) (hb h1 h2), fun h' => absurd h' (hl _)⟩
  · intro x hx
    exact all_append.mpr ⟨(h.freed x hx).imp fun i b hb h1 h2 => passed_mono (fun _ => hst) (hb h1 h2), fun h' => absurd h' (hl _)⟩
  · intro g tl ht hp
    exact all_append.mpr ⟨(h.reading g tl ht hp).imp fun i b hb h1 h2 => known_mono (hb h1 h2), fun h' => absurd h' (hl _)⟩
  · intro v g tl ht hp
    exact all_append.mpr ⟨(h.writing v g tl ht hp).imp fun i b hb h1 h2 => known_mono (hb h1 h2), fun h' => absurd h' (hl _)⟩

/-- A goroutine moves; the index word is not concerned. -/
theorem dinv_pc {n : Nat} {τ : List (Acc Loc)} {s s' : DSt V} (h : DInv n τ s) (t : Nat) (p : PC V)
    (hq : s'.base.q.headtail = s.base.q.headtail) (hp : s'.base.pc = setAt s.base.pc t p) (hx : ∀ t, s'.x t = .out ∨ s'.x t = .full)
    (h1 : ∀ g tl ht, p = .ofRead g tl ht → t = 1 → All τ fun i a => a.loc = .slot g.toNat → a.kind = .write → Known τ 1 i)
    (h2 : ∀ v g tl ht, p = .pbWrite v g tl ht → t = 0 → All τ fun i a => a.loc = .slot tl.toNat → a.kind = .read → Known τ 0 i) :
    DInv n τ s' := by
  refine ⟨h.rf, h.kinds, hx, by rw [hq]; exact h.filled, by rw [hq]; exact h.freed, ?_, ?_⟩
  · intro g tl ht hr
    rw [hp] at hr
    by_cases e : 1 = t
    · subst e
      rw [setAt_same] at hr
      exact h1 g tl ht hr rfl
    · rw [setAt_ne _ _ _ _ e] at hr
      exact h.reading g tl ht hr
  · intro v g tl ht hr
    rw [hp] at hr
    by_cases e : 0 = t
    · subst e
      rw [setAt_same] at hr
      exact h2 v g tl ht hr rfl
    · rw [setAt_ne _ _ _ _ e] at hr
      exact h.writing v g tl ht hr

/-- Every labelled step of the two operations is a step of the machine, or leaves it alone. -/
theorem DStep.step {s s' : DSt V} {l : Option (DLab V)} (h : DStep s l s') (hr : DRoles l) (hx : ∀ t, s.x t = .out ∨ s.x t = .full) :
    (s'.base = s.base ∨ ∃ e, Spsc e ∧ Step s.base e s'.base) := by
  cases h with
  | callPB t v hp hx => exact .inr ⟨some (.call t (.pushBack v)), hr, .callPB s.base t v hp⟩
  | pbFull => exact .inl rfl
  | pbBusy => exact .inl rfl
  | pbLoad t v hp hx hc =>
    have := Step.pbLoad s.base t v hp
    rw [if_neg hc] at this
    exact .inr ⟨none, trivial, this⟩
  | pbWrite t v g tl ht d hp hd =>
    have := Step.pbWrite s.base t v g tl ht hp
    rw [hd] at this
    exact .inr ⟨none, trivial, this⟩
  | pbPanic t v g tl ht hp hd =>
    have := Step.pbWrite s.base t v g tl ht hp
    rw [hd] at this
    exact .inr ⟨none, trivial, this⟩
  | pbCasOk t v g tl ht hp hc =>
    have := Step.pbCas s.base t v g tl ht hp
    rw [if_pos hc] at this
    exact .inr ⟨none, trivial, this⟩
  | pbCasFail t v g tl ht hp hc =>
    have := Step.pbCas s.base t v g tl ht hp
    rw [if_neg hc] at this
    exact .inr ⟨none, trivial, this⟩
  | callOF t hp hx => exact .inr ⟨some (.call t .popFront), hr, .callOF s.base t hp⟩
  | ofEmpty t v hp hc =>
    have := Step.ofLoad s.base t v hp
    rw [if_pos hc] at this
    exact .inr ⟨none, trivial, this⟩
  | ofLoad t v hp hc =>
    have := Step.ofLoad s.base t v hp
    rw [if_neg hc] at this
    exact .inr ⟨none, trivial, this⟩
  | ofRead t g tl ht v hp hd =>
    have := Step.ofRead s.base t g tl ht hp
    rw [hd] at this
    exact .inr ⟨none, trivial, this⟩
  | ofPanic t g tl ht hp hd =>
    have := Step.ofRead s.base t g tl ht hp
    rw [hd] at this
    exact .inr ⟨none, trivial, this⟩
  | ofCasOk t v g tl ht hp hc =>
    have := Step.ofCas s.base t v g tl ht hp
    rw [if_pos hc] at this
    exact .inr ⟨none, trivial, this⟩
  | ofCasFail t v g tl ht hp hc =>
    have := Step.ofCas s.base t v g tl ht hp
    rw [if_neg hc] at this
    exact .inr ⟨none, trivial, this⟩
  | ret t r hp => exact .inr ⟨some (.ret t r), trivial, .ret s.base t r hp⟩
  | callClear t hp hx => exact absurd hr (by simp [DRoles])
  | clear t hc => have := hx t; rw [hc] at this; simp at this
  | reset t hc => exact .inl rfl
  | retClear t hc => exact .inl rfl
  | size => exact .inl rfl
  | busy => exact .inl rfl

theorem x_set {x : Nat → XPC} (h : ∀ t, x t = .out ∨ x t = .full) (t : Nat) (p : XPC) (hp : p = .out ∨ p = .full) :
    ∀ u, setAt x t p u = .out ∨ setAt x t p u = .full := by
  intro u
  by_cases e : u = t
  · subst e; rw [setAt_same]; exact hp
  · rw [setAt_ne _ _ _ _ e]; exact h u

theorem dinv_step {c : Nat} {τ : List (DLab V)} {s s' : DSt V} {a : AState (List V) (Op V) (Ret V)} {e : Option (DLab V)}
    (h : DInv (c + 1) (accs τ) s) (hS : Sp c s.base a) (hr : DRoles e) (hs : DStep s e s') : DInv (c + 1) (accs (τ ++ e.toList)) s' := by
  have hself : ∀ t (s : St V), s.pc = setAt s.pc t (s.pc t) := by
    intro t s
    funext u
    by_cases e : u = t
    · subst e; simp [setAt]
    · simp [setAt, e]
  cases hs with
  | callPB t v hp hx =>
    simp only [Option.toList, accs_append, accs_ev, List.append_nil]
    exact dinv_pc h t _ rfl rfl h.noClear (by simp) (by simp)
  | pbFull t v hp hx hc =>
    simp only [Option.toList, accs_append, accs_acc]
    have h1 := dinv_acc h ⟨t, .load, .headtail⟩ rfl (by simp) (.inr rfl)
    exact dinv_pc h1 t _ rfl (hself t s.base) (x_set h.noClear t _ (.inr rfl)) (by simp [hp]) (by simp [hp])
  | pbBusy t hx =>
    simp only [Option.toList, accs_append, accs_acc]
    have h1 := dinv_acc h ⟨t, .rmw, .busy⟩ rfl (by simp) (.inl rfl)
    exact ⟨h1.rf, h1.kinds, x_set h.noClear t _ (.inl rfl), h1.filled, h1.freed, h1.reading, h1.writing⟩
  | pbLoad t v hp hx hc =>
    simp only [Option.toList, accs_append, accs_acc]
    have h1 := dinv_acc h ⟨t, .load, .headtail⟩ rfl (by simp) (.inr rfl)
    refine dinv_pc h1 t _ rfl rfl h.noClear (by simp) ?_
    intro v' g tl ht he h0
    cases he
    subst h0
    refine all_append.mpr ⟨fun i b hb hl hk => ?_, by simp⟩
    exact known_append.mpr (.inr ⟨rfl, .inr ⟨rfl, h.freed _ (live_tail _ _) i b hb hl hk⟩⟩)
  | pbWrite t v g tl ht d hp hd =>
    simp only [Option.toList, accs_append, accs_acc]
    obtain rfl := hS.t0 t _ hp (by simp [ConsOk]) (by simp)
    have hprod := hS.prod
    rw [hp] at hprod
    obtain ⟨q1, q2, q3⟩ := hprod
    refine ⟨?_, all_append.mpr ⟨h.kinds, .inr (.inl ⟨_, rfl⟩)⟩, h.noClear, ?_, ?_, ?_, ?_⟩
    · refine raceFree_append.mpr ⟨h.rf, fun i b hb hc => .inl ?_⟩
      rcases h.kinds i b hb with ⟨_, hk⟩ | ⟨x, hk⟩ | ⟨x, hk⟩
      · exact absurd hc.1 (hk _)
      · have := known_own hb
        rw [hk] at this
        exact this
      · exact h.writing v g tl ht hp i b hb hc.1 (by rw [hk])
    · intro x hx
      refine all_append.mpr ⟨(h.filled x hx).imp fun i b hb h1 h2 => passed_mono (by simp) (hb h1 h2), fun h' => ?_⟩
      simp only [Loc.slot.injEq] at h'
      subst h'
      rw [q2] at hx
      exact absurd hx (live_tail _ _)
    · intro x hx
      exact all_append.mpr ⟨(h.freed x hx).imp fun i b hb h1 h2 => passed_mono (by simp) (hb h1 h2), by simp⟩
    · intro g' tl' ht' hr'
      have hr' : s.base.pc 1 = .ofRead g' tl' ht' := by simpa [setAt] using hr'
      refine all_append.mpr ⟨(h.reading g' tl' ht' hr').imp fun i b hb h1 h2 => known_mono (hb h1 h2), fun h' => ?_⟩
      simp only [Loc.slot.injEq] at h'
      have hcons := hS.cons
      rw [hr'] at hcons
      obtain ⟨r1, r2, r3⟩ := hcons
      exact absurd (hS.ring.empty_iff.1 (by rw [← r2, ← q2, ← h'])) r3
    · intro v' g' tl' ht' hr'
      simp [setAt_same] at hr'
  | pbPanic t v g tl ht hp hd =>
    simp only [Option.toList, List.append_nil]
    exact dinv_pc h t _ rfl rfl h.noClear (by simp) (by simp)
  | pbCasOk t v g tl ht hp hc =>
    simp only [Option.toList, accs_append, accs_acc]
    obtain rfl := hS.t0 t _ hp (by simp [ConsOk]) (by simp)
    have hprod := hS.prod
    rw [hp] at hprod
    obtain ⟨q1, q2, q3, _⟩ := hprod
    have hg : g = (headTail s.base.q.headtail).1 := by rw [hc, q1]
    have hlen := hS.len
    have hbd := hS.bound
    have htl := hS.ring.tail_lt
    have hhd := hS.ring.1
    rw [← q2] at htl
    rw [← hg] at hhd
    have hn := toNat_next (d := s.base.q.d) (by omega) tl htl
    have hlive : ∀ x, Live (c + 1) (makeHeadTail g (next s.base.q.d tl)) x ↔ Live (c + 1) s.base.q.headtail x ∨ x = tl.toNat := by
      have hnf : g.toNat ≠ (next s.base.q.d tl).toNat := fun e => q3 (BitVec.eq_of_toNat_eq e)
      intro x
      unfold Live
      rw [C32_unpack_pack, ← q2, ← hg]
      dsimp only
      rw [hlen] at hn htl hhd
      rw [hn] at hnf ⊢
      by_cases h1 : g.toNat ≤ tl.toNat <;> by_cases h2 : tl.toNat + 1 ≥ c + 1 <;> simp only [h1, h2, if_true, if_false] at hnf ⊢
      · rw [if_neg (by omega)]; omega
      · rw [if_pos (by omega)]; omega
      · rw [if_neg (by omega)]; omega
      · rw [if_neg (by omega)]; omega
    have h1 := dinv_acc h ⟨0, .rmw, .headtail⟩ rfl (by simp) (.inl rfl)
    refine ⟨h1.rf, h1.kinds, h.noClear, ?_, ?_, ?_, ?_⟩
    · intro x hx
      rcases (hlive x).mp hx with hx | hx
      · exact h1.filled x hx
      · refine all_append.mpr ⟨fun i b hb hl hk => ?_, by simp⟩
        refine passed_append.mpr (.inl ⟨rfl, rfl, rfl, known_mono ?_⟩)
        rcases h.kinds i b hb with ⟨_, hk'⟩ | ⟨y, hk'⟩ | ⟨y, hk'⟩
        · exact absurd hl (hk' _)
        · have := known_own hb
          rw [hk'] at this
          exact this
        · rw [hk'] at hk; cases hk
    · intro x hx
      exact h1.freed x (fun hl => hx ((hlive x).mpr (.inl hl)))
    · intro g' tl' ht' hr'
      have hr' : s.base.pc 1 = .ofRead g' tl' ht' := by simpa [setAt] using hr'
      exact h1.reading g' tl' ht' hr'
    · intro v' g' tl' ht' hr'
      simp [setAt_same] at hr'
  | pbCasFail t v g tl ht hp hc =>
    simp only [Option.toList, accs_append, accs_acc]
    have h1 := dinv_acc h ⟨t, .load, .headtail⟩ rfl (by simp) (.inr rfl)
    exact dinv_pc h1 t _ rfl rfl h.noClear (by simp) (by simp)
  | callOF t hp hx =>
    simp only [Option.toList, accs_append, accs_ev, List.append_nil]
    exact dinv_pc h t _ rfl rfl h.noClear (by simp) (by simp)
  | ofEmpty t v hp hc =>
    simp only [Option.toList, accs_append, accs_acc]
    have h1 := dinv_acc h ⟨t, .load, .headtail⟩ rfl (by simp) (.inr rfl)
    exact dinv_pc h1 t _ rfl rfl h.noClear (by simp) (by simp)
  | ofLoad t v hp hc =>
    simp only [Option.toList, accs_append, accs_acc]
    have h1 := dinv_acc h ⟨t, .load, .headtail⟩ rfl (by simp) (.inr rfl)
    have hhd := hS.ring.1
    rw [hS.len] at hhd
    refine dinv_pc h1 t _ rfl rfl h.noClear ?_ (by simp)
    intro g tl ht he h0
    cases he
    subst h0
    refine all_append.mpr ⟨fun i b hb hl hk => ?_, by simp⟩
    exact known_append.mpr (.inr ⟨rfl, .inr ⟨rfl, h.filled _ (live_head hhd hc) i b hb hl hk⟩⟩)
  | ofRead t g tl ht v hp hd =>
    simp only [Option.toList, accs_append, accs_acc]
    obtain rfl := hS.t1 t _ hp (by simp [ProdOk]) (by simp)
    have hcons := hS.cons
    rw [hp] at hcons
    obtain ⟨r1, r2, r3⟩ := hcons
    have hne : (headTail s.base.q.headtail).1 ≠ (headTail s.base.q.headtail).2 := fun e => r3 (hS.ring.empty_iff.1 (by rw [e]))
    have hhd := hS.ring.1
    rw [hS.len] at hhd
    refine ⟨?_, all_append.mpr ⟨h.kinds, .inr (.inr ⟨_, rfl⟩)⟩, h.noClear, ?_, ?_, ?_, ?_⟩
    · refine raceFree_append.mpr ⟨h.rf, fun i b hb hc => .inl ?_⟩
      rcases h.kinds i b hb with ⟨_, hk⟩ | ⟨x, hk⟩ | ⟨x, hk⟩
      · exact absurd hc.1 (hk _)
      · exact h.reading g tl ht hp i b hb hc.1 (by rw [hk])
      · have := known_own hb
        rw [hk] at this
        exact this
    · intro x hx
      exact all_append.mpr ⟨(h.filled x hx).imp fun i b hb h1 h2 => passed_mono (by simp) (hb h1 h2), by simp⟩
    · intro x hx
      refine all_append.mpr ⟨(h.freed x hx).imp fun i b hb h1 h2 => passed_mono (by simp) (hb h1 h2), fun h' => ?_⟩
      simp only [Loc.slot.injEq] at h'
      subst h'
      rw [r2] at hx
      exact absurd (live_head hhd hne) hx
    · intro g' tl' ht' hr'
      simp [St.goto, setAt_same] at hr'
    · intro v' g' tl' ht' hr'
      simp only [St.goto] at hr'
      have hr' : s.base.pc 0 = .pbWrite v' g' tl' ht' := by simpa [setAt] using hr'
      refine all_append.mpr ⟨(h.writing v' g' tl' ht' hr').imp fun i b hb h1 h2 => known_mono (hb h1 h2), fun h' => ?_⟩
      simp only [Loc.slot.injEq] at h'
      have hprod := hS.prod
      rw [hr'] at hprod
      obtain ⟨q1, q2, q3⟩ := hprod
      rw [r2, q2] at h'
      exact absurd (BitVec.eq_of_toNat_eq h') hne
  | ofPanic t g tl ht hp hd =>
    simp only [Option.toList, List.append_nil]
    exact dinv_pc h t _ rfl rfl h.noClear (by simp) (by simp)
  | ofCasOk t v g tl ht hp hc =>
    simp only [Option.toList, accs_append, accs_acc]
    obtain rfl := hS.t1 t _ hp (by simp [ProdOk]) (by simp)
    have hcons := hS.cons
    rw [hp] at hcons
    obtain ⟨r1, r2, r3, _⟩ := hcons
    have hne : (headTail s.base.q.headtail).1 ≠ (headTail s.base.q.headtail).2 := fun e => r3 (hS.ring.empty_iff.1 (by rw [e]))
    have htl' : tl = (headTail s.base.q.headtail).2 := by rw [hc, r1]
    have hlen := hS.len
    have hbd := hS.bound
    have htl := hS.ring.tail_lt
    have hhd := hS.ring.1
    rw [← htl'] at htl
    rw [← r2] at hhd
    have hn := toNat_next (d := s.base.q.d) (by omega) g hhd
    have hlive : ∀ x, Live (c + 1) s.base.q.headtail x ↔ Live (c + 1) (makeHeadTail (next s.base.q.d g) tl) x ∨ x = g.toNat := by
      have hnf : g.toNat ≠ tl.toNat := fun e => hne (by rw [← r2, ← htl']; exact BitVec.eq_of_toNat_eq e)
      intro x
      unfold Live
      rw [C32_unpack_pack, ← htl', ← r2]
      dsimp only
      rw [hlen] at hn htl hhd
      rw [hn]
      by_cases h1 : g.toNat ≤ tl.toNat <;> by_cases h2 : g.toNat + 1 ≥ c + 1 <;> simp only [h1, h2, if_true, if_false]
      · omega
      · rw [if_pos (by omega)]; omega
      · rw [if_pos (by omega)]; omega
      · rw [if_neg (by omega)]; omega
    have h1 := dinv_acc h ⟨1, .rmw, .headtail⟩ rfl (by simp) (.inl rfl)
    refine ⟨h1.rf, h1.kinds, h.noClear, ?_, ?_, ?_, ?_⟩
    · intro x hx
      exact h1.filled x ((hlive x).mpr (.inl hx))
    · intro x hx
      by_cases hxg : x = g.toNat
      · refine all_append.mpr ⟨fun i b hb hl hk => ?_, by simp⟩
        refine passed_append.mpr (.inl ⟨rfl, rfl, rfl, known_mono ?_⟩)
        rcases h.kinds i b hb with ⟨_, hk'⟩ | ⟨y, hk'⟩ | ⟨y, hk'⟩
        · exact absurd hl (hk' _)
        · rw [hk'] at hk; cases hk
        · have := known_own hb
          rw [hk'] at this
          exact this
      · exact h1.freed x (fun hl => ((hlive x).mp hl).elim hx hxg)
    · intro g' tl' ht' hr'
      simp [setAt_same] at hr'
    · intro v' g' tl' ht' hr'
      have hr' : s.base.pc 0 = .pbWrite v' g' tl' ht' := by simpa [setAt] using hr'
      exact h1.writing v' g' tl' ht' hr'
  | ofCasFail t v g tl ht hp hc =>
    simp only [Option.toList, accs_append, accs_acc]
    have h1 := dinv_acc h ⟨t, .load, .headtail⟩ rfl (by simp) (.inr rfl)
    exact dinv_pc h1 t _ rfl rfl h.noClear (by simp) (by simp)
  | ret t r hp =>
    simp only [Option.toList, accs_append, accs_ev, List.append_nil]
    exact dinv_pc h t _ rfl rfl h.noClear (by simp) (by simp)
  | callClear t hp hx => exact absurd hr (by simp [DRoles])
  | clear t hc => have := h.noClear t; rw [hc] at this; simp at this
  | reset t hc => have := h.noClear t; rw [hc] at this; simp at this
  | retClear t hc => have := h.noClear t; rw [hc] at this; simp at this
  | size t hp hx =>
    simp only [Option.toList, accs_append, accs_acc]
    exact dinv_acc h ⟨t, .load, .headtail⟩ rfl (by simp) (.inr rfl)
  | busy t hp hx =>
    simp only [Option.toList, accs_append, accs_acc]
    exact dinv_acc h ⟨t, .load, .busy⟩ rfl (by simp) (.inr rfl)

theorem dinv_exec {n : Nat} (h0 : 0 < n) (hn : n < 2 ^ 31) {τ : List (DLab V)} {s : DSt V}
    (h : Exec (fun s e s' => DStep s e s' ∧ DRoles e) (dstart n) τ s) :
    ∃ a, Sp (n - 1) s.base a ∧ DInv (n - 1 + 1) (accs τ) s := by
  have key : ∀ {s s' : DSt V} {l : Option (DLab V)} {a : AState (List V) (Op V) (Ret V)} {τ : List (DLab V)},
      DStep s l s' ∧ DRoles l → Sp (n - 1) s.base a → DInv (n - 1 + 1) (accs τ) s → ∃ a, Sp (n - 1) s'.base a := by
    intro s s' l a τ hs hS hI
    rcases hs.1.step hs.2 hI.noClear with he | ⟨e, he, hst⟩
    · exact ⟨a, by rw [he]; exact hS⟩
    · obtain ⟨a', _, h'⟩ := sp_sim _ _ _ _ hS ⟨hst, he⟩
      exact ⟨a', h'⟩
  induction h with
  | refl =>
    refine ⟨_, sp_init n h0 hn, raceFree_nil, ?_, fun _ => .inl rfl, ?_, ?_, ?_, ?_⟩
    all_goals intros
    all_goals intro i a h
    all_goals simp [accs] at h
  | silent h1 hs ih =>
    obtain ⟨a, hS, hI⟩ := ih
    obtain ⟨a', hS'⟩ := key hs hS hI
    refine ⟨a', hS', ?_⟩
    have := dinv_step hI hS hs.2 hs.1
    simpa using this
  | visible h1 hs ih =>
    obtain ⟨a, hS, hI⟩ := ih
    obtain ⟨a', hS'⟩ := key hs hS hI
    exact ⟨a', hS', dinv_step hI hS hs.2 hs.1⟩

end Verif.LFDeque
