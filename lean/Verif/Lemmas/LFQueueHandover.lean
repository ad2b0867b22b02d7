import Verif.Lemmas.LFQueueFine
import Verif.Lemmas.Handover
/-!
# The lock-free list hands values over: invariant
-/
set_option linter.unusedSectionVars false
set_option linter.unusedSimpArgs false

namespace Verif.LFQueue.Fine
open Verif.Spec
variable {V : Type} [Inhabited V]

/-- The value a goroutine is pushing, and its node. -/
def pushing : FPC V → Option (V × Nat)
  | .pVal v n => some (v, n)
  | .pNil v n => some (v, n)
  | .pLoad v n => some (v, n)
  | .pNext v n _ => some (v, n)
  | .pOld v n => some (v, n)
  | .pCas v n _ => some (v, n)
  | _ => none

/-- The same once the value is in the node. -/
def written : FPC V → Option (V × Nat)
  | .pVal _ _ => none
  | p => pushing p

/-- The value a goroutine has taken. -/
def has : FPC V → Option V
  | .oSub v true => some v
  | .ret (.popped v true) => some v
  | _ => none

theorem owns_pushing {p : FPC V} {n : Nat} : owns p = some n ↔ ∃ v, pushing p = some (v, n) := by
  cases p <;> simp [owns, pushing]

theorem written_pushing {p : FPC V} {x : V × Nat} (h : written p = some x) : pushing p = some x := by
  cases p <;> simp_all [written, pushing]

theorem Chain.unique {mem : Nat → Node V} {p : Ptr} {xs ys : List Nat} (h : Chain mem p xs) (h' : Chain mem p ys) : xs = ys := by
  induction xs generalizing p ys with
  | nil =>
    cases ys with
    | nil => rfl
    | cons m r => rw [show p = none from h] at h'; exact absurd h'.1 (by simp)
  | cons n r ih =>
    cases ys with
    | nil => rw [show p = none from h'] at h; exact absurd h.1 (by simp)
    | cons m r' =>
      have : n = m := Option.some.inj (h.1.symm.trans h'.1)
      subst this
      rw [ih h.2 h'.2]

/-- The invariant: node `n` was made by the call at position `mk n`, and `hd n` has it. -/
structure HInv (τ : List (FLab V)) (s : FSt V) (mk : Nat → Nat) (hd : Nat → Holder) : Prop where
  lt : ∀ n, n < s.alloc → mk n < τ.length
  inj : ∀ n m, n < s.alloc → m < s.alloc → mk n = mk m → n = m
  fresh : ∀ n, s.alloc ≤ n → hd n = .free
  own : ∀ t n, owns (s.pc t) = some n → hd n = .free
  push : ∀ t v n, pushing (s.pc t) = some (v, n) → PutAt Op.push τ (mk n) v ∧ Kn τ t (mk n)
  val : ∀ t v n, written (s.pc t) = some (v, n) → (s.mem n).val = v
  sees : ∀ t n, looks (s.pc t) = some n → PutAt Op.push τ (mk n) (s.mem n).val ∧ Kn τ t (mk n)
  chain : ∃ xs, Chain s.mem s.head xs ∧ xs.Nodup ∧
    ∀ n ∈ xs, hd n = .free ∧ PutAt Op.push τ (mk n) (s.mem n).val ∧ Ps τ .head (mk n)
  taking : ∀ t n, s.pc t = .oVal n → hd n = .taker t
  taken : ∀ t v, has (s.pc t) = some v → ∃ n, n < s.alloc ∧ hd n = .taker t ∧ PutAt Op.push τ (mk n) v ∧ Kn τ t (mk n)
  done : ∀ j t v, τ[j]? = some (.ev (.ret t (.popped v true))) →
    ∃ n, n < s.alloc ∧ hd n = .gone j ∧ PutAt Op.push τ (mk n) v ∧ EvBefore τ (mk n) j

theorem hinv_init : HInv [] (FSt.init : FSt V) (fun _ => 0) (fun _ => .free) where
  lt := by simp [FSt.init]
  inj := by simp [FSt.init]
  fresh := by simp
  own := by simp
  push := by simp [FSt.init, pushing]
  val := by simp [FSt.init, written, pushing]
  sees := by simp [FSt.init, looks]
  chain := ⟨[], rfl, by simp, by simp⟩
  taking := by simp [FSt.init]
  taken := by simp [FSt.init, has]
  done := by simp

/-- One more label that is not the return of a value. -/
theorem hinv_lab {τ : List (FLab V)} {s : FSt V} {mk : Nat → Nat} {hd : Nat → Holder} (h : HInv τ s mk hd) (l : FLab V)
    (hl : ∀ t v, l ≠ .ev (.ret t (.popped v true)))
    (hst : ∀ a, l = .acc a → a.loc = .head → a.kind = .rmw ∨ a.kind.writes = false) : HInv (τ ++ [l]) s mk hd where
  lt n hn := by have := h.lt n hn; simp; omega
  inj := h.inj
  fresh := h.fresh
  own := h.own
  push t v n hp := ⟨putAt_mono (h.push t v n hp).1, kn_mono (h.push t v n hp).2⟩
  val := h.val
  sees t n hp := ⟨putAt_mono (h.sees t n hp).1, kn_mono (h.sees t n hp).2⟩
  chain := by
    obtain ⟨xs, h1, h2, h3⟩ := h.chain
    exact ⟨xs, h1, h2, fun n hn => ⟨(h3 n hn).1, putAt_mono (h3 n hn).2.1, ps_mono hst (h3 n hn).2.2⟩⟩
  taking := h.taking
  taken t v hp := by
    obtain ⟨n, h1, h2, h3, h4⟩ := h.taken t v hp
    exact ⟨n, h1, h2, putAt_mono h3, kn_mono h4⟩
  done j t v hj := by
    rcases lab_split hj with hj | ⟨_, e⟩
    · obtain ⟨n, h1, h2, h3, h4⟩ := h.done j t v hj
      exact ⟨n, h1, h2, putAt_mono h3, evBefore_mono (List.getElem?_eq_some_iff.mp hj).1 h4⟩
    · exact absurd e.symm (hl t v)

/-- A goroutine moves on; memory is not concerned. -/
theorem hinv_pc {τ : List (FLab V)} {s : FSt V} {mk : Nat → Nat} {hd : Nat → Holder} (h : HInv τ s mk hd) (t : Nat) (p : FPC V)
    (sz : BitVec 32)
    (hpush : ∀ x, pushing p = some x → pushing (s.pc t) = some x)
    (hwr : ∀ x, written p = some x → written (s.pc t) = some x)
    (hl : ∀ n, looks p = some n → PutAt Op.push τ (mk n) (s.mem n).val ∧ Kn τ t (mk n))
    (ht : ∀ n, p ≠ .oVal n)
    (hh : ∀ v, has p = some v → ∃ n, n < s.alloc ∧ hd n = .taker t ∧ PutAt Op.push τ (mk n) v ∧ Kn τ t (mk n)) :
    HInv τ { s with size := sz, pc := setAt s.pc t p } mk hd where
  lt := h.lt
  inj := h.inj
  fresh := h.fresh
  own u n hu := by
    dsimp only at hu
    unfold setAt at hu
    split at hu
    · obtain ⟨v, hv⟩ := owns_pushing.mp hu
      exact h.own t n (owns_pushing.mpr ⟨v, hpush _ hv⟩)
    · exact h.own u n hu
  push u v n hu := by
    dsimp only at hu
    unfold setAt at hu
    split at hu
    · subst u; exact h.push t v n (hpush _ hu)
    · exact h.push u v n hu
  val u v n hu := by
    dsimp only at hu
    unfold setAt at hu
    split at hu
    · exact h.val t v n (hwr _ hu)
    · exact h.val u v n hu
  sees u n hu := by
    dsimp only at hu
    unfold setAt at hu
    split at hu
    · subst u; exact hl n hu
    · exact h.sees u n hu
  chain := h.chain
  taking u n hu := by
    dsimp only at hu
    unfold setAt at hu
    split at hu
    · exact absurd hu (ht n)
    · exact h.taking u n hu
  taken u v hu := by
    dsimp only at hu
    unfold setAt at hu
    split at hu
    · subst u; exact hh v hu
    · exact h.taken u v hu
  done := h.done

/-- A change of a private node. -/
theorem hinv_mem {τ : List (FLab V)} {s : FSt V} {mk : Nat → Nat} {hd : Nat → Holder} {τ' : List (Acc Loc)} (h : HInv τ s mk hd)
    (hf : FInv τ' s) (t n : Nat) (m : Node V) (p : FPC V) (v : V) (ho : pushing (s.pc t) = some (v, n)) (hp : pushing p = some (v, n))
    (hv : m.val = v) : HInv τ { s with mem := setAt s.mem n m, pc := setAt s.pc t p } mk hd := by
  have how : owns (s.pc t) = some n := owns_pushing.mpr ⟨v, ho⟩
  have hln : looks p = none := by cases p <;> simp_all [pushing, looks]
  have hhn : has p = none := by cases p <;> simp_all [pushing, has]
  have hch : ∀ k xs, Chain s.mem s.head xs → k ∈ xs → k ≠ n := by
    rintro k xs hx hk rfl
    obtain ⟨ys, hy, hys⟩ := hf.chain
    rw [hx.unique hy] at hk
    exact (hys k hk).1.2 t how
  exact {
    lt := h.lt
    inj := h.inj
    fresh := h.fresh
    own := by
      intro u k hu
      dsimp only at hu
      unfold setAt at hu
      split at hu
      · obtain ⟨w, hw⟩ := owns_pushing.mp hu
        rw [hp] at hw
        cases hw
        exact h.own t n how
      · exact h.own u k hu
    push := by
      intro u w k hu
      dsimp only at hu
      unfold setAt at hu
      split at hu
      · subst u; rw [hp] at hu; cases hu; exact h.push t v n ho
      · exact h.push u w k hu
    val := by
      intro u w k hu
      dsimp only at hu ⊢
      by_cases e : u = t
      · subst e
        rw [setAt_same] at hu
        have := written_pushing hu
        rw [hp] at this
        cases this
        rw [setAt_same]
        exact hv
      · rw [setAt_ne _ _ e] at hu
        have : k ≠ n := by
          rintro rfl
          exact e (hf.uniq u t k (owns_pushing.mpr ⟨w, written_pushing hu⟩) how)
        rw [setAt_ne _ _ this]
        exact h.val u w k hu
    sees := by
      intro u k hu
      dsimp only at hu ⊢
      by_cases e : u = t
      · subst e
        rw [setAt_same, hln] at hu
        cases hu
      · rw [setAt_ne _ _ e] at hu
        have : k ≠ n := by
          rintro rfl
          exact (hf.sees u k hu).1.2 t how
        rw [setAt_ne _ _ this]
        exact h.sees u k hu
    chain := by
      obtain ⟨xs, h1, h2, h3⟩ := h.chain
      refine ⟨xs, h1.congr fun k hk => setAt_ne _ _ (hch k xs h1 hk), h2, fun k hk => ?_⟩
      dsimp only
      rw [setAt_ne _ _ (hch k xs h1 hk)]
      exact h3 k hk
    taking := by
      intro u k hu
      dsimp only at hu
      unfold setAt at hu
      split at hu
      · rw [hu] at hln; cases hln
      · exact h.taking u k hu
    taken := by
      intro u w hu
      dsimp only at hu
      unfold setAt at hu
      split at hu
      · rw [hhn] at hu; cases hu
      · exact h.taken u w hu
    done := h.done }

theorem hinv_step {τ : List (FLab V)} {s s' : FSt V} {e : Option (FLab V)} {mk : Nat → Nat} {hd : Nat → Holder} (h : HInv τ s mk hd)
    (hf : FInv (accs τ) s) (hs : FStep s e s') : ∃ mk' hd', HInv (τ ++ e.toList) s' mk' hd' := by
  cases hs with
  | callPush t v hp =>
    have h1 := hinv_lab h (.ev (.call t (.push v))) (by simp) (by simp)
    have hne : ∀ n, n < s.alloc → setAt mk s.alloc τ.length n = mk n := fun n hn => setAt_ne _ _ (by omega)
    have hme : ∀ n, n < s.alloc → setAt s.mem s.alloc ⟨default, none⟩ n = s.mem n := fun n hn => setAt_ne _ _ (by omega)
    have hlp : ∀ u w n, pushing (s.pc u) = some (w, n) → n < s.alloc := fun u w n hu => (hf.own u n (owns_pushing.mpr ⟨w, hu⟩)).1
    refine ⟨setAt mk s.alloc τ.length, hd, ?_⟩
    simp only [Option.toList]
    exact {
      lt := by
        intro n hn
        dsimp only at hn
        by_cases e : n = s.alloc
        · subst e; rw [setAt_same]; simp
        · rw [hne n (by omega)]; exact h1.lt n (by omega)
      inj := by
        intro n m hn hm e
        dsimp only at hn hm
        by_cases e1 : n = s.alloc <;> by_cases e2 : m = s.alloc
        · rw [e1, e2]
        · subst e1
          rw [setAt_same, hne m (by omega)] at e
          have := h.lt m (by omega)
          omega
        · subst e2
          rw [setAt_same, hne n (by omega)] at e
          have := h.lt n (by omega)
          omega
        · rw [hne n (by omega), hne m (by omega)] at e
          exact h.inj n m (by omega) (by omega) e
      fresh := by
        intro n hn
        dsimp only at hn
        exact h.fresh n (by omega)
      own := by
        intro u n hu
        dsimp only at hu
        unfold setAt at hu
        split at hu
        · simp only [owns, Option.some.injEq] at hu
          subst hu
          exact h.fresh _ (Nat.le_refl _)
        · exact h.own u n hu
      push := by
        intro u w n hu
        dsimp only at hu
        unfold setAt at hu
        split at hu
        · simp only [pushing, Option.some.injEq, Prod.mk.injEq] at hu
          obtain ⟨rfl, rfl⟩ := hu
          subst u
          rw [setAt_same]
          exact ⟨⟨t, by simp⟩, kn_self (Ev.call t (Op.push v))⟩
        · rw [hne n (hlp u w n hu)]
          exact h1.push u w n hu
      val := by
        intro u w n hu
        dsimp only at hu ⊢
        unfold setAt at hu
        split at hu
        · cases hu
        · rw [hme n (hlp u w n (written_pushing hu))]
          exact h.val u w n hu
      sees := by
        intro u n hu
        dsimp only at hu ⊢
        unfold setAt at hu
        split at hu
        · cases hu
        · have := (hf.sees u n hu).1.1
          rw [hme n this, hne n this]
          exact h1.sees u n hu
      chain := by
        obtain ⟨xs, g1, g2, g3⟩ := h1.chain
        obtain ⟨ys, hy, hys⟩ := hf.chain
        have hlt : ∀ k ∈ xs, k < s.alloc := by
          intro k hk
          rw [g1.unique hy] at hk
          exact (hys k hk).1.1
        refine ⟨xs, g1.congr fun k hk => hme k (hlt k hk), g2, fun k hk => ?_⟩
        dsimp only
        rw [hme k (hlt k hk), hne k (hlt k hk)]
        exact g3 k hk
      taking := by
        intro u n hu
        dsimp only at hu
        unfold setAt at hu
        split at hu
        · cases hu
        · exact h.taking u n hu
      taken := by
        intro u w hu
        dsimp only at hu
        unfold setAt at hu
        split at hu
        · cases hu
        · obtain ⟨n, g1, g2, g3, g4⟩ := h1.taken u w hu
          refine ⟨n, Nat.lt_succ_of_lt g1, g2, ?_⟩
          rw [hne n g1]
          exact ⟨g3, g4⟩
      done := by
        intro j u w hj
        obtain ⟨n, g1, g2, g3, g4⟩ := h1.done j u w hj
        refine ⟨n, Nat.lt_succ_of_lt g1, g2, ?_⟩
        rw [hne n g1]
        exact ⟨g3, g4⟩ }
  | pVal t v n hp =>
    have h1 := hinv_lab h (.acc ⟨t, .write, .val n⟩) (by simp) (by simp)
    exact ⟨mk, hd, hinv_mem h1 hf t n _ (.pNil v n) v (by rw [hp]; rfl) rfl rfl⟩
  | pNil t v n hp =>
    have h1 := hinv_lab h (.acc ⟨t, .write, .next n⟩) (by simp) (by simp)
    exact ⟨mk, hd, hinv_mem h1 hf t n _ (.pLoad v n) v (by rw [hp]; rfl) rfl (h.val t v n (by rw [hp]; rfl))⟩
  | pNext t v n o hp =>
    have h1 := hinv_lab h (.acc ⟨t, .write, .next n⟩) (by simp) (by simp)
    exact ⟨mk, hd, hinv_mem h1 hf t n _ (.pOld v n) v (by rw [hp]; rfl) rfl (h.val t v n (by rw [hp]; rfl))⟩
  | pLoad t v n hp =>
    have h1 := hinv_lab h (.acc ⟨t, .load, .head⟩) (by simp) (by simp [AccKind.writes])
    exact ⟨mk, hd, hinv_pc h1 t _ s.size (by simp [hp, pushing]) (by simp [hp, written, pushing]) (by simp [looks]) (by simp) (by simp [has])⟩
  | pOld t v n hp =>
    have h1 := hinv_lab h (.acc ⟨t, .read, .next n⟩) (by simp) (by simp)
    exact ⟨mk, hd, hinv_pc h1 t _ s.size (by simp [hp, pushing]) (by simp [hp, written, pushing]) (by simp [looks]) (by simp) (by simp [has])⟩
  | pCasFail t v n o hp hh =>
    have h1 := hinv_lab h (.acc ⟨t, .load, .head⟩) (by simp) (by simp [AccKind.writes])
    exact ⟨mk, hd, hinv_pc h1 t _ s.size (by simp [hp, pushing]) (by simp [hp, written, pushing]) (by simp [looks]) (by simp) (by simp [has])⟩
  | pAdd t hp =>
    have h1 := hinv_lab h (.acc ⟨t, .rmw, .size⟩) (by simp) (by simp)
    exact ⟨mk, hd, hinv_pc h1 t _ _ (by simp [pushing]) (by simp [written, pushing]) (by simp [looks]) (by simp) (by simp [has])⟩
  | callPop t hp =>
    have h1 := hinv_lab h (.ev (.call t .pop)) (by simp) (by simp)
    exact ⟨mk, hd, hinv_pc h1 t _ s.size (by simp [pushing]) (by simp [written, pushing]) (by simp [looks]) (by simp) (by simp [has])⟩
  | oNil t hp hh =>
    have h1 := hinv_lab h (.acc ⟨t, .load, .head⟩) (by simp) (by simp [AccKind.writes])
    exact ⟨mk, hd, hinv_pc h1 t _ s.size (by simp [pushing]) (by simp [written, pushing]) (by simp [looks]) (by simp) (by simp [has])⟩
  | oCasFail t n nx hp hh =>
    have h1 := hinv_lab h (.acc ⟨t, .load, .head⟩) (by simp) (by simp [AccKind.writes])
    exact ⟨mk, hd, hinv_pc h1 t _ s.size (by simp [pushing]) (by simp [written, pushing]) (by simp [looks]) (by simp) (by simp [has])⟩
  | oSub t v ok hp =>
    have h1 := hinv_lab h (.acc ⟨t, .rmw, .size⟩) (by simp) (by simp)
    refine ⟨mk, hd, hinv_pc h1 t _ _ (by simp [pushing]) (by simp [written, pushing]) (by simp [looks]) (by simp) fun w hw => ?_⟩
    exact h1.taken t w (by rw [hp]; cases ok <;> simp_all [has])
  | oVal t n hp =>
    have h1 := hinv_lab h (.acc ⟨t, .read, .val n⟩) (by simp) (by simp)
    refine ⟨mk, hd, hinv_pc h1 t _ s.size (by simp [pushing]) (by simp [written, pushing]) (by simp [looks]) (by simp) fun w hw => ?_⟩
    simp only [has, Option.some.injEq] at hw
    subst hw
    have hl : looks (s.pc t) = some n := by rw [hp]; rfl
    exact ⟨n, (hf.sees t n hl).1.1, h.taking t n hp, h1.sees t n hl⟩
  | callClear t hp =>
    have h1 := hinv_lab h (.ev (.call t .clear)) (by simp) (by simp)
    exact ⟨mk, hd, hinv_pc h1 t _ s.size (by simp [pushing]) (by simp [written, pushing]) (by simp [looks]) (by simp) (by simp [has])⟩
  | callEmpty t hp =>
    have h1 := hinv_lab h (.ev (.call t .empty)) (by simp) (by simp)
    exact ⟨mk, hd, hinv_pc h1 t _ s.size (by simp [pushing]) (by simp [written, pushing]) (by simp [looks]) (by simp) (by simp [has])⟩
  | empty t hp =>
    have h1 := hinv_lab h (.acc ⟨t, .load, .head⟩) (by simp) (by simp [AccKind.writes])
    exact ⟨mk, hd, hinv_pc h1 t _ s.size (by simp [pushing]) (by simp [written, pushing]) (by simp [looks]) (by simp) (by simp [has])⟩
  | size t hp =>
    exact ⟨mk, hd, hinv_lab h (.acc ⟨t, .load, .size⟩) (by simp) (by simp)⟩
  | oLoad t n hp hh =>
    have h1 := hinv_lab h (.acc ⟨t, .load, .head⟩) (by simp) (by simp [AccKind.writes])
    refine ⟨mk, hd, hinv_pc h1 t _ s.size (by simp [pushing]) (by simp [written, pushing]) ?_ (by simp) (by simp [has])⟩
    intro k hk
    simp only [looks, Option.some.injEq] at hk
    subst hk
    obtain ⟨xs, g1, g2, g3⟩ := h.chain
    have hm : n ∈ xs := by
      rw [hh] at g1
      cases xs with
      | nil => cases g1
      | cons m r => simp [Option.some.inj g1.1]
    exact ⟨putAt_mono (g3 n hm).2.1, kn_obs rfl (g3 n hm).2.2⟩
  | oNext t n hp =>
    have h1 := hinv_lab h (.acc ⟨t, .read, .next n⟩) (by simp) (by simp)
    refine ⟨mk, hd, hinv_pc h1 t _ s.size (by simp [pushing]) (by simp [written, pushing]) ?_ (by simp) (by simp [has])⟩
    intro k hk
    exact h1.sees t k (by rw [hp]; exact hk)
  | pCasOk t v n o hp hh =>
    have h1 := hinv_lab h (.acc ⟨t, .rmw, .head⟩) (by simp) (by simp)
    have h2 := hinv_pc h1 t .pAdd s.size (by simp [pushing]) (by simp [written, pushing]) (by simp [looks]) (by simp) (by simp [has])
    refine ⟨mk, hd, h2.lt, h2.inj, h2.fresh, h2.own, h2.push, h2.val, h2.sees, ?_, h2.taking, h2.taken, h2.done⟩
    obtain ⟨xs, g1, g2, g3⟩ := h2.chain
    have ho : owns (s.pc t) = some n := by rw [hp]; rfl
    have hnx : n ∉ xs := by
      intro hn
      obtain ⟨ys, hy, hys⟩ := hf.chain
      rw [g1.unique hy] at hn
      exact (hys n hn).1.2 t ho
    refine ⟨n :: xs, ⟨rfl, ?_⟩, List.nodup_cons.mpr ⟨hnx, g2⟩, ?_⟩
    · dsimp only at g1 ⊢
      rw [hf.pnext t v n o hp, ← hh]
      exact g1
    · intro k hk
      rcases List.mem_cons.mp hk with rfl | hk
      · have hb := h.push t v k (by rw [hp]; rfl)
        refine ⟨h.own t k ho, ?_, ps_pub rfl rfl hb.2⟩
        dsimp only
        rw [h.val t v k (by rw [hp]; rfl)]
        exact putAt_mono hb.1
      · exact g3 k hk
  | oCasOk t n nx hp hh =>
    have h1 := hinv_lab h (.acc ⟨t, .rmw, .head⟩) (by simp) (by simp)
    have hl : looks (s.pc t) = some n := by rw [hp]; rfl
    obtain ⟨xs, g1, g2, g3⟩ := h1.chain
    rw [hh] at g1
    cases xs with
    | nil => cases g1
    | cons m r =>
      have e : n = m := Option.some.inj g1.1
      subst e
      have hfree : hd n = .free := (g3 n (by simp)).1
      have hne : ∀ k x, hd k = x → x ≠ .free → setAt hd n (.taker t) k = x := by
        intro k x hk hx
        rw [setAt_ne _ _ (by rintro rfl; exact hx (hk.symm.trans hfree))]
        exact hk
      refine ⟨mk, setAt hd n (.taker t), ?_⟩
      simp only [Option.toList]
      exact {
        lt := h1.lt
        inj := h1.inj
        fresh := by
          intro k hk
          dsimp only at hk
          have := (hf.sees t n hl).1.1
          rw [setAt_ne _ _ (by omega)]
          exact h.fresh k hk
        own := by
          intro u k hu
          dsimp only at hu
          unfold setAt at hu
          split at hu
          · cases hu
          · rw [setAt_ne _ _ (by rintro rfl; exact (hf.sees t k hl).1.2 u hu)]
            exact h.own u k hu
        push := by
          intro u w k hu
          dsimp only at hu
          unfold setAt at hu
          split at hu
          · cases hu
          · exact h1.push u w k hu
        val := by
          intro u w k hu
          dsimp only at hu ⊢
          unfold setAt at hu
          split at hu
          · cases hu
          · exact h1.val u w k hu
        sees := by
          intro u k hu
          dsimp only at hu ⊢
          unfold setAt at hu
          split at hu
          · subst u
            simp only [looks, Option.some.injEq] at hu
            subst hu
            exact h1.sees t n hl
          · exact h1.sees u k hu
        chain := by
          have hnd := List.nodup_cons.mp g2
          refine ⟨r, ?_, hnd.2, fun k hk => ?_⟩
          · have := g1.2
            rwa [hf.next t n nx hp] at this
          · rw [setAt_ne _ _ (by rintro rfl; exact hnd.1 hk)]
            exact g3 k (by simp [hk])
        taking := by
          intro u k hu
          dsimp only at hu
          unfold setAt at hu
          split at hu
          · subst u
            cases hu
            exact setAt_same _ _ _
          · exact hne k _ (h.taking u k hu) (by simp)
        taken := by
          intro u w hu
          dsimp only at hu
          unfold setAt at hu
          split at hu
          · cases hu
          · obtain ⟨k, f1, f2, f3⟩ := h1.taken u w hu
            exact ⟨k, f1, hne k _ f2 (by simp), f3⟩
        done := by
          intro j u w hj
          obtain ⟨k, f1, f2, f3⟩ := h1.done j u w hj
          exact ⟨k, f1, hne k _ f2 (by simp), f3⟩ }
  | clear t hp =>
    have h0 : HInv τ { s with head := none } mk hd :=
      ⟨h.lt, h.inj, h.fresh, h.own, h.push, h.val, h.sees, ⟨[], rfl, by simp, by simp⟩, h.taking, h.taken, h.done⟩
    have h1 : HInv (τ ++ [.acc ⟨t, .store, .head⟩]) { s with head := none } mk hd := by
      refine ⟨?_, h.inj, h.fresh, h.own, ?_, h.val, ?_, ⟨[], rfl, by simp, by simp⟩, h.taking, ?_, ?_⟩
      · intro n hn
        have := h.lt n hn
        simp; omega
      · exact fun t v n hp => ⟨putAt_mono (h.push t v n hp).1, kn_mono (h.push t v n hp).2⟩
      · exact fun t n hp => ⟨putAt_mono (h.sees t n hp).1, kn_mono (h.sees t n hp).2⟩
      · intro t v hp
        obtain ⟨n, h1, h2, h3, h4⟩ := h.taken t v hp
        exact ⟨n, h1, h2, putAt_mono h3, kn_mono h4⟩
      · intro j t v hj
        rcases lab_split hj with hj | ⟨_, e⟩
        · obtain ⟨n, h1, h2, h3, h4⟩ := h.done j t v hj
          exact ⟨n, h1, h2, putAt_mono h3, evBefore_mono (List.getElem?_eq_some_iff.mp hj).1 h4⟩
        · cases e
    exact ⟨mk, hd, hinv_pc h1 t _ s.size (by simp [pushing]) (by simp [written, pushing]) (by simp [looks]) (by simp) (by simp [has])⟩
  | ret t r hp =>
    by_cases hr : ∃ v, r = .popped v true
    · obtain ⟨v, rfl⟩ := hr
      obtain ⟨n, g1, g2, g3, g4⟩ := h.taken t v (by rw [hp]; rfl)
      have hne : ∀ k x, hd k = x → x ≠ .taker t → setAt hd n (.gone τ.length) k = x := by
        intro k x hk hx
        rw [setAt_ne _ _ (by rintro rfl; exact hx (hk.symm.trans g2))]
        exact hk
      have hpc : ∀ {α : Type} (f : FPC V → Option α) u x, f .idle = none → f (setAt s.pc t .idle u) = some x → u ≠ t ∧ f (s.pc u) = some x := by
        intro α f u x h0 hu
        unfold setAt at hu
        split at hu
        · rw [h0] at hu; cases hu
        · exact ⟨‹_›, hu⟩
      refine ⟨mk, setAt hd n (.gone τ.length), ?_⟩
      simp only [Option.toList]
      refine ⟨?_, h.inj, ?_, ?_, ?_, ?_, ?_, ?_, ?_, ?_, ?_⟩
      · intro k hk
        have := h.lt k hk
        simp; omega
      · exact fun k hk => hne k _ (h.fresh k hk) (by simp)
      · exact fun u k hu => hne k _ (h.own u k (hpc owns u k rfl hu).2) (by simp)
      · intro u w k hu
        have := h.push u w k (hpc pushing u _ rfl hu).2
        exact ⟨putAt_mono this.1, kn_mono this.2⟩
      · exact fun u w k hu => h.val u w k (hpc written u _ rfl hu).2
      · intro u k hu
        have := h.sees u k (hpc looks u k rfl hu).2
        exact ⟨putAt_mono this.1, kn_mono this.2⟩
      · obtain ⟨xs, f1, f2, f3⟩ := h.chain
        exact ⟨xs, f1, f2, fun k hk => ⟨hne k _ (f3 k hk).1 (by simp), putAt_mono (f3 k hk).2.1, ps_mono (by simp) (f3 k hk).2.2⟩⟩
      · intro u k hu
        dsimp only at hu
        by_cases e : u = t
        · subst e; rw [setAt_same] at hu; cases hu
        · rw [setAt_ne _ _ e] at hu
          exact hne k _ (h.taking u k hu) (by simp [e])
      · intro u w hu
        have hu := hpc has u w rfl hu
        obtain ⟨k, f1, f2, f3, f4⟩ := h.taken u w hu.2
        exact ⟨k, f1, hne k _ f2 (by simp [hu.1]), putAt_mono f3, kn_mono f4⟩
      · intro j u w hj
        rcases lab_split hj with hj | ⟨rfl, e⟩
        · obtain ⟨k, f1, f2, f3, f4⟩ := h.done j u w hj
          exact ⟨k, f1, hne k _ f2 (by simp), putAt_mono f3, evBefore_mono (List.getElem?_eq_some_iff.mp hj).1 f4⟩
        · cases e
          exact ⟨n, g1, setAt_same _ _ _, putAt_mono g3, evBefore_last g4⟩
    · have h1 := hinv_lab h (.ev (.ret t r)) (by rintro u v hc; cases hc; exact hr ⟨v, rfl⟩) (by simp)
      exact ⟨mk, hd, hinv_pc h1 t _ s.size (by simp [pushing]) (by simp [written, pushing]) (by simp [looks]) (by simp) (by simp [has])⟩

theorem hinv_exec {τ : List (FLab V)} {s : FSt V} (h : Exec FStep FSt.init τ s) : FInv (accs τ) s ∧ ∃ mk hd, HInv τ s mk hd := by
  refine Exec.invariant (fun τ s => FInv (accs τ) s ∧ ∃ mk hd, HInv τ s mk hd) ⟨finv_init, _, _, hinv_init⟩ ?_ ?_ h
  · rintro τ s' s'' ⟨h1, mk, hd, h2⟩ hs
    refine ⟨?_, ?_⟩
    · simpa using finv_step h1 hs
    · simpa using hinv_step h2 h1 hs
  · rintro τ s' e s'' ⟨h1, mk, hd, h2⟩ hs
    exact ⟨by simpa using finv_step h1 hs, by simpa using hinv_step h2 h1 hs⟩

theorem handsOver_of {τ : List (FLab V)} {s : FSt V} {mk : Nat → Nat} {hd : Nat → Holder} (h : HInv τ s mk hd) :
    HandsOver Op.push (fun v => .popped v true) τ :=
  handsOver_ghost (fun n => n < s.alloc) mk hd h.inj h.done (fun v w e => by cases e; rfl)

end Verif.LFQueue.Fine
