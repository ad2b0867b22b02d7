import Verif.Props.HeapStl
/-!
# C71: what `MakeHeap` of the STL configuration does achieve, and at which lengths it fails
-/

set_option linter.unusedSectionVars false

namespace Verif.Heap
open Verif.Spec Verif.Cmp
variable {α : Type}

/-- `a` is above `k` in the tree. -/
inductive Over : Nat → Nat → Prop where
  | one {k : Nat} : 0 < k → Over (parent k) k
  | up {a k : Nat} : 0 < k → Over a (parent k) → Over a k

theorem Over.lt {a k : Nat} (h : Over a k) : a < k := by
  induction h with
  | one h0 => exact parent_lt h0
  | up h0 _ ih => exact Nat.lt_trans ih (parent_lt h0)

theorem Over.trans {a b c : Nat} (h1 : Over a b) (h2 : Over b c) : Over a c := by
  induction h2 with
  | one h0 => exact .up h0 h1
  | up h0 _ ih => exact .up h0 (ih h1)

theorem Over.cases {a k : Nat} (h : Over a k) : a = parent k ∨ Over a (parent k) := by
  cases h with
  | one => exact .inl rfl
  | up _ h => exact .inr h

theorem Over.child {a k : Nat} (h : Over a k) : ∃ d, 0 < d ∧ parent d = a ∧ (d = k ∨ Over d k) := by
  induction h with
  | one h0 => exact ⟨_, h0, rfl, .inl rfl⟩
  | up h0 _ ih =>
    obtain ⟨d, hd, hp, h⟩ := ih
    refine ⟨d, hd, hp, .inr ?_⟩
    rcases h with rfl | h
    · exact .one h0
    · exact .up h0 h

theorem lt_of_some {b : List α} {j : Nat} {w : α} (h : b[j]? = some w) : j < b.length :=
  (List.getElem?_eq_some_iff.mp h).1

theorem over_zero {k : Nat} (h : 0 < k) : Over 0 k := by
  induction k using Nat.strongRecOn with
  | ind k ih =>
    by_cases hp : parent k = 0
    · have := Over.one h; rwa [hp] at this
    · exact .up h (ih _ (parent_lt h) (by omega))

/-- What is known of node `k` and a value `w` below it: `k` is not smaller, or something above `k` is greater. -/
def Good (lt : α → α → Bool) (b : List α) (k : Nat) (w : α) : Prop :=
  (∀ y, b[k]? = some y → lt y w = false) ∨ ∃ a y, Over a k ∧ b[a]? = some y ∧ lt w y = true

/-- All nodes from `i` on are good. -/
def GoodFrom (lt : α → α → Bool) (i : Nat) (b : List α) : Prop :=
  ∀ k j w, i ≤ k → Over k j → b[j]? = some w → Good lt b k w

/-- The same for a slice with a hole at `x`, from which `v` was taken at `h`. -/
def Held (lt : α → α → Bool) (b : List α) (h x : Nat) (v : α) (k : Nat) (w : α) : Prop :=
  (∀ y, b[k]? = some y → lt y w = false) ∨ (∃ a y, Over a k ∧ a ≠ x ∧ b[a]? = some y ∧ lt w y = true) ∨
    ((k = h ∨ Over h k ∨ Over x k) ∧ lt w v = true)

/-- All nodes from `h` on but the hole. -/
def HeldFrom (lt : α → α → Bool) (b : List α) (h x : Nat) (v : α) : Prop :=
  ∀ k j w, h ≤ k → k ≠ x → Over k j → j ≠ x → b[j]? = some w → Held lt b h x v k w

theorem sink_step {lt : α → α → Bool} (hw : StrictWeak lt) {b : List α} {h x c : Nat} {v : α} (hx : x = h ∨ Over h x)
    (hcl : c < b.length) (h0 : 0 < c) (hpc : parent c = x)
    (hbest : ∀ i (hi : i < b.length), 0 < i → parent i = x → lt b[c] b[i] = false)
    (hinv : HeldFrom lt b h x v) : HeldFrom lt (b.set x b[c]) h c v := by
  have hxc : Over x c := hpc ▸ Over.one h0
  have hxl : x < b.length := Nat.lt_trans hxc.lt hcl
  have hc : b[c]? = some b[c] := List.getElem?_eq_getElem hcl
  have hne := hxc.lt
  have hsub : ∀ d, Over x d → d = h ∨ Over h d := fun d hd => by
    rcases hx with rfl | hx
    · exact .inr hd
    · exact .inr (hx.trans hd)
  intro k j w hk hkc hkj hjc hj
  by_cases hkx : k = x
  · subst hkx
    have hjk : j ≠ k := Ne.symm (Nat.ne_of_lt hkj.lt)
    rw [List.getElem?_set_ne (Ne.symm hjk)] at hj
    have hk3 : k = h ∨ Over h k ∨ Over c k := by rcases hx with hx | hx <;> simp [hx]
    have hjl : j < b.length := lt_of_some hj
    obtain ⟨d, hd0, hdp, hdj⟩ := hkj.child
    have hkd : Over k d := hdp ▸ Over.one hd0
    have hdl : d < b.length := by rcases hdj with rfl | hdj; exact hjl; exact Nat.lt_trans hdj.lt hjl
    have hbd := hbest d hdl hd0 hdp
    rcases hdj with rfl | hdj
    · left
      intro y hy
      rw [List.getElem?_set_self (by omega)] at hy
      rw [List.getElem?_eq_getElem hdl] at hj
      cases hy; cases hj
      exact hbd
    · rcases hinv d j w (Nat.le_trans hk (Nat.le_of_lt hkd.lt)) (Ne.symm (Nat.ne_of_lt hkd.lt)) hdj hjk hj with g | ⟨a, y, ha, hak, hay, hlt⟩ | ⟨_, g⟩
      · left
        intro y hy
        rw [List.getElem?_set_self (by omega)] at hy
        cases hy
        exact hw.ge_trans hbd (g _ (List.getElem?_eq_getElem hdl))
      · refine .inr (.inl ⟨a, y, ?_, ?_, ?_, hlt⟩)
        · rcases ha.cases with e | e
          · exact absurd (e.trans hdp) hak
          · rwa [hdp] at e
        · intro e; subst e
          rcases ha.cases with e | e
          · exact hak (e.trans hdp)
          · rw [hdp] at e; have := e.lt; omega
        · rwa [List.getElem?_set_ne (Ne.symm hak)]
      · exact .inr (.inr ⟨hk3, g⟩)
  · by_cases hjx : j = x
    · subst hjx
      rw [List.getElem?_set_self hxl] at hj
      cases hj
      have hkl := hkj.lt
      rcases hinv k c b[c] hk hkx (hkj.trans hxc) (by omega) hc with g | ⟨a, y, ha, hax, hay, hlt⟩ | ⟨g1, g⟩
      · left
        intro y hy
        rw [List.getElem?_set_ne (by omega)] at hy
        exact g y hy
      · have := ha.lt
        exact .inr (.inl ⟨a, y, ha, by omega, by rwa [List.getElem?_set_ne (by omega)], hlt⟩)
      · refine .inr (.inr ⟨?_, g⟩)
        rcases g1 with g1 | g1 | g1
        · exact .inl g1
        · exact .inr (.inl g1)
        · have := g1.lt; omega
    · rw [List.getElem?_set_ne (Ne.symm hjx)] at hj
      rcases hinv k j w hk hkx hkj hjx hj with g | ⟨a, y, ha, hax, hay, hlt⟩ | ⟨g1, g⟩
      · left
        intro y hy
        rw [List.getElem?_set_ne (Ne.symm hkx)] at hy
        exact g y hy
      · by_cases hac : a = c
        · subst hac
          refine .inr (.inl ⟨x, y, hxc.trans ha, by omega, ?_, hlt⟩)
          rw [List.getElem?_set_self hxl, ← hay, hc]
        · exact .inr (.inl ⟨a, y, ha, hac, by rwa [List.getElem?_set_ne (Ne.symm hax)], hlt⟩)
      · refine .inr (.inr ⟨?_, g⟩)
        rcases g1 with g1 | g1 | g1
        · exact .inl g1
        · exact .inr (.inl g1)
        · rcases hsub k g1 with g | g
          · exact .inl g
          · exact .inr (.inl g)

/-- Everything below the hole is smaller than `v`, or than something above. -/
def Under (lt : α → α → Bool) (b : List α) (x : Nat) (v : α) : Prop :=
  ∀ j w, Over x j → b[j]? = some w → lt w v = true ∨ ∃ a y, Over a x ∧ b[a]? = some y ∧ lt w y = true

theorem up_step {lt : α → α → Bool} (hw : StrictWeak lt) {b : List α} {h x : Nat} {v : α}
    (hxl : x < b.length) (h0 : 0 < x) (hp : parent x < b.length) (hlt : lt b[parent x] v = true)
    (hinv : HeldFrom lt b h x v) (hu : h ≤ x → Under lt b x v) :
    HeldFrom lt (b.set x b[parent x]) h (parent x) v ∧
      (h ≤ parent x → Under lt (b.set x b[parent x]) (parent x) v) := by
  have hpx : Over (parent x) x := .one h0
  have hpl := hpx.lt
  have hpv : b[parent x]? = some b[parent x] := List.getElem?_eq_getElem hp
  constructor
  · intro k j w hk hkp hkj hjp hj
    by_cases hkx : k = x
    · subst hkx
      have := hkj.lt
      rw [List.getElem?_set_ne (by omega)] at hj
      rcases hu hk j w hkj hj with g | ⟨a, y, ha, hay, hl⟩
      · exact .inr (.inr ⟨.inr (.inr hpx), g⟩)
      · by_cases hap : a = parent k
        · subst hap
          rw [hpv] at hay; cases hay
          exact .inr (.inr ⟨.inr (.inr hpx), hw.trans _ _ _ hl hlt⟩)
        · have := ha.lt
          exact .inr (.inl ⟨a, y, ha, hap, by rwa [List.getElem?_set_ne (by omega)], hl⟩)
    · by_cases hjx : j = x
      · subst hjx
        rw [List.getElem?_set_self hxl] at hj
        cases hj
        have hkp' : Over k (parent j) := by
          rcases hkj.cases with e | e
          · exact absurd e hkp
          · exact e
        have := hkp'.lt
        rcases hinv k (parent j) _ hk hkx hkp' (by omega) hpv with g | ⟨a, y, ha, hax, hay, hl⟩ | ⟨g1, g⟩
        · left
          intro y hy
          rw [List.getElem?_set_ne (Ne.symm hkx)] at hy
          exact g y hy
        · have := ha.lt
          exact .inr (.inl ⟨a, y, ha, by omega, by rwa [List.getElem?_set_ne (Ne.symm hax)], hl⟩)
        · refine .inr (.inr ⟨?_, g⟩)
          rcases g1 with g1 | g1 | g1
          · exact .inl g1
          · exact .inr (.inl g1)
          · have := g1.lt; omega
      · rw [List.getElem?_set_ne (Ne.symm hjx)] at hj
        rcases hinv k j w hk hkx hkj hjx hj with g | ⟨a, y, ha, hax, hay, hl⟩ | ⟨g1, g⟩
        · left
          intro y hy
          rw [List.getElem?_set_ne (Ne.symm hkx)] at hy
          exact g y hy
        · by_cases hap : a = parent x
          · subst hap
            rw [hpv] at hay; cases hay
            exact .inr (.inr ⟨.inr (.inr ha), hw.trans _ _ _ hl hlt⟩)
          · exact .inr (.inl ⟨a, y, ha, hap, by rwa [List.getElem?_set_ne (Ne.symm hax)], hl⟩)
        · refine .inr (.inr ⟨?_, g⟩)
          rcases g1 with g1 | g1 | g1
          · exact .inl g1
          · exact .inr (.inl g1)
          · exact .inr (.inr (hpx.trans g1))
  · intro hk j w hj hjw
    by_cases hjx : j = x
    · subst hjx
      rw [List.getElem?_set_self hxl] at hjw
      cases hjw
      exact .inl hlt
    · rw [List.getElem?_set_ne (Ne.symm hjx)] at hjw
      rcases hinv (parent x) j w hk (by omega) hj hjx hjw with g | ⟨a, y, ha, hax, hay, hl⟩ | ⟨g1, g⟩
      · left
        have h1 := g _ hpv
        rcases hw.negTrans _ w _ hlt with h2 | h2
        · rw [h1] at h2; cases h2
        · exact h2
      · exact .inr ⟨a, y, ha, by rwa [List.getElem?_set_ne (Ne.symm hax)], hl⟩
      · exact .inl g

theorem up_stop {lt : α → α → Bool} (hw : StrictWeak lt) {b : List α} {h x : Nat} {v : α} (hxl : x < b.length)
    (hx : x = h ∨ Over h x ∨ Over x h) (hstop : ∀ y, 0 < x → b[parent x]? = some y → lt y v = false)
    (hinv : HeldFrom lt b h x v) (hu : h ≤ x → Under lt b x v) : GoodFrom lt h (b.set x v) := by
  intro k j w hk hkj hj
  by_cases hkx : k = x
  · subst hkx
    have := hkj.lt
    rw [List.getElem?_set_ne (by omega)] at hj
    rcases hu hk j w hkj hj with g | ⟨a, y, ha, hay, hl⟩
    · left
      intro y hy
      rw [List.getElem?_set_self hxl] at hy
      cases hy
      exact hw.asymm g
    · have := ha.lt
      exact .inr ⟨a, y, ha, by rwa [List.getElem?_set_ne (by omega)], hl⟩
  · by_cases hjx : j = x
    · subst hjx
      rw [List.getElem?_set_self hxl] at hj
      cases hj
      have hj0 : 0 < j := Nat.lt_of_le_of_lt (Nat.zero_le _) hkj.lt
      have hpl : parent j < b.length := Nat.lt_trans (parent_lt hj0) hxl
      have hpv := List.getElem?_eq_getElem hpl
      have hst := hstop _ hj0 hpv
      rcases hkj.cases with e | e
      · left
        intro y hy
        rw [List.getElem?_set_ne (Ne.symm hkx), e, hpv] at hy
        cases hy
        exact hst
      · have := e.lt
        have := parent_lt hj0
        rcases hinv k (parent j) _ hk hkx e (by omega) hpv with g | ⟨a, y, ha, hax, hay, hl⟩ | ⟨g1, g⟩
        · left
          intro y hy
          rw [List.getElem?_set_ne (Ne.symm hkx)] at hy
          exact hw.ge_trans (g y hy) hst
        · refine .inr ⟨a, y, ha, by rwa [List.getElem?_set_ne (Ne.symm hax)], ?_⟩
          rcases hw.negTrans _ v _ hl with h2 | h2
          · rw [hst] at h2; cases h2
          · exact h2
        · rw [hst] at g; cases g
    · rw [List.getElem?_set_ne (Ne.symm hjx)] at hj
      rcases hinv k j w hk hkx hkj hjx hj with g | ⟨a, y, ha, hax, hay, hl⟩ | ⟨g1, g⟩
      · left
        intro y hy
        rw [List.getElem?_set_ne (Ne.symm hkx)] at hy
        exact g y hy
      · exact .inr ⟨a, y, ha, by rwa [List.getElem?_set_ne (Ne.symm hax)], hl⟩
      · by_cases hxk : Over x k
        · exact .inr ⟨x, v, hxk, List.getElem?_set_self hxl, g⟩
        · have hkh : k = h ∨ Over h k := by
            rcases g1 with g1 | g1 | g1
            · exact .inl g1
            · exact .inr g1
            · exact absurd g1 hxk
          have hxh : Over h x := by
            rcases hx with hx | hx | hx
            · subst hx
              rcases hkh with hkh | hkh
              · exact absurd hkh hkx
              · exact absurd hkh hxk
            · exact hx
            · rcases hkh with hkh | hkh
              · rw [hkh] at hxk; exact absurd hx hxk
              · exact absurd (hx.trans hkh) hxk
          have hx0 : 0 < x := Nat.lt_of_le_of_lt (Nat.zero_le _) hxh.lt
          have hpl : parent x < b.length := Nat.lt_trans (parent_lt hx0) hxl
          have hpv := List.getElem?_eq_getElem hpl
          have hst := hstop _ hx0 hpv
          have hwp : lt w b[parent x] = true := by
            rcases hw.negTrans _ b[parent x] _ g with h2 | h2
            · exact h2
            · rw [hst] at h2; cases h2
          -- it is enough that `h` holds something as large, or something above it does
          have done : ∀ y, b[h]? = some y → lt w y = true → Good lt (b.set x v) k w := by
            intro y hy hwy
            have := hxh.lt
            rcases hkh with rfl | hkh
            · left
              intro z hz
              rw [List.getElem?_set_ne (by omega)] at hz
              rw [hy] at hz; cases hz
              exact hw.asymm hwy
            · exact .inr ⟨h, y, hkh, by rwa [List.getElem?_set_ne (by omega)], hwy⟩
          rcases hxh.cases with e | e
          · exact done _ (e ▸ hpv) hwp
          · have hlt1 := hxh.lt
            have hlt2 := parent_lt hx0
            rcases hinv h (parent x) _ (Nat.le_refl _) (by omega) e (by omega) hpv with g | ⟨a, y, ha, hax, hay, hl⟩ | ⟨g1, g⟩
            · have hhl : h < b.length := by omega
              refine done _ (List.getElem?_eq_getElem hhl) ?_
              have h1 := g _ (List.getElem?_eq_getElem hhl)
              rcases hw.negTrans _ b[h] _ hwp with h2 | h2
              · exact h2
              · rw [h1] at h2; cases h2
            · refine .inr ⟨a, y, ?_, by rwa [List.getElem?_set_ne (Ne.symm hax)], hw.trans _ _ _ hwp hl⟩
              rcases hkh with rfl | hkh
              · exact ha
              · exact ha.trans hkh
            · rw [hst] at g; cases g

theorem up_good {lt : α → α → Bool} (hw : StrictWeak lt) (b : List α) (x : Nat) (hx : x < b.length) (v : α) (h : Nat)
    (hh : x = h ∨ Over h x ∨ Over x h) (hinv : HeldFrom lt b h x v) (hu : h ≤ x → Under lt b x v) :
    GoodFrom lt h (adjustUp (fun c p => !lt p c) b x hx v) := by
  fun_induction adjustUp (fun c p => !lt p c) b x hx v with
  | case1 b x hx h0 hf ih =>
    simp only [Bool.not_not] at hf
    have hp : parent x < b.length := Nat.lt_trans (parent_lt h0) hx
    obtain ⟨i1, i2⟩ := up_step hw hx h0 hp hf hinv hu
    refine ih ?_ i1 i2
    have hpx : Over (parent x) x := .one h0
    rcases hh with rfl | hh | hh
    · exact .inr (.inr hpx)
    · rcases hh.cases with e | e
      · exact .inl e.symm
      · exact .inr (.inl e)
    · exact .inr (.inr (hpx.trans hh))
  | case2 b x hx h0 hf =>
    refine up_stop hw hx hh ?_ hinv hu
    intro y _ hy
    rw [List.getElem?_eq_getElem (Nat.lt_trans (parent_lt h0) hx)] at hy
    cases hy
    simpa using hf
  | case3 b x hx h0 => exact up_stop hw hx hh (fun y h1 => absurd h1 h0) hinv hu

theorem sink_good {lt : α → α → Bool} (hw : StrictWeak lt) (b : List α) (x : Nat) (hx : x < b.length) (v : α) (h : Nat)
    (hh : x = h ∨ Over h x) (hinv : HeldFrom lt b h x v) : GoodFrom lt h (sinkHole (fun c p => !lt p c) b x hx v) := by
  fun_induction sinkHole (fun c p => !lt p c) b x hx v with
  | case1 b x hx hl ih =>
    obtain ⟨hpc, hbest⟩ := bestChild_spec hw b x hl
    have hlt := lt_bestChild (fun c p => !lt p c) b x hl
    have h0 : 0 < bestChild (fun c p => !lt p c) b x hl := by omega
    have hxc : Over x (bestChild (fun c p => !lt p c) b x hl) := by have := Over.one h0; rwa [hpc] at this
    refine ih ?_ (sink_step hw hh (bestChild_lt _ b x hl) h0 hpc hbest hinv)
    rcases hh with rfl | hh
    · exact .inr hxc
    · exact .inr (hh.trans hxc)
  | case2 b x hx hl =>
    refine up_good hw b x hx v h (hh.imp_right .inl) hinv ?_
    intro _ j w hj hjw
    exfalso
    obtain ⟨d, hd0, hdp, hdj⟩ := hj.child
    have hjl : j < b.length := lt_of_some hjw
    have hdl : d < b.length := by
      rcases hdj with rfl | hdj
      · exact hjl
      · exact Nat.lt_trans hdj.lt hjl
    unfold parent at hdp; unfold lchild at hl; omega

theorem make_good {lt : α → α → Bool} (hw : StrictWeak lt) (b : List α) (i : Nat) (hi : i < b.length)
    (h : GoodFrom lt (i + 1) b) : GoodFrom lt 0 (makeLoopStl (fun c p => !lt p c) b i hi) := by
  have one : ∀ (b : List α) (i : Nat) (hi : i < b.length), GoodFrom lt (i + 1) b →
      GoodFrom lt i (sinkHole (fun c p => !lt p c) b i hi b[i]) := by
    intro b i hi h
    refine sink_good hw b i hi b[i] i (.inl rfl) ?_
    intro k j w hk hki hkj hji hj
    rcases h k j w (by omega) hkj hj with g | ⟨a, y, ha, hay, hl⟩
    · exact .inl g
    · by_cases hai : a = i
      · subst hai
        rw [List.getElem?_eq_getElem hi] at hay
        cases hay
        exact .inr (.inr ⟨.inr (.inl ha), hl⟩)
      · exact .inr (.inl ⟨a, y, ha, hai, hay, hl⟩)
  induction i generalizing b with
  | zero => exact one b 0 hi h
  | succ i ih => exact ih _ _ (one b (i + 1) hi h)

/-- **C71, partial.**  In the STL configuration `MakeHeap` does not make a heap, but the right element gets to the top. -/
theorem C71_makeHeap_top_partial {less : α → α → Bool} (hw : StrictWeak less) (maxTop : Bool) (b : List α) (x : α)
    (hx : (makeHeapStl (cmpOf less maxTop) b).head? = some x) : ∀ y ∈ b, below maxTop less x y = false := by
  have hb := below_strictWeak hw maxTop
  intro y hy
  have hy' := (C71_makeHeap_perm (cmpOf less maxTop) b).mem_iff.mpr hy
  revert hx hy'
  rw [cmpOf_eq]
  unfold makeHeapStl
  by_cases h1 : b.length > 1
  · rw [dif_pos h1]
    have hg := make_good hb b (b.length / 2) (by omega) (by
      intro k j w hk hkj hj
      exfalso
      obtain ⟨d, hd0, hdp, hdj⟩ := hkj.child
      have hjl : j < b.length := lt_of_some hj
      have hdl : d < b.length := by
        rcases hdj with rfl | hdj
        · exact hjl
        · exact Nat.lt_trans hdj.lt hjl
      unfold parent at hdp; omega)
    generalize makeLoopStl (fun c p => !below maxTop less p c) b (b.length / 2) (by omega) = m at *
    intro hx hym
    obtain ⟨j, hj⟩ := List.mem_iff_getElem?.mp hym
    rw [List.head?_eq_getElem?] at hx
    by_cases hj0 : j = 0
    · subst hj0
      rw [hx] at hj; cases hj
      exact hb.irrefl _
    · rcases hg 0 j y (Nat.le_refl _) (over_zero (by omega)) hj with g | ⟨a, _, ha, _⟩
      · exact g x hx
      · exact absurd ha.lt (by omega)
  · rw [dif_neg h1]
    intro hx hym
    match b, h1 with
    | [], _ => simp at hx
    | [z], _ => simp at hx hym; subst hx; subst hym; exact hb.irrefl _
    | _ :: _ :: _, h => simp at h

example : (makeHeapStl (cmpOf intLt true) [2, 4, 1, 3, 0]).head? = some 4 := by decide +kernel

end Verif.Heap
