import Verif.Lemmas.GoSort
/-!
# Lemmas about `sort.Sort`: the partition
-/
set_option linter.unusedSectionVars false

namespace Verif.SortProg
open Verif.Spec
variable {α : Type}

section Proofs
variable {lt : α → α → Bool} (hw : StrictWeak lt) {n : Nat}
include hw

theorem medianOfThree_spec (a b m1 m0 m2 : Nat) (h1 : a ≤ m1 ∧ m1 < b) (h0 : a ≤ m0 ∧ m0 < b) (h2 : a ≤ m2 ∧ m2 < b) (hn : b ≤ n)
    (d1 : m0 ≠ m1) (d2 : m1 ≠ m2) (d3 : m0 ≠ m2) (k : Prog) (f : Nat → α) :
    ∃ g, Reach lt n (medianOfThree m1 m0 m2 k) f 3 k g ∧ PermOn a b f g ∧ lt (g m1) (g m0) = false ∧ lt (g m2) (g m1) = false := by
  have last : ∀ f : Nat → α, lt (f m1) (f m0) = false → ∃ g, Reach lt n (.less m2 m1 fun r =>
      if r then .swap m2 m1 (.less m1 m0 fun r => if r then .swap m1 m0 k else k) else k) f 2 k g ∧ PermOn a b f g ∧
      lt (g m1) (g m0) = false ∧ lt (g m2) (g m1) = false := by
    intro f hf
    have hl := Reach.less (lt := lt) (n := n) (i := m2) (j := m1) (fun r =>
      if r then .swap m2 m1 (.less m1 m0 fun r => if r then .swap m1 m0 k else k) else k) f (by omega) (by omega)
    cases hc : lt (f m2) (f m1) with
    | false =>
      rw [hc] at hl
      exact ⟨f, hl.weaken (by omega), PermOn.refl _ _ _, hf, hc⟩
    | true =>
      rw [hc] at hl
      have hs : Reach lt n _ f 0 (.less m1 m0 fun r => if r then .swap m1 m0 k else k) (swp f m2 m1) := Reach.swap _ f (by omega) (by omega)
      have ps : PermOn a b f (swp f m2 m1) := PermOn.swp f h2 h1
      have e1 : swp f m2 m1 m1 = f m2 := swp_right _ _ _
      have e2 : swp f m2 m1 m2 = f m1 := swp_left _ _ _
      have e0 : swp f m2 m1 m0 = f m0 := swp_other f d3 d1
      have hl' := Reach.less (lt := lt) (n := n) (i := m1) (j := m0) (fun r => if r then .swap m1 m0 k else k) (swp f m2 m1) (by omega) (by omega)
      cases hc' : lt (swp f m2 m1 m1) (swp f m2 m1 m0) with
      | false =>
        rw [hc'] at hl'
        refine ⟨_, (hl.trans (hs.trans hl')).weaken (by omega), ps, hc', ?_⟩
        rw [e1, e2]; exact hw.asymm hc
      | true =>
        rw [hc'] at hl'
        have hs' : Reach lt n _ (swp f m2 m1) 0 k (swp (swp f m2 m1) m1 m0) := Reach.swap _ _ (by omega) (by omega)
        refine ⟨_, (hl.trans (hs.trans (hl'.trans hs'))).weaken (by omega), ps.trans (PermOn.swp _ h1 h0), ?_, ?_⟩
        · rw [swp_left, swp_right]; exact hw.asymm hc'
        · rw [swp_left, swp_other _ d2.symm d3.symm, e2, e0]; exact hf
  have hl := Reach.less (lt := lt) (n := n) (i := m1) (j := m0) (fun r => if r then .swap m1 m0 (.less m2 m1 fun r =>
      if r then .swap m2 m1 (.less m1 m0 fun r => if r then .swap m1 m0 k else k) else k) else (.less m2 m1 fun r =>
      if r then .swap m2 m1 (.less m1 m0 fun r => if r then .swap m1 m0 k else k) else k)) f (by omega) (by omega)
  cases hc : lt (f m1) (f m0) with
  | false =>
    rw [hc] at hl
    obtain ⟨g, r, p, o⟩ := last f hc
    exact ⟨g, (hl.trans r).weaken (by omega), p, o⟩
  | true =>
    rw [hc] at hl
    have hs : Reach lt n _ f 0 _ (swp f m1 m0) := Reach.swap (.less m2 m1 fun r =>
      if r then .swap m2 m1 (.less m1 m0 fun r => if r then .swap m1 m0 k else k) else k) f (by omega) (by omega)
    obtain ⟨g, r, p, o⟩ := last (swp f m1 m0) (by rw [swp_left, swp_right]; exact hw.asymm hc)
    exact ⟨g, (hl.trans (hs.trans r)).weaken (by omega), (PermOn.swp f h1 h0).trans p, o⟩

omit hw in
theorem scanLess_spec (p : Nat) (hp : p < n) (f : Nat → α) (k : Nat → Prog) : ∀ m a, a + m ≤ n →
    ∃ a', a ≤ a' ∧ a' ≤ a + m ∧ Reach lt n (scanLess p m a k) f (a' - a + 1) (k a') f ∧
      (∀ x, a ≤ x → x < a' → lt (f x) (f p) = true) ∧ (a' < a + m → lt (f a') (f p) = false) := by
  intro m
  induction m with
  | zero => intro a _; exact ⟨a, le_refl _, by omega, Reach.refl _ _ _, fun _ _ _ => by omega, fun _ => by omega⟩
  | succ m ih =>
    intro a ha
    have hl : Reach lt n (scanLess p (m + 1) a k) f 1 _ f := Reach.less _ f (by omega) hp
    cases hc : lt (f a) (f p) with
    | false =>
      rw [hc] at hl
      exact ⟨a, le_refl _, by omega, hl.weaken (by omega), fun _ _ _ => by omega, fun _ => hc⟩
    | true =>
      rw [hc] at hl
      obtain ⟨a', h1, h2, r, h3, h4⟩ := ih (a + 1) (by omega)
      refine ⟨a', by omega, by omega, (hl.trans r).weaken (by omega), fun x hx hx' => ?_, fun h => h4 (by omega)⟩
      by_cases e : x = a
      · subst e; exact hc
      · exact h3 x (by omega) hx'

omit hw in
theorem scanNotGreater_spec (p : Nat) (hp : p < n) (f : Nat → α) (k : Nat → Prog) : ∀ m b, b + m ≤ n →
    ∃ b', b ≤ b' ∧ b' ≤ b + m ∧ Reach lt n (scanNotGreater p m b k) f (b' - b + 1) (k b') f ∧
      (∀ x, b ≤ x → x < b' → lt (f p) (f x) = false) ∧ (b' < b + m → lt (f p) (f b') = true) := by
  intro m
  induction m with
  | zero => intro a _; exact ⟨a, le_refl _, by omega, Reach.refl _ _ _, fun _ _ _ => by omega, fun _ => by omega⟩
  | succ m ih =>
    intro a ha
    have hl : Reach lt n (scanNotGreater p (m + 1) a k) f 1 _ f := Reach.less _ f hp (by omega)
    cases hc : lt (f p) (f a) with
    | true =>
      rw [hc] at hl
      exact ⟨a, le_refl _, by omega, hl.weaken (by omega), fun _ _ _ => by omega, fun _ => hc⟩
    | false =>
      rw [hc] at hl
      obtain ⟨a', h1, h2, r, h3, h4⟩ := ih (a + 1) (by omega)
      refine ⟨a', by omega, by omega, (hl.trans r).weaken (by omega), fun x hx hx' => ?_, fun h => h4 (by omega)⟩
      by_cases e : x = a
      · subst e; exact hc
      · exact h3 x (by omega) hx'

omit hw in
theorem scanGreater_spec (p : Nat) (hp : p < n) (f : Nat → α) (k : Nat → Prog) : ∀ m c, m ≤ c → c ≤ n →
    ∃ c', c - m ≤ c' ∧ c' ≤ c ∧ Reach lt n (scanGreater p m c k) f (c - c' + 1) (k c') f ∧
      (∀ x, c' ≤ x → x < c → lt (f p) (f x) = true) ∧ (c - m < c' → lt (f p) (f (c' - 1)) = false) := by
  intro m
  induction m with
  | zero => intro a _ _; exact ⟨a, by omega, le_refl _, Reach.refl _ _ _, fun _ _ _ => by omega, fun _ => by omega⟩
  | succ m ih =>
    intro c hc hn
    have hl : Reach lt n (scanGreater p (m + 1) c k) f 1 _ f := Reach.less _ f hp (by omega)
    cases hc : lt (f p) (f (c - 1)) with
    | false =>
      rw [hc] at hl
      exact ⟨c, by omega, le_refl _, hl.weaken (by omega), fun _ _ _ => by omega, fun _ => hc⟩
    | true =>
      rw [hc] at hl
      obtain ⟨a', h1, h2, r, h3, h4⟩ := ih (c - 1) (by omega) (by omega)
      refine ⟨a', by omega, by omega, (hl.trans r).weaken (by omega), fun x hx hx' => ?_, fun h => h4 (by omega)⟩
      by_cases e : x = c - 1
      · subst e; exact hc
      · exact h3 x hx (by omega)

omit hw in
theorem scanNotLess_spec (p : Nat) (hp : p < n) (f : Nat → α) (k : Nat → Prog) : ∀ m c, m ≤ c → c ≤ n →
    ∃ c', c - m ≤ c' ∧ c' ≤ c ∧ Reach lt n (scanNotLess p m c k) f (c - c' + 1) (k c') f ∧
      (∀ x, c' ≤ x → x < c → lt (f x) (f p) = false) ∧ (c - m < c' → lt (f (c' - 1)) (f p) = true) := by
  intro m
  induction m with
  | zero => intro a _ _; exact ⟨a, by omega, le_refl _, Reach.refl _ _ _, fun _ _ _ => by omega, fun _ => by omega⟩
  | succ m ih =>
    intro c hc hn
    have hl : Reach lt n (scanNotLess p (m + 1) c k) f 1 _ f := Reach.less _ f (by omega) hp
    cases hc : lt (f (c - 1)) (f p) with
    | true =>
      rw [hc] at hl
      exact ⟨c, by omega, le_refl _, hl.weaken (by omega), fun _ _ _ => by omega, fun _ => hc⟩
    | false =>
      rw [hc] at hl
      obtain ⟨a', h1, h2, r, h3, h4⟩ := ih (c - 1) (by omega) (by omega)
      refine ⟨a', by omega, by omega, (hl.trans r).weaken (by omega), fun x hx hx' => ?_, fun h => h4 (by omega)⟩
      by_cases e : x = c - 1
      · subst e; exact hc
      · exact h3 x hx (by omega)

omit hw in
theorem part_spec (p : Nat) (k : Nat → Nat → Prog) : ∀ (fuel b c : Nat) (f : Nat → α), p < b → b ≤ c → c ≤ n → c - b < fuel → p < n →
    ∃ m g, b ≤ m ∧ m ≤ c ∧ Reach lt n (part p fuel b c k) f (c - b + 2) (k m m) g ∧ PermOn b c f g ∧
      (∀ x, b ≤ x → x < m → lt (g p) (g x) = false) ∧ (∀ x, m ≤ x → x < c → lt (g p) (g x) = true) := by
  intro fuel
  induction fuel with
  | zero => intro b c f _ _ _ h; omega
  | succ fuel ih =>
    intro b c f hpb hbc hc hf hp
    unfold part
    obtain ⟨b', hb1, hb2, r1, a1, e1⟩ := scanNotGreater_spec (lt := lt) (n := n) p hp f (fun b => scanGreater p (c - b) c fun c =>
      if c ≤ b then k b c else .swap b (c - 1) (part p fuel (b + 1) (c - 1) k)) (c - b) b (by omega)
    obtain ⟨c', hc1, hc2, r2, a2, e2⟩ := scanGreater_spec (lt := lt) (n := n) p hp f (fun c =>
      if c ≤ b' then k b' c else .swap b' (c - 1) (part p fuel (b' + 1) (c - 1) k)) (c - b') c (by omega) hc
    by_cases hend : c' ≤ b'
    · rw [if_pos hend] at r2
      have ec : c' = b' := by omega
      subst ec
      exact ⟨c', f, hb1, hc2, (r1.trans r2).weaken (by omega), PermOn.refl _ _ _, a1, a2⟩
    · rw [if_neg hend] at r2
      have v1 := e1 (by omega)
      have v2 := e2 (by omega)
      have hne : b' ≠ c' - 1 := by rintro e; rw [e, v2] at v1; simp at v1
      have hs : Reach lt n _ f 0 (part p fuel (b' + 1) (c' - 1) k) (swp f b' (c' - 1)) := Reach.swap _ f (by omega) (by omega)
      obtain ⟨m, g, m1, m2, r3, p3, l3, u3⟩ := ih (b' + 1) (c' - 1) (swp f b' (c' - 1)) (by omega) (by omega) (by omega) (by omega) hp
      have gp : g p = f p := by rw [p3.outside (by omega), swp_other f (by omega) (by omega)]
      refine ⟨m, g, by omega, by omega, (r1.trans (r2.trans (hs.trans r3))).weaken (by omega),
        (PermOn.swp f (by omega) (by omega)).trans (p3.mono (by omega) (by omega)), fun x hx hx' => ?_, fun x hx hx' => ?_⟩
      · by_cases ge : b' + 1 ≤ x
        · exact l3 x ge hx'
        · rw [gp, p3.outside (by omega)]
          by_cases e : x = b'
          · subst e; rw [swp_left]; exact v2
          · rw [swp_other f e (by omega)]; exact a1 x hx (by omega)
      · by_cases lt' : x < c' - 1
        · exact u3 x hx lt'
        · rw [gp, p3.outside (by omega)]
          by_cases e : x = c' - 1
          · subst e; rw [swp_right]; exact v1
          · rw [swp_other f (by omega) e]; exact a2 x (by omega) hx'

omit hw in
theorem gather_spec (p : Nat) (k : Nat → Prog) : ∀ (fuel a b : Nat) (f : Nat → α), p < a → a ≤ b → b ≤ n → b - a < fuel → p < n →
    ∃ m g, a ≤ m ∧ m ≤ b ∧ Reach lt n (gather p fuel a b k) f (b - a + 2) (k m) g ∧ PermOn a b f g ∧
      (∀ x, a ≤ x → x < m → lt (g x) (g p) = true) ∧ (∀ x, m ≤ x → x < b → lt (g x) (g p) = false) := by
  intro fuel
  induction fuel with
  | zero => intro b c f _ _ _ h; omega
  | succ fuel ih =>
    intro a b f hpa hab hb hf hp
    unfold gather
    obtain ⟨b', hb1, hb2, r1, a1, e1⟩ := scanNotLess_spec (lt := lt) (n := n) p hp f (fun b => scanLess p (b - a) a fun a =>
      if b ≤ a then k b else .swap a (b - 1) (gather p fuel (a + 1) (b - 1) k)) (b - a) b (by omega) hb
    obtain ⟨a', ha1, ha2, r2, a2, e2⟩ := scanLess_spec (lt := lt) (n := n) p hp f (fun a =>
      if b' ≤ a then k b' else .swap a (b' - 1) (gather p fuel (a + 1) (b' - 1) k)) (b' - a) a (by omega)
    by_cases hend : b' ≤ a'
    · rw [if_pos hend] at r2
      have ec : a' = b' := by omega
      subst ec
      exact ⟨a', f, ha1, hb2, (r1.trans r2).weaken (by omega), PermOn.refl _ _ _, a2, a1⟩
    · rw [if_neg hend] at r2
      have v1 := e1 (by omega)
      have v2 := e2 (by omega)
      have hne : a' ≠ b' - 1 := by rintro e; rw [e, v1] at v2; simp at v2
      have hs : Reach lt n _ f 0 (gather p fuel (a' + 1) (b' - 1) k) (swp f a' (b' - 1)) := Reach.swap _ f (by omega) (by omega)
      obtain ⟨m, g, m1, m2, r3, p3, l3, u3⟩ := ih (a' + 1) (b' - 1) (swp f a' (b' - 1)) (by omega) (by omega) (by omega) (by omega) hp
      have gp : g p = f p := by rw [p3.outside (by omega), swp_other f (by omega) (by omega)]
      refine ⟨m, g, by omega, by omega, (r1.trans (r2.trans (hs.trans r3))).weaken (by omega),
        (PermOn.swp f (by omega) (by omega)).trans (p3.mono (by omega) (by omega)), fun x hx hx' => ?_, fun x hx hx' => ?_⟩
      · by_cases ge : a' + 1 ≤ x
        · exact l3 x ge hx'
        · rw [gp, p3.outside (by omega)]
          by_cases e : x = a'
          · subst e; rw [swp_left]; exact v1
          · rw [swp_other f e (by omega)]; exact a2 x hx (by omega)
      · by_cases lt' : x < b' - 1
        · exact u3 x hx lt'
        · rw [gp, p3.outside (by omega)]
          by_cases e : x = b' - 1
          · subst e; rw [swp_right]; exact v2
          · rw [swp_other f (by omega) e]; exact a1 x (by omega) hx'

/-- The elements beside the pivot at `lo`: below it, up to it, equal to it, from it on. -/
structure Parted (lt : α → α → Bool) (lo a b c hi : Nat) (f : Nat → α) : Prop where
  la : lo < a
  ab : a ≤ b
  bc : b ≤ c
  ch : c ≤ hi
  below : ∀ x, lo < x → x < a → lt (f x) (f lo) = true
  upto : ∀ x, a ≤ x → x < b → lt (f lo) (f x) = false
  same : ∀ x, b ≤ x → x < c → lt (f lo) (f x) = false ∧ lt (f x) (f lo) = false
  above : ∀ x, c ≤ x → x < hi → lt (f x) (f lo) = false

omit hw in
theorem testDups_spec (lo hi a b : Nat) (k : Nat → Nat → Bool → Prog) (f : Nat → α) (h12 : 12 < hi - lo) (hn : hi ≤ n)
    (h : Parted lt lo a b b hi f) (hb : b < hi) (hgt : ∀ x, b ≤ x → x < hi - 1 → lt (f lo) (f x) = true) :
    ∃ b' c' pr g, Reach lt n (testDups lo ((lo + hi) / 2) hi b b k) f 3 (k b' c' pr) g ∧ PermOn (lo + 1) hi f g ∧
      Parted lt lo a b' c' hi g := by
  unfold testDups
  by_cases h5 : hi - b < 5
  · rw [if_pos h5]; exact ⟨b, b, true, f, Reach.refl _ _ _, PermOn.refl _ _ _, h⟩
  rw [if_neg h5]
  by_cases h4 : hi - b < (hi - lo) / 4
  swap
  · rw [if_neg h4]; exact ⟨b, b, false, f, Reach.refl _ _ _, PermOn.refl _ _ _, h⟩
  rw [if_pos h4]
  set m := (lo + hi) / 2 with hm
  have hla := h.la
  -- third test
  have third : ∀ b c d (f : Nat → α), Parted lt lo a b c hi f → m < b →
      ∃ b' c' pr g, Reach lt n (Prog.less m lo fun r =>
        if r then k b c (decide (1 < d)) else .swap m (b - 1) (k (b - 1) c (decide (1 < d + 1)))) f 1 (k b' c' pr) g ∧
        PermOn (lo + 1) hi f g ∧ Parted lt lo a b' c' hi g := by
    intro b c d f hP hmb
    have hab := hP.ab; have hbc := hP.bc; have hch := hP.ch
    have hl := Reach.less (lt := lt) (n := n) (i := m) (j := lo) (fun r =>
        if r then k b c (decide (1 < d)) else .swap m (b - 1) (k (b - 1) c (decide (1 < d + 1)))) f (by omega) (by omega)
    cases hc : lt (f m) (f lo) with
    | true =>
      rw [hc] at hl
      exact ⟨b, c, _, f, hl, PermOn.refl _ _ _, hP⟩
    | false =>
      rw [hc] at hl
      have hs : Reach lt n _ f 0 (k (b - 1) c (decide (1 < d + 1))) (swp f m (b - 1)) := Reach.swap _ f (by omega) (by omega)
      have ham : a ≤ m := by
        by_contra hlt
        have := hP.below m (by omega) (by omega)
        rw [hc] at this; simp at this
      have el : swp f m (b - 1) lo = f lo := swp_other f (by omega) (by omega)
      refine ⟨b - 1, c, _, _, hl.trans hs, PermOn.swp f (by omega) (by omega), hla, by omega, by omega, hch, ?_, ?_, ?_, ?_⟩
      · intro x h1 h2
        rw [el, swp_other f (by omega) (by omega)]; exact hP.below x h1 h2
      · intro x h1 h2
        rw [el]
        by_cases e : x = m
        · subst e; rw [swp_left]; exact hP.upto _ (by omega) (by omega)
        · rw [swp_other f e (by omega)]; exact hP.upto x h1 (by omega)
      · intro x h1 h2
        rw [el]
        by_cases e : x = b - 1
        · subst e; rw [swp_right]; exact ⟨hP.upto _ ham hmb, hc⟩
        · rw [swp_other f (by omega) e]; exact hP.same x (by omega) h2
      · intro x h1 h2
        rw [el, swp_other f (by omega) (by omega)]; exact hP.above x h1 h2
  have second : ∀ c d (f : Nat → α), Parted lt lo a b c hi f →
      ∃ b' c' pr g, Reach lt n (Prog.less (b - 1) lo fun r => if r then (Prog.less m lo fun r =>
        if r then k b c (decide (1 < d)) else .swap m (b - 1) (k (b - 1) c (decide (1 < d + 1)))) else
        (Prog.less m lo fun r =>
        if r then k (b - 1) c (decide (1 < d + 1)) else .swap m (b - 1 - 1) (k (b - 1 - 1) c (decide (1 < d + 1 + 1))))) f 2 (k b' c' pr) g ∧
        PermOn (lo + 1) hi f g ∧ Parted lt lo a b' c' hi g := by
    intro c d f hP
    have hab := hP.ab; have hbc := hP.bc; have hch := hP.ch
    have hl := Reach.less (lt := lt) (n := n) (i := b - 1) (j := lo) (fun r => if r then (Prog.less m lo fun r =>
        if r then k b c (decide (1 < d)) else .swap m (b - 1) (k (b - 1) c (decide (1 < d + 1)))) else
        (Prog.less m lo fun r =>
        if r then k (b - 1) c (decide (1 < d + 1)) else .swap m (b - 1 - 1) (k (b - 1 - 1) c (decide (1 < d + 1 + 1))))) f (by omega) (by omega)
    cases hc : lt (f (b - 1)) (f lo) with
    | true =>
      rw [hc] at hl
      obtain ⟨b', c', pr, g, r, p, o⟩ := third b c d f hP (by omega)
      exact ⟨b', c', pr, g, hl.trans r, p, o⟩
    | false =>
      rw [hc] at hl
      have hab' : a ≤ b - 1 := by
        by_contra hlt
        have := hP.below (b - 1) (by omega) (by omega)
        rw [hc] at this; simp at this
      obtain ⟨b', c', pr, g, r, p, o⟩ := third (b - 1) c (d + 1) f ⟨hla, hab', by omega, hch, hP.below,
        fun x h1 h2 => hP.upto x h1 (by omega), fun x h1 h2 => by
          by_cases e : x = b - 1
          · subst e; exact ⟨hP.upto _ hab' (by omega), hc⟩
          · exact hP.same x (by omega) h2, hP.above⟩ (by omega)
      exact ⟨b', c', pr, g, hl.trans r, p, o⟩
  have hl := Reach.less (lt := lt) (n := n) (i := lo) (j := hi - 1) (fun r => if r then
      (Prog.less (b - 1) lo fun r => if r then (Prog.less m lo fun r =>
        if r then k b b (decide (1 < 0)) else .swap m (b - 1) (k (b - 1) b (decide (1 < 0 + 1)))) else
        (Prog.less m lo fun r =>
        if r then k (b - 1) b (decide (1 < 0 + 1)) else .swap m (b - 1 - 1) (k (b - 1 - 1) b (decide (1 < 0 + 1 + 1)))))
      else .swap b (hi - 1) (Prog.less (b - 1) lo fun r => if r then (Prog.less m lo fun r =>
        if r then k b (b + 1) (decide (1 < 1)) else .swap m (b - 1) (k (b - 1) (b + 1) (decide (1 < 1 + 1)))) else
        (Prog.less m lo fun r =>
        if r then k (b - 1) (b + 1) (decide (1 < 1 + 1)) else .swap m (b - 1 - 1) (k (b - 1 - 1) (b + 1) (decide (1 < 1 + 1 + 1)))))) f
      (by omega) (by omega)
  cases hc : lt (f lo) (f (hi - 1)) with
  | true =>
    rw [hc] at hl
    obtain ⟨b', c', pr, g, r, p, o⟩ := second b 0 f h
    exact ⟨b', c', pr, g, hl.trans r, p, o⟩
  | false =>
    rw [hc] at hl
    have hs : Reach lt n _ f 0 _ (swp f b (hi - 1)) := Reach.swap (Prog.less (b - 1) lo fun r => if r then (Prog.less m lo fun r =>
        if r then k b (b + 1) (decide (1 < 1)) else .swap m (b - 1) (k (b - 1) (b + 1) (decide (1 < 1 + 1)))) else
        (Prog.less m lo fun r =>
        if r then k (b - 1) (b + 1) (decide (1 < 1 + 1)) else .swap m (b - 1 - 1) (k (b - 1 - 1) (b + 1) (decide (1 < 1 + 1 + 1))))) f
        (by omega) (by omega)
    have hab := h.ab
    have el : swp f b (hi - 1) lo = f lo := swp_other f (by omega) (by omega)
    obtain ⟨b', c', pr, g, r, p, o⟩ := second (b + 1) 1 (swp f b (hi - 1)) ⟨hla, hab, by omega, by omega,
      fun x h1 h2 => by rw [el, swp_other f (by omega) (by omega)]; exact h.below x h1 h2,
      fun x h1 h2 => by rw [el, swp_other f (by omega) (by omega)]; exact h.upto x h1 h2,
      fun x h1 h2 => by
        have e : x = b := by omega
        subst e
        rw [el, swp_left]
        exact ⟨hc, h.above (hi - 1) (by omega) (by omega)⟩,
      fun x h1 h2 => by
        rw [el]
        by_cases e : x = hi - 1
        · subst e; rw [swp_right]; exact h.above _ (le_refl _) hb
        · rw [swp_other f (by omega) e]; exact h.above x (by omega) h2⟩
    exact ⟨b', c', pr, g, hl.trans (hs.trans r), (PermOn.swp f (by omega) (by omega)).trans p, o⟩

theorem doPivot_spec (lo hi : Nat) (k : Nat → Nat → Prog) (f : Nat → α) (h12 : 12 < hi - lo) (hn : hi ≤ n) :
    ∃ mlo mhi g, Reach lt n (doPivot lo hi k) f (4 * (hi - lo)) (k mlo mhi) g ∧ PermOn lo hi f g ∧ lo ≤ mlo ∧ mlo < mhi ∧ mhi ≤ hi ∧
      (∀ x, lo ≤ x → x < mlo → lt (g mlo) (g x) = false) ∧
      (∀ x, mlo ≤ x → x < mhi → lt (g mlo) (g x) = false ∧ lt (g x) (g mlo) = false) ∧
      (∀ x, mhi ≤ x → x < hi → lt (g x) (g mlo) = false) := by
  set m := (lo + hi) / 2 with hm
  have main : ∀ f : Nat → α, ∃ mlo mhi g, Reach lt n (medianOfThree lo m (hi - 1) <|
      scanLess lo (hi - 1 - (lo + 1)) (lo + 1) fun a =>
      part lo (hi - lo) a (hi - 1) fun b c =>
      testDups lo m hi b c fun b c protect =>
      if protect then gather lo (hi - lo) a b (fun b => Prog.swap lo (b - 1) (k (b - 1) c)) else Prog.swap lo (b - 1) (k (b - 1) c))
      f (2 * (hi - lo) + 8) (k mlo mhi) g ∧ PermOn lo hi f g ∧ lo ≤ mlo ∧ mlo < mhi ∧ mhi ≤ hi ∧
      (∀ x, lo ≤ x → x < mlo → lt (g mlo) (g x) = false) ∧
      (∀ x, mlo ≤ x → x < mhi → lt (g mlo) (g x) = false ∧ lt (g x) (g mlo) = false) ∧
      (∀ x, mhi ≤ x → x < hi → lt (g x) (g mlo) = false) := by
    intro f
    obtain ⟨f1, r1, p1, -, o1⟩ := medianOfThree_spec (n := n) hw lo hi lo m (hi - 1) (by omega) (by omega) (by omega) hn (by omega) (by omega) (by omega)
      (scanLess lo (hi - 1 - (lo + 1)) (lo + 1) fun a =>
      part lo (hi - lo) a (hi - 1) fun b c =>
      testDups lo m hi b c fun b c protect =>
      if protect then gather lo (hi - lo) a b (fun b => Prog.swap lo (b - 1) (k (b - 1) c)) else Prog.swap lo (b - 1) (k (b - 1) c)) f
    obtain ⟨a, ha1, ha2, r2, o2, -⟩ := scanLess_spec (lt := lt) (n := n) lo (by omega) f1 (fun a =>
      part lo (hi - lo) a (hi - 1) fun b c =>
      testDups lo m hi b c fun b c protect =>
      if protect then gather lo (hi - lo) a b (fun b => Prog.swap lo (b - 1) (k (b - 1) c)) else Prog.swap lo (b - 1) (k (b - 1) c))
      (hi - 1 - (lo + 1)) (lo + 1) (by omega)
    obtain ⟨b, f3, hb1, hb2, r3, p3, l3, u3⟩ := part_spec (lt := lt) (n := n) lo (fun b c =>
      testDups lo m hi b c fun b c protect =>
      if protect then gather lo (hi - lo) a b (fun b => Prog.swap lo (b - 1) (k (b - 1) c)) else Prog.swap lo (b - 1) (k (b - 1) c))
      (hi - lo) a (hi - 1) f1 (by omega) (by omega) (by omega) (by omega) (by omega)
    have e3 : f3 lo = f1 lo := p3.outside (by omega)
    obtain ⟨b', c', pr, f4, r4, p4, o4⟩ := testDups_spec (lt := lt) (n := n) lo hi a b (fun b c protect =>
      if protect then gather lo (hi - lo) a b (fun b => Prog.swap lo (b - 1) (k (b - 1) c)) else Prog.swap lo (b - 1) (k (b - 1) c))
      f3 h12 hn ⟨by omega, hb1, le_refl _, by omega, fun x h1 h2 => by
          rw [e3, p3.outside (by omega)]; exact o2 x h1 h2, l3, fun x h1 h2 => by omega, fun x h1 h2 => by
          by_cases e : x = hi - 1
          · subst e; rw [e3, p3.outside (by omega)]; exact o1
          · exact hw.asymm (u3 x h1 (by omega))⟩ (by omega) u3
    rw [← hm] at r4
    have P4 : PermOn lo hi f f4 := (p1.trans (p3.mono (by omega) (by omega))).trans (p4.mono (by omega) (le_refl _))
    have R4 := r1.trans (r2.trans (r3.trans r4))
    -- the last swap
    have fin : ∀ b (f5 : Nat → α), Parted lt lo a b c' hi f5 → ∃ mlo mhi g, Reach lt n (Prog.swap lo (b - 1) (k (b - 1) c')) f5 0 (k mlo mhi) g ∧
        PermOn lo hi f5 g ∧ lo ≤ mlo ∧ mlo < mhi ∧ mhi ≤ hi ∧
        (∀ x, lo ≤ x → x < mlo → lt (g mlo) (g x) = false) ∧
        (∀ x, mlo ≤ x → x < mhi → lt (g mlo) (g x) = false ∧ lt (g x) (g mlo) = false) ∧
        (∀ x, mhi ≤ x → x < hi → lt (g x) (g mlo) = false) := by
      intro b f5 hP
      have hla := hP.la; have hab := hP.ab; have hbc := hP.bc; have hch := hP.ch
      have le : ∀ x, lo ≤ x → x < b → lt (f5 lo) (f5 x) = false := by
        intro x h1 h2
        by_cases e : x = lo
        · subst e; exact hw.irrefl _
        · by_cases e' : x < a
          · exact hw.asymm (hP.below x (by omega) e')
          · exact hP.upto x (by omega) h2
      refine ⟨b - 1, c', swp f5 lo (b - 1), Reach.swap _ _ (by omega) (by omega), PermOn.swp _ (by omega) (by omega), by omega, by omega, hch, ?_, ?_, ?_⟩
      · intro x h1 h2
        rw [swp_right]
        exact swp_forall (P := fun v => lt (f5 lo) v = false) le (by omega) (by omega) x h1 (by omega)
      · intro x h1 h2
        rw [swp_right]
        by_cases e : x = b - 1
        · subst e; rw [swp_right]; exact ⟨hw.irrefl _, hw.irrefl _⟩
        · rw [swp_other f5 (by omega) e]; exact hP.same x (by omega) h2
      · intro x h1 h2
        rw [swp_right, swp_other f5 (by omega) (by omega)]; exact hP.above x h1 h2
    have hla := o4.la; have hab := o4.ab; have hbc := o4.bc; have hch := o4.ch
    cases pr with
    | false =>
      obtain ⟨mlo, mhi, g, r, p, o⟩ := fin b' f4 o4
      exact ⟨mlo, mhi, g, (R4.trans r).weaken (by omega), P4.trans p, o⟩
    | true =>
      obtain ⟨b5, f5, hb5, hb5', r5, p5, l5, u5⟩ := gather_spec (lt := lt) (n := n) lo (fun b => Prog.swap lo (b - 1) (k (b - 1) c'))
        (hi - lo) a b' f4 hla hab (by omega) (by omega) (by omega)
      have e5 : f5 lo = f4 lo := p5.outside (by omega)
      obtain ⟨mlo, mhi, g, r, p, o⟩ := fin b5 f5 ⟨hla, hb5, by omega, hch,
        fun x h1 h2 => by rw [e5, p5.outside (by omega)]; exact o4.below x h1 h2,
        fun x h1 h2 => hw.asymm (l5 x h1 h2),
        fun x h1 h2 => by
          by_cases e : x < b'
          · refine ⟨?_, u5 x h1 e⟩
            rw [e5]
            exact p5.all (P := fun v => lt (f4 lo) v = false) o4.upto x (by omega) e
          · rw [e5, p5.outside (by omega)]; exact o4.same x (by omega) h2,
        fun x h1 h2 => by rw [e5, p5.outside (by omega)]; exact o4.above x h1 h2⟩
      exact ⟨mlo, mhi, g, (R4.trans (r5.trans r)).weaken (by omega),
        P4.trans ((p5.mono (by omega) (by omega)).trans p), o⟩
  unfold doPivot
  simp only
  rw [← hm]
  by_cases h40 : 40 < hi - lo
  · rw [if_pos h40]
    set s := (hi - lo) / 8 with hs
    obtain ⟨f1, r1, p1, -, -⟩ := medianOfThree_spec (n := n) hw lo hi lo (lo + s) (lo + 2 * s) (by omega) (by omega) (by omega) hn (by omega) (by omega) (by omega) _ f
    obtain ⟨f2, r2, p2, -, -⟩ := medianOfThree_spec (n := n) hw lo hi m (m - s) (m + s) (by omega) (by omega) (by omega) hn (by omega) (by omega) (by omega) _ f1
    obtain ⟨f3, r3, p3, -, -⟩ := medianOfThree_spec (n := n) hw lo hi (hi - 1) (hi - 1 - s) (hi - 1 - 2 * s) (by omega) (by omega) (by omega) hn (by omega) (by omega) (by omega) _ f2
    obtain ⟨mlo, mhi, g, r, p, o⟩ := main f3
    exact ⟨mlo, mhi, g, (r1.trans (r2.trans (r3.trans r))).weaken (by omega), p1.trans (p2.trans (p3.trans p)), o⟩
  · rw [if_neg h40]
    obtain ⟨mlo, mhi, g, r, p, o⟩ := main f
    exact ⟨mlo, mhi, g, r.weaken (by omega), p, o⟩

end Proofs
end Verif.SortProg
