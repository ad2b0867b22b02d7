import Verif.Props.RingBufferProgress
/-!
# C148: the ring buffer when its 64-bit counters run over

The executions here have no assumption on the counters.
-/
set_option linter.unusedSectionVars false

namespace Verif.RingBuffer
open Verif.Spec
open Verif.LFDeque (setAt_same setAt_ne Exec.one)
variable {V : Type} [Inhabited V]

/-- How many calls of `MustPush` have returned. -/
def pushed (τ : List (Ev (Op V) (Ret V))) : Nat :=
  τ.countP fun e => match e with
    | .ret _ (.pushed _) => true
    | _ => false

/-- How many calls of `MustPop` have returned. -/
def popped (τ : List (Ev (Op V) (Ret V))) : Nat :=
  τ.countP fun e => match e with
    | .ret _ (.popped _ _) => true
    | _ => false

/-- C148: as long as fewer than 2^64 values are pushed and popped (with room for one buffer), the buffer is linearizable to a FIFO and
holds at most as many values as it has slots.  Missing: all executions. -/
theorem C148_fewer_partial (k : Nat) (T : Finset Nat) {τ : List (Ev (Op V) (Ret V))} {s : St V} (h : Exec Step (start k) τ s)
    (hT : CallsBy (· ∈ T) τ) (hp : pushes τ + 2 ^ k < 2 ^ 64) (hq : pops τ + 1 < 2 ^ 64) :
    ∃ a, Exec (AStep fifo) (AState.init []) τ a ∧ a.s.length ≤ 2 ^ k := by
  obtain ⟨a, h1, h2, -⟩ := C34_linearizable k (reach k T h hT (by simpa [W] using hp) (by simpa [W] using hq)).1
  exact ⟨a, h1, h2⟩

/-! ## At most 2^64 - 1 values come out -/

/-- What holds in all executions: the ticket 2^64 - 1 of `MustPop` never gets past its loop, and `head` counts the pops. -/
structure PopInv (τ : List (Ev (Op V) (Ret V))) (s : St V) (L : List Nat) : Prop where
  tail : s.b.tail < W
  head : s.b.head < W
  low : ∀ t o, s.pc t = .poRead o ∨ (∃ v, s.pc t = .poCas o v) → o + 1 < W
  nodup : L.Nodup
  mem : ∀ t, t ∈ L ↔ ∃ v ok, s.pc t = .ret (.popped v ok)
  count : popped τ + L.length = s.b.head

theorem popped_snoc (τ : List (Ev (Op V) (Ret V))) (e : Ev (Op V) (Ret V)) :
    popped (τ ++ [e]) = popped τ + (match e with | .ret _ (.popped _ _) => 1 | _ => 0) := by
  unfold popped
  rw [List.countP_append]
  cases e with
  | call t op => simp
  | ret t r => cases r <;> simp

theorem PopInv.goto {τ : List (Ev (Op V) (Ret V))} {s : St V} {L : List Nat} (h : PopInv τ s L) (b : B V) (t : Nat) (p : PC V)
    (h1 : b.tail < W) (h2 : b.head = s.b.head) (h3 : ∀ o, p = .poRead o ∨ (∃ v, p = .poCas o v) → o + 1 < W)
    (h4 : ¬ ∃ v ok, s.pc t = .ret (.popped v ok)) (h5 : ¬ ∃ v ok, p = .ret (.popped v ok)) : PopInv τ ⟨b, setAt s.pc t p⟩ L := by
  refine ⟨h1, by rw [h2]; exact h.head, fun u o hu => ?_, h.nodup, fun u => ?_, by rw [h2]; exact h.count⟩
  · by_cases hut : u = t
    · subst hut
      simp only [setAt_same] at hu
      exact h3 o hu
    · simp only [setAt_ne _ _ _ _ hut] at hu
      exact h.low u o hu
  · by_cases hut : u = t
    · subst hut
      simp only [setAt_same]
      rw [h.mem]
      exact ⟨fun x => absurd x h4, fun x => absurd x h5⟩
    · simp only [setAt_ne _ _ _ _ hut]
      exact h.mem u

theorem popInv_exec {k : Nat} {τ : List (Ev (Op V) (Ret V))} {s : St V} (h : Exec Step (start k) τ s) : ∃ L, PopInv τ s L := by
  have hW : 0 < W := by decide
  have no : ∀ {s : St V} {t : Nat} {p : PC V}, s.pc t = p → (¬ ∃ v ok, p = .ret (.popped v ok)) → ¬ ∃ v ok, s.pc t = .ret (.popped v ok) := by
    intro s t p h1 h2; rw [h1]; exact h2
  induction h with
  | refl =>
    refine ⟨[], hW, hW, ?_, List.nodup_nil, ?_, rfl⟩
    · rintro t o (h | ⟨v, h⟩) <;> simp [start] at h
    · intro t; simp [start]
  | @silent s' s'' τ _ hs ih =>
    obtain ⟨L, h⟩ := ih
    cases hs with
    | puAdd t v hp => exact ⟨L, h.goto _ t _ h.tail rfl (by simp) (no hp (by simp)) (by simp)⟩
    | puWait t v old hp =>
      refine ⟨L, h.goto _ t _ h.tail rfl ?_ (no hp (by simp)) ?_⟩ <;> (split <;> simp)
    | puWrite t v old hp =>
      split
      · exact ⟨L, h.goto _ t _ h.tail rfl (by simp) (no hp (by simp)) (by simp)⟩
      · exact ⟨L, h.goto _ t _ h.tail rfl (by simp) (no hp (by simp)) (by simp)⟩
    | puCas t v old hp =>
      split
      · exact ⟨L, h.goto _ t _ (Nat.mod_lt _ hW) rfl (by simp) (no hp (by simp)) (by simp)⟩
      · exact ⟨L, h⟩
    | poAdd t hp => exact ⟨L, h.goto _ t _ h.tail rfl (by simp) (no hp (by simp)) (by simp)⟩
    | poWait t old hp =>
      split
      · exact ⟨L, h.goto _ t _ h.tail rfl (by simp) (no hp (by simp)) (by simp)⟩
      · next hlt =>
        refine ⟨L, h.goto _ t _ h.tail rfl ?_ (no hp (by simp)) (by simp)⟩
        rintro o (e | ⟨v, e⟩)
        · injection e with e
          have := h.tail
          omega
        · cases e
    | poRead t old hp =>
      split
      · refine ⟨L, h.goto _ t _ h.tail rfl ?_ (no hp (by simp)) (by simp)⟩
        rintro o (e | ⟨v, e⟩)
        · cases e
        · injection e with e
          rw [← e]
          exact h.low t old (.inl hp)
      · exact ⟨L, h.goto _ t _ h.tail rfl (by simp) (no hp (by simp)) (by simp)⟩
    | poCas t old v hp =>
      split
      · next he =>
        have hlow := h.low t old (.inr ⟨v, hp⟩)
        have hm : (old + 1) % W = old + 1 := Nat.mod_eq_of_lt hlow
        refine ⟨t :: L, h.tail, by simp only [hm]; exact hlow, fun u o hu => ?_, List.nodup_cons.2 ⟨?_, h.nodup⟩, fun u => ?_, ?_⟩
        · by_cases hut : u = t
          · subst hut
            simp only [setAt_same] at hu
            rcases hu with hu | ⟨w, hu⟩ <;> cases hu
          · simp only [setAt_ne _ _ _ _ hut] at hu
            exact h.low u o hu
        · rw [h.mem, hp]; simp
        · by_cases hut : u = t
          · subst hut
            simp only [setAt_same]
            exact ⟨fun _ => ⟨v, true, rfl⟩, fun _ => by simp⟩
          · simp only [setAt_ne _ _ _ _ hut, List.mem_cons, hut, false_or]
            exact h.mem u
        · have := h.count
          simp only [hm, List.length_cons]
          omega
      · exact ⟨L, h⟩
  | @visible s' s'' τ e _ hs ih =>
    obtain ⟨L, h⟩ := ih
    cases hs with
    | callPush t v hp =>
      have := h.goto s'.b t (.puAdd v) h.tail rfl (by simp) (no hp (by simp)) (by simp)
      exact ⟨L, this.tail, this.head, this.low, this.nodup, this.mem, by rw [popped_snoc]; exact this.count⟩
    | callPop t hp =>
      have := h.goto s'.b t .poAdd h.tail rfl (by simp) (no hp (by simp)) (by simp)
      exact ⟨L, this.tail, this.head, this.low, this.nodup, this.mem, by rw [popped_snoc]; exact this.count⟩
    | ret t r hp =>
      cases r with
      | pushed ok =>
        have := h.goto s'.b t .idle h.tail rfl (by simp) (no hp (by simp)) (by simp)
        exact ⟨L, this.tail, this.head, this.low, this.nodup, this.mem, by rw [popped_snoc]; exact this.count⟩
      | popped v ok =>
        have ht : t ∈ L := (h.mem t).2 ⟨v, ok, hp⟩
        refine ⟨L.erase t, h.tail, h.head, fun u o hu => ?_, h.nodup.erase t, fun u => ?_, ?_⟩
        · by_cases hut : u = t
          · subst hut
            simp only [St.goto, setAt_same] at hu
            rcases hu with hu | ⟨w, hu⟩ <;> cases hu
          · simp only [St.goto, setAt_ne _ _ _ _ hut] at hu
            exact h.low u o hu
        · rw [h.nodup.mem_erase_iff]
          by_cases hut : u = t
          · subst hut
            simp [St.goto, setAt_same]
          · simp only [St.goto, setAt_ne _ _ _ _ hut, ne_eq, hut, not_false_eq_true, true_and]
            exact h.mem u
        · have h1 := h.count
          have h2 := List.length_erase_of_mem ht
          have h3 : 0 < L.length := List.length_pos_of_mem ht
          rw [popped_snoc]
          simp only [St.goto]
          omega

/-- C148: whatever happens, no ring buffer ever gives out 2^64 values: `MustPop` returns at most 2^64 - 1 times. -/
theorem C148_pops (k : Nat) {τ : List (Ev (Op V) (Ret V))} {s : St V} (h : Exec Step (start k) τ s) : popped τ < 2 ^ 64 := by
  obtain ⟨L, h⟩ := popInv_exec h
  have h1 := h.count
  have h2 := h.head
  have : (2 : Nat) ^ 64 = W := by decide
  omega

/-! ## One goroutine, until the counters run over -/

/-- Nobody is inside a call; `n` values have come out, `m` have gone in, modulo 2^64. -/
structure Quiet (k n m : Nat) (s : St V) : Prop where
  head : s.b.head = n
  headR : s.b.headR = n
  tail : s.b.tail = m
  tailR : s.b.tailR = m
  mask : s.b.mask = 2 ^ k - 1
  len : s.b.d.length = 2 ^ k
  idle : ∀ t, s.pc t = .idle

theorem quiet_push {k n m : Nat} {s : St V} (h : Quiet k n m s) (v : V) (hw : (m + 1) % W ≤ (n + 2 ^ k) % W) :
    ∃ s', Exec Step s [.call 0 (.mustPush v), .ret 0 (.pushed true)] s' ∧ Quiet k n ((m + 1) % W) s' := by
  obtain ⟨⟨hd, hr, tl, tr, mk, d⟩, pc⟩ := s
  obtain ⟨h1, h2, h3, h4, h5, h6, h7⟩ := h
  simp only at h1 h2 h3 h4 h5 h6 h7
  have g1 := h1.symm
  have g2 := h2.symm
  have g3 := h3.symm
  have g4 := h4.symm
  have g5 := h5.symm
  subst g1 g2 g3 g4 g5
  have hpos : 0 < 2 ^ k := Nat.two_pow_pos k
  have hi : m &&& (2 ^ k - 1) < d.length := by
    rw [h6, Nat.and_two_pow_sub_one_eq_mod]; exact Nat.mod_lt _ hpos
  have e1 := Step.callPush ⟨⟨n, n, m, m, 2 ^ k - 1, d⟩, pc⟩ 0 v (h7 0)
  have e2 := Step.puAdd ⟨⟨n, n, m, m, 2 ^ k - 1, d⟩, setAt pc 0 (.puAdd v)⟩ 0 v (by simp only [setAt_same])
  have e3 := Step.puWait ⟨⟨n, n, m, (m + 1) % W, 2 ^ k - 1, d⟩, setAt (setAt pc 0 (.puAdd v)) 0 (.puWait v m)⟩ 0 v m (by simp only [setAt_same])
  rw [if_neg (by simp only; rw [Nat.add_assoc, Nat.sub_add_cancel hpos]; omega)] at e3
  have e4 := Step.puWrite ⟨⟨n, n, m, (m + 1) % W, 2 ^ k - 1, d⟩,
    setAt (setAt (setAt pc 0 (.puAdd v)) 0 (.puWait v m)) 0 (.puWrite v m)⟩ 0 v m (by simp only [setAt_same])
  simp only [Go.set, if_pos hi] at e4
  have e5 := Step.puCas ⟨⟨n, n, m, (m + 1) % W, 2 ^ k - 1, d.set (m &&& (2 ^ k - 1)) v⟩,
    setAt (setAt (setAt (setAt pc 0 (.puAdd v)) 0 (.puWait v m)) 0 (.puWrite v m)) 0 (.puCas v m)⟩ 0 v m (by simp only [setAt_same])
  simp only [if_true] at e5
  have e6 := Step.ret ⟨⟨n, n, (m + 1) % W, (m + 1) % W, 2 ^ k - 1, d.set (m &&& (2 ^ k - 1)) v⟩,
    setAt (setAt (setAt (setAt (setAt pc 0 (.puAdd v)) 0 (.puWait v m)) 0 (.puWrite v m)) 0 (.puCas v m)) 0 (.ret (.pushed true))⟩
    0 (.pushed true) (by simp only [setAt_same])
  refine ⟨_, .visible (.silent (.silent (.silent (.silent (.visible (.refl _) e1) e2) e3) e4) e5) e6,
    rfl, rfl, rfl, rfl, rfl, by simp only [St.goto, List.length_set, h6], fun t => ?_⟩
  simp only [St.goto]
  by_cases ht : t = 0
  · subst ht; rw [setAt_same]
  · simp only [setAt_ne _ _ _ _ ht]; exact h7 t

theorem quiet_pop {k n m : Nat} {s : St V} (h : Quiet k n m s) (hw : n < m) :
    ∃ s' v, Exec Step s [.call 0 .mustPop, .ret 0 (.popped v true)] s' ∧ Quiet k ((n + 1) % W) m s' := by
  obtain ⟨⟨hd, hr, tl, tr, mk, d⟩, pc⟩ := s
  obtain ⟨h1, h2, h3, h4, h5, h6, h7⟩ := h
  simp only at h1 h2 h3 h4 h5 h6 h7
  have g1 := h1.symm
  have g2 := h2.symm
  have g3 := h3.symm
  have g4 := h4.symm
  have g5 := h5.symm
  subst g1 g2 g3 g4 g5
  have hpos : 0 < 2 ^ k := Nat.two_pow_pos k
  have hi : n &&& (2 ^ k - 1) < d.length := by
    rw [h6, Nat.and_two_pow_sub_one_eq_mod]; exact Nat.mod_lt _ hpos
  obtain ⟨v, hv⟩ : ∃ v, d[n &&& (2 ^ k - 1)]? = some v := ⟨_, List.getElem?_eq_getElem hi⟩
  have e1 := Step.callPop ⟨⟨n, n, m, m, 2 ^ k - 1, d⟩, pc⟩ 0 (h7 0)
  have e2 := Step.poAdd ⟨⟨n, n, m, m, 2 ^ k - 1, d⟩, setAt pc 0 .poAdd⟩ 0 (by simp only [setAt_same])
  have e3 := Step.poWait ⟨⟨n, (n + 1) % W, m, m, 2 ^ k - 1, d⟩, setAt (setAt pc 0 .poAdd) 0 (.poWait n)⟩ 0 n (by simp only [setAt_same])
  rw [if_neg (by simp only; omega)] at e3
  have e4 := Step.poRead ⟨⟨n, (n + 1) % W, m, m, 2 ^ k - 1, d⟩,
    setAt (setAt (setAt pc 0 .poAdd) 0 (.poWait n)) 0 (.poRead n)⟩ 0 n (by simp only [setAt_same])
  simp only [Go.get, hv] at e4
  have e5 := Step.poCas ⟨⟨n, (n + 1) % W, m, m, 2 ^ k - 1, d⟩,
    setAt (setAt (setAt (setAt pc 0 .poAdd) 0 (.poWait n)) 0 (.poRead n)) 0 (.poCas n v)⟩ 0 n v (by simp only [setAt_same])
  simp only [if_true] at e5
  have e6 := Step.ret ⟨⟨(n + 1) % W, (n + 1) % W, m, m, 2 ^ k - 1, d⟩,
    setAt (setAt (setAt (setAt (setAt pc 0 .poAdd) 0 (.poWait n)) 0 (.poRead n)) 0 (.poCas n v)) 0 (.ret (.popped v true))⟩
    0 (.popped v true) (by simp only [setAt_same])
  refine ⟨_, v, .visible (.silent (.silent (.silent (.silent (.visible (.refl _) e1) e2) e3) e4) e5) e6,
    rfl, rfl, rfl, rfl, rfl, by simp only [St.goto, h6], fun t => ?_⟩
  simp only [St.goto]
  by_cases ht : t = 0
  · subst ht; rw [setAt_same]
  · simp only [setAt_ne _ _ _ _ ht]; exact h7 t

/-- `j` times push and pop. -/
theorem quiet_pairs (k : Nat) (v : V) : ∀ j, j + 2 ^ k ≤ W →
    ∃ (τ : List (Ev (Op V) (Ret V))) (s : St V), Exec Step (start k) τ s ∧ Quiet k j j s ∧ pushed τ = j ∧ popped τ = j ∧ CallsBy (· = 0) τ
  | 0, _ => ⟨[], _, .refl _, ⟨rfl, rfl, rfl, rfl, rfl, by simp [start], fun _ => rfl⟩, rfl, rfl, by intro t op h; simp at h⟩
  | j + 1, hj => by
    have hpos : 0 < 2 ^ k := Nat.two_pow_pos k
    obtain ⟨τ, s, h1, h2, h3, h4, h5⟩ := quiet_pairs k v j (by omega)
    have hm : (j + 1) % W = j + 1 := Nat.mod_eq_of_lt (by omega)
    obtain ⟨s1, p1, q1⟩ := quiet_push h2 v (by rw [hm, Nat.mod_eq_of_lt (by omega)]; omega)
    obtain ⟨s2, w, p2, q2⟩ := quiet_pop q1 (by omega)
    rw [hm] at q2
    refine ⟨_, s2, (h1.trans p1).trans p2, q2, ?_, ?_, ?_⟩
    · simp [pushed, List.countP_append] at h3 ⊢; omega
    · simp [popped, List.countP_append] at h4 ⊢; omega
    · intro t op hm
      simp only [List.mem_append, List.mem_cons, List.not_mem_nil, or_false] at hm
      rcases hm with (hm | hm | hm) | hm | hm
      · exact h5 t op hm
      all_goals cases hm <;> rfl

/-- Nothing moves any more. -/
structure Dead (k : Nat) (s : St V) : Prop where
  head : s.b.head + 2 ^ k = W
  tail : s.b.tail = if k = 0 then 0 else s.b.head
  mask : s.b.mask = 2 ^ k - 1
  headR : s.b.headR < W
  tailR : s.b.tailR < W
  pcs : ∀ t, match s.pc t with
    | .puWait _ o => o < W
    | .puWrite _ o | .puCas _ o => o = W - 1
    | .poRead o | .poCas o _ => o < s.b.tail
    | .ret _ => False
    | _ => True

theorem Dead.goto {k : Nat} {s : St V} (h : Dead k s) (t : Nat) (p : PC V) (b : B V) (h1 : b.head = s.b.head) (h2 : b.tail = s.b.tail)
    (h3 : b.mask = s.b.mask) (h4 : b.headR < W) (h5 : b.tailR < W)
    (hp : match p with
      | .puWait _ o => o < W
      | .puWrite _ o | .puCas _ o => o = W - 1
      | .poRead o | .poCas o _ => o < s.b.tail
      | .ret _ => False
      | _ => True) : Dead k ⟨b, setAt s.pc t p⟩ := by
  refine ⟨by rw [h1]; exact h.head, by rw [h1, h2]; exact h.tail, by rw [h3]; exact h.mask, h4, h5, fun u => ?_⟩
  simp only [h2]
  by_cases hu : u = t
  · subst hu; rw [setAt_same]; exact hp
  · rw [setAt_ne _ _ _ _ hu]; exact h.pcs u

theorem dead_step {k : Nat} {s s' : St V} {e : Option (Ev (Op V) (Ret V))} (h : Dead k s) (hs : Step s e s') :
    Dead k s' ∧ ∀ t r, e ≠ some (.ret t r) := by
  have hW : 0 < W := by decide
  have hpos : 0 < 2 ^ k := Nat.two_pow_pos k
  have hh := h.head
  cases hs with
  | callPush t v hp => exact ⟨h.goto t _ _ rfl rfl rfl h.headR h.tailR trivial, by simp⟩
  | puAdd t v hp => exact ⟨h.goto t _ _ rfl rfl rfl h.headR (Nat.mod_lt _ hW) h.tailR, by simp⟩
  | puWait t v old hp =>
    have ho := h.pcs t
    rw [hp] at ho
    simp only at ho
    refine ⟨?_, by simp⟩
    have hz : (s.b.head + s.b.mask + 1) % W = 0 := by
      rw [h.mask, Nat.add_assoc, Nat.sub_add_cancel hpos, hh, Nat.mod_self]
    rw [hz]
    split
    · exact h.goto t _ _ rfl rfl rfl h.headR h.tailR ho
    · next hc =>
      refine h.goto t _ _ rfl rfl rfl h.headR h.tailR ?_
      simp only
      by_cases hlt : old + 1 < W
      · rw [Nat.mod_eq_of_lt hlt] at hc; omega
      · omega
  | puWrite t v old hp =>
    have ho := h.pcs t
    rw [hp] at ho
    refine ⟨?_, by simp⟩
    split
    · exact h.goto t _ _ rfl rfl rfl h.headR h.tailR ho
    · exact h.goto t _ _ rfl rfl rfl h.headR h.tailR trivial
  | puCas t v old hp =>
    have ho := h.pcs t
    rw [hp] at ho
    simp only at ho
    refine ⟨?_, by simp⟩
    rw [if_neg]
    · exact h
    · rw [h.tail, ho]
      split
      · have : 1 < W := by decide
        omega
      · next hk =>
        have : 2 ≤ 2 ^ k := by
          calc 2 = 2 ^ 1 := rfl
            _ ≤ 2 ^ k := Nat.pow_le_pow_right (by decide) (by omega)
        omega
  | callPop t hp => exact ⟨h.goto t _ _ rfl rfl rfl h.headR h.tailR trivial, by simp⟩
  | poAdd t hp => exact ⟨h.goto t _ _ rfl rfl rfl (Nat.mod_lt _ hW) h.tailR trivial, by simp⟩
  | poWait t old hp =>
    refine ⟨?_, by simp⟩
    split
    · exact h.goto t _ _ rfl rfl rfl h.headR h.tailR trivial
    · exact h.goto t _ _ rfl rfl rfl h.headR h.tailR (by simp only; omega)
  | poRead t old hp =>
    have ho := h.pcs t
    rw [hp] at ho
    refine ⟨?_, by simp⟩
    split
    · exact h.goto t _ _ rfl rfl rfl h.headR h.tailR ho
    · exact h.goto t _ _ rfl rfl rfl h.headR h.tailR trivial
  | poCas t old v hp =>
    have ho := h.pcs t
    rw [hp] at ho
    simp only at ho
    refine ⟨?_, by simp⟩
    rw [if_neg]
    · exact h
    · rw [h.tail] at ho
      split at ho <;> omega
  | ret t r hp =>
    have ho := h.pcs t
    rw [hp] at ho
    exact ho.elim

theorem dead_exec {k : Nat} {s s' : St V} {τ : List (Ev (Op V) (Ret V))} (h : Dead k s) (hs : Exec Step s τ s') :
    Dead k s' ∧ ∀ t r, .ret t r ∉ τ := by
  induction hs with
  | refl => exact ⟨h, by simp⟩
  | silent _ hs ih => exact ⟨(dead_step ih.1 hs).1, ih.2⟩
  | visible _ hs ih =>
    refine ⟨(dead_step ih.1 hs).1, fun t r hm => ?_⟩
    rcases List.mem_append.1 hm with hm | hm
    · exact ih.2 t r hm
    · rw [List.mem_singleton] at hm
      exact (dead_step ih.1 hs).2 t r (by rw [hm])

/-- C148: a single goroutine that pushes and pops in turn brings the buffer to a halt before 2^64 values have gone through: nobody is
inside a call then, but no call of anybody ever returns again.  A buffer with several slots is empty then, one with a single slot holds a
value. -/
theorem C148_halt (k : Nat) (hk : k < 64) (v : V) :
    ∃ (τ : List (Ev (Op V) (Ret V))) (s : St V), Exec Step (start k) τ s ∧ CallsBy (· = 0) τ ∧ (∀ t, s.pc t = .idle) ∧ popped τ + 2 ^ k = 2 ^ 64 ∧
      pushed τ = popped τ + (if k = 0 then 1 else 0) ∧
      ∀ σ s', Exec Step s σ s' → ∀ t r, .ret t r ∉ σ := by
  have hW : W = 2 ^ 64 := by decide
  have hle : 2 ^ k ≤ W := by rw [hW]; exact Nat.pow_le_pow_right (by decide) (by omega)
  have hpos : 0 < 2 ^ k := Nat.two_pow_pos k
  obtain ⟨τ, s, h1, h2, h3, h4, h5⟩ := quiet_pairs k v (W - 2 ^ k) (by omega)
  by_cases h0 : k = 0
  · subst h0
    obtain ⟨s1, p1, q1⟩ := quiet_push h2 v (by simp)
    refine ⟨_, s1, h1.trans p1, ?_, q1.idle, ?_, ?_, fun σ s' hs => (dead_exec (k := 0) ?_ hs).2⟩
    · intro t op hm
      simp only [List.mem_append, List.mem_cons, List.not_mem_nil, or_false] at hm
      rcases hm with hm | hm | hm
      · exact h5 t op hm
      all_goals cases hm <;> rfl
    · simp [popped, List.countP_append] at h4 ⊢
      omega
    · simp [popped, pushed, List.countP_append] at h3 h4 ⊢
      omega
    · refine ⟨by rw [q1.head]; omega, by rw [q1.tail, if_pos rfl, show W - 2 ^ 0 + 1 = W by omega, Nat.mod_self], q1.mask, ?_, ?_, fun t => by rw [q1.idle t]; trivial⟩
      · rw [q1.headR]; omega
      · rw [q1.tailR]; exact Nat.mod_lt _ (by omega)
  · refine ⟨τ, s, h1, h5, h2.idle, by omega, by rw [if_neg h0]; omega, fun σ s' hs => (dead_exec (k := k) ?_ hs).2⟩
    exact ⟨by rw [h2.head]; omega, by rw [h2.tail, if_neg h0, h2.head], h2.mask, by rw [h2.headR]; omega, by rw [h2.tailR]; omega,
      fun t => by rw [h2.idle t]; trivial⟩

/-- C148: and in a buffer with one slot, as `Init` makes them, `MustPush` puts a second value over the first instead of waiting. -/
theorem C148_overwrite (v : V) :
    ∃ (τ : List (Ev (Op V) (Ret V))) (s : St V), Exec Step (start 0) τ s ∧ CallsBy (· = 0) τ ∧ (∀ t, s.pc t = .idle) ∧ pushed τ = popped τ + 2 := by
  have hW : 2 < W := by decide
  obtain ⟨τ, s, h1, h2, h3, h4, h5⟩ := quiet_pairs 0 v (W - 2) (by omega)
  have e1 : (W - 2 + 1) % W = W - 1 := by rw [Nat.mod_eq_of_lt (by omega)]; omega
  obtain ⟨s1, p1, q1⟩ := quiet_push h2 v (by simp)
  rw [e1] at q1
  have e2 : (W - 1 + 1) % W = 0 := by rw [Nat.sub_add_cancel (by omega), Nat.mod_self]
  obtain ⟨s2, p2, q2⟩ := quiet_push q1 v (by rw [e2]; exact Nat.zero_le _)
  refine ⟨_, s2, (h1.trans p1).trans p2, ?_, q2.idle, ?_⟩
  · intro t op hm
    simp only [List.mem_append, List.mem_cons, List.not_mem_nil, or_false] at hm
    rcases hm with (hm | hm | hm) | hm | hm
    · exact h5 t op hm
    all_goals cases hm <;> rfl
  · simp [popped, pushed, List.countP_append] at h3 h4 ⊢
    omega

/-! ## Concrete cases -/

/-- C148_fewer_partial: a goroutine pushes into a buffer of two slots. -/
example : ∃ τ s, Exec Step (start 1 : St Nat) τ s ∧ CallsBy (· ∈ ({0} : Finset Nat)) τ ∧ pushes τ + 2 ^ 1 < 2 ^ 64 ∧ pops τ + 1 < 2 ^ 64 ∧
    pushed τ = 1 := by
  obtain ⟨s, h, -⟩ := quiet_push (k := 1) (n := 0) (m := 0) (s := (start 1 : St Nat)) ⟨rfl, rfl, rfl, rfl, rfl, rfl, fun _ => rfl⟩ 5 (by decide)
  refine ⟨_, s, h, ?_, by decide, by decide, by decide⟩
  intro t op hm
  simp at hm
  simp [hm]

/-- C148_halt: buffers of one slot, as `Init` makes them. -/
example := C148_halt 0 (by decide) (7 : Nat)

end Verif.RingBuffer
