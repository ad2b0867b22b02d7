import Verif.Spec.Handover
import Verif.Lemmas.RaceAll
import Mathlib.Tactic.Choose
/-!
# The order of events and accesses along an execution
-/

namespace Verif.Spec
variable {Op Ret L V : Type}

/-- Position `i` happens before whatever goroutine `t` does next. -/
def Kn (τ : List (Lab (Ev Op Ret) L)) (t i : Nat) : Prop := Known (τ.map Lab.asAcc) t i

/-- Position `i` happens before whatever observes location `x` next. -/
def Ps (τ : List (Lab (Ev Op Ret) L)) (x : L) (i : Nat) : Prop := Passed (τ.map Lab.asAcc) (some x) i

/-- Position `i` is the call that puts `v` in. -/
def PutAt (put : V → Op) (τ : List (Lab (Ev Op Ret) L)) (i : Nat) (v : V) : Prop := ∃ u, τ[i]? = some (.ev (.call u (put v)))

theorem lab_get {τ : List (Lab (Ev Op Ret) L)} {i : Nat} {a l : Lab (Ev Op Ret) L} (h : τ[i]? = some a) : (τ ++ [l])[i]? = some a := by
  rw [List.getElem?_append_left (List.getElem?_eq_some_iff.mp h).1]
  exact h

theorem lab_split {τ : List (Lab (Ev Op Ret) L)} {i : Nat} {a l : Lab (Ev Op Ret) L} (h : (τ ++ [l])[i]? = some a) :
    τ[i]? = some a ∨ (i = τ.length ∧ a = l) := by
  by_cases hi : i < τ.length
  · rw [List.getElem?_append_left hi] at h
    exact .inl h
  · have : i = τ.length := by
      have := (List.getElem?_eq_some_iff.mp h).1
      simp at this; omega
    subst this
    simp at h
    exact .inr ⟨rfl, h.symm⟩

theorem putAt_mono {put : V → Op} {τ : List (Lab (Ev Op Ret) L)} {i : Nat} {v : V} {l : Lab (Ev Op Ret) L} (h : PutAt put τ i v) :
    PutAt put (τ ++ [l]) i v := by
  obtain ⟨u, hu⟩ := h
  exact ⟨u, lab_get hu⟩

theorem kn_mono {τ : List (Lab (Ev Op Ret) L)} {l : Lab (Ev Op Ret) L} {t i : Nat} (h : Kn τ t i) : Kn (τ ++ [l]) t i := by
  unfold Kn
  rw [List.map_append]
  exact known_mono h

theorem ps_mono {τ : List (Lab (Ev Op Ret) L)} {l : Lab (Ev Op Ret) L} {x : L} {i : Nat}
    (hw : ∀ a, l = .acc a → a.loc = x → a.kind = .rmw ∨ a.kind.writes = false) (h : Ps τ x i) : Ps (τ ++ [l]) x i := by
  unfold Ps
  rw [List.map_append]
  refine passed_mono (fun hx => ?_) h
  cases l with
  | ev e => exact .inr rfl
  | acc a => exact hw a rfl (by simpa [Lab.asAcc] using hx)

theorem evBefore_mono {τ : List (Lab (Ev Op Ret) L)} {l : Lab (Ev Op Ret) L} {i j : Nat} (hj : j < τ.length) (h : EvBefore τ i j) :
    EvBefore (τ ++ [l]) i j := by
  unfold EvBefore
  rw [List.map_append]
  exact (hb_append (by simpa using hj)).mpr h

/-- The goroutine knows what it has just done. -/
theorem kn_self {τ : List (Lab (Ev Op Ret) L)} (e : Ev Op Ret) : Kn (τ ++ [.ev e]) e.by τ.length := by
  unfold Kn
  rw [List.map_append]
  exact known_append.mpr (.inr ⟨rfl, .inl (by simp)⟩)

/-- Observing a location. -/
theorem kn_obs {τ : List (Lab (Ev Op Ret) L)} {t i : Nat} {k : AccKind} {x : L} (hk : k.observes = true) (h : Ps τ x i) :
    Kn (τ ++ [.acc ⟨t, k, x⟩]) t i := by
  unfold Kn
  rw [List.map_append]
  exact known_append.mpr (.inr ⟨rfl, .inr ⟨hk, h⟩⟩)

/-- Writing a location atomically. -/
theorem ps_pub {τ : List (Lab (Ev Op Ret) L)} {t i : Nat} {k : AccKind} {x : L} (ha : k.atomic = true) (hk : k.writes = true)
    (h : Kn τ t i) : Ps (τ ++ [.acc ⟨t, k, x⟩]) x i := by
  unfold Ps
  rw [List.map_append]
  exact passed_append.mpr (.inl ⟨rfl, hk, ha, known_mono h⟩)

/-- What is known happens before the next thing. -/
theorem evBefore_last {τ : List (Lab (Ev Op Ret) L)} {l : Lab (Ev Op Ret) L} {i : Nat} (h : Kn τ l.asAcc.t i) :
    EvBefore (τ ++ [l]) i τ.length := by
  unfold EvBefore
  rw [List.map_append]
  have := (hb_last (τ := τ.map Lab.asAcc) (a := l.asAcc) (i := i)).mpr (.inl h)
  simpa using this

/-- What is passed on happens before what observes it. -/
theorem evBefore_obs {τ : List (Lab (Ev Op Ret) L)} {t i : Nat} {k : AccKind} {x : L} (hk : k.observes = true) (h : Ps τ x i) :
    EvBefore (τ ++ [.acc ⟨t, k, x⟩]) i τ.length := by
  unfold EvBefore
  rw [List.map_append]
  have := (hb_last (τ := τ.map Lab.asAcc) (a := (Lab.acc ⟨t, k, x⟩ : Lab (Ev Op Ret) L).asAcc) (i := i)).mpr (.inr ⟨hk, h⟩)
  simpa using this

/-- Who has a value that was put in: nobody yet, the goroutine that has taken it and not yet returned, or the return at a position. -/
inductive Holder where
  | free
  | taker (t : Nat)
  | gone (j : Nat)

/-- The ghost bookkeeping shows that values are handed over: item `n` was put in at `mk n` and went away at `j` if `hd n = gone j`. -/
theorem handsOver_ghost {put : V → Op} {took : V → Ret} {τ : List (Lab (Ev Op Ret) L)} (ok : Nat → Prop) (mk : Nat → Nat)
    (hd : Nat → Holder) (inj : ∀ n m, ok n → ok m → mk n = mk m → n = m)
    (done : ∀ j t v, τ[j]? = some (.ev (.ret t (took v))) → ∃ n, ok n ∧ hd n = .gone j ∧ PutAt put τ (mk n) v ∧ EvBefore τ (mk n) j)
    (hto : ∀ v w, took v = took w → v = w) : HandsOver put took τ := by
  classical
  have key : ∀ j, ∃ i, ∀ t v, τ[j]? = some (.ev (.ret t (took v))) →
      PutAt put τ i v ∧ EvBefore τ i j ∧ ∃ n, ok n ∧ hd n = .gone j ∧ mk n = i := by
    intro j
    by_cases hj : ∃ t v, τ[j]? = some (.ev (.ret t (took v)))
    · obtain ⟨t, v, hj⟩ := hj
      obtain ⟨n, h1, h2, h3, h4⟩ := done j t v hj
      refine ⟨mk n, fun t' v' hj' => ?_⟩
      rw [hj] at hj'
      simp only [Option.some.injEq, Lab.ev.injEq, Ev.ret.injEq] at hj'
      rw [← hto v v' hj'.2]
      exact ⟨h3, h4, n, h1, h2, rfl⟩
    · exact ⟨0, fun t v h => absurd ⟨t, v, h⟩ hj⟩
  choose src hsrc using key
  refine ⟨src, fun j t v hj => ⟨(hsrc j t v hj).1, (hsrc j t v hj).2.1⟩, fun j j' t t' v v' hj hj' e => ?_⟩
  obtain ⟨n, h1, h2, h3⟩ := (hsrc j t v hj).2.2
  obtain ⟨m, g1, g2, g3⟩ := (hsrc j' t' v' hj').2.2
  have := inj n m h1 g1 (by rw [h3, g3, e])
  rw [this, g2] at h2
  exact (Holder.gone.inj h2).symm

/-- The number of accesses before a position. -/
def accPos (τ : List (Lab (Ev Op Ret) L)) (i : Nat) : Nat := (accs (τ.take i)).length

theorem accs_snoc_ev (τ : List (Lab (Ev Op Ret) L)) (e : Ev Op Ret) : accs (τ ++ [.ev e]) = accs τ := by simp [accs]

theorem accs_snoc_acc (τ : List (Lab (Ev Op Ret) L)) (a : Acc L) : accs (τ ++ [.acc a]) = accs τ ++ [a] := by simp [accs]

theorem accPos_append {τ : List (Lab (Ev Op Ret) L)} {l : Lab (Ev Op Ret) L} {i : Nat} (h : i ≤ τ.length) :
    accPos (τ ++ [l]) i = accPos τ i := by
  unfold accPos
  rw [List.take_append_of_le_length h]

theorem accPos_len (τ : List (Lab (Ev Op Ret) L)) : accPos τ τ.length = (accs τ).length := by
  unfold accPos
  rw [List.take_length]

theorem accPos_lt {τ : List (Lab (Ev Op Ret) L)} {i : Nat} {a : Acc L} (h : τ[i]? = some (.acc a)) : accPos τ i < (accs τ).length := by
  induction τ using List.reverseRecOn with
  | nil => simp at h
  | append_singleton τ l ih =>
    rcases lab_split h with h | ⟨rfl, rfl⟩
    · rw [accPos_append (by have := (List.getElem?_eq_some_iff.mp h).1; omega)]
      have := ih h
      cases l <;> simp [accs_snoc_ev, accs_snoc_acc] <;> omega
    · rw [accPos_append (Nat.le_refl _), accPos_len, accs_snoc_acc]
      simp

theorem kn_ps_accs {τ : List (Lab (Ev Op Ret) L)} : ∀ {i : Nat} {a : Acc L}, τ[i]? = some (.acc a) →
    (∀ t, Kn τ t i ↔ Known (accs τ) t (accPos τ i)) ∧ ∀ x, Ps τ x i ↔ Passed (accs τ) x (accPos τ i) := by
  induction τ using List.reverseRecOn with
  | nil => intro i a h; simp at h
  | append_singleton τ l ih =>
    intro i a h
    rcases lab_split h with h | ⟨rfl, rfl⟩
    · have hi := (List.getElem?_eq_some_iff.mp h).1
      have hp := accPos_lt h
      obtain ⟨hk, hps⟩ := ih h
      rw [accPos_append (by omega)]
      cases l with
      | ev e =>
        rw [accs_snoc_ev]
        constructor
        · intro t
          rw [← hk]
          refine ⟨fun h => ?_, kn_mono⟩
          unfold Kn at h ⊢
          rw [List.map_append] at h
          rcases known_append.mp h with h | ⟨_, h | ⟨h, _⟩⟩
          · exact h
          · simp at h; omega
          · cases h
        · intro x
          rw [← hps]
          unfold Ps
          rw [List.map_append]
          constructor
          · intro h
            rcases passed_append.mp h with ⟨_, h, _⟩ | ⟨_, h⟩
            · cases h
            · exact h
          · intro h
            exact passed_append.mpr (.inr ⟨(fun h => nomatch h.2), h⟩)
      | acc b =>
        rw [accs_snoc_acc]
        have key : ∀ t, Kn (τ ++ [.acc b]) t i ↔ Known (accs τ ++ [b]) t (accPos τ i) := by
          intro t
          unfold Kn
          rw [List.map_append]
          simp only [List.map_cons, List.map_nil]
          rw [known_append, known_append]
          have e1 : Known (τ.map Lab.asAcc) t i ↔ Known (accs τ) t (accPos τ i) := hk t
          have e2 : Passed (τ.map Lab.asAcc) (some b.loc) i ↔ Passed (accs τ) b.loc (accPos τ i) := hps b.loc
          have e3 : i ≠ (τ.map Lab.asAcc).length := by simp; omega
          have e4 : accPos τ i ≠ (accs τ).length := by omega
          simp only [Lab.asAcc, e1, e2, e3, e4, false_or]
        refine ⟨key, fun x => ?_⟩
        have hkey : Known (τ.map Lab.asAcc ++ [Lab.asAcc (.acc b : Lab (Ev Op Ret) L)]) b.t i ↔ Known (accs τ ++ [b]) b.t (accPos τ i) := by
          have := key b.t
          unfold Kn at this
          rwa [List.map_append] at this
        unfold Ps
        rw [List.map_append]
        simp only [List.map_cons, List.map_nil]
        rw [passed_append, passed_append]
        have e2 : Passed (τ.map Lab.asAcc) (some x) i ↔ Passed (accs τ) x (accPos τ i) := hps x
        have e5 : (Lab.asAcc (.acc b : Lab (Ev Op Ret) L)).t = b.t := rfl
        rw [e5, hkey, e2]
        simp only [Lab.asAcc, Option.some.injEq]
    · rw [accPos_append (Nat.le_refl _), accPos_len, accs_snoc_acc]
      have key : ∀ t, Kn (τ ++ [.acc a]) t τ.length ↔ Known (accs τ ++ [a]) t (accs τ).length := by
        intro t
        have no : ∀ {L : Type} {σ : List (Acc L)} {t : Nat}, ¬ Known σ t σ.length := by
          rintro L σ t ⟨j, b, hb, _, h | h⟩
          · have := getElem?_lt hb; omega
          · have := getElem?_lt hb; have := hb_lt h; omega
        have no' : ∀ {L : Type} {σ : List (Acc L)} {x : L}, ¬ Passed σ x σ.length := by
          rintro L σ x ⟨j, b, _, hb, _, h | h⟩
          · have := getElem?_lt hb; omega
          · have := getElem?_lt hb; have := hb_lt h; omega
        unfold Kn
        rw [List.map_append]
        simp only [List.map_cons, List.map_nil]
        have e : τ.length = (τ.map (Lab.asAcc (Op := Op) (Ret := Ret))).length := by simp
        rw [e, known_append, known_append]
        simp only [no, no', Lab.asAcc, and_false, or_false, false_or]
      refine ⟨key, fun x => ?_⟩
      have hkey : Known (τ.map Lab.asAcc ++ [Lab.asAcc (.acc a : Lab (Ev Op Ret) L)]) a.t τ.length ↔ Known (accs τ ++ [a]) a.t (accs τ).length := by
        have := key a.t
        unfold Kn at this
        rwa [List.map_append] at this
      have no' : ∀ {L : Type} {σ : List (Acc L)} {x : L}, ¬ Passed σ x σ.length := by
        rintro L σ x ⟨j, b, _, hb, _, h | h⟩
        · have := getElem?_lt hb; omega
        · have := getElem?_lt hb; have := hb_lt h; omega
      unfold Ps
      rw [List.map_append]
      simp only [List.map_cons, List.map_nil]
      rw [passed_append, passed_append]
      have e5 : (Lab.asAcc (.acc a : Lab (Ev Op Ret) L)).t = a.t := rfl
      have e6 : ¬ Passed (τ.map Lab.asAcc) (some x) τ.length := by
        have := no' (σ := τ.map Lab.asAcc) (x := some x)
        simpa using this
      rw [e5, hkey]
      simp only [Lab.asAcc, Option.some.injEq, e6, no', and_false]

theorem evBefore_accs {τ : List (Lab (Ev Op Ret) L)} : ∀ {i j : Nat} {a b : Acc L}, τ[i]? = some (.acc a) → τ[j]? = some (.acc b) →
    (EvBefore τ i j ↔ HappensBefore (accs τ) (accPos τ i) (accPos τ j)) := by
  induction τ using List.reverseRecOn with
  | nil => intro i j a b h; simp at h
  | append_singleton τ l ih =>
    intro i j a b hi hj
    rcases lab_split hj with hj' | ⟨rfl, rfl⟩
    · have hjl := (List.getElem?_eq_some_iff.mp hj').1
      have hjp := accPos_lt hj'
      have e1 : EvBefore (τ ++ [l]) i j ↔ EvBefore τ i j := by
        unfold EvBefore
        rw [List.map_append]
        exact hb_append (by simpa using hjl)
      have e2 : ∀ n, HappensBefore (accs (τ ++ [l])) n (accPos τ j) ↔ HappensBefore (accs τ) n (accPos τ j) := by
        intro n
        cases l with
        | ev e => rw [accs_snoc_ev]
        | acc c => rw [accs_snoc_acc]; exact hb_append hjp
      rw [e1, accPos_append (by omega : j ≤ τ.length), e2]
      rcases lab_split hi with hi' | ⟨rfl, rfl⟩
      · rw [accPos_append (by have := (List.getElem?_eq_some_iff.mp hi').1; omega)]
        exact ih hi' hj'
      · rw [accPos_append (Nat.le_refl _), accPos_len]
        constructor
        · intro h; have := hb_lt h; omega
        · intro h; have := hb_lt h; omega
    · rw [accPos_append (Nat.le_refl _), accPos_len, accs_snoc_acc, hb_last]
      have e1 : EvBefore (τ ++ [.acc b]) i τ.length ↔ Kn τ b.t i ∨ (b.kind.observes = true ∧ Ps τ b.loc i) := by
        unfold EvBefore
        rw [List.map_append]
        have := hb_last (τ := τ.map Lab.asAcc) (a := (.acc b : Lab (Ev Op Ret) L).asAcc) (i := i)
        rw [List.length_map] at this
        exact this
      rw [e1]
      rcases lab_split hi with hi' | ⟨rfl, h⟩
      · rw [accPos_append (by have := (List.getElem?_eq_some_iff.mp hi').1; omega), (kn_ps_accs hi').1, (kn_ps_accs hi').2]
      · cases h
        rw [← e1, ← hb_last, accPos_append (Nat.le_refl _), accPos_len]
        constructor
        · intro h; have := hb_lt h; omega
        · intro h; have := hb_lt h; omega

end Verif.Spec
