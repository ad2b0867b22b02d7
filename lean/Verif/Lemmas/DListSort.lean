import Verif.Lemmas.DList
import Verif.Spec.Order
import Verif.Spec.ListWorld
import Mathlib.Data.List.Nodup
import Mathlib.Data.List.Perm.Subperm
/-!
# Helper lemmas for the merge sort of the doubly linked list
-/

set_option linter.unusedSectionVars false

namespace Verif.DList
open Verif.Spec Verif.Cmp
variable {α : Type}

/-- "May stand before" used by `merge`. -/
def mle (lt : α → α → Bool) (v : Nat → α) (a b : Nat) : Bool := !lt (v b) (v a)

/-- Order by value, then by age. -/
def slt (lt : α → α → Bool) (v : Nat → α) (idx : Nat → Nat) (a b : Nat) : Bool :=
  lt (v a) (v b) || (!lt (v b) (v a) && decide (idx a < idx b))

def sle (lt : α → α → Bool) (v : Nat → α) (idx : Nat → Nat) (a b : Nat) : Bool := !slt lt v idx b a

theorem slt_strictWeak {lt : α → α → Bool} (hs : StrictWeak lt) (v : Nat → α) (idx : Nat → Nat) :
    StrictWeak (slt lt v idx) := by
  refine ⟨?_, ?_, ?_⟩
  · intro a; simp [slt, hs.irrefl]
  · intro a b c h1 h2
    simp only [slt, Bool.or_eq_true, Bool.and_eq_true, Bool.not_eq_true', decide_eq_true_eq] at *
    rcases h1 with h1 | ⟨h1, h1'⟩ <;> rcases h2 with h2 | ⟨h2, h2'⟩
    · exact Or.inl (hs.trans _ _ _ h1 h2)
    · left
      rcases hs.negTrans _ (v c) _ h1 with h | h
      · exact h
      · rw [h2] at h; exact absurd h (by simp)
    · left
      rcases hs.negTrans _ (v a) _ h2 with h | h
      · rw [h1] at h; exact absurd h (by simp)
      · exact h
    · right; exact ⟨hs.ge_trans h2 h1, by omega⟩
  · intro a b c h1
    simp only [slt, Bool.or_eq_true, Bool.and_eq_true, Bool.not_eq_true', decide_eq_true_eq] at *
    rcases h1 with h1 | ⟨h1, h1'⟩
    · rcases hs.negTrans _ (v b) _ h1 with h | h
      · exact Or.inl (Or.inl h)
      · exact Or.inr (Or.inl h)
    · cases hab : lt (v a) (v b) with
      | true => simp
      | false =>
        cases hbc : lt (v b) (v c) with
        | true => simp
        | false =>
          simp only [Bool.false_eq_true, false_or]
          cases hba : lt (v b) (v a) with
          | true =>
            rcases hs.negTrans _ (v c) _ hba with h | h
            · rw [hbc] at h; exact absurd h (by simp)
            · rw [h1] at h; exact absurd h (by simp)
          | false =>
            cases hcb : lt (v c) (v b) with
            | true =>
              rcases hs.negTrans _ (v a) _ hcb with h | h
              · rw [h1] at h; exact absurd h (by simp)
              · rw [hab] at h; exact absurd h (by simp)
            | false => simp; omega

theorem merge_congr {le le' : Nat → Nat → Bool} (P O : List Nat)
    (h : ∀ a ∈ P, ∀ b ∈ O, le a b = le' a b) : List.merge P O le = List.merge P O le' := by
  induction P generalizing O with
  | nil => simp
  | cons a P ihP =>
    induction O with
    | nil => simp
    | cons b O ihO =>
      rw [List.cons_merge_cons, List.cons_merge_cons, h a (by simp) b (by simp)]
      rw [ihP (b :: O) (fun x hx y hy => h x (List.mem_cons_of_mem _ hx) y hy),
        ihO (fun x hx y hy => h x hx y (List.mem_cons_of_mem _ hy))]

/-- Merging an older sorted list with a newer one gives a list sorted by value and age. -/
theorem merge_sorted {lt : α → α → Bool} (hs : StrictWeak lt) (v : Nat → α) (idx : Nat → Nat) (P O : List Nat)
    (hP : P.Pairwise fun a b => sle lt v idx a b) (hO : O.Pairwise fun a b => sle lt v idx a b)
    (ha : ∀ x ∈ P, ∀ y ∈ O, idx x < idx y) :
    (List.merge P O (mle lt v)).Pairwise fun a b => sle lt v idx a b := by
  have hc : List.merge P O (mle lt v) = List.merge P O (sle lt v idx) := by
    apply merge_congr
    intro a ha' b hb
    have := ha a ha' b hb
    simp only [mle, sle, slt]
    have h2 : decide (idx b < idx a) = false := by simp; omega
    rw [h2]; simp
  rw [hc]
  have hw := slt_strictWeak hs v idx
  apply List.pairwise_merge
  · intro a b c h1 h2
    simp only [sle, Bool.not_eq_true'] at *
    exact hw.ge_trans h2 h1
  · intro a b
    simp only [sle]
    cases h : slt lt v idx b a with
    | false => simp
    | true => simp [hw.asymm h]
  · exact hP
  · exact hO

/-- The loop of `merge`. -/
theorem mergeLoop_spec (lt : α → α → Bool) (v : Nat → α) (fuel : Nat) :
    ∀ (h : Mem α) (head ohead : Ptr) (A P O : List Nat), P.length + O.length < fuel →
      Holds h head (A ++ P) → Holds h ohead O → (∀ x ∈ A ++ P, x ∉ O) → (∀ x, (h x).val = v x) →
      ∃ h' head' ohead' M R, mergeLoop lt fuel h head ohead P.head? O.head?
          = .ok (some (h', head', ohead', R.head?)) ∧
        Holds h' head' M ∧ Holds h' ohead' R ∧ (∀ x ∈ M, x ∉ R) ∧
        M ++ R = A ++ List.merge P O (mle lt v) ∧
        (∀ y, y ∉ A ++ P → y ∉ O → h' y = h y) ∧ (∀ x, (h' x).val = v x) := by
  induction fuel with
  | zero => intro h head ohead A P O hf; omega
  | succ fuel ih =>
    intro h head ohead A P O hf hh ho hd hv
    cases P with
    | nil =>
      refine ⟨h, head, ohead, A ++ [], O, by simp [mergeLoop], hh, ho, hd, by simp, fun _ _ _ => rfl, hv⟩
    | cons p P =>
      cases O with
      | nil =>
        refine ⟨h, head, ohead, A ++ p :: P, [], by simp [mergeLoop], hh, ho, hd, by simp, fun _ _ _ => rfl, hv⟩
      | cons o O =>
        simp only [List.head?_cons]
        simp only [mergeLoop]
        rw [if_pos (show some p ≠ none ∧ some o ≠ none by simp), List.cons_merge_cons]
        simp only [rd, Res.bind_ok]
        have hF : F lt lesser (h o).val (h p).val = lt (v o) (v p) := by
          rw [hv, hv]; simp [F, lesser]
        rw [hF]
        cases hlt : lt (v o) (v p) with
        | true =>
          have hle : mle lt v p o = false := by simp [mle, hlt]
          rw [if_pos rfl, hle, if_neg (by simp)]
          have hohd : ohead = some o := ho.1
          obtain ⟨h1, ohd1, e1, hho1, n1, n2, f1, v1⟩ := remove_spec (A := []) ho
          rw [hohd] at e1
          have hh1 : Holds h1 head (A ++ p :: P) := holds_frame hh (fun x hx => f1 x (hd x hx))
          have hon : o ∉ A ++ p :: P := fun hx => hd o hx (by simp)
          obtain ⟨h2, hd2, e2, hh2, f2, v2⟩ := insertBefore_spec o hh1 hon
          have hoO : o ∉ O := (List.nodup_cons.mp ho.2.1).1
          have hho2 : Holds h2 ohd1 O := by
            refine holds_frame (l := O) hho1 (fun x hx => f2 x ?_ ?_)
            · intro hx'; exact hd x hx' (by simp [hx])
            · intro e; subst e; exact hoO hx
          have hfr : front ohd1 = O.head? := hho1.1
          have hh2' : Holds h2 hd2 ((A ++ [o]) ++ p :: P) := by simpa using hh2
          obtain ⟨h', head', ohead', M, R, e3, r1, r2, r3, r4, r5, r6⟩ :=
            ih h2 hd2 ohd1 (A ++ [o]) (p :: P) O (by simp at hf ⊢; omega) hh2' hho2
              (by
                intro x hx hxO
                simp at hx
                rcases hx with hx | rfl | rfl | hx
                · exact hd x (by simp [hx]) (by simp [hxO])
                · exact hoO hxO
                · exact hd x (by simp) (by simp [hxO])
                · exact hd x (by simp [hx]) (by simp [hxO]))
              (fun x => by rw [v2, v1, hv])
          refine ⟨h', head', ohead', M, R, ?_, r1, r2, r3, ?_, ?_, r6⟩
          · simp only [removeFront, front, hohd, e1, Res.bind_ok, e2]
            rw [← e3, ← hfr]; rfl
          · rw [r4]; simp
          · intro y hy hyo
            have hyo' : y ≠ o := fun e => hyo (by simp [e])
            rw [r5 y (by simp at hy ⊢; tauto) (by simp at hyo ⊢; tauto), f2 y hy hyo', f1 y (by simpa using hyo)]
        | false =>
          have hle : mle lt v p o = true := by simp [mle, hlt]
          rw [if_neg (by simp), hle, if_pos rfl]
          have hnext : (if (h p).next = front head then none else (h p).next) = P.head? := by
            have hr := hh.2
            have hrot := ring_rotate A (p :: P) hr
            cases P with
            | nil =>
              rw [if_pos]; rfl
              rw [front, hh.1]
              cases A with
              | nil => simpa using (ring_single hr).1
              | cons a A => simpa using ring_next_head hrot
            | cons q P =>
              have hq : (h p).next = some q := ring_next_head (by simpa using hrot)
              rw [hq, if_neg]; rfl
              rw [front, hh.1]
              have hnd := hr.1
              cases A with
              | nil => simp at hnd ⊢; tauto
              | cons a A => simp at hnd ⊢; tauto
          have hh' : Holds h head ((A ++ [p]) ++ P) := by simpa using hh
          obtain ⟨h', head', ohead', M, R, e3, r1, r2, r3, r4, r5, r6⟩ :=
            ih h head ohead (A ++ [p]) P (o :: O) (by simp at hf ⊢; omega) hh' ho
              (by intro x hx; exact hd x (by simpa using hx)) hv
          refine ⟨h', head', ohead', M, R, ?_, r1, r2, r3, ?_, ?_, r6⟩
          · rw [hnext]; exact e3
          · rw [r4]; simp
          · intro y hy hyo
            exact r5 y (by simpa using hy) hyo

/-- `merge` of two disjoint lists. -/
theorem merge_spec (lt : α → α → Bool) (v : Nat → α) (fuel : Nat) (h : Mem α) (head ohead : Ptr)
    (P O : List Nat) (hf : P.length + O.length < fuel) (hh : Holds h head P) (ho : Holds h ohead O)
    (hd : ∀ x ∈ P, x ∉ O) (hv : ∀ x, (h x).val = v x) :
    ∃ h' head', merge lt fuel h head ohead = .ok (some (h', head', none)) ∧
      Holds h' head' (List.merge P O (mle lt v)) ∧
      (∀ y, y ∉ P → y ∉ O → h' y = h y) ∧ (∀ x, (h' x).val = v x) := by
  have hcat := insertBackList_spec hh ho hd
  unfold merge
  by_cases hP : P = []
  · subst hP
    have : head = none := hh.1
    subst this
    obtain ⟨h', head', e, r, f, vl⟩ := hcat
    rw [if_pos (by simp [empty]), e]
    exact ⟨h', head', rfl, by simpa using r, f, fun x => by rw [vl, hv]⟩
  · by_cases hO : O = []
    · subst hO
      have : ohead = none := ho.1
      subst this
      obtain ⟨h', head', e, r, f, vl⟩ := hcat
      rw [if_pos (by simp [empty]), e]
      exact ⟨h', head', rfl, by simpa using r, f, fun x => by rw [vl, hv]⟩
    · obtain ⟨p, P', rfl⟩ := List.exists_cons_of_ne_nil hP
      obtain ⟨o, O', rfl⟩ := List.exists_cons_of_ne_nil hO
      have h1 : head = some p := hh.1
      have h2 : ohead = some o := ho.1
      rw [if_neg (by simp [empty, h1, h2])]
      obtain ⟨h', head', ohead', M, R, e, r1, r2, r3, r4, r5, r6⟩ :=
        mergeLoop_spec lt v fuel h head ohead [] (p :: P') (o :: O') hf (by simpa using hh) ho
          (by simpa using hd) hv
      have e' : mergeLoop lt fuel h head ohead (front head) (front ohead)
          = .ok (some (h', head', ohead', R.head?)) := by
        rw [← e]; simp [front, h1, h2]
      rw [e']
      simp only [Res.bind_ok]
      have hcat := insertBackList_spec r1 r2 r3
      simp only [List.nil_append] at r4 r5
      cases R with
      | nil =>
        have : ohead' = none := r2.1
        subst this
        rw [if_neg (by simp)]
        exact ⟨h', head', rfl, by rw [← r4]; simpa using r1, r5, r6⟩
      | cons a R =>
        obtain ⟨h2, head2, e2, s1, s2, s3⟩ := hcat
        rw [if_pos (by simp), e2]
        refine ⟨h2, head2, rfl, by rw [← r4]; exact s1, ?_, fun x => by rw [s3, r6]⟩
        intro y hyP hyO
        have hmem : ∀ z, z ∈ M ++ a :: R ↔ z ∈ p :: P' ∨ z ∈ o :: O' := by
          intro z; rw [r4, (List.merge_perm_append _).mem_iff, List.mem_append]
        have hy : y ∉ M ++ a :: R := by rw [hmem]; exact fun h => h.elim hyP hyO
        rw [s2 y (fun hx => hy (by simp [hx])) (fun hx => hy (List.mem_append_right _ hx)), r5 y hyP hyO]

/-- The bins of the merge sort: each bin is a sorted ring, and the nodes in higher bins are older. -/
structure Bins (lt : α → α → Bool) (v : Nat → α) (idx : Nat → Nat) (h : Mem α) (bins : List Ptr)
    (BL : Nat → List Nat) : Prop where
  len : bins.length = 64
  hold : ∀ j b, bins[j]? = some b → Holds h b (BL j)
  out : ∀ j, 64 ≤ j → BL j = []
  sorted : ∀ j, (BL j).Pairwise fun a b => sle lt v idx a b
  age : ∀ j k x y, j < k → x ∈ BL j → y ∈ BL k → idx y < idx x

theorem Bins.disj {lt : α → α → Bool} {v : Nat → α} {idx : Nat → Nat} {h : Mem α} {bins : List Ptr}
    {BL : Nat → List Nat} (hB : Bins lt v idx h bins BL) {j k x : Nat} (h1 : x ∈ BL j) (h2 : x ∈ BL k) : j = k := by
  rcases Nat.lt_trichotomy j k with h | h | h
  · exact absurd (hB.age j k x x h h1 h2) (by omega)
  · exact h
  · exact absurd (hB.age k j x x h h2 h1) (by omega)

/-- Replace one bin. -/
theorem Bins.set {lt : α → α → Bool} {v : Nat → α} {idx : Nat → Nat} {h h' : Mem α} {bins : List Ptr}
    {BL : Nat → List Nat} (hB : Bins lt v idx h bins BL) (i : Nat) (hi : i < 64) (b : Ptr) (L : List Nat)
    (hL : Holds h' b L) (hsL : L.Pairwise fun a b => sle lt v idx a b)
    (hf : ∀ j, j ≠ i → ∀ x ∈ BL j, h' x = h x)
    (ha1 : ∀ j x y, j < i → x ∈ BL j → y ∈ L → idx y < idx x)
    (ha2 : ∀ k x y, i < k → x ∈ L → y ∈ BL k → idx y < idx x) :
    Bins lt v idx h' (bins.set i b) (setAt BL i L) := by
  refine ⟨by simp [hB.len], ?_, ?_, ?_, ?_⟩
  · intro j c hc
    by_cases hj : j = i
    · subst hj
      rw [List.getElem?_set_self (by rw [hB.len]; exact hi)] at hc
      cases hc
      simpa [setAt] using hL
    · rw [List.getElem?_set_ne (Ne.symm hj)] at hc
      have := hB.hold j c hc
      simp only [setAt, if_neg hj]
      exact holds_frame this (hf j hj)
  · intro j hj
    have : j ≠ i := by omega
    simp only [setAt, if_neg this]
    exact hB.out j hj
  · intro j
    by_cases hj : j = i
    · simp only [setAt, if_pos hj]; exact hsL
    · simp only [setAt, if_neg hj]; exact hB.sorted j
  · intro j k x y hjk hx hy
    by_cases hj : j = i <;> by_cases hk : k = i
    · omega
    · simp only [setAt, if_pos hj, if_neg hk] at hx hy
      subst hj; exact ha2 k x y hjk hx hy
    · simp only [setAt, if_neg hj, if_pos hk] at hx hy
      subst hk; exact ha1 j x y hjk hx hy
    · simp only [setAt, if_neg hj, if_neg hk] at hx hy
      exact hB.age j k x y hjk hx hy

theorem merge_mem (P O : List Nat) (le : Nat → Nat → Bool) (x : Nat) :
    x ∈ List.merge P O le ↔ x ∈ P ∨ x ∈ O := by
  rw [(List.merge_perm_append _).mem_iff, List.mem_append]

theorem merge_len (P O : List Nat) (le : Nat → Nat → Bool) :
    (List.merge P O le).length = P.length + O.length := by
  rw [(List.merge_perm_append _).length_eq, List.length_append]

/-- The carry loop.  `Q` is the set of nodes held by the hand and the bins. -/
theorem carryLoop_spec {lt : α → α → Bool} (hs : StrictWeak lt) (v : Nat → α) (idx : Nat → Nat) (fuel nF : Nat)
    (Q : Nat → Prop) (N : Nat) (hN : ∀ L : List Nat, L.Nodup → (∀ x ∈ L, Q x) → L.length ≤ N) (hN64 : N < 2 ^ 64)
    (hfuel : N < fuel) (k : Nat) :
    ∀ (h : Mem α) (hand : Ptr) (bins : List Ptr) (BL : Nat → List Nat) (H : List Nat) (i : Nat),
      i ≤ nF → nF - i < k → Bins lt v idx h bins BL → Holds h hand H → (∀ x, (h x).val = v x) →
      H.length = 2 ^ i → H.Pairwise (fun a b => sle lt v idx a b) →
      (∀ j, BL j = [] ∨ (BL j).length = 2 ^ j) → (∀ j, nF ≤ j → BL j = []) → (∀ j, j < i → BL j = []) →
      (∀ j x y, x ∈ H → y ∈ BL j → idx y < idx x) →
      (∀ x, Q x ↔ x ∈ H ∨ ∃ j, x ∈ BL j) →
      ∃ h' hand' bins' BL' H' i', carryLoop lt fuel nF k h hand bins i = .ok (some (h', hand', bins', i')) ∧
        i' ≤ nF ∧ i' < 64 ∧ Bins lt v idx h' bins' BL' ∧ Holds h' hand' H' ∧ (∀ x, (h' x).val = v x) ∧
        H'.length = 2 ^ i' ∧ H'.Pairwise (fun a b => sle lt v idx a b) ∧
        (∀ j, BL' j = [] ∨ (BL' j).length = 2 ^ j) ∧ (∀ j, nF ≤ j → BL' j = []) ∧ (∀ j, j ≤ i' → BL' j = []) ∧
        (∀ j x y, x ∈ H' → y ∈ BL' j → idx y < idx x) ∧
        (∀ x, Q x ↔ x ∈ H' ∨ ∃ j, x ∈ BL' j) ∧ (∀ y, ¬ Q y → h' y = h y) := by
  induction k with
  | zero => intro h hand bins BL H i _ hk; omega
  | succ k ih =>
    intro h hand bins BL H i hi hk hB hH hv hlen hsort hlens hout hlow hage hQ
    have hi64 : i < 64 := by
      have h1 := hN H hH.2.1 (fun x hx => (hQ x).mpr (Or.inl hx))
      rw [hlen] at h1
      have h2 : 2 ^ i < 2 ^ 64 := by omega
      exact (Nat.pow_lt_pow_iff_right (by decide)).mp h2
    unfold carryLoop
    by_cases hin : i < nF
    · rw [if_pos hin]
      have hib : i < bins.length := by rw [hB.len]; omega
      have hget : Go.get bins i = .ok bins[i] := by simp [Go.get, List.getElem?_eq_getElem hib]
      rw [hget]
      simp only [Res.bind_ok]
      have hhi := hB.hold i bins[i] (List.getElem?_eq_getElem hib)
      by_cases hbe : BL i = []
      · rw [hbe] at hhi
        have : bins[i] = none := hhi.1
        rw [this, if_neg (by simp [empty])]
        refine ⟨h, hand, bins, BL, H, i, rfl, hi, hi64, hB, hH, hv, hlen, hsort, hlens, hout, ?_, hage, hQ,
          fun _ _ => rfl⟩
        intro j hj
        rcases Nat.lt_or_eq_of_le hj with h1 | h1
        · exact hlow j h1
        · rw [h1]; exact hbe
      · have hne : bins[i] ≠ none := by
          rw [hhi.1]; simpa using hbe
        rw [if_pos (by cases hb : bins[i] with
          | none => exact absurd hb hne
          | some _ => rfl)]
        have hli : (BL i).length = 2 ^ i := (hlens i).resolve_left hbe
        have hdis : ∀ x ∈ BL i, x ∉ H := fun x hx hxH => by have := hage i x x hxH hx; omega
        have hml := merge_len (BL i) H (mle lt v)
        have hfl : (BL i).length + H.length ≤ N := by
          rw [← List.length_append]
          refine hN _ ?_ ?_
          · rw [List.nodup_append]
            exact ⟨hhi.2.1, hH.2.1, fun a ha b hb e => hdis a ha (e ▸ hb)⟩
          · intro x hx
            rcases List.mem_append.mp hx with hx | hx
            · exact (hQ x).mpr (Or.inr ⟨i, hx⟩)
            · exact (hQ x).mpr (Or.inl hx)
        obtain ⟨h1, b1, e1, hh1, f1, v1⟩ := merge_spec lt v fuel h bins[i] hand (BL i) H (by omega) hhi hH hdis hv
        rw [e1]
        simp only [Res.bind_ok]
        have hset : Go.set bins i none = .ok (bins.set i none) := by simp [Go.set, hib]
        rw [hset]
        simp only [Res.bind_ok]
        have hB1 : Bins lt v idx h1 (bins.set i none) (setAt BL i []) := by
          refine hB.set i hi64 none [] ⟨rfl, ring_nil _⟩ List.Pairwise.nil ?_ (by simp) (by simp)
          intro j hj x hx
          exact f1 x (fun hxi => hj (hB.disj hx hxi)) (fun hxH => by have := hage j x x hxH hx; omega)
        have hsub : ∀ j x, x ∈ setAt BL i [] j ↔ x ∈ BL j ∧ j ≠ i := by
          intro j x
          by_cases hj : j = i <;> simp [setAt, hj]
        obtain ⟨h', hand', bins', BL', H', i', e2, r⟩ :=
          ih h1 b1 (bins.set i none) (setAt BL i []) (List.merge (BL i) H (mle lt v)) (i + 1)
            (by omega) (by omega) hB1 hh1 v1 (by rw [hml, hli, hlen, Nat.pow_succ]; omega)
            (merge_sorted hs v idx _ _ (hB.sorted i) hsort (fun x hx y hy => hage i y x hy hx))
            (by
              intro j
              by_cases hj : j = i
              · left; simp [setAt, hj]
              · simpa [setAt, hj] using hlens j)
            (by
              intro j hj
              have : j ≠ i := by omega
              simpa [setAt, this] using hout j hj)
            (by
              intro j hj
              by_cases hji : j = i
              · simp [setAt, hji]
              · simpa [setAt, hji] using hlow j (by omega))
            (by
              intro j x y hx hy
              obtain ⟨hy, hji⟩ := (hsub j y).mp hy
              rcases (merge_mem _ _ _ _).mp hx with hx | hx
              · have : i < j := by
                  rcases Nat.lt_or_ge j i with h | h
                  · rw [hlow j h] at hy; simp at hy
                  · omega
                exact hB.age i j x y this hx hy
              · exact hage j x y hx hy)
            (by
              intro x
              rw [hQ, merge_mem]
              constructor
              · rintro (hx | ⟨j, hx⟩)
                · exact Or.inl (Or.inr hx)
                · by_cases hj : j = i
                  · left; left; rw [← hj]; exact hx
                  · right; exact ⟨j, (hsub j x).mpr ⟨hx, hj⟩⟩
              · rintro ((hx | hx) | ⟨j, hx⟩)
                · exact Or.inr ⟨i, hx⟩
                · exact Or.inl hx
                · exact Or.inr ⟨j, ((hsub j x).mp hx).1⟩)
        refine ⟨h', hand', bins', BL', H', i', e2, ?_⟩
        obtain ⟨r1, r2, r3, r4, r5, r6, r7, r8, r9, r10, r11, r12, r13⟩ := r
        refine ⟨r1, r2, r3, r4, r5, r6, r7, r8, r9, r10, r11, r12, ?_⟩
        intro y hy
        rw [r13 y hy, f1 y (fun hx => hy ((hQ y).mpr (Or.inr ⟨i, hx⟩))) (fun hx => hy ((hQ y).mpr (Or.inl hx)))]
    · rw [if_neg hin]
      refine ⟨h, hand, bins, BL, H, i, rfl, hi, hi64, hB, hH, hv, hlen, hsort, hlens, hout, ?_, hage, hQ,
        fun _ _ => rfl⟩
      intro j hj
      rcases Nat.lt_or_eq_of_le hj with h1 | h1
      · exact hlow j h1
      · exact hout j (by omega)

/-- The distribution loop. -/
theorem distLoop_spec {lt : α → α → Bool} (hs : StrictWeak lt) (v : Nat → α) (l : List Nat) (hl : l.Nodup)
    (hl64 : l.length < 2 ^ 64) (fuel : Nat) (hfuel : l.length + 64 < fuel) (k : Nat) :
    ∀ (h : Mem α) (head : Ptr) (bins : List Ptr) (BL : Nat → List Nat) (nF : Nat) (D R : List Nat),
      l = D ++ R → R.length < k → nF ≤ 64 → (D ≠ [] → 0 < nF) → Holds h head R →
      Bins lt v l.idxOf h bins BL → (∀ x, (h x).val = v x) →
      (∀ j, BL j = [] ∨ (BL j).length = 2 ^ j) → (∀ j, nF ≤ j → BL j = []) →
      (∀ x, x ∈ D ↔ ∃ j, x ∈ BL j) →
      ∃ h' bins' BL' nF', distLoop lt fuel k h head none bins nF = .ok (some (h', bins', nF')) ∧
        nF' ≤ 64 ∧ (l ≠ [] → 0 < nF') ∧ Bins lt v l.idxOf h' bins' BL' ∧ (∀ x, (h' x).val = v x) ∧
        (∀ j, nF' ≤ j → BL' j = []) ∧ (∀ x, x ∈ l ↔ ∃ j, x ∈ BL' j) ∧ (∀ y, y ∉ l → h' y = h y) := by
  induction k with
  | zero => intro h head bins BL nF D R _ hk; omega
  | succ k ih =>
    intro h head bins BL nF D R hlD hk hnF hpos hR hB hv hlens hout hD
    cases R with
    | nil =>
      have hhd : head = none := hR.1
      simp only [List.append_nil] at hlD
      subst hlD
      refine ⟨h, bins, BL, nF, by simp [distLoop, hhd, empty], hnF, hpos, hB, hv, hout, hD, fun _ _ => rfl⟩
    | cons x R =>
      have hhd : head = some x := hR.1
      have hnd := hl
      rw [hlD] at hnd
      have hxD : x ∉ D := fun hx => (List.nodup_append.mp hnd).2.2 x hx x (by simp) rfl
      have hDR : ∀ y ∈ D, y ∉ R := fun y hy hyR => (List.nodup_append.mp hnd).2.2 y hy y (by simp [hyR]) rfl
      have hxR : x ∉ R := (List.nodup_cons.mp (List.nodup_append.mp hnd).2.1).1
      have hidx : ∀ y ∈ D, l.idxOf y < l.idxOf x := by
        intro y hy
        rw [hlD, List.idxOf_append_of_mem hy, List.idxOf_append_of_notMem hxD]
        have := List.idxOf_lt_length_of_mem hy
        omega
      obtain ⟨h1, hd1, e1, hR1, n1, n2, f1, v1⟩ := remove_spec (A := []) hR
      simp only [List.nil_append] at hR1 f1
      rw [hhd] at e1
      obtain ⟨h2, e2, hH2, f2, v2⟩ := insertFront_spec (h := h1) (head := none) (l := []) x ⟨rfl, ring_nil _⟩ (by simp)
      have hR2 : Holds h2 hd1 R := holds_frame hR1 (fun y hy => f2 y (by simp) (fun e => hxR (e ▸ hy)))
      have hmemD : ∀ j y, y ∈ BL j → y ∈ D := fun j y hy => (hD y).mpr ⟨j, hy⟩
      have hfr2 : ∀ y, y ∉ x :: R → h2 y = h y := by
        intro y hy
        rw [f2 y (by simp) (fun e => hy (by simp [e])), f1 y hy]
      have hB2 : Bins lt v l.idxOf h2 bins BL := by
        refine ⟨hB.len, ?_, hB.out, hB.sorted, hB.age⟩
        intro j b hb
        refine holds_frame (hB.hold j b hb) (fun y hy => hfr2 y ?_)
        have hyD := hmemD j y hy
        intro hyx
        rcases List.mem_cons.mp hyx with rfl | hyx
        · exact hxD hyD
        · exact hDR y hyD hyx
      have hQ : ∀ y, (y ∈ D ++ [x]) ↔ y ∈ [x] ∨ ∃ j, y ∈ BL j := by
        intro y; rw [List.mem_append, ← hD y]; exact Or.comm
      have hsubl : ∀ y, y ∈ D ++ [x] → y ∈ l := by
        intro y hy; rw [hlD]; simp at hy ⊢; tauto
      obtain ⟨h3, hand3, bins3, BL3, H3, i3, e3, r1, r2, r3, r4, r5, r6, r7, r8, r9, r10, r11, r12, r13⟩ :=
        carryLoop_spec hs v l.idxOf fuel nF (fun y => y ∈ D ++ [x]) l.length
          (fun L hL hLm => List.Subperm.length_le (hL.subperm (fun y hy => hsubl y (hLm y hy))))
          hl64 (by omega) fuel h2 (some x) bins BL [x] 0 (by omega) (by omega) hB2 hH2
          (fun y => by rw [v2, v1, hv]) rfl (List.pairwise_singleton _ _) hlens hout (by omega)
          (by
            intro j a y ha hy
            simp at ha; subst ha
            exact hidx y (hmemD j y hy))
          hQ
      have hib : i3 < bins3.length := by rw [r3.len]; exact r2
      have hget : Go.get bins3 i3 = .ok bins3[i3] := by simp [Go.get, List.getElem?_eq_getElem hib]
      have hnone : bins3[i3] = none := by
        have := (r3.hold i3 _ (List.getElem?_eq_getElem hib)).1
        rw [r10 i3 (Nat.le_refl _)] at this
        exact this
      have hset : Go.set bins3 i3 hand3 = .ok (bins3.set i3 hand3) := by simp [Go.set, hib]
      have hB4 : Bins lt v l.idxOf h3 (bins3.set i3 hand3) (setAt BL3 i3 H3) := by
        refine r3.set i3 r2 hand3 H3 r4 r7 (fun _ _ _ _ => rfl) ?_ ?_
        · intro j a y hj ha _
          rw [r10 j (by omega)] at ha; simp at ha
        · intro k a y _ ha hy
          exact r11 k a y ha hy
      have hR3 : Holds h3 hd1 R := by
        refine holds_frame hR2 (fun y hy => r13 y ?_)
        intro hyQ
        rcases List.mem_append.mp hyQ with hyQ | hyQ
        · exact hDR y hyQ hy
        · simp at hyQ; subst hyQ; exact hxR hy
      obtain ⟨h', bins', BL', nF', e5, s1, s2, s3, s4, s5, s6, s7⟩ :=
        ih h3 hd1 (bins3.set i3 hand3) (setAt BL3 i3 H3) (if i3 = nF then nF + 1 else nF) (D ++ [x]) R
          (by rw [hlD]; simp) (by simp at hk; omega) (by split <;> omega) (by intro _; split <;> omega) hR3 hB4 r5
          (by
            intro j
            by_cases hj : j = i3
            · right; simp [setAt, hj, r6]
            · simpa [setAt, hj] using r8 j)
          (by
            intro j hj
            have hji : j ≠ i3 := by split at hj <;> omega
            have : nF ≤ j := by split at hj <;> omega
            simpa [setAt, hji] using r9 j this)
          (by
            intro y
            rw [r12]
            constructor
            · rintro (hy | ⟨j, hy⟩)
              · exact ⟨i3, by simpa [setAt] using hy⟩
              · refine ⟨j, ?_⟩
                have : j ≠ i3 := by rintro rfl; rw [r10 _ (Nat.le_refl _)] at hy; simp at hy
                simpa [setAt, this] using hy
            · rintro ⟨j, hy⟩
              by_cases hj : j = i3
              · left; simpa [setAt, hj] using hy
              · right; exact ⟨j, by simpa [setAt, hj] using hy⟩)
      refine ⟨h', bins', BL', nF', ?_, s1, s2, s3, s4, s5, s6, ?_⟩
      · unfold distLoop
        rw [if_pos (by simp [hhd, empty])]
        simp only [removeFront, front, hhd, e1, Res.bind_ok, e2, e3, hget, hnone, hset]
        exact e5
      · intro y hy
        have hyx : y ∉ x :: R := fun hx => hy (by rw [hlD]; exact List.mem_append_right _ hx)
        rw [s7 y hy, r13 y (fun hx => hy (hsubl y hx)), hfr2 y hyx]

/-- The collecting loop. -/
theorem collLoop_spec {lt : α → α → Bool} (hs : StrictWeak lt) (v : Nat → α) (idx : Nat → Nat) (l : List Nat)
    (fuel nF : Nat) (hnF : nF ≤ 64) (hnF0 : 0 < nF) (hfuel : l.length < fuel) (k : Nat) :
    ∀ (h : Mem α) (bins : List Ptr) (BL : Nat → List Nat) (i : Nat), 1 ≤ i → i ≤ nF → nF - i < k →
      Bins lt v idx h bins BL → (∀ x, (h x).val = v x) → (∀ j, nF ≤ j → BL j = []) →
      (∀ j, j + 1 < i → BL j = []) → (∀ x, x ∈ l ↔ ∃ j, x ∈ BL j) →
      ∃ h' bins' BL', collLoop lt fuel nF k h bins i = .ok (some (h', bins')) ∧
        Bins lt v idx h' bins' BL' ∧ (∀ x, (h' x).val = v x) ∧ (∀ j, j ≠ nF - 1 → BL' j = []) ∧
        (∀ x, x ∈ l ↔ ∃ j, x ∈ BL' j) ∧ (∀ y, y ∉ l → h' y = h y) := by
  induction k with
  | zero => intro h bins BL i _ _ hk; omega
  | succ k ih =>
    intro h bins BL i hi1 hi hk hB hv hout hlow hm
    unfold collLoop
    by_cases hin : i < nF
    · rw [if_pos hin]
      obtain ⟨p, rfl⟩ : ∃ p, i = p + 1 := ⟨i - 1, by omega⟩
      have hib : p + 1 < bins.length := by rw [hB.len]; omega
      have hpb : p < bins.length := by omega
      have hget : Go.get bins (p + 1) = .ok bins[p + 1] := by simp [Go.get, List.getElem?_eq_getElem hib]
      have hget2 : Go.get bins p = .ok bins[p] := by simp [Go.get, List.getElem?_eq_getElem hpb]
      have hh1 := hB.hold (p + 1) _ (List.getElem?_eq_getElem hib)
      have hh2 := hB.hold p _ (List.getElem?_eq_getElem hpb)
      have hdis : ∀ x ∈ BL (p + 1), x ∉ BL p := fun x h1 h2 => by have := hB.disj h1 h2; omega
      have hlen : (BL (p + 1)).length + (BL p).length ≤ l.length := by
        rw [← List.length_append]
        refine List.Subperm.length_le (List.Nodup.subperm ?_ ?_)
        · rw [List.nodup_append]
          exact ⟨hh1.2.1, hh2.2.1, fun a ha b hb e => hdis a ha (e ▸ hb)⟩
        · intro x hx
          rcases List.mem_append.mp hx with hx | hx
          · exact (hm x).mpr ⟨_, hx⟩
          · exact (hm x).mpr ⟨_, hx⟩
      obtain ⟨h1, b1, e1, hM, f1, v1⟩ := merge_spec lt v fuel h bins[p + 1] bins[p] _ _ (by omega) hh1 hh2 hdis hv
      have hfr : ∀ j, j ≠ p + 1 → j ≠ p → ∀ x ∈ BL j, h1 x = h x := by
        intro j h1 h2 x hx
        exact f1 x (fun hx' => h1 (hB.disj hx hx')) (fun hx' => h2 (hB.disj hx hx'))
      -- first the lower bin is emptied (in the bookkeeping), then the upper one gets the merge
      have hB1 : Bins lt v idx h (bins.set p none) (setAt BL p []) :=
        hB.set p (by omega) none [] ⟨rfl, ring_nil _⟩ List.Pairwise.nil (fun _ _ _ _ => rfl) (by simp) (by simp)
      have hB2 : Bins lt v idx h1 ((bins.set p none).set (p + 1) b1)
          (setAt (setAt BL p []) (p + 1) (List.merge (BL (p + 1)) (BL p) (mle lt v))) := by
        refine hB1.set (p + 1) (by omega) b1 _ hM ?_ ?_ ?_ ?_
        · exact merge_sorted hs v idx _ _ (hB.sorted _) (hB.sorted _)
            (fun x hx y hy => hB.age p (p + 1) y x (by omega) hy hx)
        · intro j hj x hx
          by_cases hjp : j = p
          · simp [setAt, hjp] at hx
          · simp only [setAt, if_neg hjp] at hx
            exact hfr j hj hjp x hx
        · intro j x y hj hx hy
          by_cases hjp : j = p
          · simp [setAt, hjp] at hx
          · simp only [setAt, if_neg hjp] at hx
            rw [hlow j (by omega)] at hx; simp at hx
        · intro k x y hk hx hy
          have hkp : k ≠ p := by omega
          simp only [setAt, if_neg hkp] at hy
          rcases (merge_mem _ _ _ _).mp hx with hx | hx
          · exact hB.age _ _ x y hk hx hy
          · exact hB.age p k x y (by omega) hx hy
      have hcomm : (bins.set p none).set (p + 1) b1 = (bins.set (p + 1) b1).set p none := by
        rw [List.set_comm _ _ (by omega)]
      rw [hcomm] at hB2
      obtain ⟨h', bins', BL', e2, s1, s2, s3, s4, s5⟩ :=
        ih h1 _ _ (p + 2) (by omega) (by omega) (by omega) hB2 v1
          (by
            intro j hj
            have h1 : j ≠ p := by omega
            have h2 : j ≠ p + 1 := by omega
            simpa [setAt, h1, h2] using hout j hj)
          (by
            intro j hj
            have h2 : j ≠ p + 1 := by omega
            by_cases h1 : j = p
            · simp [setAt, h1]
            · simpa [setAt, h1, h2] using hlow j (by omega))
          (by
            intro x
            rw [hm]
            constructor
            · rintro ⟨j, hj⟩
              by_cases h1 : j = p
              · subst h1; exact ⟨j + 1, by simp only [setAt, if_pos]; exact (merge_mem _ _ _ _).mpr (Or.inr hj)⟩
              · by_cases h2 : j = p + 1
                · subst h2; exact ⟨p + 1, by simp only [setAt, if_pos]; exact (merge_mem _ _ _ _).mpr (Or.inl hj)⟩
                · exact ⟨j, by simpa [setAt, h1, h2] using hj⟩
            · rintro ⟨j, hj⟩
              by_cases h2 : j = p + 1
              · simp only [setAt, if_pos h2] at hj
                rcases (merge_mem _ _ _ _).mp hj with hj | hj
                · exact ⟨_, hj⟩
                · exact ⟨_, hj⟩
              · by_cases h1 : j = p
                · subst h1; simp [setAt] at hj
                · simp only [setAt, if_neg h1, if_neg h2] at hj
                  exact ⟨j, hj⟩)
      refine ⟨h', bins', BL', ?_, s1, s2, s3, s4, ?_⟩
      · simp only [Nat.add_sub_cancel, hget, hget2, Res.bind_ok, e1]
        have hs1 : Go.set bins (p + 1) b1 = .ok (bins.set (p + 1) b1) := by simp [Go.set, hib]
        have hs2 : Go.set (bins.set (p + 1) b1) p none = .ok ((bins.set (p + 1) b1).set p none) := by
          simp [Go.set, hpb]
        rw [hs1]
        simp only [Res.bind_ok]
        rw [hs2]
        exact e2
      · intro y hy
        rw [s5 y hy, f1 y (fun hx => hy ((hm y).mpr ⟨_, hx⟩)) (fun hx => hy ((hm y).mpr ⟨_, hx⟩))]
    · rw [if_neg hin]
      refine ⟨h, bins, BL, rfl, hB, hv, ?_, hm, fun _ _ => rfl⟩
      intro j hj
      rcases Nat.lt_or_ge j nF with h1 | h1
      · exact hlow j (by omega)
      · exact hout j h1

end Verif.DList
