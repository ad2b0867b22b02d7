import Verif.Model.DListCost
import Verif.Lemmas.DListSort
/-!
# Helper lemmas for the comparisons of the merge sort of the doubly linked list
-/

set_option linter.unusedSectionVars false

namespace Verif.DList
open Verif.Spec Verif.Cmp
variable {α : Type}

/-! ## Without the record -/

/-- The result without the record. -/
def bare {β L : Type} : Res (Option (β × L)) → Res (Option β)
  | .ok o => .ok (o.map Prod.fst)
  | .panic => .panic

theorem bare_some {β L : Type} (x : β × L) : bare (.ok (some x)) = .ok (some x.1) := rfl

theorem bare_pure {β L : Type} (x : β × L) : bare (pure (some x)) = .ok (some x.1) := rfl

theorem bare_ite {β L : Type} {c : Prop} [Decidable c] (x y : Res (Option (β × L))) :
    bare (if c then x else y) = if c then bare x else bare y := by split <;> rfl

theorem bare_bind {β γ L : Type} (x : Res γ) (f : γ → Res (Option (β × L))) :
    bare (x >>= f) = x >>= fun a => bare (f a) := by cases x <;> rfl

theorem mergeLoopC_bare (lt : α → α → Bool) (fuel : Nat) : ∀ (h : Mem α) (head ohead p po : Ptr) (log : List (α × α)),
    bare (mergeLoopC lt fuel h head ohead p po log) = mergeLoop lt fuel h head ohead p po := by
  induction fuel with
  | zero => intros; rfl
  | succ fuel ih =>
    intro h head ohead p po log
    simp only [mergeLoopC, mergeLoop, bare_ite, bare_bind, ih]
    rfl

theorem mergeC_bare (lt : α → α → Bool) (fuel : Nat) (h : Mem α) (head ohead : Ptr) (log : List (α × α)) :
    bare (mergeC lt fuel h head ohead log) = merge lt fuel h head ohead := by
  unfold mergeC merge
  rw [bare_ite, bare_bind, bare_bind, ← mergeLoopC_bare lt fuel h head ohead (front head) (front ohead) log]
  congr 1
  rcases mergeLoopC lt fuel h head ohead (front head) (front ohead) log with (_ | ⟨⟨a, b, c, d⟩, l⟩) | _
  · rfl
  · simp only [bare, Option.map_some, Res.bind_ok]
    change bare (ite _ _ _) = _
    rw [bare_ite, bare_bind]
    rfl
  · rfl

theorem carryLoopC_bare (lt : α → α → Bool) (fuel nF k : Nat) : ∀ (h : Mem α) (hand : Ptr) (bins : List Ptr) (i : Nat) (log : List (α × α)),
    bare (carryLoopC lt fuel nF k h hand bins i log) = carryLoop lt fuel nF k h hand bins i := by
  induction k with
  | zero => intros; rfl
  | succ k ih =>
    intro h hand bins i log
    simp only [carryLoopC, carryLoop, bare_ite, bare_bind]
    congr 1
    congr 1
    funext b
    congr 1
    rw [← mergeC_bare lt fuel h b hand log]
    rcases mergeC lt fuel h b hand log with (_ | ⟨⟨a, b, c⟩, l⟩) | _
    · rfl
    · simp only [bare_some, Res.bind_ok, bare_bind]
      exact congrArg _ (funext fun _ => ih _ _ _ _ _)
    · rfl

theorem distLoopC_bare (lt : α → α → Bool) (fuel k : Nat) : ∀ (h : Mem α) (head hand : Ptr) (bins : List Ptr) (nF : Nat) (log : List (α × α)),
    bare (distLoopC lt fuel k h head hand bins nF log) = distLoop lt fuel k h head hand bins nF := by
  induction k with
  | zero => intros; rfl
  | succ k ih =>
    intro h head hand bins nF log
    simp only [distLoopC, distLoop, bare_ite, bare_bind]
    congr 1
    congr 1
    funext x
    congr 1
    funext y
    rw [← carryLoopC_bare lt fuel nF fuel y.1 y.2.1 bins 0 log]
    rcases carryLoopC lt fuel nF fuel y.1 y.2.1 bins 0 log with (_ | ⟨⟨a, b, c, d⟩, l⟩) | _
    · rfl
    · simp only [bare_some, Res.bind_ok, bare_bind]
      exact congrArg _ (funext fun _ => congrArg _ (funext fun _ => ih _ _ _ _ _ _))
    · rfl

theorem collLoopC_bare (lt : α → α → Bool) (fuel nF k : Nat) : ∀ (h : Mem α) (bins : List Ptr) (i : Nat) (log : List (α × α)),
    bare (collLoopC lt fuel nF k h bins i log) = collLoop lt fuel nF k h bins i := by
  induction k with
  | zero => intros; rfl
  | succ k ih =>
    intro h bins i log
    simp only [collLoopC, collLoop, bare_ite, bare_bind]
    congr 1
    congr 1
    funext b
    congr 1
    funext c
    rw [← mergeC_bare lt fuel h b c log]
    rcases mergeC lt fuel h b c log with (_ | ⟨⟨a, b, c⟩, l⟩) | _
    · rfl
    · simp only [bare_some, Res.bind_ok, bare_bind]
      exact congrArg _ (funext fun _ => congrArg _ (funext fun _ => ih _ _ _ _))
    · rfl

theorem mergeSortC_bare (lt : α → α → Bool) (fuel : Nat) (h : Mem α) (head : Ptr) :
    bare (mergeSortC lt fuel h head) = mergeSort lt fuel h head := by
  cases head with
  | none => rfl
  | some a =>
    simp only [mergeSortC, mergeSort, bare_ite, bare_bind]
    congr 1
    rw [← distLoopC_bare lt fuel fuel h (some a) none (List.replicate 64 none) 0 []]
    rcases distLoopC lt fuel fuel h (some a) none (List.replicate 64 none) 0 [] with (_ | ⟨⟨a, b, c⟩, l⟩) | _
    · rfl
    · simp only [bare_some, Res.bind_ok, bare_bind]
      rw [← collLoopC_bare lt fuel c fuel a b 1 l]
      rcases collLoopC lt fuel c fuel a b 1 l with (_ | ⟨⟨a, b⟩, l⟩) | _
      · rfl
      · simp only [bare_some, Res.bind_ok, bare_bind, bare_pure]
        rfl
      · rfl
    · rfl

/-! ## The algorithm on lists -/

/-- The comparisons of merging: each asks whether the first of the second list goes before the first of the first list. -/
def mergeAsks {ν : Type} (le : ν → ν → Bool) : List ν → List ν → List (ν × ν)
  | [], _ => []
  | _ :: _, [] => []
  | p :: P, o :: O => (o, p) :: if le p o then mergeAsks le P (o :: O) else mergeAsks le (p :: P) O
termination_by P O => P.length + O.length

/-- The new sublist goes through the bins: the bins afterwards and the comparisons. -/
def carry {ν : Type} (le : ν → ν → Bool) : List ν → List (List ν) → List (List ν) × List (ν × ν)
  | H, [] => ([H], [])
  | H, [] :: bs => (H :: bs, [])
  | H, (x :: b) :: bs =>
    let r := carry le (List.merge (x :: b) H le) bs
    ([] :: r.1, mergeAsks le (x :: b) H ++ r.2)

/-- All elements go through the bins. -/
def dist {ν : Type} (le : ν → ν → Bool) : List ν → List (List ν) → List (List ν) × List (ν × ν)
  | [], bs => (bs, [])
  | x :: l, bs =>
    let r := carry le [x] bs
    let r' := dist le l r.1
    (r'.1, r.2 ++ r'.2)

/-- The bins are merged. -/
def coll {ν : Type} (le : ν → ν → Bool) : List ν → List (List ν) → List ν × List (ν × ν)
  | acc, [] => (acc, [])
  | acc, b :: bs =>
    let r := coll le (List.merge b acc le) bs
    (r.1, mergeAsks le b acc ++ r.2)

theorem mergeAsks_nil_left {ν : Type} (le : ν → ν → Bool) (O : List ν) : mergeAsks le [] O = [] := by simp [mergeAsks]
theorem mergeAsks_nil_right {ν : Type} (le : ν → ν → Bool) (P : List ν) : mergeAsks le P [] = [] := by
  cases P <;> simp [mergeAsks]

/-- The values of the nodes compared. -/
def vals (v : Nat → α) (l : List (Nat × Nat)) : List (α × α) := l.map fun q => (v q.1, v q.2)

/-! ## The loops with their comparisons -/

/-- The loop of `merge`. -/
theorem mergeLoopC_spec (lt : α → α → Bool) (v : Nat → α) (fuel : Nat) :
    ∀ (h : Mem α) (head ohead : Ptr) (A P O : List Nat) (log : List (α × α)), P.length + O.length < fuel →
      Holds h head (A ++ P) → Holds h ohead O → (∀ x ∈ A ++ P, x ∉ O) → (∀ x, (h x).val = v x) →
      ∃ r, mergeLoopC lt fuel h head ohead P.head? O.head? log = .ok (some (r, log ++ vals v (mergeAsks (mle lt v) P O))) := by
  induction fuel with
  | zero => intro h head ohead A P O log hf; omega
  | succ fuel ih =>
    intro h head ohead A P O log hf hh ho hd hv
    cases P with
    | nil => exact ⟨_, by simp [mergeLoopC, mergeAsks, vals]; rfl⟩
    | cons p P =>
      cases O with
      | nil => exact ⟨_, by simp [mergeLoopC, mergeAsks, vals]; rfl⟩
      | cons o O =>
        simp only [List.head?_cons]
        simp only [mergeLoopC]
        rw [if_pos (show some p ≠ none ∧ some o ≠ none by simp), mergeAsks]
        simp only [rd, Res.bind_ok]
        have hF : F lt lesser (h o).val (h p).val = lt (v o) (v p) := by
          rw [hv, hv]; simp [F, lesser]
        rw [hF]
        cases hlt : lt (v o) (v p) with
        | true =>
          have hle : mle lt v p o = false := by simp [mle, hlt]
          rw [if_pos rfl, hle, if_neg (by simp)]
          have hohd : ohead = some o := ho.1
          obtain ⟨h1, ohd1, e1, hho1, n1, n2, f1, v1⟩ := remove_spec (A := []) ho
          rw [hohd] at e1
          have hh1 : Holds h1 head (A ++ p :: P) := holds_frame hh (fun x hx => f1 x (hd x hx))
          have hon : o ∉ A ++ p :: P := fun hx => hd o hx (by simp)
          obtain ⟨h2, hd2, e2, hh2, f2, v2⟩ := insertBefore_spec o hh1 hon
          have hoO : o ∉ O := (List.nodup_cons.mp ho.2.1).1
          have hho2 : Holds h2 ohd1 O := by
            refine holds_frame (l := O) hho1 (fun x hx => f2 x ?_ ?_)
            · intro hx'; exact hd x hx' (by simp [hx])
            · intro e; subst e; exact hoO hx
          have hfr : front ohd1 = O.head? := hho1.1
          have hh2' : Holds h2 hd2 ((A ++ [o]) ++ p :: P) := by simpa using hh2
          obtain ⟨r, e3⟩ :=
            ih h2 hd2 ohd1 (A ++ [o]) (p :: P) O (log ++ [(v o, v p)]) (by simp at hf ⊢; omega) hh2' hho2
              (by
                intro x hx hxO
                simp at hx
                rcases hx with hx | rfl | rfl | hx
                · exact hd x (by simp [hx]) (by simp [hxO])
                · exact hoO hxO
                · exact hd x (by simp) (by simp [hxO])
                · exact hd x (by simp [hx]) (by simp [hxO]))
              (fun x => by rw [v2, v1, hv])
          refine ⟨r, ?_⟩
          simp only [removeFront, front, hohd, e1, Res.bind_ok, e2]
          rw [hv, hv]
          simp only [vals, List.map_cons] at e3 ⊢
          rw [show log ++ (v o, v p) :: (mergeAsks (mle lt v) (p :: P) O).map (fun q => (v q.1, v q.2)) =
            log ++ [(v o, v p)] ++ (mergeAsks (mle lt v) (p :: P) O).map (fun q => (v q.1, v q.2)) by simp, ← e3, ← hfr]
          rfl
        | false =>
          have hle : mle lt v p o = true := by simp [mle, hlt]
          rw [if_neg (by simp), hle, if_pos rfl]
          have hnext : (if (h p).next = front head then none else (h p).next) = P.head? := by
            have hr := hh.2
            have hrot := ring_rotate A (p :: P) hr
            cases P with
            | nil =>
              rw [if_pos]; rfl
              rw [front, hh.1]
              cases A with
              | nil => simpa using (ring_single hr).1
              | cons a A => simpa using ring_next_head hrot
            | cons q P =>
              have hq : (h p).next = some q := ring_next_head (by simpa using hrot)
              rw [hq, if_neg]; rfl
              rw [front, hh.1]
              have hnd := hr.1
              cases A with
              | nil => simp at hnd ⊢; tauto
              | cons a A => simp at hnd ⊢; tauto
          have hh' : Holds h head ((A ++ [p]) ++ P) := by simpa using hh
          obtain ⟨r, e3⟩ :=
            ih h head ohead (A ++ [p]) P (o :: O) (log ++ [(v o, v p)]) (by simp at hf ⊢; omega) hh' ho
              (by intro x hx; exact hd x (by simpa using hx)) hv
          refine ⟨r, ?_⟩
          rw [hnext, hv, hv]
          simp only [vals, List.map_cons] at e3 ⊢
          rw [show log ++ (v o, v p) :: (mergeAsks (mle lt v) P (o :: O)).map (fun q => (v q.1, v q.2)) =
            log ++ [(v o, v p)] ++ (mergeAsks (mle lt v) P (o :: O)).map (fun q => (v q.1, v q.2)) by simp, ← e3]
          rfl

/-- `merge` of two disjoint lists. -/
theorem mergeC_spec (lt : α → α → Bool) (v : Nat → α) (fuel : Nat) (h : Mem α) (head ohead : Ptr) (log : List (α × α))
    (P O : List Nat) (hf : P.length + O.length < fuel) (hh : Holds h head P) (ho : Holds h ohead O)
    (hd : ∀ x ∈ P, x ∉ O) (hv : ∀ x, (h x).val = v x) :
    ∃ h' head', mergeC lt fuel h head ohead log = .ok (some ((h', head', none), log ++ vals v (mergeAsks (mle lt v) P O))) ∧
      Holds h' head' (List.merge P O (mle lt v)) ∧
      (∀ y, y ∉ P → y ∉ O → h' y = h y) ∧ (∀ x, (h' x).val = v x) := by
  obtain ⟨h', head', e, r1, r2, r3⟩ := merge_spec lt v fuel h head ohead P O hf hh ho hd hv
  refine ⟨h', head', ?_, r1, r2, r3⟩
  have hb := mergeC_bare lt fuel h head ohead log
  rw [e] at hb
  have key : ∃ x, mergeC lt fuel h head ohead log = .ok (some (x, log ++ vals v (mergeAsks (mle lt v) P O))) := by
    unfold mergeC
    have hcat := insertBackList_spec hh ho hd
    by_cases hP : P = []
    · subst hP
      have : head = none := hh.1
      subst this
      obtain ⟨h', head', e, _⟩ := hcat
      rw [if_pos (by simp [empty]), e, mergeAsks_nil_left]
      exact ⟨_, by simp [vals]; rfl⟩
    · by_cases hO : O = []
      · subst hO
        have : ohead = none := ho.1
        subst this
        obtain ⟨h', head', e, _⟩ := hcat
        rw [if_pos (by simp [empty]), e, mergeAsks_nil_right]
        exact ⟨_, by simp [vals]; rfl⟩
      · obtain ⟨p, P', rfl⟩ := List.exists_cons_of_ne_nil hP
        obtain ⟨o, O', rfl⟩ := List.exists_cons_of_ne_nil hO
        have h1 : head = some p := hh.1
        have h2 : ohead = some o := ho.1
        rw [if_neg (by simp [empty, h1, h2])]
        have hb := hb
        unfold mergeC at hb
        rw [if_neg (by simp [empty, h1, h2])] at hb
        obtain ⟨⟨x1, x2, x3, x4⟩, e'⟩ := mergeLoopC_spec lt v fuel h head ohead [] (p :: P') (o :: O') log hf (by simpa using hh) ho
          (by simpa using hd) hv
        have e'' : mergeLoopC lt fuel h head ohead (front head) (front ohead) log
            = .ok (some ((x1, x2, x3, x4), log ++ vals v (mergeAsks (mle lt v) (p :: P') (o :: O')))) := by
          rw [← e']; simp [front, h1, h2]
        rw [e''] at hb ⊢
        simp only [Res.bind_ok] at hb ⊢
        split
        · rename_i hx
          rw [if_pos hx] at hb
          cases hi : insertBackList x1 x2 x3 with
          | ok w => exact ⟨_, rfl⟩
          | panic => rw [hi] at hb; cases hb
        · exact ⟨_, rfl⟩
  obtain ⟨x, hx⟩ := key
  rw [hx] at hb ⊢
  simp only [bare, Option.map_some, Res.ok.injEq, Option.some.injEq] at hb
  rw [hb]

/-! ## The bins -/

/-- The bins from index `i` on: bin `j` is empty or has `2 ^ j` elements, and the last one is not empty. -/
def Cnt {ν : Type} : Nat → List (List ν) → Prop
  | _, [] => True
  | i, b :: bs => (b = [] ∨ b.length = 2 ^ i) ∧ (bs = [] → b ≠ []) ∧ Cnt (i + 1) bs

theorem carry_cnt {ν : Type} (le : ν → ν → Bool) (bs : List (List ν)) : ∀ (i : Nat) (H : List ν), H.length = 2 ^ i → Cnt i bs →
    Cnt i (carry le H bs).1 := by
  induction bs with
  | nil =>
    intro i H hH _
    refine ⟨.inr hH, fun _ e => ?_, trivial⟩
    rw [e] at hH
    have := Nat.two_pow_pos i
    simp at hH
    omega
  | cons b bs ih =>
    intro i H hH hc
    cases b with
    | nil =>
      obtain ⟨_, h2, h3⟩ := hc
      refine ⟨.inr hH, fun e => absurd rfl (h2 e), h3⟩
    | cons x b =>
      obtain ⟨h1, h2, h3⟩ := hc
      have hl : (x :: b).length = 2 ^ i := h1.resolve_left (by simp)
      have hm : (List.merge (x :: b) H le).length = 2 ^ (i + 1) := by
        rw [(List.merge_perm_append _).length_eq, List.length_append, hl, hH, Nat.pow_succ]; omega
      refine ⟨.inl rfl, fun e => ?_, ih (i + 1) _ hm h3⟩
      exfalso
      revert e
      cases bs with
      | nil => simp [carry]
      | cons c bs => cases c <;> simp [carry]

theorem cnt_size {ν : Type} (bs : List (List ν)) : ∀ i, Cnt i bs → bs ≠ [] → 2 ^ (i + bs.length - 1) ≤ bs.flatten.length := by
  induction bs with
  | nil => intro i _ h; exact absurd rfl h
  | cons b bs ih =>
    intro i hc _
    obtain ⟨h1, h2, h3⟩ := hc
    by_cases e : bs = []
    · subst e
      have := h1.resolve_left (h2 rfl)
      simp [this]
    · have := ih (i + 1) h3 e
      have e2 : i + (b :: bs).length - 1 = i + 1 + bs.length - 1 := by simp only [List.length_cons]; omega
      rw [e2]
      simp only [List.flatten_cons, List.length_append]
      omega

theorem carry_perm {ν : Type} (le : ν → ν → Bool) (bs : List (List ν)) : ∀ (H : List ν),
    (carry le H bs).1.flatten.Perm (H ++ bs.flatten) := by
  induction bs with
  | nil => intro H; simp [carry]
  | cons b bs ih =>
    intro H
    cases b with
    | nil => simp [carry]
    | cons x b =>
      simp only [carry, List.flatten_cons, List.nil_append]
      refine (ih _).trans ?_
      rw [← List.append_assoc]
      exact ((List.merge_perm_append _).trans List.perm_append_comm).append_right _

theorem dist_perm {ν : Type} (le : ν → ν → Bool) (l : List ν) : ∀ bs : List (List ν),
    (dist le l bs).1.flatten.Perm (l ++ bs.flatten) := by
  induction l with
  | nil => intro bs; simp [dist]
  | cons x l ih =>
    intro bs
    simp only [dist]
    refine (ih _).trans ?_
    refine ((carry_perm le bs [x]).append_left l).trans ?_
    simp only [List.cons_append]
    exact List.perm_middle

theorem dist_cnt {ν : Type} (le : ν → ν → Bool) (l : List ν) : ∀ bs : List (List ν), Cnt 0 bs → Cnt 0 (dist le l bs).1 := by
  induction l with
  | nil => intro bs h; exact h
  | cons x l ih => intro bs h; exact ih _ (carry_cnt le bs 0 [x] rfl h)

theorem coll_perm {ν : Type} (le : ν → ν → Bool) (bs : List (List ν)) : ∀ acc : List ν,
    (coll le acc bs).1.Perm (acc ++ bs.flatten) := by
  induction bs with
  | nil => intro acc; simp [coll]
  | cons b bs ih =>
    intro acc
    simp only [coll, List.flatten_cons]
    refine (ih _).trans ?_
    rw [← List.append_assoc]
    exact (((List.merge_perm_append _).trans List.perm_append_comm).append_right _)

/-- The pointers in the bins hold these lists. -/
structure BinsP (h : Mem α) (bins : List Ptr) (bl : List (List Nat)) : Prop where
  len : bins.length = 64
  hold : ∀ j b, bins[j]? = some b → Holds h b (bl.getD j [])

theorem getD_mem {j x : Nat} {bl : List (List Nat)} (h : x ∈ bl.getD j []) : x ∈ bl.flatten := by
  rw [List.getD_eq_getElem?_getD] at h
  cases hj : bl[j]? with
  | none => rw [hj] at h; simp at h
  | some b =>
    rw [hj] at h
    exact List.mem_flatten.2 ⟨b, List.mem_of_getElem? hj, h⟩

theorem BinsP.frame {h h' : Mem α} {bins : List Ptr} {bl : List (List Nat)} (hB : BinsP h bins bl)
    (hf : ∀ x ∈ bl.flatten, h' x = h x) : BinsP h' bins bl :=
  ⟨hB.len, fun j b hb => holds_frame (hB.hold j b hb) fun x hx => hf x (getD_mem hx)⟩

theorem pad (i : Nat) (bs : List (List Nat)) : List.replicate i [] ++ [] :: bs = List.replicate (i + 1) [] ++ bs := by
  rw [List.replicate_succ', List.append_assoc]; rfl

theorem getD_pad (i : Nat) (bs : List (List Nat)) (j : Nat) :
    (List.replicate i [] ++ bs).getD j [] = if j < i then [] else bs.getD (j - i) [] := by
  simp only [List.getD_eq_getElem?_getD]
  split
  · rename_i h
    rw [List.getElem?_append_left (by simpa using h), List.getElem?_replicate, if_pos h]; rfl
  · rename_i h
    rw [List.getElem?_append_right (by simpa using h), List.length_replicate]

theorem BinsP.end {h : Mem α} {bins : List Ptr} {bl : List (List Nat)} (hB : BinsP h bins bl) : BinsP h bins (bl ++ [[]]) := by
  refine ⟨hB.len, fun j b hb => ?_⟩
  have := hB.hold j b hb
  simp only [List.getD_eq_getElem?_getD] at this ⊢
  rcases Nat.lt_or_ge j bl.length with hj | hj
  · rwa [List.getElem?_append_left hj]
  · rw [List.getElem?_eq_none hj] at this
    rw [List.getElem?_append_right hj]
    cases e : ([[]] : List (List Nat))[j - bl.length]? with
    | none => exact this
    | some x =>
      have := List.mem_of_getElem? e
      simp at this
      subst this
      assumption

/-- Bin `i` gets another list. -/
theorem BinsP.put {h h' : Mem α} {bins : List Ptr} {i : Nat} {b : List Nat} {bs : List (List Nat)}
    (hB : BinsP h bins (List.replicate i [] ++ b :: bs)) (hi : i < 64) (p : Ptr) (L : List Nat) (hL : Holds h' p L)
    (hf : ∀ x ∈ bs.flatten, h' x = h x) : BinsP h' (bins.set i p) (List.replicate i [] ++ L :: bs) := by
  refine ⟨by simpa using hB.len, fun j c hc => ?_⟩
  by_cases hj : j = i
  · subst hj
    rw [List.getElem?_set_self (by rw [hB.len]; omega)] at hc
    cases hc
    rw [getD_pad, if_neg (by omega)]
    simpa using hL
  · rw [List.getElem?_set_ne (fun e => hj e.symm)] at hc
    have h1 := hB.hold j c hc
    rw [getD_pad] at h1 ⊢
    by_cases hlt : j < i
    · rw [if_pos hlt] at h1 ⊢
      exact ⟨h1.1, ring_nil _⟩
    · rw [if_neg hlt] at h1 ⊢
      obtain ⟨k, hk⟩ : ∃ k, j - i = k + 1 := ⟨j - i - 1, by omega⟩
      rw [hk, List.getD_cons_succ] at h1 ⊢
      exact holds_frame h1 fun x hx => hf x (getD_mem hx)

/-- The carry loop. -/
theorem carryLoopC_spec (lt : α → α → Bool) (v : Nat → α) (fuel nF : Nat) (rest : List (List Nat)) :
    ∀ (k : Nat) (h : Mem α) (hand : Ptr) (bins : List Ptr) (i : Nat) (H : List Nat) (log : List (α × α)),
      BinsP h bins (List.replicate i [] ++ rest) → nF = i + rest.length → rest.length < k → Holds h hand H → (∀ x, (h x).val = v x) →
      (H ++ rest.flatten).Nodup → (H ++ rest.flatten).length < fuel → i + (carry (mle lt v) H rest).1.length ≤ 64 →
      ∃ h' hand' bins' i' H' rest', carryLoopC lt fuel nF k h hand bins i log =
          .ok (some ((h', hand', bins', i'), log ++ vals v (carry (mle lt v) H rest).2)) ∧ i ≤ i' ∧
        (carry (mle lt v) H rest).1 = List.replicate (i' - i) [] ++ H' :: rest' ∧
        BinsP h' bins' (List.replicate i' [] ++ [] :: rest') ∧ Holds h' hand' H' ∧ (∀ x, (h' x).val = v x) ∧
        (∀ y, y ∉ H ++ rest.flatten → h' y = h y) ∧
        (if i' = nF then nF + 1 else nF) = i + (carry (mle lt v) H rest).1.length := by
  induction rest with
  | nil =>
    intro k h hand bins i H log hB hn hk hH hv hnd hfl h64
    obtain ⟨k, rfl⟩ : ∃ k', k = k' + 1 := ⟨k - 1, by simp at hk; omega⟩
    refine ⟨h, hand, bins, i, H, [], ?_, Nat.le_refl _, by simp [carry], ?_, hH, hv, fun _ _ => rfl, ?_⟩
    · unfold carryLoopC
      rw [if_neg (by simp at hn; omega)]
      simp [carry, vals]
    · have := hB.end
      simpa using this
    · simp at hn; simp [carry, hn]
  | cons b rest ih =>
    intro k h hand bins i H log hB hn hk hH hv hnd hfl h64
    obtain ⟨k, rfl⟩ : ∃ k', k = k' + 1 := ⟨k - 1, by simp at hk; omega⟩
    have hin : i < nF := by simp at hn; omega
    have hi64 : i < 64 := by
      have : 0 < (carry (mle lt v) H (b :: rest)).1.length := by cases b <;> simp [carry]
      omega
    have hib : i < bins.length := by rw [hB.len]; omega
    have hget : Go.get bins i = .ok bins[i] := by simp [Go.get, List.getElem?_eq_getElem hib]
    have hhi := hB.hold i bins[i] (List.getElem?_eq_getElem hib)
    rw [getD_pad, if_neg (by omega), Nat.sub_self, List.getD_cons_zero] at hhi
    cases b with
    | nil =>
      have hnone : bins[i] = none := hhi.1
      refine ⟨h, hand, bins, i, H, rest, ?_, Nat.le_refl _, by simp [carry], hB, hH, hv, fun _ _ => rfl, ?_⟩
      · unfold carryLoopC
        rw [if_pos hin, hget]
        simp only [Res.bind_ok]
        rw [hnone, if_neg (by simp [empty])]
        simp [carry, vals]
      · rw [if_neg (by omega)]
        simp [carry, hn]
    | cons x b =>
      have hsome : bins[i] = some x := hhi.1
      simp only [List.flatten_cons] at hnd hfl
      have hnd2 := List.nodup_append.1 hnd
      have hnd3 := List.nodup_append.1 hnd2.2.1
      have hdis : ∀ y ∈ x :: b, y ∉ H := fun y hy hyH => hnd2.2.2 y hyH y (List.mem_append_left _ hy) rfl
      obtain ⟨h1, b1, e1, hh1, f1, v1⟩ := mergeC_spec lt v fuel h bins[i] hand log (x :: b) H
        (by simp only [List.length_append] at hfl; omega) hhi hH hdis hv
      have hset : Go.set bins i none = .ok (bins.set i none) := by simp [Go.set, hib]
      have hB1 : BinsP h1 (bins.set i none) (List.replicate (i + 1) [] ++ rest) := by
        rw [← pad]
        refine hB.put hi64 none [] ⟨rfl, ring_nil _⟩ fun y hy => f1 y ?_ ?_
        · exact fun hyb => hnd3.2.2 y hyb y hy rfl
        · exact fun hyH => hnd2.2.2 y hyH y (List.mem_append_right _ hy) rfl
      have hp : (List.merge (x :: b) H (mle lt v) ++ rest.flatten).Perm (H ++ ((x :: b) ++ rest.flatten)) := by
        rw [← List.append_assoc]
        exact ((List.merge_perm_append _).trans List.perm_append_comm).append_right _
      obtain ⟨h', hand', bins', i', H', rest', e2, r1, r2, r3, r4, r5, r6, r7⟩ :=
        ih k h1 b1 (bins.set i none) (i + 1) (List.merge (x :: b) H (mle lt v))
          (log ++ vals v (mergeAsks (mle lt v) (x :: b) H)) hB1 (by simp at hn; omega) (by simp at hk; omega) hh1 v1
          (hp.nodup_iff.2 hnd) (by rw [hp.length_eq]; exact hfl) (by simp [carry] at h64; omega)
      refine ⟨h', hand', bins', i', H', rest', ?_, by omega, ?_, r3, r4, r5, ?_, ?_⟩
      · unfold carryLoopC
        rw [if_pos hin, hget]
        simp only [Res.bind_ok]
        rw [if_pos (by rw [hsome]; rfl), e1]
        simp only [Res.bind_ok]
        rw [hset]
        simp only [Res.bind_ok]
        rw [e2]
        simp [carry, vals]
      · simp only [carry]
        rw [r2, show i' - i = (i' - (i + 1)) + 1 by omega, List.replicate_succ, List.cons_append]
      · intro y hy
        have : y ∉ List.merge (x :: b) H (mle lt v) ++ rest.flatten := fun h => hy (by simpa using hp.mem_iff.1 h)
        rw [r6 y this, f1 y (fun hx => hy (by simp at hx ⊢; tauto)) (fun hx => hy (List.mem_append_left _ hx))]
      · rw [r7]; simp [carry]; omega

/-- The distribution loop. -/
theorem distLoopC_spec (lt : α → α → Bool) (v : Nat → α) (fuel : Nat) (R : List Nat) :
    ∀ (k : Nat) (h : Mem α) (head : Ptr) (bins : List Ptr) (bl : List (List Nat)) (log : List (α × α)),
      BinsP h bins bl → R.length < k → Holds h head R → (∀ x, (h x).val = v x) → (R ++ bl.flatten).Nodup →
      (R ++ bl.flatten).length + 64 < fuel → (R ++ bl.flatten).length < 2 ^ 64 → Cnt 0 bl →
      ∃ h' bins', distLoopC lt fuel k h head none bins bl.length log =
          .ok (some ((h', bins', (dist (mle lt v) R bl).1.length), log ++ vals v (dist (mle lt v) R bl).2)) ∧
        BinsP h' bins' (dist (mle lt v) R bl).1 ∧ (∀ x, (h' x).val = v x) ∧ (∀ y, y ∉ R ++ bl.flatten → h' y = h y) := by
  induction R with
  | nil =>
    intro k h head bins bl log hB hk hR hv hnd hfl h64 hc
    obtain ⟨k, rfl⟩ : ∃ k', k = k' + 1 := ⟨k - 1, by simp at hk; omega⟩
    have hhd : head = none := hR.1
    refine ⟨h, bins, ?_, hB, hv, fun _ _ => rfl⟩
    simp [distLoopC, hhd, empty, dist, vals]
  | cons x R ih =>
    intro k h head bins bl log hB hk hR hv hnd hfl h64 hc
    obtain ⟨k, rfl⟩ : ∃ k', k = k' + 1 := ⟨k - 1, by simp at hk; omega⟩
    have hhd : head = some x := hR.1
    have hnd1 := List.nodup_cons.1 (show (x :: (R ++ bl.flatten)).Nodup from hnd)
    have hnd2 := List.nodup_append.1 hnd1.2
    have hxR : x ∉ R := fun h => hnd1.1 (List.mem_append_left _ h)
    have hxB : x ∉ bl.flatten := fun h => hnd1.1 (List.mem_append_right _ h)
    have hRB : ∀ y ∈ R, y ∉ bl.flatten := fun y hy hyB => hnd2.2.2 y hy y hyB rfl
    obtain ⟨h1, hd1, e1, hR1, n1, n2, f1, v1⟩ := remove_spec (A := []) hR
    simp only [List.nil_append] at hR1 f1
    rw [hhd] at e1
    obtain ⟨h2, e2, hH2, f2, v2⟩ := insertFront_spec (h := h1) (head := none) (l := []) x ⟨rfl, ring_nil _⟩ (by simp)
    have hR2 : Holds h2 hd1 R := holds_frame hR1 (fun y hy => f2 y (by simp) (fun e => hxR (e ▸ hy)))
    have hfr2 : ∀ y, y ∉ x :: R → h2 y = h y := by
      intro y hy
      rw [f2 y (by simp) (fun e => hy (by simp [e])), f1 y hy]
    have hB2 : BinsP h2 bins (List.replicate 0 [] ++ bl) := by
      refine hB.frame fun y hy => hfr2 y ?_
      intro hyx
      rcases List.mem_cons.mp hyx with rfl | hyx
      · exact hxB hy
      · exact hRB y hyx hy
    have hcp := carry_perm (mle lt v) bl [x]
    have hcc := carry_cnt (mle lt v) bl 0 [x] rfl hc
    have hlen64 : ∀ bs : List (List Nat), Cnt 0 bs → bs.flatten.length < 2 ^ 64 → bs.length ≤ 64 := by
      intro bs hbs hl
      by_cases e : bs = []
      · simp [e]
      · have := cnt_size bs 0 hbs e
        have h3 : 2 ^ (0 + bs.length - 1) < 2 ^ 64 := by omega
        have := (Nat.pow_lt_pow_iff_right (by decide)).mp h3
        omega
    have hxl : ([x] ++ bl.flatten).length ≤ (x :: R ++ bl.flatten).length := by simp
    have hbl64 := hlen64 bl hc (by simp at h64 ⊢; omega)
    have hc64 := hlen64 _ hcc (by rw [hcp.length_eq]; omega)
    obtain ⟨h3, hand3, bins3, i3, H3, rest3, e3, r1, r2, r3, r4, r5, r6, r7⟩ :=
      carryLoopC_spec lt v fuel bl.length bl fuel h2 (some x) bins 0 [x] log hB2 (by simp) (by omega) hH2
        (fun y => by rw [v2, v1, hv]) (by simp [hxB, hnd2.2.1]) (by omega) (by omega)
    simp only [Nat.sub_zero, Nat.zero_add] at r2 r7
    have hi3 : i3 < 64 := by
      have := congrArg List.length r2
      simp at this
      omega
    have hib : i3 < bins3.length := by rw [r3.len]; exact hi3
    have hget : Go.get bins3 i3 = .ok bins3[i3] := by simp [Go.get, List.getElem?_eq_getElem hib]
    have hnone : bins3[i3] = none := by
      have := (r3.hold i3 _ (List.getElem?_eq_getElem hib)).1
      rw [getD_pad, if_neg (by omega), Nat.sub_self, List.getD_cons_zero] at this
      exact this
    have hset : Go.set bins3 i3 hand3 = .ok (bins3.set i3 hand3) := by simp [Go.set, hib]
    have hB4 : BinsP h3 (bins3.set i3 hand3) (carry (mle lt v) [x] bl).1 := by
      rw [r2]
      exact r3.put hi3 hand3 H3 r4 (fun _ _ => rfl)
    have hR3 : Holds h3 hd1 R := by
      refine holds_frame hR2 (fun y hy => r6 y ?_)
      intro hyQ
      rcases List.mem_append.mp hyQ with hyQ | hyQ
      · simp at hyQ; subst hyQ; exact hxR hy
      · exact hRB y hy hyQ
    have hpp : (R ++ (carry (mle lt v) [x] bl).1.flatten).Perm (x :: R ++ bl.flatten) := by
      refine (hcp.append_left R).trans ?_
      simp only [List.cons_append]
      exact List.perm_middle
    obtain ⟨h', bins', e5, s1, s2, s3⟩ :=
      ih k h3 hd1 (bins3.set i3 hand3) (carry (mle lt v) [x] bl).1 (log ++ vals v (carry (mle lt v) [x] bl).2) hB4
        (by simp at hk; omega) hR3 r5 (hpp.nodup_iff.2 hnd) (by rw [hpp.length_eq]; exact hfl) (by rw [hpp.length_eq]; exact h64) hcc
    refine ⟨h', bins', ?_, s1, s2, ?_⟩
    · unfold distLoopC
      rw [if_pos (by simp [hhd, empty])]
      simp only [removeFront, front, hhd, e1, Res.bind_ok, e2, e3, hget, hnone, hset, r7]
      rw [e5]
      simp [dist, vals]
    · intro y hy
      have h1 : y ∉ R ++ (carry (mle lt v) [x] bl).1.flatten := fun h => hy (hpp.mem_iff.1 h)
      rw [s3 y h1, r6 y (fun h => hy (by simp at h ⊢; tauto)), hfr2 y (fun h => hy (List.mem_append_left _ h))]

/-- The collecting loop. -/
theorem collLoopC_spec (lt : α → α → Bool) (v : Nat → α) (fuel nF : Nat) (rest : List (List Nat)) :
    ∀ (k : Nat) (h : Mem α) (bins : List Ptr) (p : Nat) (acc : List Nat) (log : List (α × α)),
      BinsP h bins (List.replicate p [] ++ acc :: rest) → nF = p + 1 + rest.length → nF ≤ 64 → rest.length < k →
      (∀ x, (h x).val = v x) → (acc ++ rest.flatten).Nodup → (acc ++ rest.flatten).length < fuel →
      ∃ h' bins' r, collLoopC lt fuel nF k h bins (p + 1) log =
          .ok (some ((h', bins'), log ++ vals v (coll (mle lt v) acc rest).2)) ∧
        Go.get bins' (nF - 1) = .ok r ∧ Holds h' r (coll (mle lt v) acc rest).1 ∧ (∀ x, (h' x).val = v x) ∧
        (∀ y, y ∉ acc ++ rest.flatten → h' y = h y) := by
  induction rest with
  | nil =>
    intro k h bins p acc log hB hn h64 hk hv hnd hfl
    obtain ⟨k, rfl⟩ : ∃ k', k = k' + 1 := ⟨k - 1, by simp at hk; omega⟩
    simp only [List.length_nil, Nat.add_zero] at hn
    have hpb : p < bins.length := by rw [hB.len]; omega
    have hh := hB.hold p _ (List.getElem?_eq_getElem hpb)
    rw [getD_pad, if_neg (by omega), Nat.sub_self, List.getD_cons_zero] at hh
    refine ⟨h, bins, bins[p], ?_, ?_, hh, hv, fun _ _ => rfl⟩
    · unfold collLoopC
      rw [if_neg (by omega)]
      simp [coll, vals]
    · rw [hn, Nat.add_sub_cancel]
      simp [Go.get, List.getElem?_eq_getElem hpb]
  | cons b rest ih =>
    intro k h bins p acc log hB hn h64 hk hv hnd hfl
    obtain ⟨k, rfl⟩ : ∃ k', k = k' + 1 := ⟨k - 1, by simp at hk; omega⟩
    simp only [List.length_cons] at hn
    have hin : p + 1 < nF := by omega
    have hib : p + 1 < bins.length := by rw [hB.len]; omega
    have hpb : p < bins.length := by omega
    have hget : Go.get bins (p + 1) = .ok bins[p + 1] := by simp [Go.get, List.getElem?_eq_getElem hib]
    have hget2 : Go.get bins p = .ok bins[p] := by simp [Go.get, List.getElem?_eq_getElem hpb]
    have hh1 := hB.hold (p + 1) _ (List.getElem?_eq_getElem hib)
    have hh2 := hB.hold p _ (List.getElem?_eq_getElem hpb)
    rw [getD_pad, if_neg (by omega), Nat.add_sub_cancel_left, List.getD_cons_succ, List.getD_cons_zero] at hh1
    rw [getD_pad, if_neg (by omega), Nat.sub_self, List.getD_cons_zero] at hh2
    simp only [List.flatten_cons] at hnd hfl
    have hnd2 := List.nodup_append.1 hnd
    have hnd3 := List.nodup_append.1 hnd2.2.1
    have hdis : ∀ x ∈ b, x ∉ acc := fun x h1 h2 => hnd2.2.2 x h2 x (List.mem_append_left _ h1) rfl
    obtain ⟨h1, b1, e1, hM, f1, v1⟩ := mergeC_spec lt v fuel h bins[p + 1] bins[p] log b acc
      (by simp only [List.length_append] at hfl; omega) hh1 hh2 hdis hv
    have hfr : ∀ x ∈ rest.flatten, h1 x = h x := by
      intro x hx
      exact f1 x (fun h2 => hnd3.2.2 x h2 x hx rfl) (fun h2 => hnd2.2.2 x h2 x (List.mem_append_right _ hx) rfl)
    have hB1 : BinsP h (bins.set p none) (List.replicate (p + 1) [] ++ b :: rest) := by
      rw [← pad]
      exact hB.put (by omega) none [] ⟨rfl, ring_nil _⟩ fun _ _ => rfl
    have hB2 : BinsP h1 ((bins.set p none).set (p + 1) b1) (List.replicate (p + 1) [] ++ List.merge b acc (mle lt v) :: rest) :=
      hB1.put (by omega) b1 _ hM hfr
    have hcomm : (bins.set p none).set (p + 1) b1 = (bins.set (p + 1) b1).set p none := by
      rw [List.set_comm _ _ (by omega)]
    rw [hcomm] at hB2
    have hp : (List.merge b acc (mle lt v) ++ rest.flatten).Perm (acc ++ (b ++ rest.flatten)) := by
      rw [← List.append_assoc]
      exact ((List.merge_perm_append _).trans List.perm_append_comm).append_right _
    obtain ⟨h', bins', r, e2, s0, s1, s2, s3⟩ :=
      ih k h1 _ (p + 1) (List.merge b acc (mle lt v)) (log ++ vals v (mergeAsks (mle lt v) b acc)) hB2 (by omega) h64
        (by simp at hk; omega) v1 (hp.nodup_iff.2 hnd) (by rw [hp.length_eq]; exact hfl)
    refine ⟨h', bins', r, ?_, s0, s1, s2, ?_⟩
    · unfold collLoopC
      rw [if_pos hin]
      simp only [Nat.add_sub_cancel, hget, hget2, Res.bind_ok, e1]
      have hs1 : Go.set bins (p + 1) b1 = .ok (bins.set (p + 1) b1) := by simp [Go.set, hib]
      have hs2 : Go.set (bins.set (p + 1) b1) p none = .ok ((bins.set (p + 1) b1).set p none) := by
        simp [Go.set, hpb]
      rw [hs1]
      simp only [Res.bind_ok]
      rw [hs2]
      simp only [Res.bind_ok]
      rw [e2]
      simp [coll, vals]
    · intro y hy
      have h2 : y ∉ List.merge b acc (mle lt v) ++ rest.flatten := fun h => hy (by simpa using hp.mem_iff.1 h)
      rw [s3 y h2, f1 y (fun hx => hy (by simp [hx])) (fun hx => hy (List.mem_append_left _ hx))]

/-- The algorithm on lists: the result and the comparisons. -/
def binSort {ν : Type} (le : ν → ν → Bool) (l : List ν) : List ν × List (ν × ν) :=
  let d := dist le l []
  let c := coll le [] d.1
  (c.1, d.2 ++ c.2)

/-- `Sort`, for every comparator. -/
theorem mergeSortC_spec (lt : α → α → Bool) (h : Mem α) (head : Ptr) (l : List Nat) (hh : Holds h head l)
    (hl64 : l.length < 2 ^ 64) (fuel : Nat) (hfuel : l.length + 64 < fuel) :
    ∃ h' head', mergeSortC lt fuel h head =
        .ok (some ((h', head'), vals (fun x => (h x).val) (binSort (mle lt fun x => (h x).val) l).2)) ∧
      Holds h' head' (binSort (mle lt fun x => (h x).val) l).1 ∧ (∀ x, (h' x).val = (h x).val) ∧ (∀ y, y ∉ l → h' y = h y) := by
  cases l with
  | nil =>
    have : head = none := hh.1
    subst this
    exact ⟨h, none, rfl, hh, fun _ => rfl, fun _ _ => rfl⟩
  | cons a t =>
    have : head = some a := hh.1
    subst this
    cases t with
    | nil =>
      refine ⟨h, some a, ?_, ?_, fun _ => rfl, fun _ _ => rfl⟩
      · simp [mergeSortC, (ring_single hh.2).1, binSort, dist, carry, coll, mergeAsks, vals]
      · simpa [binSort, dist, carry, coll] using hh
    | cons b t =>
      have hn : (h a).next = some b := ring_next_head hh.2
      have hnd := hh.2.1
      have hab : a ≠ b := by simp at hnd; tauto
      have hB0 : BinsP h (List.replicate 64 none) [] := by
        refine ⟨by simp, fun j c hc => ?_⟩
        have : c = none := List.eq_of_mem_replicate (List.mem_of_getElem? hc)
        subst this
        exact ⟨rfl, ring_nil h⟩
      obtain ⟨h1, bins1, e1, r1, r2, r3⟩ := distLoopC_spec lt (fun x => (h x).val) fuel (a :: b :: t) fuel h (some a)
        (List.replicate 64 none) [] [] hB0 (by omega) hh (fun _ => rfl) (by simpa using hnd) (by simpa using hfuel) (by simpa using hl64) trivial
      have hdp := dist_perm (mle lt fun x => (h x).val) (a :: b :: t) []
      have hdc := dist_cnt (mle lt fun x => (h x).val) (a :: b :: t) [] trivial
      simp only [List.flatten_nil, List.append_nil] at hdp
      cases hd : (dist (mle lt fun x => (h x).val) (a :: b :: t) []).1 with
      | nil => rw [hd] at hdp; exact absurd hdp.length_eq (by simp)
      | cons b0 bs =>
        rw [hd] at r1 hdp hdc
        have hsz := cnt_size _ 0 hdc (by simp)
        rw [hdp.length_eq] at hsz
        have hlen : (b0 :: bs).length ≤ 64 := by
          have h3 : 2 ^ (0 + (b0 :: bs).length - 1) < 2 ^ 64 := by omega
          have := (Nat.pow_lt_pow_iff_right (by decide)).mp h3
          omega
        obtain ⟨h2, bins2, r, e2, s0, s1, s2, s3⟩ := collLoopC_spec lt (fun x => (h x).val) fuel (b0 :: bs).length bs fuel h1 bins1 0 b0
          ([] ++ vals (fun x => (h x).val) (dist (mle lt fun x => (h x).val) (a :: b :: t) []).2) r1 (by simp; omega) hlen
          (by simp at hlen; omega) r2 (by rw [← List.flatten_cons]; exact hdp.nodup_iff.2 hnd)
          (by rw [← List.flatten_cons, hdp.length_eq]; omega)
        refine ⟨h2, r, ?_, ?_, s2, ?_⟩
        · unfold mergeSortC
          simp only [hn]
          rw [if_neg (by simpa using hab)]
          simp only [List.length_nil] at e1
          rw [e1]
          simp only [Res.bind_ok, hd]
          simp only [Nat.zero_add] at e2
          rw [e2]
          simp only [Res.bind_ok, s0]
          simp only [binSort, hd, coll, List.merge_right, mergeAsks_nil_right, List.nil_append, vals, List.map_append]
          rfl
        · simpa only [binSort, hd, coll, List.merge_right] using s1
        · intro y hy
          have : y ∉ b0 ++ bs.flatten := fun h => hy (by rw [← List.flatten_cons] at h; exact hdp.mem_iff.1 h)
          rw [s3 y this, r3 y (by simpa using hy)]

end Verif.DList
