import Verif.Lemmas.DList
import Verif.Spec.ListWorld
import Mathlib.Data.List.Nodup
/-!
# Properties C21–C25: InsertAfter, Move*, Reverse, InsertFrontList, IsValidNode

These operations are wrong in some or all cases; each exact behaviour is proved.
-/

set_option linter.unusedSectionVars false

namespace Verif.DList
open Verif.Spec
variable {α : Type}

/-! ## C21 -/

/-- Only the forward links of a ring. -/
def Forward (h : Mem α) : List Nat → Prop
  | [] => True
  | [_] => True
  | a :: b :: t => (h a).next = some b ∧ Forward h (b :: t)

theorem chain_forward {h : Mem α} (L : List Nat) (hc : Chain h L) : Forward h L := by
  induction L with
  | nil => trivial
  | cons a A ih =>
    cases A with
    | nil => trivial
    | cons b B => exact ⟨hc.1.1, ih hc.2⟩

theorem forward_append (h : Mem α) (A : List Nat) (b : Nat) (B : List Nat) :
    Forward h (A ++ b :: B) ↔ Forward h (A ++ [b]) ∧ Forward h (b :: B) := by
  induction A with
  | nil => simp [Forward]
  | cons a A ih =>
    cases A with
    | nil => simp [Forward]
    | cons c C =>
      simp only [List.cons_append, Forward] at ih ⊢
      rw [ih, and_assoc]

theorem forward_frame {h h' : Mem α} (L : List Nat) (hc : Forward h L)
    (hn : ∀ x ∈ L.dropLast, (h' x).next = (h x).next) : Forward h' L := by
  induction L with
  | nil => trivial
  | cons a A ih =>
    cases A with
    | nil => trivial
    | cons b B =>
      refine ⟨by rw [hn a (by simp)]; exact hc.1, ih hc.2 ?_⟩
      intro x hx; exact hn x (by simp only [List.dropLast_cons_cons]; exact List.mem_cons_of_mem _ hx)

/-- What `InsertAfter` writes. -/
theorem insertAfter_writes (h : Mem α) (n m : Nat) (hnm : n ≠ m) :
    ∃ h', insertAfter h (some n) (some m) = .ok (h', some n) ∧
      (∀ y, (h' y).next = if y = m then some n else if y = n then (h m).next else (h y).next) ∧
      (∀ y, (h' y).prev = if y = n then some m else (h y).prev) ∧
      (∀ y, (h' y).val = (h y).val) := by
  refine ⟨_, by
    unfold insertAfter
    rw [if_pos (by simp)]
    simp only [rd, setNext, setPrev, Res.bind_ok]
    rfl, ?_, ?_, ?_⟩
  · intro y
    by_cases h1 : y = m <;> by_cases h2 : y = n <;> simp_all [upd]
  · intro y
    by_cases h1 : y = m <;> by_cases h2 : y = n <;> simp_all [upd]
  · intro y
    by_cases h1 : y = m <;> by_cases h2 : y = n <;> simp_all [upd]

/-- **C21** fails: whatever the list and the mark, after `InsertAfter(n, mark)` memory does not hold the list
with `n` behind the mark, because the node that follows still points back to the mark. -/
theorem C21_insertAfter_false {h : Mem α} {head : Ptr} {A B : List Nat} {m : Nat} (n : Nat)
    (hh : Holds h head (A ++ m :: B)) (hn : n ∉ A ++ m :: B) :
    ∃ h', insertAfter h (some n) (some m) = .ok (h', some n) ∧
      ∀ head', ¬ Holds h' head' (A ++ m :: n :: B) := by
  have hnm : n ≠ m := fun e => hn (by simp [e])
  obtain ⟨h', e, hnx, hpv, _⟩ := insertAfter_writes h n m hnm
  refine ⟨h', e, ?_⟩
  rintro head' ⟨_, hr'⟩
  have hrot := ring_rotate (A ++ [m]) (n :: B) (by simpa using hr')
  have hrot0 := ring_rotate A (m :: B) hh.2
  -- the node following n
  have key : ∀ c, c ≠ n → (h c).prev = some m → (h' c).prev = some n → False := by
    intro c hc h1 h2
    rw [hpv, if_neg hc, h1] at h2
    exact hnm (Option.some.inj h2).symm
  cases hBA : B ++ A with
  | nil =>
    have hB : B = [] := by cases B <;> simp_all
    have hA : A = [] := by subst hB; simpa using hBA
    subst hA hB
    have h1 := (ring_single hh.2).2
    have h2 := (hrot.2.1).2
    exact key m (Ne.symm hnm) h1 h2
  | cons c C =>
    have hc : c ∈ B ++ A := by rw [hBA]; simp
    have hcn : c ≠ n := by rintro rfl; exact hn (by simp at hc ⊢; tauto)
    have h1 : (h c).prev = some m := by
      have : Ring h (m :: c :: C) := by rw [← hBA]; exact hrot0
      exact this.2.1.2
    have h2 : (h' c).prev = some n := by
      have : Ring h' (n :: c :: (C ++ [m])) := by
        have e : n :: B ++ (A ++ [m]) = n :: c :: (C ++ [m]) := by
          rw [List.cons_append, ← List.append_assoc, hBA]; rfl
        rw [← e]; exact hrot
      exact this.2.1.2
    exact key c hcn h1 h2

/-- **C21, the part that holds**: walking forward the new node is behind the mark and everything else keeps
its order; the new node points back to the mark; all other backward links and all values are unchanged.
Missing: the backward link of the following node. -/
theorem C21_insertAfter_partial {h : Mem α} {head : Ptr} {A B : List Nat} {m a : Nat} (n : Nat)
    (hh : Holds h head (A ++ m :: B)) (hn : n ∉ A ++ m :: B) (ha : (A ++ m :: B).head? = some a) :
    ∃ h', insertAfter h (some n) (some m) = .ok (h', some n) ∧
      Forward h' (A ++ m :: n :: B ++ [a]) ∧ (h' n).prev = some m ∧
      (∀ y, y ≠ n → (h' y).prev = (h y).prev) ∧ (∀ y, (h' y).val = (h y).val) := by
  have hnm : n ≠ m := fun e => hn (by simp [e])
  obtain ⟨h', e, hnx, hpv, hvl⟩ := insertAfter_writes h n m hnm
  refine ⟨h', e, ?_, by rw [hpv, if_pos rfl], fun y hy => by rw [hpv, if_neg hy], hvl⟩
  have hnd := hh.2.1
  have hf : Forward h (A ++ m :: (B ++ [a])) := by
    have := hh.2.2
    cases hl : A ++ m :: B with
    | nil => simp at hl
    | cons c C =>
      rw [hl] at this ha
      simp at ha; subst ha
      have h1 := chain_forward _ this
      rw [← hl] at h1
      simpa using h1
  obtain ⟨f1, f2⟩ := (forward_append h A m (B ++ [a])).mp hf
  have e1 : A ++ m :: n :: B ++ [a] = A ++ m :: (n :: (B ++ [a])) := by simp
  rw [e1, forward_append]
  have hmA : m ∉ A := fun hx => (List.nodup_append.mp hnd).2.2 m hx m (by simp) rfl
  refine ⟨?_, by rw [hnx, if_pos rfl], ?_⟩
  · refine forward_frame _ f1 ?_
    intro x hx
    rw [List.dropLast_concat] at hx
    rw [hnx, if_neg (by rintro rfl; exact hmA hx), if_neg (by rintro rfl; exact hn (by simp [hx]))]
  · cases hB : B ++ [a] with
    | nil => simp at hB
    | cons c C =>
      rw [hB] at f2
      refine ⟨by rw [hnx, if_neg hnm, if_pos rfl]; exact f2.1, ?_⟩
      refine forward_frame _ f2.2 ?_
      intro x hx
      have hxB : x ∈ B := by rw [← hB, List.dropLast_concat] at hx; exact hx
      have hmB : m ∉ B := (List.nodup_cons.mp (List.nodup_append.mp hnd).2.1).1
      rw [hnx, if_neg (by rintro rfl; exact hmB hxB), if_neg (by rintro rfl; exact hn (by simp [hxB]))]

/-- A ring of three nodes; node 9 is free. -/
def exRing : Mem Int := fun a =>
  if a = 0 then ⟨1, some 2, some 1⟩ else if a = 1 then ⟨2, some 0, some 2⟩
  else if a = 2 then ⟨3, some 1, some 0⟩ else ⟨0, none, none⟩

example : Holds exRing (some 0) ([0] ++ 1 :: [2]) := by simp [Holds, Ring, Chain, Link, exRing]
example : (9 : Nat) ∉ ([0] ++ 1 :: [2] : List Nat) := by decide
/-- Forward `0 1 9 2`, backward `2 1 0`. -/
example : (match insertAfter exRing (some 9) (some 1) with
    | .ok (h, _) => ([0, 1, 9, 2].map fun x => (h x).next, [2, 1, 0].map fun x => (h x).prev)
    | .panic => ([], [])) = ([some 1, some 9, some 2, some 0], [some 1, some 0, some 2]) := by decide

/-! ## C22 -/

/-- Behind `m`. -/
def insAfter (n m : Nat) : List Nat → List Nat
  | [] => []
  | a :: t => if a = m then a :: n :: t else a :: insAfter n m t

theorem insAfter_at (n m : Nat) (A B : List Nat) (hm : m ∉ A) : insAfter n m (A ++ m :: B) = A ++ m :: n :: B := by
  induction A with
  | nil => simp [insAfter]
  | cons a A ih =>
    have h1 : a ≠ m := fun e => hm (by simp [e])
    simp [insAfter, h1, ih (fun h => hm (by simp [h]))]

theorem insBefore_at (n m : Nat) (A B : List Nat) (hm : m ∉ A) : insBefore n m (A ++ m :: B) = A ++ n :: m :: B := by
  induction A with
  | nil => simp [insBefore]
  | cons a A ih =>
    have h1 : a ≠ m := fun e => hm (by simp [e])
    simp [insBefore, h1, ih (fun h => hm (by simp [h]))]

theorem erase_at (x : Nat) (A B : List Nat) (hx : x ∉ A) : (A ++ x :: B).erase x = A ++ B := by
  rw [List.erase_append_right _ hx]; simp

/-- The four writes of `MoveAfter`. -/
def linkAfter (h : Mem α) (n m : Ptr) : Res (Mem α) := do
  let mm ← rd h m
  let h ← setNext h n mm.next
  let h ← setPrev h n m
  let mm ← rd h m
  let h ← setPrev h mm.next n
  setNext h m n

theorem linkAfter_spec (h : Mem α) (n m : Nat) (C : List Nat) (hr : Ring h (m :: C)) (hn : n ∉ m :: C) :
    ∃ h', linkAfter h (some n) (some m) = .ok h' ∧ Ring h' (m :: n :: C) ∧
      (∀ x, x ∉ m :: C → x ≠ n → h' x = h x) ∧ (∀ x, (h' x).val = (h x).val) := by
  have hnm : n ≠ m := fun e => hn (by simp [e])
  have hnd := hr.1
  -- c: the node after m on the ring
  obtain ⟨c, T, hc, hcm⟩ : ∃ c T, C ++ [m] = c :: T ∧ c ∈ m :: C := by
    cases C with
    | nil => exact ⟨m, [], rfl, by simp⟩
    | cons c C => exact ⟨c, C ++ [m], rfl, by simp⟩
  have hch : Chain h (m :: c :: T) := by
    have := hr.2
    simp only [List.cons_append, hc] at this
    exact this
  have hnext : (h m).next = some c := hch.1.1
  have hcn : c ≠ n := fun e => hn (e ▸ hcm)
  obtain ⟨h', he, hnx, hpv, hvl, hfr⟩ : ∃ h', linkAfter h (some n) (some m) = .ok h' ∧
      (∀ x, (h' x).next = if x = m then some n else if x = n then some c else (h x).next) ∧
      (∀ x, (h' x).prev = if x = c then some n else if x = n then some m else (h x).prev) ∧
      (∀ x, (h' x).val = (h x).val) ∧ (∀ x, x ≠ n → x ≠ m → x ≠ c → h' x = h x) := by
    refine ⟨_, by
      simp only [linkAfter, setNext, setPrev, rd, Res.bind_ok, hnext, upd_ne _ _ _ _ (Ne.symm hnm)]
      rfl, ?_, ?_, ?_, ?_⟩
    · intro x
      by_cases h1 : x = m <;> by_cases h2 : x = c <;> by_cases h3 : x = n <;> simp_all [upd]
    · intro x
      by_cases h1 : x = m <;> by_cases h2 : x = c <;> by_cases h3 : x = n <;> simp_all [upd]
    · intro x
      by_cases h1 : x = m <;> by_cases h2 : x = c <;> by_cases h3 : x = n <;> simp_all [upd]
    · intro x h1 h2 h3
      simp [upd, h1, h2, h3]
  refine ⟨h', he, ⟨?_, ?_⟩, ?_, hvl⟩
  · rw [List.nodup_cons] at hnd ⊢
    simp only [List.mem_cons, not_or] at hn ⊢
    rw [List.nodup_cons]
    exact ⟨⟨Ne.symm hn.1, hnd.1⟩, hn.2, hnd.2⟩
  · show Chain h' (m :: n :: (C ++ [m]))
    rw [hc]
    refine ⟨⟨by rw [hnx, if_pos rfl], by rw [hpv, if_neg (Ne.symm hcn), if_pos rfl]⟩,
      ⟨by rw [hnx, if_neg hnm, if_pos rfl], by rw [hpv, if_pos rfl]⟩, ?_⟩
    refine chain_frame _ hch.2 ?_ ?_
    · intro x hx
      have hxC : x ∈ C := by rw [← hc, List.dropLast_concat] at hx; exact hx
      rw [hnx, if_neg (by rintro rfl; exact (List.nodup_cons.mp hnd).1 hxC),
        if_neg (by rintro rfl; exact hn (by simp [hxC]))]
    · intro x hx
      have hxT : x ∈ T := by simpa using hx
      have hcT : (c :: T).Nodup := by
        rw [← hc]
        have := (List.perm_append_comm (l₁ := [m]) (l₂ := C)).nodup_iff.mp (by simpa using hnd)
        simpa using this
      have hxm : x ∈ m :: C := by
        have : x ∈ C ++ [m] := by rw [hc]; simp [hxT]
        simp at this ⊢; tauto
      rw [hpv, if_neg (by rintro rfl; exact (List.nodup_cons.mp hcT).1 hxT), if_neg (by rintro rfl; exact hn hxm)]
  · intro x hx hxn
    exact hfr x hxn (fun e => hx (by simp [e])) (fun e => hx (e ▸ hcm))

theorem moveAfter_eq (h : Mem α) (head node mark : Ptr) :
    moveAfter h head node mark =
      if node ≠ none ∧ mark ≠ none ∧ node ≠ mark ∧ nodeNext h mark ≠ node then do
        let (h, head, r) ← remove h head node
        if r ≠ none then do
          let h ← linkAfter h node mark
          return (h, head, r)
        else return (h, head, r)
      else return (h, head, none) := by
  unfold moveAfter linkAfter
  split
  · congr 1
    funext ⟨h, hd, r⟩
    simp only
    split
    · cases mark with
      | none => rfl
      | some m =>
        simp only [rd, Res.bind_ok]
        cases setNext h node (h m).next with
        | panic => rfl
        | ok h1 =>
          simp only [Res.bind_ok]
          cases setPrev h1 node (some m) with
          | panic => rfl
          | ok h2 =>
            simp only [Res.bind_ok]
            cases setPrev h2 (h2 m).next node with
            | panic => rfl
            | ok h3 => rfl
    · rfl
  · rfl

/-- Position of two different members. -/
theorem two_split {l : List Nat} {x m : Nat} (hx : x ∈ l) (hm : m ∈ l) (hxm : x ≠ m) :
    (∃ A B C, l = A ++ x :: (B ++ m :: C)) ∨ (∃ A B C, l = A ++ m :: (B ++ x :: C)) := by
  obtain ⟨A, B, rfl⟩ := List.append_of_mem hx
  simp only [List.mem_append, List.mem_cons] at hm
  rcases hm with hm | hm | hm
  · obtain ⟨A1, A2, rfl⟩ := List.append_of_mem hm
    right; exact ⟨A1, A2, B, by simp⟩
  · exact absurd hm.symm hxm
  · obtain ⟨B1, B2, rfl⟩ := List.append_of_mem hm
    left; exact ⟨A, B1, B2, rfl⟩

/-- **C22, the part that holds, MoveAfter**: for every node and every other mark, the node ends up right behind
the mark and everything else keeps its order — unless the node is the first and the mark the last of the list. -/
theorem C22_moveAfter_partial {h : Mem α} {head : Ptr} {l : List Nat} {x m : Nat} (hh : Holds h head l)
    (hx : x ∈ l) (hm : m ∈ l) (hxm : x ≠ m) (hex : ¬ (l.head? = some x ∧ l.getLast? = some m)) :
    ∃ h' head' r, moveAfter h head (some x) (some m) = .ok (h', head', r) ∧
      Holds h' head' (insAfter x m (l.erase x)) ∧ (∀ y, y ∉ l → h' y = h y) ∧ (∀ y, (h' y).val = (h y).val) := by
  rw [moveAfter_eq]
  obtain ⟨A, B, hl⟩ := List.append_of_mem hx
  have hnd := hh.2.1
  subst hl
  have hxA : x ∉ A := fun h1 => (List.nodup_append.mp hnd).2.2 x h1 x (by simp) rfl
  rw [erase_at x A B hxA]
  by_cases hadj : (h m).next = some x
  · -- nothing to do
    rw [if_neg (by simp [nodeNext, hadj])]
    refine ⟨h, head, none, rfl, ?_, fun _ _ => rfl, fun _ => rfl⟩
    -- the mark stands right before x
    have hrot := ring_rotate A (x :: B) hh.2
    have hp : (h x).prev = some m := by
      -- x is the successor of m, so m is the predecessor of x
      obtain ⟨M1, M2, hM⟩ := List.append_of_mem hm
      have hr := hh.2
      rw [hM] at hr
      have hrm := ring_rotate M1 (m :: M2) hr
      cases hT : M2 ++ M1 ++ [m] with
      | nil => simp at hT
      | cons c T =>
        have : Chain h (m :: c :: T) := by
          have := hrm.2
          simp only [List.cons_append] at this
          rw [hT] at this; exact this
        have hc : c = x := by
          have h1 := this.1.1
          rw [hadj] at h1; exact (Option.some.inj h1).symm
        subst hc
        exact this.1.2
    obtain ⟨D, z, hz⟩ := exists_concat x (B ++ A)
    have hz' := ring_prev_head hz hrot
    rw [hp] at hz'
    have hzm : z = m := (Option.some.inj hz').symm
    subst hzm
    rcases List.eq_nil_or_concat A with hA | ⟨A', a, hA⟩
    · -- then x is first and m last, excluded
      subst hA
      exfalso
      apply hex
      refine ⟨by simp, ?_⟩
      simp only [List.append_nil, List.nil_append] at hz ⊢
      rw [hz]; simp
    · rw [List.concat_eq_append] at hA
      subst hA
      have : a = z := by
        have h1 : (x :: (B ++ (A' ++ [a]))).getLast? = some a := by
          rw [← List.append_assoc, ← List.cons_append, List.getLast?_concat]
        rw [hz] at h1; simp at h1; exact h1.symm
      subst this
      have haA : a ∉ A' := by
        intro h1
        rw [List.append_assoc] at hnd
        exact (List.nodup_append.mp hnd).2.2 a h1 a (by simp) rfl
      have e : A' ++ [a] ++ B = A' ++ a :: B := by simp
      rw [e, insAfter_at x a A' B haA]
      simpa using hh
  · rw [if_pos (by simp [nodeNext, hadj, hxm])]
    obtain ⟨h1, hd1, e1, hh1, n1, n2, f1, v1⟩ := remove_spec hh
    have hmAB : m ∈ A ++ B := by
      simp at hm ⊢
      rcases hm with h | h | h
      · exact Or.inl h
      · exact absurd h.symm hxm
      · exact Or.inr h
    have hxAB : x ∉ A ++ B := by
      intro h1
      rcases List.mem_append.mp h1 with h1 | h1
      · exact hxA h1
      · exact (List.nodup_cons.mp (List.nodup_append.mp hnd).2.1).1 h1
    obtain ⟨M1, M2, hM⟩ := List.append_of_mem hmAB
    rw [hM] at hh1 hxAB
    have hrm := ring_rotate M1 (m :: M2) hh1.2
    obtain ⟨h2, e2, hr2, f2, v2⟩ := linkAfter_spec h1 x m (M2 ++ M1) (by simpa using hrm)
      (by simp at hxAB ⊢; tauto)
    refine ⟨h2, hd1, some x, by simp [e1, e2], ?_, ?_, fun y => by rw [v2, v1]⟩
    · have hmM : m ∉ M1 := fun h1 => (List.nodup_append.mp hh1.2.1).2.2 m h1 m (by simp) rfl
      rw [hM, insAfter_at x m M1 M2 hmM]
      refine ⟨?_, ?_⟩
      · rw [hh1.1]; cases M1 <;> simp
      · have : Ring h2 ((m :: x :: M2) ++ M1) := by simpa using hr2
        exact ring_rotate _ _ this
    · intro y hy
      have hyM : y ∉ M1 ++ m :: M2 := by rw [← hM]; simp at hy ⊢; tauto
      rw [f2 y (by simp at hyM ⊢; tauto) (by rintro rfl; exact hy (by simp)), f1 y hy]

/-- **C22** fails for `MoveAfter(first, last)`: the call changes nothing. -/
theorem C22_moveAfter_first_last {h : Mem α} {head : Ptr} {x m : Nat} {C : List Nat}
    (hh : Holds h head (x :: C ++ [m])) : moveAfter h head (some x) (some m) = .ok (h, head, none) := by
  have : (h m).next = some x := ring_next_last (A := C ++ [m]) (D := x :: C) (z := m) (by simp) (by simpa using hh.2)
  rw [moveAfter_eq, if_neg (by simp [nodeNext, this])]
  rfl

/-- … while the first node was to be placed behind the last. -/
example : insAfter 0 2 ([0, 1, 2].erase 0) = [1, 2, 0] := by decide

/-- `MoveBefore` writes the same four links as `InsertBefore` on a ring. -/
theorem moveBefore_links (h : Mem α) (n m : Nat) (C : List Nat) (hr : Ring h (m :: C)) :
    (do
      let mm ← rd h (some m)
      let mp ← rd h mm.prev
      let h ← setNext h (some n) mp.next
      let mm ← rd h (some m)
      let h ← setPrev h (some n) mm.prev
      let mm ← rd h (some m)
      let h ← setNext h mm.prev (some n)
      setPrev h (some m) (some n)) = linkBefore h (some n) (some m) := by
  obtain ⟨D, z, hz⟩ := exists_concat m C
  have h1 := ring_prev_head hz hr
  have h2 := ring_next_last hz hr
  simp only [rd, h1, Res.bind_ok, h2, linkBefore]

/-- Continuing after these four writes. -/
theorem bind_links (h1 h2 : Mem α) (x m : Nat)
    (e3 : (do
      let mm ← rd h1 (some m)
      let mp ← rd h1 mm.prev
      let h ← setNext h1 (some x) mp.next
      let mm ← rd h (some m)
      let h ← setPrev h (some x) mm.prev
      let mm ← rd h (some m)
      let h ← setNext h mm.prev (some x)
      setPrev h (some m) (some x)) = .ok h2) (f : Mem α → Res (Mem α × Ptr × Ptr)) :
    (do
      let mm ← rd h1 (some m)
      let mp ← rd h1 mm.prev
      let h ← setNext h1 (some x) mp.next
      let mm ← rd h (some m)
      let h ← setPrev h (some x) mm.prev
      let mm ← rd h (some m)
      let h ← setNext h mm.prev (some x)
      let h ← setPrev h (some m) (some x)
      f h) = f h2 := by
  have : (do
    let mm ← rd h1 (some m)
    let mp ← rd h1 mm.prev
    let h ← setNext h1 (some x) mp.next
    let mm ← rd h (some m)
    let h ← setPrev h (some x) mm.prev
    let mm ← rd h (some m)
    let h ← setNext h mm.prev (some x)
    let h ← setPrev h (some m) (some x)
    f h) = (do
      let h' ← (do
        let mm ← rd h1 (some m)
        let mp ← rd h1 mm.prev
        let h ← setNext h1 (some x) mp.next
        let mm ← rd h (some m)
        let h ← setPrev h (some x) mm.prev
        let mm ← rd h (some m)
        let h ← setNext h mm.prev (some x)
        setPrev h (some m) (some x))
      f h') := by
    simp only [rd, Res.bind_ok, setNext, setPrev]
    cases (h1 m).prev with
    | none => rfl
    | some z =>
      simp only [Res.bind_ok]
      split <;> rfl
  rw [this, e3]; rfl

/-- **C22, the part that holds, MoveBefore**: correct whenever the mark is not the first node. -/
theorem C22_moveBefore_partial {h : Mem α} {head : Ptr} {l : List Nat} {x m : Nat} (hh : Holds h head l)
    (hx : x ∈ l) (hm : m ∈ l) (hxm : x ≠ m) (hex : l.head? ≠ some m) :
    ∃ h' head' r, moveBefore h head (some x) (some m) = .ok (h', head', r) ∧
      Holds h' head' (insBefore x m (l.erase x)) ∧ (∀ y, y ∉ l → h' y = h y) ∧ (∀ y, (h' y).val = (h y).val) := by
  obtain ⟨A, B, hl⟩ := List.append_of_mem hx
  have hnd := hh.2.1
  subst hl
  have hxA : x ∉ A := fun h1 => (List.nodup_append.mp hnd).2.2 x h1 x (by simp) rfl
  rw [erase_at x A B hxA]
  unfold moveBefore
  by_cases hadj : (h x).next = some m
  · rw [if_neg (by simp [nodeNext, hadj])]
    refine ⟨h, head, none, rfl, ?_, fun _ _ => rfl, fun _ => rfl⟩
    have hrot := ring_rotate A (x :: B) hh.2
    cases B with
    | nil =>
      exfalso
      apply hex
      cases A with
      | nil => simp at hm; exact absurd hm.symm hxm
      | cons a A =>
        have : (h x).next = some a := ring_next_head (by simpa using hrot)
        rw [hadj] at this
        simp [(Option.some.inj this)]
    | cons b B =>
      have : (h x).next = some b := ring_next_head (by simpa using hrot)
      rw [hadj] at this
      have hb : m = b := Option.some.inj this
      subst hb
      have hmA : m ∉ A := fun h1 => (List.nodup_append.mp hnd).2.2 m h1 m (by simp) rfl
      rw [insBefore_at x m A B hmA]
      exact hh
  · rw [if_pos (by simp [nodeNext, hadj, hxm])]
    obtain ⟨h1, hd1, e1, hh1, n1, n2, f1, v1⟩ := remove_spec hh
    have hmAB : m ∈ A ++ B := by
      simp at hm ⊢
      rcases hm with h | h | h
      · exact Or.inl h
      · exact absurd h.symm hxm
      · exact Or.inr h
    have hxAB : x ∉ A ++ B := by
      intro h1
      rcases List.mem_append.mp h1 with h1 | h1
      · exact hxA h1
      · exact (List.nodup_cons.mp (List.nodup_append.mp hnd).2.1).1 h1
    have hmh : (A ++ B).head? ≠ some m := by
      cases A with
      | cons a A => simpa using hex
      | nil =>
        cases B with
        | nil => simp
        | cons b B =>
          have : (h x).next = some b := ring_next_head (by simpa using hh.2)
          rw [this] at hadj
          simpa using hadj
    obtain ⟨M1, M2, hM⟩ := List.append_of_mem hmAB
    rw [hM] at hh1 hxAB hmh
    have hrm := ring_rotate M1 (m :: M2) hh1.2
    have hxM : x ∉ m :: (M2 ++ M1) := by simp at hxAB ⊢; tauto
    obtain ⟨h2, e2, hr2, f2, v2⟩ := linkBefore_spec h1 x m (M2 ++ M1) (by simpa using hrm) hxM
    have e3 := moveBefore_links h1 x m (M2 ++ M1) (by simpa using hrm)
    rw [e2] at e3
    refine ⟨h2, hd1, some x, ?_, ?_, ?_, fun y => by rw [v2, v1]⟩
    · rw [e1]
      simp only [Res.bind_ok]
      rw [if_pos (by simp)]
      exact bind_links h1 h2 x m e3 _
    · have hmM : m ∉ M1 := fun h1 => (List.nodup_append.mp hh1.2.1).2.2 m h1 m (by simp) rfl
      rw [hM, insBefore_at x m M1 M2 hmM]
      refine ⟨?_, ?_⟩
      · rw [hh1.1]
        cases M1 with
        | nil => simp at hmh
        | cons a M1 => simp
      · have : Ring h2 ((m :: M2) ++ (M1 ++ [x])) := by simpa using hr2
        have := ring_rotate _ _ this
        simpa using this
    · intro y hy
      have hyM : y ∉ M1 ++ m :: M2 := by rw [← hM]; simp at hy ⊢; tauto
      rw [f2 y (by simp at hyM ⊢; tauto) (by rintro rfl; exact hy (by simp)), f1 y hy]

/-- **C22** fails for `MoveBefore(last, first)`: the call changes nothing. -/
theorem C22_moveBefore_last_first {h : Mem α} {head : Ptr} {x m : Nat} {C : List Nat}
    (hh : Holds h head (m :: C ++ [x])) : moveBefore h head (some x) (some m) = .ok (h, head, none) := by
  have : (h x).next = some m := ring_next_last (A := C ++ [x]) (D := m :: C) (z := x) (by simp) (by simpa using hh.2)
  unfold moveBefore
  rw [if_neg (by simp [nodeNext, this])]
  rfl

/-- **C22** fails for `MoveBefore(x, first)` of any `x` that is not the last node: it becomes the last node. -/
theorem C22_moveBefore_first_exact {h : Mem α} {head : Ptr} {x m b : Nat} {A B : List Nat}
    (hh : Holds h head (m :: A ++ x :: b :: B)) :
    ∃ h', moveBefore h head (some x) (some m) = .ok (h', head, some x) ∧
      Holds h' head (m :: A ++ b :: B ++ [x]) := by
  have hnd := hh.2.1
  have hhd : head = some m := hh.1
  have hxm : x ≠ m := by rintro rfl; simp at hnd
  have hbm : b ≠ m := by rintro rfl; simp at hnd
  have hrot := ring_rotate (m :: A) (x :: b :: B) hh.2
  have hnext : (h x).next = some b := ring_next_head (by simpa using hrot)
  obtain ⟨h1, hd1, e1, hh1, n1, n2, f1, v1⟩ := remove_spec hh
  have hd1' : hd1 = head := by rw [hh1.1, hhd]; rfl
  subst hd1'
  have hxM : x ∉ m :: (A ++ b :: B) := by
    rw [List.nodup_append] at hnd
    intro hx
    simp only [List.mem_cons, List.mem_append] at hx
    rcases hx with h | h | h
    · exact hxm h
    · exact hnd.2.2 x (by simp [h]) x (by simp) rfl
    · exact (List.nodup_cons.mp hnd.2.1).1 (by simpa using h)
  have hr1 : Ring h1 (m :: (A ++ b :: B)) := by simpa using hh1.2
  obtain ⟨h2, e2, hr2, f2, v2⟩ := linkBefore_spec h1 x m (A ++ b :: B) hr1 hxM
  have e3 := moveBefore_links h1 x m (A ++ b :: B) hr1
  rw [e2] at e3
  refine ⟨h2, ?_, by rw [hhd]; rfl, by simpa using hr2⟩
  unfold moveBefore
  rw [if_pos (by simp [nodeNext, hnext, hxm, hbm]), e1]
  simp only [Res.bind_ok]
  rw [if_pos (by simp)]
  exact bind_links h1 h2 x m e3 _

/-- `MoveBack` in terms of unlinking and linking before the head. -/
theorem moveBack_eq (h : Mem α) (head : Ptr) (a : Nat) (hn : (h a).next ≠ none) (hp : (h a).prev ≠ none)
    (hs : (h a).next ≠ some a) :
    moveBack h head (some a) = (do
      let h ← setPrev h (h a).next (h a).prev
      let h ← setNext h (h a).prev (h a).next
      let h ← linkBefore h (some a) head
      return (h, some a)) := by
  unfold moveBack linkBefore
  simp only
  rw [if_pos ⟨hn, hp, hs⟩]
  cases setPrev h (h a).next (h a).prev with
  | panic => rfl
  | ok h1 =>
    simp only [Res.bind_ok]
    cases setNext h1 (h1 a).prev (h1 a).next with
    | panic => rfl
    | ok h2 =>
      simp only [Res.bind_ok]
      cases head with
      | none => rfl
      | some b =>
        simp only [setNext, setPrev, rd, Res.bind_ok]
        split <;> rfl

/-- Unlinking a node of a ring of at least two. -/
theorem unlink_core (h : Mem α) (x c : Nat) (C : List Nat) (hr : Ring h (x :: c :: C)) :
    ∃ h', (do
        let h ← setPrev h (h x).next (h x).prev
        setNext h (h x).prev (h x).next) = .ok h' ∧ Ring h' (c :: C) ∧
      (∀ y, y ∉ c :: C → h' y = h y) ∧ (∀ y, (h' y).val = (h y).val) := by
  obtain ⟨h1, e1, hr1, n1, n2, f1, v1⟩ := remove_core h x c C hr none
  have hxC : x ∉ c :: C := (List.nodup_cons.mp hr.1).1
  obtain ⟨D, d, hd⟩ := exists_concat c C
  have hdm : d ∈ c :: C := by rw [hd]; simp
  have hcx : c ≠ x := fun e => hxC (by simp [e])
  have hdx : d ≠ x := fun e => hxC (e ▸ hdm)
  have hxc : (h x).next = some c := ring_next_head hr
  have hxd : (h x).prev = some d := ring_prev_head (D := x :: D) (z := d) (by rw [hd]; rfl) hr
  let h2 := upd h c { h c with prev := some d }
  let h3 := upd h2 d { h2 d with next := some c }
  have e3 : (do
        let h ← setPrev h (h x).next (h x).prev
        setNext h (h x).prev (h x).next) = .ok h3 := by
    simp only [hxc, hxd, setPrev, setNext, Res.bind_ok, upd_ne _ _ _ _ (Ne.symm hcx), h2, h3]
  -- the memory after Remove differs only at x
  have e4 : h1 = upd h3 x { h3 x with next := none, prev := none } := by
    unfold remove at e1
    simp only at e1
    rw [if_pos ⟨by rw [hxc]; simp, by rw [hxd]; simp⟩] at e1
    simp only [hxc, hxd, setPrev, setNext, Res.bind_ok, upd_ne _ _ _ _ (Ne.symm hcx), Res.pure_eq,
      Res.ok.injEq, Prod.mk.injEq] at e1
    rw [← e1.1]
    funext y
    by_cases hy : y = x
    · subst hy; simp [upd, h3, h2]
    · simp [upd, hy, h3, h2]
  have hsame : ∀ y, y ≠ x → h3 y = h1 y := by
    intro y hy; rw [e4, upd_ne _ _ _ _ hy]
  have hx3 : h3 x = h x := by simp [h3, h2, upd, Ne.symm hcx, Ne.symm hdx]
  refine ⟨h3, e3, ring_frame hr1 (fun y hy => hsame y (by rintro rfl; exact hxC hy)), ?_, ?_⟩
  · intro y hy
    by_cases hyx : y = x
    · subst hyx; exact hx3
    · rw [hsame y hyx, f1 y (by simp at hy ⊢; tauto)]
  · intro y
    by_cases hyx : y = x
    · subst hyx; rw [hx3]
    · rw [hsame y hyx, v1]

/-- **C22, the part that holds, MoveBack**: every node except the first ends up last, the others keep
their order. -/
theorem C22_moveBack_partial {h : Mem α} {head : Ptr} {l : List Nat} {x : Nat} (hh : Holds h head l)
    (hx : x ∈ l) (hex : l.head? ≠ some x) :
    ∃ h', moveBack h head (some x) = .ok (h', some x) ∧ Holds h' head (l.erase x ++ [x]) ∧
      (∀ y, y ∉ l → h' y = h y) ∧ (∀ y, (h' y).val = (h y).val) := by
  obtain ⟨A, B, hl⟩ := List.append_of_mem hx
  have hnd := hh.2.1
  subst hl
  have hxA : x ∉ A := fun h1 => (List.nodup_append.mp hnd).2.2 x h1 x (by simp) rfl
  have hxB : x ∉ B := (List.nodup_cons.mp (List.nodup_append.mp hnd).2.1).1
  rw [erase_at x A B hxA]
  cases A with
  | nil => simp at hex
  | cons a A =>
    have hhd : head = some a := hh.1
    have hrot := ring_rotate (a :: A) (x :: B) hh.2
    obtain ⟨c, C, hc⟩ : ∃ c C, B ++ a :: A = c :: C := by
      cases B with
      | nil => exact ⟨a, A, rfl⟩
      | cons b B => exact ⟨b, B ++ a :: A, rfl⟩
    have hrot' : Ring h (x :: c :: C) := by rw [← hc]; exact hrot
    obtain ⟨h1, e1, hr1, f1, v1⟩ := unlink_core h x c C hrot'
    rw [← hc] at hr1
    have hr1' := ring_rotate B (a :: A) hr1
    have hx' : x ∉ a :: (A ++ B) := by simp at hxA ⊢; tauto
    obtain ⟨h2, e2, hr2, f2, v2⟩ := linkBefore_spec h1 x a (A ++ B) (by simpa using hr1') hx'
    have hxc : (h x).next = some c := ring_next_head hrot'
    have hcx : c ≠ x := by
      rintro rfl
      have : c ∈ B ++ a :: A := by rw [hc]; simp
      simp at this hxA; tauto
    have hpx : (h x).prev ≠ none := by
      obtain ⟨D, z, hz⟩ := exists_concat x (c :: C)
      rw [ring_prev_head hz hrot']; simp
    refine ⟨h2, ?_, ⟨?_, ?_⟩, ?_, fun y => by rw [v2, v1]⟩
    · rw [moveBack_eq h head x (by rw [hxc]; simp) hpx (by rw [hxc]; simpa using hcx), hhd]
      have : ∀ (f : Mem α → Res (Mem α × Ptr)), (do
          let h ← setPrev h (h x).next (h x).prev
          let h ← setNext h (h x).prev (h x).next
          f h) = f h1 := by
        intro f
        have hb : (do
          let h ← setPrev h (h x).next (h x).prev
          let h ← setNext h (h x).prev (h x).next
          f h) = (do
            let h' ← (do
              let h ← setPrev h (h x).next (h x).prev
              setNext h (h x).prev (h x).next)
            f h') := by
          cases setPrev h (h x).next (h x).prev with
          | panic => rfl
          | ok h1 => rfl
        rw [hb, e1]; rfl
      rw [this, e2]; rfl
    · rw [hhd]; simp
    · simpa using hr2
    · intro y hy
      rw [f2 y (by simp at hy ⊢; tauto) (by rintro rfl; exact hy (by simp)),
        f1 y (by rw [← hc]; simp at hy ⊢; tauto)]

/-- **C22, the part that holds, MoveFront**: every node except the first ends up first. -/
theorem C22_moveFront_partial {h : Mem α} {head : Ptr} {l : List Nat} {x : Nat} (hh : Holds h head l)
    (hx : x ∈ l) (hex : l.head? ≠ some x) :
    ∃ h', moveFront h head (some x) = .ok (h', some x, some x) ∧ Holds h' (some x) (x :: l.erase x) ∧
      (∀ y, y ∉ l → h' y = h y) ∧ (∀ y, (h' y).val = (h y).val) := by
  obtain ⟨h', e, hh', f, v⟩ := C22_moveBack_partial hh hx hex
  obtain ⟨e2, hh2⟩ := rotateBackward_spec x hh'
  exact ⟨h', by simp [moveFront, e, e2], hh2, f, v⟩

/-- **C22** fails for `MoveBack` of the first node of any list with two or more nodes: all other nodes are
lost, the list holds only that node. -/
theorem C22_moveBack_first {h : Mem α} {head : Ptr} {x c : Nat} {C : List Nat} (hh : Holds h head (x :: c :: C)) :
    ∃ h', moveBack h head (some x) = .ok (h', some x) ∧ Holds h' head [x] := by
  have hhd : head = some x := hh.1
  have hr := hh.2
  obtain ⟨h1, e1, hr1, f1, v1⟩ := unlink_core h x c C hr
  have hxC : x ∉ c :: C := (List.nodup_cons.mp hr.1).1
  have hcx : c ≠ x := fun e => hxC (by simp [e])
  have hxc : (h x).next = some c := ring_next_head hr
  obtain ⟨D, z, hz⟩ := exists_concat x (c :: C)
  have hxz : (h x).prev = some z := ring_prev_head hz hr
  have hx1 : h1 x = h x := f1 x hxC
  have hzx : z ≠ x := by
    rintro rfl
    have hzc : z ∈ c :: C := by
      cases D with
      | nil => simp at hz
      | cons d D =>
        have := (List.cons.inj hz).2
        rw [this]; simp
    exact hxC hzc
  have e2 : ∃ h2, linkBefore h1 (some x) (some x) = .ok h2 ∧ (h2 x).next = some x ∧ (h2 x).prev = some x := by
    refine ⟨_, by
      simp only [linkBefore, setNext, setPrev, rd, Res.bind_ok, upd_same, hx1, hxz]
      rfl, ?_, ?_⟩
    · simp [upd, Ne.symm hzx]
    · simp [upd]
  obtain ⟨h2, e2, n1, n2⟩ := e2
  refine ⟨h2, ?_, hhd, by simp, ⟨n1, n2⟩, trivial⟩
  rw [moveBack_eq h head x (by rw [hxc]; simp) (by rw [hxz]; simp) (by rw [hxc]; simpa using hcx), hhd]
  have : ∀ (f : Mem α → Res (Mem α × Ptr)), (do
      let h ← setPrev h (h x).next (h x).prev
      let h ← setNext h (h x).prev (h x).next
      f h) = f h1 := by
    intro f
    have hb : (do
      let h ← setPrev h (h x).next (h x).prev
      let h ← setNext h (h x).prev (h x).next
      f h) = (do
        let h' ← (do
          let h ← setPrev h (h x).next (h x).prev
          setNext h (h x).prev (h x).next)
        f h') := by
      cases setPrev h (h x).next (h x).prev with
      | panic => rfl
      | ok h1 => rfl
    rw [hb, e1]; rfl
  rw [this, e2]; rfl

/-- **C22** fails for `MoveFront` of the first node of any list with two or more nodes in the same way: a call that should
change nothing loses all other nodes. -/
theorem C22_moveFront_first {h : Mem α} {head : Ptr} {x c : Nat} {C : List Nat} (hh : Holds h head (x :: c :: C)) :
    ∃ h', moveFront h head (some x) = .ok (h', some x, some x) ∧ Holds h' (some x) [x] := by
  obtain ⟨h', e, hh'⟩ := C22_moveBack_first hh
  obtain ⟨e2, hh2⟩ := rotateBackward_spec (l := []) x hh'
  exact ⟨h', by simp [moveFront, e, e2], hh2⟩

/-- **C22** The only node of a list, and a node as its own mark: nothing changes, and nil is returned. -/
theorem C22_move_nowhere {h : Mem α} {head : Ptr} {x : Nat} :
    (Holds h head [x] → moveBack h head (some x) = .ok (h, none) ∧ moveFront h head (some x) = .ok (h, head, none)) ∧
    moveBefore h head (some x) (some x) = .ok (h, head, none) ∧ moveAfter h head (some x) (some x) = .ok (h, head, none) := by
  refine ⟨fun hh => ?_, by simp [moveBefore], by simp [moveAfter]⟩
  have hn : (h x).next = some x := by
    have := hh.2
    simp [Ring, Chain, Link] at this
    exact this.1
  have e : moveBack h head (some x) = .ok (h, none) := by simp [moveBack, hn]
  exact ⟨e, by simp [moveFront, e]⟩

example : Holds exRing (some 0) [0, 1, 2] := by simp [Holds, Ring, Chain, Link, exRing]
/-- `MoveBefore(2, 0)` on `[0,1,2]` leaves `[0,1,2]`; `MoveBefore(1, 0)` gives `[0,2,1]`. -/
example : (match moveBefore exRing (some 0) (some 1) (some 0) with
    | .ok (h, hd, _) => (hd, [0, 2, 1].map fun x => (h x).next)
    | .panic => (none, [])) = (some 0, [some 2, some 1, some 0]) := by decide

/-- **C22** fails for `MoveBefore(x, first)` where `x` is neither first nor last: the node goes to the end. -/
theorem C22_moveBefore_first_false :
    ¬ (∀ (h : Mem Int) (head : Ptr) (l : List Nat) (x m : Nat), Holds h head l → x ∈ l → m ∈ l → x ≠ m →
      ∃ h' head' r, moveBefore h head (some x) (some m) = .ok (h', head', r) ∧
        Holds h' head' (insBefore x m (l.erase x))) := by
  intro hall
  obtain ⟨h', head', r, e, hh⟩ := hall exRing (some 0) [0, 1, 2] 1 0
    (by simp [Holds, Ring, Chain, Link, exRing]) (by simp) (by simp) (by simp)
  have e2 : (match moveBefore exRing (some 0) (some 1) (some 0) with
    | .ok (_, hd, _) => hd
    | .panic => none) = some 0 := by decide
  rw [e] at e2
  simp only at e2
  have := hh.1
  rw [e2] at this
  simp [insBefore] at this

/-! ## C23 -/

/-- **C23** fails: for every non-empty list `Reverse` leaves a list holding only the old first node. -/
theorem C23_reverse_exact {h : Mem α} {head : Ptr} {x : Nat} {C : List Nat} (hh : Holds h head (x :: C))
    (fuel : Nat) (hf : 2 ≤ fuel) :
    ∃ h', reverse fuel h head = .ok (some (h', some x)) ∧ Holds h' (some x) [x] := by
  have hhd : head = some x := hh.1
  obtain ⟨f, rfl⟩ : ∃ f, fuel = f + 2 := ⟨fuel - 2, by omega⟩
  obtain ⟨h1, e1, hh1, _, _⟩ := insertFront_spec (h := h) (head := none) (l := []) x ⟨rfl, ring_nil _⟩ (by simp)
  have hn := (ring_single hh1.2).1
  refine ⟨h1, ?_, hh1⟩
  subst hhd
  simp only [reverse, visitor, reverseLoop, vNext, if_true, Res.pure_eq]
  simp [e1, rd, hn]

/-- **C23, the part that holds**: lists of at most one node. -/
theorem C23_reverse_partial {h : Mem α} {head : Ptr} {l : List Nat} (hh : Holds h head l) (hl : l.length ≤ 1)
    (fuel : Nat) (hf : 2 ≤ fuel) :
    ∃ h' head', reverse fuel h head = .ok (some (h', head')) ∧ Holds h' head' l.reverse := by
  cases l with
  | nil =>
    have hhd : head = none := hh.1
    subst hhd
    obtain ⟨f, rfl⟩ : ∃ f, fuel = f + 1 := ⟨fuel - 1, by omega⟩
    exact ⟨h, none, rfl, hh⟩
  | cons x C =>
    have hC : C = [] := by cases C <;> simp_all
    subst hC
    obtain ⟨h', e, hh'⟩ := C23_reverse_exact hh fuel hf
    exact ⟨h', some x, e, hh'⟩

example : Holds exRing (some 0) (0 :: [1, 2]) := by simp [Holds, Ring, Chain, Link, exRing]

/-! ## C24 -/

/-- **C24** fails: appending then rotating by one place moves only the last node of `other` to the front. -/
theorem C24_insertFrontList_exact {h : Mem α} {head ohead : Ptr} {l o : List Nat} {z : Nat} (hh : Holds h head l)
    (ho : Holds h ohead (o ++ [z])) (hl : l ≠ []) (hd : ∀ x ∈ l, x ∉ o ++ [z]) :
    ∃ h', insertFrontList h head ohead = .ok (h', some z, none, true) ∧ Holds h' (some z) (z :: (l ++ o)) ∧
      (∀ y, y ∉ l → y ∉ o ++ [z] → h' y = h y) ∧ (∀ y, (h' y).val = (h y).val) := by
  obtain ⟨h', head', e, hh', f, v⟩ := insertBackList_spec hh ho hd
  have hh2 : Holds h' head' ((l ++ o) ++ [z]) := by simpa using hh'
  obtain ⟨e2, hh3⟩ := rotateBackward_spec z hh2
  have hne : head ≠ none := by
    rw [hh.1]; cases l with
    | nil => exact absurd rfl hl
    | cons a t => simp
  refine ⟨h', ?_, hh3, f, v⟩
  have hem : empty head = false := by cases head <;> simp_all [empty]
  simp [insertFrontList, e, e2, hem]

/-- **C24, the part that holds**: the result is `other` followed by `this` and `other` is empty afterwards, when
one of the lists is empty or `other` has one node. -/
theorem C24_insertFrontList_partial {h : Mem α} {head ohead : Ptr} {l o : List Nat} (hh : Holds h head l)
    (ho : Holds h ohead o) (hd : ∀ x ∈ l, x ∉ o) (hex : l = [] ∨ o.length ≤ 1) :
    ∃ h' head' ok, insertFrontList h head ohead = .ok (h', head', none, ok) ∧ Holds h' head' (o ++ l) := by
  by_cases hl : l = []
  · subst hl
    have hhd : head = none := hh.1
    obtain ⟨h', head', e, hh', f, v⟩ := insertBackList_spec hh ho hd
    refine ⟨h', head', !o.isEmpty, ?_, by simpa using hh'⟩
    subst hhd
    simp [insertFrontList, e, empty]
  · have ho1 := hex.resolve_left hl
    cases o with
    | nil =>
      obtain ⟨h', head', e, hh', f, v⟩ := insertBackList_spec hh ho hd
      exact ⟨h', head', false, by simp [insertFrontList, e], by simpa using hh'⟩
    | cons z o =>
      have : o = [] := by cases o <;> simp_all
      subst this
      obtain ⟨h', e, hh', _⟩ := C24_insertFrontList_exact (o := []) hh (by simpa using ho) hl (by simpa using hd)
      exact ⟨h', some z, true, e, by simpa using hh'⟩

/-- **C24** fails for every non-empty list and every `other` of two or more nodes. -/
theorem C24_insertFrontList_false {h : Mem α} {head ohead : Ptr} {l o : List Nat} (hh : Holds h head l)
    (ho : Holds h ohead o) (hd : ∀ x ∈ l, x ∉ o) (hl : l ≠ []) (ho2 : 2 ≤ o.length) :
    ∃ h' head', insertFrontList h head ohead = .ok (h', head', none, true) ∧ ¬ Holds h' head' (o ++ l) := by
  rcases List.eq_nil_or_concat o with h1 | ⟨o', z, h1⟩
  · subst h1; simp at ho2
  · rw [List.concat_eq_append] at h1
    subst h1
    obtain ⟨h', e, hh', _⟩ := C24_insertFrontList_exact hh ho hl hd
    refine ⟨h', some z, e, ?_⟩
    intro hc
    have h2 := hc.1
    cases o' with
    | nil => simp at ho2
    | cons b o' =>
      simp at h2
      have := ho.2.1
      simp [← h2] at this

/-- Two disjoint rings of two nodes. -/
def exTwo : Mem Int := fun a =>
  if a = 0 then ⟨1, some 1, some 1⟩ else if a = 1 then ⟨2, some 0, some 0⟩
  else if a = 2 then ⟨3, some 3, some 3⟩ else ⟨4, some 2, some 2⟩
example : Holds exTwo (some 0) [0, 1] ∧ Holds exTwo (some 2) [2, 3] ∧ (∀ x ∈ [0, 1], x ∉ [2, 3]) := by
  simp [Holds, Ring, Chain, Link, exTwo]

/-! ## C25 -/

/-- **C25, the part that holds**: a node that is not in the list is never reported as valid, and the first
node always is.  Missing: all other members. -/
theorem C25_isValidNode_partial {h : Mem α} {head : Ptr} {l : List Nat} (hh : Holds h head l) (x : Nat) :
    isValidNode head (some x) = decide (l.head? = some x) := by
  simp only [isValidNode, reachable, hh.1]
  cases l with
  | nil => simp
  | cons a t => simp

/-- **C25** fails for every member that is not the first node. -/
theorem C25_isValidNode_false {h : Mem α} {head : Ptr} {a : Nat} {t : List Nat} (hh : Holds h head (a :: t))
    (x : Nat) (hx : x ∈ t) : isValidNode head (some x) = false := by
  rw [C25_isValidNode_partial hh]
  have : a ≠ x := by
    rintro rfl; exact (List.nodup_cons.mp hh.2.1).1 hx
  simpa using this

example : Holds exRing (some 0) [0, 1, 2] ∧ (2 : Nat) ∈ [1, 2] := by simp [Holds, Ring, Chain, Link, exRing]

/-! The theorems of C21 to C25 on the rings 0, 1, 2 and 2, 3. -/

theorem exRing_holds : Holds exRing (some 0) [0, 1, 2] := by simp [Holds, Ring, Chain, Link, exRing]
theorem exTwo_holds : Holds exTwo (some 0) [0, 1] ∧ Holds exTwo (some 2) [2, 3] := by simp [Holds, Ring, Chain, Link, exTwo]

example : ∃ h', insertAfter exRing (some 9) (some 1) = .ok (h', some 9) ∧ ∀ head', ¬ Holds h' head' [0, 1, 9, 2] :=
  C21_insertAfter_false (A := [0]) (B := [2]) 9 exRing_holds (by decide)
example := C22_moveAfter_partial (x := 2) (m := 0) exRing_holds (by decide) (by decide) (by decide) (by decide)
example := C22_moveBefore_partial (x := 2) (m := 1) exRing_holds (by decide) (by decide) (by decide) (by decide)
example : moveBefore exRing (some 0) (some 2) (some 0) = .ok (exRing, some 0, none) :=
  C22_moveBefore_last_first (C := [1]) exRing_holds
example : ∃ h', moveBefore exRing (some 0) (some 1) (some 0) = .ok (h', some 0, some 1) ∧ Holds h' (some 0) [0, 2, 1] :=
  C22_moveBefore_first_exact (A := []) (B := []) exRing_holds
example := C22_moveBack_partial (x := 1) exRing_holds (by decide) (by decide)
example := C22_moveFront_partial (x := 1) exRing_holds (by decide) (by decide)
example : ∃ h', moveBack exRing (some 0) (some 0) = .ok (h', some 0) ∧ Holds h' (some 0) [0] := C22_moveBack_first exRing_holds
example : ∃ h', reverse 5 exRing (some 0) = .ok (some (h', some 0)) ∧ Holds h' (some 0) [0] :=
  C23_reverse_exact exRing_holds 5 (by decide)
example : ∃ h', insertFrontList exTwo (some 0) (some 2) = .ok (h', some 3, none, true) ∧ Holds h' (some 3) [3, 0, 1, 2] ∧
    (∀ y, y ∉ [0, 1] → y ∉ [2] ++ [3] → h' y = exTwo y) ∧ (∀ y, (h' y).val = (exTwo y).val) :=
  C24_insertFrontList_exact (o := [2]) exTwo_holds.1 exTwo_holds.2 (by decide) (by decide)
example := C24_insertFrontList_partial (l := []) (head := none) (h := exTwo) (by simp [Holds, Ring]) exTwo_holds.2 (by decide) (.inl rfl)
example : isValidNode (some 0) (some 1) = decide ([0, 1, 2].head? = some 1) := C25_isValidNode_partial exRing_holds 1

example : ∃ h', moveFront exRing (some 0) (some 0) = .ok (h', some 0, some 0) ∧ Holds h' (some 0) [0] := C22_moveFront_first exRing_holds

end Verif.DList
