import Verif.Spec.DList
import Mathlib.Tactic.Tauto
/-!
# Helper lemmas for the doubly linked list
-/

set_option linter.unusedSectionVars false

namespace Verif.DList
open Verif.Spec
variable {α : Type}

@[simp] theorem chain_nil (h : Mem α) : Chain h [] := trivial
@[simp] theorem chain_one (h : Mem α) (a : Nat) : Chain h [a] := trivial
theorem chain_cons2 (h : Mem α) (a b : Nat) (t : List Nat) :
    Chain h (a :: b :: t) ↔ Link h a b ∧ Chain h (b :: t) := Iff.rfl

theorem chain_append (h : Mem α) (A : List Nat) (b : Nat) (B : List Nat) :
    Chain h (A ++ b :: B) ↔ Chain h (A ++ [b]) ∧ Chain h (b :: B) := by
  induction A with
  | nil => simp
  | cons a A ih =>
    cases A with
    | nil => simp [chain_cons2]
    | cons c C =>
      simp only [List.cons_append, chain_cons2] at ih ⊢
      rw [ih, and_assoc]

theorem chain_concat (h : Mem α) (A : List Nat) (z b : Nat) :
    Chain h (A ++ [z] ++ [b]) ↔ Chain h (A ++ [z]) ∧ Link h z b := by
  rw [List.append_assoc, List.singleton_append, chain_append]
  simp [chain_cons2]

theorem chain_frame {h h' : Mem α} (L : List Nat) (hc : Chain h L)
    (hn : ∀ x ∈ L.dropLast, (h' x).next = (h x).next) (hp : ∀ x ∈ L.tail, (h' x).prev = (h x).prev) :
    Chain h' L := by
  induction L with
  | nil => trivial
  | cons a A ih =>
    cases A with
    | nil => trivial
    | cons b B =>
      obtain ⟨⟨h1, h2⟩, h3⟩ := hc
      refine ⟨⟨?_, ?_⟩, ?_⟩
      · rw [hn a (by simp), h1]
      · rw [hp b (by simp), h2]
      · apply ih h3
        · intro x hx; exact hn x (by simp only [List.dropLast_cons_cons]; exact List.mem_cons_of_mem _ hx)
        · intro x hx; exact hp x (List.mem_cons_of_mem _ hx)

theorem ring_nil (h : Mem α) : Ring h [] := ⟨List.nodup_nil, trivial⟩

theorem ring_rotate {h : Mem α} (A B : List Nat) (hr : Ring h (A ++ B)) : Ring h (B ++ A) := by
  cases A with
  | nil => simpa using hr
  | cons a A =>
    cases B with
    | nil => simpa using hr
    | cons b B =>
      obtain ⟨hn, hc⟩ := hr
      have hc' : Chain h ((a :: A) ++ b :: (B ++ [a])) := by simpa using hc
      obtain ⟨h1, h2⟩ := (chain_append h _ _ _).mp hc'
      refine ⟨?_, ?_⟩
      · exact (List.perm_append_comm.nodup_iff).mp hn
      · show Chain h (b :: B ++ a :: A ++ [b])
        have : b :: B ++ a :: A ++ [b] = (b :: B) ++ a :: (A ++ [b]) := by simp
        rw [this, chain_append]
        exact ⟨by simpa using h2, by simpa using h1⟩

/-- A ring seen from its first node `a` and last node `z`. -/
theorem ring_iff_concat (h : Mem α) (a : Nat) (A D : List Nat) (z : Nat) (hz : a :: A = D ++ [z]) :
    Ring h (a :: A) ↔ (a :: A).Nodup ∧ Chain h (a :: A) ∧ Link h z a := by
  unfold Ring
  simp only
  rw [hz, chain_concat]

theorem exists_concat (a : Nat) (A : List Nat) : ∃ D z, a :: A = D ++ [z] := by
  refine ⟨(a :: A).dropLast, (a :: A).getLast (by simp), ?_⟩
  exact (List.dropLast_concat_getLast (by simp)).symm

@[simp] theorem upd_same (h : Mem α) (a : Nat) (n : Node α) : upd h a n a = n := by simp [upd]
theorem upd_ne (h : Mem α) (a x : Nat) (n : Node α) (hx : x ≠ a) : upd h a n x = h x := by simp [upd, hx]

/-- The head of a ring links to its last node. -/
theorem ring_prev_head {h : Mem α} {a : Nat} {A D : List Nat} {z : Nat} (hz : a :: A = D ++ [z])
    (hr : Ring h (a :: A)) : (h a).prev = some z := ((ring_iff_concat h a A D z hz).mp hr).2.2.2

theorem ring_next_last {h : Mem α} {a : Nat} {A D : List Nat} {z : Nat} (hz : a :: A = D ++ [z])
    (hr : Ring h (a :: A)) : (h z).next = some a := ((ring_iff_concat h a A D z hz).mp hr).2.2.1

theorem ring_next_head {h : Mem α} {a b : Nat} {A : List Nat} (hr : Ring h (a :: b :: A)) :
    (h a).next = some b := hr.2.1.1

theorem ring_single {h : Mem α} {a : Nat} (hr : Ring h [a]) : (h a).next = some a ∧ (h a).prev = some a :=
  ⟨hr.2.1.1, hr.2.1.2⟩

theorem ring_frame {h h' : Mem α} {l : List Nat} (hr : Ring h l) (hf : ∀ x ∈ l, h' x = h x) : Ring h' l := by
  refine ⟨hr.1, ?_⟩
  cases l with
  | nil => trivial
  | cons a A =>
    refine chain_frame _ hr.2 ?_ ?_
    · intro x hx
      have : x ∈ a :: A := by
        have e : (a :: A ++ [a]).dropLast = a :: A := by
          exact List.dropLast_concat
        rwa [e] at hx
      rw [hf x this]
    · intro x hx
      have : x ∈ a :: A := by simp at hx ⊢; tauto
      rw [hf x this]

theorem holds_frame {h h' : Mem α} {head : Ptr} {l : List Nat} (hr : Holds h head l)
    (hf : ∀ x ∈ l, h' x = h x) : Holds h' head l := ⟨hr.1, ring_frame hr.2 hf⟩

/-- Core of `InsertBack` and `InsertBefore`. -/
theorem linkBefore_spec (h : Mem α) (n m : Nat) (C : List Nat) (hr : Ring h (m :: C)) (hn : n ∉ m :: C) :
    ∃ h', linkBefore h (some n) (some m) = .ok h' ∧ Ring h' (m :: C ++ [n]) ∧
      (∀ x, x ∉ m :: C → x ≠ n → h' x = h x) ∧ (∀ x, (h' x).val = (h x).val) := by
  obtain ⟨D, z, hz⟩ := exists_concat m C
  have hnm : n ≠ m := fun e => hn (by simp [e])
  have hzm : z ∈ m :: C := by rw [hz]; simp
  have hnz : n ≠ z := fun e => hn (by rw [e]; exact hzm)
  obtain ⟨hnd, hch, hl1, hl2⟩ := (ring_iff_concat h m C D z hz).mp hr
  have hprev : (h m).prev = some z := hl2
  obtain ⟨h', he, hnext, hprv, hval, hfr⟩ : ∃ h', linkBefore h (some n) (some m) = .ok h' ∧
      (∀ x, (h' x).next = if x = z then some n else if x = n then some m else (h x).next) ∧
      (∀ x, (h' x).prev = if x = m then some n else if x = n then some z else (h x).prev) ∧
      (∀ x, (h' x).val = (h x).val) ∧ (∀ x, x ≠ n → x ≠ m → x ≠ z → h' x = h x) := by
    refine ⟨_, by
      simp only [linkBefore, setNext, setPrev, rd, Res.bind_ok, upd_ne _ _ _ _ (Ne.symm hnm), hprev,
        upd_ne _ _ _ _ (Ne.symm hnz)]
      rfl, ?_, ?_, ?_, ?_⟩
    · intro x
      by_cases h1 : x = m <;> by_cases h2 : x = z <;> by_cases h3 : x = n <;> simp_all [upd]
    · intro x
      by_cases h1 : x = m <;> by_cases h2 : x = z <;> by_cases h3 : x = n <;> simp_all [upd]
    · intro x
      by_cases h1 : x = m <;> by_cases h2 : x = z <;> by_cases h3 : x = n <;> simp_all [upd]
    · intro x h1 h2 h3
      simp [upd, h1, h2, h3]
  refine ⟨h', he, ?_, ?_, hval⟩
  · refine ⟨?_, ?_⟩
    · rw [List.nodup_append]
      refine ⟨hnd, by simp, ?_⟩
      intro a ha b hb; simp at hb; subst hb; intro e; subst e; exact hn ha
    · show Chain h' (m :: C ++ [n] ++ [m])
      rw [chain_concat, hz, chain_concat]
      refine ⟨⟨?_, ?_, ?_⟩, ?_, ?_⟩
      · rw [← hz]
        refine chain_frame _ hch ?_ ?_
        · intro x hx
          have hxD : x ∈ D := by rw [hz, List.dropLast_concat] at hx; exact hx
          have hxm : x ∈ m :: C := by rw [hz]; simp [hxD]
          have hxz : x ≠ z := by
            intro e; subst e
            rw [hz, List.nodup_append] at hnd
            exact hnd.2.2 x hxD x (by simp) rfl
          have hxn : x ≠ n := fun e => hn (e ▸ hxm)
          rw [hnext, if_neg hxz, if_neg hxn]
        · intro x hx
          have hxC : x ∈ C := by simpa using hx
          have hxm : x ≠ m := by
            intro e; subst e; exact (List.nodup_cons.mp hnd).1 hxC
          have hxn : x ≠ n := fun e => hn (by rw [← e]; simp [hxC])
          rw [hprv, if_neg hxm, if_neg hxn]
      · rw [hnext, if_pos rfl]
      · rw [hprv, if_neg hnm, if_pos rfl]
      · rw [hnext, if_neg hnz, if_pos rfl]
      · rw [hprv, if_pos rfl]
  · intro x hx hxn
    exact hfr x hxn (fun e => hx (by simp [e])) (fun e => hx (by rw [e]; exact hzm))

/-- Core of `Remove` on a ring with at least two nodes. -/
theorem remove_core (h : Mem α) (x c : Nat) (C : List Nat) (hr : Ring h (x :: c :: C)) (head : Ptr) :
    ∃ h', remove h head (some x) = .ok (h', if some x = head then some c else head, some x) ∧
      Ring h' (c :: C) ∧ (h' x).next = none ∧ (h' x).prev = none ∧
      (∀ y, y ∉ x :: c :: C → h' y = h y) ∧ (∀ y, (h' y).val = (h y).val) := by
  obtain ⟨D, d, hd⟩ := exists_concat c C
  have hd' : x :: c :: C = (x :: D) ++ [d] := by rw [hd]; rfl
  obtain ⟨hnd, hch, hl1, hl2⟩ := (ring_iff_concat h x (c :: C) (x :: D) d hd').mp hr
  have hxc : (h x).next = some c := hch.1.1
  have hxd : (h x).prev = some d := hl2
  have hx := (List.nodup_cons.mp hnd).1
  have hcx : c ≠ x := fun e => hx (by simp [e])
  have hdm : d ∈ c :: C := by rw [hd]; simp
  have hdx : d ≠ x := fun e => hx (e ▸ hdm)
  obtain ⟨h', he, hnext, hprv, hval, hfr⟩ : ∃ h', remove h head (some x)
        = .ok (h', if some x = head then some c else head, some x) ∧
      (∀ y, (h' y).next = if y = x then none else if y = d then some c else (h y).next) ∧
      (∀ y, (h' y).prev = if y = x then none else if y = c then some d else (h y).prev) ∧
      (∀ y, (h' y).val = (h y).val) ∧ (∀ y, y ≠ x → y ≠ c → y ≠ d → h' y = h y) := by
    have e1 : (some c : Ptr) ≠ some x := by simpa using hcx
    refine ⟨_, by
      unfold remove
      simp only [hxc, hxd]
      rw [if_pos (by simp), if_neg e1]
      simp only [setNext, setPrev, Res.bind_ok, upd_ne _ _ _ _ (Ne.symm hcx), hxc, hxd, Res.pure_eq]
      rfl, ?_, ?_, ?_, ?_⟩
    · intro y
      by_cases h1 : y = x <;> by_cases h2 : y = d <;> by_cases h3 : y = c <;> simp_all [upd]
    · intro y
      by_cases h1 : y = x <;> by_cases h2 : y = d <;> by_cases h3 : y = c <;> simp_all [upd]
    · intro y
      by_cases h1 : y = x <;> by_cases h2 : y = d <;> by_cases h3 : y = c <;> simp_all [upd]
    · intro y h1 h2 h3
      simp [upd, h1, h2, h3]
  refine ⟨h', he, ?_, by simp [hnext], by simp [hprv], ?_, hval⟩
  · refine (ring_iff_concat h' c C D d hd).mpr ⟨(List.nodup_cons.mp hnd).2, ?_, ?_, ?_⟩
    · refine chain_frame _ hch.2 ?_ ?_
      · intro y hy
        have hyD : y ∈ D := by rw [hd, List.dropLast_concat] at hy; exact hy
        have hyc : y ∈ c :: C := by rw [hd]; simp [hyD]
        have hyx : y ≠ x := fun e => hx (e ▸ hyc)
        have hyd : y ≠ d := by
          intro e; subst e
          have := (List.nodup_cons.mp hnd).2
          rw [hd, List.nodup_append] at this
          exact this.2.2 y hyD y (by simp) rfl
        rw [hnext, if_neg hyx, if_neg hyd]
      · intro y hy
        have hyC : y ∈ C := by simpa using hy
        have hyx : y ≠ x := fun e => hx (by rw [← e]; simp [hyC])
        have hyc : y ≠ c := by
          intro e; subst e; exact (List.nodup_cons.mp (List.nodup_cons.mp hnd).2).1 hyC
        rw [hprv, if_neg hyx, if_neg hyc]
    · rw [hnext, if_neg hdx, if_pos rfl]
    · rw [hprv, if_neg hcx, if_pos rfl]
  · intro y hy
    exact hfr y (fun e => hy (by simp [e])) (fun e => hy (by simp [e]))
      (fun e => hy (by rw [e]; exact List.mem_cons_of_mem _ hdm))

theorem remove_single (h : Mem α) (x : Nat) (hr : Ring h [x]) (head : Ptr) :
    ∃ h', remove h head (some x) = .ok (h', none, some x) ∧ (h' x).next = none ∧ (h' x).prev = none ∧
      (∀ y, y ≠ x → h' y = h y) ∧ (∀ y, (h' y).val = (h y).val) := by
  obtain ⟨h1, h2⟩ := ring_single hr
  refine ⟨_, by
    unfold remove
    simp only [h1, h2]
    rw [if_pos (by simp)]
    simp only [if_true, setNext, setPrev, Res.bind_ok, upd_same, h1, Res.pure_eq]
    rfl, ?_, ?_, ?_, ?_⟩
  · simp [upd]
  · simp [upd]
  · intro y hy; simp [upd, hy]
  · intro y; by_cases hy : y = x <;> simp [upd, hy]

/-- `Remove` of a member of a list. -/
theorem remove_spec {h : Mem α} {head : Ptr} {A B : List Nat} {x : Nat} (hh : Holds h head (A ++ x :: B)) :
    ∃ h' head', remove h head (some x) = .ok (h', head', some x) ∧ Holds h' head' (A ++ B) ∧
      (h' x).next = none ∧ (h' x).prev = none ∧
      (∀ y, y ∉ A ++ x :: B → h' y = h y) ∧ (∀ y, (h' y).val = (h y).val) := by
  obtain ⟨hhead, hr⟩ := hh
  have hrot : Ring h ((x :: B) ++ A) := ring_rotate A (x :: B) hr
  have hnd := hr.1
  cases hBA : B ++ A with
  | nil =>
    have hB : B = [] := by cases B <;> simp_all
    have hA : A = [] := by subst hB; simpa using hBA
    subst hA hB
    obtain ⟨h', e, n1, n2, f, v⟩ := remove_single h x hr head
    exact ⟨h', none, e, ⟨rfl, ring_nil h'⟩, n1, n2, fun y hy => f y (by simpa using hy), v⟩
  | cons c C =>
    have hrot' : Ring h (x :: c :: C) := by rw [← hBA]; exact hrot
    obtain ⟨h', e, hr', n1, n2, f, v⟩ := remove_core h x c C hrot' head
    refine ⟨h', _, e, ⟨?_, ?_⟩, n1, n2, ?_, v⟩
    · cases A with
      | nil =>
        simp at hhead hBA
        subst hhead
        rw [if_pos rfl, hBA]; simp
      | cons a A =>
        simp at hhead
        subst hhead
        have : x ≠ a := by
          intro e; subst e; simp at hnd
        rw [if_neg (by simpa using this)]; simp
    · rw [← hBA] at hr'
      exact ring_rotate B A hr'
    · intro y hy
      apply f
      rw [← hBA]
      simp at hy ⊢
      tauto

theorem remove_none (h : Mem α) (head : Ptr) : remove h head none = .ok (h, head, none) := rfl

/-- `Remove` of a detached node does nothing. -/
theorem remove_detached (h : Mem α) (head : Ptr) (x : Nat) (hx : (h x).next = none ∨ (h x).prev = none) :
    remove h head (some x) = .ok (h, head, none) := by
  unfold remove
  simp only
  rw [if_neg]; rfl
  rintro ⟨h1, h2⟩
  rcases hx with hx | hx
  · exact h1 hx
  · exact h2 hx

theorem insertBack_spec {h : Mem α} {head : Ptr} {l : List Nat} (n : Nat) (hh : Holds h head l) (hn : n ∉ l) :
    ∃ h' head', insertBack h head (some n) = .ok (h', head', some n) ∧ Holds h' head' (l ++ [n]) ∧
      (∀ y, y ∉ l → y ≠ n → h' y = h y) ∧ (∀ y, (h' y).val = (h y).val) := by
  obtain ⟨hhead, hr⟩ := hh
  cases l with
  | nil =>
    simp at hhead; subst hhead
    refine ⟨_, some n, by
      unfold insertBack
      rw [if_pos (by simp), if_pos rfl]
      simp only [setNext, setPrev, Res.bind_ok, Res.pure_eq]
      rfl, ⟨rfl, ?_⟩, ?_, ?_⟩
    · refine ⟨by simp, ?_⟩
      show Chain _ [n, n]
      refine ⟨⟨by simp [upd], by simp [upd]⟩, trivial⟩
    · intro y _ hy; simp [upd, hy]
    · intro y; by_cases hy : y = n <;> simp [upd, hy]
  | cons m C =>
    simp at hhead; subst hhead
    obtain ⟨h', e, hr', f, v⟩ := linkBefore_spec h n m C hr hn
    refine ⟨h', some m, by
      unfold insertBack
      rw [if_pos (by simp), if_neg (by simp), e]
      rfl, ⟨rfl, hr'⟩, f, v⟩

theorem rotateBackward_spec {h : Mem α} {head : Ptr} {l : List Nat} (n : Nat) (hh : Holds h head (l ++ [n])) :
    rotateBackward h head = .ok (some n) ∧ Holds h (some n) (n :: l) := by
  obtain ⟨hhead, hr⟩ := hh
  refine ⟨?_, ⟨rfl, ring_rotate l [n] hr⟩⟩
  cases l with
  | nil =>
    simp at hhead; subst hhead
    simp [rotateBackward, rd, (ring_single hr).2]
  | cons a A =>
    simp at hhead; subst hhead
    have := ring_prev_head (z := n) (D := a :: A) rfl hr
    simp [rotateBackward, rd, this]

theorem rotateForward_spec {h : Mem α} {head : Ptr} {l : List Nat} (n : Nat) (hh : Holds h head (n :: l)) :
    ∃ head', rotateForward h head = .ok head' ∧ Holds h head' (l ++ [n]) := by
  obtain ⟨hhead, hr⟩ := hh
  simp at hhead; subst hhead
  cases l with
  | nil => exact ⟨some n, by simp [rotateForward, rd, (ring_single hr).1], rfl, hr⟩
  | cons b l =>
    refine ⟨some b, by simp [rotateForward, rd, ring_next_head hr], rfl, ?_⟩
    exact ring_rotate [n] (b :: l) hr

theorem insertFront_spec {h : Mem α} {head : Ptr} {l : List Nat} (n : Nat) (hh : Holds h head l) (hn : n ∉ l) :
    ∃ h', insertFront h head (some n) = .ok (h', some n, some n) ∧ Holds h' (some n) (n :: l) ∧
      (∀ y, y ∉ l → y ≠ n → h' y = h y) ∧ (∀ y, (h' y).val = (h y).val) := by
  obtain ⟨h', head', e, hh', f, v⟩ := insertBack_spec n hh hn
  obtain ⟨e2, hh2⟩ := rotateBackward_spec n hh'
  exact ⟨h', by simp [insertFront, e, e2], hh2, f, v⟩

theorem insertBefore_spec {h : Mem α} {head : Ptr} {A B : List Nat} {m : Nat} (n : Nat)
    (hh : Holds h head (A ++ m :: B)) (hn : n ∉ A ++ m :: B) :
    ∃ h' head', insertBefore h head (some n) (some m) = .ok (h', head', some n) ∧
      Holds h' head' (A ++ n :: m :: B) ∧
      (∀ y, y ∉ A ++ m :: B → y ≠ n → h' y = h y) ∧ (∀ y, (h' y).val = (h y).val) := by
  obtain ⟨hhead, hr⟩ := hh
  have hrot : Ring h (m :: (B ++ A)) := ring_rotate A (m :: B) hr
  have hnm : n ≠ m := fun e => hn (by simp [e])
  obtain ⟨h', e, hr', f, v⟩ := linkBefore_spec h n m (B ++ A) hrot (by simp at hn ⊢; tauto)
  have hr2 : Ring h' (A ++ n :: m :: B) := by
    have : Ring h' ((m :: B) ++ (A ++ [n])) := by simpa using hr'
    have := ring_rotate _ _ this
    simpa using this
  have hf : ∀ y, y ∉ A ++ m :: B → y ≠ n → h' y = h y := by
    intro y hy hyn; exact f y (by simp at hy ⊢; tauto) hyn
  unfold insertBefore
  rw [if_pos (by simpa using hnm), e]
  simp only [Res.bind_ok]
  cases A with
  | nil =>
    simp at hhead; subst hhead
    rw [if_pos rfl]
    have hprev : (h' m).prev = some n := by
      have := ring_prev_head (a := m) (A := B ++ [n]) (D := m :: B) (z := n) (by simp) (by simpa using hr')
      exact this
    refine ⟨h', some n, by simp [rotateBackward, rd, hprev], ⟨by simp, hr2⟩, hf, v⟩
  | cons a A =>
    simp at hhead; subst hhead
    have ham : a ≠ m := by
      intro e; subst e; have := hr.1; simp at this
    rw [if_neg (by simpa using ham)]
    exact ⟨h', some a, rfl, ⟨by simp, hr2⟩, hf, v⟩

/-- Concatenation of two disjoint rings. -/
theorem insertBackList_spec {h : Mem α} {head ohead : Ptr} {l o : List Nat} (hh : Holds h head l)
    (ho : Holds h ohead o) (hd : ∀ x ∈ l, x ∉ o) :
    ∃ h' head', insertBackList h head ohead = .ok (h', head', none, !o.isEmpty) ∧ Holds h' head' (l ++ o) ∧
      (∀ y, y ∉ l → y ∉ o → h' y = h y) ∧ (∀ y, (h' y).val = (h y).val) := by
  obtain ⟨hhead, hr⟩ := hh
  obtain ⟨hohead, hor⟩ := ho
  cases o with
  | nil =>
    simp at hohead; subst hohead
    exact ⟨h, head, by simp [insertBackList, empty], ⟨by simpa using hhead, by simpa using hr⟩, fun _ _ _ => rfl, fun _ => rfl⟩
  | cons b B =>
    simp at hohead; subst hohead
    cases l with
    | nil =>
      simp at hhead; subst hhead
      exact ⟨h, some b, by simp [insertBackList, empty], ⟨rfl, hor⟩, fun _ _ _ => rfl, fun _ => rfl⟩
    | cons a A =>
      simp at hhead; subst hhead
      obtain ⟨D, z, hz⟩ := exists_concat a A
      obtain ⟨E, w, hw⟩ := exists_concat b B
      have pa := ring_prev_head hz hr
      have pb := ring_prev_head hw hor
      have hzm : z ∈ a :: A := by rw [hz]; simp
      have hwm : w ∈ b :: B := by rw [hw]; simp
      have hzw : z ≠ w := fun e => hd z hzm (e ▸ hwm)
      have hab : a ≠ b := fun e => hd a (by simp) (by simp [e])
      obtain ⟨hnd, hch, hl1, hl2⟩ := (ring_iff_concat h a A D z hz).mp hr
      obtain ⟨ond, och, ol1, ol2⟩ := (ring_iff_concat h b B E w hw).mp hor
      obtain ⟨h', he, hnext, hprv, hval, hfr⟩ : ∃ h', insertBackList h (some a) (some b)
            = .ok (h', some a, none, true) ∧
          (∀ y, (h' y).next = if y = z then some b else if y = w then some a else (h y).next) ∧
          (∀ y, (h' y).prev = if y = a then some w else if y = b then some z else (h y).prev) ∧
          (∀ y, (h' y).val = (h y).val) ∧ (∀ y, y ≠ a → y ≠ b → y ≠ z → y ≠ w → h' y = h y) := by
        refine ⟨_, by
          have b1 : back h (some a) = .ok (some z) := by simp [back, rd, pa]
          have b2 : back h (some b) = .ok (some w) := by simp [back, rd, pb]
          simp only [insertBackList, b1, b2, setNext, setPrev, Res.bind_ok]
          rfl, ?_, ?_, ?_, ?_⟩
        · intro y
          by_cases h1 : y = z <;> by_cases h2 : y = w <;> by_cases h3 : y = a <;> by_cases h4 : y = b <;> simp_all [upd]
        · intro y
          by_cases h1 : y = z <;> by_cases h2 : y = w <;> by_cases h3 : y = a <;> by_cases h4 : y = b <;> simp_all [upd]
        · intro y
          by_cases h1 : y = z <;> by_cases h2 : y = w <;> by_cases h3 : y = a <;> by_cases h4 : y = b <;> simp_all [upd]
        · intro y h1 h2 h3 h4
          simp [upd, h1, h2, h3, h4]
      refine ⟨h', some a, he, ⟨rfl, ?_⟩, ?_, hval⟩
      · have hcat : a :: A ++ b :: B = (a :: A ++ E) ++ [w] := by rw [List.append_assoc, ← hw]
        refine (ring_iff_concat h' a (A ++ b :: B) (a :: A ++ E) w (by simpa using hcat)).mpr ⟨?_, ?_, ?_, ?_⟩
        · show (a :: A ++ b :: B).Nodup
          rw [List.nodup_append]
          exact ⟨hnd, ond, fun x hx y hy e => hd x hx (e ▸ hy)⟩
        · show Chain h' (a :: A ++ b :: B)
          rw [chain_append, hz, chain_concat]
          refine ⟨⟨?_, ?_, ?_⟩, ?_⟩
          · rw [← hz]
            refine chain_frame _ hch ?_ ?_
            · intro y hy
              have hyD : y ∈ D := by rw [hz, List.dropLast_concat] at hy; exact hy
              have hym : y ∈ a :: A := by rw [hz]; simp [hyD]
              have hyz : y ≠ z := by
                intro e; subst e
                rw [hz, List.nodup_append] at hnd
                exact hnd.2.2 y hyD y (by simp) rfl
              rw [hnext, if_neg hyz, if_neg (fun e : y = w => hd y hym (e ▸ hwm))]
            · intro y hy
              have hyA : y ∈ A := by simpa using hy
              have hya : y ≠ a := by intro e; subst e; exact (List.nodup_cons.mp hnd).1 hyA
              rw [hprv, if_neg hya, if_neg (fun e => hd y (by simp [hyA]) (by simp [e]))]
          · rw [hnext, if_pos rfl]
          · rw [hprv, if_neg (Ne.symm hab), if_pos rfl]
          · refine chain_frame _ och ?_ ?_
            · intro y hy
              have hyE : y ∈ E := by rw [hw, List.dropLast_concat] at hy; exact hy
              have hym : y ∈ b :: B := by rw [hw]; simp [hyE]
              have hyw : y ≠ w := by
                intro e; subst e
                rw [hw, List.nodup_append] at ond
                exact ond.2.2 y hyE y (by simp) rfl
              rw [hnext, if_neg (fun e : y = z => hd y (e ▸ hzm) hym), if_neg hyw]
            · intro y hy
              have hyB : y ∈ B := by simpa using hy
              have hyb : y ≠ b := by intro e; subst e; exact (List.nodup_cons.mp ond).1 hyB
              rw [hprv, if_neg (fun e => hd y (by simp [e]) (by simp [hyB])), if_neg hyb]
        · rw [hnext, if_neg (Ne.symm hzw), if_pos rfl]
        · rw [hprv, if_pos rfl]
      · intro y hy hyo
        exact hfr y (fun e => hy (by simp [e])) (fun e => hyo (by simp [e])) (fun e => hy (e ▸ hzm))
          (fun e => hyo (e ▸ hwm))

theorem back_spec {h : Mem α} {head : Ptr} {l : List Nat} (hh : Holds h head l) :
    back h head = .ok l.getLast? := by
  obtain ⟨hhead, hr⟩ := hh
  cases l with
  | nil => simp at hhead; subst hhead; rfl
  | cons a A =>
    simp at hhead; subst hhead
    obtain ⟨D, z, hz⟩ := exists_concat a A
    have := ring_prev_head hz hr
    rw [hz]
    simp [back, rd, this]

end Verif.DList
