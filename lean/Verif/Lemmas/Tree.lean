import Verif.Model.Tree
import Verif.Spec.Cursor
/-!
# Helper lemmas for the tree proofs
-/

set_option linter.unusedSectionVars false

namespace Verif.Tree
open Verif.Spec Verif.SortSlice Tree
variable {α : Type}

mutual
/-- All subtrees in preorder. -/
def pre : Tree α → List (Tree α)
  | .node v cs => .node v cs :: preList cs
/-- Preorder of a forest. -/
def preList : List (Tree α) → List (Tree α)
  | [] => []
  | c :: cs => pre c ++ preList cs
end

mutual
theorem all_eq (t : Tree α) : all t = (pre t).map Tree.val := by
  cases t with
  | node v cs => simp [all, pre, Tree.val, allList_eq cs]
theorem allList_eq (cs : List (Tree α)) : allList cs = (preList cs).map Tree.val := by
  cases cs with
  | nil => rfl
  | cons c cs => simp [allList, preList, all_eq c, allList_eq cs]
end

theorem preList_append (a b : List (Tree α)) : preList (a ++ b) = preList a ++ preList b := by
  induction a with
  | nil => rfl
  | cons x xs ih => simp [preList, ih]

theorem pre_eq (t : Tree α) : pre t = t :: preList t.children := by
  cases t; rfl

/-- `stk` is the path from the node `n` up to `root`. -/
def Path (root : Tree α) : List (Tree α × Int) → Tree α → Prop
  | [], n => n = root
  | (p, b) :: rest, n => 0 ≤ b ∧ p.children[b.toNat]? = some n ∧ Path root rest p

/-- Nodes listed before the node whose path is `stk`. -/
def before : List (Tree α × Int) → List (Tree α)
  | [] => []
  | (p, b) :: rest => before rest ++ [p] ++ preList (p.children.take b.toNat)

/-- Nodes listed after the subtree whose path is `stk`. -/
def after : List (Tree α × Int) → List (Tree α)
  | [] => []
  | (p, b) :: rest => preList (p.children.drop (b.toNat + 1)) ++ after rest

theorem path_split (root : Tree α) (stk : List (Tree α × Int)) : ∀ (n : Tree α), Path root stk n →
    pre root = before stk ++ pre n ++ after stk := by
  induction stk with
  | nil => intro n h; simp [Path] at h; subst h; simp [before, after]
  | cons pb rest ih =>
    obtain ⟨p, b⟩ := pb
    intro n ⟨h0, hn, hp⟩
    rw [ih p hp, pre_eq p]
    obtain ⟨hlt, rfl⟩ := List.getElem?_eq_some_iff.mp hn
    have : p.children = p.children.take b.toNat ++ (p.children[b.toNat] :: p.children.drop (b.toNat + 1)) := by
      rw [← List.drop_eq_getElem_cons hlt, List.take_append_drop]
    have h2 := congrArg preList this
    rw [preList_append] at h2
    simp only [preList] at h2
    rw [h2]
    simp [before, after]

variable [Inhabited α]

theorem mustChild_eq (t : Tree α) (i : Nat) (h : i < t.children.length) :
    mustChild t (i : Int) = .ok t.children[i] := by
  have : ((i : Int) ≥ 0 ∧ (i : Int) < ((len (⟨t.children⟩ : SortSlice (Tree α)) : Nat) : Int)) := by
    unfold len; simp only; omega
  have e : SortSlice.get (⟨t.children⟩ : SortSlice (Tree α)) (i : Int) = .ok (t.children[i], true) := by
    unfold SortSlice.get
    rw [if_pos this]
    simp [Go.get, h]
  simp [mustChild, mustGet, e]

theorem nextLoop_spec (root : Tree α) (stk : List (Tree α × Int)) : ∀ (n : Tree α), Path root stk n →
    (nextLoop stk = .ok ⟨none, []⟩ ∧ after stk = []) ∨
    ∃ m stk', nextLoop stk = .ok ⟨some m, stk'⟩ ∧ Path root stk' m ∧ before stk' = before stk ++ pre n := by
  induction stk with
  | nil => intro n _; exact Or.inl ⟨rfl, rfl⟩
  | cons pb rest ih =>
    obtain ⟨p, b⟩ := pb
    intro n ⟨h0, hn, hp⟩
    obtain ⟨hlt, rfl⟩ := List.getElem?_eq_some_iff.mp hn
    unfold nextLoop
    rw [if_neg (by omega)]
    by_cases hb : b < (p.children.length : Int) - 1
    · rw [if_pos hb]
      right
      have hc : ((b.toNat + 1 : Nat) : Int) = b + 1 := by omega
      have hlt' : b.toNat + 1 < p.children.length := by omega
      have hm := mustChild_eq p (b.toNat + 1) hlt'
      rw [hc] at hm
      have hbt : (b + 1).toNat = b.toNat + 1 := by omega
      refine ⟨p.children[b.toNat + 1], (p, b + 1) :: rest, by simp [hm], ?_, ?_⟩
      · refine ⟨by omega, ?_, hp⟩
        rw [hbt, List.getElem?_eq_getElem hlt']
      · simp only [before, hbt]
        rw [List.take_add_one, List.getElem?_eq_getElem hlt, preList_append]
        simp [preList]
    · rw [if_neg hb]
      have hd : p.children.drop (b.toNat + 1) = [] := List.drop_of_length_le (by omega)
      have hsplit : p.children = p.children.take b.toNat ++ [p.children[b.toNat]] := by
        conv => lhs; rw [← List.take_append_drop b.toNat p.children, List.drop_eq_getElem_cons hlt, hd]
      rcases ih p hp with ⟨e, ha⟩ | ⟨m, stk', e, hpath, hbef⟩
      · exact Or.inl ⟨e, by simp [after, hd, ha, preList]⟩
      · refine Or.inr ⟨m, stk', e, hpath, ?_⟩
        rw [hbef, pre_eq p]
        have h2 := congrArg preList hsplit
        rw [preList_append] at h2
        simp only [preList] at h2
        rw [h2]
        simp [before]

theorem topRight_spec (root : Tree α) (stk : List (Tree α × Int)) (n : Tree α) (h : Path root stk n) :
    Path root (topRight stk n).1 (topRight stk n).2 ∧
      before (topRight stk n).1 ++ [(topRight stk n).2] = before stk ++ pre n := by
  fun_induction topRight stk n with
  | case1 stk n hl ih =>
    have hlen : ((n.children.length : Int) - 1).toNat = n.children.length - 1 := by omega
    have hp : Path root ((n, (n.children.length : Int) - 1) :: stk) (n.children[n.children.length - 1]'(by omega)) := by
      refine ⟨by omega, ?_, h⟩
      rw [hlen, List.getElem?_eq_getElem (by omega)]
    obtain ⟨h1, h2⟩ := ih hp
    refine ⟨h1, h2.trans ?_⟩
    rw [pre_eq n]
    have hsplit : n.children = n.children.take (n.children.length - 1) ++ [n.children[n.children.length - 1]'(by omega)] := by
      conv => lhs; rw [← List.take_append_drop (n.children.length - 1) n.children,
        List.drop_eq_getElem_cons (by omega), List.drop_of_length_le (by omega)]
    have hs2 : preList n.children = preList (n.children.take (n.children.length - 1)) ++
        pre (n.children[n.children.length - 1]'(by omega)) := by
      have h2 := congrArg preList hsplit
      rw [preList_append] at h2
      simpa [preList] using h2
    rw [hs2]
    simp [before, hlen]
  | case2 stk n hl =>
    refine ⟨h, ?_⟩
    have : n.children = [] := List.length_eq_zero_iff.mp (by omega)
    rw [pre_eq n, this]; simp [preList]

/-- The visitor state represents the cursor position. -/
def Rep (root : Tree α) (v : Visitor α) : Cursor → Prop
  | .fresh => v = visitor root
  | .at i => ∃ n, v.node = some n ∧ Path root v.stk n ∧ (before v.stk).length = i
  | .done => v = ⟨none, []⟩

theorem pre_length_pos (t : Tree α) : 0 < (pre t).length := by rw [pre_eq]; simp

theorem next_spec (root : Tree α) (v : Visitor α) (c : Cursor) (h : Rep root v c) :
    ∃ v' ok, next v = .ok (v', ok) ∧ cursorStep (all root) c .next = ((cursorStep (all root) c .next).1, .moved ok) ∧
      Rep root v' (cursorStep (all root) c .next).1 := by
  have hlen : (all root).length = (pre root).length := by rw [all_eq]; simp
  have hpos := pre_length_pos root
  cases c with
  | fresh =>
    have h' : v = visitor root := h
    subst h'
    refine ⟨⟨some root, []⟩, true, by simp [next, nextState, visitor, nextLoop], ?_, ?_⟩
    · simp only [cursorStep]; rw [if_neg (by omega)]
    · simp only [cursorStep]; rw [if_neg (by omega)]; exact ⟨root, rfl, rfl, rfl⟩
  | done =>
    have h' : v = ⟨none, []⟩ := h
    subst h'
    exact ⟨⟨none, []⟩, false, by simp [next, nextState, nextLoop], rfl, rfl⟩
  | «at» i =>
    obtain ⟨n, hn, hp, rfl⟩ := h
    have hsplit := path_split root v.stk n hp
    have hl : (pre root).length = (before v.stk).length + (pre n).length + (after v.stk).length := by
      rw [hsplit]; simp; omega
    unfold next nextState
    rw [hn]
    by_cases hc : n.children.length > 0
    · have hm := mustChild_eq n 0 hc
      have hm' : mustChild n 0 = .ok n.children[0] := hm
      have hpl : 1 < (pre n).length := by
        rw [pre_eq]
        have : n.children = n.children[0] :: n.children.drop 1 := by
          have := List.drop_eq_getElem_cons hc; simpa using this
        rw [this]
        have := pre_length_pos n.children[0]
        simp [preList]; omega
      refine ⟨⟨some n.children[0], (n, 0) :: v.stk⟩, true, by simp [hc, hm'], ?_, ?_⟩
      · simp only [cursorStep]; rw [if_pos (by omega)]
      · simp only [cursorStep]; rw [if_pos (by omega)]
        refine ⟨_, rfl, ⟨by simp, by simp [hc], hp⟩, ?_⟩
        simp [before, preList]
    · have hcn : n.children = [] := List.length_eq_zero_iff.mp (by omega)
      have hpn : pre n = [n] := by rw [pre_eq, hcn]; rfl
      simp only [if_neg hc]
      rcases nextLoop_spec root v.stk n hp with ⟨e, ha⟩ | ⟨m, stk', e, hpath, hbef⟩
      · refine ⟨⟨none, []⟩, false, by simp [e], ?_, ?_⟩
        · simp only [cursorStep]; rw [if_neg (by rw [hpn, ha] at hl; simp at hl; omega)]
        · simp only [cursorStep]; rw [if_neg (by rw [hpn, ha] at hl; simp at hl; omega)]; rfl
      · have hs2 := path_split root stk' m hpath
        have hbl : (before stk').length = (before v.stk).length + 1 := by rw [hbef, hpn]; simp
        have hl2 : (pre root).length = (before stk').length + (pre m).length + (after stk').length := by
          rw [hs2]; simp; omega
        have := pre_length_pos m
        refine ⟨⟨some m, stk'⟩, true, by simp [e], ?_, ?_⟩
        · simp only [cursorStep]; rw [if_pos (by omega)]
        · simp only [cursorStep]; rw [if_pos (by omega)]
          exact ⟨m, rfl, hpath, hbl⟩

theorem prev_spec (root : Tree α) (v : Visitor α) (c : Cursor) (h : Rep root v c) :
    ∃ v' ok, prev v = .ok (v', ok) ∧ cursorStep (all root) c .prev = ((cursorStep (all root) c .prev).1, .moved ok) ∧
      Rep root v' (cursorStep (all root) c .prev).1 := by
  have hlen : (all root).length = (pre root).length := by rw [all_eq]; simp
  have hpos := pre_length_pos root
  cases c with
  | fresh =>
    have h' : v = visitor root := h
    subst h'
    obtain ⟨h1, h2⟩ := topRight_spec root [] root rfl
    refine ⟨⟨some (topRight [] root).2, (topRight [] root).1⟩, true, by simp [prev, visitor], ?_, ?_⟩
    · simp only [cursorStep]; rw [if_neg (by omega)]
    · simp only [cursorStep]; rw [if_neg (by omega)]
      refine ⟨_, rfl, h1, ?_⟩
      have := congrArg List.length h2
      simp [before] at this
      simp only
      omega
  | done =>
    have h' : v = ⟨none, []⟩ := h
    subst h'
    exact ⟨⟨none, []⟩, false, by simp [prev], rfl, rfl⟩
  | «at» i =>
    obtain ⟨n, hn, hp, rfl⟩ := h
    obtain ⟨vn, stk⟩ := v
    simp only at hn hp
    subst hn
    cases stk with
    | nil => exact ⟨⟨none, []⟩, false, rfl, by simp [cursorStep, before], by simp [cursorStep, before, Rep]⟩
    | cons pb rest =>
      obtain ⟨p, b⟩ := pb
      obtain ⟨h0, hn, hpp⟩ := hp
      obtain ⟨hlt, rfl⟩ := List.getElem?_eq_some_iff.mp hn
      have hbpos : 0 < (before ((p, b) :: rest)).length := by simp [before]; omega
      by_cases hb : b > 0
      · have hlt' : b.toNat - 1 < p.children.length := by omega
        have hc : ((b.toNat - 1 : Nat) : Int) = b - 1 := by omega
        have hm := mustChild_eq p (b.toNat - 1) hlt'
        rw [hc] at hm
        have hbt : (b - 1).toNat = b.toNat - 1 := by omega
        have hpath : Path root ((p, b - 1) :: rest) p.children[b.toNat - 1] := by
          refine ⟨by omega, ?_, hpp⟩
          rw [hbt, List.getElem?_eq_getElem hlt']
        obtain ⟨h1, h2⟩ := topRight_spec root _ _ hpath
        refine ⟨⟨some (topRight ((p, b - 1) :: rest) p.children[b.toNat - 1]).2,
          (topRight ((p, b - 1) :: rest) p.children[b.toNat - 1]).1⟩, true, by simp [prev, hb, hm], ?_, ?_⟩
        · simp only [cursorStep]; rw [if_pos hbpos]
        · simp only [cursorStep]; rw [if_pos hbpos]
          refine ⟨_, rfl, h1, ?_⟩
          have := congrArg List.length h2
          have htake : p.children.take b.toNat = p.children.take (b.toNat - 1) ++ [p.children[b.toNat - 1]] := by
            have : b.toNat = b.toNat - 1 + 1 := by omega
            conv => lhs; rw [this, List.take_add_one, List.getElem?_eq_getElem hlt']
            simp
          simp only [before, htake, preList_append, preList, hbt, List.length_append, List.length_singleton, List.length_nil] at this ⊢
          omega
      · have : b = 0 := by omega
        subst this
        refine ⟨⟨some p, rest⟩, true, by simp [prev], ?_, ?_⟩
        · simp only [cursorStep]; rw [if_pos hbpos]
        · simp only [cursorStep]; rw [if_pos hbpos]
          exact ⟨p, rfl, hpp, by simp [before, preList]⟩

theorem get_spec (root : Tree α) (v : Visitor α) (c : Cursor) (h : Rep root v c) :
    cursorStep (all root) c .get = (c, .val (get v)) := by
  cases c with
  | fresh => have h' : v = visitor root := h; subst h'; rfl
  | done => have h' : v = ⟨none, []⟩ := h; subst h'; rfl
  | «at» i =>
    obtain ⟨n, hn, hp, rfl⟩ := h
    simp only [cursorStep, get, hn]
    rw [all_eq, path_split root v.stk n hp, pre_eq n]
    simp

end Verif.Tree
