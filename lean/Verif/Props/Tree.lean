import Verif.Lemmas.Tree
import Verif.Props.SortSlice
/-!
# C16, C17 — trees and their visitor
-/

set_option linter.unusedSectionVars false

namespace Verif.Tree
open Verif.Spec Tree
variable {α : Type} [Inhabited α]

/-! ## C16 -/

/-- One visitor call. -/
def step (v : Visitor α) : CurOp → Res (Visitor α × CurOut α)
  | .next => do let (v', ok) ← next v; return (v', .moved ok)
  | .prev => do let (v', ok) ← prev v; return (v', .moved ok)
  | .get => return (v, .val (get v))

/-- A history of visitor calls. -/
def run (v : Visitor α) : List CurOp → Res (List (CurOut α))
  | [] => return []
  | op :: ops => do
    let (v', o) ← step v op
    let os ← run v' ops
    return o :: os

theorem run_spec (root : Tree α) (ops : List CurOp) : ∀ (v : Visitor α) (c : Cursor), Rep root v c →
    run v ops = .ok (cursorRun (all root) c ops) := by
  induction ops with
  | nil => intro v c _; rfl
  | cons op ops ih =>
    intro v c h
    cases op with
    | next =>
      obtain ⟨v', ok, e, ec, hr⟩ := next_spec root v c h
      simp only [run, step, e, Res.bind_ok, Res.pure_eq, ih v' _ hr, cursorRun]
      rw [ec]
    | prev =>
      obtain ⟨v', ok, e, ec, hr⟩ := prev_spec root v c h
      simp only [run, step, e, Res.bind_ok, Res.pure_eq, ih v' _ hr, cursorRun]
      rw [ec]
    | get =>
      have e := get_spec root v c h
      simp only [run, step, Res.bind_ok, Res.pure_eq, ih v c h, cursorRun, e]

/-- **C16.**  For every tree and every sequence of Next, Prev and Get calls on a new visitor, the calls never
panic and return what a cursor on the listing `All()` returns. -/
theorem C16_visitor_cursor (root : Tree α) (ops : List CurOp) :
    run (visitor root) ops = .ok (cursorRun (all root) .fresh ops) :=
  run_spec root ops _ _ rfl

/-- The idiomatic loop `for v.Next() { list = append(list, v.Get()) }`, at most `fuel` rounds; `none` when
the fuel did not suffice. -/
def collect (step : Visitor α → Res (Visitor α × Bool)) : Nat → Visitor α → Res (Option (List α))
  | 0, _ => return none
  | fuel + 1, v => do
    let (v', ok) ← step v
    if ok then do
      let r ← collect step fuel v'
      return r.map (get v' :: ·)
    else return some []

theorem collect_next (root : Tree α) (fuel : Nat) : ∀ (v : Visitor α) (i : Nat), Rep root v (.at i) →
    i < (all root).length → (all root).length - i ≤ fuel →
    collect next fuel v = .ok (some ((all root).drop (i + 1))) := by
  induction fuel with
  | zero => intro v i _ hi hf; omega
  | succ fuel ih =>
    intro v i h hi hf
    obtain ⟨v', ok, e, ec, hr⟩ := next_spec root v _ h
    simp only [collect, e, Res.bind_ok]
    simp only [cursorStep] at ec hr
    by_cases hn : i + 1 < (all root).length
    · rw [if_pos hn] at ec hr
      simp at ec
      subst ec
      have := ih v' (i + 1) hr hn (by omega)
      have hg := get_spec root v' _ hr
      simp [cursorStep, List.getElem?_eq_getElem hn] at hg
      rw [this]
      simp only [if_true, Res.bind_ok, Option.map_some, Res.pure_eq]
      rw [← hg, List.drop_eq_getElem_cons hn]
    · rw [if_neg hn] at ec
      simp at ec
      subst ec
      simp [List.drop_of_length_le (Nat.le_of_not_lt hn)]

/-- **C16 (enumeration).**  Looping with Next on a new visitor yields exactly `All()`. -/
theorem C16_next_enumerates (root : Tree α) (fuel : Nat) (hf : (all root).length < fuel) :
    collect next fuel (visitor root) = .ok (some (all root)) := by
  cases fuel with
  | zero => omega
  | succ fuel =>
    have hpos : 0 < (all root).length := by rw [all_eq]; simpa using pre_length_pos root
    obtain ⟨v', ok, e, ec, hr⟩ := next_spec root (visitor root) .fresh rfl
    simp only [cursorStep] at ec hr
    rw [if_neg (by omega)] at ec hr
    simp at ec
    subst ec
    have hg := get_spec root v' _ hr
    simp [cursorStep, List.getElem?_eq_getElem hpos] at hg
    simp only [collect, e, Res.bind_ok, if_true, collect_next root fuel v' 0 hr hpos (by omega),
      Option.map_some, Res.pure_eq]
    rw [← hg]
    rw [← List.drop_eq_getElem_cons hpos]
    rfl

theorem take_succ_reverse {β : Type} (l : List β) (j : Nat) (h : j < l.length) :
    (l.take (j + 1)).reverse = l[j] :: (l.take j).reverse := by
  rw [List.take_add_one, List.getElem?_eq_getElem h, List.reverse_append]
  rfl

theorem collect_prev (root : Tree α) (fuel : Nat) : ∀ (v : Visitor α) (i : Nat), Rep root v (.at i) →
    i < (all root).length → i < fuel →
    collect prev fuel v = .ok (some ((all root).take i).reverse) := by
  induction fuel with
  | zero => intro v i _ hi hf; omega
  | succ fuel ih =>
    intro v i h hi hf
    obtain ⟨v', ok, e, ec, hr⟩ := prev_spec root v _ h
    simp only [collect, e, Res.bind_ok]
    simp only [cursorStep] at ec hr
    by_cases hn : 0 < i
    · rw [if_pos hn] at ec hr
      simp at ec
      subst ec
      have := ih v' (i - 1) hr (by omega) (by omega)
      have hg := get_spec root v' _ hr
      have hlt : i - 1 < (all root).length := by omega
      simp [cursorStep, List.getElem?_eq_getElem hlt] at hg
      rw [this]
      simp only [if_true, Res.bind_ok, Option.map_some, Res.pure_eq]
      rw [← hg]
      obtain ⟨j, rfl⟩ : ∃ j, i = j + 1 := ⟨i - 1, by omega⟩
      rw [take_succ_reverse _ j (by omega)]
      simp
    · rw [if_neg hn] at ec
      simp at ec
      subst ec
      have : i = 0 := by omega
      subst this
      simp

/-- **C16 (backward enumeration).**  Looping with Prev on a new visitor yields `All()` reversed. -/
theorem C16_prev_enumerates (root : Tree α) (fuel : Nat) (hf : (all root).length < fuel) :
    collect prev fuel (visitor root) = .ok (some (all root).reverse) := by
  cases fuel with
  | zero => omega
  | succ fuel =>
    have hpos : 0 < (all root).length := by rw [all_eq]; simpa using pre_length_pos root
    obtain ⟨v', ok, e, ec, hr⟩ := prev_spec root (visitor root) .fresh rfl
    simp only [cursorStep] at ec hr
    rw [if_neg (by omega)] at ec hr
    simp at ec
    subst ec
    have hg := get_spec root v' _ hr
    have hlt : (all root).length - 1 < (all root).length := by omega
    simp [cursorStep, List.getElem?_eq_getElem hlt] at hg
    simp only [collect, e, Res.bind_ok, if_true, collect_prev root fuel v' _ hr hlt (by omega),
      Option.map_some, Res.pure_eq]
    rw [← hg]
    rw [← take_succ_reverse _ _ hlt, List.take_of_length_le (by omega)]

/-- Instance: a tree with two levels, walked forth and back. -/
example : run (visitor (.node 1 [.node 2 [.node 3 []], .node (4 : Int) []]))
    [.next, .next, .next, .next, .get, .prev, .get, .next, .next, .next, .prev]
    = .ok [.moved true, .moved true, .moved true, .moved true, .val 4, .moved true, .val 3, .moved true,
        .moved false, .moved false, .moved false] := by
  decide +kernel

/-! ## C17 -/

/-- The subtree at a path of child indices. -/
def subAt : Tree α → List Nat → Option (Tree α)
  | t, [] => some t
  | t, i :: p => match t.children[i]? with
    | some c => subAt c p
    | none => none

/-- Editing the node at a path (through its pointer) changes the tree there. -/
def editAt (f : Tree α → Tree α) : Tree α → List Nat → Tree α
  | t, [] => f t
  | t, i :: p => match t.children[i]? with
    | some c => .node t.val (t.children.set i (editAt f c p))
    | none => t

/-- **C17 is false** for AddChild: adding at an existing index replaces the child there. -/
theorem C17_addChild_false :
    ¬ ∀ (t : Tree Int) (v : Int) (i : Nat), i ≤ t.children.length →
      (addChild t v i).children = t.children.insertIdx i (.node v []) := by
  intro h
  have h1 := congrArg List.length (h (.node 0 [.node 7 []]) 9 0 (by simp))
  revert h1
  decide +kernel

/-- **C17, what AddChild at an existing index does:** the child there is lost. -/
theorem C17_addChild_replaces (t n : Tree α) (i : Nat) (hi : i < t.children.length) :
    (addChildNode t n i).val = t.val ∧ (addChildNode t n i).children = t.children.set i n := by
  have := SortSlice.C14_insert_overwrites (⟨t.children⟩ : SortSlice.SortSlice (Tree α)) n i hi
  simp only [SortSlice.step] at this
  simp at this
  refine ⟨rfl, ?_⟩
  show (SortSlice.insert ⟨t.children⟩ n (i : Int)).1.d = _
  rw [this.1]

/-- **C17, partial** (AddChild/AddChildNode).  Missing: an index that already has a child.  With any other
index (at or past the end, or negative) the new node becomes the last child and nothing else changes. -/
theorem C17_addChild_partial (t n : Tree α) (idx : Int) (h : idx < 0 ∨ (t.children.length : Int) ≤ idx) :
    addChildNode t n idx = .node t.val (t.children ++ [n]) := by
  have hn : ¬ (idx ≥ 0 ∧ idx < (SortSlice.len (⟨t.children⟩ : SortSlice.SortSlice (Tree α)) : Int)) := by
    unfold SortSlice.len; simp only; omega
  simp [addChildNode, SortSlice.insert, if_neg hn]

/-- **C17 (RemoveChild).**  A valid index removes exactly that child, which is returned. -/
theorem C17_removeChild (t : Tree α) (i : Nat) (hi : i < t.children.length) :
    removeChild t i = .ok (.node t.val (t.children.eraseIdx i), some t.children[i], true) := by
  have hp : SortSlice.Fine t.children (.remove (i : Int)) := trivial
  have := SortSlice.step_fine (⟨t.children⟩ : SortSlice.SortSlice (Tree α)) (.remove i) hp
  have hpos : pos? t.children (i : Int) = some i := by simp [pos?, hi]
  simp only [SortSlice.step, seqStep, hpos, List.getElem?_eq_getElem hi, outOpt] at this
  unfold removeChild
  cases hr : SortSlice.remove (⟨t.children⟩ : SortSlice.SortSlice (Tree α)) (i : Int) with
  | panic => rw [hr] at this; simp [SortSlice.toSpec] at this
  | ok r =>
    obtain ⟨s, c, ok⟩ := r
    rw [hr] at this
    simp [SortSlice.toSpec] at this
    obtain ⟨h1, h2, h3⟩ := this
    subst h3
    simp [h1, h2]

/-- **C17 (RemoveChild, GetChild).**  An invalid index reports false and changes nothing; GetChild returns the
indexed child. -/
theorem C17_child_range (t : Tree α) (idx : Int) :
    (idx < 0 ∨ (t.children.length : Int) ≤ idx →
      removeChild t idx = .ok (t, none, false) ∧ getChild t idx = .ok (none, false)) ∧
    (∀ (i : Nat) (hi : i < t.children.length), getChild t i = .ok (some t.children[i], true)) := by
  constructor
  · intro h
    have hp : pos? t.children idx = none := by simp [pos?]; omega
    have e := SortSlice.get_eq (⟨t.children⟩ : SortSlice.SortSlice (Tree α)) idx
    simp only [hp, Option.bind_none] at e
    cases t
    simp [removeChild, SortSlice.remove, getChild, e, Tree.children, Tree.val] at *
  · intro i hi
    have hp : pos? t.children (i : Int) = some i := by simp [pos?, hi]
    have e := SortSlice.get_eq (⟨t.children⟩ : SortSlice.SortSlice (Tree α)) i
    simp only [hp, Option.bind_some, List.getElem?_eq_getElem hi] at e
    simp [getChild, e]

/-- **C17 (NumChildren).**  Adding at an index of a child keeps the number of children, adding at any other index makes one
more; removing makes one less exactly if it reports true. -/
theorem C17_numChildren (t n : Tree α) (idx : Int) :
    numChildren (addChildNode t n idx) = (if 0 ≤ idx ∧ idx < numChildren t then numChildren t else numChildren t + 1) ∧
    ∃ t' c ok, removeChild t idx = .ok (t', c, ok) ∧ numChildren t' + (if ok then 1 else 0) = numChildren t ∧
      (ok = true ↔ 0 ≤ idx ∧ idx < numChildren t) := by
  have hn : ∀ t : Tree α, numChildren t = t.children.length := fun t => rfl
  by_cases h : 0 ≤ idx ∧ idx < t.children.length
  · obtain ⟨i, rfl⟩ := Int.eq_ofNat_of_zero_le h.1
    have hi : i < t.children.length := by omega
    refine ⟨?_, _, _, _, C17_removeChild t i hi, ?_, ?_⟩
    · rw [hn, hn, if_pos h, (C17_addChild_replaces t n i hi).2, List.length_set]
    · rw [hn, hn, show (Tree.node t.val (t.children.eraseIdx i)).children = t.children.eraseIdx i from rfl,
        List.length_eraseIdx, if_pos hi]
      simp only [if_true]
      omega
    · simpa [hn] using h
  · have h' : idx < 0 ∨ (t.children.length : Int) ≤ idx := by omega
    refine ⟨?_, _, _, _, ((C17_child_range t idx).1 h').1, by simp, ?_⟩
    · rw [hn, hn, if_neg h, C17_addChild_partial t n idx h']; simp [Tree.children]
    · rw [hn]; simp only [Bool.false_eq_true, false_iff]; exact h

/-- A tree of three children, the second of which is removed. -/
example : (removeChild (.node 0 [.node 1 [], .node 2 [], .node 3 []] : Tree Int) 1) =
    .ok (.node 0 [.node 1 [], .node 3 []], some (.node 2 []), true) := C17_removeChild _ 1 (by decide)

/-- Neither path is a prefix of the other. -/
def Apart : List Nat → List Nat → Prop
  | i :: p, j :: q => i ≠ j ∨ Apart p q
  | _, _ => False

/-- **C17 (frame).**  Editing one node leaves every subtree that is neither above nor below it as it was. -/
theorem C17_edit_frame (f : Tree α → Tree α) (t : Tree α) (p q : List Nat) (h : Apart p q) :
    subAt (editAt f t p) q = subAt t q := by
  induction p generalizing t q with
  | nil => exact absurd h (by simp [Apart])
  | cons i p ih =>
    cases q with
    | nil => exact absurd h (by simp [Apart])
    | cons j q =>
      unfold editAt
      cases hc : t.children[i]? with
      | none => rfl
      | some c =>
        obtain ⟨hi, _⟩ := List.getElem?_eq_some_iff.mp hc
        have hch : (Tree.node t.val (t.children.set i (editAt f c p))).children = t.children.set i (editAt f c p) := rfl
        simp only [subAt, hch]
        by_cases hij : i = j
        · subst hij
          rcases h with h | h
          · exact absurd rfl h
          · rw [List.getElem?_set_self hi, hc]
            exact ih c q h
        · rw [List.getElem?_set_ne hij]

example : Apart [0, 2] [0, 1, 5] := by simp [Apart]

example := C16_next_enumerates (.node 1 [.node 2 [.node 3 []], .node (4 : Int) []]) 5 (by decide)
example := C17_addChild_replaces (.node 1 [.node 2 [.node 3 []], .node (4 : Int) []]) (.node 9 []) 1 (by decide)
example := C17_addChild_partial (.node 1 [.node 2 [.node 3 []], .node (4 : Int) []]) (.node 9 []) (-1) (by decide)
example := C17_removeChild (.node 1 [.node 2 [.node 3 []], .node (4 : Int) []]) 0 (by decide)

end Verif.Tree
