import Mathlib.Tactic.Tauto
import Verif.Lemmas.RBTree
/-!
# Properties of the tree template (C69, C80, C81)
-/
set_option linter.unusedSectionVars false
set_option linter.unusedSimpArgs false

namespace Verif.RBTree
open Verif.Spec

variable {κ : Type} (lt : κ → κ → Bool)

/-! ## Specification -/

/-- Inserting a sequence of keys one after the other. -/
def insertAll (fuel : Nat) : T κ → List κ → Run (T κ)
  | t, [] => .ok t
  | t, k :: ks => do let (t, _) ← insertEqual lt t fuel k; insertAll fuel t ks

/-- What a user sees of a tree: `L` are its nodes in the order in which iteration visits them, from `Begin` by `next` to
`End` (the header, 0) and by `prev` back to the first; the keys along `L` are in order; `Find` gives the first of the
nodes with the key, or nil. -/
structure Visits (t : T κ) (L : List Nat) : Prop where
  first : begin t = L.head?
  next : ∀ A a b C, L = A ++ a :: b :: C → Ends (fun fuel => next t fuel a) (some b)
  last : ∀ A a, L = A ++ [a] → Ends (fun fuel => RBTree.next t fuel a) (some (end' t))
  prev : ∀ A a b C, L = A ++ a :: b :: C → Ends (fun fuel => RBTree.prev t fuel b) (some a)
  sorted : (L.map t.key).Pairwise fun a b => lt b a = false
  find : ∀ k, Ends (fun fuel => RBTree.find lt t fuel k) (L.find? fun a => !lt (t.key a) k && !lt k (t.key a))
  size : t.size = L.length

/-- The reference: the new key goes behind the keys that are not greater. -/
def place (key : Nat → κ) (z : Nat) : List Nat → List Nat
  | [] => [z]
  | a :: l => if lt (key z) (key a) then z :: a :: l else a :: place key z l

/-! ## C69 -/

variable {lt}

theorem find_ends (hw : StrictWeak lt) {t : T κ} {B : BT} (hrep : Rep t 0 B (t.parent 0))
    (hsort : (B.inorder.map t.key).Pairwise fun a b => lt b a = false) (k : κ) :
    Ends (fun fuel => RBTree.find lt t fuel k) (B.inorder.find? fun a => !lt (t.key a) k && !lt k (t.key a)) := by
  obtain ⟨F, hF⟩ := findLoop_ends hw t k B 0 _ hrep hsort none
  refine ⟨F, fun fuel hf => ?_⟩
  have := hF fuel hf
  simp only at this
  simp only [RBTree.find, root, this, Run.bind_ok]
  have hs := List.pairwise_map.1 hsort
  clear this hF hf
  generalize B.inorder = l at hs
  induction l with
  | nil => rfl
  | cons a l ih =>
    rw [List.pairwise_cons] at hs
    simp only [List.find?_cons]
    cases hc : lt (t.key a) k with
    | true => simpa using ih hs.2
    | false =>
      cases hc2 : lt k (t.key a) with
      | false => simp [hc2]
      | true =>
        simp only [Bool.not_false, hc2, Bool.not_true, Bool.and_false]
        have : (l.find? fun a => !lt (t.key a) k && !lt k (t.key a)) = none := by
          rw [List.find?_eq_none]
          intro b hb
          simp only [Bool.and_eq_true, Bool.not_eq_true', not_and, Bool.not_eq_false]
          intro _
          rcases hw.negTrans _ (t.key b) _ hc2 with h' | h'
          · exact h'
          · rw [hs.1 b hb] at h'; cases h'
        simp [this]

theorem Inv.visits (hw : StrictWeak lt) {t : T κ} {B : BT} (h : Inv lt t B) : Visits lt t B.inorder := by
  have h0 : (0 : Nat) ∉ B.inorder := fun hm => (h.range 0 hm).1 rfl
  refine ⟨h.first, ?_, ?_, ?_, h.sorted, ?_, h.size⟩
  · intro A a b C e
    exact (next_sub t B 0 _ h.rep h.nodup A a (b :: C) e).1 b rfl
  · intro A a e
    obtain ⟨h1, top, d, h2, h3⟩ := (next_sub t B 0 _ h.rep h.nodup A a [] e).2 rfl
    have hroot : t.parent 0 = some top := by rw [h.rep.top, h2]
    have htop : top ∈ B.inorder := by
      cases B with
      | leaf => simp [BT.top] at h2
      | node => simp [BT.top] at h2; subst h2; simp [BT.inorder]
    have hlast : t.right 0 = some a := by rw [h.last, e]; simp
    by_cases hta : top = a
    · refine ⟨d + 2, fun fuel hf => ?_⟩
      obtain ⟨f, rfl⟩ : ∃ f, fuel = f + 2 + d := ⟨fuel - 2 - d, by omega⟩
      subst hta
      simp only [RBTree.next, h1, h3]
      simp [climbRight, hlast, hroot, h1, end']
    · refine ⟨d + 1, fun fuel hf => ?_⟩
      obtain ⟨f, rfl⟩ : ∃ f, fuel = f + 1 + d := ⟨fuel - 1 - d, by omega⟩
      have hr : t.right top ≠ some 0 := fun e => h0 (h.rep.right_mem htop (.inl e))
      have hat : ¬ a = top := fun e => hta e.symm
      simp only [RBTree.next, h1, h3]
      simp [climbRight, hlast, hat, hr, end']
  · intro A a b C e
    exact (prev_sub t B 0 _ h.rep h.nodup h0 (A ++ [a]) b C (by rw [e]; simp)).2.1 a (by simp)
  · exact find_ends hw h.rep h.sorted

theorem place_append (key : Nat → κ) (z : Nat) (A C : List Nat) (hA : ∀ a ∈ A, lt (key z) (key a) = false)
    (hC : ∀ c ∈ C, lt (key z) (key c) = true) : place lt key z (A ++ C) = A ++ z :: C := by
  induction A with
  | nil =>
    cases C with
    | nil => rfl
    | cons c C => simp [place, hC c (by simp)]
  | cons a A ih =>
    rw [List.cons_append, place, if_neg (by simp [hA a (by simp)]), ih fun a ha => hA a (by simp [ha])]
    rfl

theorem insertEqual_inv (hw : StrictWeak lt) {t : T κ} {B : BT} (h : Inv lt t B) (k : κ) :
    ∃ t' B', Ends (fun fuel => insertEqual lt t fuel k) (t', t.n + 1) ∧ Inv lt t' B' ∧
      t'.key = upd t.key (t.n + 1) k ∧ t'.n = t.n + 1 ∧ B'.inorder = place lt t'.key (t.n + 1) B.inorder ∧
      B' = ins lt t.key k (t.n + 1) B ∧ ((∀ a, t.red a = true) → ∀ a, t'.red a = true) := by
  have hd : ∀ fuel, B.height + 1 ≤ fuel → insertEqual lt t fuel k = .ok (insert lt t none (att lt t.key k B 0 true).1 k) := by
    intro fuel hf
    rw [insertEqual, root, descend_eq lt k t B 0 _ h.rep 0 true fuel (by omega)]
    rfl
  by_cases hB : B = .leaf
  · subst hB
    obtain ⟨h1, h2, h3, h4⟩ := insert_leaf t h k
    refine ⟨_, _, ⟨BT.leaf.height + 1, fun fuel hf => ?_⟩, h1, h3, h4, rfl, rfl, insert_red t lt none 0 k⟩
    have := hd fuel hf
    simp only [this, ← h2]; rfl
  · obtain ⟨h1, h2, h3, h4⟩ := insert_node hw t B hB h k
    refine ⟨_, _, ⟨B.height + 1, fun fuel hf => ?_⟩, h1, h3, h4, ?_, rfl, insert_red t lt none _ k⟩
    · have := hd fuel hf
      simp only [this, ← h2]
    · obtain ⟨A, C, e1, e2, -, -, e5, e6⟩ := ins_inorder lt t.key k hw (t.n + 1) B 0 true hB h.sorted
      rw [e2, h3, e1, place_append]
      · intro a ha
        have := (h.range a (by rw [e1]; simp [ha])).2
        rw [upd_same, upd_ne _ _ (by omega)]; exact e5 a ha
      · intro a ha
        have := (h.range a (by rw [e1]; simp [ha])).2
        rw [upd_same, upd_ne _ _ (by omega)]; exact e6 a ha

theorem place_mem (key : Nat → κ) (z : Nat) (l : List Nat) : (place lt key z l).Perm (z :: l) := by
  induction l with
  | nil => exact .refl _
  | cons a l ih =>
    rw [place]
    split_ifs
    · exact .refl _
    · exact (ih.cons a).trans (.swap z a l)

/-- **C69 (insertion, partial).** Inserting any sequence of keys with the internal `insertEqual` into a new tree, in every
state: the call ends, the node made for the `i`-th key holds it for ever, iteration visits all nodes from `Begin` to `End`
in the order of their keys and back, equal keys in the order of insertion, and `Size` is their number.  Missing: the
exported `Insert` does nothing (`C69_public_insert_false`), and `prev` of `End` (`C69_prev_end`). -/
theorem C69_insert_partial (hw : StrictWeak lt) (zero : κ) (ks : List κ) :
    ∃ t L, Ends (fun fuel => insertAll lt fuel (new zero) ks) t ∧ Visits lt t L ∧ L.Perm (List.range' 1 ks.length) ∧
      (∀ i, (hi : i < ks.length) → t.key (i + 1) = ks[i]) ∧
      (L.Pairwise fun a b => lt (t.key a) (t.key b) = false → lt (t.key b) (t.key a) = false → a < b) := by
  have key : ∀ (ks : List κ) (t : T κ) (B : BT), Inv lt t B → B.inorder.Perm (List.range' 1 t.n) →
      (B.inorder.Pairwise fun a b => lt (t.key a) (t.key b) = false → lt (t.key b) (t.key a) = false → a < b) →
      ∃ t' B', Ends (fun fuel => insertAll lt fuel t ks) t' ∧ Inv lt t' B' ∧ t'.n = t.n + ks.length ∧
        B'.inorder.Perm (List.range' 1 t'.n) ∧
        (B'.inorder.Pairwise fun a b => lt (t'.key a) (t'.key b) = false → lt (t'.key b) (t'.key a) = false → a < b) ∧
        (∀ i, i ≤ t.n → t'.key i = t.key i) ∧ (∀ i, (hi : i < ks.length) → t'.key (t.n + i + 1) = ks[i]) := by
    intro ks
    induction ks with
    | nil =>
      intro t B h hp hst
      exact ⟨t, B, ⟨0, fun _ _ => rfl⟩, h, rfl, hp, hst, fun _ _ => rfl, fun i hi => by simp at hi⟩
    | cons k ks ih =>
      intro t B h hp hst
      obtain ⟨t1, B1, ⟨F1, hF1⟩, h1, hk1, hn1, hpl, -⟩ := insertEqual_inv hw h k
      have hp1 : B1.inorder.Perm (List.range' 1 t1.n) := by
        rw [hpl, hn1, List.range'_concat]
        refine (place_mem _ _ _).trans ?_
        rw [Nat.one_mul, Nat.add_comm 1]
        exact ((hp.cons _).trans (List.perm_append_singleton _ _).symm)
      have hst1 : B1.inorder.Pairwise fun a b =>
          lt (t1.key a) (t1.key b) = false → lt (t1.key b) (t1.key a) = false → a < b := by
        have hle : ∀ a ∈ B.inorder, a ≤ t.n := fun a ha => (h.range a ha).2
        have hst' : B.inorder.Pairwise fun a b =>
            lt (t1.key a) (t1.key b) = false → lt (t1.key b) (t1.key a) = false → a < b := by
          refine hst.imp_of_mem ?_
          intro a b ha hb hab
          have := hle a ha
          have := hle b hb
          rw [hk1, upd_ne _ _ (by omega), upd_ne _ _ (by omega)]
          exact hab
        have hsrt : B.inorder.Pairwise fun a b => lt (t1.key b) (t1.key a) = false := by
          have := List.pairwise_map.1 h.sorted
          refine this.imp_of_mem ?_
          intro a b ha hb hab
          have := hle a ha
          have := hle b hb
          rw [hk1, upd_ne _ _ (by omega), upd_ne _ _ (by omega)]
          exact hab
        rw [hpl]
        clear hpl hp hst hp1
        generalize B.inorder = l at *
        induction l with
        | nil => simp [place]
        | cons a l ihl =>
          rw [List.pairwise_cons] at hst' hsrt
          rw [place]
          split_ifs with hc
          · refine List.pairwise_cons.2 ⟨?_, List.pairwise_cons.2 hst'⟩
            intro b hb h1 h2
            exfalso
            rcases List.mem_cons.1 hb with rfl | hb
            · rw [hc] at h1; cases h1
            · rcases hw.negTrans _ (t1.key b) _ hc with h' | h'
              · rw [h1] at h'; cases h'
              · rw [hsrt.1 b hb] at h'; cases h'
          · refine List.pairwise_cons.2 ⟨?_, ihl (fun a ha => hle a (by simp [ha])) hst'.2 hsrt.2⟩
            intro b hb h1 h2
            rcases List.mem_cons.1 ((place_mem _ _ _).mem_iff.1 hb) with rfl | hb
            · have := hle a (by simp); omega
            · exact hst'.1 b hb h1 h2
      obtain ⟨t2, B2, ⟨F2, hF2⟩, h2, hn2, hp2, hst2, hk2, hks⟩ := ih t1 B1 h1 hp1 hst1
      refine ⟨t2, B2, ⟨max F1 F2, fun fuel hf => ?_⟩, h2, by rw [hn2, hn1]; simp; omega, hp2, hst2, ?_, ?_⟩
      · have a := hF1 fuel (by omega)
        have b := hF2 fuel (by omega)
        simp only at a b
        simp only [insertAll, a, Run.bind_ok, b]
      · intro i hi
        rw [hk2 i (by omega), hk1, upd_ne _ _ (by omega)]
      · intro i hi
        cases i with
        | zero => rw [hk2 _ (by omega), hk1]; simp
        | succ i =>
          have := hks i (by simpa using hi)
          rw [hn1] at this
          rw [show t.n + (i + 1) + 1 = t.n + 1 + i + 1 by omega, this]
          simp
  obtain ⟨t, B, h1, h2, h3, h4, h5, -, h7⟩ := key ks (new zero) .leaf (inv_new lt zero) (by simp [BT.inorder, new])
    (by simp [BT.inorder])
  have hn : t.n = ks.length := by rw [h3]; simp [new]
  refine ⟨t, B.inorder, h1, h2.visits hw, by rw [hn] at h4; exact h4, ?_, h5⟩
  intro i hi
  have := h7 i hi
  simpa [new] using this

/-- The order of natural numbers. -/
def natLt (a b : Nat) : Bool := decide (a < b)

theorem natLt_strictWeak : StrictWeak natLt :=
  ⟨by simp [natLt], by simp only [natLt, decide_eq_true_eq]; omega, by simp only [natLt, decide_eq_true_eq]; omega⟩

/-- The tree after these insertions, if they end within 20 rounds. -/
def demo (ks : List Nat) : T Nat :=
  match insertAll natLt 20 (new 0) ks with
  | .ok t => t
  | _ => new 0

example : begin (demo [5, 2, 8, 2, 9]) = some 2 ∧ next (demo [5, 2, 8, 2, 9]) 20 2 = .ok (some 4) ∧
    next (demo [5, 2, 8, 2, 9]) 20 4 = .ok (some 1) ∧ prev (demo [5, 2, 8, 2, 9]) 20 1 = .ok (some 4) ∧
    find natLt (demo [5, 2, 8, 2, 9]) 20 2 = .ok (some 2) ∧ find natLt (demo [5, 2, 8, 2, 9]) 20 3 = .ok none := by
  decide

/-! ### What is false of the code -/

/-- **C69 is false of the exported `Insert`.** It leaves every tree as it is and returns nil. -/
theorem C69_public_insert_false (t : T κ) (k : κ) : publicInsert t k = (t, none) := rfl

/-- **C69 (`prev` of `End`).** It is the last node of the right subtree of the first node, not the last node: after
inserting 2, 1, 3 it is the node of 1. -/
theorem C69_prev_end : ∃ ks, (begin (demo ks)).isSome ∧ ∃ last, next (demo ks) 20 last = .ok (some (end' (demo ks))) ∧
    prev (demo ks) 20 (end' (demo ks)) ≠ .ok (some last) :=
  ⟨[2, 1, 3], by decide, 3, by decide, by decide⟩

/-- **C69 (`insertUnique`).** It panics on every empty tree, for every key. -/
theorem C69_unique_empty_panics (zero k : κ) (fuel : Nat) (hf : 0 < fuel) : insertUnique lt (new zero) fuel k = .panic := by
  obtain ⟨f, rfl⟩ : ∃ f, fuel = f + 1 := ⟨fuel - 1, by omega⟩
  rfl

/-- **C69 (`insertUnique`).** On other trees it loses nodes: after 1 and 3, inserting 2 makes 3 unreachable. -/
theorem C69_unique_loses_nodes : ∃ t' z, insertUnique natLt (demo [1, 3]) 20 2 = .ok (t', some z) ∧
    find natLt (demo [1, 3]) 20 3 = .ok (some 2) ∧ find natLt t' 20 3 = .ok none ∧ t'.size = 3 :=
  ⟨_, _, rfl, by decide, by decide, by decide⟩

/-! ## C80 -/

/-- The right spine. -/
def spine (a : Nat) : Nat → BT
  | 0 => .leaf
  | n + 1 => .node .leaf a (spine (a + 1) n)

theorem spine_inorder (a n : Nat) : (spine a n).inorder = List.range' a n := by
  induction n generalizing a with
  | zero => rfl
  | succ n ih => simp [spine, BT.inorder, ih, List.range'_succ]

theorem ins_spine (key : Nat → κ) (k : κ) (a n : Nat) (h : ∀ i, a ≤ i → i < a + n → lt k (key i) = false) :
    ins lt key k (a + n) (spine a n) = spine a (n + 1) := by
  induction n generalizing a with
  | zero => rfl
  | succ n ih =>
    rw [spine, ins, h a (by omega) (by omega), if_neg (by simp), show a + (n + 1) = a + 1 + n by omega,
      ih (a + 1) fun i h1 h2 => h i (by omega) (by omega)]
    rfl

/-- **C80 is false of the code.** Inserting keys in increasing order gives a list: every node has no left child and the next
node as its right child, so the height is the number of keys; and all nodes are red. -/
theorem C80_chain_false (hw : StrictWeak lt) (zero : κ) (ks : List κ) (hinc : ks.Pairwise fun a b => lt a b = true) :
    ∃ t, Ends (fun fuel => insertAll lt fuel (new zero) ks) t ∧ (∀ a, t.red a = true) ∧
      (∀ i, 1 ≤ i → i ≤ ks.length → t.left i = none ∧ t.right i = if i = ks.length then none else some (i + 1)) := by
  have key : ∀ (ks : List κ) (t : T κ), Inv lt t (spine 1 t.n) → (∀ a, t.red a = true) →
      (ks.Pairwise fun a b => lt a b = true) → (∀ i, 1 ≤ i → i ≤ t.n → ∀ k ∈ ks, lt (t.key i) k = true) →
      ∃ t', Ends (fun fuel => insertAll lt fuel t ks) t' ∧ Inv lt t' (spine 1 t'.n) ∧ t'.n = t.n + ks.length ∧
        (∀ a, t'.red a = true) := by
    intro ks
    induction ks with
    | nil => intro t h hr _ _; exact ⟨t, ⟨0, fun _ _ => rfl⟩, h, rfl, hr⟩
    | cons k ks ih =>
      intro t h hr hp hlt
      obtain ⟨t1, B1, ⟨F1, hF1⟩, h1, hk1, hn1, -, hB, hr1⟩ := insertEqual_inv hw h k
      rw [show t.n + 1 = 1 + t.n by omega, ins_spine t.key k 1 t.n fun i h1 h2 => hw.asymm (hlt i h1 (by omega) k (by simp)),
        ← hn1] at hB
      rw [List.pairwise_cons] at hp
      obtain ⟨t2, ⟨F2, hF2⟩, h2, hn2, hr2⟩ := ih t1 (hB ▸ h1) (hr1 hr) hp.2 (by
        intro i h1 h2 k' hk'
        by_cases hi : i = t.n + 1
        · rw [hk1, hi, upd_same]; exact hp.1 k' hk'
        · rw [hk1, upd_ne _ _ hi]; exact hlt i h1 (by omega) k' (by simp [hk']))
      refine ⟨t2, ⟨max F1 F2, fun fuel hf => ?_⟩, h2, by rw [hn2, hn1]; simp; omega, hr2⟩
      have a := hF1 fuel (by omega)
      have b := hF2 fuel (by omega)
      simp only at a b
      simp only [insertAll, a, Run.bind_ok, b]
  obtain ⟨t, h1, h2, h3, h4⟩ := key ks (new zero) (inv_new lt zero) (fun _ => rfl) hinc (by
    intro i h1 h2; simp [new] at h2; omega)
  refine ⟨t, h1, h4, ?_⟩
  have hn : t.n = ks.length := by rw [h3]; simp [new]
  rw [← hn]
  have rep : ∀ (n a par : Nat) (p : Option Nat), Rep t par (spine a n) p → ∀ i, a ≤ i → i < a + n →
      t.left i = none ∧ t.right i = if i + 1 = a + n then none else some (i + 1) := by
    intro n
    induction n with
    | zero => intro a par p _ i h1 h2; omega
    | succ n ih =>
      rintro a par p ⟨-, -, hl, hr⟩ i h1 h2
      by_cases hi : i = a
      · subst hi
        refine ⟨hl, ?_⟩
        rw [hr.top]
        cases n with
        | zero => simp [spine, BT.top]
        | succ n => simp [spine, BT.top]
      · have := ih (a + 1) a _ hr i (by omega) (by omega)
        refine ⟨this.1, ?_⟩
        rw [this.2]
        congr 1
        simp only [eq_iff_iff]; omega
  intro i hi1 hi2
  have := rep t.n 1 0 _ h2.rep i hi1 (by omega)
  refine ⟨this.1, ?_⟩
  rw [this.2]
  congr 1
  simp only [eq_iff_iff]; omega

example : ([1, 4, 9] : List Nat).Pairwise fun a b => natLt a b = true := by decide

/-! ## C81 -/

/-- `s` is a link out of the node (or, for the root link, the header) `par`. -/
def SlotOf (s : Slot) (par : Nat) : Prop := (s = .root ∧ par = 0) ∨ s = .leftOf par ∨ s = .rightOf par

/-- Only the nodes of `l` and the link `s` may have changed. -/
def OnlyTouches (t t' : T κ) (l : List Nat) (s : Slot) : Prop :=
  t'.key = t.key ∧ t'.size = t.size ∧ ∀ a, a ∉ l →
    (s ≠ .leftOf a → t'.left a = t.left a) ∧ (s ≠ .rightOf a → t'.right a = t.right a) ∧
    (s = .root ∧ a = 0 ∨ t'.parent a = t.parent a)

/-- **C81.** Rotating a subtree to the left gives the rotated subtree, with the same nodes in the same order, at the same
place, and changes nothing else. -/
theorem C81_rotateLeft (t : T κ) (s : Slot) (par x y : Nat) (A B C : BT) (hs : SlotOf s par)
    (hr : Rep t par (BT.node A x (.node B y C)) (s.get t)) (hn : (par :: (BT.node A x (.node B y C)).inorder).Nodup) :
    ∃ t', rotateLeft t x s = .ok t' ∧ Rep t' par (BT.node (.node A x B) y C) (s.get t') ∧ OnlyTouches t t' (BT.node A x (.node B y C)).inorder s ∧
      (BT.node (.node A x B) y C).inorder = (BT.node A x (.node B y C)).inorder := by
  obtain ⟨h1, h2, h3, h4, h5, h6, h7⟩ := hr
  have hyl := h6.top
  simp only [BT.inorder, List.nodup_cons, List.nodup_append, List.mem_append, List.mem_cons, not_or] at hn
  obtain ⟨⟨hpA, hpx, hpB, hpy, hpC⟩, nA, ⟨⟨hxB, hxy, hxC⟩, nB, ⟨hyC, nC⟩, hBC⟩, hA⟩ := hn
  have hxA : ∀ a ∈ A.inorder, a ≠ x ∧ a ≠ y ∧ a ≠ par ∧ a ∉ B.inorder := fun a h =>
    ⟨fun e => hA a h x (by simp) e, fun e => hA a h y (by simp) e, fun e => hpA (e ▸ h), fun e => hA a h a (by simp [e]) rfl⟩
  have hxB : ∀ a ∈ B.inorder, a ≠ x ∧ a ≠ y ∧ a ≠ par := fun a h =>
    ⟨fun e => hxB (e ▸ h), fun e => hBC a h y (by simp) e, fun e => hpB (e ▸ h)⟩
  have hxC : ∀ a ∈ C.inorder, a ≠ x ∧ a ≠ y ∧ a ≠ par ∧ a ∉ B.inorder := fun a h =>
    ⟨fun e => hxC (e ▸ h), fun e => hyC (e ▸ h), fun e => hpC (e ▸ h), fun e => hBC a e a (by simp [h]) rfl⟩
  simp only [rotateLeft, h1, if_true, h4]
  refine ⟨_, rfl, ?_, ?_, by simp [BT.inorder]⟩
  · cases B with
    | leaf =>
      simp only [BT.top] at hyl
      rcases hs with ⟨rfl, rfl⟩ | rfl | rfl <;> simp only [Slot.get, Slot.set, Rep, hyl, upd_same] <;>
        simp (config := { failIfUnchanged := false }) only [upd, hxy, Ne.symm hxy, hpx, hpy, Ne.symm hpx, Ne.symm hpy,
          h2, if_true, if_false, true_and, and_true, hyl] <;>
        refine ⟨h3.frame ?_ ?_ ?_, h7.frame ?_ ?_ ?_⟩ <;> intro a ha <;>
        first
          | (have := hxA a ha; simp [upd, *])
          | (have := hxC a ha; simp [upd, *])
    | node Bl c Br =>
      simp only [BT.top] at hyl
      obtain ⟨-, hcp, hBl, hBr⟩ := h6
      have hc := hxB c (by simp [BT.inorder])
      simp only [BT.inorder, List.nodup_append, List.nodup_cons] at nB
      obtain ⟨nBl, ⟨hcBr, nBr⟩, hlr⟩ := nB
      have hxBl : ∀ a ∈ Bl.inorder, a ≠ x ∧ a ≠ y ∧ a ≠ par ∧ a ≠ c := fun a h =>
        ⟨(hxB a (by simp [BT.inorder, h])).1, (hxB a (by simp [BT.inorder, h])).2.1, (hxB a (by simp [BT.inorder, h])).2.2,
          fun e => hlr a h c (by simp) e⟩
      have hxBr : ∀ a ∈ Br.inorder, a ≠ x ∧ a ≠ y ∧ a ≠ par ∧ a ≠ c := fun a h =>
        ⟨(hxB a (by simp [BT.inorder, h])).1, (hxB a (by simp [BT.inorder, h])).2.1, (hxB a (by simp [BT.inorder, h])).2.2,
          fun e => hcBr (e ▸ h)⟩
      have hxA' : ∀ a ∈ A.inorder, a ≠ c := fun a h e => (hxA a h).2.2.2 (by simp [BT.inorder, e])
      have hxC' : ∀ a ∈ C.inorder, a ≠ c := fun a h e => (hxC a h).2.2.2 (by simp [BT.inorder, e])
      rcases hs with ⟨rfl, rfl⟩ | rfl | rfl <;> simp only [Slot.get, Slot.set, Rep, hyl, upd_same] <;>
        simp (config := { failIfUnchanged := false }) only [upd, hxy, Ne.symm hxy, hpx, hpy, Ne.symm hpx, Ne.symm hpy, hc.1, hc.2.1, hc.2.2,
          Ne.symm hc.1, Ne.symm hc.2.1, Ne.symm hc.2.2, h2, if_true, if_false, true_and, and_true, hyl] <;>
        refine ⟨⟨h3.frame ?_ ?_ ?_, hBl.frame ?_ ?_ ?_, hBr.frame ?_ ?_ ?_⟩, h7.frame ?_ ?_ ?_⟩ <;> intro a ha <;>
        first
          | (have := hxA a ha; have := hxA' a ha; simp [upd, *])
          | (have := hxBl a ha; simp [upd, *])
          | (have := hxBr a ha; simp [upd, *])
          | (have := hxC a ha; have := hxC' a ha; simp [upd, *])
  · have hB : ∀ c, B.top = some c → c ∈ B.inorder := by
      intro c; cases B <;> simp [BT.top, BT.inorder]; rintro rfl; simp
    refine ⟨?_, ?_, ?_⟩
    · rcases hs with ⟨rfl, rfl⟩ | rfl | rfl <;> cases hl : t.left y <;> rfl
    · rcases hs with ⟨rfl, rfl⟩ | rfl | rfl <;> cases hl : t.left y <;> rfl
    · intro a ha
      simp only [BT.inorder, List.mem_append, List.mem_cons, not_or] at ha
      cases hl : t.left y with
      | none => rcases hs with ⟨rfl, rfl⟩ | rfl | rfl <;> simp [Slot.set, upd, ha] <;> tauto
      | some c =>
        have hac : a ≠ c := by
          rintro rfl
          have := hB a (by rw [← hyl, hl])
          tauto
        rcases hs with ⟨rfl, rfl⟩ | rfl | rfl <;> simp [Slot.set, upd, ha, hac] <;> tauto

/-- **C81.** The same for rotating to the right. -/
theorem C81_rotateRight (t : T κ) (s : Slot) (par x y : Nat) (A B C : BT) (hs : SlotOf s par)
    (hr : Rep t par (BT.node (.node C y B) x A) (s.get t)) (hn : (par :: (BT.node (.node C y B) x A).inorder).Nodup) :
    ∃ t', rotateRight t x s = .ok t' ∧ Rep t' par (BT.node C y (.node B x A)) (s.get t') ∧ OnlyTouches t t' (BT.node (.node C y B) x A).inorder s ∧
      (BT.node C y (.node B x A)).inorder = (BT.node (.node C y B) x A).inorder := by
  obtain ⟨h1, h2, ⟨h4, h5, h7, h6⟩, h3⟩ := hr
  have hyl := h6.top
  simp only [BT.inorder, List.nodup_cons, List.nodup_append, List.mem_append, List.mem_cons, not_or] at hn
  obtain ⟨⟨⟨hpC, hpy, hpB⟩, hpx, hpA⟩, ⟨nC, ⟨hyB, nB⟩, hCB⟩, ⟨hxA, nA⟩, hA⟩ := hn
  have hxy : x ≠ y := fun e => hA y (by simp) x (by simp) e.symm
  have hxA : ∀ a ∈ A.inorder, a ≠ x ∧ a ≠ y ∧ a ≠ par ∧ a ∉ B.inorder := fun a h =>
    ⟨fun e => hxA (e ▸ h), fun e => hA y (by simp) a (by simp [h]) e.symm, fun e => hpA (e ▸ h),
      fun e => hA a (by simp [e]) a (by simp [h]) rfl⟩
  have hxB : ∀ a ∈ B.inorder, a ≠ x ∧ a ≠ y ∧ a ≠ par := fun a h =>
    ⟨fun e => hA a (by simp [h]) x (by simp) e, fun e => hyB (e ▸ h), fun e => hpB (e ▸ h)⟩
  have hxC : ∀ a ∈ C.inorder, a ≠ x ∧ a ≠ y ∧ a ≠ par ∧ a ∉ B.inorder := fun a h =>
    ⟨fun e => hA a (by simp [h]) x (by simp) e, fun e => hCB a h y (by simp) e, fun e => hpC (e ▸ h),
      fun e => hCB a h a (by simp [e]) rfl⟩
  simp only [rotateRight, h1, if_true, h4]
  refine ⟨_, rfl, ?_, ?_, by simp [BT.inorder]⟩
  · cases B with
    | leaf =>
      simp only [BT.top] at hyl
      rcases hs with ⟨rfl, rfl⟩ | rfl | rfl <;> simp only [Slot.get, Slot.set, Rep, hyl, upd_same] <;>
        simp (config := { failIfUnchanged := false }) only [upd, hxy, Ne.symm hxy, hpx, hpy, Ne.symm hpx, Ne.symm hpy,
          h2, if_true, if_false, true_and, and_true, hyl] <;>
        refine ⟨h7.frame ?_ ?_ ?_, h3.frame ?_ ?_ ?_⟩ <;> intro a ha <;>
        first
          | (have := hxA a ha; simp [upd, *])
          | (have := hxC a ha; simp [upd, *])
    | node Bl c Br =>
      simp only [BT.top] at hyl
      obtain ⟨-, hcp, hBl, hBr⟩ := h6
      have hc := hxB c (by simp [BT.inorder])
      simp only [BT.inorder, List.nodup_append, List.nodup_cons] at nB
      obtain ⟨nBl, ⟨hcBr, nBr⟩, hlr⟩ := nB
      have hxBl : ∀ a ∈ Bl.inorder, a ≠ x ∧ a ≠ y ∧ a ≠ par ∧ a ≠ c := fun a h =>
        ⟨(hxB a (by simp [BT.inorder, h])).1, (hxB a (by simp [BT.inorder, h])).2.1, (hxB a (by simp [BT.inorder, h])).2.2,
          fun e => hlr a h c (by simp) e⟩
      have hxBr : ∀ a ∈ Br.inorder, a ≠ x ∧ a ≠ y ∧ a ≠ par ∧ a ≠ c := fun a h =>
        ⟨(hxB a (by simp [BT.inorder, h])).1, (hxB a (by simp [BT.inorder, h])).2.1, (hxB a (by simp [BT.inorder, h])).2.2,
          fun e => hcBr (e ▸ h)⟩
      have hxA' : ∀ a ∈ A.inorder, a ≠ c := fun a h e => (hxA a h).2.2.2 (by simp [BT.inorder, e])
      have hxC' : ∀ a ∈ C.inorder, a ≠ c := fun a h e => (hxC a h).2.2.2 (by simp [BT.inorder, e])
      rcases hs with ⟨rfl, rfl⟩ | rfl | rfl <;> simp only [Slot.get, Slot.set, Rep, hyl, upd_same] <;>
        simp (config := { failIfUnchanged := false }) only [upd, hxy, Ne.symm hxy, hpx, hpy, Ne.symm hpx, Ne.symm hpy, hc.1, hc.2.1, hc.2.2,
          Ne.symm hc.1, Ne.symm hc.2.1, Ne.symm hc.2.2, h2, if_true, if_false, true_and, and_true, hyl] <;>
        refine ⟨h7.frame ?_ ?_ ?_, ⟨hBl.frame ?_ ?_ ?_, hBr.frame ?_ ?_ ?_⟩, h3.frame ?_ ?_ ?_⟩ <;> intro a ha <;>
        first
          | (have := hxA a ha; have := hxA' a ha; simp [upd, *])
          | (have := hxBl a ha; simp [upd, *])
          | (have := hxBr a ha; simp [upd, *])
          | (have := hxC a ha; have := hxC' a ha; simp [upd, *])
  · have hB : ∀ c, B.top = some c → c ∈ B.inorder := by
      intro c; cases B <;> simp [BT.top, BT.inorder]; rintro rfl; simp
    refine ⟨?_, ?_, ?_⟩
    · rcases hs with ⟨rfl, rfl⟩ | rfl | rfl <;> cases hl : t.right y <;> rfl
    · rcases hs with ⟨rfl, rfl⟩ | rfl | rfl <;> cases hl : t.right y <;> rfl
    · intro a ha
      simp only [BT.inorder, List.mem_append, List.mem_cons, not_or] at ha
      cases hl : t.right y with
      | none => rcases hs with ⟨rfl, rfl⟩ | rfl | rfl <;> simp [Slot.set, upd, ha] <;> tauto
      | some c =>
        have hac : a ≠ c := by
          rintro rfl
          have := hB a (by rw [← hyl, hl])
          tauto
        rcases hs with ⟨rfl, rfl⟩ | rfl | rfl <;> simp [Slot.set, upd, ha, hac] <;> tauto

/-- **C81.** Rotating to the left a node without right child panics (and to the right one without left child). -/
theorem C81_no_child (t : T κ) (s : Slot) (x : Nat) (h : s.get t = some x) :
    (t.right x = none → rotateLeft t x s = .panic) ∧ (t.left x = none → rotateRight t x s = .panic) := by
  constructor <;> intro h' <;> simp [rotateLeft, rotateRight, h, h']

example : Rep (demo [1, 3, 2, 4]) 0 (.node .leaf 1 (.node (.node .leaf 3 .leaf) 2 (.node .leaf 4 .leaf)))
    (Slot.root.get (demo [1, 3, 2, 4])) ∧ SlotOf .root 0 := by
  refine ⟨?_, by simp [SlotOf]⟩
  simp only [Rep]
  decide

example := C69_unique_empty_panics (lt := natLt) 0 5 1 (by decide)
example := C81_rotateLeft (demo [1, 3, 2, 4]) .root 0 1 2 .leaf (.node .leaf 3 .leaf) (.node .leaf 4 .leaf)
  (by simp [SlotOf]) (by simp only [Rep]; decide) (by decide)
example := C81_rotateRight (demo [4, 2, 3, 1]) .root 0 1 2 .leaf (.node .leaf 3 .leaf) (.node .leaf 4 .leaf)
  (by simp [SlotOf]) (by simp only [Rep]; decide) (by decide)

end Verif.RBTree
