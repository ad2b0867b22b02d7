import Verif.Props.TreeVisit
/-!
# Trees with nil children: C118
-/

set_option linter.unusedSectionVars false

namespace Verif.Spec
open Verif.TreeHeap Verif.Tree
variable {α : Type}

/-- The pointer of the root of `t` leads to the tree `t`, not counting nil children. -/
inductive RepNil (h : Heap α) : Tree Ptr → Prop
  | node (p : Ptr) (n : Node α) (cs : List (Tree Ptr)) : deref h p = .ok n →
      n.children.filter (· ≠ 0) = cs.map Tree.val → (∀ c ∈ cs, RepNil h c) → RepNil h (.node p cs)

/-- The first `k` calls of `Next`: the nodes the visitor is at after each of them, and what the calls report. -/
def nexts (h : Heap α) : Nat → Visitor → Res (List (Ptr × Bool))
  | 0, _ => .ok []
  | k + 1, v =>
    match next h v with
    | .panic => .panic
    | .ok (v', ok) =>
      match nexts h k v' with
      | .panic => .panic
      | .ok l => .ok ((v'.node, ok) :: l)

end Verif.Spec

namespace Verif.TreeHeap
open Verif.Spec Verif.Tree
variable {α : Type}

theorem nextBrother_spec (l : List Ptr) : ∀ i : Int,
    match l.filter (· ≠ 0) with
    | [] => nextBrother i l = none
    | x :: xs => ∃ k : Nat, nextBrother i l = some (x, i + k) ∧ (l.drop (k + 1)).filter (· ≠ 0) = xs := by
  induction l with
  | nil => intro i; rfl
  | cons c cs ih =>
    intro i
    by_cases h0 : c = 0
    · subst h0
      have e : List.filter (fun x : Ptr => decide (x ≠ 0)) (0 :: cs) = cs.filter (· ≠ 0) := by simp
      rw [e]
      have := ih (i + 1)
      cases hf : cs.filter (· ≠ 0) with
      | nil => rw [hf] at this; simpa [nextBrother] using this
      | cons x xs =>
        rw [hf] at this
        obtain ⟨k, a, b⟩ := this
        refine ⟨k + 1, ?_, by simpa using b⟩
        unfold nextBrother
        rw [if_pos rfl, a]
        simp only [Option.some.injEq, Prod.mk.injEq, true_and]
        omega
    · have e : List.filter (fun x : Ptr => decide (x ≠ 0)) (c :: cs) = c :: cs.filter (· ≠ 0) := by
        simp [h0]
      rw [e]
      exact ⟨0, by simp [nextBrother, h0], by simp⟩

/-- What is still to come after the subtree of the node the visitor is at. -/
inductive Pend (h : Heap α) : List (Ptr × Int) → List Ptr → Prop
  | nil : Pend h [] []
  | cons (p : Ptr) (n : Node α) (b : Nat) (cs : List (Tree Ptr)) (rest L) : deref h p = .ok n →
      (n.children.drop (b + 1)).filter (· ≠ 0) = cs.map Tree.val → (∀ c ∈ cs, RepNil h c) → Pend h rest L →
      Pend h ((p, (b : Int)) :: rest) (allList cs ++ L)

/-- The visitor is at a node, and `L` is to come. -/
def Here (h : Heap α) (v : Visitor) (L : List Ptr) : Prop :=
  ∃ t M, RepNil h t ∧ v.node = t.val ∧ Pend h v.stk M ∧ L = allList t.children ++ M

theorem _root_.Verif.Spec.RepNil.ne_zero {h : Heap α} {t : Tree Ptr} (r : RepNil h t) : t.val ≠ 0 := by
  cases r with
  | node p n cs hd _ _ => exact (deref_ok.1 hd).1

/-- The result of a move when `L` is to come. -/
def Moves (h : Heap α) (r : Res Visitor) : List Ptr → Prop
  | [] => r = .ok ⟨0, []⟩
  | x :: L => ∃ v', r = .ok v' ∧ v'.node = x ∧ Here h v' L

theorem nextLoop_pend {h : Heap α} {stk : List (Ptr × Int)} {L : List Ptr} (hp : Pend h stk L) :
    Moves h (nextLoop h stk) L := by
  induction hp with
  | nil => rfl
  | cons p n b cs rest L hd hf hr hp ih =>
    have hb : ¬ ((b : Int) < 0) := by omega
    have hs := nextBrother_spec (n.children.drop (b + 1)) ((b : Int) + 1)
    rw [hf] at hs
    have hstep : nextLoop h ((p, (b : Int)) :: rest) =
        match nextBrother ((b : Int) + 1) (n.children.drop (b + 1)) with
        | some (c, i) => .ok ⟨c, (p, i) :: rest⟩
        | none => nextLoop h rest := by
      rw [nextLoop, if_neg hb]
      simp only [hd, Res.bind_ok, Int.toNat_natCast]
      rfl
    cases cs with
    | nil =>
      simp only [List.map_nil] at hs
      simp only [allList, List.nil_append, hstep, hs]
      exact ih
    | cons c cs =>
      simp only [List.map_cons] at hs
      obtain ⟨k, e, hrest⟩ := hs
      obtain ⟨q, ds⟩ := c
      simp only [allList, Tree.all, List.cons_append, List.append_assoc, hstep, e]
      show Moves h _ (q :: _)
      refine ⟨_, rfl, rfl, .node q ds, allList cs ++ L, hr _ (by simp), rfl, ?_, by simp [Tree.children]⟩
      have hidx : ((b : Int) + 1 + (k : Int)) = ((b + 1 + k : Nat) : Int) := by omega
      simp only [hidx]
      refine .cons p n (b + 1 + k) cs rest L hd ?_ (fun x hx => hr x (by simp [hx])) hp
      rw [List.drop_drop] at hrest
      rw [← hrest]
      congr 1

theorem next_here {h : Heap α} {v : Visitor} {L : List Ptr} (hv : Here h v L) : Moves h (nextState h v) L := by
  obtain ⟨t, M, r, hn, hp, rfl⟩ := hv
  have h0 := r.ne_zero
  cases r with
  | node p n cs hd hf hr =>
    simp only [Tree.val] at hn h0
    simp only [Tree.children]
    have hn0 : v.node ≠ 0 := by rw [hn]; exact h0
    cases e : n.children with
    | nil =>
      rw [e] at hf
      have : cs = [] := by cases cs <;> simp at hf ⊢
      subst this
      have hs : nextState h v = nextLoop h v.stk := by
        simp [nextState, hn, h0, hd, e]
      simp only [allList, List.nil_append, hs]
      exact nextLoop_pend hp
    | cons c0 cs0 =>
      by_cases hz : c0 = 0
      · have hs : nextState h v = nextLoop h ((v.node, ((0 : Nat) : Int)) :: v.stk) := by
          simp [nextState, hn, h0, hd, e, hz]
        rw [hs]
        refine nextLoop_pend (.cons v.node n 0 cs v.stk M (hn ▸ hd) ?_ hr hp)
        rw [e, hz] at hf
        rw [e]
        simpa using hf
      · have hs : nextState h v = .ok ⟨c0, (v.node, ((0 : Nat) : Int)) :: v.stk⟩ := by
          simp [nextState, hn, h0, hd, e, hz]
        rw [e, List.filter_cons_of_pos (by simpa using hz)] at hf
        cases cs with
        | nil => simp at hf
        | cons c cs =>
          simp only [List.map_cons, List.cons.injEq] at hf
          obtain ⟨q, ds⟩ := c
          simp only [allList, Tree.all, List.cons_append, List.append_assoc, hs]
          show Moves h _ (q :: _)
          refine ⟨_, rfl, hf.1, .node q ds, allList cs ++ M, hr _ (by simp), hf.1, ?_, by simp [Tree.children]⟩
          exact .cons v.node n 0 cs v.stk M (hn ▸ hd) (by rw [e]; simpa using hf.2) (fun x hx => hr x (by simp [hx])) hp

theorem nexts_here {h : Heap α} : ∀ (L : List Ptr) (v : Visitor), (∀ x ∈ L, x ≠ 0) → Here h v L →
    nexts h (L.length + 1) v = .ok (L.map (fun p => (p, true)) ++ [(0, false)]) := by
  intro L
  induction L with
  | nil =>
    intro v _ hv
    have : nextState h v = .ok ⟨0, []⟩ := next_here hv
    simp [nexts, next, this]
  | cons x L ih =>
    intro v hL hv
    obtain ⟨v', e, hx, hv'⟩ := next_here hv
    have := ih v' (fun y hy => hL y (by simp [hy])) hv'
    have hx0 : x ≠ 0 := hL x (by simp)
    rw [List.length_cons, nexts]
    simp only [next, e, Res.bind_ok, Res.pure_eq, this, hx]
    simp [hx0]

theorem _root_.Verif.Spec.RepNil.all_ne_zero {h : Heap α} {t : Tree Ptr} (r : RepNil h t) : ∀ x ∈ Tree.all t, x ≠ 0 := by
  induction r with
  | node p n cs hd hf hr ih =>
    intro x hx
    rcases mem_all.1 hx with rfl | ⟨c, hc, hx⟩
    · exact (deref_ok.1 hd).1
    · exact ih c hc x hx

/-- **C118** Nil children do not matter to a visitor: `Next` goes through all other nodes of the tree in the order of
`All`, each once, then it returns false. -/
theorem C118_nil_children (h : Heap α) (t : Tree Ptr) (r : RepNil h t) :
    nexts h ((Tree.all t).length + 1) (visitor t.val) = .ok ((Tree.all t).map (fun p => (p, true)) ++ [(0, false)]) := by
  have h0 := r.ne_zero
  obtain ⟨p, cs⟩ := t
  have hL := r.all_ne_zero
  simp only [Tree.all, List.singleton_append, List.mem_cons, forall_eq_or_imp, Tree.val] at hL h0 ⊢
  have hs : nextState h (visitor p) = .ok ⟨p, []⟩ := by
    simp [nextState, visitor, nextLoop, h0]
  have := nexts_here (allList cs) ⟨p, []⟩ hL.2 ⟨.node p cs, [], r, rfl, .nil, by simp [Tree.children]⟩
  rw [List.length_cons, nexts]
  simp only [next, hs, Res.bind_ok, Res.pure_eq, this]
  simp [h0]

/-- **C118** `All`, however, never returns for a node with a nil child: it panics or goes on for ever. -/
theorem C118_all_nil (h : Heap α) (p : Ptr) (n : Node α) (hd : deref h p = .ok n) (hn : 0 ∈ n.children) (fuel : Nat)
    (l : List α) : all h fuel p ≠ some (.ok l) := by
  intro e
  obtain ⟨t, r, hv⟩ := (C117_all h p).2.1 fuel l e
  cases r with
  | node q m cs hq hc hr =>
    simp only [Tree.val] at hv
    subst hv
    rw [hd] at hq
    obtain rfl : n = m := by simpa using hq
    rw [hc] at hn
    obtain ⟨c, hcm, hz⟩ := List.mem_map.1 hn
    exact (hr c hcm).ne_zero hz

-- node 1 has the children nil, 2, nil and 3; node 2 has only nil children
example :
    let h : Heap Int := ⟨[⟨10, [0, 2, 0, 3]⟩, ⟨20, [0, 0]⟩, ⟨30, []⟩]⟩
    RepNil h (.node 1 [.node 2 [], .node 3 []]) ∧
    nexts h 4 (visitor 1) = .ok [(1, true), (2, true), (3, true), (0, false)] ∧ all h 3 1 = some .panic := by
  refine ⟨.node 1 ⟨10, [0, 2, 0, 3]⟩ _ rfl rfl fun c hc => ?_, by decide, by decide⟩
  simp only [List.mem_cons, List.not_mem_nil, or_false] at hc
  rcases hc with rfl | rfl
  · exact .node 2 ⟨20, [0, 0]⟩ _ rfl rfl (by simp)
  · exact .node 3 ⟨30, []⟩ _ rfl rfl (by simp)

example := C118_nil_children (⟨[⟨10, [0, 2]⟩, ⟨20, []⟩]⟩ : Heap Int) (.node 1 [.node 2 []])
  (.node 1 ⟨10, [0, 2]⟩ _ rfl rfl fun c hc => by
    rw [List.mem_singleton] at hc
    exact hc ▸ .node 2 ⟨20, []⟩ _ rfl rfl (by simp))

end Verif.TreeHeap
