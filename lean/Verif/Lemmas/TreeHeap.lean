import Verif.Spec.TreeHeap
import Verif.Lemmas.Tree
/-!
# Helper lemmas for trees in memory
-/

set_option linter.unusedSectionVars false

namespace Verif.TreeHeap
open Verif.Spec Verif.Tree
variable {α : Type}

theorem Rep.deref {h : Heap α} {t : Tree Ptr} (r : Rep h t) :
    ∃ n, TreeHeap.deref h t.val = .ok n ∧ n.children = t.children.map Tree.val ∧ ∀ c ∈ t.children, Rep h c := by
  cases r with
  | node p n cs a b c => exact ⟨n, a, b, c⟩

theorem map_val_inj {h : Heap α} : ∀ (cs ds : List (Tree Ptr)), (∀ c ∈ cs, ∀ d, Rep h d → c.val = d.val → c = d) →
    (∀ d ∈ ds, Rep h d) → cs.map Tree.val = ds.map Tree.val → cs = ds := by
  intro cs
  induction cs with
  | nil => intro ds _ _ e; cases ds with
    | nil => rfl
    | cons d ds => simp at e
  | cons c cs ih =>
    intro ds h1 h2 e
    cases ds with
    | nil => simp at e
    | cons d ds =>
      simp only [List.map_cons, List.cons.injEq] at e
      rw [h1 c (by simp) d (h2 d (by simp)) e.1,
        ih ds (fun x hx => h1 x (by simp [hx])) (fun x hx => h2 x (by simp [hx])) e.2]

/-- A pointer leads to at most one tree. -/
theorem Rep.unique {h : Heap α} {t : Tree Ptr} (r : Rep h t) : ∀ (t' : Tree Ptr), Rep h t' → t.val = t'.val → t = t' := by
  induction r with
  | node p n cs hd hc _ ih =>
    intro t' r' e
    cases r' with
    | node p' n' cs' hd' hc' hr' =>
      simp only [Tree.val] at e
      subst e
      rw [hd] at hd'
      obtain rfl : n = n' := by simpa using hd'
      rw [map_val_inj cs cs' (fun c hm d hd e => ih c hm d hd e) hr' (hc.symm.trans hc')]

theorem allList_mem {t : Tree Ptr} {cs : List (Tree Ptr)} {x : Ptr} (ht : t ∈ cs) (hx : x ∈ Tree.all t) :
    x ∈ allList cs := by
  induction cs with
  | nil => simp at ht
  | cons c cs ih =>
    simp only [allList, List.mem_append]
    rcases List.mem_cons.1 ht with rfl | ht
    · exact .inl hx
    · exact .inr (ih ht)

theorem mem_allList {cs : List (Tree Ptr)} {x : Ptr} (h : x ∈ allList cs) : ∃ t ∈ cs, x ∈ Tree.all t := by
  induction cs with
  | nil => simp [allList] at h
  | cons c cs ih =>
    simp only [allList, List.mem_append] at h
    rcases h with h | h
    · exact ⟨c, by simp, h⟩
    · obtain ⟨t, a, b⟩ := ih h; exact ⟨t, by simp [a], b⟩

theorem mem_all {p x : Ptr} {cs : List (Tree Ptr)} : x ∈ Tree.all (.node p cs) ↔ x = p ∨ ∃ c ∈ cs, x ∈ Tree.all c := by
  simp only [Tree.all, List.mem_append, List.mem_singleton]
  exact or_congr Iff.rfl ⟨mem_allList, fun ⟨_, a, b⟩ => allList_mem a b⟩

theorem val_mem_all (t : Tree Ptr) : t.val ∈ Tree.all t := by
  cases t with
  | node p cs => simp [Tree.all, Tree.val]

/-! ## All -/

theorem allLoop_ok {h : Heap α} {fuel : Nat} : ∀ (cs : List (Tree Ptr)),
    (∀ c ∈ cs, ∃ l, all h fuel c.val = some (.ok l) ∧ l.map some = (Tree.all c).map (valOf h)) →
    ∃ l, allLoop (all h fuel) (cs.map Tree.val) = some (.ok l) ∧ l.map some = (allList cs).map (valOf h) := by
  intro cs
  induction cs with
  | nil => intro _; exact ⟨[], rfl, rfl⟩
  | cons c cs ih =>
    intro hc
    obtain ⟨l, e, m⟩ := hc c (by simp)
    obtain ⟨l', e', m'⟩ := ih (fun x hx => hc x (by simp [hx]))
    refine ⟨l ++ l', ?_, ?_⟩
    · simp [allLoop, e, e', Res.bind]
    · simp [allList, m, m']

theorem all_ok {h : Heap α} {t : Tree Ptr} (r : Rep h t) : ∀ fuel, sizeOf t ≤ fuel →
    ∃ l, all h fuel t.val = some (.ok l) ∧ l.map some = (Tree.all t).map (valOf h) := by
  induction r with
  | node p n cs hd hc _ ih =>
    intro fuel hf
    cases fuel with
    | zero => simp at hf
    | succ fuel =>
      obtain ⟨l, e, m⟩ := allLoop_ok (h := h) (fuel := fuel) cs (fun c hm => ih c hm fuel (by
        have := List.sizeOf_lt_of_mem hm
        simp only [Tree.node.sizeOf_spec] at hf
        omega))
      refine ⟨n.val :: l, ?_, ?_⟩
      · simp [all, Tree.val, hd, hc, e, Res.bind]
      · simp [Tree.all, m, valOf, hd]

theorem allLoop_rep {h : Heap α} {f : Ptr → Option (Res (List α))} : ∀ (ps : List Ptr) (l : List α),
    (∀ p l, f p = some (.ok l) → ∃ t, Rep h t ∧ t.val = p) → allLoop f ps = some (.ok l) →
    ∃ cs : List (Tree Ptr), ps = cs.map Tree.val ∧ ∀ c ∈ cs, Rep h c := by
  intro ps
  induction ps with
  | nil => intro l _ _; exact ⟨[], rfl, by simp⟩
  | cons p ps ih =>
    intro l hf e
    unfold allLoop at e
    cases hp : f p with
    | none => simp [hp] at e
    | some r =>
      cases r with
      | panic => simp [hp] at e
      | ok l1 =>
        simp only [hp, Option.map_eq_some_iff] at e
        obtain ⟨r2, e2, e3⟩ := e
        cases r2 with
        | panic => simp [Res.bind] at e3
        | ok l2 =>
          obtain ⟨cs, a, b⟩ := ih l2 hf e2
          obtain ⟨t, rt, tv⟩ := hf p l1 hp
          exact ⟨t :: cs, by simp [a, tv], by simpa [rt] using b⟩

theorem all_rep {h : Heap α} : ∀ (fuel : Nat) (p : Ptr) (l : List α), all h fuel p = some (.ok l) →
    ∃ t, Rep h t ∧ t.val = p := by
  intro fuel
  induction fuel with
  | zero => intro p l e; simp [all] at e
  | succ fuel ih =>
    intro p l e
    unfold all at e
    cases hd : deref h p with
    | panic => simp [hd] at e
    | ok n =>
      simp only [hd, Option.map_eq_some_iff] at e
      obtain ⟨r, e1, e2⟩ := e
      cases r with
      | panic => simp [Res.bind] at e2
      | ok l1 =>
        obtain ⟨cs, a, b⟩ := allLoop_rep n.children l1 (fun p l => ih p l) e1
        exact ⟨.node p cs, .node p n cs hd a b, rfl⟩

/-- Panics come from pointers that cannot be followed. -/
theorem all_no_panic {h : Heap α} (X : Ptr → Prop) (hX : ∀ p, X p → ∃ n, deref h p = .ok n ∧ ∀ c ∈ n.children, X c) :
    ∀ (fuel : Nat) (p : Ptr), X p → all h fuel p ≠ some .panic := by
  intro fuel
  induction fuel with
  | zero => intro p _; simp [all]
  | succ fuel ih =>
    intro p hp
    obtain ⟨n, hd, hc⟩ := hX p hp
    have key : ∀ cs : List Ptr, (∀ c ∈ cs, X c) → allLoop (all h fuel) cs ≠ some .panic := by
      intro cs
      induction cs with
      | nil => intro _; simp [allLoop]
      | cons c cs ihc =>
        intro hcs
        unfold allLoop
        have h1 := ih c (hcs c (by simp))
        have h2 := ihc (fun x hx => hcs x (by simp [hx]))
        cases e : all h fuel c with
        | none => simp
        | some r =>
          cases r with
          | panic => exact absurd e h1
          | ok l =>
            simp only
            cases e2 : allLoop (all h fuel) cs with
            | none => simp
            | some r2 =>
              cases r2 with
              | panic => exact absurd e2 h2
              | ok l2 => simp [Res.bind]
    unfold all
    rw [hd]
    simp only
    have := key n.children hc
    cases e : allLoop (all h fuel) n.children with
    | none => simp
    | some r =>
      cases r with
      | panic => exact absurd e this
      | ok l => simp [Res.bind]

/-! ## Memory -/

theorem deref_ok {h : Heap α} {p : Ptr} {n : Node α} : deref h p = .ok n ↔ p ≠ 0 ∧ h.nodes[p - 1]? = some n := by
  unfold deref Go.get
  by_cases e : p = 0
  · simp [e]
  · simp only [e, if_false, ne_eq, not_false_eq_true, true_and]
    cases h.nodes[p - 1]? <;> simp

theorem deref_store_self {h : Heap α} {p : Ptr} {n : Node α} (hd : deref h p = .ok n) (m : Node α) :
    deref (store h p m) p = .ok m := by
  rw [deref_ok] at hd ⊢
  refine ⟨hd.1, ?_⟩
  obtain ⟨hl, _⟩ := List.getElem?_eq_some_iff.1 hd.2
  simp [store, hl]

theorem pred_ne {p q : Nat} (hp : p ≠ 0) (hq : q ≠ 0) (h : q ≠ p) : p - 1 ≠ q - 1 := by omega

theorem deref_store_ne {h : Heap α} {p q : Ptr} (hp : p ≠ 0) (hq : q ≠ p) (m : Node α) :
    deref (store h p m) q = deref h q := by
  unfold deref store Go.get
  by_cases e : q = 0
  · simp [e]
  · simp only [e, if_false]
    rw [List.getElem?_set_ne (pred_ne hp e hq)]

theorem deref_new_self (h : Heap α) (v : α) : deref (new h v).1 (new h v).2 = .ok ⟨v, []⟩ := by
  rw [deref_ok]; simp [new]

theorem deref_new {h : Heap α} {p : Ptr} {n : Node α} (v : α) (hd : deref h p = .ok n) :
    deref (new h v).1 p = .ok n := by
  rw [deref_ok] at hd ⊢
  refine ⟨hd.1, ?_⟩
  obtain ⟨hl, _⟩ := List.getElem?_eq_some_iff.1 hd.2
  simp only [new]
  rw [List.getElem?_append_left hl]; exact hd.2

/-- Trees that do not have the node are not affected. -/
theorem Rep.frame {h h' : Heap α} {p : Ptr} (hf : ∀ q ≠ p, TreeHeap.deref h' q = TreeHeap.deref h q) {t : Tree Ptr} (r : Rep h t) :
    p ∉ Tree.all t → Rep h' t := by
  induction r with
  | node q n cs hd hc _ ih =>
    intro hp
    rw [mem_all] at hp
    refine .node q n cs ((hf q (fun e => hp (.inl e.symm))).trans hd) hc (fun c hm => ih c hm fun hx => hp (.inr ⟨c, hm, hx⟩))

/-- More memory does not matter. -/
theorem Rep.mono {h h' : Heap α} (hf : ∀ q n, TreeHeap.deref h q = .ok n → TreeHeap.deref h' q = .ok n) {t : Tree Ptr} (r : Rep h t) :
    Rep h' t := by
  induction r with
  | node q n cs hd hc _ ih => exact .node q n cs (hf q n hd) hc ih

theorem editPtr_val (p : Ptr) (f) (t : Tree Ptr) : (editPtr p f t).val = t.val := by
  cases t; simp [editPtr, Tree.val]

theorem editPtrs_eq (p : Ptr) (f) (cs : List (Tree Ptr)) : editPtrs p f cs = cs.map (editPtr p f) := by
  induction cs with
  | nil => rfl
  | cons c cs ih => simp [editPtrs, ih]

theorem editPtrs_val (p : Ptr) (f) (cs : List (Tree Ptr)) : (editPtrs p f cs).map Tree.val = cs.map Tree.val := by
  rw [editPtrs_eq, List.map_map]
  exact List.map_congr_left fun c _ => editPtr_val p f c

theorem Rep.edit {h h' : Heap α} {p : Ptr} {n n' : Node α} (hp : TreeHeap.deref h p = .ok n) (hp' : TreeHeap.deref h' p = .ok n')
    (hf : ∀ q ≠ p, TreeHeap.deref h' q = TreeHeap.deref h q) (f : List (Tree Ptr) → List (Tree Ptr))
    (hg : ∀ cs : List (Tree Ptr), cs.map Tree.val = n.children → (∀ c ∈ cs, Rep h' c) →
      (f cs).map Tree.val = n'.children ∧ ∀ c ∈ f cs, Rep h' c) {t : Tree Ptr} (r : Rep h t) :
    Rep h' (editPtr p f t) := by
  induction r with
  | node q m cs hd hc _ ih =>
    have hr : ∀ c ∈ editPtrs p f cs, Rep h' c := by
      rw [editPtrs_eq]
      intro c hm
      obtain ⟨d, hd, rfl⟩ := List.mem_map.1 hm
      exact ih d hd
    by_cases e : q = p
    · subst e
      rw [hp] at hd
      obtain rfl : n = m := by simpa using hd
      have := hg (editPtrs q f cs) ((editPtrs_val q f cs).trans hc.symm) hr
      simp only [editPtr, if_true]
      exact .node q n' _ hp' this.1.symm this.2
    · simp only [editPtr, if_neg e]
      refine .node q m _ ((hf q e).trans hd) (hc.trans (editPtrs_val p f cs).symm) hr

/-! ## Going down -/

/-- What holds at the root and is passed on to children holds everywhere. -/
theorem Rep.down {h : Heap α} {t : Tree Ptr} (r : Rep h t) : ∀ (Q : Ptr → Prop),
    Q t.val → (∀ a b, a ∈ Tree.all t → Q a → Edge h a b → Q b) → ∀ x ∈ Tree.all t, Q x := by
  induction r with
  | node p n cs hd hc _ ih =>
    intro Q h0 hs x hx
    rcases mem_all.1 hx with rfl | ⟨c, hm, hxc⟩
    · exact h0
    · refine ih c hm Q ?_ (fun a b ha => hs a b (mem_all.2 (.inr ⟨c, hm, ha⟩))) x hxc
      exact hs p c.val (mem_all.2 (.inl rfl)) h0 ⟨n, hd, by rw [hc]; exact List.mem_map_of_mem hm⟩

/-- Every node of a tree has a tree of its own, not larger; a child's is smaller. -/
theorem Rep.sub {h : Heap α} {t : Tree Ptr} (r : Rep h t) (x : Ptr) (hx : x ∈ Tree.all t) :
    ∃ s, Rep h s ∧ s.val = x ∧ sizeOf s ≤ sizeOf t ∧ (x = t.val ∨ sizeOf s < sizeOf t) ∧ ∀ y ∈ Tree.all s, y ∈ Tree.all t := by
  induction r with
  | node p n cs hd hc hr ih =>
    rcases mem_all.1 hx with rfl | ⟨c, hm, hxc⟩
    · exact ⟨_, .node x n cs hd hc hr, rfl, Nat.le_refl _, .inl rfl, fun _ h => h⟩
    · obtain ⟨s, a, b, c1, _, c3⟩ := ih c hm hxc
      have := List.sizeOf_lt_of_mem hm
      have e : sizeOf (Tree.node p cs) = 1 + sizeOf p + sizeOf cs := by simp
      exact ⟨s, a, b, by omega, .inr (by omega), fun y hy => mem_all.2 (.inr ⟨c, hm, c3 y hy⟩)⟩

theorem Rep.edge {h : Heap α} {t : Tree Ptr} (r : Rep h t) {a b : Ptr} (ha : a ∈ Tree.all t) (he : Edge h a b) :
    b ∈ Tree.all t := by
  obtain ⟨s, rs, rfl, _, _, hin⟩ := r.sub a ha
  obtain ⟨n, hn, hb⟩ := he
  cases rs with
  | node p m cs hd hc hr =>
    simp only [Tree.val] at hn
    rw [hn] at hd
    obtain rfl : n = m := by simpa using hd
    rw [hc] at hb
    obtain ⟨c, hm, rfl⟩ := List.mem_map.1 hb
    exact hin _ (mem_all.2 (.inr ⟨c, hm, val_mem_all c⟩))

/-- The root of a tree is not below itself. -/
theorem Rep.acyclic {h : Heap α} {t : Tree Ptr} (r : Rep h t) : ∀ c ∈ t.children, t.val ∉ Tree.all c := by
  intro c hm hx
  obtain ⟨n, _, _, hr⟩ := r.deref
  obtain ⟨s, rs, sv, sl, _⟩ := (hr c hm).sub _ hx
  have := rs.unique t r sv
  subst this
  cases s with
  | node p cs =>
    have := List.sizeOf_lt_of_mem hm
    have e : sizeOf (Tree.node p cs) = 1 + sizeOf p + sizeOf cs := by simp
    simp only [Tree.children] at this
    omega

/-- A node of a tree is the root or a child of a node of the tree. -/
theorem Rep.parent {h : Heap α} {t : Tree Ptr} (r : Rep h t) (x : Ptr) (hx : x ∈ Tree.all t) :
    x = t.val ∨ ∃ y ∈ Tree.all t, Edge h y x := by
  induction r with
  | node p n cs hd hc hr ih =>
    rcases mem_all.1 hx with rfl | ⟨c, hm, hxc⟩
    · exact .inl rfl
    · right
      rcases ih c hm hxc with rfl | ⟨y, hy, he⟩
      · exact ⟨p, mem_all.2 (.inl rfl), n, hd, by rw [hc]; exact List.mem_map_of_mem hm⟩
      · exact ⟨y, mem_all.2 (.inr ⟨c, hm, hy⟩), he⟩

end Verif.TreeHeap
