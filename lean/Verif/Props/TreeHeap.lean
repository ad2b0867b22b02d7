import Verif.Lemmas.TreeHeap
import Verif.Props.Tree
/-!
# Trees in memory: C117
-/

set_option linter.unusedSectionVars false

namespace Verif.TreeHeap
open Verif.Spec Verif.Tree
variable {α : Type}

/-! ## All -/

theorem allLoop_mono {f g : Ptr → Option (Res (List α))} (hfg : ∀ p r, f p = some r → g p = some r) :
    ∀ (cs : List Ptr) r, allLoop f cs = some r → allLoop g cs = some r := by
  intro cs
  induction cs with
  | nil => intro r h; exact h
  | cons c cs ih =>
    intro r h
    unfold allLoop at h ⊢
    cases e : f c with
    | none => simp [e] at h
    | some x =>
      rw [hfg c x e]
      cases x with
      | panic => simpa [e] using h
      | ok l =>
        simp only [e, Option.map_eq_some_iff] at h ⊢
        obtain ⟨a, h1, h2⟩ := h
        exact ⟨a, ih a h1, h2⟩

theorem all_mono {h : Heap α} : ∀ (fuel : Nat) (p : Ptr) r, all h fuel p = some r → all h (fuel + 1) p = some r := by
  intro fuel
  induction fuel with
  | zero => intro p r e; simp [all] at e
  | succ fuel ih =>
    intro p r e
    unfold all at e ⊢
    cases hd : deref h p with
    | panic => simpa [hd] using e
    | ok n =>
      simp only [hd, Option.map_eq_some_iff] at e ⊢
      obtain ⟨a, h1, h2⟩ := e
      exact ⟨a, allLoop_mono (fun p r => ih p r) _ _ h1, h2⟩

theorem all_mono_le {h : Heap α} {f g : Nat} (hfg : f ≤ g) {p : Ptr} {r} (e : all h f p = some r) : all h g p = some r := by
  induction g with
  | zero => obtain rfl : f = 0 := by omega
            exact e
  | succ g ih =>
    by_cases hl : f ≤ g
    · exact all_mono _ _ _ (ih hl)
    · obtain rfl : f = g + 1 := by omega
      exact e

/-- **C117** `All` of a node returns exactly when the node leads to a finite tree, and then it returns the values of that
tree in the order parent, then children from first to last. -/
theorem C117_all (h : Heap α) (p : Ptr) :
    (∀ t, Rep h t → t.val = p → ∃ l, (∀ fuel, sizeOf t ≤ fuel → all h fuel p = some (.ok l)) ∧
      l.map some = (Tree.all t).map (valOf h)) ∧
    (∀ fuel l, all h fuel p = some (.ok l) → ∃ t, Rep h t ∧ t.val = p) ∧
    (∀ t t', Rep h t → Rep h t' → t.val = p → t'.val = p → t = t') := by
  refine ⟨fun t r e => ?_, fun fuel l e => all_rep fuel p l e, fun t t' r r' e e' => r.unique t' r' (e.trans e'.symm)⟩
  obtain ⟨l, a, b⟩ := all_ok r _ (Nat.le_refl _)
  subst e
  exact ⟨l, fun fuel hf => all_mono_le hf a, b⟩

/-! ## Edits -/

theorem insert_map {β γ : Type} (f : β → γ) (cs : List β) (u : β) (idx : Int) :
    (SortSlice.insert ⟨cs⟩ u idx).1.d.map f = (SortSlice.insert ⟨cs.map f⟩ (f u) idx).1.d := by
  unfold SortSlice.insert SortSlice.len
  simp only [List.length_map]
  split <;> simp

theorem insert_mem {β : Type} (cs : List β) (u : β) (idx : Int) : ∀ x ∈ (SortSlice.insert ⟨cs⟩ u idx).1.d, x = u ∨ x ∈ cs := by
  unfold SortSlice.insert SortSlice.len
  intro x hx
  split at hx
  · simp only [List.mem_append, List.mem_singleton] at hx
    rcases hx with (hx | hx) | hx
    · exact .inr (List.mem_of_mem_take hx)
    · exact .inl hx
    · exact .inr (List.mem_of_mem_drop hx)
  · simp only [List.mem_append, List.mem_singleton] at hx
    exact hx.symm

theorem insert_get {β : Type} (cs : List β) (u : β) (idx : Int) :
    (SortSlice.insert ⟨cs⟩ u idx).1.d = if idx ≥ 0 ∧ idx < (cs.length : Int) then cs.set idx.toNat u else cs ++ [u] := by
  unfold SortSlice.insert SortSlice.len
  simp only
  split
  · rename_i hc
    rw [List.set_eq_take_append_cons_drop, if_pos (by omega)]
    simp
  · rfl

theorem insert_place {β : Type} (cs : List β) (u : β) (idx : Int) : (SortSlice.insert ⟨cs⟩ u idx).1.d = place idx u cs :=
  insert_get cs u idx

/-- **C117** Adding a node `u` that is not above the receiver: only the receiver changes, and every tree in memory becomes
the tree with `u` added below the receiver, wherever the receiver stands in it. -/
theorem C117_addChildNode (h : Heap α) (this : Ptr) (n : Node α) (u : Tree Ptr) (idx : Int)
    (hd : deref h this = .ok n) (ru : Rep h u) (hu : this ∉ Tree.all u) :
    ∃ h', addChildNode h this u.val idx = .ok (h', u.val) ∧ (∀ q ≠ this, deref h' q = deref h q) ∧
      deref h' this = .ok ⟨n.val, place idx u.val n.children⟩ ∧ Rep h' u ∧
      ∀ t, Rep h t → Rep h' (editPtr this (place idx u) t) := by
  simp only [← insert_place]
  have h0 : this ≠ 0 := (deref_ok.1 hd).1
  have hf : ∀ q ≠ this, deref (store h this { n with children := (SortSlice.insert ⟨n.children⟩ u.val idx).1.d }) q = deref h q :=
    fun q hq => deref_store_ne h0 hq _
  have hru := ru.frame hf hu
  refine ⟨_, by simp [addChildNode, hd], hf, deref_store_self hd _, hru, fun t r => ?_⟩
  refine r.edit hd (deref_store_self hd _) hf _ (fun cs hcs hr => ⟨?_, ?_⟩)
  · rw [← insert_place, insert_map, hcs]
  · intro c hc
    rw [← insert_place] at hc
    rcases insert_mem _ _ _ c hc with rfl | hc
    · exact hru
    · exact hr c hc

/-- **C117** Adding a new value: the node returned is a new one. -/
theorem C117_addChild (h : Heap α) (this : Ptr) (n : Node α) (v : α) (idx : Int) (hd : deref h this = .ok n) :
    ∃ h' c, addChild h this v idx = .ok (h', c) ∧ deref h c = .panic ∧ c ≠ 0 ∧ deref h' c = .ok ⟨v, []⟩ ∧
      (∀ q m, q ≠ this → deref h q = .ok m → deref h' q = .ok m) ∧
      deref h' this = .ok ⟨n.val, place idx c n.children⟩ ∧
      ∀ t, Rep h t → Rep h' (editPtr this (place idx (.node c [])) t) := by
  have hc : deref h (new h v).2 = .panic := by
    simp [deref, new, Go.get]
  have hne : this ≠ (new h v).2 := by intro e; rw [e, hc] at hd; cases hd
  have rc : Rep (new h v).1 (.node (new h v).2 []) := .node _ _ _ (deref_new_self h v) rfl (by simp)
  obtain ⟨h', e1, e2, e3, _, e5⟩ := C117_addChildNode (new h v).1 this n (.node (new h v).2 []) idx (deref_new v hd) rc
    (by simpa [mem_all] using hne)
  refine ⟨h', (new h v).2, e1, hc, by simp [new], ?_, fun q m hq hm => ?_, e3, fun t r => ?_⟩
  · rw [e2 _ (Ne.symm hne)]; exact deref_new_self h v
  · rw [e2 q hq]; exact deref_new v hm
  · exact e5 t (r.mono fun q m hm => deref_new v hm)

/-- **C117** Removing a child: only the receiver changes; the child is returned and keeps its own tree; every tree in
memory is the tree without that child. -/
theorem C117_removeChild (h : Heap α) (this : Ptr) (n : Node α) (i : Nat) (hd : deref h this = .ok n)
    (hi : i < n.children.length) :
    ∃ h', removeChild h this i = .ok (h', n.children[i], true) ∧ (∀ q ≠ this, deref h' q = deref h q) ∧
      deref h' this = .ok ⟨n.val, n.children.eraseIdx i⟩ ∧
      ∀ t, Rep h t → Rep h' (editPtr this (fun cs => cs.eraseIdx i) t) := by
  have h0 : this ≠ 0 := (deref_ok.1 hd).1
  have hf : ∀ q ≠ this, deref (store h this { n with children := n.children.eraseIdx i }) q = deref h q :=
    fun q hq => deref_store_ne h0 hq _
  have hg : SortSlice.remove (⟨n.children⟩ : SortSlice.SortSlice Ptr) (i : Int) =
      .ok (⟨n.children.eraseIdx i⟩, n.children[i], true) := by
    have hc : ((i : Int) ≥ 0 ∧ (i : Int) < ((SortSlice.len (⟨n.children⟩ : SortSlice.SortSlice Ptr) : Nat) : Int)) := by
      unfold SortSlice.len; simp only; omega
    have hge : SortSlice.get (⟨n.children⟩ : SortSlice.SortSlice Ptr) (i : Int) = .ok (n.children[i], true) := by
      unfold SortSlice.get
      rw [if_pos hc]
      simp [Go.get, hi]
    simp only [SortSlice.remove, hge, Res.bind_ok, Int.toNat_natCast, if_true, Res.pure_eq, List.eraseIdx_eq_take_drop_succ]
  refine ⟨store h this { n with children := n.children.eraseIdx i }, by simp [removeChild, hd, hg], hf,
    deref_store_self hd _, fun t r => ?_⟩
  refine r.edit hd (deref_store_self hd _) hf _ (fun cs hcs hr => ⟨?_, fun c hc => hr c (List.mem_of_mem_eraseIdx hc)⟩)
  rw [← hcs, List.eraseIdx_eq_take_drop_succ, List.eraseIdx_eq_take_drop_succ]
  simp

/-- **C117** An index out of range removes nothing, and the pointer returned is nil. -/
theorem C117_removeChild_range (h : Heap α) (this : Ptr) (n : Node α) (idx : Int) (hd : deref h this = .ok n)
    (hi : idx < 0 ∨ (n.children.length : Int) ≤ idx) :
    removeChild h this idx = .ok (h, 0, false) := by
  have hc : ¬ (idx ≥ 0 ∧ idx < ((SortSlice.len (⟨n.children⟩ : SortSlice.SortSlice Ptr) : Nat) : Int)) := by
    unfold SortSlice.len; simp only; omega
  have hge : SortSlice.get (⟨n.children⟩ : SortSlice.SortSlice Ptr) idx = .ok (0, false) := by
    unfold SortSlice.get
    rw [if_neg hc]; rfl
  have hs : store h this ⟨n.val, n.children⟩ = h := by
    obtain ⟨h0, h1⟩ := deref_ok.1 hd
    obtain ⟨hl, he⟩ := List.getElem?_eq_some_iff.1 h1
    unfold store
    rw [show (⟨n.val, n.children⟩ : Node α) = h.nodes[this - 1] from he.symm, List.set_getElem_self]
  simp [removeChild, hd, SortSlice.remove, hge, hs]

/-- **C117** `NumChildren` is the number of children, `GetChild(i)` is the child at `i`, with `ok` exactly for the indices
in range. -/
theorem C117_children (h : Heap α) (this : Ptr) (n : Node α) (hd : deref h this = .ok n) :
    numChildren h this = .ok n.children.length ∧
    (∀ (i : Nat) c, n.children[i]? = some c → getChild h this i = .ok (c, true)) ∧
    ∀ idx : Int, idx < 0 ∨ (n.children.length : Int) ≤ idx → getChild h this idx = .ok (0, false) := by
  refine ⟨by simp [numChildren, hd, SortSlice.len], fun i c e => ?_, fun idx hi => ?_⟩
  · obtain ⟨hl, e⟩ := List.getElem?_eq_some_iff.1 e
    subst e
    have hc : ((i : Int) ≥ 0 ∧ (i : Int) < ((SortSlice.len (⟨n.children⟩ : SortSlice.SortSlice Ptr) : Nat) : Int)) := by
      unfold SortSlice.len; simp only; omega
    simp only [getChild, hd, Res.bind_ok]
    unfold SortSlice.get
    rw [if_pos hc]
    simp [Go.get, hl]
  · have hc : ¬ (idx ≥ 0 ∧ idx < ((SortSlice.len (⟨n.children⟩ : SortSlice.SortSlice Ptr) : Nat) : Int)) := by
      unfold SortSlice.len; simp only; omega
    simp only [getChild, hd, Res.bind_ok]
    unfold SortSlice.get
    rw [if_neg hc]; rfl

theorem perm_lift {β γ : Type} (f : β → γ) {l l' : List γ} (hp : l.Perm l') : ∀ xs : List β, l' = xs.map f →
    ∃ ys : List β, ys.Perm xs ∧ ys.map f = l := by
  induction hp with
  | nil => intro xs e; exact ⟨[], by cases xs <;> simp_all, rfl⟩
  | cons x _ ih =>
    intro xs e
    cases xs with
    | nil => simp at e
    | cons y xs =>
      simp only [List.map_cons, List.cons.injEq] at e
      obtain ⟨ys, a, b⟩ := ih xs e.2
      exact ⟨y :: ys, a.cons y, by simp [b, e.1]⟩
  | swap x y l =>
    intro xs e
    match xs, e with
    | a :: b :: xs, e =>
      simp only [List.map_cons, List.cons.injEq] at e
      exact ⟨b :: a :: xs, .swap _ _ _, by simp [e.1, e.2.1, e.2.2]⟩
  | trans _ _ ih1 ih2 =>
    intro xs e
    obtain ⟨ys, a, b⟩ := ih2 xs e
    obtain ⟨zs, c, d⟩ := ih1 ys b.symm
    exact ⟨zs, c.trans a, d⟩

theorem allList_eq_flatMap (cs : List (Tree Ptr)) : allList cs = cs.flatMap Tree.all := by
  induction cs with
  | nil => rfl
  | cons c cs ih => simp [allList, ih]

/-- Permuting the children of one node permutes trees. -/
theorem Rep.permute {h h' : Heap α} {p : Ptr} {n n' : Node α} (hp : TreeHeap.deref h p = .ok n)
    (hp' : TreeHeap.deref h' p = .ok n') (hf : ∀ q ≠ p, TreeHeap.deref h' q = TreeHeap.deref h q)
    (hperm : n'.children.Perm n.children) {t : Tree Ptr} (r : Rep h t) :
    ∃ t', Rep h' t' ∧ t'.val = t.val ∧ (Tree.all t').Perm (Tree.all t) := by
  induction r with
  | node q m cs hd hc _ ih =>
    have key : ∀ ds : List (Tree Ptr), (∀ c ∈ ds, ∃ t', Rep h' t' ∧ t'.val = c.val ∧ (Tree.all t').Perm (Tree.all c)) →
        ∃ es : List (Tree Ptr), (∀ e ∈ es, Rep h' e) ∧ es.map Tree.val = ds.map Tree.val ∧ (allList es).Perm (allList ds) := by
      intro ds
      induction ds with
      | nil => intro _; exact ⟨[], by simp, rfl, .refl _⟩
      | cons d ds ihd =>
        intro hds
        obtain ⟨es, a, b, c⟩ := ihd fun x hx => hds x (by simp [hx])
        obtain ⟨e, a', b', c'⟩ := hds d (by simp)
        exact ⟨e :: es, by simpa [a'] using a, by simp [b, b'], c'.append c⟩
    obtain ⟨es, a, b, c⟩ := key cs ih
    by_cases e : q = p
    · subst e
      rw [hp] at hd
      obtain rfl : n = m := by simpa using hd
      obtain ⟨ys, y1, y2⟩ := perm_lift Tree.val hperm es (by rw [hc, b])
      refine ⟨.node q ys, .node q n' ys hp' y2.symm (fun x hx => a x (y1.mem_iff.1 hx)), rfl, ?_⟩
      simp only [Tree.all]
      refine List.Perm.cons q (List.Perm.trans ?_ c)
      rw [allList_eq_flatMap, allList_eq_flatMap]
      exact y1.flatMap_right _
    · exact ⟨.node q es, .node q m es ((hf q e).trans hd) (hc.trans b.symm) a, rfl, by
        simp only [Tree.all]; exact c.cons q⟩

variable [Inhabited α]

/-- **C117** Sorting the children of a node none of which is nil: only the receiver changes, its children are the same ones
in order of their values, and every tree in memory keeps its nodes. -/
theorem C117_sortChildren (less : α → α → Bool) (S : SortFn) (h : Heap α) (this : Ptr) (n : Node α)
    (hl : StrictWeak less) (hd : deref h this = .ok n) (hc : ∀ c ∈ n.children, ∃ m, deref h c = .ok m) :
    ∃ h' n', sortChildren less S h this = .ok h' ∧ (∀ q ≠ this, deref h' q = deref h q) ∧ deref h' this = .ok n' ∧
      n'.val = n.val ∧ n'.children.Perm n.children ∧
      n'.children.Pairwise (fun a b => ∀ x y, valOf h' a = some x → valOf h' b = some y → less y x = false) ∧
      ∀ t, Rep h t → ∃ t', Rep h' t' ∧ t'.val = t.val ∧ (Tree.all t').Perm (Tree.all t) := by
  have h0 : this ≠ 0 := (deref_ok.1 hd).1
  let n' : Node α := { n with children := S.sort (lessPtr less h) n.children }
  have hf : ∀ q ≠ this, deref (store h this n') q = deref h q := fun q hq => deref_store_ne h0 hq _
  have hs := deref_store_self hd n'
  have hv : ∀ q, valOf (store h this n') q = valOf h q := by
    intro q
    by_cases e : q = this
    · subst e; simp [valOf, hs, hd, n']
    · simp [valOf, hf q e]
  have hnil : ¬ (n.children.length ≥ 2 ∧ 0 ∈ n.children) := by
    rintro ⟨_, hz⟩
    obtain ⟨m, e⟩ := hc 0 hz
    exact (deref_ok.1 e).1 rfl
  refine ⟨store h this n', n', ?_, hf, hs, rfl, S.perm _ _, ?_, fun t r => r.permute hd hs hf (S.perm _ _)⟩
  · simp only [sortChildren, hd, Res.bind_ok, if_neg hnil]; rfl
  · have hso := S.sorted (lessPtr less h) n.children
      ⟨fun a b => less ((valOf h a).getD default) ((valOf h b).getD default),
        ⟨fun a => hl.irrefl _, fun a b c => hl.trans _ _ _, fun a b c => hl.negTrans _ _ _⟩, by
          intro a ha b hb
          obtain ⟨x, ex⟩ := hc a ha
          obtain ⟨y, ey⟩ := hc b hb
          simp [lessPtr, valOf, ex, ey]⟩
    refine List.Pairwise.imp (fun {a b} hab x y hx hy => ?_) hso
    rw [hv] at hx hy
    unfold valOf at hx hy
    unfold lessPtr at hab
    cases ea : deref h a with
    | panic => simp [ea] at hx
    | ok na =>
      cases eb : deref h b with
      | panic => simp [eb] at hy
      | ok nb =>
        simp only [ea, eb, Option.some.injEq] at hab hx hy
        rw [← hx, ← hy]; exact hab

/-! ## Cycles -/

/-- **C117** Adding a node to a node below it, or to itself, is not refused; `All` of the receiver never returns then. -/
theorem C117_cycle (h : Heap α) (this : Ptr) (u : Tree Ptr) (idx : Int) (ru : Rep h u) (hu : this ∈ Tree.all u) :
    ∃ h', addChildNode h this u.val idx = .ok (h', u.val) ∧ ∀ fuel, all h' fuel this = none := by
  obtain ⟨s, rs, sv, _⟩ := ru.sub this hu
  obtain ⟨n, hd, hch, _⟩ := rs.deref
  rw [sv] at hd
  have h0 : this ≠ 0 := (deref_ok.1 hd).1
  let n' : Node α := { n with children := (SortSlice.insert ⟨n.children⟩ u.val idx).1.d }
  have hf : ∀ q ≠ this, deref (store h this n') q = deref h q := fun q hq => deref_store_ne h0 hq _
  have hs := deref_store_self hd n'
  refine ⟨store h this n', by simp [addChildNode, hd]; rfl, fun fuel => ?_⟩
  cases e : all (store h this n') fuel this with
  | none => rfl
  | some r =>
    exfalso
    cases r with
    | panic =>
      refine all_no_panic (h := store h this n') (fun q => q ∈ Tree.all u) (fun q hq => ?_) fuel this hu e
      by_cases eq : q = this
      · subst eq
        refine ⟨n', hs, fun c hc => ?_⟩
        rcases insert_mem _ _ _ c hc with rfl | hc
        · exact val_mem_all u
        · exact ru.edge hq ⟨n, hd, hc⟩
      · obtain ⟨s', rs', sv', _⟩ := ru.sub q hq
        obtain ⟨m, hm, hmc, _⟩ := rs'.deref
        rw [sv'] at hm
        exact ⟨m, (hf q eq).trans hm, fun c hc => ru.edge hq ⟨m, hm, hc⟩⟩
    | ok l =>
      obtain ⟨t, rt, tv⟩ := all_rep fuel this l e
      have hmem : u.val ∈ n'.children := by
        show u.val ∈ (SortSlice.insert ⟨n.children⟩ u.val idx).1.d
        unfold SortSlice.insert
        split <;> simp
      -- from the child `u` of `this` one comes back to `this`
      have back : ∀ w, Rep h w → this ∈ Tree.all w → ∀ c, Rep (store h this n') c → c.val = w.val → this ∈ Tree.all c := by
        intro w rw
        induction rw with
        | node q m cs hdq hcq _ ih =>
          intro hin c rc cv
          by_cases eq : q = this
          · rw [← eq]; have := val_mem_all c; rw [cv] at this; exact this
          · rcases mem_all.1 hin with rfl | ⟨d, hm, hdx⟩
            · exact absurd rfl eq
            · obtain ⟨m', hm', hmc', hr'⟩ := rc.deref
              rw [cv] at hm'
              simp only [Tree.val] at hm'
              rw [hf q eq, hdq] at hm'
              obtain rfl : m = m' := by simpa using hm'
              have : d.val ∈ c.children.map Tree.val := by rw [← hmc', hcq]; exact List.mem_map_of_mem hm
              obtain ⟨d', hd', dv⟩ := List.mem_map.1 this
              have hlow := ih d hm hdx d' (hr' d' hd') dv
              cases c with
              | node c0 ccs => exact mem_all.2 (.inr ⟨d', hd', hlow⟩)
      obtain ⟨m, hm, hmc, hr⟩ := rt.deref
      rw [tv, hs] at hm
      obtain rfl : n' = m := by simpa using hm
      rw [hmc] at hmem
      obtain ⟨c, hc, cv⟩ := List.mem_map.1 hmem
      have := back u ru hu c (hr c hc) cv
      rw [← tv] at this
      exact rt.acyclic c hc this

/-- Node 1 has the child 2, which has the child 3; node 4 stands alone. -/
def exHeap : Heap Int := ⟨[⟨10, [2]⟩, ⟨20, [3]⟩, ⟨30, []⟩, ⟨40, []⟩]⟩

theorem exLeaf (p : Ptr) (v : Int) (h : deref exHeap p = .ok ⟨v, []⟩) : Rep exHeap (.node p []) :=
  .node _ _ _ h rfl (by simp)

theorem exRep : Rep exHeap (.node 2 [.node 3 []]) :=
  .node 2 ⟨20, [3]⟩ _ rfl rfl fun c hc => by
    rw [List.mem_singleton] at hc
    exact hc ▸ exLeaf 3 30 rfl

example := C117_addChildNode exHeap 1 ⟨10, [2]⟩ (.node 4 []) (-1) rfl (exLeaf 4 40 rfl) (by decide)
example := C117_addChild exHeap 2 ⟨20, [3]⟩ 50 0 rfl
example := C117_removeChild exHeap 1 ⟨10, [2]⟩ 0 rfl (by decide)
example := C117_removeChild_range exHeap 1 ⟨10, [2]⟩ 7 rfl (by decide)
example := C117_children exHeap 1 ⟨10, [2]⟩ rfl
example (S : SortFn) := C117_sortChildren intLt S exHeap 1 ⟨10, [2]⟩ intLt_strictWeak rfl
  (by intro c hc; simp only [List.mem_singleton] at hc; subst hc; exact ⟨_, rfl⟩)
example := C117_cycle exHeap 3 (.node 2 [.node 3 []]) (-1) exRep (by decide)

end Verif.TreeHeap
