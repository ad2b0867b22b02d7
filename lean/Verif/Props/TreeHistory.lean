import Verif.Props.TreeHeap
/-!
# Histories of tree calls and visitors over trees in memory: C117, C118
-/

set_option linter.unusedSectionVars false

namespace Verif.Spec
open Verif.TreeHeap
variable {α : Type}

/-- The pointer is to a node. -/
def Valid (h : Heap α) (p : Ptr) : Prop := ∃ n, deref h p = .ok n

/-- A call that keeps memory free of cycles: it is on a node, and a node is never added below itself. -/
def Legal (h : Heap α) : Op α → Prop
  | .new _ => True
  | .addChild this _ _ => Valid h this
  | .addChildNode this node _ => Valid h this ∧ Valid h node ∧ ∀ u, Rep h u → u.val = node → this ∉ Tree.all u
  | .removeChild this _ => Valid h this
  | .sortChildren this => Valid h this

/-- The node added is not a child of any node yet. -/
def Free (h : Heap α) : Op α → Prop
  | .addChildNode _ node _ => ∀ a, ¬ Edge h a node
  | _ => True

/-- Every call of the history meets the condition, in the memory in which it is made. -/
def Along (less : α → α → Bool) (S : SortFn) (ok : Heap α → Op α → Prop) : Heap α → List (Op α) → Prop
  | _, [] => True
  | h, op :: ops => ok h op ∧ ∀ h' r, step less S h op = .ok (h', r) → Along less S ok h' ops

/-- A history of calls. -/
def runOps (less : α → α → Bool) (S : SortFn) : Heap α → List (Op α) → Res (Heap α)
  | h, [] => .ok h
  | h, op :: ops =>
    match step less S h op with
    | .ok (h', _) => runOps less S h' ops
    | .panic => .panic

end Verif.Spec

namespace Verif.TreeHeap
open Verif.Spec Verif.Tree
variable {α : Type} [Inhabited α] (less : α → α → Bool) (S : SortFn)

/-! ## Histories -/

/-- Every node leads to a finite tree. -/
def Good (h : Heap α) : Prop := ∀ p, Valid h p → ∃ t, Rep h t ∧ t.val = p

theorem valid_of_frame {h h' : Heap α} {p : Ptr} (hp : Valid h p) (hf : ∀ q ≠ p, deref h' q = deref h q) {q : Ptr}
    (hq : Valid h' q) : Valid h q := by
  by_cases e : q = p
  · exact e ▸ hp
  · obtain ⟨n, hn⟩ := hq; exact ⟨n, (hf q e).symm.trans hn⟩

theorem good_child {h : Heap α} (g : Good h) {p : Ptr} {n : Node α} (hd : deref h p = .ok n) {c : Ptr} (hc : c ∈ n.children) :
    Valid h c := by
  obtain ⟨t, rt, tv⟩ := g p ⟨n, hd⟩
  obtain ⟨m, hm, hmc, hr⟩ := rt.deref
  rw [tv, hd] at hm
  obtain rfl : n = m := by simpa using hm
  rw [hmc] at hc
  obtain ⟨d, hdm, rfl⟩ := List.mem_map.1 hc
  obtain ⟨k, hk, _⟩ := (hr d hdm).deref
  exact ⟨k, hk⟩

theorem good_new {h : Heap α} (g : Good h) (v : α) : Good (new h v).1 := by
  intro p ⟨n, hp⟩
  by_cases e : p = (new h v).2
  · subst e
    exact ⟨.node _ [], .node _ _ _ (deref_new_self h v) rfl (by simp), rfl⟩
  · have : Valid h p := by
      obtain ⟨h0, h1⟩ := deref_ok.1 hp
      obtain ⟨hl, _⟩ := List.getElem?_eq_some_iff.1 h1
      simp only [new, List.length_append, List.length_singleton] at hl e
      have hl' : p - 1 < h.nodes.length := by
        have a : p ≠ 0 := h0
        have b : p ≠ h.nodes.length + 1 := e
        revert a b hl; generalize h.nodes.length = k
        intro a b c
        exact Nat.lt_of_le_of_ne (Nat.lt_succ_iff.1 a) (fun x => c (by rw [← x]; exact (Nat.succ_pred_eq_of_ne_zero b).symm))
      exact ⟨h.nodes[p - 1], deref_ok.2 ⟨h0, List.getElem?_eq_getElem hl'⟩⟩
    obtain ⟨t, rt, tv⟩ := g p this
    exact ⟨t, rt.mono fun q m hm => deref_new v hm, tv⟩

theorem good_addChildNode {h : Heap α} (g : Good h) (this node : Ptr) (idx : Int) (ht : Valid h this) (hn : Valid h node)
    (hu : ∀ u, Rep h u → u.val = node → this ∉ Tree.all u) :
    ∃ h', addChildNode h this node idx = .ok (h', node) ∧ Good h' := by
  obtain ⟨n, hd⟩ := ht
  obtain ⟨u, ru, rfl⟩ := g node hn
  obtain ⟨h', e1, e2, e3, _, e5⟩ := C117_addChildNode h this n u idx hd ru (hu u ru rfl)
  refine ⟨h', e1, fun p hp => ?_⟩
  obtain ⟨t, rt, tv⟩ := g p (valid_of_frame ⟨n, hd⟩ e2 hp)
  exact ⟨_, e5 t rt, by rw [editPtr_val, tv]⟩

theorem good_step (hl : StrictWeak less) {h : Heap α} (g : Good h) (op : Op α) (hop : Legal h op) :
    ∃ h' r, step less S h op = .ok (h', r) ∧ Good h' := by
  cases op with
  | new v => exact ⟨(new h v).1, (new h v).2, rfl, good_new g v⟩
  | addChild this v idx =>
    obtain ⟨n, hd⟩ := hop
    have hc : deref h (new h v).2 = .panic := by simp [deref, new, Go.get]
    obtain ⟨h', e, gh⟩ := good_addChildNode (good_new g v) this (new h v).2 idx ⟨n, deref_new v hd⟩
      ⟨_, deref_new_self h v⟩ (fun u ru uv hx => by
        have : u = .node (new h v).2 [] :=
          ru.unique _ (.node _ _ _ (deref_new_self h v) rfl (by simp)) uv
        subst this
        simp only [mem_all, List.not_mem_nil, false_and, exists_false, or_false] at hx
        rw [hx, hc] at hd; cases hd)
    exact ⟨h', _, e, gh⟩
  | addChildNode this node idx =>
    obtain ⟨h', e, gh⟩ := good_addChildNode g this node idx hop.1 hop.2.1 hop.2.2
    exact ⟨h', node, e, gh⟩
  | removeChild this idx =>
    obtain ⟨n, hd⟩ := hop
    by_cases hi : idx < 0 ∨ (n.children.length : Int) ≤ idx
    · exact ⟨h, 0, by simp [step, C117_removeChild_range h this n idx hd hi], g⟩
    · obtain ⟨i, rfl⟩ := Int.eq_ofNat_of_zero_le (a := idx) (by omega)
      obtain ⟨h', e1, e2, _, e4⟩ := C117_removeChild h this n i hd (by omega)
      refine ⟨h', _, by simp only [step, e1, Res.bind_ok]; rfl, fun p hp => ?_⟩
      obtain ⟨t, rt, tv⟩ := g p (valid_of_frame ⟨n, hd⟩ e2 hp)
      exact ⟨_, e4 t rt, by rw [editPtr_val, tv]⟩
  | sortChildren this =>
    obtain ⟨n, hd⟩ := hop
    obtain ⟨h', n', e1, e2, _, _, _, _, e7⟩ := C117_sortChildren less S h this n hl hd (fun c hc => good_child g hd hc)
    refine ⟨h', 0, by simp [step, e1], fun p hp => ?_⟩
    obtain ⟨t, rt, tv⟩ := g p (valid_of_frame ⟨n, hd⟩ e2 hp)
    obtain ⟨t', a, b, _⟩ := e7 t rt
    exact ⟨t', a, b.trans tv⟩

theorem history_good (hl : StrictWeak less) (ops : List (Op α)) : ∀ h : Heap α, Good h → Along less S Legal h ops →
    ∃ h', runOps less S h ops = .ok h' ∧ Good h' := by
  induction ops with
  | nil => intro h g _; exact ⟨h, rfl, g⟩
  | cons op ops ih =>
    intro h g ha
    obtain ⟨h', r, e, g'⟩ := good_step less S hl g op ha.1
    obtain ⟨h'', e', g''⟩ := ih h' g' (ha.2 h' r e)
    exact ⟨h'', by simp [runOps, e, e'], g''⟩

theorem good_empty : Good (⟨[]⟩ : Heap α) := by
  intro p ⟨n, hp⟩; exact absurd (deref_ok.1 hp).2 (by simp)

/-- **C117** After every history of calls on nodes in which no node was added below itself, no call has panicked and `All`
returns for every node. -/
theorem C117_history (hl : StrictWeak less) (ops : List (Op α)) (ha : Along less S Legal ⟨[]⟩ ops) :
    ∃ h, runOps less S ⟨[]⟩ ops = .ok h ∧ ∀ p, Valid h p → ∃ fuel l, all h fuel p = some (.ok l) := by
  obtain ⟨h, e, g⟩ := history_good less S hl ops ⟨[]⟩ good_empty ha
  refine ⟨h, e, fun p hp => ?_⟩
  obtain ⟨t, rt, tv⟩ := g p hp
  obtain ⟨l, a, _⟩ := (C117_all h p).1 t rt tv
  exact ⟨_, l, a _ (Nat.le_refl _)⟩

/-! ## Forests -/

/-- Every node is at most once a child. -/
def OneParent (h : Heap α) : Prop :=
  ∀ a b (x y : Node α) (i j : Nat) c, deref h a = .ok x → deref h b = .ok y → x.children[i]? = some c →
    y.children[j]? = some c → a = b ∧ i = j

theorem oneParent_set {h h' : Heap α} {p : Ptr} {n n' : Node α} (o : OneParent h) (hd : deref h p = .ok n)
    (hf : ∀ q ≠ p, deref h' q = deref h q) (hd' : deref h' p = .ok n')
    (hin : ∀ (i : Nat) c, n'.children[i]? = some c → (∃ j : Nat, n.children[j]? = some c) ∨ ∀ a, ¬ Edge h a c)
    (hinj : ∀ (i j : Nat) c, n'.children[i]? = some c → n'.children[j]? = some c → i = j) : OneParent h' := by
  have other : ∀ b (y : Node α) (i j : Nat) c, b ≠ p → deref h' b = .ok y → n'.children[i]? = some c →
      y.children[j]? = some c → False := by
    intro b y i j c hb hy hi hj
    rw [hf b hb] at hy
    rcases hin i c hi with ⟨k, hk⟩ | hno
    · exact hb ((o b p y n j k c hy hd hj hk).1)
    · exact hno b ⟨y, hy, List.mem_of_getElem? hj⟩
  intro a b x y i j c ha hb hi hj
  by_cases ea : a = p
  · subst ea
    rw [hd'] at ha
    obtain rfl : n' = x := by simpa using ha
    by_cases eb : b = a
    · subst eb
      rw [hd'] at hb
      obtain rfl : n' = y := by simpa using hb
      exact ⟨rfl, hinj i j c hi hj⟩
    · exact absurd (other b y i j c eb hb hi hj) id
  · by_cases eb : b = p
    · subst eb
      rw [hd'] at hb
      obtain rfl : n' = y := by simpa using hb
      exact absurd (other a x j i c ea ha hj hi) id
    · rw [hf a ea] at ha
      rw [hf b eb] at hb
      exact o a b x y i j c ha hb hi hj

theorem oneParent_self {h : Heap α} (o : OneParent h) {p : Ptr} {n : Node α} (hd : deref h p = .ok n) {i j : Nat} {c : Ptr}
    (hi : n.children[i]? = some c) (hj : n.children[j]? = some c) : i = j := (o p p n n i j c hd hd hi hj).2

theorem deref_new_cases {h : Heap α} {v : α} {p : Ptr} {n : Node α} (hp : deref (new h v).1 p = .ok n) :
    deref h p = .ok n ∨ n = ⟨v, []⟩ := by
  obtain ⟨h0, h1⟩ := deref_ok.1 hp
  simp only [new, List.getElem?_append] at h1
  split at h1
  · exact .inl (deref_ok.2 ⟨h0, h1⟩)
  · right
    cases e : p - 1 - h.nodes.length with
    | zero => simpa [e] using h1.symm
    | succ k => simp [e] at h1

theorem oneParent_new {h : Heap α} (o : OneParent h) (v : α) : OneParent (new h v).1 := by
  intro a b x y i j c ha hb hi hj
  rcases deref_new_cases ha with ha | rfl
  · rcases deref_new_cases hb with hb | rfl
    · exact o a b x y i j c ha hb hi hj
    · simp at hj
  · simp at hi

theorem oneParent_addChildNode {h h' : Heap α} (o : OneParent h) (this node : Ptr) (idx : Int) (r : Ptr)
    (hfree : ∀ a, ¬ Edge h a node) (e : addChildNode h this node idx = .ok (h', r)) : OneParent h' := by
  unfold addChildNode at e
  cases hd : deref h this with
  | panic => simp [hd] at e
  | ok n =>
    simp only [hd, Res.bind_ok, Res.pure_eq, Res.ok.injEq, Prod.mk.injEq] at e
    obtain ⟨rfl, _⟩ := e
    have h0 := (deref_ok.1 hd).1
    have hnew : ∀ j : Nat, n.children[j]? ≠ some node :=
      fun j hj => hfree this ⟨n, hd, List.mem_of_getElem? hj⟩
    refine oneParent_set o hd (fun q hq => deref_store_ne h0 hq _) (deref_store_self hd _) ?_ ?_
    · intro i c hc
      simp only [insert_get] at hc
      split at hc
      · rw [List.getElem?_set] at hc
        split at hc
        · split at hc
          · right; obtain rfl : node = c := by simpa using hc
            exact hfree
          · simp at hc
        · exact .inl ⟨i, hc⟩
      · rw [List.getElem?_append] at hc
        split at hc
        · exact .inl ⟨i, hc⟩
        · right
          have := List.mem_of_getElem? hc
          obtain rfl : c = node := by simpa using this
          exact hfree
    · intro i j c hi hj
      simp only [insert_get] at hi hj
      split at hi
      · rename_i hcond
        rw [if_pos hcond] at hj
        rw [List.getElem?_set] at hi hj
        by_cases e1 : idx.toNat = i
        · by_cases e2 : idx.toNat = j
          · omega
          · rw [if_pos e1] at hi; rw [if_neg e2] at hj
            split at hi
            · obtain rfl : node = c := by simpa using hi
              exact absurd hj (hnew j)
            · simp at hi
        · rw [if_neg e1] at hi
          by_cases e2 : idx.toNat = j
          · rw [if_pos e2] at hj
            split at hj
            · obtain rfl : node = c := by simpa using hj
              exact absurd hi (hnew i)
            · simp at hj
          · rw [if_neg e2] at hj
            exact oneParent_self o hd hi hj
      · rename_i hcond
        rw [if_neg hcond] at hj
        rw [List.getElem?_append] at hi hj
        by_cases e1 : i < n.children.length
        · rw [if_pos e1] at hi
          by_cases e2 : j < n.children.length
          · rw [if_pos e2] at hj
            exact oneParent_self o hd hi hj
          · rw [if_neg e2] at hj
            have := List.mem_of_getElem? hj
            obtain rfl : c = node := by simpa using this
            exact absurd hi (hnew i)
        · rw [if_neg e1] at hi
          by_cases e2 : j < n.children.length
          · rw [if_pos e2] at hj
            have := List.mem_of_getElem? hi
            obtain rfl : c = node := by simpa using this
            exact absurd hj (hnew j)
          · rw [if_neg e2] at hj
            obtain ⟨l1, _⟩ := List.getElem?_eq_some_iff.1 hi
            obtain ⟨l2, _⟩ := List.getElem?_eq_some_iff.1 hj
            simp at l1 l2
            omega

theorem nodup_of_oneParent {h : Heap α} (o : OneParent h) {p : Ptr} {n : Node α} (hd : deref h p = .ok n) :
    n.children.Nodup := by
  rw [List.nodup_iff_pairwise_ne, List.pairwise_iff_getElem]
  intro i j hi hj hij e
  have := oneParent_self o hd (List.getElem?_eq_getElem hi) ((List.getElem?_eq_getElem hj).trans (congrArg some e.symm))
  omega

theorem inj_of_nodup {β : Type} {l : List β} (hn : l.Nodup) {i j : Nat} {c : β} (hi : l[i]? = some c) (hj : l[j]? = some c) :
    i = j := by
  obtain ⟨l1, e1⟩ := List.getElem?_eq_some_iff.1 hi
  obtain ⟨l2, e2⟩ := List.getElem?_eq_some_iff.1 hj
  exact (List.getElem_inj hn).1 (e1.trans e2.symm)

theorem oneParent_step (hl : StrictWeak less) {h h' : Heap α} (g : Good h) (o : OneParent h) (op : Op α) (hop : Legal h op)
    (hfree : Free h op) (r : Ptr) (e : step less S h op = .ok (h', r)) : OneParent h' := by
  cases op with
  | new v =>
    simp only [step, Res.pure_eq, Res.ok.injEq] at e
    rw [← show (new h v).1 = h' from congrArg Prod.fst e]
    exact oneParent_new o v
  | addChild this v idx =>
    refine oneParent_addChildNode (oneParent_new o v) this (new h v).2 idx r (fun a ha => ?_) e
    obtain ⟨n, hn, hm⟩ := ha
    rcases deref_new_cases hn with hn | rfl
    · obtain ⟨m, hv⟩ := good_child g hn hm
      simp [deref, new, Go.get] at hv
    · simp at hm
  | addChildNode this node idx => exact oneParent_addChildNode o this node idx r hfree e
  | removeChild this idx =>
    obtain ⟨n, hd⟩ := hop
    by_cases hi : idx < 0 ∨ (n.children.length : Int) ≤ idx
    · simp only [step, C117_removeChild_range h this n idx hd hi, Res.bind_ok, Res.pure_eq, Res.ok.injEq, Prod.mk.injEq] at e
      rw [← e.1]; exact o
    · obtain ⟨i, rfl⟩ := Int.eq_ofNat_of_zero_le (a := idx) (by omega)
      obtain ⟨h2, e1, e2, e3, _⟩ := C117_removeChild h this n i hd (by omega)
      simp only [step, e1, Res.bind_ok, Res.pure_eq, Res.ok.injEq, Prod.mk.injEq] at e
      obtain ⟨rfl, _⟩ := e
      refine oneParent_set o hd e2 e3 (fun k c hc => .inl ?_) (fun k m c hk hm => ?_)
      · obtain ⟨j, hj⟩ := List.mem_iff_getElem?.1 (List.mem_of_mem_eraseIdx (List.mem_of_getElem? hc))
        exact ⟨j, hj⟩
      · exact inj_of_nodup ((nodup_of_oneParent o hd).sublist (List.eraseIdx_sublist _ _)) hk hm
  | sortChildren this =>
    obtain ⟨n, hd⟩ := hop
    obtain ⟨h2, n', e1, e2, e3, _, e5, _, _⟩ := C117_sortChildren less S h this n hl hd (fun c hc => good_child g hd hc)
    simp only [step, e1, Res.bind_ok, Res.pure_eq, Res.ok.injEq, Prod.mk.injEq] at e
    obtain ⟨rfl, _⟩ := e
    refine oneParent_set o hd e2 e3 (fun k c hc => .inl ?_) (fun k m c hk hm => ?_)
    · obtain ⟨j, hj⟩ := List.mem_iff_getElem?.1 (e5.mem_iff.1 (List.mem_of_getElem? hc))
      exact ⟨j, hj⟩
    · exact inj_of_nodup (e5.nodup_iff.2 (nodup_of_oneParent o hd)) hk hm

theorem edge_unique {h : Heap α} (o : OneParent h) {a b c : Ptr} (ha : Edge h a c) (hb : Edge h b c) : a = b := by
  obtain ⟨x, hx, hcx⟩ := ha
  obtain ⟨y, hy, hcy⟩ := hb
  obtain ⟨i, hi⟩ := List.mem_iff_getElem?.1 hcx
  obtain ⟨j, hj⟩ := List.mem_iff_getElem?.1 hcy
  exact (o a b x y i j c hx hy hi hj).1

theorem nodup_all {h : Heap α} (o : OneParent h) {t : Tree Ptr} (r : Rep h t) : (Tree.all t).Nodup := by
  induction r with
  | node p n cs hd hc hr ih =>
    have racy := (Rep.node p n cs hd hc hr).acyclic
    simp only [Tree.val, Tree.children] at racy
    have hedge : ∀ c ∈ cs, Edge h p c.val := fun c hm => ⟨n, hd, by rw [hc]; exact List.mem_map_of_mem hm⟩
    -- two children have no node in common
    have hdis : ∀ c ∈ cs, ∀ d ∈ cs, c.val ≠ d.val → ∀ x ∈ Tree.all c, x ∉ Tree.all d := by
      intro c hcm d hdm hne
      refine (hr c hcm).down _ ?_ ?_
      · intro hx
        rcases (hr d hdm).parent _ hx with e | ⟨y, hy, he⟩
        · exact hne e
        · rw [edge_unique o he (hedge c hcm)] at hy
          exact racy d hdm hy
      · intro a b ha hna hab hb
        rcases (hr d hdm).parent _ hb with e | ⟨y, hy, he⟩
        · have : a = p := edge_unique o hab (e ▸ hedge d hdm)
          exact racy c hcm (this ▸ ha)
        · exact hna (edge_unique o he hab ▸ hy)
    have hnd : (cs.map Tree.val).Nodup := by rw [← hc]; exact nodup_of_oneParent o hd
    have hlist : ∀ ds : List (Tree Ptr), (∀ d ∈ ds, d ∈ cs) → (ds.map Tree.val).Nodup → (allList ds).Nodup := by
      intro ds
      induction ds with
      | nil => intro _ _; simp [allList]
      | cons d ds ihd =>
        intro hin hn
        simp only [List.map_cons, List.nodup_cons] at hn
        simp only [allList]
        rw [List.nodup_append]
        refine ⟨ih d (hin d (by simp)), ihd (fun x hx => hin x (by simp [hx])) hn.2, ?_⟩
        intro x hx y hy e
        subst e
        obtain ⟨d', hd', hxd⟩ := mem_allList hy
        exact hdis d (hin d (by simp)) d' (hin d' (by simp [hd']))
          (fun ev => hn.1 (ev ▸ List.mem_map_of_mem hd')) x hx hxd
    simp only [Tree.all, List.singleton_append, List.nodup_cons]
    refine ⟨fun hx => ?_, hlist cs (fun _ h => h) hnd⟩
    obtain ⟨c, hm, hxc⟩ := mem_allList hx
    exact racy c hm hxc

/-- **C117** When moreover only nodes without a parent are added as nodes, memory is a forest after every history: no node
has two parents or stands twice below the same one, and no node is twice in the same tree. -/
theorem C117_forest (hl : StrictWeak less) (ops : List (Op α))
    (ha : Along less S (fun h op => Legal h op ∧ Free h op) ⟨[]⟩ ops) :
    ∃ h, runOps less S ⟨[]⟩ ops = .ok h ∧ (∀ a b c, Edge h a c → Edge h b c → a = b) ∧
      (∀ p n, deref h p = .ok n → n.children.Nodup) ∧ ∀ p, Valid h p → ∃ t, Rep h t ∧ t.val = p ∧ (Tree.all t).Nodup := by
  have key : ∀ (ops : List (Op α)) (h : Heap α), Good h → OneParent h →
      Along less S (fun h op => Legal h op ∧ Free h op) h ops →
      ∃ h', runOps less S h ops = .ok h' ∧ Good h' ∧ OneParent h' := by
    intro ops
    induction ops with
    | nil => intro h g o _; exact ⟨h, rfl, g, o⟩
    | cons op ops ih =>
      intro h g o ha
      obtain ⟨h', r, e, g'⟩ := good_step less S hl g op ha.1.1
      obtain ⟨h'', e', g'', o''⟩ := ih h' g' (oneParent_step less S hl g o op ha.1.1 ha.1.2 r e) (ha.2 h' r e)
      exact ⟨h'', by simp [runOps, e, e'], g'', o''⟩
  obtain ⟨h, e, g, o⟩ := key ops ⟨[]⟩ good_empty
    (fun a b x y i j c hx => absurd (deref_ok.1 hx).2 (by simp)) ha
  refine ⟨h, e, fun a b c => edge_unique o, fun p n hd => nodup_of_oneParent o hd, fun p hp => ?_⟩
  obtain ⟨t, rt, tv⟩ := g p hp
  exact ⟨t, rt, tv, nodup_all o rt⟩

end Verif.TreeHeap
