import Verif.Props.RBTree
import Verif.Spec.SearchTree

/-!
# Property C80: the shape of the tree after every history of insertions, and what it costs
-/
set_option linter.unusedSectionVars false

namespace Verif.RBTree
open Verif.Spec

variable {κ : Type} {lt : κ → κ → Bool}

/-- What is seen from the pointer `p` when following the links of the nodes is this tree. -/
def Reads (t : T κ) : Option Nat → KTree κ → Prop
  | p, .leaf => p = none
  | p, .node l k r => ∃ a, p = some a ∧ t.key a = k ∧ Reads t (t.left a) l ∧ Reads t (t.right a) r

/-- The keys in the shape of the tree. -/
def BT.keys (key : Nat → κ) : BT → KTree κ
  | .leaf => .leaf
  | .node l a r => .node (l.keys key) (key a) (r.keys key)

theorem Rep.reads {t : T κ} {B : BT} {par : Nat} {p : Option Nat} (h : Rep t par B p) : Reads t p (B.keys t.key) := by
  induction B generalizing par p with
  | leaf => exact h
  | node l a r ihl ihr => exact ⟨a, h.1, rfl, ihl h.2.2.1, ihr h.2.2.2⟩

theorem keys_congr {key key' : Nat → κ} (B : BT) (h : ∀ a ∈ B.inorder, key' a = key a) : B.keys key' = B.keys key := by
  induction B with
  | leaf => rfl
  | node l a r ihl ihr =>
    simp only [BT.inorder, List.mem_append, List.mem_cons] at h
    rw [BT.keys, BT.keys, h a (by simp), ihl fun x hx => h x (by simp [hx]), ihr fun x hx => h x (by simp [hx])]

theorem keys_ins (key : Nat → κ) (k : κ) (z : Nat) (B : BT) (hz : z ∉ B.inorder) :
    (ins lt key k z B).keys (upd key z k) = (B.keys key).insert lt k := by
  induction B with
  | leaf => simp [ins, BT.keys, KTree.insert]
  | node l a r ihl ihr =>
    simp only [BT.inorder, List.mem_append, List.mem_cons, not_or] at hz
    have ha : upd key z k a = key a := upd_ne _ _ (Ne.symm hz.2.1)
    have hl : l.keys (upd key z k) = l.keys key := keys_congr l fun x hx => upd_ne _ _ fun e => hz.1 (e ▸ hx)
    have hr : r.keys (upd key z k) = r.keys key := keys_congr r fun x hx => upd_ne _ _ fun e => hz.2.2 (e ▸ hx)
    rw [ins, BT.keys, KTree.insert]
    split_ifs
    · rw [BT.keys, ha, hr, ihl hz.1]
    · rw [BT.keys, ha, hl, ihr hz.2.2]

theorem insertAll_shape (hw : StrictWeak lt) : ∀ (ks : List κ) (t : T κ) (B : BT), Inv lt t B → (∀ a, t.red a = true) →
    ∃ t' B', Ends (fun fuel => insertAll lt fuel t ks) t' ∧ Inv lt t' B' ∧ (∀ a, t'.red a = true) ∧
      B'.keys t'.key = ks.foldl (fun T k => T.insert lt k) (B.keys t.key) := by
  intro ks
  induction ks with
  | nil => intro t B h hr; exact ⟨t, B, ⟨0, fun _ _ => rfl⟩, h, hr, rfl⟩
  | cons k ks ih =>
    intro t B h hr
    obtain ⟨t1, B1, ⟨F1, hF1⟩, h1, hk1, -, -, hB, hr1⟩ := insertEqual_inv hw h k
    obtain ⟨t2, B2, ⟨F2, hF2⟩, h2, hr2, e2⟩ := ih t1 B1 h1 (hr1 hr)
    refine ⟨t2, B2, ⟨max F1 F2, fun fuel hf => ?_⟩, h2, hr2, ?_⟩
    · have a := hF1 fuel (by omega)
      have b := hF2 fuel (by omega)
      simp only at a b
      simp only [insertAll, a, Run.bind_ok, b]
    · have hz : t.n + 1 ∉ B.inorder := fun hm => by have := (h.range _ hm).2; omega
      rw [e2, hB, hk1, keys_ins t.key k (t.n + 1) B hz]
      rfl

theorem descend_cost (k : κ) (t : T κ) (B : BT) (par : Nat) (p : Option Nat) (h : Rep t par B p) (y : Nat) (c : Bool)
    (fuel : Nat) : descend lt t k fuel p y c = .more ↔ fuel ≤ (B.keys t.key).way (lt k) := by
  induction B generalizing par p y c fuel with
  | leaf =>
    cases h
    cases fuel <;> simp [descend, BT.keys, KTree.way]
  | node l a r ihl ihr =>
    obtain ⟨rfl, -, h3, h4⟩ := h
    cases fuel with
    | zero => simp [descend]
    | succ f =>
      rw [descend, BT.keys, KTree.way]
      cases hc : lt k (t.key a) with
      | true => simpa using ihl a _ h3 a true f
      | false => simpa using ihr a _ h4 a false f

theorem findLoop_cost (k : κ) (t : T κ) (B : BT) (par : Nat) (p : Option Nat) (h : Rep t par B p) (y : Option Nat)
    (fuel : Nat) : findLoop lt t k fuel p y = .more ↔ fuel ≤ (B.keys t.key).way (fun a => !lt a k) := by
  induction B generalizing par p y fuel with
  | leaf =>
    cases h
    cases fuel <;> simp [findLoop, BT.keys, KTree.way]
  | node l a r ihl ihr =>
    obtain ⟨rfl, -, h3, h4⟩ := h
    cases fuel with
    | zero => simp [findLoop]
    | succ f =>
      rw [findLoop, BT.keys, KTree.way]
      cases hc : lt (t.key a) k with
      | true => simpa using ihr a _ h4 y f
      | false => simpa using ihl a _ h3 (some a) f

/-- **C80, exactly.** After every sequence of insertions all nodes are red and the tree is the one that plain insertion
without any balancing gives.  Missing: the bound on the height, which is false (`C80_chain_false`). -/
theorem C80_shape_partial (hw : StrictWeak lt) (zero : κ) (ks : List κ) :
    ∃ t, Ends (fun fuel => insertAll lt fuel (new zero) ks) t ∧ (∀ a, t.red a = true) ∧
      Reads t (root t) (KTree.ofList lt ks) := by
  obtain ⟨t, B, h1, h2, h3, h4⟩ := insertAll_shape hw ks (new zero) .leaf (inv_new lt zero) fun _ => rfl
  have := h2.rep.reads
  rw [h4] at this
  exact ⟨t, h1, h3, this⟩

/-- **C80, the cost.** Then looking for a key, and inserting one more, goes through exactly as many nodes as there are on the
way down in that tree: the loop has not finished after that many rounds and finishes in the next one. -/
theorem C80_cost (hw : StrictWeak lt) (zero : κ) (ks : List κ) :
    ∃ t, Ends (fun fuel => insertAll lt fuel (new zero) ks) t ∧ ∀ k fuel,
      (find lt t fuel k = .more ↔ fuel ≤ (KTree.ofList lt ks).way (fun a => !lt a k)) ∧
      (insertEqual lt t fuel k = .more ↔ fuel ≤ (KTree.ofList lt ks).way (lt k)) := by
  obtain ⟨t, B, h1, h2, -, h4⟩ := insertAll_shape hw ks (new zero) .leaf (inv_new lt zero) fun _ => rfl
  refine ⟨t, h1, fun k fuel => ⟨?_, ?_⟩⟩
  · have hc := findLoop_cost (lt := lt) k t B 0 _ h2.rep none fuel
    rw [h4] at hc
    rw [KTree.ofList, show KTree.leaf = BT.leaf.keys (new zero).key from rfl, ← hc, find, root]
    generalize findLoop lt t k fuel (t.parent 0) none = o
    cases o with
    | ok y => cases y <;> simp
    | panic => simp
    | more => simp
  · have hc := descend_cost (lt := lt) k t B 0 _ h2.rep 0 true fuel
    rw [h4] at hc
    rw [KTree.ofList, show KTree.leaf = BT.leaf.keys (new zero).key from rfl, ← hc, insertEqual, root]
    generalize descend lt t k fuel (t.parent 0) 0 true = o
    cases o with
    | ok y => simp
    | panic => simp
    | more => simp

/-- **C80** is false in its cost as well: after `n` keys in increasing order, looking for a greater key goes through all
`n` of them. -/
theorem C80_linear_false (hw : StrictWeak lt) (ks : List κ) (k : κ) (hinc : (ks ++ [k]).Pairwise fun a b => lt a b = true) :
    (KTree.ofList lt ks).way (fun a => !lt a k) = ks.length := by
  rw [List.pairwise_append] at hinc
  obtain ⟨hp, -, hk⟩ := hinc
  have hk : ∀ a ∈ ks, lt a k = true := fun a ha => hk a ha k (by simp)
  -- the tree is a chain to the right
  have chain : ∀ (ks : List κ) (T : KTree κ) (A : List κ), (∀ a ∈ A, ∀ b ∈ ks, lt a b = true) → (∀ a ∈ ks, lt a k = true) →
      (ks.Pairwise fun a b => lt a b = true) → T = A.foldr (fun a T => .node .leaf a T) .leaf → (∀ a ∈ A, lt a k = true) →
      (ks.foldl (fun T k => T.insert lt k) T).way (fun a => !lt a k) = A.length + ks.length := by
    intro ks
    induction ks with
    | nil =>
      rintro T A - - - rfl hA
      show KTree.way _ _ = _
      induction A with
      | nil => rfl
      | cons a A ih =>
        have := ih fun a ha => hA a (by simp [ha])
        simp only [List.foldl_nil, List.length_nil, Nat.add_zero] at this
        simp [KTree.way, hA a (by simp), this]
    | cons b ks ih =>
      intro T A hAb hk hp hT hA
      rw [List.pairwise_cons] at hp
      rw [List.foldl_cons, ih _ (A ++ [b]) ?_ (fun a ha => hk a (by simp [ha])) hp.2 ?_ ?_]
      · simp; omega
      · intro a ha c hc
        rcases List.mem_append.1 ha with ha | ha
        · exact hAb a ha c (by simp [hc])
        · rw [List.mem_singleton] at ha; subst ha; exact hp.1 c hc
      · subst hT
        have hba : ∀ a ∈ A, lt b a = false := fun a ha => hw.asymm (hAb a ha b (by simp))
        clear hA
        induction A with
        | nil => rfl
        | cons a A ih' =>
          simp only [List.foldr_cons, List.cons_append, KTree.insert]
          rw [if_neg (by simp [hba a (by simp)]), ih' (fun x hx c hc => hAb x (by simp [hx]) c hc)
            fun x hx => hba x (by simp [hx])]
      · intro a ha
        rcases List.mem_append.1 ha with ha | ha
        · exact hA a ha
        · rw [List.mem_singleton] at ha; subst ha; exact hk a (by simp)
  have := chain ks .leaf [] (by simp) hk hp rfl (by simp)
  simpa [KTree.ofList] using this

example : KTree.ofList natLt [5, 2, 8, 5] =
    .node (.node .leaf 2 .leaf) 5 (.node (.node .leaf 5 .leaf) 8 .leaf) := by decide

example := C80_shape_partial natLt_strictWeak 0 [5, 2, 8, 5]
example := C80_cost natLt_strictWeak 0 [5, 2, 8, 5]

end Verif.RBTree
