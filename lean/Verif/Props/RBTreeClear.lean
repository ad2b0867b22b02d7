import Verif.Props.RBTreeUnique
/-!
# C164: the ordered tree with Clear, and loops from `Begin` to `End`
-/
set_option linter.unusedSectionVars false

namespace Verif.Spec

/-- What a client does with a tree. -/
inductive TreeOp (κ : Type)
  | insert (k : κ)
  | clear

/-- The keys that were inserted since the tree was cleared for the last time, in this order. -/
def sinceClear {κ : Type} (ops : List (TreeOp κ)) : List κ :=
  ops.foldl (fun l op => match op with | .insert k => l ++ [k] | .clear => []) []

/-- A key goes behind those that are not greater. -/
def putKey {κ : Type} (lt : κ → κ → Bool) (k : κ) : List κ → List κ
  | [] => [k]
  | a :: l => if lt k a then k :: a :: l else a :: putKey lt k l

/-- The keys in order, equal ones as they came. -/
def ordered {κ : Type} (lt : κ → κ → Bool) (ks : List κ) : List κ := ks.foldl (fun l k => putKey lt k l) []

end Verif.Spec

namespace Verif.RBTree
open Verif.Spec

variable {κ : Type} {lt : κ → κ → Bool}

/-- The calls one after the other. -/
def play (lt : κ → κ → Bool) (fuel : Nat) : T κ → List (TreeOp κ) → Run (T κ)
  | t, [] => .ok t
  | t, .insert k :: ops => do let (t, _) ← insertEqual lt t fuel k; play lt fuel t ops
  | t, .clear :: ops => play lt fuel (clear t) ops

theorem inv_clear (lt : κ → κ → Bool) (t : T κ) : Inv lt (clear t) .leaf := by
  constructor <;> simp [clear, init, Rep, BT.inorder, upd]

theorem map_place (key key' : Nat → κ) (z : Nat) (k : κ) (hz : key' z = k) : ∀ L : List Nat, (∀ a ∈ L, key' a = key a) →
    (place lt key' z L).map key' = putKey lt k (L.map key)
  | [], _ => by simp [place, putKey, hz]
  | a :: L, h => by
    have ha := h a (by simp)
    have ih := map_place key key' z k hz L (fun b hb => h b (by simp [hb]))
    have hm : L.map key' = L.map key := List.map_congr_left fun b hb => h b (by simp [hb])
    rw [place, List.map_cons, putKey, hz, ha]
    split_ifs
    · simp [hz, ha, hm]
    · rw [List.map_cons, ih, ha]

/-- The keys in the tree, one call after the other. -/
def keep (lt : κ → κ → Bool) (l : List κ) : List (TreeOp κ) → List κ
  | [] => l
  | .insert k :: ops => keep lt (putKey lt k l) ops
  | .clear :: ops => keep lt [] ops

theorem play_inv (hw : StrictWeak lt) : ∀ (ops : List (TreeOp κ)) (t : T κ) (B : BT), Inv lt t B →
    ∃ t' B', Ends (fun fuel => play lt fuel t ops) t' ∧ Inv lt t' B' ∧ B'.inorder.map t'.key = keep lt (B.inorder.map t.key) ops
  | [], t, B, h => ⟨t, B, ⟨0, fun _ _ => rfl⟩, h, rfl⟩
  | .clear :: ops, t, B, h => by
    obtain ⟨t', B', ⟨F, h1⟩, h2, h3⟩ := play_inv hw ops (clear t) .leaf (inv_clear lt t)
    exact ⟨t', B', ⟨F, h1⟩, h2, h3⟩
  | .insert k :: ops, t, B, h => by
    obtain ⟨t1, B1, ⟨F1, hF1⟩, h1, hk1, -, hpl, -⟩ := insertEqual_inv hw h k
    obtain ⟨t', B', ⟨F, hF⟩, h2, h3⟩ := play_inv hw ops t1 B1 h1
    refine ⟨t', B', ⟨max F1 F, fun fuel hf => ?_⟩, h2, ?_⟩
    · have a := hF1 fuel (by omega)
      have b := hF fuel (by omega)
      simp only at a b
      simp only [play, a, Run.bind_ok, b]
    · rw [h3, hpl, keep, map_place t.key t1.key (t.n + 1) k (by rw [hk1, upd_same])]
      intro a ha
      have := (h.range a ha).2
      rw [hk1, upd_ne _ _ (by omega)]

theorem keep_eq (lt : κ → κ → Bool) (ops : List (TreeOp κ)) (ks : List κ) :
    keep lt (ordered lt ks) ops = ordered lt (ops.foldl (fun l op => match op with | .insert k => l ++ [k] | .clear => []) ks) := by
  induction ops generalizing ks with
  | nil => rfl
  | cons op ops ih =>
    cases op with
    | insert k =>
      have : putKey lt k (ordered lt ks) = ordered lt (ks ++ [k]) := by simp [ordered]
      rw [keep, this, ih]; rfl
    | clear => exact ih []

theorem putKey_perm (lt : κ → κ → Bool) (k : κ) : ∀ l : List κ, (putKey lt k l).Perm (k :: l)
  | [] => .refl _
  | a :: l => by
    rw [putKey]
    split_ifs
    · exact .refl _
    · exact ((putKey_perm lt k l).cons a).trans (.swap k a l)

theorem ordered_perm (lt : κ → κ → Bool) (ks : List κ) : (ordered lt ks).Perm ks := by
  have key : ∀ (ks l : List κ), (ks.foldl (fun l k => putKey lt k l) l).Perm (l ++ ks) := by
    intro ks
    induction ks with
    | nil => intro l; simp
    | cons k ks ih =>
      intro l
      refine (ih _).trans (((putKey_perm lt k l).append_right ks).trans ?_)
      rw [List.cons_append]
      exact List.perm_middle.symm
  exact key ks []

/-- **C164** (partial: the insertions are those of `insertEqual`; the exported `Insert` does nothing, C69) After every history of insertions and
`Clear`, iteration visits nodes with exactly the keys that were inserted since the last `Clear`, in order, equal ones in the order of their
insertion, and `Find` and `Size` agree with that. -/
theorem C164_history_partial (hw : StrictWeak lt) (zero : κ) (ops : List (TreeOp κ)) :
    ∃ t L, Ends (fun fuel => play lt fuel (new zero) ops) t ∧ Visits lt t L ∧ L.map t.key = ordered lt (sinceClear ops) ∧
      (ordered lt (sinceClear ops)).Perm (sinceClear ops) := by
  obtain ⟨t, B, h1, h2, h3⟩ := play_inv hw ops (new zero) .leaf (inv_new lt zero)
  exact ⟨t, B.inorder, h1, h2.visits hw, by rw [h3]; exact keep_eq lt ops [], ordered_perm ..⟩

/-- **C164** A tree is `Empty` exactly if nothing was inserted since the last `Clear`; then its size is 0, `Begin` is nil and nothing is found. -/
theorem C164_empty (hw : StrictWeak lt) (zero : κ) (ops : List (TreeOp κ)) (t : T κ)
    (ht : Ends (fun fuel => play lt fuel (new zero) ops) t) :
    (empty t = true ↔ sinceClear ops = []) ∧ t.size = (sinceClear ops).length ∧
    (empty t = true → begin t = none ∧ ∀ k, Ends (fun fuel => find lt t fuel k) none) := by
  obtain ⟨t', B, h1, h2, h3⟩ := play_inv hw ops (new zero) .leaf (inv_new lt zero)
  obtain rfl := ht.unique h1
  have h4 : B.inorder.map t.key = ordered lt (sinceClear ops) := by rw [h3]; exact keep_eq lt ops []
  have h5 : B.inorder.length = (sinceClear ops).length := by
    rw [← (ordered_perm lt (sinceClear ops)).length_eq, ← h4, List.length_map]
  have h6 : empty t = true ↔ B.inorder = [] := by
    rw [empty, root, h2.rep.top]
    cases B <;> simp [BT.top, BT.inorder]
  refine ⟨?_, h2.size.trans h5, fun he => ?_⟩
  · rw [h6, ← List.length_eq_zero_iff, h5, List.length_eq_zero_iff]
  · have hv := h2.visits hw
    rw [h6.1 he] at hv
    exact ⟨hv.first, fun k => hv.find k⟩

theorem walk_list {t : T κ} : ∀ (C : List Nat) (a : Nat), (∀ b ∈ a :: C, b ≠ 0) →
    (∀ X x y Y, a :: C = X ++ x :: y :: Y → Ends (fun fuel => next t fuel x) (some y)) →
    (∀ X x, a :: C = X ++ [x] → Ends (fun fuel => next t fuel x) (some 0)) →
    ∃ F, ∀ fuel rounds, F ≤ fuel → F ≤ rounds → walk t fuel rounds (some a) = .ok ((a :: C).map some)
  | [], a, h0, _, hl => by
    obtain ⟨F, hF⟩ := hl [] a rfl
    refine ⟨F + 2, fun fuel rounds h1 h2 => ?_⟩
    obtain ⟨r, rfl⟩ : ∃ r, rounds = r + 2 := ⟨rounds - 2, by omega⟩
    have ha : a ≠ 0 := h0 a (by simp)
    have := hF fuel (by omega)
    simp only at this
    simp [walk, end', ha, nextP, this, Run.bind_ok]
  | b :: C, a, h0, hn, hl => by
    obtain ⟨F, hF⟩ := walk_list C b (fun x hx => h0 x (List.mem_cons_of_mem _ hx))
      (fun X x y Y e => hn (a :: X) x y Y (by rw [e]; rfl)) (fun X x e => hl (a :: X) x (by rw [e]; rfl))
    obtain ⟨G, hG⟩ := hn [] a b C rfl
    refine ⟨F + G + 1, fun fuel rounds h1 h2 => ?_⟩
    obtain ⟨r, rfl⟩ : ∃ r, rounds = r + 1 := ⟨rounds - 1, by omega⟩
    have ha : a ≠ 0 := h0 a (by simp)
    have e1 := hG fuel (by omega)
    have e2 := hF fuel r (by omega) (by omega)
    simp only at e1
    simp [walk, end', ha, nextP, e1, Run.bind_ok, e2]

/-- **C164** (partial: for trees that are not empty) The loop from `Begin` to `End` ends, and meets nodes with exactly the keys that were
inserted since the last `Clear`, in order. -/
theorem C164_walk_partial (hw : StrictWeak lt) (zero : κ) (ops : List (TreeOp κ)) (t : T κ)
    (ht : Ends (fun fuel => play lt fuel (new zero) ops) t) (hne : sinceClear ops ≠ []) :
    ∃ L : List Nat, Ends (fun fuel => walk t fuel fuel (begin t)) (L.map some) ∧ L.map t.key = ordered lt (sinceClear ops) := by
  obtain ⟨t', B, h1, h2, h3⟩ := play_inv hw ops (new zero) .leaf (inv_new lt zero)
  obtain rfl := ht.unique h1
  have h4 : B.inorder.map t.key = ordered lt (sinceClear ops) := by rw [h3]; exact keep_eq lt ops []
  have hv := h2.visits hw
  have h0 : ∀ a ∈ B.inorder, a ≠ 0 := fun a ha => (h2.range a ha).1
  refine ⟨B.inorder, ?_, h4⟩
  cases hL : B.inorder with
  | nil =>
    rw [hL] at h4
    have := (ordered_perm lt (sinceClear ops)).length_eq
    rw [← h4] at this
    exact absurd (List.length_eq_zero_iff.1 this.symm) hne
  | cons a C =>
    rw [hL] at hv h0
    obtain ⟨F, hF⟩ := walk_list C a h0 hv.next (fun X x e => hv.last X x e)
    refine ⟨F, fun fuel hf => ?_⟩
    rw [hv.first]
    exact hF fuel fuel hf hf

/-- **C164** On every empty tree, new or cleared, the loop from `Begin` to `End` never ends: `Begin` is nil there and `End` is not. -/
theorem C164_walk_empty_false (hw : StrictWeak lt) (zero : κ) (ops : List (TreeOp κ)) (t : T κ)
    (ht : Ends (fun fuel => play lt fuel (new zero) ops) t) (he : sinceClear ops = []) (fuel rounds : Nat) :
    walk t fuel rounds (begin t) = .more := by
  obtain ⟨e1, -, e3⟩ := C164_empty hw zero ops t ht
  rw [(e3 (e1.2 he)).1]
  induction rounds with
  | zero => rfl
  | succ n ih => simp [walk, end', nextP, Run.bind_ok, ih]

/-- The hypotheses of the theorems about trees: insertions, `Clear`, and insertions again. -/
example : ∃ t, Ends (fun fuel => play natLt fuel (new 0) [.insert 5, .insert 2, .clear, .insert 3, .insert 1]) t ∧
    sinceClear [.insert 5, .insert 2, .clear, .insert 3, .insert 1] = [3, 1] :=
  let ⟨t, _, h, _⟩ := C164_history_partial natLt_strictWeak 0 [.insert 5, .insert 2, .clear, .insert 3, .insert 1]
  ⟨t, h, rfl⟩

/-- C164_walk_partial and C164_walk_empty_false: the keys, and a cleared tree. -/
example : ordered natLt (sinceClear [.insert 5, .insert 2, .clear, .insert 3, .insert 1]) = [1, 3] ∧
    sinceClear ([.insert 5, .clear] : List (TreeOp Nat)) = [] := by decide

end Verif.RBTree
