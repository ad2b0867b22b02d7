import Verif.Props.RBTree
/-!
# More about the tree template (C69): `insertUnique` and `prev` of `End` on every tree
-/
set_option linter.unusedSectionVars false
set_option linter.unusedSimpArgs false

namespace Verif.RBTree
open Verif.Spec

variable {κ : Type} {lt : κ → κ → Bool}

theorem Ends.unique {α : Type} {f : Nat → Run α} {a b : α} (h : Ends f a) (h' : Ends f b) : a = b := by
  obtain ⟨F, hF⟩ := h
  obtain ⟨G, hG⟩ := h'
  have e := hF (max F G) (by omega)
  rw [hG (max F G) (by omega)] at e
  exact (Run.ok.inj e).symm

theorem insertAll_inv (hw : StrictWeak lt) (ks : List κ) (t : T κ) (B : BT) (h : Inv lt t B) (hne : ks ≠ [] ∨ B ≠ .leaf) :
    ∃ t' B', Ends (fun fuel => insertAll lt fuel t ks) t' ∧ Inv lt t' B' ∧ B' ≠ .leaf := by
  induction ks generalizing t B with
  | nil => exact ⟨t, B, ⟨0, fun _ _ => rfl⟩, h, by simpa using hne⟩
  | cons k ks ih =>
    obtain ⟨t1, B1, ⟨F1, hF1⟩, h1, -, -, hpl, -⟩ := insertEqual_inv hw h k
    have hB1 : B1 ≠ .leaf := by
      rintro rfl
      have := (place_mem (lt := lt) t1.key (t.n + 1) B.inorder).length_eq
      rw [← hpl] at this
      simp [BT.inorder] at this
    obtain ⟨t2, B2, ⟨F2, hF2⟩, h2, h3⟩ := ih t1 B1 h1 (.inr hB1)
    refine ⟨t2, B2, ⟨max F1 F2, fun fuel hf => ?_⟩, h2, h3⟩
    have a := hF1 fuel (by omega)
    have b := hF2 fuel (by omega)
    simp only at a b
    simp only [insertAll, a, Run.bind_ok, b]

/-- The first node and its right subtree. -/
theorem leftmost_sub (t : T κ) (B : BT) (par : Nat) (p : Option Nat) (h : Rep t par B p) (hB : B ≠ .leaf)
    (hnd : B.inorder.Nodup) : ∃ a R q D, Rep t q (.node .leaf a R) (some a) ∧ B.inorder = a :: (R.inorder ++ D) ∧ (D = [] ↔ B.top = some a) := by
  induction B generalizing par p with
  | leaf => exact absurd rfl hB
  | node l b r ihl _ =>
    obtain ⟨rfl, hp, hL, hR⟩ := h
    cases l with
    | leaf =>
      have hl : t.left b = none := hL
      exact ⟨b, r, par, [], ⟨rfl, hp, hl, hR⟩, by simp [BT.inorder], by simp [BT.top]⟩
    | node l1 b1 r1 =>
      obtain ⟨a, R, q, D, h1, h2, -⟩ := ihl b _ hL (by simp) (by
        rw [BT.inorder, List.nodup_append] at hnd; exact hnd.1)
      refine ⟨a, R, q, D ++ b :: r.inorder, h1, ?_, ?_⟩
      · rw [BT.inorder, h2]; simp
      · constructor
        · intro e; simp at e
        · intro e
          simp only [BT.top, Option.some.injEq] at e
          rw [BT.inorder, List.nodup_append] at hnd
          exact absurd e.symm (hnd.2.2 a (by rw [h2]; simp) b (by simp))

theorem Visits.unique {t : T κ} {L L' : List Nat} (h : Visits lt t L) (h' : Visits lt t L') : L = L' := by
  have key : ∀ (X Y Y' : List Nat), L = X ++ Y → L' = X ++ Y' → Y = Y' := by
    intro X Y
    induction Y generalizing X with
    | nil =>
      intro Y' e e'
      have h1 := h.size.symm.trans h'.size
      rw [e, e'] at h1
      simp at h1
      exact h1.symm
    | cons a Y ih =>
      intro Y' e e'
      cases Y' with
      | nil =>
        have h1 := h.size.symm.trans h'.size
        rw [e, e'] at h1
        simp at h1
      | cons b Y' =>
        have hab : a = b := by
          rcases List.eq_nil_or_concat X with rfl | ⟨X, x, rfl⟩
          · have := h.first.symm.trans h'.first
            rw [e, e'] at this
            simpa using this
          · rw [List.concat_eq_append] at e e'
            have := (h.next X x a Y (by rw [e]; simp)).unique (h'.next X x b Y' (by rw [e']; simp))
            simpa using this
        subst hab
        rw [ih (X ++ [a]) Y' (by rw [e]; simp) (by rw [e']; simp)]
  exact key [] L L' rfl rfl

theorem insertAll_n {fuel : Nat} : ∀ {ks : List κ} {t t' : T κ}, insertAll lt fuel t ks = .ok t' → t'.n = t.n + ks.length
  | [], t, t', h => by cases h; rfl
  | k :: ks, t, t', h => by
    simp only [insertAll] at h
    cases hi : insertEqual lt t fuel k with
    | panic => rw [hi] at h; cases h
    | more => rw [hi] at h; cases h
    | ok p =>
      rw [hi, Run.bind_ok] at h
      have h1 := insertAll_n h
      have h2 : p.1.n = t.n + 1 := by
        simp only [insertEqual] at hi
        cases hd : descend lt t k fuel (root t) 0 true with
        | panic => rw [hd] at hi; cases hi
        | more => rw [hd] at hi; cases hi
        | ok q =>
          rw [hd, Run.bind_ok] at hi
          cases hi
          exact insert_n ..
      rw [h1, h2, List.length_cons]; omega

/-- **C69 (`prev` of `End`, every tree).** In every tree made of at least one key, `prev` of `End` ends with a node, and that
node is the last one exactly if the first node is the root of the tree. -/
theorem C69_prev_end_iff (hw : StrictWeak lt) (zero : κ) (ks : List κ) (hks : ks ≠ []) (t : T κ) (L : List Nat)
    (ht : Ends (fun fuel => insertAll lt fuel (new zero) ks) t) (hv : Visits lt t L) :
    ∃ m, Ends (fun fuel => prev t fuel (end' t)) (some m) ∧ (L.getLast? = some m ↔ root t = begin t) := by
  obtain ⟨t', B, h1, h2, h3⟩ := insertAll_inv hw ks (new zero) .leaf (inv_new lt zero) (.inl hks)
  obtain rfl := ht.unique h1
  obtain rfl := hv.unique (h2.visits hw)
  obtain ⟨a, R, q, D, e1, e2, e3⟩ := leftmost_sub t B 0 _ h2.rep h3 h2.nodup
  obtain ⟨m, hm⟩ : ∃ m, (BT.node .leaf a R).inorder.getLast? = some m := by
    cases hh : (BT.node .leaf a R).inorder.getLast? with
    | none => simp [BT.inorder] at hh
    | some m => exact ⟨m, rfl⟩
  have h0 : t.left 0 = some a := by rw [h2.first, e2]; rfl
  have hr : t.parent 0 ≠ some 0 := by
    rw [h2.rep.top]
    cases B with
    | leaf => simp [BT.top]
    | node l b r => simpa [BT.top] using (h2.range b (by simp [BT.inorder])).1
  refine ⟨m, ?_, ?_⟩
  · obtain ⟨F, hF⟩ := topRight_ends t _ q a m e1 hm
    refine ⟨F, fun fuel hf => ?_⟩
    have := hF fuel hf
    simp only at this
    simp [prev, end', hr, h0, this]
  · rw [root, begin, h0, h2.rep.top, ← e3, e2]
    have hnd := h2.nodup
    rw [e2] at hnd
    simp only [BT.inorder, List.nil_append] at hm
    rcases List.eq_nil_or_concat D with rfl | ⟨D, d, rfl⟩
    · simpa using hm
    · simp only [List.concat_eq_append] at hnd ⊢
      have : (a :: (R.inorder ++ (D ++ [d]))).getLast? = some d := by
        rw [← List.append_assoc, ← List.cons_append, List.getLast?_append]; simp
      rw [this]
      simp only [Option.some.injEq, List.append_eq_nil_iff, List.cons_ne_self, and_false, iff_false]
      rintro rfl
      have hmem := List.mem_of_getLast? hm
      rw [show a :: (R.inorder ++ (D ++ [d])) = (a :: R.inorder) ++ (D ++ [d]) by simp, List.nodup_append] at hnd
      exact hnd.2.2 d hmem d (by simp) rfl

example : ([2, 1, 3] : List Nat) ≠ [] ∧ prev (demo [2, 1, 3]) 20 0 = .ok (some 2) ∧ prev (demo [1, 3, 2]) 20 0 = .ok (some 2) := by
  decide

/-! ## `insertUnique` -/

/-- Neighbours in the order of the nodes: one of the links between them is there. -/
theorem neighbours (t : T κ) (B : BT) (par : Nat) (p : Option Nat) (h : Rep t par B p) (A : List Nat) (a b : Nat) (C : List Nat)
    (e : B.inorder = A ++ a :: b :: C) : t.right a ≠ none ∨ t.left b ≠ none := by
  induction B generalizing par p A C with
  | leaf => simp [BT.inorder] at e
  | node l x r ihl ihr =>
    obtain ⟨rfl, hp, hL, hR⟩ := h
    simp only [BT.inorder] at e
    rcases split3 e with ⟨rfl, rfl, e'⟩ | ⟨X, e1, e2⟩ | ⟨X, rfl, e2⟩
    · left
      rw [hR.top]
      cases r with
      | leaf => simp [BT.inorder] at e'
      | node => simp [BT.top]
    · cases X with
      | nil =>
        simp only [List.nil_append, List.cons.injEq] at e2
        obtain ⟨rfl, -⟩ := e2
        right
        rw [hL.top]
        cases l with
        | leaf => simp [BT.inorder] at e1
        | node => simp [BT.top]
      | cons y X =>
        simp only [List.cons_append, List.cons.injEq] at e2
        obtain ⟨rfl, -⟩ := e2
        exact ihl x _ hL A X e1
    · exact ihr x _ hR X C e2

theorem att_free (lt : κ → κ → Bool) (k : κ) (t : T κ) (B : BT) (par : Nat) (p : Option Nat) (h : Rep t par B p) (y0 : Nat) (c0 : Bool) (hB : B ≠ .leaf) :
    ((att lt t.key k B y0 c0).2 = true → t.left (att lt t.key k B y0 c0).1 = none) ∧
    ((att lt t.key k B y0 c0).2 = false → t.right (att lt t.key k B y0 c0).1 = none) := by
  induction B generalizing par p y0 c0 with
  | leaf => exact absurd rfl hB
  | node l a r ihl ihr =>
    obtain ⟨rfl, hp, hL, hR⟩ := h
    simp only [att]
    split_ifs with hc
    · cases l with
      | leaf => simpa [att, Rep] using hL
      | node => exact ihl a _ hL a true (by simp)
    · cases r with
      | leaf => simpa [att, Rep] using hR
      | node => exact ihr a _ hR a false (by simp)

/-- Replacing the right subtree of a node by one new node. -/
theorem cut_right (t t' : T κ) (z : Nat) (B : BT) (par : Nat) (p : Option Nat) (h : Rep t par B p) (hnd : B.inorder.Nodup)
    (A : List Nat) (a : Nat) (C : List Nat) (e : B.inorder = A ++ a :: C)
    (hl : ∀ x ∈ B.inorder, t'.left x = t.left x) (hr : ∀ x ∈ B.inorder, x ≠ a → t'.right x = t.right x)
    (hp : ∀ x ∈ B.inorder, t'.parent x = t.parent x) (ha : t'.right a = some z)
    (hz : t'.parent z = some a ∧ t'.left z = none ∧ t'.right z = none) :
    ∃ R D B', Rep t a R (t.right a) ∧ C = R.inorder ++ D ∧ Rep t' par B' p ∧ B'.inorder = A ++ a :: z :: D := by
  induction B generalizing par p A C with
  | leaf => simp [BT.inorder] at e
  | node l x r ihl ihr =>
    obtain ⟨rfl, hpx, hL, hR⟩ := h
    simp only [BT.inorder, List.nodup_append, List.nodup_cons, List.mem_cons] at hnd
    obtain ⟨ndl, ⟨hxr, ndr⟩, hdis⟩ := hnd
    simp only [BT.inorder, List.mem_append, List.mem_cons] at hl hr hp
    have frame : ∀ (S : BT) (q : Option Nat), Rep t x S q → a ∉ S.inorder →
        (∀ b ∈ S.inorder, b ∈ l.inorder ∨ b = x ∨ b ∈ r.inorder) → Rep t' x S q := by
      intro S q hS hy hz
      refine hS.frame (fun b hb => hl b (hz b hb)) (fun b hb => hr b (hz b hb) ?_) (fun b hb => hp b (hz b hb))
      rintro rfl; exact hy hb
    simp only [BT.inorder] at e
    rcases split3 e with ⟨rfl, rfl, rfl⟩ | ⟨X, e1, rfl⟩ | ⟨X, rfl, e2⟩
    · refine ⟨r, [], .node l a (.node .leaf z .leaf), hR, by simp, ⟨rfl, by rw [hp a (by simp)]; exact hpx, ?_, ?_⟩, by simp [BT.inorder]⟩
      · rw [hl a (by simp)]
        exact frame l _ hL (fun h => hdis a h a (.inl rfl) rfl) fun b hb => .inl hb
      · rw [ha]
        exact ⟨rfl, hz.1, hz.2.1, hz.2.2⟩
    · have hal : a ∈ l.inorder := by rw [e1]; simp
      have hxa : x ≠ a := fun e => hdis a hal x (.inl rfl) e.symm
      obtain ⟨R, D, B', h1, h2, h3, h4⟩ := ihl x _ hL ndl A X e1 (fun b hb => hl b (.inl hb)) (fun b hb => hr b (.inl hb))
        (fun b hb => hp b (.inl hb))
      refine ⟨R, D ++ x :: r.inorder, .node B' x r, h1, by rw [h2]; simp, ⟨rfl, by rw [hp x (by simp)]; exact hpx, ?_, ?_⟩, ?_⟩
      · rw [hl x (by simp)]; exact h3
      · rw [hr x (by simp) hxa]
        exact frame r _ hR (fun h => hdis a hal a (.inr h) rfl) fun b hb => .inr (.inr hb)
      · simp [BT.inorder, h4]
    · have har : a ∈ r.inorder := by rw [e2]; simp
      have hxa : x ≠ a := fun e => hxr (e ▸ har)
      obtain ⟨R, D, B', h1, h2, h3, h4⟩ := ihr x _ hR ndr X C e2 (fun b hb => hl b (.inr (.inr hb))) (fun b hb => hr b (.inr (.inr hb)))
        (fun b hb => hp b (.inr (.inr hb)))
      refine ⟨R, D, .node l x B', h1, h2, ⟨rfl, by rw [hp x (by simp)]; exact hpx, ?_, ?_⟩, ?_⟩
      · rw [hl x (by simp)]
        exact frame l _ hL (fun h => hdis a h a (.inr har) rfl) fun b hb => .inl hb
      · rw [hr x (by simp) hxa]; exact h3
      · simp [BT.inorder, h4]

/-- What `insertUnique` does, in terms of the place where the search ends. -/
theorem insertUnique_cases (hw : StrictWeak lt) {t : T κ} {B : BT} (h : Inv lt t B) (hB : B ≠ .leaf) (k : κ) :
    ∃ A C y, B.inorder = A ++ C ∧ (∀ a ∈ A, lt k (t.key a) = false) ∧ (∀ c ∈ C, lt k (t.key c) = true) ∧
      ((∀ p, A.getLast? = some p → t.right p = none) →
        Ends (fun fuel => insertEqual lt t fuel k) (insert lt t none y k) ∧
        Ends (fun fuel => insertUnique lt t fuel k)
          (if ∃ p, A.getLast? = some p ∧ lt (t.key p) k = false then (t, none)
           else ((insert lt t none y k).1, some (insert lt t none y k).2))) ∧
      (∀ p, A.getLast? = some p → t.right p ≠ none →
        Ends (fun fuel => insertUnique lt t fuel k)
          (if lt (t.key p) k = false then (t, none) else ((insert lt t none p k).1, some (insert lt t none p k).2))) := by
  obtain ⟨A, C, e1, e2, e3, e4, e5, e6⟩ := ins_inorder lt t.key k hw (t.n + 1) B 0 true hB h.sorted
  obtain ⟨y, c, hatt⟩ : ∃ y c, att lt t.key k B 0 true = (y, c) := ⟨_, _, rfl⟩
  have hfree := att_free lt k t B 0 _ h.rep 0 true hB
  rw [hatt] at e3 e4 hfree
  simp only at e3 e4 hfree
  have hdesc : ∀ fuel, B.height < fuel → descend lt t k fuel (t.parent 0) 0 true = .ok (y, c) := fun fuel hf => by
    rw [descend_eq lt k t B 0 _ h.rep 0 true fuel hf, hatt]
  have h0 : (0 : Nat) ∉ B.inorder := fun hm => (h.range 0 hm).1 rfl
  have heq : Ends (fun fuel => insertEqual lt t fuel k) (insert lt t none y k) := by
    refine ⟨B.height + 1, fun fuel hf => ?_⟩
    simp only [insertEqual, root, hdesc fuel (by omega), Run.bind_ok]
    rfl
  refine ⟨A, C, y, e1, e5, e6, ?_, ?_⟩
  · intro hA
    refine ⟨heq, ?_⟩
    cases c with
    | false =>
      have hl := e4 rfl
      refine ⟨B.height + 1, fun fuel hf => ?_⟩
      simp only [insertUnique, root, hdesc fuel (by omega), Run.bind_ok, Bool.false_eq_true, if_false]
      cases hc : lt (t.key y) k with
      | false => simp [hl, hc]
      | true => simp [hl, hc]
    | true =>
      have hc := e3 rfl
      rcases List.eq_nil_or_concat A with rfl | ⟨A, p, rfl⟩
      · have hy : t.left 0 = some y := by rw [h.first, e1]; simpa using hc
        refine ⟨B.height + 1, fun fuel hf => ?_⟩
        simp only [insertUnique, root, hdesc fuel (by omega), Run.bind_ok, if_true, hy]
        simp
      · exfalso
        rw [List.concat_eq_append] at *
        obtain ⟨C', rfl⟩ : ∃ C', C = y :: C' := by
          cases C with
          | nil => simp at hc
          | cons x C' => simp at hc; exact ⟨C', by rw [hc]⟩
        rcases neighbours t B 0 _ h.rep A p y C' (by rw [e1]; simp) with h1 | h1
        · exact h1 (hA p (by simp))
        · exact h1 (hfree.1 rfl)
  · intro p hp hr
    have hct : c = true := by
      cases c with
      | true => rfl
      | false =>
        have := e4 rfl
        rw [hp] at this
        rw [Option.some.inj this] at hr
        exact absurd (hfree.2 rfl) hr
    subst hct
    have hc := e3 rfl
    obtain ⟨C', rfl⟩ : ∃ C', C = y :: C' := by
      cases C with
      | nil => simp at hc
      | cons x C' => simp at hc; exact ⟨C', by rw [hc]⟩
    obtain ⟨A', rfl⟩ : ∃ A', A = A' ++ [p] := by
      rcases List.eq_nil_or_concat A with rfl | ⟨A', q, rfl⟩
      · simp at hp
      · rw [List.concat_eq_append] at *; simp at hp; exact ⟨A', by rw [hp]⟩
    have hy : t.left 0 ≠ some y := by
      rw [h.first, e1]
      have hnd := h.nodup
      rw [e1] at hnd
      cases A' with
      | nil =>
        intro e
        simp at e
        simp [e] at hnd
      | cons a A' =>
        intro e
        simp at e
        simp [e] at hnd
    obtain ⟨F, hF⟩ := (prev_sub t B 0 _ h.rep h.nodup h0 (A' ++ [p]) y C' (by rw [e1])).2.1 p (by simp)
    refine ⟨max (B.height + 1) F, fun fuel hf => ?_⟩
    have hF := hF fuel (by omega)
    simp only at hF
    simp only [insertUnique, root, hdesc fuel (by omega), Run.bind_ok, if_true, hy, if_false, hF]
    cases lt (t.key p) k <;> simp

/-- `insertUnique` at a node that has a right child already. -/
theorem insert_cuts (hw : StrictWeak lt) {t : T κ} {B : BT} (h : Inv lt t B) (k : κ) (A C : List Nat) (p : Nat)
    (e : B.inorder = A ++ p :: C) (hA : ∀ a ∈ A ++ [p], lt (t.key a) k = true) (hC : ∀ c ∈ C, lt k (t.key c) = true)
    (hp : t.right p ≠ none) :
    ∃ S D, C = S ++ D ∧ S ≠ [] ∧ ∀ k', Ends (fun fuel => find lt (insert lt t none p k).1 fuel k')
      ((A ++ p :: (t.n + 1) :: D).find? fun a =>
        !lt ((insert lt t none p k).1.key a) k' && !lt k' ((insert lt t none p k).1.key a)) := by
  have hpm : p ∈ B.inorder := by rw [e]; simp
  have hp0 := h.range p hpm
  have hpz : p ≠ t.n + 1 := by omega
  have hk : (create t k).key p = t.key p := by simp [create, upd_ne _ _ hpz]
  have hside : lt k (t.key p) = false := hw.asymm (hA p (by simp))
  have hroot : t.parent 0 ≠ some (t.n + 1) := by
    rw [h.rep.top]
    cases B with
    | leaf => simp [BT.top]
    | node l a r =>
      have := (h.range a (by simp [BT.inorder])).2
      simp [BT.top]; omega
  obtain ⟨t', ht'⟩ : ∃ t', (insert lt t none p k).1 = t' := ⟨_, rfl⟩
  have hkey : t'.key = upd t.key (t.n + 1) k := by rw [← ht']; exact insert_key ..
  rw [ht']
  have hlink : t'.parent 0 = t.parent 0 ∧ (∀ x ∈ B.inorder, t'.left x = t.left x) ∧
      (∀ x ∈ B.inorder, x ≠ p → t'.right x = t.right x) ∧ (∀ x ∈ B.inorder, t'.parent x = t.parent x) ∧
      t'.right p = some (t.n + 1) ∧ (t'.parent (t.n + 1) = some p ∧ t'.left (t.n + 1) = none ∧ t'.right (t.n + 1) = none) := by
    simp only [insert, hk, hside, hp0.1, Bool.false_eq_true, ne_eq, not_true_eq_false, or_self, if_false] at ht'
    subst ht'
    have hrb : ∀ s : T κ, s.parent 0 = t.parent 0 → rebalence s (t.n + 1) = s := by
      intro s hs; rw [rebalence, hs, if_neg hroot]
    have h00 : ¬ 0 = p := fun e => hp0.1 e.symm
    by_cases hf : t.right 0 = some p
    all_goals
      rw [hrb _ (by simp [linkRight, create, upd, h00, hf])]
      refine ⟨by simp [linkRight, create, upd, h00, hf], ?_, ?_, ?_, ?_, ?_, ?_, ?_⟩
      all_goals first
        | (intro x hx; have hx1 := (h.range x hx).1; have hx2 : x ≠ t.n + 1 := by (have := (h.range x hx).2; omega)
           first
             | (intro hxp; simp [linkRight, create, upd, h00, hf, hx1, hx2, hxp])
             | simp [linkRight, create, upd, h00, hf, hx1, hx2])
        | simp [linkRight, create, upd, h00, hf, hpz, hp0.1]
  obtain ⟨g1, g2, g3, g4, g5, g6⟩ := hlink
  obtain ⟨R, D, B', r1, r2, r3, r4⟩ := cut_right t t' (t.n + 1) B 0 _ h.rep h.nodup A p C e g2 g3 g4 g5 g6
  refine ⟨R.inorder, D, r2, ?_, ?_⟩
  · intro hR
    have := r1.top
    cases R with
    | leaf => exact hp this
    | node => simp [BT.inorder] at hR
  · rw [← r4]
    refine find_ends hw (by rw [g1]; exact r3) ?_
    have hz : ∀ x ∈ B.inorder, t'.key x = t.key x := fun x hx => by
      rw [hkey, upd_ne _ _ (by have := (h.range x hx).2; omega)]
    have hs := List.pairwise_map.1 h.sorted
    rw [e, r2] at hs
    rw [e, r2] at hz
    rw [r4, List.pairwise_map, show A ++ p :: (t.n + 1) :: D = (A ++ [p]) ++ (t.n + 1) :: D by simp, List.pairwise_append,
      List.pairwise_cons]
    rw [show A ++ p :: (R.inorder ++ D) = (A ++ [p]) ++ (R.inorder ++ D) by simp, List.pairwise_append] at hs
    have hsD := (List.pairwise_append.1 hs.2.1).2.1
    have hzk : t'.key (t.n + 1) = k := by rw [hkey, upd_same]
    refine ⟨?_, ⟨?_, ?_⟩, ?_⟩
    · refine hs.1.imp_of_mem ?_
      intro a b ha hb hab
      rw [hz a (by simp at ha ⊢; tauto), hz b (by simp at hb ⊢; tauto)]; exact hab
    · intro d hd
      rw [hz d (by simp [hd]), hzk]
      exact hw.asymm (hC d (by rw [r2]; simp [hd]))
    · refine hsD.imp_of_mem ?_
      intro a b ha hb hab
      rw [hz a (by simp [ha]), hz b (by simp [hb])]; exact hab
    · intro a ha b hb
      rw [hz a (by simp at ha ⊢; tauto)]
      rcases List.mem_cons.1 hb with rfl | hb
      · rw [hzk]; exact hw.asymm (hA a ha)
      · rw [hz b (by simp [hb])]; exact hs.2.2 a ha b (by simp [hb])

/-- The keys below `k`, the others. -/
def Splits (lt : κ → κ → Bool) (t : T κ) (k : κ) (L A C : List Nat) : Prop :=
  L = A ++ C ∧ (∀ a ∈ A, lt (t.key a) k = true) ∧ (∀ c ∈ C, lt k (t.key c) = true)

/-- **C69 (`insertUnique`, a key that is there).** If a node with an equal key is in the tree, the tree is left as it is and
nil is returned. -/
theorem C69_unique_present (hw : StrictWeak lt) (zero : κ) (ks : List κ) (t : T κ) (L : List Nat)
    (ht : Ends (fun fuel => insertAll lt fuel (new zero) ks) t) (hv : Visits lt t L) (k : κ)
    (hk : ∃ a ∈ L, lt (t.key a) k = false ∧ lt k (t.key a) = false) :
    Ends (fun fuel => insertUnique lt t fuel k) (t, none) := by
  obtain ⟨a, ha, hk1, hk2⟩ := hk
  have hks : ks ≠ [] := by
    rintro rfl
    obtain rfl := ht.unique (⟨0, fun _ _ => rfl⟩ : Ends (fun fuel => insertAll lt fuel (new zero) []) (new zero))
    have := hv.size
    cases L with
    | nil => simp at ha
    | cons => simp [new] at this
  obtain ⟨t', B, h1, h2, h3⟩ := insertAll_inv hw ks (new zero) .leaf (inv_new lt zero) (.inl hks)
  obtain rfl := ht.unique h1
  obtain rfl := hv.unique (h2.visits hw)
  obtain ⟨A, C, y, e1, e2, e3, e4, e5⟩ := insertUnique_cases hw h2 h3 k
  have haA : a ∈ A := by
    rw [e1] at ha
    rcases List.mem_append.1 ha with h | h
    · exact h
    · rw [e3 a h] at hk2; cases hk2
  obtain ⟨A', p, rfl⟩ : ∃ A' p, A = A' ++ [p] := by
    rcases List.eq_nil_or_concat A with rfl | ⟨A', q, rfl⟩
    · simp at haA
    · exact ⟨A', q, List.concat_eq_append⟩
  have hpk : lt (t.key p) k = false := by
    by_cases hap : a = p
    · exact hap ▸ hk1
    · have hs := List.pairwise_map.1 h2.sorted
      rw [e1, List.append_assoc, List.pairwise_append] at hs
      have : lt (t.key p) (t.key a) = false := hs.2.2 a (by simpa [hap] using haA) p (by simp)
      cases hh : lt (t.key p) k with
      | false => rfl
      | true =>
        rcases hw.negTrans _ (t.key a) _ hh with h' | h'
        · rw [this] at h'; cases h'
        · rw [hk1] at h'; cases h'
  by_cases hr : t.right p = none
  · have := (e4 (by simpa using hr)).2
    rwa [if_pos ⟨p, by simp, hpk⟩] at this
  · have := e5 p (by simp) hr
    rwa [if_pos hpk] at this

/-- **C69 (`insertUnique`, a new key between two others, false of the code).** Let `p` be the last node with a smaller key.  If
`p` has no right child (or there is no `p` at all) the result is that of `insertEqual`.  If it has one, the nodes `S` below
it are lost: there is at least one, and afterwards `Find` finds exactly the other nodes and the new one, though `Size` is
one more than before. -/
theorem C69_unique_absent_false (hw : StrictWeak lt) (zero : κ) (ks : List κ) (hks : ks ≠ []) (t : T κ) (L : List Nat)
    (ht : Ends (fun fuel => insertAll lt fuel (new zero) ks) t) (hv : Visits lt t L) (k : κ) (A C : List Nat)
    (hAC : Splits lt t k L A C) :
    ((∀ p, A.getLast? = some p → t.right p = none) →
      ∃ t' z, Ends (fun fuel => insertEqual lt t fuel k) (t', z) ∧ Ends (fun fuel => insertUnique lt t fuel k) (t', some z)) ∧
    (∀ p, A.getLast? = some p → t.right p ≠ none →
      ∃ t' S D, Ends (fun fuel => insertUnique lt t fuel k) (t', some (ks.length + 1)) ∧ C = S ++ D ∧ S ≠ [] ∧
        t'.size = L.length + 1 ∧ t'.key = upd t.key (ks.length + 1) k ∧
        ∀ k', Ends (fun fuel => find lt t' fuel k')
          ((A ++ (ks.length + 1) :: D).find? fun a => !lt (t'.key a) k' && !lt k' (t'.key a))) := by
  obtain ⟨t', B, h1, h2, h3⟩ := insertAll_inv hw ks (new zero) .leaf (inv_new lt zero) (.inl hks)
  obtain rfl := ht.unique h1
  obtain rfl := hv.unique (h2.visits hw)
  have hn : t.n = ks.length := by
    obtain ⟨F, hF⟩ := ht
    have := insertAll_n (hF F (Nat.le_refl _))
    simpa [new] using this
  obtain ⟨A1, C1, y, e1, e2, e3, e4, e5⟩ := insertUnique_cases hw h2 h3 k
  obtain ⟨a1, a2, a3⟩ := hAC
  obtain ⟨rfl, rfl⟩ : A1 = A ∧ C1 = C := by
    have hAA : B.inorder.filter (fun a => !lt k (t.key a)) = A := by
      rw [a1, List.filter_append, List.filter_eq_self.2, List.filter_eq_nil_iff.2, List.append_nil]
      · intro c hc; simp [a3 c hc]
      · intro a ha; simp [hw.asymm (a2 a ha)]
    have hAA1 : B.inorder.filter (fun a => !lt k (t.key a)) = A1 := by
      rw [e1, List.filter_append, List.filter_eq_self.2, List.filter_eq_nil_iff.2, List.append_nil]
      · intro c hc; simp [e3 c hc]
      · intro a ha; simp [e2 a ha]
    have : A1 = A := hAA1.symm.trans hAA
    subst this
    exact ⟨rfl, List.append_cancel_left (e1.symm.trans a1)⟩
  constructor
  · intro hp
    obtain ⟨g1, g2⟩ := e4 hp
    refine ⟨_, _, g1, ?_⟩
    rwa [if_neg] at g2
    rintro ⟨p, hp, hpk⟩
    rw [a2 p (List.mem_of_getLast? hp)] at hpk
    cases hpk
  · intro p hp hr
    have g := e5 p hp hr
    rw [a2 p (List.mem_of_getLast? hp), if_neg (by simp)] at g
    obtain ⟨A', rfl⟩ : ∃ A', A1 = A' ++ [p] := by
      rcases List.eq_nil_or_concat A1 with rfl | ⟨A', q, rfl⟩
      · simp at hp
      · rw [List.concat_eq_append] at *; simp at hp; exact ⟨A', by rw [hp]⟩
    obtain ⟨S, D, s1, s2, s3⟩ := insert_cuts hw h2 k A' C1 p (by rw [a1]; simp) a2 a3 hr
    rw [← hn]
    refine ⟨_, S, D, g, s1, s2, ?_, insert_key .., ?_⟩
    · rw [insert_size, h2.size]
    · simpa using s3

example : Splits natLt (demo [1, 3]) 2 [1, 2] [1] [2] ∧ (demo [1, 3]).right 1 ≠ none ∧
    Splits natLt (demo [3, 1]) 2 [2, 1] [2] [1] ∧ (demo [3, 1]).right 2 = none := by
  refine ⟨⟨rfl, ?_, ?_⟩, by decide, ⟨rfl, ?_, ?_⟩, by decide⟩ <;> decide

/-- A tree of three keys holds one of them. -/
example : ∃ t : T Nat, Ends (fun fuel => insertUnique natLt t fuel 3) (t, none) := by
  obtain ⟨t, L, ht, hv, hp, hk, -⟩ := C69_insert_partial natLt_strictWeak 0 [2, 1, 3]
  refine ⟨t, C69_unique_present natLt_strictWeak 0 [2, 1, 3] t L ht hv 3 ⟨3, ?_, ?_⟩⟩
  · exact hp.symm.subset (by decide)
  · have h3 := hk 2 (by decide)
    rw [h3]
    decide

end Verif.RBTree
