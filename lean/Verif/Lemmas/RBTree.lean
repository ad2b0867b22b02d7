import Verif.Model.RBTree
import Verif.Spec.Order
import Mathlib.Data.List.Nodup
import Mathlib.Data.List.Perm.Basic
/-!
# Lemmas about the tree template
-/
set_option linter.unusedSectionVars false

set_option linter.unusedSimpArgs false

namespace Verif.RBTree
open Verif.Spec

@[simp] theorem Run.bind_ok {α β : Type} (a : α) (f : α → Run β) : (Run.ok a >>= f) = f a := rfl
@[simp] theorem Run.bind_more {α β : Type} (f : α → Run β) : ((Run.more : Run α) >>= f) = .more := rfl
@[simp] theorem Run.bind_panic {α β : Type} (f : α → Run β) : ((Run.panic : Run α) >>= f) = .panic := rfl
@[simp] theorem Run.pure_eq {α : Type} (a : α) : (pure a : Run α) = .ok a := rfl

@[simp] theorem upd_same {β : Type} (f : Nat → β) (a : Nat) (b : β) : upd f a b a = b := by simp [upd]
theorem upd_ne {β : Type} (f : Nat → β) {a x : Nat} (b : β) (h : x ≠ a) : upd f a b x = f x := by simp [upd, h]

/-- The shape of a tree, with the addresses of its nodes. -/
inductive BT where
  | leaf
  | node (l : BT) (a : Nat) (r : BT)

/-- The addresses in order. -/
def BT.inorder : BT → List Nat
  | .leaf => []
  | .node l a r => l.inorder ++ a :: r.inorder

/-- The height. -/
def BT.height : BT → Nat
  | .leaf => 0
  | .node l _ r => max l.height r.height + 1

/-- The address of the root. -/
def BT.top : BT → Option Nat
  | .leaf => none
  | .node _ a _ => some a

variable {κ : Type}

/-- The nodes of the tree are linked in this shape, below the node `par`. -/
def Rep (t : T κ) (par : Nat) : BT → Option Nat → Prop
  | .leaf, p => p = none
  | .node l a r, p => p = some a ∧ t.parent a = some par ∧ Rep t a l (t.left a) ∧ Rep t a r (t.right a)

theorem Rep.top {t : T κ} {par : Nat} {B : BT} {p : Option Nat} (h : Rep t par B p) : p = B.top := by
  cases B with
  | leaf => exact h
  | node l a r => exact h.1

theorem Rep.frame {t t' : T κ} {B : BT} {par : Nat} {p : Option Nat} (h : Rep t par B p)
    (hl : ∀ a ∈ B.inorder, t'.left a = t.left a) (hr : ∀ a ∈ B.inorder, t'.right a = t.right a)
    (hp : ∀ a ∈ B.inorder, t'.parent a = t.parent a) : Rep t' par B p := by
  induction B generalizing par p with
  | leaf => exact h
  | node l a r ihl ihr =>
    obtain ⟨h1, h2, h3, h4⟩ := h
    simp only [BT.inorder, List.mem_append, List.mem_cons] at hl hr hp
    refine ⟨h1, by rw [hp a (by simp)]; exact h2, ?_, ?_⟩
    · rw [hl a (by simp)]
      exact ihl h3 (fun x hx => hl x (by simp [hx])) (fun x hx => hr x (by simp [hx])) (fun x hx => hp x (by simp [hx]))
    · rw [hr a (by simp)]
      exact ihr h4 (fun x hx => hl x (by simp [hx])) (fun x hx => hr x (by simp [hx])) (fun x hx => hp x (by simp [hx]))

/-! ## Going down -/

section down
variable (lt : κ → κ → Bool) (key : Nat → κ) (k : κ)

/-- Where a key is attached. -/
def att : BT → Nat → Bool → Nat × Bool
  | .leaf, y, c => (y, c)
  | .node l a r, _, _ => if lt k (key a) then att l a true else att r a false

/-- The shape after attaching the node `z`. -/
def ins (z : Nat) : BT → BT
  | .leaf => .node .leaf z .leaf
  | .node l a r => if lt k (key a) then .node (ins z l) a r else .node l a (ins z r)

theorem descend_eq (t : T κ) (B : BT) (par : Nat) (p : Option Nat) (h : Rep t par B p) (y : Nat) (c : Bool) (fuel : Nat)
    (hf : B.height < fuel) : descend lt t k fuel p y c = .ok (att lt t.key k B y c) := by
  induction B generalizing par p y c fuel with
  | leaf =>
    obtain ⟨f, rfl⟩ : ∃ f, fuel = f + 1 := ⟨fuel - 1, by omega⟩
    cases h
    rfl
  | node l a r ihl ihr =>
    obtain ⟨f, rfl⟩ : ∃ f, fuel = f + 1 := ⟨fuel - 1, by omega⟩
    obtain ⟨rfl, -, h3, h4⟩ := h
    simp only [BT.height] at hf
    rw [descend, att]
    cases hc : lt k (t.key a) with
    | true => simpa using ihl a _ h3 a true f (by omega)
    | false => simpa using ihr a _ h4 a false f (by omega)

/-- What attaching does to the order of the nodes. -/
theorem ins_inorder (hw : StrictWeak lt) (z : Nat) (B : BT) (y0 : Nat) (c0 : Bool) (hB : B ≠ .leaf)
    (hs : (B.inorder.map key).Pairwise fun a b => lt b a = false) :
    ∃ A C, B.inorder = A ++ C ∧ (ins lt key k z B).inorder = A ++ z :: C ∧
      ((att lt key k B y0 c0).2 = true → C.head? = some (att lt key k B y0 c0).1) ∧
      ((att lt key k B y0 c0).2 = false → A.getLast? = some (att lt key k B y0 c0).1) ∧
      (∀ a ∈ A, lt k (key a) = false) ∧ (∀ c ∈ C, lt k (key c) = true) := by
  induction B generalizing y0 c0 with
  | leaf => exact absurd rfl hB
  | node l a r ihl ihr =>
    simp only [BT.inorder, List.map_append, List.map_cons, List.pairwise_append, List.pairwise_cons, List.mem_map] at hs
    obtain ⟨hsl, ⟨har, hsr⟩, hlr⟩ := hs
    simp only [att, ins]
    cases hc : lt k (key a) with
    | true =>
      simp only [if_true]
      have hCr : ∀ c ∈ r.inorder, lt k (key c) = true := by
        intro c hcm
        rcases hw.negTrans _ (key c) _ hc with h | h
        · exact h
        · rw [har _ ⟨c, hcm, rfl⟩] at h; cases h
      cases hl : l with
      | leaf =>
        refine ⟨[], a :: r.inorder, rfl, rfl, by simp [att], by simp [att], by simp, ?_⟩
        simpa [hc] using hCr
      | node l1 a1 r1 =>
        obtain ⟨A, C, e1, e2, e3, e4, e5, e6⟩ := ihl a true (by simp [hl]) hsl
        rw [← hl]
        refine ⟨A, C ++ a :: r.inorder, by simp [BT.inorder, e1], by simp [BT.inorder, e2], ?_, e4, e5, ?_⟩
        · intro h
          have := e3 h
          rw [List.head?_append, this]; rfl
        · intro c hcm
          rcases List.mem_append.1 hcm with h | h
          · exact e6 c h
          · rcases List.mem_cons.1 h with rfl | h
            · exact hc
            · exact hCr c h
    | false =>
      simp only [Bool.false_eq_true, if_false]
      have hAl : ∀ b ∈ l.inorder, lt k (key b) = false := by
        intro b hb
        cases h : lt k (key b) with
        | false => rfl
        | true =>
          rcases hw.negTrans _ (key a) _ h with h' | h'
          · rw [hc] at h'; cases h'
          · rw [hlr _ ⟨b, hb, rfl⟩ _ (by simp)] at h'; cases h'
      cases hr : r with
      | leaf =>
        refine ⟨l.inorder ++ [a], [], by simp [BT.inorder], by simp [BT.inorder, ins], by simp [att], by simp [att], ?_, by simp⟩
        intro b hb
        rcases List.mem_append.1 hb with h | h
        · exact hAl b h
        · simp at h; subst h; exact hc
      | node l1 a1 r1 =>
        obtain ⟨A, C, e1, e2, e3, e4, e5, e6⟩ := ihr a false (by simp [hr]) hsr
        rw [← hr]
        refine ⟨l.inorder ++ a :: A, C, by simp [BT.inorder, e1], by simp [BT.inorder, e2], e3, ?_, ?_, e6⟩
        · intro h
          have := e4 h
          rw [List.getLast?_append, List.getLast?_cons, this]; rfl
        · intro b hb
          rcases List.mem_append.1 hb with h | h
          · exact hAl b h
          · rcases List.mem_cons.1 h with rfl | h
            · exact hc
            · exact e5 b h

theorem att_mem (B : BT) (y0 : Nat) (c0 : Bool) (hB : B ≠ .leaf) : (att lt key k B y0 c0).1 ∈ B.inorder := by
  induction B generalizing y0 c0 with
  | leaf => exact absurd rfl hB
  | node l a r ihl ihr =>
    simp only [att, BT.inorder, List.mem_append, List.mem_cons]
    split_ifs
    · cases l with
      | leaf => simp [att]
      | node => exact .inl (ihl a true (by simp))
    · cases r with
      | leaf => simp [att]
      | node => exact .inr (.inr (ihr a false (by simp)))

theorem att_indep (B : BT) (y0 y1 : Nat) (c0 c1 : Bool) (hB : B ≠ .leaf) : att lt key k B y0 c0 = att lt key k B y1 c1 := by
  cases B with
  | leaf => exact absurd rfl hB
  | node l a r => rfl

/-- The comparison at the attaching point is the side. -/
theorem att_side (B : BT) (y0 : Nat) (c0 : Bool) (hB : B ≠ .leaf) :
    lt k (key (att lt key k B y0 c0).1) = (att lt key k B y0 c0).2 := by
  induction B generalizing y0 c0 with
  | leaf => exact absurd rfl hB
  | node l a r ihl ihr =>
    simp only [att]
    cases hc : lt k (key a) with
    | true =>
      cases l with
      | leaf => simpa [att] using hc
      | node => simpa using ihl a true (by simp)
    | false =>
      cases r with
      | leaf => simpa [att] using hc
      | node => simpa using ihr a false (by simp)

/-- Two states that differ by one node `z` attached at `y`. -/
structure Linked (t t' : T κ) (y : Nat) (c : Bool) (z : Nat) : Prop where
  left : ∀ a, a ≠ 0 → a ≠ z → t'.left a = if a = y ∧ c = true then some z else t.left a
  right : ∀ a, a ≠ 0 → a ≠ z → t'.right a = if a = y ∧ c = false then some z else t.right a
  parent : ∀ a, a ≠ 0 → a ≠ z → t'.parent a = t.parent a
  zleft : t'.left z = none
  zright : t'.right z = none
  zparent : t'.parent z = some y

theorem rep_ins (t t' : T κ) (y : Nat) (c : Bool) (z : Nat) (hl : Linked t t' y c z) (B : BT) (par : Nat) (p : Option Nat)
    (h : Rep t par B p) (hnd : B.inorder.Nodup) (h0 : ∀ a ∈ B.inorder, a ≠ 0 ∧ a ≠ z) (y0 : Nat) (c0 : Bool)
    (hB : B ≠ .leaf) (hatt : att lt t.key k B y0 c0 = (y, c)) : Rep t' par (ins lt t.key k z B) p := by
  induction B generalizing par p y0 c0 with
  | leaf => exact absurd rfl hB
  | node l a r ihl ihr =>
    obtain ⟨rfl, hp, hL, hR⟩ := h
    have ha := h0 a (by simp [BT.inorder])
    simp only [BT.inorder, List.nodup_append, List.nodup_cons, List.mem_cons] at hnd
    obtain ⟨ndl, ⟨har, ndr⟩, hdis⟩ := hnd
    simp only [BT.inorder, List.mem_append, List.mem_cons] at h0
    simp only [att] at hatt
    have frame : ∀ (S : BT) (q : Option Nat), Rep t a S q → y ∉ S.inorder → (∀ b ∈ S.inorder, b ≠ 0 ∧ b ≠ z) → Rep t' a S q := by
      intro S q hS hy hz
      refine hS.frame ?_ ?_ ?_
      · intro b hb
        rw [hl.left b (hz b hb).1 (hz b hb).2, if_neg]
        rintro ⟨rfl, -⟩; exact hy hb
      · intro b hb
        rw [hl.right b (hz b hb).1 (hz b hb).2, if_neg]
        rintro ⟨rfl, -⟩; exact hy hb
      · intro b hb
        exact hl.parent b (hz b hb).1 (hz b hb).2
    cases hc : lt k (t.key a) with
    | true =>
      rw [hc] at hatt
      simp only [if_true] at hatt
      rw [ins, hc, if_pos rfl]
      cases hl' : l with
      | leaf =>
        subst hl'
        simp only [att, Prod.mk.injEq] at hatt
        obtain ⟨rfl, rfl⟩ := hatt
        refine ⟨rfl, by rw [hl.parent a ha.1 ha.2]; exact hp, ?_, ?_⟩
        · rw [hl.left a ha.1 ha.2, if_pos ⟨rfl, rfl⟩]
          exact ⟨rfl, hl.zparent, hl.zleft, hl.zright⟩
        · rw [hl.right a ha.1 ha.2, if_neg (by simp)]
          exact frame r _ hR har fun b hb => h0 b (by simp [hb])
      | node l1 a1 r1 =>
        rw [← hl']
        have hne : l ≠ .leaf := by simp [hl']
        have hy : y ∈ l.inorder := by have := att_mem lt t.key k l a true hne; rwa [hatt] at this
        have hya : ¬ a = y := fun e => hdis y hy a (.inl rfl) e.symm
        refine ⟨rfl, by rw [hl.parent a ha.1 ha.2]; exact hp, ?_, ?_⟩
        · rw [hl.left a ha.1 ha.2, if_neg (by simp [hya])]
          exact ihl a _ hL ndl (fun b hb => h0 b (by simp [hb])) a true hne hatt
        · rw [hl.right a ha.1 ha.2, if_neg (by simp [hya])]
          exact frame r _ hR (fun h => hdis y hy y (.inr h) rfl) fun b hb => h0 b (by simp [hb])
    | false =>
      rw [hc] at hatt
      simp only [Bool.false_eq_true, if_false] at hatt
      rw [ins, hc, if_neg (by simp)]
      cases hr' : r with
      | leaf =>
        subst hr'
        simp only [att, Prod.mk.injEq] at hatt
        obtain ⟨rfl, rfl⟩ := hatt
        refine ⟨rfl, by rw [hl.parent a ha.1 ha.2]; exact hp, ?_, ?_⟩
        · rw [hl.left a ha.1 ha.2, if_neg (by simp)]
          exact frame l _ hL (fun h => hdis a h a (.inl rfl) rfl) fun b hb => h0 b (by simp [hb])
        · rw [hl.right a ha.1 ha.2, if_pos ⟨rfl, rfl⟩]
          exact ⟨rfl, hl.zparent, hl.zleft, hl.zright⟩
      | node l1 a1 r1 =>
        rw [← hr']
        have hne : r ≠ .leaf := by simp [hr']
        have hy : y ∈ r.inorder := by have := att_mem lt t.key k r a false hne; rwa [hatt] at this
        have hya : ¬ a = y := fun e => har (e ▸ hy)
        refine ⟨rfl, by rw [hl.parent a ha.1 ha.2]; exact hp, ?_, ?_⟩
        · rw [hl.left a ha.1 ha.2, if_neg (by simp [hya])]
          exact frame l _ hL (fun h => hdis y h y (.inr hy) rfl) fun b hb => h0 b (by simp [hb])
        · rw [hl.right a ha.1 ha.2, if_neg (by simp [hya])]
          exact ihr a _ hR ndr (fun b hb => h0 b (by simp [hb])) a false hne hatt

end down

section fields
variable (lt : κ → κ → Bool) (t : T κ) (y z : Nat)
@[simp] theorem linkLeft_key : (linkLeft t y z).key = t.key := by unfold linkLeft; dsimp only; split_ifs <;> rfl
@[simp] theorem linkLeft_n : (linkLeft t y z).n = t.n := by unfold linkLeft; dsimp only; split_ifs <;> rfl
@[simp] theorem linkLeft_size : (linkLeft t y z).size = t.size := by unfold linkLeft; dsimp only; split_ifs <;> rfl
@[simp] theorem linkRight_key : (linkRight t y z).key = t.key := by unfold linkRight; dsimp only; split_ifs <;> rfl
@[simp] theorem linkRight_n : (linkRight t y z).n = t.n := by unfold linkRight; dsimp only; split_ifs <;> rfl
@[simp] theorem linkRight_size : (linkRight t y z).size = t.size := by unfold linkRight; dsimp only; split_ifs <;> rfl
@[simp] theorem rebalence_key : (rebalence t z).key = t.key := by unfold rebalence; split_ifs <;> rfl
@[simp] theorem rebalence_n : (rebalence t z).n = t.n := by unfold rebalence; split_ifs <;> rfl
@[simp] theorem rebalence_size : (rebalence t z).size = t.size := by unfold rebalence; split_ifs <;> rfl
theorem insert_key (x : Option Nat) (k : κ) : (insert lt t x y k).1.key = upd t.key (t.n + 1) k := by
  simp only [insert, rebalence_key]; split_ifs <;> simp [create]
theorem insert_n (x : Option Nat) (k : κ) : (insert lt t x y k).1.n = t.n + 1 := by
  simp only [insert, rebalence_n]; split_ifs <;> simp [create]
theorem insert_size (x : Option Nat) (k : κ) : (insert lt t x y k).1.size = t.size + 1 := by
  simp only [insert, rebalence_size]; split_ifs <;> simp [create]
end fields

theorem insert_red (t : T κ) (lt : κ → κ → Bool) (x : Option Nat) (y : Nat) (k : κ) (h : ∀ a, t.red a = true) :
    ∀ a, (insert lt t x y k).1.red a = true := by
  have h1 : ∀ a, (create t k).red a = true := by intro a; simp [create, upd, h]
  have hL : ∀ (t : T κ) y z, (linkLeft t y z).red = t.red := by
    intro t y z; unfold linkLeft; dsimp only; split_ifs <;> rfl
  have hR : ∀ (t : T κ) y z, (linkRight t y z).red = t.red := by
    intro t y z; unfold linkRight; dsimp only; split_ifs <;> rfl
  have hb : ∀ (t : T κ) z, (∀ a, t.red a = true) → ∀ a, (rebalence t z).red a = true := by
    intro t z ht a; unfold rebalence; split_ifs
    · simp [upd, ht]
    · exact ht a
  simp only [insert]
  apply hb
  intro a
  split_ifs
  · simp only [hL]; exact h1 a
  · simp only [hR]; exact h1 a

/-! ## The invariant -/

/-- The tree has shape `B`. -/
structure Inv (lt : κ → κ → Bool) (t : T κ) (B : BT) : Prop where
  rep : Rep t 0 B (t.parent 0)
  nodup : B.inorder.Nodup
  range : ∀ a ∈ B.inorder, a ≠ 0 ∧ a ≤ t.n
  first : t.left 0 = B.inorder.head?
  last : t.right 0 = B.inorder.getLast?
  sorted : (B.inorder.map t.key).Pairwise fun a b => lt b a = false
  size : t.size = B.inorder.length

theorem inv_new (lt : κ → κ → Bool) (zero : κ) : Inv lt (new zero) .leaf :=
  ⟨rfl, by simp [BT.inorder], by simp [BT.inorder], rfl, rfl, by simp [BT.inorder], rfl⟩

variable {lt : κ → κ → Bool}

theorem insert_leaf (t : T κ) (h : Inv lt t .leaf) (k : κ) :
    Inv lt (insert lt t none 0 k).1 (.node .leaf (t.n + 1) .leaf) ∧ (insert lt t none 0 k).2 = t.n + 1 ∧
    (insert lt t none 0 k).1.key = upd t.key (t.n + 1) k ∧ (insert lt t none 0 k).1.n = t.n + 1 := by
  have hs : t.size = 0 := by simpa [BT.inorder] using h.size
  refine ⟨?_, ?_, ?_, ?_⟩
  · constructor <;> simp [insert, create, linkLeft, rebalence, Rep, BT.inorder, upd, hs]
  · simp [insert]
  · exact insert_key ..
  · exact insert_n ..

theorem insert_node (hw : StrictWeak lt) (t : T κ) (B : BT) (hB : B ≠ .leaf) (h : Inv lt t B) (k : κ) :
    let y := (att lt t.key k B 0 true).1
    Inv lt (insert lt t none y k).1 (ins lt t.key k (t.n + 1) B) ∧ (insert lt t none y k).2 = t.n + 1 ∧
    (insert lt t none y k).1.key = upd t.key (t.n + 1) k ∧ (insert lt t none y k).1.n = t.n + 1 := by
  intro y
  obtain ⟨c, hatt⟩ : ∃ c, att lt t.key k B 0 true = (y, c) := ⟨_, rfl⟩
  have hy : y ∈ B.inorder := att_mem lt t.key k B 0 true hB
  have hy0 := h.range y hy
  have hside : lt k (t.key y) = c := by
    have := att_side lt t.key k B 0 true hB
    rwa [hatt] at this
  have hyz : y ≠ t.n + 1 := by omega
  have hz0 : ∀ a ∈ B.inorder, a ≠ 0 ∧ a ≠ t.n + 1 := fun a ha => ⟨(h.range a ha).1, by have := (h.range a ha).2; omega⟩
  obtain ⟨A, C, e1, e2, e3, e4, e5, e6⟩ := ins_inorder lt t.key k hw (t.n + 1) B 0 true hB h.sorted
  rw [hatt] at e3 e4
  have hroot : t.parent 0 ≠ some (t.n + 1) := by
    rw [h.rep.top]
    cases B with
    | leaf => exact absurd rfl hB
    | node l a r =>
      have := (h.range a (by simp [BT.inorder])).2
      simp [BT.top]; omega
  obtain ⟨t', ht'⟩ : ∃ t', (insert lt t none y k).1 = t' := ⟨_, rfl⟩
  rw [ht']
  have hkey : t'.key = upd t.key (t.n + 1) k := by
    rw [← ht']; exact insert_key ..
  have hn : t'.n = t.n + 1 := by
    rw [← ht']; exact insert_n ..
  have hsz : t'.size = t.size + 1 := by
    rw [← ht']; exact insert_size ..
  have hk : (create t k).key y = t.key y := by simp [create, upd_ne _ _ hyz]
  have hlink : Linked t t' y c (t.n + 1) ∧ t'.parent 0 = t.parent 0 ∧
      t'.left 0 = (if c = true ∧ t.left 0 = some y then some (t.n + 1) else t.left 0) ∧
      t'.right 0 = (if c = false ∧ t.right 0 = some y then some (t.n + 1) else t.right 0) := by
    have hy0' := hy0.1
    cases c with
    | true =>
      simp only [insert, hk, hside, or_true, if_true] at ht'
      subst ht'
      have e00 : (0 : Nat) ≠ y := fun e => hy0.1 e.symm
      by_cases hf : t.left 0 = some y
      · have hrb : ∀ s : T κ, s.parent 0 = t.parent 0 → rebalence s (t.n + 1) = s := by
          intro s hs; rw [rebalence, hs, if_neg hroot]
        rw [hrb _ (by simp [linkLeft, create, hy0', upd, hf, e00])]
        refine ⟨⟨?_, ?_, ?_, ?_, ?_, ?_⟩, ?_, ?_, ?_⟩
        all_goals first | (intro a ha haz; simp (config := { failIfUnchanged := false }) [linkLeft, create, hy0', upd, hf, e00, ha, haz]) | simp [linkLeft, create, hy0', upd, hf, e00]
      · have hrb : ∀ s : T κ, s.parent 0 = t.parent 0 → rebalence s (t.n + 1) = s := by
          intro s hs; rw [rebalence, hs, if_neg hroot]
        rw [hrb _ (by simp [linkLeft, create, hy0', upd, hf, e00])]
        refine ⟨⟨?_, ?_, ?_, ?_, ?_, ?_⟩, ?_, ?_, ?_⟩
        all_goals first | (intro a ha haz; simp (config := { failIfUnchanged := false }) [linkLeft, create, hy0', upd, hf, e00, ha, haz]) | simp [linkLeft, create, hy0', upd, hf, e00]
    | false =>
      simp only [insert, hk, hside, hy0', Bool.false_eq_true, ne_eq, not_true_eq_false, or_self, if_false] at ht'
      subst ht'
      have e00 : (0 : Nat) ≠ y := fun e => hy0.1 e.symm
      by_cases hf : t.right 0 = some y
      · have hrb : ∀ s : T κ, s.parent 0 = t.parent 0 → rebalence s (t.n + 1) = s := by
          intro s hs; rw [rebalence, hs, if_neg hroot]
        rw [hrb _ (by simp [linkRight, create, hy0', upd, hf, e00])]
        refine ⟨⟨?_, ?_, ?_, ?_, ?_, ?_⟩, ?_, ?_, ?_⟩
        all_goals first | (intro a ha haz; simp [linkRight, create, hy0', upd, hf, e00, ha, haz]) | simp [linkRight, create, hy0', upd, hf, e00]
      · have hrb : ∀ s : T κ, s.parent 0 = t.parent 0 → rebalence s (t.n + 1) = s := by
          intro s hs; rw [rebalence, hs, if_neg hroot]
        rw [hrb _ (by simp [linkRight, create, hy0', upd, hf, e00])]
        refine ⟨⟨?_, ?_, ?_, ?_, ?_, ?_⟩, ?_, ?_, ?_⟩
        all_goals first | (intro a ha haz; simp [linkRight, create, hy0', upd, hf, e00, ha, haz]) | simp [linkRight, create, hy0', upd, hf, e00]
  obtain ⟨hL, hP, hF, hLa⟩ := hlink
  have hmem : ∀ a ∈ A ++ C, a ≠ 0 ∧ a ≠ t.n + 1 := e1 ▸ hz0
  have hndAC : (A ++ C).Nodup := e1 ▸ h.nodup
  refine ⟨?_, rfl, hkey, hn⟩
  constructor
  · rw [hP]
    exact rep_ins lt k t t' y c (t.n + 1) hL B 0 _ h.rep h.nodup hz0 0 true hB hatt
  · rw [e2, List.nodup_middle]
    exact List.nodup_cons.2 ⟨fun hm => (hmem _ hm).2 rfl, hndAC⟩
  · intro a ha
    rw [e2] at ha
    rw [hn]
    simp only [List.mem_append, List.mem_cons] at ha
    rcases ha with ha | rfl | ha
    · have := h.range a (by rw [e1]; simp [ha]); exact ⟨this.1, by omega⟩
    · exact ⟨by omega, by omega⟩
    · have := h.range a (by rw [e1]; simp [ha]); exact ⟨this.1, by omega⟩
  · rw [hF, h.first, e2, e1]
    cases A with
    | nil =>
      cases c with
      | true => simp only [List.nil_append]; rw [e3 rfl]; simp
      | false => have := e4 rfl; simp at this
    | cons a A =>
      rw [if_neg]
      · simp
      · rintro ⟨hc, h'⟩
        simp only [List.cons_append, List.head?_cons, Option.some.injEq] at h'
        have := e3 hc
        obtain ⟨C', rfl⟩ : ∃ C', C = y :: C' := by
          cases C with
          | nil => simp at this
          | cons c' C' => simp at this; exact ⟨C', by rw [this]⟩
        rw [← h'] at hndAC
        simp at hndAC
  · rw [hLa, h.last, e2, e1]
    rcases List.eq_nil_or_concat C with rfl | ⟨C', x, rfl⟩
    · cases c with
      | true => have := e3 rfl; simp at this
      | false => rw [List.append_nil, e4 rfl]; simp
    · rw [List.concat_eq_append] at *
      rw [if_neg]
      · simp [List.getLast?_cons]
      · rintro ⟨hc, h'⟩
        have := e4 hc
        rw [← List.append_assoc, List.getLast?_append] at h'
        simp at h'
        subst h'
        have hyA : y ∈ A := List.mem_of_getLast? this
        rw [List.nodup_append] at hndAC
        exact hndAC.2.2 y hyA y (by simp) rfl
  · rw [hkey, e2]
    have hs := h.sorted
    rw [e1, List.map_append, List.pairwise_append] at hs
    have cA : A.map (upd t.key (t.n + 1) k) = A.map t.key :=
      List.map_congr_left fun a ha => upd_ne _ _ (hmem a (by simp [ha])).2
    have cC : C.map (upd t.key (t.n + 1) k) = C.map t.key :=
      List.map_congr_left fun a ha => upd_ne _ _ (hmem a (by simp [ha])).2
    rw [List.map_append, List.map_cons, cA, cC, upd_same, List.pairwise_append, List.pairwise_cons]
    refine ⟨hs.1, ⟨?_, hs.2.1⟩, ?_⟩
    · intro b hb
      obtain ⟨c', hc', rfl⟩ := List.mem_map.1 hb
      exact hw.asymm (e6 c' hc')
    · intro a ha b hb
      obtain ⟨a', ha', rfl⟩ := List.mem_map.1 ha
      rcases List.mem_cons.1 hb with rfl | hb
      · exact e5 a' ha'
      · exact hs.2.2 _ (List.mem_map_of_mem ha') b hb
  · rw [hsz, e2, h.size, e1]; simp; omega

/-! ## Walking -/

/-- With enough fuel the call ends with this value. -/
def Ends {α : Type} (f : Nat → Run α) (a : α) : Prop := ∃ F, ∀ fuel, F ≤ fuel → f fuel = .ok a

theorem split3 {A L R C : List Nat} {a r : Nat} (h : L ++ r :: R = A ++ a :: C) :
    (A = L ∧ a = r ∧ C = R) ∨ (∃ X, L = A ++ a :: X ∧ C = X ++ r :: R) ∨ (∃ X, A = L ++ r :: X ∧ R = X ++ a :: C) := by
  rcases List.append_eq_append_iff.1 h with ⟨X, h1, h2⟩ | ⟨X, h1, h2⟩
  · cases X with
    | nil => simp at h1 h2; exact .inl ⟨h1, h2.1.symm, h2.2.symm⟩
    | cons x X =>
      simp at h2
      obtain ⟨rfl, h2⟩ := h2
      exact .inr (.inr ⟨X, h1, h2⟩)
  · cases X with
    | nil => simp at h1 h2; exact .inl ⟨h1.symm, h2.1, h2.2⟩
    | cons x X =>
      simp at h2
      obtain ⟨rfl, h2⟩ := h2
      exact .inr (.inl ⟨X, h1, h2⟩)

theorem topLeft_ends (t : T κ) (B : BT) (par : Nat) (a m : Nat) (h : Rep t par B (some a)) (hm : B.inorder.head? = some m) :
    Ends (fun fuel => topLeft t fuel a) m := by
  induction B generalizing par a with
  | leaf => simp [BT.inorder] at hm
  | node l b r ihl _ =>
    obtain ⟨e, -, hL, -⟩ := h
    obtain rfl : a = b := by simpa using e
    cases hl : t.left a with
    | none =>
      rw [hl] at hL
      have : l = .leaf := by
        cases l with
        | leaf => rfl
        | node => exact absurd hL.1 (by simp)
      subst this
      simp [BT.inorder] at hm
      subst hm
      refine ⟨1, fun fuel hf => ?_⟩
      obtain ⟨f, rfl⟩ : ∃ f, fuel = f + 1 := ⟨fuel - 1, by omega⟩
      simp [topLeft, hl]
    | some x =>
      rw [hl] at hL
      have hm' : l.inorder.head? = some m := by
        cases l with
        | leaf => exact absurd hL (by simp [Rep])
        | node l1 b1 r1 =>
          simp only [BT.inorder] at hm ⊢
          rw [List.append_assoc, List.head?_append] at hm
          rw [List.head?_append]
          simpa using hm
      obtain ⟨F, hF⟩ := ihl a x hL hm'
      refine ⟨F + 1, fun fuel hf => ?_⟩
      obtain ⟨f, rfl⟩ : ∃ f, fuel = f + 1 := ⟨fuel - 1, by omega⟩
      simp only [topLeft, hl]
      exact hF f (by omega)

theorem topRight_ends (t : T κ) (B : BT) (par : Nat) (a m : Nat) (h : Rep t par B (some a))
    (hm : B.inorder.getLast? = some m) : Ends (fun fuel => topRight t fuel a) m := by
  induction B generalizing par a with
  | leaf => simp [BT.inorder] at hm
  | node l b r _ ihr =>
    obtain ⟨e, -, -, hR⟩ := h
    obtain rfl : a = b := by simpa using e
    cases hl : t.right a with
    | none =>
      rw [hl] at hR
      have : r = .leaf := by
        cases r with
        | leaf => rfl
        | node => exact absurd hR.1 (by simp)
      subst this
      simp [BT.inorder] at hm
      subst hm
      refine ⟨1, fun fuel hf => ?_⟩
      obtain ⟨f, rfl⟩ : ∃ f, fuel = f + 1 := ⟨fuel - 1, by omega⟩
      simp [topRight, hl]
    | some x =>
      rw [hl] at hR
      have hm' : r.inorder.getLast? = some m := by
        cases r with
        | leaf => exact absurd hR (by simp [Rep])
        | node l1 b1 r1 =>
          simp only [BT.inorder] at hm ⊢
          rw [List.getLast?_append, List.getLast?_cons, List.getLast?_append, List.getLast?_cons] at hm
          rw [List.getLast?_append, List.getLast?_cons]
          simpa using hm
      obtain ⟨F, hF⟩ := ihr a x hR hm'
      refine ⟨F + 1, fun fuel hf => ?_⟩
      obtain ⟨f, rfl⟩ : ∃ f, fuel = f + 1 := ⟨fuel - 1, by omega⟩
      simp only [topRight, hl]
      exact hF f (by omega)

theorem Rep.right_mem {t : T κ} {B : BT} {par : Nat} {p : Option Nat} (h : Rep t par B p) {a x : Nat} (ha : a ∈ B.inorder)
    (hx : t.right a = some x ∨ t.left a = some x) : x ∈ B.inorder := by
  induction B generalizing par p with
  | leaf => simp [BT.inorder] at ha
  | node l b r ihl ihr =>
    obtain ⟨-, -, hL, hR⟩ := h
    simp only [BT.inorder, List.mem_append, List.mem_cons] at ha ⊢
    rcases ha with ha | rfl | ha
    · exact .inl (ihl hL ha)
    · rcases hx with hx | hx
      · rw [hx] at hR
        cases r with
        | leaf => exact absurd hR (by simp [Rep])
        | node l1 b1 r1 => right; right; cases hR.1; simp [BT.inorder]
      · rw [hx] at hL
        cases l with
        | leaf => exact absurd hL (by simp [Rep])
        | node l1 b1 r1 => left; cases hL.1; simp [BT.inorder]
    · exact .inr (.inr (ihr hR ha))

/-- The steps of `next` inside a subtree. -/
theorem next_sub (t : T κ) (B : BT) (par : Nat) (p : Option Nat) (h : Rep t par B p) (hnd : B.inorder.Nodup)
    (A : List Nat) (a : Nat) (C : List Nat) (e : B.inorder = A ++ a :: C) :
    (∀ b, C.head? = some b → Ends (fun fuel => next t fuel a) (some b)) ∧
    (C = [] → t.right a = none ∧ ∃ top d, B.top = some top ∧
      ∀ fuel, climbRight t (fuel + d) a (t.parent a) = climbRight t fuel top (some par)) := by
  induction B generalizing par p A a C with
  | leaf => simp [BT.inorder] at e
  | node l r0 r ihl ihr =>
    obtain ⟨rfl, hp, hL, hR⟩ := h
    have hnd' := hnd
    simp only [BT.inorder, List.nodup_append, List.nodup_cons, List.mem_cons] at hnd
    obtain ⟨ndl, ⟨hr0, ndr⟩, hdis⟩ := hnd
    simp only [BT.inorder] at e
    rcases split3 e with ⟨rfl, rfl, rfl⟩ | ⟨X, e1, rfl⟩ | ⟨X, rfl, e2⟩
    · constructor
      · intro b hb
        cases hr : t.right a with
        | none =>
          rw [hr] at hR
          cases r with
          | leaf => simp [BT.inorder] at hb
          | node => exact absurd hR.1 (by simp)
        | some x =>
          rw [hr] at hR
          obtain ⟨F, hF⟩ := topLeft_ends t r a x b hR hb
          refine ⟨F, fun fuel hf => ?_⟩
          have := hF fuel hf
          simp only at this
          simp [next, hr, this]
      · intro hC
        have : r = .leaf := by cases r with
          | leaf => rfl
          | node => simp [BT.inorder] at hC
        subst this
        exact ⟨hR, a, 0, rfl, fun fuel => by rw [hp]; rfl⟩
    · have ih := ihl r0 _ hL ndl A a X e1
      refine ⟨?_, by simp⟩
      intro b hb
      cases X with
      | cons x X =>
        simp at hb
        subst hb
        exact ih.1 x rfl
      | nil =>
        simp at hb
        subst hb
        obtain ⟨h1, top, d, h2, h3⟩ := ih.2 rfl
        have htop : top ∈ l.inorder := by
          cases l with
          | leaf => simp [BT.top] at h2
          | node => simp [BT.top] at h2; subst h2; simp [BT.inorder]
        have hne : t.right r0 ≠ some top := by
          intro e
          rw [e] at hR
          have : top ∈ r.inorder := by
            cases r with
            | leaf => exact absurd hR (by simp [Rep])
            | node => cases hR.1; simp [BT.inorder]
          exact hdis top htop top (.inr this) rfl
        have hne2 : t.right top ≠ some r0 := fun e =>
          hdis r0 (hL.right_mem htop (.inl e)) r0 (.inl rfl) rfl
        refine ⟨d + 1, fun fuel hf => ?_⟩
        obtain ⟨f, rfl⟩ : ∃ f, fuel = f + 1 + d := ⟨fuel - 1 - d, by omega⟩
        simp only [next, h1, h3]
        simp [climbRight, hne, hne2]
    · have ih := ihr r0 _ hR ndr X a C e2
      refine ⟨ih.1, fun hC => ?_⟩
      obtain ⟨h1, top, d, h2, h3⟩ := ih.2 hC
      refine ⟨h1, r0, d + 1, rfl, fun fuel => ?_⟩
      have ht : t.right r0 = some top := by rw [hR.top, h2]
      have := h3 (fuel + 1)
      rw [show fuel + (d + 1) = fuel + 1 + d by omega, this]
      simp [climbRight, ht, hp]

/-- The steps of `prev` inside a subtree. -/
theorem prev_sub (t : T κ) (B : BT) (par : Nat) (p : Option Nat) (h : Rep t par B p) (hnd : B.inorder.Nodup)
    (hpar : par ∉ B.inorder) (A : List Nat) (a : Nat) (C : List Nat) (e : B.inorder = A ++ a :: C) :
    t.parent a ≠ some a ∧
    (∀ b, A.getLast? = some b → Ends (fun fuel => prev t fuel a) (some b)) ∧
    (A = [] → t.left a = none ∧ ∃ top d, B.top = some top ∧
      ∀ fuel, climbLeft t (fuel + d) a (t.parent a) = climbLeft t fuel top (some par)) := by
  induction B generalizing par p A a C with
  | leaf => simp [BT.inorder] at e
  | node l r0 r ihl ihr =>
    obtain ⟨rfl, hp, hL, hR⟩ := h
    simp only [BT.inorder, List.nodup_append, List.nodup_cons, List.mem_cons] at hnd
    obtain ⟨ndl, ⟨hr0, ndr⟩, hdis⟩ := hnd
    simp only [BT.inorder, List.mem_append, List.mem_cons, not_or] at hpar
    simp only [BT.inorder] at e
    have hr0l : r0 ∉ l.inorder := fun h => hdis r0 h r0 (.inl rfl) rfl
    rcases split3 e with ⟨rfl, rfl, rfl⟩ | ⟨X, e1, rfl⟩ | ⟨X, rfl, e2⟩
    · refine ⟨by rw [hp]; simpa using hpar.2.1, ?_, ?_⟩
      · intro b hb
        cases hr : t.left a with
        | none =>
          rw [hr] at hL
          cases l with
          | leaf => simp [BT.inorder] at hb
          | node => exact absurd hL.1 (by simp)
        | some x =>
          rw [hr] at hL
          obtain ⟨F, hF⟩ := topRight_ends t l a x b hL hb
          refine ⟨F, fun fuel hf => ?_⟩
          have := hF fuel hf
          simp only at this
          have hpa : t.parent a ≠ some a := by rw [hp]; simpa using hpar.2.1
          simp [prev, hr, this, hpa]
      · intro hC
        have : l = .leaf := by cases l with
          | leaf => rfl
          | node => simp [BT.inorder] at hC
        subst this
        exact ⟨hL, a, 0, rfl, fun fuel => by rw [hp]; rfl⟩
    · have ih := ihl r0 _ hL ndl hr0l A a X e1
      refine ⟨ih.1, ih.2.1, fun hA => ?_⟩
      obtain ⟨h1, top, d, h2, h3⟩ := ih.2.2 hA
      refine ⟨h1, r0, d + 1, rfl, fun fuel => ?_⟩
      have ht : t.left r0 = some top := by rw [hL.top, h2]
      have := h3 (fuel + 1)
      rw [show fuel + (d + 1) = fuel + 1 + d by omega, this]
      simp [climbLeft, ht, hp]
    · have ih := ihr r0 _ hR ndr hr0 X a C e2
      refine ⟨ih.1, ?_, by simp⟩
      intro b hb
      rcases List.eq_nil_or_concat X with rfl | ⟨X', x, rfl⟩
      · simp at hb
        subst hb
        obtain ⟨h1, top, d, h2, h3⟩ := ih.2.2 rfl
        have htop : top ∈ r.inorder := by
          cases r with
          | leaf => simp [BT.top] at h2
          | node => simp [BT.top] at h2; subst h2; simp [BT.inorder]
        have hne : t.left r0 ≠ some top := by
          intro e
          rw [e] at hL
          have : top ∈ l.inorder := by
            cases l with
            | leaf => exact absurd hL (by simp [Rep])
            | node => cases hL.1; simp [BT.inorder]
          exact hdis top this top (.inr htop) rfl
        refine ⟨d + 1, fun fuel hf => ?_⟩
        obtain ⟨f, rfl⟩ : ∃ f, fuel = f + 1 + d := ⟨fuel - 1 - d, by omega⟩
        simp only [prev, h1, h3]
        simp [climbLeft, hne, ih.1]
      · rw [List.concat_eq_append] at *
        have : (X' ++ [x]).getLast? = some b := by
          rw [List.getLast?_append, List.getLast?_cons] at hb
          simpa using hb
        exact ih.2.1 b this

/-- The loop of `Find` finds the first node that is not less. -/
theorem findLoop_ends (hw : StrictWeak lt) (t : T κ) (k : κ) (B : BT) (par : Nat) (p : Option Nat) (h : Rep t par B p)
    (hs : (B.inorder.map t.key).Pairwise fun a b => lt b a = false) (y : Option Nat) :
    Ends (fun fuel => findLoop lt t k fuel p y)
      (match B.inorder.find? fun a => !lt (t.key a) k with | some a => some a | none => y) := by
  induction B generalizing par p y with
  | leaf =>
    cases h
    refine ⟨1, fun fuel hf => ?_⟩
    obtain ⟨f, rfl⟩ : ∃ f, fuel = f + 1 := ⟨fuel - 1, by omega⟩
    rfl
  | node l a r ihl ihr =>
    obtain ⟨rfl, -, hL, hR⟩ := h
    simp only [BT.inorder, List.map_append, List.map_cons, List.pairwise_append, List.pairwise_cons, List.mem_map] at hs
    obtain ⟨hsl, ⟨har, hsr⟩, hlr⟩ := hs
    cases hc : lt (t.key a) k with
    | false =>
      obtain ⟨F, hF⟩ := ihl a _ hL hsl (some a)
      refine ⟨F + 1, fun fuel hf => ?_⟩
      obtain ⟨f, rfl⟩ : ∃ f, fuel = f + 1 := ⟨fuel - 1, by omega⟩
      have := hF f (by omega)
      simp only at this
      simp only [findLoop, hc, Bool.not_false, if_true, this, BT.inorder, List.find?_append]
      cases l.inorder.find? fun a => !lt (t.key a) k with
      | some x => rfl
      | none => simp [hc]
    | true =>
      obtain ⟨F, hF⟩ := ihr a _ hR hsr y
      refine ⟨F + 1, fun fuel hf => ?_⟩
      obtain ⟨f, rfl⟩ : ∃ f, fuel = f + 1 := ⟨fuel - 1, by omega⟩
      have := hF f (by omega)
      simp only at this
      have hl : (l.inorder.find? fun a => !lt (t.key a) k) = none := by
        rw [List.find?_eq_none]
        intro b hb
        simp only [Bool.not_eq_true', Bool.not_eq_false]
        rcases hw.negTrans _ (t.key b) _ hc with h' | h'
        · rw [hlr _ ⟨b, hb, rfl⟩ _ (by simp)] at h'; cases h'
        · exact h'
      simp only [findLoop, hc, Bool.not_true, Bool.false_eq_true, if_false, this, BT.inorder, List.find?_append, hl]
      simp [hc]

end Verif.RBTree
