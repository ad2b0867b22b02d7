import Verif.Model.SList
import Verif.Spec.SListWorld
import Mathlib.Data.List.Nodup
/-!
# Chains in memory for the singly linked list
-/

set_option linter.unusedSectionVars false

namespace Verif.SList
open Verif.Spec
variable {α : Type}

/-- Following `next` from the pointer `p` visits the nodes `l` and then reaches the pointer `q`. -/
def Seg (h : Mem α) : Ptr → List Nat → Ptr → Prop
  | p, [], q => p = q
  | p, a :: t, q => p = some (.nd a) ∧ Seg h (h (.nd a)).next t q

instance Seg.dec (h : Mem α) : ∀ p l q, Decidable (Seg h p l q)
  | p, [], q => inferInstanceAs (Decidable (p = q))
  | _, a :: t, q => @instDecidableAnd _ _ _ (Seg.dec h (h (.nd a)).next t q)

theorem Seg.append {h : Mem α} {A B : List Nat} {p q : Ptr} :
    Seg h p (A ++ B) q ↔ ∃ r, Seg h p A r ∧ Seg h r B q := by
  induction A generalizing p with
  | nil => simp [Seg]
  | cons a t ih => simp [Seg, ih, and_assoc]

theorem Seg.frame {h h' : Mem α} {l : List Nat} {p q : Ptr} (hs : Seg h p l q)
    (hf : ∀ x ∈ l, (h' (.nd x)).next = (h (.nd x)).next) : Seg h' p l q := by
  induction l generalizing p with
  | nil => exact hs
  | cons a t ih =>
    refine ⟨hs.1, ?_⟩
    rw [hf a (by simp)]
    exact ih hs.2 (fun x hx => hf x (by simp [hx]))

theorem Seg.det {h : Mem α} {l l' : List Nat} {p : Ptr} (h1 : Seg h p l none) (h2 : Seg h p l' none) :
    l = l' := by
  induction l generalizing p l' with
  | nil =>
    cases l' with
    | nil => rfl
    | cons b t => have := h1.symm.trans h2.1; cases this
  | cons a t ih =>
    cases l' with
    | nil => have := h2.symm.trans h1.1; cases this
    | cons b t' =>
      have := h1.1.symm.trans h2.1
      simp at this; subst this
      rw [ih h1.2 h2.2]

theorem Seg.head? {h : Mem α} {l : List Nat} {p : Ptr} (hs : Seg h p l none) : p = l.head?.map .nd := by
  cases l with
  | nil => exact hs
  | cons a t => exact hs.1

/-- The last node of `l`, or `b` when there is none. -/
def lastOr (b : Addr) : List Nat → Addr
  | [] => b
  | a :: t => lastOr (.nd a) t

theorem lastOr_cases (b : Addr) (l : List Nat) : lastOr b l = b ∧ l = [] ∨ ∃ x ∈ l, lastOr b l = .nd x := by
  induction l generalizing b with
  | nil => exact .inl ⟨rfl, rfl⟩
  | cons a t ih =>
    right
    rcases ih (.nd a) with ⟨h, _⟩ | ⟨x, hx, h⟩
    · exact ⟨a, by simp, h⟩
    · exact ⟨x, by simp [hx], h⟩

theorem lastOr_append (b : Addr) (l : List Nat) (x : Nat) : lastOr b (l ++ [x]) = .nd x := by
  induction l generalizing b with
  | nil => rfl
  | cons a t ih => exact ih _

theorem lastOr_notMem {b : Addr} {l : List Nat} {x : Nat} (hb : b ≠ .nd x) (hx : x ∉ l) :
    lastOr b l ≠ .nd x := by
  rcases lastOr_cases b l with ⟨h, _⟩ | ⟨y, hy, h⟩
  · rwa [h]
  · rw [h]; intro e; cases e; exact hx hy

@[simp] theorem setNext_self (h : Mem α) (a : Addr) (q : Ptr) : (setNext h a q a).next = q := by
  simp [setNext]
@[simp] theorem setNext_val (h : Mem α) (a x : Addr) (q : Ptr) : (setNext h a q x).val = (h x).val := by
  simp only [setNext]; split
  · rename_i e; subst e; rfl
  · rfl
theorem setNext_ne (h : Mem α) (a x : Addr) (q : Ptr) (hx : x ≠ a) : setNext h a q x = h x := by
  simp [setNext, hx]

/-- Redirecting the end of a segment. -/
theorem Seg.retarget {h : Mem α} {b : Addr} {A : List Nat} {r : Ptr} (q : Ptr) (hs : Seg h (h b).next A r)
    (hb : ∀ x ∈ A, b ≠ .nd x) (hnd : A.Nodup) :
    Seg (setNext h (lastOr b A) q) ((setNext h (lastOr b A) q) b).next A q := by
  induction A generalizing b with
  | nil => simp [lastOr, Seg]
  | cons a t ih =>
    obtain ⟨h1, h2⟩ := hs
    rw [List.nodup_cons] at hnd
    have h3 := ih h2 (fun x hx e => hnd.1 (by cases e; exact hx)) hnd.2
    refine ⟨?_, h3⟩
    rw [setNext_ne, h1]
    rcases lastOr_cases (.nd a) t with ⟨e, _⟩ | ⟨y, hy, e⟩
    · simp only [lastOr]; rw [e]; exact hb a (by simp)
    · simp only [lastOr]; rw [e]; exact hb y (by simp [hy])

/-- The pointer at the end of a segment. -/
theorem Seg.last {h : Mem α} {b : Addr} {A : List Nat} {r : Ptr} (hs : Seg h (h b).next A r) :
    (h (lastOr b A)).next = r := by
  induction A generalizing b with
  | nil => exact hs
  | cons a t ih => exact ih hs.2

theorem scanRemove_found {h : Mem α} {x : Nat} {B : List Nat} : ∀ (A : List Nat) (b : Addr) (fuel : Nat),
    Seg h (h b).next (A ++ x :: B) none → x ∉ A → A.length < fuel →
    scanRemove fuel h b (.nd x) = some (some (lastOr b A)) := by
  intro A
  induction A with
  | nil =>
    intro b fuel hs _ hf
    obtain ⟨f, rfl⟩ : ∃ f, fuel = f + 1 := ⟨fuel - 1, by simp at hf; omega⟩
    have := hs.1
    simp [scanRemove, this, lastOr]
  | cons a t ih =>
    intro b fuel hs hx hf
    obtain ⟨f, rfl⟩ : ∃ f, fuel = f + 1 := ⟨fuel - 1, by simp at hf; omega⟩
    simp only [List.mem_cons, not_or] at hx
    simp only [scanRemove, hs.1]
    rw [if_neg (by intro e; cases e; exact hx.1 rfl)]
    exact ih (.nd a) f hs.2 hx.2 (by simp at hf; omega)

theorem scanRemove_absent {h : Mem α} {x : Nat} : ∀ (A : List Nat) (b : Addr) (fuel : Nat),
    Seg h (h b).next A none → x ∉ A → A.length < fuel → scanRemove fuel h b (.nd x) = some none := by
  intro A
  induction A with
  | nil =>
    intro b fuel hs _ hf
    obtain ⟨f, rfl⟩ : ∃ f, fuel = f + 1 := ⟨fuel - 1, by simp at hf; omega⟩
    have : (h b).next = none := hs
    simp [scanRemove, this]
  | cons a t ih =>
    intro b fuel hs hx hf
    obtain ⟨f, rfl⟩ : ∃ f, fuel = f + 1 := ⟨fuel - 1, by simp at hf; omega⟩
    simp only [List.mem_cons, not_or] at hx
    simp only [scanRemove, hs.1]
    rw [if_neg (by intro e; cases e; exact hx.1 rfl)]
    exact ih (.nd a) f hs.2 hx.2 (by simp at hf; omega)

theorem scanMove_found {h : Mem α} {x : Nat} {B : List Nat} : ∀ (A : List Nat) (b : Addr) (fuel : Nat),
    Seg h (h b).next (A ++ x :: B) none → x ∉ A → A.length < fuel →
    scanMove fuel h (some b) (.nd x) = some (some (lastOr b A)) := by
  intro A
  induction A with
  | nil =>
    intro b fuel hs _ hf
    obtain ⟨f, rfl⟩ : ∃ f, fuel = f + 1 := ⟨fuel - 1, by simp at hf; omega⟩
    have := hs.1
    simp [scanMove, this, lastOr]
  | cons a t ih =>
    intro b fuel hs hx hf
    obtain ⟨f, rfl⟩ : ∃ f, fuel = f + 1 := ⟨fuel - 1, by simp at hf; omega⟩
    simp only [List.mem_cons, not_or] at hx
    simp only [scanMove, hs.1]
    rw [if_neg (by intro e; cases e; exact hx.1 rfl)]
    exact ih (.nd a) f hs.2 hx.2 (by simp at hf; omega)

theorem scanMove_absent {h : Mem α} {x : Nat} : ∀ (A : List Nat) (b : Addr) (fuel : Nat),
    Seg h (h b).next A none → x ∉ A → A.length + 1 < fuel → scanMove fuel h (some b) (.nd x) = some none := by
  intro A
  induction A with
  | nil =>
    intro b fuel hs _ hf
    obtain ⟨f, rfl⟩ : ∃ f, fuel = f + 2 := ⟨fuel - 2, by simp at hf; omega⟩
    have : (h b).next = none := hs
    simp [scanMove, this]
  | cons a t ih =>
    intro b fuel hs hx hf
    obtain ⟨f, rfl⟩ : ∃ f, fuel = f + 1 := ⟨fuel - 1, by simp at hf; omega⟩
    simp only [List.mem_cons, not_or] at hx
    simp only [scanMove, hs.1]
    rw [if_neg (by intro e; cases e; exact hx.1 rfl)]
    exact ih (.nd a) f hs.2 hx.2 (by simp at hf; omega)

theorem tailLoop_ok {h : Mem α} : ∀ (A : List Nat) (b : Addr) (fuel n : Nat),
    Seg h (h b).next A none → A.length < fuel → tailLoop fuel h b n = some (lastOr b A, n + A.length) := by
  intro A
  induction A with
  | nil =>
    intro b fuel n hs hf
    obtain ⟨f, rfl⟩ : ∃ f, fuel = f + 1 := ⟨fuel - 1, by simp at hf; omega⟩
    have : (h b).next = none := hs
    simp [tailLoop, this, lastOr]
  | cons a t ih =>
    intro b fuel n hs hf
    obtain ⟨f, rfl⟩ : ∃ f, fuel = f + 1 := ⟨fuel - 1, by simp at hf; omega⟩
    simp only [tailLoop, hs.1]
    rw [ih (.nd a) f (n + 1) hs.2 (by simp at hf; omega)]
    simp [lastOr]; omega

theorem reverseLoop_ok {l : Nat} : ∀ (A B : List Nat) (h : Mem α) (p : Ptr) (fuel : Nat),
    Seg h p A none → Seg h (h (.hd l)).next B none → (A ++ B).Nodup → A.length < fuel →
    ∃ h', reverseLoop fuel h l p = some h' ∧ Seg h' (h' (.hd l)).next (A.reverse ++ B) none ∧
      (∀ x, (h' x).val = (h x).val) ∧ ∀ x, x ≠ .hd l → (∀ a ∈ A, x ≠ .nd a) → h' x = h x := by
  intro A
  induction A with
  | nil =>
    intro B h p fuel hs hb _ hf
    obtain ⟨f, rfl⟩ : ∃ f, fuel = f + 1 := ⟨fuel - 1, by simp at hf; omega⟩
    have : p = none := hs
    subst this
    exact ⟨h, rfl, hb, fun _ => rfl, fun _ _ _ => rfl⟩
  | cons a t ih =>
    intro B h p fuel hs hb hnd hf
    obtain ⟨f, rfl⟩ : ∃ f, fuel = f + 1 := ⟨fuel - 1, by simp at hf; omega⟩
    obtain ⟨rfl, hs⟩ := hs
    simp only [List.cons_append, List.nodup_cons, List.mem_append, not_or] at hnd
    simp only [reverseLoop, insertFront, insertAfter, ne_eq, reduceCtorEq, not_false_eq_true, if_true]
    have hat : a ∉ t := hnd.1.1
    have haB : a ∉ B := hnd.1.2
    obtain ⟨h', e1, e2, e3, e4⟩ := ih (a :: B)
      (setNext (setNext h (.nd a) (h (.hd l)).next) (.hd l) (some (.nd a))) (h (.nd a)).next f
      (hs.frame (fun x hx => by
        rw [setNext_ne _ _ _ _ (by simp), setNext_ne _ _ _ _ (by intro e; cases e; exact hat hx)]))
      ⟨by simp, by
        rw [setNext_ne _ _ _ _ (by simp), setNext_self]
        exact hb.frame (fun x hx => by
          rw [setNext_ne _ _ _ _ (by simp), setNext_ne _ _ _ _ (by intro e; cases e; exact haB hx)])⟩
      (by
        have := hnd.2
        rw [List.nodup_middle]
        simp [hat, haB, this]) (by simp at hf; omega)
    refine ⟨h', e1, ?_, ?_, ?_⟩
    · simpa using e2
    · intro x; rw [e3]; simp
    · intro x hx hxa
      rw [e4 x hx (fun y hy => hxa y (by simp [hy])), setNext_ne _ _ _ _ hx,
        setNext_ne _ _ _ _ (hxa a (by simp))]

end Verif.SList
