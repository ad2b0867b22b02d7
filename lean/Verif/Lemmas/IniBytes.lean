import Verif.Model.IniBytes
import Verif.Spec.IniBytes
import Mathlib.Tactic.SplitIfs
import Mathlib.Tactic.ByContra
import Mathlib.Tactic.IntervalCases
import Mathlib.Data.List.TakeWhile
/-!
# The reader and the runes behind `encoding/ini`
-/

set_option linter.unusedSectionVars false

namespace Verif.IniBytes

/-! ## The reader -/

/-- What is still to come. -/
def Rd.rest (b : Rd) : Bytes := b.buf ++ if b.err then [] else Spec.content 0 b.src

theorem fillLoop_content (space : Nat) (hs : 0 < space) (i : Nat) : ∀ (src : Source), i ≤ 100 →
    0 < i →
    Spec.content (100 - i) src = (fillLoop space i src).1 ++
      (if (fillLoop space i src).2.1 then [] else Spec.content 0 (fillLoop space i src).2.2) := by
  induction i with
  | zero => intro _ _ h; omega
  | succ i ih =>
    intro src hi _
    rw [fillLoop]
    cases src with
    | nil => simp [read, Spec.content]
    | cons p r =>
      obtain ⟨c, e⟩ := p
      by_cases hc : c.length ≤ space
      · have hr : read ((c, e) :: r) space = (c, e, r) := by simp [read, hc]
        rw [hr]
        simp only
        by_cases h0 : c = []
        · subst h0
          by_cases he : e = true
          · subst he
            simp [Spec.content]
          · simp only [Bool.not_eq_true] at he
            subst he
            simp only [Bool.false_eq_true, if_false, List.length_nil, Nat.lt_irrefl]
            by_cases h1 : i = 0
            · subst h1; simp [Spec.content, fillLoop]
            · rw [Spec.content, if_pos rfl, if_neg (by simp; omega)]
              have := ih r (by omega) (by omega)
              rw [← this]
              congr 1; omega
        · have hl : 0 < c.length := List.length_pos_iff.2 h0
          by_cases he : e = true
          · subst he
            simp [Spec.content, h0]
          · simp only [Bool.not_eq_true] at he
            subst he
            simp [Spec.content, h0, hl]
      · have hr : read ((c, e) :: r) space = (c.take space, false, (c.drop space, e) :: r) := by simp [read, hc]
        rw [hr]
        have h0 : c ≠ [] := by rintro rfl; simp at hc
        have h1 : c.drop space ≠ [] := by
          intro h; have := congrArg List.length h; simp at this; omega
        have h2 : 0 < (c.take space).length := by rw [List.length_take]; omega
        simp only [Bool.false_eq_true, if_false, h2, if_true]
        rw [Spec.content, if_neg h0, Spec.content, if_neg h1, ← List.append_assoc, List.take_append_drop]

theorem fill_rest (b : Rd) (h : b.err = false) (hl : b.buf.length < bufSize) : (fill b).rest = b.rest := by
  have := fillLoop_content (bufSize - b.buf.length) (by omega) 100 b.src (le_refl _) (by decide)
  unfold fill Rd.rest
  simp only [h]
  rw [show (100 - 100 : Nat) = 0 from rfl] at this
  simp only [Bool.false_eq_true, if_false]
  rw [this, List.append_assoc]

theorem takeWhile_split (l : Bytes) (x : UInt8) (r : Bytes) (h : l.dropWhile (· != 10) = x :: r) :
    l = l.takeWhile (· != 10) ++ 10 :: r ∧ 10 ∉ l.takeWhile (· != 10) := by
  have h1 := List.takeWhile_append_dropWhile (p := (· != 10)) (l := l)
  have h2 : x = 10 := by
    have := List.head_dropWhile_not (p := (· != (10 : UInt8))) (l := l) (by rw [h]; simp)
    simpa [h] using this
  rw [h, h2] at h1
  refine ⟨h1.symm, fun hm => ?_⟩
  simpa using List.mem_takeWhile_imp hm

theorem dropWhile_nil (l : Bytes) (h : l.dropWhile (· != 10) = []) : 10 ∉ l := by
  intro hm
  have := List.dropWhile_eq_nil_iff.1 h 10 hm
  simp at this

theorem readSlice_spec (b : Rd) (s : Nat) (hs : s ≤ b.buf.length) (hn : 10 ∉ b.buf.take s) :
    ((readSlice b s).2.1 = .found → b.rest = (readSlice b s).1 ++ (readSlice b s).2.2.rest ∧
      ∃ pre, (readSlice b s).1 = pre ++ [10] ∧ 10 ∉ pre) ∧
    ((readSlice b s).2.1 = .full → b.rest = (readSlice b s).1 ++ (readSlice b s).2.2.rest ∧ 10 ∉ (readSlice b s).1) ∧
    ((readSlice b s).2.1 = .failed → b.rest = (readSlice b s).1 ∧ 10 ∉ (readSlice b s).1) := by
  induction hm : b.measure using Nat.strongRecOn generalizing b s with
  | _ n ih =>
    have hsplit := List.take_append_drop s b.buf
    rw [readSlice]
    split
    · rename_i x rest hd
      obtain ⟨h1, h2⟩ := takeWhile_split _ _ _ hd
      simp only
      refine ⟨fun _ => ?_, by simp, by simp⟩
      have h3 : b.buf = (b.buf.take s ++ (b.buf.drop s).takeWhile (· != 10)) ++ 10 :: rest := by
        rw [List.append_assoc, ← h1, hsplit]
      have h4 : (b.buf.take s ++ (b.buf.drop s).takeWhile (· != 10)).length = s + ((b.buf.drop s).takeWhile (· != 10)).length := by
        rw [List.length_append, List.length_take, Nat.min_eq_left hs]
      have h5 : b.buf.take (s + ((b.buf.drop s).takeWhile (· != 10)).length + 1) =
          (b.buf.take s ++ (b.buf.drop s).takeWhile (· != 10)) ++ [10] := by
        rw [← h4]
        generalize (b.buf.take s ++ (b.buf.drop s).takeWhile (· != 10)) = u at h3
        rw [h3]
        simp [List.take_append, List.take_of_length_le]
      rw [h5]
      refine ⟨?_, _, rfl, ?_⟩
      · rw [Rd.rest, Rd.rest]
        conv_lhs => rw [h3]
        simp
      · rw [List.mem_append, not_or]; exact ⟨hn, h2⟩
    · rename_i hd
      have h1 : 10 ∉ b.buf := by
        rw [← hsplit, List.mem_append, not_or]; exact ⟨hn, dropWhile_nil _ hd⟩
      split
      · rename_i he
        simp [Rd.rest, he, h1]
      · rename_i he
        split
        · simp [Rd.rest, h1]
        · rename_i hf
          have he' : b.err = false := by simpa using he
          have h2 := fill_rest b he' (by omega)
          rw [← h2]
          exact ih _ (by have := (fill_size b he').1; omega) (fill b) b.buf.length (by simp [fill])
            (by simpa [fill] using h1) rfl

theorem collect_spec (b : Rd) (full : Bytes) (hf : 10 ∉ full) :
    ((collect b full).2.1 = false → full ++ b.rest = (collect b full).1 ++ (collect b full).2.2.rest ∧
      ∃ pre, (collect b full).1 = pre ++ [10] ∧ 10 ∉ pre) ∧
    ((collect b full).2.1 = true → full ++ b.rest = (collect b full).1 ∧ 10 ∉ (collect b full).1) := by
  induction hn : b.buf.length + size b.src using Nat.strongRecOn generalizing b full with
  | _ n ih =>
    have h := readSlice_spec b 0 (by simp) (by simp)
    have hz := readSlice_size b 0 (by simp)
    rw [collect]
    split
    · rename_i hr
      rw [hr] at h
      obtain ⟨h1, pre, h2, h3⟩ := h.1 rfl
      simp only at h1 h2 ⊢
      refine ⟨fun _ => ⟨by rw [h1, List.append_assoc], full ++ pre, by rw [h2, List.append_assoc], ?_⟩, by simp⟩
      rw [List.mem_append, not_or]; exact ⟨hf, h3⟩
    · rename_i hr
      rw [hr] at h
      obtain ⟨h1, h2⟩ := h.2.2 rfl
      simp only at h1 h2 ⊢
      refine ⟨by simp, fun _ => ⟨by rw [h1], ?_⟩⟩
      rw [List.mem_append, not_or]; exact ⟨hf, h2⟩
    · rename_i frag b' hr
      rw [hr] at h hz
      obtain ⟨h1, h2⟩ := h.2.1 rfl
      simp only at h1 h2
      simp at hz
      have := ih _ (by omega) b' (full ++ frag) (by rw [List.mem_append, not_or]; exact ⟨hf, h2⟩) rfl
      rw [h1, ← List.append_assoc]
      exact this

end Verif.IniBytes
