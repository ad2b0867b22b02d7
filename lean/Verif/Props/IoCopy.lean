import Verif.Model.IoCopy
import Mathlib.Data.List.Forall2
/-!
# Properties of copying to several writers (C66)
-/
set_option linter.unusedSectionVars false

namespace Verif.IoCopy

variable {S : Type}

/-- The contract of `io.Writer`, with two observations of a writer: the bytes it has accepted and the errors it has
returned.  A call accepts a prefix of the bytes, and all of them if it reports no error. -/
structure Contract (W : Write S) (got : S → List Byte) (errs : S → List Err) : Prop where
  got_eq : ∀ s p, got (W s p).1 = got s ++ p.take (W s p).2.1
  le : ∀ s p, (W s p).2.1 ≤ p.length
  full : ∀ s p, (W s p).2.2 = none → (W s p).2.1 = p.length
  errs_eq : ∀ s p, errs (W s p).1 = errs s ++ (W s p).2.2.toList

/-- The bytes of the first `n` reads. -/
def total (src : Reader) (bufLen : Nat) : Nat → List Byte
  | 0 => []
  | n + 1 => total src bufLen n ++ (src n bufLen).data

variable {W : Write S} {got : S → List Byte} {errs : S → List Err}

/-- A writer that took all of `p` without error. -/
def Took (got : S → List Byte) (errs : S → List Err) (p : List Byte) (s s' : S) : Prop :=
  got s' = got s ++ p ∧ errs s' = errs s

theorem writeAll_spec (C : Contract W got errs) (p : List Byte) (dsts : List S) (nw : Nat) :
    let r := writeAll W p dsts nw
    (r.2.2 = none → List.Forall₂ (Took got errs p) dsts r.1 ∧ (dsts ≠ [] → r.2.1 = p.length) ∧ (dsts = [] → r.2.1 = nw)) ∧
    (∀ e, r.2.2 = some e → ∃ pre s post pre' s' q, dsts = pre ++ s :: post ∧ r.1 = pre' ++ s' :: post ∧
      List.Forall₂ (Took got errs p) pre pre' ∧ q <+: p ∧ got s' = got s ++ q ∧ errs s' = errs s ++ [e]) := by
  induction dsts generalizing nw with
  | nil => simp [writeAll]
  | cons s ss ih =>
    simp only [writeAll]
    cases he : (W s p).2.2 with
    | some e =>
      simp only [Option.isSome_some, if_true, reduceCtorEq, false_imp_iff, true_and, Option.some.injEq]
      rintro e' rfl
      refine ⟨[], s, ss, [], (W s p).1, p.take (W s p).2.1, rfl, rfl, .nil, List.take_prefix _ _, C.got_eq s p, ?_⟩
      rw [C.errs_eq, he]; rfl
    | none =>
      simp only [Option.isSome_none, Bool.false_eq_true, if_false]
      have took : Took got errs p s (W s p).1 := by
        refine ⟨?_, ?_⟩
        · rw [C.got_eq, C.full s p he, List.take_length]
        · rw [C.errs_eq, he]; simp
      have := ih (W s p).2.1
      refine ⟨fun h => ?_, fun e h => ?_⟩
      · obtain ⟨h1, h2, h3⟩ := this.1 h
        refine ⟨.cons took h1, fun _ => ?_, by simp⟩
        by_cases hs : ss = []
        · rw [h3 hs, C.full s p he]
        · exact h2 hs
      · obtain ⟨pre, t, post, pre', t', q, h1, h2, h3, h4⟩ := this.2 e h
        exact ⟨s :: pre, t, post, (W s p).1 :: pre', t', q, by rw [h1]; rfl, by rw [h2]; rfl, .cons took h3, h4⟩

theorem Took.trans {p q : List Byte} {a b c : S} (h1 : Took got errs p a b) (h2 : Took got errs q b c) :
    Took got errs (p ++ q) a c := by
  refine ⟨?_, by rw [h2.2, h1.2]⟩
  rw [h2.1, h1.1, List.append_assoc]

theorem forall2_trans {α β γ : Type} {R : α → β → Prop} {Q : β → γ → Prop} {T : α → γ → Prop}
    (h : ∀ a b c, R a b → Q b c → T a c) {l1 : List α} {l2 : List β} {l3 : List γ} (h1 : List.Forall₂ R l1 l2)
    (h2 : List.Forall₂ Q l2 l3) : List.Forall₂ T l1 l3 := by
  induction h1 generalizing l3 with
  | nil => cases h2; exact .nil
  | cons r _ ih =>
    cases h2 with
    | cons q hq => exact .cons (h _ _ _ r q) (ih hq)

/-- What a caller may conclude from the result. -/
structure Outcome (got : S → List Byte) (errs : S → List Err) (src : Reader) (bufLen : Nat) (dsts dsts' : List S)
    (written : Nat) (err : Option Err) : Prop where
  /-- No error: the source was read up to its end, every writer took all of it and the count is its length. -/
  ok : err = none → ∃ n, (∀ i < n, (src i bufLen).err = none) ∧ (src n bufLen).err = some .eof ∧
    List.Forall₂ (Took got errs (total src bufLen (n + 1))) dsts dsts' ∧ written = (total src bufLen (n + 1)).length
  /-- An error: either the reader's, and then everything read before was delivered and counted; or that of one writer,
  which is returned: writers before it have taken one chunk more than those after it. -/
  fail : ∀ e, err = some e →
    (∃ n, (∀ i < n, (src i bufLen).err = none) ∧ (src n bufLen).err = some e ∧ e ≠ .eof ∧
      List.Forall₂ (Took got errs (total src bufLen (n + 1))) dsts dsts' ∧ written = (total src bufLen (n + 1)).length) ∨
    (∃ n pre s post pre' s' post' q, (∀ i < n, (src i bufLen).err = none) ∧ dsts = pre ++ s :: post ∧
      dsts' = pre' ++ s' :: post' ∧ List.Forall₂ (Took got errs (total src bufLen (n + 1))) pre pre' ∧
      List.Forall₂ (Took got errs (total src bufLen n)) post post' ∧
      q <+: (src n bufLen).data ∧ got s' = got s ++ (total src bufLen n ++ q) ∧ errs s' = errs s ++ [e] ∧
      written = (total src bufLen n).length)

theorem took_nil (l : List S) : List.Forall₂ (Took got errs []) l l := by
  induction l with
  | nil => exact .nil
  | cons a l ih => exact .cons ⟨by simp, rfl⟩ ih

theorem forall2_split {α β : Type} {R : α → β → Prop} {l1 : List α} {pre post : List β} {x : β}
    (h : List.Forall₂ R l1 (pre ++ x :: post)) : ∃ a b c, l1 = a ++ b :: c ∧ List.Forall₂ R a pre ∧ R b x ∧
      List.Forall₂ R c post := by
  induction pre generalizing l1 with
  | nil =>
    cases h with
    | cons r h => exact ⟨[], _, _, rfl, .nil, r, h⟩
  | cons y pre ih =>
    cases h with
    | cons r h =>
      obtain ⟨a, b, c, rfl, h1, h2, h3⟩ := ih h
      exact ⟨_ :: a, b, c, rfl, .cons r h1, h2, h3⟩

theorem loop_spec (C : Contract W got errs) (src : Reader) (bufLen : Nat) (dsts0 : List S) (hne : dsts0 ≠ [])
    (fuel n : Nat) (dsts : List S) (written : Nat) (hreads : ∀ i < n, (src i bufLen).err = none)
    (htook : List.Forall₂ (Took got errs (total src bufLen n)) dsts0 dsts)
    (hw : written = (total src bufLen n).length) {r : List S × Nat × Option Err}
    (h : loop W src bufLen fuel n dsts written = some r) :
    Outcome got errs src bufLen dsts0 r.1 r.2.1 r.2.2 := by
  induction fuel generalizing n dsts written with
  | zero => simp [loop] at h
  | succ fuel ih =>
    have hdne : dsts ≠ [] := by
      rintro rfl; cases htook; exact hne rfl
    -- what happens after the chunk was delivered everywhere
    have tail : ∀ dsts1 written1, List.Forall₂ (Took got errs (total src bufLen (n + 1))) dsts0 dsts1 →
        written1 = (total src bufLen (n + 1)).length →
        (if (src n bufLen).err.isSome then
          some (dsts1, written1, if (src n bufLen).err ≠ some .eof then (src n bufLen).err else none)
          else loop W src bufLen fuel (n + 1) dsts1 written1) = some r →
        Outcome got errs src bufLen dsts0 r.1 r.2.1 r.2.2 := by
      intro dsts1 written1 ht hwr heq
      cases he : (src n bufLen).err with
      | none =>
        simp only [he, Option.isSome_none, Bool.false_eq_true, if_false] at heq
        refine ih (n + 1) dsts1 written1 ?_ ht hwr heq
        intro i hi
        rcases Nat.lt_succ_iff_lt_or_eq.1 hi with h' | rfl
        · exact hreads i h'
        · exact he
      | some e =>
        simp only [he, Option.isSome_some, if_true, Option.some.injEq] at heq
        subst heq
        by_cases heof : e = .eof
        · subst heof
          simp only [ne_eq, not_true_eq_false, if_false]
          exact ⟨fun _ => ⟨n, hreads, he, ht, hwr⟩, by simp⟩
        · have : ¬(some e = some Err.eof) := by simpa using heof
          simp only [ne_eq, this, not_false_eq_true, if_true]
          refine ⟨by simp, fun e' h' => ?_⟩
          cases h'
          exact .inl ⟨n, hreads, he, heof, ht, hwr⟩
    simp only [loop] at h
    by_cases hnr : (src n bufLen).data.length > 0
    · rw [if_pos hnr] at h
      have hsp := writeAll_spec C (src n bufLen).data dsts 0
      obtain ⟨hs1, hs2⟩ := hsp
      generalize hwa : writeAll W (src n bufLen).data dsts 0 = wa at h hs1 hs2
      obtain ⟨d1, nw, ew⟩ := wa
      cases ew with
      | some e =>
        simp only [Option.isSome_some, if_true, Option.some.injEq] at h
        subst h
        obtain ⟨pre, s, post, pre', s', q, h1, h2, h3, h4, h5, h6⟩ := hs2 e rfl
        simp only at h2
        refine ⟨by simp, fun e' h' => .inr ?_⟩
        cases h'
        subst h1 h2
        obtain ⟨a, b, c, rfl, ha, hb, hc⟩ := forall2_split htook
        refine ⟨n, a, b, c, pre', s', post, q, hreads, rfl, rfl, ?_, hc, h4, ?_, ?_, hw⟩
        · exact forall2_trans (fun _ _ _ x y => x.trans y) ha h3
        · rw [h5, hb.1, List.append_assoc]
        · rw [h6, hb.2]
      | none =>
        simp only [Option.isSome_none, Bool.false_eq_true, if_false] at h
        obtain ⟨h1, h2, -⟩ := hs1 rfl
        have hnw : nw = (src n bufLen).data.length := h2 hdne
        subst hnw
        simp only [if_pos hnr, ne_eq, not_true_eq_false, if_false] at h
        refine tail d1 _ (forall2_trans (fun _ _ _ x y => x.trans y) htook h1) ?_ h
        simp [total, hw]
    · rw [if_neg hnr] at h
      have hd : (src n bufLen).data = [] := by
        cases hd : (src n bufLen).data with
        | nil => rfl
        | cons a l => simp [hd] at hnr
      refine tail dsts written ?_ ?_ h
      · simpa [total, hd] using htook
      · simpa [total, hd] using hw

theorem copysBuffer_eq (W : Write S) (src : Reader) (buf : Option Nat) (dsts : List S) (fuel : Nat) :
    copysBuffer W src buf dsts fuel = loop W src (buf.getD (32 * 1024)) fuel 0 dsts 0 := by
  cases buf <;> rfl

/-- **C66 (delivery and errors).** For every source read chunk by chunk, every buffer, every non-empty list of writers
that keep the `io.Writer` contract, however they fail: if `CopysBuffer` returns no error then the source was read up to
its end, every writer got exactly its bytes in order, no writer reported an error, and the count is their number; if it
returns an error then it is the reader's error after everything read was delivered, or the error of a writer.
Partial: `_partial` because with no writer, or a source with a `WriteTo` method and two or more writers, the property
fails (`C66_no_writers`, `C66_writerTo_feeds_first_only`). -/
theorem C66_copies_everything_partial (C : Contract W got errs) (src : Reader) (buf : Option Nat) (dsts : List S)
    (hne : dsts ≠ []) (fuel : Nat) {dsts' : List S} {written : Nat} {err : Option Err}
    (h : copysBuffer W src buf dsts fuel = some (dsts', written, err)) :
    Outcome got errs src (buf.getD (32 * 1024)) dsts dsts' written err := by
  rw [copysBuffer_eq] at h
  exact loop_spec C src _ dsts hne fuel 0 dsts 0 (by simp) (took_nil dsts) rfl h

/-- **C66 (it ends).** If some `Read` reports an error or the end, the copy returns. -/
theorem C66_terminates (W : Write S) (src : Reader) (buf : Option Nat) (dsts : List S) (n : Nat)
    (h : ((src n (buf.getD (32 * 1024))).err).isSome) : ∃ F, ∀ fuel ≥ F, (copysBuffer W src buf dsts fuel).isSome := by
  refine ⟨n + 1, fun fuel hf => ?_⟩
  rw [copysBuffer_eq]
  generalize buf.getD (32 * 1024) = bufLen at h
  suffices ∀ fuel k d w, k ≤ n → n - k < fuel → (loop W src bufLen fuel k d w).isSome from this fuel 0 dsts 0 (by omega) (by omega)
  intro fuel
  induction fuel with
  | zero => intro k d w _ h2; omega
  | succ fuel ih =>
    intro k d w h1 h2
    have step : ∀ d w, (if (src k bufLen).err.isSome then
        some (d, w, if (src k bufLen).err ≠ some .eof then (src k bufLen).err else none)
        else loop W src bufLen fuel (k + 1) d w).isSome := by
      intro d w
      by_cases he : (src k bufLen).err.isSome
      · rw [if_pos he]; rfl
      · rw [if_neg he]
        have : k ≠ n := by rintro rfl; exact he h
        exact ih (k + 1) d w (by omega) (by omega)
    simp only [loop]
    split_ifs
    all_goals first
      | rfl
      | (apply ih <;> first | omega | (have : k ≠ n := by rintro rfl; contradiction); omega)

/-- **C66 (Copys).** `Copys` reads in pieces of at most 32 KiB; it ends if some `Read` reports an error or the end, with the
outcome of a copy. -/
theorem C66_copys_partial (C : Contract W got errs) (src : Reader) (dsts : List S) (hne : dsts ≠ []) (n : Nat)
    (h : ((src n (32 * 1024)).err).isSome) :
    ∃ F, ∀ fuel ≥ F, ∃ dsts' written err, copys W src dsts fuel = some (dsts', written, err) ∧
      Outcome got errs src (32 * 1024) dsts dsts' written err := by
  obtain ⟨F, hF⟩ := C66_terminates W src none dsts n h
  refine ⟨F, fun fuel hf => ?_⟩
  obtain ⟨⟨d, w, e⟩, he⟩ := Option.isSome_iff_exists.1 (hF fuel hf)
  exact ⟨d, w, e, he, C66_copies_everything_partial C src none dsts hne fuel he⟩

/-- **C66 with no writers is false.** With no writer at all, the first non-empty read gives `ErrShortWrite`, for every
source. -/
theorem C66_no_writers (W : Write S) (src : Reader) (buf : Option Nat) (fuel : Nat)
    (h : (src 0 (buf.getD (32 * 1024))).data ≠ []) :
    copysBuffer W src buf [] (fuel + 1) = some ([], 0, some .shortWrite) := by
  rw [copysBuffer_eq]
  simp only [loop, writeAll]
  have hl : (src 0 (buf.getD (32 * 1024))).data.length > 0 := List.length_pos_iff.2 h
  rw [if_pos hl]
  have : (src 0 (buf.getD (32 * 1024))).data.length ≠ 0 := by omega
  simp [this]

/-- **C66 with `WriteTo` is false.** For every content of a source with a `WriteTo` method and any two or more working
writers, the first writer gets everything, all others get nothing, no error is reported and the count returned is 0. -/
theorem C66_writerTo_feeds_first_only (C : Contract W got errs) (hok : ∀ s p, (W s p).2.2 = none)
    (content : List Byte) (s t : S) (ss : List S) :
    ∃ s', copysWriterTo W content (s :: t :: ss) 0 = (s' :: t :: ss, 0, none) ∧ got s' = got s ++ content := by
  have hnil : ∀ (l : List S) w, ∃ w', copysWriterTo W [] l w = (l, w', none) ∧ (l ≠ [] → w' = 0) := by
    intro l
    induction l with
    | nil => intro w; exact ⟨w, rfl, by simp⟩
    | cons a l ih =>
      intro w
      obtain ⟨w', h, h'⟩ := ih 0
      refine ⟨w', by simp [copysWriterTo, writeTo, h], fun _ => ?_⟩
      by_cases hl : l = []
      · subst hl; simp [copysWriterTo] at h; exact h.symm
      · exact h' hl
  have first : ∃ s' w, writeTo W content s = ([], s', w, none) ∧ got s' = got s ++ content := by
    unfold writeTo
    by_cases hc : content.length > 0
    · have hf := C.full s content (hok s content)
      refine ⟨(W s content).1, (W s content).2.1, ?_, ?_⟩
      · rw [if_pos hc]; simp [hok s content, hf]
      · rw [C.got_eq, hf, List.take_length]
    · have : content = [] := by simpa using hc
      subst this
      exact ⟨s, 0, by simp, by simp⟩
  obtain ⟨s', w, hw, hg⟩ := first
  obtain ⟨w', h, h'⟩ := hnil (t :: ss) w
  refine ⟨s', ?_, hg⟩
  rw [copysWriterTo, hw]
  simp [h, h' (by simp)]

/-- **C66 with `WriteTo` and one writer.** The writer gets a prefix of the content; without error it gets all of it and
the count is its length. -/
theorem C66_writerTo_one_writer (C : Contract W got errs) (content : List Byte) (s : S) :
    ∃ s' n err, copysWriterTo W content [s] 0 = ([s'], n, err) ∧ got s' = got s ++ content.take n ∧
      n ≤ content.length ∧ (err = none → n = content.length) := by
  by_cases hc : content.length > 0
  · refine ⟨(W s content).1, (W s content).2.1, if (W s content).2.2.isSome then (W s content).2.2 else
      if (W s content).2.1 ≠ content.length then some .shortWrite else none, ?_, C.got_eq s content, C.le s content, ?_⟩
    · simp only [copysWriterTo, writeTo, if_pos hc]
      split_ifs <;> simp_all
    · intro h
      by_contra hne
      cases he : (W s content).2.2 with
      | none => exact hne (C.full s content he)
      | some e => simp [he] at h
  · have : content = [] := by simpa using hc
    subst this
    exact ⟨s, 0, none, by simp [copysWriterTo, writeTo], by simp, by simp, by simp⟩

/-! ## Concrete cases -/

/-- A file of limited capacity: the bytes stored, the room left, the errors returned. -/
structure Disk where
  stored : List Byte
  room : Nat
  errs : List Err
deriving DecidableEq

/-- Writing to it. -/
def Disk.write : Write Disk := fun d p =>
  if p.length ≤ d.room then (⟨d.stored ++ p, d.room - p.length, d.errs⟩, p.length, none)
  else (⟨d.stored ++ p.take d.room, 0, d.errs ++ [.other 28]⟩, d.room, some (.other 28))

theorem Disk.contract : Contract Disk.write Disk.stored Disk.errs := by
  constructor <;> intro s p <;> simp only [Disk.write] <;> split_ifs <;> simp <;> omega

/-- Three bytes, then two with the end of file. -/
def demoSrc : Reader
  | 0, _ => ⟨[1#8, 2#8, 3#8], none⟩
  | 1, _ => ⟨[4#8, 5#8], some .eof⟩
  | _, _ => ⟨[], some .eof⟩

example : copys Disk.write demoSrc [⟨[], 9, []⟩, ⟨[7#8], 9, []⟩] 5 =
    some ([⟨[1#8, 2#8, 3#8, 4#8, 5#8], 4, []⟩, ⟨[7#8, 1#8, 2#8, 3#8, 4#8, 5#8], 4, []⟩], 5, none) := by decide +kernel

example : copys Disk.write demoSrc [⟨[], 9, []⟩, ⟨[], 4, []⟩] 5 =
    some ([⟨[1#8, 2#8, 3#8, 4#8, 5#8], 4, []⟩, ⟨[1#8, 2#8, 3#8, 4#8], 0, [.other 28]⟩], 3, some (.other 28)) := by
  decide +kernel

example : copysWriterTo Disk.write [1#8, 2#8] [⟨[], 9, []⟩, ⟨[], 9, []⟩] 0 =
    ([⟨[1#8, 2#8], 7, []⟩, ⟨[], 9, []⟩], 0, none) := by decide +kernel

/-! The theorems with these writers. -/

example := C66_copys_partial Disk.contract demoSrc [⟨[], 9, []⟩, ⟨[7#8], 9, []⟩] (by simp) 1 rfl

example := C66_copies_everything_partial Disk.contract demoSrc none [⟨[], 9, []⟩, ⟨[7#8], 9, []⟩] (by simp) 5
  (dsts' := [⟨[1#8, 2#8, 3#8, 4#8, 5#8], 4, []⟩, ⟨[7#8, 1#8, 2#8, 3#8, 4#8, 5#8], 4, []⟩]) (written := 5) (err := none) (by decide +kernel)
example := C66_terminates Disk.write demoSrc (some 16) [⟨[], 9, []⟩] 1 rfl
example : copysBuffer Disk.write demoSrc none [] (4 + 1) = some ([], 0, some .shortWrite) := C66_no_writers _ _ _ 4 (by simp [demoSrc])
/-- A writer that never fails: the bytes it has got. -/
theorem ex_contract : Contract (fun (s p : List Byte) => (s ++ p, p.length, none)) id (fun _ => []) := by
  constructor <;> simp
example := C66_writerTo_feeds_first_only ex_contract (fun _ _ => rfl) [1#8, 2#8] [] [9#8] []

end Verif.IoCopy
