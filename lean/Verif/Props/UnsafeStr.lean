import Verif.Model.UnsafeStr

/-!
# C96: strings and bytes without a copy
-/

set_option linter.unusedSectionVars false

namespace Verif.Unsafe

/-! ## Facts about memory -/

theorem Str.length_val (m : Mem) (s : Str) : (s.val m).length = s.len := by simp [Str.val]

theorem Str.getElem?_val (m : Mem) (s : Str) (i : Nat) :
    (s.val m)[i]? = if i < s.len then some (m.at_ (s.data + i)) else none := by
  unfold Str.val
  rw [List.getElem?_map]
  by_cases h : i < s.len
  · rw [List.getElem?_range h, if_pos h]; rfl
  · rw [List.getElem?_eq_none (by simpa using h), if_neg h]; rfl

theorem Bytes.getElem?_val (m : Mem) (b : Bytes) (i : Nat) :
    (b.val m)[i]? = if i < b.len then some (m.at_ (b.data + i)) else none :=
  Str.getElem?_val m ⟨b.data, b.len⟩ i

theorem write_at_one (m : Mem) (a : Nat) (v : UInt8) (x : Nat) :
    (m.write a [v]).at_ x = if x = a then v else m.at_ x := by
  unfold Mem.write
  by_cases h : x < a
  · simp [h, show x ≠ a by omega]
  · by_cases e : x = a
    · subst e; simp
    · have : ∃ k, x - a = k + 1 := ⟨x - a - 1, by omega⟩
      obtain ⟨k, hk⟩ := this
      simp [h, hk, e]

theorem write_at_below (m : Mem) (a : Nat) (vs : List UInt8) (x : Nat) (h : x < a) : (m.write a vs).at_ x = m.at_ x := by
  simp [Mem.write, h]

/-! ## C96 -/

/-- **C96** The bytes of a string and the string of a byte slice have the content of the original, now and after anything
that happens to the memory later; nothing is copied and going back and forth gives the same string. -/
theorem C96_same_memory (s : Str) (b : Bytes) :
    (∀ m : Mem, (stringBytes s).val m = s.val m) ∧ (∀ m : Mem, (bytesString b).val m = b.val m) ∧
    bytesString (stringBytes s) = s ∧
    (stringBytes (bytesString b)).data = b.data ∧ (stringBytes (bytesString b)).len = b.len :=
  ⟨fun _ => rfl, fun _ => rfl, rfl, rfl, rfl⟩

/-- **C96** The pointers are the address of the first byte, the same for the string and for the bytes. -/
theorem C96_pointers (m : Mem) (s : Str) (b : Bytes) :
    (0 < s.len → (s.val m)[0]? = some (m.at_ (stringPointer s))) ∧
    (0 < b.len → (b.val m)[0]? = some (m.at_ (bytesPointer b))) ∧
    bytesPointer (stringBytes s) = stringPointer s ∧ stringPointer (bytesString b) = bytesPointer b := by
  refine ⟨fun h => ?_, fun h => ?_, rfl, rfl⟩
  · rw [Str.getElem?_val, if_pos h]; rfl
  · rw [Bytes.getElem?_val, if_pos h]; rfl

/-- **C96** Writing to one byte through the slice of a string changes that byte of the string, and of every other string
exactly where it overlaps; every address else is as before. -/
theorem C96_write (m : Mem) (s : Str) (i : Nat) (v : UInt8) (hi : i < s.len) :
    ∃ m', (stringBytes s).set m i v = .ok m' ∧ s.val m' = (s.val m).set i v ∧
      ∀ t : Str, ∀ j < t.len, (t.val m')[j]? = if t.data + j = s.data + i then some v else (t.val m)[j]? := by
  have key : ∀ t : Str, ∀ j < t.len, (t.val (m.write (s.data + i) [v]))[j]? =
      if t.data + j = s.data + i then some v else (t.val m)[j]? := by
    intro t j hj
    rw [Str.getElem?_val, Str.getElem?_val, if_pos hj, if_pos hj, write_at_one]
    split <;> rfl
  refine ⟨_, if_pos hi, ?_, key⟩
  apply List.ext_getElem?
  intro j
  by_cases hj : j < s.len
  · rw [show (stringBytes s).data = s.data from rfl, key s j hj, List.getElem?_set]
    by_cases e : j = i
    · subst e
      simp [Str.length_val, hi]
    · rw [if_neg (by omega), if_neg (by omega)]
  · rw [List.getElem?_eq_none (by rw [Str.length_val]; omega),
      List.getElem?_eq_none (by rw [List.length_set, Str.length_val]; omega)]

/-- **C96** Writing behind the end of the string through its bytes is refused. -/
theorem C96_write_out (m : Mem) (s : Str) (i : Nat) (v : UInt8) (hi : s.len ≤ i) :
    (stringBytes s).set m i v = .panic := if_neg (by show ¬ i < s.len; omega)

/-- **C96** Neither re-slicing nor appending reaches beyond the string: extending the bytes of a string behind its end is
refused, and appending to them leaves every byte already given out as it was, in particular what lies behind the string
(the rest of the string it was cut from). -/
theorem C96_append (m : Mem) (s : Str) (vs : List UInt8) (extra : Nat) (hv : vs ≠ []) :
    (∀ i j, s.len < j → (stringBytes s).sub i j = .panic) ∧
    ((stringBytes s).append m vs extra).2.val ((stringBytes s).append m vs extra).1 = s.val m ++ vs ∧
    ∀ a < m.next, ((stringBytes s).append m vs extra).1.at_ a = m.at_ a := by
  have hl : 0 < vs.length := List.length_pos_iff.2 hv
  have hc : ¬ (stringBytes s).len + vs.length ≤ (stringBytes s).cap := by show ¬ s.len + vs.length ≤ s.len; omega
  have e : (stringBytes s).append m vs extra =
      ({ m.write m.next (s.val m ++ vs) with next := m.next + (s.len + vs.length) + extra },
        ⟨m.next, s.len + vs.length, s.len + vs.length + extra⟩) := by
    unfold Bytes.append
    rw [if_neg hc]; rfl
  refine ⟨fun i j h => if_neg (by show ¬ (i ≤ j ∧ j ≤ s.len); omega), ?_, fun a ha => ?_⟩
  · rw [e]
    apply List.ext_getElem?
    intro i
    rw [Bytes.getElem?_val]
    by_cases h : i < s.len + vs.length
    · rw [if_pos h]
      have hlt : i < (s.val m ++ vs).length := by rw [List.length_append, Str.length_val]; exact h
      show some (if m.next + i < m.next then _ else _) = _
      rw [if_neg (by omega), show m.next + i - m.next = i by omega, List.getElem?_eq_getElem hlt]
    · rw [if_neg h, List.getElem?_eq_none (by rw [List.length_append, Str.length_val]; omega)]
  · rw [e]
    exact write_at_below m _ _ a ha

/-- **C96** Re-slicing the bytes of a string inside its bounds gives the bytes of the same part of the string, at the same
address, and what is left of the capacity ends where the string ends. -/
theorem C96_reslice (m : Mem) (s : Str) (i j : Nat) (hi : i ≤ j) (hj : j ≤ s.len) :
    ∃ b t, (stringBytes s).sub i j = .ok b ∧ s.sub i j = .ok t ∧ b.val m = t.val m ∧
      t.val m = ((s.val m).take j).drop i ∧ bytesPointer b = stringPointer t ∧
      bytesPointer b + b.cap = stringPointer s + s.len := by
  refine ⟨_, _, if_pos ⟨hi, hj⟩, if_pos ⟨hi, hj⟩, rfl, ?_, rfl, ?_⟩
  · apply List.ext_getElem?
    intro k
    rw [Str.getElem?_val, List.getElem?_drop, List.getElem?_take, Str.getElem?_val]
    show (if k < j - i then some (m.at_ (s.data + i + k)) else none) = _
    by_cases h : k < j - i
    · rw [if_pos h, if_pos (by omega), if_pos (by omega), Nat.add_assoc]
    · rw [if_neg h, if_neg (by omega)]
  · show s.data + i + (s.len - i) = s.data + s.len
    omega

example : ∃ b, (stringBytes ⟨10, 6⟩).sub 2 4 = .ok b ∧ b = ⟨12, 2, 4⟩ := ⟨_, rfl, rfl⟩

/-- A string cut out of another, appended to: the bytes of the whole are untouched. -/
example (m : Mem) (h : m.next = 100) :
    let whole : Str := ⟨10, 6⟩
    ∃ part, whole.sub 0 3 = .ok part ∧
      whole.val ((stringBytes part).append m [1, 2] 5).1 = whole.val m := by
  refine ⟨⟨10, 3⟩, rfl, ?_⟩
  apply List.map_congr_left
  intro i hi
  have : i < 6 := List.mem_range.1 hi
  exact (C96_append m ⟨10, 3⟩ [1, 2] 5 (by decide)).2.2 _ (by rw [h]; show 10 + i < 100; omega)

/-- **C96** Appending to the original slice, in contrast, does write behind it when there is room, and the string made of
it without a copy never notices, nor does it change: its length is fixed. -/
theorem C96_append_original (m : Mem) (b : Bytes) (vs : List UInt8) (extra : Nat) (h : b.len + vs.length ≤ b.cap) :
    (b.append m vs extra).2.data = b.data ∧
    (bytesString b).val (b.append m vs extra).1 = (bytesString b).val m ∧
    ∀ i < vs.length, some ((b.append m vs extra).1.at_ (b.data + b.len + i)) = vs[i]? := by
  have e : b.append m vs extra = (m.write (b.data + b.len) vs, ⟨b.data, b.len + vs.length, b.cap⟩) := if_pos h
  rw [e]
  refine ⟨rfl, ?_, fun i hi => ?_⟩
  · apply List.map_congr_left
    intro i hi
    have := List.mem_range.1 hi
    exact write_at_below m _ _ _ (by
      have : i < b.len := this
      show b.data + i < b.data + b.len; omega)
  · show some (if b.data + b.len + i < b.data + b.len then _ else _) = _
    rw [if_neg (by omega), show b.data + b.len + i - (b.data + b.len) = i by omega, List.getElem?_eq_getElem hi]

/-- **C96** That a string never changes is false of the results: for every slice and every position a write to the slice
changes the string made of it, while the string made with the conversion of the language stays: it lies in new memory,
which is not given out a second time. -/
theorem C96_immutable_false (m : Mem) (b : Bytes) (i : Nat) (v : UInt8) (hi : i < b.len) (hv : (b.val m)[i]? ≠ some v)
    (hb : b.data + b.len ≤ m.next) :
    ∃ m', b.set m i v = .ok m' ∧ (bytesString b).val m' ≠ (bytesString b).val m ∧
      let c := b.copyString m
      (m.next ≤ c.2.data ∧ c.2.data + c.2.len ≤ c.1.next) ∧ ∃ m'', b.set c.1 i v = .ok m'' ∧ c.2.val m'' = b.val m := by
  refine ⟨_, if_pos hi, fun h => hv ?_, ⟨Nat.le_refl _, Nat.le_refl _⟩, _, if_pos hi, ?_⟩
  · have h2 := congrArg (fun l => l[i]?) h
    rw [show (bytesString b).val m = b.val m from rfl] at h2
    rw [← h2, Str.getElem?_val, if_pos (show i < (bytesString b).len from hi), write_at_one]
    rw [if_pos]
    rfl
  · apply List.ext_getElem?
    intro j
    rw [Str.getElem?_val, Bytes.getElem?_val]
    show (if j < b.len then _ else _) = _
    by_cases hj : j < b.len
    · rw [if_pos hj, if_pos hj, write_at_one]
      show some (if m.next + j = b.data + i then v else (m.write m.next (b.val m)).at_ (m.next + j)) = _
      rw [if_neg (by omega)]
      show some (if m.next + j < m.next then _ else _) = _
      rw [if_neg (by omega), show m.next + j - m.next = j by omega, Bytes.getElem?_val, if_pos hj]
    · rw [if_neg hj, if_neg hj]

example : ∃ (m : Mem) (b : Bytes), b.data + b.len ≤ m.next ∧ (b.val m)[1]? ≠ some 7 ∧ 1 < b.len :=
  ⟨⟨fun _ => 0, 50⟩, ⟨20, 4, 8⟩, by decide, by decide, by decide⟩

/-! ## Writeable -/

/-- Where a program keeps its data: constants in read-only memory, then global variables, then the heap, in ascending
order of addresses (Linux and Windows, 64 bit). -/
structure Layout where
  roEnd : Nat
  dataEnd : Nat
  heap : Nat
  h1 : roEnd ≤ dataEnd
  h2 : dataEnd ≤ heap

/-- The operating system allows writing. -/
def Layout.canWrite (L : Layout) (a : Nat) : Prop := L.roEnd ≤ a ∧ a < L.dataEnd ∨ L.heap ≤ a

/-- **C96** (partial: one direction; see `C96_writeable_false`) What is said to be writable is: the address of the first
byte is on the heap.  Strings and slices over the same bytes get the same answer, and a part of something writable is
writable. -/
theorem C96_writeable_partial (L : Layout) (first : Nat) (hf : L.heap ≤ first) (s : Str) (b : Bytes) :
    (s.writeable first = true → ∀ i, L.canWrite (s.data + i)) ∧
    (b.writeable first = true → ∀ i, L.canWrite (b.data + i)) ∧
    (∀ p, writeable first p = true → L.canWrite p) ∧
    (stringBytes s).writeable first = s.writeable first ∧ (bytesString b).writeable first = b.writeable first ∧
    ∀ i j t, s.sub i j = .ok t → s.writeable first = true → t.writeable first = true := by
  have h1 : ∀ p i, decide (first ≤ p) = true → L.canWrite (p + i) := by
    intro p i h
    have := of_decide_eq_true h
    right; omega
  refine ⟨fun h i => h1 _ _ h, fun h i => h1 _ _ h, fun p h => h1 p 0 h, rfl, rfl, fun i j t h hs => ?_⟩
  unfold Str.sub at h
  split at h
  · cases h
    have := of_decide_eq_true hs
    apply decide_eq_true
    show first ≤ s.data + i
    have : first ≤ s.data := this
    omega
  · cases h

/-- **C96** The other direction is false: global variables, and heap memory below the integer that happened to be
allocated at program start, can be written and are said not to be. -/
theorem C96_writeable_false (L : Layout) (first : Nat) (hf : L.heap ≤ first) (hd : L.roEnd < L.dataEnd) :
    (∀ s : Str, s.data < first → s.writeable first = false) ∧
    ∃ s : Str, 0 < s.len ∧ (∀ i < s.len, L.canWrite (s.data + i)) ∧ s.writeable first = false := by
  have h2 := L.h2
  have h : ∀ s : Str, s.data < first → s.writeable first = false := fun s h =>
    decide_eq_false (by show ¬ first ≤ s.data; omega)
  refine ⟨h, ⟨L.roEnd, 1⟩, Nat.one_pos, fun i hi => .inl ?_, h _ (by show L.roEnd < first; omega)⟩
  have : i < 1 := hi
  show L.roEnd ≤ L.roEnd + i ∧ L.roEnd + i < L.dataEnd
  omega

example : ∃ (L : Layout) (s : Str), L.canWrite s.data ∧ s.writeable (L.heap + 64) = false :=
  ⟨⟨0x500000, 0x600000, 0xc000000000, by decide, by decide⟩, ⟨0x550000, 4⟩, .inl (by decide), by decide⟩

example := C96_write ⟨fun _ => 0, 50⟩ ⟨20, 4⟩ 3 7 (by decide)
example := C96_write_out ⟨fun _ => 0, 50⟩ ⟨20, 4⟩ 4 7 (by decide)
example := C96_append_original ⟨fun _ => 0, 50⟩ ⟨20, 4, 8⟩ [1, 2] 5 (by decide)
example := C96_writeable_partial ⟨0x500000, 0x600000, 0xc000000000, by decide, by decide⟩ 0xc000000040 (by decide)
  ⟨0xc000000100, 4⟩ ⟨0x550000, 4, 4⟩

end Verif.Unsafe
