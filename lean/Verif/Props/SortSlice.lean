import Verif.Model.SortSlice
import Verif.Spec.Containers
import Verif.Spec.Order
/-!
# C14, C15 — the sort slice
-/

set_option linter.unusedSectionVars false

namespace Verif.SortSlice
open Verif.Spec Verif.Cmp
variable {α : Type} [Inhabited α]

/-! ## C14 -/

/-- One client call. -/
def step (s : SortSlice α) : SeqOp α → Res (SortSlice α × Out α)
  | .push v => let (s', n) := push s v; return (s', .nat n)
  | .insert v idx => let (s', n) := insert s v idx; return (s', .nat n)
  | .remove idx => do let (s', v, ok) ← remove s idx; return (s', .val v ok)
  | .pop => do let (s', v, ok) ← pop s; return (s', .val v ok)
  | .get idx => do let (v, ok) ← get s idx; return (s, .val v ok)
  | .mustGet idx => do let v ← mustGet s idx; return (s, .val v true)
  | .len => return (s, .nat (len s))

/-- A history of calls. -/
def run (s : SortSlice α) : List (SeqOp α) → Res (SortSlice α × List (Out α))
  | [] => return (s, [])
  | op :: ops => do
    let (s', o) ← step s op
    let (s'', os) ← run s' ops
    return (s'', o :: os)

/-- The same history on the specification. -/
def runSeq (l : List α) : List (SeqOp α) → Option (List α × List (Out α))
  | [] => some (l, [])
  | op :: ops => do
    let (l', o) ← seqStep l op
    let (l'', os) ← runSeq l' ops
    return (l'', o :: os)

/-- A model result seen as a specification result. -/
def toSpec : Res (SortSlice α × β) → Option (List α × β)
  | .ok (s, b) => some (s.d, b)
  | .panic => none

/-- **C14 is false** for Insert: it overwrites instead of inserting. -/
theorem C14_insert_false :
    ¬ ∀ ops : List (SeqOp Int), toSpec (run init ops) = runSeq [] ops := by
  intro h
  have := h [.push 1, .push 2, .insert 9 0]
  revert this; decide

/-- **C14 is false** for Pop too: an empty slice panics instead of reporting false. -/
theorem C14_pop_false :
    ¬ ∀ ops : List (SeqOp Int), (∀ v i, SeqOp.insert v i ∉ ops) → toSpec (run init ops) = runSeq [] ops := by
  intro h
  have := h [.pop] (by simp)
  revert this; decide

/-- Calls whose behaviour is right: everything but an Insert at an existing position and a Pop of an
empty slice. -/
def Fine (l : List α) : SeqOp α → Prop
  | .insert _ idx => pos? l idx = none
  | .pop => l ≠ []
  | _ => True

theorem get_eq (s : SortSlice α) (idx : Int) :
    get s idx = .ok (match (pos? s.d idx).bind fun i => s.d[i]? with
      | some v => (v, true)
      | none => (default, false)) := by
  unfold get pos? len
  by_cases h : 0 ≤ idx ∧ idx < (s.d.length : Int)
  · have hi : idx.toNat < s.d.length := by omega
    rw [if_pos h, if_pos h]
    simp [Go.get, hi]
  · rw [if_neg h, if_neg h]; rfl

theorem step_fine (s : SortSlice α) (op : SeqOp α) (h : Fine s.d op) :
    toSpec (step s op) = seqStep s.d op := by
  cases op with
  | push v => simp [step, push, seqStep, toSpec, len]
  | insert v idx =>
    have hn : ¬ (idx ≥ 0 ∧ idx < (len s : Int)) := by
      simp only [Fine, pos?] at h; intro hc; unfold len at hc; rw [if_pos (by omega)] at h; cases h
    have h' : pos? s.d idx = none := h
    simp only [step, insert, if_neg hn, seqStep, h']
    simp [toSpec, len]
  | remove idx =>
    simp only [step, remove, get_eq, seqStep]
    cases hp : pos? s.d idx with
    | none => simp [toSpec, outOpt]
    | some i =>
      have hi : i < s.d.length ∧ i = idx.toNat := by
        unfold pos? at hp; split at hp <;> simp at hp; omega
      obtain ⟨hi, rfl⟩ := hi
      simp [List.getElem?_eq_getElem hi, toSpec, outOpt, List.eraseIdx_eq_take_drop_succ]
  | pop =>
    have hne : s.d ≠ [] := h
    have hpos : s.d.length > 0 := List.length_pos_iff.mpr hne
    simp only [step, pop, if_pos hpos, seqStep]
    have hg : Go.get s.d (s.d.length - 1) = .ok (s.d.getLast hne) := by
      simp [Go.get, List.getLast_eq_getElem]
      rw [List.getElem?_eq_getElem (by omega)]
    rw [hg]
    simp [toSpec, List.getLast?_eq_some_getLast hne, outOpt, List.dropLast_eq_take]
  | get idx =>
    simp only [step, get_eq, seqStep]
    cases hp : (pos? s.d idx).bind fun i => s.d[i]? <;> simp [toSpec, outOpt]
  | mustGet idx =>
    simp only [step, mustGet, get_eq, seqStep]
    cases hp : (pos? s.d idx).bind fun i => s.d[i]? <;> simp [toSpec]
  | len => rfl

/-- All calls of the history are fine in the state where they happen. -/
def FineRun (l : List α) : List (SeqOp α) → Prop
  | [] => True
  | op :: ops => Fine l op ∧ ∀ l' o, seqStep l op = some (l', o) → FineRun l' ops

/-- **C14, partial.**  Missing: histories with an Insert at an existing position or a Pop of an empty
slice.  All others (including every out-of-range index) return exactly what a sequence returns, and
panic only where MustGet has to. -/
theorem C14_sequence_partial (s : SortSlice α) (ops : List (SeqOp α)) (h : FineRun s.d ops) :
    toSpec (run s ops) = runSeq s.d ops := by
  induction ops generalizing s with
  | nil => rfl
  | cons op ops ih =>
    have h1 := step_fine s op h.1
    unfold run runSeq
    cases hs : step s op with
    | panic => rw [hs] at h1; simp only [toSpec] at h1; rw [← h1]; rfl
    | ok r =>
      obtain ⟨s', o⟩ := r
      rw [hs] at h1
      simp only [toSpec] at h1
      rw [← h1]
      have := ih s' (h.2 _ _ h1.symm)
      simp only [Res.bind_ok, Option.bind_eq_bind, Option.bind_some]
      rw [← this]
      cases run s' ops <;> rfl

/-- Instance: pushes, an out-of-range insert, removes and lookups. -/
example : FineRun ([] : List Int) [.push 4, .insert 7 (-1), .push 5, .remove 1, .get 9, .mustGet 1, .pop] := by
  simp [FineRun, Fine, seqStep, pos?]

/-- **C14, what Insert at an existing position does (every state):** it replaces the element there and
loses it; the length stays. -/
theorem C14_insert_overwrites (s : SortSlice α) (v : α) (i : Nat) (hi : i < s.d.length) :
    step s (.insert v i) = .ok (⟨s.d.set i v⟩, .nat s.d.length) := by
  have h : ((i : Int) ≥ 0 ∧ (i : Int) < (len s : Int)) := by unfold len; omega
  simp only [step, insert, if_pos h, Int.toNat_natCast]
  rw [List.set_eq_take_append_cons_drop, if_pos hi]
  have : len (⟨List.take i s.d ++ [v] ++ List.drop (i + 1) s.d⟩ : SortSlice α) = s.d.length := by
    unfold len; simp; omega
  rw [this]
  simp

/-- **C14, what Pop of an empty slice does:** it panics. -/
theorem C14_pop_empty_panics : step (⟨[]⟩ : SortSlice α) .pop = .panic := rfl

/-! ## C15 -/

/-- The slice after a sequence of `Swap` calls. -/
def swaps (s : SortSlice α) : List (Nat × Nat) → Res (SortSlice α)
  | [] => return s
  | (i, j) :: ps => do let s' ← swap s i j; swaps s' ps

/-- `Less` reports no adjacent inversion. -/
def Settled (less : α → α → Bool) (s : SortSlice α) : Prop :=
  ∀ i, i + 1 < len s → lessAt less s (i + 1) i = .ok false

theorem swap_eq (s : SortSlice α) (i j : Nat) (hi : i < s.d.length) (hj : j < s.d.length) :
    swap s i j = .ok ⟨(s.d.set i s.d[j]).set j s.d[i]⟩ := by
  simp [swap, Go.get, Go.set, hi, hj]

theorem perm_set_set (l : List α) (i j : Nat) (hi : i < l.length) (hj : j < l.length) :
    ((l.set i l[j]).set j l[i]).Perm l := by
  have hmem : ∀ (l : List α) (i : Nat) (hi : i < l.length) (v : α), (l.set i v).Perm (v :: l.eraseIdx i) := by
    intro l
    induction l with
    | nil => intro i hi; simp at hi
    | cons x xs ih =>
      intro i hi v
      cases i with
      | zero => simp
      | succ i =>
        simp only [List.set_cons_succ, List.eraseIdx_cons_succ]
        exact ((ih i (by simpa using hi) v).cons x).trans (List.Perm.swap _ _ _)
  by_cases hij : i = j
  · subst hij; simp
  have hj' : j < (l.set i l[j]).length := by simpa using hj
  have p1 := hmem (l.set i l[j]) j hj' l[i]
  have p2 := hmem (l.set i l[j]) j hj' l[j]
  have e : (l.set i l[j]).set j l[j] = l.set i l[j] := by
    apply List.ext_getElem?
    intro k
    rw [List.getElem?_set]
    by_cases hk : j = k
    · subst hk; rw [if_pos rfl, if_pos hj', List.getElem?_set_ne hij, List.getElem?_eq_getElem hj]
    · rw [if_neg hk]
  rw [e] at p2
  have p3 := hmem l i hi l[j]
  have p4 : ((l.set i l[j]).eraseIdx j).Perm (l.eraseIdx i) := (p2.symm.trans p3).cons_inv
  have p5 := hmem l i hi l[i]
  rw [List.set_getElem_self] at p5
  exact p1.trans ((p4.cons _).trans p5.symm)

theorem swap_perm (s s' : SortSlice α) (i j : Nat) (h : swap s i j = .ok s') : s'.d.Perm s.d := by
  by_cases hi : i < s.d.length
  · by_cases hj : j < s.d.length
    · rw [swap_eq s i j hi hj] at h; cases h; exact perm_set_set _ i j hi hj
    · simp [swap, Go.get, hi, List.getElem?_eq_none (Nat.le_of_not_lt hj)] at h
  · simp [swap, Go.get, List.getElem?_eq_none (Nat.le_of_not_lt hi)] at h

/-- **C15 (Swap).**  Swap exchanges two positions and nothing else; it panics only out of range. -/
theorem C15_swap (s : SortSlice α) (i j : Nat) (hi : i < s.d.length) (hj : j < s.d.length) :
    ∃ s', swap s i j = .ok s' ∧ s'.d[i]? = s.d[j]? ∧ s'.d[j]? = s.d[i]? ∧
      ∀ k, k ≠ i → k ≠ j → s'.d[k]? = s.d[k]? := by
  refine ⟨_, swap_eq s i j hi hj, ?_, ?_, ?_⟩
  · simp only [List.getElem?_set]
    by_cases hij : j = i
    · subst hij; simp [hj]
    · simp [hij, hi, hj]
  · simp [hj, hi]
  · intro k h1 h2; simp [List.getElem?_set_ne (Ne.symm h1), List.getElem?_set_ne (Ne.symm h2)]

/-- **C15.**  Whatever swaps were made, the elements are the same ones. -/
theorem C15_swaps_perm (s s' : SortSlice α) (ps : List (Nat × Nat)) (h : swaps s ps = .ok s') :
    s'.d.Perm s.d := by
  induction ps generalizing s with
  | nil => simp [swaps] at h; subst h; exact List.Perm.refl _
  | cons p ps ih =>
    obtain ⟨i, j⟩ := p
    unfold swaps at h
    cases hs : swap s i j with
    | panic => simp [hs] at h
    | ok s1 => simp [hs] at h; exact (ih s1 h).trans (swap_perm s s1 i j hs)

theorem chain_pairwise {r : α → α → Prop} (htrans : ∀ a b c, r a b → r b c → r a c) (l : List α)
    (h : ∀ i (hi : i + 1 < l.length), r l[i] l[i + 1]) : l.Pairwise r := by
  induction l with
  | nil => exact List.Pairwise.nil
  | cons x xs ih =>
    have ih' := ih (fun i hi => h (i + 1) (by simp; omega))
    refine List.pairwise_cons.mpr ⟨?_, ih'⟩
    cases xs with
    | nil => simp
    | cons y ys =>
      have hxy := h 0 (by simp)
      intro z hz
      rcases List.mem_cons.mp hz with rfl | hz
      · exact hxy
      · exact htrans _ _ _ hxy ((List.pairwise_cons.mp ih').1 z hz)

theorem lessAt_eq (less : α → α → Bool) (s : SortSlice α) (i j : Nat) (hi : i < s.d.length) (hj : j < s.d.length) :
    lessAt less s i j = .ok (less s.d[i] s.d[j]) := by
  simp [lessAt, Go.get, hi, hj, createByName, F]

/-- **C15.**  If a run of swaps ends with no adjacent inversion reported by Less, the slice is a
permutation of the input in ascending order. -/
theorem C15_sorted {less : α → α → Bool} (hw : StrictWeak less) (s s' : SortSlice α) (ps : List (Nat × Nat))
    (h : swaps s ps = .ok s') (hset : Settled less s') : s'.d.Perm s.d ∧ SortedBy less s'.d := by
  refine ⟨C15_swaps_perm s s' ps h, ?_⟩
  apply chain_pairwise (r := fun a b => less b a = false)
  · intro a b c h1 h2; exact hw.ge_trans h2 h1
  · intro i hi
    have := hset i hi
    rw [lessAt_eq less s' (i + 1) i hi (by omega)] at this
    simpa using this

/-- **C15 (uniqueness, integers).**  Two such runs from the same slice end in the same slice, the
ascending one. -/
theorem C15_unique (s s1 s2 : SortSlice Int) (ps1 ps2 : List (Nat × Nat)) (h1 : swaps s ps1 = .ok s1)
    (h2 : swaps s ps2 = .ok s2) (e1 : Settled intLt s1) (e2 : Settled intLt s2) :
    s1 = s2 ∧ s1.d.Pairwise (· ≤ ·) := by
  obtain ⟨p1, o1⟩ := C15_sorted intLt_strictWeak s s1 ps1 h1 e1
  obtain ⟨p2, o2⟩ := C15_sorted intLt_strictWeak s s2 ps2 h2 e2
  have q1 : s1.d.Pairwise (· ≤ ·) := o1.imp (by intro a b; simp [intLt])
  have q2 : s2.d.Pairwise (· ≤ ·) := o2.imp (by intro a b; simp [intLt])
  refine ⟨?_, q1⟩
  have := List.Perm.eq_of_pairwise (fun a b _ _ => Int.le_antisymm) q1 q2 (p1.trans p2.symm)
  cases s1; cases s2; simpa using this

/-- Instance: a run of swaps that sorts `[3, 1, 2]`. -/
example : swaps (⟨[3, 1, 2]⟩ : SortSlice Int) [(0, 1), (1, 2)] = .ok ⟨[1, 2, 3]⟩ ∧
    Settled intLt (⟨[1, 2, 3]⟩ : SortSlice Int) := by
  refine ⟨by decide, ?_⟩
  intro i hi
  have : i = 0 ∨ i = 1 := by simp [len] at hi; omega
  rcases this with rfl | rfl <;> decide

example := C14_insert_overwrites (⟨[3, 1, 2]⟩ : SortSlice Int) 9 1 (by decide)
example := C15_swap (⟨[3, 1, 2]⟩ : SortSlice Int) 0 2 (by decide) (by decide)
example := C15_swaps_perm (⟨[3, 1, 2]⟩ : SortSlice Int) ⟨[1, 2, 3]⟩ [(0, 1), (1, 2)] (by decide)
example := C15_sorted intLt_strictWeak (⟨[3, 1, 2]⟩ : SortSlice Int) ⟨[1, 2, 3]⟩ [(0, 1), (1, 2)] (by decide) (by
  intro i hi
  have : i = 0 ∨ i = 1 := by simp [len] at hi; omega
  rcases this with rfl | rfl <;> decide)

end Verif.SortSlice
