import Verif.Model.LFDeque
import Verif.Spec.Containers
import Verif.Lemmas.Ring
import Mathlib.Tactic.NormNum
/-!
# Properties C32 and C33: the bounded lock-free deque
-/

set_option linter.unusedSectionVars false

namespace Verif.LFDeque
open Verif.Spec
variable {V : Type} [Inhabited V]

/-! ## The index word -/

theorem mask_bit (i : Nat) : (0xFFFFFFFF#64).getLsbD i = decide (i < 32) := by
  have e : (0xFFFFFFFF#64).toNat = 2 ^ 32 - 1 := rfl
  rw [BitVec.getLsbD, e, Nat.testBit_two_pow_sub_one]

/-- C32: packing two 32-bit indices into a word and unpacking gives both back. -/
theorem C32_unpack_pack (h t : BitVec 32) : headTail (makeHeadTail h t) = (h, t) := by
  unfold headTail makeHeadTail
  refine Prod.ext ?_ ?_
  · apply BitVec.eq_of_getLsbD_eq
    intro i hi
    simp only [BitVec.getLsbD_setWidth, BitVec.getLsbD_and, BitVec.getLsbD_or, BitVec.getLsbD_shiftLeft, mask_bit]
    simp [hi]
    intro h'; omega
  · apply BitVec.eq_of_getLsbD_eq
    intro i hi
    simp only [BitVec.getLsbD_setWidth, BitVec.getLsbD_and, BitVec.getLsbD_or, BitVec.getLsbD_shiftLeft,
      BitVec.getLsbD_ushiftRight, mask_bit]
    have e1 : 32 + i < 64 := by omega
    have e2 : i < 64 := by omega
    simp [hi, e1, e2]

/-- C32: and the other way round, the word is determined by the two indices. -/
theorem C32_pack_unpack (ht : BitVec 64) : makeHeadTail (headTail ht).1 (headTail ht).2 = ht := by
  unfold headTail makeHeadTail
  apply BitVec.eq_of_getLsbD_eq
  intro i hi
  simp only [BitVec.getLsbD_setWidth, BitVec.getLsbD_and, BitVec.getLsbD_or, BitVec.getLsbD_shiftLeft,
      BitVec.getLsbD_ushiftRight, mask_bit]
  by_cases h : i < 32
  · simp [h, hi]
  · have e : 32 + (i - 32) = i := by omega
    have e2 : i - 32 < 32 := by omega
    simp [h, hi, e, e2]
    omega

/-! ## Single-threaded use -/

/-- Client calls. -/
inductive Call (V : Type) where
  | pushBack (v : V) | popFront | size | empty | clear

/-- What the client sees.  `full`: the call does not return as long as nobody makes room. -/
inductive Obs (V : Type) where
  | stored | full | popped (v : V) (ok : Bool) | num (n : Nat) | flag (b : Bool) | unit
  deriving DecidableEq

/-- Specification: a FIFO of at most `c` elements. -/
def fifo (c : Nat) (l : List V) : Call V → List V × Obs V
  | .pushBack v => if l.length < c then (l ++ [v], .stored) else (l, .full)
  | .popFront =>
    match l with
    | [] => ([], .popped default false)
    | v :: r => (r, .popped v true)
  | .size => (l, .num l.length)
  | .empty => (l, .flag l.isEmpty)
  | .clear => ([], .unit)

/-- The code, one call. -/
def exec (q : Q V) : Call V → Res (Q V × Obs V)
  | .pushBack v => do
    match ← pushBack q v with
    | some q' => return (q', .stored)
    | none => return (q, .full)
  | .popFront => do
    let (q', v, ok) ← popFront q
    return (q', .popped v ok)
  | .size => .ok (q, .num (size q).toNat)
  | .empty => .ok (q, .flag (empty q))
  | .clear => .ok (clear q, .unit)

/-- The code, a history of calls. -/
def run (q : Q V) : List (Call V) → Res (Q V × List (Obs V))
  | [] => .ok (q, [])
  | c :: cs => do
    let (q', o) ← exec q c
    let (q'', os) ← run q' cs
    return (q'', o :: os)

/-- The deque stores `l` and has `c + 1` slots. -/
def Rep (c : Nat) (q : Q V) (l : List V) : Prop :=
  (q.d.length = c + 1 ∧ c + 1 < 2 ^ 31 ∧
    Ring.Rel (headTail q.headtail).1.toNat (headTail q.headtail).2.toNat q.d l) ∨
  (q.d = [] ∧ c = 7 ∧ q.headtail = 0 ∧ l = [])

theorem toNat_cap {d : List V} (h : d.length < 2 ^ 31) : (cap d).toNat = d.length := by
  unfold cap
  rw [BitVec.toNat_ofNat, Nat.mod_eq_of_lt (by omega)]

theorem toNat_next {d : List V} (h : d.length < 2 ^ 31) (i : BitVec 32) (hi : i.toNat < d.length) :
    (next d i).toNat = if i.toNat + 1 ≥ d.length then 0 else i.toNat + 1 := by
  have e : (i + 1).toNat = i.toNat + 1 := by
    rw [BitVec.toNat_add]
    simp
    omega
  unfold next
  by_cases hc : i.toNat + 1 ≥ d.length
  · rw [if_pos hc, if_pos (by rw [ge_iff_le, BitVec.le_def, toNat_cap h, e]; exact hc)]
    rfl
  · rw [if_neg hc, if_neg (by rw [ge_iff_le, BitVec.le_def, toNat_cap h, e]; exact hc), e]

theorem rel_full_iff {head tail : Nat} {d l : List V} (h : Ring.Rel head tail d l) :
    head = (if tail + 1 ≥ d.length then 0 else tail + 1) ↔ ¬ l.length + 1 < d.length := by
  obtain ⟨h1, h2, h3, _⟩ := h
  subst h3; unfold Ring.wrap; split <;> split <;> omega

/-- `PushBack` on an initialised deque. -/
theorem pushBack_rep {c : Nat} {q : Q V} {l : List V} (v : V) (h1 : q.d.length = c + 1) (h2 : c + 1 < 2 ^ 31)
    (hR : Ring.Rel (headTail q.headtail).1.toNat (headTail q.headtail).2.toNat q.d l) :
    (l.length < c → ∃ q', pushBack q v = .ok (some q') ∧ Rep c q' (l ++ [v])) ∧
    (¬ l.length < c → pushBack q v = .ok none) := by
  have hd : q.d ≠ [] := by rintro e; rw [e] at h1; simp at h1
  have hn := toNat_next (d := q.d) (by omega) _ hR.tail_lt
  have hfull : (headTail q.headtail).1 = next q.d (headTail q.headtail).2 ↔ ¬ l.length + 1 < q.d.length := by
    rw [← rel_full_iff hR, ← hn, BitVec.toNat_inj]
  constructor
  · intro hl
    refine ⟨⟨makeHeadTail (headTail q.headtail).1 (next q.d (headTail q.headtail).2),
      q.d.set (headTail q.headtail).2.toNat v⟩, ?_, .inl ⟨by simpa using h1, h2, ?_⟩⟩
    · unfold pushBack
      simp only [if_neg hd, Go.set, if_pos hR.tail_lt]
      rw [if_neg (by rw [hfull]; omega)]
      rfl
    · simp only [C32_unpack_pack]
      rw [hn]
      exact hR.pushBack v (by omega)
  · intro hl
    unfold pushBack
    simp only [if_neg hd]
    rw [if_pos (hfull.2 (by omega))]
    rfl

theorem init_nil_rel (n : Nat) (h0 : 0 < n) :
    Ring.Rel (headTail (0 : BitVec 64)).1.toNat (headTail (0 : BitVec 64)).2.toNat (List.replicate n (default : V)) [] := by
  have e : headTail (0 : BitVec 64) = (0, 0) := rfl
  rw [e]
  exact ⟨by simpa using h0, by simpa using h0, by simp [Ring.wrap], by simp⟩

theorem size_rep {c : Nat} {q : Q V} {l : List V} (h : Rep c q l) : (size q).toNat = l.length := by
  rcases h with ⟨h1, h2, hR⟩ | ⟨hd, rfl, hz, rfl⟩
  · have hs := hR.size
    have ht := hR.tail_lt
    have hh := hR.1
    unfold size
    simp only [ge_iff_le, BitVec.le_def] at hs ⊢
    split
    · rename_i hc
      rw [if_pos hc] at hs
      rw [BitVec.toNat_sub_of_le (by rw [BitVec.le_def]; exact hc), hs]
    · rename_i hc
      rw [if_neg hc] at hs
      have e1 : ((headTail q.headtail).1 - (headTail q.headtail).2).toNat
          = (headTail q.headtail).1.toNat - (headTail q.headtail).2.toNat :=
        BitVec.toNat_sub_of_le (by rw [BitVec.le_def]; omega)
      rw [BitVec.toNat_sub_of_le (by rw [BitVec.le_def, toNat_cap (by omega), e1]; omega), toNat_cap (by omega), e1, hs]
  · unfold size
    rw [hz]
    rfl

theorem exec_rep {c : Nat} {q : Q V} {l : List V} (h : Rep c q l) (call : Call V) :
    ∃ q', exec q call = .ok (q', (fifo c l call).2) ∧ Rep c q' (fifo c l call).1 := by
  cases call with
  | pushBack v =>
    rcases h with ⟨h1, h2, hR⟩ | ⟨hd, rfl, hz, rfl⟩
    · obtain ⟨hp1, hp2⟩ := pushBack_rep v h1 h2 hR
      by_cases hl : l.length < c
      · obtain ⟨q', e, hr⟩ := hp1 hl
        exact ⟨q', by simp [exec, e, fifo, hl], by simpa [fifo, hl] using hr⟩
      · exact ⟨q, by simp [exec, hp2 hl, fifo, hl], by simpa [fifo, hl] using .inl ⟨h1, h2, hR⟩⟩
    · have hi : pushBack q v = pushBack (init q (-1)) v := by
        unfold pushBack
        have : (init q (-1)).d ≠ [] := by simp [init, hd]
        simp only [if_pos hd, if_neg this]
      have hq : init q (-1) = ⟨0, List.replicate 8 default⟩ := by simp [init, hd]
      obtain ⟨hp1, _⟩ := pushBack_rep (c := 7) (q := init q (-1)) (l := []) v (by simp [hq]) (by norm_num)
        (by rw [hq]; exact init_nil_rel 8 (by norm_num))
      obtain ⟨q', e, hr⟩ := hp1 (by simp)
      exact ⟨q', by simp [exec, hi, e, fifo], by simpa [fifo] using hr⟩
  | popFront =>
    rcases h with ⟨h1, h2, hR⟩ | ⟨hd, rfl, hz, rfl⟩
    · cases l with
      | nil =>
        have := hR.empty_iff.2 rfl
        refine ⟨q, ?_, .inl ⟨h1, h2, hR⟩⟩
        simp only [exec, popFront, fifo]
        rw [if_pos (BitVec.toNat_inj.1 this)]
        rfl
      | cons v r =>
        have hne : ¬ (headTail q.headtail).1 = (headTail q.headtail).2 := by
          intro e
          have := hR.empty_iff.1 (by rw [e])
          cases this
        have hf := hR.front (by simp)
        refine ⟨{ q with headtail := makeHeadTail (next q.d (headTail q.headtail).1) (headTail q.headtail).2 }, ?_,
          .inl ⟨h1, h2, ?_⟩⟩
        · simp only [exec, popFront, fifo]
          rw [if_neg hne]
          simp [Go.get, hf]
        · simp only [C32_unpack_pack]
          rw [toNat_next (by omega) _ hR.1]
          simpa [fifo] using hR.popFront (by simp)
    · refine ⟨q, ?_, .inr ⟨hd, rfl, hz, rfl⟩⟩
      simp only [exec, popFront, fifo, hz]
      rw [if_pos (by rfl)]
      rfl
  | size =>
    refine ⟨q, ?_, h⟩
    have e := size_rep h
    simp [exec, fifo, e]
  | empty =>
    refine ⟨q, ?_, h⟩
    have e := size_rep h
    have e2 : empty q = l.isEmpty := by
      unfold empty
      rw [Bool.eq_iff_iff]
      simp only [beq_iff_eq, List.isEmpty_iff]
      rw [← BitVec.toNat_inj, e]
      simp
    simp [exec, fifo, e2]
  | clear =>
    rcases h with ⟨h1, h2, hR⟩ | ⟨hd, rfl, hz, rfl⟩
    · refine ⟨clear q, rfl, .inl ⟨h1, h2, ?_⟩⟩
      have hpos : 0 < q.d.length := by omega
      have e : headTail (clear q).headtail = (0, 0) := by
        show headTail (0 : BitVec 64) = (0, 0)
        rfl
      rw [e]
      exact ⟨hpos, hpos, by simp [Ring.wrap, clear, fifo], by simp [fifo]⟩
    · exact ⟨clear q, rfl, .inr ⟨hd, rfl, rfl, rfl⟩⟩

theorem run_rep {c : Nat} (calls : List (Call V)) : ∀ {q : Q V} {l : List V}, Rep c q l →
    ∃ q', run q calls = .ok (q', (runSpec (fifo c) l calls).2) := by
  induction calls with
  | nil => intro q l _; exact ⟨q, rfl⟩
  | cons k ks ih =>
    intro q l h
    obtain ⟨q1, e1, h1⟩ := exec_rep h k
    obtain ⟨q2, e2⟩ := ih h1
    refine ⟨q2, ?_⟩
    unfold run
    rw [e1]
    simp only [Res.bind_ok]
    rw [e2]
    simp [runSpec]

/-- C32: for every single-threaded history of calls on a new deque of `n` slots (`n` a positive 32-bit integer) the
observations are those of a FIFO of capacity `n - 1`: it reports full and empty exactly, never panics. -/
theorem C32_history (n : Nat) (h0 : 0 < n) (hn : n < 2 ^ 31) (calls : List (Call V)) :
    ∃ q, run (new n) calls = .ok (q, (runSpec (fifo (n - 1)) [] calls).2) := by
  have e : new (V := V) n = ⟨0, List.replicate n default⟩ := by
    have h1 : ¬ ((n : Int) ≤ 0) := by omega
    simp only [new, init, if_true, if_neg h1, Int.toNat_natCast]
  rw [e]
  exact run_rep calls (.inl ⟨by simp; omega, by omega, init_nil_rel n h0⟩)

/-- C32: the zero value and non-positive sizes behave like `n = 8`. -/
theorem C32_history_default (calls : List (Call V)) :
    (∃ q, run ⟨0, []⟩ calls = .ok (q, (runSpec (fifo 7) [] calls).2)) ∧
    ∀ n : Int, n ≤ 0 → ∃ q, run (new n) calls = .ok (q, (runSpec (fifo 7) [] calls).2) := by
  refine ⟨run_rep calls (.inr ⟨rfl, rfl, rfl, rfl⟩), fun n hn => ?_⟩
  have : new (V := V) n = ⟨0, List.replicate 8 default⟩ := by simp [new, init, hn]
  rw [this]
  exact run_rep calls (.inl ⟨by simp, by norm_num, init_nil_rel 8 (by norm_num)⟩)

theorem set_d_ne {d d' : List V} {i : Nat} {v : V} (h : Go.set d i v = .ok d') (hd : d ≠ []) : d' ≠ [] := by
  unfold Go.set at h
  split at h
  · cases h
    simpa using hd
  · cases h

theorem exec_d_ne {q q' : Q V} {k : Call V} {o : Obs V} (h : exec q k = .ok (q', o)) (hd : q.d ≠ []) : q'.d ≠ [] := by
  cases k with
  | pushBack v =>
    simp only [exec, pushBack, if_neg hd] at h
    split at h
    · simp only [Res.pure_eq, Res.bind_ok] at h
      cases h; exact hd
    · cases hs : Go.set q.d (headTail q.headtail).2.toNat v with
      | panic => rw [hs] at h; cases h
      | ok d =>
        rw [hs] at h
        simp only [Res.pure_eq, Res.bind_ok] at h
        cases h; exact set_d_ne hs hd
  | popFront =>
    simp only [exec, popFront] at h
    split at h
    · simp only [Res.pure_eq, Res.bind_ok] at h
      cases h; exact hd
    · cases hs : Go.get q.d (headTail q.headtail).1.toNat with
      | panic => rw [hs] at h; cases h
      | ok d =>
        rw [hs] at h
        simp only [Res.pure_eq, Res.bind_ok] at h
        cases h; exact hd
  | size => cases h; exact hd
  | empty => cases h; exact hd
  | clear => cases h; exact hd

theorem run_rep_end {c : Nat} (calls : List (Call V)) : ∀ {q q' : Q V} {l : List V} {os : List (Obs V)}, Rep c q l → q.d ≠ [] →
    run q calls = .ok (q', os) → q'.d ≠ [] ∧ ∃ l', Rep c q' l' := by
  induction calls with
  | nil => intro q q' l os h hd hr; cases hr; exact ⟨hd, l, h⟩
  | cons k ks ih =>
    intro q q' l os h hd hr
    obtain ⟨q1, e1, h1⟩ := exec_rep h k
    unfold run at hr
    rw [e1] at hr
    simp only [Res.bind_ok] at hr
    cases hs : run q1 ks with
    | panic => rw [hs] at hr; cases hr
    | ok p =>
      rw [hs] at hr
      simp only [Res.bind_ok, Res.pure_eq] at hr
      cases hr
      exact ih h1 (exec_d_ne e1 hd) hs

/-- C32: `Init` of a deque in use, after any history of calls and with any size: from then on the observations are those of
an empty FIFO of the same capacity as before; the size asked for is ignored. -/
theorem C32_init_again (n : Nat) (h0 : 0 < n) (hn : n < 2 ^ 31) (before calls : List (Call V)) (bufSize : Int) :
    ∃ q q', run (new n) before = .ok (q, (runSpec (fifo (n - 1)) [] before).2) ∧
      run (init q bufSize) calls = .ok (q', (runSpec (fifo (n - 1)) [] calls).2) := by
  obtain ⟨q, hq⟩ := C32_history n h0 hn before
  have e : new (V := V) n = ⟨0, List.replicate n default⟩ := by
    have h1 : ¬ ((n : Int) ≤ 0) := by omega
    simp only [new, init, if_true, if_neg h1, Int.toNat_natCast]
  obtain ⟨hd, l, hr⟩ := run_rep_end (c := n - 1) before (l := []) (q := new n)
    (by rw [e]; exact .inl ⟨by simp; omega, by omega, init_nil_rel n h0⟩)
    (by rw [e]; simp; omega) hq
  have hi : init q bufSize = clear q := by simp [init, hd, clear]
  obtain ⟨q1, e1, h1⟩ := exec_rep hr .clear
  have : q1 = clear q := by
    simp only [exec] at e1
    cases e1; rfl
  subst this
  obtain ⟨q', h'⟩ := run_rep calls h1
  exact ⟨q, q', hq, by rw [hi]; exact h'⟩

example : (run (new 3 : Q Nat) [.pushBack 5, .pushBack 6, .pushBack 7, .popFront, .size, .pushBack 8, .popFront]).bind
    (fun r => .ok r.2) = .ok [.stored, .stored, .full, .popped 5 true, .num 1, .stored, .popped 6 true] := by
  decide +kernel

/-! ## The other end -/

theorem toNat_prev (i : BitVec 32) : (prev i).toNat = if i.toNat = 0 then 2 ^ 32 - 1 else i.toNat - 1 := by
  unfold prev
  have := i.isLt
  rw [BitVec.toNat_sub]
  simp
  split <;> omega

/-- C33, the exact behaviour of `PushFront` on an initialised deque holding `l`: it panics whenever the first
element sits in slot 0, and otherwise it stores the value in front or waits while the deque is full. -/
theorem C33_pushFront_exact {c : Nat} {q : Q V} {l : List V} (v : V) (h : Rep c q l) (hd : q.d ≠ []) :
    ((headTail q.headtail).1 = 0 → pushFront q v = .panic) ∧
    ((headTail q.headtail).1 ≠ 0 → l.length < c → ∃ q', pushFront q v = .ok (some q') ∧ Rep c q' (v :: l)) ∧
    ((headTail q.headtail).1 ≠ 0 → ¬ l.length < c → pushFront q v = .ok none) := by
  rcases h with ⟨h1, h2, hR⟩ | ⟨hd', _⟩
  swap
  · exact absurd hd' hd
  have ht := hR.tail_lt
  have hh := hR.1
  have hp := toNat_prev (headTail q.headtail).1
  refine ⟨fun h0 => ?_, fun h0 hl => ?_, fun h0 hl => ?_⟩
  · unfold pushFront
    simp only [if_neg hd]
    rw [h0] at hp ⊢
    simp only [BitVec.ofNat_eq_ofNat, BitVec.toNat_ofNat, Nat.zero_mod, if_true] at hp
    rw [if_neg (by rw [← BitVec.toNat_inj, ]; simp only [BitVec.ofNat_eq_ofNat]; omega)]
    unfold Go.set
    rw [if_neg (by simp only [BitVec.ofNat_eq_ofNat]; omega)]
    rfl
  all_goals
    have hz : ¬ (headTail q.headtail).1.toNat = 0 := fun e => h0 (BitVec.eq_of_toNat_eq (by rw [e]; rfl))
    rw [if_neg hz] at hp
    have hR0 := hR
    obtain ⟨r1, r2, r3, r4⟩ := hR0
  · refine ⟨⟨makeHeadTail (prev (headTail q.headtail).1) (headTail q.headtail).2,
      q.d.set (prev (headTail q.headtail).1).toNat v⟩, ?_, .inl ⟨by simpa using h1, h2, ?_⟩⟩
    · unfold pushFront
      simp only [if_neg hd]
      rw [if_neg]
      · unfold Go.set
        rw [if_pos (by omega)]
        rfl
      · rw [← BitVec.toNat_inj, hp, r3]
        unfold Ring.wrap
        split <;> omega
    · simp only [C32_unpack_pack]
      have := hR.pushFront v (by omega)
      rw [if_neg hz] at this
      rw [hp]
      exact this
  · unfold pushFront
    simp only [if_neg hd]
    rw [if_pos]
    · rfl
    · rw [← BitVec.toNat_inj, hp, r3]
      unfold Ring.wrap
      split <;> omega

/-- C33 is false of the code: `PushFront` panics on every new deque. -/
theorem C33_pushFront_panics (n : Nat) (h0 : 0 < n) (hn : n < 2 ^ 31) (v : V) : pushFront (new n : Q V) v = .panic := by
  have e : new (V := V) n = ⟨0, List.replicate n default⟩ := by
    have h1 : ¬ ((n : Int) ≤ 0) := by omega
    simp only [new, init, if_true, if_neg h1, Int.toNat_natCast]
  rw [e]
  have hr : Rep (V := V) (n - 1) ⟨0, List.replicate n default⟩ [] := by
    refine .inl ⟨?_, by omega, init_nil_rel n h0⟩
    rw [List.length_replicate]
    omega
  refine (C33_pushFront_exact v hr ?_).1 (by show (headTail (0 : BitVec 64)).1 = 0; rfl)
  cases n with
  | zero => omega
  | succ n => simp [List.replicate_succ]

/-- C33, the exact behaviour of `PopBack`: reports an empty deque; panics when the last element sits in the last
slot of the buffer (the tail index is 0); otherwise removes and returns the last element. -/
theorem C33_popBack_exact {c : Nat} {q : Q V} {l : List V} (h : Rep c q l) :
    (l = [] → popBack q = .ok (q, default, false)) ∧
    (l ≠ [] → (headTail q.headtail).2 = 0 → popBack q = .panic) ∧
    (∀ r v, l = r ++ [v] → (headTail q.headtail).2 ≠ 0 → ∃ q', popBack q = .ok (q', v, true) ∧ Rep c q' r) := by
  rcases h with ⟨h1, h2, hR⟩ | ⟨hd, rfl, hz, rfl⟩
  · have ht := hR.tail_lt
    have hh := hR.1
    have hp := toNat_prev (headTail q.headtail).2
    refine ⟨fun hl => ?_, fun hl h0 => ?_, fun r v hl h0 => ?_⟩
    · unfold popBack
      simp only
      rw [if_pos (BitVec.toNat_inj.1 (hR.empty_iff.2 hl))]
      rfl
    · unfold popBack
      simp only
      rw [if_neg (fun e => hl (hR.empty_iff.1 (by rw [e])))]
      rw [h0] at hp ⊢
      simp only [BitVec.ofNat_eq_ofNat, BitVec.toNat_ofNat, Nat.zero_mod, if_true] at hp
      unfold Go.get
      rw [List.getElem?_eq_none (by simp only [BitVec.ofNat_eq_ofNat]; omega)]
      rfl
    · have hz : ¬ (headTail q.headtail).2.toNat = 0 := fun e => h0 (BitVec.eq_of_toNat_eq (by rw [e]; rfl))
      rw [if_neg hz] at hp
      have hl' : l ≠ [] := by simp [hl]
      have hb := hR.back hl'
      rw [if_neg hz, ← hp, hl] at hb
      refine ⟨{ q with headtail := makeHeadTail (headTail q.headtail).1 (prev (headTail q.headtail).2) }, ?_,
        .inl ⟨h1, h2, ?_⟩⟩
      · unfold popBack
        simp only
        rw [if_neg (fun e => hl' (hR.empty_iff.1 (by rw [e])))]
        unfold Go.get
        rw [hb]
        simp
      · simp only [C32_unpack_pack]
        have := hR.popBack hl'
        rw [if_neg hz, hl] at this
        rw [hp]
        simpa using this
  · refine ⟨fun _ => ?_, fun h => absurd rfl h, fun r v h => ?_⟩
    · unfold popBack
      rw [hz]
      rfl
    · exact absurd h (by simp)

example : ∃ q : Q Nat, run (new 3) [.pushBack 5, .popFront, .pushBack 6, .pushBack 7] = .ok (q, [.stored, .popped 5 true, .stored, .stored])
    ∧ Rep 2 q [6, 7] ∧ (headTail q.headtail).2 = 0 ∧ popBack q = .panic := by
  have hr : Rep 2 (⟨1, [5, 6, 7]⟩ : Q Nat) [6, 7] := by
    refine .inl ⟨rfl, by norm_num, ?_⟩
    refine ⟨by decide, by decide, by decide, ?_⟩
    intro i hi
    have : i = 0 ∨ i = 1 := by simp at hi; omega
    rcases this with rfl | rfl <;> decide
  exact ⟨⟨1, [5, 6, 7]⟩, by rfl, hr, rfl, (C33_popBack_exact hr).2.1 (by simp) rfl⟩

/-! ## Concurrent use -/

/-- A new deque of `n` slots and idle goroutines. -/
def start (n : Nat) : St V := ⟨new n, fun _ => .idle⟩

/-- The sequential deque. -/
def deque (l : List V) : Op V → List V × Ret V
  | .pushBack v => (l ++ [v], .pushed)
  | .pushFront v => (v :: l, .pushed)
  | .popFront =>
    match l with
    | [] => ([], .popped default false)
    | v :: r => (r, .popped v true)
  | .popBack =>
    match l.getLast? with
    | none => (l, .popped default false)
    | some v => (l.dropLast, .popped v true)

/-- Only goroutine 0 calls `PushBack`, only goroutine 1 calls `PopFront`, nothing else is called. -/
def Spsc : Option (Ev (Op V) (Ret V)) → Prop
  | some (.call t (.pushBack _)) => t = 0
  | some (.call t .popFront) => t = 1
  | some (.call _ _) => False
  | _ => True

theorem setAt_same {β : Type} (f : Nat → β) (i : Nat) (v : β) : setAt f i v i = v := by simp [setAt]
theorem setAt_ne {β : Type} (f : Nat → β) (i j : Nat) (v : β) (hj : j ≠ i) : setAt f i v j = f j := by
  simp [setAt, hj]

/-- What a goroutine looks like from the atomic object. -/
def status : PC V → AStatus (Op V) (Ret V)
  | .idle | .crashed => .idle
  | .pbLoad v | .pbWrite v _ _ _ | .pbCas v _ _ _ => .pending (.pushBack v)
  | .pfLoad v | .pfWrite v _ _ _ | .pfCas v _ _ _ => .pending (.pushFront v)
  | .ofLoad _ | .ofRead _ _ _ | .ofCas _ _ _ _ => .pending .popFront
  | .obLoad _ | .obRead _ _ _ | .obCas _ _ _ _ => .pending .popBack
  | .ret r => .done r

/-- What is known about the producer. -/
def ProdOk (q : Q V) : PC V → Prop
  | .idle | .pbLoad _ | .ret _ => True
  | .pbWrite _ h tl ht => headTail ht = (h, tl) ∧ tl = (headTail q.headtail).2 ∧ h ≠ next q.d tl
  | .pbCas v h tl ht => headTail ht = (h, tl) ∧ tl = (headTail q.headtail).2 ∧ h ≠ next q.d tl ∧
      q.d[tl.toNat]? = some v
  | _ => False

/-- What is known about the consumer. -/
def ConsOk (q : Q V) (l : List V) : PC V → Prop
  | .idle | .ret _ => True
  | .ofLoad v => l = [] → v = default
  | .ofRead h tl ht => headTail ht = (h, tl) ∧ h = (headTail q.headtail).1 ∧ l ≠ []
  | .ofCas v h tl ht => headTail ht = (h, tl) ∧ h = (headTail q.headtail).1 ∧ l ≠ [] ∧ q.d[h.toNat]? = some v
  | _ => False

/-- The simulation relation for one producer and one consumer. -/
structure Sp (c : Nat) (s : St V) (a : AState (List V) (Op V) (Ret V)) : Prop where
  len : s.q.d.length = c + 1
  bound : c + 1 < 2 ^ 31
  ring : Ring.Rel (headTail s.q.headtail).1.toNat (headTail s.q.headtail).2.toNat s.q.d a.s
  prod : ProdOk s.q (s.pc 0)
  cons : ConsOk s.q a.s (s.pc 1)
  rest : ∀ t, t ≠ 0 → t ≠ 1 → s.pc t = .idle
  st : ∀ t, a.th t = status (s.pc t)

theorem Sp.t0 {c : Nat} {s : St V} {a : AState (List V) (Op V) (Ret V)} (h : Sp c s a) (t : Nat) (p : PC V)
    (hp : s.pc t = p) (hc : ¬ ConsOk s.q a.s p) (hi : p ≠ .idle) : t = 0 := by
  by_contra h0
  by_cases h1 : t = 1
  · subst h1; exact hc (hp ▸ h.cons)
  · exact hi (hp.symm.trans (h.rest t h0 h1))

theorem Sp.t1 {c : Nat} {s : St V} {a : AState (List V) (Op V) (Ret V)} (h : Sp c s a) (t : Nat) (p : PC V)
    (hp : s.pc t = p) (hc : ¬ ProdOk s.q p) (hi : p ≠ .idle) : t = 1 := by
  by_contra h1
  by_cases h0 : t = 0
  · subst h0; exact hc (hp ▸ h.prod)
  · exact hi (hp.symm.trans (h.rest t h0 h1))

theorem status_set {s : St V} {a : AState (List V) (Op V) (Ret V)} (h : ∀ t, a.th t = status (s.pc t)) (t : Nat)
    (p : PC V) (q : AStatus (Op V) (Ret V)) (hq : q = status p) :
    ∀ t', setAt a.th t q t' = status (setAt s.pc t p t') := by
  intro t'
  by_cases e : t' = t
  · subst e; simp [setAt_same, hq]
  · simp [setAt_ne _ _ _ _ e, h]

theorem status_keep {s : St V} {a : AState (List V) (Op V) (Ret V)} (h : ∀ t, a.th t = status (s.pc t)) (t : Nat)
    (p : PC V) (hq : status p = status (s.pc t)) : ∀ t', a.th t' = status (setAt s.pc t p t') := by
  intro t'
  by_cases e : t' = t
  · subst e; simp [setAt_same, hq, h]
  · simp [setAt_ne _ _ _ _ e, h]

theorem Exec.one {S E : Type} {step : S → Option E → S → Prop} {s s' : S} {e : Option E} (h : step s e s') :
    Exec step s e.toList s' := by
  cases e with
  | none => exact .silent (.refl _) h
  | some e => exact .visible (.refl _) h

/-- A step of the producer that does not touch the buffer. -/
theorem Sp.gotoP {c : Nat} {s : St V} {a : AState (List V) (Op V) (Ret V)} (h : Sp c s a) (p : PC V)
    (hp : ProdOk s.q p) (th : Nat → AStatus (Op V) (Ret V)) (hth : ∀ t, th t = status (setAt s.pc 0 p t)) :
    Sp c (s.goto 0 p) ⟨a.s, th⟩ := by
  refine ⟨h.len, h.bound, h.ring, by simpa [St.goto, setAt_same] using hp, ?_, ?_, hth⟩
  · simpa [St.goto, setAt_ne] using h.cons
  · intro t h0 h1
    simp only [St.goto, setAt_ne _ _ _ _ h0]
    exact h.rest t h0 h1

/-- A step of the consumer that does not touch the buffer. -/
theorem Sp.gotoC {c : Nat} {s : St V} {a : AState (List V) (Op V) (Ret V)} (h : Sp c s a) (p : PC V)
    (hp : ConsOk s.q a.s p) (th : Nat → AStatus (Op V) (Ret V)) (hth : ∀ t, th t = status (setAt s.pc 1 p t)) :
    Sp c (s.goto 1 p) ⟨a.s, th⟩ := by
  refine ⟨h.len, h.bound, h.ring, ?_, by simpa [St.goto, setAt_same] using hp, ?_, hth⟩
  · simpa [St.goto, setAt_ne] using h.prod
  · intro t h0 h1
    simp only [St.goto, setAt_ne _ _ _ _ h1]
    exact h.rest t h0 h1

theorem ring_setTail {head tail : Nat} {d l : List V} (h : Ring.Rel head tail d l) (v : V) :
    Ring.Rel head tail (d.set tail v) l := by
  obtain ⟨h1, h2, h3, h4⟩ := h
  refine ⟨by simpa using h1, by simpa using h2, by simpa using h3, fun i hi => ?_⟩
  rw [List.length_set, List.getElem?_set_ne, h4 i hi]
  subst h3; unfold Ring.wrap; split <;> split <;> omega

theorem next_set (d : List V) (i : Nat) (v : V) (t : BitVec 32) : next (d.set i v) t = next d t := by
  unfold next cap
  rw [List.length_set]

theorem set_self {d : List V} {i : Nat} {v : V} (h : d[i]? = some v) : d.set i v = d := by
  apply List.ext_getElem?
  intro j
  by_cases e : j = i
  · subst e
    have := (List.getElem?_eq_some_iff.1 h).1
    rw [h]; simp [this]
  · rw [List.getElem?_set_ne (fun h => e h.symm)]

theorem sp_sim {c : Nat} (s : St V) (a : AState (List V) (Op V) (Ret V)) (e : Option (Ev (Op V) (Ret V))) (s' : St V)
    (hS : Sp c s a) (hs : Step s e s' ∧ Spsc e) : ∃ a', Exec (AStep deque) a e.toList a' ∧ Sp c s' a' := by
  obtain ⟨hs, hsp⟩ := hs
  cases hs with
  | callPB t v hp =>
    have ht : t = 0 := hsp
    subst ht
    exact ⟨_, Exec.one (.call a 0 (.pushBack v) (by rw [hS.st, hp]; rfl)), hS.gotoP (.pbLoad v) trivial _ (status_set hS.st 0 _ _ rfl)⟩
  | callPF t v hp => exact absurd hsp (by simp [Spsc])
  | callOB t hp => exact absurd hsp (by simp [Spsc])
  | callOF t hp =>
    have ht : t = 1 := hsp
    subst ht
    exact ⟨_, Exec.one (.call a 1 .popFront (by rw [hS.st, hp]; rfl)), hS.gotoC (.ofLoad default) (fun _ => rfl) _ (status_set hS.st 1 _ _ rfl)⟩
  | pfLoad t v hp =>
    have h0 := hS.t0 t _ hp (by simp [ConsOk]) (by simp)
    have h1 := hS.t1 t _ hp (by simp [ProdOk]) (by simp)
    omega
  | pfWrite t v h tl ht hp =>
    have h0 := hS.t0 t _ hp (by simp [ConsOk]) (by simp)
    have h1 := hS.t1 t _ hp (by simp [ProdOk]) (by simp)
    omega
  | pfCas t v h tl ht hp =>
    have h0 := hS.t0 t _ hp (by simp [ConsOk]) (by simp)
    have h1 := hS.t1 t _ hp (by simp [ProdOk]) (by simp)
    omega
  | obLoad t v hp =>
    have h0 := hS.t0 t _ hp (by simp [ConsOk]) (by simp)
    have h1 := hS.t1 t _ hp (by simp [ProdOk]) (by simp)
    omega
  | obRead t h tl ht hp =>
    have h0 := hS.t0 t _ hp (by simp [ConsOk]) (by simp)
    have h1 := hS.t1 t _ hp (by simp [ProdOk]) (by simp)
    omega
  | obCas t v h tl ht hp =>
    have h0 := hS.t0 t _ hp (by simp [ConsOk]) (by simp)
    have h1 := hS.t1 t _ hp (by simp [ProdOk]) (by simp)
    omega
  | pbLoad t v hp =>
    obtain rfl := hS.t0 t _ hp (by simp [ConsOk]) (by simp)
    refine ⟨a, .refl _, ?_⟩
    split
    · exact hS.gotoP (.pbLoad v) trivial _ (status_keep hS.st 0 _ (by rw [hp]))
    · rename_i hne
      exact hS.gotoP (.pbWrite v _ _ _) ⟨rfl, rfl, hne⟩ _ (status_keep hS.st 0 _ (by rw [hp]; rfl))
  | pbWrite t v h tl ht hp =>
    obtain rfl := hS.t0 t _ hp (by simp [ConsOk]) (by simp)
    have hprod := hS.prod
    rw [hp] at hprod
    obtain ⟨q1, q2, q3⟩ := hprod
    have htl := hS.ring.tail_lt
    rw [← q2] at htl
    refine ⟨a, .refl _, ?_⟩
    unfold Go.set
    rw [if_pos htl]
    refine ⟨by simpa using hS.len, hS.bound, ?_, ?_, ?_, ?_, status_keep hS.st 0 _ (by rw [hp]; rfl)⟩
    · have := ring_setTail hS.ring v
      rw [← q2] at this
      rw [q2] at this ⊢
      exact this
    · simp only [setAt_same]
      exact ⟨q1, q2, by rw [next_set]; exact q3, by simp [htl]⟩
    · simp only [setAt_ne s.pc 0 1 _ (by decide)]
      have hc := hS.cons
      cases hpc : s.pc 1 with
      | ofCas w h' tl' ht' =>
        rw [hpc] at hc
        obtain ⟨r1, r2, r3, r4⟩ := hc
        refine ⟨r1, r2, r3, ?_⟩
        simp only
        rw [List.getElem?_set_ne, r4]
        rw [q2, r2]
        intro e
        exact r3 (hS.ring.empty_iff.1 e.symm)
      | _ => rw [hpc] at hc; exact hc
    · intro t h0 h1
      simp only [setAt_ne _ _ _ _ h0]
      exact hS.rest t h0 h1
  | pbCas t v h tl ht hp =>
    obtain rfl := hS.t0 t _ hp (by simp [ConsOk]) (by simp)
    have hprod := hS.prod
    rw [hp] at hprod
    obtain ⟨q1, q2, q3, q4⟩ := hprod
    have hb := hS.bound
    have hlen := hS.len
    by_cases hcas : s.q.headtail = ht
    · rw [if_pos hcas]
      refine ⟨_, Exec.one (.effect a 0 (.pushBack v) (by rw [hS.st, hp]; rfl)), ?_⟩
      have hn := toNat_next (d := s.q.d) (by omega) _ hS.ring.tail_lt
      have hhead : h = (headTail s.q.headtail).1 := by rw [hcas, q1]
      have hroom : a.s.length + 1 < s.q.d.length := by
        by_contra hc
        refine q3 ?_
        rw [hhead, q2, ← BitVec.toNat_inj, hn]
        exact (rel_full_iff hS.ring).2 hc
      refine ⟨hlen, hb, ?_, ?_, ?_, ?_, status_set hS.st 0 _ _ rfl⟩
      · simp only [C32_unpack_pack]
        have := hS.ring.pushBack v hroom
        rw [hhead, q2, hn]
        rw [← q2] at this ⊢
        rw [show s.q.d.set tl.toNat v = s.q.d from set_self q4] at this
        exact this
      · simp [setAt_same, ProdOk]
      · simp only [setAt_ne s.pc 0 1 _ (by decide)]
        have hc := hS.cons
        cases hpc : s.pc 1 with
        | ofRead h' tl' ht' =>
          rw [hpc] at hc
          obtain ⟨r1, r2, r3⟩ := hc
          exact ⟨r1, by simp only [C32_unpack_pack]; rw [r2, hhead], by simp [deque]⟩
        | ofCas w h' tl' ht' =>
          rw [hpc] at hc
          obtain ⟨r1, r2, r3, r4⟩ := hc
          exact ⟨r1, by simp only [C32_unpack_pack]; rw [r2, hhead], by simp [deque], r4⟩
        | ofLoad w => exact fun h => absurd h (by simp [deque])
        | _ => rw [hpc] at hc; exact hc
      · intro t h0 h1
        simp only [setAt_ne _ _ _ _ h0]
        exact hS.rest t h0 h1
    · rw [if_neg hcas]
      exact ⟨a, .refl _, hS.gotoP (.pbLoad v) trivial _ (status_keep hS.st 0 _ (by rw [hp]; rfl))⟩
  | ofLoad t v hp =>
    obtain rfl := hS.t1 t _ hp (by simp [ProdOk]) (by simp)
    have hc := hS.cons
    rw [hp] at hc
    split
    · rename_i he
      have ha : a.s = [] := hS.ring.empty_iff.1 (by rw [he])
      refine ⟨_, Exec.one (.effect a 1 .popFront (by rw [hS.st, hp]; rfl)), ?_⟩
      rw [hc ha]
      have := hS.gotoC (.ret (.popped default false)) trivial (setAt a.th 1 (.done (.popped default false)))
        (status_set hS.st 1 _ _ rfl)
      rw [ha] at this ⊢
      exact this
    · rename_i hne
      refine ⟨a, .refl _, hS.gotoC (.ofRead _ _ _) ⟨rfl, rfl, ?_⟩ _ (status_keep hS.st 1 _ (by rw [hp]; rfl))⟩
      intro ha
      exact hne (BitVec.toNat_inj.1 (hS.ring.empty_iff.2 ha))
  | ofRead t h tl ht hp =>
    obtain rfl := hS.t1 t _ hp (by simp [ProdOk]) (by simp)
    have hc := hS.cons
    rw [hp] at hc
    obtain ⟨r1, r2, r3⟩ := hc
    refine ⟨a, .refl _, ?_⟩
    have hlt := hS.ring.1
    rw [← r2] at hlt
    have hg : s.q.d[h.toNat]? = some s.q.d[h.toNat] := List.getElem?_eq_getElem hlt
    unfold Go.get
    rw [hg]
    exact hS.gotoC (.ofCas _ _ _ _) ⟨r1, r2, r3, hg⟩ _ (status_keep hS.st 1 _ (by rw [hp]; rfl))
  | ofCas t v h tl ht hp =>
    obtain rfl := hS.t1 t _ hp (by simp [ProdOk]) (by simp)
    have hc := hS.cons
    rw [hp] at hc
    obtain ⟨r1, r2, r3, r4⟩ := hc
    have hb := hS.bound
    have hlen := hS.len
    by_cases hcas : s.q.headtail = ht
    · rw [if_pos hcas]
      have htl : tl = (headTail s.q.headtail).2 := by rw [hcas, r1]
      cases ha : a.s with
      | nil => exact absurd ha r3
      | cons w r =>
        have hf := hS.ring.front r3
        rw [← r2, r4, ha] at hf
        simp only [List.head?_cons, Option.some.injEq] at hf
        subst hf
        refine ⟨_, Exec.one (.effect a 1 .popFront (by rw [hS.st, hp]; rfl)), ?_⟩
        rw [ha]
        refine ⟨hlen, hb, ?_, ?_, ?_, ?_, status_set hS.st 1 _ _ rfl⟩
        · simp only [C32_unpack_pack]
          have := hS.ring.popFront r3
          rw [← toNat_next (by omega) _ hS.ring.1] at this
          rw [htl, r2]
          rw [ha] at this
          exact this
        · simp only [setAt_ne s.pc 1 0 _ (by decide)]
          have hc := hS.prod
          cases hpc : s.pc 0 with
          | pbWrite w' h' tl' ht' =>
            rw [hpc] at hc
            obtain ⟨p1, p2, p3⟩ := hc
            exact ⟨p1, by simp only [C32_unpack_pack]; rw [p2, htl], p3⟩
          | pbCas w' h' tl' ht' =>
            rw [hpc] at hc
            obtain ⟨p1, p2, p3, p4⟩ := hc
            exact ⟨p1, by simp only [C32_unpack_pack]; rw [p2, htl], p3, p4⟩
          | _ => rw [hpc] at hc; exact hc
        · simp [setAt_same, ConsOk]
        · intro t h0 h1
          simp only [setAt_ne _ _ _ _ h1]
          exact hS.rest t h0 h1
    · rw [if_neg hcas]
      exact ⟨a, .refl _, hS.gotoC (.ofLoad v) (fun h => absurd h r3) _ (status_keep hS.st 1 _ (by rw [hp]; rfl))⟩
  | ret t r hp =>
    by_cases h0 : t = 0
    · subst h0
      exact ⟨_, Exec.one (.ret a 0 r (by rw [hS.st, hp]; rfl)), hS.gotoP .idle trivial _ (status_set hS.st 0 _ _ rfl)⟩
    · by_cases h1 : t = 1
      · subst h1
        exact ⟨_, Exec.one (.ret a 1 r (by rw [hS.st, hp]; rfl)), hS.gotoC .idle trivial _ (status_set hS.st 1 _ _ rfl)⟩
      · rw [hS.rest t h0 h1] at hp; cases hp

theorem sp_init (n : Nat) (h0 : 0 < n) (hn : n < 2 ^ 31) : Sp (V := V) (n - 1) (start n) (AState.init []) := by
  have e : (start n : St V) = ⟨⟨0, List.replicate n default⟩, fun _ => .idle⟩ := by
    have h1 : ¬ ((n : Int) ≤ 0) := by omega
    simp only [start, new, init, if_true, if_neg h1, Int.toNat_natCast]
  rw [e]
  refine ⟨?_, by omega, init_nil_rel n h0, trivial, trivial, fun _ _ _ => rfl, fun _ => rfl⟩
  rw [List.length_replicate]
  omega

/-- C33 as far as it is true: with one goroutine calling `PushBack` and one goroutine calling `PopFront`, under
every interleaving, the deque is linearizable to a FIFO, and never holds more than `n - 1` values.  Missing: more
goroutines (false, see `C33_concurrent_false`) and the other end (false, see `C33_pushFront_panics`). -/
theorem C33_spsc_partial (n : Nat) (h0 : 0 < n) (hn : n < 2 ^ 31) {τ : List (Ev (Op V) (Ret V))} {s : St V}
    (h : Exec (fun s e s' => Step s e s' ∧ Spsc e) (start n) τ s) :
    ∃ a, Exec (AStep deque) (AState.init []) τ a ∧ a.s.length ≤ n - 1 ∧ ∀ t, s.pc t ≠ .crashed := by
  obtain ⟨a, ha, hr⟩ := linearizable_of_simulation (Sp (n - 1)) (sp_init n h0 hn) sp_sim h
  refine ⟨a, ha, ?_, fun t e => ?_⟩
  · have := hr.ring.2.1
    have := hr.len
    omega
  · by_cases h0 : t = 0
    · subst h0; have := hr.prod; rw [e] at this; exact this
    · by_cases h1 : t = 1
      · subst h1; have := hr.cons; rw [e] at this; exact this
      · rw [hr.rest t h0 h1] at e; cases e

/-- What a call returns and what it leaves behind when nothing else happens; `none`: it waits for room. -/
def alone (q : Q V) : Op V → Res (Option (Q V × Ret V))
  | .pushBack v => do return (← pushBack q v).map fun q' => (q', .pushed)
  | .pushFront v => do return (← pushFront q v).map fun q' => (q', .pushed)
  | .popFront => do let (q', v, ok) ← popFront q; return some (q', .popped v ok)
  | .popBack => do let (q', v, ok) ← popBack q; return some (q', .popped v ok)

theorem setAt_setAt {β : Type} (f : Nat → β) (i : Nat) (u v : β) : setAt (setAt f i u) i v = setAt f i v := by
  funext j; simp only [setAt]; split <;> rfl

theorem setAt_self {β : Type} (f : Nat → β) (i : Nat) (v : β) (h : f i = v) : setAt f i v = f := by
  funext j; simp only [setAt]; split
  · rename_i e; rw [e, h]
  · rfl

/-- C32: the interleaving model and the single-threaded one agree.  A goroutine that calls an operation and then
runs without interference completes it with the result of the single-threaded operation, and panics where that
panics. -/
theorem C32_alone (s : St V) (t : Nat) (op : Op V) (hd : s.q.d ≠ []) (hi : s.pc t = .idle) :
    (∀ q' r, alone s.q op = .ok (some (q', r)) → Exec Step s [.call t op, .ret t r] ⟨q', s.pc⟩) ∧
    (alone s.q op = .panic → Exec Step s [.call t op] (s.goto t .crashed)) := by
  obtain ⟨⟨ht, d⟩, pc⟩ := s
  simp only at hd hi
  have step : ∀ {q q' : Q V} {p p' : PC V} {x y : St V} {τ : List (Ev (Op V) (Ret V))} {u : St V},
      x = ⟨q, setAt pc t p⟩ → Exec Step u τ x → Step ⟨q, setAt pc t p⟩ none y → y = ⟨q', setAt pc t p'⟩ →
      Exec Step u τ ⟨q', setAt pc t p'⟩ := by
    rintro q q' p p' x y τ u rfl h1 h2 rfl
    exact .silent h1 h2
  have fin : ∀ {q : Q V} {r : Ret V} {u : St V} {o : Op V}, Exec Step u [.call t o] ⟨q, setAt pc t (.ret r)⟩ →
      Exec Step u [.call t o, .ret t r] ⟨q, pc⟩ := by
    intro q r u o h
    have h2 := Step.ret (⟨q, setAt pc t (.ret r)⟩ : St V) t r (setAt_same pc t _)
    have h3 := Exec.visible h h2
    rw [show (St.goto ⟨q, setAt pc t (.ret r)⟩ t .idle : St V) = ⟨q, pc⟩ by
      simp only [St.goto, setAt_setAt]; rw [setAt_self pc t _ hi]] at h3
    exact h3
  cases op with
  | pushBack v =>
    have e1 : Exec Step ⟨⟨ht, d⟩, pc⟩ [.call t (.pushBack v)] ⟨⟨ht, d⟩, setAt pc t (.pbLoad v)⟩ :=
      Exec.one (e := some _) (Step.callPB (⟨⟨ht, d⟩, pc⟩ : St V) t v hi)
    by_cases hf : (headTail ht).1 = next d (headTail ht).2
    · simp [alone, pushBack, hd, hf]
    have e2 := step rfl e1 (.pbLoad _ t v (setAt_same _ _ _)) (p' := .pbWrite v (headTail ht).1 (headTail ht).2 ht)
      (q' := ⟨ht, d⟩) (by simp only [St.goto, setAt_setAt, if_neg hf])
    cases hs : Go.set d (headTail ht).2.toNat v with
    | panic =>
      have e3 := step rfl e2 (.pbWrite _ t _ _ _ _ (setAt_same _ _ _)) (p' := .crashed)
        (q' := ⟨ht, d⟩) (by simp only [hs, St.goto, setAt_setAt])
      simp [alone, pushBack, hd, hf, hs]
      exact e3
    | ok d' =>
      have e3 := step rfl e2 (.pbWrite _ t _ _ _ _ (setAt_same _ _ _)) (p' := .pbCas v (headTail ht).1 (headTail ht).2 ht)
        (q' := ⟨ht, d'⟩) (by simp only [hs, setAt_setAt])
      have e4 := step rfl e3 (.pbCas _ t _ _ _ _ (setAt_same _ _ _)) (p' := .ret .pushed)
        (q' := ⟨makeHeadTail (headTail ht).1 (next d' (headTail ht).2), d'⟩) (by simp only [setAt_setAt, if_true])
      have hl : cap d' = cap d := by
        unfold Go.set at hs; split at hs <;> simp at hs; rw [← hs]; simp [cap]
      have hn : next d' (headTail ht).2 = next d (headTail ht).2 := by simp only [next, hl]
      rw [hn] at e4
      simp [alone, pushBack, hd, hf, hs]
      exact fin e4
  | pushFront v =>
    have e1 : Exec Step ⟨⟨ht, d⟩, pc⟩ [.call t (.pushFront v)] ⟨⟨ht, d⟩, setAt pc t (.pfLoad v)⟩ :=
      Exec.one (e := some _) (Step.callPF (⟨⟨ht, d⟩, pc⟩ : St V) t v hi)
    by_cases hf : prev (headTail ht).1 = (headTail ht).2
    · simp [alone, pushFront, hd, hf]
    have e2 := step rfl e1 (.pfLoad _ t v (setAt_same _ _ _)) (p' := .pfWrite v (prev (headTail ht).1) (headTail ht).2 ht)
      (q' := ⟨ht, d⟩) (by simp only [St.goto, setAt_setAt, if_neg hf])
    cases hs : Go.set d (prev (headTail ht).1).toNat v with
    | panic =>
      have e3 := step rfl e2 (.pfWrite _ t _ _ _ _ (setAt_same _ _ _)) (p' := .crashed)
        (q' := ⟨ht, d⟩) (by simp only [hs, St.goto, setAt_setAt])
      simp [alone, pushFront, hd, hf, hs]
      exact e3
    | ok d' =>
      have e3 := step rfl e2 (.pfWrite _ t _ _ _ _ (setAt_same _ _ _))
        (p' := .pfCas v (prev (headTail ht).1) (headTail ht).2 ht) (q' := ⟨ht, d'⟩) (by simp only [hs, setAt_setAt])
      have e4 := step rfl e3 (.pfCas _ t _ _ _ _ (setAt_same _ _ _)) (p' := .ret .pushed)
        (q' := ⟨makeHeadTail (prev (headTail ht).1) (headTail ht).2, d'⟩) (by simp only [setAt_setAt, if_true])
      simp [alone, pushFront, hd, hf, hs]
      exact fin e4
  | popFront =>
    have e1 : Exec Step ⟨⟨ht, d⟩, pc⟩ [.call t .popFront] ⟨⟨ht, d⟩, setAt pc t (.ofLoad default)⟩ :=
      Exec.one (e := some _) (Step.callOF (⟨⟨ht, d⟩, pc⟩ : St V) t hi)
    by_cases hf : (headTail ht).1 = (headTail ht).2
    · have e2 := step rfl e1 (.ofLoad _ t _ (setAt_same _ _ _)) (p' := .ret (.popped default false))
        (q' := ⟨ht, d⟩) (by simp only [St.goto, setAt_setAt, if_pos hf])
      simp [alone, popFront, hf]
      exact fin e2
    have e2 := step rfl e1 (.ofLoad _ t _ (setAt_same _ _ _)) (p' := .ofRead (headTail ht).1 (headTail ht).2 ht)
      (q' := ⟨ht, d⟩) (by simp only [St.goto, setAt_setAt, if_neg hf])
    cases hs : Go.get d (headTail ht).1.toNat with
    | panic =>
      have e3 := step rfl e2 (.ofRead _ t _ _ _ (setAt_same _ _ _)) (p' := .crashed)
        (q' := ⟨ht, d⟩) (by simp only [hs, St.goto, setAt_setAt])
      simp [alone, popFront, hf, hs]
      exact e3
    | ok v =>
      have e3 := step rfl e2 (.ofRead _ t _ _ _ (setAt_same _ _ _)) (p' := .ofCas v (headTail ht).1 (headTail ht).2 ht)
        (q' := ⟨ht, d⟩) (by simp only [hs, St.goto, setAt_setAt])
      have e4 := step rfl e3 (.ofCas _ t _ _ _ _ (setAt_same _ _ _)) (p' := .ret (.popped v true))
        (q' := ⟨makeHeadTail (next d (headTail ht).1) (headTail ht).2, d⟩) (by simp only [setAt_setAt, if_true])
      simp [alone, popFront, hf, hs]
      exact fin e4
  | popBack =>
    have e1 : Exec Step ⟨⟨ht, d⟩, pc⟩ [.call t .popBack] ⟨⟨ht, d⟩, setAt pc t (.obLoad default)⟩ :=
      Exec.one (e := some _) (Step.callOB (⟨⟨ht, d⟩, pc⟩ : St V) t hi)
    by_cases hf : (headTail ht).1 = (headTail ht).2
    · have e2 := step rfl e1 (.obLoad _ t _ (setAt_same _ _ _)) (p' := .ret (.popped default false))
        (q' := ⟨ht, d⟩) (by simp only [St.goto, setAt_setAt, if_pos hf])
      simp [alone, popBack, hf]
      exact fin e2
    have e2 := step rfl e1 (.obLoad _ t _ (setAt_same _ _ _)) (p' := .obRead (headTail ht).1 (prev (headTail ht).2) ht)
      (q' := ⟨ht, d⟩) (by simp only [St.goto, setAt_setAt, if_neg hf])
    cases hs : Go.get d (prev (headTail ht).2).toNat with
    | panic =>
      have e3 := step rfl e2 (.obRead _ t _ _ _ (setAt_same _ _ _)) (p' := .crashed)
        (q' := ⟨ht, d⟩) (by simp only [hs, St.goto, setAt_setAt])
      simp [alone, popBack, hf, hs]
      exact e3
    | ok v =>
      have e3 := step rfl e2 (.obRead _ t _ _ _ (setAt_same _ _ _))
        (p' := .obCas v (headTail ht).1 (prev (headTail ht).2) ht) (q' := ⟨ht, d⟩) (by simp only [hs, St.goto, setAt_setAt])
      have e4 := step rfl e3 (.obCas _ t _ _ _ _ (setAt_same _ _ _)) (p' := .ret (.popped v true))
        (q' := ⟨makeHeadTail (headTail ht).1 (prev (headTail ht).2), d⟩) (by simp only [setAt_setAt, if_true])
      simp [alone, popBack, hf, hs]
      exact fin e4

/-- Both parts of `C32_alone` occur: on a new deque `PopFront` returns, `PushFront` panics. -/
example : alone (new 4 : Q Nat) .popFront = .ok (some (new 4, .popped 0 false)) ∧
    alone (new 4 : Q Nat) (.pushFront 1) = .panic := by
  refine ⟨rfl, ?_⟩
  have := C33_pushFront_panics (V := Nat) 4 (by decide) (by decide) 1
  simp only [alone]
  rw [show ((4 : Nat) : Int) = 4 from rfl] at this
  rw [this]
  rfl

/-- The next step of goroutine `t`, computed. -/
def act (s : St V) (t : Nat) : Option (Option (Ev (Op V) (Ret V)) × St V) :=
  match s.pc t with
  | .idle | .crashed => none
  | .pbLoad v => some (none, s.goto t (if (headTail s.q.headtail).1 = next s.q.d (headTail s.q.headtail).2 then .pbLoad v
        else .pbWrite v (headTail s.q.headtail).1 (headTail s.q.headtail).2 s.q.headtail))
  | .pbWrite v h tl ht => some (none, match Go.set s.q.d tl.toNat v with
        | .ok d => ⟨⟨s.q.headtail, d⟩, setAt s.pc t (.pbCas v h tl ht)⟩
        | .panic => s.goto t .crashed)
  | .pbCas v h tl ht => some (none,
      if s.q.headtail = ht then ⟨⟨makeHeadTail h (next s.q.d tl), s.q.d⟩, setAt s.pc t (.ret .pushed)⟩
        else s.goto t (.pbLoad v))
  | .ofLoad v => some (none, s.goto t (if (headTail s.q.headtail).1 = (headTail s.q.headtail).2 then .ret (.popped v false)
        else .ofRead (headTail s.q.headtail).1 (headTail s.q.headtail).2 s.q.headtail))
  | .ofRead h tl ht => some (none, s.goto t (match Go.get s.q.d h.toNat with
        | .ok v => .ofCas v h tl ht
        | .panic => .crashed))
  | .ofCas v h tl ht => some (none,
      if s.q.headtail = ht then ⟨⟨makeHeadTail (next s.q.d h) tl, s.q.d⟩, setAt s.pc t (.ret (.popped v true))⟩
        else s.goto t (.ofLoad v))
  | .ret r => some (some (.ret t r), s.goto t .idle)
  | _ => none

theorem act_sound {s s' : St V} {t : Nat} {e : Option (Ev (Op V) (Ret V))} (h : act s t = some (e, s')) : Step s e s' := by
  unfold act at h
  split at h
  all_goals cases h
  all_goals rename_i hp
  · exact .pbLoad s t _ hp
  · exact .pbWrite s t _ _ _ _ hp
  · exact .pbCas s t _ _ _ _ hp
  · exact .ofLoad s t _ hp
  · exact .ofRead s t _ _ _ hp
  · exact .ofCas s t _ _ _ _ hp
  · exact .ret s t _ hp

/-- A schedule: goroutine `t` calls an operation, or takes its next step. -/
def sched (s : St V) : List (Nat × Option (Op V)) → Option (List (Ev (Op V) (Ret V)) × St V)
  | [] => some ([], s)
  | (t, none) :: r => (act s t).bind fun p => (sched p.2 r).map fun x => (p.1.toList ++ x.1, x.2)
  | (t, some (.pushBack v)) :: r =>
    match s.pc t with
    | .idle => (sched (s.goto t (.pbLoad v)) r).map fun x => (.call t (.pushBack v) :: x.1, x.2)
    | _ => none
  | (t, some .popFront) :: r =>
    match s.pc t with
    | .idle => (sched (s.goto t (.ofLoad default)) r).map fun x => (.call t .popFront :: x.1, x.2)
    | _ => none
  | _ => none

theorem sched_sound (r : List (Nat × Option (Op V))) : ∀ (s s' : St V) (τ : List (Ev (Op V) (Ret V))),
    sched s r = some (τ, s') → Exec Step s τ s' := by
  induction r with
  | nil => intro s s' τ h; cases h; exact .refl _
  | cons x r ih =>
    intro s s' τ h
    obtain ⟨t, o⟩ := x
    rcases o with _ | o
    · simp only [sched, Option.bind_eq_some_iff, Option.map_eq_some_iff] at h
      obtain ⟨⟨e, s1⟩, h1, ⟨τ', s2⟩, h2, h3⟩ := h
      cases h3
      exact (Exec.one (act_sound h1)).trans (ih _ _ _ h2)
    · cases o with
      | pushBack v =>
        simp only [sched] at h
        split at h
        · rename_i hp
          simp only [Option.map_eq_some_iff] at h
          obtain ⟨⟨τ', s2⟩, h2, h3⟩ := h
          cases h3
          exact (Exec.one (e := some _) (.callPB s t v hp)).trans (ih _ _ _ h2)
        · cases h
      | popFront =>
        simp only [sched] at h
        split at h
        · rename_i hp
          simp only [Option.map_eq_some_iff] at h
          obtain ⟨⟨τ', s2⟩, h2, h3⟩ := h
          cases h3
          exact (Exec.one (e := some _) (.callOF s t hp)).trans (ih _ _ _ h2)
        · cases h
      | pushFront v => simp [sched] at h
      | popBack => simp [sched] at h

theorem sched_exec {s : St V} {r : List (Nat × Option (Op V))} {τ : List (Ev (Op V) (Ret V))}
    (h : (sched s r).map Prod.fst = some τ) : ∃ s', Exec Step s τ s' := by
  simp only [Option.map_eq_some_iff] at h
  obtain ⟨⟨τ', s'⟩, h1, rfl⟩ := h
  exact ⟨s', sched_sound r _ _ _ h1⟩

/-- C33 is false of the code: two concurrent `PushBack` calls of 1 and 2 both return, and two `PopFront` calls
then return 2 and 2: the value 1 is lost and the value 2 is delivered twice. -/
theorem C33_concurrent_false : ∃ s : St Nat, Exec Step (start 4)
    [.call 0 (.pushBack 1), .call 1 (.pushBack 2), .ret 0 .pushed, .ret 1 .pushed,
     .call 0 .popFront, .ret 0 (.popped 2 true), .call 0 .popFront, .ret 0 (.popped 2 true)] s :=
  sched_exec (r := [(0, some (.pushBack 1)), (1, some (.pushBack 2)), (0, none), (1, none), (0, none), (1, none),
    (0, none), (0, none), (1, none), (1, none), (1, none), (1, none), (1, none),
    (0, some .popFront), (0, none), (0, none), (0, none), (0, none),
    (0, some .popFront), (0, none), (0, none), (0, none), (0, none)]) (by decide +kernel)

/-- C33 is false of the code also with a single producer: of two consumers, one that was overtaken while the
indices went once around the buffer returns a value that was returned before. -/
theorem C33_aba_false : ∃ s : St Nat, Exec Step (start 2)
    [.call 0 (.pushBack 1), .ret 0 .pushed, .call 1 .popFront, .call 2 .popFront, .ret 2 (.popped 1 true),
     .call 0 (.pushBack 2), .ret 0 .pushed, .call 2 .popFront, .ret 2 (.popped 2 true),
     .call 0 (.pushBack 3), .ret 0 .pushed, .ret 1 (.popped 1 true)] s :=
  sched_exec (r := [(0, some (.pushBack 1)), (0, none), (0, none), (0, none), (0, none),
    (1, some .popFront), (1, none), (1, none),
    (2, some .popFront), (2, none), (2, none), (2, none), (2, none),
    (0, some (.pushBack 2)), (0, none), (0, none), (0, none), (0, none),
    (2, some .popFront), (2, none), (2, none), (2, none), (2, none),
    (0, some (.pushBack 3)), (0, none), (0, none), (0, none), (0, none),
    (1, none), (1, none)]) (by decide +kernel)

/-- C33, another way to fail: with two consumers, one that finds the deque empty after it was overtaken reports failure
together with the value the other one got. -/
theorem C33_stale_false : ∃ s : St Nat, Exec Step (start 4)
    [.call 0 (.pushBack 7), .ret 0 .pushed, .call 1 .popFront, .call 2 .popFront, .ret 2 (.popped 7 true),
     .ret 1 (.popped 7 false)] s :=
  sched_exec (r := [(0, some (.pushBack 7)), (0, none), (0, none), (0, none), (0, none),
    (1, some .popFront), (1, none), (1, none),
    (2, some .popFront), (2, none), (2, none), (2, none), (2, none),
    (1, none), (1, none), (1, none)]) (by decide +kernel)

/-- The hypothesis of `C33_spsc_partial` is met by overlapping calls. -/
example : ∃ s : St Nat, Exec (fun s e s' => Step s e s' ∧ Spsc e) (start 4)
    [.call 0 (.pushBack 1), .call 1 .popFront, .ret 1 (.popped 0 false)] s :=
  ⟨_, .visible (.silent (.visible (.visible (.refl _) ⟨.callPB _ 0 1 rfl, rfl⟩) ⟨.callOF _ 1 rfl, rfl⟩)
    ⟨.ofLoad _ 1 _ rfl, trivial⟩) ⟨.ret _ 1 _ (by decide +kernel), trivial⟩⟩

example : ∃ q, run (new 3 : Q Nat) [.pushBack 5, .pushBack 6, .pushBack 7, .popFront] =
    .ok (q, [.stored, .stored, .full, .popped 5 true]) :=
  C32_history 3 (by decide) (by decide) [.pushBack 5, .pushBack 6, .pushBack 7, .popFront]
/-- C33_pushFront_exact with one element behind the first place, where it works, and one at the first place, where it panics. -/
theorem ex_front : Rep 2 (⟨makeHeadTail 1 2, [5, 6, 0]⟩ : Q Nat) [6] ∧ Rep 2 (⟨makeHeadTail 0 1, [5, 6, 0]⟩ : Q Nat) [5] := by
  refine ⟨.inl ⟨rfl, by norm_num, by decide, by decide, by decide, ?_⟩, .inl ⟨rfl, by norm_num, by decide, by decide, by decide, ?_⟩⟩
  all_goals
    intro i hi
    obtain rfl : i = 0 := by simp at hi; omega
    decide
example : (∃ q', pushFront (⟨makeHeadTail 1 2, [5, 6, 0]⟩ : Q Nat) 9 = .ok (some q') ∧ Rep 2 q' [9, 6]) ∧
    pushFront (⟨makeHeadTail 0 1, [5, 6, 0]⟩ : Q Nat) 9 = .panic :=
  ⟨(C33_pushFront_exact 9 ex_front.1 (by simp)).2.1 (by decide) (by decide), (C33_pushFront_exact 9 ex_front.2 (by simp)).1 (by decide)⟩

end Verif.LFDeque
