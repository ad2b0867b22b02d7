import Verif.Model.Regable
import Mathlib.Tactic.Ring
/-! Helper lemmas for the registrars of values. -/
set_option linter.unusedSectionVars false

namespace Verif.Regable
open Verif.RangeU

theorem goGet_some {α} {l : List α} {i : Nat} {a : α} (h : l[i]? = some a) : Go.get l i = .ok a := by
  simp [Go.get, h]

theorem goGet_none {α} {l : List α} {i : Nat} (h : l[i]? = none) : Go.get l i = .panic := by
  simp [Go.get, h]

theorem goGet_ok {α} {l : List α} {i : Nat} {a : α} (h : Go.get l i = .ok a) : l[i]? = some a := by
  unfold Go.get at h
  cases hl : l[i]? with
  | none => simp [hl] at h
  | some b => simp [hl] at h; rw [h]

theorem goSet_some {α} {l : List α} {i : Nat} {a v : α} (h : l[i]? = some a) : Go.set l i v = .ok (l.set i v) := by
  have := (List.getElem?_eq_some_iff.1 h).1
  simp [Go.set, this]

theorem inc_eq (r : R 32) : inc r = (⟨r.val + 1#32, r.min, r.max⟩, r.val, false) := by
  simp [inc, RangeU.set, verify]

theorem verifyRange_eq (a b c : BitVec 32) : verifyRange a b c = false := by
  unfold verifyRange; simp

theorem regerInit_eq (name : String) : regerInit name = (⟨0#8, name, ⟨1#32, 0#32, 1024#32⟩, []⟩, false) := by
  simp [regerInit, verifyRange_eq]

/-- A record with its place: the `i`-th record of the `k`-th registrar. -/
def Rec.At (w : World) (k i : Nat) (r : Rec) : Prop :=
  ∃ rg, w.regers[k]? = some rg ∧ rg.regList[i]? = some r

/-- What every history keeps. -/
structure Inv (w : World) : Prop where
  gen : w.gen.val = BitVec.ofNat 32 (w.regers.length + 1)
  gmin : w.gen.min = 0#32
  rid : ∀ (k : Nat) (rg : Reger), w.regers[k]? = some rg → rg.regerId = BitVec.ofNat 8 (k + 1)
  rgen : ∀ (k : Nat) (rg : Reger), w.regers[k]? = some rg → rg.idGen.val = BitVec.ofNat 32 (rg.regList.length + 1)
  rmin : ∀ (k : Nat) (rg : Reger), w.regers[k]? = some rg → rg.idGen.min = 0#32
  recId : ∀ (k : Nat) (rg : Reger) (i : Nat) (r : Rec), w.regers[k]? = some rg → rg.regList[i]? = some r → r.id = BitVec.ofNat 32 (i + 1)

theorem Inv.init : Inv World.init := by
  constructor <;> simp [World.init]

theorem ofNat_succ (n : Nat) : BitVec.ofNat 32 (n + 1) + 1#32 = BitVec.ofNat 32 (n + 1 + 1) := by
  apply BitVec.eq_of_toNat_eq
  simp

/-- `newReger` in closed form. -/
theorem newReger_eq {w : World} {name : String} (hl : w.locked = false) :
    newReger w name = .ok (⟨⟨w.gen.val + 1#32, w.gen.min, w.gen.max⟩,
      w.regers ++ [⟨w.gen.val.setWidth 8, name, ⟨1#32, 0#32, 1024#32⟩, []⟩], w.locked⟩, w.regers.length) := by
  simp [newReger, checkLock, hl, inc_eq, regerInit_eq]

theorem newReger_locked {w : World} {name : String} (hl : w.locked = true) : newReger w name = .panic := by
  simp [newReger, checkLock, hl]

/-- `reg` in closed form. -/
theorem reg_eq {w : World} {k : Nat} {me : Reger} {name : String} {val : BitVec 32} (hl : w.locked = false)
    (hk : w.regers[k]? = some me) :
    reg w k name val = .ok ({ w with regers := w.regers.set k { me with
        idGen := ⟨me.idGen.val + 1#32, me.idGen.min, me.idGen.max⟩
        regList := me.regList ++ [⟨name, val, me.idGen.val⟩] } },
      makeRegedId (me.regerId.setWidth 32) me.idGen.val) := by
  simp [reg, checkLock, hl, goGet_some hk, inc_eq, goSet_some hk]

theorem reg_ok {w w' : World} {k : Nat} {name : String} {val id : BitVec 32} (h : reg w k name val = .ok (w', id)) :
    w.locked = false ∧ ∃ me, w.regers[k]? = some me := by
  unfold reg checkLock at h
  by_cases hl : w.locked = true
  · simp [hl] at h
  · have hl' : w.locked = false := by simpa using hl
    refine ⟨hl', ?_⟩
    cases hk : w.regers[k]? with
    | none => simp [hl', goGet_none hk] at h
    | some me => exact ⟨me, rfl⟩

/-- `setAt` in closed form. -/
theorem setAt_eq {w : World} {k i : Nat} {rg : Reger} {r : Rec} {val : BitVec 32} (hk : w.regers[k]? = some rg)
    (hi : rg.regList[i]? = some r) :
    setAt w k i val = .ok { w with regers := w.regers.set k { rg with
      regList := rg.regList.set i { r with val := val } } } := by
  simp [setAt, goGet_some hk, goGet_some hi, goSet_some hk, goSet_some hi]

theorem setAt_ok {w w' : World} {k i : Nat} {val : BitVec 32} (h : setAt w k i val = .ok w') :
    ∃ rg r, w.regers[k]? = some rg ∧ rg.regList[i]? = some r := by
  unfold setAt at h
  cases hk : w.regers[k]? with
  | none => simp [goGet_none hk] at h
  | some rg =>
    cases hi : rg.regList[i]? with
    | none => simp [goGet_some hk, goGet_none hi] at h
    | some r => exact ⟨rg, r, rfl, hi⟩

theorem Inv.newReger {w w' : World} {name : String} {k : Nat} (I : Inv w)
    (h : newReger w name = .ok (w', k)) : Inv w' := by
  by_cases hl : w.locked = true
  · rw [newReger_locked hl] at h; cases h
  · rw [newReger_eq (by simpa using hl)] at h
    simp only [Res.ok.injEq, Prod.mk.injEq] at h
    obtain ⟨rfl, rfl⟩ := h
    have key : ∀ j rg, (w.regers ++ [(⟨w.gen.val.setWidth 8, name, ⟨1#32, 0#32, 1024#32⟩, []⟩ : Reger)])[j]? = some rg →
        w.regers[j]? = some rg ∨ (j = w.regers.length ∧ rg = ⟨w.gen.val.setWidth 8, name, ⟨1#32, 0#32, 1024#32⟩, []⟩) := by
      intro j rg hj
      rw [List.getElem?_append] at hj
      split_ifs at hj with hlt
      · exact .inl hj
      · rw [List.getElem?_singleton] at hj
        split_ifs at hj with h0
        · simp only [Option.some.injEq] at hj
          exact .inr ⟨by omega, hj.symm⟩
    refine ⟨?_, I.gmin, ?_, ?_, ?_, ?_⟩
    · simp only [I.gen, List.length_append, List.length_singleton, ofNat_succ]
    · intro j rg hj
      rcases key j rg hj with h | ⟨rfl, rfl⟩
      · exact I.rid j rg h
      · simp only [I.gen]
        apply BitVec.eq_of_toNat_eq
        simp only [BitVec.toNat_setWidth, BitVec.toNat_ofNat]
        omega
    · intro j rg hj
      rcases key j rg hj with h | ⟨rfl, rfl⟩
      · exact I.rgen j rg h
      · simp
    · intro j rg hj
      rcases key j rg hj with h | ⟨rfl, rfl⟩
      · exact I.rmin j rg h
      · simp
    · intro j rg i r hj hi
      rcases key j rg hj with h | ⟨rfl, rfl⟩
      · exact I.recId j rg i r h hi
      · simp at hi

theorem Inv.replace {w : World} {k : Nat} {rg rg' : Reger} {b : Bool} (I : Inv w) (hk : w.regers[k]? = some rg)
    (h1 : rg'.regerId = rg.regerId) (h2 : rg'.idGen.val = BitVec.ofNat 32 (rg'.regList.length + 1))
    (h3 : rg'.idGen.min = 0#32) (h4 : ∀ i r, rg'.regList[i]? = some r → r.id = BitVec.ofNat 32 (i + 1)) :
    Inv ⟨w.gen, w.regers.set k rg', b⟩ := by
  have hlt := (List.getElem?_eq_some_iff.1 hk).1
  have key : ∀ (j : Nat) x, (w.regers.set k rg')[j]? = some x → (j = k ∧ x = rg') ∨ w.regers[j]? = some x := by
    intro j x hj
    rw [List.getElem?_set] at hj
    by_cases hkj : k = j
    · rw [if_pos hkj, if_pos (hkj ▸ hlt)] at hj
      simp only [Option.some.injEq] at hj
      exact .inl ⟨hkj.symm, hj.symm⟩
    · rw [if_neg hkj] at hj; exact .inr hj
  refine ⟨?_, I.gmin, ?_, ?_, ?_, ?_⟩
  · simpa using I.gen
  · intro j x hj
    rcases key j x hj with ⟨rfl, rfl⟩ | h
    · rw [h1]; exact I.rid j rg hk
    · exact I.rid j x h
  · intro j x hj
    rcases key j x hj with ⟨rfl, rfl⟩ | h
    · exact h2
    · exact I.rgen j x h
  · intro j x hj
    rcases key j x hj with ⟨rfl, rfl⟩ | h
    · exact h3
    · exact I.rmin j x h
  · intro j x i r hj hi
    rcases key j x hj with ⟨rfl, rfl⟩ | h
    · exact h4 i r hi
    · exact I.recId j x i r h hi

theorem Inv.reg {w w' : World} {k : Nat} {name : String} {val id : BitVec 32} (I : Inv w)
    (h : reg w k name val = .ok (w', id)) : Inv w' := by
  obtain ⟨hl, me, hk⟩ := reg_ok h
  rw [reg_eq hl hk] at h
  simp only [Res.ok.injEq, Prod.mk.injEq] at h
  obtain ⟨rfl, rfl⟩ := h
  refine I.replace hk rfl ?_ (I.rmin k me hk) ?_
  · simp only [I.rgen k me hk, List.length_append, List.length_singleton, ofNat_succ]
  · intro i r hi
    simp only at hi
    rw [List.getElem?_append] at hi
    split_ifs at hi with hlt
    · exact I.recId k me i r hk hi
    · rw [List.getElem?_singleton] at hi
      split_ifs at hi with h0
      · simp only [Option.some.injEq] at hi
        subst hi
        simp only [I.rgen k me hk]
        congr 1
        omega

theorem Inv.setAt {w w' : World} {k i : Nat} {val : BitVec 32} (I : Inv w) (h : setAt w k i val = .ok w') : Inv w' := by
  obtain ⟨rg, r, hk, hi⟩ := setAt_ok h
  rw [setAt_eq hk hi] at h
  simp only [Res.ok.injEq] at h
  subst h
  refine I.replace hk rfl ?_ (I.rmin k rg hk) ?_
  · simpa using I.rgen k rg hk
  · intro j x hj
    simp only [List.getElem?_set] at hj
    by_cases hij : i = j
    · rw [if_pos hij] at hj
      split_ifs at hj
      · simp only [Option.some.injEq] at hj
        subst hj
        subst hij
        exact I.recId k rg i r hk hi
    · rw [if_neg hij] at hj
      exact I.recId k rg j x hk hj

theorem find_cases (w : World) (cp : BitVec 32) : find w cp = .panic ∨ ∃ k i e, find w cp = .ok (k, i, e) := by
  cases find w cp with
  | panic => exact .inl rfl
  | ok x => exact .inr ⟨x.1, x.2.1, x.2.2, rfl⟩

theorem set_cases {w w' : World} {cp val : BitVec 32} {r} (h : set w cp val = .ok (w', r)) :
    w' = w ∨ ∃ k i, setAt w k i val = .ok w' := by
  unfold set at h
  rcases find_cases w cp with hf | ⟨k, i, e, hf⟩
  · simp [hf] at h
  · rw [hf] at h
    cases e with
    | true => simp at h; exact .inl h.1.symm
    | false =>
      simp only [Res.bind_ok, Bool.false_eq_true, if_false] at h
      cases hs : setAt w k i val with
      | panic => simp [hs] at h
      | ok w1 => simp [hs] at h; exact .inr ⟨k, i, by rw [hs, h.1]⟩

theorem objSet_cases {w w' : World} {o : Obj} {val : BitVec 32} {r} (h : objSet w o val = .ok (w', r)) :
    w' = w ∨ ∃ k i, setAt w k i val = .ok w' := by
  cases o with
  | none => simp [objSet] at h; exact .inl h.1.symm
  | some p =>
    obtain ⟨k, i⟩ := p
    simp only [objSet] at h
    cases hs : setAt w k i val with
    | panic => simp [hs] at h
    | ok w1 => simp [hs] at h; exact .inr ⟨k, i, by rw [hs, h.1]⟩

theorem maxReg_cases {w w' : World} {k : Nat} {n : BitVec 32} {r} (h : maxReg w k n = .ok (w', r)) :
    w' = w ∨ ∃ me, w.regers[k]? = some me ∧ w' = { w with regers := w.regers.set k { me with
      idGen := ⟨me.idGen.val, me.idGen.min, n⟩ } } := by
  unfold maxReg at h
  by_cases hv : verifyMaxRegs n = true
  · simp [hv] at h; exact .inl h.1.symm
  · cases hk : w.regers[k]? with
    | none => simp [hv, goGet_none hk] at h
    | some me =>
      simp [hv, goGet_some hk, verifyRange_eq, goSet_some hk] at h
      exact .inr ⟨me, rfl, h.1.symm⟩

theorem Inv.step {w w' : World} (I : Inv w) (h : Step w w') : Inv w' := by
  cases h with
  | newReger h => exact I.newReger h
  | reg h => exact I.reg h
  | set h =>
    rcases set_cases h with rfl | ⟨k, i, h⟩
    · exact I
    · exact I.setAt h
  | objSet h =>
    rcases objSet_cases h with rfl | ⟨k, i, h⟩
    · exact I
    · exact I.setAt h
  | maxReg h =>
    rcases maxReg_cases h with rfl | ⟨me, hk, rfl⟩
    · exact I
    · exact I.replace hk rfl (I.rgen _ me hk) (I.rmin _ me hk) (I.recId _ me · · hk)
  | finish => exact ⟨I.gen, I.gmin, I.rid, I.rgen, I.rmin, I.recId⟩

theorem Reach.inv {w : World} (h : Reach w) : Inv w := by
  induction h with
  | init => exact .init
  | step _ hs ih => exact ih.step hs

/-! ## Identifiers as numbers -/

theorem ids_fst (cp : BitVec 32) : (ids cp).1.toNat = cp.toNat / 2 ^ 24 := by
  simp [ids, BitVec.toNat_ushiftRight, Nat.shiftRight_eq_div_pow]

theorem ids_snd (cp : BitVec 32) : (ids cp).2.toNat = cp.toNat % 2 ^ 24 := by
  simp only [ids, BitVec.toNat_and]
  exact Nat.and_two_pow_sub_one_eq_mod cp.toNat 24

theorem makeRegedId_toNat (a b : BitVec 32) :
    (makeRegedId a b).toNat = a.toNat % 256 * 2 ^ 24 + b.toNat % 2 ^ 24 := by
  have h1 : (b &&& 0xFFFFFF#32).toNat = b.toNat % 2 ^ 24 := by
    rw [BitVec.toNat_and]; exact Nat.and_two_pow_sub_one_eq_mod b.toNat 24
  have h2 : (a <<< 24).toNat = (a.toNat % 256) <<< 24 := by
    rw [BitVec.toNat_shiftLeft, Nat.shiftLeft_eq, Nat.shiftLeft_eq]
    omega
  unfold makeRegedId
  rw [BitVec.toNat_or, h1, h2, ← Nat.shiftLeft_add_eq_or_of_lt (Nat.mod_lt _ (by decide)), Nat.shiftLeft_eq]

theorem ids_makeRegedId (a b : BitVec 32) :
    (ids (makeRegedId a b)).1.toNat = a.toNat % 256 ∧ (ids (makeRegedId a b)).2.toNat = b.toNat % 2 ^ 24 := by
  rw [ids_fst, ids_snd, makeRegedId_toNat]
  omega

theorem pred_toNat {x : BitVec 32} : (x - 0#32 - 1#32).toNat = if x.toNat = 0 then 2 ^ 32 - 1 else x.toNat - 1 := by
  rw [BitVec.sub_zero, BitVec.toNat_sub]
  have := x.isLt
  split_ifs with h
  · rw [h]; rfl
  · simp only [BitVec.toNat_ofNat]
    omega

/-- The number of calls a 32-bit counter can count. -/
structure Sane (w : World) : Prop where
  regers : w.regers.length < 2 ^ 32 - 1
  recs : ∀ (k : Nat) (rg : Reger), w.regers[k]? = some rg → rg.regList.length < 2 ^ 32 - 1

/-- The identifier `cp` denotes the `i`-th record of the `k`-th registrar. -/
def Denotes (cp : BitVec 32) (k i : Nat) : Prop := cp.toNat = (k + 1) * 2 ^ 24 + (i + 1) ∧ i + 1 < 2 ^ 24

theorem Denotes.unique {cp : BitVec 32} {k i k' i' : Nat} (h : Denotes cp k i) (h' : Denotes cp k' i') :
    k = k' ∧ i = i' := by
  unfold Denotes at *; omega

theorem Denotes.inj {cp cp' : BitVec 32} {k i : Nat} (h : Denotes cp k i) (h' : Denotes cp' k i) : cp = cp' := by
  apply BitVec.eq_of_toNat_eq; unfold Denotes at *; omega

theorem find_of_denotes {w : World} (I : Inv w) (S : Sane w) {cp : BitVec 32} {k i : Nat} {r : Rec}
    (hd : Denotes cp k i) (hr : r.At w k i) : find w cp = .ok (k, i, false) := by
  obtain ⟨rg, hk, hi⟩ := hr
  have hlt := (List.getElem?_eq_some_iff.1 hk).1
  have hlt2 := (List.getElem?_eq_some_iff.1 hi).1
  have hS := S.regers
  have hS2 := S.recs k rg hk
  have e1 : (ids cp).1.toNat = k + 1 := by rw [ids_fst, hd.1]; have := hd.2; omega
  have e2 : (ids cp).2.toNat = i + 1 := by rw [ids_snd, hd.1]; have := hd.2; omega
  have n1 : ¬(ids cp).1 = 0#32 := by
    intro h; rw [h] at e1; simp at e1
  have n2 : ¬(ids cp).2 = 0#32 := by
    intro h; rw [h] at e2; simp at e2
  have p1 : ((ids cp).1 - 0#32 - 1#32).toNat = k := by rw [pred_toNat, e1]; simp
  have p2 : ((ids cp).2 - 0#32 - 1#32).toNat = i := by rw [pred_toNat, e2]; simp
  have c1 : inCurrentRange w.gen (ids cp).1 = true := by
    simp only [inCurrentRange, I.gmin, I.gen, Bool.and_eq_true, decide_eq_true_eq, BitVec.le_def, e1,
      BitVec.toNat_ofNat]
    omega
  have c2 : inCurrentRange rg.idGen (ids cp).2 = true := by
    simp only [inCurrentRange, I.rmin k rg hk, I.rgen k rg hk, Bool.and_eq_true, decide_eq_true_eq, BitVec.le_def,
      e2, BitVec.toNat_ofNat]
    omega
  unfold find
  simp only [p1, p2, n1, c1, goGet_some hk, goGet_some hi, Res.bind_ok, n2, c2]
  rfl

theorem find_of_not_denotes {w : World} {cp : BitVec 32}
    (S : Sane w) (h : ∀ k i r, Denotes cp k i → ¬Rec.At w k i r) : find w cp = .panic := by
  have e1 := ids_fst cp
  have e2 := ids_snd cp
  have hlt := cp.isLt
  unfold find
  simp only
  cases hk : w.regers[((ids cp).1 - 0#32 - 1#32).toNat]? with
  | none => simp only [goGet_none hk, Res.bind_panic]
  | some rg =>
    cases hi : rg.regList[((ids cp).2 - 0#32 - 1#32).toNat]? with
    | none => simp only [goGet_some hk, goGet_none hi, Res.bind_ok, Res.bind_panic]
    | some r =>
      exfalso
      have l1 := (List.getElem?_eq_some_iff.1 hk).1
      have l2 := (List.getElem?_eq_some_iff.1 hi).1
      have s1 := S.regers
      have s2 := S.recs _ rg hk
      refine h _ _ r ?_ ⟨rg, hk, hi⟩
      rw [pred_toNat] at l1 l2
      rw [pred_toNat, pred_toNat]
      unfold Denotes
      split_ifs at * with a b <;> omega

theorem denotes_or (w : World) (cp : BitVec 32) :
    (∃ k i r, Denotes cp k i ∧ Rec.At w k i r) ∨ ∀ k i r, Denotes cp k i → ¬Rec.At w k i r := by
  by_cases h : ∃ k i r, Denotes cp k i ∧ Rec.At w k i r
  · exact .inl h
  · refine .inr fun k i r hd hr => h ⟨k, i, r, hd, hr⟩

theorem record_at {w : World} {k i : Nat} {r : Rec} (h : r.At w k i) : record w k i = .ok r := by
  obtain ⟨rg, hk, hi⟩ := h
  simp [record, goGet_some hk, goGet_some hi]

theorem Rec.At.unique {w : World} {k i : Nat} {r r' : Rec} (h : r.At w k i) (h' : r'.At w k i) : r = r' := by
  obtain ⟨rg, hk, hi⟩ := h
  obtain ⟨rg', hk', hi'⟩ := h'
  rw [hk] at hk'; cases hk'
  rw [hi] at hi'; cases hi'; rfl

/-- Every access to an identifier, in one statement. -/
theorem access {w : World} (I : Inv w) (S : Sane w) {cp : BitVec 32} {k i : Nat} {r : Rec}
    (hd : Denotes cp k i) (hr : r.At w k i) :
    get w cp = .ok (r.val, false) ∧ valid w cp = .ok true ∧ nameOf w cp = .ok (r.name, false) ∧
      object w cp = .ok (some (k, i)) ∧
      ∀ v, set w cp v = (setAt w k i v >>= fun w' => pure (w', v, false)) := by
  have hf := find_of_denotes I S hd hr
  have hrec := record_at hr
  refine ⟨?_, ?_, ?_, ?_, ?_⟩
  · simp [get, hf, hrec]
  · simp [valid, hf]
  · simp [nameOf, hf, hrec]
  · simp [object, hf]
  · intro v; simp [set, hf]

theorem no_access {w : World} (S : Sane w) {cp : BitVec 32} (h : ∀ k i r, Denotes cp k i → ¬Rec.At w k i r) :
    get w cp = .panic ∧ valid w cp = .panic ∧ nameOf w cp = .panic ∧ object w cp = .panic ∧
      ∀ v, set w cp v = .panic := by
  have hf := find_of_not_denotes S h
  refine ⟨?_, ?_, ?_, ?_, ?_⟩
  · simp [get, hf]
  · simp [valid, hf]
  · simp [nameOf, hf]
  · simp [object, hf]
  · intro v; simp [set, hf]

/-- Records after one record was appended. -/
theorem at_reg {w : World} {k : Nat} {me : Reger} {g : R 32} {x : Rec} (hk : w.regers[k]? = some me) (k' i' : Nat)
    (r : Rec) :
    r.At { w with regers := w.regers.set k { me with idGen := g, regList := me.regList ++ [x] } } k' i' ↔
      r.At w k' i' ∨ (k' = k ∧ i' = me.regList.length ∧ r = x) := by
  have hlt := (List.getElem?_eq_some_iff.1 hk).1
  unfold Rec.At
  simp only [List.getElem?_set]
  by_cases h : k = k'
  · subst h
    simp only [if_pos, hlt, Option.some.injEq, exists_eq_left', hk]
    rw [List.getElem?_append, List.getElem?_singleton]
    by_cases hi : i' < me.regList.length
    · simp only [if_pos hi]
      constructor
      · exact .inl
      · rintro (h | ⟨-, h, -⟩)
        · exact h
        · omega
    · simp only [if_neg hi, true_and]
      rw [List.getElem?_eq_none (by omega)]
      constructor
      · intro h
        split_ifs at h with h0
        · cases h; exact .inr ⟨by omega, rfl⟩
      · rintro (h | ⟨h, rfl⟩)
        · cases h
        · rw [if_pos (by omega)]
  · simp only [if_neg h]
    constructor
    · exact .inl
    · rintro (h' | ⟨h', -⟩)
      · exact h'
      · exact absurd h'.symm h

/-- Records after the value of one record was changed. -/
theorem at_set {w : World} {k i : Nat} {rg : Reger} {r : Rec} {v : BitVec 32} (hk : w.regers[k]? = some rg)
    (hi : rg.regList[i]? = some r) (k' i' : Nat) (x : Rec) :
    x.At { w with regers := w.regers.set k { rg with regList := rg.regList.set i { r with val := v } } } k' i' ↔
      (k' = k ∧ i' = i ∧ x = { r with val := v }) ∨ (¬(k' = k ∧ i' = i) ∧ x.At w k' i') := by
  have hlt := (List.getElem?_eq_some_iff.1 hk).1
  have hlt2 := (List.getElem?_eq_some_iff.1 hi).1
  unfold Rec.At
  simp only [List.getElem?_set]
  by_cases h : k = k'
  · subst h
    simp only [if_pos, hlt, Option.some.injEq, exists_eq_left', hk, true_and]
    rw [List.getElem?_set]
    by_cases hij : i = i'
    · subst hij
      simp [hlt2, eq_comm]
    · have : ¬i' = i := fun h => hij h.symm
      simp [hij, this]
  · have : ¬k' = k := fun h' => h h'.symm
    simp [h, this]

end Verif.Regable
