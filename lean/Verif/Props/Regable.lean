import Verif.Lemmas.Regable
/-!
# Properties of the registrars of values (C63, C64, C76)
-/
set_option linter.unusedSectionVars false

namespace Verif.Regable

/-- What a caller sees of a successful call. -/
inductive Ev where
  | newReger (name : String)
  /-- `Reg` on the registrar created as number `k` (from 0), and the identifier it returned -/
  | reg (k : Nat) (name : String) (val id : BitVec 32)
  | set (cp val : BitVec 32)
  | maxReg (k : Nat) (n : BitVec 32)
  | finish

/-- One successful call. -/
inductive Call : World → Ev → World → Prop
  | newReger {w w' name k} : Regable.newReger w name = .ok (w', k) → Call w (.newReger name) w'
  | reg {w w' k name val id} : Regable.reg w k name val = .ok (w', id) → Call w (.reg k name val id) w'
  | set {w w' cp val} : Regable.set w cp val = .ok (w', val, false) → Call w (.set cp val) w'
  | maxReg {w w' k n r} : Regable.maxReg w k n = .ok (w', r) → Call w (.maxReg k n) w'
  | finish {w} : Call w .finish (finishReg w)

/-- A history of calls from the start of the program; the most recent one comes first. -/
inductive History : List Ev → World → Prop
  | nil : History [] World.init
  | cons {es w e w'} : History es w → Call w e w' → History (e :: es) w'

/-- The identifier of a registration. -/
def Ev.regId? : Ev → Option (BitVec 32)
  | .reg _ _ _ id => some id
  | _ => none

/-- The value last stored under an identifier, by registration or by `Set`. -/
def lastVal (cp : BitVec 32) : List Ev → Option (BitVec 32)
  | [] => none
  | .reg _ _ v id :: es => if id = cp then some v else lastVal cp es
  | .set id v :: es => if id = cp then some v else lastVal cp es
  | _ :: es => lastVal cp es

/-- The name an identifier was registered with. -/
def regName (cp : BitVec 32) : List Ev → Option String
  | [] => none
  | .reg _ n _ id :: es => if id = cp then some n else regName cp es
  | _ :: es => regName cp es

/-- How many registrars a history created. -/
def nRegers : List Ev → Nat
  | [] => 0
  | .newReger _ :: es => nRegers es + 1
  | _ :: es => nRegers es

/-- How many values a history registered with registrar `k`. -/
def nRegs (k : Nat) : List Ev → Nat
  | [] => 0
  | .reg k' _ _ _ :: es => if k' = k then nRegs k es + 1 else nRegs k es
  | _ :: es => nRegs k es

/-- The documented limits: 255 registrars, `2^24 - 1` values in each. -/
def Within (es : List Ev) : Prop := nRegers es ≤ 255 ∧ ∀ k, nRegs k es ≤ 2 ^ 24 - 1

theorem Within.tail {e : Ev} {es : List Ev} (h : Within (e :: es)) : Within es := by
  obtain ⟨h1, h2⟩ := h
  refine ⟨?_, fun k => ?_⟩
  · cases e <;> simp only [nRegers] at h1 <;> omega
  · have := h2 k
    cases e <;> simp only [nRegs] at this
    · exact this
    · split_ifs at this <;> omega
    all_goals exact this

theorem History.reach {es : List Ev} {w : World} (h : History es w) : Reach w := by
  induction h with
  | nil => exact .init
  | cons _ hc ih =>
    refine .step ih ?_
    cases hc with
    | newReger h => exact .newReger h
    | reg h => exact .reg h
    | set h => exact .set h
    | maxReg h => exact .maxReg h
    | finish => exact .finish

/-- The link between a history and the state it leads to. -/
structure Link (es : List Ev) (w : World) : Prop where
  n : w.regers.length = nRegers es
  m : ∀ (k : Nat) (rg : Reger), w.regers[k]? = some rg → rg.regList.length = nRegs k es
  m0 : ∀ k, w.regers.length ≤ k → nRegs k es = 0

theorem Link.of_replace {es : List Ev} {w w' : World} {k : Nat} {rg rg' : Reger} (L : Link es w)
    (hk : w.regers[k]? = some rg) (hw : w'.regers = w.regers.set k rg')
    (hlen : rg'.regList.length = rg.regList.length) : Link es w' := by
  have hlt := (List.getElem?_eq_some_iff.1 hk).1
  refine ⟨by rw [hw, List.length_set, L.n], ?_, ?_⟩
  · intro j x hj
    rw [hw, List.getElem?_set] at hj
    by_cases h : k = j
    · subst h
      rw [if_pos rfl, if_pos hlt] at hj
      cases hj
      rw [hlen, L.m k rg hk]
    · rw [if_neg h] at hj; exact L.m j x hj
  · intro j hj
    rw [hw, List.length_set] at hj
    exact L.m0 j hj

theorem Link.of_eq {es es' : List Ev} {w : World} (L : Link es w) (h1 : nRegers es' = nRegers es)
    (h2 : ∀ k, nRegs k es' = nRegs k es) : Link es' w :=
  ⟨by rw [h1, L.n], fun k rg h => by rw [h2, L.m k rg h], fun k h => by rw [h2, L.m0 k h]⟩

theorem History.link {es : List Ev} {w : World} (h : History es w) : Link es w := by
  induction h with
  | nil => exact ⟨rfl, by simp [World.init], fun _ _ => rfl⟩
  | @cons es w e w' _ hc ih =>
    cases hc with
    | @newReger _ name k h =>
      have hl : w.locked = false := by
        by_contra hl
        rw [newReger_locked (by simpa using hl)] at h; cases h
      rw [newReger_eq hl] at h
      simp only [Res.ok.injEq, Prod.mk.injEq] at h
      obtain ⟨rfl, rfl⟩ := h
      refine ⟨by simp [nRegers, ih.n], ?_, ?_⟩
      · intro j rg hj
        simp only [nRegs]
        rw [List.getElem?_append] at hj
        split_ifs at hj with hlt
        · exact ih.m j rg hj
        · rw [List.getElem?_singleton] at hj
          split_ifs at hj
          cases hj
          simp [ih.m0 j (by omega)]
      · intro j hj
        simp at hj
        exact ih.m0 j (by omega)
    | @reg _ k name val id h =>
      obtain ⟨hl, me, hk⟩ := reg_ok h
      have hlt := (List.getElem?_eq_some_iff.1 hk).1
      rw [reg_eq hl hk] at h
      simp only [Res.ok.injEq, Prod.mk.injEq] at h
      obtain ⟨rfl, rfl⟩ := h
      refine ⟨by simp [nRegers, ih.n], ?_, ?_⟩
      · intro j rg hj
        simp only [nRegs]
        rw [List.getElem?_set] at hj
        by_cases hkj : k = j
        · subst hkj
          rw [if_pos rfl, if_pos hlt] at hj
          cases hj
          simp [ih.m k me hk]
        · rw [if_neg hkj] at hj
          rw [if_neg hkj]; exact ih.m j rg hj
      · intro j hj
        simp only [List.length_set] at hj
        simp only [nRegs]
        rw [if_neg (by omega)]
        exact ih.m0 j hj
    | @set _ cp val h =>
      refine Link.of_eq (es := es) ?_ rfl (fun _ => rfl)
      rcases set_cases h with rfl | ⟨k, i, h⟩
      · exact ih
      · obtain ⟨rg, r, hk, hi⟩ := setAt_ok h
        rw [setAt_eq hk hi] at h
        cases h
        exact ih.of_replace hk rfl (by simp)
    | @maxReg _ k n r h =>
      refine Link.of_eq (es := es) ?_ rfl (fun _ => rfl)
      rcases maxReg_cases h with rfl | ⟨me, hk, rfl⟩
      · exact ih
      · exact ih.of_replace hk rfl rfl
    | finish => exact ⟨ih.n, ih.m, ih.m0⟩

theorem Link.sane {es : List Ev} {w : World} (L : Link es w) (h : Within es) : Sane w := by
  refine ⟨by rw [L.n]; have := h.1; omega, fun k rg hk => ?_⟩
  rw [L.m k rg hk]
  have := h.2 k
  omega

/-- The identifier `Reg` returns within the limits. -/
theorem reg_id {es : List Ev} {w w' : World} (H : History es w) {k : Nat} {name : String} {val id : BitVec 32}
    (hr : reg w k name val = .ok (w', id)) (hW : Within (.reg k name val id :: es)) :
    Denotes id k (nRegs k es) ∧ ∀ k' i' r, Rec.At w' k' i' r ↔ Rec.At w k' i' r ∨
      (k' = k ∧ i' = nRegs k es ∧ r.name = name ∧ r.val = val ∧ r.id = BitVec.ofNat 32 (nRegs k es + 1)) := by
  have I := H.reach.inv
  have L := H.link
  obtain ⟨hl, me, hk⟩ := reg_ok hr
  have hlt := (List.getElem?_eq_some_iff.1 hk).1
  have hm := L.m k me hk
  rw [reg_eq hl hk] at hr
  simp only [Res.ok.injEq, Prod.mk.injEq] at hr
  obtain ⟨rfl, rfl⟩ := hr
  have h1 : nRegers es ≤ 255 := hW.tail.1
  have h2 : nRegs k es + 1 ≤ 2 ^ 24 - 1 := by have := hW.2 k; simpa [nRegs] using this
  have hlen := L.n
  constructor
  · refine ⟨?_, by omega⟩
    rw [makeRegedId_toNat, I.rid k me hk, I.rgen k me hk, hm]
    simp only [BitVec.toNat_setWidth, BitVec.toNat_ofNat]
    omega
  · intro k' i' r
    rw [at_reg hk, hm, I.rgen k me hk, hm]
    constructor
    · rintro (h | ⟨h1, h2, h3⟩)
      · exact .inl h
      · subst h3; exact .inr ⟨h1, h2, rfl, rfl, rfl⟩
    · rintro (h | ⟨h1, h2, h3, h4, h5⟩)
      · exact .inl h
      · refine .inr ⟨h1, h2, ?_⟩
        cases r; simp_all

/-- The state of a history within the limits, read off the history. -/
theorem history_sound {es : List Ev} {w : World} (H : History es w) (hW : Within es) (cp : BitVec 32) :
    (∀ v, lastVal cp es = some v ↔ ∃ k i r, Denotes cp k i ∧ Rec.At w k i r ∧ r.val = v) ∧
    (∀ n, regName cp es = some n ↔ ∃ k i r, Denotes cp k i ∧ Rec.At w k i r ∧ r.name = n) ∧
    ((∃ e ∈ es, e.regId? = some cp) ↔ ∃ k i r, Denotes cp k i ∧ Rec.At w k i r) := by
  induction H with
  | nil => simp [lastVal, regName, Rec.At, World.init]
  | @cons es w e w' Hp hc ih =>
    have ih := ih hW.tail
    have L := Hp.link
    have I := Hp.reach.inv
    have S := L.sane hW.tail
    have mem : (∃ e' ∈ e :: es, Ev.regId? e' = some cp) ↔ e.regId? = some cp ∨ ∃ e' ∈ es, Ev.regId? e' = some cp := by
      simp
    rw [mem]
    cases hc with
    | @newReger _ name k h =>
      have hl : w.locked = false := by
        by_contra hl
        rw [newReger_locked (by simpa using hl)] at h; cases h
      rw [newReger_eq hl] at h
      simp only [Res.ok.injEq, Prod.mk.injEq] at h
      obtain ⟨rfl, rfl⟩ := h
      have key : ∀ k i r, Rec.At ⟨⟨w.gen.val + 1#32, w.gen.min, w.gen.max⟩,
          w.regers ++ [⟨w.gen.val.setWidth 8, name, ⟨1#32, 0#32, 1024#32⟩, []⟩], w.locked⟩ k i r ↔ Rec.At w k i r := by
        intro k i r
        unfold Rec.At
        simp only [List.getElem?_append, List.getElem?_singleton]
        split_ifs with h1 h2
        · rfl
        · rw [List.getElem?_eq_none (by omega)]; simp
        · rw [List.getElem?_eq_none (by omega)]; simp
      simp only [lastVal, regName, Ev.regId?, key, reduceCtorEq, false_or]
      exact ih
    | @reg _ k name val id h =>
      obtain ⟨hd, hat⟩ := reg_id Hp h hW
      have fresh : ∀ r, ¬Rec.At w k (nRegs k es) r := by
        rintro r ⟨rg, hk, hi⟩
        have := (List.getElem?_eq_some_iff.1 hi).1
        rw [L.m k rg hk] at this
        omega
      by_cases hid : id = cp
      · subst hid
        simp only [lastVal, regName, Ev.regId?, if_true, Option.some.injEq, true_or, true_iff]
        refine ⟨fun v => ?_, fun n => ?_, ?_⟩
        · constructor
          · rintro rfl
            exact ⟨k, _, ⟨name, val, _⟩, hd, (hat _ _ _).2 (.inr ⟨rfl, rfl, rfl, rfl, rfl⟩), rfl⟩
          · rintro ⟨k', i', r, hd', ha, rfl⟩
            obtain ⟨rfl, rfl⟩ := hd.unique hd'
            rcases (hat _ _ _).1 ha with h | h
            · exact absurd h (fresh r)
            · exact h.2.2.2.1.symm
        · constructor
          · rintro rfl
            exact ⟨k, _, ⟨name, val, _⟩, hd, (hat _ _ _).2 (.inr ⟨rfl, rfl, rfl, rfl, rfl⟩), rfl⟩
          · rintro ⟨k', i', r, hd', ha, rfl⟩
            obtain ⟨rfl, rfl⟩ := hd.unique hd'
            rcases (hat _ _ _).1 ha with h | h
            · exact absurd h (fresh r)
            · exact h.2.2.1.symm
        · exact ⟨k, _, ⟨name, val, _⟩, hd, (hat _ _ _).2 (.inr ⟨rfl, rfl, rfl, rfl, rfl⟩)⟩
      · have key : ∀ k' i' r, Denotes cp k' i' → (Rec.At w' k' i' r ↔ Rec.At w k' i' r) := by
          intro k' i' r hd'
          rw [hat]
          constructor
          · rintro (h | ⟨rfl, rfl, -⟩)
            · exact h
            · exact absurd (hd.inj hd') hid
          · exact .inl
        simp only [lastVal, regName, Ev.regId?, Option.some.injEq, hid, if_false, false_or]
        obtain ⟨i1, i2, i3⟩ := ih
        refine ⟨fun v => ?_, fun n => ?_, ?_⟩
        · rw [i1 v]
          constructor <;> rintro ⟨k', i', r, hd', ha, hv⟩
          · exact ⟨k', i', r, hd', (key _ _ _ hd').2 ha, hv⟩
          · exact ⟨k', i', r, hd', (key _ _ _ hd').1 ha, hv⟩
        · rw [i2 n]
          constructor <;> rintro ⟨k', i', r, hd', ha, hv⟩
          · exact ⟨k', i', r, hd', (key _ _ _ hd').2 ha, hv⟩
          · exact ⟨k', i', r, hd', (key _ _ _ hd').1 ha, hv⟩
        · refine Iff.trans i3 ?_
          constructor <;> rintro ⟨k', i', r, hd', ha⟩
          · exact ⟨k', i', r, hd', (key _ _ _ hd').2 ha⟩
          · exact ⟨k', i', r, hd', (key _ _ _ hd').1 ha⟩
    | @set _ id val h =>
      rcases denotes_or w id with ⟨k, i, r, hd, ha⟩ | hn
      swap
      · rw [(no_access S hn).2.2.2.2 val] at h; cases h
      rw [(access I S hd ha).2.2.2.2 val] at h
      obtain ⟨rg, hk, hi⟩ := ha
      rw [setAt_eq hk hi] at h
      simp only [Res.bind_ok, Res.pure_eq, Res.ok.injEq, Prod.mk.injEq, and_true] at h
      subst h
      have hat := at_set (v := val) hk hi
      obtain ⟨i1, i2, i3⟩ := ih
      simp only [regName, Ev.regId?, reduceCtorEq, false_or]
      refine ⟨fun v => ?_, fun n => ?_, ?_⟩
      · by_cases hid : id = cp
        · subst hid
          simp only [lastVal, if_true, Option.some.injEq]
          constructor
          · rintro rfl
            exact ⟨k, i, _, hd, (hat _ _ _).2 (.inl ⟨rfl, rfl, rfl⟩), rfl⟩
          · rintro ⟨k', i', r', hd', ha', rfl⟩
            obtain ⟨rfl, rfl⟩ := hd.unique hd'
            rcases (hat _ _ _).1 ha' with h | h
            · rw [h.2.2]
            · exact absurd ⟨rfl, rfl⟩ h.1
        · simp only [lastVal, if_neg hid]
          rw [i1 v]
          constructor
          · rintro ⟨k', i', r', hd', ha', hv⟩
            refine ⟨k', i', r', hd', (hat _ _ _).2 (.inr ⟨?_, ha'⟩), hv⟩
            rintro ⟨rfl, rfl⟩
            exact hid (hd.inj hd')
          · rintro ⟨k', i', r', hd', ha', hv⟩
            rcases (hat _ _ _).1 ha' with ⟨rfl, rfl, -⟩ | h
            · exact absurd (hd.inj hd') hid
            · exact ⟨k', i', r', hd', h.2, hv⟩
      · rw [i2 n]
        constructor
        · rintro ⟨k', i', r', hd', ha', hv⟩
          by_cases hh : k' = k ∧ i' = i
          · obtain ⟨rfl, rfl⟩ := hh
            have := Rec.At.unique ⟨rg, hk, hi⟩ ha'
            subst this
            exact ⟨k', i', _, hd', (hat _ _ _).2 (.inl ⟨rfl, rfl, rfl⟩), hv⟩
          · exact ⟨k', i', r', hd', (hat _ _ _).2 (.inr ⟨hh, ha'⟩), hv⟩
        · rintro ⟨k', i', r', hd', ha', hv⟩
          rcases (hat _ _ _).1 ha' with ⟨rfl, rfl, rfl⟩ | h
          · exact ⟨k', i', r, hd', ⟨rg, hk, hi⟩, hv⟩
          · exact ⟨k', i', r', hd', h.2, hv⟩
      · refine Iff.trans i3 ?_
        constructor
        · rintro ⟨k', i', r', hd', ha'⟩
          by_cases hh : k' = k ∧ i' = i
          · obtain ⟨rfl, rfl⟩ := hh
            exact ⟨k', i', _, hd', (hat _ _ _).2 (.inl ⟨rfl, rfl, rfl⟩)⟩
          · exact ⟨k', i', r', hd', (hat _ _ _).2 (.inr ⟨hh, ha'⟩)⟩
        · rintro ⟨k', i', r', hd', ha'⟩
          rcases (hat _ _ _).1 ha' with ⟨rfl, rfl, rfl⟩ | h
          · exact ⟨k', i', r, hd', ⟨rg, hk, hi⟩⟩
          · exact ⟨k', i', r', hd', h.2⟩
    | @maxReg _ k n r h =>
      simp only [lastVal, regName, Ev.regId?, reduceCtorEq, false_or]
      rcases maxReg_cases h with rfl | ⟨me, hk, rfl⟩
      · exact ih
      · have hlt := (List.getElem?_eq_some_iff.1 hk).1
        have key : ∀ k' i r, Rec.At { w with regers := w.regers.set k { me with
            idGen := ⟨me.idGen.val, me.idGen.min, n⟩ } } k' i r ↔ Rec.At w k' i r := by
          intro k' i r
          unfold Rec.At
          simp only [List.getElem?_set]
          by_cases hkk : k = k'
          · subst hkk; simp only [hlt, hk, if_true, Option.some.injEq, exists_eq_left']
          · simp [hkk]
        simp only [key]
        exact ih
    | finish =>
      simp only [lastVal, regName, Ev.regId?, reduceCtorEq, false_or]
      exact ih

/-! ## C63 -/

/-- **C63 (values).** After any history of calls within the documented limits, `Get` of an identifier returns the value
last stored under it (by `Reg` or `Set`), `Name` the name it was registered with, and it is valid.
Partial: beyond the limits, which the code does not enforce, this is false (`C63_beyond_limits`). -/
theorem C63_get_returns_last_value_partial {es : List Ev} {w : World} (H : History es w) (hW : Within es)
    {cp v : BitVec 32} (h : lastVal cp es = some v) :
    get w cp = .ok (v, false) ∧ valid w cp = .ok true ∧ ∃ n, regName cp es = some n ∧ nameOf w cp = .ok (n, false) := by
  obtain ⟨h1, h2, -⟩ := history_sound H hW cp
  obtain ⟨k, i, r, hd, ha, rfl⟩ := (h1 v).1 h
  have hacc := access H.reach.inv (H.link.sane hW) hd ha
  exact ⟨hacc.1, hacc.2.1, r.name, (h2 _).2 ⟨k, i, r, hd, ha, rfl⟩, hacc.2.2.1⟩

/-- **C63 (Set works).** Within the limits `Set` of every registered identifier succeeds and returns the value. -/
theorem C63_set_succeeds_partial {es : List Ev} {w : World} (H : History es w) (hW : Within es)
    {cp : BitVec 32} (h : ∃ e ∈ es, e.regId? = some cp) (v : BitVec 32) :
    ∃ w', set w cp v = .ok (w', v, false) := by
  obtain ⟨-, -, h3⟩ := history_sound H hW cp
  obtain ⟨k, i, r, hd, ha⟩ := h3.1 h
  have hacc := (access H.reach.inv (H.link.sane hW) hd ha).2.2.2.2 v
  obtain ⟨rg, hk, hi⟩ := ha
  rw [setAt_eq hk hi] at hacc
  exact ⟨_, hacc⟩

/-- **C63 (distinct).** Within the limits no two registrations get the same identifier. -/
theorem C63_ids_distinct_partial {es : List Ev} {w : World} (H : History es w) (hW : Within es) :
    (es.filterMap Ev.regId?).Nodup := by
  induction H with
  | nil => simp
  | @cons es w e w' Hp hc ih =>
    have ih := ih hW.tail
    cases hc with
    | @reg _ k name val id h =>
      rw [List.filterMap_cons_some (by rfl)]
      refine List.nodup_cons.2 ⟨?_, ih⟩
      intro hm
      obtain ⟨e, he, hid⟩ := List.mem_filterMap.1 hm
      obtain ⟨-, -, h3⟩ := history_sound Hp hW.tail id
      obtain ⟨k', i', r, hd', rg, hk, hi⟩ := h3.1 ⟨e, he, hid⟩
      obtain ⟨hd, -⟩ := reg_id Hp h hW
      obtain ⟨rfl, rfl⟩ := hd.unique hd'
      have := (List.getElem?_eq_some_iff.1 hi).1
      rw [Hp.link.m _ rg hk] at this
      omega
    | newReger h => rwa [List.filterMap_cons_none (by rfl)]
    | set h => rwa [List.filterMap_cons_none (by rfl)]
    | maxReg h => rwa [List.filterMap_cons_none (by rfl)]
    | finish => rwa [List.filterMap_cons_none (by rfl)]

/-- **C63 (parts).** Within the limits the identifier decomposes into the registrar's number and the number of the
value in it, both counted from 1. -/
theorem C63_ids_decompose_partial {es : List Ev} {w w' : World} (H : History es w) {k : Nat} {name : String}
    {val id : BitVec 32} (hr : reg w k name val = .ok (w', id)) (hW : Within (.reg k name val id :: es)) :
    (ids id).1.toNat = k + 1 ∧ (ids id).2.toNat = nRegs k es + 1 := by
  obtain ⟨⟨h, h'⟩, -⟩ := reg_id H hr hW
  rw [ids_fst, ids_snd]
  omega

/-- **C63 (make and take apart).** For all numbers `MakeRegedId` and `Ids` are inverse up to the 8 and 24 bits kept. -/
theorem C63_make_ids (a b : BitVec 32) :
    (ids (makeRegedId a b)).1.toNat = a.toNat % 256 ∧ (ids (makeRegedId a b)).2.toNat = b.toNat % 2 ^ 24 ∧
    makeRegedId (ids a).1 (ids a).2 = a := by
  refine ⟨(ids_makeRegedId a b).1, (ids_makeRegedId a b).2, ?_⟩
  apply BitVec.eq_of_toNat_eq
  rw [makeRegedId_toNat, ids_fst, ids_snd]
  have := a.isLt
  omega

/-- Any number of registrars can be created. -/
theorem reach_regers (n : Nat) : ∃ w, Reach w ∧ w.locked = false ∧ w.regers.length = n ∧
    ∀ (k : Nat) (rg : Reger), w.regers[k]? = some rg → rg.regList = [] := by
  induction n with
  | zero => exact ⟨World.init, .init, rfl, rfl, by simp [World.init]⟩
  | succ n ih =>
    obtain ⟨w, hw, hl, hn, he⟩ := ih
    refine ⟨_, .step hw (.newReger (newReger_eq (name := "r") hl)), hl, by simp [hn], ?_⟩
    intro k rg hk
    simp only [List.getElem?_append, List.getElem?_singleton] at hk
    split_ifs at hk
    · exact he k rg hk
    · cases hk; rfl

/-- **C63 beyond the limits.** The code hands out a 256th and a 257th registrar.  For every history that made them,
the values of the 256th can not be read back (`Get` panics on the identifier just returned), and registrars 1 and 257
hand out the same identifiers. -/
theorem C63_beyond_limits {w : World} (hr : Reach w) (hl : w.locked = false) (h : 257 ≤ w.regers.length) :
    (∀ name v w' id, reg w 255 name v = .ok (w', id) → Sane w' → get w' id = .panic) ∧
    (∀ n1 v1 n2 v2, (∀ rg rg', w.regers[0]? = some rg → w.regers[256]? = some rg' →
        rg.regList.length = rg'.regList.length) →
      ∃ w1 w2 id, reg w 0 n1 v1 = .ok (w1, id) ∧ reg w 256 n2 v2 = .ok (w2, id)) ∧
    ∃ w, Reach w ∧ w.locked = false ∧ w.regers.length = 257 ∧
      ∀ (k : Nat) (rg : Reger), w.regers[k]? = some rg → rg.regList = [] := by
  have I := hr.inv
  refine ⟨?_, ?_, reach_regers 257⟩
  · intro name v w' id hreg S'
    obtain ⟨-, me, hk⟩ := reg_ok hreg
    rw [reg_eq hl hk] at hreg
    simp only [Res.ok.injEq, Prod.mk.injEq] at hreg
    obtain ⟨rfl, rfl⟩ := hreg
    refine (no_access S' ?_).1
    intro k i r hd _
    have := hd.1
    rw [makeRegedId_toNat, I.rid 255 me hk] at this
    simp at this
    omega
  · intro n1 v1 n2 v2 hlen
    have h0 : w.regers[0]? = some w.regers[0] := List.getElem?_eq_getElem (by omega)
    have h256 : w.regers[256]? = some w.regers[256] := List.getElem?_eq_getElem (by omega)
    have e1 := reg_eq (name := n1) (val := v1) hl h0
    have e2 := reg_eq (name := n2) (val := v2) hl h256
    rw [I.rid _ _ h0, I.rgen _ _ h0] at e1
    rw [I.rid _ _ h256, I.rgen _ _ h256, ← hlen _ _ h0 h256] at e2
    exact ⟨_, _, _, e1, e2⟩

/-! ## C64 -/

/-- **C64 is false.** For every history within the limits and every identifier never handed out, `Valid`, `Get`,
`Name`, `Oject` and `Set` panic instead of reporting an error. -/
theorem C64_unregistered_panics {es : List Ev} {w : World} (H : History es w) (hW : Within es) {cp : BitVec 32}
    (h : ¬∃ e ∈ es, e.regId? = some cp) :
    get w cp = .panic ∧ valid w cp = .panic ∧ nameOf w cp = .panic ∧ object w cp = .panic ∧
      ∀ v, set w cp v = .panic := by
  obtain ⟨-, -, h3⟩ := history_sound H hW cp
  exact no_access (H.link.sane hW) fun k i r hd hr => h (h3.2 ⟨k, i, r, hd, hr⟩)

/-- **C64 (limits) is false.** Whatever maximum was set, and however many values are registered, `Reg` and
`NewUint32Reger` never refuse as long as registration is not finished. -/
theorem C64_limits_not_enforced {w : World} (hl : w.locked = false) :
    (∀ name, ∃ w' k, newReger w name = .ok (w', k)) ∧
    (∀ k name v, k < w.regers.length → ∃ w' id, reg w k name v = .ok (w', id)) := by
  refine ⟨fun name => ⟨_, _, newReger_eq hl⟩, fun k name v hk => ?_⟩
  exact ⟨_, _, reg_eq hl (List.getElem?_eq_getElem hk)⟩

/-- **C64 (what holds).** `Get` and `Set` never return an error or a wrong value silently: they succeed on a registered
identifier and panic on any other; `MaxReg` refuses exactly the values outside `1 .. 2^24 - 1`; once registration is
finished every registration panics and changes nothing.
Partial: the property asks for errors instead of panics, and for the limits to be enforced. -/
theorem C64_invalid_ids_never_read_partial {es : List Ev} {w : World} (H : History es w) (hW : Within es)
    (cp : BitVec 32) :
    ((∃ e ∈ es, e.regId? = some cp) ↔ valid w cp = .ok true) ∧
    ((∃ v, get w cp = .ok (v, false)) ↔ ∃ e ∈ es, e.regId? = some cp) ∧
    (∀ k n, k < w.regers.length →
      ((∃ w', maxReg w k n = .ok (w', n, false)) ↔ (1 ≤ n.toNat ∧ n.toNat < 2 ^ 24))) ∧
    (∀ k name v, reg (finishReg w) k name v = .panic ∧ newReger (finishReg w) name = .panic) := by
  obtain ⟨-, -, h3⟩ := history_sound H hW cp
  have I := H.reach.inv
  have S := H.link.sane hW
  refine ⟨?_, ?_, ?_, ?_⟩
  · rw [h3]
    constructor
    · rintro ⟨k, i, r, hd, ha⟩; exact (access I S hd ha).2.1
    · intro h
      rcases denotes_or w cp with h' | h'
      · exact h'
      · rw [(no_access S h').2.1] at h; cases h
  · rw [h3]
    constructor
    · rintro ⟨v, h⟩
      rcases denotes_or w cp with h' | h'
      · exact h'
      · rw [(no_access S h').1] at h; cases h
    · rintro ⟨k, i, r, hd, ha⟩; exact ⟨_, (access I S hd ha).1⟩
  · intro k n hk
    have hk' : w.regers[k]? = some w.regers[k] := List.getElem?_eq_getElem hk
    have hv : verifyMaxRegs n = false ↔ (1 ≤ n.toNat ∧ n.toNat < 2 ^ 24) := by
      simp [verifyMaxRegs, BitVec.lt_def]
      omega
    rw [← hv]
    unfold maxReg
    cases hc : verifyMaxRegs n with
    | true =>
      simp
    | false => simp [goGet_some hk', verifyRange_eq, goSet_some hk']
  · intro k name v
    exact ⟨by simp [reg, checkLock, finishReg], newReger_locked rfl⟩

/-! ## C76 -/

/-- **C76 (same value).** Within the limits the object made from a registered identifier reads and writes the value of
that identifier, at any later time. -/
theorem C76_object_is_the_value_partial {es : List Ev} {w : World} (H : History es w) (hW : Within es) {cp : BitVec 32}
    (h : ∃ e ∈ es, e.regId? = some cp) :
    ∃ o, object w cp = .ok o ∧
      ∀ es' w', History (es' ++ es) w' → Within (es' ++ es) →
        objGet w' o = get w' cp ∧ ∀ v, objSet w' o v = set w' cp v := by
  obtain ⟨-, -, h3⟩ := history_sound H hW cp
  obtain ⟨k, i, r, hd, ha⟩ := h3.1 h
  refine ⟨some (k, i), (access H.reach.inv (H.link.sane hW) hd ha).2.2.2.1, ?_⟩
  intro es' w' H' hW'
  obtain ⟨-, -, h3'⟩ := history_sound H' hW' cp
  obtain ⟨e, he, hid⟩ := h
  obtain ⟨k', i', r', hd', ha'⟩ := h3'.1 ⟨e, List.mem_append_right _ he, hid⟩
  obtain ⟨rfl, rfl⟩ := hd.unique hd'
  have hacc := access H'.reach.inv (H'.link.sane hW') hd' ha'
  refine ⟨by rw [hacc.1]; simp [objGet, record_at ha'], fun v => ?_⟩
  rw [hacc.2.2.2.2 v]; rfl

/-- **C76 (identifier) is false.** `Id` of the object made from an identifier is never that identifier: it lacks the
registrar, and every use of it panics. -/
theorem C76_object_id_is_wrong {es : List Ev} {w : World} (H : History es w) (hW : Within es) {cp : BitVec 32}
    (h : ∃ e ∈ es, e.regId? = some cp) {o : Obj} (ho : object w cp = .ok o) :
    ∃ id, objId w o = .ok id ∧ id.toNat = cp.toNat % 2 ^ 24 ∧ id ≠ cp ∧ get w id = .panic ∧ valid w id = .panic := by
  obtain ⟨-, -, h3⟩ := history_sound H hW cp
  obtain ⟨k, i, r, hd, ha⟩ := h3.1 h
  have I := H.reach.inv
  have S := H.link.sane hW
  rw [(access I S hd ha).2.2.2.1] at ho
  cases ho
  have hid : r.id = BitVec.ofNat 32 (i + 1) := by
    obtain ⟨rg, hk, hi⟩ := ha
    exact I.recId k rg i r hk hi
  have hlt := hd.2
  have hcp := hd.1
  have hn : r.id.toNat = i + 1 := by rw [hid, BitVec.toNat_ofNat]; omega
  have hno : ∀ k' i' r', Denotes r.id k' i' → ¬Rec.At w k' i' r' := by
    intro k' i' r' hd' _
    have := hd'.1
    omega
  refine ⟨r.id, by simp [objId, record_at ha], by omega, ?_, (no_access S hno).1, (no_access S hno).2.1⟩
  intro e
  rw [e] at hn
  omega

/-! ## Concrete histories -/

/-- Two registrars, three values, one `Set`. -/
def demoWorld : Res (World × BitVec 32 × BitVec 32 × BitVec 32) := do
  let (w, a) ← newReger World.init "a"
  let (w, b) ← newReger w "b"
  let (w, x) ← reg w a "x" 5#32
  let (w, y) ← reg w b "y" 6#32
  let (w, z) ← reg w b "z" 7#32
  let (w, _) ← set w y 60#32
  return (w, x, y, z)

example : (demoWorld >>= fun (w, x, y, z) => do
    let a ← get w x; let b ← get w y; let c ← get w z
    return ((x.toNat, y.toNat, z.toNat), a, b, c)) =
    .ok ((0x1000001, 0x2000001, 0x2000002), (5#32, false), (60#32, false), (7#32, false)) := by decide +kernel

/-- The hypotheses of the theorems hold of a history with a registration and a `Set`. -/
example : ∃ w, History [.set 0x1000001#32 9#32, .reg 0 "x" 5#32 0x1000001#32, .newReger "a"] w ∧
    Within [.set 0x1000001#32 9#32, .reg 0 "x" 5#32 0x1000001#32, .newReger "a"] ∧
    lastVal 0x1000001#32 [.set 0x1000001#32 9#32, .reg 0 "x" 5#32 0x1000001#32, .newReger "a"] = some 9#32 ∧
    get w 0x1000001#32 = .ok (9#32, false) ∧ get w 0x1000002#32 = .panic := by
  have h1 := History.cons .nil (.newReger (name := "a") (newReger_eq rfl))
  have e2 := reg_eq (w := ⟨⟨2#32, 0#32, 255#32⟩, [⟨1#8, "a", ⟨1#32, 0#32, 1024#32⟩, []⟩], false⟩) (k := 0)
    (name := "x") (val := 5#32) rfl rfl
  have h2 := History.cons h1 (.reg e2)
  have hW : Within [.set 0x1000001#32 9#32, .reg 0 "x" 5#32 0x1000001#32, .newReger "a"] := by
    refine ⟨by decide, fun k => ?_⟩
    simp only [nRegs]
    split_ifs <;> omega
  obtain ⟨w, hw⟩ := C63_set_succeeds_partial h2 hW.tail ⟨_, List.mem_cons_self, rfl⟩ 9#32
  have h3 := History.cons h2 (.set hw)
  exact ⟨w, h3, hW, rfl, (C63_get_returns_last_value_partial h3 hW rfl).1,
    (C64_unregistered_panics h3 hW (by simp [Ev.regId?, makeRegedId])).1⟩

/-- Two registrars, each with one value; the values have the same name. -/
def exEvents : List Ev := [.reg 1 "n" 5#32 0x2000001#32, .reg 0 "n" 5#32 0x1000001#32, .newReger "b", .newReger "a"]

def exBefore : World := ⟨⟨3#32, 0#32, 255#32⟩, [⟨1#8, "a", ⟨2#32, 0#32, 1024#32⟩, [⟨"n", 5#32, 1#32⟩]⟩,
  ⟨2#8, "b", ⟨1#32, 0#32, 1024#32⟩, []⟩], false⟩

def exWorld : World := ⟨⟨3#32, 0#32, 255#32⟩, [⟨1#8, "a", ⟨2#32, 0#32, 1024#32⟩, [⟨"n", 5#32, 1#32⟩]⟩,
  ⟨2#8, "b", ⟨2#32, 0#32, 1024#32⟩, [⟨"n", 5#32, 1#32⟩]⟩], false⟩

theorem exReg : reg exBefore 1 "n" 5#32 = .ok (exWorld, 0x2000001#32) := by decide +kernel

theorem exBefore_history : History exEvents.tail exBefore := by
  have h1 : History [.newReger "a"] ⟨⟨2#32, 0#32, 255#32⟩, [⟨1#8, "a", ⟨1#32, 0#32, 1024#32⟩, []⟩], false⟩ :=
    .cons .nil (.newReger (newReger_eq rfl))
  have h2 : History [.newReger "b", .newReger "a"] ⟨⟨3#32, 0#32, 255#32⟩,
    [⟨1#8, "a", ⟨1#32, 0#32, 1024#32⟩, []⟩, ⟨2#8, "b", ⟨1#32, 0#32, 1024#32⟩, []⟩], false⟩ :=
    .cons h1 (.newReger (newReger_eq rfl))
  exact .cons h2 (.reg (by decide +kernel))

theorem exHistory : History exEvents exWorld := .cons exBefore_history (.reg exReg)

theorem exWithin : Within exEvents := by
  refine ⟨by decide, fun k => ?_⟩
  simp only [exEvents, nRegs]
  split_ifs <;> omega

example := C63_ids_distinct_partial exHistory exWithin
example := C63_ids_decompose_partial exBefore_history exReg exWithin
example := C64_limits_not_enforced (w := exWorld) rfl
example := C64_invalid_ids_never_read_partial exHistory exWithin 0x2000002#32
example := C76_object_is_the_value_partial exHistory exWithin (cp := 0x1000001#32) ⟨_, .tail _ (.head _), rfl⟩

/-- Worlds as in `C63_beyond_limits` exist. -/
example : ∃ w, Reach w ∧ w.locked = false ∧ 257 ≤ w.regers.length :=
  let ⟨w, h, hl, hn, _⟩ := reach_regers 300
  ⟨w, h, hl, by omega⟩

end Verif.Regable
