import Verif.Model.RegText
import Verif.Props.Regable
import Verif.Props.Duration
/-!
# Texts of registered values (C101)
-/
set_option linter.unusedSectionVars false

namespace Verif.Regable

/-- The text of a registered value: its number within its registrar, its name, its value.  (The property asks for the
registrar in the first place, where the code always writes 0.) -/
def Spec.text (n : Nat) (name : String) (val : BitVec 32) : List Char :=
  "Uint32#(0|".toList ++ Nat.toDigits 10 n ++ "|".toList ++ name.toList ++ ")".toList ++ Nat.toDigits 10 val.toNat

theorem recString_eq {r : Rec} {i : Nat} (h : r.id = BitVec.ofNat 32 (i + 1)) (hi : i + 1 < 2 ^ 24) :
    recString r = Spec.text (i + 1) r.name r.val := by
  have hn : r.id.toNat = i + 1 := by rw [h, BitVec.toNat_ofNat]; omega
  have h1 : (ids r.id).1.toNat = 0 := by rw [ids_fst]; omega
  have h2 : (ids r.id).2.toNat = i + 1 := by rw [ids_snd]; omega
  unfold recString Spec.text dec
  simp only [h1, h2]
  simp

/-- **C101** (partial: without the registrar).  After any history within the limits the text of a registered identifier
shows its number within the registrar, the name it was registered with and the value last stored; `Name`, `Valid` and
`GetNoErr`, of the identifier and of its object, agree with it, and the object has the same text. -/
theorem C101_text_partial {es : List Ev} {w : World} (H : History es w) (hW : Within es) {cp v : BitVec 32} {n : String}
    (hv : lastVal cp es = some v) (hn : regName cp es = some n) :
    idString w cp = .ok (Spec.text (cp.toNat % 2 ^ 24) n v) ∧ getNoErr w cp = .ok v ∧
    ∃ o, object w cp = .ok o ∧ objValid o = true ∧ objString w o = .ok (Spec.text (cp.toNat % 2 ^ 24) n v) ∧
      objName w o = .ok (n, false) ∧ objGetNoErr w o = .ok v := by
  obtain ⟨s1, s2, -⟩ := history_sound H hW cp
  obtain ⟨k, i, r, hd, ha, rfl⟩ := (s1 v).1 hv
  obtain ⟨k', i', r', hd', ha', rfl⟩ := (s2 n).1 hn
  obtain ⟨rfl, rfl⟩ := hd.unique hd'
  cases ha.unique ha'
  have I := H.reach.inv
  have S := H.link.sane hW
  have hf := find_of_denotes I S hd ha
  have hrec := record_at ha
  have hid : r.id = BitVec.ofNat 32 (i + 1) := by
    obtain ⟨rg, hk, hi⟩ := ha
    exact I.recId k rg i r hk hi
  have hcp : cp.toNat % 2 ^ 24 = i + 1 := by have := hd.1; have := hd.2; omega
  have ht := recString_eq hid hd.2
  rw [hcp]
  refine ⟨?_, ?_, some (k, i), (access I S hd ha).2.2.2.1, rfl, ?_, ?_, ?_⟩
  · simp [idString, hf, hrec, ht]
  · simp [getNoErr, hf, objGetNoErr, objGet, hrec]
  · simp [objString, hrec, ht]
  · simp [objName, hrec]
  · simp [objGetNoErr, objGet, hrec]

/-- **C101** (the text identifies the value) is false across registrars: two identifiers with the same number in
different registrars, and the same name and value, have the same text. -/
theorem C101_registrar_false {es : List Ev} {w : World} (H : History es w) (hW : Within es) {cp cp' v : BitVec 32}
    {n : String} (hv : lastVal cp es = some v) (hn : regName cp es = some n) (hv' : lastVal cp' es = some v)
    (hn' : regName cp' es = some n) (h : cp.toNat % 2 ^ 24 = cp'.toNat % 2 ^ 24) : idString w cp = idString w cp' := by
  rw [(C101_text_partial H hW hv hn).1, (C101_text_partial H hW hv' hn').1, h]

theorem text_inj {a b : Nat} {n n' : String} {v v' : BitVec 32} (h : Spec.text a n v = Spec.text b n' v') : a = b := by
  have hb : ∀ x, '|' ∉ Nat.toDigits 10 x := fun x =>
    Duration.not_mem_digits (Duration.decimal_spec x).2.1 (by decide)
  unfold Spec.text at h
  simp only [List.append_assoc] at h
  have h := List.append_cancel_left h
  have e : "|".toList = ['|'] := by decide
  rw [e, List.singleton_append, List.singleton_append] at h
  have h1 := congrArg (List.takeWhile (· != '|')) h
  rw [(Duration.takeWhile_sep (hb a)).1, (Duration.takeWhile_sep (hb b)).1] at h1
  have h2 := congrArg Duration.Spec.dec h1
  have ea := (Duration.decimal_spec a).1
  have eb := (Duration.decimal_spec b).1
  unfold Duration.decimal at ea eb
  rw [ea, eb] at h2
  exact h2

/-- **C101** (within one registrar).  Identifiers of one registrar have different texts, whatever names and values. -/
theorem C101_distinct_partial {es : List Ev} {w : World} (H : History es w) (hW : Within es) {cp cp' : BitVec 32}
    (h : ∃ e ∈ es, e.regId? = some cp) (h' : ∃ e ∈ es, e.regId? = some cp') (hr : (ids cp).1 = (ids cp').1)
    {t : List Char} (ht : idString w cp = .ok t) (ht' : idString w cp' = .ok t) : cp = cp' := by
  have key : ∀ c : BitVec 32, (∃ e ∈ es, e.regId? = some c) → ∃ n v, lastVal c es = some v ∧ regName c es = some n := by
    intro c hc
    obtain ⟨s1, s2, s3⟩ := history_sound H hW c
    obtain ⟨k, i, r, hd, ha⟩ := s3.1 hc
    exact ⟨r.name, r.val, (s1 _).2 ⟨k, i, r, hd, ha, rfl⟩, (s2 _).2 ⟨k, i, r, hd, ha, rfl⟩⟩
  obtain ⟨n, v, hv, hn⟩ := key cp h
  obtain ⟨n', v', hv', hn'⟩ := key cp' h'
  rw [(C101_text_partial H hW hv hn).1] at ht
  rw [(C101_text_partial H hW hv' hn').1] at ht'
  cases ht
  simp only [Res.ok.injEq] at ht'
  have e2 := text_inj ht'
  have e1 := congrArg BitVec.toNat hr
  rw [ids_fst, ids_fst] at e1
  apply BitVec.eq_of_toNat_eq
  omega

/-- **C101** (no value).  The text of an identifier that was never registered is not the text for invalid identifiers:
`String` and `GetNoErr` panic.  The nil object has its own text, no name, and `GetNoErr` panics;
its `Get` and `Set` report an error and change nothing. -/
theorem C101_unregistered_false {es : List Ev} {w : World} (H : History es w) (hW : Within es) {cp : BitVec 32}
    (h : ¬∃ e ∈ es, e.regId? = some cp) :
    idString w cp = .panic ∧ getNoErr w cp = .panic ∧ objString w none = .ok "invalid uint32 object".toList ∧
      objName w none = .ok ("", true) ∧ objValid none = false ∧ objGetNoErr w none = .panic ∧
      objGet w none = .ok (0#32, true) ∧ (∀ v, objSet w none v = .ok (w, 0#32, true)) ∧ objId w none = .ok 0#32 := by
  obtain ⟨-, -, h3⟩ := history_sound H hW cp
  have hf := find_of_not_denotes (H.link.sane hW) fun k i r hd hr => h (h3.2 ⟨k, i, r, hd, hr⟩)
  refine ⟨by simp [idString, hf], by simp [getNoErr, hf], rfl, rfl, rfl, by simp [objGetNoErr, objGet], rfl,
    fun _ => rfl, rfl⟩

/-- **C101** (`RegO`).  Within the limits `RegO` registers as `Reg` does, and its object reads the value. -/
theorem C101_regO_partial {es : List Ev} {w w' : World} (H : History es w) {k : Nat} {name : String} {val id : BitVec 32}
    (hr : reg w k name val = .ok (w', id)) (hW : Within (.reg k name val id :: es)) :
    ∃ o, regO w k name val = .ok (w', o) ∧ object w' id = .ok o ∧ objValid o = true ∧ objGet w' o = .ok (val, false) ∧
      objName w' o = .ok (name, false) := by
  have H' := History.cons H (.reg hr)
  have hv : lastVal id (.reg k name val id :: es) = some val := by simp [lastVal]
  have hn : regName id (.reg k name val id :: es) = some name := by simp [regName]
  obtain ⟨-, -, o, h1, h2, -, h4, h5⟩ := C101_text_partial H' hW hv hn
  refine ⟨o, by simp [regO, hr, h1], h1, h2, ?_, h4⟩
  unfold objGetNoErr at h5
  cases hg : objGet w' o with
  | panic => rw [hg] at h5; cases h5
  | ok x =>
    obtain ⟨a, b⟩ := x
    rw [hg] at h5
    cases b <;> simp at h5
    rw [h5]

/-- **C101** (`RegO` after the end).  Once registration is finished `RegO` panics. -/
theorem C101_regO_locked (w : World) (k : Nat) (name : String) (val : BitVec 32) :
    regO (finishReg w) k name val = .panic := by
  simp [regO, reg, checkLock, finishReg]

/-! ## The list of everything -/

/-- The names of the registrars, in the order of their creation. -/
def regerNames : List Ev → List String
  | [] => []
  | .newReger n :: es => regerNames es ++ [n]
  | _ :: es => regerNames es

/-- The identifiers and names registered with registrar `k`, in order. -/
def regsOf (k : Nat) : List Ev → List (BitVec 32 × String)
  | [] => []
  | .reg k' n _ id :: es => if k' = k then regsOf k es ++ [(id, n)] else regsOf k es
  | _ :: es => regsOf k es

/-- The maximum set for registrar `k`; 1024 at first. -/
def maxOf (k : Nat) : List Ev → Nat
  | [] => 1024
  | .maxReg k' n :: es => if k' = k ∧ 1 ≤ n.toNat ∧ n.toNat < 2 ^ 24 then n.toNat else maxOf k es
  | _ :: es => maxOf k es

/-- Whether registration is finished. -/
def finished : List Ev → Bool
  | [] => false
  | .finish :: _ => true
  | _ :: es => finished es

/-- The line of one value. -/
def Spec.valueLine (es : List Ev) (x : BitVec 32 × String) : List Char :=
  "\n#".toList ++ Nat.toDigits 10 (x.1.toNat % 2 ^ 24) ++ " [".toList ++ x.2.toList ++ "]: ".toList ++
    (match lastVal x.1 es with
      | some v => Nat.toDigits 10 v.toNat
      | none => [])

/-- The lines of one registrar. -/
def Spec.regerLines (es : List Ev) (x : String × Nat) : List Char :=
  "\n[Uint32Reger#".toList ++ Nat.toDigits 10 (x.2 + 1) ++ ": ".toList ++ x.1.toList ++
    "] ids:RangeUint32{val:".toList ++ Nat.toDigits 10 (nRegs x.2 es + 1) ++ " min:0 max:".toList ++
    Nat.toDigits 10 (maxOf x.2 es) ++ "}".toList ++ (regsOf x.2 es).flatMap (Spec.valueLine es)

/-- The text of everything, from the history alone. -/
def Spec.all (es : List Ev) : List Char :=
  "[regable] locked:".toList ++ (if finished es then "true".toList else "false".toList) ++
    "\n[Uint32Regers] count:".toList ++ Nat.toDigits 10 (nRegers es) ++
    (regerNames es).zipIdx.flatMap (Spec.regerLines es)

/-- What the text shows of the state. -/
structure Shown (es : List Ev) (w : World) : Prop where
  names : w.regers.map (·.name) = regerNames es
  locked : w.locked = finished es
  max : ∀ (k : Nat) (rg : Reger), w.regers[k]? = some rg → rg.idGen.max.toNat = maxOf k es

theorem Shown.replace {es es' : List Ev} {w : World} {k : Nat} {rg rg' : Reger} (h : Shown es w)
    (hk : w.regers[k]? = some rg) (h1 : rg'.name = rg.name) (h2 : regerNames es' = regerNames es)
    (h3 : finished es' = finished es) (h4 : rg'.idGen.max.toNat = maxOf k es')
    (h5 : ∀ j, j ≠ k → maxOf j es' = maxOf j es) : Shown es' { w with regers := w.regers.set k rg' } := by
  have hlt := (List.getElem?_eq_some_iff.1 hk).1
  refine ⟨?_, by rw [h3]; exact h.locked, ?_⟩
  · rw [h2, ← h.names]
    apply List.ext_getElem?
    intro j
    simp only [List.getElem?_map, List.getElem?_set]
    by_cases hkj : k = j
    · subst hkj; rw [if_pos rfl, if_pos hlt, hk, Option.map_some, Option.map_some, h1]
    · rw [if_neg hkj]
  · intro j x hj
    simp only [List.getElem?_set] at hj
    split_ifs at hj with hkj
    · subst hkj; cases hj; exact h4
    · rw [h5 j (Ne.symm hkj)]; exact h.max j x hj

theorem Shown.same {es es' : List Ev} {w : World} (h : Shown es w) (h2 : regerNames es' = regerNames es)
    (h3 : finished es' = finished es) (h5 : ∀ (j : Nat), j < w.regers.length → maxOf j es' = maxOf j es) : Shown es' w :=
  ⟨by rw [h2]; exact h.names, by rw [h3]; exact h.locked, fun j x hj => by
    rw [h5 j (List.getElem?_eq_some_iff.1 hj).1]; exact h.max j x hj⟩

theorem maxReg_exact {w w' : World} {k : Nat} {n : BitVec 32} {r} (h : maxReg w k n = .ok (w', r)) :
    (¬(1 ≤ n.toNat ∧ n.toNat < 2 ^ 24) ∧ w' = w) ∨ ((1 ≤ n.toNat ∧ n.toNat < 2 ^ 24) ∧
      ∃ me, w.regers[k]? = some me ∧ w' = { w with regers := w.regers.set k { me with
        idGen := ⟨me.idGen.val, me.idGen.min, n⟩ } }) := by
  have hv : verifyMaxRegs n = true ↔ ¬(1 ≤ n.toNat ∧ n.toNat < 2 ^ 24) := by
    unfold verifyMaxRegs
    simp only [Bool.or_eq_true, decide_eq_true_eq, BitVec.lt_def]
    have e1 : (1#32).toNat = 1 := rfl
    have e2 : (0xFFFFFF#32).toNat = 16777215 := rfl
    rw [e1, e2]
    omega
  unfold maxReg at h
  by_cases hc : verifyMaxRegs n = true
  · rw [if_pos hc] at h
    cases h
    exact .inl ⟨hv.1 hc, rfl⟩
  · rw [if_neg hc] at h
    right
    refine ⟨by by_contra hx; exact hc (hv.2 hx), ?_⟩
    cases hk : w.regers[k]? with
    | none => rw [goGet_none hk] at h; cases h
    | some me =>
      rw [goGet_some hk] at h
      simp only [Res.bind_ok, verifyRange_eq, goSet_some hk] at h
      simp only [Bool.false_eq_true, if_false, Res.ok.injEq, Prod.mk.injEq] at h
      exact ⟨me, rfl, h.1.symm⟩

theorem History.shown {es : List Ev} {w : World} (H : History es w) : Shown es w := by
  induction H with
  | nil => exact ⟨rfl, rfl, by simp [World.init]⟩
  | @cons es w e w' Hp hc ih =>
    cases hc with
    | @newReger _ name k h =>
      have hl : w.locked = false := by
        by_contra hl
        rw [newReger_locked (by simpa using hl)] at h; cases h
      rw [newReger_eq hl] at h
      simp only [Res.ok.injEq, Prod.mk.injEq] at h
      obtain ⟨rfl, rfl⟩ := h
      refine ⟨by simp [regerNames, ih.names], ih.locked, ?_⟩
      intro j rg hj
      simp only [maxOf]
      rw [List.getElem?_append] at hj
      split_ifs at hj with hlt
      · exact ih.max j rg hj
      · rw [List.getElem?_singleton] at hj
        split_ifs at hj with h0
        cases hj
        -- nothing can be set for a registrar that does not exist
        have hge : ∀ (es : List Ev) (w : World), History es w → ∀ k, w.regers.length ≤ k → maxOf k es = 1024 := by
          intro es w H
          induction H with
          | nil => intro _ _; rfl
          | @cons es w e w' Hp hc ih =>
            intro k hk
            have hle : w.regers.length ≤ w'.regers.length := by
              have l1 := Hp.link.n
              have l2 := (History.cons Hp hc).link.n
              rw [l1, l2]
              cases e <;> simp [nRegers]
            have := ih k (by omega)
            cases hc with
            | maxReg h =>
              simp only [maxOf]
              rw [if_neg]
              · exact this
              · rintro ⟨rfl, hn⟩
                rcases maxReg_exact h with ⟨h1, -⟩ | ⟨-, me, hm, -⟩
                · exact h1 hn
                · have := (List.getElem?_eq_some_iff.1 hm).1
                  omega
            | _ => exact this
        rw [hge es w Hp j (by omega)]
        rfl
    | @reg _ k name val id h =>
      obtain ⟨hl, me, hk⟩ := reg_ok h
      rw [reg_eq hl hk] at h
      simp only [Res.ok.injEq, Prod.mk.injEq] at h
      obtain ⟨rfl, -⟩ := h
      exact ih.replace hk rfl rfl rfl (ih.max k me hk) (fun _ _ => rfl)
    | @set _ cp val h =>
      rcases set_cases h with rfl | ⟨k, i, h⟩
      · exact ih.same rfl rfl (fun _ _ => rfl)
      · obtain ⟨rg, r, hk, hi⟩ := setAt_ok h
        rw [setAt_eq hk hi] at h
        cases h
        exact ih.replace hk rfl rfl rfl (ih.max k rg hk) (fun _ _ => rfl)
    | @maxReg _ k n r h =>
      rcases maxReg_exact h with ⟨h1, rfl⟩ | ⟨h1, me, hk, rfl⟩
      · exact ih.same rfl rfl (fun j _ => by simp only [maxOf]; rw [if_neg (fun hh => h1 hh.2)])
      · refine ih.replace hk rfl rfl rfl ?_ ?_
        · simp only [maxOf]; rw [if_pos (And.intro trivial h1)]
        · intro j hj
          simp only [maxOf]; rw [if_neg (fun hh => hj hh.1.symm)]
    | finish => exact ⟨ih.names, rfl, ih.max⟩

theorem regsOf_spec {es : List Ev} {w : World} (H : History es w) (hW : Within es) (k : Nat) :
    (regsOf k es).length = nRegs k es ∧
    ∀ (i : Nat) x, (regsOf k es)[i]? = some x → Denotes x.1 k i ∧ regName x.1 es = some x.2 := by
  induction H with
  | nil => simp [regsOf, nRegs]
  | @cons es w e w' Hp hc ih =>
    obtain ⟨ih1, ih2⟩ := ih hW.tail
    cases hc with
    | @reg _ k' name val id h =>
      obtain ⟨hd, -⟩ := reg_id Hp h hW
      have keep : ∀ (i : Nat) x, (regsOf k es)[i]? = some x → Denotes x.1 k i ∧
          regName x.1 (.reg k' name val id :: es) = some x.2 := by
        intro i x hx
        obtain ⟨h1, h2⟩ := ih2 i x hx
        refine ⟨h1, ?_⟩
        simp only [regName]
        rw [if_neg, h2]
        rintro rfl
        obtain ⟨rfl, rfl⟩ := hd.unique h1
        have := (List.getElem?_eq_some_iff.1 hx).1
        omega
      by_cases hk : k' = k
      · subst hk
        simp only [regsOf, nRegs, if_true]
        refine ⟨by simp [ih1], ?_⟩
        intro i x hx
        rw [List.getElem?_append] at hx
        split_ifs at hx with hlt
        · exact keep i x hx
        · rw [List.getElem?_singleton] at hx
          split_ifs at hx with h0
          cases hx
          have : i = nRegs k' es := by omega
          subst this
          exact ⟨hd, by simp [regName]⟩
      · simp only [regsOf, nRegs, if_neg hk]
        exact ⟨ih1, keep⟩
    | _ => exact ⟨ih1, ih2⟩

theorem regerLines_eq (l : List Rec) : ∀ i, regerLines i l = ((l.zipIdx i).map fun x => line x.2 x.1).flatten := by
  induction l with
  | nil => intro i; rfl
  | cons v l ih => intro i; rw [regerLines, ih]; simp

/-- **C101** (list of everything).  After any history of calls within the limits `ShowAllRegs` shows whether registration
is finished and, for every registrar in the order of creation, its number, name, limit, and every value registered with
it, in order, with its number, name and the value last stored. -/
theorem C101_show {es : List Ev} {w : World} (H : History es w) (hW : Within es) : showAllRegs w = Spec.all es := by
  have I := H.reach.inv
  have L := H.link
  have S := H.shown
  have hlen : (regerNames es).length = w.regers.length := by rw [← S.names, List.length_map]
  have hreg : ∀ (k : Nat) (rg : Reger), w.regers[k]? = some rg →
      '\n' :: regerString rg = Spec.regerLines es (rg.name, k) := by
    intro k rg hk
    obtain ⟨r1, r2⟩ := regsOf_spec H hW k
    have hlt := (List.getElem?_eq_some_iff.1 hk).1
    have hn := L.n
    have hw1 := hW.1
    have hm := L.m k rg hk
    have hw2 := hW.2 k
    have e1 : rg.regerId.toNat = k + 1 := by rw [I.rid k rg hk, BitVec.toNat_ofNat]; omega
    have e2 : rg.idGen.val.toNat = nRegs k es + 1 := by rw [I.rgen k rg hk, hm, BitVec.toNat_ofNat]; omega
    have e3 : rg.idGen.min.toNat = 0 := by rw [I.rmin k rg hk]; rfl
    have e4 := S.max k rg hk
    have e5 : regerLines 0 rg.regList = (regsOf k es).flatMap (Spec.valueLine es) := by
      rw [regerLines_eq, List.flatMap_def]
      congr 1
      apply List.ext_getElem?
      intro i
      simp only [List.getElem?_map, List.getElem?_zipIdx, Option.map_map, Nat.zero_add]
      by_cases hi : i < nRegs k es
      · obtain ⟨x, hx⟩ : ∃ x, (regsOf k es)[i]? = some x := ⟨_, List.getElem?_eq_getElem (by omega)⟩
        obtain ⟨r, hr⟩ : ∃ r, rg.regList[i]? = some r := ⟨_, List.getElem?_eq_getElem (by omega)⟩
        obtain ⟨hd, hname⟩ := r2 i x hx
        obtain ⟨s1, s2, -⟩ := history_sound H hW x.1
        have ha : Rec.At w k i r := ⟨rg, hk, hr⟩
        have hval := (s1 r.val).2 ⟨k, i, r, hd, ha, rfl⟩
        have hnm := (s2 r.name).2 ⟨k, i, r, hd, ha, rfl⟩
        rw [hname] at hnm
        have hnm := Option.some.inj hnm
        have hi24 := hd.2
        have hmod : x.1.toNat % 2 ^ 24 = i + 1 := by have := hd.1; omega
        have hnum : (BitVec.ofNat 32 i + 0#32 + 1#32).toNat = i + 1 := by
          simp only [BitVec.toNat_add, BitVec.toNat_ofNat]
          omega
        rw [hx, hr]
        simp only [Option.map_some, Function.comp, Option.some.injEq]
        unfold line Spec.valueLine dec
        rw [hval, hmod, hnum, hnm]
      · rw [List.getElem?_eq_none (by omega), List.getElem?_eq_none (by omega)]; rfl
    unfold regerString Spec.regerLines rangeString dec
    rw [e1, e2, e3, e4, e5]
    simp
  have hall : (w.regers.flatMap fun v => '\n' :: regerString v) = (regerNames es).zipIdx.flatMap (Spec.regerLines es) := by
    rw [List.flatMap_def, List.flatMap_def]
    congr 1
    apply List.ext_getElem?
    intro k
    rw [← S.names]
    simp only [List.getElem?_map, List.getElem?_zipIdx, Option.map_map, Nat.zero_add]
    cases hk : w.regers[k]? with
    | none => rfl
    | some rg =>
      simp only [Option.map_some, Function.comp, Option.some.injEq]
      exact hreg k rg hk
  unfold showAllRegs showRegers Spec.all
  rw [hall, S.locked, L.n]
  simp

/-! ## Concrete cases -/

example : (demoWorld >>= fun (w, x, y, _) => do
    let a ← idString w x; let b ← idString w y; let o ← object w y; let c ← objString w o
    return (String.ofList a, String.ofList b, String.ofList c)) =
    .ok ("Uint32#(0|1|x)5", "Uint32#(0|1|y)60", "Uint32#(0|1|y)60") := by decide +kernel

/-- Two values that cannot be told apart. -/
example : (do
    let (w, a) ← newReger World.init "a"
    let (w, b) ← newReger w "b"
    let (w, x) ← reg w a "n" 5#32
    let (w, y) ← reg w b "n" 5#32
    let s ← idString w x; let t ← idString w y
    return (decide (x = y), decide (s = t))) = .ok (false, true) := by decide +kernel

example : (demoWorld >>= fun (w, _) => Res.ok (String.ofList (showAllRegs w))) =
    .ok "[regable] locked:false\n[Uint32Regers] count:2\n[Uint32Reger#1: a] ids:RangeUint32{val:2 min:0 max:1024}\n#1 [x]: 5\n[Uint32Reger#2: b] ids:RangeUint32{val:3 min:0 max:1024}\n#1 [y]: 60\n#2 [z]: 7" := by
  decide +kernel

example := C101_text_partial exHistory exWithin (cp := 0x2000001#32) (v := 5#32) (n := "n") rfl rfl
example := C101_registrar_false exHistory exWithin (cp := 0x2000001#32) (cp' := 0x1000001#32) (v := 5#32) (n := "n")
  rfl rfl rfl rfl rfl
example := C101_unregistered_false exHistory exWithin (cp := 0x2000002#32)
  (by simp [exEvents, Ev.regId?])
example := C101_regO_partial exBefore_history exReg exWithin

example := C101_regO_locked World.init 0 "x" 5#32

end Verif.Regable
