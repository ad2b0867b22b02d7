import Verif.Model.ErrConc
import Verif.Props.ErrText
import Verif.Props.Rand
/-!
# The error registry used by many goroutines: C121
-/

set_option linter.unusedSectionVars false

namespace Verif.ErrConc
open Verif.Spec Verif.Errors
open Verif.Rand (setAt_same setAt_ne)

/-! ## Specification -/

/-- The registry as a list of names: the name of identifier 1001 first, at most 8999 of them. -/
def registry (names : List String) : Op → List String × Ret
  | .reg n =>
    if names.length < 8999 then (names ++ [n], .reg (BitVec.ofNat 32 (1001 + names.length)) false)
    else (names, .reg 1000#32 true)
  | .get id =>
    (names, .get (.ok (if 1001 ≤ id.toNat then
      match names[id.toNat - 1001]? with
      | some n => (n, false)
      | none => ("", true) else ("", true))))

/-- The events on the registry. -/
def objEvents (τ : List Event) : List (Ev Op Ret) := τ.filterMap fun e => match e with
  | .obj e => some e
  | _ => none

/-- A list of errors with the count `n` in its first line. -/
def listing (n : Nat) (names : List String) : List Char :=
  "[errors] Count:".toList ++ Errors.Spec.num n ++
    names.zipIdx.flatMap fun p => '\n' :: Errors.Spec.text (1001 + p.2) p.1

/-- The number of identifiers from 1001 up to the last one. -/
def upTo (last : BitVec 32) : Nat := last.toNat - 1000

/-- The number of registered errors. -/
def count (s : St) : Nat := upTo s.curMax

theorem count_eq (s : St) : count s = s.curMax.toNat - 1000 := rfl
theorem upTo_eq (c : BitVec 32) : upTo c = c.toNat - 1000 := rfl

attribute [local irreducible] upTo

/-! ## Invariant -/

/-- Inside `Lock`/`Unlock`. -/
def InW : PC → Prop
  | .regTest _ | .regLoad _ | .regStore _ _ | .regIncLoad _ | .regIncStore _ _ | .regRes | .regUnlock _ _ => True
  | _ => False

/-- Inside `RLock`/`RUnlock`. -/
def InR : PC → Prop
  | .getTest _ _ | .getIdx _ _ | .getUnlock _ _ _ => True
  | _ => False

/-- What a goroutine knows. -/
def Loc (s : St) : PC → Prop
  | .regTest _ => s.id2err.length = count s
  | .regLoad _ => s.curMax.toNat < 9999 ∧ s.id2err.length = count s
  | .regStore _ l => l = s.id2err ∧ s.curMax.toNat < 9999 ∧ s.id2err.length = count s
  | .regIncLoad n => s.curMax.toNat < 9999 ∧ ∃ l, s.id2err = l ++ [n] ∧ l.length = count s
  | .regIncStore n c => c = s.curMax ∧ s.curMax.toNat < 9999 ∧ ∃ l, s.id2err = l ++ [n] ∧ l.length = count s
  | .regRes => s.id2err.length = count s
  | .regUnlock _ _ => s.id2err.length = count s
  | .getIdx id _ => 1001 ≤ id.toNat ∧ id.toNat ≤ s.curMax.toNat
  | _ => True

structure Inv (s : St) : Prop where
  wr : ∀ t, s.w = some t ↔ InW (s.pc t)
  rd : ∀ t, s.r t = true ↔ InR (s.pc t)
  ex : s.w = none ∨ ∀ u, s.r u = false
  lo : 1001 ≤ s.curMax.toNat
  hi : s.curMax.toNat ≤ 9999
  len : count s ≤ s.id2err.length
  loc : ∀ t, Loc s (s.pc t)
  free : s.w = none → s.id2err.length = count s

theorem inv_init : Inv St.init := by
  have e : start = ⟨["unknown error"], 1001#32⟩ := by decide +kernel
  refine ⟨fun t => by simp [St.init, InW], fun t => by simp [St.init, InR], .inl rfl, ?_, ?_, ?_, fun t => trivial, ?_⟩ <;>
    simp [St.init, e, count_eq]

theorem go_pc (s : St) (t : Nat) (p : PC) : (s.go t p).pc = setAt s.pc t p := rfl

/-- A predicate of the program counters after a step of one goroutine. -/
theorem pc_set {P : Nat → PC → Prop} {f : Nat → PC} {t : Nat} {p : PC} (hp : P t p) (h : ∀ u, u ≠ t → P u (f u)) :
    ∀ u, P u (setAt f t p u) := by
  intro u
  by_cases e : u = t
  · subst e; rw [setAt_same]; exact hp
  · rw [setAt_ne _ _ _ _ e]; exact h u e

/-- Steps that change neither table, counter nor lock. -/
theorem inv_local {s : St} (hi : Inv s) {t : Nat} {p : PC} (hw : InW p ↔ InW (s.pc t)) (hr : InR p ↔ InR (s.pc t))
    (hl : Loc s p) : Inv (s.go t p) := by
  refine ⟨?_, ?_, hi.ex, hi.lo, hi.hi, hi.len, ?_, hi.free⟩
  · exact pc_set (P := fun u q => s.w = some u ↔ InW q) (by rw [hw]; exact hi.wr t) fun u _ => hi.wr u
  · exact pc_set (P := fun u q => s.r u = true ↔ InR q) (by rw [hr]; exact hi.rd t) fun u _ => hi.rd u
  · exact pc_set (P := fun _ q => Loc s q) hl fun u _ => hi.loc u

/-- Steps of the writer that change table or counter. -/
theorem inv_write {s : St} (hi : Inv s) {t : Nat} (ht : InW (s.pc t)) {p : PC} (hp : InW p) {l : List String}
    {c : BitVec 32} (h1 : s.curMax.toNat ≤ c.toNat) (h2 : c.toNat ≤ 9999) (h3 : upTo c ≤ l.length)
    (hl : Loc { s with id2err := l, curMax := c } p) : Inv ({ s with id2err := l, curMax := c }.go t p) := by
  have hw := (hi.wr t).2 ht
  have hnr : ¬ InR p := by cases p <;> simp_all [InW, InR]
  have hnr' : ¬ InR (s.pc t) := by cases e : s.pc t <;> simp_all [InW, InR]
  refine ⟨?_, ?_, hi.ex, le_trans hi.lo h1, h2, h3, ?_, fun h => ?_⟩
  · exact pc_set (P := fun u q => s.w = some u ↔ InW q) (by simp [hw, hp]) fun u _ => hi.wr u
  · exact pc_set (P := fun u q => s.r u = true ↔ InR q) (by rw [hi.rd]; simp [hnr, hnr']) fun u _ => hi.rd u
  · refine pc_set (P := fun _ q => Loc { s with id2err := l, curMax := c } q) hl fun u hu => ?_
    have hnu : ¬ InW (s.pc u) := fun h => by
      have := (hi.wr u).2 h
      rw [hw] at this
      exact hu (by simpa using this.symm)
    have hlu := hi.loc u
    cases e : s.pc u <;> simp_all [InW, Loc]
    omega
  · have : s.w = none := h
    rw [hw] at this; cases this

theorem inv_step {s s' : St} {e : Option Event} (hi : Inv s) (h : Step s e s') : Inv s' := by
  cases h with
  | callReg t name hp => exact inv_local hi (by simp [hp, InW]) (by simp [hp, InR]) trivial
  | callGet t id hp => exact inv_local hi (by simp [hp, InW]) (by simp [hp, InR]) trivial
  | callShow t hp => exact inv_local hi (by simp [hp, InW]) (by simp [hp, InR]) trivial
  | regLock t name hp hw hr =>
    refine ⟨?_, ?_, .inr hr, hi.lo, hi.hi, hi.len, ?_, fun h => by cases h⟩
    · refine pc_set (P := fun u q => some t = some u ↔ InW q) (by simp [InW]) fun u hu => ?_
      have := hi.wr u
      rw [hw] at this
      rw [← this]
      simpa using hu.symm
    · exact pc_set (P := fun u q => s.r u = true ↔ InR q) (by simp [InR, hr]) fun u _ => hi.rd u
    · exact pc_set (P := fun _ q => Loc { s with w := some t } q) (hi.free hw) fun u _ => by
        have := hi.loc u
        cases e : s.pc u <;> simp_all [Loc, count]
  | regTest t name hp =>
    have hl := hi.loc t
    rw [hp] at hl
    split
    · rename_i hc
      refine inv_local hi (by simp [hp, InW]) (by simp [hp, InR]) ⟨?_, hl⟩
      simpa [BitVec.lt_def] using hc
    · exact inv_local hi (by simp [hp, InW]) (by simp [hp, InR]) hl
  | regLoad t name hp =>
    have hl := hi.loc t
    rw [hp] at hl
    exact inv_local hi (by simp [hp, InW]) (by simp [hp, InR]) ⟨rfl, hl⟩
  | regStore t name l hp =>
    have hl := hi.loc t
    rw [hp] at hl
    obtain ⟨rfl, h1, h2⟩ := hl
    refine inv_write hi (p := .regIncLoad name) (by simp [hp, InW]) trivial le_rfl hi.hi ?_ ⟨h1, _, rfl, h2⟩
    have := hi.len
    simp only [List.length_append, count] at this ⊢; omega
  | regIncLoad t name hp =>
    have hl := hi.loc t
    rw [hp] at hl
    exact inv_local hi (by simp [hp, InW]) (by simp [hp, InR]) ⟨rfl, hl⟩
  | regIncStore t name c hp =>
    have hl := hi.loc t
    rw [hp] at hl
    obtain ⟨rfl, h1, l, h2, h3⟩ := hl
    have hc : (s.curMax + 1#32).toNat = s.curMax.toNat + 1 := by
      rw [BitVec.toNat_add]; simp; omega
    have hlo := hi.lo
    have hlen : s.id2err.length = upTo (s.curMax + 1#32) := by
      rw [h2, List.length_append, h3, upTo_eq, hc, count_eq]; simp only [List.length_singleton]; omega
    exact inv_write hi (p := .regRes) (by simp [hp, InW]) trivial (by omega) (by omega) (by omega) hlen
  | regRes t hp =>
    have hl := hi.loc t
    rw [hp] at hl
    exact inv_local hi (by simp [hp, InW]) (by simp [hp, InR]) hl
  | regUnlock t id err hp =>
    have hl := hi.loc t
    rw [hp] at hl
    have hw := (hi.wr t).2 (by simp [hp, InW])
    refine ⟨?_, ?_, .inl rfl, hi.lo, hi.hi, hi.len, ?_, fun _ => hl⟩
    · refine pc_set (P := fun u q => none = some u ↔ InW q) (by simp [InW]) fun u hu => ?_
      have := hi.wr u
      rw [hw] at this
      rw [← this]
      simpa using hu.symm
    · exact pc_set (P := fun u q => s.r u = true ↔ InR q) (by rw [hi.rd, hp]; simp [InR]) fun u _ => hi.rd u
    · exact pc_set (P := fun _ q => Loc { s with w := none } q) trivial fun u _ => by
        have := hi.loc u
        cases e : s.pc u <;> simp_all [Loc, count]
  | getLock t id k hp hw =>
    refine ⟨?_, ?_, .inl hw, hi.lo, hi.hi, hi.len, ?_, hi.free⟩
    · exact pc_set (P := fun u q => s.w = some u ↔ InW q) (by simp [hw, InW]) fun u _ => hi.wr u
    · refine pc_set (P := fun u q => setAt s.r t true u = true ↔ InR q) (by simp [setAt_same, InR]) fun u hu => ?_
      rw [setAt_ne _ _ _ _ hu]; exact hi.rd u
    · exact pc_set (P := fun _ q => Loc { s with r := setAt s.r t true } q) trivial fun u _ => by
        have := hi.loc u
        cases e : s.pc u <;> simp_all [Loc, count]
  | getTest t id k hp =>
    split
    · rename_i hc
      refine inv_local hi (by simp [hp, InW]) (by simp [hp, InR]) ?_
      simpa [BitVec.le_def, Loc] using hc
    · exact inv_local hi (by simp [hp, InW]) (by simp [hp, InR]) trivial
  | getIdx t id k hp => exact inv_local hi (by simp [hp, InW]) (by simp [hp, InR]) trivial
  | getUnlock t id k r hp =>
    have hnW : ¬ InW (afterGet id k r) := by unfold afterGet; cases k <;> cases r <;> simp [InW]
    have hnR : ¬ InR (afterGet id k r) := by unfold afterGet; cases k <;> cases r <;> simp [InR]
    have hnL : Loc { s with r := setAt s.r t false } (afterGet id k r) := by unfold afterGet; cases k <;> cases r <;> simp [Loc]
    have hrt := (hi.rd t).2 (by simp [hp, InR])
    have hw : s.w = none := by
      rcases hi.ex with h | h
      · exact h
      · rw [h t] at hrt; cases hrt
    refine ⟨?_, ?_, .inl hw, hi.lo, hi.hi, hi.len, ?_, hi.free⟩
    · exact pc_set (P := fun u q => s.w = some u ↔ InW q) (by simp [hw, hnW]) fun u _ => hi.wr u
    · refine pc_set (P := fun u q => setAt s.r t false u = true ↔ InR q) (by simp [setAt_same, hnR]) fun u hu => ?_
      rw [setAt_ne _ _ _ _ hu]; exact hi.rd u
    · exact pc_set (P := fun _ q => Loc { s with r := setAt s.r t false } q) hnL fun u _ => by
        have := hi.loc u
        cases e : s.pc u <;> simp_all [Loc, count]
  | ret t r hp => exact inv_local hi (by simp [hp, InW]) (by simp [hp, InR]) trivial
  | showHead t hp => exact inv_local hi (by simp [hp, InW]) (by simp [hp, InR]) trivial
  | showTest t id acc hp => split <;> exact inv_local hi (by simp [hp, InW]) (by simp [hp, InR]) trivial
  | showRet t r hp => exact inv_local hi (by simp [hp, InW]) (by simp [hp, InR]) trivial

theorem inv_exec {τ : List Event} {s : St} (h : Exec Step St.init τ s) : Inv s :=
  h.invariant (fun _ s => Inv s) inv_init (fun _ _ _ hi hs => inv_step hi hs) (fun _ _ _ _ hi hs => inv_step hi hs)

/-! ## Mutual exclusion -/

/-- The goroutine is about to write the table or the counter. -/
def Writes : PC → Prop
  | .regStore _ _ | .regIncStore _ _ => True
  | _ => False

/-- The goroutine is about to read or write the table or the counter inside the lock. -/
def Touches : PC → Prop
  | .regTest _ | .regLoad _ | .regStore _ _ | .regIncLoad _ | .regIncStore _ _ | .regRes | .getTest _ _ | .getIdx _ _ => True
  | _ => False

/-- **C121** (no interference).  While one goroutine is about to write the registry, no other goroutine is about to read or
write it in `Reg` or `Get`. -/
theorem C121_exclusion {τ : List Event} {s : St} (h : Exec Step St.init τ s) {t u : Nat} (ht : Writes (s.pc t))
    (hu : Touches (s.pc u)) : t = u := by
  have hi := inv_exec h
  have hw : s.w = some t := (hi.wr t).2 (by cases e : s.pc t <;> simp_all [Writes, InW])
  by_cases h' : InW (s.pc u)
  · have := (hi.wr u).2 h'
    rw [hw] at this; simpa using this
  · have : InR (s.pc u) := by cases e : s.pc u <;> simp_all [Touches, InW, InR]
    have hr := (hi.rd u).2 this
    rcases hi.ex with h | h
    · rw [hw] at h; cases h
    · rw [h u] at hr; cases hr

/-! ## Linearizability -/

/-- Seen from the atomic object. -/
def status (s : St) : PC → AStatus Op Ret
  | .regLock n | .regTest n | .regLoad n | .regStore n _ | .regIncLoad n | .regIncStore n _ => .pending (.reg n)
  | .regRes => .done (.reg s.curMax false)
  | .regUnlock id err => .done (.reg id err)
  | .getLock id none | .getTest id none | .getIdx id none => .pending (.get id)
  | .getUnlock _ none r => .done (.get r)
  | .ret r => .done r
  | _ => .idle

/-- The registered names. -/
def names (s : St) : List String := s.id2err.take (count s)

structure Sim (s : St) (a : AState (List String) Op Ret) : Prop where
  st : a.s = names s
  th : ∀ t, a.th t = status s (s.pc t)

theorem sim_set {s : St} {a : AState (List String) Op Ret} (hs : Sim s a) (t : Nat) (p : PC) (q : AStatus Op Ret)
    (hq : q = status s p) : ∀ u, setAt a.th t q u = status s (setAt s.pc t p u) := by
  intro u
  by_cases e : u = t
  · subst e; simp [setAt_same, hq]
  · simp [setAt_ne _ _ _ _ e, hs.th]

theorem sim_keep {s : St} {a : AState (List String) Op Ret} (hs : Sim s a) (t : Nat) (p : PC)
    (hq : status s p = status s (s.pc t)) : Sim (s.go t p) a := by
  refine ⟨hs.st, fun u => ?_⟩
  show a.th u = status s (setAt s.pc t p u)
  by_cases e : u = t
  · subst e; rw [setAt_same, hs.th, hq]
  · simp [setAt_ne _ _ _ _ e, hs.th]

/-- The events of one step on the registry. -/
def obj? : Option Event → List (Ev Op Ret)
  | some (.obj e) => [e]
  | _ => []

theorem names_length {s : St} (hi : Inv s) : (names s).length = count s := by
  rw [names, List.length_take]; have := hi.len; omega

theorem status_afterGet (s : St) (id : BitVec 32) (k : Option (List Char)) (r : Res (String × Bool)) :
    status s (afterGet id k r) = status s (.getUnlock id k r) := by
  cases k with
  | none => rfl
  | some acc => cases r <;> rfl

theorem sim_step {s s' : St} {e : Option Event} {a : AState (List String) Op Ret} (hi : Inv s) (hs : Sim s a)
    (h : Step s e s') : ∃ a', Exec (AStep registry) a (obj? e) a' ∧ Sim s' a' := by
  cases h with
  | callReg t name hp =>
    exact ⟨_, .visible (.refl _) (.call a t (.reg name) (by rw [hs.th, hp]; rfl)), hs.st, sim_set hs t _ _ rfl⟩
  | callGet t id hp =>
    exact ⟨_, .visible (.refl _) (.call a t (.get id) (by rw [hs.th, hp]; rfl)), hs.st, sim_set hs t _ _ rfl⟩
  | callShow t hp => exact ⟨a, .refl _, sim_keep hs t _ (by rw [hp]; rfl)⟩
  | regLock t name hp hw hr =>
    refine ⟨a, .refl _, hs.st, fun u => ?_⟩
    rw [(sim_keep hs t (.regTest name) (by rw [hp]; rfl)).th u]
    rfl
  | regTest t name hp =>
    split
    · exact ⟨a, .refl _, sim_keep hs t _ (by rw [hp]; rfl)⟩
    · rename_i hc
      have hlen : ¬ (names s).length < 8999 := by
        rw [names_length hi, count_eq]
        have := hi.hi
        simp [BitVec.lt_def] at hc
        omega
      have he : registry a.s (.reg name) = (a.s, .reg 1000#32 true) := by simp only [registry, hs.st, if_neg hlen]
      refine ⟨_, .silent (.refl _) (.effect a t (.reg name) (by rw [hs.th, hp]; rfl)), ?_, ?_⟩
      · rw [he]; exact hs.st
      · rw [he]; exact sim_set hs t _ _ rfl
  | regLoad t name hp => exact ⟨a, .refl _, sim_keep hs t _ (by rw [hp]; rfl)⟩
  | regStore t name l hp =>
    have hl := hi.loc t
    rw [hp] at hl
    obtain ⟨rfl, h1, h2⟩ := hl
    refine ⟨a, .refl _, ?_, fun u => ?_⟩
    · rw [hs.st]
      show s.id2err.take (count s) = (s.id2err ++ [name]).take (count s)
      rw [List.take_append_of_le_length (by omega)]
    · rw [(sim_keep hs t (.regIncLoad name) (by rw [hp]; rfl)).th u]
      rfl
  | regIncLoad t name hp => exact ⟨a, .refl _, sim_keep hs t _ (by rw [hp]; rfl)⟩
  | regIncStore t name c hp =>
    have hl := hi.loc t
    rw [hp] at hl
    obtain ⟨rfl, h1, l, h2, h3⟩ := hl
    have hlo := hi.lo
    have hc : (s.curMax + 1#32).toNat = s.curMax.toNat + 1 := by
      rw [BitVec.toNat_add]; simp; omega
    have hn : names s = l := by rw [names, h2, ← h3, List.take_left']; rfl
    have he : registry a.s (.reg name) = (l ++ [name], .reg (s.curMax + 1#32) false) := by
      have : l.length < 8999 := by rw [h3, count_eq]; omega
      simp only [registry, hs.st, hn, if_pos this]
      congr 2
      apply BitVec.eq_of_toNat_eq
      rw [hc, BitVec.toNat_ofNat, h3, count_eq]
      omega
    refine ⟨_, .silent (.refl _) (.effect a t (.reg name) (by rw [hs.th, hp]; rfl)), ?_, ?_⟩
    · rw [he]
      show l ++ [name] = s.id2err.take (upTo (s.curMax + 1#32))
      rw [List.take_of_length_le, h2]
      rw [h2, List.length_append, h3, upTo_eq, hc, count_eq]; simp only [List.length_singleton]; omega
    · rw [he]
      intro u
      by_cases e : u = t
      · subst e; show setAt _ u _ u = status _ (setAt s.pc u _ u); rw [setAt_same, setAt_same]; rfl
      · show setAt _ t _ u = status _ (setAt s.pc t _ u)
        rw [setAt_ne _ _ _ _ e, hs.th]
        rw [setAt_ne _ _ _ _ e]
        have hnu : ¬ InW (s.pc u) := fun h => by
          have h1 := (hi.wr u).2 h
          rw [(hi.wr t).2 (by simp [hp, InW])] at h1
          exact e (by simpa using h1.symm)
        cases hu : s.pc u with
        | regRes => rw [hu] at hnu; exact absurd trivial hnu
        | getLock id k => cases k <;> rfl
        | getTest id k => cases k <;> rfl
        | getIdx id k => cases k <;> rfl
        | getUnlock id k r => cases k <;> rfl
        | _ => rfl
  | regRes t hp => exact ⟨a, .refl _, sim_keep hs t _ (by rw [hp]; rfl)⟩
  | regUnlock t id err hp =>
    refine ⟨a, .refl _, hs.st, fun u => ?_⟩
    rw [(sim_keep hs t (.ret (.reg id err)) (by rw [hp]; rfl)).th u]
    rfl
  | getLock t id k hp hw =>
    refine ⟨a, .refl _, hs.st, fun u => ?_⟩
    rw [(sim_keep hs t (.getTest id k) (by rw [hp]; cases k <;> rfl)).th u]
    rfl
  | getTest t id k hp =>
    split
    · exact ⟨a, .refl _, sim_keep hs t _ (by rw [hp]; cases k <;> rfl)⟩
    · rename_i hc
      cases k with
      | some acc => exact ⟨a, .refl _, sim_keep hs t _ (by rw [hp]; rfl)⟩
      | none =>
        have he : registry a.s (.get id) = (a.s, .get (.ok ("", true))) := by
          simp only [registry, hs.st]
          split
          · rename_i h1
            have h2 : ¬ id.toNat ≤ s.curMax.toNat := fun h => hc ⟨by simpa [BitVec.le_def] using h1, by simpa [BitVec.le_def] using h⟩
            rw [List.getElem?_eq_none]
            rw [names_length hi, count_eq]; omega
          · rfl
        refine ⟨_, .silent (.refl _) (.effect a t (.get id) (by rw [hs.th, hp]; rfl)), ?_, ?_⟩
        · rw [he]; exact hs.st
        · rw [he]; exact sim_set hs t _ _ rfl
  | getIdx t id k hp =>
    cases k with
    | some acc => exact ⟨a, .refl _, sim_keep hs t _ (by rw [hp]; rfl)⟩
    | none =>
      have hl := hi.loc t
      rw [hp] at hl
      obtain ⟨h1, h2⟩ := hl
      have hidx : (id - 1001#32).toNat = id.toNat - 1001 := by
        rw [BitVec.toNat_sub]; have := id.isLt; simp; omega
      have hlt : id.toNat - 1001 < s.id2err.length := by have := hi.len; rw [count_eq] at this; omega
      have he : registry a.s (.get id) =
          (a.s, .get (do let name ← Go.get s.id2err (id - 1001#32).toNat; return (name, false))) := by
        simp only [registry, hs.st, if_pos h1, names, Go.get, hidx]
        rw [List.getElem?_take_of_lt (by rw [count_eq]; omega), List.getElem?_eq_getElem hlt]
        rfl
      refine ⟨_, .silent (.refl _) (.effect a t (.get id) (by rw [hs.th, hp]; rfl)), ?_, ?_⟩
      · rw [he]; exact hs.st
      · rw [he]; exact sim_set hs t _ _ rfl
  | getUnlock t id k r hp =>
    refine ⟨a, .refl _, hs.st, fun u => ?_⟩
    rw [(sim_keep hs t (afterGet id k r) (by rw [hp]; exact status_afterGet s id k r)).th u]
    rfl
  | ret t r hp =>
    exact ⟨_, .visible (.refl _) (.ret a t r (by rw [hs.th, hp]; rfl)), hs.st, sim_set hs t _ _ rfl⟩
  | showHead t hp => exact ⟨a, .refl _, sim_keep hs t _ (by rw [hp]; rfl)⟩
  | showTest t id acc hp => split <;> exact ⟨a, .refl _, sim_keep hs t _ (by rw [hp]; rfl)⟩
  | showRet t r hp => exact ⟨a, .refl _, sim_keep hs t _ (by rw [hp]; rfl)⟩

/-- **C121** (atomicity).  However many goroutines register errors, look them up and list them, the results of `Reg` and `Get`
are those of a registry in which each call takes effect at one instant between its call and its return: identifiers are
handed out one after the other from 1002 on, `Get` of a registered identifier gives its name, every other one an error,
and from the 8999th on `Reg` fails. -/
theorem C121_linearizable {τ : List Event} {s : St} (h : Exec Step St.init τ s) :
    ∃ a, Exec (AStep registry) (AState.init ["unknown error"]) (objEvents τ) a ∧ a.s = names s := by
  have key : ∃ a, Exec (AStep registry) (AState.init ["unknown error"]) (objEvents τ) a ∧ Inv s ∧ Sim s a := by
    refine h.invariant (fun τ s => ∃ a, Exec (AStep registry) (AState.init ["unknown error"]) (objEvents τ) a ∧ Inv s ∧ Sim s a) ?_ ?_ ?_
    · refine ⟨_, .refl _, inv_init, ?_, fun t => rfl⟩
      have e : start = ⟨["unknown error"], 1001#32⟩ := by decide +kernel
      simp [names, St.init, e, count_eq, AState.init]
    · rintro τ s1 s2 ⟨a, ha, hi, hs⟩ hst
      obtain ⟨a', h1, h2⟩ := sim_step hi hs hst
      exact ⟨a', by simpa [obj?] using ha.trans h1, inv_step hi hst, h2⟩
    · rintro τ s1 e s2 ⟨a, ha, hi, hs⟩ hst
      obtain ⟨a', h1, h2⟩ := sim_step hi hs hst
      refine ⟨a', ?_, inv_step hi hst, h2⟩
      have := ha.trans h1
      have e2 : objEvents (τ ++ [e]) = objEvents τ ++ obj? (some e) := by
        cases e <;> simp [objEvents, obj?]
      rw [e2]; exact this
  obtain ⟨a, h1, _, h2⟩ := key
  exact ⟨a, h1, h2.st⟩

/-! ## The identifiers -/

/-- The identifiers returned by `Reg` without error. -/
def handedOut (τ : List Event) : List (BitVec 32) := τ.filterMap fun e => match e with
  | .obj (.ret _ (.reg id false)) => some id
  | _ => none

/-- The identifier a goroutine is about to return. -/
def about (s : St) : PC → Option (BitVec 32)
  | .regRes => some s.curMax
  | .regUnlock id false => some id
  | .ret (.reg id false) => some id
  | _ => none

structure Ids (τ : List Event) (s : St) : Prop where
  nodup : (handedOut τ).Nodup
  le : ∀ id ∈ handedOut τ, 1002 ≤ id.toNat ∧ id.toNat ≤ s.curMax.toNat
  about_le : ∀ t id, about s (s.pc t) = some id → 1002 ≤ id.toNat ∧ id.toNat ≤ s.curMax.toNat ∧ id ∉ handedOut τ
  about_ne : ∀ t u id, about s (s.pc t) = some id → about s (s.pc u) = some id → t = u

theorem ids_keep {τ : List Event} {s : St} (h : Ids τ s) (t : Nat) {p : PC} (hp : about s p = about s (s.pc t)) :
    Ids τ (s.go t p) := by
  have e : ∀ u, about (s.go t p) ((s.go t p).pc u) = about s (s.pc u) := by
    intro u
    show about s (setAt s.pc t p u) = _
    by_cases e : u = t
    · subst e; rw [setAt_same, hp]
    · rw [setAt_ne _ _ _ _ e]
  exact ⟨h.nodup, h.le, fun u id hu => h.about_le u id (by rw [← e]; exact hu),
    fun u v id hu hv => h.about_ne u v id (by rw [← e]; exact hu) (by rw [← e]; exact hv)⟩

theorem ids_drop {τ : List Event} {s : St} (h : Ids τ s) (t : Nat) {p : PC} (hp : about s p = none) : Ids τ (s.go t p) := by
  have e : ∀ u id, about (s.go t p) ((s.go t p).pc u) = some id → about s (s.pc u) = some id := by
    intro u id
    show about s (setAt s.pc t p u) = some id → _
    by_cases e : u = t
    · subst e; rw [setAt_same, hp]; intro h; cases h
    · rw [setAt_ne _ _ _ _ e]; exact fun h => h
  exact ⟨h.nodup, h.le, fun u id hu => h.about_le u id (e u id hu), fun u v id hu hv => h.about_ne u v id (e u id hu) (e v id hv)⟩

theorem ids_congr {τ : List Event} {s s' : St} (h : Ids τ s) (h1 : s'.curMax = s.curMax) (h2 : s'.pc = s.pc) : Ids τ s' := by
  have e : ∀ p, about s' p = about s p := by intro p; unfold about; rw [h1]
  refine ⟨h.nodup, by rw [h1]; exact h.le, ?_, ?_⟩
  · intro t id; rw [e, h2, h1]; exact h.about_le t id
  · intro t u id; rw [e, e, h2]; exact h.about_ne t u id

theorem ids_step {τ : List Event} {s s' : St} {e : Option Event} (hi : Inv s) (hd : Ids τ s) (h : Step s e s') :
    Ids (τ ++ e.toList) s' := by
  have nil : ∀ {s'}, Ids τ s' → Ids (τ ++ (none : Option Event).toList) s' := fun h => by simpa using h
  have vis : ∀ {e : Event} {s'}, handedOut [e] = [] → Ids τ s' → Ids (τ ++ (some e).toList) s' := fun {e s'} h1 h => by
    have : handedOut (τ ++ (some e).toList) = handedOut τ := by
      rw [handedOut, List.filterMap_append]; simp only [Option.toList]; rw [← handedOut, ← handedOut, h1, List.append_nil]
    exact ⟨by rw [this]; exact h.nodup, by rw [this]; exact h.le, by rw [this]; exact h.about_le, h.about_ne⟩
  cases h with
  | callReg t name hp => exact vis rfl (ids_keep hd t (by rw [hp]; rfl))
  | callGet t id hp => exact vis rfl (ids_keep hd t (by rw [hp]; rfl))
  | callShow t hp => exact vis rfl (ids_keep hd t (by rw [hp]; rfl))
  | regLock t name hp hw hr => exact nil (ids_congr (ids_keep hd t (p := .regTest name) (by rw [hp]; rfl)) rfl rfl)
  | regTest t name hp => split <;> exact nil (ids_keep hd t (by rw [hp]; rfl))
  | regLoad t name hp => exact nil (ids_keep hd t (by rw [hp]; rfl))
  | regStore t name l hp => exact nil (ids_congr (ids_keep hd t (p := .regIncLoad name) (by rw [hp]; rfl)) rfl rfl)
  | regIncLoad t name hp => exact nil (ids_keep hd t (by rw [hp]; rfl))
  | regIncStore t name c hp =>
    have hl := hi.loc t
    rw [hp] at hl
    obtain ⟨rfl, h1, -⟩ := hl
    have hlo := hi.lo
    have hc : (s.curMax + 1#32).toNat = s.curMax.toNat + 1 := by
      rw [BitVec.toNat_add]; simp; omega
    have key : ∀ u id, u ≠ t → about { s with curMax := s.curMax + 1#32 } (s.pc u) = some id →
        about s (s.pc u) = some id := by
      intro u id hu h
      have hnu : ¬ InW (s.pc u) := fun h => by
        have h1 := (hi.wr u).2 h
        rw [(hi.wr t).2 (by simp [hp, InW])] at h1
        exact hu (by simpa using h1.symm)
      cases e : s.pc u with
      | regRes => rw [e] at hnu; exact absurd trivial hnu
      | regUnlock i err => rw [e] at hnu; exact absurd trivial hnu
      | ret r =>
        rw [e] at h
        cases r with
        | get x => exact h
        | reg i err => cases err <;> exact h
      | _ => rw [e] at h; exact h
    have key' : ∀ u id, about ({ s with curMax := s.curMax + 1#32 }.go t .regRes)
        (({ s with curMax := s.curMax + 1#32 }.go t .regRes).pc u) = some id →
        (u = t ∧ id = s.curMax + 1#32) ∨ (u ≠ t ∧ about s (s.pc u) = some id) := by
      intro u id h
      by_cases e : u = t
      · subst e
        left
        refine ⟨rfl, ?_⟩
        have : about { s with curMax := s.curMax + 1#32 } (setAt s.pc u .regRes u) = some id := h
        rw [setAt_same] at this
        simpa [about] using this.symm
      · right
        have : about { s with curMax := s.curMax + 1#32 } (setAt s.pc t .regRes u) = some id := h
        rw [setAt_ne _ _ _ _ e] at this
        exact ⟨e, key u id e this⟩
    refine nil ⟨hd.nodup, fun id h => ?_, fun u id h => ?_, fun u v id h h' => ?_⟩
    · have := hd.le id h
      refine ⟨this.1, ?_⟩
      show id.toNat ≤ (s.curMax + 1#32).toNat
      omega
    · show 1002 ≤ id.toNat ∧ id.toNat ≤ (s.curMax + 1#32).toNat ∧ _
      rcases key' u id h with ⟨-, rfl⟩ | ⟨-, h⟩
      · exact ⟨by omega, le_rfl, fun hm => by have := (hd.le _ hm).2; omega⟩
      · have := hd.about_le u id h
        exact ⟨this.1, by omega, this.2.2⟩
    · rcases key' u id h with ⟨h1, h2⟩ | ⟨h1, h2⟩ <;> rcases key' v id h' with ⟨h3, h4⟩ | ⟨h3, h4⟩
      · rw [h1, h3]
      · subst h2; have := (hd.about_le v _ h4).2.1; omega
      · subst h4; have := (hd.about_le u _ h2).2.1; omega
      · exact hd.about_ne u v id h2 h4
  | regRes t hp => exact nil (ids_keep hd t (by rw [hp]; rfl))
  | regUnlock t id err hp =>
    exact nil (ids_congr (ids_keep hd t (p := .ret (.reg id err)) (by rw [hp]; cases err <;> rfl)) rfl rfl)
  | getLock t id k hp hw => exact nil (ids_congr (ids_keep hd t (p := .getTest id k) (by rw [hp]; rfl)) rfl rfl)
  | getTest t id k hp => split <;> exact nil (ids_keep hd t (by rw [hp]; rfl))
  | getIdx t id k hp => exact nil (ids_keep hd t (by rw [hp]; rfl))
  | getUnlock t id k r hp =>
    refine nil (ids_congr (ids_keep hd t (p := afterGet id k r) ?_) rfl rfl)
    rw [hp]; cases k <;> cases r <;> rfl
  | ret t r hp =>
    by_cases hr : ∃ id, r = .reg id false
    · obtain ⟨id, rfl⟩ := hr
      have ha := hd.about_le t id (by rw [hp]; rfl)
      have e : handedOut (τ ++ (some (Event.obj (.ret t (.reg id false)))).toList) = handedOut τ ++ [id] := by
        simp [handedOut]
      refine ⟨?_, ?_, ?_, (ids_drop hd t (p := .idle) rfl).about_ne⟩
      · rw [e, List.nodup_append]
        exact ⟨hd.nodup, by simp, fun a h b hb => by simp at hb; subst hb; exact fun e => ha.2.2 (e ▸ h)⟩
      · rw [e]
        intro x hx
        rcases List.mem_append.1 hx with h | h
        · exact hd.le x h
        · simp at h; subst h; exact ⟨ha.1, ha.2.1⟩
      · intro u x hx
        have h1 := (ids_drop hd t (p := .idle) rfl).about_le u x hx
        refine ⟨h1.1, h1.2.1, ?_⟩
        rw [e]
        intro hm
        rcases List.mem_append.1 hm with h | h
        · exact h1.2.2 h
        · simp at h; subst h
          have hx' : about s (setAt s.pc t .idle u) = some x := hx
          by_cases eu : u = t
          · subst eu; rw [setAt_same] at hx'; cases hx'
          · rw [setAt_ne _ _ _ _ eu] at hx'
            exact eu (hd.about_ne u t x hx' (by rw [hp]; rfl))
    · refine vis ?_ (ids_drop hd t rfl)
      cases r with
      | get r => rfl
      | reg id err =>
        cases err with
        | true => rfl
        | false => exact absurd ⟨id, rfl⟩ hr
  | showHead t hp => exact nil (ids_keep hd t (by rw [hp]; rfl))
  | showTest t id acc hp => split <;> exact nil (ids_keep hd t (by rw [hp]; rfl))
  | showRet t r hp => exact vis rfl (ids_keep hd t (by rw [hp]; rfl))

theorem ids_exec {τ : List Event} {s : St} (h : Exec Step St.init τ s) : Ids τ s := by
  refine (h.invariant (fun τ s => Inv s ∧ Ids τ s) ⟨inv_init, ?_⟩ ?_ ?_).2
  · exact ⟨by simp [handedOut], by simp [handedOut], by simp [St.init, about], by simp [St.init, about]⟩
  · rintro τ s1 s2 ⟨hi, hd⟩ hst
    exact ⟨inv_step hi hst, by simpa using ids_step hi hd hst⟩
  · rintro τ s1 e s2 ⟨hi, hd⟩ hst
    exact ⟨inv_step hi hst, by simpa using ids_step hi hd hst⟩

/-- **C121** (identifiers).  No identifier is handed out twice, and all of them lie between 1002 and 9999, whatever the
interleaving. -/
theorem C121_ids {τ : List Event} {s : St} (h : Exec Step St.init τ s) :
    (handedOut τ).Nodup ∧ ∀ id ∈ handedOut τ, 1002 ≤ id.toNat ∧ id.toNat < 1001 + count s ∧ id.toNat ≤ 9999 := by
  have hd := ids_exec h
  have hi := inv_exec h
  refine ⟨hd.nodup, fun id hm => ?_⟩
  have := hd.le id hm
  have h1 := hi.hi
  have h2 := hi.lo
  rw [count_eq]
  omega

/-! ## `ShowAll` -/

theorem grow {s s' : St} {e : Option Event} (hi : Inv s) (h : Step s e s') :
    s.curMax.toNat ≤ s'.curMax.toNat ∧ ∃ l, s'.id2err = s.id2err ++ l := by
  cases h with
  | regStore t name l hp =>
    have hl := hi.loc t
    rw [hp] at hl
    obtain ⟨rfl, -, -⟩ := hl
    exact ⟨le_rfl, _, rfl⟩
  | regIncStore t name c hp =>
    have hl := hi.loc t
    rw [hp] at hl
    obtain ⟨rfl, h1, -⟩ := hl
    refine ⟨?_, [], by simp [St.go]⟩
    show s.curMax.toNat ≤ (s.curMax + 1#32).toNat
    rw [BitVec.toNat_add]; simp; omega
  | _ => exact ⟨le_rfl, [], by simp [St.go]⟩

/-- The place of an identifier in the table. -/
def place (id : BitVec 32) : Nat := id.toNat - 1001

theorem place_eq (id : BitVec 32) : place id = id.toNat - 1001 := rfl

attribute [local irreducible] place

/-- The text of a call of `ShowAll` before the line of `id`. -/
def Acc (c0 : Nat) (s : St) (id : BitVec 32) (acc : List Char) : Prop :=
  ∃ n, c0 ≤ n ∧ n ≤ count s ∧ 1001 ≤ id.toNat ∧ place id ≤ count s ∧
    acc = listing n (s.id2err.take (place id))

/-- The text with the line break in front of the line of `id`. -/
def Mid (c0 : Nat) (s : St) (id : BitVec 32) (acc : List Char) : Prop :=
  id.toNat ≤ s.curMax.toNat ∧ ∃ acc0, acc = acc0 ++ ['\n'] ∧ Acc c0 s id acc0

/-- What holds of a goroutine inside a call of `ShowAll` that began when `c0` errors were registered. -/
def Shows (c0 : Nat) (s : St) : PC → Prop
  | .showHead => c0 ≤ count s
  | .showTest id acc => Acc c0 s id acc
  | .getLock id (some acc) | .getTest id (some acc) | .getIdx id (some acc) => Mid c0 s id acc
  | .getUnlock id (some acc) r => Mid c0 s id acc ∧ ∃ name, s.id2err[place id]? = some name ∧ r = .ok (name, false)
  | .showDone r => ∃ n m, c0 ≤ n ∧ n ≤ m ∧ m ≤ count s ∧ r = .ok (listing n (s.id2err.take m))
  | _ => False

theorem acc_mono {c0 : Nat} {s s' : St} {id : BitVec 32} {acc : List Char} (hi : Inv s)
    (hg : s.curMax.toNat ≤ s'.curMax.toNat ∧ ∃ l, s'.id2err = s.id2err ++ l) (h : Acc c0 s id acc) : Acc c0 s' id acc := by
  obtain ⟨n, h1, h2, h3, h4, h5⟩ := h
  obtain ⟨g1, l, g2⟩ := hg
  have hl := hi.len
  have hc : count s ≤ count s' := by rw [count_eq, count_eq]; omega
  exact ⟨n, h1, by omega, h3, by omega, by rw [h5, g2, List.take_append_of_le_length (by omega)]⟩

theorem mid_mono {c0 : Nat} {s s' : St} {id : BitVec 32} {acc : List Char} (hi : Inv s)
    (hg : s.curMax.toNat ≤ s'.curMax.toNat ∧ ∃ l, s'.id2err = s.id2err ++ l) (h : Mid c0 s id acc) : Mid c0 s' id acc := by
  obtain ⟨h0, a, h1, h2⟩ := h
  exact ⟨le_trans h0 hg.1, a, h1, acc_mono hi hg h2⟩

theorem shows_mono {c0 : Nat} {s s' : St} {p : PC} (hi : Inv s)
    (hg : s.curMax.toNat ≤ s'.curMax.toNat ∧ ∃ l, s'.id2err = s.id2err ++ l) (h : Shows c0 s p) : Shows c0 s' p := by
  have hc : count s ≤ count s' := by have := hg.1; rw [count_eq, count_eq]; omega
  have hl := hi.len
  cases p with
  | showHead => exact le_trans h hc
  | showTest id acc => exact acc_mono hi hg h
  | getLock id k => cases k with
    | none => exact h
    | some acc => exact mid_mono hi hg h
  | getTest id k => cases k with
    | none => exact h
    | some acc => exact mid_mono hi hg h
  | getIdx id k => cases k with
    | none => exact h
    | some acc => exact mid_mono hi hg h
  | getUnlock id k r => cases k with
    | none => exact h
    | some acc =>
      obtain ⟨h1, name, h2, h3⟩ := h
      obtain ⟨l, g2⟩ := hg.2
      refine ⟨mid_mono hi hg h1, name, ?_, h3⟩
      have := (List.getElem?_eq_some_iff.1 h2).1
      rw [g2, List.getElem?_append_left this, h2]
  | showDone r =>
    obtain ⟨n, m, h1, h2, h3, h4⟩ := h
    obtain ⟨l, g2⟩ := hg.2
    exact ⟨n, m, h1, h2, by omega, by rw [h4, g2, List.take_append_of_le_length (by omega)]⟩
  | _ => exact h

theorem listing_snoc (n : Nat) (l : List String) (name : String) :
    listing n (l ++ [name]) = listing n l ++ ['\n'] ++ Errors.Spec.text (1001 + l.length) name := by
  unfold listing
  generalize 1001 = k
  rw [List.zipIdx_append, List.flatMap_append]
  simp only [List.zipIdx_singleton, List.flatMap_singleton, Nat.zero_add, List.append_assoc, List.singleton_append]

theorem dec_eq (x : BitVec 32) : dec x = Errors.Spec.num x.toNat := rfl

theorem listing_nil (n : Nat) : listing n [] = "[errors] Count:".toList ++ Errors.Spec.num n := List.append_nil _

theorem acc_head {c0 : Nat} {s : St} (hi : Inv s) (h : c0 ≤ count s) :
    Acc c0 s 1001#32 ("[errors] Count:".toList ++ dec (s.curMax - 1001#32 + 1#32)) := by
  have hn : (1001#32).toNat = 1001 := by simp
  have h0 : place 1001#32 = 0 := by have := place_eq 1001#32; omega
  have hc : (s.curMax - 1001#32 + 1#32).toNat = count s := by
    have h1 := hi.lo
    have h2 := hi.hi
    have e1 := count_eq s
    have e3 := BitVec.toNat_sub_of_le (x := s.curMax) (y := 1001#32) (by rw [BitVec.le_def]; omega)
    have e2 := BitVec.toNat_add_of_lt (x := s.curMax - 1001#32) (y := 1#32) (by rw [e3]; simp; omega)
    rw [e2, e3, e1, hn]
    show _ + 1 = _
    omega
  refine ⟨count s, h, le_rfl, hn.ge, h0.le.trans (Nat.zero_le _), ?_⟩
  generalize hx : s.curMax - 1001#32 + 1#32 = x at hc
  rw [h0, List.take_zero, listing_nil, ← hc]
  exact congrArg _ (dec_eq x)

theorem shows_done {c0 : Nat} {s : St} {id : BitVec 32} {acc : List Char} (h : Acc c0 s id acc) (hc : ¬ id ≤ s.curMax) :
    ∃ n m, c0 ≤ n ∧ n ≤ m ∧ m ≤ count s ∧ Res.ok acc = .ok (listing n (s.id2err.take m)) := by
  obtain ⟨n, h1, h2, h3, h4, h5⟩ := h
  have hgt : s.curMax.toNat < id.toNat := by rw [BitVec.le_def] at hc; omega
  refine ⟨n, place id, h1, ?_, h4, by rw [h5]⟩
  have e1 := count_eq s
  have e2 := place_eq id
  omega

theorem shows_step {c0 : Nat} {s s' : St} {e : Option Event} {t : Nat} (hi : Inv s) (h : Step s e s')
    (hs : Shows c0 s (s.pc t)) (he : ∀ r, e ≠ some (.showRet t r)) : Shows c0 s' (s'.pc t) := by
  have hg := grow hi h
  have hother : ∀ {u : Nat} {p : PC} {s0 : St}, u ≠ t → (s0.curMax = s'.curMax ∧ s0.id2err = s'.id2err) → s0.pc = s.pc →
      s' = s0.go u p → Shows c0 s' (s'.pc t) := by
    intro u p s0 hu h1 h2 h3
    have : s'.pc t = s.pc t := by rw [h3, go_pc, setAt_ne _ _ _ _ (Ne.symm hu), h2]
    rw [this]
    exact shows_mono hi hg hs
  have hsame : ∀ {s0 : St} {p : PC}, Shows c0 (s0.go t p) p → s' = s0.go t p → Shows c0 s' (s'.pc t) := by
    intro s0 p h1 h2
    have : s'.pc t = p := by rw [h2, go_pc, setAt_same]
    rw [this, h2]; exact h1
  cases h with
  | callReg u name hp =>
    by_cases hu : u = t
    · subst hu; rw [hp] at hs; exact absurd hs id
    · exact hother (s0 := s) hu ⟨rfl, rfl⟩ rfl rfl
  | callGet u id hp =>
    by_cases hu : u = t
    · subst hu; rw [hp] at hs; exact absurd hs (fun h => h)
    · exact hother (s0 := s) hu ⟨rfl, rfl⟩ rfl rfl
  | callShow u hp =>
    by_cases hu : u = t
    · subst hu; rw [hp] at hs; exact absurd hs id
    · exact hother (s0 := s) hu ⟨rfl, rfl⟩ rfl rfl
  | regLock u name hp hw hr =>
    by_cases hu : u = t
    · subst hu; rw [hp] at hs; exact absurd hs id
    · exact hother (s0 := { s with w := some u }) hu ⟨rfl, rfl⟩ rfl rfl
  | regTest u name hp =>
    by_cases hu : u = t
    · subst hu; rw [hp] at hs; exact absurd hs id
    · exact hother (s0 := s) hu ⟨rfl, rfl⟩ rfl rfl
  | regLoad u name hp =>
    by_cases hu : u = t
    · subst hu; rw [hp] at hs; exact absurd hs id
    · exact hother (s0 := s) hu ⟨rfl, rfl⟩ rfl rfl
  | regStore u name l hp =>
    by_cases hu : u = t
    · subst hu; rw [hp] at hs; exact absurd hs id
    · exact hother (s0 := { s with id2err := l ++ [name] }) hu ⟨rfl, rfl⟩ rfl rfl
  | regIncLoad u name hp =>
    by_cases hu : u = t
    · subst hu; rw [hp] at hs; exact absurd hs id
    · exact hother (s0 := s) hu ⟨rfl, rfl⟩ rfl rfl
  | regIncStore u name c hp =>
    by_cases hu : u = t
    · subst hu; rw [hp] at hs; exact absurd hs id
    · exact hother (s0 := { s with curMax := c + 1#32 }) hu ⟨rfl, rfl⟩ rfl rfl
  | regRes u hp =>
    by_cases hu : u = t
    · subst hu; rw [hp] at hs; exact absurd hs id
    · exact hother (s0 := s) hu ⟨rfl, rfl⟩ rfl rfl
  | regUnlock u id err hp =>
    by_cases hu : u = t
    · subst hu; rw [hp] at hs; exact absurd hs (fun h => h)
    · exact hother (s0 := { s with w := none }) hu ⟨rfl, rfl⟩ rfl rfl
  | getLock u id k hp hw =>
    by_cases hu : u = t
    · subst hu
      rw [hp] at hs
      cases k with
      | none => exact absurd hs (fun h => h)
      | some acc => exact hsame (s0 := { s with r := setAt s.r u true }) (p := .getTest id (some acc)) hs rfl
    · exact hother (s0 := { s with r := setAt s.r u true }) hu ⟨rfl, rfl⟩ rfl rfl
  | getTest u id k hp =>
    by_cases hu : u = t
    · subst hu
      rw [hp] at hs
      cases k with
      | none => exact absurd hs (fun h => h)
      | some acc =>
        have hc : 1001#32 ≤ id ∧ id ≤ s.curMax := by
          obtain ⟨h0, a, h1, n, h2, h3, h4, h5, h6⟩ := hs
          exact ⟨by simpa [BitVec.le_def] using h4, by simpa [BitVec.le_def] using h0⟩
        refine hsame (s0 := s) (p := .getIdx id (some acc)) hs ?_
        rw [if_pos hc]
    · exact hother (s0 := s) hu ⟨rfl, rfl⟩ rfl rfl
  | getIdx u id k hp =>
    by_cases hu : u = t
    · subst hu
      rw [hp] at hs
      cases k with
      | none => exact absurd hs (fun h => h)
      | some acc =>
        have hm := hs
        obtain ⟨h0, a, h1, n, h2, h3, h4, h5, h6⟩ := hs
        have hidx : (id - 1001#32).toNat = place id := by
          rw [BitVec.toNat_sub, place_eq]; have := id.isLt; simp; omega
        have hlt : place id < s.id2err.length := by have := hi.len; rw [count_eq] at this; rw [place_eq]; omega
        refine hsame (s0 := s) (p := .getUnlock id (some acc) _) ⟨hm, s.id2err[place id], ?_, ?_⟩ rfl
        · exact List.getElem?_eq_getElem hlt
        · simp only [Go.get, hidx, List.getElem?_eq_getElem hlt]; rfl
    · exact hother (s0 := s) hu ⟨rfl, rfl⟩ rfl rfl
  | getUnlock u id k r hp =>
    by_cases hu : u = t
    · subst hu
      rw [hp] at hs
      cases k with
      | none => exact absurd hs (fun h => h)
      | some acc =>
        obtain ⟨⟨h0, a, rfl, n, h2, h3, h4, h5, rfl⟩, name, hn, rfl⟩ := hs
        have hid : (id + 1#32).toNat = id.toNat + 1 := by
          rw [BitVec.toNat_add]; have := hi.hi; simp; omega
        refine hsame (s0 := { s with r := setAt s.r u false }) (p := afterGet id _ _) ?_ rfl
        refine ⟨n, h2, h3, by omega, ?_, ?_⟩
        · show place (id + 1#32) ≤ count s
          rw [place_eq, hid, count_eq]; omega
        · show _ = listing n (s.id2err.take (place (id + 1#32)))
          have e0 : place (id + 1#32) = place id + 1 := by rw [place_eq, place_eq, hid]; omega
          rw [e0, List.take_add_one, hn]
          simp only [Option.toList_some]
          rw [listing_snoc]
          have hlt := (List.getElem?_eq_some_iff.1 hn).1
          have e1 : 1001 + (s.id2err.take (place id)).length = id.toNat := by
            rw [List.length_take, Nat.min_eq_left hlt.le, place_eq]; omega
          rw [e1]
          rfl
    · exact hother (s0 := { s with r := setAt s.r u false }) hu ⟨rfl, rfl⟩ rfl rfl
  | ret u r hp =>
    by_cases hu : u = t
    · subst hu; rw [hp] at hs; exact absurd hs id
    · exact hother (s0 := s) hu ⟨rfl, rfl⟩ rfl rfl
  | showHead u hp =>
    by_cases hu : u = t
    · subst hu
      rw [hp] at hs
      exact hsame (s0 := s) (p := .showTest 1001#32 _) (acc_head hi hs) rfl
    · exact hother (s0 := s) hu ⟨rfl, rfl⟩ rfl rfl
  | showTest u id acc hp =>
    by_cases hu : u = t
    · subst hu
      rw [hp] at hs
      by_cases hc : id ≤ s.curMax
      · refine hsame (s0 := s) (p := .getLock id (some (acc ++ ['\n']))) ⟨BitVec.le_def.1 hc, acc, rfl, hs⟩ ?_
        rw [if_pos hc]
      · refine hsame (s0 := s) (p := .showDone (.ok acc)) (shows_done hs hc) ?_
        rw [if_neg hc]
    · exact hother (s0 := s) hu ⟨rfl, rfl⟩ rfl rfl
  | showRet u r hp =>
    by_cases hu : u = t
    · subst hu; exact absurd rfl (he r)
    · exact hother (s0 := s) hu ⟨rfl, rfl⟩ rfl rfl

/-- **C121** (listing).  A call of `ShowAll` never panics, even though it takes no lock and registrations go on around it.
It lists the first `m` errors with their texts, among them all that were registered when it was called; the count `n` in
its first line may be smaller than the number of lines (`C121_count_short`), but not smaller than the number of errors at
the call. -/
theorem C121_showAll {τ τ' : List Event} {s1 s2 s3 s4 : St} {t : Nat} {r : Res (List Char)}
    (h1 : Exec Step St.init τ s1) (hc : Step s1 (some (.showCall t)) s2) (h2 : Exec Step s2 τ' s3)
    (hn : ∀ r, Event.showRet t r ∉ τ') (hr : Step s3 (some (.showRet t r)) s4) :
    ∃ n m, count s1 ≤ n ∧ n ≤ m ∧ m ≤ count s3 ∧ r = .ok (listing n ((names s3).take m)) := by
  have hi1 := inv_exec h1
  have hi2 := inv_step hi1 hc
  have hs2 : Shows (count s1) s2 (s2.pc t) := by
    cases hc with
    | callShow _ hp => rw [go_pc, setAt_same]; exact le_refl (count s1)
  have key : Inv s3 ∧ Shows (count s1) s3 (s3.pc t) := by
    refine h2.invariant (fun τ' s3 => (∀ r, Event.showRet t r ∉ τ') → Inv s3 ∧ Shows (count s1) s3 (s3.pc t))
      (fun _ => ⟨hi2, hs2⟩) ?_ ?_ hn
    · intro τ s s' ih hst hn
      obtain ⟨a, b⟩ := ih hn
      exact ⟨inv_step a hst, shows_step a hst b (by simp)⟩
    · intro τ s e s' ih hst hn
      obtain ⟨a, b⟩ := ih (fun r hm => hn r (List.mem_append_left _ hm))
      refine ⟨inv_step a hst, shows_step a hst b fun r he => hn r ?_⟩
      simp at he
      subst he
      simp
  obtain ⟨hi3, hs3⟩ := key
  cases hr with
  | showRet _ _ hp =>
    rw [hp] at hs3
    obtain ⟨n, m, a, b, c, d⟩ := hs3
    refine ⟨n, m, a, b, c, ?_⟩
    rw [d, names, List.take_take, Nat.min_eq_left c]

/-- **C121** `Get` never panics. -/
theorem C121_get_safe {τ : List Event} {s : St} (h : Exec Step St.init τ s) (t : Nat) (r : Res (String × Bool))
    (hm : Event.obj (.ret t (.get r)) ∈ τ) : ∃ x, r = .ok x := by
  obtain ⟨a, ha, -⟩ := C121_linearizable h
  have hm' : Ev.ret t (.get r) ∈ objEvents τ := List.mem_filterMap.2 ⟨_, hm, rfl⟩
  have key : (∀ t, ∀ r, a.th t = .done (.get r) → ∃ x, r = .ok x) ∧
      ∀ t r, Ev.ret t (.get r) ∈ objEvents τ → ∃ x, r = .ok x := by
    refine ha.invariant (fun τ a => (∀ t, ∀ r, a.th t = .done (.get r) → ∃ x, r = .ok x) ∧
      ∀ t r, Ev.ret t (.get r) ∈ τ → ∃ x, r = .ok x) ?_ ?_ ?_
    · constructor
      · intro t r h; cases h
      · intro t r h; cases h
    · rintro τ a a' ⟨h1, h2⟩ hs
      refine ⟨?_, h2⟩
      cases hs with
      | effect u op hp =>
        intro t r h
        by_cases e : t = u
        · subst e
          simp only [setAt_same] at h
          cases op with
          | reg n => simp only [registry] at h; split at h <;> cases h
          | get id => simp only [registry, AStatus.done.injEq, Ret.get.injEq] at h; exact ⟨_, h.symm⟩
        · simp only [setAt_ne _ _ _ _ e] at h
          exact h1 t r h
    · rintro τ a ev a' ⟨h1, h2⟩ hs
      cases hs with
      | call u op hp =>
        refine ⟨fun t r h => ?_, fun t r h => h2 t r (by simpa using h)⟩
        by_cases e : t = u
        · subst e; simp only [setAt_same] at h; cases h
        · simp only [setAt_ne _ _ _ _ e] at h; exact h1 t r h
      | ret u r' hp =>
        refine ⟨fun t r h => ?_, fun t r h => ?_⟩
        · by_cases e : t = u
          · subst e; simp only [setAt_same] at h; cases h
          · simp only [setAt_ne _ _ _ _ e] at h; exact h1 t r h
        · rcases List.mem_append.1 h with h | h
          · exact h2 t r h
          · simp at h
            obtain ⟨rfl, rfl⟩ := h
            exact h1 t r hp
  exact key.2 t r hm'

/-! ## Progress -/

/-- **C121** (no deadlock).  Whenever some goroutine is inside a call, some goroutine inside a call can go on. -/
theorem C121_progress {τ : List Event} {s : St} (h : Exec Step St.init τ s) {t : Nat} (ht : s.pc t ≠ .idle) :
    ∃ u e s', s.pc u ≠ .idle ∧ Step s e s' ∧ s'.pc u ≠ s.pc u ∧ ∀ v, v ≠ u → s'.pc v = s.pc v := by
  have hi := inv_exec h
  have mk : ∀ {u : Nat} {e : Option Event} {s0 : St} {p : PC}, Step s e (s0.go u p) → s0.pc = s.pc → p ≠ s.pc u →
      s.pc u ≠ .idle → ∃ u e s', s.pc u ≠ .idle ∧ Step s e s' ∧ s'.pc u ≠ s.pc u ∧ ∀ v, v ≠ u → s'.pc v = s.pc v := by
    intro u e s0 p h1 h2 h3 h4
    refine ⟨u, e, _, h4, h1, ?_, fun v hv => ?_⟩
    · rw [go_pc, setAt_same]; exact h3
    · rw [go_pc, setAt_ne _ _ _ _ hv, h2]
  have inW : ∀ u, InW (s.pc u) → ∃ u e s', s.pc u ≠ .idle ∧ Step s e s' ∧ s'.pc u ≠ s.pc u ∧ ∀ v, v ≠ u → s'.pc v = s.pc v := by
    intro u hu
    cases hp : s.pc u with
    | regTest n => exact mk (.regTest s u n hp) rfl (by rw [hp]; split <;> simp) (by simp [hp])
    | regLoad n => exact mk (.regLoad s u n hp) rfl (by simp [hp]) (by simp [hp])
    | regStore n l => exact mk (.regStore s u n l hp) rfl (by simp [hp]) (by simp [hp])
    | regIncLoad n => exact mk (.regIncLoad s u n hp) rfl (by simp [hp]) (by simp [hp])
    | regIncStore n c => exact mk (.regIncStore s u n c hp) rfl (by simp [hp]) (by simp [hp])
    | regRes => exact mk (.regRes s u hp) rfl (by simp [hp]) (by simp [hp])
    | regUnlock id err => exact mk (.regUnlock s u id err hp) rfl (by simp [hp]) (by simp [hp])
    | _ => rw [hp] at hu; exact absurd hu (fun h => h)
  have inR : ∀ u, InR (s.pc u) → ∃ u e s', s.pc u ≠ .idle ∧ Step s e s' ∧ s'.pc u ≠ s.pc u ∧ ∀ v, v ≠ u → s'.pc v = s.pc v := by
    intro u hu
    cases hp : s.pc u with
    | getTest id k => exact mk (.getTest s u id k hp) rfl (by rw [hp]; split <;> simp) (by simp [hp])
    | getIdx id k => exact mk (.getIdx s u id k hp) rfl (by simp [hp]) (by simp [hp])
    | getUnlock id k r =>
      refine mk (.getUnlock s u id k r hp) rfl ?_ (by simp [hp])
      rw [hp]; unfold afterGet; cases k <;> cases r <;> simp
    | _ => rw [hp] at hu; exact absurd hu (fun h => h)
  cases hw : s.w with
  | some u => exact inW u ((hi.wr u).1 hw)
  | none =>
    cases hp : s.pc t with
    | idle => exact absurd hp ht
    | regLock n =>
      by_cases hr : ∀ u, s.r u = false
      · exact mk (.regLock s t n hp hw hr) rfl (by simp [hp]) ht
      · simp only [not_forall, Bool.not_eq_false] at hr
        obtain ⟨u, hu⟩ := hr
        exact inR u ((hi.rd u).1 hu)
    | getLock id k => exact mk (.getLock s t id k hp hw) rfl (by simp [hp]) ht
    | getTest id k => exact inR t (by simp [hp, InR])
    | getIdx id k => exact inR t (by simp [hp, InR])
    | getUnlock id k r => exact inR t (by simp [hp, InR])
    | ret r => exact mk (.ret s t r hp) rfl (by simp [hp]) ht
    | showHead => exact mk (.showHead s t hp) rfl (by simp [hp]) ht
    | showTest id acc => exact mk (.showTest s t id acc hp) rfl (by rw [hp]; split <;> simp) ht
    | showDone r => exact mk (.showRet s t r hp) rfl (by simp [hp]) ht
    | _ => exact inW t (by simp [hp, InW])

/-! ## An execution -/

/-- Goroutine 0 registers "a" while goroutine 1 has begun to list the errors: the count is that of the beginning, the lines
are those of the end. -/
theorem C121_count_short : ∃ s, Exec Step St.init
    [.showCall 1, .obj (.call 0 (.reg "a")), .obj (.ret 0 (.reg 1002#32 false)),
      .showRet 1 (.ok (listing 1 ["unknown error", "a"]))] s := by
  have h0 : Exec Step St.init [] St.init := .refl _
  have h1 := h0.visible (.callShow _ 1 rfl)
  have h2 := h1.silent (.showHead _ 1 rfl)
  have h3 := h2.visible (.callReg _ 0 "a" rfl)
  have h4 := h3.silent (.regLock _ 0 _ rfl rfl (fun _ => rfl))
  have h5 := h4.silent (.regTest _ 0 _ rfl)
  have h6 := h5.silent (.regLoad _ 0 "a" rfl)
  have h7 := h6.silent (.regStore _ 0 _ _ rfl)
  have h8 := h7.silent (.regIncLoad _ 0 _ rfl)
  have h9 := h8.silent (.regIncStore _ 0 _ _ rfl)
  have h10 := h9.silent (.regRes _ 0 rfl)
  have h11 := h10.silent (.regUnlock _ 0 _ _ rfl)
  have h12 := h11.visible (.ret _ 0 _ rfl)
  have h13 := h12.silent (.showTest _ 1 _ _ rfl)
  have h14 := h13.silent (.getLock _ 1 1001#32 _ rfl rfl)
  have h15 := h14.silent (.getTest _ 1 _ _ rfl)
  have h16 := h15.silent (.getIdx _ 1 1001#32 _ rfl)
  have h17 := h16.silent (.getUnlock _ 1 _ _ _ rfl)
  have h18 := h17.silent (.showTest _ 1 1002#32 _ rfl)
  have h19 := h18.silent (.getLock _ 1 1002#32 _ rfl rfl)
  have h20 := h19.silent (.getTest _ 1 _ _ rfl)
  have h21 := h20.silent (.getIdx _ 1 1002#32 _ rfl)
  have h22 := h21.silent (.getUnlock _ 1 _ _ _ rfl)
  have h23 := h22.silent (.showTest _ 1 1003#32 _ rfl)
  have h24 := h23.visible (.showRet _ 1 (.ok (listing 1 ["unknown error", "a"])) rfl)
  exact ⟨_, h24⟩

/-! The theorems on this execution, and on its beginning while the registration is inside the lock. -/

example : ∃ s, (handedOut [.showCall 1, .obj (.call 0 (.reg "a")), .obj (.ret 0 (.reg 1002#32 false)),
      .showRet 1 (.ok (listing 1 ["unknown error", "a"]))]).Nodup ∧ 1002 < 1001 + count s := by
  obtain ⟨s, h⟩ := C121_count_short
  exact ⟨s, (C121_ids h).1, ((C121_ids h).2 1002#32 (by simp [handedOut])).2.1⟩
example : ∃ s a, Exec (AStep registry) (AState.init ["unknown error"])
    [.call 0 (.reg "a"), .ret 0 (.reg 1002#32 false)] a ∧ a.s = names s := by
  obtain ⟨s, h⟩ := C121_count_short
  obtain ⟨a, h1, h2⟩ := C121_linearizable h
  exact ⟨s, a, h1, h2⟩

theorem exInside : ∃ s, Exec Step St.init [.obj (.call 0 (.reg "a")), .showCall 1] s ∧
    s.pc 0 = .regStore "a" ["unknown error"] ∧ s.pc 1 = .showHead := by
  have h0 : Exec Step St.init [] St.init := .refl _
  have h1 := h0.visible (.callReg _ 0 "a" rfl)
  have h2 := h1.silent (.regLock _ 0 _ rfl rfl (fun _ => rfl))
  have h3 := h2.silent (.regTest _ 0 _ rfl)
  have h4 := h3.silent (.regLoad _ 0 "a" rfl)
  have h5 := h4.visible (.callShow _ 1 rfl)
  exact ⟨_, h5, rfl, rfl⟩

example : ∃ s : St, Writes (s.pc 0) ∧ ∀ u, Touches (s.pc u) → 0 = u := by
  obtain ⟨s, h, h0, -⟩ := exInside
  have hw : Writes (s.pc 0) := by rw [h0]; trivial
  exact ⟨s, hw, fun u hu => C121_exclusion h hw hu⟩
example : ∃ s : St, ∃ u e s', s.pc u ≠ .idle ∧ Step s e s' ∧ s'.pc u ≠ s.pc u ∧ ∀ v, v ≠ u → s'.pc v = s.pc v := by
  obtain ⟨s, h, h0, -⟩ := exInside
  exact ⟨s, C121_progress h (t := 0) (by rw [h0]; simp)⟩
/-- C121_showAll on a listing that runs alone. -/
example : ∃ s1 s2 s3 s4, Exec Step St.init [] s1 ∧ Step s1 (some (.showCall 1)) s2 ∧ Exec Step s2 [] s3 ∧
    Step s3 (some (.showRet 1 (.ok (listing 1 ["unknown error"])))) s4 := by
  have h0 : Exec Step St.init [] St.init := .refl _
  have hc := Step.callShow St.init 1 rfl
  have g0 : Exec Step _ [] _ := .refl (step := Step) (St.init.go 1 .showHead)
  have g1 := g0.silent (.showHead _ 1 rfl)
  have g2 := g1.silent (.showTest _ 1 _ _ rfl)
  have g3 := g2.silent (.getLock _ 1 1001#32 _ rfl rfl)
  have g4 := g3.silent (.getTest _ 1 _ _ rfl)
  have g5 := g4.silent (.getIdx _ 1 1001#32 _ rfl)
  have g6 := g5.silent (.getUnlock _ 1 _ _ _ rfl)
  have g7 := g6.silent (.showTest _ 1 1002#32 _ rfl)
  exact ⟨_, _, _, _, h0, hc, g7, .showRet _ 1 (.ok (listing 1 ["unknown error"])) rfl⟩
example : ∃ s, Exec Step St.init [.obj (.call 0 (.get 1001#32)), .obj (.ret 0 (.get (.ok ("unknown error", false))))] s := by
  have h0 : Exec Step St.init [] St.init := .refl _
  have h1 := h0.visible (.callGet _ 0 1001#32 rfl)
  have h2 := h1.silent (.getLock _ 0 1001#32 _ rfl rfl)
  have h3 := h2.silent (.getTest _ 0 _ _ rfl)
  have h4 := h3.silent (.getIdx _ 0 1001#32 _ rfl)
  have h5 := h4.silent (.getUnlock _ 0 _ _ _ rfl)
  exact ⟨_, h5.visible (.ret _ 0 _ rfl)⟩

end Verif.ErrConc
