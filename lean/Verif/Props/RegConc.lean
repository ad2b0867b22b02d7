import Verif.Model.RegConc
import Verif.Props.RegText
import Verif.Props.Rand
/-!
# Registered values used by many goroutines: C122
-/

set_option linter.unusedSectionVars false

namespace Verif.RegConc
open Verif.Spec
open Verif.Regable (World Rec Obj Denotes)
open Verif.Rand (setAt_same setAt_ne)

/-! ## Specification -/

/-- The registered values: name and current value of every identifier. -/
abbrev Book := BitVec 32 → Option (String × BitVec 32)

/-- The identifier behind the object for value `i` of registrar `k` (both counted from 0). -/
def ident (p : Nat × Nat) : BitVec 32 := BitVec.ofNat 32 ((p.1 + 1) * 2 ^ 24 + (p.2 + 1))

/-- The result of a call on the identifier `cp`, and the book afterwards.  Calls on identifiers that were never handed out
panic (see C64). -/
def onId (b : Book) (cp : BitVec 32) (op : Op) : Book × Ret :=
  match b cp with
  | none => (b, match op with
    | .get _ | .set _ _ => .val .panic
    | .name _ => .name .panic
    | .str _ => .str .panic
    | .object _ => .obj .panic)
  | some (n, v) =>
    match op with
    | .get _ => (b, .val (.ok (v, false)))
    | .name _ => (b, .name (.ok (n, false)))
    | .str _ => (b, .str (.ok (Regable.Spec.text (cp.toNat % 2 ^ 24) n v)))
    | .set _ v' => (fun x => if x = cp then some (n, v') else b x, .val (.ok (v', false)))
    | .object _ => (b, .obj (.ok (some (cp.toNat / 2 ^ 24 - 1, cp.toNat % 2 ^ 24 - 1))))

/-- The book as a sequential object. -/
def book (b : Book) (op : Op) : Book × Ret :=
  match op.ref with
  | .id cp => onId b cp op
  | .obj (some p) => onId b (ident p) op
  | .obj none => (b, match op with
    | .get _ | .set _ _ => .val (.ok (0#32, true))
    | .name _ => .name (.ok ("", true))
    | .str _ => .str (.ok "invalid uint32 object".toList)
    | .object _ => .obj (.ok none))

/-- The book after a registration phase. -/
def bookOf (es : List Regable.Ev) : Book := fun cp =>
  match Regable.regName cp es, Regable.lastVal cp es with
  | some n, some v => some (n, v)
  | _, _ => none

/-! ## Memory and book -/

/-- The memory holds the book. -/
structure Abs (w : World) (b : Book) : Prop where
  inv : Regable.Inv w
  n : w.regers.length ≤ 255
  m : ∀ (k : Nat) rg, w.regers[k]? = some rg → rg.regList.length ≤ 2 ^ 24 - 1
  book : ∀ cp x, b cp = some x ↔ ∃ (k i : Nat) (r : Rec), Denotes cp k i ∧ r.At w k i ∧ (r.name, r.val) = x

theorem Abs.sane {w : World} {b : Book} (A : Abs w b) : Regable.Sane w :=
  ⟨by have := A.n; omega, fun k rg h => by have := A.m k rg h; omega⟩

theorem Abs.some_iff {w : World} {b : Book} (A : Abs w b) {cp : BitVec 32} {k i : Nat} {r : Rec} (hd : Denotes cp k i)
    (hr : r.At w k i) : b cp = some (r.name, r.val) := (A.book cp _).2 ⟨k, i, r, hd, hr, rfl⟩

theorem Abs.none_iff {w : World} {b : Book} (A : Abs w b) {cp : BitVec 32} (h : b cp = none) :
    ∀ k i r, Denotes cp k i → ¬ Rec.At w k i r := fun k i r hd hr => by
  rw [A.some_iff hd hr] at h; cases h

theorem Abs.init {es : List Regable.Ev} {w : World} (H : Regable.History es w) (hW : Regable.Within es) :
    Abs w (bookOf es) := by
  have L := H.link
  have hS := Regable.history_sound H hW
  refine ⟨H.reach.inv, by rw [L.n]; exact hW.1, fun k rg h => by rw [L.m k rg h]; exact hW.2 k, fun cp x => ?_⟩
  obtain ⟨h1, h2, -⟩ := hS cp
  constructor
  · intro h
    unfold bookOf at h
    cases hn : Regable.regName cp es with
    | none => rw [hn] at h; cases h
    | some n =>
      cases hv : Regable.lastVal cp es with
      | none => rw [hn, hv] at h; cases h
      | some v =>
        rw [hn, hv] at h
        obtain ⟨k, i, r, hd, hr, rfl⟩ := (h1 v).1 hv
        obtain ⟨k', i', r', hd', hr', rfl⟩ := (h2 n).1 hn
        obtain ⟨rfl, rfl⟩ := hd.unique hd'
        cases hr.unique hr'
        exact ⟨k, i, r, hd, hr, by simpa using h⟩
  · rintro ⟨k, i, r, hd, hr, rfl⟩
    unfold bookOf
    rw [(h2 _).2 ⟨k, i, r, hd, hr, rfl⟩, (h1 _).2 ⟨k, i, r, hd, hr, rfl⟩]

theorem denotes_ident {w : World} {b : Book} (A : Abs w b) {p : Nat × Nat} {r : Rec} (hr : r.At w p.1 p.2) :
    Denotes (ident p) p.1 p.2 := by
  obtain ⟨rg, hk, hi⟩ := hr
  have l1 := (List.getElem?_eq_some_iff.1 hk).1
  have l2 := (List.getElem?_eq_some_iff.1 hi).1
  have := A.n
  have := A.m _ rg hk
  unfold Denotes ident
  rw [BitVec.toNat_ofNat]
  omega

/-- The record at a place. -/
def Has (w : World) (p : Nat × Nat) : Prop := ∃ r : Rec, r.At w p.1 p.2

theorem record_iff {w : World} {p : Nat × Nat} {r : Rec} : Regable.record w p.1 p.2 = .ok r ↔ r.At w p.1 p.2 := by
  constructor
  · intro h
    unfold Regable.record at h
    cases hk : w.regers[p.1]? with
    | none => simp [Regable.goGet_none hk] at h
    | some rg =>
      cases hi : rg.regList[p.2]? with
      | none => simp [Regable.goGet_some hk, Regable.goGet_none hi] at h
      | some r' =>
        simp [Regable.goGet_some hk, Regable.goGet_some hi] at h
        subst h
        exact ⟨rg, hk, hi⟩
  · exact fun h => Regable.record_at h

/-- A store of a value: same places, and the book changed at the identifier of the place. -/
theorem Abs.set {w w' : World} {b : Book} (A : Abs w b) {p : Nat × Nat} {v : BitVec 32}
    (h : Regable.setAt w p.1 p.2 v = .ok w') {cp : BitVec 32} (hd : Denotes cp p.1 p.2) :
    ∃ r : Rec, r.At w p.1 p.2 ∧ Abs w' (fun x => if x = cp then some (r.name, v) else b x) ∧
      ∀ q, Has w' q ↔ Has w q := by
  have I' := A.inv.setAt h
  obtain ⟨rg, r, hk, hi⟩ := Regable.setAt_ok h
  rw [Regable.setAt_eq hk hi] at h
  simp only [Res.ok.injEq] at h
  have hat := fun k' i' x => Regable.at_set (v := v) hk hi k' i' x
  rw [h] at hat
  have hw : w'.regers = w.regers.set p.1 { rg with regList := rg.regList.set p.2 { r with val := v } } := by rw [← h]
  refine ⟨r, ⟨rg, hk, hi⟩, ⟨I', by rw [hw, List.length_set]; exact A.n, ?_, ?_⟩, ?_⟩
  · intro k rg' h'
    rw [hw, List.getElem?_set] at h'
    split at h'
    · split at h'
      · cases h'
        rw [List.length_set]; exact A.m _ rg hk
      · cases h'
    · exact A.m k rg' h'
  · intro x y
    by_cases e : x = cp
    · subst e
      simp only [if_pos, Option.some.injEq]
      constructor
      · rintro rfl
        exact ⟨p.1, p.2, _, hd, (hat _ _ _).2 (.inl ⟨rfl, rfl, rfl⟩), rfl⟩
      · rintro ⟨k, i, x', hd', hx, rfl⟩
        obtain ⟨rfl, rfl⟩ := hd'.unique hd
        rcases (hat _ _ _).1 hx with ⟨-, -, rfl⟩ | ⟨hne, -⟩
        · rfl
        · exact absurd ⟨rfl, rfl⟩ hne
    · rw [if_neg e, A.book]
      constructor
      · rintro ⟨k, i, x', hd', hx, he⟩
        refine ⟨k, i, x', hd', (hat _ _ _).2 (.inr ⟨?_, hx⟩), he⟩
        rintro ⟨rfl, rfl⟩
        exact e (hd'.inj hd)
      · rintro ⟨k, i, x', hd', hx, he⟩
        rcases (hat _ _ _).1 hx with ⟨rfl, rfl, -⟩ | ⟨-, hx⟩
        · exact absurd (hd'.inj hd) e
        · exact ⟨k, i, x', hd', hx, he⟩
  · intro q
    unfold Has
    constructor
    · rintro ⟨x, hx⟩
      rcases (hat _ _ _).1 hx with ⟨e1, e2, -⟩ | ⟨-, hx⟩
      · exact ⟨r, rg, by rw [e1]; exact hk, by rw [e2]; exact hi⟩
      · exact ⟨x, hx⟩
    · rintro ⟨x, hx⟩
      by_cases e : q.1 = p.1 ∧ q.2 = p.2
      · exact ⟨_, (hat _ _ _).2 (.inl ⟨e.1, e.2, rfl⟩)⟩
      · exact ⟨x, (hat _ _ _).2 (.inr ⟨e, hx⟩)⟩

/-- The call refers to the value at place `p`. -/
def Aims (op : Op) (p : Nat × Nat) : Prop :=
  match op.ref with
  | .id cp => Denotes cp p.1 p.2
  | .obj o => o = some p

/-- The call reads a record. -/
def Reads : Op → Prop
  | .get _ | .name _ | .str _ => True
  | _ => False

/-- The book at the value the call refers to. -/
theorem book_eq {w : World} {b : Book} (A : Abs w b) {op : Op} {p : Nat × Nat} (ha : Aims op p) (hp : Has w p) :
    ∃ cp, Denotes cp p.1 p.2 ∧ book b op = onId b cp op := by
  obtain ⟨r, hr⟩ := hp
  unfold Aims at ha
  unfold book
  cases e : op.ref with
  | id cp => rw [e] at ha; exact ⟨cp, ha, rfl⟩
  | obj o => rw [e] at ha; subst ha; exact ⟨ident p, denotes_ident A hr, rfl⟩

theorem book_read {w : World} {b : Book} (A : Abs w b) {op : Op} {p : Nat × Nat} {r : Rec} (ha : Aims op p)
    (hr : r.At w p.1 p.2) (ho : Reads op) : book b op = (b, answer op r) := by
  obtain ⟨cp, hd, he⟩ := book_eq A ha ⟨r, hr⟩
  rw [he]
  unfold onId
  rw [A.some_iff hd hr]
  cases op with
  | get x => rfl
  | name x => rfl
  | str x =>
    have hid : r.id = BitVec.ofNat 32 (p.2 + 1) := by
      obtain ⟨rg, hk, hi⟩ := hr
      exact A.inv.recId _ rg _ r hk hi
    have hcp : cp.toNat % 2 ^ 24 = p.2 + 1 := by have := hd.1; have := hd.2; omega
    simp only [answer, Regable.recString_eq hid hd.2, hcp]
  | _ => exact absurd ho (fun h => h)

/-- What `resolve` does. -/
theorem resolve_spec {w : World} {b : Book} (A : Abs w b) (op : Op) (hh : Handle w op.ref) :
    (∃ r, resolve w op = .ret r ∧ book b op = (b, r)) ∨
    (∃ p, resolve w op = .rlock op p ∧ Reads op ∧ Aims op p ∧ Has w p) ∨
    (∃ p x v, op = .set x v ∧ resolve w op = .wlock op p v ∧ Aims op p ∧ Has w p) := by
  have fnd : ∀ p, Aims op p → Has w p →
      (∃ r, found op p = .ret r ∧ book b op = (b, r)) ∨
      (∃ q, found op p = .rlock op q ∧ Reads op ∧ Aims op q ∧ Has w q) ∨
      (∃ q x v, op = .set x v ∧ found op p = .wlock op q v ∧ Aims op q ∧ Has w q) := by
    intro p ha hp
    cases op with
    | get x => exact .inr (.inl ⟨p, rfl, trivial, ha, hp⟩)
    | name x => exact .inr (.inl ⟨p, rfl, trivial, ha, hp⟩)
    | str x => exact .inr (.inl ⟨p, rfl, trivial, ha, hp⟩)
    | set x v => exact .inr (.inr ⟨p, x, v, rfl, rfl, ha, hp⟩)
    | object cp =>
      left
      obtain ⟨r, hr⟩ := hp
      have hd : Denotes cp p.1 p.2 := ha
      refine ⟨_, rfl, ?_⟩
      simp only [book, Op.ref, onId, A.some_iff hd hr]
      have h1 : cp.toNat / 2 ^ 24 - 1 = p.1 := by have := hd.1; have := hd.2; omega
      have h2 : cp.toNat % 2 ^ 24 - 1 = p.2 := by have := hd.1; have := hd.2; omega
      rw [h1, h2]
  unfold resolve
  cases e : op.ref with
  | id cp =>
    cases hb : b cp with
    | none =>
      left
      simp only
      rw [Regable.find_of_not_denotes A.sane (A.none_iff hb)]
      refine ⟨_, rfl, ?_⟩
      simp only [book, e, onId, hb]
      cases op <;> rfl
    | some x =>
      obtain ⟨k, i, r, hd, hr, -⟩ := (A.book cp x).1 hb
      simp only
      rw [Regable.find_of_denotes A.inv A.sane hd hr]
      exact fnd (k, i) (by unfold Aims; rw [e]; exact hd) ⟨r, hr⟩
  | obj o =>
    cases o with
    | none =>
      left
      refine ⟨_, rfl, ?_⟩
      simp only [book, e]
      cases op with
      | str x => simp only [Op.ref] at e; subst e; rfl
      | _ => rfl
    | some p =>
      rw [e] at hh
      obtain ⟨r, hr⟩ := hh
      exact fnd p (by unfold Aims; rw [e]) ⟨r, record_iff.1 hr⟩

/-! ## Invariant -/

/-- The record the goroutine has locked for writing. -/
def HoldsW : PC → Option (Nat × Nat)
  | .write _ p _ | .writing _ p _ | .wunlock p _ => some p
  | _ => none

/-- The record the goroutine has locked for reading. -/
def HoldsR : PC → Option (Nat × Nat)
  | .read _ p | .runlock p _ => some p
  | _ => none

/-- What a goroutine knows. -/
def Loc (w : World) : PC → Prop
  | .find op => Handle w op.ref
  | .rlock op p | .read op p => Reads op ∧ Aims op p ∧ Has w p
  | .wlock op p v | .write op p v | .writing op p v => (∃ x, op = .set x v) ∧ Aims op p ∧ Has w p
  | _ => True

structure Inv (s : St) : Prop where
  wr : ∀ p t, s.wl p = some t ↔ HoldsW (s.pc t) = some p
  rd : ∀ p t, s.rl p t = true ↔ HoldsR (s.pc t) = some p
  ex : ∀ p, s.wl p = none ∨ ∀ u, s.rl p u = false
  torn : ∀ p, s.torn p = true → ∃ t op v, s.pc t = .writing op p v
  loc : ∀ t, Loc s.w (s.pc t)

/-- Seen from the atomic object. -/
def status : PC → AStatus Op Ret
  | .idle => .idle
  | .find op | .rlock op _ | .read op _ | .wlock op _ _ | .write op _ _ | .writing op _ _ => .pending op
  | .runlock _ r | .wunlock _ r | .ret r => .done r

structure Sim (s : St) (a : AState Book Op Ret) : Prop where
  inv : Inv s
  abs : Abs s.w a.s
  th : ∀ t, a.th t = status (s.pc t)

theorem pc_set {P : Nat → PC → Prop} {f : Nat → PC} {t : Nat} {p : PC} (hp : P t p) (h : ∀ u, u ≠ t → P u (f u)) :
    ∀ u, P u (setAt f t p u) := by
  intro u
  by_cases e : u = t
  · subst e; rw [setAt_same]; exact hp
  · rw [setAt_ne _ _ _ _ e]; exact h u e

theorem upd_same {β : Type} (f : Nat × Nat → β) (p : Nat × Nat) (b : β) : upd f p b p = b := if_pos rfl
theorem upd_ne {β : Type} (f : Nat × Nat → β) (p q : Nat × Nat) (b : β) (h : q ≠ p) : upd f p b q = f q := if_neg h

theorem Loc.congr {w w' : World} (h : ∀ q, Has w' q ↔ Has w q) {p : PC} (hl : Loc w p) : Loc w' p := by
  cases p with
  | find op =>
    have hl : Handle w op.ref := hl
    show Handle w' op.ref
    cases e : op.ref with
    | id cp => trivial
    | obj o =>
      cases o with
      | none => trivial
      | some q =>
        rw [e] at hl
        obtain ⟨r, hr⟩ := hl
        obtain ⟨r', hr'⟩ := (h q).2 ⟨r, record_iff.1 hr⟩
        exact ⟨r', record_iff.2 hr'⟩
  | rlock op p => exact ⟨hl.1, hl.2.1, (h p).2 hl.2.2⟩
  | read op p => exact ⟨hl.1, hl.2.1, (h p).2 hl.2.2⟩
  | wlock op p v => exact ⟨hl.1, hl.2.1, (h p).2 hl.2.2⟩
  | write op p v => exact ⟨hl.1, hl.2.1, (h p).2 hl.2.2⟩
  | writing op p v => exact ⟨hl.1, hl.2.1, (h p).2 hl.2.2⟩
  | _ => trivial

/-- A step that changes the program counter only. -/
theorem inv_local {s : St} (hi : Inv s) {t : Nat} {p : PC} (hw : HoldsW p = HoldsW (s.pc t))
    (hr : HoldsR p = HoldsR (s.pc t)) (ht : ∀ op q v, s.pc t ≠ .writing op q v) (hl : Loc s.w p) : Inv (s.go t p) := by
  refine ⟨fun q => ?_, fun q => ?_, hi.ex, fun q hq => ?_, ?_⟩
  · exact pc_set (P := fun u x => s.wl q = some u ↔ HoldsW x = some q) (by rw [hw]; exact hi.wr q t) fun u _ => hi.wr q u
  · exact pc_set (P := fun u x => s.rl q u = true ↔ HoldsR x = some q) (by rw [hr]; exact hi.rd q t) fun u _ => hi.rd q u
  · obtain ⟨u, op, v, hu⟩ := hi.torn q hq
    have hut : u ≠ t := fun e => ht op q v (e ▸ hu)
    exact ⟨u, op, v, by show setAt s.pc t p u = _; rw [setAt_ne _ _ _ _ hut]; exact hu⟩
  · exact pc_set (P := fun _ x => Loc s.w x) hl fun u _ => hi.loc u

theorem read_not_torn {s : St} (hi : Inv s) {t : Nat} {op : Op} {p : Nat × Nat} (hp : s.pc t = .read op p) :
    s.torn p = false := by
  by_contra h
  obtain ⟨u, op', v, hu⟩ := hi.torn p (by simpa using h)
  have h1 := (hi.wr p u).2 (by rw [hu]; rfl)
  have h2 := (hi.rd p t).2 (by rw [hp]; rfl)
  rcases hi.ex p with h | h
  · rw [h] at h1; cases h1
  · rw [h t] at h2; cases h2

theorem th_set {s : St} {a : AState Book Op Ret} (hs : ∀ t, a.th t = status (s.pc t)) (t : Nat) (p : PC)
    (q : AStatus Op Ret) (hq : q = status p) : ∀ u, setAt a.th t q u = status (setAt s.pc t p u) := by
  intro u
  by_cases e : u = t
  · subst e; simp [setAt_same, hq]
  · simp [setAt_ne _ _ _ _ e, hs]

theorem th_keep {s : St} {a : AState Book Op Ret} (hs : ∀ t, a.th t = status (s.pc t)) (t : Nat) (p : PC)
    (hq : status p = status (s.pc t)) : ∀ u, a.th u = status (setAt s.pc t p u) := by
  intro u
  by_cases e : u = t
  · subst e; rw [setAt_same, hs, hq]
  · simp [setAt_ne _ _ _ _ e, hs]

theorem sim_step {s s' : St} {e : Option (Ev Op Ret)} {a : AState Book Op Ret} (hs : Sim s a)
    (h : Step s e s') : ∃ a', Exec (AStep book) a e.toList a' ∧ Sim s' a' := by
  have hi := hs.inv
  cases h with
  | call t op hp hh =>
    refine ⟨_, .visible (.refl _) (.call a t op (by rw [hs.th, hp]; rfl)), ?_, hs.abs, th_set hs.th t _ _ rfl⟩
    exact inv_local hi (by rw [hp]; rfl) (by rw [hp]; rfl) (by simp [hp]) hh
  | find t op hp =>
    have hl := hi.loc t
    rw [hp] at hl
    rcases resolve_spec hs.abs op hl with ⟨r, h1, h2⟩ | ⟨p, h1, h2, h3, h4⟩ | ⟨p, x, v, h0, h1, h3, h4⟩
    · rw [h1]
      refine ⟨_, .silent (.refl _) (.effect a t op (by rw [hs.th, hp]; rfl)), ?_, ?_, ?_⟩
      · exact inv_local hi (by rw [hp]; rfl) (by rw [hp]; rfl) (by simp [hp]) trivial
      · rw [h2]; exact hs.abs
      · rw [h2]; exact th_set hs.th t _ _ rfl
    · rw [h1]
      refine ⟨a, .refl _, ?_, hs.abs, th_keep hs.th t _ (by rw [hp]; rfl)⟩
      exact inv_local hi (by rw [hp]; rfl) (by rw [hp]; rfl) (by simp [hp]) ⟨h2, h3, h4⟩
    · rw [h1]
      refine ⟨a, .refl _, ?_, hs.abs, th_keep hs.th t _ (by rw [hp]; rfl)⟩
      exact inv_local hi (by rw [hp]; rfl) (by rw [hp]; rfl) (by simp [hp]) ⟨⟨x, h0⟩, h3, h4⟩
  | rlock t op p hp hw =>
    have hl := hi.loc t
    rw [hp] at hl
    refine ⟨a, .refl _, ⟨fun q => ?_, fun q => ?_, fun q => ?_, fun q hq => ?_, ?_⟩, hs.abs, th_keep hs.th t _ (by rw [hp]; rfl)⟩
    · refine pc_set (P := fun u x => s.wl q = some u ↔ HoldsW x = some q) ?_ fun u _ => hi.wr q u
      rw [hi.wr, hp]; rfl
    · refine pc_set (P := fun u x => upd s.rl p (setAt (s.rl p) t true) q u = true ↔ HoldsR x = some q) ?_ fun u hu => ?_
      · by_cases e : q = p
        · subst e; simp [upd_same, setAt_same, HoldsR]
        · rw [upd_ne _ _ _ _ e, hi.rd, hp]
          simp [HoldsR, Ne.symm e]
      · rw [← hi.rd]
        by_cases e : q = p
        · subst e; rw [upd_same, setAt_ne _ _ _ _ hu]
        · rw [upd_ne _ _ _ _ e]
    · by_cases e : q = p
      · subst e; exact .inl hw
      · show s.wl q = none ∨ ∀ u, upd s.rl p _ q u = false
        rw [upd_ne _ _ _ _ e]; exact hi.ex q
    · obtain ⟨u, op', v, hu⟩ := hi.torn q hq
      have hut : u ≠ t := fun e => by rw [e, hp] at hu; cases hu
      exact ⟨u, op', v, by show setAt s.pc t _ u = _; rw [setAt_ne _ _ _ _ hut]; exact hu⟩
    · exact pc_set (P := fun _ x => Loc s.w x) hl fun u _ => hi.loc u
  | read t op p r hp hr ht =>
    have hl := hi.loc t
    rw [hp] at hl
    have hb := book_read hs.abs hl.2.1 (record_iff.1 hr) hl.1
    refine ⟨_, .silent (.refl _) (.effect a t op (by rw [hs.th, hp]; rfl)), ?_, ?_, ?_⟩
    · exact inv_local hi (by rw [hp]; rfl) (by rw [hp]; rfl) (by simp [hp]) trivial
    · rw [hb]; exact hs.abs
    · rw [hb]; exact th_set hs.th t _ _ rfl
  | readTorn t op p r hp ht =>
    rw [read_not_torn hi hp] at ht; cases ht
  | runlock t p r hp =>
    have hrt := (hi.rd p t).2 (by rw [hp]; rfl)
    have hw : s.wl p = none := by
      rcases hi.ex p with h | h
      · exact h
      · rw [h t] at hrt; cases hrt
    refine ⟨a, .refl _, ⟨fun q => ?_, fun q => ?_, fun q => ?_, fun q hq => ?_, ?_⟩, hs.abs, th_keep hs.th t _ (by rw [hp]; rfl)⟩
    · refine pc_set (P := fun u x => s.wl q = some u ↔ HoldsW x = some q) ?_ fun u _ => hi.wr q u
      rw [hi.wr, hp]; rfl
    · refine pc_set (P := fun u x => upd s.rl p (setAt (s.rl p) t false) q u = true ↔ HoldsR x = some q) ?_ fun u hu => ?_
      · by_cases e : q = p
        · subst e; simp [upd_same, setAt_same, HoldsR]
        · rw [upd_ne _ _ _ _ e, hi.rd, hp]
          simp [HoldsR, Ne.symm e]
      · rw [← hi.rd]
        by_cases e : q = p
        · subst e; rw [upd_same, setAt_ne _ _ _ _ hu]
        · rw [upd_ne _ _ _ _ e]
    · by_cases e : q = p
      · subst e; exact .inl hw
      · show s.wl q = none ∨ ∀ u, upd s.rl p _ q u = false
        rw [upd_ne _ _ _ _ e]; exact hi.ex q
    · obtain ⟨u, op', v, hu⟩ := hi.torn q hq
      have hut : u ≠ t := fun e => by rw [e, hp] at hu; cases hu
      exact ⟨u, op', v, by show setAt s.pc t _ u = _; rw [setAt_ne _ _ _ _ hut]; exact hu⟩
    · exact pc_set (P := fun _ x => Loc s.w x) trivial fun u _ => hi.loc u
  | wlock t op p v hp hw hr =>
    have hl := hi.loc t
    rw [hp] at hl
    refine ⟨a, .refl _, ⟨fun q => ?_, fun q => ?_, fun q => ?_, fun q hq => ?_, ?_⟩, hs.abs, th_keep hs.th t _ (by rw [hp]; rfl)⟩
    · refine pc_set (P := fun u x => upd s.wl p (some t) q = some u ↔ HoldsW x = some q) ?_ fun u hu => ?_
      · by_cases e : q = p
        · subst e; simp [upd_same, HoldsW]
        · rw [upd_ne _ _ _ _ e, hi.wr, hp]
          simp [HoldsW, Ne.symm e]
      · rw [← hi.wr]
        by_cases e : q = p
        · subst e; rw [upd_same, hw]; simp [Ne.symm hu]
        · rw [upd_ne _ _ _ _ e]
    · refine pc_set (P := fun u x => s.rl q u = true ↔ HoldsR x = some q) ?_ fun u _ => hi.rd q u
      rw [hi.rd, hp]; rfl
    · by_cases e : q = p
      · subst e; exact .inr hr
      · show upd s.wl p _ q = none ∨ _
        rw [upd_ne _ _ _ _ e]; exact hi.ex q
    · obtain ⟨u, op', v, hu⟩ := hi.torn q hq
      have hut : u ≠ t := fun e => by rw [e, hp] at hu; cases hu
      exact ⟨u, op', v, by show setAt s.pc t _ u = _; rw [setAt_ne _ _ _ _ hut]; exact hu⟩
    · exact pc_set (P := fun _ x => Loc s.w x) hl fun u _ => hi.loc u
  | write t op p v hp =>
    have hl := hi.loc t
    rw [hp] at hl
    refine ⟨a, .refl _, ⟨fun q => ?_, fun q => ?_, hi.ex, fun q hq => ?_, ?_⟩, hs.abs, th_keep hs.th t _ (by rw [hp]; rfl)⟩
    · refine pc_set (P := fun u x => s.wl q = some u ↔ HoldsW x = some q) ?_ fun u _ => hi.wr q u
      rw [hi.wr, hp]; rfl
    · refine pc_set (P := fun u x => s.rl q u = true ↔ HoldsR x = some q) ?_ fun u _ => hi.rd q u
      rw [hi.rd, hp]; rfl
    · by_cases e : q = p
      · subst e; exact ⟨t, op, v, setAt_same _ _ _⟩
      · have hq' : upd s.torn p true q = true := hq
        rw [upd_ne _ _ _ _ e] at hq'
        obtain ⟨u, op', v, hu⟩ := hi.torn q hq'
        have hut : u ≠ t := fun e => by rw [e, hp] at hu; cases hu
        exact ⟨u, op', v, by show setAt s.pc t _ u = _; rw [setAt_ne _ _ _ _ hut]; exact hu⟩
    · exact pc_set (P := fun _ x => Loc s.w x) hl fun u _ => hi.loc u
  | writing t op p v w hp hw =>
    have hl := hi.loc t
    rw [hp] at hl
    obtain ⟨⟨x, rfl⟩, ha, hh⟩ := hl
    obtain ⟨cp, hd, hb⟩ := book_eq hs.abs ha hh
    obtain ⟨r, hr, hA, hH⟩ := hs.abs.set hw hd
    have hb' : book a.s (.set x v) = (fun y => if y = cp then some (r.name, v) else a.s y, .val (.ok (v, false))) := by
      rw [hb]; unfold onId; rw [hs.abs.some_iff hd hr]
    refine ⟨_, .silent (.refl _) (.effect a t (.set x v) (by rw [hs.th, hp]; rfl)),
      ⟨fun q => ?_, fun q => ?_, hi.ex, fun q hq => ?_, ?_⟩, ?_, ?_⟩
    · refine pc_set (P := fun u x => s.wl q = some u ↔ HoldsW x = some q) ?_ fun u _ => hi.wr q u
      rw [hi.wr, hp]; rfl
    · refine pc_set (P := fun u x => s.rl q u = true ↔ HoldsR x = some q) ?_ fun u _ => hi.rd q u
      rw [hi.rd, hp]; rfl
    · have hq' : upd s.torn p false q = true := hq
      by_cases e : q = p
      · subst e; rw [upd_same] at hq'; cases hq'
      · rw [upd_ne _ _ _ _ e] at hq'
        obtain ⟨u, op', v, hu⟩ := hi.torn q hq'
        have hut : u ≠ t := fun e' => by rw [e', hp] at hu; simp at hu; exact e hu.2.1.symm
        exact ⟨u, op', v, by show setAt s.pc t _ u = _; rw [setAt_ne _ _ _ _ hut]; exact hu⟩
    · exact pc_set (P := fun _ x => Loc w x) trivial fun u _ => (hi.loc u).congr hH
    · rw [hb']; exact hA
    · rw [hb']; exact th_set hs.th t _ _ rfl
  | wunlock t p r hp =>
    have hwt := (hi.wr p t).2 (by rw [hp]; rfl)
    refine ⟨a, .refl _, ⟨fun q => ?_, fun q => ?_, fun q => ?_, fun q hq => ?_, ?_⟩, hs.abs, th_keep hs.th t _ (by rw [hp]; rfl)⟩
    · refine pc_set (P := fun u x => upd s.wl p none q = some u ↔ HoldsW x = some q) ?_ fun u hu => ?_
      · by_cases e : q = p
        · subst e; simp [upd_same, HoldsW]
        · rw [upd_ne _ _ _ _ e, hi.wr, hp]
          simp [HoldsW, Ne.symm e]
      · rw [← hi.wr]
        by_cases e : q = p
        · subst e; rw [upd_same, hwt]; simp [Ne.symm hu]
        · rw [upd_ne _ _ _ _ e]
    · refine pc_set (P := fun u x => s.rl q u = true ↔ HoldsR x = some q) ?_ fun u _ => hi.rd q u
      rw [hi.rd, hp]; rfl
    · by_cases e : q = p
      · subst e; exact .inl (upd_same _ _ _)
      · show upd s.wl p _ q = none ∨ _
        rw [upd_ne _ _ _ _ e]; exact hi.ex q
    · obtain ⟨u, op', v, hu⟩ := hi.torn q hq
      have hut : u ≠ t := fun e => by rw [e, hp] at hu; cases hu
      exact ⟨u, op', v, by show setAt s.pc t _ u = _; rw [setAt_ne _ _ _ _ hut]; exact hu⟩
    · exact pc_set (P := fun _ x => Loc s.w x) trivial fun u _ => hi.loc u
  | ret t r hp =>
    refine ⟨_, .visible (.refl _) (.ret a t r (by rw [hs.th, hp]; rfl)), ?_, hs.abs, th_set hs.th t _ _ rfl⟩
    exact inv_local hi (by rw [hp]; rfl) (by rw [hp]; rfl) (by simp [hp]) trivial

theorem sim_init {es : List Regable.Ev} {w : World} (H : Regable.History es w) (hW : Regable.Within es) :
    Sim (St.init w) (AState.init (bookOf es)) :=
  ⟨⟨fun p t => by simp [St.init, HoldsW], fun p t => by simp [St.init, HoldsR], fun p => .inl rfl, fun p h => by simp [St.init] at h,
    fun t => trivial⟩, Abs.init H hW, fun t => rfl⟩

theorem sim_exec {es : List Regable.Ev} {w : World} (H : Regable.History es w) (hW : Regable.Within es)
    {τ : List (Ev Op Ret)} {s : St} (h : Exec Step (St.init w) τ s) :
    ∃ a, Exec (AStep book) (AState.init (bookOf es)) τ a ∧ Sim s a :=
  linearizable_of_simulation Sim (sim_init H hW) (fun _ _ _ _ hs hst => sim_step hs hst) h

/-- **C122** (atomicity).  After any registration phase within the documented limits, whatever goroutines get, set, name and
print registered values through identifiers and objects: the results are those of a book in which each call takes effect at
one instant between its call and its return. -/
theorem C122_linearizable {es : List Regable.Ev} {w : World} (H : Regable.History es w) (hW : Regable.Within es) :
    Linearizable Step (St.init w) book (bookOf es) := fun _ _ h =>
  let ⟨a, ha, _⟩ := sim_exec H hW h
  ⟨a, ha⟩

/-- **C122** (no torn reads).  No goroutine ever reads a record while another one is writing it, nor do two write it at once. -/
theorem C122_no_race {es : List Regable.Ev} {w : World} (H : Regable.History es w) (hW : Regable.Within es)
    {τ : List (Ev Op Ret)} {s : St} (h : Exec Step (St.init w) τ s) {t u : Nat} {op : Op} {p : Nat × Nat} {v : BitVec 32}
    (ht : s.pc t = .write op p v ∨ s.pc t = .writing op p v) :
    (∀ op', s.pc u ≠ .read op' p) ∧ ∀ op' v', (s.pc u = .write op' p v' ∨ s.pc u = .writing op' p v') → u = t := by
  obtain ⟨a, -, hs⟩ := sim_exec H hW h
  have hi := hs.inv
  have h1 := (hi.wr p t).2 (by rcases ht with h | h <;> rw [h] <;> rfl)
  refine ⟨fun op' hu => ?_, fun op' v' hu => ?_⟩
  · have h2 := (hi.rd p u).2 (by rw [hu]; rfl)
    rcases hi.ex p with h | h
    · rw [h] at h1; cases h1
    · rw [h u] at h2; cases h2
  · have h2 := (hi.wr p u).2 (by rcases hu with h | h <;> rw [h] <;> rfl)
    rw [h1] at h2
    simpa using h2.symm

/-- **C122** (no deadlock).  Whenever some goroutine is inside a call, some goroutine inside a call can go on. -/
theorem C122_progress {es : List Regable.Ev} {w : World} (H : Regable.History es w) (hW : Regable.Within es)
    {τ : List (Ev Op Ret)} {s : St} (h : Exec Step (St.init w) τ s) {t : Nat} (ht : s.pc t ≠ .idle) :
    ∃ u e s', s.pc u ≠ .idle ∧ Step s e s' ∧ s'.pc u ≠ s.pc u ∧ ∀ v, v ≠ u → s'.pc v = s.pc v := by
  obtain ⟨a, -, hs⟩ := sim_exec H hW h
  have hi := hs.inv
  have mk : ∀ {u : Nat} {e : Option (Ev Op Ret)} {s0 : St} {p : PC}, Step s e (s0.go u p) → s0.pc = s.pc → p ≠ s.pc u →
      s.pc u ≠ .idle → ∃ u e s', s.pc u ≠ .idle ∧ Step s e s' ∧ s'.pc u ≠ s.pc u ∧ ∀ v, v ≠ u → s'.pc v = s.pc v := by
    intro u e s0 p h1 h2 h3 h4
    refine ⟨u, e, _, h4, h1, ?_, fun v hv => ?_⟩
    · show setAt s0.pc u p u ≠ _; rw [setAt_same]; exact h3
    · show setAt s0.pc u p v = _; rw [setAt_ne _ _ _ _ hv, h2]
  have inW : ∀ u p, HoldsW (s.pc u) = some p → ∃ u e s', s.pc u ≠ .idle ∧ Step s e s' ∧ s'.pc u ≠ s.pc u ∧ ∀ v, v ≠ u → s'.pc v = s.pc v := by
    intro u p hu
    cases hp : s.pc u with
    | write op q v => exact mk (.write s u op q v hp) rfl (by simp [hp]) (by simp [hp])
    | writing op q v =>
      have hl := hi.loc u
      rw [hp] at hl
      obtain ⟨-, -, r, rg, hk, hi'⟩ := hl
      exact mk (.writing s u op q v _ hp (Regable.setAt_eq hk hi')) rfl (by simp [hp]) (by simp [hp])
    | wunlock q r => exact mk (.wunlock s u q r hp) rfl (by simp [hp]) (by simp [hp])
    | _ => rw [hp] at hu; cases hu
  have inR : ∀ u p, HoldsR (s.pc u) = some p → ∃ u e s', s.pc u ≠ .idle ∧ Step s e s' ∧ s'.pc u ≠ s.pc u ∧ ∀ v, v ≠ u → s'.pc v = s.pc v := by
    intro u p hu
    cases hp : s.pc u with
    | read op q =>
      have hl := hi.loc u
      rw [hp] at hl
      obtain ⟨-, -, r, hr⟩ := hl
      exact mk (.read s u op q r hp (record_iff.2 hr) (read_not_torn hi hp)) rfl (by simp [hp]) (by simp [hp])
    | runlock q r => exact mk (.runlock s u q r hp) rfl (by simp [hp]) (by simp [hp])
    | _ => rw [hp] at hu; cases hu
  cases hp : s.pc t with
  | idle => exact absurd hp ht
  | find op =>
    refine mk (.find s t op hp) rfl ?_ ht
    have hl := hi.loc t
    rw [hp] at hl ⊢
    rcases resolve_spec hs.abs op hl with ⟨r, h1, -⟩ | ⟨p, h1, -⟩ | ⟨p, x, v, -, h1, -⟩ <;> rw [h1] <;> simp
  | rlock op p =>
    cases hw : s.wl p with
    | none => exact mk (.rlock s t op p hp hw) rfl (by simp [hp]) ht
    | some u => exact inW u p ((hi.wr p u).1 hw)
  | wlock op p v =>
    cases hw : s.wl p with
    | some u => exact inW u p ((hi.wr p u).1 hw)
    | none =>
      by_cases hr : ∀ u, s.rl p u = false
      · exact mk (.wlock s t op p v hp hw hr) rfl (by simp [hp]) ht
      · simp only [not_forall, Bool.not_eq_false] at hr
        obtain ⟨u, hu⟩ := hr
        exact inR u p ((hi.rd p u).1 hu)
  | read op p => exact inR t p (by rw [hp]; rfl)
  | runlock p r => exact inR t p (by rw [hp]; rfl)
  | write op p v => exact inW t p (by rw [hp]; rfl)
  | writing op p v => exact inW t p (by rw [hp]; rfl)
  | wunlock p r => exact inW t p (by rw [hp]; rfl)
  | ret r => exact mk (.ret s t r hp) rfl (by simp [hp]) ht

/-! ## Registration is not for many goroutines -/

/-- **C122** (registering) is false: two goroutines that register a value with the same registrar at the same time can get
the same identifier, and one of the values is lost. -/
theorem C122_reg_races (me : Regable.Reger) : ∃ s, Exec RStep ⟨me, fun _ => .idle⟩
    [.call 0 ("a", 1#32), .call 1 ("b", 2#32),
      .ret 0 (Regable.makeRegedId (me.regerId.setWidth 32) me.idGen.val),
      .ret 1 (Regable.makeRegedId (me.regerId.setWidth 32) me.idGen.val)] s ∧
    s.me.regList = me.regList ++ [⟨"b", 2#32, me.idGen.val⟩] ∧ s.me.idGen.val = me.idGen.val + 1#32 := by
  have h0 : Exec RStep ⟨me, fun _ => .idle⟩ [] _ := .refl _
  have h1 := h0.visible (.call _ 0 "a" 1#32 rfl)
  have h2 := h1.visible (.call _ 1 "b" 2#32 rfl)
  have h3 := h2.silent (.incLoad _ 0 _ _ rfl)
  have h4 := h3.silent (.incLoad _ 1 _ _ rfl)
  have h5 := h4.silent (.incRead _ 0 _ _ _ rfl)
  have h6 := h5.silent (.incRead _ 1 _ _ _ rfl)
  have h7 := h6.silent (.incStore _ 0 _ _ _ _ rfl)
  have h8 := h7.silent (.incStore _ 1 _ _ _ _ rfl)
  have h9 := h8.silent (.listLoad _ 0 _ rfl)
  have h10 := h9.silent (.listLoad _ 1 _ rfl)
  have h11 := h10.silent (.listStore _ 0 _ _ rfl)
  have h12 := h11.silent (.listStore _ 1 _ _ rfl)
  have h13 := h12.visible (.ret _ 0 (Regable.makeRegedId (me.regerId.setWidth 32) me.idGen.val) rfl)
  have h14 := h13.visible (.ret _ 1 (Regable.makeRegedId (me.regerId.setWidth 32) me.idGen.val) rfl)
  exact ⟨_, h14, rfl, rfl⟩

/-- The steps of `Reg` one after the other are the call of C63. -/
theorem C122_reg_alone {w : World} {k : Nat} {me : Regable.Reger} (hl : w.locked = false) (hk : w.regers[k]? = some me)
    (f : Nat → RPC) (t : Nat) (ht : f t = .idle) (name : String) (val : BitVec 32) :
    ∃ s id, Exec RStep ⟨me, f⟩ [.call t (name, val), .ret t id] s ∧ s.pc = f ∧
      Regable.reg w k name val = .ok ({ w with regers := w.regers.set k s.me }, id) := by
  have h0 : Exec RStep ⟨me, f⟩ [] _ := .refl _
  have h1 := h0.visible (.call _ t name val ht)
  have h2 := h1.silent (.incLoad _ t _ _ (setAt_same _ _ _))
  have h3 := h2.silent (.incRead _ t _ _ _ (setAt_same _ _ _))
  have h4 := h3.silent (.incStore _ t _ _ _ _ (setAt_same _ _ _))
  have h5 := h4.silent (.listLoad _ t _ (setAt_same _ _ _))
  have h6 := h5.silent (.listStore _ t _ _ (setAt_same _ _ _))
  have h7 := h6.visible (.ret _ t _ (setAt_same _ _ _))
  refine ⟨_, _, h7, ?_, ?_⟩
  · funext u
    simp only [RSt.go]
    by_cases e : u = t
    · subst e; rw [setAt_same, ht]
    · simp only [setAt_ne _ _ _ _ e]
  · rw [Regable.reg_eq hl hk]
    rfl

/-! ## An execution -/

/-- One registrar with one value, 5. -/
def demo : World := ⟨⟨2#32, 0#32, 255#32⟩, [⟨1#8, "a", ⟨2#32, 0#32, 1024#32⟩, [⟨"x", 5#32, 1#32⟩]⟩], false⟩

/-- Goroutine 0 sets the value to 9 while goroutines 1 and 2 get it: one of them gets the old and one the new value. -/
example : Regable.History [.reg 0 "x" 5#32 0x1000001#32, .newReger "a"] demo ∧
    Regable.Within [.reg 0 "x" 5#32 0x1000001#32, .newReger "a"] ∧
    ∃ s, Exec Step (St.init demo)
      [.call 0 (.set (.id 0x1000001#32) 9#32), .call 1 (.get (.obj (some (0, 0)))), .call 2 (.get (.id 0x1000001#32)),
        .ret 2 (.val (.ok (9#32, false))), .ret 1 (.val (.ok (5#32, false))), .ret 0 (.val (.ok (9#32, false)))] s := by
  refine ⟨?_, ?_, ?_⟩
  · have h1 := Regable.History.cons .nil (.newReger (name := "a") (Regable.newReger_eq rfl))
    exact .cons h1 (.reg (Regable.reg_eq (w := ⟨⟨2#32, 0#32, 255#32⟩, [⟨1#8, "a", ⟨1#32, 0#32, 1024#32⟩, []⟩], false⟩)
      (k := 0) (name := "x") (val := 5#32) rfl rfl))
  · refine ⟨by decide, fun k => ?_⟩
    simp only [Regable.nRegs]
    split_ifs <;> omega
  · have h0 : Exec Step (St.init demo) [] _ := .refl _
    have h1 := h0.visible (.call _ 0 (.set (.id 0x1000001#32) 9#32) rfl trivial)
    have h2 := h1.visible (.call _ 1 (.get (.obj (some (0, 0)))) rfl ⟨_, rfl⟩)
    have h3 := h2.visible (.call _ 2 (.get (.id 0x1000001#32)) rfl trivial)
    have h4 := h3.silent (.find _ 1 _ rfl)
    have h5 := h4.silent (.rlock _ 1 _ (0, 0) rfl rfl)
    have h6 := h5.silent (.find _ 0 _ rfl)
    have h7 := h6.silent (.read _ 1 _ (0, 0) ⟨"x", 5#32, 1#32⟩ rfl rfl rfl)
    have h8 := h7.silent (.runlock _ 1 (0, 0) _ rfl)
    have h9 := h8.silent (.wlock _ 0 _ (0, 0) 9#32 rfl rfl (by intro u; simp [St.go, upd, setAt, St.init]))
    have h10 := h9.silent (.write _ 0 _ (0, 0) 9#32 rfl)
    have h11 := h10.silent (.writing _ 0 _ (0, 0) 9#32 _ rfl rfl)
    have h12 := h11.silent (.find _ 2 _ rfl)
    have h13 := h12.silent (.wunlock _ 0 (0, 0) _ rfl)
    have h14 := h13.silent (.rlock _ 2 _ (0, 0) rfl rfl)
    have h15 := h14.silent (.read _ 2 _ (0, 0) ⟨"x", 9#32, 1#32⟩ rfl rfl rfl)
    have h16 := h15.silent (.runlock _ 2 (0, 0) _ rfl)
    have h17 := h16.visible (.ret _ 2 (.val (.ok (9#32, false))) rfl)
    have h18 := h17.visible (.ret _ 1 (.val (.ok (5#32, false))) rfl)
    have h19 := h18.visible (.ret _ 0 (.val (.ok (9#32, false))) rfl)
    exact ⟨_, h19⟩

example := C122_linearizable Regable.exHistory Regable.exWithin

/-- One goroutine stands inside the lock of a value it sets, and another waits for the lock. -/
example : ∃ s : St, Exec Step (St.init Regable.exWorld)
      [.call 0 (.set (.id 0x1000001#32) 9#32), .call 1 (.get (.obj (some (0, 0))))] s ∧
    s.pc 0 = .write (.set (.id 0x1000001#32) 9#32) (0, 0) 9#32 ∧ s.pc 1 ≠ .idle := by
  have h0 : Exec Step (St.init Regable.exWorld) [] _ := .refl _
  have h1 := h0.visible (.call _ 0 (.set (.id 0x1000001#32) 9#32) rfl trivial)
  have h2 := h1.visible (.call _ 1 (.get (.obj (some (0, 0)))) rfl ⟨_, rfl⟩)
  have h3 := h2.silent (.find _ 1 _ rfl)
  have h4 := h3.silent (.find _ 0 _ rfl)
  have h5 := h4.silent (.wlock _ 0 _ (0, 0) 9#32 rfl rfl (by intro u; simp [St.go, upd, setAt, St.init]))
  exact ⟨_, h5, rfl, fun h => PC.noConfusion h⟩

end Verif.RegConc
