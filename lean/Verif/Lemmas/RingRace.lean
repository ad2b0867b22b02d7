import Verif.Model.RingRace
import Verif.Lemmas.RaceAll
import Verif.Props.RingBuffer
/-!
# The ring buffer with its accesses: invariant
-/
set_option linter.unusedSectionVars false
set_option linter.unusedSimpArgs false

namespace Verif.RingBuffer
open Verif.Spec
open Verif.LFDeque (setAt_same setAt_ne)
variable {V : Type} [Inhabited V]

/-- Every labelled step is a step of the machine. -/
theorem RStep.step {s s' : St V} {l : Option (RLab V)} (h : RStep s l s') :
    ∃ e, evs l.toList = e.toList ∧ Step s e s' := by
  cases h with
  | callPush t v hp => exact ⟨_, rfl, .callPush s t v hp⟩
  | puAdd t v hp => exact ⟨none, rfl, .puAdd s t v hp⟩
  | puWait t v old hp => exact ⟨none, rfl, .puWait s t v old hp⟩
  | puWrite t v old d hp hd =>
    have := Step.puWrite s t v old hp
    rw [hd] at this
    exact ⟨none, rfl, this⟩
  | puPanic t v old hp hd =>
    have := Step.puWrite s t v old hp
    rw [hd] at this
    exact ⟨none, rfl, this⟩
  | puCasOk t v old hp hc =>
    have := Step.puCas s t v old hp
    rw [if_pos hc] at this
    exact ⟨none, rfl, this⟩
  | puCasFail t v old hp hc =>
    have := Step.puCas s t v old hp
    rw [if_neg hc] at this
    exact ⟨none, rfl, this⟩
  | callPop t hp => exact ⟨_, rfl, .callPop s t hp⟩
  | poAdd t hp => exact ⟨none, rfl, .poAdd s t hp⟩
  | poWait t old hp => exact ⟨none, rfl, .poWait s t old hp⟩
  | poRead t old v hp hd =>
    have := Step.poRead s t old hp
    rw [hd] at this
    exact ⟨none, rfl, this⟩
  | poPanic t old hp hd =>
    have := Step.poRead s t old hp
    rw [hd] at this
    exact ⟨none, rfl, this⟩
  | poCasOk t old v hp hc =>
    have := Step.poCas s t old v hp
    rw [if_pos hc] at this
    exact ⟨none, rfl, this⟩
  | poCasFail t old v hp hc =>
    have := Step.poCas s t old v hp
    rw [if_neg hc] at this
    exact ⟨none, rfl, this⟩
  | ret t r hp => exact ⟨_, rfl, .ret s t r hp⟩

/-- What is known about an access to a slot: `k` is the ticket. -/
def SlotOk (n : Nat) (τ : List (Acc Loc)) (s : St V) (k i : Nat) (a : Acc Loc) : Prop :=
  a.loc = .slot (k % n) ∧ (k < s.b.head → Passed τ .head i) ∧
  ((a.kind = .write ∧ ((k < s.b.tail ∧ Passed τ .tail i) ∨ ∃ v, s.pc a.t = .puCas v k)) ∨
   (a.kind = .read ∧ (k < s.b.head ∨ ∃ v, s.pc a.t = .poCas k v)))

/-- The invariant: `τ` are the accesses so far and `tk` the tickets of the accesses to slots. -/
structure RInv (n : Nat) (τ : List (Acc Loc)) (tk : Nat → Nat) (s : St V) : Prop where
  rf : RaceFree τ
  kinds : All τ fun i a => a.kind.atomic = true ∧ (∀ x, a.loc ≠ .slot x) ∨ SlotOk n τ s (tk i) i a
  push : ∀ t v o, s.pc t = .puWrite v o → All τ fun i a => a.kind.atomic = false → tk i + n ≤ o → Known τ t i
  pop : ∀ t o, (s.pc t = .poRead o ∨ ∃ v, s.pc t = .poCas o v) → All τ fun i a => a.kind = .write → tk i ≤ o → Known τ t i

theorem slotOk_plain {n : Nat} {τ : List (Acc Loc)} {s : St V} {k i : Nat} {a : Acc Loc} (h : SlotOk n τ s k i a) : a.kind.atomic = false := by
  rcases h.2.2 with h | h <;> rw [h.1] <;> rfl

/-- One more atomic access. -/
theorem rinv_acc {n : Nat} {τ : List (Acc Loc)} {tk : Nat → Nat} {s : St V} (h : RInv n τ tk s) (a : Acc Loc)
    (ha : a.kind.atomic = true) (hl : ∀ x, a.loc ≠ .slot x) (hst : a.kind = .rmw ∨ a.kind.writes = false) :
    RInv n (τ ++ [a]) tk s := by
  refine ⟨?_, ?_, ?_, ?_⟩
  · refine raceFree_append.mpr ⟨h.rf, fun i b hb hc => ?_⟩
    rcases h.kinds i b hb with ⟨hk, _⟩ | hk
    · rcases hc.2.2 with h' | h'
      · rw [hk] at h'; cases h'
      · rw [ha] at h'; cases h'
    · exact absurd (hc.1.symm.trans hk.1) (hl _)
  · refine all_append.mpr ⟨h.kinds.imp fun i b hb => ?_, .inl ⟨ha, hl⟩⟩
    rcases hb with hb | ⟨h1, h2, h3⟩
    · exact .inl hb
    · refine .inr ⟨h1, fun hk => passed_mono (fun _ => hst) (h2 hk), ?_⟩
      rcases h3 with ⟨h3, h4⟩ | h3
      · exact .inl ⟨h3, h4.imp (fun hh => ⟨hh.1, passed_mono (fun _ => hst) hh.2⟩) id⟩
      · exact .inr h3
  · intro t v o hp
    exact all_append.mpr ⟨(h.push t v o hp).imp fun i b hb h1 h2 => known_mono (hb h1 h2), fun h' => by rw [ha] at h'; cases h'⟩
  · intro t o hp
    exact all_append.mpr ⟨(h.pop t o hp).imp fun i b hb h1 h2 => known_mono (hb h1 h2), fun h' => by rw [h'] at ha; cases ha⟩

/-- A goroutine moves; the counters and the slots are not concerned. -/
theorem rinv_pc {n : Nat} {τ : List (Acc Loc)} {tk : Nat → Nat} {s s' : St V} (h : RInv n τ tk s) (t : Nat) (p : PC V)
    (hh : s'.b.head = s.b.head) (ht : s'.b.tail = s.b.tail) (hp : s'.pc = setAt s.pc t p)
    (hc1 : ∀ v o, s.pc t ≠ .puCas v o) (hc2 : ∀ v o, s.pc t ≠ .poCas o v) (hc3 : ∀ v o, p ≠ .poCas o v)
    (hk1 : ∀ v o, p = .puWrite v o → All τ fun i a => a.kind.atomic = false → tk i + n ≤ o → Known τ t i)
    (hk2 : ∀ o, p = .poRead o → All τ fun i a => a.kind = .write → tk i ≤ o → Known τ t i) :
    RInv n τ tk s' := by
  refine ⟨h.rf, h.kinds.imp fun i b hb => ?_, ?_, ?_⟩
  · refine hb.imp id fun ⟨h1, h2, h3⟩ => ⟨h1, by rw [hh]; exact h2, ?_⟩
    rw [hh, ht, hp]
    have hne : ∀ q, s.pc b.t = q → s.pc t ≠ q → setAt s.pc t p b.t = q := by
      intro q hq hn
      rw [setAt_ne _ _ _ _ (by intro e; rw [e] at hq; exact hn hq), hq]
    refine h3.imp (fun h3 => ⟨h3.1, h3.2.imp id fun ⟨v, hv⟩ => ⟨v, hne _ hv (hc1 _ _)⟩⟩)
      fun h3 => ⟨h3.1, h3.2.imp id fun ⟨v, hv⟩ => ⟨v, hne _ hv (hc2 _ _)⟩⟩
  · intro u v o hu
    rw [hp] at hu
    by_cases e : u = t
    · subst e
      rw [setAt_same] at hu
      exact hk1 v o hu
    · rw [setAt_ne _ _ _ _ e] at hu
      exact h.push u v o hu
  · intro u o hu
    rw [hp] at hu
    by_cases e : u = t
    · subst e
      rw [setAt_same] at hu
      rcases hu with hu | ⟨v, hu⟩
      · exact hk2 o hu
      · exact absurd hu (hc3 _ _)
    · rw [setAt_ne _ _ _ _ e] at hu
      exact h.pop u o hu

theorem rinv_step {k : Nat} {τ : List (RLab V)} {tk : Nat → Nat} {s s' : St V} {a : AState (List V) (Op V) (Ret V)} {e : Option (RLab V)}
    (h : RInv (2 ^ k) (accs τ) tk s) (hS : Sim k s a) (hw : NoWrap s) (hs : RStep s e s') :
    ∃ tk', RInv (2 ^ k) (accs (τ ++ e.toList)) tk' s' := by
  obtain ⟨hw1, hw2⟩ := hw
  have hm := hS.mask
  have hpos : 0 < 2 ^ k := Nat.two_pow_pos k
  have hht := hS.ht
  have hth := hS.th
  have hhr := hS.hr
  have htr := hS.tr
  have hland : ∀ o, o &&& s.b.mask = o % 2 ^ k := fun o => by rw [hm]; exact Nat.and_two_pow_sub_one_eq_mod _ _
  cases hs with
  | callPush t v hp =>
    simp only [Option.toList, accs_append, accs_ev, List.append_nil]
    exact ⟨tk, rinv_pc h t _ rfl rfl rfl (by simp [hp]) (by simp [hp]) (by simp) (by simp) (by simp)⟩
  | callPop t hp =>
    simp only [Option.toList, accs_append, accs_ev, List.append_nil]
    exact ⟨tk, rinv_pc h t _ rfl rfl rfl (by simp [hp]) (by simp [hp]) (by simp) (by simp) (by simp)⟩
  | ret t r hp =>
    simp only [Option.toList, accs_append, accs_ev, List.append_nil]
    exact ⟨tk, rinv_pc h t _ rfl rfl rfl (by simp [hp]) (by simp [hp]) (by simp) (by simp) (by simp)⟩
  | puPanic t v old hp hd =>
    simp only [Option.toList, List.append_nil]
    exact ⟨tk, rinv_pc h t _ rfl rfl rfl (by simp [hp]) (by simp [hp]) (by simp) (by simp) (by simp)⟩
  | poPanic t old hp hd =>
    simp only [Option.toList, List.append_nil]
    exact ⟨tk, rinv_pc h t _ rfl rfl rfl (by simp [hp]) (by simp [hp]) (by simp) (by simp) (by simp)⟩
  | puAdd t v hp =>
    simp only [Option.toList, accs_append, accs_acc]
    have h1 := rinv_acc h ⟨t, .rmw, .tailR⟩ rfl (by simp) (.inl rfl)
    exact ⟨tk, rinv_pc h1 t _ rfl rfl rfl (by simp [hp]) (by simp [hp]) (by simp) (by simp) (by simp)⟩
  | poAdd t hp =>
    simp only [Option.toList, accs_append, accs_acc]
    have h1 := rinv_acc h ⟨t, .rmw, .headR⟩ rfl (by simp) (.inl rfl)
    exact ⟨tk, rinv_pc h1 t _ rfl rfl rfl (by simp [hp]) (by simp [hp]) (by simp) (by simp) (by simp)⟩
  | puCasFail t v old hp hc =>
    simp only [Option.toList, accs_append, accs_acc]
    exact ⟨tk, rinv_acc h ⟨t, .load, .tail⟩ rfl (by simp) (.inr rfl)⟩
  | poCasFail t old v hp hc =>
    simp only [Option.toList, accs_append, accs_acc]
    exact ⟨tk, rinv_acc h ⟨t, .load, .head⟩ rfl (by simp) (.inr rfl)⟩
  | puWait t v old hp =>
    simp only [Option.toList, accs_append, accs_acc]
    have hold := hS.pushLt t old (by rw [hp]; rfl)
    have h1 := rinv_acc h ⟨t, .load, .head⟩ rfl (by simp) (.inr rfl)
    refine ⟨tk, rinv_pc h1 t _ rfl rfl rfl (by simp [hp]) (by simp [hp]) (by split <;> simp) ?_ (by split <;> simp)⟩
    rw [Nat.mod_eq_of_lt (by omega), Nat.mod_eq_of_lt (by omega)]
    intro v' o ho
    split at ho
    · cases ho
    · cases ho
      refine all_append.mpr ⟨fun i b hb hp' hle => ?_, by simp [AccKind.atomic]⟩
      rcases h.kinds i b hb with hk | hk
      · rw [hk.1] at hp'; cases hp'
      · exact known_append.mpr (.inr ⟨rfl, .inr ⟨rfl, hk.2.1 (by omega)⟩⟩)
  | poWait t old hp =>
    simp only [Option.toList, accs_append, accs_acc]
    have hold := hS.popLt t old (by rw [hp]; rfl)
    have h1 := rinv_acc h ⟨t, .load, .tail⟩ rfl (by simp) (.inr rfl)
    refine ⟨tk, rinv_pc h1 t _ rfl rfl rfl (by simp [hp]) (by simp [hp]) (by split <;> simp) (by split <;> simp) ?_⟩
    intro o ho
    split at ho
    · cases ho
    · cases ho
      refine all_append.mpr ⟨fun i b hb hp' hle => ?_, by simp⟩
      rcases h.kinds i b hb with hk | hk
      · rw [hp'] at hk; cases hk.1
      · refine known_append.mpr (.inr ⟨rfl, .inr ⟨rfl, ?_⟩⟩)
        rcases hk.2.2 with ⟨_, h2 | ⟨w, h2⟩⟩ | ⟨h2, _⟩
        · exact h2.2
        · have := hS.pushLt b.t (tk i) (by rw [h2]; rfl)
          omega
        · rw [hp'] at h2; cases h2
  | puWrite t v old d hp hd =>
    simp only [Option.toList, accs_append, accs_acc]
    rw [hland]
    have hold := hS.pushLt t old (by rw [hp]; rfl)
    have hloc := hS.loc t
    rw [hp] at hloc
    have hlt : ∀ i b, (accs τ)[i]? = some b → (setAt tk (accs τ).length old) i = tk i :=
      fun i b hb => setAt_ne _ _ _ _ (by have := getElem?_lt hb; omega)
    -- the tickets of the accesses to this slot
    have htick : ∀ i b, (accs τ)[i]? = some b → SlotOk (2 ^ k) (accs τ) s (tk i) i b → tk i % 2 ^ k = old % 2 ^ k → tk i + 2 ^ k ≤ old := by
      intro i b hb hk hmod
      have hup : tk i < s.b.head + 2 ^ k := by
        rcases hk.2.2 with ⟨_, h2 | ⟨w, h2⟩⟩ | ⟨_, h2 | ⟨w, h2⟩⟩
        · omega
        · have := hS.loc b.t
          rw [h2] at this
          exact this.1
        · omega
        · have := hS.loc b.t
          rw [h2] at this
          have := this.1
          omega
      have hne : tk i ≠ old := by
        intro hE
        rcases hk.2.2 with ⟨_, h2 | ⟨w, h2⟩⟩ | ⟨_, h2 | ⟨w, h2⟩⟩
        · omega
        · have := hS.pushNe b.t t old (by rw [h2, ← hE]; rfl) (by rw [hp]; rfl)
          rw [this, hp] at h2
          cases h2
        · omega
        · have := hS.loc b.t
          rw [h2] at this
          have := this.1
          omega
      rcases Nat.lt_or_ge (tk i) old with hl | hl
      · have hdv : 2 ^ k ∣ old - tk i := (Nat.modEq_iff_dvd' (Nat.le_of_lt hl)).1 hmod
        have := Nat.le_of_dvd (by omega) hdv
        omega
      · have hdv : 2 ^ k ∣ tk i - old := (Nat.modEq_iff_dvd' hl).1 hmod.symm
        have := Nat.le_of_dvd (by omega) hdv
        omega
    refine ⟨setAt tk (accs τ).length old, ?_, ?_, ?_, ?_⟩
    · refine raceFree_append.mpr ⟨h.rf, fun i b hb hc => ?_⟩
      rcases h.kinds i b hb with hk | hk
      · exact absurd hc.1 (hk.2 _)
      · have hx := hk.1.symm.trans hc.1
        simp only [Loc.slot.injEq] at hx
        exact .inl (h.push t v old hp i b hb (slotOk_plain hk) (htick i b hb hk hx))
    · refine all_append.mpr ⟨fun i b hb => ?_, .inr ?_⟩
      · simp only [hlt i b hb]
        refine (h.kinds i b hb).imp id fun ⟨h1, h2, h3⟩ => ⟨h1, fun hk => passed_mono (by simp) (h2 hk), ?_⟩
        have hne : ∀ q, s.pc b.t = q → q ≠ .puWrite v old → setAt s.pc t (.puCas v old) b.t = q := by
          intro q hq hn
          rw [setAt_ne _ _ _ _ (by intro e; rw [e, hp] at hq; exact hn hq.symm), hq]
        refine h3.imp (fun h3 => ⟨h3.1, h3.2.imp (fun hh => ⟨hh.1, passed_mono (by simp) hh.2⟩) fun ⟨w, hv⟩ => ⟨w, hne _ hv (by simp)⟩⟩)
          fun h3 => ⟨h3.1, h3.2.imp id fun ⟨w, hv⟩ => ⟨w, hne _ hv (by simp)⟩⟩
      · simp only [setAt_same]
        refine ⟨rfl, fun hk => ?_, .inl ⟨rfl, .inr ⟨v, setAt_same _ _ _⟩⟩⟩
        dsimp only at hk
        omega
    · intro u w o hu
      have hne : u ≠ t := by rintro rfl; simp [setAt_same] at hu
      simp only [St.goto, setAt_ne _ _ _ _ hne] at hu
      refine all_append.mpr ⟨fun i b hb h1 h2 => ?_, fun _ h2 => ?_⟩
      · rw [hlt i b hb] at h2
        exact known_mono (h.push u w o hu i b hb h1 h2)
      · rw [setAt_same] at h2
        have := hS.loc u
        rw [hu] at this
        have : o < s.b.head + 2 ^ k := this
        omega
    · intro u o hu
      have hne : u ≠ t := by rintro rfl; simp [setAt_same] at hu
      simp only [St.goto, setAt_ne _ _ _ _ hne] at hu
      refine all_append.mpr ⟨fun i b hb h1 h2 => ?_, fun _ h2 => ?_⟩
      · rw [hlt i b hb] at h2
        exact known_mono (h.pop u o hu i b hb h1 h2)
      · rw [setAt_same] at h2
        have := hS.loc u
        rcases hu with hu | ⟨w, hu⟩ <;> rw [hu] at this
        · have : o < s.b.tail := this
          omega
        · have := this.1
          omega
  | poRead t old v hp hd =>
    simp only [Option.toList, accs_append, accs_acc]
    rw [hland]
    have hold := hS.popLt t old (by rw [hp]; rfl)
    have hloc := hS.loc t
    rw [hp] at hloc
    have hloc : old < s.b.tail := hloc
    have hlt : ∀ i b, (accs τ)[i]? = some b → (setAt tk (accs τ).length old) i = tk i :=
      fun i b hb => setAt_ne _ _ _ _ (by have := getElem?_lt hb; omega)
    refine ⟨setAt tk (accs τ).length old, ?_, ?_, ?_, ?_⟩
    · refine raceFree_append.mpr ⟨h.rf, fun i b hb hc => ?_⟩
      rcases h.kinds i b hb with hk | hk
      · exact absurd hc.1 (hk.2 _)
      · have hmod := hk.1.symm.trans hc.1
        simp only [Loc.slot.injEq] at hmod
        have hwr : b.kind = .write := by
          rcases hk.2.2 with h' | h'
          · exact h'.1
          · have := hc.2.1
            rw [h'.1] at this
            simp [AccKind.writes] at this
        have hup : tk i < s.b.head + 2 ^ k := by
          rcases hk.2.2 with ⟨_, h2 | ⟨w, h2⟩⟩ | ⟨h2, _⟩
          · omega
          · have := hS.loc b.t
            rw [h2] at this
            exact this.1
          · rw [hwr] at h2; cases h2
        refine .inl (h.pop t old (.inl hp) i b hb hwr ?_)
        by_contra hgt
        have hdv : 2 ^ k ∣ tk i - old := (Nat.modEq_iff_dvd' (by omega)).1 hmod.symm
        have := Nat.le_of_dvd (by omega) hdv
        omega
    · refine all_append.mpr ⟨fun i b hb => ?_, .inr ?_⟩
      · simp only [hlt i b hb]
        refine (h.kinds i b hb).imp id fun ⟨h1, h2, h3⟩ => ⟨h1, fun hk => passed_mono (by simp) (h2 hk), ?_⟩
        have hne : ∀ q, s.pc b.t = q → q ≠ .poRead old → setAt s.pc t (.poCas old v) b.t = q := by
          intro q hq hn
          rw [setAt_ne _ _ _ _ (by intro e; rw [e, hp] at hq; exact hn hq.symm), hq]
        refine h3.imp (fun h3 => ⟨h3.1, h3.2.imp (fun hh => ⟨hh.1, passed_mono (by simp) hh.2⟩) fun ⟨w, hv⟩ => ⟨w, hne _ hv (by simp)⟩⟩)
          fun h3 => ⟨h3.1, h3.2.imp id fun ⟨w, hv⟩ => ⟨w, hne _ hv (by simp)⟩⟩
      · simp only [setAt_same]
        refine ⟨rfl, fun hk => ?_, .inr ⟨rfl, .inr ⟨v, setAt_same _ _ _⟩⟩⟩
        have hk : old < s.b.head := hk
        omega
    · intro u w o hu
      have hne : u ≠ t := by rintro rfl; simp [St.goto, setAt_same] at hu
      simp only [St.goto, setAt_ne _ _ _ _ hne] at hu
      refine all_append.mpr ⟨fun i b hb h1 h2 => ?_, fun _ h2 => ?_⟩
      · rw [hlt i b hb] at h2
        exact known_mono (h.push u w o hu i b hb h1 h2)
      · rw [setAt_same] at h2
        have := hS.loc u
        rw [hu] at this
        have : o < s.b.head + 2 ^ k := this
        omega
    · intro u o hu
      refine all_append.mpr ⟨fun i b hb h1 h2 => ?_, by simp⟩
      rw [hlt i b hb] at h2
      by_cases e : u = t
      · subst e
        simp only [St.goto, setAt_same] at hu
        have : o = old := by
          rcases hu with hu | ⟨w, hu⟩ <;> cases hu
          rfl
        subst this
        exact known_mono (h.pop u o (.inl hp) i b hb h1 h2)
      · simp only [St.goto, setAt_ne _ _ _ _ e] at hu
        exact known_mono (h.pop u o hu i b hb h1 h2)
  | puCasOk t v old hp hc =>
    simp only [Option.toList, accs_append, accs_acc]
    subst hc
    have hold := hS.pushLt t _ (by rw [hp]; rfl)
    have h1 := rinv_acc h ⟨t, .rmw, .tail⟩ rfl (by simp) (.inl rfl)
    refine ⟨tk, h1.rf, all_append.mpr ⟨fun i b hb => ?_, .inl ⟨rfl, by simp⟩⟩, ?_, ?_⟩
    · refine ((all_append.mp h1.kinds).1 i b hb).imp id fun ⟨g1, g2, g3⟩ => ⟨g1, g2, ?_⟩
      dsimp only
      rw [Nat.mod_eq_of_lt (by omega)]
      rcases g3 with ⟨g3, g4⟩ | ⟨g3, g4⟩
      · refine .inl ⟨g3, ?_⟩
        rcases g4 with g4 | ⟨w, g4⟩
        · exact .inl ⟨by omega, g4.2⟩
        · by_cases e : b.t = t
          · rw [e, hp] at g4
            have g5 := (PC.puCas.inj g4).2
            refine .inl ⟨by omega, passed_append.mpr (.inl ⟨rfl, rfl, rfl, known_mono ?_⟩)⟩
            have := known_own hb
            rwa [e] at this
          · exact .inr ⟨w, by rw [setAt_ne _ _ _ _ e]; exact g4⟩
      · refine .inr ⟨g3, g4.imp id fun ⟨w, g4⟩ => ⟨w, ?_⟩⟩
        rw [setAt_ne _ _ _ _ (by intro e; rw [e, hp] at g4; cases g4)]
        exact g4
    · intro u w o hu
      have hne : u ≠ t := by rintro rfl; simp [setAt_same] at hu
      simp only [St.goto, setAt_ne _ _ _ _ hne] at hu
      exact h1.push u w o hu
    · intro u o hu
      have hne : u ≠ t := by rintro rfl; simp [setAt_same] at hu
      simp only [St.goto, setAt_ne _ _ _ _ hne] at hu
      exact h1.pop u o hu
  | poCasOk t old v hp hc =>
    simp only [Option.toList, accs_append, accs_acc]
    subst hc
    have hold := hS.popLt t _ (by rw [hp]; rfl)
    have hloc := hS.loc t
    rw [hp] at hloc
    have hloc := hloc.1
    have h1 := rinv_acc h ⟨t, .rmw, .head⟩ rfl (by simp) (.inl rfl)
    refine ⟨tk, h1.rf, all_append.mpr ⟨fun i b hb => ?_, .inl ⟨rfl, by simp⟩⟩, ?_, ?_⟩
    · rcases (all_append.mp h1.kinds).1 i b hb with hk | ⟨g1, g2, g3⟩
      · exact .inl hk
      · refine .inr ⟨g1, fun hk => ?_, ?_⟩
        · dsimp only at hk
          rw [Nat.mod_eq_of_lt (by omega)] at hk
          by_cases hlt : tk i < s.b.head
          · exact g2 hlt
          · refine passed_append.mpr (.inl ⟨rfl, rfl, rfl, known_mono ?_⟩)
            rcases g3 with ⟨g3, _⟩ | ⟨g3, g4 | ⟨w, g4⟩⟩
            · exact h.pop t _ (.inr ⟨v, hp⟩) i b hb g3 (by omega)
            · omega
            · have := hS.popNe b.t t s.b.head (by rw [g4]; simp only [popTicket]; congr 1; omega) (by rw [hp]; rfl)
              have hk := known_own hb
              rwa [this] at hk
        · dsimp only
          rw [Nat.mod_eq_of_lt (by omega)]
          rcases g3 with ⟨g3, g4⟩ | ⟨g3, g4⟩
          · refine .inl ⟨g3, g4.imp id fun ⟨w, g4⟩ => ⟨w, ?_⟩⟩
            rw [setAt_ne _ _ _ _ (by intro e; rw [e, hp] at g4; cases g4)]
            exact g4
          · refine .inr ⟨g3, ?_⟩
            rcases g4 with g4 | ⟨w, g4⟩
            · exact .inl (by omega)
            · by_cases e : b.t = t
              · rw [e, hp] at g4
                have g5 := (PC.poCas.inj g4).1
                exact .inl (by omega)
              · exact .inr ⟨w, by rw [setAt_ne _ _ _ _ e]; exact g4⟩
    · intro u w o hu
      have hne : u ≠ t := by rintro rfl; simp [setAt_same] at hu
      simp only [St.goto, setAt_ne _ _ _ _ hne] at hu
      exact h1.push u w o hu
    · intro u o hu
      have hne : u ≠ t := by rintro rfl; simp [setAt_same] at hu
      simp only [St.goto, setAt_ne _ _ _ _ hne] at hu
      exact h1.pop u o hu

theorem rinv_exec {k : Nat} {τ : List (RLab V)} {s : St V} (h : Exec (fun s e s' => RStep s e s' ∧ NoWrap s) (start k) τ s) :
    Exec (fun s e s' => Step s e s' ∧ NoWrap s) (start k) (evs τ) s ∧ ∃ tk, RInv (2 ^ k) (accs τ) tk s := by
  induction h with
  | refl => exact ⟨.refl _, fun _ => 0, raceFree_nil, by intro i a h; simp [accs] at h, by simp [start], by simp [start]⟩
  | silent h1 hs ih =>
    obtain ⟨hx, tk, hr⟩ := ih
    obtain ⟨a, _, hS⟩ := linearizable_of_simulation (Sim k) (sim_init k) sim_step hx
    obtain ⟨e, he, hst⟩ := hs.1.step
    have := rinv_step hr hS hs.2 hs.1
    simp only [Option.toList, List.append_nil] at this
    cases e with
    | none => exact ⟨.silent hx ⟨hst, hs.2⟩, this⟩
    | some e => simp [evs] at he
  | visible h1 hs ih =>
    obtain ⟨hx, tk, hr⟩ := ih
    obtain ⟨a, _, hS⟩ := linearizable_of_simulation (Sim k) (sim_init k) sim_step hx
    obtain ⟨e, he, hst⟩ := hs.1.step
    have := rinv_step hr hS hs.2 hs.1
    refine ⟨?_, this⟩
    rw [evs_append]
    simp only [Option.toList] at he
    rw [he]
    cases e with
    | none => simpa using Exec.silent hx ⟨hst, hs.2⟩
    | some e => exact .visible hx ⟨hst, hs.2⟩

end Verif.RingBuffer
