import Verif.Model.ErrRace
import Verif.Model.RegRace
import Verif.Model.FileRace
import Verif.Lemmas.LockRace
import Verif.Props.ErrConc
import Verif.Props.RegConc
import Verif.Props.FileLock
/-!
# C144: data races of what is guarded by mutexes

Specification: Spec/LockRace.
-/
set_option linter.unusedSectionVars false

namespace Verif.Spec
variable {L M S E : Type}

/-- Without the actions. -/
theorem runs_exec {step : S → Nat → List (Act L M) → Option E → S → Prop} {step' : S → Option E → S → Prop}
    (hs : ∀ s t as e s', step s t as e s' → step' s e s') {s₀ s : S} {τ : List (Did L M)} {σ : List E} (h : Runs step s₀ τ σ s) :
    Exec step' s₀ σ s := by
  induction h with
  | start => exact .refl _
  | @next _ _ _ _ _ _ e _ h ih =>
    cases e with
    | none => simpa using ih.silent (hs _ _ _ _ _ h)
    | some e => exact ih.visible (hs _ _ _ _ _ h)

/-- Nothing happens before the first action of a goroutine unless that takes a mutex. -/
theorem first_alone {τ : List (Did L M)} {i j : Nat} {b : Did L M} (hb : τ[j]? = some b) (hf : ∀ k < j, ∀ a, τ[k]? = some a → a.t ≠ b.t)
    (hl : ∀ m, b.act ≠ .lock m ∧ b.act ≠ .rlock m) : ¬ Precedes τ i j := by
  have key : ∀ k, ¬ (Before τ k j ∨ Hands τ k j) := by
    rintro k (⟨h, a, c, ha, hc, e⟩ | ⟨h, m, a, c, ha, hc, e, _⟩)
    · rw [hb] at hc; cases hc
      exact hf k h a ha e
    · rw [hb] at hc; cases hc
      rcases e with ⟨_, e | e⟩ | ⟨_, e⟩
      · exact (hl m).1 e
      · exact (hl m).2 e
      · exact (hl m).1 e
  intro h
  cases h with
  | single h => exact key _ h
  | tail _ h => exact key _ h

end Verif.Spec

namespace Verif.ErrConc
open Verif.Spec Verif.Errors

/-- C144: recording accesses changes nothing: the machine is that of C121. -/
theorem C144_errors_machine {s s' : St} {e : Option Event} : Step s e s' ↔ ∃ t as, TStep s t as e s' := by
  constructor
  · intro h
    cases h with
    | callReg t name h => exact ⟨_, _, .callReg s t name h⟩
    | callGet t id h => exact ⟨_, _, .callGet s t id h⟩
    | callShow t h => exact ⟨_, _, .callShow s t h⟩
    | regLock t name h h1 h2 => exact ⟨_, _, .regLock s t name h h1 h2⟩
    | regTest t name h => exact ⟨_, _, .regTest s t name h⟩
    | regLoad t name h => exact ⟨_, _, .regLoad s t name h⟩
    | regStore t name l h => exact ⟨_, _, .regStore s t name l h⟩
    | regIncLoad t name h => exact ⟨_, _, .regIncLoad s t name h⟩
    | regIncStore t name c h => exact ⟨_, _, .regIncStore s t name c h⟩
    | regRes t h => exact ⟨_, _, .regRes s t h⟩
    | regUnlock t id err h => exact ⟨_, _, .regUnlock s t id err h⟩
    | getLock t id k h h1 => exact ⟨_, _, .getLock s t id k h h1⟩
    | getTest t id k h => exact ⟨_, _, .getTest s t id k h⟩
    | getIdx t id k h => exact ⟨_, _, .getIdx s t id k h⟩
    | getUnlock t id k r h => exact ⟨_, _, .getUnlock s t id k r h⟩
    | ret t r h => exact ⟨_, _, .ret s t r h⟩
    | showHead t h => exact ⟨_, _, .showHead s t h⟩
    | showTest t id acc h => exact ⟨_, _, .showTest s t id acc h⟩
    | showRet t r h => exact ⟨_, _, .showRet s t r h⟩
  · rintro ⟨_, _, h⟩
    cases h with
    | callReg name h => exact .callReg s _ name h
    | callGet id h => exact .callGet s _ id h
    | callShow h => exact .callShow s _ h
    | regLock name h h1 h2 => exact .regLock s _ name h h1 h2
    | regTest name h => exact .regTest s _ name h
    | regLoad name h => exact .regLoad s _ name h
    | regStore name l h => exact .regStore s _ name l h
    | regIncLoad name h => exact .regIncLoad s _ name h
    | regIncStore name c h => exact .regIncStore s _ name c h
    | regRes h => exact .regRes s _ h
    | regUnlock id err h => exact .regUnlock s _ id err h
    | getLock id k h h1 => exact .getLock s _ id k h h1
    | getTest id k h => exact .getTest s _ id k h
    | getIdx id k h => exact .getIdx s _ id k h
    | getUnlock id k r h => exact .getUnlock s _ id k r h
    | ret r h => exact .ret s _ r h
    | showHead h => exact .showHead s _ h
    | showTest id acc h => exact .showTest s _ id acc h
    | showRet r h => exact .showRet s _ r h

/-- Not in `ShowAll`. -/
def Plain : PC → Prop
  | .showHead | .showTest _ _ | .showDone _ => False
  | .getLock _ k | .getTest _ k | .getIdx _ k | .getUnlock _ k _ => k = none
  | _ => True

theorem plain_set {s : St} {t : Nat} {p : PC} (h : ∀ u, Plain (s.pc u)) (hp : Plain p) : ∀ u, Plain (setAt s.pc t p u) := by
  intro u
  unfold setAt
  split
  · exact hp
  · exact h u

/-- The one mutex guards everything. -/
abbrev Ordered (τ : List (Did Var Unit)) (s : St) : Prop := Orderly (fun _ : Var => some ()) τ (fun _ => s.w) (fun _ => s.r)

theorem ordered_step {τ : List (Did Var Unit)} {s s' : St} {t : Nat} {as : List EAct} {e : Option Event} (hi : Inv s) (hp : ∀ u, Plain (s.pc u))
    (ho : Ordered τ s) (hs : TStep s t as e s') (he : e ≠ some (.showCall t)) :
    (∀ u, Plain (s'.pc u)) ∧ Ordered (τ ++ as.map (Did.mk t)) s' := by
  have hw : ∀ p, s.pc t = p → InW p → s.w = some t := fun p h1 h2 => (hi.wr t).mpr (by rw [h1]; exact h2)
  have hr : ∀ p, s.pc t = p → InR p → s.r t = true := fun p h1 h2 => (hi.rd t).mpr (by rw [h1]; exact h2)
  have hq := hp t
  cases hs with
  | callReg name h => exact ⟨plain_set hp trivial, by rw [List.map_nil, List.append_nil]; exact ho⟩
  | callGet id h => exact ⟨plain_set hp rfl, by rw [List.map_nil, List.append_nil]; exact ho⟩
  | callShow h => exact absurd rfl he
  | regLock name h h1 h2 => exact ⟨plain_set hp trivial, orderly_lock ho t () h1 h2 rfl (fun n hn => absurd rfl hn)⟩
  | regTest name h =>
    exact ⟨plain_set hp (by split <;> trivial), orderly_read ho t .cur fun _ _ => .inl (hw _ h trivial)⟩
  | regLoad name h => exact ⟨plain_set hp trivial, orderly_read ho t .list fun _ _ => .inl (hw _ h trivial)⟩
  | regStore name l h =>
    refine ⟨plain_set hp trivial, ?_⟩
    have hw := hw _ h trivial
    have h1 := orderly_reads ho t ((List.range l.length).map Var.elem) fun _ _ _ _ => .inl hw
    have h2 := orderly_write h1 t (.elem l.length) () rfl hw
    have h3 := orderly_write h2 t .list () rfl hw
    show Orderly _ _ (fun _ => s.w) (fun _ => s.r)
    simpa using h3
  | regIncLoad name h => exact ⟨plain_set hp trivial, orderly_read ho t .cur fun _ _ => .inl (hw _ h trivial)⟩
  | regIncStore name c h => exact ⟨plain_set hp trivial, orderly_write ho t .cur () rfl (hw _ h trivial)⟩
  | regRes h => exact ⟨plain_set hp trivial, orderly_read ho t .cur fun _ _ => .inl (hw _ h trivial)⟩
  | regUnlock id err h =>
    exact ⟨plain_set hp trivial, orderly_unlock ho t () (hw _ h trivial) rfl (fun n hn => absurd rfl hn)⟩
  | getLock id k h h1 =>
    rw [h] at hq
    refine ⟨plain_set hp hq, orderly_rlock ho t () h1 (by simp [St.go, setAt]) fun n u hn => ?_⟩
    have : u ≠ t := hn.resolve_left (fun h => h rfl)
    simp [St.go, setAt, this]
  | getTest id k h =>
    rw [h] at hq
    exact ⟨plain_set hp (by split <;> exact hq), orderly_read ho t .cur fun _ _ => .inr (hr _ h trivial)⟩
  | getIdx id k h =>
    rw [h] at hq
    refine ⟨plain_set hp hq, ?_⟩
    have h1 := orderly_read (orderly_read ho t .list fun _ _ => .inr (hr _ h trivial)) t (.elem (id - 1001#32).toNat) fun _ _ => .inr (hr _ h trivial)
    exact (List.append_assoc _ _ _ ▸ h1 :)
  | getUnlock id k r h =>
    rw [h] at hq
    have hk : k = none := hq
    subst hk
    refine ⟨plain_set hp trivial, orderly_runlock ho t () (by simp [St.go, setAt]) fun n u hn => ?_⟩
    have : u ≠ t := hn.resolve_left (fun h => h rfl)
    simp [St.go, setAt, this]
  | ret r h => exact ⟨plain_set hp trivial, by rw [List.map_nil, List.append_nil]; exact ho⟩
  | showHead h => rw [h] at hq; exact hq.elim
  | showTest id acc h => rw [h] at hq; exact hq.elim
  | showRet r h => rw [h] at hq; exact hq.elim

theorem ordered_runs {τ : List (Did Var Unit)} {σ : List Event} {s : St} (h : Runs TStep St.init τ σ s) (hn : ∀ t, Event.showCall t ∉ σ) :
    Inv s ∧ (∀ u, Plain (s.pc u)) ∧ Ordered τ s := by
  induction h with
  | start => exact ⟨inv_init, fun _ => trivial, orderly_nil⟩
  | next h hs ih =>
    obtain ⟨h1, h2, h3⟩ := ih fun t ht => hn t (by simp [ht])
    exact ⟨inv_step h1 (C144_errors_machine.mpr ⟨_, _, hs⟩), ordered_step h1 h2 h3 hs (fun he => hn _ (List.mem_append_right _ (by rw [he]; exact List.mem_singleton.mpr rfl)))⟩

/-- C144 (partial: without `ShowAll`): goroutines that call `Reg` and `Get` (`String`, `Error`) of the error registry do not race. -/
theorem C144_errors_partial {τ : List (Did Var Unit)} {σ : List Event} {s : St} (h : Runs TStep St.init τ σ s) (hn : ∀ t, Event.showCall t ∉ σ) :
    NoRace τ := (ordered_runs h hn).2.2.norace

/-- C144, false of `ShowAll`: while one goroutine registers an error, another one calls `ShowAll`, and its reading of the
counter races with the writing of it. -/
theorem C144_showAll_race : ∃ τ s, Runs TStep St.init τ [.obj (.call 0 (.reg "a")), .showCall 1] s ∧
    ∃ i j, i < j ∧ τ[i]? = some ⟨0, .write .cur⟩ ∧ τ[j]? = some ⟨1, .read .cur⟩ ∧ ¬ Precedes τ i j := by
  have h := Runs.start (step := TStep) (s₀ := St.init)
  have h := h.next (.callReg _ 0 "a" rfl)
  have h := h.next (.callShow _ 1 rfl)
  have h := h.next (.regLock _ 0 "a" rfl rfl (fun _ => rfl))
  have h := h.next (.regTest _ 0 _ rfl)
  have h := h.next (.regLoad _ 0 "a" rfl)
  have h := h.next (.regStore _ 0 _ _ rfl)
  have h := h.next (.regIncLoad _ 0 _ rfl)
  have h := h.next (.regIncStore _ 0 _ _ rfl)
  have h := h.next (.showHead _ 1 rfl)
  refine ⟨_, _, h, 7, 8, by decide, rfl, rfl, first_alone rfl ?_ (fun m => ⟨by simp, by simp⟩)⟩
  decide

/-- C144_errors_partial: one goroutine registers while another one reads. -/
example : ∃ τ s, Runs TStep St.init τ [.obj (.call 0 (.reg "a")), .obj (.call 1 (.get 1001#32))] s ∧
    (⟨0, .write .cur⟩ : Did Var Unit) ∈ τ ∧ (⟨1, .read .cur⟩ : Did Var Unit) ∈ τ := by
  have h := Runs.start (step := TStep) (s₀ := St.init)
  have h := h.next (.callReg _ 0 "a" rfl)
  have h := h.next (.callGet _ 1 1001#32 rfl)
  have h := h.next (.regLock _ 0 "a" rfl rfl (fun _ => rfl))
  have h := h.next (.regTest _ 0 _ rfl)
  have h := h.next (.regLoad _ 0 "a" rfl)
  have h := h.next (.regStore _ 0 _ _ rfl)
  have h := h.next (.regIncLoad _ 0 _ rfl)
  have h := h.next (.regIncStore _ 0 _ _ rfl)
  have h := h.next (.regRes _ 0 rfl)
  have h := h.next (.regUnlock _ 0 _ _ rfl)
  have h := h.next (.getLock _ 1 1001#32 _ rfl rfl)
  have h := h.next (.getTest _ 1 _ _ rfl)
  exact ⟨_, _, h, by decide, by decide⟩

end Verif.ErrConc

namespace Verif.RegConc
open Verif.Spec
open Verif.Regable (World Rec Obj)

/-- C144: recording accesses changes nothing: the machine is that of C122. -/
theorem C144_values_machine {s s' : St} {e : Option (Ev Op Ret)} : Step s e s' ↔ ∃ t as, TStep s t as e s' := by
  constructor
  · intro h
    cases h with
    | call t op h h1 => exact ⟨_, _, .call s t op h h1⟩
    | find t op h => exact ⟨_, _, .find s t op h⟩
    | rlock t op p h h1 => exact ⟨_, _, .rlock s t op p h h1⟩
    | read t op p r h h1 h2 => exact ⟨_, _, .read s t op p r h h1 h2⟩
    | readTorn t op p r h h1 => exact ⟨_, _, .readTorn s t op p r h h1⟩
    | runlock t p r h => exact ⟨_, _, .runlock s t p r h⟩
    | wlock t op p v h h1 h2 => exact ⟨_, _, .wlock s t op p v h h1 h2⟩
    | write t op p v h => exact ⟨_, _, .write s t op p v h⟩
    | writing t op p v w h h1 => exact ⟨_, _, .writing s t op p v w h h1⟩
    | wunlock t p r h => exact ⟨_, _, .wunlock s t p r h⟩
    | ret t r h => exact ⟨_, _, .ret s t r h⟩
  · rintro ⟨_, _, h⟩
    cases h with
    | call op h h1 => exact .call s _ op h h1
    | find op h => exact .find s _ op h
    | rlock op p h h1 => exact .rlock s _ op p h h1
    | read op p r h h1 h2 => exact .read s _ op p r h h1 h2
    | readTorn op p r h h1 => exact .readTorn s _ op p r h h1
    | runlock p r h => exact .runlock s _ p r h
    | wlock op p v h h1 h2 => exact .wlock s _ op p v h h1 h2
    | write op p v h => exact .write s _ op p v h
    | writing op p v w h h1 => exact .writing s _ op p v w h h1
    | wunlock p r h => exact .wunlock s _ p r h
    | ret r h => exact .ret s _ r h

/-- The lock of a record guards its value; nothing else is written. -/
def guard : Var → Option (Nat × Nat)
  | .val p => some p
  | _ => none

abbrev Ordered (τ : List (Did Var (Nat × Nat))) (s : St) : Prop := Orderly guard τ s.wl s.rl

theorem guard_reads {op : Op} {p m : Nat × Nat} {x : Var} (hx : x ∈ reads op p) (hg : guard x = some m) : m = p := by
  cases op <;> simp only [reads, List.mem_cons, List.not_mem_nil, or_false] at hx <;>
    first
      | (subst hx; simp [guard] at hg; exact hg.symm)
      | (rcases hx with rfl | rfl | rfl <;> simp [guard] at hg; exact hg.symm)
      | (subst hx; simp [guard] at hg)

theorem ordered_step {τ : List (Did Var (Nat × Nat))} {s s' : St} {t : Nat} {as : List VAct} {e : Option (Ev Op Ret)} (hi : Inv s)
    (ho : Ordered τ s) (hs : TStep s t as e s') : Ordered (τ ++ as.map (Did.mk t)) s' := by
  have hw : ∀ q p, s.pc t = q → HoldsW q = some p → s.wl p = some t := fun q p h1 h2 => (hi.wr p t).mpr (by rw [h1]; exact h2)
  have hr : ∀ q p, s.pc t = q → HoldsR q = some p → s.rl p t = true := fun q p h1 h2 => (hi.rd p t).mpr (by rw [h1]; exact h2)
  have hset : ∀ (p : Nat × Nat) (b : Bool) (n : Nat × Nat) (u : Nat), n ≠ p ∨ u ≠ t → upd s.rl p (setAt (s.rl p) t b) n u = s.rl n u := by
    intro p b n u h
    by_cases e : n = p
    · subst e
      rw [upd_same]
      have : u ≠ t := h.resolve_left (fun h => h rfl)
      simp [setAt, this]
    · rw [upd_ne _ _ _ _ e]
  cases hs with
  | call op h h1 => rw [List.map_nil, List.append_nil]; exact ho
  | find op h =>
    refine orderly_reads ho t (looks op) fun x hx m hg => ?_
    unfold looks at hx
    cases hop : op.ref with
    | id cp => rw [hop] at hx; simp at hx; subst hx; cases hg
    | obj o => rw [hop] at hx; simp at hx
  | rlock op p h h1 => exact orderly_rlock ho t p h1 (by simp [St.go, upd, setAt]) (hset p true)
  | read op p r h h1 h2 => exact orderly_reads ho t _ fun x hx m hg => .inr (by rw [guard_reads hx hg]; exact hr _ _ h rfl)
  | readTorn op p r h h1 => exact orderly_reads ho t _ fun x hx m hg => .inr (by rw [guard_reads hx hg]; exact hr _ _ h rfl)
  | runlock p r h => exact orderly_runlock ho t p (by simp [St.go, upd, setAt]) (hset p false)
  | wlock op p v h h1 h2 => exact orderly_lock ho t p h1 h2 (upd_same _ _ _) (fun n hn => upd_ne _ _ _ _ hn)
  | write op p v h => exact orderly_write ho t (.val p) p rfl (hw _ _ h rfl)
  | writing op p v w h h1 => exact orderly_write ho t (.val p) p rfl (hw _ _ h rfl)
  | wunlock p r h => exact orderly_unlock ho t p (hw _ _ h rfl) (upd_same _ _ _) (fun n hn => upd_ne _ _ _ _ hn)
  | ret r h => rw [List.map_nil, List.append_nil]; exact ho

/-- C144: after the registration, goroutines that call `Get`, `Set`, `Name`, `String` and `Oject` of registered values do not race. -/
theorem C144_values {es : List Regable.Ev} {w : World} (H : Regable.History es w) (hW : Regable.Within es)
    {τ : List (Did Var (Nat × Nat))} {σ : List (Ev Op Ret)} {s : St} (h : Runs TStep (St.init w) τ σ s) : NoRace τ := by
  have key : Ordered τ s := by
    induction h with
    | start => exact orderly_nil
    | next h hs ih =>
      obtain ⟨a, -, h1⟩ := sim_exec H hW (runs_exec (fun _ _ _ _ _ h => C144_values_machine.mpr ⟨_, _, h⟩) h)
      exact ordered_step h1.inv ih hs
  exact key.norace

/-- C144, false of the registration: two goroutines that register with one registrar race. -/
theorem C144_registration_race (me : Regable.Reger) :
    ∃ τ s, Runs RTStep ⟨me, fun _ => .idle⟩ τ [.call 0 ("a", 1#32), .call 1 ("b", 2#32)] s ∧
    ∃ i j, i < j ∧ τ[i]? = some ⟨0, .write .count⟩ ∧ τ[j]? = some ⟨1, .read .count⟩ ∧ ¬ Precedes τ i j := by
  have h := Runs.start (step := RTStep) (s₀ := ⟨me, fun _ => .idle⟩)
  have h := h.next (.call _ 0 "a" 1#32 rfl)
  have h := h.next (.call _ 1 "b" 2#32 rfl)
  have h := h.next (.incLoad _ 0 _ _ rfl)
  have h := h.next (.incRead _ 0 _ _ _ rfl)
  have h := h.next (.incStore _ 0 _ _ _ _ rfl)
  have h := h.next (.incLoad _ 1 _ _ rfl)
  refine ⟨_, _, h, 2, 3, by decide, rfl, rfl, first_alone rfl ?_ (fun m => ⟨by simp, by simp⟩)⟩
  decide

/-- C144: recording accesses changes nothing in the registration either. -/
theorem C144_registration_machine {s s' : RSt} {e : Option (Ev (String × BitVec 32) (BitVec 32))} : RStep s e s' ↔ ∃ t as, RTStep s t as e s' := by
  constructor
  · intro h
    cases h with
    | call t name val h => exact ⟨_, _, .call s t name val h⟩
    | incLoad t name val h => exact ⟨_, _, .incLoad s t name val h⟩
    | incRead t name val c h => exact ⟨_, _, .incRead s t name val c h⟩
    | incStore t name val c id h => exact ⟨_, _, .incStore s t name val c id h⟩
    | listLoad t r h => exact ⟨_, _, .listLoad s t r h⟩
    | listStore t r l h => exact ⟨_, _, .listStore s t r l h⟩
    | ret t id h => exact ⟨_, _, .ret s t id h⟩
  · rintro ⟨_, _, h⟩
    cases h with
    | call name val h => exact .call s _ name val h
    | incLoad name val h => exact .incLoad s _ name val h
    | incRead name val c h => exact .incRead s _ name val c h
    | incStore name val c id h => exact .incStore s _ name val c id h
    | listLoad r h => exact .listLoad s _ r h
    | listStore r l h => exact .listStore s _ r l h
    | ret id h => exact .ret s _ id h

/-- C144_values: one goroutine sets a value, another one reads it afterwards. -/
example : ∃ τ s, Runs TStep (St.init Regable.exWorld) τ [.call 0 (.set (.id 0x1000001#32) 9#32), .call 1 (.get (.obj (some (0, 0))))] s ∧
    (⟨0, .write (.val (0, 0))⟩ : Did Var (Nat × Nat)) ∈ τ ∧ (⟨1, .read (.val (0, 0))⟩ : Did Var (Nat × Nat)) ∈ τ := by
  have h := Runs.start (step := TStep) (s₀ := St.init Regable.exWorld)
  have h := h.next (.call _ 0 (.set (.id 0x1000001#32) 9#32) rfl trivial)
  have h := h.next (.call _ 1 (.get (.obj (some (0, 0)))) rfl ⟨_, rfl⟩)
  have h := h.next (.find _ 0 _ rfl)
  have h := h.next (.find _ 1 _ rfl)
  have h := h.next (.wlock _ 0 _ (0, 0) 9#32 rfl rfl (fun _ => rfl))
  have h := h.next (.write _ 0 _ (0, 0) 9#32 rfl)
  have h := h.next (.writing _ 0 _ (0, 0) 9#32 _ rfl rfl)
  have h := h.next (.wunlock _ 0 (0, 0) _ rfl)
  have h := h.next (.rlock _ 1 _ (0, 0) rfl rfl)
  have h := h.next (.read _ 1 _ (0, 0) _ rfl rfl rfl)
  exact ⟨_, _, h, by decide, by decide⟩

end Verif.RegConc

namespace Verif.FileLock
open Verif.Spec
variable {eacces : Bool} {exist : String → Prop}

/-- C144: recording accesses changes nothing: the machine is that of C94. -/
theorem C144_filelock_machine {s s' : St} {e : Option Event} : Step eacces exist s e s' ↔ ∃ t as, TStep eacces exist s t as e s' := by
  constructor
  · intro h
    cases h with
    | call t m op h => exact ⟨_, _, .call s t m op h⟩
    | enter t m op h h1 => exact ⟨_, _, .enter s t m op h h1⟩
    | init t m p h => exact ⟨_, _, .init s t m p h⟩
    | acquire t m h h1 h2 h3 => exact ⟨_, _, .acquire s t m h h1 h2 h3⟩
    | missing t m h h1 => exact ⟨_, _, .missing s t m h h1⟩
    | busy t m h h1 h2 h3 h4 => exact ⟨_, _, .busy s t m h h1 h2 h3 h4⟩
    | sleep t m h h1 h2 h3 h4 => exact ⟨_, _, .sleep s t m h h1 h2 h3 h4⟩
    | wake t m h => exact ⟨_, _, .wake s t m h⟩
    | unlock t m h => exact ⟨_, _, .unlock s t m h⟩
    | envOpen p h => exact ⟨_, _, .envOpen s 0 p h⟩
    | envClose p n h h1 => exact ⟨_, _, .envClose s 0 p n h h1⟩
  · rintro ⟨_, _, h⟩
    cases h with
    | call m op h => exact .call s _ m op h
    | enter m op h h1 => exact .enter s _ m op h h1
    | init m p h => exact .init s _ m p h
    | acquire m h h1 h2 h3 => exact .acquire s _ m h h1 h2 h3
    | missing m h h1 => exact .missing s _ m h h1
    | busy m h h1 h2 h3 h4 => exact .busy s _ m h h1 h2 h3 h4
    | sleep m h h1 h2 h3 h4 => exact .sleep s _ m h h1 h2 h3 h4
    | wake m h => exact .wake s _ m h
    | unlock m h => exact .unlock s _ m h
    | envOpen p h => exact .envOpen s p h
    | envClose p n h h1 => exact .envClose s p n h h1

/-- The inner mutex guards the fields. -/
def guard : Var → Option Nat
  | .path m => some m
  | .h m => some m

abbrev Ordered (τ : List (Did Var Nat)) (s : St) : Prop := Orderly guard τ s.w (fun _ _ => false)

theorem ordered_step {τ : List (Did Var Nat)} {s s' : St} {t : Nat} {as : List FAct} {e : Option Event} (hi : WInv s)
    (ho : Ordered τ s) (hs : TStep eacces exist s t as e s') : Ordered (τ ++ as.map (Did.mk t)) s' := by
  have hw : ∀ m op, s.pc t = .inside m op → s.w m = some t := fun m op h => hi t m (.inl ⟨op, h⟩)
  have rd : ∀ {τ} m op, s.pc t = .inside m op → Ordered τ s → ∀ x, guard x = some m → Ordered (τ ++ [⟨t, .read x⟩]) s := by
    intro τ m op h ho x hx
    refine orderly_read ho t x fun n hn => .inl ?_
    rw [hx] at hn; cases hn
    exact hw m op h
  have wr : ∀ {τ} m op, s.pc t = .inside m op → Ordered τ s → ∀ x, guard x = some m → Ordered (τ ++ [⟨t, .write x⟩]) s :=
    fun m op h ho x hx => orderly_write ho t x m hx (hw m op h)
  have ul : ∀ {τ} m op, s.pc t = .inside m op → Ordered τ s → ∀ s₁ : St, s₁.w = s.w → Ordered (τ ++ [⟨t, .unlock m⟩]) (s₁.done t m) := by
    intro τ m op h ho s₁ h1
    refine orderly_unlock ho t m (hw m op h) ?_ fun n hn => ?_
    · simp [St.done, setAt]
    · simp [St.done, setAt, hn, h1]
  cases hs with
  | call m op h => rw [List.map_nil, List.append_nil]; exact ho
  | enter m op h h1 =>
    refine orderly_lock ho t m h1 (fun _ => rfl) ?_ fun n hn => ?_
    · simp [setAt]
    · simp [setAt, hn]
  | init m p h =>
    have h1 := rd m _ h ho (.path m) rfl
    by_cases he : s.path m = ""
    · have h2 := ul m _ h (wr m _ h h1 (.path m) rfl) { s with path := setAt s.path m (if s.path m = "" then p else s.path m) } rfl
      simpa [he] using h2
    · have h2 := ul m _ h h1 { s with path := setAt s.path m (if s.path m = "" then p else s.path m) } rfl
      simpa [he] using h2
  | acquire m h h1 h2 h3 =>
    have h4 := ul m _ h (wr m _ h (rd m _ h ho (.path m) rfl) (.h m) rfl)
      { s with h := setAt s.h m s.next, opened := setKey s.opened (s.path m) (some s.next), next := s.next + 1 } rfl
    simpa using h4
  | missing m h h1 =>
    have h4 := ul m _ h (rd m _ h ho (.path m) rfl) s rfl
    simpa using h4
  | busy m h h1 h2 h3 h5 =>
    have h4 := ul m _ h (rd m _ h ho (.path m) rfl) s rfl
    simpa using h4
  | sleep m h h1 h2 h3 h5 => exact rd m _ h ho (.path m) rfl
  | wake m h => rw [List.map_nil, List.append_nil]; exact ho
  | unlock m h =>
    have h4 := ul m _ h (wr m _ h (rd m _ h ho (.h m) rfl) (.h m) rfl)
      { s with h := setAt s.h m 0, opened := closeHandle s.opened (s.h m) } rfl
    simpa using h4
  | envOpen p h => rw [List.map_nil, List.append_nil]; exact ho
  | envClose p n h h1 => rw [List.map_nil, List.append_nil]; exact ho

/-- C144: goroutines that call `Init`, `Lock` and `Unlock` of file mutexes do not race. -/
theorem C144_filelock {τ : List (Did Var Nat)} {σ : List Event} {s : St} (h : Runs (TStep eacces exist) St.start τ σ s) : NoRace τ := by
  have key : Ordered τ s := by
    induction h with
    | start => exact orderly_nil
    | next h hs ih =>
      exact ordered_step (winv_exec (runs_exec (fun _ _ _ _ _ h => C144_filelock_machine.mpr ⟨_, _, h⟩) h)) ih hs
  exact key.norace

/-- C144_filelock: one goroutine initialises a mutex and locks it, another one unlocks it. -/
example : ∃ τ s, Runs (TStep true (fun p => p = "f")) St.start τ [.inited 0 0 true, .acquired 0 0 "f", .released 1 0] s ∧
    (⟨0, .write (.h 0)⟩ : Did Var Nat) ∈ τ ∧ (⟨1, .write (.h 0)⟩ : Did Var Nat) ∈ τ := by
  have h := Runs.start (step := TStep true (fun p => p = "f")) (s₀ := St.start)
  have h := h.next (.call _ 0 0 (.init "f") rfl)
  have h := h.next (.enter _ 0 0 (.init "f") rfl rfl)
  have h := h.next (.init _ 0 0 "f" rfl)
  have h := h.next (.call _ 0 0 .lock rfl)
  have h := h.next (.enter _ 0 0 .lock rfl rfl)
  have h := h.next (.acquire _ 0 0 rfl rfl (by decide) rfl)
  have h := h.next (.call _ 1 0 .unlock rfl)
  have h := h.next (.enter _ 1 0 .unlock rfl rfl)
  have h := h.next (.unlock _ 1 0 rfl)
  exact ⟨_, _, h, by decide, by decide⟩

end Verif.FileLock
