import Verif.Model.WorkDirConc
import Verif.Props.WorkDir
import Verif.Props.LockRace
/-!
# C162: the working directory with many goroutines
-/

set_option linter.unusedSectionVars false

namespace Verif.Spec

/-- The text is an absolute path of the directory. -/
def PathOf (d : List Str) (s : Str) : Prop := rooted s = true ∧ ∀ cwd, resolve cwd s = d

/-- How many calls of `Chdir` began. -/
def begun (σ : List WorkDir.Event) : Nat := σ.countP fun e => match e with | .chdirCall _ _ => true | _ => false

/-- How many calls of `Chdir` ended. -/
def ended (σ : List WorkDir.Event) : Nat := σ.countP fun e => match e with | .chdirRet _ _ => true | _ => false

/-- No two calls of `Chdir` overlap: at every moment at most one has begun and not ended. -/
def OneByOne (σ : List WorkDir.Event) : Prop := ∀ τ, τ <+: σ → begun τ ≤ ended τ + 1

/-- Executions, with all working directories that the process had, the last one first. -/
inductive Lives (O : WorkDir.Os) (s₀ : WorkDir.CSt) : List (List Str) → List WorkDir.Event → WorkDir.CSt → Prop
  | start : Lives O s₀ [s₀.proc.cwd] [] s₀
  | next {ds : List (List Str)} {σ : List WorkDir.Event} {s s' : WorkDir.CSt} {t : Nat} {as : List (Act Unit Empty)}
      {e : Option WorkDir.Event} :
    Lives O s₀ ds σ s → WorkDir.CStep O s t as e s' → Lives O s₀ (s'.proc.cwd :: ds) (σ ++ e.toList) s'

end Verif.Spec

namespace Verif.WorkDir
open Verif.Spec Verif.Path

variable {O : Os}

theorem go_self (s : CSt) (t : Nat) (p : Pc) : (s.go t p).pc t = p := if_pos rfl

theorem go_other (s : CSt) {t u : Nat} (p : Pc) (h : u ≠ t) : (s.go t p).pc u = s.pc u := if_neg h

/-- Goroutine is in `Chdir`. -/
def Pc.inside : Pc → Bool
  | .enter _ | .getwd | .store _ | .ret _ => true
  | _ => false

/-- What holds while one goroutine, at this place, is in `Chdir`. -/
def Told (p : Proc) : Pc → Prop
  | .getwd => True
  | .store x => PathOf p.cwd x
  | .ret .panic => True
  | _ => PathOf p.cwd p.gWorkPath

/-- The invariant of executions in which calls of `Chdir` do not overlap. -/
structure Inv (σ : List Event) (s : CSt) : Prop where
  le : ended σ ≤ begun σ
  none : begun σ = ended σ → (∀ t, (s.pc t).inside = false) ∧ PathOf s.proc.cwd s.proc.gWorkPath
  one : begun σ = ended σ + 1 → ∃ t, (s.pc t).inside = true ∧ (∀ u, u ≠ t → (s.pc u).inside = false) ∧ Told s.proc (s.pc t)

theorem counts_append (σ ρ : List Event) : begun (σ ++ ρ) = begun σ + begun ρ ∧ ended (σ ++ ρ) = ended σ + ended ρ :=
  ⟨List.countP_append, List.countP_append⟩

/-- A step of the one goroutine that is in `Chdir`, which stays there. -/
theorem inv_in {σ : List Event} {s s' : CSt} {t : Nat} {p : Pc} (hi : Inv σ s) (ht : (s.pc t).inside = true)
    (hp : p.inside = true) (hpc : s'.pc = (s.go t p).pc) (hd : Told s.proc (s.pc t) → Told s'.proc p) : Inv σ s' := by
  have hne : begun σ ≠ ended σ := fun h => by rw [(hi.none h).1 t] at ht; cases ht
  refine ⟨hi.le, fun h => absurd h hne, fun h => ?_⟩
  obtain ⟨u, h1, h2, h3⟩ := hi.one h
  have : u = t := by
    by_contra hn
    rw [h2 t (fun e => hn e.symm)] at ht
    cases ht
  subst this
  refine ⟨u, ?_, fun v hv => ?_, ?_⟩
  · rw [hpc, go_self]; exact hp
  · rw [hpc, go_other _ _ hv]; exact h2 v hv
  · rw [hpc, go_self]; exact hd h3

/-- A step of a goroutine that is not in `Chdir`. -/
theorem inv_out {σ : List Event} {s s' : CSt} {t : Nat} {p : Pc} (hi : Inv σ s) (ht : (s.pc t).inside = false)
    (hp : p.inside = false) (hs : s' = s.go t p) : Inv σ s' := by
  subst hs
  have key : ∀ u, ((s.go t p).pc u).inside = (s.pc u).inside := by
    intro u
    by_cases h : u = t
    · subst h; rw [go_self, hp, ht]
    · rw [go_other _ _ h]
  refine ⟨hi.le, fun h => ⟨fun u => (key u).trans ((hi.none h).1 u), (hi.none h).2⟩, fun h => ?_⟩
  obtain ⟨u, h1, h2, h3⟩ := hi.one h
  have hu : u ≠ t := fun e => by rw [e, ht] at h1; cases h1
  exact ⟨u, (key u).trans h1, fun v hv => (key v).trans (h2 v hv), by rw [go_other _ _ hu]; exact h3⟩

theorem inv_run {st : Proc} (h0 : PathOf st.cwd st.gWorkPath) {τ : List (Did Unit Empty)} {σ : List Event} {s : CSt}
    (h : Runs (CStep O) (CSt.quiet st) τ σ s) (h1 : OneByOne σ) (h2 : ∀ t, Event.chdirRet t .panic ∉ σ) : Inv σ s := by
  induction h with
  | start => exact ⟨Nat.le_refl _, fun _ => ⟨fun _ => rfl, h0⟩, fun h => by cases h⟩
  | @next τ σ s s' t as e hr hs ih =>
    have hi : Inv σ s := ih (fun ρ hρ => h1 ρ (hρ.trans (List.prefix_append _ _))) (fun u hm => h2 u (List.mem_append_left _ hm))
    have hb : begun σ ≤ ended σ + 1 := h1 σ (List.prefix_append _ _)
    have hb' := h1 _ (List.prefix_refl _)
    cases hs with
    | callChdir p h =>
      obtain ⟨c1, c2⟩ := counts_append σ [Event.chdirCall t p]
      have d1 : begun [Event.chdirCall t p] = 1 := rfl
      have d2 : ended [Event.chdirCall t p] = 0 := rfl
      simp only [Option.toList_some] at hb' ⊢
      have hle := hi.le
      have heq : begun σ = ended σ := by omega
      obtain ⟨n1, n2⟩ := hi.none heq
      refine ⟨by omega, fun h => by omega, fun _ => ⟨t, ?_, fun u hu => ?_, ?_⟩⟩
      · rw [go_self]; rfl
      · rw [go_other _ _ hu]; exact n1 u
      · rw [go_self]; exact n2
    | enter p h hE =>
      simp only [Option.toList_none, List.append_nil] at hb' ⊢
      exact inv_in hi (by rw [h]; rfl) (p := .getwd) rfl rfl (fun _ => trivial)
    | enterErr p h hE =>
      simp only [Option.toList_none, List.append_nil] at hb' ⊢
      exact inv_in hi (by rw [h]; rfl) (p := .ret .err) rfl rfl (fun hd => by rw [h] at hd; exact hd)
    | getwd x h hg =>
      simp only [Option.toList_none, List.append_nil] at hb' ⊢
      exact inv_in hi (by rw [h]; rfl) (p := .store x) rfl rfl (fun _ => O.getwd_law _ _ _ hg)
    | getwdPanic h hg =>
      simp only [Option.toList_none, List.append_nil] at hb' ⊢
      exact inv_in hi (by rw [h]; rfl) (p := .ret .panic) rfl rfl (fun _ => trivial)
    | store x h =>
      simp only [Option.toList_none, List.append_nil] at hb' ⊢
      exact inv_in hi (by rw [h]; rfl) (p := .ret .nil) rfl rfl (fun hd => by rw [h] at hd; exact hd)
    | ret o h =>
      obtain ⟨c1, c2⟩ := counts_append σ [Event.chdirRet t o]
      have d1 : begun [Event.chdirRet t o] = 0 := rfl
      have d2 : ended [Event.chdirRet t o] = 1 := rfl
      simp only [Option.toList_some] at hb' h2 ⊢
      have hin : (s.pc t).inside = true := by rw [h]; rfl
      have hle := hi.le
      have hne : begun σ ≠ ended σ := fun e => by rw [(hi.none e).1 t] at hin; cases hin
      obtain ⟨u, a1, a2, a3⟩ := hi.one (by omega)
      have hu : u = t := by
        by_contra hn
        rw [a2 t (fun e => hn e.symm)] at hin
        cases hin
      subst hu
      rw [h] at a3
      refine ⟨by omega, fun _ => ⟨fun v => ?_, ?_⟩, fun h => by omega⟩
      · by_cases hv : v = u
        · subst hv; rw [go_self]; rfl
        · rw [go_other _ _ hv]; exact a2 v hv
      · cases o with
        | nil => exact a3
        | err => exact a3
        | panic => exact absurd (by simp) (h2 u)
    | callPath h =>
      have c := counts_append σ [Event.pathCall t]
      have hi' := inv_out hi (by rw [h]; rfl) (p := .load) rfl rfl
      exact ⟨by rw [Option.toList_some, c.1, c.2]; exact hi'.le, fun e => hi'.none (by rw [Option.toList_some, c.1, c.2] at e; exact e),
        fun e => hi'.one (by rw [Option.toList_some, c.1, c.2] at e; exact e)⟩
    | load h =>
      simp only [Option.toList_none, List.append_nil] at hb' ⊢
      exact inv_out hi (by rw [h]; rfl) (p := .retPath s.proc.gWorkPath) rfl rfl
    | retPath x h =>
      have c := counts_append σ [Event.pathRet t x]
      have hi' := inv_out hi (by rw [h]; rfl) (p := .idle) rfl rfl
      exact ⟨by rw [Option.toList_some, c.1, c.2]; exact hi'.le, fun e => hi'.none (by rw [Option.toList_some, c.1, c.2] at e; exact e),
        fun e => hi'.one (by rw [Option.toList_some, c.1, c.2] at e; exact e)⟩

/-- Full statement: while no call of `Chdir` is going on, `WorkPath` is the path of the working directory.  Proved if no two calls of `Chdir`
overlap and none panics; with calls that overlap it is false (`C162_stale_false`). -/
theorem C162_workpath_partial {d : List Str} {st : Proc} (h0 : start O d = .ok st) {τ : List (Did Unit Empty)} {σ : List Event} {s : CSt}
    (h : Runs (CStep O) (CSt.quiet st) τ σ s) (h1 : OneByOne σ) (h2 : ∀ t, Event.chdirRet t .panic ∉ σ) (h3 : begun σ = ended σ) :
    PathOf s.proc.cwd (getWorkPath s.proc) := by
  obtain ⟨a, b, c⟩ := start_spec O d st h0
  exact ((inv_run ⟨b, by rw [a]; exact c⟩ h h1 h2).none h3).2

/-- With any goroutines and calls, what `WorkPath` returns is an absolute path of a directory that was the working directory at some time. -/
theorem C162_past {d : List Str} {st : Proc} (h0 : start O d = .ok st) {ds : List (List Str)} {σ : List Event} {s : CSt}
    (h : Lives O (CSt.quiet st) ds σ s) {t : Nat} {x : Str} (hx : Event.pathRet t x ∈ σ) : ∃ d ∈ ds, PathOf d x := by
  obtain ⟨a, b, c⟩ := start_spec O d st h0
  have key : (∃ d ∈ ds, PathOf d s.proc.gWorkPath) ∧ s.proc.cwd ∈ ds ∧ (∀ t x, s.pc t = .store x ∨ s.pc t = .retPath x → ∃ d ∈ ds, PathOf d x) ∧
      ∀ t x, Event.pathRet t x ∈ σ → ∃ d ∈ ds, PathOf d x := by
    clear hx
    induction h with
    | start => exact ⟨⟨_, List.mem_singleton.2 rfl, b, by intro cwd; rw [show (CSt.quiet st).proc.cwd = d from a]; exact c cwd⟩, by simp, by simp [CSt.quiet], by simp⟩
    | @next ds σ s s' t as e hr hs ih =>
      obtain ⟨⟨d1, i1, i1'⟩, i2, i3, i4⟩ := ih
      have up : ∀ {x d'}, (∃ d ∈ ds, PathOf d x) → ∃ d ∈ (d' :: ds : List (List Str)), PathOf d x :=
        fun ⟨d, h1, h2⟩ => ⟨d, List.mem_cons_of_mem _ h1, h2⟩
      have hpc : ∀ (s1 : CSt) (p : Pc), s1.pc = s.pc → (∀ x, p = .store x ∨ p = .retPath x → ∃ d ∈ ds, PathOf d x) →
          ∀ u x, (s1.go t p).pc u = .store x ∨ (s1.go t p).pc u = .retPath x → ∃ d ∈ ds, PathOf d x := by
        intro s1 p hs1 hp u x hu
        by_cases h : u = t
        · subst h; rw [go_self] at hu; exact hp x hu
        · rw [go_other _ _ h, hs1] at hu; exact i3 u x hu
      have old : ∀ e : Event, (∀ u x, e ≠ .pathRet u x) → ∀ u x, Event.pathRet u x ∈ σ ++ [e] → ∃ d ∈ ds, PathOf d x := by
        intro e he u x hm
        rcases List.mem_append.1 hm with hm | hm
        · exact i4 u x hm
        · exact absurd (List.mem_singleton.1 hm).symm (he u x)
      have hg := up (d' := s'.proc.cwd) ⟨d1, i1, i1'⟩
      refine ⟨?_, List.mem_cons_self .., ?_, ?_⟩
      · cases hs with
        | store x h => exact up (i3 t x (.inl h))
        | _ => exact hg
      · intro u x hu
        refine up ?_
        revert u x
        cases hs with
        | callChdir p h => exact hpc s _ rfl (by simp)
        | enter p h hE => exact hpc _ _ rfl (by simp)
        | enterErr p h hE => exact hpc _ _ rfl (by simp)
        | getwd y h hw =>
          refine hpc s _ rfl ?_
          rintro x (hx | hx)
          · cases hx; exact ⟨_, i2, O.getwd_law _ _ _ hw⟩
          · cases hx
        | getwdPanic h hg => exact hpc s _ rfl (by simp)
        | store y h => exact hpc _ _ rfl (by simp)
        | ret o h => exact hpc s _ rfl (by simp)
        | callPath h => exact hpc s _ rfl (by simp)
        | load h =>
          refine hpc s _ rfl ?_
          rintro x (hx | hx)
          · cases hx
          · cases hx; exact ⟨d1, i1, i1'⟩
        | retPath y h => exact hpc s _ rfl (by simp)
      · intro u x hu
        refine up ?_
        revert u x
        cases hs with
        | callChdir p h => exact old _ (by simp)
        | ret o h => exact old _ (by simp)
        | callPath h => exact old _ (by simp)
        | retPath y h =>
          intro u x hm
          rcases List.mem_append.1 hm with hm | hm
          · exact i4 u x hm
          · obtain ⟨-, rfl⟩ := Event.pathRet.inj (List.mem_singleton.1 hm)
            exact i3 t _ (.inr h)
        | _ => intro u x hm; exact i4 u x (by simpa using hm)
  exact key.2.2.2 t x hx

/-- One goroutine alone: `Chdir` is that of C116. -/
theorem C162_alone (st : Proc) (t : Nat) (p : Str) : ∃ τ, Runs (CStep O) (CSt.quiet st) τ
    [.chdirCall t p, .chdirRet t (chdir O st p).2] (CSt.quiet (chdir O st p).1) := by
  have hq : ∀ (s : CSt) (p' : Proc), s.proc = p' → s.pc t = .idle → (∀ u, u ≠ t → s.pc u = .idle) → s = CSt.quiet p' := by
    rintro ⟨pr, pc⟩ p' rfl h1 h2
    have : pc = fun _ => Pc.idle := by
      funext u
      by_cases h : u = t
      · rw [h]; exact h1
      · exact h2 u h
    rw [this]; rfl
  have h := Runs.start (step := CStep O) (s₀ := CSt.quiet st)
  have h := h.next (.callChdir _ t p rfl)
  cases hE : O.enter (st.time + 1) (resolve st.cwd (filePath p)) with
  | false =>
    have h := h.next (.enterErr _ t p (go_self ..) hE)
    have h := h.next (.ret _ t .err (go_self ..))
    rw [hq _ ⟨st.cwd, st.gWorkPath, st.time + 1⟩ rfl (go_self ..) (fun u hu => by
      rw [go_other _ _ hu, go_other _ _ hu]; exact go_other _ _ hu)] at h
    have hc : chdir O st p = (⟨st.cwd, st.gWorkPath, st.time + 1⟩, .err) := by simp [chdir, hE]
    rw [hc]
    exact ⟨_, h⟩
  | true =>
    have h := h.next (.enter _ t p (go_self ..) hE)
    cases hg : O.getwd (st.time + 1) (resolve st.cwd (filePath p)) with
    | none =>
      have h := h.next (.getwdPanic _ t (go_self ..) hg)
      have h := h.next (.ret _ t .panic (go_self ..))
      rw [hq _ ⟨resolve st.cwd (filePath p), st.gWorkPath, st.time + 1⟩ rfl (go_self ..) (fun u hu => by
        rw [go_other _ _ hu, go_other _ _ hu, go_other _ _ hu]; exact go_other _ _ hu)] at h
      have hc : chdir O st p = (⟨resolve st.cwd (filePath p), st.gWorkPath, st.time + 1⟩, .panic) := by simp [chdir, workPath, hE, hg]
      rw [hc]
      exact ⟨_, h⟩
    | some x =>
      have h := h.next (.getwd _ t x (go_self ..) hg)
      have h := h.next (.store _ t x (go_self ..))
      have h := h.next (.ret _ t .nil (go_self ..))
      rw [hq _ ⟨resolve st.cwd (filePath p), x, st.time + 1⟩ rfl (go_self ..) (fun u hu => by
        rw [go_other _ _ hu, go_other _ _ hu]
        show (CSt.go _ _ _).pc u = _
        rw [go_other _ _ hu, go_other _ _ hu]; exact go_other _ _ hu)] at h
      have hc : chdir O st p = (⟨resolve st.cwd (filePath p), x, st.time + 1⟩, .nil) := by simp [chdir, workPath, hE, hg]
      rw [hc]
      exact ⟨_, h⟩

/-- Two calls of `Chdir` that overlap, both with the result nil: after that, and until the next call, `WorkPath` is not the working directory. -/
theorem C162_stale_false : ∃ τ s, Runs (CStep someOs) (CSt.quiet ⟨[], "/".toList, 0⟩) τ
      [.chdirCall 0 "/a".toList, .chdirCall 1 "/b".toList, .chdirRet 1 .nil, .chdirRet 0 .nil] s ∧
    (∀ t, s.pc t = .idle) ∧ s.proc.cwd = ["b".toList] ∧ getWorkPath s.proc = "/a".toList := by
  have h := Runs.start (step := CStep someOs) (s₀ := CSt.quiet ⟨[], "/".toList, 0⟩)
  have h := h.next (.callChdir _ 0 "/a".toList rfl)
  have h := h.next (.callChdir _ 1 "/b".toList rfl)
  have h := h.next (.enter _ 0 "/a".toList rfl (by decide +kernel))
  have h := h.next (.getwd _ 0 "/a".toList rfl (by decide +kernel))
  have h := h.next (.enter _ 1 "/b".toList rfl (by decide +kernel))
  have h := h.next (.getwd _ 1 "/b".toList rfl (by decide +kernel))
  have h := h.next (.store _ 1 _ rfl)
  have h := h.next (.store _ 0 _ rfl)
  have h := h.next (.ret _ 1 _ rfl)
  have h := h.next (.ret _ 0 _ rfl)
  refine ⟨_, _, h, fun t => ?_, by decide +kernel, rfl⟩
  by_cases h0 : t = 0
  · subst h0; rfl
  · by_cases h1 : t = 1
    · subst h1; rfl
    · simp [CSt.go, CSt.quiet, h0, h1]

/-- `WorkPath` in one goroutine and `Chdir` in another race. -/
theorem C162_race : ∃ τ s, Runs (CStep someOs) (CSt.quiet ⟨[], "/".toList, 0⟩) τ [.chdirCall 0 "/a".toList, .pathCall 1] s ∧
    ∃ i j, i < j ∧ τ[i]? = some ⟨0, .write ()⟩ ∧ τ[j]? = some ⟨1, .read ()⟩ ∧ ¬ Precedes τ i j := by
  have h := Runs.start (step := CStep someOs) (s₀ := CSt.quiet ⟨[], "/".toList, 0⟩)
  have h := h.next (.callChdir _ 0 "/a".toList rfl)
  have h := h.next (.callPath _ 1 rfl)
  have h := h.next (.enter _ 0 "/a".toList rfl (by decide +kernel))
  have h := h.next (.getwd _ 0 "/a".toList rfl (by decide +kernel))
  have h := h.next (.store _ 0 _ rfl)
  have h := h.next (.load _ 1 rfl)
  refine ⟨_, _, h, 0, 1, by decide, rfl, rfl, first_alone rfl ?_ (fun m => m.elim)⟩
  decide

/-- C162_workpath_partial: the hypotheses, for one call by one goroutine and a call of another after it. -/
example : start someOs [] = .ok ⟨[], "/".toList, 0⟩ ∧
    OneByOne [.chdirCall 0 "/a".toList, .chdirRet 0 .nil, .pathCall 2, .chdirCall 1 "b".toList, .chdirRet 1 .nil] := by
  refine ⟨by decide +kernel, fun τ h => ?_⟩
  rw [← List.mem_inits] at h
  revert h
  revert τ
  decide +kernel

/-- C162_past: the hypotheses, for a path that is returned after the directory was left. -/
example : start someOs [] = .ok ⟨[], "/".toList, 0⟩ ∧ ∃ ds s, Lives someOs (CSt.quiet ⟨[], "/".toList, 0⟩) ds
      [.chdirCall 0 "/a".toList, .pathCall 1, .pathRet 1 "/".toList] s ∧ s.proc.cwd = ["a".toList] := by
  refine ⟨by decide +kernel, ?_⟩
  have h := Lives.start (O := someOs) (s₀ := CSt.quiet ⟨[], "/".toList, 0⟩)
  have h := h.next (.callChdir _ 0 "/a".toList rfl)
  have h := h.next (.enter _ 0 "/a".toList rfl (by decide +kernel))
  have h := h.next (.callPath _ 1 rfl)
  have h := h.next (.load _ 1 rfl)
  have h := h.next (.retPath _ 1 _ rfl)
  exact ⟨_, _, h, by decide +kernel⟩

end Verif.WorkDir
