import Verif.Spec.LockRace
import Mathlib.Tactic.ByContra
import Mathlib.Tactic.SplitIfs
/-!
# Data guarded by mutexes: the invariant of all executions
-/

namespace Verif.Spec
variable {L M : Type}

theorem did_lt {τ : List (Did L M)} {i : Nat} {a : Did L M} (h : τ[i]? = some a) : i < τ.length :=
  (List.getElem?_eq_some_iff.mp h).1

theorem did_append {τ : List (Did L M)} {i : Nat} {a : Did L M} (h : τ[i]? = some a) (σ : List (Did L M)) : (τ ++ σ)[i]? = some a := by
  rw [List.getElem?_append_left (did_lt h)]; exact h

theorem did_last (τ : List (Did L M)) (a : Did L M) : (τ ++ [a])[τ.length]? = some a := by simp

theorem did_cases {τ : List (Did L M)} {a b : Did L M} {i : Nat} (h : (τ ++ [a])[i]? = some b) : τ[i]? = some b ∨ (i = τ.length ∧ b = a) := by
  by_cases hi : i < τ.length
  · left; rwa [List.getElem?_append_left hi] at h
  · have := did_lt h
    simp at this
    have e : i = τ.length := by omega
    subst e
    rw [did_last] at h
    exact .inr ⟨rfl, (Option.some.inj h).symm⟩

theorem precedes_mono {τ : List (Did L M)} {i j : Nat} (h : Precedes τ i j) (a : Did L M) : Precedes (τ ++ [a]) i j := by
  have edge : ∀ i j, Before τ i j ∨ Hands τ i j → Before (τ ++ [a]) i j ∨ Hands (τ ++ [a]) i j := by
    rintro i j (⟨h, a, b, ha, hb, e⟩ | ⟨h, m, a, b, ha, hb, e, hc⟩)
    · exact .inl ⟨h, a, b, did_append ha _, did_append hb _, e⟩
    · refine .inr ⟨h, m, a, b, did_append ha _, did_append hb _, e, fun k c h1 h2 hk => ?_⟩
      rw [List.getElem?_append_left (by have := did_lt hb; omega)] at hk
      exact hc k c h1 h2 hk
  induction h with
  | single h => exact .single (edge _ _ h)
  | tail _ h ih => exact .tail ih (edge _ _ h)

/-- Action `i` is known to goroutine `t`: it happens before the next action of `t`. -/
def Knows (τ : List (Did L M)) (t i : Nat) : Prop := ∃ j b, τ[j]? = some b ∧ b.t = t ∧ (i = j ∨ Precedes τ i j)

theorem knows_mono {τ : List (Did L M)} {t i : Nat} (h : Knows τ t i) (a : Did L M) : Knows (τ ++ [a]) t i := by
  obtain ⟨j, b, hb, e, h⟩ := h
  exact ⟨j, b, did_append hb _, e, h.imp_right fun h => precedes_mono h a⟩

theorem knows_precedes {τ : List (Did L M)} {a : Did L M} {i : Nat} (h : Knows τ a.t i) : Precedes (τ ++ [a]) i τ.length := by
  obtain ⟨j, b, hb, e, h⟩ := h
  have hs : Before (τ ++ [a]) j τ.length := ⟨did_lt hb, b, a, did_append hb _, did_last τ a, e⟩
  rcases h with rfl | h
  · exact .single (.inl hs)
  · exact .tail (precedes_mono h a) (.inl hs)

theorem knows_self (τ : List (Did L M)) (a : Did L M) : Knows (τ ++ [a]) a.t τ.length :=
  ⟨_, a, did_last τ a, rfl, .inl rfl⟩

theorem knows_of_precedes {τ : List (Did L M)} {a : Did L M} {i : Nat} (h : Precedes (τ ++ [a]) i τ.length) : Knows (τ ++ [a]) a.t i :=
  ⟨_, a, did_last τ a, rfl, .inr h⟩

/-- Action `i` happens before an `Unlock` (if `w`), or also an `RUnlock`, of `m` with no `Lock` after it. -/
def Freed (τ : List (Did L M)) (m : M) (w : Bool) (i : Nat) : Prop :=
  ∃ j b, τ[j]? = some b ∧ (b.act = .unlock m ∨ (w = false ∧ b.act = .runlock m)) ∧ Precedes τ i j ∧
    ∀ k c, j < k → τ[k]? = some c → c.act ≠ .lock m

theorem freed_mono {τ : List (Did L M)} {m : M} {w : Bool} {i : Nat} (h : Freed τ m w i) {a : Did L M} (ha : a.act ≠ .lock m) :
    Freed (τ ++ [a]) m w i := by
  obtain ⟨j, b, hb, hr, h, hk⟩ := h
  refine ⟨j, b, did_append hb _, hr, precedes_mono h a, fun k c h1 hc => ?_⟩
  rcases did_cases hc with hc | ⟨_, rfl⟩
  · exact hk k c h1 hc
  · exact ha

theorem freed_weaken {τ : List (Did L M)} {m : M} {w : Bool} {i : Nat} (h : Freed τ m true i) : Freed τ m w i := by
  obtain ⟨j, b, hb, hr, h⟩ := h
  exact ⟨j, b, hb, .inl (hr.resolve_right (by simp)), h⟩

theorem freed_lock {τ : List (Did L M)} {m : M} {w : Bool} {i t : Nat} (h : Freed τ m w i) : Knows (τ ++ [⟨t, .lock m⟩]) t i := by
  obtain ⟨j, b, hb, hr, h, hk⟩ := h
  refine knows_of_precedes (a := ⟨t, .lock m⟩) (.tail (precedes_mono h _) (.inr ⟨did_lt hb, m, b, _, did_append hb _, did_last _ _, ?_, fun k c h1 h2 hc => ?_⟩))
  · rcases hr with hr | ⟨_, hr⟩
    · exact .inl ⟨hr, .inl rfl⟩
    · exact .inr ⟨hr, rfl⟩
  · rw [List.getElem?_append_left h2] at hc
    exact hk k c h1 hc

theorem freed_rlock {τ : List (Did L M)} {m : M} {i t : Nat} (h : Freed τ m true i) : Knows (τ ++ [⟨t, .rlock m⟩]) t i := by
  obtain ⟨j, b, hb, hr, h, hk⟩ := h
  refine knows_of_precedes (a := ⟨t, .rlock m⟩) (.tail (precedes_mono h _) (.inr ⟨did_lt hb, m, b, _, did_append hb _, did_last _ _, ?_, fun k c h1 h2 hc => ?_⟩))
  · exact .inl ⟨hr.resolve_right (by simp), .inr rfl⟩
  · rw [List.getElem?_append_left h2] at hc
    exact hk k c h1 hc

theorem freed_release {τ : List (Did L M)} {m : M} {w : Bool} {i t : Nat} {a : Act L M} (h : Knows τ t i)
    (ha : a = .unlock m ∨ (w = false ∧ a = .runlock m)) : Freed (τ ++ [⟨t, a⟩]) m w i := by
  refine ⟨_, _, did_last τ ⟨t, a⟩, ha, knows_precedes (a := ⟨t, a⟩) h, fun k c h1 hc => ?_⟩
  have := did_lt hc
  simp at this
  omega

/-- The invariant: `w` and `r` say who holds the mutexes; `guard` says which mutex guards a location, if any. -/
structure Orderly (guard : L → Option M) (τ : List (Did L M)) (w : M → Option Nat) (r : M → Nat → Bool) : Prop where
  norace : NoRace τ
  excl : ∀ m t u, w m = some t → r m u = false
  reading : ∀ (i : Nat) (a : Did L M) (x : L) (m : M), τ[i]? = some a → a.act = .read x → guard x = some m →
    (∀ t, w m = some t → Knows τ t i) ∧ (w m = none → r m a.t = true ∨ Freed τ m false i)
  writing : ∀ (i : Nat) (a : Did L M) (x : L) (m : M), τ[i]? = some a → a.act = .write x → guard x = some m →
    (∀ t, w m = some t → Knows τ t i) ∧ (∀ t, r m t = true → Knows τ t i) ∧ (w m = none → Freed τ m true i)
  fixed : ∀ (i : Nat) (a : Did L M) (x : L), τ[i]? = some a → a.act = .write x → guard x ≠ none

variable {guard : L → Option M} {τ : List (Did L M)} {w w' : M → Option Nat} {r r' : M → Nat → Bool}

theorem orderly_nil : Orderly guard ([] : List (Did L M)) (fun _ => none) (fun _ _ => false) :=
  ⟨by intro i j a b _ h; simp at h, by simp, by simp, by simp, by simp⟩

theorem norace_append {a : Did L M} (h : NoRace τ) (hn : ∀ i b, τ[i]? = some b → Clash b.act a.act → Precedes (τ ++ [a]) i τ.length) : NoRace (τ ++ [a]) := by
  intro i j b c hij hb hc hcl
  rcases did_cases hc with hc | ⟨rfl, rfl⟩
  · rw [List.getElem?_append_left (by have := did_lt hc; omega)] at hb
    exact precedes_mono (h i j b c hij hb hc hcl) a
  · rw [List.getElem?_append_left hij] at hb
    exact hn i b hb hcl

theorem clash_right {a b : Act L M} (h : Clash a b) : ∃ x, b = .read x ∨ b = .write x := by
  obtain ⟨x, ⟨_, h | h⟩ | ⟨_, h⟩⟩ := h
  · exact ⟨x, .inr h⟩
  · exact ⟨x, .inl h⟩
  · exact ⟨x, .inr h⟩

/-- `Lock`: nobody holds the mutex. -/
theorem orderly_lock (h : Orderly guard τ w r) (t : Nat) (m : M) (hw : w m = none) (hr : ∀ u, r m u = false)
    (hw' : w' m = some t) (hwo : ∀ n, n ≠ m → w' n = w n) : Orderly guard (τ ++ [⟨t, .lock m⟩]) w' r := by
  refine ⟨norace_append h.norace fun i b hb hc => ?_, ?_, ?_, ?_, ?_⟩
  · obtain ⟨x, hx | hx⟩ := clash_right hc <;> cases hx
  · intro n v u hn
    by_cases e : n = m
    · subst e; exact hr u
    · rw [hwo n e] at hn; exact h.excl n v u hn
  · intro i a x n ha hx hg
    rcases did_cases ha with ha | ⟨_, rfl⟩
    · have hi := h.reading i a x n ha hx hg
      by_cases e : n = m
      · subst e
        refine ⟨fun v hv => ?_, fun hn => (by rw [hw'] at hn; cases hn)⟩
        rw [hw'] at hv; cases hv
        rcases hi.2 hw with h1 | h1
        · rw [hr] at h1; cases h1
        · exact freed_lock h1
      · rw [hwo n e]
        exact ⟨fun v hv => knows_mono (hi.1 v hv) _, fun hn => (hi.2 hn).imp_right fun h1 => freed_mono h1 (by simpa using Ne.symm e)⟩
    · cases hx
  · intro i a x n ha hx hg
    rcases did_cases ha with ha | ⟨_, rfl⟩
    · have hi := h.writing i a x n ha hx hg
      refine ⟨?_, fun v hv => knows_mono (hi.2.1 v hv) _, ?_⟩
      · by_cases e : n = m
        · subst e
          intro v hv
          rw [hw'] at hv; cases hv
          exact freed_lock (hi.2.2 hw)
        · rw [hwo n e]
          exact fun v hv => knows_mono (hi.1 v hv) _
      · by_cases e : n = m
        · subst e
          intro hn; rw [hw'] at hn; cases hn
        · rw [hwo n e]
          exact fun hn => freed_mono (hi.2.2 hn) (by simpa using Ne.symm e)
    · cases hx
  · intro i a x ha hx
    rcases did_cases ha with ha | ⟨_, rfl⟩
    · exact h.fixed i a x ha hx
    · cases hx

/-- `Unlock` by the goroutine that holds the mutex. -/
theorem orderly_unlock (h : Orderly guard τ w r) (t : Nat) (m : M) (hw : w m = some t)
    (hw' : w' m = none) (hwo : ∀ n, n ≠ m → w' n = w n) : Orderly guard (τ ++ [⟨t, .unlock m⟩]) w' r := by
  refine ⟨norace_append h.norace fun i b hb hc => ?_, ?_, ?_, ?_, ?_⟩
  · obtain ⟨x, hx | hx⟩ := clash_right hc <;> cases hx
  · intro n v u hn
    by_cases e : n = m
    · subst e; rw [hw'] at hn; cases hn
    · rw [hwo n e] at hn; exact h.excl n v u hn
  · intro i a x n ha hx hg
    rcases did_cases ha with ha | ⟨_, rfl⟩
    · have hi := h.reading i a x n ha hx hg
      by_cases e : n = m
      · subst e
        exact ⟨fun v hv => (by rw [hw'] at hv; cases hv), fun _ => .inr (freed_release (hi.1 t hw) (.inl rfl))⟩
      · rw [hwo n e]
        exact ⟨fun v hv => knows_mono (hi.1 v hv) _, fun hn => (hi.2 hn).imp_right fun h1 => freed_mono h1 (by simp)⟩
    · cases hx
  · intro i a x n ha hx hg
    rcases did_cases ha with ha | ⟨_, rfl⟩
    · have hi := h.writing i a x n ha hx hg
      by_cases e : n = m
      · subst e
        exact ⟨fun v hv => (by rw [hw'] at hv; cases hv), fun v hv => (by rw [h.excl n t v hw] at hv; cases hv),
          fun _ => freed_release (hi.1 t hw) (.inl rfl)⟩
      · rw [hwo n e]
        exact ⟨fun v hv => knows_mono (hi.1 v hv) _, fun v hv => knows_mono (hi.2.1 v hv) _, fun hn => freed_mono (hi.2.2 hn) (by simp)⟩
    · cases hx
  · intro i a x ha hx
    rcases did_cases ha with ha | ⟨_, rfl⟩
    · exact h.fixed i a x ha hx
    · cases hx

/-- `RLock`: nobody holds the mutex for writing. -/
theorem orderly_rlock (h : Orderly guard τ w r) (t : Nat) (m : M) (hw : w m = none)
    (hr' : r' m t = true) (hro : ∀ n u, n ≠ m ∨ u ≠ t → r' n u = r n u) : Orderly guard (τ ++ [⟨t, .rlock m⟩]) w r' := by
  refine ⟨norace_append h.norace fun i b hb hc => ?_, ?_, ?_, ?_, ?_⟩
  · obtain ⟨x, hx | hx⟩ := clash_right hc <;> cases hx
  · intro n v u hn
    have e : n ≠ m := by rintro rfl; rw [hw] at hn; cases hn
    rw [hro n u (.inl e)]
    exact h.excl n v u hn
  · intro i a x n ha hx hg
    rcases did_cases ha with ha | ⟨_, rfl⟩
    · have hi := h.reading i a x n ha hx hg
      refine ⟨fun v hv => knows_mono (hi.1 v hv) _, fun hn => ?_⟩
      rcases hi.2 hn with h1 | h1
      · left
        by_cases e : n = m ∧ a.t = t
        · rw [e.1, e.2]; exact hr'
        · rw [hro n a.t (by by_cases e1 : n = m; exact .inr fun e2 => e ⟨e1, e2⟩; exact .inl e1)]; exact h1
      · exact .inr (freed_mono h1 (by simp))
    · cases hx
  · intro i a x n ha hx hg
    rcases did_cases ha with ha | ⟨_, rfl⟩
    · have hi := h.writing i a x n ha hx hg
      refine ⟨fun v hv => knows_mono (hi.1 v hv) _, fun v hv => ?_, fun hn => freed_mono (hi.2.2 hn) (by simp)⟩
      by_cases e : n = m ∧ v = t
      · obtain ⟨rfl, rfl⟩ := e
        exact freed_rlock (hi.2.2 hw)
      · rw [hro n v (by by_cases e1 : n = m; exact .inr fun e2 => e ⟨e1, e2⟩; exact .inl e1)] at hv
        exact knows_mono (hi.2.1 v hv) _
    · cases hx
  · intro i a x ha hx
    rcases did_cases ha with ha | ⟨_, rfl⟩
    · exact h.fixed i a x ha hx
    · cases hx

/-- `RUnlock` by a goroutine that holds the mutex for reading. -/
theorem orderly_runlock (h : Orderly guard τ w r) (t : Nat) (m : M)
    (hr' : r' m t = false) (hro : ∀ n u, n ≠ m ∨ u ≠ t → r' n u = r n u) : Orderly guard (τ ++ [⟨t, .runlock m⟩]) w r' := by
  have hsub : ∀ n u, r' n u = true → r n u = true := by
    intro n u hu
    by_cases e : n = m ∧ u = t
    · rw [e.1, e.2, hr'] at hu; cases hu
    · rwa [hro n u (by by_cases e1 : n = m; exact .inr fun e2 => e ⟨e1, e2⟩; exact .inl e1)] at hu
  refine ⟨norace_append h.norace fun i b hb hc => ?_, ?_, ?_, ?_, ?_⟩
  · obtain ⟨x, hx | hx⟩ := clash_right hc <;> cases hx
  · intro n v u hn
    have := h.excl n v u hn
    by_contra hc
    rw [hsub n u (by simpa using hc)] at this
    cases this
  · intro i a x n ha hx hg
    rcases did_cases ha with ha' | ⟨_, rfl⟩
    · have hi := h.reading i a x n ha' hx hg
      refine ⟨fun v hv => knows_mono (hi.1 v hv) _, fun hn => ?_⟩
      rcases hi.2 hn with h1 | h1
      · by_cases e : n = m ∧ a.t = t
        · obtain ⟨rfl, rfl⟩ := e
          exact .inr (freed_release ⟨i, a, ha', rfl, .inl rfl⟩ (.inr ⟨rfl, rfl⟩))
        · left
          rw [hro n a.t (by by_cases e1 : n = m; exact .inr fun e2 => e ⟨e1, e2⟩; exact .inl e1)]; exact h1
      · exact .inr (freed_mono h1 (by simp))
    · cases hx
  · intro i a x n ha hx hg
    rcases did_cases ha with ha | ⟨_, rfl⟩
    · have hi := h.writing i a x n ha hx hg
      exact ⟨fun v hv => knows_mono (hi.1 v hv) _, fun v hv => knows_mono (hi.2.1 v (hsub n v hv)) _, fun hn => freed_mono (hi.2.2 hn) (by simp)⟩
    · cases hx
  · intro i a x ha hx
    rcases did_cases ha with ha | ⟨_, rfl⟩
    · exact h.fixed i a x ha hx
    · cases hx

/-- A read under the mutex, or of a location that nobody writes. -/
theorem orderly_read (h : Orderly guard τ w r) (t : Nat) (x : L) (hg : ∀ m, guard x = some m → w m = some t ∨ r m t = true) :
    Orderly guard (τ ++ [⟨t, .read x⟩]) w r := by
  refine ⟨norace_append h.norace fun i b hb hc => ?_, h.excl, ?_, ?_, ?_⟩
  · obtain ⟨y, ⟨hb1, h1 | h1⟩ | ⟨_, h1⟩⟩ := hc
    · cases h1
    · cases h1
      cases hm : guard x with
      | none => exact absurd hm (h.fixed i b x hb hb1)
      | some m =>
        have hi := h.writing i b x m hb hb1 hm
        rcases hg m hm with h2 | h2
        · exact knows_precedes (a := ⟨t, .read x⟩) (hi.1 t h2)
        · exact knows_precedes (a := ⟨t, .read x⟩) (hi.2.1 t h2)
    · cases h1
  · intro i a y n ha hx hgy
    rcases did_cases ha with ha | ⟨rfl, rfl⟩
    · have hi := h.reading i a y n ha hx hgy
      exact ⟨fun v hv => knows_mono (hi.1 v hv) _, fun hn => (hi.2 hn).imp_right fun h1 => freed_mono h1 (by simp)⟩
    · cases hx
      rcases hg n hgy with h2 | h2
      · refine ⟨fun v hv => ?_, fun hn => (by rw [h2] at hn; cases hn)⟩
        rw [h2] at hv; cases hv
        exact knows_self τ ⟨t, .read x⟩
      · refine ⟨fun v hv => ?_, fun hn => .inl h2⟩
        rw [h.excl n v t hv] at h2; cases h2
  · intro i a y n ha hx hgy
    rcases did_cases ha with ha | ⟨rfl, rfl⟩
    · have hi := h.writing i a y n ha hx hgy
      exact ⟨fun v hv => knows_mono (hi.1 v hv) _, fun v hv => knows_mono (hi.2.1 v hv) _, fun hn => freed_mono (hi.2.2 hn) (by simp)⟩
    · cases hx
  · intro i a y ha hx
    rcases did_cases ha with ha | ⟨_, rfl⟩
    · exact h.fixed i a y ha hx
    · cases hx

/-- A write under the mutex. -/
theorem orderly_write (h : Orderly guard τ w r) (t : Nat) (x : L) (m : M) (hg : guard x = some m) (hw : w m = some t) :
    Orderly guard (τ ++ [⟨t, .write x⟩]) w r := by
  refine ⟨norace_append h.norace fun i b hb hc => ?_, h.excl, ?_, ?_, ?_⟩
  · obtain ⟨y, ⟨hb1, h1 | h1⟩ | ⟨hb1, h1⟩⟩ := hc
    · cases h1
      exact knows_precedes (a := ⟨t, .write x⟩) ((h.writing i b x m hb hb1 hg).1 t hw)
    · cases h1
    · cases h1
      exact knows_precedes (a := ⟨t, .write x⟩) ((h.reading i b x m hb hb1 hg).1 t hw)
  · intro i a y n ha hx hgy
    rcases did_cases ha with ha | ⟨rfl, rfl⟩
    · have hi := h.reading i a y n ha hx hgy
      exact ⟨fun v hv => knows_mono (hi.1 v hv) _, fun hn => (hi.2 hn).imp_right fun h1 => freed_mono h1 (by simp)⟩
    · cases hx
  · intro i a y n ha hx hgy
    rcases did_cases ha with ha | ⟨rfl, rfl⟩
    · have hi := h.writing i a y n ha hx hgy
      exact ⟨fun v hv => knows_mono (hi.1 v hv) _, fun v hv => knows_mono (hi.2.1 v hv) _, fun hn => freed_mono (hi.2.2 hn) (by simp)⟩
    · cases hx
      rw [hg] at hgy
      cases hgy
      refine ⟨fun v hv => ?_, fun v hv => ?_, fun hn => (by rw [hw] at hn; cases hn)⟩
      · rw [hw] at hv; cases hv
        exact knows_self τ ⟨t, .write x⟩
      · rw [h.excl m t v hw] at hv; cases hv
  · intro i a y ha hx
    rcases did_cases ha with ha | ⟨_, rfl⟩
    · exact h.fixed i a y ha hx
    · cases hx; rw [hg]; simp

/-- Several reads. -/
theorem orderly_reads (h : Orderly guard τ w r) (t : Nat) (xs : List L) (hg : ∀ x ∈ xs, ∀ m, guard x = some m → w m = some t ∨ r m t = true) :
    Orderly guard (τ ++ (xs.map .read).map (Did.mk t)) w r := by
  induction xs generalizing τ with
  | nil => simpa using h
  | cons x xs ih =>
    have h1 := ih (orderly_read h t x (hg x (by simp))) (fun y hy => hg y (by simp [hy]))
    simpa using h1

end Verif.Spec
