import Verif.Model.Guarded
import Verif.Props.Rand
import Verif.Props.RangeU
import Verif.Props.Stack
import Verif.Spec.Progress
/-!
# C123: objects guarded by a lock are linearizable
-/

set_option linter.unusedSectionVars false

namespace Verif.Guarded
open Verif.Spec
open Verif.Rand (setAt_same setAt_ne)

variable {σ ρ Op Ret ς : Type}

/-! ## What it means that the methods, run alone, implement a specification -/

/-- A method in progress with registers `r`, run alone, ends with memory `m'` and result `v`. -/
inductive Runs (O : Obj σ ρ Op Ret) : σ → ρ → σ → Res Ret → Prop
  | last {m : σ} {r : ρ} {m' : σ} {v : Res Ret} : O.next m r = (m', .inr v) → Runs O m r m' v
  | more {m : σ} {r : ρ} {m1 : σ} {r1 : ρ} {m' : σ} {v : Res Ret} : O.next m r = (m1, .inl r1) → Runs O m1 r1 m' v →
    Runs O m r m' v

/-- Every method, run alone on memory that represents `x`, gives the result of the specification and leaves memory that
represents its next state. -/
def Implements (O : Obj σ ρ Op Ret) (Rel : σ → ς → Prop) (seq : ς → Op → ς × Res Ret) : Prop :=
  ∀ m x op m' v, Rel m x → Runs O m (O.start op) m' v → v = (seq x op).2 ∧ Rel m' (seq x op).1

/-! ## Proof -/

/-- A method in progress. -/
inductive Reach (O : Obj σ ρ Op Ret) (m0 : σ) (r0 : ρ) : σ → ρ → Prop
  | refl : Reach O m0 r0 m0 r0
  | snoc {m : σ} {r : ρ} {m1 : σ} {r1 : ρ} : Reach O m0 r0 m r → O.next m r = (m1, .inl r1) → Reach O m0 r0 m1 r1

theorem Reach.runs {O : Obj σ ρ Op Ret} {m0 m m' : σ} {r0 r : ρ} {v : Res Ret} (h : Reach O m0 r0 m r)
    (h' : Runs O m r m' v) : Runs O m0 r0 m' v := by
  induction h with
  | refl => exact h'
  | snoc _ hs ih => exact ih (.more hs h')

/-- Seen from the atomic object. -/
def Fits : PC ρ Op Ret → AStatus Op (Res Ret) → Prop
  | .idle, st => st = .idle
  | .spin op _, st | .body op _, st => st = .pending op
  | .unlocking v, st | .done v, st => st = .done v
  | .deadlock, _ | .crashed, _ | .misuse, _ => True

/-- The goroutine has the lock. -/
def Owns : PC ρ Op Ret → Prop
  | .body _ _ | .unlocking _ | .crashed => True
  | _ => False

/-- The lock is taken exactly while some goroutine, only one, has it. -/
structure Excl (s : St σ ρ Op Ret) : Prop where
  one : ∀ t t', Owns (s.pc t) → Owns (s.pc t') → t = t'
  own : ∀ t, Owns (s.pc t) → s.lock = 1
  free : s.lock = 0 ∨ ∃ t, Owns (s.pc t)
  ok : ∀ t, s.pc t ≠ .misuse

theorem setAt_cases {α : Type} (f : Nat → α) (t : Nat) (p : α) (u : Nat) :
    (u = t ∧ setAt f t p u = p) ∨ (u ≠ t ∧ setAt f t p u = f u) := by
  by_cases e : u = t
  · exact .inl ⟨e, by rw [e, setAt_same]⟩
  · exact .inr ⟨e, setAt_ne _ _ _ _ e⟩

theorem excl_local {s : St σ ρ Op Ret} (h : Excl s) (t : Nat) (p : PC ρ Op Ret) (h0 : ¬ Owns (s.pc t)) (h1 : ¬ Owns p)
    (h2 : p ≠ .misuse) : Excl ⟨s.lock, s.mem, setAt s.pc t p⟩ := by
  have ow : ∀ u, Owns (setAt s.pc t p u) ↔ Owns (s.pc u) := by
    intro u
    rcases setAt_cases s.pc t p u with ⟨rfl, e⟩ | ⟨-, e⟩ <;> rw [e]
    exact ⟨fun h => absurd h h1, fun h => absurd h h0⟩
  refine ⟨fun u u' hu hu' => h.one u u' ((ow _).1 hu) ((ow _).1 hu'), fun u hu => h.own u ((ow _).1 hu), ?_, fun u => ?_⟩
  · rcases h.free with h | ⟨u, hu⟩
    · exact .inl h
    · exact .inr ⟨u, (ow _).2 hu⟩
  · simp only
    rcases setAt_cases s.pc t p u with ⟨rfl, e⟩ | ⟨-, e⟩ <;> rw [e]
    · exact h2
    · exact h.ok u

/-- The other goroutines do not have the lock. -/
theorem Excl.others {s : St σ ρ Op Ret} (h : Excl s) {t : Nat} (h0 : Owns (s.pc t) ∨ s.lock = 0) {u : Nat} (n : u ≠ t) :
    ¬ Owns (s.pc u) := by
  intro ho
  rcases h0 with h0 | h0
  · exact n (h.one u t ho h0)
  · have := h.own u ho; omega

theorem excl_owner {s : St σ ρ Op Ret} (h : Excl s) (t : Nat) (p : PC ρ Op Ret) (l : Int) (m : σ) (hl : l = 1)
    (h0 : Owns (s.pc t) ∨ s.lock = 0) (h1 : Owns p) : Excl ⟨l, m, setAt s.pc t p⟩ := by
  have only : ∀ u, Owns (setAt s.pc t p u) → u = t := by
    intro u ho
    rcases setAt_cases s.pc t p u with ⟨rfl, -⟩ | ⟨n, e⟩
    · rfl
    · rw [e] at ho; exact absurd ho (h.others h0 n)
  refine ⟨fun u u' h1 h2 => (only u h1).trans (only u' h2).symm, fun _ _ => hl, .inr ⟨t, ?_⟩, fun u => ?_⟩
  · simp only [setAt_same]; exact h1
  · simp only
    rcases setAt_cases s.pc t p u with ⟨rfl, e⟩ | ⟨n, e⟩ <;> rw [e]
    · rintro rfl; exact h1
    · exact h.ok u

theorem excl_step {O : Obj σ ρ Op Ret} {c : Cfg} {s s' : St σ ρ Op Ret} {e : Option (Ev Op (Res Ret))} (h : Excl s)
    (hs : Step O c s e s') : Excl s' := by
  cases hs with
  | call t op hp => exact excl_local h t _ (by rw [hp]; exact id) id (by simp)
  | giveUp t i op hp hi => exact excl_local h t _ (by rw [hp]; exact id) id (by simp)
  | again t i op hp hi h0 => exact excl_local h t _ (by rw [hp]; exact id) id (by simp)
  | acquire t i op hp hi h0 => exact excl_owner h t _ _ _ rfl (.inr h0) trivial
  | go t op r r' m hp hn =>
    have ho : Owns (s.pc t) := by rw [hp]; trivial
    exact excl_owner h t _ _ _ (h.own t ho) (.inl ho) trivial
  | finish t op r v m hp hn hv =>
    have ho : Owns (s.pc t) := by rw [hp]; trivial
    exact excl_owner h t _ _ _ (h.own t ho) (.inl ho) trivial
  | crash t op r m hp hn hd =>
    have ho : Owns (s.pc t) := by rw [hp]; trivial
    exact excl_owner h t _ _ _ (h.own t ho) (.inl ho) trivial
  | unlock t v hp hl =>
    have ho : Owns (s.pc t) := by rw [hp]; trivial
    have none : ∀ u, ¬ Owns (setAt s.pc t (.done v) u) := by
      intro u hu
      rcases setAt_cases s.pc t (.done v) u with ⟨rfl, e⟩ | ⟨n, e⟩ <;> rw [e] at hu
      · exact hu
      · exact h.others (.inl ho) n hu
    refine ⟨fun u _ hu => absurd hu (none u), fun u hu => absurd hu (none u), .inl rfl, fun u => ?_⟩
    simp only
    rcases setAt_cases s.pc t (.done v) u with ⟨rfl, e⟩ | ⟨n, e⟩ <;> rw [e]
    · simp
    · exact h.ok u
  | misuse t v hp hl => exact absurd (h.own t (by rw [hp]; trivial)) hl
  | ret t v hp => exact excl_local h t _ (by rw [hp]; exact id) id (by simp)

theorem excl_init (m : σ) : Excl (St.init m : St σ ρ Op Ret) :=
  ⟨fun _ _ hu => False.elim hu, fun _ hu => False.elim hu, .inl rfl, fun _ hu => (by cases hu)⟩

theorem excl_exec {O : Obj σ ρ Op Ret} {c : Cfg} {s s' : St σ ρ Op Ret} {τ : List (Ev Op (Res Ret))} (h0 : Excl s)
    (h : Exec (Step O c) s τ s') : Excl s' := by
  induction h with
  | refl => exact h0
  | silent _ hs ih => exact excl_step ih hs
  | visible _ hs ih => exact excl_step ih hs

structure Sim (O : Obj σ ρ Op Ret) (Rel : σ → ς → Prop) (s : St σ ρ Op Ret) (a : AState ς Op (Res Ret)) : Prop where
  excl : Excl s
  th : ∀ t, Fits (s.pc t) (a.th t)
  rel : s.lock = 0 → Rel s.mem a.s
  body : ∀ t op r, s.pc t = .body op r → ∃ m0, Rel m0 a.s ∧ Reach O m0 (O.start op) s.mem r
  unl : ∀ t v, s.pc t = .unlocking v → Rel s.mem a.s

theorem fits_setAt {s : St σ ρ Op Ret} {th : Nat → AStatus Op (Res Ret)} (h : ∀ t, Fits (s.pc t) (th t)) (t : Nat)
    (p : PC ρ Op Ret) (f : Nat → AStatus Op (Res Ret)) (hf : Fits p (f t)) (hf' : ∀ u, u ≠ t → f u = th u) (u : Nat) :
    Fits (setAt s.pc t p u) (f u) := by
  rcases setAt_cases s.pc t p u with ⟨rfl, e⟩ | ⟨n, e⟩ <;> rw [e]
  · exact hf
  · rw [hf' u n]; exact h u

/-- A goroutine changes its place without getting or giving back the lock and without touching the memory; the atomic object
may change the status of that goroutine. -/
theorem sim_local {O : Obj σ ρ Op Ret} {Rel : σ → ς → Prop} {s : St σ ρ Op Ret} {a : AState ς Op (Res Ret)} (h : Sim O Rel s a)
    (t : Nat) (p : PC ρ Op Ret) (f : Nat → AStatus Op (Res Ret)) (hf : Fits p (f t)) (hf' : ∀ u, u ≠ t → f u = a.th u)
    (h0 : ¬ Owns (s.pc t)) (h1 : ¬ Owns p) (h2 : p ≠ .misuse) : Sim O Rel ⟨s.lock, s.mem, setAt s.pc t p⟩ ⟨a.s, f⟩ := by
  refine ⟨excl_local h.excl t p h0 h1 h2, fits_setAt h.th t p f hf hf', h.rel, fun u op r hu => ?_, fun u v hu => ?_⟩
  · simp only at hu
    rcases setAt_cases s.pc t p u with ⟨rfl, e⟩ | ⟨-, e⟩ <;> rw [e] at hu
    · rw [hu] at h1; exact absurd trivial h1
    · exact h.body u op r hu
  · simp only at hu
    rcases setAt_cases s.pc t p u with ⟨rfl, e⟩ | ⟨-, e⟩ <;> rw [e] at hu
    · rw [hu] at h1; exact absurd trivial h1
    · exact h.unl u v hu

/-- The goroutine that has the lock, or takes it, goes on in possession of it. -/
theorem sim_owner {O : Obj σ ρ Op Ret} {Rel : σ → ς → Prop} {s : St σ ρ Op Ret} {a : AState ς Op (Res Ret)} (h : Sim O Rel s a)
    (t : Nat) (p : PC ρ Op Ret) (l : Int) (m : σ) (x : ς) (f : Nat → AStatus Op (Res Ret)) (hf : Fits p (f t))
    (hf' : ∀ u, u ≠ t → f u = a.th u) (hl : l = 1) (h0 : Owns (s.pc t) ∨ s.lock = 0) (h1 : Owns p)
    (hb : ∀ op r, p = .body op r → ∃ m0, Rel m0 x ∧ Reach O m0 (O.start op) m r)
    (hu : ∀ v, p = .unlocking v → Rel m x) : Sim O Rel ⟨l, m, setAt s.pc t p⟩ ⟨x, f⟩ := by
  have only : ∀ u, Owns (setAt s.pc t p u) → u = t := by
    intro u ho
    rcases setAt_cases s.pc t p u with ⟨rfl, -⟩ | ⟨n, e⟩
    · rfl
    · rw [e] at ho; exact absurd ho (h.excl.others h0 n)
  refine ⟨excl_owner h.excl t p l m hl h0 h1, fits_setAt h.th t p f hf hf', fun h => ?_, fun u op r hp => ?_, fun u v hp => ?_⟩
  · simp only [hl] at h; exact absurd h (by decide)
  · simp only at hp
    have e := only u (by rw [hp]; trivial)
    subst e
    rw [setAt_same] at hp
    exact hb op r hp
  · simp only at hp
    have e := only u (by rw [hp]; trivial)
    subst e
    rw [setAt_same] at hp
    exact hu v hp

theorem sim_step {O : Obj σ ρ Op Ret} {Rel : σ → ς → Prop} {seq : ς → Op → ς × Res Ret} (hI : Implements O Rel seq) (c : Cfg)
    {s s' : St σ ρ Op Ret} {a : AState ς Op (Res Ret)} {e : Option (Ev Op (Res Ret))} (h : Sim O Rel s a) (hs : Step O c s e s') :
    ∃ a', Exec (AStep seq) a e.toList a' ∧ Sim O Rel s' a' := by
  have fit : ∀ {t p}, s.pc t = p → Fits p (a.th t) := fun {t p} hp => hp ▸ h.th t
  have hx := excl_step h.excl hs
  cases hs with
  | call t op hp =>
    refine ⟨_, .visible (.refl _) (.call a t op (fit hp)), sim_local h t _ _ ?_ (fun u n => setAt_ne _ _ _ _ n) ?_ id (by simp)⟩
    · rw [setAt_same]; exact rfl
    · rw [hp]; exact id
  | giveUp t i op hp hi =>
    exact ⟨a, .refl _, sim_local h t _ a.th trivial (fun _ _ => rfl) (by rw [hp]; exact id) id (by simp)⟩
  | again t i op hp hi h0 =>
    have hf : a.th t = .pending op := fit hp
    exact ⟨a, .refl _, sim_local h t _ a.th hf (fun _ _ => rfl) (by rw [hp]; exact id) id (by simp)⟩
  | acquire t i op hp hi h0 =>
    have hf : a.th t = .pending op := fit hp
    refine ⟨a, .refl _, sim_owner h t _ _ _ a.s a.th hf (fun _ _ => rfl) rfl (.inr h0) trivial ?_ ?_⟩
    · intro op' r e
      cases e
      exact ⟨s.mem, h.rel h0, .refl⟩
    · intro v e; cases e
  | go t op r r' m hp hn =>
    have ho : Owns (s.pc t) := by rw [hp]; trivial
    have hf : a.th t = .pending op := fit hp
    refine ⟨a, .refl _, sim_owner h t _ _ _ a.s a.th hf (fun _ _ => rfl) (h.excl.own t ho) (.inl ho) trivial ?_ ?_⟩
    · intro op' r1 e
      cases e
      obtain ⟨m0, h1, h2⟩ := h.body t op r hp
      exact ⟨m0, h1, .snoc h2 hn⟩
    · intro v e; cases e
  | finish t op r v m hp hn hv =>
    have ho : Owns (s.pc t) := by rw [hp]; trivial
    obtain ⟨m0, h1, h2⟩ := h.body t op r hp
    obtain ⟨e1, e2⟩ := hI m0 a.s op m v h1 (h2.runs (.last hn))
    refine ⟨_, .silent (.refl _) (.effect a t op (fit hp)), sim_owner h t _ _ _ _ _ ?_ (fun u n => setAt_ne _ _ _ _ n)
      (h.excl.own t ho) (.inl ho) trivial ?_ ?_⟩
    · rw [setAt_same, e1]; exact rfl
    · intro op' r1 e; cases e
    · intro v' _; exact e2
  | crash t op r m hp hn hd =>
    have ho : Owns (s.pc t) := by rw [hp]; trivial
    refine ⟨a, .refl _, sim_owner h t _ _ _ a.s a.th trivial (fun _ _ => rfl) (h.excl.own t ho) (.inl ho) trivial ?_ ?_⟩
    · intro op' r1 e; cases e
    · intro v' e; cases e
  | unlock t v hp hl =>
    have hf : a.th t = .done v := fit hp
    have none : ∀ u, ¬ Owns (setAt s.pc t (.done v) u) := fun u hu => absurd (hx.own u hu) (by simp)
    refine ⟨a, .refl _, hx, fits_setAt h.th t _ a.th hf (fun _ _ => rfl), fun _ => h.unl t v hp, fun u op r hu => ?_,
      fun u w hu => ?_⟩
    · exact absurd (by simp only at hu; rw [hu]; trivial) (none u)
    · exact absurd (by simp only at hu; rw [hu]; trivial) (none u)
  | misuse t v hp hl => exact absurd (h.excl.own t (by rw [hp]; trivial)) hl
  | ret t v hp =>
    refine ⟨_, .visible (.refl _) (.ret a t v (fit hp)), sim_local h t _ _ ?_ (fun u n => setAt_ne _ _ _ _ n) ?_ id (by simp)⟩
    · rw [setAt_same]; exact rfl
    · rw [hp]; exact id

theorem sim_exec {O : Obj σ ρ Op Ret} {Rel : σ → ς → Prop} {seq : ς → Op → ς × Res Ret} (hI : Implements O Rel seq) (c : Cfg)
    {m : σ} {x : ς} (h0 : Rel m x) {τ : List (Ev Op (Res Ret))} {s : St σ ρ Op Ret} (h : Exec (Step O c) (St.init m) τ s) :
    ∃ a, Exec (AStep seq) (AState.init x) τ a ∧ Sim O Rel s a := by
  refine linearizable_of_simulation (Sim O Rel) ?_ (fun _ _ _ _ hr hs => sim_step hI c hr hs) h
  exact ⟨excl_init m, fun _ => rfl, fun _ => h0, fun _ _ _ hu => (by cases hu), fun _ _ hu => (by cases hu)⟩

/-! ## The theorems -/

/-- **C123** Any object whose methods, run alone, implement a specification, is linearizable when each call is surrounded by
`Lock` and `Unlock` of a `SpinLock` (or a lock that waits for ever), however finely its methods are divided into accesses to
memory, with any number of goroutines, whether or not `Unlock` is deferred. -/
theorem C123_linearizable {O : Obj σ ρ Op Ret} {Rel : σ → ς → Prop} {seq : ς → Op → ς × Res Ret} (hI : Implements O Rel seq)
    (c : Cfg) {m : σ} {x : ς} (h0 : Rel m x) : Linearizable (Step O c) (St.init m) seq x := by
  intro τ s h
  obtain ⟨a, ha, -⟩ := sim_exec hI c h0 h
  exact ⟨a, ha⟩

/-- **C123** At most one goroutine is inside a method, and `Unlock` never panics, whatever the methods do. -/
theorem C123_exclusion (O : Obj σ ρ Op Ret) (c : Cfg) (m : σ) {τ : List (Ev Op (Res Ret))} {s : St σ ρ Op Ret}
    (h : Exec (Step O c) (St.init m) τ s) :
    (∀ t t' op op' r r', s.pc t = .body op r → s.pc t' = .body op' r' → t = t') ∧ ∀ t, s.pc t ≠ .misuse := by
  have hx := excl_exec (excl_init m) h
  exact ⟨fun t t' op op' r r' h1 h2 => hx.one t t' (by rw [h1]; trivial) (by rw [h2]; trivial), hx.ok⟩

/-- **C123** (no deadlock).  Unless some goroutine has panicked, whenever a goroutine is inside a call, some goroutine inside a
call can go on, and not by trying for the lock in vain. -/
theorem C123_progress (O : Obj σ ρ Op Ret) (c : Cfg) (m : σ) {τ : List (Ev Op (Res Ret))} {s : St σ ρ Op Ret}
    (h : Exec (Step O c) (St.init m) τ s) {t : Nat} (ht : s.pc t ≠ .idle)
    (hc : ∀ u, s.pc u ≠ .crashed ∧ s.pc u ≠ .deadlock) :
    ∃ u e p l m', s.pc u ≠ .idle ∧ Step O c s e ⟨l, m', setAt s.pc u p⟩ ∧ ∀ op i, p ≠ .spin op i := by
  have hx := excl_exec (excl_init m) h
  have owner : ∀ u, Owns (s.pc u) → ∃ u e p l m', s.pc u ≠ .idle ∧ Step O c s e ⟨l, m', setAt s.pc u p⟩ ∧ ∀ op i, p ≠ .spin op i := by
    intro u hu
    cases hp : s.pc u with
    | body op r =>
      cases hn : O.next s.mem r with
      | mk m1 x =>
        cases x with
        | inl r1 => exact ⟨u, _, _, _, _, by simp [hp], .go s u op r r1 m1 hp hn, by simp⟩
        | inr v =>
          by_cases hv : v ≠ .panic ∨ c.deferred = true
          · exact ⟨u, _, _, _, _, by simp [hp], .finish s u op r v m1 hp hn hv, by simp⟩
          · have h1 : v = .panic := by
              by_cases e : v = .panic
              · exact e
              · exact absurd (.inl e) hv
            have h2 : c.deferred = false := by
              cases e : c.deferred
              · rfl
              · exact absurd (.inr e) hv
            subst h1
            exact ⟨u, _, _, _, _, by simp [hp], .crash s u op r m1 hp hn h2, by simp⟩
    | unlocking v => exact ⟨u, _, _, _, _, by simp [hp], .unlock s u v hp (hx.own u hu), by simp⟩
    | crashed => exact absurd hp (hc u).1
    | _ => rw [hp] at hu; exact False.elim hu
  cases hp : s.pc t with
  | idle => exact absurd hp ht
  | spin op i =>
    by_cases hi : c.tooMany i
    · exact ⟨t, _, _, _, _, ht, .giveUp s t i op hp hi, by simp⟩
    · rcases hx.free with h0 | ⟨u, hu⟩
      · exact ⟨t, _, _, _, _, ht, .acquire s t i op hp hi h0, by simp⟩
      · exact owner u hu
  | body op r => exact owner t (by rw [hp]; trivial)
  | unlocking v => exact owner t (by rw [hp]; trivial)
  | done v => exact ⟨t, _, _, _, _, ht, .ret s t v hp, by simp⟩
  | deadlock => exact absurd hp (hc t).2
  | crashed => exact absurd hp (hc t).1
  | misuse => exact absurd hp (hx.ok t)

/-- **C123** (negative).  After a method has panicked without a deferred `Unlock`, the object is lost: no goroutine ever
enters a method again, so that nothing is returned except what was decided before. -/
theorem C123_panic_false (O : Obj σ ρ Op Ret) (c : Cfg) (m : σ) {τ : List (Ev Op (Res Ret))} {s : St σ ρ Op Ret}
    (h : Exec (Step O c) (St.init m) τ s) {t : Nat} (ht : s.pc t = .crashed)
    {τ' : List (Ev Op (Res Ret))} {s' : St σ ρ Op Ret} (h' : Exec (Step O c) s τ' s') :
    s'.mem = s.mem ∧ (∀ u op r, s'.pc u ≠ .body op r) ∧ ∀ u v, Ev.ret u v ∈ τ' → s.pc u = .done v := by
  have hx := excl_exec (excl_init m) h
  have key : s'.mem = s.mem ∧ Excl s' ∧ s'.pc t = .crashed ∧ (∀ u v, s'.pc u = .done v → s.pc u = .done v) ∧
      ∀ u v, Ev.ret u v ∈ τ' → s.pc u = .done v := by
    have local_ : ∀ {s1 : St σ ρ Op Ret} {u : Nat} {p : PC ρ Op Ret}, s1.pc t = .crashed → s1.pc u ≠ .crashed →
        (∀ u v, s1.pc u = .done v → s.pc u = .done v) → (∀ v, p ≠ .done v) →
        setAt s1.pc u p t = .crashed ∧ ∀ w v, setAt s1.pc u p w = .done v → s.pc w = .done v := by
      intro s1 u p h1 h2 h3 h4
      refine ⟨?_, fun w v hw => ?_⟩
      · rw [setAt_ne _ _ _ _ (by rintro rfl; exact h2 h1)]; exact h1
      · rcases setAt_cases s1.pc u p w with ⟨rfl, e⟩ | ⟨-, e⟩ <;> rw [e] at hw
        · exact absurd hw (h4 v)
        · exact h3 w v hw
    have step : ∀ s1 (e : Option (Ev Op (Res Ret))) s2, (s1.mem = s.mem ∧ Excl s1 ∧ s1.pc t = .crashed ∧
        ∀ u v, s1.pc u = .done v → s.pc u = .done v) → Step O c s1 e s2 → (s2.mem = s.mem ∧ Excl s2 ∧ s2.pc t = .crashed ∧
        ∀ u v, s2.pc u = .done v → s.pc u = .done v) ∧ ∀ u v, e = some (.ret u v) → s.pc u = .done v := by
      rintro s1 e s2 ⟨hm, h1, h2, h3⟩ hs
      have h1' := excl_step h1 hs
      have own : Owns (s1.pc t) := by rw [h2]; trivial
      have only : ∀ u, Owns (s1.pc u) → s1.pc u = .crashed := fun u hu => by rw [h1.one u t hu own]; exact h2
      cases hs with
      | call u op hp => exact ⟨⟨hm, h1', local_ h2 (by simp [hp]) h3 (by simp)⟩, by simp⟩
      | giveUp u i op hp hi => exact ⟨⟨hm, h1', local_ h2 (by simp [hp]) h3 (by simp)⟩, by simp⟩
      | again u i op hp hi h0 => exact ⟨⟨hm, h1', local_ h2 (by simp [hp]) h3 (by simp)⟩, by simp⟩
      | acquire u i op hp hi h0 => have := h1.own t own; omega
      | go u op r r' m hp hn => have := only u (by rw [hp]; trivial); rw [hp] at this; cases this
      | finish u op r v m hp hn hv => have := only u (by rw [hp]; trivial); rw [hp] at this; cases this
      | crash u op r m hp hn hd => have := only u (by rw [hp]; trivial); rw [hp] at this; cases this
      | unlock u v hp hl => have := only u (by rw [hp]; trivial); rw [hp] at this; cases this
      | misuse u v hp hl => have := only u (by rw [hp]; trivial); rw [hp] at this; cases this
      | ret u v hp =>
        refine ⟨⟨hm, h1', local_ h2 (by simp [hp]) h3 (by simp)⟩, fun w v' e => ?_⟩
        cases e
        exact h3 u v hp
    have := Exec.invariant (fun τ' s' => (s'.mem = s.mem ∧ Excl s' ∧ s'.pc t = .crashed ∧ ∀ u v, s'.pc u = .done v → s.pc u = .done v) ∧
      ∀ u v, Ev.ret u v ∈ τ' → s.pc u = .done v) ⟨⟨rfl, hx, ht, fun _ _ h => h⟩, by simp⟩
      (fun τ1 s1 s2 h1 hs => ⟨(step s1 none s2 h1.1 hs).1, h1.2⟩)
      (fun τ1 s1 e s2 h1 hs => ⟨(step s1 (some e) s2 h1.1 hs).1, fun u v hu => by
        rcases List.mem_append.1 hu with hu | hu
        · exact h1.2 u v hu
        · exact (step s1 (some e) s2 h1.1 hs).2 u v (by rw [List.mem_singleton.1 hu])⟩) h'
    exact ⟨this.1.1, this.1.2.1, this.1.2.2.1, this.1.2.2.2, this.2⟩
  obtain ⟨hm, h1, h2, -, h4⟩ := key
  refine ⟨hm, fun u op r hu => ?_, h4⟩
  have := h1.one u t (by rw [hu]; trivial) (by rw [h2]; trivial)
  rw [this, h2] at hu
  cases hu

/-! ## The sequence `SeqNext64` -/

/-- Ids handed out one after the other, beginning with `m0`. -/
def tickets (m0 : BitVec 64) (n : Nat) (_ : Unit) : Nat × Res (BitVec 64) := (n + 1, .ok (m0 + BitVec.ofNat 64 n))

/-- The ids returned so far, in the order of the returns. -/
def ids (τ : List (Ev Unit (Res (BitVec 64)))) : List (Res (BitVec 64)) :=
  τ.filterMap fun e => match e with
    | .ret _ v => some v
    | .call _ _ => none

theorem seq_runs {m m' : BitVec 64} {v : Res (BitVec 64)} (h : Runs seqObj m .begin m' v) : m' = m + 1#64 ∧ v = .ok m := by
  cases h with
  | last h => simp [seqObj] at h
  | more h h' =>
    simp only [seqObj, Prod.mk.injEq, Sum.inl.injEq] at h
    obtain ⟨rfl, rfl⟩ := h
    cases h' with
    | last h => simp [seqObj] at h
    | more h h' =>
      simp only [seqObj, Prod.mk.injEq, Sum.inl.injEq] at h
      obtain ⟨rfl, rfl⟩ := h
      cases h' with
      | last h =>
        simp only [seqObj, Prod.mk.injEq, Sum.inr.injEq] at h
        exact ⟨h.1.symm, h.2.symm⟩
      | more h h' => simp [seqObj] at h

/-- The accesses of `seqObj`, made by one goroutine alone, are `Next` of the sequential model. -/
theorem C123_seq_agrees (s : Seq.S) : ∃ s' r, Seq.next s = .ok (s', r, false) ∧ s'.option = s.option ∧
    Runs seqObj s.id.val .begin s'.id.val (.ok r) :=
  ⟨_, _, Seq.next_eq s, rfl, .more rfl (.more rfl (.last rfl))⟩

theorem seq_implements (m0 : BitVec 64) : Implements seqObj (fun m n => m = m0 + BitVec.ofNat 64 n) (tickets m0) := by
  intro m x op m' v hm hr
  obtain ⟨rfl, rfl⟩ := seq_runs hr
  subst hm
  refine ⟨rfl, ?_⟩
  simp only [tickets]
  rw [BitVec.add_assoc]
  congr 1
  apply BitVec.eq_of_toNat_eq
  simp [BitVec.toNat_add]

/-- **C123** `SeqNext64` with any number of goroutines behaves as if the ids were handed out one at a time. -/
theorem C123_seq_linearizable (m0 : BitVec 64) : Linearizable (Step seqObj seqCfg) (St.init m0) (tickets m0) 0 :=
  C123_linearizable (seq_implements m0) seqCfg (by simp)

def doneOf : AStatus Unit (Res (BitVec 64)) → Option (Res (BitVec 64))
  | .done v => some v
  | _ => none

def pendOf : AStatus Unit (Res (BitVec 64)) → Option Unit
  | .pending _ => some ()
  | _ => none

structure TInv (m0 : BitVec 64) (τ : List (Ev Unit (Res (BitVec 64)))) (a : AState Nat Unit (Res (BitVec 64))) : Prop where
  ex : ∃ D P, Tracks D (fun t => doneOf (a.th t)) ∧ Tracks P (fun t => pendOf (a.th t)) ∧ calls τ = a.s + P.length ∧
    (ids τ ++ D.map Prod.snd).Perm ((List.range a.s).map fun i => .ok (m0 + BitVec.ofNat 64 i))

theorem tinv_step {m0 : BitVec 64} {τ : List (Ev Unit (Res (BitVec 64)))} {a a' : AState Nat Unit (Res (BitVec 64))}
    {e : Option (Ev Unit (Res (BitVec 64)))} (h : TInv m0 τ a) (hs : AStep (tickets m0) a e a') : TInv m0 (τ ++ e.toList) a' := by
  obtain ⟨D, P, hD, hP, hc, hp⟩ := h
  cases hs with
  | call t op ht =>
    refine ⟨D, _, hD.keep (fun u => ?_), hP.add t () (by simp only [ht]; rfl) (by simp only [setAt_same]; rfl)
      (fun u e => by simp only [setAt_ne _ _ _ _ e]), ?_, ?_⟩
    · rcases setAt_cases a.th t (.pending op) u with ⟨rfl, e⟩ | ⟨-, e⟩ <;> simp only [e]
      rw [ht]; rfl
    · simp only [Option.toList, calls, List.countP_append, List.length_cons] at hc ⊢
      rw [hc]; simp [Ev.isCall]; omega
    · simpa [ids] using hp
  | effect t op ht =>
    obtain ⟨P', hP', hT⟩ := hP.rem t () (by simp only [ht]; rfl) (f' := fun u => pendOf (setAt a.th t (.done (tickets m0 a.s op).2) u))
      (by simp only [setAt_same]; rfl) (fun u e => by simp only [setAt_ne _ _ _ _ e])
    refine ⟨_, P', hD.add t (.ok (m0 + BitVec.ofNat 64 a.s)) (by simp only [ht]; rfl) (by simp only [setAt_same]; rfl)
      (fun u e => by simp only [setAt_ne _ _ _ _ e]), hT, ?_, ?_⟩
    · have := hP'.length_eq
      simp only [List.length_cons] at this
      simp only [Option.toList, List.append_nil, tickets]; omega
    · simp only [Option.toList, List.append_nil, tickets, List.map_cons, List.range_succ, List.map_append, List.map_nil]
      refine List.perm_middle.trans ?_
      exact (List.Perm.cons _ hp).trans (List.perm_append_singleton _ _).symm
  | ret t r ht =>
    obtain ⟨D', hD', hT⟩ := hD.rem t r (by simp only [ht]; rfl) (f' := fun u => doneOf (setAt a.th t .idle u))
      (by simp only [setAt_same]; rfl) (fun u e => by simp only [setAt_ne _ _ _ _ e])
    refine ⟨D', P, hT, hP.keep (fun u => ?_), ?_, ?_⟩
    · rcases setAt_cases a.th t .idle u with ⟨rfl, e⟩ | ⟨-, e⟩ <;> simp only [e]
      rw [ht]; rfl
    · simp only [Option.toList, calls, List.countP_append] at hc ⊢
      rw [hc]; simp [Ev.isCall]
    · simp only [ids, Option.toList, List.filterMap_append, List.filterMap_cons, List.filterMap_nil, List.append_assoc,
        List.singleton_append] at hp ⊢
      exact (List.Perm.append_left _ (Tracks.rem_perm hD').symm).trans hp

theorem tinv_exec {m0 : BitVec 64} {τ : List (Ev Unit (Res (BitVec 64)))} {a : AState Nat Unit (Res (BitVec 64))}
    (h : Exec (AStep (tickets m0)) (AState.init 0) τ a) : TInv m0 τ a := by
  refine Exec.invariant (TInv m0) ⟨[], [], Tracks.nil (fun _ => rfl), Tracks.nil (fun _ => rfl), rfl, by simp [ids, AState.init]⟩
    (fun τ _ _ h hs => by simpa using tinv_step h hs) (fun _ _ e _ h hs => tinv_step (e := some e) h hs) h

/-- **C123** Whatever the goroutines do, the ids that `SeqNext64` has returned are among the first `n` ids from the start,
`n` being the number of calls, and no id is returned twice before all 2^64 numbers are used up. -/
theorem C123_ids (m0 : BitVec 64) {τ : List (Ev Unit (Res (BitVec 64)))} {s : St (BitVec 64) SeqReg Unit (BitVec 64)}
    (h : Exec (Step seqObj seqCfg) (St.init m0) τ s) :
    (∀ v ∈ ids τ, ∃ k, k < calls τ ∧ v = .ok (m0 + BitVec.ofNat 64 k)) ∧ (calls τ ≤ 2 ^ 64 → (ids τ).Nodup) := by
  obtain ⟨a, ha⟩ := C123_seq_linearizable m0 τ s h
  obtain ⟨D, P, -, -, hc, hp⟩ := tinv_exec ha
  constructor
  · intro v hv
    obtain ⟨k, hk, e⟩ := List.mem_map.1 (hp.mem_iff.1 (List.mem_append_left _ hv))
    exact ⟨k, by have := List.mem_range.1 hk; omega, e.symm⟩
  · intro hn
    refine (List.nodup_append.1 (hp.nodup_iff.2 ?_)).1
    refine List.Nodup.map_on ?_ List.nodup_range
    intro i hi j hj e
    rw [List.mem_range] at hi hj
    simp only [Res.ok.injEq] at e
    have e := congrArg BitVec.toNat (BitVec.add_right_inj _ |>.1 e)
    simp only [BitVec.toNat_ofNat] at e
    rwa [Nat.mod_eq_of_lt (by omega), Nat.mod_eq_of_lt (by omega)] at e

/-- **C123** When nobody is inside a call, `n` calls have returned the first `n` ids, each once, and the counter has moved by
`n`. -/
theorem C123_all_ids (m0 : BitVec 64) {τ : List (Ev Unit (Res (BitVec 64)))} {s : St (BitVec 64) SeqReg Unit (BitVec 64)}
    (h : Exec (Step seqObj seqCfg) (St.init m0) τ s) (hq : ∀ t, s.pc t = .idle) :
    (ids τ).Perm ((List.range (calls τ)).map fun i => .ok (m0 + BitVec.ofNat 64 i)) ∧
      s.mem = m0 + BitVec.ofNat 64 (calls τ) := by
  obtain ⟨a, ha, hsim⟩ := sim_exec (seq_implements m0) seqCfg (x := 0) (by simp) h
  obtain ⟨D, P, hD, hP, hc, hp⟩ := tinv_exec ha
  have hi : ∀ t, a.th t = .idle := fun t => by have := hsim.th t; rw [hq] at this; exact this
  have e1 : D = [] := hD.eq_nil (fun t => by rw [hi]; rfl)
  have e2 : P = [] := hP.eq_nil (fun t => by rw [hi]; rfl)
  subst e1; subst e2
  simp only [List.length_nil, Nat.add_zero] at hc
  rw [hc]
  refine ⟨by simpa using hp, hsim.rel ?_⟩
  rcases hsim.excl.free with h0 | ⟨t, ht⟩
  · exact h0
  · rw [hq] at ht; exact False.elim ht

/-- **C123** (negative).  Without the lock, two goroutines can get the same id. -/
theorem C123_bare_false (m0 : BitVec 64) : ∃ s, Exec (Bare seqObj) (St.init m0)
    [.call 0 (), .call 1 (), .ret 0 (.ok m0), .ret 1 (.ok m0)] s := by
  have h0 := (Exec.refl (step := Bare seqObj) (St.init m0)).visible (.call _ 0 () rfl)
  have h1 := h0.visible (.call _ 1 () rfl)
  have h2 := h1.silent (.go _ 0 () .begin (.sum m0) m0 rfl rfl)
  have h3 := h2.silent (.go _ 0 () (.sum m0) (.both m0 m0) m0 rfl rfl)
  have h4 := h3.silent (.go _ 1 () .begin (.sum m0) m0 rfl rfl)
  have h5 := h4.silent (.go _ 1 () (.sum m0) (.both m0 m0) m0 rfl rfl)
  have h6 := h5.silent (.finish _ 0 () (.both m0 m0) (.ok m0) (m0 + 1#64) rfl rfl)
  have h7 := h6.silent (.finish _ 1 () (.both m0 m0) (.ok m0) (m0 + 1#64) rfl rfl)
  have h8 := h7.visible (.ret _ 0 (.ok m0) rfl)
  have h9 := h8.visible (.ret _ 1 (.ok m0) rfl)
  exact ⟨_, h9⟩

/-- With the lock: goroutine 1 calls while 0 is inside, tries in vain, and gets the next id. -/
example : ∃ s, Exec (Step seqObj seqCfg) (St.init 7#64) [.call 0 (), .call 1 (), .ret 0 (.ok 7#64), .ret 1 (.ok 8#64)] s ∧
    ∀ t, s.pc t = .idle := by
  have h0 := (Exec.refl (step := Step seqObj seqCfg) (St.init 7#64)).visible (.call _ 0 () rfl)
  have h1 := h0.visible (.call _ 1 () rfl)
  have h2 := h1.silent (.acquire _ 0 0 () rfl id rfl)
  have h3 := h2.silent (.go _ 0 () .begin (.sum 7#64) 7#64 rfl rfl)
  have h4 := h3.silent (.again _ 1 0 () rfl id (by decide))
  have h5 := h4.silent (.go _ 0 () (.sum 7#64) (.both 7#64 7#64) 7#64 rfl rfl)
  have h6 := h5.silent (.finish _ 0 () (.both 7#64 7#64) (.ok 7#64) 8#64 rfl rfl (.inl (by simp)))
  have h7 := h6.silent (.unlock _ 0 (.ok 7#64) rfl rfl)
  have h8 := h7.visible (.ret _ 0 (.ok 7#64) rfl)
  have h9 := h8.silent (.acquire _ 1 1 () rfl id rfl)
  have h10 := h9.silent (.go _ 1 () .begin (.sum 8#64) 8#64 rfl rfl)
  have h11 := h10.silent (.go _ 1 () (.sum 8#64) (.both 8#64 8#64) 8#64 rfl rfl)
  have h12 := h11.silent (.finish _ 1 () (.both 8#64 8#64) (.ok 8#64) 9#64 rfl rfl (.inl (by simp)))
  have h13 := h12.silent (.unlock _ 1 (.ok 8#64) rfl rfl)
  have h14 := h13.visible (.ret _ 1 (.ok 8#64) rfl)
  refine ⟨_, h14, fun t => ?_⟩
  by_cases e1 : t = 1
  · subst e1; rfl
  · by_cases e0 : t = 0
    · subst e0; rfl
    · simp [setAt_ne, e0, e1, St.init]

/-! ## A stack guarded by a `SpinLock` -/

section Stack
variable {α : Type} [Inhabited α]

theorem stack_implements : Implements (stackObj α) (fun m l => m.d.reverse = l) (fun l op => ((stackStep l op).1, .ok (stackStep l op).2)) := by
  intro m x op m' v hm hr
  subst hm
  cases hr with
  | last h =>
    simp only [stackObj, Stack.step_refines, Prod.mk.injEq, Sum.inr.injEq] at h
    obtain ⟨rfl, rfl⟩ := h
    exact ⟨rfl, by simp⟩
  | more h h' => simp [stackObj, Stack.step_refines] at h

/-- **C123** A stack whose methods are called between `Lock` and `Unlock` of a `SpinLock` is a linearizable LIFO stack, and no
method panics. -/
theorem C123_stack (d : List α) (deferred : Bool) :
    Linearizable (Step (stackObj α) (spinCfg deferred)) (St.init ⟨d⟩) (fun l op => ((stackStep l op).1, .ok (stackStep l op).2)) d.reverse :=
  C123_linearizable stack_implements (spinCfg deferred) rfl

end Stack

/-- Goroutine 0 pushes 5; goroutine 1, which began earlier, pops it. -/
example : ∃ s, Exec (Step (stackObj Int) (spinCfg true)) (St.init ⟨[3]⟩)
    [.call 1 .pop, .call 0 (.push 5), .ret 0 (.ok (.bool true)), .ret 1 (.ok (.val 5 true))] s := by
  have h0 := (Exec.refl (step := Step (stackObj Int) (spinCfg true)) (St.init ⟨[3]⟩)).visible (.call _ 1 .pop rfl)
  have h1 := h0.visible (.call _ 0 (.push 5) rfl)
  have h2 := h1.silent (.acquire _ 0 0 (.push 5) rfl (by simp [Cfg.tooMany, spinCfg]) rfl)
  have h3 := h2.silent (.finish _ 0 (.push 5) _ (.ok (.bool true)) ⟨[3, 5]⟩ rfl rfl (.inl (by simp)))
  have h4 := h3.silent (.unlock _ 0 _ rfl rfl)
  have h5 := h4.visible (.ret _ 0 _ rfl)
  have h6 := h5.silent (.acquire _ 1 0 .pop rfl (by simp [Cfg.tooMany, spinCfg]) rfl)
  have h7 := h6.silent (.finish _ 1 .pop _ (.ok (.val 5 true)) ⟨[3]⟩ rfl rfl (.inl (by simp)))
  have h8 := h7.silent (.unlock _ 1 _ rfl rfl)
  have h9 := h8.visible (.ret _ 1 _ rfl)
  exact ⟨_, h9⟩

/-- A method that panics, `Unlock` not being deferred: the hypothesis of `C123_panic_false`. -/
example : ∃ s, Exec (Step (⟨fun _ => (), fun _ _ => ((), .inr .panic)⟩ : Obj Unit Unit Unit Unit) (spinCfg false)) (St.init ())
    [.call 0 ()] s ∧ s.pc 0 = .crashed := by
  have h0 := (Exec.refl (step := Step (⟨fun _ => (), fun _ _ => ((), .inr .panic)⟩ : Obj Unit Unit Unit Unit) (spinCfg false))
    (St.init ())).visible (.call _ 0 () rfl)
  have h1 := h0.silent (.acquire _ 0 0 () rfl (by simp [Cfg.tooMany, spinCfg]) rfl)
  have h2 := h1.silent (.crash _ 0 () () () rfl rfl rfl)
  exact ⟨_, h2, rfl⟩

theorem exTwo : ∃ s, Exec (Step seqObj seqCfg) (St.init 7#64) [.call 0 (), .call 1 ()] s ∧ s.pc 0 = .body () (.sum 7#64) ∧
    s.pc 1 = .spin () 0 ∧ ∀ u, u ≠ 0 → u ≠ 1 → s.pc u = .idle := by
  have h0 := (Exec.refl (step := Step seqObj seqCfg) (St.init 7#64)).visible (.call _ 0 () rfl)
  have h1 := h0.visible (.call _ 1 () rfl)
  have h2 := h1.silent (.acquire _ 0 0 () rfl id rfl)
  have h3 := h2.silent (.go _ 0 () .begin (.sum 7#64) 7#64 rfl rfl)
  exact ⟨_, h3, rfl, rfl, fun u h h' => by simp [setAt, St.init, h, h']⟩

/-- C123_exclusion, C123_progress and C123_ids on an execution with one goroutine inside and one waiting. -/
example : ∃ s : St (BitVec 64) SeqReg Unit (BitVec 64), s.pc 0 = .body () (.sum 7#64) ∧ s.pc 1 = .spin () 0 ∧
    (∀ t t' op op' r r', s.pc t = .body op r → s.pc t' = .body op' r' → t = t') := by
  obtain ⟨s, h, h0, h1, -⟩ := exTwo
  exact ⟨s, h0, h1, (C123_exclusion _ _ _ h).1⟩
example : ∃ (s : St (BitVec 64) SeqReg Unit (BitVec 64)) (u : Nat) (e : _) (p : _) (l : _) (m' : _), s.pc u ≠ .idle ∧
    Step seqObj seqCfg s e ⟨l, m', setAt s.pc u p⟩ ∧ ∀ op i, p ≠ .spin op i := by
  obtain ⟨s, h, h0, h1, h2⟩ := exTwo
  refine ⟨s, C123_progress _ _ _ h (t := 1) (by rw [h1]; simp) fun u => ?_⟩
  by_cases e0 : u = 0
  · subst e0; rw [h0]; simp
  · by_cases e1 : u = 1
    · subst e1; rw [h1]; simp
    · rw [h2 u e0 e1]; simp

end Verif.Guarded
