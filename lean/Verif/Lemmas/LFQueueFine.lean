import Verif.Model.LFQueueFine
import Verif.Lemmas.RaceAll
/-!
# The lock-free list one access at a time: invariant and refinement
-/
set_option linter.unusedSectionVars false
set_option linter.unusedSimpArgs false

namespace Verif.LFQueue.Fine
open Verif.Spec
variable {V : Type} [Inhabited V]

/-- An access to a field of node `n`. -/
def Touches (n : Nat) (a : Acc Loc) : Prop := a.loc = .val n ∨ a.loc = .next n

/-- The node a goroutine has made and not yet published. -/
def owns : FPC V → Option Nat
  | .pVal _ n => some n
  | .pNil _ n => some n
  | .pLoad _ n => some n
  | .pNext _ n _ => some n
  | .pOld _ n => some n
  | .pCas _ n _ => some n
  | _ => none

/-- The published node a goroutine is looking at. -/
def looks : FPC V → Option Nat
  | .oNext n => some n
  | .oCas n _ => some n
  | .oVal n => some n
  | _ => none

/-- The list from a pointer on. -/
def Chain (mem : Nat → Node V) : Ptr → List Nat → Prop
  | p, [] => p = none
  | p, n :: xs => p = some n ∧ Chain mem (mem n).next xs

theorem Chain.congr {mem mem' : Nat → Node V} {p : Ptr} {xs : List Nat} (h : Chain mem p xs) (he : ∀ n ∈ xs, mem' n = mem n) :
    Chain mem' p xs := by
  induction xs generalizing p with
  | nil => exact h
  | cons n r ih =>
    refine ⟨h.1, ?_⟩
    rw [he n (by simp)]
    exact ih h.2 fun m hm => he m (by simp [hm])

/-- Published: allocated and no longer private. -/
def Published (s : FSt V) (n : Nat) : Prop := n < s.alloc ∧ ∀ u, owns (s.pc u) ≠ some n

/-- The invariant: `τ` are the accesses so far. -/
structure FInv (τ : List (Acc Loc)) (s : FSt V) : Prop where
  rf : RaceFree τ
  atomic : All τ fun _ a => a.loc = .head ∨ a.loc = .size → a.kind.atomic = true
  fresh : All τ fun _ a => ∀ n, Touches n a → n < s.alloc
  own : ∀ t n, owns (s.pc t) = some n → n < s.alloc ∧ All τ fun _ a => Touches n a → a.t = t
  uniq : ∀ t u n, owns (s.pc t) = some n → owns (s.pc u) = some n → t = u
  sees : ∀ t n, looks (s.pc t) = some n →
    Published s n ∧ All τ fun i a => Touches n a → a.kind.writes = true → Known τ t i
  next : ∀ t n nx, s.pc t = .oCas n nx → (s.mem n).next = nx
  pnext : ∀ t v n o, s.pc t = .pCas v n o → (s.mem n).next = o
  chain : ∃ xs, Chain s.mem s.head xs ∧
    ∀ n ∈ xs, Published s n ∧ All τ fun i a => Touches n a → a.kind.writes = true → Passed τ .head i

theorem finv_init : FInv [] (FSt.init : FSt V) where
  rf := raceFree_nil
  atomic := by intro i a h; simp at h
  fresh := by intro i a h; simp at h
  own := by simp [FSt.init, owns]
  uniq := by simp [FSt.init, owns]
  sees := by simp [FSt.init, looks]
  next := by simp [FSt.init]
  pnext := by simp [FSt.init]
  chain := ⟨[], rfl, by simp⟩

theorem setAt_same {β : Type} (f : Nat → β) (i : Nat) (v : β) : setAt f i v i = v := by simp [setAt]

theorem setAt_ne {β : Type} (f : Nat → β) {i j : Nat} (v : β) (h : j ≠ i) : setAt f i v j = f j := by simp [setAt, h]

/-- A step that accesses no memory, or only atomically `head` and `size`, and changes no node: everything is kept except, perhaps, what
concerns the goroutine itself and the list. -/
theorem finv_quiet {τ : List (Acc Loc)} {s : FSt V} (h : FInv τ s) (t : Nat) (p : FPC V) (sz : BitVec 32)
    (ho : owns p = owns (s.pc t) ∨ owns p = none) (hl : looks p = none)
    (hc : ∀ v n o, p = .pCas v n o → (s.mem n).next = o) :
    FInv τ { s with size := sz, pc := setAt s.pc t p } := by
  have hown : ∀ u n, owns (setAt s.pc t p u) = some n → owns (s.pc u) = some n := by
    intro u n hu
    unfold setAt at hu
    split at hu
    · rename_i e
      subst e
      rcases ho with ho | ho
      · rwa [ho] at hu
      · rw [ho] at hu; cases hu
    · exact hu
  have hpub : ∀ n, Published s n → Published { s with size := sz, pc := setAt s.pc t p } n :=
    fun n hn => ⟨hn.1, fun u hu => hn.2 u (hown u n hu)⟩
  refine ⟨h.rf, h.atomic, h.fresh, fun u n hu => h.own u n (hown u n hu),
    fun u w n hu hw => h.uniq u w n (hown u n hu) (hown w n hw), ?_, ?_, ?_, ?_⟩
  · intro u n hu
    dsimp only at hu
    unfold setAt at hu
    split at hu
    · rw [hl] at hu; cases hu
    · exact ⟨hpub n (h.sees u n hu).1, (h.sees u n hu).2⟩
  · intro u n nx hu
    dsimp only at hu
    unfold setAt at hu
    split at hu
    · rw [hu] at hl; cases hl
    · exact h.next u n nx hu
  · intro u v n o hu
    dsimp only at hu
    unfold setAt at hu
    split at hu
    · exact hc v n o hu
    · exact h.pnext u v n o hu
  · obtain ⟨xs, hx, hxs⟩ := h.chain
    exact ⟨xs, hx, fun n hn => ⟨hpub n (hxs n hn).1, (hxs n hn).2⟩⟩

/-- One more access, no change of the memory.  A conflicting access must be known, and the location `head` must not forget. -/
theorem finv_acc {τ : List (Acc Loc)} {s : FSt V} (h : FInv τ s) (a : Acc Loc)
    (hat : a.loc = .head ∨ a.loc = .size → a.kind.atomic = true)
    (hcf : ∀ n, Touches n a → n < s.alloc ∧ a.kind.atomic = false ∧ (a.kind.writes = true → owns (s.pc a.t) = some n) ∧
      (owns (s.pc a.t) = some n ∨ looks (s.pc a.t) = some n))
    (hst : a.loc = .head → a.kind = .rmw ∨ a.kind.writes = false) : FInv (τ ++ [a]) s := by
  have hno : ∀ n u, u ≠ a.t → owns (s.pc u) = some n → ¬ Touches n a := by
    intro n u hu ho ht
    rcases (hcf n ht).2.2.2 with h' | h'
    · exact hu (h.uniq u a.t n ho h')
    · exact (h.sees a.t n h').1.2 u ho
  refine ⟨?_, ?_, ?_, ?_, h.uniq, ?_, h.next, h.pnext, ?_⟩
  · rw [raceFree_append]
    refine ⟨h.rf, fun i b hb hcon => ?_⟩
    have hloc : (∃ n, Touches n a ∧ Touches n b) ∨ ((a.loc = .head ∨ a.loc = .size) ∧ (b.loc = .head ∨ b.loc = .size)) := by
      have := hcon.1
      cases hl : a.loc with
      | head => exact .inr ⟨.inl rfl, .inl (by rw [this, hl])⟩
      | size => exact .inr ⟨.inr rfl, .inr (by rw [this, hl])⟩
      | val n => exact .inl ⟨n, .inl hl, .inl (by rw [this, hl])⟩
      | next n => exact .inl ⟨n, .inr hl, .inr (by rw [this, hl])⟩
    rcases hloc with ⟨n, hna, hnb⟩ | ⟨hla, hlb⟩
    · obtain ⟨_, _, hw, hp⟩ := hcf n hna
      by_cases hown : owns (s.pc a.t) = some n
      · have := (h.own a.t n hown).2 i b hb hnb
        rw [← this]
        exact .inl (known_own hb)
      · have hl := hp.resolve_left hown
        have haw : ¬ a.kind.writes = true := fun hc => hown (hw hc)
        exact .inl ((h.sees a.t n hl).2 i b hb hnb (hcon.2.1.resolve_right haw))
    · have h1 := h.atomic i b hb hlb
      have h2 := hat hla
      rcases hcon.2.2 with h' | h'
      · rw [h1] at h'; cases h'
      · rw [h2] at h'; cases h'
  · exact all_append.mpr ⟨h.atomic, hat⟩
  · exact all_append.mpr ⟨h.fresh, fun n hn => (hcf n hn).1⟩
  · intro u n hu
    refine ⟨(h.own u n hu).1, all_append.mpr ⟨(h.own u n hu).2, fun ht => ?_⟩⟩
    by_contra hne
    exact hno n u (Ne.symm hne) hu ht
  · intro u n hu
    refine ⟨(h.sees u n hu).1, all_append.mpr ⟨(h.sees u n hu).2.imp fun i b hb h1 h2 => known_mono (hb h1 h2), fun ht hw => ?_⟩⟩
    exact absurd ((hcf n ht).2.2.1 hw) ((h.sees u n hu).1.2 a.t)
  · obtain ⟨xs, hx, hxs⟩ := h.chain
    refine ⟨xs, hx, fun n hn => ⟨(hxs n hn).1, all_append.mpr ⟨(hxs n hn).2.imp fun i b hb h1 h2 => passed_mono hst (hb h1 h2),
      fun ht hw => ?_⟩⟩⟩
    exact absurd ((hcf n ht).2.2.1 hw) ((hxs n hn).1.2 a.t)

/-- A change of a private node. -/
theorem finv_mem {τ : List (Acc Loc)} {s : FSt V} (h : FInv τ s) (t n : Nat) (m : Node V) (p : FPC V)
    (ho : owns (s.pc t) = some n) (hp : owns p = some n) (hc : ∀ v k o, p ≠ .pCas v k o) :
    FInv τ { s with mem := setAt s.mem n m, pc := setAt s.pc t p } := by
  have hl : looks p = none := by cases p <;> simp_all [owns, looks]
  have hown : ∀ u k, owns (setAt s.pc t p u) = some k → owns (s.pc u) = some k := by
    intro u k hu
    unfold setAt at hu
    split at hu
    · rename_i e
      subst e
      rwa [ho, ← hp]
    · exact hu
  have hpub : ∀ k, Published s k → Published { s with mem := setAt s.mem n m, pc := setAt s.pc t p } k :=
    fun k hk => ⟨hk.1, fun u hu => hk.2 u (hown u k hu)⟩
  refine ⟨h.rf, h.atomic, h.fresh, fun u k hu => h.own u k (hown u k hu),
    fun u w k hu hw => h.uniq u w k (hown u k hu) (hown w k hw), ?_, ?_, ?_, ?_⟩
  · intro u k hu
    dsimp only at hu
    unfold setAt at hu
    split at hu
    · rw [hl] at hu; cases hu
    · exact ⟨hpub k (h.sees u k hu).1, (h.sees u k hu).2⟩
  · intro u k nx hu
    dsimp only at hu ⊢
    unfold setAt at hu
    split at hu
    · rw [hu] at hl; cases hl
    · have : k ≠ n := by
        rintro rfl
        exact (h.sees u k (by rw [hu]; rfl)).1.2 t ho
      rw [setAt_ne _ _ this]
      exact h.next u k nx hu
  · intro u v k o hu
    dsimp only at hu ⊢
    unfold setAt at hu
    split at hu
    · exact absurd hu (hc v k o)
    · have : k ≠ n := by
        rintro rfl
        exact ‹u ≠ t› (h.uniq u t k (by rw [hu]; rfl) ho)
      rw [setAt_ne _ _ this]
      exact h.pnext u v k o hu
  · obtain ⟨xs, hx, hxs⟩ := h.chain
    refine ⟨xs, hx.congr fun k hk => setAt_ne _ _ ?_, fun k hk => ⟨hpub k (hxs k hk).1, (hxs k hk).2⟩⟩
    rintro rfl
    exact (hxs k hk).1.2 t ho

theorem finv_step {τ : List (FLab V)} {s s' : FSt V} {e : Option (FLab V)} (h : FInv (accs τ) s) (hs : FStep s e s') :
    FInv (accs (τ ++ e.toList)) s' := by
  cases hs with
  | callPush t v hp =>
    simp only [Option.toList, accs_append, accs_ev, List.append_nil]
    have hown : ∀ u n, owns (setAt s.pc t (.pVal v s.alloc) u) = some n → (u = t ∧ n = s.alloc) ∨ (u ≠ t ∧ owns (s.pc u) = some n) := by
      intro u n hu
      unfold setAt at hu
      split at hu
      · rename_i e
        simp only [owns, Option.some.injEq] at hu
        exact .inl ⟨e, hu.symm⟩
      · exact .inr ⟨‹_›, hu⟩
    have hpub : ∀ k, Published s k → Published { s with mem := setAt s.mem s.alloc ⟨default, none⟩, alloc := s.alloc + 1, pc := setAt s.pc t (.pVal v s.alloc) } k := by
      intro k hk
      refine ⟨Nat.lt_succ_of_lt hk.1, fun u hu => ?_⟩
      rcases hown u k hu with ⟨_, rfl⟩ | ⟨_, h'⟩
      · exact absurd hk.1 (by simp)
      · exact hk.2 u h'
    refine ⟨h.rf, h.atomic, h.fresh.imp fun i a ha n hn => Nat.lt_succ_of_lt (ha n hn), ?_, ?_, ?_, ?_, ?_, ?_⟩
    · intro u n hu
      rcases hown u n hu with ⟨rfl, rfl⟩ | ⟨_, h'⟩
      · exact ⟨Nat.lt_succ_self _, h.fresh.imp fun i a ha hn => absurd (ha _ hn) (by simp)⟩
      · exact ⟨Nat.lt_succ_of_lt (h.own u n h').1, (h.own u n h').2⟩
    · intro u w n hu hw
      rcases hown u n hu with ⟨rfl, rfl⟩ | ⟨_, hu'⟩ <;> rcases hown w _ hw with ⟨rfl, e⟩ | ⟨_, hw'⟩
      · rfl
      · exact absurd (h.own w _ hw').1 (by simp)
      · subst e; exact absurd (h.own u _ hu').1 (by simp)
      · exact h.uniq u w n hu' hw'
    · intro u n hu
      dsimp only at hu
      unfold setAt at hu
      split at hu
      · cases hu
      · exact ⟨hpub n (h.sees u n hu).1, (h.sees u n hu).2⟩
    · intro u n nx hu
      dsimp only at hu ⊢
      unfold setAt at hu
      split at hu
      · cases hu
      · have := (h.sees u n (by rw [hu]; rfl)).1.1
        rw [setAt_ne _ _ (by omega)]
        exact h.next u n nx hu
    · intro u w n o hu
      dsimp only at hu ⊢
      unfold setAt at hu
      split at hu
      · cases hu
      · have := (h.own u n (by rw [hu]; rfl)).1
        rw [setAt_ne _ _ (by omega)]
        exact h.pnext u w n o hu
    · obtain ⟨xs, hx, hxs⟩ := h.chain
      refine ⟨xs, hx.congr fun k hk => setAt_ne _ _ ?_, fun k hk => ⟨hpub k (hxs k hk).1, (hxs k hk).2⟩⟩
      have := (hxs k hk).1.1
      omega
  | pVal t v n hp =>
    simp only [Option.toList, accs_append, accs_acc]
    have ho : owns (s.pc t) = some n := by rw [hp]; rfl
    have h1 := finv_acc h ⟨t, .write, .val n⟩ (by simp)
      (by rintro k (hk | hk) <;> simp at hk; subst hk; exact ⟨(h.own t n ho).1, rfl, fun _ => ho, .inl ho⟩) (by simp)
    exact finv_mem h1 t n _ _ ho rfl (by simp)
  | pNil t v n hp =>
    simp only [Option.toList, accs_append, accs_acc]
    have ho : owns (s.pc t) = some n := by rw [hp]; rfl
    have h1 := finv_acc h ⟨t, .write, .next n⟩ (by simp)
      (by rintro k (hk | hk) <;> simp at hk; subst hk; exact ⟨(h.own t n ho).1, rfl, fun _ => ho, .inl ho⟩) (by simp)
    exact finv_mem h1 t n _ _ ho rfl (by simp)
  | pNext t v n o hp =>
    simp only [Option.toList, accs_append, accs_acc]
    have ho : owns (s.pc t) = some n := by rw [hp]; rfl
    have h1 := finv_acc h ⟨t, .write, .next n⟩ (by simp)
      (by rintro k (hk | hk) <;> simp at hk; subst hk; exact ⟨(h.own t n ho).1, rfl, fun _ => ho, .inl ho⟩) (by simp)
    exact finv_mem h1 t n _ _ ho rfl (by simp)
  | pLoad t v n hp =>
    simp only [Option.toList, accs_append, accs_acc]
    have h1 := finv_acc h ⟨t, .load, .head⟩ (by simp [AccKind.atomic]) (by rintro k (hk | hk) <;> simp at hk) (by simp [AccKind.writes])
    exact finv_quiet h1 t _ s.size (.inl (by rw [hp]; rfl)) rfl (by simp)
  | pOld t v n hp =>
    simp only [Option.toList, accs_append, accs_acc]
    have ho : owns (s.pc t) = some n := by rw [hp]; rfl
    have h1 := finv_acc h ⟨t, .read, .next n⟩ (by simp)
      (by rintro k (hk | hk) <;> simp at hk; subst hk; exact ⟨(h.own t n ho).1, rfl, fun _ => ho, .inl ho⟩) (by simp)
    exact finv_quiet h1 t _ s.size (.inl (by rw [hp]; rfl)) rfl (by simp)
  | pCasFail t v n o hp hh =>
    simp only [Option.toList, accs_append, accs_acc]
    have h1 := finv_acc h ⟨t, .load, .head⟩ (by simp [AccKind.atomic]) (by rintro k (hk | hk) <;> simp at hk) (by simp [AccKind.writes])
    exact finv_quiet h1 t _ s.size (.inl (by rw [hp]; rfl)) rfl (by simp)
  | pAdd t hp =>
    simp only [Option.toList, accs_append, accs_acc]
    have h1 := finv_acc h ⟨t, .rmw, .size⟩ (by simp [AccKind.atomic]) (by rintro k (hk | hk) <;> simp at hk) (by simp)
    exact finv_quiet h1 t _ (s.size + 1) (.inr rfl) rfl (by simp)
  | callPop t hp =>
    simp only [Option.toList, accs_append, accs_ev, List.append_nil]
    exact finv_quiet h t _ s.size (.inr rfl) rfl (by simp)
  | oNil t hp hh =>
    simp only [Option.toList, accs_append, accs_acc]
    have h1 := finv_acc h ⟨t, .load, .head⟩ (by simp [AccKind.atomic]) (by rintro k (hk | hk) <;> simp at hk) (by simp [AccKind.writes])
    exact finv_quiet h1 t _ s.size (.inr rfl) rfl (by simp)
  | oCasFail t n nx hp hh =>
    simp only [Option.toList, accs_append, accs_acc]
    have h1 := finv_acc h ⟨t, .load, .head⟩ (by simp [AccKind.atomic]) (by rintro k (hk | hk) <;> simp at hk) (by simp [AccKind.writes])
    exact finv_quiet h1 t _ s.size (.inr rfl) rfl (by simp)
  | oSub t v ok hp =>
    simp only [Option.toList, accs_append, accs_acc]
    have h1 := finv_acc h ⟨t, .rmw, .size⟩ (by simp [AccKind.atomic]) (by rintro k (hk | hk) <;> simp at hk) (by simp)
    exact finv_quiet h1 t _ (s.size - 1) (.inr rfl) rfl (by simp)
  | oVal t n hp =>
    simp only [Option.toList, accs_append, accs_acc]
    have hl : looks (s.pc t) = some n := by rw [hp]; rfl
    have h1 := finv_acc h ⟨t, .read, .val n⟩ (by simp)
      (by rintro k (hk | hk) <;> simp at hk; subst hk; exact ⟨(h.sees t n hl).1.1, rfl, by simp [AccKind.writes], .inr hl⟩) (by simp)
    exact finv_quiet h1 t _ s.size (.inr rfl) rfl (by simp)
  | callClear t hp =>
    simp only [Option.toList, accs_append, accs_ev, List.append_nil]
    exact finv_quiet h t _ s.size (.inr rfl) rfl (by simp)
  | callEmpty t hp =>
    simp only [Option.toList, accs_append, accs_ev, List.append_nil]
    exact finv_quiet h t _ s.size (.inr rfl) rfl (by simp)
  | empty t hp =>
    simp only [Option.toList, accs_append, accs_acc]
    have h1 := finv_acc h ⟨t, .load, .head⟩ (by simp [AccKind.atomic]) (by rintro k (hk | hk) <;> simp at hk) (by simp [AccKind.writes])
    exact finv_quiet h1 t _ s.size (.inr rfl) rfl (by simp)
  | size t hp =>
    simp only [Option.toList, accs_append, accs_acc]
    exact finv_acc h ⟨t, .load, .size⟩ (by simp [AccKind.atomic]) (by rintro k (hk | hk) <;> simp at hk) (by simp [AccKind.writes])
  | ret t r hp =>
    simp only [Option.toList, accs_append, accs_ev, List.append_nil]
    exact finv_quiet h t _ s.size (.inr rfl) rfl (by simp)
  | pCasOk t v n o hp hh =>
    simp only [Option.toList, accs_append, accs_acc]
    have ho : owns (s.pc t) = some n := by rw [hp]; rfl
    have h1 := finv_acc h ⟨t, .rmw, .head⟩ (by simp [AccKind.atomic]) (by rintro k (hk | hk) <;> simp at hk) (by simp)
    have h2 := finv_quiet h1 t .pAdd s.size (.inr rfl) rfl (by simp)
    refine ⟨h2.rf, h2.atomic, h2.fresh, h2.own, h2.uniq, h2.sees, h2.next, h2.pnext, ?_⟩
    obtain ⟨xs, hx, hxs⟩ := h2.chain
    refine ⟨n :: xs, ⟨rfl, ?_⟩, ?_⟩
    · dsimp only at hx ⊢
      rw [h.pnext t v n o hp, ← hh]
      exact hx
    · intro k hk
      rcases List.mem_cons.mp hk with rfl | hk
      · refine ⟨⟨(h.own t k ho).1, fun u hu => ?_⟩, ?_⟩
        · dsimp only at hu
          unfold setAt at hu
          split at hu
          · cases hu
          · exact ‹u ≠ t› (h.uniq u t k hu ho)
        · refine all_append.mpr ⟨fun i a ha hta _ => ?_, fun hta => by rcases hta with hta | hta <;> simp at hta⟩
          have := (h.own t k ho).2 i a ha hta
          have hk := known_own ha
          rw [this] at hk
          exact passed_append.mpr (.inl ⟨rfl, rfl, rfl, known_mono hk⟩)
      · exact hxs k hk
  | oLoad t n hp hh =>
    simp only [Option.toList, accs_append, accs_acc]
    have h1 := finv_acc h ⟨t, .load, .head⟩ (by simp [AccKind.atomic]) (by rintro k (hk | hk) <;> simp at hk) (by simp [AccKind.writes])
    have hown : ∀ u k, owns (setAt s.pc t (.oNext n) u) = some k → owns (s.pc u) = some k := by
      intro u k hu
      unfold setAt at hu
      split at hu
      · cases hu
      · exact hu
    refine ⟨h1.rf, h1.atomic, h1.fresh, fun u k hu => h1.own u k (hown u k hu),
      fun u w k hu hw => h1.uniq u w k (hown u k hu) (hown w k hw), ?_, ?_, ?_, ?_⟩
    · intro u k hu
      dsimp only at hu
      unfold setAt at hu
      split at hu
      · simp only [looks, Option.some.injEq] at hu
        subst hu
        obtain ⟨xs, hx, hxs⟩ := h.chain
        have hm : n ∈ xs := by
          rw [hh] at hx
          cases xs with
          | nil => cases hx
          | cons m r => simp [Option.some.inj hx.1]
        have := hxs n hm
        refine ⟨⟨this.1.1, fun w hw => this.1.2 w (hown w n hw)⟩, all_append.mpr ⟨fun i a ha hta hw => ?_, fun hta => by rcases hta with hta | hta <;> simp at hta⟩⟩
        rename_i e
        exact known_append.mpr (.inr ⟨e, .inr ⟨rfl, this.2 i a ha hta hw⟩⟩)
      · have := h1.sees u k hu
        exact ⟨⟨this.1.1, fun w hw => this.1.2 w (hown w k hw)⟩, this.2⟩
    · intro u k nx hu
      dsimp only at hu ⊢
      unfold setAt at hu
      split at hu
      · cases hu
      · exact h.next u k nx hu
    · intro u w k o hu
      dsimp only at hu ⊢
      unfold setAt at hu
      split at hu
      · cases hu
      · exact h.pnext u w k o hu
    · obtain ⟨xs, hx, hxs⟩ := h1.chain
      exact ⟨xs, hx, fun k hk => ⟨⟨(hxs k hk).1.1, fun w hw => (hxs k hk).1.2 w (hown w k hw)⟩, (hxs k hk).2⟩⟩
  | oNext t n hp =>
    simp only [Option.toList, accs_append, accs_acc]
    have hl : looks (s.pc t) = some n := by rw [hp]; rfl
    have h1 := finv_acc h ⟨t, .read, .next n⟩ (by simp)
      (by rintro k (hk | hk) <;> simp at hk; subst hk; exact ⟨(h.sees t n hl).1.1, rfl, by simp [AccKind.writes], .inr hl⟩) (by simp)
    have hown : ∀ u k, owns (setAt s.pc t (.oCas n (s.mem n).next) u) = some k → owns (s.pc u) = some k := by
      intro u k hu
      unfold setAt at hu
      split at hu
      · cases hu
      · exact hu
    refine ⟨h1.rf, h1.atomic, h1.fresh, fun u k hu => h1.own u k (hown u k hu),
      fun u w k hu hw => h1.uniq u w k (hown u k hu) (hown w k hw), ?_, ?_, ?_, ?_⟩
    · intro u k hu
      have : looks (s.pc u) = some k := by
        dsimp only at hu
        unfold setAt at hu
        split at hu
        · rename_i e
          rw [e, hl]
          exact hu
        · exact hu
      have := h1.sees u k this
      exact ⟨⟨this.1.1, fun w hw => this.1.2 w (hown w k hw)⟩, this.2⟩
    · intro u k nx hu
      dsimp only at hu ⊢
      unfold setAt at hu
      split at hu
      · cases hu; rfl
      · exact h.next u k nx hu
    · intro u w k o hu
      dsimp only at hu ⊢
      unfold setAt at hu
      split at hu
      · cases hu
      · exact h.pnext u w k o hu
    · obtain ⟨xs, hx, hxs⟩ := h1.chain
      exact ⟨xs, hx, fun k hk => ⟨⟨(hxs k hk).1.1, fun w hw => (hxs k hk).1.2 w (hown w k hw)⟩, (hxs k hk).2⟩⟩
  | oCasOk t n nx hp hh =>
    simp only [Option.toList, accs_append, accs_acc]
    have hl : looks (s.pc t) = some n := by rw [hp]; rfl
    have h1 := finv_acc h ⟨t, .rmw, .head⟩ (by simp [AccKind.atomic]) (by rintro k (hk | hk) <;> simp at hk) (by simp)
    have hown : ∀ u k, owns (setAt s.pc t (.oVal n) u) = some k → owns (s.pc u) = some k := by
      intro u k hu
      unfold setAt at hu
      split at hu
      · cases hu
      · exact hu
    refine ⟨h1.rf, h1.atomic, h1.fresh, fun u k hu => h1.own u k (hown u k hu),
      fun u w k hu hw => h1.uniq u w k (hown u k hu) (hown w k hw), ?_, ?_, ?_, ?_⟩
    · intro u k hu
      have : looks (s.pc u) = some k := by
        dsimp only at hu
        unfold setAt at hu
        split at hu
        · rename_i e
          rw [e, hl]
          exact hu
        · exact hu
      have := h1.sees u k this
      exact ⟨⟨this.1.1, fun w hw => this.1.2 w (hown w k hw)⟩, this.2⟩
    · intro u k nx' hu
      dsimp only at hu ⊢
      unfold setAt at hu
      split at hu
      · cases hu
      · exact h.next u k nx' hu
    · intro u w k o hu
      dsimp only at hu ⊢
      unfold setAt at hu
      split at hu
      · cases hu
      · exact h.pnext u w k o hu
    · obtain ⟨xs, hx, hxs⟩ := h1.chain
      rw [hh] at hx
      cases xs with
      | nil => cases hx
      | cons m r =>
        have e : n = m := Option.some.inj hx.1
        subst e
        refine ⟨r, ?_, fun k hk => ?_⟩
        · have := hx.2
          rwa [h.next t n nx hp] at this
        · have := hxs k (by simp [hk])
          exact ⟨⟨this.1.1, fun w hw => this.1.2 w (hown w k hw)⟩, this.2⟩
  | clear t hp =>
    simp only [Option.toList, accs_append, accs_acc]
    -- the list is empty afterwards: forget it first
    have h0 : FInv (accs τ) { s with head := none } :=
      ⟨h.rf, h.atomic, h.fresh, h.own, h.uniq, h.sees, h.next, h.pnext, ⟨[], rfl, by simp⟩⟩
    have h1 : FInv (accs τ ++ [⟨t, .store, .head⟩]) { s with head := none } := by
      refine ⟨?_, all_append.mpr ⟨h.atomic, by simp [AccKind.atomic]⟩,
        all_append.mpr ⟨h.fresh, by rintro k (hk | hk) <;> simp at hk⟩, ?_, h.uniq, ?_, h.next, h.pnext, ⟨[], rfl, by simp⟩⟩
      · rw [raceFree_append]
        refine ⟨h.rf, fun i b hb hcon => ?_⟩
        have h1 := h.atomic i b hb (.inl hcon.1)
        rcases hcon.2.2 with h' | h'
        · rw [h1] at h'; cases h'
        · simp [AccKind.atomic] at h'
      · intro u n hu
        exact ⟨(h.own u n hu).1, all_append.mpr ⟨(h.own u n hu).2, by rintro (hk | hk) <;> simp at hk⟩⟩
      · intro u n hu
        exact ⟨(h.sees u n hu).1, all_append.mpr ⟨(h.sees u n hu).2.imp fun i b hb h1 h2 => known_mono (hb h1 h2),
          by rintro (hk | hk) <;> simp at hk⟩⟩
    exact finv_quiet h1 t _ s.size (.inr rfl) rfl (by simp)

/-! ## Refinement -/

/-- What the goroutine is doing in the machine with larger steps; the memory is that of the larger steps. -/
def coarse (m : Nat → Node V) : FPC V → PC V
  | .idle => .idle
  | .pVal v n => .pushLoad v n
  | .pNil v n => .pushLoad v n
  | .pLoad v n => .pushLoad v n
  | .pNext v n _ => .pushCas v n
  | .pOld v n => .pushCas v n
  | .pCas v n _ => .pushCas v n
  | .pAdd => .pushAdd
  | .oLoad => .popLoad
  | .oNext n => .popRead n
  | .oCas n nx => .popCas n nx
  | .oVal n => .popSub (m n).val true
  | .oSub v ok => .popSub v ok
  | .clear => .clear
  | .empty => .empty
  | .ret (.pushed _) => .pushAdd
  | .ret (.popped v ok) => .popSub v ok
  | .ret .cleared => .retClear
  | .ret (.isEmpty b) => .retEmpty b

/-- How the private node of a goroutine looks in the two machines: `f` and `c` are the two nodes. -/
def PrivateOk (f c : Node V) : FPC V → Prop
  | .pVal v _ => c.val = v
  | .pNil v _ => c.val = v ∧ f.val = v
  | .pLoad v _ => c.val = v ∧ f.val = v
  | .pNext v _ h => c = ⟨v, h⟩ ∧ f.val = v
  | .pOld v _ => c = f ∧ f.val = v
  | .pCas v _ o => c = f ∧ f.next = o ∧ f.val = v
  | _ => True

/-- The two machines agree. -/
structure Sim (s : FSt V) (c : St V) : Prop where
  alloc : c.alloc = s.alloc
  head : c.head = s.head
  pc : ∀ t, c.pc t = coarse c.mem (s.pc t)
  mem : ∀ n, Published s n → c.mem n = s.mem n
  priv : ∀ t n, owns (s.pc t) = some n → PrivateOk (s.mem n) (c.mem n) (s.pc t)
  pushed : ∀ t b, s.pc t = .ret (.pushed b) → b = true

theorem sim_init : Sim (FSt.init : FSt V) St.init :=
  ⟨rfl, rfl, fun _ => rfl, fun _ _ => rfl, by simp [FSt.init, owns], by simp [FSt.init]⟩

theorem coarse_congr {m m' : Nat → Node V} {p : FPC V} (h : ∀ n, looks p = some n → m' n = m n) : coarse m' p = coarse m p := by
  cases p with
  | oVal n => simp [coarse, h n rfl]
  | ret r => cases r <;> rfl
  | _ => rfl

/-- A step in which the larger machine changes only the goroutine as well, or does nothing. -/
theorem sim_pc {s : FSt V} {c : St V} (h : Sim s c) (t : Nat) (p : FPC V) (hd : Ptr) (sz sz' : BitVec 32)
    (hpub : ∀ n, Published { s with head := hd, size := sz, pc := setAt s.pc t p } n → Published s n ∨ c.mem n = s.mem n)
    (hpr : ∀ n, owns p = some n → PrivateOk (s.mem n) (c.mem n) p) (hps : ∀ b, p = .ret (.pushed b) → b = true) :
    Sim { s with head := hd, size := sz, pc := setAt s.pc t p }
      { c with head := hd, size := sz', pc := setAt c.pc t (coarse c.mem p) } := by
  refine ⟨h.alloc, rfl, fun u => ?_, fun n hn => ?_, fun u n hu => ?_, fun u b hu => ?_⟩
  · by_cases e : u = t
    · subst e; simp [setAt]
    · simp only [setAt, e, if_false]; exact h.pc u
  · rcases hpub n hn with h' | h'
    · exact h.mem n h'
    · exact h'
  · by_cases e : u = t
    · subst e
      simp only [setAt, if_true] at hu ⊢
      exact hpr n hu
    · simp only [setAt, e, if_false] at hu ⊢
      exact h.priv u n hu
  · by_cases e : u = t
    · subst e
      simp only [setAt, if_true] at hu
      exact hps b hu
    · simp only [setAt, e, if_false] at hu
      exact h.pushed u b hu

/-- The same with the list unchanged. -/
theorem sim_pc' {s : FSt V} {c : St V} (h : Sim s c) (t : Nat) (p : FPC V) (q : PC V) (sz sz' : BitVec 32)
    (hpub : ∀ n, Published { s with size := sz, pc := setAt s.pc t p } n → Published s n)
    (hpr : ∀ n, owns p = some n → PrivateOk (s.mem n) (c.mem n) p) (hps : ∀ b, p = .ret (.pushed b) → b = true)
    (hq : q = coarse c.mem p) :
    Sim { s with size := sz, pc := setAt s.pc t p } { c with size := sz', pc := setAt c.pc t q } := by
  have := sim_pc h t p s.head sz sz' (fun n hn => .inl (hpub n hn)) hpr hps
  subst hq
  obtain ⟨h1, h2, h3, h4, h5, h6⟩ := this
  exact ⟨h1, h.head, h3, h4, h5, h6⟩

/-- The same with the larger machine standing still. -/
theorem sim_stay {s : FSt V} {c : St V} (h : Sim s c) (t : Nat) (p : FPC V) (sz : BitVec 32)
    (hpub : ∀ n, Published { s with size := sz, pc := setAt s.pc t p } n → Published s n)
    (hpr : ∀ n, owns p = some n → PrivateOk (s.mem n) (c.mem n) p) (hps : ∀ b, p = .ret (.pushed b) → b = true)
    (hq : c.pc t = coarse c.mem p) :
    Sim { s with size := sz, pc := setAt s.pc t p } c := by
  have := sim_pc' h t p _ sz c.size hpub hpr hps rfl
  have e : setAt c.pc t (coarse c.mem p) = c.pc := by
    funext j
    by_cases e : j = t
    · subst e; simp [setAt, hq]
    · simp [setAt, e]
  rwa [e] at this

/-- A goroutine that keeps its private node, or has none, publishes nothing. -/
theorem published_of_pc {s : FSt V} {t : Nat} {p : FPC V} {hd : Ptr} {sz : BitVec 32} (hp : owns (s.pc t) = none ∨ owns p = owns (s.pc t)) {n : Nat}
    (hn : Published { s with head := hd, size := sz, pc := setAt s.pc t p } n) : Published s n := by
  refine ⟨hn.1, fun u hu => ?_⟩
  have := hn.2 u
  dsimp only at this
  by_cases e : u = t
  · subst e
    simp only [setAt, if_true] at this
    rcases hp with hp | hp
    · rw [hp] at hu; cases hu
    · rw [hp] at this; exact this hu
  · simp only [setAt, e, if_false] at this
    exact this hu

theorem sim_step {τ : List (Acc Loc)} {s s' : FSt V} {c : St V} {e : Option (FLab V)} (hI : FInv τ s) (h : Sim s c) (hs : FStep s e s') :
    ∃ c', Exec Step c (evs e.toList) c' ∧ Sim s' c' := by
  cases hs with
  | callPush t v hp =>
    have hc := h.pc t
    rw [hp] at hc
    refine ⟨_, .visible (.refl _) (.callPush c t v hc), ?_⟩
    rw [h.alloc]
    refine ⟨by simp, h.head, fun u => ?_, fun n hn => ?_, fun u n hu => ?_, fun u b hu => ?_⟩
    · by_cases e : u = t
      · subst e; simp [setAt, coarse]
      · simp only [setAt, e, if_false]
        rw [h.pc u]
        apply (coarse_congr ?_).symm
        intro n hn
        have := (hI.sees u n hn).1.1
        exact setAt_ne _ _ (by omega)
    · have hne : n ≠ s.alloc := by
        rintro rfl
        exact hn.2 t (by simp [setAt, owns])
      have : Published s n := by
        refine ⟨by have := hn.1; dsimp only at this; omega, fun u hu => ?_⟩
        have h' := hn.2 u
        dsimp only at h'
        by_cases e : u = t
        · subst e; rw [hp] at hu; cases hu
        · simp only [setAt, e, if_false] at h'; exact h' hu
      simp only [setAt, hne, if_false]
      exact h.mem n this
    · by_cases e : u = t
      · subst e
        simp only [setAt, if_true] at hu ⊢
        simp only [owns, Option.some.injEq] at hu
        subst hu
        simp [PrivateOk]
      · simp only [setAt, e, if_false] at hu ⊢
        have := (hI.own u n hu).1
        rw [if_neg (by omega), if_neg (by omega)]
        exact h.priv u n hu
    · by_cases e : u = t
      · subst e; simp [setAt] at hu
      · simp only [setAt, e, if_false] at hu; exact h.pushed u b hu
  | pVal t v n hp =>
    refine ⟨c, .refl _, ?_⟩
    have ho : owns (s.pc t) = some n := by rw [hp]; rfl
    have hv := h.priv t n ho
    rw [hp] at hv
    refine ⟨h.alloc, h.head, fun u => ?_, fun k hk => ?_, fun u k hu => ?_, fun u b hu => ?_⟩
    · by_cases e : u = t
      · subst e; have := h.pc u; rw [hp] at this; simpa [setAt, coarse] using this
      · simp only [setAt, e, if_false]; exact h.pc u
    · have hk' := published_of_pc (hd := s.head) (sz := s.size) (t := t) (p := .pNil v n) (.inr (by rw [ho]; rfl)) hk
      have : k ≠ n := by rintro rfl; exact hk'.2 t ho
      simp only [setAt, this, if_false]
      exact h.mem k hk'
    · by_cases e : u = t
      · subst e
        simp only [setAt, if_true] at hu ⊢
        simp only [owns, Option.some.injEq] at hu
        subst hu
        simp only [if_true]
        exact ⟨hv, rfl⟩
      · simp only [setAt, e, if_false] at hu ⊢
        have : k ≠ n := by rintro rfl; exact e (hI.uniq u t k hu ho)
        rw [if_neg this]
        exact h.priv u k hu
    · by_cases e : u = t
      · subst e; simp [setAt] at hu
      · simp only [setAt, e, if_false] at hu; exact h.pushed u b hu
  | pNil t v n hp =>
    refine ⟨c, .refl _, ?_⟩
    have ho : owns (s.pc t) = some n := by rw [hp]; rfl
    have hv := h.priv t n ho
    rw [hp] at hv
    refine ⟨h.alloc, h.head, fun u => ?_, fun k hk => ?_, fun u k hu => ?_, fun u b hu => ?_⟩
    · by_cases e : u = t
      · subst e; have := h.pc u; rw [hp] at this; simpa [setAt, coarse] using this
      · simp only [setAt, e, if_false]; exact h.pc u
    · have hk' := published_of_pc (hd := s.head) (sz := s.size) (t := t) (p := .pLoad v n) (.inr (by rw [ho]; rfl)) hk
      have : k ≠ n := by rintro rfl; exact hk'.2 t ho
      simp only [setAt, this, if_false]
      exact h.mem k hk'
    · by_cases e : u = t
      · subst e
        simp only [setAt, if_true] at hu ⊢
        simp only [owns, Option.some.injEq] at hu
        subst hu
        simp only [if_true]
        exact hv
      · simp only [setAt, e, if_false] at hu ⊢
        have : k ≠ n := by rintro rfl; exact e (hI.uniq u t k hu ho)
        rw [if_neg this]
        exact h.priv u k hu
    · by_cases e : u = t
      · subst e; simp [setAt] at hu
      · simp only [setAt, e, if_false] at hu; exact h.pushed u b hu
  | pLoad t v n hp =>
    have ho : owns (s.pc t) = some n := by rw [hp]; rfl
    have hv := h.priv t n ho
    rw [hp] at hv
    have hc := h.pc t
    rw [hp] at hc
    refine ⟨_, .silent (.refl _) (.pushLoad c t v n hc), ?_⟩
    refine ⟨h.alloc, h.head, fun u => ?_, fun k hk => ?_, fun u k hu => ?_, fun u b hu => ?_⟩
    · by_cases e : u = t
      · subst e; simp [setAt, coarse]
      · simp only [setAt, e, if_false]
        rw [h.pc u]
        refine (coarse_congr fun k hk => ?_).symm
        have : k ≠ n := by rintro rfl; exact (hI.sees u k hk).1.2 t ho
        exact setAt_ne _ _ this
    · have hk' := published_of_pc (hd := s.head) (sz := s.size) (t := t) (p := .pNext v n s.head) (.inr (by rw [ho]; rfl)) hk
      have : k ≠ n := by rintro rfl; exact hk'.2 t ho
      simp only [setAt, this, if_false]
      exact h.mem k hk'
    · by_cases e : u = t
      · subst e
        simp only [setAt, if_true] at hu ⊢
        simp only [owns, Option.some.injEq] at hu
        subst hu
        simp only [if_true]
        refine ⟨?_, hv.2⟩
        rw [h.head, hv.1]
      · simp only [setAt, e, if_false] at hu ⊢
        have : k ≠ n := by rintro rfl; exact e (hI.uniq u t k hu ho)
        rw [if_neg this]
        exact h.priv u k hu
    · by_cases e : u = t
      · subst e; simp [setAt] at hu
      · simp only [setAt, e, if_false] at hu; exact h.pushed u b hu
  | pNext t v n o hp =>
    refine ⟨c, .refl _, ?_⟩
    have ho : owns (s.pc t) = some n := by rw [hp]; rfl
    have hv := h.priv t n ho
    rw [hp] at hv
    refine ⟨h.alloc, h.head, fun u => ?_, fun k hk => ?_, fun u k hu => ?_, fun u b hu => ?_⟩
    · by_cases e : u = t
      · subst e; have := h.pc u; rw [hp] at this; simpa [setAt, coarse] using this
      · simp only [setAt, e, if_false]; exact h.pc u
    · have hk' := published_of_pc (hd := s.head) (sz := s.size) (t := t) (p := .pOld v n) (.inr (by rw [ho]; rfl)) hk
      have : k ≠ n := by rintro rfl; exact hk'.2 t ho
      simp only [setAt, this, if_false]
      exact h.mem k hk'
    · by_cases e : u = t
      · subst e
        simp only [setAt, if_true] at hu ⊢
        simp only [owns, Option.some.injEq] at hu
        subst hu
        simp only [if_true, PrivateOk]
        rw [hv.1, hv.2]
        exact ⟨rfl, rfl⟩
      · simp only [setAt, e, if_false] at hu ⊢
        have : k ≠ n := by rintro rfl; exact e (hI.uniq u t k hu ho)
        rw [if_neg this]
        exact h.priv u k hu
    · by_cases e : u = t
      · subst e; simp [setAt] at hu
      · simp only [setAt, e, if_false] at hu; exact h.pushed u b hu
  | pOld t v n hp =>
    have ho : owns (s.pc t) = some n := by rw [hp]; rfl
    have hv := h.priv t n ho
    rw [hp] at hv
    have hc := h.pc t
    rw [hp] at hc
    refine ⟨c, .refl _, ?_⟩
    exact sim_stay h t (.pCas v n (s.mem n).next) s.size (fun k hk => published_of_pc (.inr (by rw [ho]; rfl)) hk)
      (fun k hk => by simp only [owns, Option.some.injEq] at hk; subst hk; exact ⟨hv.1, rfl, hv.2⟩) (by simp) hc
  | pCasOk t v n o hp hh =>
    have ho : owns (s.pc t) = some n := by rw [hp]; rfl
    have hv := h.priv t n ho
    rw [hp] at hv
    have hc := h.pc t
    rw [hp] at hc
    refine ⟨_, .silent (.refl _) (.pushCasOk c t v n hc ?_), ?_⟩
    · rw [h.head, hv.1, hv.2.1, hh]
    · refine sim_pc h t .pAdd (some n) s.size c.size (fun k hk => ?_) (by simp [owns]) (by simp)
      by_cases e : k = n
      · subst e; exact .inr hv.1
      · refine .inl ⟨hk.1, fun u hu => ?_⟩
        by_cases e' : u = t
        · subst e'; rw [ho] at hu; exact e (Option.some.inj hu).symm
        · have := hk.2 u
          dsimp only at this
          rw [setAt_ne _ _ e'] at this
          exact this hu
  | pCasFail t v n o hp hh =>
    have ho : owns (s.pc t) = some n := by rw [hp]; rfl
    have hv := h.priv t n ho
    rw [hp] at hv
    have hc := h.pc t
    rw [hp] at hc
    refine ⟨_, .silent (.refl _) (.pushCasFail c t v n hc ?_), ?_⟩
    · rw [h.head, hv.1, hv.2.1]; exact hh
    · exact sim_pc' h t (.pLoad v n) _ s.size c.size (fun k hk => published_of_pc (.inr (by rw [ho]; rfl)) hk)
        (fun k hk => by
          simp only [owns, Option.some.injEq] at hk
          subst hk
          exact ⟨by rw [hv.1]; exact hv.2.2, hv.2.2⟩) (by simp) rfl
  | pAdd t hp =>
    have hc := h.pc t
    rw [hp] at hc
    refine ⟨c, .refl _, ?_⟩
    exact sim_stay h t (.ret (.pushed true)) (s.size + 1) (fun k hk => published_of_pc (.inl (by rw [hp]; rfl)) hk) (by simp [owns]) (by simp) hc
  | callPop t hp =>
    have hc := h.pc t
    rw [hp] at hc
    refine ⟨_, .visible (.refl _) (.callPop c t hc), ?_⟩
    exact sim_pc' h t .oLoad _ s.size c.size (fun k hk => published_of_pc (.inl (by rw [hp]; rfl)) hk) (by simp [owns]) (by simp) rfl
  | oNil t hp hh =>
    have hc := h.pc t
    rw [hp] at hc
    refine ⟨_, .silent (.refl _) (.popNil c t hc (h.head.trans hh)), ?_⟩
    exact sim_pc' h t (.oSub default false) _ s.size c.size (fun k hk => published_of_pc (.inl (by rw [hp]; rfl)) hk) (by simp [owns]) (by simp) rfl
  | oLoad t n hp hh =>
    have hc := h.pc t
    rw [hp] at hc
    refine ⟨_, .silent (.refl _) (.popLoad c t n hc (h.head.trans hh)), ?_⟩
    exact sim_pc' h t (.oNext n) _ s.size c.size (fun k hk => published_of_pc (.inl (by rw [hp]; rfl)) hk) (by simp [owns]) (by simp) rfl
  | oNext t n hp =>
    have hc := h.pc t
    rw [hp] at hc
    have hm := h.mem n (hI.sees t n (by rw [hp]; rfl)).1
    refine ⟨_, .silent (.refl _) (.popRead c t n hc), ?_⟩
    exact sim_pc' h t (.oCas n (s.mem n).next) _ s.size c.size (fun k hk => published_of_pc (.inl (by rw [hp]; rfl)) hk) (by simp [owns])
      (by simp) (by rw [hm]; rfl)
  | oCasOk t n nx hp hh =>
    have hc := h.pc t
    rw [hp] at hc
    refine ⟨_, .silent (.refl _) (.popCasOk c t n nx hc (h.head.trans hh)), ?_⟩
    exact sim_pc h t (.oVal n) nx s.size c.size
      (fun k hk => .inl (published_of_pc (.inl (by rw [hp]; rfl)) hk)) (by simp [owns]) (by simp)
  | oCasFail t n nx hp hh =>
    have hc := h.pc t
    rw [hp] at hc
    refine ⟨_, .silent (.refl _) (.popCasFail c t n nx hc (by rw [h.head]; exact hh)), ?_⟩
    exact sim_pc' h t .oLoad _ s.size c.size (fun k hk => published_of_pc (.inl (by rw [hp]; rfl)) hk) (by simp [owns]) (by simp) rfl
  | oVal t n hp =>
    have hc := h.pc t
    rw [hp] at hc
    have hm := h.mem n (hI.sees t n (by rw [hp]; rfl)).1
    refine ⟨c, .refl _, ?_⟩
    exact sim_stay h t (.oSub (s.mem n).val true) s.size (fun k hk => published_of_pc (.inl (by rw [hp]; rfl)) hk) (by simp [owns])
      (by simp) (by rw [hc, ← hm]; rfl)
  | oSub t v ok hp =>
    have hc := h.pc t
    rw [hp] at hc
    refine ⟨c, .refl _, ?_⟩
    exact sim_stay h t (.ret (.popped v ok)) (s.size - 1) (fun k hk => published_of_pc (.inl (by rw [hp]; rfl)) hk) (by simp [owns]) (by simp) hc
  | callClear t hp =>
    have hc := h.pc t
    rw [hp] at hc
    refine ⟨_, .visible (.refl _) (.callClear c t hc), ?_⟩
    exact sim_pc' h t .clear _ s.size c.size (fun k hk => published_of_pc (.inl (by rw [hp]; rfl)) hk) (by simp [owns]) (by simp) rfl
  | clear t hp =>
    have hc := h.pc t
    rw [hp] at hc
    refine ⟨_, .silent (.refl _) (.clear c t hc), ?_⟩
    exact sim_pc h t (.ret .cleared) none s.size c.size
      (fun k hk => .inl (published_of_pc (.inl (by rw [hp]; rfl)) hk)) (by simp [owns]) (by simp)
  | callEmpty t hp =>
    have hc := h.pc t
    rw [hp] at hc
    refine ⟨_, .visible (.refl _) (.callEmpty c t hc), ?_⟩
    exact sim_pc' h t .empty _ s.size c.size (fun k hk => published_of_pc (.inl (by rw [hp]; rfl)) hk) (by simp [owns]) (by simp) rfl
  | empty t hp =>
    have hc := h.pc t
    rw [hp] at hc
    refine ⟨_, .silent (.refl _) (.empty c t hc), ?_⟩
    exact sim_pc' h t (.ret (.isEmpty s.head.isNone)) _ s.size c.size (fun k hk => published_of_pc (.inl (by rw [hp]; rfl)) hk) (by simp [owns])
      (by simp) (by rw [h.head]; rfl)
  | size t hp => exact ⟨c, .refl _, h⟩
  | ret t r hp =>
    have hc := h.pc t
    rw [hp] at hc
    have key : ∀ sz', Sim { s with pc := setAt s.pc t .idle } { c with size := sz', pc := setAt c.pc t .idle } :=
      fun sz' => sim_pc' h t .idle _ s.size sz' (fun k hk => published_of_pc (.inl (by rw [hp]; rfl)) hk) (by simp [owns]) (by simp) rfl
    cases r with
    | pushed b =>
      have := h.pushed t b hp
      subst this
      exact ⟨_, .visible (.refl _) (.pushAdd c t hc), key _⟩
    | popped v ok => exact ⟨_, .visible (.refl _) (.popSub c t v ok hc), key _⟩
    | cleared => exact ⟨_, .visible (.refl _) (.retClear c t hc), key _⟩
    | isEmpty b => exact ⟨_, .visible (.refl _) (.retEmpty c t b hc), key _⟩

theorem finv_exec {τ : List (FLab V)} {s : FSt V} (h : Exec FStep FSt.init τ s) : FInv (accs τ) s := by
  induction h with
  | refl => exact finv_init
  | silent _ hs ih => simpa using finv_step ih hs
  | visible _ hs ih => simpa using finv_step ih hs

theorem sim_exec {τ : List (FLab V)} {s : FSt V} (h : Exec FStep FSt.init τ s) : ∃ c, Exec Step St.init (evs τ) c ∧ Sim s c := by
  induction h with
  | refl => exact ⟨_, .refl _, sim_init⟩
  | silent h1 hs ih =>
    obtain ⟨c, hc, hsim⟩ := ih
    obtain ⟨c', hc', hsim'⟩ := sim_step (finv_exec h1) hsim hs
    exact ⟨c', by simpa [evs] using hc.trans hc', hsim'⟩
  | visible h1 hs ih =>
    obtain ⟨c, hc, hsim⟩ := ih
    obtain ⟨c', hc', hsim'⟩ := sim_step (finv_exec h1) hsim hs
    exact ⟨c', by simpa [evs_append] using hc.trans hc', hsim'⟩

end Verif.LFQueue.Fine
