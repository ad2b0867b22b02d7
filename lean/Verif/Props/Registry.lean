import Verif.Model.Registry
import Mathlib.Tactic.Tauto
/-!
# Properties of the error registry (C62), the key/value mapping (C65) and the factory (C70)
-/
set_option linter.unusedSectionVars false

namespace Verif.Errors

/-- The state after the registrations `ts`, in closed form. -/
theorem regAll_eq (ts : List String) (s : State) (n : Nat) (hn : n ≤ 8998) (hs : s.curMax = BitVec.ofNat 32 (1001 + n)) :
    (regAll s ts).1 = ⟨s.id2err ++ ts.take (8998 - n), BitVec.ofNat 32 (1001 + min (n + ts.length) 8998)⟩ ∧
    (regAll s ts).2 = (List.range ts.length).map fun i =>
      if n + i < 8998 then (BitVec.ofNat 32 (1002 + n + i), false) else (1000#32, true) := by
  induction ts generalizing s n with
  | nil =>
    obtain ⟨l, c⟩ := s
    simp only at hs
    simp [regAll, hs, Nat.min_eq_left hn]
  | cons t ts ih =>
    rw [List.length_cons, List.range_succ_eq_map]
    by_cases h : n < 8998
    · have hr : reg s t = (⟨s.id2err ++ [t], BitVec.ofNat 32 (1001 + (n + 1))⟩, BitVec.ofNat 32 (1002 + n), false) := by
        have h1 : s.curMax < 9999#32 := by
          rw [hs, BitVec.lt_def]; simp only [BitVec.toNat_ofNat]; omega
        have h2 : s.curMax + 1#32 = BitVec.ofNat 32 (1001 + (n + 1)) := by
          rw [hs]; apply BitVec.eq_of_toNat_eq; simp; omega
        have h3 : BitVec.ofNat 32 (1001 + (n + 1)) = BitVec.ofNat 32 (1002 + n) := by congr 1; omega
        simp only [reg, if_pos h1, h2, h3]
      have := ih ⟨s.id2err ++ [t], BitVec.ofNat 32 (1001 + (n + 1))⟩ (n + 1) (by omega) rfl
      simp only [regAll, hr, this.1, this.2]
      constructor
      · have e : 8998 - n = (8998 - (n + 1)) + 1 := by omega
        rw [e, List.take_succ_cons, List.append_assoc, List.singleton_append]
        congr 3
        omega
      · simp only [List.map_cons, List.map_map, Nat.add_zero, if_pos h]
        congr 1
        apply List.map_congr_left
        intro i _
        simp only [Function.comp]
        have e1 : n + 1 + i = n + (i + 1) := by omega
        have e2 : 1002 + (n + 1) + i = 1002 + n + (i + 1) := by omega
        rw [e1, e2]
    · have hn8 : n = 8998 := by omega
      have hr : reg s t = (s, 1000#32, true) := by
        have h1 : ¬s.curMax < 9999#32 := by
          rw [hs, BitVec.lt_def]; simp only [BitVec.toNat_ofNat]; omega
        simp only [reg, if_neg h1]
      have := ih s n hn hs
      simp only [regAll, hr, this.1, this.2]
      subst hn8
      constructor
      · simp
      · simp only [List.map_cons, List.map_map]
        congr 1
        apply List.map_congr_left
        intro i _
        simp only [Function.comp]
        rw [if_neg (by omega), if_neg (by omega)]

theorem start_eq : start = ⟨["unknown error"], BitVec.ofNat 32 (1001 + 0)⟩ := by decide +kernel

theorem run_eq (ts : List String) :
    (regAll start ts).1 = ⟨"unknown error" :: ts.take 8998, BitVec.ofNat 32 (1001 + min ts.length 8998)⟩ ∧
    (regAll start ts).2 = (List.range ts.length).map fun i =>
      if i < 8998 then (BitVec.ofNat 32 (1002 + i), false) else (1000#32, true) := by
  have := regAll_eq ts start 0 (by omega) (by rw [start_eq])
  rw [start_eq] at this
  rw [start_eq]
  simpa using this

theorem get_eq (ts : List String) (cp : BitVec 32) :
    get (regAll start ts).1 cp =
      if h : 1001 ≤ cp.toNat ∧ cp.toNat ≤ 1001 + min ts.length 8998 then
        .ok (("unknown error" :: ts)[cp.toNat - 1001]'(by simp; omega), false)
      else .ok ("", true) := by
  rw [(run_eq ts).1]
  have hlt := cp.isLt
  unfold get valid
  by_cases h : 1001 ≤ cp.toNat ∧ cp.toNat ≤ 1001 + min ts.length 8998
  · have hv : (!(decide (1001#32 ≤ cp) && decide (cp ≤ BitVec.ofNat 32 (1001 + min ts.length 8998)))) = false := by
      simp only [Bool.not_eq_false', Bool.and_eq_true, decide_eq_true_eq, BitVec.le_def, BitVec.toNat_ofNat]
      omega
    have hi : (cp - 1001#32).toNat = cp.toNat - 1001 := by
      rw [BitVec.toNat_sub]; simp only [BitVec.toNat_ofNat]; omega
    rw [if_pos hv, dif_pos h]
    simp only [hi]
    have hlen : cp.toNat - 1001 < ("unknown error" :: ts).length := by simp; omega
    have : ("unknown error" :: ts.take 8998)[cp.toNat - 1001]? = some (("unknown error" :: ts)[cp.toNat - 1001]) := by
      have e : "unknown error" :: ts.take 8998 = ("unknown error" :: ts).take 8999 := by simp
      rw [e, List.getElem?_take_of_lt (by omega), List.getElem?_eq_getElem hlen]
    simp [Go.get, this]
  · have hv : ¬(!(decide (1001#32 ≤ cp) && decide (cp ≤ BitVec.ofNat 32 (1001 + min ts.length 8998)))) = false := by
      simp only [Bool.not_eq_false', Bool.and_eq_true, decide_eq_true_eq, BitVec.le_def, BitVec.toNat_ofNat]
      omega
    rw [if_neg hv, dif_neg h]

/-- **C62 (ids).** For every sequence of registrations after program start: the `i`-th is accepted exactly when fewer
than 8998 came before it; it then gets the identifier `1002 + i`, so accepted identifiers are pairwise distinct and lie
in the documented range 1001 to 9999; a rejected one reports an error and gets the invalid identifier 1000. -/
theorem C62_ids (ts : List String) (i : Nat) (h : i < ts.length) :
    ∃ id err, (regAll start ts).2[i]? = some (id, err) ∧ (err = true ↔ 8998 ≤ i) ∧
      (err = false → id.toNat = 1002 + i ∧ 1001 ≤ id.toNat ∧ id.toNat ≤ 9999) ∧ (err = true → id.toNat = 1000) := by
  rw [(run_eq ts).2]
  by_cases hi : i < 8998
  · refine ⟨BitVec.ofNat 32 (1002 + i), false, by simp [h, hi], by simp; omega, ?_, by simp⟩
    intro _
    rw [BitVec.toNat_ofNat]
    omega
  · refine ⟨1000#32, true, by simp [h, hi], by simp; omega, by simp, by simp⟩

/-- **C62 (distinct).** No identifier is given to two accepted registrations, nor does it equal one of the two that
exist when the program starts. -/
theorem C62_ids_distinct (ts : List String) (i j : Nat) (id id' : BitVec 32)
    (hi : (regAll start ts).2[i]? = some (id, false)) (hj : (regAll start ts).2[j]? = some (id', false)) :
    (id = id' → i = j) ∧ id ≠ erridStd ∧ id ≠ erridUnknown := by
  have hlen : (regAll start ts).2.length = ts.length := by rw [(run_eq ts).2]; simp
  have li := (List.getElem?_eq_some_iff.1 hi).1
  have lj := (List.getElem?_eq_some_iff.1 hj).1
  obtain ⟨a, e, h1, h2, h3, -⟩ := C62_ids ts i (by omega)
  obtain ⟨b, e', h1', h2', h3', -⟩ := C62_ids ts j (by omega)
  rw [hi] at h1; rw [hj] at h1'
  cases h1; cases h1'
  have k1 := (h3 rfl).1
  have k2 := (h3' rfl).1
  have hstd : erridStd.toNat = 1001 := by decide +kernel
  have hunk : erridUnknown.toNat = 1001 := by decide +kernel
  refine ⟨?_, ?_, ?_⟩ <;> rintro rfl <;> omega

/-- **C62 (texts).** Every accepted registration keeps returning its own text, whatever is registered later.  Missing: the
registration of `ERRID_STD` before the package's `init`, for which it is false. -/
theorem C62_get_returns_text_partial (ts : List String) (i : Nat) (id : BitVec 32) (t : String) (ht : ts[i]? = some t)
    (hi : (regAll start ts).2[i]? = some (id, false)) (more : List String) :
    get (regAll start (ts ++ more)).1 id = .ok (t, false) := by
  have li := (List.getElem?_eq_some_iff.1 ht).1
  obtain ⟨a, e, h1, h2, h3, -⟩ := C62_ids ts i li
  rw [hi] at h1; cases h1
  have k1 := (h3 rfl).1
  have k3 : ¬8998 ≤ i := fun h => by have := h2.2 h; cases this
  rw [get_eq, dif_pos (by rw [List.length_append]; omega)]
  have e : id.toNat - 1001 = i + 1 := by omega
  have : ("unknown error" :: (ts ++ more))[i + 1]? = some t := by
    rw [List.getElem?_cons_succ, List.getElem?_append_left li, ht]
  obtain ⟨hl, hg⟩ := List.getElem?_eq_some_iff.1 this
  simp only [e, hg]

/-- **C62 (unregistered).** `Get` never panics, and reports an error for every identifier that is neither one of the
accepted registrations nor the one that exists when the program starts. -/
theorem C62_unregistered_reports_error (ts : List String) (id : BitVec 32) (h0 : id ≠ erridUnknown)
    (h : ∀ i : Nat, (regAll start ts).2[i]? ≠ some (id, false)) :
    get (regAll start ts).1 id = .ok ("", true) := by
  rw [get_eq, dif_neg]
  rintro ⟨h1, h2⟩
  have hne : id.toNat ≠ 1001 := by
    intro e
    exact h0 (BitVec.eq_of_toNat_eq (by rw [e]; rfl))
  have hlt := id.isLt
  apply h (id.toNat - 1002)
  rw [(run_eq ts).2]
  rw [List.getElem?_map, List.getElem?_range (by omega)]
  simp only [Option.map_some, if_pos (show id.toNat - 1002 < 8998 by omega)]
  have e : BitVec.ofNat 32 (1002 + (id.toNat - 1002)) = id := by
    apply BitVec.eq_of_toNat_eq
    rw [BitVec.toNat_ofNat]; omega
  rw [e]

/-- **C62 (the standard error) is false.** The first registration, `ERRID_STD` with the text "standard error", made
before the package's `init`, loses its text and shares its identifier with `ERRID_UNKNOWN`, in every history. -/
theorem C62_std_text_lost (ts : List String) :
    erridStd = erridUnknown ∧ get beforeInit.1 erridStd = .ok ("standard error", false) ∧
      get (regAll start ts).1 erridStd = .ok ("unknown error", false) := by
  refine ⟨by decide +kernel, by decide +kernel, ?_⟩
  have e : erridStd = 1001#32 := by decide +kernel
  rw [get_eq, e, dif_pos (by simp)]
  simp

example : (regAll start ["a", "b"]).2 = [(1002#32, false), (1003#32, false)] := by decide +kernel
example : get (regAll start ["a", "b"]).1 1003#32 = .ok ("b", false) := by decide +kernel
example : get (regAll start ["a", "b"]).1 1004#32 = .ok ("", true) := by decide +kernel

/-- A rejected registration exists. -/
example : ∃ ts i, i < ts.length ∧ (regAll start ts).2[i]? = some (1000#32, true) := by
  obtain ⟨n, hn⟩ : ∃ n, n = 9000 := ⟨_, rfl⟩
  have hlen : (List.replicate n "e").length = n := List.length_replicate
  refine ⟨List.replicate n "e", 8999, by omega, ?_⟩
  rw [(run_eq _).2, hlen, List.getElem?_map, List.getElem?_range (by omega)]
  rfl

example := C62_ids ["a", "b"] 1 (by decide)
example := C62_ids_distinct ["a", "b", "a"] 0 2 1002#32 1004#32 (by decide +kernel) (by decide +kernel)
example := C62_get_returns_text_partial ["a", "b"] 1 1003#32 "b" rfl (by decide +kernel) ["c"]

example : get (regAll start ["a", "b"]).1 1004#32 = .ok ("", true) :=
  C62_unregistered_reports_error ["a", "b"] 1004#32 (by decide) (by
    rw [show (regAll start ["a", "b"]).2 = [(1002#32, false), (1003#32, false)] by decide +kernel]
    rintro (_ | _ | i) <;> simp)

end Verif.Errors

namespace Verif.Mapping

variable {K V : Type} [DecidableEq K] [DecidableEq V]

/-- The calls on a mapping. -/
inductive Op (K V : Type) where
  | insert (k : K) (v : V)
  | removeByKey (k : K)
  | removeByValue (v : V)
  | clear

/-- One call. -/
def apply (m : M K V) : Op K V → M K V
  | .insert k v => (insert m k v).1
  | .removeByKey k => (removeByKey m k).1
  | .removeByValue v => (removeByValue m v).1
  | .clear => clear m

/-- The specification: a set of pairs. -/
def specApply (s : K → V → Prop) : Op K V → K → V → Prop
  | .insert k v => fun x y => s x y ∨ (x = k ∧ y = v ∧ (∀ b, ¬s k b) ∧ ∀ a, ¬s a v)
  | .removeByKey k => fun x y => s x y ∧ x ≠ k
  | .removeByValue v => fun x y => s x y ∧ y ≠ v
  | .clear => fun _ _ => False

/-- The pairs after a history. -/
def specRun (ops : List (Op K V)) : K → V → Prop := ops.foldl specApply (fun _ _ => False)

/-- The mapping after a history. -/
def run (ops : List (Op K V)) : M K V := ops.foldl apply init

/-- The mapping stores the pairs, in both directions. -/
def Repr (m : M K V) (s : K → V → Prop) : Prop :=
  ∀ k v, (find m k = some v ↔ s k v) ∧ (reverseFind m v = some k ↔ s k v)

theorem Repr.fun1 {m : M K V} {s : K → V → Prop} (h : Repr m s) {k : K} {v v' : V} (h1 : s k v) (h2 : s k v') : v = v' := by
  have a := (h k v).1.2 h1
  have b := (h k v').1.2 h2
  rw [a] at b; exact Option.some.inj b

theorem Repr.fun2 {m : M K V} {s : K → V → Prop} (h : Repr m s) {k k' : K} {v : V} (h1 : s k v) (h2 : s k' v) : k = k' := by
  have a := (h k v).2.2 h1
  have b := (h k' v).2.2 h2
  rw [a] at b; exact Option.some.inj b

theorem Repr.none1 {m : M K V} {s : K → V → Prop} (h : Repr m s) {k : K} : find m k = none ↔ ∀ v, ¬s k v := by
  constructor
  · intro hn v hv
    rw [(h k v).1.2 hv] at hn; cases hn
  · intro hv
    cases hf : find m k with
    | none => rfl
    | some v => exact absurd ((h k v).1.1 hf) (hv v)

theorem Repr.none2 {m : M K V} {s : K → V → Prop} (h : Repr m s) {v : V} : reverseFind m v = none ↔ ∀ k, ¬s k v := by
  constructor
  · intro hn k hv
    rw [(h k v).2.2 hv] at hn; cases hn
  · intro hv
    cases hf : reverseFind m v with
    | none => rfl
    | some k => exact absurd ((h k v).2.1 hf) (hv k)

theorem Repr.apply {m : M K V} {s : K → V → Prop} (h : Repr m s) (op : Op K V) :
    Repr (apply m op) (specApply s op) := by
  cases op with
  | insert k v =>
    simp only [Mapping.apply, insert, specApply]
    by_cases h1 : (find m k).isSome
    · rw [if_pos h1]
      obtain ⟨b, hb⟩ := Option.isSome_iff_exists.1 h1
      have hs := (h k b).1.1 hb
      intro x y
      have : (s x y ∨ x = k ∧ y = v ∧ (∀ b, ¬s k b) ∧ ∀ a, ¬s a v) ↔ s x y :=
        ⟨fun h => h.elim id fun h => absurd hs (h.2.2.1 b), .inl⟩
      simp only [this]; exact h x y
    · rw [if_neg h1]
      by_cases h2 : (reverseFind m v).isSome
      · rw [if_pos h2]
        obtain ⟨a, ha⟩ := Option.isSome_iff_exists.1 h2
        have hs := (h a v).2.1 ha
        intro x y
        have : (s x y ∨ x = k ∧ y = v ∧ (∀ b, ¬s k b) ∧ ∀ a, ¬s a v) ↔ s x y :=
          ⟨fun h => h.elim id fun h => absurd hs (h.2.2.2 a), .inl⟩
        simp only [this]; exact h x y
      · rw [if_neg h2]
        have n1 : ∀ b, ¬s k b := h.none1.1 (by simpa using h1)
        have n2 : ∀ a, ¬s a v := h.none2.1 (by simpa using h2)
        intro x y
        have hx := h x y
        simp only [find, reverseFind, put] at hx ⊢
        constructor
        · by_cases hk : x = k
          · subst hk
            simp only [if_true, Option.some.injEq, true_and]
            constructor
            · rintro rfl; exact .inr ⟨rfl, n1, n2⟩
            · rintro (h' | h')
              · exact absurd h' (n1 y)
              · exact h'.1.symm
          · simp only [hk, if_false, false_and, or_false]; exact hx.1
        · by_cases hv : y = v
          · subst hv
            simp only [if_true, Option.some.injEq, true_and]
            constructor
            · rintro rfl; exact .inr ⟨rfl, n1, n2⟩
            · rintro (h' | h')
              · exact absurd h' (n2 x)
              · exact h'.1.symm
          · simp only [hv, if_false, false_and, and_false, or_false]; exact hx.2
  | removeByKey k =>
    simp only [Mapping.apply, removeByKey, specApply]
    cases hf : find m k with
    | none =>
      have n1 := h.none1.1 hf
      intro x y
      have : (s x y ∧ x ≠ k) ↔ s x y := ⟨fun h => h.1, fun h => ⟨h, fun e => n1 y (e ▸ h)⟩⟩
      simp only [this]; exact h x y
    | some v =>
      have hs := (h k v).1.1 hf
      intro x y
      have hx := h x y
      simp only [find, reverseFind, del] at hx ⊢
      constructor
      · by_cases hk : x = k
        · simp [hk]
        · simp only [hk, if_false, ne_eq, not_false_eq_true, and_true]; exact hx.1
      · by_cases hv : y = v
        · subst hv
          simp only [if_true, reduceCtorEq, false_iff, not_and, ne_eq, not_not]
          exact fun h' => h.fun2 h' hs
        · simp only [hv, if_false]
          rw [hx.2]
          refine ⟨fun h' => ⟨h', fun e => hv ?_⟩, fun h' => h'.1⟩
          subst e; exact h.fun1 h' hs
  | removeByValue v =>
    simp only [Mapping.apply, removeByValue, specApply]
    cases hf : reverseFind m v with
    | none =>
      have n1 := h.none2.1 hf
      intro x y
      have : (s x y ∧ y ≠ v) ↔ s x y := ⟨fun h => h.1, fun h => ⟨h, fun e => n1 x (e ▸ h)⟩⟩
      simp only [this]; exact h x y
    | some k =>
      have hs := (h k v).2.1 hf
      intro x y
      have hx := h x y
      simp only [find, reverseFind, del] at hx ⊢
      constructor
      · by_cases hk : x = k
        · subst hk
          simp only [if_true, reduceCtorEq, false_iff, not_and, ne_eq, not_not]
          exact fun h' => h.fun1 h' hs
        · simp only [hk, if_false]
          rw [hx.1]
          refine ⟨fun h' => ⟨h', fun e => hk ?_⟩, fun h' => h'.1⟩
          subst e; exact h.fun2 h' hs
      · by_cases hv : y = v
        · simp [hv]
        · simp only [hv, if_false, ne_eq, not_false_eq_true, and_true]; exact hx.2
  | clear => intro x y; simp [Mapping.apply, clear, init, find, reverseFind, specApply]

/-- **C65 (history).** After any history of calls the mapping stores, in both directions, exactly the pairs of the
specification: `Find` and `ReverseFind` are the two ways to look a pair up. -/
theorem C65_find_reflects_history (ops : List (Op K V)) (k : K) (v : V) :
    (find (run ops) k = some v ↔ specRun ops k v) ∧ (reverseFind (run ops) v = some k ↔ specRun ops k v) := by
  suffices h : ∀ (m : M K V) s, Repr m s → Repr (ops.foldl apply m) (ops.foldl specApply s) from
    h init _ (by intro x y; simp [init, find, reverseFind]) k v
  induction ops with
  | nil => exact fun m s h => h
  | cons op ops ih => exact fun m s h => ih _ _ (h.apply op)

/-- **C65 (inverse).** After any history, looking up by key and by value are inverse, and so every key has one value and
every value one key. -/
theorem C65_inverse (ops : List (Op K V)) (k : K) (v : V) :
    find (run ops) k = some v ↔ reverseFind (run ops) v = some k := by
  rw [(C65_find_reflects_history ops k v).1, (C65_find_reflects_history ops k v).2]

/-- **C65 (insert).** After any history, `Insert` succeeds exactly when neither the key nor the value is present; it
then returns the key and adds just this pair. -/
theorem C65_insert (ops : List (Op K V)) (k : K) (v : V) :
    ((insert (run ops) k v).2 = some k ↔ find (run ops) k = none ∧ reverseFind (run ops) v = none) ∧
    ((insert (run ops) k v).2 = none → (insert (run ops) k v).1 = run ops) ∧
    ((insert (run ops) k v).2 ≠ none → (insert (run ops) k v).2 = some k ∧
      ∀ x, find (insert (run ops) k v).1 x = if x = k then some v else find (run ops) x) := by
  unfold insert
  cases h1 : find (run ops) k <;> cases h2 : reverseFind (run ops) v <;> simp [put, find]

/-- **C65 (remove).** The removals report whether they removed something, and an unsuccessful one changes nothing. -/
theorem C65_remove (ops : List (Op K V)) (k : K) (v : V) :
    ((removeByKey (run ops) k).2 = (find (run ops) k).isSome) ∧
    ((removeByKey (run ops) k).2 = false → (removeByKey (run ops) k).1 = run ops) ∧
    ((removeByValue (run ops) v).2 = (reverseFind (run ops) v).isSome) ∧
    ((removeByValue (run ops) v).2 = false → (removeByValue (run ops) v).1 = run ops) := by
  unfold removeByKey removeByValue
  cases find (run ops) k <;> cases reverseFind (run ops) v <;> simp

example : let m := run [.insert 1 "a", .insert 2 "b", .insert 3 "a", .removeByValue "b", .insert 2 "c"]
    find m 1 = some "a" ∧ find m 2 = some "c" ∧ find m 3 = none ∧ reverseFind m "b" = none ∧
      reverseFind m "c" = some 2 := by decide +kernel

end Verif.Mapping

namespace Verif.Factory

variable {N A O : Type}

/-- **C70 is false.** After any history of registrations, `Create` returns nil for every name and every argument, although
every `AddCreater` and `RemoveCreater` reported success. -/
theorem C70_create_never_creates (ops : List (Op N A O)) (name : N) (arg : A) (c : A → O) :
    create (run new ops) name arg = none ∧ (addCreater (run new ops) name c).2 = false ∧
      (removeCreater (run new ops) name).2 = false ∧ create (addCreater (run new ops) name c).1 name arg = none := by
  have h : run (new : F N A O) ops = new := by
    induction ops with
    | nil => rfl
    | cons op ops ih => cases op <;> exact ih
  rw [h]
  exact ⟨rfl, rfl, rfl, rfl⟩

/-- **C70 (what holds).** Looking up works: a factory whose table has a creator for the name calls it with the arguments,
and a name without creator gives nil.
Partial: no call of the API ever puts a creator into the table (`C70_create_never_creates`). -/
theorem C70_create_calls_entry_partial (f : F N A O) (name : N) (arg : A) :
    (∀ c, f.cmap name = some c → create f name arg = some (c arg)) ∧
    (f.cmap name = none → create f name arg = none) := by
  unfold create
  refine ⟨fun c h => by rw [h], fun h => by rw [h]⟩

example : create (run new [.add "n" (fun x : Nat => x + 1)]) "n" 1 = none := rfl
example : create ⟨fun n => if n = "n" then some (fun x : Nat => x + 1) else none⟩ "n" 1 = some 2 := rfl

end Verif.Factory
