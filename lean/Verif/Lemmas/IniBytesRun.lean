import Verif.Lemmas.IniStrip
import Mathlib.Data.List.Basic
import Mathlib.Data.List.DropRight
import Mathlib.Data.List.Nodup
import Mathlib.Tactic.Tauto
/-!
# `Load` on bytes
-/

set_option linter.unusedSectionVars false

namespace Verif.IniBytes

/-- The body of the loop of `Load`. -/
def body (st : St) (line : Bytes) : Res St := handle st (trimSpace line)

theorem trim_eq (s : Bytes) : trimSpace s = Spec.strip s := trimSpace_eq s

theorem strip_newline (l : Bytes) : Spec.strip (l ++ [10]) = Spec.strip l :=
  strip_white l [10] (by rw [whites_eq]; decide)

/-- The body of the loop in terms of what the line says. -/
theorem body_eq (st : St) (line : Bytes) : body st line =
    match Spec.kind line with
    | .nothing => .ok st
    | .header s => match lookup s st.m with
      | none => .ok ⟨insert s [] st.m, s⟩
      | some _ => .ok ⟨st.m, s⟩
    | .assign k v => if st.sec = [] then .ok st else
      match lookup st.sec st.m with
      | some s => .ok ⟨insert st.sec (insert k v s) st.m, st.sec⟩
      | none => .panic := by
  rw [body, Spec.kind, trim_eq]
  generalize Spec.strip line = t
  cases t with
  | nil => simp [handle, Spec.kindOf]
  | cons c r =>
    simp only [handle, Spec.kindOf, reduceCtorEq, List.head?_cons, Option.some.injEq, false_or]
    by_cases h1 : c = 59
    · simp [h1]
    rw [if_neg h1, if_neg h1]
    by_cases h2 : c = 91 ∧ (c :: r).getLast? = some 93
    · rw [if_pos h2, if_pos h2]
      simp only [List.drop_succ_cons, List.drop_zero, List.length_cons, Nat.add_sub_cancel, List.tail_cons,
        List.dropLast_eq_take]
      cases lookup (List.take (r.length - 1) r) st.m <;> rfl
    rw [if_neg h2, if_neg h2]
    have hs : splitN2 (c :: r) = match (c :: r).dropWhile (· != 61) with
      | [] => [c :: r]
      | _ :: a => [(c :: r).takeWhile (· != 61), a] := rfl
    have htd := List.takeWhile_append_dropWhile (p := (· != 61)) (l := c :: r)
    rw [hs]
    cases hd : (c :: r).dropWhile (· != 61) with
    | nil =>
      rw [hd, List.append_nil] at htd
      rw [htd]
      simp only [trim_eq, List.tail_nil]
      by_cases h3 : Spec.strip (c :: r) = []
      · simp [h3]
      · simp only [h3, if_false]
        by_cases h4 : st.sec = []
        · simp [h4]
        · simp only [h4, if_false]
          cases lookup st.sec st.m <;> rfl
    | cons x a =>
      simp only [trim_eq, List.tail_cons]
      by_cases h3 : Spec.strip ((c :: r).takeWhile (· != 61)) = []
      · simp [h3]
      · simp only [h3, if_false]
        by_cases h4 : st.sec = []
        · simp [h4]
        · simp only [h4, if_false]
          cases lookup st.sec st.m <;> rfl

/-- The loop over a list of lines. -/
def run (st : St) : List Bytes → Res St
  | [] => .ok st
  | l :: ls => match body st l with
    | .ok st => run st ls
    | .panic => .panic

theorem run_append (st : St) (a b : List Bytes) : run st (a ++ b) = match run st a with
    | .ok st => run st b
    | .panic => .panic := by
  induction a generalizing st with
  | nil => rfl
  | cons l a ih =>
    simp only [List.cons_append, run]
    cases body st l with
    | ok s => exact ih s
    | panic => rfl

theorem body_newline (st : St) (l : Bytes) : body st (l ++ [10]) = body st l := by
  have : Spec.kind (l ++ [10]) = Spec.kind l := by simp only [Spec.kind, strip_newline]
  rw [body_eq, body_eq, this]

theorem lines_ne (t : Bytes) : Spec.lines t ≠ [] := by
  cases t with
  | nil => simp [Spec.lines]
  | cons c t => rw [Spec.lines]; split <;> [simp; (split <;> simp)]

theorem lines_none : ∀ (t : Bytes), t.dropWhile (· != 10) = [] → Spec.lines t = [t]
  | [], _ => rfl
  | c :: t, h => by
    have hc : c ≠ 10 := by rintro rfl; simp at h
    have ht : t.dropWhile (· != 10) = [] := by simpa [List.dropWhile_cons, hc] using h
    rw [Spec.lines, if_neg hc, lines_none t ht]

theorem lines_some : ∀ (t : Bytes) (x : UInt8) (r : Bytes), t.dropWhile (· != 10) = x :: r →
    Spec.lines t = t.takeWhile (· != 10) :: Spec.lines r
  | [], _, _, h => by simp at h
  | c :: t, x, r, h => by
    by_cases hc : c = 10
    · subst hc
      simp only [List.dropWhile_cons, bne_self_eq_false, Bool.false_eq_true, if_false, List.cons.injEq] at h
      rw [Spec.lines, if_pos rfl, h.2]; simp
    · have ht : t.dropWhile (· != 10) = x :: r := by simpa [List.dropWhile_cons, hc] using h
      rw [Spec.lines, if_neg hc, lines_some t x r ht]
      simp [hc]

theorem lines_nonl (t : Bytes) (h : 10 ∉ t) : Spec.lines t = [t] := by
  apply lines_none
  rw [List.dropWhile_eq_nil_iff]
  intro x hx
  simp only [bne_iff_ne]
  rintro rfl
  exact h hx

theorem lines_line (l r : Bytes) (h : 10 ∉ l) : Spec.lines (l ++ [10] ++ r) = l :: Spec.lines r := by
  induction l with
  | nil => simp [Spec.lines]
  | cons c l ih =>
    simp only [List.mem_cons, not_or] at h
    have hc : c ≠ 10 := fun e => h.1 e.symm
    rw [List.cons_append, List.cons_append, Spec.lines, if_neg hc, ih h.2]

theorem loop_eq (st : St) (b : Rd) : loop st b = run st (Spec.lines b.rest) := by
  induction h : b.buf.length + size b.src using Nat.strong_induction_on generalizing st b with
  | _ n ih =>
    have h1 := collect_spec b [] (by simp)
    have h2 := collect_size b []
    rw [loop]
    split
    rename_i line err b' hr
    rw [readString] at hr
    rw [hr] at h1 h2
    simp only [List.nil_append] at h1 h2
    cases err with
    | false =>
      obtain ⟨e1, pre, rfl, e3⟩ := h1.1 rfl
      rw [e1, lines_line _ _ e3, run, ← body, body_newline]
      cases body st pre with
      | panic => rfl
      | ok st' =>
        simp only [Bool.false_eq_true, dite_false]
        exact ih _ (by have := h2.2 rfl; omega) st' b' rfl
    | true =>
      obtain ⟨e1, e2⟩ := h1.2 rfl
      rw [e1, lines_nonl _ e2, run, ← body]
      cases body st line with
      | panic => rfl
      | ok st' => simp [run]

/-! ## Maps -/

theorem lookup_insert {β : Type} (k k' : Bytes) (v : β) (m : List (Bytes × β)) :
    lookup k' (insert k v m) = if k' = k then some v else lookup k' m := by
  induction m with
  | nil => simp only [insert, lookup]; split_ifs <;> simp_all
  | cons p m ih =>
    obtain ⟨a, b⟩ := p
    simp only [insert]
    by_cases h : a = k
    · subst h
      rw [if_pos rfl]
      simp only [lookup]
      by_cases h' : a = k'
      · rw [if_pos h', if_pos h'.symm]
      · rw [if_neg h', if_neg (fun e => h' e.symm), if_neg h']
    · rw [if_neg h]
      simp only [lookup, ih]
      by_cases h' : a = k'
      · subst h'; simp [h]
      · simp [h']

theorem insert_keys {β : Type} (k : Bytes) (v : β) (m : List (Bytes × β)) :
    (insert k v m).map Prod.fst = if k ∈ m.map Prod.fst then m.map Prod.fst else m.map Prod.fst ++ [k] := by
  induction m with
  | nil => simp [insert]
  | cons p m ih =>
    obtain ⟨a, b⟩ := p
    simp only [insert]
    by_cases h : a = k
    · simp [h]
    · have h' : ¬ k = a := fun e => h e.symm
      simp only [if_neg h, List.map_cons, ih, List.mem_cons, h', false_or]
      split_ifs <;> simp

theorem lookup_isSome {β : Type} (k : Bytes) (m : List (Bytes × β)) : lookup k m ≠ none ↔ k ∈ m.map Prod.fst := by
  induction m with
  | nil => simp [lookup]
  | cons p m ih =>
    obtain ⟨a, b⟩ := p
    simp only [lookup, List.map_cons, List.mem_cons]
    by_cases h : a = k
    · simp [h]
    · have h' : ¬ k = a := fun e => h e.symm
      simp only [if_neg h, h', false_or, ih]

theorem nodup_insert {β : Type} (k : Bytes) (v : β) (m : List (Bytes × β)) (h : (m.map Prod.fst).Nodup) :
    ((insert k v m).map Prod.fst).Nodup := by
  rw [insert_keys]
  split_ifs with hk
  · exact h
  · exact List.nodup_append.2 ⟨h, by simp, by rintro a ha b hb rfl; simp at hb; subst hb; exact hk ha⟩

/-! ## The invariant -/

/-- The last assignment of a key. -/
def Last (ls : List Bytes) (sec k v : Bytes) : Prop :=
  ∃ i, Spec.Assigns ls i sec k v ∧ ∀ j, i < j → ∀ v', ¬ Spec.Assigns ls j sec k v'

structure Inv (ls : List Bytes) (st : St) : Prop where
  cur : st.sec ≠ [] → Spec.InSection ls ls.length st.sec
  only : ∀ s, Spec.InSection ls ls.length s → s = st.sec
  here : st.sec ≠ [] → lookup st.sec st.m ≠ none
  secs : ∀ s, lookup s st.m ≠ none ↔ ∃ i : Nat, (ls[i]?.map Spec.kind) = some (.header s)
  vals : ∀ s m, lookup s st.m = some m → ∀ k v, lookup k m = some v ↔ Last ls s k v
  nod : (st.m.map Prod.fst).Nodup
  nods : ∀ s m, lookup s st.m = some m → (m.map Prod.fst).Nodup

theorem get_left {ls : List Bytes} {l : Bytes} {i : Nat} (h : i < ls.length) : (ls ++ [l])[i]? = ls[i]? :=
  List.getElem?_append_left h

theorem get_last {ls : List Bytes} {l : Bytes} : (ls ++ [l])[ls.length]? = some l := by simp

theorem inSection_left {ls : List Bytes} {l : Bytes} {i : Nat} (h : i ≤ ls.length) (s : Bytes) :
    Spec.InSection (ls ++ [l]) i s ↔ Spec.InSection ls i s := by
  constructor
  · rintro ⟨j, hj, h1, h2⟩
    refine ⟨j, hj, by rwa [get_left (by omega)] at h1, fun j' a b => ?_⟩
    have := h2 j' a b
    rwa [get_left (by omega)] at this
  · rintro ⟨j, hj, h1, h2⟩
    refine ⟨j, hj, by rwa [get_left (by omega)], fun j' a b => ?_⟩
    rw [get_left (by omega)]
    exact h2 j' a b

theorem inSection_snoc (ls : List Bytes) (l : Bytes) (s : Bytes) :
    Spec.InSection (ls ++ [l]) (ls ++ [l]).length s ↔
      Spec.kind l = .header s ∨ ((∀ s', Spec.kind l ≠ .header s') ∧ Spec.InSection ls ls.length s) := by
  have hlen : (ls ++ [l]).length = ls.length + 1 := by simp
  rw [hlen]
  constructor
  · rintro ⟨j, hj, h1, h2⟩
    by_cases hjl : j = ls.length
    · subst hjl
      rw [get_last] at h1
      exact .inl (by simpa using h1)
    · refine .inr ⟨fun s' hk => h2 ls.length (by omega) (by omega) s' (by rw [get_last]; simp [hk]), j, by omega, ?_, ?_⟩
      · rwa [get_left (by omega)] at h1
      · intro j' a b
        have := h2 j' a (by omega)
        rwa [get_left (by omega)] at this
  · rintro (h | ⟨h, j, hj, h1, h2⟩)
    · exact ⟨ls.length, by omega, by rw [get_last]; simp [h], fun j' a b => by omega⟩
    · refine ⟨j, by omega, by rwa [get_left hj], fun j' a b => ?_⟩
      by_cases hj' : j' = ls.length
      · subst hj'
        rw [get_last]
        intro s' e
        exact h s' (by simpa using e)
      · rw [get_left (by omega)]; exact h2 j' a (by omega)

theorem assigns_snoc (ls : List Bytes) (l : Bytes) (i : Nat) (s k v : Bytes) :
    Spec.Assigns (ls ++ [l]) i s k v ↔
      (i < ls.length ∧ Spec.Assigns ls i s k v) ∨
      (i = ls.length ∧ s ≠ [] ∧ Spec.InSection ls ls.length s ∧ Spec.kind l = .assign k v) := by
  constructor
  · rintro ⟨h0, h1, h2⟩
    have hi : i < ls.length + 1 := by
      by_contra hc
      rw [List.getElem?_eq_none (by simp; omega)] at h2
      simp at h2
    by_cases h : i = ls.length
    · subst h
      refine .inr ⟨rfl, h0, (inSection_left (le_refl _) s).1 h1, ?_⟩
      rw [get_last] at h2; simpa using h2
    · refine .inl ⟨by omega, h0, (inSection_left (by omega) s).1 h1, ?_⟩
      rwa [get_left (by omega)] at h2
  · rintro (⟨hi, h0, h1, h2⟩ | ⟨rfl, h0, h1, h2⟩)
    · exact ⟨h0, (inSection_left (by omega) s).2 h1, by rwa [get_left hi]⟩
    · exact ⟨h0, (inSection_left (le_refl _) s).2 h1, by rw [get_last]; simp [h2]⟩

theorem assigns_lt {ls : List Bytes} {i : Nat} {s k v : Bytes} (h : Spec.Assigns ls i s k v) : i < ls.length := by
  by_contra hc
  have := h.2.2
  rw [List.getElem?_eq_none (by omega)] at this
  simp at this

/-- The last line does not assign this key: nothing changes. -/
theorem last_snoc_other (ls : List Bytes) (l : Bytes) (s k v : Bytes)
    (h : ∀ w, ¬ (s ≠ [] ∧ Spec.InSection ls ls.length s ∧ Spec.kind l = .assign k w)) :
    Last (ls ++ [l]) s k v ↔ Last ls s k v := by
  have e : ∀ i w, Spec.Assigns (ls ++ [l]) i s k w ↔ Spec.Assigns ls i s k w := by
    intro i w
    rw [assigns_snoc]
    constructor
    · rintro (⟨-, h1⟩ | ⟨-, h1⟩)
      · exact h1
      · exact absurd h1 (h w)
    · intro h1; exact .inl ⟨assigns_lt h1, h1⟩
  simp only [Last, e]

/-- The last line assigns this key. -/
theorem last_snoc_self (ls : List Bytes) (l : Bytes) (s k w v : Bytes) (h0 : s ≠ []) (h1 : Spec.InSection ls ls.length s)
    (h2 : Spec.kind l = .assign k w) : Last (ls ++ [l]) s k v ↔ w = v := by
  have hlast : Spec.Assigns (ls ++ [l]) ls.length s k w := (assigns_snoc ls l _ s k w).2 (.inr ⟨rfl, h0, h1, h2⟩)
  constructor
  · rintro ⟨i, hi, hm⟩
    have : ¬ i < ls.length := fun hlt => hm _ hlt _ hlast
    have hi' := assigns_lt hi
    obtain rfl : i = ls.length := by simp at hi'; omega
    have a := hi.2.2
    rw [hlast.2.2] at a
    simp only [Option.some.injEq, Spec.Kind.assign.injEq, true_and] at a
    exact a
  · rintro rfl
    refine ⟨ls.length, hlast, fun j hj v' hc => ?_⟩
    have := assigns_lt hc
    simp at this; omega

theorem headers_snoc (ls : List Bytes) (l : Bytes) (s : Bytes) :
    (∃ i : Nat, ((ls ++ [l])[i]?.map Spec.kind) = some (.header s)) ↔
      (∃ i : Nat, (ls[i]?.map Spec.kind) = some (.header s)) ∨ Spec.kind l = .header s := by
  constructor
  · rintro ⟨i, h⟩
    by_cases hi : i < ls.length
    · rw [get_left hi] at h; exact .inl ⟨i, h⟩
    · by_cases hi' : i = ls.length
      · subst hi'; rw [get_last] at h; exact .inr (by simpa using h)
      · rw [List.getElem?_eq_none (by simp; omega)] at h; simp at h
  · rintro (⟨i, h⟩ | h)
    · refine ⟨i, ?_⟩
      have hi : i < ls.length := by
        by_contra hc
        rw [List.getElem?_eq_none (by omega)] at h; simp at h
      rwa [get_left hi]
    · exact ⟨ls.length, by rw [get_last]; simp [h]⟩

theorem inv_step (ls : List Bytes) (l : Bytes) (st : St) (h : Inv ls st) :
    ∃ st', body st l = .ok st' ∧ Inv (ls ++ [l]) st' := by
  rw [body_eq]
  cases hk : Spec.kind l with
  | nothing =>
    refine ⟨st, rfl, ?_⟩
    have hin : ∀ s, Spec.InSection (ls ++ [l]) (ls ++ [l]).length s ↔ Spec.InSection ls ls.length s := by
      intro s; rw [inSection_snoc, hk]; simp
    refine ⟨fun a => (hin _).2 (h.cur a), fun s a => h.only s ((hin s).1 a), h.here, ?_, ?_, h.nod, h.nods⟩
    · intro s; rw [headers_snoc, hk, h.secs]; simp
    · intro s m hm k v
      rw [h.vals s m hm, last_snoc_other]
      rintro w ⟨_, _, e⟩; rw [hk] at e; simp at e
  | header s0 =>
    have hin : ∀ s, Spec.InSection (ls ++ [l]) (ls ++ [l]).length s ↔ s = s0 := by
      intro s; rw [inSection_snoc, hk]
      simp only [Spec.Kind.header.injEq, ne_eq]
      constructor
      · rintro (e | ⟨e, -⟩)
        · exact e.symm
        · exact absurd rfl (e s0)
      · intro e; exact .inl e.symm
    have hl : ∀ s k v, Last (ls ++ [l]) s k v ↔ Last ls s k v := by
      intro s k v
      apply last_snoc_other
      rintro w ⟨_, _, e⟩; rw [hk] at e; simp at e
    cases hlk : lookup s0 st.m with
    | some m0 =>
      refine ⟨⟨st.m, s0⟩, by simp [hlk], fun _ => (hin _).2 rfl, fun s a => (hin s).1 a, fun _ => by simp [hlk], ?_, ?_, h.nod, h.nods⟩
      · intro s
        rw [headers_snoc, hk, h.secs]
        simp only [Spec.Kind.header.injEq, iff_self_or]
        rintro rfl
        exact (h.secs _).1 (by rw [hlk]; simp)
      · intro s m hm k v; rw [hl]; exact h.vals s m hm k v
    | none =>
      refine ⟨⟨insert s0 [] st.m, s0⟩, by simp [hlk], fun _ => (hin _).2 rfl, fun s a => (hin s).1 a, fun _ => by simp [lookup_insert], ?_, ?_,
        nodup_insert _ _ _ h.nod, ?_⟩
      · intro s
        rw [headers_snoc, hk, ← h.secs, lookup_insert]
        simp only [Spec.Kind.header.injEq]
        by_cases e : s = s0
        · simp [e]
        · rw [if_neg e]
          have : ¬ s0 = s := fun x => e x.symm
          simp [this]
      · intro s m hm k v
        rw [hl]
        rw [lookup_insert] at hm
        by_cases e : s = s0
        · rw [if_pos e] at hm
          obtain rfl := (Option.some.inj hm).symm
          simp only [lookup, reduceCtorEq, false_iff]
          rintro ⟨i, ⟨-, ⟨j, -, hj, -⟩, -⟩, -⟩
          subst e
          exact ((h.secs s).2 ⟨j, hj⟩) hlk
        · rw [if_neg e] at hm; exact h.vals s m hm k v
      · intro s m hm
        rw [lookup_insert] at hm
        by_cases e : s = s0
        · rw [if_pos e] at hm
          obtain rfl := (Option.some.inj hm).symm
          simp
        · rw [if_neg e] at hm; exact h.nods s m hm
  | assign k0 v0 =>
    have hin : ∀ s, Spec.InSection (ls ++ [l]) (ls ++ [l]).length s ↔ Spec.InSection ls ls.length s := by
      intro s; rw [inSection_snoc, hk]; simp
    have hsec : ∀ s, (∃ i : Nat, ((ls ++ [l])[i]?.map Spec.kind) = some (.header s)) ↔
        (∃ i : Nat, (ls[i]?.map Spec.kind) = some (.header s)) := by
      intro s; rw [headers_snoc, hk]; simp
    by_cases h0 : st.sec = []
    · refine ⟨st, by simp [h0], fun a => absurd h0 a, fun s a => h.only s ((hin s).1 a), h.here,
        fun s => by rw [hsec]; exact h.secs s, ?_, h.nod, h.nods⟩
      intro s m hm k v
      rw [h.vals s m hm, last_snoc_other]
      rintro w ⟨hs, hi, _⟩
      rw [h.only s hi] at hs
      exact hs h0
    · obtain ⟨m0, hm0⟩ := Option.ne_none_iff_exists'.1 (h.here h0)
      refine ⟨⟨insert st.sec (insert k0 v0 m0) st.m, st.sec⟩, by simp [h0, hm0], fun a => (hin _).2 (h.cur a), fun s a => h.only s ((hin s).1 a),
        fun _ => by simp [lookup_insert], ?_, ?_, nodup_insert _ _ _ h.nod, ?_⟩
      · intro s
        rw [hsec, ← h.secs, lookup_insert]
        by_cases e : s = st.sec
        · rw [if_pos e, e, hm0]; simp
        · rw [if_neg e]
      · intro s m hm k v
        rw [lookup_insert] at hm
        by_cases e : s = st.sec
        · rw [if_pos e] at hm
          obtain rfl := (Option.some.inj hm).symm
          subst e
          rw [lookup_insert]
          by_cases ek : k = k0
          · subst ek
            rw [if_pos rfl, last_snoc_self ls l st.sec k v0 v h0 (h.cur h0) hk]
            simp
          · rw [if_neg ek, h.vals _ _ hm0, last_snoc_other]
            rintro w ⟨_, _, e'⟩
            rw [hk] at e'
            simp only [Spec.Kind.assign.injEq] at e'
            exact ek e'.1.symm
        · rw [if_neg e] at hm
          rw [h.vals s m hm, last_snoc_other]
          rintro w ⟨_, hi, _⟩
          exact e (h.only s hi)
      · intro s m hm
        rw [lookup_insert] at hm
        by_cases e : s = st.sec
        · rw [if_pos e] at hm
          obtain rfl := (Option.some.inj hm).symm
          exact nodup_insert _ _ _ (h.nods _ _ hm0)
        · rw [if_neg e] at hm; exact h.nods s m hm

theorem inv_run (ls : List Bytes) : ∃ st, run ⟨[], []⟩ ls = .ok st ∧ Inv ls st := by
  induction ls using List.reverseRecOn with
  | nil =>
    refine ⟨⟨[], []⟩, rfl, by simp, ?_, by simp, by simp [lookup], by simp [lookup], by simp, by simp [lookup]⟩
    rintro s ⟨j, hj, -⟩; simp at hj
  | append_singleton ls l ih =>
    obtain ⟨st, h1, h2⟩ := ih
    obtain ⟨st', h3, h4⟩ := inv_step ls l st h2
    exact ⟨st', by rw [run_append, h1]; simp [run, h3], h4⟩

theorem load_run (src : Source) : load src = match run ⟨[], []⟩ (Spec.lines (Spec.content 0 src)) with
    | .ok st => .ok st.m
    | .panic => .panic := by
  have h : Rd.rest ⟨[], false, src⟩ = Spec.content 0 src := by simp [Rd.rest]
  rw [load, loop_eq, h]
  cases run ⟨[], []⟩ (Spec.lines (Spec.content 0 src)) <;> rfl

theorem load_inv (src : Source) : ∃ st, load src = .ok st.m ∧ Inv (Spec.lines (Spec.content 0 src)) st := by
  obtain ⟨st, h1, h2⟩ := inv_run (Spec.lines (Spec.content 0 src))
  exact ⟨st, by rw [load_run, h1], h2⟩

theorem exists_last {ls : List Bytes} {s k v : Bytes} {i : Nat} (h : Spec.Assigns ls i s k v) : ∃ v', Last ls s k v' := by
  induction hn : ls.length - i using Nat.strong_induction_on generalizing i v with
  | _ n ih =>
    by_cases hm : ∃ j, i < j ∧ ∃ v', Spec.Assigns ls j s k v'
    · obtain ⟨j, hj, v', hv'⟩ := hm
      have := assigns_lt hv'
      exact ih _ (by omega) hv' rfl
    · exact ⟨v, i, h, fun j hj v' hc => hm ⟨j, hj, v', hc⟩⟩

/-! ## Round trip -/

theorem whites_bytes : ∀ w ∈ Spec.whites, (91 : UInt8) ∉ w ∧ (93 : UInt8) ∉ w ∧ (61 : UInt8) ∉ w := by
  rw [whites_eq]; decide

theorem kind_header (s : Bytes) : Spec.kind ([91] ++ s ++ [93]) = .header s := by
  have hs : Spec.strip ([91] ++ s ++ [93]) = [91] ++ s ++ [93] := by
    apply strip_of_stripped
    intro w hw
    obtain ⟨h1, h2, -⟩ := whites_bytes w hw
    have h0 := whites_ne w hw
    constructor
    · rintro ⟨y, hy⟩
      obtain ⟨a, r, rfl⟩ := List.exists_cons_of_ne_nil h0
      simp only [List.cons_append, List.nil_append, List.cons.injEq] at hy
      exact h1 (by rw [← hy.1]; simp)
    · rintro ⟨y, hy⟩
      rcases List.eq_nil_or_concat w with e | ⟨v, a, rfl⟩
      · exact h0 e
      · rw [List.concat_eq_append, ← List.append_assoc] at hy
        have := (List.append_inj' hy rfl).2
        exact h2 (by rw [← List.singleton_inj.1 this]; simp)
  simp only [Spec.kind, Spec.kindOf, hs]
  rw [if_neg (by simp), if_pos (by constructor; simp; rw [List.getLast?_append]; simp)]
  simp

theorem takeWhile_key (k v : Bytes) (h : 61 ∉ k) : (k ++ [61] ++ v).takeWhile (· != 61) = k ∧
    (k ++ [61] ++ v).dropWhile (· != 61) = 61 :: v := by
  induction k with
  | nil => simp
  | cons c k ih =>
    simp only [List.mem_cons, not_or] at h
    have hc : c ≠ 61 := fun e => h.1 e.symm
    obtain ⟨h1, h2⟩ := ih h.2
    simp only [List.cons_append, List.takeWhile_cons, List.dropWhile_cons, bne_iff_ne, ne_eq, hc, not_false_eq_true,
      if_true]
    exact ⟨by rw [h1], h2⟩

theorem kind_pair (k v : Bytes) (hk : Spec.KeyOk k) (hv : Spec.ValueOk v) : Spec.kind (k ++ [61] ++ v) = .assign k v := by
  obtain ⟨h0, h1, h2, h3, h4, h5⟩ := hk
  obtain ⟨c, r, rfl⟩ := List.exists_cons_of_ne_nil h0
  have hs : Spec.strip ((c :: r) ++ [61] ++ v) = (c :: r) ++ [61] ++ v := by
    apply strip_of_stripped
    intro w hw
    have hk := stripped_of_strip _ h1
    have hv' := stripped_of_strip _ hv.1
    constructor
    · rw [List.append_assoc]
      refine no_straddle _ h0 (fun w hw => (hk w hw).1) _ ?_ w hw
      intro b hb
      simp at hb
      rw [← hb]; rfl
    · intro hsuf
      rcases List.suffix_or_suffix_of_suffix hsuf (List.suffix_append _ v) with h | ⟨u, hu⟩
      · exact (hv' w hw).2 h
      · rcases List.eq_nil_or_concat u with e | ⟨u', a, rfl⟩
        · rw [e, List.nil_append] at hu
          exact (hv' w hw).2 (by rw [hu]; exact List.suffix_refl _)
        · obtain ⟨y, hy⟩ := hsuf
          rw [← hu, ← List.append_assoc, List.concat_eq_append, ← List.append_assoc] at hy
          have e1 := List.append_cancel_right hy
          have e2 := (List.append_inj' e1 rfl).2
          refine (whites_bytes w hw).2.2 ?_
          rw [← hu, ← List.singleton_inj.1 e2]
          simp
  obtain ⟨t1, t2⟩ := takeWhile_key (c :: r) v h2
  simp only [Spec.kind, Spec.kindOf, hs, t1, t2]
  rw [if_neg (by
      rintro (e | e)
      · simp at e
      · exact h4 (by simpa using e)), if_neg (by
      rintro ⟨e, -⟩
      exact h5 (by simpa using e))]
  simp only [List.tail_cons, h1, hv.1, if_neg h0]

theorem lookup_append_new {β : Type} (k : Bytes) (v : β) (m : List (Bytes × β)) (h : k ∉ m.map Prod.fst) :
    insert k v m = m ++ [(k, v)] := by
  induction m with
  | nil => rfl
  | cons p m ih =>
    obtain ⟨a, b⟩ := p
    simp only [List.map_cons, List.mem_cons, not_or] at h
    rw [insert, if_neg (fun e => h.1 e.symm), ih h.2, List.cons_append]

theorem insert_last {β : Type} (k : Bytes) (v w : β) (m : List (Bytes × β)) (h : k ∉ m.map Prod.fst) :
    insert k v (m ++ [(k, w)]) = m ++ [(k, v)] := by
  induction m with
  | nil => simp [insert]
  | cons p m ih =>
    obtain ⟨a, b⟩ := p
    simp only [List.map_cons, List.mem_cons, not_or] at h
    rw [List.cons_append, insert, if_neg (fun e => h.1 e.symm), ih h.2, List.cons_append]

theorem lookup_last {β : Type} (k : Bytes) (w : β) (m : List (Bytes × β)) (h : k ∉ m.map Prod.fst) :
    lookup k (m ++ [(k, w)]) = some w := by
  induction m with
  | nil => simp [lookup]
  | cons p m ih =>
    obtain ⟨a, b⟩ := p
    simp only [List.map_cons, List.mem_cons, not_or] at h
    rw [List.cons_append, lookup, if_neg (fun e => h.1 e.symm), ih h.2]

theorem run_pairs (m : List (Bytes × Section)) (s : Bytes) (hs : s ≠ []) (hm : s ∉ m.map Prod.fst) (rest : Bytes) :
    ∀ (ps done : List (Bytes × Bytes)), ((done ++ ps).map Prod.fst).Nodup →
      (∀ p ∈ ps, Spec.KeyOk p.1 ∧ Spec.ValueOk p.2) →
      run ⟨m ++ [(s, done)], s⟩ (Spec.lines (ps.flatMap Spec.renderPair ++ rest)) =
        run ⟨m ++ [(s, done ++ ps)], s⟩ (Spec.lines rest) := by
  intro ps
  induction ps with
  | nil => intro done _ _; simp
  | cons p ps ih =>
    intro done hn hok
    obtain ⟨k, v⟩ := p
    obtain ⟨hk, hv⟩ := hok (k, v) (by simp)
    have hnl : 10 ∉ k ++ [61] ++ v := by
      simp only [List.mem_append, List.mem_singleton, not_or]
      exact ⟨⟨hk.2.2.2.1, by decide⟩, hv.2⟩
    have e : ((k, v) :: ps).flatMap Spec.renderPair ++ rest =
        (k ++ [61] ++ v) ++ [10] ++ (ps.flatMap Spec.renderPair ++ rest) := by
      simp [Spec.renderPair]
    have hkd : k ∉ done.map Prod.fst := by
      intro hc
      rw [List.map_append, List.nodup_append] at hn
      exact hn.2.2 k hc k (by simp) rfl
    rw [e, lines_line _ _ hnl, run, body_eq, kind_pair k v hk hv]
    simp only [if_neg hs, lookup_last s done m hm, insert_last s _ _ m hm, lookup_append_new k v done hkd]
    have := ih (done ++ [(k, v)]) (by simpa using hn) (fun p hp => hok p (by simp [hp]))
    rw [this]
    simp

theorem run_render : ∀ (secs m : List (Bytes × List (Bytes × Bytes))) (c : Bytes), Spec.FileOk (m ++ secs) →
    ∃ c', run ⟨m, c⟩ (Spec.lines (Spec.render secs)) = .ok ⟨m ++ secs, c'⟩ := by
  intro secs
  induction secs with
  | nil =>
    intro m c _
    refine ⟨c, ?_⟩
    have hk : Spec.kind [] = .nothing := by decide
    simp only [Spec.render, List.flatMap_nil, Spec.lines, run, body_eq, hk, List.append_nil]
  | cons sp secs ih =>
    intro m c h
    obtain ⟨s, ps⟩ := sp
    obtain ⟨h1, h2⟩ := h
    obtain ⟨hs0, hs1, hs2, hs3⟩ := h2 (s, ps) (by simp)
    have hsm : s ∉ m.map Prod.fst := by
      intro hc
      rw [List.map_append, List.nodup_append] at h1
      exact h1.2.2 s hc s (by simp) rfl
    have e : Spec.render ((s, ps) :: secs) =
        ([91] ++ s ++ [93]) ++ [10] ++ (ps.flatMap Spec.renderPair ++ Spec.render secs) := by
      simp [Spec.render, Spec.renderSection]
    have hnl : 10 ∉ [91] ++ s ++ [93] := by
      simp only [List.mem_append, List.mem_singleton, not_or]
      exact ⟨⟨by decide, hs1⟩, by decide⟩
    have hlk : lookup s m = none := by
      by_contra hc
      exact hsm ((lookup_isSome s m).1 hc)
    rw [e, lines_line _ _ hnl, run, body_eq, kind_header]
    simp only [hlk, lookup_append_new s [] m hsm]
    rw [run_pairs m s hs0 hsm _ ps [] (by simpa using hs2) hs3]
    simp only [List.nil_append]
    have := ih (m ++ [(s, ps)]) s ⟨by simpa using h1, by simpa using h2⟩
    simpa using this

end Verif.IniBytes
