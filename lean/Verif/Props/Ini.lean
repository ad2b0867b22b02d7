import Verif.Model.Ini
import Mathlib.Data.List.Basic
import Mathlib.Data.List.DropRight
import Mathlib.Data.List.Nodup
import Mathlib.Tactic.Tauto
/-!
# INI files (C55, C56)
-/

set_option linter.unusedSectionVars false

namespace Verif.Ini

/-! ## Specification -/

/-- White space: the code points with the Unicode property White_Space. -/
def Spec.white (c : Char) : Bool :=
  [0x09, 0x0A, 0x0B, 0x0C, 0x0D, 0x20, 0x85, 0xA0, 0x1680, 0x2000, 0x2001, 0x2002, 0x2003, 0x2004, 0x2005, 0x2006,
    0x2007, 0x2008, 0x2009, 0x200A, 0x2028, 0x2029, 0x202F, 0x205F, 0x3000].contains c.toNat

/-- White space removed at both ends. -/
def Spec.strip (s : Str) : Str := (s.dropWhile Spec.white).rdropWhile Spec.white

/-- The lines of a text. -/
def Spec.lines : Str → List Str
  | [] => [[]]
  | c :: t => if c = '\n' then [] :: Spec.lines t else
    match Spec.lines t with
    | l :: ls => (c :: l) :: ls
    | [] => [[c]]

/-- What a line says. -/
inductive Spec.Kind
  | nothing
  | header (sec : Str)
  | assign (key value : Str)
deriving DecidableEq

/-- What a line without white space at its ends says.  Blank lines, lines starting with `;` and lines with an empty key say nothing; `[sec]` is a header; everything else is
an assignment, `key=value` or a lone key. -/
def Spec.kindOf (t : Str) : Spec.Kind :=
  if t = [] ∨ t.head? = some ';' then .nothing
  else if t.head? = some '[' ∧ t.getLast? = some ']' then .header t.tail.dropLast
  else
    let k := Spec.strip (t.takeWhile (· != '='))
    let v := Spec.strip (t.dropWhile (· != '=')).tail
    if k = [] then .nothing else .assign k v

/-- What a line as it stands in the text says. -/
def Spec.kind (line : Str) : Spec.Kind := Spec.kindOf (Spec.strip line)

/-- Line `i` stands in section `sec`: the last header before it is `[sec]`. -/
def Spec.InSection (ls : List Str) (i : Nat) (sec : Str) : Prop :=
  ∃ j < i, (ls[j]?.map Spec.kind) = some (.header sec) ∧
    ∀ j', j < j' → j' < i → ∀ s, (ls[j']?.map Spec.kind) ≠ some (.header s)

/-- Line `i` assigns `v` to the key `k` of the section `sec`. -/
def Spec.Assigns (ls : List Str) (i : Nat) (sec k v : Str) : Prop :=
  sec ≠ [] ∧ Spec.InSection ls i sec ∧ (ls[i]?.map Spec.kind) = some (.assign k v)

/-! ## The loop -/

theorem isSpace_eq : isSpace = Spec.white := by
  funext c
  unfold isSpace Spec.white
  generalize c.toNat = n
  rw [Bool.eq_iff_iff]
  simp
  omega

theorem trim_eq (s : Str) : trimSpace s = Spec.strip s := by
  unfold trimSpace
  rw [isSpace_eq]
  rfl

theorem strip_newline (l : Str) : Spec.strip (l ++ ['\n']) = Spec.strip l := by
  have hn : Spec.white '\n' = true := by decide
  unfold Spec.strip
  rw [List.dropWhile_append]
  split
  · rename_i h
    have : List.dropWhile Spec.white l = [] := by simpa using h
    rw [this]
    simp [hn]
  · exact List.rdropWhile_concat_pos _ _ _ hn

/-- The body of the loop in terms of what the line says. -/
theorem body_eq (st : St) (line : Str) : body st line =
    match Spec.kind line with
    | .nothing => .ok st
    | .header s => match lookup s st.m with
      | none => .ok ⟨insert s [] st.m, s⟩
      | some _ => .ok ⟨st.m, s⟩
    | .assign k v => if st.sec = [] then .ok st else
      match lookup st.sec st.m with
      | some s => .ok ⟨insert st.sec (insert k v s) st.m, st.sec⟩
      | none => .panic := by
  rw [body, Spec.kind, trim_eq]
  generalize Spec.strip line = t
  cases t with
  | nil => simp [handle, Spec.kindOf]
  | cons c r =>
    simp only [handle, Spec.kindOf, reduceCtorEq, List.head?_cons, Option.some.injEq, false_or]
    by_cases h1 : c = ';'
    · simp [h1]
    rw [if_neg h1, if_neg h1]
    by_cases h2 : c = '[' ∧ (c :: r).getLast? = some ']'
    · rw [if_pos h2, if_pos h2]
      simp only [List.drop_succ_cons, List.drop_zero, List.length_cons, Nat.add_sub_cancel, List.tail_cons,
        List.dropLast_eq_take]
      cases lookup (List.take (r.length - 1) r) st.m <;> rfl
    rw [if_neg h2, if_neg h2]
    have hs : splitN2 (c :: r) = match (c :: r).dropWhile (· != '=') with
      | [] => [c :: r]
      | _ :: a => [(c :: r).takeWhile (· != '='), a] := rfl
    have htd := List.takeWhile_append_dropWhile (p := (· != '=')) (l := c :: r)
    rw [hs]
    cases hd : (c :: r).dropWhile (· != '=') with
    | nil =>
      rw [hd, List.append_nil] at htd
      rw [htd]
      simp only [trim_eq, List.tail_nil]
      by_cases h3 : Spec.strip (c :: r) = []
      · simp [h3]
      · simp only [h3, if_false]
        by_cases h4 : st.sec = []
        · simp [h4]
        · simp only [h4, if_false]
          cases lookup st.sec st.m <;> rfl
    | cons x a =>
      simp only [trim_eq, List.tail_cons]
      by_cases h3 : Spec.strip ((c :: r).takeWhile (· != '=')) = []
      · simp [h3]
      · simp only [h3, if_false]
        by_cases h4 : st.sec = []
        · simp [h4]
        · simp only [h4, if_false]
          cases lookup st.sec st.m <;> rfl

/-- The loop over a list of lines. -/
def run (st : St) : List Str → Res St
  | [] => .ok st
  | l :: ls => match body st l with
    | .ok st => run st ls
    | .panic => .panic

theorem run_append (st : St) (a b : List Str) : run st (a ++ b) = match run st a with
    | .ok st => run st b
    | .panic => .panic := by
  induction a generalizing st with
  | nil => rfl
  | cons l a ih =>
    simp only [List.cons_append, run]
    cases body st l with
    | ok s => exact ih s
    | panic => rfl

theorem body_newline (st : St) (l : Str) : body st (l ++ ['\n']) = body st l := by
  have : Spec.kind (l ++ ['\n']) = Spec.kind l := by simp only [Spec.kind, strip_newline]
  rw [body_eq, body_eq, this]

theorem lines_ne (t : Str) : Spec.lines t ≠ [] := by
  cases t with
  | nil => simp [Spec.lines]
  | cons c t => rw [Spec.lines]; split <;> [simp; (split <;> simp)]

theorem lines_none : ∀ (t : Str), t.dropWhile (· != '\n') = [] → Spec.lines t = [t]
  | [], _ => rfl
  | c :: t, h => by
    have hc : c ≠ '\n' := by rintro rfl; simp at h
    have ht : t.dropWhile (· != '\n') = [] := by simpa [List.dropWhile_cons, hc] using h
    rw [Spec.lines, if_neg hc, lines_none t ht]

theorem lines_some : ∀ (t : Str) (x : Char) (r : Str), t.dropWhile (· != '\n') = x :: r →
    Spec.lines t = t.takeWhile (· != '\n') :: Spec.lines r
  | [], _, _, h => by simp at h
  | c :: t, x, r, h => by
    by_cases hc : c = '\n'
    · subst hc
      simp only [List.dropWhile_cons, bne_self_eq_false, Bool.false_eq_true, if_false, List.cons.injEq] at h
      rw [Spec.lines, if_pos rfl, h.2]; simp
    · have ht : t.dropWhile (· != '\n') = x :: r := by simpa [List.dropWhile_cons, hc] using h
      rw [Spec.lines, if_neg hc, lines_some t x r ht]
      simp [hc]

theorem loop_eq (st : St) (text : Str) : loop st text = run st (Spec.lines text) := by
  induction h : text.length using Nat.strong_induction_on generalizing st text with
  | _ n ih =>
    rw [loop]
    cases hd : text.dropWhile (· != '\n') with
    | nil =>
      have hr : readString text = (text, none) := by simp only [readString, hd]
      rw [lines_none text hd]
      split
      · rename_i h1; rw [hr] at h1; simp at h1
      · rename_i h1
        rw [hr] at h1
        simp only [Prod.mk.injEq, and_true] at h1
        subst h1
        simp only [run]
        cases body st text <;> rfl
    | cons x r =>
      have hr : readString text = (text.takeWhile (· != '\n') ++ ['\n'], some r) := by simp only [readString, hd]
      have hl := readString_length _ _ _ hr
      rw [lines_some text x r hd]
      split
      · rename_i h1
        rw [hr] at h1
        simp only [Prod.mk.injEq, Option.some.injEq] at h1
        obtain ⟨rfl, rfl⟩ := h1
        rw [body_newline, run]
        cases body st (text.takeWhile (· != '\n')) with
        | ok s => exact ih _ (by omega) s r rfl
        | panic => rfl
      · rename_i h1; rw [hr] at h1; simp at h1

/-! ## Maps -/

theorem lookup_insert {β : Type} (k k' : Str) (v : β) (m : List (Str × β)) :
    lookup k' (insert k v m) = if k' = k then some v else lookup k' m := by
  induction m with
  | nil => simp only [insert, lookup]; split_ifs <;> simp_all
  | cons p m ih =>
    obtain ⟨a, b⟩ := p
    simp only [insert]
    by_cases h : a = k
    · subst h
      rw [if_pos rfl]
      simp only [lookup]
      by_cases h' : a = k'
      · rw [if_pos h', if_pos h'.symm]
      · rw [if_neg h', if_neg (fun e => h' e.symm), if_neg h']
    · rw [if_neg h]
      simp only [lookup, ih]
      by_cases h' : a = k'
      · subst h'; simp [h]
      · simp [h']

theorem insert_keys {β : Type} (k : Str) (v : β) (m : List (Str × β)) :
    (insert k v m).map Prod.fst = if k ∈ m.map Prod.fst then m.map Prod.fst else m.map Prod.fst ++ [k] := by
  induction m with
  | nil => simp [insert]
  | cons p m ih =>
    obtain ⟨a, b⟩ := p
    simp only [insert]
    by_cases h : a = k
    · simp [h]
    · have h' : ¬ k = a := fun e => h e.symm
      simp only [if_neg h, List.map_cons, ih, List.mem_cons, h', false_or]
      split_ifs <;> simp

theorem lookup_isSome {β : Type} (k : Str) (m : List (Str × β)) : lookup k m ≠ none ↔ k ∈ m.map Prod.fst := by
  induction m with
  | nil => simp [lookup]
  | cons p m ih =>
    obtain ⟨a, b⟩ := p
    simp only [lookup, List.map_cons, List.mem_cons]
    by_cases h : a = k
    · simp [h]
    · have h' : ¬ k = a := fun e => h e.symm
      simp only [if_neg h, h', false_or, ih]

theorem nodup_insert {β : Type} (k : Str) (v : β) (m : List (Str × β)) (h : (m.map Prod.fst).Nodup) :
    ((insert k v m).map Prod.fst).Nodup := by
  rw [insert_keys]
  split_ifs with hk
  · exact h
  · exact List.nodup_append.2 ⟨h, by simp, by rintro a ha b hb rfl; simp at hb; subst hb; exact hk ha⟩

/-! ## The invariant -/

/-- The last assignment of a key. -/
def Last (ls : List Str) (sec k v : Str) : Prop :=
  ∃ i, Spec.Assigns ls i sec k v ∧ ∀ j, i < j → ∀ v', ¬ Spec.Assigns ls j sec k v'

structure Inv (ls : List Str) (st : St) : Prop where
  cur : st.sec ≠ [] → Spec.InSection ls ls.length st.sec
  only : ∀ s, Spec.InSection ls ls.length s → s = st.sec
  here : st.sec ≠ [] → lookup st.sec st.m ≠ none
  secs : ∀ s, lookup s st.m ≠ none ↔ ∃ i : Nat, (ls[i]?.map Spec.kind) = some (.header s)
  vals : ∀ s m, lookup s st.m = some m → ∀ k v, lookup k m = some v ↔ Last ls s k v
  nod : (st.m.map Prod.fst).Nodup
  nods : ∀ s m, lookup s st.m = some m → (m.map Prod.fst).Nodup

theorem get_left {ls : List Str} {l : Str} {i : Nat} (h : i < ls.length) : (ls ++ [l])[i]? = ls[i]? :=
  List.getElem?_append_left h

theorem get_last {ls : List Str} {l : Str} : (ls ++ [l])[ls.length]? = some l := by simp

theorem inSection_left {ls : List Str} {l : Str} {i : Nat} (h : i ≤ ls.length) (s : Str) :
    Spec.InSection (ls ++ [l]) i s ↔ Spec.InSection ls i s := by
  constructor
  · rintro ⟨j, hj, h1, h2⟩
    refine ⟨j, hj, by rwa [get_left (by omega)] at h1, fun j' a b => ?_⟩
    have := h2 j' a b
    rwa [get_left (by omega)] at this
  · rintro ⟨j, hj, h1, h2⟩
    refine ⟨j, hj, by rwa [get_left (by omega)], fun j' a b => ?_⟩
    rw [get_left (by omega)]
    exact h2 j' a b

theorem inSection_snoc (ls : List Str) (l : Str) (s : Str) :
    Spec.InSection (ls ++ [l]) (ls ++ [l]).length s ↔
      Spec.kind l = .header s ∨ ((∀ s', Spec.kind l ≠ .header s') ∧ Spec.InSection ls ls.length s) := by
  have hlen : (ls ++ [l]).length = ls.length + 1 := by simp
  rw [hlen]
  constructor
  · rintro ⟨j, hj, h1, h2⟩
    by_cases hjl : j = ls.length
    · subst hjl
      rw [get_last] at h1
      exact .inl (by simpa using h1)
    · refine .inr ⟨fun s' hk => h2 ls.length (by omega) (by omega) s' (by rw [get_last]; simp [hk]), j, by omega, ?_, ?_⟩
      · rwa [get_left (by omega)] at h1
      · intro j' a b
        have := h2 j' a (by omega)
        rwa [get_left (by omega)] at this
  · rintro (h | ⟨h, j, hj, h1, h2⟩)
    · exact ⟨ls.length, by omega, by rw [get_last]; simp [h], fun j' a b => by omega⟩
    · refine ⟨j, by omega, by rwa [get_left hj], fun j' a b => ?_⟩
      by_cases hj' : j' = ls.length
      · subst hj'
        rw [get_last]
        intro s' e
        exact h s' (by simpa using e)
      · rw [get_left (by omega)]; exact h2 j' a (by omega)

theorem assigns_snoc (ls : List Str) (l : Str) (i : Nat) (s k v : Str) :
    Spec.Assigns (ls ++ [l]) i s k v ↔
      (i < ls.length ∧ Spec.Assigns ls i s k v) ∨
      (i = ls.length ∧ s ≠ [] ∧ Spec.InSection ls ls.length s ∧ Spec.kind l = .assign k v) := by
  constructor
  · rintro ⟨h0, h1, h2⟩
    have hi : i < ls.length + 1 := by
      by_contra hc
      rw [List.getElem?_eq_none (by simp; omega)] at h2
      simp at h2
    by_cases h : i = ls.length
    · subst h
      refine .inr ⟨rfl, h0, (inSection_left (le_refl _) s).1 h1, ?_⟩
      rw [get_last] at h2; simpa using h2
    · refine .inl ⟨by omega, h0, (inSection_left (by omega) s).1 h1, ?_⟩
      rwa [get_left (by omega)] at h2
  · rintro (⟨hi, h0, h1, h2⟩ | ⟨rfl, h0, h1, h2⟩)
    · exact ⟨h0, (inSection_left (by omega) s).2 h1, by rwa [get_left hi]⟩
    · exact ⟨h0, (inSection_left (le_refl _) s).2 h1, by rw [get_last]; simp [h2]⟩

theorem assigns_lt {ls : List Str} {i : Nat} {s k v : Str} (h : Spec.Assigns ls i s k v) : i < ls.length := by
  by_contra hc
  have := h.2.2
  rw [List.getElem?_eq_none (by omega)] at this
  simp at this

/-- The last line does not assign this key: nothing changes. -/
theorem last_snoc_other (ls : List Str) (l : Str) (s k v : Str)
    (h : ∀ w, ¬ (s ≠ [] ∧ Spec.InSection ls ls.length s ∧ Spec.kind l = .assign k w)) :
    Last (ls ++ [l]) s k v ↔ Last ls s k v := by
  have e : ∀ i w, Spec.Assigns (ls ++ [l]) i s k w ↔ Spec.Assigns ls i s k w := by
    intro i w
    rw [assigns_snoc]
    constructor
    · rintro (⟨-, h1⟩ | ⟨-, h1⟩)
      · exact h1
      · exact absurd h1 (h w)
    · intro h1; exact .inl ⟨assigns_lt h1, h1⟩
  simp only [Last, e]

/-- The last line assigns this key. -/
theorem last_snoc_self (ls : List Str) (l : Str) (s k w v : Str) (h0 : s ≠ []) (h1 : Spec.InSection ls ls.length s)
    (h2 : Spec.kind l = .assign k w) : Last (ls ++ [l]) s k v ↔ w = v := by
  have hlast : Spec.Assigns (ls ++ [l]) ls.length s k w := (assigns_snoc ls l _ s k w).2 (.inr ⟨rfl, h0, h1, h2⟩)
  constructor
  · rintro ⟨i, hi, hm⟩
    have : ¬ i < ls.length := fun hlt => hm _ hlt _ hlast
    have hi' := assigns_lt hi
    obtain rfl : i = ls.length := by simp at hi'; omega
    have a := hi.2.2
    rw [hlast.2.2] at a
    simp only [Option.some.injEq, Spec.Kind.assign.injEq, true_and] at a
    exact a
  · rintro rfl
    refine ⟨ls.length, hlast, fun j hj v' hc => ?_⟩
    have := assigns_lt hc
    simp at this; omega

theorem headers_snoc (ls : List Str) (l : Str) (s : Str) :
    (∃ i : Nat, ((ls ++ [l])[i]?.map Spec.kind) = some (.header s)) ↔
      (∃ i : Nat, (ls[i]?.map Spec.kind) = some (.header s)) ∨ Spec.kind l = .header s := by
  constructor
  · rintro ⟨i, h⟩
    by_cases hi : i < ls.length
    · rw [get_left hi] at h; exact .inl ⟨i, h⟩
    · by_cases hi' : i = ls.length
      · subst hi'; rw [get_last] at h; exact .inr (by simpa using h)
      · rw [List.getElem?_eq_none (by simp; omega)] at h; simp at h
  · rintro (⟨i, h⟩ | h)
    · refine ⟨i, ?_⟩
      have hi : i < ls.length := by
        by_contra hc
        rw [List.getElem?_eq_none (by omega)] at h; simp at h
      rwa [get_left hi]
    · exact ⟨ls.length, by rw [get_last]; simp [h]⟩

theorem inv_step (ls : List Str) (l : Str) (st : St) (h : Inv ls st) :
    ∃ st', body st l = .ok st' ∧ Inv (ls ++ [l]) st' := by
  rw [body_eq]
  cases hk : Spec.kind l with
  | nothing =>
    refine ⟨st, rfl, ?_⟩
    have hin : ∀ s, Spec.InSection (ls ++ [l]) (ls ++ [l]).length s ↔ Spec.InSection ls ls.length s := by
      intro s; rw [inSection_snoc, hk]; simp
    refine ⟨fun a => (hin _).2 (h.cur a), fun s a => h.only s ((hin s).1 a), h.here, ?_, ?_, h.nod, h.nods⟩
    · intro s; rw [headers_snoc, hk, h.secs]; simp
    · intro s m hm k v
      rw [h.vals s m hm, last_snoc_other]
      rintro w ⟨_, _, e⟩; rw [hk] at e; simp at e
  | header s0 =>
    have hin : ∀ s, Spec.InSection (ls ++ [l]) (ls ++ [l]).length s ↔ s = s0 := by
      intro s; rw [inSection_snoc, hk]
      simp only [Spec.Kind.header.injEq, ne_eq]
      constructor
      · rintro (e | ⟨e, -⟩)
        · exact e.symm
        · exact absurd rfl (e s0)
      · intro e; exact .inl e.symm
    have hl : ∀ s k v, Last (ls ++ [l]) s k v ↔ Last ls s k v := by
      intro s k v
      apply last_snoc_other
      rintro w ⟨_, _, e⟩; rw [hk] at e; simp at e
    cases hlk : lookup s0 st.m with
    | some m0 =>
      refine ⟨⟨st.m, s0⟩, by simp [hlk], fun _ => (hin _).2 rfl, fun s a => (hin s).1 a, fun _ => by simp [hlk], ?_, ?_, h.nod, h.nods⟩
      · intro s
        rw [headers_snoc, hk, h.secs]
        simp only [Spec.Kind.header.injEq, iff_self_or]
        rintro rfl
        exact (h.secs _).1 (by rw [hlk]; simp)
      · intro s m hm k v; rw [hl]; exact h.vals s m hm k v
    | none =>
      refine ⟨⟨insert s0 [] st.m, s0⟩, by simp [hlk], fun _ => (hin _).2 rfl, fun s a => (hin s).1 a, fun _ => by simp [lookup_insert], ?_, ?_,
        nodup_insert _ _ _ h.nod, ?_⟩
      · intro s
        rw [headers_snoc, hk, ← h.secs, lookup_insert]
        simp only [Spec.Kind.header.injEq]
        by_cases e : s = s0
        · simp [e]
        · rw [if_neg e]
          have : ¬ s0 = s := fun x => e x.symm
          simp [this]
      · intro s m hm k v
        rw [hl]
        rw [lookup_insert] at hm
        by_cases e : s = s0
        · rw [if_pos e] at hm
          obtain rfl := (Option.some.inj hm).symm
          simp only [lookup, reduceCtorEq, false_iff]
          rintro ⟨i, ⟨-, ⟨j, -, hj, -⟩, -⟩, -⟩
          subst e
          exact ((h.secs s).2 ⟨j, hj⟩) hlk
        · rw [if_neg e] at hm; exact h.vals s m hm k v
      · intro s m hm
        rw [lookup_insert] at hm
        by_cases e : s = s0
        · rw [if_pos e] at hm
          obtain rfl := (Option.some.inj hm).symm
          simp
        · rw [if_neg e] at hm; exact h.nods s m hm
  | assign k0 v0 =>
    have hin : ∀ s, Spec.InSection (ls ++ [l]) (ls ++ [l]).length s ↔ Spec.InSection ls ls.length s := by
      intro s; rw [inSection_snoc, hk]; simp
    have hsec : ∀ s, (∃ i : Nat, ((ls ++ [l])[i]?.map Spec.kind) = some (.header s)) ↔
        (∃ i : Nat, (ls[i]?.map Spec.kind) = some (.header s)) := by
      intro s; rw [headers_snoc, hk]; simp
    by_cases h0 : st.sec = []
    · refine ⟨st, by simp [h0], fun a => absurd h0 a, fun s a => h.only s ((hin s).1 a), h.here,
        fun s => by rw [hsec]; exact h.secs s, ?_, h.nod, h.nods⟩
      intro s m hm k v
      rw [h.vals s m hm, last_snoc_other]
      rintro w ⟨hs, hi, _⟩
      rw [h.only s hi] at hs
      exact hs h0
    · obtain ⟨m0, hm0⟩ := Option.ne_none_iff_exists'.1 (h.here h0)
      refine ⟨⟨insert st.sec (insert k0 v0 m0) st.m, st.sec⟩, by simp [h0, hm0], fun a => (hin _).2 (h.cur a), fun s a => h.only s ((hin s).1 a),
        fun _ => by simp [lookup_insert], ?_, ?_, nodup_insert _ _ _ h.nod, ?_⟩
      · intro s
        rw [hsec, ← h.secs, lookup_insert]
        by_cases e : s = st.sec
        · rw [if_pos e, e, hm0]; simp
        · rw [if_neg e]
      · intro s m hm k v
        rw [lookup_insert] at hm
        by_cases e : s = st.sec
        · rw [if_pos e] at hm
          obtain rfl := (Option.some.inj hm).symm
          subst e
          rw [lookup_insert]
          by_cases ek : k = k0
          · subst ek
            rw [if_pos rfl, last_snoc_self ls l st.sec k v0 v h0 (h.cur h0) hk]
            simp
          · rw [if_neg ek, h.vals _ _ hm0, last_snoc_other]
            rintro w ⟨_, _, e'⟩
            rw [hk] at e'
            simp only [Spec.Kind.assign.injEq] at e'
            exact ek e'.1.symm
        · rw [if_neg e] at hm
          rw [h.vals s m hm, last_snoc_other]
          rintro w ⟨_, hi, _⟩
          exact e (h.only s hi)
      · intro s m hm
        rw [lookup_insert] at hm
        by_cases e : s = st.sec
        · rw [if_pos e] at hm
          obtain rfl := (Option.some.inj hm).symm
          exact nodup_insert _ _ _ (h.nods _ _ hm0)
        · rw [if_neg e] at hm; exact h.nods s m hm

theorem inv_run (ls : List Str) : ∃ st, run ⟨[], []⟩ ls = .ok st ∧ Inv ls st := by
  induction ls using List.reverseRecOn with
  | nil =>
    refine ⟨⟨[], []⟩, rfl, by simp, ?_, by simp, by simp [lookup], by simp [lookup], by simp, by simp [lookup]⟩
    rintro s ⟨j, hj, -⟩; simp at hj
  | append_singleton ls l ih =>
    obtain ⟨st, h1, h2⟩ := ih
    obtain ⟨st', h3, h4⟩ := inv_step ls l st h2
    exact ⟨st', by rw [run_append, h1]; simp [run, h3], h4⟩

theorem load_inv (text : Str) : ∃ st, load text = .ok st.m ∧ Inv (Spec.lines text) st := by
  obtain ⟨st, h1, h2⟩ := inv_run (Spec.lines text)
  exact ⟨st, by simp [load, loop_eq, h1], h2⟩

theorem exists_last {ls : List Str} {s k v : Str} {i : Nat} (h : Spec.Assigns ls i s k v) : ∃ v', Last ls s k v' := by
  induction hn : ls.length - i using Nat.strong_induction_on generalizing i v with
  | _ n ih =>
    by_cases hm : ∃ j, i < j ∧ ∃ v', Spec.Assigns ls j s k v'
    · obtain ⟨j, hj, v', hv'⟩ := hm
      have := assigns_lt hv'
      exact ih _ (by omega) hv' rfl
    · exact ⟨v, i, h, fun j hj v' hc => hm ⟨j, hj, v', hc⟩⟩

/-- **C55**.  Loading any text succeeds.  `GetString(sec, key, def)` is the value of the last line that assigns the key in
that section, and `def` when no line does; so blank lines, comments and lines outside a section have no effect. -/
theorem C55_lookup (text : Str) : ∃ p, load text = .ok p ∧ ∀ sec key dflt,
    (∀ i v, Spec.Assigns (Spec.lines text) i sec key v →
      (∀ j, i < j → ∀ v', ¬ Spec.Assigns (Spec.lines text) j sec key v') → getString p sec key dflt = v) ∧
    ((∀ i v, ¬ Spec.Assigns (Spec.lines text) i sec key v) → getString p sec key dflt = dflt) := by
  obtain ⟨st, h1, h2⟩ := load_inv text
  refine ⟨st.m, h1, fun sec key dflt => ⟨fun i v ha hl => ?_, fun hn => ?_⟩⟩
  · obtain ⟨j, -, hj, -⟩ := ha.2.1
    obtain ⟨m, hm⟩ := Option.ne_none_iff_exists'.1 ((h2.secs sec).2 ⟨j, hj⟩)
    have := (h2.vals sec m hm key v).2 ⟨i, ha, hl⟩
    simp [getString, hm, this]
  · unfold getString
    cases hm : lookup sec st.m with
    | none => rfl
    | some m =>
      simp only
      cases hv : lookup key m with
      | none => rfl
      | some v =>
        obtain ⟨i, hi, -⟩ := (h2.vals sec m hm key v).1 hv
        exact absurd hi (hn i v)

/-- **C55** (listing).  `Sections` lists every section that has a header, once; `Keys` lists every key assigned in the
section, once. -/
theorem C55_listing (text : Str) : ∃ p, load text = .ok p ∧
    ((sections p).Nodup ∧ ∀ s, s ∈ sections p ↔ ∃ l ∈ Spec.lines text, Spec.kind l = .header s) ∧
    (∀ s, (keys p s).Nodup ∧ ∀ k, k ∈ keys p s ↔ ∃ i v, Spec.Assigns (Spec.lines text) i s k v) := by
  obtain ⟨st, h1, h2⟩ := load_inv text
  refine ⟨st.m, h1, ⟨h2.nod, fun s => ?_⟩, fun s => ?_⟩
  · rw [sections, ← lookup_isSome, h2.secs]
    constructor
    · rintro ⟨i, hi⟩
      obtain ⟨l, hl, hk⟩ := Option.map_eq_some_iff.1 hi
      exact ⟨l, List.mem_of_getElem? hl, hk⟩
    · rintro ⟨l, hl, hk⟩
      obtain ⟨i, hi⟩ := List.mem_iff_getElem?.1 hl
      exact ⟨i, by rw [hi]; simp [hk]⟩
  · unfold keys
    cases hm : lookup s st.m with
    | none =>
      refine ⟨by simp, fun k => ?_⟩
      simp only [List.not_mem_nil, false_iff]
      rintro ⟨i, v, -, ⟨j, -, hj, -⟩, -⟩
      exact (h2.secs s).2 ⟨j, hj⟩ hm
    | some m =>
      refine ⟨h2.nods s m hm, fun k => ?_⟩
      rw [← lookup_isSome]
      constructor
      · intro hne
        obtain ⟨v, hv⟩ := Option.ne_none_iff_exists'.1 hne
        obtain ⟨i, hi, -⟩ := (h2.vals s m hm k v).1 hv
        exact ⟨i, v, hi⟩
      · rintro ⟨i, v, hi⟩
        obtain ⟨v', hv'⟩ := exists_last hi
        rw [(h2.vals s m hm k v').2 hv']; simp

/-! ## Round trip -/

/-- One assignment as a line of text. -/
def Spec.renderPair (p : Str × Str) : Str := p.1 ++ ['='] ++ p.2 ++ ['\n']

/-- One section as text. -/
def Spec.renderSection (p : Str × List (Str × Str)) : Str := ['['] ++ p.1 ++ [']', '\n'] ++ p.2.flatMap Spec.renderPair

/-- A whole file. -/
def Spec.render (secs : List (Str × List (Str × Str))) : Str := secs.flatMap Spec.renderSection

/-- A well-formed key: not empty, no white space at its ends, no `=` or line end, not starting with `;` or `[`. -/
def Spec.KeyOk (k : Str) : Prop :=
  k ≠ [] ∧ Spec.strip k = k ∧ '=' ∉ k ∧ '\n' ∉ k ∧ k.head? ≠ some ';' ∧ k.head? ≠ some '['

/-- A well-formed value: no white space at its ends, no line end. -/
def Spec.ValueOk (v : Str) : Prop := Spec.strip v = v ∧ '\n' ∉ v

/-- Well-formed sections: distinct non-empty names without line end, distinct well-formed keys, well-formed values. -/
def Spec.FileOk (secs : List (Str × List (Str × Str))) : Prop :=
  (secs.map Prod.fst).Nodup ∧ ∀ s ∈ secs, s.1 ≠ [] ∧ '\n' ∉ s.1 ∧ (s.2.map Prod.fst).Nodup ∧
    ∀ p ∈ s.2, Spec.KeyOk p.1 ∧ Spec.ValueOk p.2

theorem strip_of_ends (t : Str) (h1 : ∀ c, t.head? = some c → Spec.white c = false)
    (h2 : ∀ c, t.getLast? = some c → Spec.white c = false) : Spec.strip t = t := by
  unfold Spec.strip
  have : t.dropWhile Spec.white = t := by
    cases t with
    | nil => rfl
    | cons c r => simp [h1 c rfl]
  rw [this]
  cases t using List.reverseRecOn with
  | nil => rfl
  | append_singleton r c => exact List.rdropWhile_concat_neg _ _ _ (by simp [h2 c (by simp)])

theorem head_of_strip (t : Str) (h : Spec.strip t = t) (c : Char) (hc : t.head? = some c) : Spec.white c = false := by
  cases t with
  | nil => simp at hc
  | cons d r =>
    simp only [List.head?_cons, Option.some.injEq] at hc
    subst hc
    by_contra hs
    have hs : Spec.white d = true := by simpa using hs
    have l1 : (Spec.strip (d :: r)).length ≤ r.length := by
      unfold Spec.strip
      rw [List.dropWhile_cons, if_pos hs]
      exact le_trans (List.rdropWhile_prefix _ _).length_le (List.dropWhile_sublist _).length_le
    rw [h] at l1; simp at l1; omega

theorem last_of_strip (t : Str) (h : Spec.strip t = t) (c : Char) (hc : t.getLast? = some c) : Spec.white c = false := by
  cases t using List.reverseRecOn with
  | nil => simp at hc
  | append_singleton r d =>
    simp only [List.getLast?_append, List.getLast?_singleton, Option.or_some, Option.some.injEq] at hc
    have hc : d = c := by simpa using hc
    subst hc
    by_contra hs
    have hs : Spec.white d = true := by simpa using hs
    have l1 : (Spec.strip (r ++ [d])).length ≤ r.length := by
      have hsp : Spec.strip (r ++ [d]) = Spec.strip r := by
        unfold Spec.strip
        rw [List.dropWhile_append]
        split
        · rename_i he
          have : List.dropWhile Spec.white r = [] := by simpa using he
          rw [this]; simp [hs]
        · exact List.rdropWhile_concat_pos _ _ _ hs
      rw [hsp]
      unfold Spec.strip
      exact le_trans (List.rdropWhile_prefix _ _).length_le (List.dropWhile_sublist _).length_le
    rw [h] at l1; simp at l1; omega

theorem kind_header (s : Str) : Spec.kind (['['] ++ s ++ [']']) = .header s := by
  have hs : Spec.strip (['['] ++ s ++ [']']) = ['['] ++ s ++ [']'] := by
    apply strip_of_ends
    · intro c hc; simp at hc; subst hc; decide
    · intro c hc
      rw [List.getLast?_append] at hc
      simp at hc; subst hc; decide
  simp only [Spec.kind, Spec.kindOf, hs]
  rw [if_neg (by simp), if_pos (by constructor; simp; rw [List.getLast?_append]; simp)]
  simp

theorem takeWhile_key (k v : Str) (h : '=' ∉ k) : (k ++ ['='] ++ v).takeWhile (· != '=') = k ∧
    (k ++ ['='] ++ v).dropWhile (· != '=') = '=' :: v := by
  induction k with
  | nil => simp
  | cons c k ih =>
    simp only [List.mem_cons, not_or] at h
    have hc : c ≠ '=' := fun e => h.1 e.symm
    obtain ⟨h1, h2⟩ := ih h.2
    simp only [List.cons_append, List.takeWhile_cons, List.dropWhile_cons, bne_iff_ne, ne_eq, hc, not_false_eq_true,
      if_true]
    exact ⟨by rw [h1], h2⟩

theorem kind_pair (k v : Str) (hk : Spec.KeyOk k) (hv : Spec.ValueOk v) : Spec.kind (k ++ ['='] ++ v) = .assign k v := by
  obtain ⟨h0, h1, h2, h3, h4, h5⟩ := hk
  obtain ⟨c, r, rfl⟩ := List.exists_cons_of_ne_nil h0
  have hs : Spec.strip ((c :: r) ++ ['='] ++ v) = (c :: r) ++ ['='] ++ v := by
    apply strip_of_ends
    · intro d hd; exact head_of_strip _ h1 d (by simpa using hd)
    · intro d hd
      cases v using List.reverseRecOn with
      | nil => rw [List.append_nil, List.getLast?_append] at hd; simp at hd; subst hd; decide
      | append_singleton u e =>
        refine last_of_strip _ hv.1 d ?_
        rw [List.getLast?_append] at hd ⊢
        simpa using hd
  obtain ⟨t1, t2⟩ := takeWhile_key (c :: r) v h2
  simp only [Spec.kind, Spec.kindOf, hs, t1, t2]
  rw [if_neg (by
      rintro (e | e)
      · simp at e
      · exact h4 (by simpa using e)), if_neg (by
      rintro ⟨e, -⟩
      exact h5 (by simpa using e))]
  simp only [List.tail_cons, h1, hv.1, if_neg h0]

theorem lines_line (l r : Str) (h : '\n' ∉ l) : Spec.lines (l ++ ['\n'] ++ r) = l :: Spec.lines r := by
  induction l with
  | nil => simp [Spec.lines]
  | cons c l ih =>
    simp only [List.mem_cons, not_or] at h
    have hc : c ≠ '\n' := fun e => h.1 e.symm
    rw [List.cons_append, List.cons_append, Spec.lines, if_neg hc, ih h.2]

theorem lookup_append_new {β : Type} (k : Str) (v : β) (m : List (Str × β)) (h : k ∉ m.map Prod.fst) :
    insert k v m = m ++ [(k, v)] := by
  induction m with
  | nil => rfl
  | cons p m ih =>
    obtain ⟨a, b⟩ := p
    simp only [List.map_cons, List.mem_cons, not_or] at h
    rw [insert, if_neg (fun e => h.1 e.symm), ih h.2, List.cons_append]

theorem insert_last {β : Type} (k : Str) (v w : β) (m : List (Str × β)) (h : k ∉ m.map Prod.fst) :
    insert k v (m ++ [(k, w)]) = m ++ [(k, v)] := by
  induction m with
  | nil => simp [insert]
  | cons p m ih =>
    obtain ⟨a, b⟩ := p
    simp only [List.map_cons, List.mem_cons, not_or] at h
    rw [List.cons_append, insert, if_neg (fun e => h.1 e.symm), ih h.2, List.cons_append]

theorem lookup_last {β : Type} (k : Str) (w : β) (m : List (Str × β)) (h : k ∉ m.map Prod.fst) :
    lookup k (m ++ [(k, w)]) = some w := by
  induction m with
  | nil => simp [lookup]
  | cons p m ih =>
    obtain ⟨a, b⟩ := p
    simp only [List.map_cons, List.mem_cons, not_or] at h
    rw [List.cons_append, lookup, if_neg (fun e => h.1 e.symm), ih h.2]

theorem run_pairs (m : List (Str × Section)) (s : Str) (hs : s ≠ []) (hm : s ∉ m.map Prod.fst) (rest : Str) :
    ∀ (ps done : List (Str × Str)), ((done ++ ps).map Prod.fst).Nodup →
      (∀ p ∈ ps, Spec.KeyOk p.1 ∧ Spec.ValueOk p.2) →
      run ⟨m ++ [(s, done)], s⟩ (Spec.lines (ps.flatMap Spec.renderPair ++ rest)) =
        run ⟨m ++ [(s, done ++ ps)], s⟩ (Spec.lines rest) := by
  intro ps
  induction ps with
  | nil => intro done _ _; simp
  | cons p ps ih =>
    intro done hn hok
    obtain ⟨k, v⟩ := p
    obtain ⟨hk, hv⟩ := hok (k, v) (by simp)
    have hnl : '\n' ∉ k ++ ['='] ++ v := by
      simp only [List.mem_append, List.mem_singleton, not_or]
      exact ⟨⟨hk.2.2.2.1, by decide⟩, hv.2⟩
    have e : ((k, v) :: ps).flatMap Spec.renderPair ++ rest =
        (k ++ ['='] ++ v) ++ ['\n'] ++ (ps.flatMap Spec.renderPair ++ rest) := by
      simp [Spec.renderPair]
    have hkd : k ∉ done.map Prod.fst := by
      intro hc
      rw [List.map_append, List.nodup_append] at hn
      exact hn.2.2 k hc k (by simp) rfl
    rw [e, lines_line _ _ hnl, run, body_eq, kind_pair k v hk hv]
    simp only [if_neg hs, lookup_last s done m hm, insert_last s _ _ m hm, lookup_append_new k v done hkd]
    have := ih (done ++ [(k, v)]) (by simpa using hn) (fun p hp => hok p (by simp [hp]))
    rw [this]
    simp

theorem run_render : ∀ (secs m : List (Str × List (Str × Str))) (c : Str), Spec.FileOk (m ++ secs) →
    ∃ c', run ⟨m, c⟩ (Spec.lines (Spec.render secs)) = .ok ⟨m ++ secs, c'⟩ := by
  intro secs
  induction secs with
  | nil =>
    intro m c _
    refine ⟨c, ?_⟩
    have hk : Spec.kind [] = .nothing := by decide
    simp only [Spec.render, List.flatMap_nil, Spec.lines, run, body_eq, hk, List.append_nil]
  | cons sp secs ih =>
    intro m c h
    obtain ⟨s, ps⟩ := sp
    obtain ⟨h1, h2⟩ := h
    obtain ⟨hs0, hs1, hs2, hs3⟩ := h2 (s, ps) (by simp)
    have hsm : s ∉ m.map Prod.fst := by
      intro hc
      rw [List.map_append, List.nodup_append] at h1
      exact h1.2.2 s hc s (by simp) rfl
    have e : Spec.render ((s, ps) :: secs) =
        (['['] ++ s ++ [']']) ++ ['\n'] ++ (ps.flatMap Spec.renderPair ++ Spec.render secs) := by
      simp [Spec.render, Spec.renderSection]
    have hnl : '\n' ∉ ['['] ++ s ++ [']'] := by
      simp only [List.mem_append, List.mem_singleton, not_or]
      exact ⟨⟨by decide, hs1⟩, by decide⟩
    have hlk : lookup s m = none := by
      by_contra hc
      exact hsm ((lookup_isSome s m).1 hc)
    rw [e, lines_line _ _ hnl, run, body_eq, kind_header]
    simp only [hlk, lookup_append_new s [] m hsm]
    rw [run_pairs m s hs0 hsm _ ps [] (by simpa using hs2) hs3]
    simp only [List.nil_append]
    have := ih (m ++ [(s, ps)]) s ⟨by simpa using h1, by simpa using h2⟩
    simpa using this

/-- **C56**.  Writing any well-formed sections as text and loading it gives back exactly these sections, keys and
values. -/
theorem C56_roundtrip (secs : List (Str × List (Str × Str))) (h : Spec.FileOk secs) :
    ∃ p, load (Spec.render secs) = .ok p ∧ sections p = secs.map Prod.fst ∧
      (∀ s kvs, (s, kvs) ∈ secs → keys p s = kvs.map Prod.fst ∧
        ∀ k v, (k, v) ∈ kvs → ∀ dflt, getString p s k dflt = v) ∧
      (∀ s, s ∉ secs.map Prod.fst → keys p s = [] ∧ ∀ k dflt, getString p s k dflt = dflt) := by
  obtain ⟨c, hc⟩ := run_render secs [] [] h
  have find : ∀ {β : Type} (l : List (Str × β)), (l.map Prod.fst).Nodup → ∀ k v, (k, v) ∈ l → lookup k l = some v := by
    intro β l
    induction l with
    | nil => simp
    | cons p l ih =>
      intro hn k v hm
      obtain ⟨a, b⟩ := p
      simp only [List.map_cons, List.nodup_cons] at hn
      rcases List.mem_cons.1 hm with e | hm
      · obtain ⟨rfl, rfl⟩ := Prod.mk.inj e
        simp [lookup]
      · have : a ≠ k := by
          rintro rfl
          exact hn.1 (List.mem_map.2 ⟨(a, v), hm, rfl⟩)
        rw [lookup, if_neg this]; exact ih hn.2 k v hm
  refine ⟨secs, by simp [load, loop_eq, hc], rfl, ?_, ?_⟩
  · intro s kvs hm
    have hl := find secs h.1 s kvs hm
    refine ⟨by simp [keys, hl], fun k v hkv dflt => ?_⟩
    simp [getString, hl, find kvs (h.2 _ hm).2.2.1 k v hkv]
  · intro s hm
    have hl : lookup s secs = none := by
      by_contra hc
      exact hm ((lookup_isSome s secs).1 hc)
    exact ⟨by simp [keys, hl], fun k dflt => by simp [getString, hl]⟩

/-! ## Examples -/

/-- A file with a comment, a key outside a section, repeated and lone keys. -/
def sample : Str := "x=0\n; c\n[a]\n k = 1 = 2 \nk=3\nlone\n[]\ny=1\n[b]\nz=".toList

example : ∃ p, load sample = .ok p ∧ getString p "a".toList "k".toList [] = "3".toList ∧
    getString p "a".toList "lone".toList "d".toList = [] ∧ getString p [] "y".toList "d".toList = "d".toList := by
  refine ⟨[("a".toList, [("k".toList, "3".toList), ("lone".toList, [])]), ([], []), ("b".toList, [("z".toList, [])])],
    ?_, ?_, ?_, ?_⟩ <;> decide +kernel

example : Spec.kind "  k = 1 = 2 ".toList = .assign "k".toList "1 = 2".toList := by decide +kernel

example : Spec.FileOk [("a b".toList, [("k".toList, "v = 1".toList), ("l".toList, [])]), ("c".toList, [])] := by
  refine ⟨by decide, ?_⟩
  intro s hs
  simp only [List.mem_cons, List.not_mem_nil, or_false] at hs
  rcases hs with rfl | rfl
  · refine ⟨by decide, by decide, by decide, ?_⟩
    intro p hp
    simp only [List.mem_cons, List.not_mem_nil, or_false] at hp
    rcases hp with rfl | rfl
    · exact ⟨⟨by decide, by decide, by decide, by decide, by decide, by decide⟩, by decide, by decide⟩
    · exact ⟨⟨by decide, by decide, by decide, by decide, by decide, by decide⟩, by decide, by decide⟩
  · exact ⟨by decide, by decide, by decide, by simp⟩

end Verif.Ini
