import Verif.Model.StrRand
import Verif.Props.RandBound
/-!
# C139: the strings of `strings.Rand`, and many goroutines drawing them
-/

set_option linter.unusedSectionVars false

namespace Verif.StrRand
open Verif.Spec Verif.Rand

/-! ## Specification -/

/-- The capital letter number `k`. -/
def capital (k : Nat) : UInt8 := UInt8.ofNat (65 + k)

/-- The `i`-th letter the generator started with `s` yields. -/
def letterAt (s : BitVec 32) (i : Nat) : UInt8 := capital ((next32^[i + 1] s).toNat % 26)

/-- Neighbouring letters have numbers of different parity. -/
def Alternates : List UInt8 → Prop
  | [] => True
  | [_] => True
  | x :: y :: l => x.toNat % 2 ≠ y.toNat % 2 ∧ Alternates (y :: l)

/-- The answers of a history, each with the length that was asked for.  `p` holds what the goroutines asked last. -/
def answers (p : Nat → Int) : List (Ev Op (Res (List UInt8))) → List (Int × Res (List UInt8))
  | [] => []
  | .call t op :: τ => answers (setAt p t op.length) τ
  | .ret t r :: τ => (p t, r) :: answers p τ

/-- The letters at the places where `owner` says `k`. -/
def owned {β : Type} [DecidableEq β] (s : BitVec 32) (owner : List β) (k : β) : List UInt8 :=
  ((List.range owner.length).filter fun i => owner[i]? = some k).map (letterAt s)

/-- The sequential object: the state is the seed. -/
def alone (s : BitVec 32) (op : Op) : BitVec 32 × Res (List UInt8) :=
  match strRand op.rule op.length s with
  | .ok (l, s') => (s', .ok l)
  | .panic => (s, .panic)

/-! ## One goroutine -/

theorem capital_toNat (k : Nat) (h : k < 26) : (capital k).toNat = 65 + k := by
  have : ∀ k < 26, (capital k).toNat = 65 + k := by decide
  exact this k h

theorem letter_eq (r : BitVec 32) : letter r = .ok (capital (r.toNat % 26)) := by
  obtain ⟨v, h1, h2⟩ := below_mod 26#32 (by decide) r
  have h26 : (26#32).toNat = 26 := rfl
  rw [h26] at h2
  have : v.toNat < 26 := by omega
  simp only [letter, h1, Res.bind_ok]
  rw [upper_get _ this, h2]; rfl

theorem letterAt_next (s : BitVec 32) (i : Nat) : letterAt (next32 s) i = letterAt s (i + 1) := by
  unfold letterAt
  rw [← Function.iterate_succ_apply]

theorem letterAt_zero (s : BitVec 32) : letterAt s 0 = capital ((next32 s).toNat % 26) := by
  unfold letterAt
  rw [Function.iterate_one]

theorem letter_iter (s : BitVec 32) (i : Nat) : letter (next32 (next32^[i] s)) = .ok (letterAt s i) := by
  rw [letter_eq, letterAt, Function.iterate_succ_apply']

theorem put_ok {r : BitVec 32} {ch : UInt8} (h : letter r = .ok ch) (n : Nat) (b : List UInt8) :
    put n b r = .loop n (b ++ [ch]) := by
  unfold put
  rw [h]

theorem put_iter (s : BitVec 32) (i n : Nat) (b : List UInt8) :
    put n b (next32 (next32^[i] s)) = .loop n (b ++ [letterAt s i]) := put_ok (letter_iter s i) n b

theorem letters_succ (n : Nat) (s : BitVec 32) : (List.range (n + 1)).map (letterAt s) =
    capital ((next32 s).toNat % 26) :: (List.range n).map (letterAt (next32 s)) := by
  rw [List.range_succ_eq_map, List.map_cons, List.map_map, letterAt_zero]
  refine congrArg _ (List.map_congr_left fun i _ => ?_)
  rw [letterAt_next]
  rfl

theorem strLoop_letters (n : Nat) (s : BitVec 32) :
    strLoop n s = .ok ((List.range n).map (letterAt s), next32^[n] s) := by
  induction n generalizing s with
  | zero => rfl
  | succ n ih =>
    have h := letter_eq (next32 s)
    simp only [letter] at h
    rcases hb : below 26#32 (next32 s) with k | _
    · rw [hb] at h
      simp only [Res.bind_ok] at h
      rw [letters_succ, Function.iterate_succ_apply]
      simp only [strLoop, hb, Res.bind_ok, h, ih, Res.pure_eq]
    · rw [hb] at h
      simp at h

theorem strRand_letters (rule : UInt64) (n : Nat) (s : BitVec 32) :
    strRand rule n s = .ok ((List.range n).map (letterAt s), next32^[n] s) := by
  rw [strRand, if_neg (by omega), Int.toNat_natCast, strLoop_letters]

theorem letterAt_bounds (s : BitVec 32) (i : Nat) : 65 ≤ (letterAt s i).toNat ∧ (letterAt s i).toNat ≤ 90 := by
  rw [letterAt, capital_toNat _ (by omega)]
  omega

theorem letterAt_parity (s : BitVec 32) (i : Nat) : (letterAt s (i + 1)).toNat % 2 ≠ (letterAt s i).toNat % 2 := by
  rw [letterAt, letterAt, capital_toNat _ (by omega), capital_toNat _ (by omega)]
  have := (C41_low_bit (next32^[i + 1] s) 0#64).1
  rw [Function.iterate_succ', Function.comp]
  omega

theorem alternates_map (f : Nat → UInt8) (hf : ∀ i, (f (i + 1)).toNat % 2 ≠ (f i).toNat % 2) (k n : Nat) :
    Alternates ((List.range' k n).map f) := by
  induction n generalizing k with
  | zero => trivial
  | succ n ih =>
    cases n with
    | zero => trivial
    | succ n => exact ⟨(hf k).symm, ih (k + 1)⟩

/-- **C139** is false as to the variety of the strings: whatever the seed and the length, the letters alternate between
those with even and those with odd number.  No string of two equal letters is ever drawn, for instance. -/
theorem C139_alternates_false (rule : UInt64) (n : Int) (s s' : BitVec 32) (l : List UInt8)
    (h : strRand rule n s = .ok (l, s')) : Alternates l := by
  by_cases hn : n < 0
  · rw [strRand, if_pos hn] at h; cases h
  · obtain ⟨m, rfl⟩ := Int.eq_ofNat_of_zero_le (by omega : 0 ≤ n)
    rw [strRand_letters] at h
    injection h with h
    injection h with h1 h2
    rw [← h1, List.range_eq_range']
    exact alternates_map _ (letterAt_parity s) 0 m

example : Alternates [71, 76, 87] := C139_alternates_false 0 3 1#32 2828410334#32 _ (by decide)

/-- The lists of `n` capitals that alternate, beginning with parity `p`. -/
def zigzag : Nat → Nat → List (List UInt8)
  | _, 0 => [[]]
  | p, n + 1 => (List.range 13).flatMap fun k => (zigzag (1 - p) n).map (capital (2 * k + p) :: ·)

theorem zigzag_length (p n : Nat) : (zigzag p n).length = 13 ^ n := by
  induction n generalizing p with
  | zero => rfl
  | succ n ih =>
    simp only [zigzag, List.length_flatMap, List.length_map, ih, List.map_const', List.length_range, List.sum_replicate,
      smul_eq_mul, Nat.pow_succ]
    ring

theorem mem_zigzag (s : BitVec 32) (n : Nat) :
    (List.range n).map (letterAt s) ∈ zigzag ((next32 s).toNat % 2) n := by
  induction n generalizing s with
  | zero => simp [zigzag]
  | succ n ih =>
    have h := (C41_low_bit (next32 s) 0#64).1
    rw [zigzag, List.mem_flatMap]
    refine ⟨(next32 s).toNat % 26 / 2, by rw [List.mem_range]; omega, ?_⟩
    rw [List.mem_map]
    refine ⟨(List.range n).map (letterAt (next32 s)), ?_, ?_⟩
    · have e : 1 - (next32 s).toNat % 2 = (next32 (next32 s)).toNat % 2 := by omega
      rw [e]
      exact ih _
    · have e : 2 * ((next32 s).toNat % 26 / 2) + (next32 s).toNat % 2 = (next32 s).toNat % 26 := by omega
      rw [letters_succ, e]

theorem nodup_length_le {β : Type} {L : List β} (hL : L.Nodup) (N : Nat) (f : Nat → β) (h : ∀ x ∈ L, ∃ i < N, x = f i) :
    L.length ≤ N := by
  have hs : L ⊆ (List.range N).map f := by
    intro x hx
    obtain ⟨i, hi, rfl⟩ := h x hx
    exact List.mem_map.2 ⟨i, List.mem_range.2 hi, rfl⟩
  have := (List.subperm_of_subset hL hs).length_le
  simpa using this

/-- **C139** There are few strings: of length `n` at most 2·13^n different ones (of 26^n), and never more than 2^32, can
be drawn by any program from any seeds. -/
theorem C139_few (n : Int) (L : List (List UInt8)) (hL : L.Nodup)
    (h : ∀ l ∈ L, ∃ rule s s', strRand rule n s = .ok (l, s')) : L.length ≤ 2 * 13 ^ n.toNat ∧ L.length ≤ 2 ^ 32 := by
  have h' : ∀ l ∈ L, ∃ s : BitVec 32, l = (List.range n.toNat).map (letterAt s) := by
    intro l hl
    obtain ⟨rule, s, s', e⟩ := h l hl
    by_cases hn : n < 0
    · rw [strRand, if_pos hn] at e; cases e
    · obtain ⟨m, rfl⟩ := Int.eq_ofNat_of_zero_le (by omega : 0 ≤ n)
      rw [strRand_letters] at e
      injection e with e
      injection e with e1 e2
      exact ⟨s, e1.symm⟩
  constructor
  · have hs : L ⊆ zigzag 0 n.toNat ++ zigzag 1 n.toNat := by
      intro l hl
      obtain ⟨s, rfl⟩ := h' l hl
      have := mem_zigzag s n.toNat
      rw [List.mem_append]
      rcases Nat.mod_two_eq_zero_or_one (next32 s).toNat with e | e
      · rw [e] at this; exact .inl this
      · rw [e] at this; exact .inr this
    have := (List.subperm_of_subset hL hs).length_le
    rw [List.length_append, zigzag_length, zigzag_length] at this
    omega
  · refine nodup_length_le hL _ (fun i => (List.range n.toNat).map (letterAt (BitVec.ofNat 32 i))) fun l hl => ?_
    obtain ⟨s, rfl⟩ := h' l hl
    exact ⟨s.toNat, s.isLt, by simp⟩

/-! ### Every letter occurs -/

theorem low_one (s : BitVec 32) : (next32 s).toNat % 4 = (s.toNat * 3 + 3) % 4 := by
  have ha : (7368787#32).toNat = 7368787 := rfl
  have hc : (2750159#32).toNat = 2750159 := rfl
  rw [next32, next, BitVec.toNat_add, BitVec.toNat_mul, ha, hc, Nat.mod_mod_of_dvd _ (⟨2 ^ 30, by norm_num⟩ : 4 ∣ 2 ^ 32),
    Nat.add_mod, Nat.mod_mod_of_dvd _ (⟨2 ^ 30, by norm_num⟩ : 4 ∣ 2 ^ 32)]
  omega

theorem low_two (s : BitVec 32) : (next32 (next32 s)).toNat % 4 = s.toNat % 4 := by
  have h1 := low_one s
  have h2 := low_one (next32 s)
  omega

theorem low_even (s : BitVec 32) (n : Nat) : (next32^[2 * n] s).toNat % 4 = s.toNat % 4 := by
  induction n with
  | zero => rfl
  | succ n ih =>
    rw [show 2 * (n + 1) = 2 * n + 1 + 1 by ring, Function.iterate_succ_apply', Function.iterate_succ_apply', low_two, ih]

/-- Two steps at a time the generator goes through all numbers with the same last two bits. -/
theorem visits_four (s t : BitVec 32) (h : t.toNat % 4 = s.toNat % 4) : ∃ n < 2 ^ 30, next32^[2 * n] s = t := by
  have hlt : ∀ x : BitVec 32, x.toNat / 4 < 2 ^ 30 := fun x => by have := x.isLt; omega
  let f : Fin (2 ^ 30) → Fin (2 ^ 30) := fun n => ⟨(next32^[2 * n.1] s).toNat / 4, hlt _⟩
  have hinj : Function.Injective f := by
    intro i j hij
    have h1 : (next32^[2 * i.1] s).toNat / 4 = (next32^[2 * j.1] s).toNat / 4 := congrArg Fin.val hij
    have h2 := low_even s i.1
    have h3 := low_even s j.1
    have h4 : next32^[2 * i.1] s = next32^[2 * j.1] s := BitVec.eq_of_toNat_eq (by omega)
    have hi := i.isLt
    have hj := j.isLt
    rcases Nat.le_total i.1 j.1 with hle | hle
    · have := (C41_period32 s _).1 (iterate_cancel C41_injective.1 (by omega : 2 * i.1 ≤ 2 * j.1) h4)
      have := Nat.eq_zero_of_dvd_of_lt this (by omega)
      apply Fin.ext; omega
    · have := (C41_period32 s _).1 (iterate_cancel C41_injective.1 (by omega : 2 * j.1 ≤ 2 * i.1) h4.symm)
      have := Nat.eq_zero_of_dvd_of_lt this (by omega)
      apply Fin.ext; omega
  obtain ⟨n, hn⟩ := Finite.surjective_of_injective hinj ⟨t.toNat / 4, hlt t⟩
  refine ⟨n.1, n.isLt, BitVec.eq_of_toNat_eq ?_⟩
  have h1 : (next32^[2 * n.1] s).toNat / 4 = t.toNat / 4 := congrArg Fin.val hn
  have h2 := low_even s n.1
  omega

/-- **C139** Every capital letter occurs: whatever the seed, it is among the first 2^31 letters drawn.
Missing: that every string occurs, which is false (`C139_few`). -/
theorem C139_every_letter_partial (s : BitVec 32) (k : Nat) (hk : k < 26) : ∃ i < 2 ^ 31, letterAt s i = capital k := by
  have key : ∀ x : BitVec 32, x.toNat % 2 = k % 2 → ∃ n < 2 ^ 30, (next32^[2 * n] x).toNat % 26 = k := by
    intro x hx
    obtain ⟨t, ht, h26⟩ : ∃ t : BitVec 32, t.toNat % 4 = x.toNat % 4 ∧ t.toNat % 26 = k := by
      by_cases h4 : k % 4 = x.toNat % 4
      · exact ⟨BitVec.ofNat 32 k, by rw [BitVec.toNat_ofNat]; omega, by rw [BitVec.toNat_ofNat]; omega⟩
      · exact ⟨BitVec.ofNat 32 (k + 26), by rw [BitVec.toNat_ofNat]; omega, by rw [BitVec.toNat_ofNat]; omega⟩
    obtain ⟨n, hn, e⟩ := visits_four x t ht
    exact ⟨n, hn, by rw [e, h26]⟩
  have hp := (C41_low_bit (next32 s) 0#64).1
  by_cases h1 : (next32 s).toNat % 2 = k % 2
  · obtain ⟨n, hn, e⟩ := key _ h1
    refine ⟨2 * n, by omega, ?_⟩
    rw [letterAt, Function.iterate_succ_apply, e]
  · obtain ⟨n, hn, e⟩ := key (next32 (next32 s)) (by omega)
    refine ⟨2 * n + 1, by omega, ?_⟩
    rw [letterAt, Function.iterate_succ_apply, Function.iterate_succ_apply, e]

/-! ## Many goroutines -/

/-- What the goroutines asked last. -/
def asked (p : Nat → Int) : List (Ev Op (Res (List UInt8))) → Nat → Int
  | [] => p
  | .call t op :: τ => asked (setAt p t op.length) τ
  | .ret _ _ :: τ => asked p τ

/-- What the answer `r` to a call asking for `len` letters has to be, `own` being the letters that are its. -/
def Right (len : Int) (r : Res (List UInt8)) (own : List UInt8) : Prop :=
  if len < 0 then r = .panic ∧ own = [] else r = .ok own ∧ own.length = len.toNat

theorem answers_append (p : Nat → Int) (τ τ' : List (Ev Op (Res (List UInt8)))) :
    answers p (τ ++ τ') = answers p τ ++ answers (asked p τ) τ' := by
  induction τ generalizing p with
  | nil => rfl
  | cons e τ ih => cases e <;> simp [answers, asked, ih]

theorem asked_append (p : Nat → Int) (τ τ' : List (Ev Op (Res (List UInt8)))) :
    asked p (τ ++ τ') = asked (asked p τ) τ' := by
  induction τ generalizing p with
  | nil => rfl
  | cons e τ ih => cases e <;> simp [asked, ih]

section owned
variable {β γ : Type} [DecidableEq β] [DecidableEq γ]

theorem owned_snoc (s : BitVec 32) (o : List β) (j k : β) :
    owned s (o ++ [j]) k = owned s o k ++ if j = k then [letterAt s o.length] else [] := by
  have h1 : (List.range o.length).filter (fun i => (o ++ [j])[i]? = some k) =
      (List.range o.length).filter (fun i => o[i]? = some k) := by
    refine List.filter_congr fun i hi => ?_
    rw [List.getElem?_append_left (List.mem_range.1 hi)]
  simp only [owned, List.length_append, List.length_singleton, List.range_succ, List.filter_append, h1, List.map_append]
  congr 1
  by_cases h : j = k <;> simp [h]

theorem owned_congr (s : BitVec 32) (o : List β) (o' : List γ) (k : β) (k' : γ) (hl : o.length = o'.length)
    (h : ∀ i : Nat, o[i]? = some k ↔ o'[i]? = some k') : owned s o k = owned s o' k' := by
  simp only [owned, hl, h]

theorem owned_nil_iff (s : BitVec 32) (o : List β) (k : β) : owned s o k = [] ↔ k ∉ o := by
  simp only [owned, List.map_eq_nil_iff, List.filter_eq_nil_iff, List.mem_range, decide_eq_true_eq]
  constructor
  · intro h hk
    obtain ⟨i, hi, e⟩ := List.getElem_of_mem hk
    exact h i hi (by rw [List.getElem?_eq_getElem hi, e])
  · intro h i hi e
    exact h (List.mem_of_getElem? e)

theorem owned_letters (s : BitVec 32) (o : List β) (k : β) : ∀ ch ∈ owned s o k, 65 ≤ ch.toNat ∧ ch.toNat ≤ 90 := by
  intro ch h
  obtain ⟨i, _, rfl⟩ := List.mem_map.1 h
  exact letterAt_bounds s i

end owned

/-- Who a letter belongs to: a goroutine that is drawing, or an answer given. -/
abbrev Own := Nat ⊕ Nat

/-- A goroutine and its letters. -/
def Local (len : Int) (own : List UInt8) : PC → Prop
  | .idle => own = []
  | .loop n b => 0 ≤ len ∧ b = own ∧ own.length + n = len.toNat
  | .cas n b _ => 0 ≤ len ∧ b = own ∧ own.length + (n + 1) = len.toNat
  | .panics => len < 0 ∧ own = []

structure Inv (s0 : BitVec 32) (τ : List (Ev Op (Res (List UInt8)))) (s : St) (o : List Own) : Prop where
  seed : s.seed = next32^[o.length] s0
  loc : ∀ t, Local (asked (fun _ => 0) τ t) (owned s0 o (.inl t)) (s.pc t)
  old : ∀ k, Sum.inr k ∈ o → k < (answers (fun _ => 0) τ).length
  ans : ∀ k len r, (answers (fun _ => 0) τ)[k]? = some (len, r) → Right len r (owned s0 o (.inr k))

/-- When `t` returns, its letters become those of answer `k`. -/
def give (t k : Nat) : Own → Own
  | .inl u => if u = t then .inr k else .inl u
  | .inr j => .inr j

theorem inv_ret {s0 : BitVec 32} {τ : List (Ev Op (Res (List UInt8)))} {s : St} {o : List Own} (h : Inv s0 τ s o) (t : Nat)
    (r : Res (List UInt8)) (hr : Right (asked (fun _ => 0) τ t) r (owned s0 o (.inl t))) :
    Inv s0 (τ ++ [.ret t r]) ⟨s.seed, setAt s.pc t .idle⟩ (o.map (give t (answers (fun _ => 0) τ).length)) := by
  obtain ⟨h1, h2, h3, h4⟩ := h
  generalize hm : (answers (fun _ => 0) τ).length = m at *
  have hfresh : Sum.inr m ∉ o := fun hc => Nat.lt_irrefl _ (h3 m hc)
  have hin : ∀ u, u ≠ t → owned s0 (o.map (give t m)) (.inl u) = owned s0 o (.inl u) := by
    intro u hu
    refine owned_congr _ _ _ _ _ (by simp) fun i => ?_
    rw [List.getElem?_map]
    rcases ho : o[i]? with _ | (v | j)
    · simp
    · by_cases hv : v = t
      · simp [give, hv, Ne.symm hu]
      · simp [give, hv]
    · simp [give]
  have hit : owned s0 (o.map (give t m)) (.inl t) = [] := by
    rw [owned_nil_iff, List.mem_map]
    rintro ⟨x, _, hx⟩
    rcases x with v | j
    · by_cases hv : v = t <;> simp [give, hv] at hx
    · simp [give] at hx
  have hnew : owned s0 (o.map (give t m)) (.inr m) = owned s0 o (.inl t) := by
    refine owned_congr _ _ _ _ _ (by simp) fun i => ?_
    rw [List.getElem?_map]
    rcases ho : o[i]? with _ | (v | j)
    · simp
    · by_cases hv : v = t <;> simp [give, hv]
    · have : j ≠ m := fun e => hfresh (e ▸ List.mem_of_getElem? ho)
      simp [give, this]
  have hold : ∀ k, k ≠ m → owned s0 (o.map (give t m)) (.inr k) = owned s0 o (.inr k) := by
    intro k hk
    refine owned_congr _ _ _ _ _ (by simp) fun i => ?_
    rw [List.getElem?_map]
    rcases ho : o[i]? with _ | (v | j)
    · simp
    · by_cases hv : v = t <;> simp [give, hv, Ne.symm hk]
    · simp [give]
  have hans : answers (fun _ => 0) (τ ++ [.ret t r]) = answers (fun _ => 0) τ ++ [(asked (fun _ => 0) τ t, r)] := by
    rw [answers_append]; rfl
  have hask : asked (fun _ => 0) (τ ++ [.ret t r]) = asked (fun _ => 0) τ := by
    rw [asked_append]; rfl
  refine ⟨by simpa using h1, fun u => ?_, fun k hk => ?_, fun k len r' hk => ?_⟩
  · rw [hask]
    by_cases hu : u = t
    · subst hu
      simp only [setAt_same, hit]
      rfl
    · simp only [setAt_ne _ _ _ _ hu, hin u hu]
      exact h2 u
  · rw [hans, List.length_append, hm, List.length_singleton]
    obtain ⟨x, hx, e⟩ := List.mem_map.1 hk
    rcases x with v | j
    · by_cases hv : v = t
      · simp only [give, hv, if_pos] at e
        injection e with e
        omega
      · simp [give, hv] at e
    · simp only [give] at e
      injection e with e
      have := h3 j hx
      omega
  · rw [hans] at hk
    rcases Nat.lt_trichotomy k m with hlt | heq | hgt
    · rw [List.getElem?_append_left (by omega)] at hk
      rw [hold k (by omega)]
      exact h4 k len r' hk
    · subst heq
      rw [List.getElem?_append_right (by omega), hm, Nat.sub_self] at hk
      simp only [List.getElem?_cons_zero, Option.some.injEq, Prod.mk.injEq] at hk
      obtain ⟨rfl, rfl⟩ := hk
      rw [hnew]
      exact hr
    · rw [List.getElem?_eq_none (by simp [hm]; omega)] at hk
      cases hk

theorem local_keep {s0 : BitVec 32} {p : Nat → Int} {o : List Own} {f : Nat → PC}
    (h : ∀ t, Local (p t) (owned s0 o (.inl t)) (f t)) (t : Nat) (q : PC) (hq : Local (p t) (owned s0 o (.inl t)) q) :
    ∀ t', Local (p t') (owned s0 o (.inl t')) (setAt f t q t') := by
  intro t'
  by_cases e : t' = t
  · subst e; rw [setAt_same]; exact hq
  · rw [setAt_ne _ _ _ _ e]; exact h t'

theorem inv_step {s0 : BitVec 32} {τ : List (Ev Op (Res (List UInt8)))} {s s' : St} {e : Option (Ev Op (Res (List UInt8)))}
    (h : ∃ o, Inv s0 τ s o) (hs : Step s e s') : ∃ o, Inv s0 (τ ++ e.toList) s' o := by
  obtain ⟨o, hi⟩ := h
  obtain ⟨h1, h2, h3, h4⟩ := id hi
  cases hs with
  | call t op hp =>
    have hans : answers (fun _ => 0) (τ ++ [.call t op]) = answers (fun _ => 0) τ := by
      rw [answers_append]; simp [answers]
    have hask : asked (fun _ => 0) (τ ++ [.call t op]) = setAt (asked (fun _ => 0) τ) t op.length := by
      rw [asked_append]; rfl
    refine ⟨o, h1, fun u => ?_, by rw [Option.toList, hans]; exact h3, by rw [Option.toList, hans]; exact h4⟩
    rw [Option.toList, hask]
    by_cases hu : u = t
    · subst hu
      simp only [setAt_same]
      have hn : owned s0 o (.inl u) = [] := by have := h2 u; rw [hp] at this; exact this
      rw [hn]
      by_cases hl : op.length < 0
      · rw [entry, if_pos hl]; exact ⟨hl, rfl⟩
      · rw [entry, if_neg hl]; exact ⟨by omega, rfl, by simp⟩
    · simp only [setAt_ne _ _ _ _ hu]
      exact h2 u
  | load t n b hp =>
    have := h2 t; rw [hp] at this
    exact ⟨o, h1, by simpa using local_keep h2 t (.cas n b s.seed) this, by simpa using h3, by simpa using h4⟩
  | casFail t n b x hp hx =>
    have := h2 t; rw [hp] at this
    exact ⟨o, h1, by simpa using local_keep h2 t (.loop (n + 1) b) this, by simpa using h3, by simpa using h4⟩
  | casOk t n b x hp hx =>
    subst hx
    have hl := h2 t
    rw [hp] at hl
    obtain ⟨l1, l2, l3⟩ := hl
    have hput : put n b (next32 s.seed) = .loop n (b ++ [letterAt s0 o.length]) := by rw [h1, put_iter]
    refine ⟨o ++ [.inl t], ?_, fun u => ?_, fun k hk => ?_, fun k len r hk => ?_⟩
    · rw [List.length_append, List.length_singleton, Function.iterate_succ_apply', ← h1]
    · rw [Option.toList, List.append_nil, owned_snoc]
      by_cases hu : u = t
      · subst hu
        simp only [setAt_same, hput, if_true]
        refine ⟨l1, by rw [l2], ?_⟩
        simp only [List.length_append, List.length_singleton]
        omega
      · have hne : ¬ (Sum.inl t : Own) = .inl u := fun e => hu (Sum.inl.inj e).symm
        simp only [setAt_ne _ _ _ _ hu, if_neg hne, List.append_nil]
        exact h2 u
    · rw [Option.toList, List.append_nil]
      rcases List.mem_append.1 hk with hk | hk
      · exact h3 k hk
      · simp at hk
    · rw [Option.toList, List.append_nil] at hk
      rw [owned_snoc, if_neg (by simp), List.append_nil]
      exact h4 k len r hk
  | ret t b hp =>
    have := h2 t; rw [hp] at this
    obtain ⟨l1, l2, l3⟩ := this
    refine ⟨_, inv_ret hi t (.ok b) ?_⟩
    rw [Right, if_neg (by omega)]
    exact ⟨by rw [l2], by omega⟩
  | panics t hp =>
    have := h2 t; rw [hp] at this
    refine ⟨_, inv_ret hi t .panic ?_⟩
    rw [Right, if_pos this.1]
    exact ⟨rfl, this.2⟩

/-- **C139** Any number of goroutines drawing strings at the same time, in every interleaving: every letter the
generator yields goes to exactly one of the calls, no letter is lost or given out twice, and each call returns its
letters in the order in which they were drawn, exactly as many as it asked for (a negative number panics and takes
nothing). -/
theorem C139_shared (s0 : BitVec 32) {τ : List (Ev Op (Res (List UInt8)))} {s : St} (h : Exec Step (St.init s0) τ s)
    (hq : ∀ t, s.pc t = .idle) :
    ∃ owner : List Nat, s.seed = next32^[owner.length] s0 ∧ (∀ k ∈ owner, k < (answers (fun _ => 0) τ).length) ∧
      ∀ k len r, (answers (fun _ => 0) τ)[k]? = some (len, r) → Right len r (owned s0 owner k) := by
  have hi : ∃ o, Inv s0 τ s o := by
    refine Exec.invariant (fun τ s => ∃ o, Inv s0 τ s o) ?_ (fun τ _ _ h hs => by simpa using inv_step h hs)
      (fun _ _ e _ h hs => inv_step (e := some e) h hs) h
    exact ⟨[], rfl, fun _ => rfl, by simp, by simp [answers]⟩
  obtain ⟨o, h1, h2, h3, h4⟩ := hi
  have hno : ∀ t, Sum.inl t ∉ o := fun t => by
    have := h2 t
    rw [hq t] at this
    exact (owned_nil_iff _ _ _).1 this
  refine ⟨o.map (Sum.elim id id), by simpa using h1, fun k hk => ?_, fun k len r hk => ?_⟩
  · obtain ⟨x, hx, e⟩ := List.mem_map.1 hk
    rcases x with t | j
    · exact absurd hx (hno t)
    · simp only [Sum.elim_inr, id] at e
      subst e
      exact h3 j hx
  · have : owned s0 (o.map (Sum.elim id id)) k = owned s0 o (.inr k) := by
      refine owned_congr _ _ _ _ _ (by simp) fun i => ?_
      rw [List.getElem?_map]
      rcases ho : o[i]? with _ | (t | j)
      · simp
      · exact absurd (List.mem_of_getElem? ho) (hno t)
      · simp
    rw [this]
    exact h4 k len r hk

/-- Goroutine 0 asks for two letters, goroutine 1 draws one in between. -/
theorem race (s0 : BitVec 32) : ∃ s, Exec Step (St.init s0) [.call 0 ⟨0, 2⟩, .call 1 ⟨0, 1⟩,
    .ret 0 (.ok [letterAt s0 0, letterAt s0 2]), .ret 1 (.ok [letterAt s0 1])] s ∧ ∀ t, s.pc t = .idle := by
  generalize hl0 : letterAt s0 0 = l0
  generalize hl1 : letterAt s0 1 = l1
  generalize hl2 : letterAt s0 2 = l2
  have e4 : put 1 [] (next32 s0) = .loop 1 [l0] := hl0 ▸ put_iter s0 0 1 []
  have e6 : put 0 [] (next32 (next32 s0)) = .loop 0 [l1] := hl1 ▸ put_iter s0 1 0 []
  have e8 : put 0 [l0] (next32 (next32 (next32 s0))) = .loop 0 [l0, l2] := hl2 ▸ put_iter s0 2 0 [l0]
  generalize h1 : next32 s0 = s1 at *
  generalize h2 : next32 s1 = s2 at *
  generalize h3 : next32 s2 = s3 at *
  let f1 := setAt (fun _ => PC.idle) 0 (.loop 2 [])
  let f2 := setAt f1 1 (.loop 1 [])
  let f3 := setAt f2 0 (.cas 1 [] s0)
  let f4 := setAt f3 0 (.loop 1 [l0])
  let f5 := setAt f4 1 (.cas 0 [] s1)
  let f6 := setAt f5 1 (.loop 0 [l1])
  let f7 := setAt f6 0 (.cas 0 [l0] s2)
  let f8 := setAt f7 0 (.loop 0 [l0, l2])
  have x1 : Exec Step (St.init s0) [.call 0 ⟨0, 2⟩] ⟨s0, f1⟩ := .visible (.refl _) (.call (St.init s0) 0 ⟨0, 2⟩ rfl)
  have x2 : Exec Step (St.init s0) [.call 0 ⟨0, 2⟩, .call 1 ⟨0, 1⟩] ⟨s0, f2⟩ :=
    .visible x1 (.call ⟨s0, f1⟩ 1 ⟨0, 1⟩ rfl)
  have y4 : Step ⟨s0, f3⟩ none ⟨s1, f4⟩ := by
    have := Step.casOk ⟨s0, f3⟩ 0 1 [] s0 rfl rfl
    rwa [h1, e4] at this
  have y6 : Step ⟨s1, f5⟩ none ⟨s2, f6⟩ := by
    have := Step.casOk ⟨s1, f5⟩ 1 0 [] s1 rfl rfl
    rwa [h2, e6] at this
  have y8 : Step ⟨s2, f7⟩ none ⟨s3, f8⟩ := by
    have := Step.casOk ⟨s2, f7⟩ 0 0 [l0] s2 rfl rfl
    rwa [h3, e8] at this
  have x4 := (x2.silent (.load ⟨s0, f2⟩ 0 1 [] rfl)).silent y4
  have x6 := (x4.silent (.load ⟨s1, f4⟩ 1 0 [] rfl)).silent y6
  have x8 := (x6.silent (.load ⟨s2, f6⟩ 0 0 [l0] rfl)).silent y8
  let f9 := setAt f8 0 .idle
  have x9 := x8.visible (.ret ⟨s3, f8⟩ 0 [l0, l2] rfl)
  refine ⟨_, x9.visible (.ret ⟨s3, f9⟩ 1 [l1] rfl), fun t => ?_⟩
  rcases t with _ | _ | t <;> rfl

/-- **C139** The strings are not those of calls made one after the other: whatever the seed, two goroutines can get a
string that no sequence of calls ever returns. -/
theorem C139_atomic_false (s0 : BitVec 32) : ¬ Linearizable Step (St.init s0) alone s0 := by
  intro hl
  obtain ⟨s, hx, _⟩ := race s0
  obtain ⟨a, ha⟩ := hl _ _ hx
  have good : ∀ (x : BitVec 32) (op : Op) (l : List UInt8), (alone x op).2 = .ok l → Alternates l := by
    intro x op l h
    unfold alone at h
    rcases hr : strRand op.rule op.length x with ⟨l', s'⟩ | _
    · rw [hr] at h
      injection h with h
      subst h
      exact C139_alternates_false _ _ _ _ _ hr
    · rw [hr] at h
      cases h
  have inv : (∀ t l, a.th t = .done (.ok l) → Alternates l) ∧
      ∀ t l, Ev.ret t (Res.ok l) ∈ [Ev.call 0 (⟨0, 2⟩ : Op), .call 1 ⟨0, 1⟩,
      .ret 0 (Res.ok [letterAt s0 0, letterAt s0 2]), .ret 1 (Res.ok [letterAt s0 1])] → Alternates l := by
    refine Exec.invariant (fun (τ : List (Ev Op (Res (List UInt8)))) (a : AState (BitVec 32) Op (Res (List UInt8))) =>
      (∀ t l, a.th t = .done (.ok l) → Alternates l) ∧ ∀ t l, Ev.ret t (.ok l) ∈ τ → Alternates l) ?_ ?_ ?_ ha
    · refine ⟨fun _ _ h => ?_, fun _ _ h => ?_⟩
      · simp [AState.init] at h
      · simp at h
    · rintro τ x y ⟨h1, h2⟩ hst
      cases hst with
      | effect t op hp =>
        refine ⟨fun u l hu => ?_, h2⟩
        by_cases e : u = t
        · subst e
          simp only [setAt_same] at hu
          injection hu with hu
          exact good _ _ _ hu
        · simp only [setAt_ne _ _ _ _ e] at hu
          exact h1 u l hu
    · rintro τ x ev y ⟨h1, h2⟩ hst
      generalize hev : some ev = ev' at hst
      cases hst with
      | effect => cases hev
      | call t op hp =>
        injection hev with hev
        subst hev
        refine ⟨fun u l hu => ?_, fun u l hu => h2 u l (by simpa using hu)⟩
        by_cases e : u = t
        · subst e
          simp only [setAt_same] at hu
          cases hu
        · simp only [setAt_ne _ _ _ _ e] at hu
          exact h1 u l hu
      | ret t r hp =>
        injection hev with hev
        subst hev
        refine ⟨fun u l hu => ?_, fun u l hu => ?_⟩
        · by_cases e : u = t
          · subst e
            simp only [setAt_same] at hu
            cases hu
          · simp only [setAt_ne _ _ _ _ e] at hu
            exact h1 u l hu
        · rcases List.mem_append.1 hu with hu | hu
          · exact h2 u l hu
          · simp only [List.mem_singleton] at hu
            injection hu with _ hu
            subst hu
            exact h1 t l hp
  have h := inv.2 0 [letterAt s0 0, letterAt s0 2] (by simp)
  have h1 : (letterAt s0 1).toNat % 2 ≠ (letterAt s0 0).toNat % 2 := letterAt_parity s0 0
  have h2 : (letterAt s0 2).toNat % 2 ≠ (letterAt s0 1).toNat % 2 := letterAt_parity s0 1
  have h3 : (letterAt s0 0).toNat % 2 ≠ (letterAt s0 2).toNat % 2 := h.1
  omega

theorem owned_all (s : BitVec 32) (o : List Nat) (k : Nat) (h : ∀ j ∈ o, j = k) :
    owned s o k = (List.range o.length).map (letterAt s) := by
  unfold owned
  congr 1
  rw [List.filter_eq_self]
  intro i hi
  have hi := List.mem_range.1 hi
  rw [decide_eq_true_eq, List.getElem?_eq_getElem hi, h _ (List.getElem_mem hi)]

/-- **C139** A call that nobody disturbs does what `strings.Rand` does alone. -/
theorem C139_one_call (s0 : BitVec 32) (t : Nat) (op : Op) (r : Res (List UInt8)) {s : St}
    (h : Exec Step (St.init s0) [.call t op, .ret t r] s) (hq : ∀ t, s.pc t = .idle) : alone s0 op = (s.seed, r) := by
  obtain ⟨o, h1, h2, h3⟩ := C139_shared s0 h hq
  have ha : answers (fun _ => 0) [.call t op, .ret t r] = [(op.length, r)] := by
    simp [answers, setAt_same]
  rw [ha] at h2 h3
  have h4 := h3 0 op.length r rfl
  have h5 : owned s0 o 0 = (List.range o.length).map (letterAt s0) :=
    owned_all s0 o 0 fun j hj => by have := h2 j hj; simp at this; exact this
  rw [h5] at h4
  unfold alone
  by_cases hn : op.length < 0
  · rw [Right, if_pos hn, List.map_eq_nil_iff, List.range_eq_nil] at h4
    rw [strRand, if_pos hn, h1, h4.1, h4.2]
    rfl
  · rw [Right, if_neg hn, List.length_map, List.length_range] at h4
    rw [strRand, if_neg hn, strLoop_letters, h1, h4.1, ← h4.2]

theorem exec_front {s s1 s2 : St} {τ : List (Ev Op (Res (List UInt8)))} (h1 : Step s none s1) (h2 : Exec Step s1 τ s2) :
    Exec Step s τ s2 := by
  have := Exec.trans (Exec.silent (Exec.refl s) h1) h2
  simpa using this

theorem loop_ends (t n : Nat) : ∀ (b : List UInt8) (s : St), s.pc t = .loop n b →
    ∃ l s', Exec Step s [.ret t (.ok l)] s' ∧ s'.pc t = .idle ∧ ∀ u, u ≠ t → s'.pc u = s.pc u := by
  induction n with
  | zero =>
    intro b s hp
    have := Exec.visible (Exec.refl s) (Step.ret s t b hp)
    exact ⟨b, _, by simpa using this, setAt_same .., fun u hu => setAt_ne _ _ _ _ hu⟩
  | succ n ih =>
    intro b s hp
    have h1 := Step.load s t n b hp
    have h2 := Step.casOk ⟨s.seed, setAt s.pc t (.cas n b s.seed)⟩ t n b s.seed (setAt_same ..) rfl
    rw [put_ok (letter_eq _)] at h2
    obtain ⟨l, s', h3, h4, h5⟩ := ih _ ⟨next32 s.seed, setAt (setAt s.pc t (.cas n b s.seed)) t (.loop n (b ++ [capital ((next32 s.seed).toNat % 26)]))⟩
      (setAt_same ..)
    refine ⟨l, s', exec_front h1 (exec_front h2 h3), h4, fun u hu => ?_⟩
    exact (h5 u hu).trans ((setAt_ne _ _ _ _ hu).trans (setAt_ne _ _ _ _ hu))

/-- **C139** Nobody waits for anybody: whatever the other goroutines are doing, a call that has begun returns when its
goroutine alone goes on. -/
theorem C139_returns (s : St) (t : Nat) (h : s.pc t ≠ .idle) :
    ∃ r s', Exec Step s [.ret t r] s' ∧ s'.pc t = .idle ∧ ∀ u, u ≠ t → s'.pc u = s.pc u := by
  cases hp : s.pc t with
  | idle => exact absurd hp h
  | loop n b =>
    obtain ⟨l, s', h⟩ := loop_ends t n b s hp
    exact ⟨_, s', h⟩
  | cas n b o =>
    by_cases e : s.seed = o
    · have h2 := Step.casOk s t n b o hp e
      rw [put_ok (letter_eq _)] at h2
      obtain ⟨l, s', h3, h4, h5⟩ := loop_ends t n _ ⟨next32 o, setAt s.pc t (.loop n (b ++ [capital ((next32 o).toNat % 26)]))⟩
        (setAt_same ..)
      refine ⟨_, s', exec_front h2 h3, h4, fun u hu => ?_⟩
      exact (h5 u hu).trans (setAt_ne _ _ _ _ hu)
    · have h2 := Step.casFail s t n b o hp e
      obtain ⟨l, s', h3, h4, h5⟩ := loop_ends t (n + 1) _ ⟨s.seed, setAt s.pc t (.loop (n + 1) b)⟩ (setAt_same ..)
      refine ⟨_, s', exec_front h2 h3, h4, fun u hu => ?_⟩
      exact (h5 u hu).trans (setAt_ne _ _ _ _ hu)
  | panics =>
    have := Exec.visible (Exec.refl s) (Step.panics s t hp)
    exact ⟨.panic, _, by simpa using this, setAt_same .., fun u hu => setAt_ne _ _ _ _ hu⟩

example : ∃ r s', Exec Step ⟨7#32, fun _ => .cas 3 [] 8#32⟩ [.ret 5 r] s' ∧ s'.pc 5 = .idle ∧
    ∀ u, u ≠ 5 → s'.pc u = .cas 3 [] 8#32 := C139_returns _ 5 (by simp)

/-- Two goroutines: 0 draws two letters, 1 draws one in between. -/
example (s0 : BitVec 32) : Right 2 (.ok [letterAt s0 0, letterAt s0 2]) (owned s0 [0, 1, 0] 0) ∧
    Right 1 (.ok [letterAt s0 1]) (owned s0 [0, 1, 0] 1) := by
  have h : owned s0 [0, 1, 0] 0 = [letterAt s0 0, letterAt s0 2] ∧ owned s0 [0, 1, 0] 1 = [letterAt s0 1] := ⟨rfl, rfl⟩
  rw [h.1, h.2]
  exact ⟨⟨rfl, rfl⟩, ⟨rfl, rfl⟩⟩

example (s0 : BitVec 32) : ∃ o : List Nat, (∀ k ∈ o, k < 2) ∧ owned s0 o 1 = [letterAt s0 1] := by
  obtain ⟨s, h, hq⟩ := race s0
  obtain ⟨o, _, h2, h3⟩ := C139_shared s0 h hq
  have h4 := (h3 1 1 (.ok [letterAt s0 1]) rfl).1
  injection h4 with h4
  exact ⟨o, h2, h4.symm⟩

example : [[71, 76], [76, 87]].length ≤ 2 * 13 ^ 2 ∧ [[71, 76], [76, 87]].length ≤ 2 ^ 32 :=
  C139_few 2 [[71, 76], [76, 87]] (by decide) (by
    simp only [List.mem_cons, List.not_mem_nil, or_false, forall_eq_or_imp, forall_eq]
    exact ⟨⟨0, 1#32, _, rfl⟩, ⟨0, next32 1#32, _, rfl⟩⟩)

example : ∃ i < 2 ^ 31, letterAt 1#32 i = 90 := C139_every_letter_partial 1#32 25 (by decide)

end Verif.StrRand
