import Verif.Lemmas.Match
import Mathlib.Data.List.Forall2
set_option linter.unusedSectionVars false
/-! # Lemmas on `Match`: the first place where a chunk matches is good enough -/

namespace Verif.Match
open Verif.IniBytes Verif.Spec.Glob

/-- The element takes the ASCII character. -/
def ok (k : Tok) (x : UInt8) : Prop := take1 k [x] = some []

theorem take1_ascii {k : Tok} {x : UInt8} {s t : Bytes} (hx : x.toNat < 128) : take1 k (x :: s) = some t ↔ ok k x ∧ t = s := by
  unfold ok
  cases k with
  | star => simp [take1]
  | any =>
    simp only [take1, decode_ascii hx, List.drop_succ_cons, List.drop_zero]
    split_ifs <;> simp [eq_comm]
  | byte b =>
    simp only [take1]
    split_ifs <;> simp [eq_comm]
  | cls neg rs =>
    simp only [take1, decode_ascii hx, List.drop_succ_cons, List.drop_zero]
    split_ifs <;> simp [eq_comm]

theorem eat_ascii {ts : List Tok} : ∀ {s t : Bytes}, (∀ b ∈ s, b.toNat < 128) →
    (eat ts s = some t ↔ ∃ c, s = c ++ t ∧ List.Forall₂ ok ts c) := by
  induction ts with
  | nil =>
    intro s t _
    simp only [eat, Option.some.injEq, List.forall₂_nil_left_iff]
    constructor
    · rintro rfl; exact ⟨[], rfl, rfl⟩
    · rintro ⟨c, rfl, rfl⟩; rfl
  | cons k ts ih =>
    intro s t hs
    rw [eat]
    cases s with
    | nil =>
      have : take1 k [] = none := by cases k <;> rfl
      rw [this]
      constructor
      · intro h; cases h
      · rintro ⟨c, h1, h2⟩
        have : c = [] := (List.append_eq_nil_iff.1 h1.symm).1
        subst this
        cases h2
    | cons x s =>
      have hx := hs x (List.mem_cons_self ..)
      have hs' : ∀ b ∈ s, b.toNat < 128 := fun b hb => hs b (List.mem_cons_of_mem _ hb)
      constructor
      · intro h
        cases h1 : take1 k (x :: s) with
        | none => rw [h1] at h; cases h
        | some u =>
          rw [h1] at h
          obtain ⟨h2, rfl⟩ := (take1_ascii hx).1 h1
          obtain ⟨c, e1, e2⟩ := (ih hs').1 h
          exact ⟨x :: c, by rw [e1]; rfl, .cons h2 e2⟩
      · rintro ⟨c, e1, e2⟩
        cases e2 with
        | @cons _ y _ c h1 h2 =>
          obtain ⟨rfl, e3⟩ := List.cons.inj e1
          rw [(take1_ascii hx).2 ⟨h1, rfl⟩]
          exact (ih hs').2 ⟨c, e3, h2⟩

/-- No class takes a slash. -/
def Plain (ts : List Tok) : Prop := ∀ neg rs, Tok.cls neg rs ∈ ts → Spec.Glob.within rs 47 = neg

theorem ok_slash {k : Tok} (hk : ∀ neg rs, k = .cls neg rs → Spec.Glob.within rs 47 = neg) (h : ok k 47) : k = .byte 47 := by
  unfold ok at h
  cases k with
  | star => cases h
  | any => simp [take1] at h
  | byte b =>
    simp only [take1] at h
    split_ifs at h with h1
    rw [h1]
  | cls neg rs =>
    have hd : (decodeRune [47]).1 = 47 := by decide
    simp only [take1, hd] at h
    rw [if_pos (hk neg rs rfl)] at h
    cases h

theorem ok_byte {b x : UInt8} (h : ok (.byte b) x) : x = b := by
  unfold ok at h
  simp only [take1] at h
  split_ifs at h with h1
  exact h1.symm

theorem same_slash {ts : List Tok} {c : Bytes} (hp : Plain ts) (h : List.Forall₂ ok ts c) :
    ∀ {c' : Bytes}, List.Forall₂ ok ts c' → ∀ i : Nat, c[i]? = some 47 → c'[i]? = some 47 := by
  induction h with
  | nil => intro c' _ i h; simp at h
  | @cons k x ts c h1 h2 ih =>
    intro c' h' i hi
    cases h' with
    | @cons _ y _ c' g1 g2 =>
      cases i with
      | zero =>
        simp only [List.getElem?_cons_zero, Option.some.injEq] at hi ⊢
        rw [hi] at h1
        have := ok_slash (fun neg rs e => hp neg rs (by simp [e])) h1
        rw [this] at g1
        exact ok_byte g1
      | succ i => exact ih (fun neg rs h => hp neg rs (List.mem_cons_of_mem _ h)) g2 i hi

theorem noslash {ts : List Tok} {w c v w' c' v' : Bytes} (hp : Plain ts) (hN : w ++ (c ++ v) = w' ++ (c' ++ v'))
    (hc : List.Forall₂ ok ts c) (hc' : List.Forall₂ ok ts c') (hl : w'.length < w.length) (hw : 47 ∉ w) :
    ∀ j, w'.length ≤ j → j < w.length + ts.length → (w ++ (c ++ v))[j]? ≠ some 47 := by
  intro j
  induction j using Nat.strongRecOn with
  | _ j ih =>
    intro h1 h2 h3
    by_cases h4 : j < w.length
    · rw [List.getElem?_append_left h4] at h3
      exact hw (List.mem_of_getElem? h3)
    · have l1 := hc.length_eq
      have l2 := hc'.length_eq
      rw [List.getElem?_append_right (by omega), List.getElem?_append_left (by omega)] at h3
      have h5 := same_slash hp hc hc' _ h3
      refine ih (w'.length + (j - w.length)) (by omega) (by omega) (by omega) ?_
      rw [hN, List.getElem?_append_right (by omega), Nat.add_sub_cancel_left, List.getElem?_append_left (by omega)]
      exact h5

/-- What matches further on matches at the first place, the following star taking the difference. -/
theorem earlier {ts us : List Tok} {w u v w' u' v' : Bytes} (hp : Plain ts) (ha : ∀ b ∈ w ++ u, b.toNat < 128)
    (hN : w ++ u = w' ++ u') (he : eat ts u = some v) (he' : eat ts u' = some v') (hl : w'.length ≤ w.length) (hw : 47 ∉ w)
    (hm : Matches (.star :: us) v) : Matches (.star :: us) v' := by
  obtain ⟨c, e1, e2⟩ := (eat_ascii fun b hb => ha b (List.mem_append_right _ hb)).1 he
  obtain ⟨c', e3, e4⟩ := (eat_ascii fun b hb => ha b (by rw [hN]; exact List.mem_append_right _ hb)).1 he'
  have l1 := e2.length_eq
  have l2 := e4.length_eq
  rw [e1, e3] at hN
  by_cases hd : w'.length = w.length
  · have h1 := List.append_inj hN hd.symm
    have h2 := List.append_inj h1.2 (by omega)
    rw [← h2.2]
    exact hm
  · have hn := noslash hp hN e2 e4 (by omega) hw
    have hv : v' = v'.take (w.length - w'.length) ++ v := by
      have h1 : (w ++ (c ++ v)).drop (w.length + c.length) = v := by
        rw [← List.append_assoc, List.drop_append_of_le_length (by simp)]
        simp
      have h2 : (w' ++ (c' ++ v')).drop (w.length + c.length) = v'.drop (w.length - w'.length) := by
        rw [← List.append_assoc, List.drop_append, List.drop_eq_nil_of_le (by simp only [List.length_append]; omega), List.nil_append]
        congr 1
        simp only [List.length_append]
        omega
      rw [hN, h2] at h1
      conv_lhs => rw [← List.take_append_drop (w.length - w'.length) v', h1]
    have hs : 47 ∉ v'.take (w.length - w'.length) := by
      intro hmem
      obtain ⟨j, hj, hj'⟩ := List.mem_iff_getElem.1 hmem
      rw [List.length_take] at hj
      refine hn (w'.length + c'.length + j) (by omega) (by omega) ?_
      rw [hN, ← List.append_assoc, List.getElem?_append_right (by simp only [List.length_append]; omega)]
      have : w'.length + c'.length + j - (w' ++ c').length = j := by simp only [List.length_append]; omega
      rw [this, List.getElem?_eq_getElem (by omega), ← hj', List.getElem_take]
    obtain ⟨x, y, g1, g2, g3⟩ := matches_star.1 hm
    rw [hv, matches_star]
    exact ⟨_ ++ x, y, by rw [g1, List.append_assoc], by simp only [List.mem_append, not_or]; exact ⟨hs, g2⟩, g3⟩

theorem matchPath_complete {p : Bytes} {ts : List Tok} (h : Pattern p ts) (hp : Plain ts) {name : Bytes}
    (ha : ∀ b ∈ name, b.toNat < 128) (hm : Matches ts name) : matchPath p name = .yes [] := by
  induction hl : p.length using Nat.strongRecOn generalizing p ts name with
  | _ k ih =>
    subst hl
    by_cases hpe : p = []
    · subst hpe
      rw [pattern_nil h, matches_nil] at hm
      rw [matchPath, dif_pos rfl, if_pos hm]
    · obtain ⟨n, t1, t2, f1, f2, f3, f4, f5, f6, f7⟩ := pieces h
      rw [matchPath_eq hpe]
      obtain ⟨w, u, e1, e2, e3, e4⟩ : ∃ w u, name = w ++ u ∧ 47 ∉ w ∧ ((scanChunk p).1 = false → w = []) ∧ Matches (t1 ++ t2) u := by
        rw [f1] at hm
        cases n with
        | zero => exact ⟨[], name, rfl, by simp, fun _ => rfl, hm⟩
        | succ m =>
          obtain ⟨w, u, e1, e2, e3⟩ := (matches_stars m).1 hm
          exact ⟨w, u, e1, e2, fun h => (by rw [f6.2 (by omega)] at h; cases h), e3⟩
      by_cases hc : (scanChunk p).1 = true ∧ (scanChunk p).2.1 = []
      · rw [if_pos hc, if_neg]
        have ht : t1 = [] := by rw [hc.2] at f3; exact pattern_nil f3
        rw [ht, f7 ht, List.append_nil, matches_nil] at e4
        rw [e1, e4, List.append_nil]
        exact e2
      · rw [if_neg hc]
        obtain ⟨v, g1, g2⟩ := (matches_eat f2).1 e4
        have hb : ∀ s, matchChunk (scanChunk p).2.1 s ≠ .bad := fun s => by rw [matchChunk_eq f3 f2]; exact out_not_bad _
        have hlast : decide ((scanChunk p).2.2 = []) = true → v = [] := by
          intro hd
          rw [decide_eq_true_eq] at hd
          rw [hd] at f4
          rw [pattern_nil f4, matches_nil] at g2
          exact g2
        obtain ⟨t', w', u', k1, k2, k3, k4, k5⟩ := find_first (last := decide ((scanChunk p).2.2 = [])) hb e3 e2
          (by rw [matchChunk_eq f3 f2, out_yes]; exact g1) hlast
        rw [e1, k1]
        rw [matchChunk_eq f3 f2, out_yes] at k4
        have hp1 : Plain t1 := fun neg rs h => hp neg rs (by rw [f1]; simp [h])
        have hp2 : Plain t2 := fun neg rs h => hp neg rs (by rw [f1]; simp [h])
        have ha' : ∀ b ∈ t', b.toNat < 128 := by
          intro b hb
          obtain ⟨c, q1, -⟩ := (eat_ascii fun b hb => ha b (by rw [e1, k2]; exact List.mem_append_right _ hb)).1 k4
          exact ha b (by rw [e1, k2, q1]; simp [hb])
        refine ih _ (scanChunk_lt hpe) f4 hp2 ha' ?_ rfl
        rcases f5 with h5 | h5
        · rw [h5, matches_nil]
          rw [h5] at f4
          exact k5 (by rw [decide_eq_true_eq]; exact pattern_nil' f4)
        · cases t2 with
          | nil => cases h5
          | cons k us =>
            cases h5
            exact earlier hp1 (by rw [← e1]; exact ha) k2 g1 k4 k3 e2 g2

/-- Without stars every name is decided as it should be. -/
theorem matchPath_plain {p : Bytes} {ts : List Tok} (h : Pattern p ts) (hs : Tok.star ∉ ts) {name : Bytes} (hm : Matches ts name) :
    matchPath p name = .yes [] := by
  by_cases hp : p = []
  · subst hp
    rw [pattern_nil h, matches_nil] at hm
    rw [matchPath, dif_pos rfl, if_pos hm]
  · obtain ⟨n, t1, t2, f1, f2, f3, f4, f5, f6, f7⟩ := pieces h
    have hn : n = 0 := by
      cases n with
      | zero => rfl
      | succ n => exact absurd (by rw [f1]; simp) hs
    subst hn
    have ht2 : t2 = [] := by
      rcases f5 with h5 | h5
      · exact h5
      · exact absurd (by rw [f1]; exact List.mem_append_right _ (List.mem_append_right _ (List.mem_of_head? h5))) hs
    subst ht2
    have hr := pattern_nil' f4
    obtain ⟨v, g1, g2⟩ := (matches_eat f2).1 (show Matches (t1 ++ []) name by simpa [f1] using hm)
    rw [matches_nil] at g2
    subst g2
    have hc : ¬ ((scanChunk p).1 = true ∧ (scanChunk p).2.1 = []) := fun h => absurd (f6.1 h.1) (by omega)
    rw [matchPath_eq hp, if_neg hc]
    unfold find
    rw [matchChunk_eq f3 f2, g1]
    simp only [out, true_or, if_true, Res.andThen, hr]
    rw [matchPath, dif_pos rfl, if_pos rfl]

end Verif.Match
