import Verif.Spec.Links
import Verif.Lemmas.Path
/-!
# Lemmas about file systems with symbolic links
-/

namespace Verif.Spec

theorem Leads.ne_none {F : FS} {d cs e : List Str} (h : Leads F d cs e) : F e ≠ none := by
  induction h with
  | done h => exact h
  | stay _ _ _ ih => exact ih
  | up _ _ ih => exact ih
  | down _ _ _ _ _ ih => exact ih
  | follow _ _ _ _ _ ih => exact ih

theorem leads_nil {F : FS} {d e : List Str} : Leads F d [] e ↔ e = d ∧ F d ≠ none := by
  constructor
  · intro h; cases h with | done h => exact ⟨rfl, h⟩
  · rintro ⟨rfl, h⟩; exact .done h

theorem Leads.mono {F F' : FS} (hF : ∀ q n, F q = some n → F' q = some n) {d cs e : List Str} (h : Leads F d cs e) :
    Leads F' d cs e := by
  induction h with
  | @done d h =>
    cases hd : F d with
    | none => exact absurd hd h
    | some n => exact .done (by rw [hF _ _ hd]; simp)
  | stay h1 h2 _ ih => exact .stay (hF _ _ h1) h2 ih
  | up h1 _ ih => exact .up (hF _ _ h1) ih
  | down h1 h2 h3 h4 _ ih => exact .down (hF _ _ h1) h2 (hF _ _ h3) h4 ih
  | follow h1 h2 h3 h4 _ ih => exact .follow (hF _ _ h1) h2 (hF _ _ h3) h4 ih

theorem plain_not_stay {c : Str} (h : Plain c) : ¬ (c = [] ∨ c = ['.']) := by
  rintro (rfl | rfl)
  · exact h.1 rfl
  · exact h.2.1 rfl

/-- A path leads to one place at most, even when parts of the file system have disappeared. -/
theorem Leads.agree {F F' : FS} (hF : ∀ q n, F q = some n → F' q = some n ∨ F' q = none) {d cs e e' : List Str}
    (h : Leads F d cs e) (h' : Leads F' d cs e') : e' = e := by
  induction h generalizing e' with
  | done _ => exact (leads_nil.1 h').1
  | stay h1 h2 _ ih =>
    cases h' with
    | stay _ _ h => exact ih h
    | up _ h => rcases h2 with h2 | h2 <;> simp at h2
    | down _ hp => exact absurd h2 (plain_not_stay hp)
    | follow _ hp => exact absurd h2 (plain_not_stay hp)
  | up h1 _ ih =>
    cases h' with
    | stay _ h2 => rcases h2 with h2 | h2 <;> simp at h2
    | up _ h => exact ih h
    | down _ hp => exact absurd rfl hp.2.2
    | follow _ hp => exact absurd rfl hp.2.2
  | down h1 hp h3 h4 _ ih =>
    cases h' with
    | stay _ h2 => exact absurd h2 (plain_not_stay hp)
    | up => exact absurd rfl hp.2.2
    | down _ _ _ _ h => exact ih h
    | @follow _ _ _ t _ _ _ h5 =>
      rcases hF _ _ h3 with h | h
      · rw [h] at h5; cases h5; exact absurd rfl (h4 t)
      · rw [h] at h5; cases h5
  | @follow _ _ _ t _ h1 hp h3 h4 _ ih =>
    cases h' with
    | stay _ h2 => exact absurd h2 (plain_not_stay hp)
    | up => exact absurd rfl hp.2.2
    | @down _ _ _ n _ _ _ h5 h6 =>
      rcases hF _ _ h3 with h | h
      · rw [h] at h5; cases h5; exact absurd rfl (h6 t)
      · rw [h] at h5; cases h5
    | @follow _ _ _ t' _ _ _ h5 _ h =>
      rcases hF _ _ h3 with h6 | h6
      · rw [h6] at h5; cases h5; exact ih h
      · rw [h6] at h5; cases h5

theorem Leads.unique {F : FS} {d cs e e' : List Str} (h : Leads F d cs e) (h' : Leads F d cs e') : e' = e :=
  h.agree (fun _ _ h => .inl h) h'

theorem Leads.append {F : FS} {d xs p ys e : List Str} (h1 : Leads F d xs p) (h2 : Leads F p ys e) :
    Leads F d (xs ++ ys) e := by
  induction h1 with
  | done _ => exact h2
  | stay h3 h4 _ ih => exact .stay h3 h4 (ih h2)
  | up h3 _ ih => exact .up h3 (ih h2)
  | down h3 h4 h5 h6 _ ih => exact .down h3 h4 h5 h6 (ih h2)
  | follow h3 h4 h5 h6 _ ih => exact .follow h3 h4 h5 h6 (by have := ih h2; rwa [List.append_assoc] at this)

theorem Leads.split {F : FS} {d zs e : List Str} (h : Leads F d zs e) :
    ∀ xs ys, zs = xs ++ ys → ∃ p, Leads F d xs p ∧ Leads F p ys e := by
  induction h with
  | @done d h =>
    intro xs ys hz
    obtain ⟨rfl, rfl⟩ := List.append_eq_nil_iff.1 hz.symm
    exact ⟨d, .done h, .done h⟩
  | @stay d c cs e h1 h2 h ih =>
    intro xs ys hz
    cases xs with
    | nil =>
      rw [List.nil_append] at hz; subst hz
      exact ⟨d, .done (by rw [h1]; simp), .stay h1 h2 h⟩
    | cons x xs =>
      rw [List.cons_append] at hz
      obtain ⟨rfl, rfl⟩ := List.cons.inj hz
      obtain ⟨p, q1, q2⟩ := ih xs ys rfl
      exact ⟨p, .stay h1 h2 q1, q2⟩
  | @up d cs e h1 h ih =>
    intro xs ys hz
    cases xs with
    | nil =>
      rw [List.nil_append] at hz; subst hz
      exact ⟨d, .done (by rw [h1]; simp), .up h1 h⟩
    | cons x xs =>
      rw [List.cons_append] at hz
      obtain ⟨rfl, rfl⟩ := List.cons.inj hz
      obtain ⟨p, q1, q2⟩ := ih xs ys rfl
      exact ⟨p, .up h1 q1, q2⟩
  | @down d c cs n e h1 h2 h3 h4 h ih =>
    intro xs ys hz
    cases xs with
    | nil =>
      rw [List.nil_append] at hz; subst hz
      exact ⟨d, .done (by rw [h1]; simp), .down h1 h2 h3 h4 h⟩
    | cons x xs =>
      rw [List.cons_append] at hz
      obtain ⟨rfl, rfl⟩ := List.cons.inj hz
      obtain ⟨p, q1, q2⟩ := ih xs ys rfl
      exact ⟨p, .down h1 h2 h3 h4 q1, q2⟩
  | @follow d c cs t e h1 h2 h3 h4 h ih =>
    intro xs ys hz
    cases xs with
    | nil =>
      rw [List.nil_append] at hz; subst hz
      exact ⟨d, .done (by rw [h1]; simp), .follow h1 h2 h3 h4 h⟩
    | cons x xs =>
      rw [List.cons_append] at hz
      obtain ⟨rfl, rfl⟩ := List.cons.inj hz
      obtain ⟨p, q1, q2⟩ := ih (comps t ++ xs) ys (by rw [List.append_assoc])
      exact ⟨p, .follow h1 h2 h3 h4 q1, q2⟩

theorem leads_append {F : FS} {d xs ys e : List Str} :
    Leads F d (xs ++ ys) e ↔ ∃ p, Leads F d xs p ∧ Leads F p ys e :=
  ⟨fun h => h.split xs ys rfl, fun ⟨_, h1, h2⟩ => h1.append h2⟩

theorem leads_stay {F : FS} {d : List Str} {c : Str} {cs e : List Str} (hc : c = [] ∨ c = ['.']) :
    Leads F d (c :: cs) e ↔ F d = some .dir ∧ Leads F d cs e := by
  constructor
  · intro h
    cases h with
    | stay h1 _ h => exact ⟨h1, h⟩
    | up => rcases hc with hc | hc <;> simp at hc
    | down _ hp => exact absurd hc (plain_not_stay hp)
    | follow _ hp => exact absurd hc (plain_not_stay hp)
  · rintro ⟨h1, h2⟩; exact .stay h1 hc h2

/-- Components that stay can be left out. -/
theorem Leads.drop_stays {F : FS} {d xs e : List Str} (h : Leads F d xs e) :
    Leads F d (xs.filter fun c => !(decide (c = [] ∨ c = ['.']))) e := by
  have key : ∀ (ys xs d : List Str), Leads F d (xs ++ ys) e →
      Leads F d (xs ++ ys.filter fun c => !(decide (c = [] ∨ c = ['.']))) e := by
    intro ys
    induction ys with
    | nil => intro xs d h; simpa using h
    | cons y ys ih =>
      intro xs d h
      by_cases hy : y = [] ∨ y = ['.']
      · rw [List.filter_cons_of_neg (by simp [hy])]
        obtain ⟨p, h1, h2⟩ := leads_append.1 h
        exact ih xs d (h1.append ((leads_stay hy).1 h2).2)
      · rw [List.filter_cons_of_pos (by simp [hy])]
        have := ih (xs ++ [y]) d (by simpa using h)
        simpa using this
  exact key xs [] d h

/-- And put back when the result is a directory. -/
theorem Leads.add_stays {F : FS} {d xs e : List Str} (he : F e = some .dir)
    (h : Leads F d (xs.filter fun c => !(decide (c = [] ∨ c = ['.']))) e) : Leads F d xs e := by
  have key : ∀ (ys xs d : List Str), Leads F d (xs ++ ys.filter fun c => !(decide (c = [] ∨ c = ['.']))) e →
      Leads F d (xs ++ ys) e := by
    intro ys
    induction ys with
    | nil => intro xs d h; simpa using h
    | cons y ys ih =>
      intro xs d h
      by_cases hy : y = [] ∨ y = ['.']
      · rw [List.filter_cons_of_neg (by simp [hy])] at h
        obtain ⟨p, h1, h2⟩ := leads_append.1 (ih xs d h)
        refine h1.append ((leads_stay hy).2 ⟨?_, h2⟩)
        cases h2 with
        | done _ => exact he
        | stay h3 _ _ => exact h3
        | up h3 _ => exact h3
        | down h3 _ _ _ _ => exact h3
        | follow h3 _ _ _ _ => exact h3
      · rw [List.filter_cons_of_pos (by simp [hy])] at h
        have := ih (xs ++ [y]) d (by simpa using h)
        simpa using this
  exact key xs [] d h

end Verif.Spec
