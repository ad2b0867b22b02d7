import Verif.Model.EvalLinks
import Verif.Props.FsAbs
set_option linter.unusedSectionVars false
/-! # Lemmas on `EvalSymlinks` -/

namespace Verif.FsLinks
open Verif.Spec Verif.Path

/-- The components that are not empty. -/
def ne (cs : List Str) : List Str := cs.filter fun c => decide (c ≠ [])

theorem ne_append (a b : List Str) : ne (a ++ b) = ne a ++ ne b := List.filter_append ..

theorem ne_cons {c : Str} (h : c ≠ []) (cs : List Str) : ne (c :: cs) = c :: ne cs := by simp [ne, h]

theorem ne_nil (cs : List Str) : ne ([] :: cs) = ne cs := by simp [ne]

theorem cut_eq (path : Str) : (path = (cut path).1 ∧ (cut path).2 = []) ∨ path = (cut path).1 ++ '/' :: (cut path).2 := by
  have h1 := List.takeWhile_append_dropWhile (p := fun c : Char => decide (c ≠ '/')) (l := path)
  unfold cut
  cases hd : path.dropWhile (· ≠ '/') with
  | nil => left; rw [hd] at h1; simpa using h1.symm
  | cons x t =>
    right
    have : x = '/' := by
      have := List.head_dropWhile_not (fun c : Char => decide (c ≠ '/')) (l := path) (by rw [hd]; simp)
      simp only [hd, List.head_cons] at this
      simpa using this
    rw [hd, this] at h1
    exact h1.symm

theorem cut_noslash (path : Str) : '/' ∉ (cut path).1 := by
  intro h
  have := List.mem_takeWhile_imp h
  simp at this

theorem ne_cut (path : Str) : ne (comps path) = ne [(cut path).1] ++ ne (comps (cut path).2) := by
  have hs := comps_noslash _ (cut_noslash path)
  rcases cut_eq path with ⟨h1, h2⟩ | h1
  · rw [h2]
    conv_lhs => rw [h1, hs]
    simp [ne, comps]
  · conv_lhs => rw [h1, comps_append, hs, ne_append]

theorem cut_nil {path : Str} (h : path ≠ []) (hp : (cut path).1 = []) : path = '/' :: (cut path).2 := by
  rcases cut_eq path with ⟨h1, -⟩ | h1
  · rw [hp] at h1; exact absurd h1 h
  · rw [hp] at h1; exact h1

theorem cut_rooted {path : Str} (hp : (cut path).1 ≠ []) : rooted path = false := by
  have h1 : '/' ∉ (cut path).1 := cut_noslash path
  have key : ∀ y : Str, rooted ((cut path).1 ++ y) = false := by
    intro y
    rw [rooted_append hp]
    unfold rooted
    cases hc : (cut path).1 with
    | nil => exact absurd hc hp
    | cons x t =>
      have : x ≠ '/' := by rintro rfl; exact h1 (by rw [hc]; simp)
      simp [this]
  rcases cut_eq path with ⟨h2, -⟩ | h2
  · have := key []
    rw [List.append_nil] at this
    rw [h2]; exact this
  · rw [h2]; exact key _

/-- The state of the loop: the path so far leads to the place, without symbolic links. -/
structure Inv (F : FS) (cwd : List Str) (b path : Str) (d : List Str) : Prop where
  at_ : (b = [] ∧ d = startOf cwd path) ∨
    ∃ a, b = a ++ ['/'] ∧ Leads F (startOf cwd b) (comps a) d ∧ (comps a).foldl walk1 (startOf cwd b) = d
  real : ∀ t, F d ≠ some (.link t)
  some_ : F d ≠ none

theorem startOf_append {b : Str} (cwd : List Str) (h : b ≠ []) (s : Str) : startOf cwd (b ++ s) = startOf cwd b := by
  unfold startOf; rw [rooted_append h]

/-- The path so far and one more component. -/
theorem Inv.next {F : FS} {cwd : List Str} {b path : Str} {d : List Str} (h : Inv F cwd b path d)
    (hp : (cut path).1 ≠ []) : ∃ fr, comps (b ++ (cut path).1) = fr ++ [(cut path).1] ∧
      Leads F (startOf cwd (b ++ (cut path).1)) fr d ∧ fr.foldl walk1 (startOf cwd (b ++ (cut path).1)) = d := by
  have hs := comps_noslash _ (cut_noslash path)
  rcases h.at_ with ⟨rfl, rfl⟩ | ⟨a, rfl, h1, h2⟩
  · refine ⟨[], by rw [List.nil_append, hs]; rfl, ?_, ?_⟩
    · have e1 : startOf cwd ([] ++ (cut path).1) = startOf cwd path := by
        unfold startOf
        rw [cut_rooted hp, List.nil_append]
        have : rooted (cut path).1 = false := by
          have h1 : '/' ∉ (cut path).1 := cut_noslash path
          unfold rooted
          cases hc : (cut path).1 with
          | nil => rfl
          | cons x t =>
            have : x ≠ '/' := by rintro rfl; exact h1 (by rw [hc]; simp)
            simp [this]
        rw [this]
      rw [e1]
      exact .done h.some_
    · have : rooted (cut path).1 = false := by
        have h1 : '/' ∉ (cut path).1 := cut_noslash path
        unfold rooted
        cases hc : (cut path).1 with
        | nil => rfl
        | cons x t =>
          have : x ≠ '/' := by rintro rfl; exact h1 (by rw [hc]; simp)
          simp [this]
      simp only [List.foldl_nil, List.nil_append, startOf, cut_rooted hp, this]
  · rw [startOf_append cwd (by simp)]
    refine ⟨comps a, ?_, h1, h2⟩
    rw [List.append_assoc, List.singleton_append, comps_append, hs]

theorem dir_up {F : FS} (hF : F.Ok) {d : List Str} (hd : F d = some .dir) : F d.dropLast = some .dir := by
  rw [List.dropLast_eq_take]; exact dir_take hF hd _

/-- The next component exists: where it is. -/
theorem lstat_next {F : FS} (hF : F.Ok) {cwd : List Str} {s c : Str} {fr d e : List Str} (hc : comps s = fr ++ [c]) (hne : c ≠ [])
    (hl : Leads F (startOf cwd s) fr d) (h : lstat F cwd s = some e) :
    F d = some .dir ∧ e = walk1 d c ∧ F e ≠ none ∧ (¬ Plain c → F e = some .dir) := by
  by_cases hp : Plain c
  · have hw : walk1 d c = d ++ [c] := by
      unfold walk1
      rw [if_neg (plain_not_stay hp), if_neg hp.2.2]
    unfold lstat at h
    split_ifs at h with h1 h2
    · cases h
      obtain ⟨⟨cs, c', p, g1, g2, g3, g4, g5⟩, g6⟩ := h1.choose_spec
      rw [hc] at g1
      obtain ⟨rfl, e2⟩ := List.append_inj' g1 rfl
      cases e2
      have : p = d := hl.unique g3
      subst this
      exact ⟨g4, by rw [hw]; exact g5, g6, fun h => absurd hp h⟩
    · exact absurd ⟨fr, c, hc, hp⟩ h2
  · unfold lstat at h
    rw [dif_neg, if_neg, stat_iff] at h
    · obtain ⟨-, h⟩ := h
      rw [hc, leads_append] at h
      obtain ⟨p, h1, h2⟩ := h
      have : p = d := hl.unique h1
      subst this
      have hcc : c = ['.'] ∨ c = ['.', '.'] := by
        by_contra hn
        rw [not_or] at hn
        exact hp ⟨hne, hn.1, hn.2⟩
      rcases hcc with rfl | rfl
      · rw [leads_stay (.inr rfl)] at h2
        obtain ⟨h2, h3⟩ := h2
        cases h3 with
        | done h4 => exact ⟨h2, by simp [walk1], h4, fun _ => h2⟩
      · cases h2 with
        | stay _ h _ => exact absurd h (by decide)
        | down _ h _ _ _ => exact absurd rfl h.2.2
        | follow _ h _ _ _ => exact absurd rfl h.2.2
        | up h2 h3 =>
          cases h3 with
          | done h4 => exact ⟨h2, by simp [walk1], h4, fun _ => dir_up hF h2⟩
    · rintro ⟨cs, c', g1, g2⟩
      rw [hc] at g1
      obtain ⟨-, e2⟩ := List.append_inj' g1 rfl
      cases e2
      exact hp g2
    · rintro ⟨e', ⟨cs, c', p, g1, g2, -⟩, -⟩
      rw [hc] at g1
      obtain ⟨-, e2⟩ := List.append_inj' g1 rfl
      cases e2
      exact hp g2

/-- The next component does not exist: no way on. -/
theorem lstat_none {F : FS} {cwd : List Str} {s c : Str} {fr d : List Str} (hc : comps s = fr ++ [c]) (hne : c ≠ [])
    (hl : Leads F (startOf cwd s) fr d) (h : lstat F cwd s = none) (cs e : List Str) : ¬ Leads F d (c :: cs) e := by
  intro hx
  by_cases hp : Plain c
  · have hd := leads_head_dir hx
    have := lstat_names (me := s) (cwd := cwd) ⟨fr, c, d, hc, hp, hl, hd, rfl⟩ (leads_plain hp hx)
    rw [h] at this
    cases this
  · unfold lstat at h
    rw [dif_neg, if_neg] at h
    · have hs : s ≠ [] := comps_name_nonempty hc hne
      have hx' : ∃ e', Leads F d [c] e' := by
        rw [show c :: cs = [c] ++ cs from rfl, leads_append] at hx
        obtain ⟨p, h1, -⟩ := hx
        exact ⟨p, h1⟩
      obtain ⟨e', hx'⟩ := hx'
      have : stat F cwd s = some e' := stat_iff.2 ⟨hs, by rw [hc]; exact hl.append hx'⟩
      rw [h] at this
      cases this
    · rintro ⟨cs, c', g1, g2⟩
      rw [hc] at g1
      obtain ⟨-, e2⟩ := List.append_inj' g1 rfl
      cases e2
      exact hp g2
    · rintro ⟨e', ⟨cs, c', p, g1, g2, -⟩, -⟩
      rw [hc] at g1
      obtain ⟨-, e2⟩ := List.append_inj' g1 rfl
      cases e2
      exact hp g2

/-- One component that is no symbolic link. -/
theorem leads_walk {F : FS} {d : List Str} {c : Str} {cs e : List Str} (hne : c ≠ []) (hd : F d = some .dir)
    (h0 : F (walk1 d c) ≠ none) (hl : ∀ t, F (walk1 d c) ≠ some (.link t)) :
    Leads F d (c :: cs) e ↔ Leads F (walk1 d c) cs e := by
  by_cases h1 : c = ['.']
  · subst h1
    rw [leads_stay (.inr rfl)]
    simp [walk1, hd]
  by_cases h2 : c = ['.', '.']
  · subst h2
    have hw : walk1 d ['.', '.'] = d.dropLast := by simp [walk1]
    rw [hw]
    constructor
    · intro h
      cases h with
      | stay _ h _ => exact absurd h (by decide)
      | down _ h _ _ _ => exact absurd rfl h.2.2
      | follow _ h _ _ _ => exact absurd rfl h.2.2
      | up _ h3 => exact h3
    · exact fun h => .up hd h
  · have hp : Plain c := ⟨hne, h1, h2⟩
    have hw : walk1 d c = d ++ [c] := by
      unfold walk1
      rw [if_neg (plain_not_stay hp), if_neg hp.2.2]
    rw [hw] at h0 hl ⊢
    constructor
    · intro h
      cases h with
      | stay _ h _ => exact absurd h (plain_not_stay hp)
      | up _ _ => exact absurd rfl hp.2.2
      | down _ _ _ _ h3 => exact h3
      | follow _ _ h3 _ _ => exact absurd h3 (hl _)
    · intro h
      obtain ⟨n, hn⟩ := Option.ne_none_iff_exists'.1 h0
      exact .down hd hp hn (fun t ht => hl t (by rw [hn, ht])) h

/-- One component that is a symbolic link. -/
theorem leads_link {F : FS} {d : List Str} {c t : Str} {cs e : List Str} (hp : Plain c) (hd : F d = some .dir)
    (hl : F (d ++ [c]) = some (.link t)) (ht : t ≠ []) :
    Leads F d (c :: cs) e ↔ Leads F (if rooted t then [] else d) (comps t ++ cs) e := by
  constructor
  · intro h
    cases h with
    | stay _ h _ => exact absurd h (plain_not_stay hp)
    | up _ _ => exact absurd rfl hp.2.2
    | down _ _ h2 h3 _ => rw [hl] at h2; cases h2; exact absurd rfl (h3 t)
    | follow _ _ h2 _ h3 => rw [hl] at h2; cases h2; exact h3
  · exact .follow hd hp hl ht

theorem Leads.drop_empty {F : FS} {d : List Str} {cs e : List Str} (h : Leads F d cs e) : Leads F d (ne cs) e := by
  have key : ∀ (ys xs d : List Str), Leads F d (xs ++ ys) e → Leads F d (xs ++ ne ys) e := by
    intro ys
    induction ys with
    | nil => intro xs d h; exact h
    | cons y ys ih =>
      intro xs d h
      by_cases hy : y = []
      · subst hy
        rw [ne_nil]
        rw [leads_append] at h
        obtain ⟨p, h1, h2⟩ := h
        rw [leads_stay (.inl rfl)] at h2
        exact ih xs d (h1.append h2.2)
      · rw [ne_cons hy, show xs ++ y :: ne ys = (xs ++ [y]) ++ ne ys by simp]
        exact ih _ d (by simpa using h)
  simpa using key cs [] d h

/-- Empty components put back. -/
theorem Leads.put_empty {F : FS} {e : List Str} {cs : List Str} :
    ∀ {d : List Str}, F d = some .dir → Leads F d (ne cs) e → (F e = some .dir ∨ cs.getLast? ≠ some []) → Leads F d cs e := by
  induction cs with
  | nil => intro d _ h _; exact h
  | cons c cs ih =>
    intro d hd h hl
    by_cases hc : c = []
    · subst hc
      rw [ne_nil] at h
      rw [leads_stay (.inl rfl)]
      refine ⟨hd, ih hd h ?_⟩
      cases cs with
      | nil =>
        right; simp
      | cons x xs => rwa [List.getLast?_cons_cons] at hl
    · rw [ne_cons hc, show c :: ne cs = [c] ++ ne cs from rfl, leads_append] at h
      obtain ⟨p, h1, h2⟩ := h
      rw [show c :: cs = [c] ++ cs from rfl, leads_append]
      refine ⟨p, h1, ?_⟩
      cases cs with
      | nil => exact h2
      | cons x xs =>
        rw [List.getLast?_cons_cons] at hl
        refine ih ?_ h2 hl
        cases hn : ne (x :: xs) with
        | cons y ys => rw [hn] at h2; exact leads_head_dir h2
        | nil =>
          rw [hn] at h2
          cases h2 with
          | done _ =>
            rcases hl with hl | hl
            · exact hl
            · exfalso
              apply hl
              obtain ⟨z, hz⟩ : ∃ z, (x :: xs).getLast? = some z := ⟨_, List.getLast?_eq_some_getLast (by simp)⟩
              rw [hz]
              have hm := List.mem_of_getLast? hz
              have : z ∉ ne (x :: xs) := by rw [hn]; simp
              unfold ne at this
              rw [List.mem_filter] at this
              simp only [hm, true_and, decide_eq_true_eq, not_not] at this
              rw [this]

theorem ne_ne (cs : List Str) : ne (ne cs) = ne cs := by unfold ne; rw [List.filter_filter]; simp

theorem evalGo_nil (F : FS) (cwd : List Str) (n : Nat) (b : Str) : evalGo F cwd n b [] = .ok (clean b) := by
  cases n <;> simp [evalGo]

theorem leads_empty_link {F : FS} {d : List Str} {c : Str} {cs e : List Str} (hp : Plain c)
    (hl : F (d ++ [c]) = some (.link [])) : ¬ Leads F d (c :: cs) e := by
  intro h
  cases h with
  | stay _ h _ => exact absurd h (plain_not_stay hp)
  | up _ _ => exact absurd rfl hp.2.2
  | down _ _ h2 h3 _ => rw [hl] at h2; cases h2; exact absurd rfl (h3 _)
  | follow _ _ h2 h3 _ => rw [hl] at h2; cases h2; exact h3 rfl

/-- The text of no symbolic link ends with a slash. -/
def NoSlash (F : FS) : Prop := ∀ p t, F p = some (.link t) → t.getLast? ≠ some '/'

theorem comps_last {t : Str} (ht : t ≠ []) (h : t.getLast? ≠ some '/') : (comps t).getLast? ≠ some [] := by
  intro hc
  obtain ⟨xs, hx⟩ : ∃ xs, comps t = xs ++ [[]] := by
    rcases List.eq_nil_or_concat (comps t) with h1 | ⟨l, c, h1⟩
    · exact absurd h1 (comps_ne_nil t)
    · rw [List.concat_eq_append] at h1
      rw [h1] at hc
      simp only [List.getLast?_append, List.getLast?_singleton, Option.some_or, Option.some.injEq] at hc
      exact ⟨l, by rw [h1, hc]⟩
  rcases comps_cut hx with ⟨-, h1⟩ | ⟨a, h1, -⟩
  · exact ht h1
  · rw [h1] at h; simp at h

/-- What the outcome says about the way on. -/
def Eval.Good (F : FS) (cwd : List Str) (d cs : List Str) : Eval → Prop
  | .limit => True
  | .err => ∀ e, ¬ Leads F d cs e
  | .ok q => (∀ t, F (resolve cwd q) ≠ some (.link t)) ∧ F (resolve cwd q) ≠ none ∧ clean q = q ∧
      (∀ e, Leads F d cs e → e = resolve cwd q) ∧
      (F (resolve cwd q) = some .dir ∨ NoSlash F → Leads F d cs (resolve cwd q))

theorem Eval.Good.of {F : FS} {cwd d d' cs cs' : List Str} {r : Eval} (h : r.Good F cwd d cs)
    (h1 : ∀ e, Leads F d' cs' e → Leads F d cs e)
    (h2 : ∀ e, (F e = some .dir ∨ NoSlash F) → Leads F d cs e → Leads F d' cs' e) : r.Good F cwd d' cs' := by
  cases r with
  | limit => trivial
  | err => exact fun e he => h e (h1 e he)
  | ok q =>
    obtain ⟨a1, a2, a3, a4, a5⟩ := h
    exact ⟨a1, a2, a3, fun e he => a4 e (h1 e he), fun hx => h2 _ hx (a5 hx)⟩

theorem good_here {F : FS} {cwd d : List Str} {q : Str} (hr : resolve cwd q = d) (h1 : ∀ t, F d ≠ some (.link t)) (h2 : F d ≠ none) :
    (Eval.ok (clean q)).Good F cwd d [] := by
  simp only [Eval.Good]
  rw [resolve_clean, hr]
  refine ⟨h1, h2, clean_clean _, fun e he => ?_, fun _ => .done h2⟩
  cases he with
  | done _ => rfl

theorem resolve_b {F : FS} {cwd : List Str} {b : Str} {d : List Str} (h : Inv F cwd b [] d) : resolve cwd b = d := by
  rcases h.at_ with ⟨rfl, rfl⟩ | ⟨a, rfl, -, h2⟩
  · simp [resolve, descend, comps, rooted, walk1]
  · show descend (startOf cwd (a ++ ['/'])) (a ++ '/' :: []) = d
    rw [descend_append]
    unfold descend
    rw [h2]
    simp [comps, walk1]

theorem evalGo_good {F : FS} (hF : F.Ok) (cwd : List Str) : ∀ (n : Nat) (b path : Str) (d : List Str),
    Inv F cwd b path d → (evalGo F cwd n b path).Good F cwd d (ne (comps path)) := by
  intro n
  induction n with
  | zero =>
    intro b path d h
    rw [evalGo]
    split_ifs with h1
    · subst h1
      exact good_here (resolve_b h) h.real h.some_
    · trivial
  | succ n ih =>
    intro b path d h
    rw [evalGo]
    by_cases h1 : path = []
    · rw [if_pos h1]
      subst h1
      exact good_here (resolve_b h) h.real h.some_
    rw [if_neg h1]
    have hnc := ne_cut path
    by_cases h2 : (cut path).1 = []
    · simp only [if_pos h2]
      rw [hnc, h2, show ne [[]] = [] from rfl, List.nil_append]
      have hpath := cut_nil h1 h2
      apply ih
      rcases h.at_ with ⟨rfl, rfl⟩ | ⟨a, rfl, g1, g2⟩
      · have hr : startOf cwd path = [] := by rw [hpath]; rfl
        rw [hr, if_pos rfl]
        refine ⟨.inr ⟨[], by simp, ?_, ?_⟩, by rw [hF.1]; simp, show F [] ≠ none by rw [hF.1]; simp⟩
        · exact .stay hF.1 (.inl rfl) (.done (by rw [show startOf cwd ['/'] = [] from rfl, hF.1]; simp))
        · simp [comps, walk1, startOf, rooted]
      · rw [if_neg (by simp)]
        exact ⟨.inr ⟨a, rfl, g1, g2⟩, h.real, h.some_⟩
    · simp only [if_neg h2]
      obtain ⟨fr, g1, g2, g3⟩ := h.next h2
      rw [hnc, show ne [(cut path).1] = [(cut path).1] from ne_cons h2 [], List.singleton_append]
      cases hs : lstat F cwd (b ++ (cut path).1) with
      | none => exact fun e => lstat_none g1 h2 g2 hs _ e
      | some e =>
        obtain ⟨k1, k2, k3, k4⟩ := lstat_next hF g1 h2 g2 hs
        simp only
        have hnl : (∀ t, F e ≠ some (.link t)) →
            (evalGo F cwd n (b ++ (cut path).1 ++ if (cut path).2 = [] then [] else ['/']) (cut path).2).Good F cwd d
              ((cut path).1 :: ne (comps (cut path).2)) := by
          intro hl
          have hw := fun e' => leads_walk (F := F) (d := d) (cs := ne (comps (cut path).2)) (e := e') h2 k1 (k2 ▸ k3)
            (fun t => k2 ▸ hl t)
          refine Eval.Good.of (d := e) (cs := ne (comps (cut path).2)) ?_ (fun e' => by rw [hw, ← k2]; exact id)
            (fun e' _ => by rw [hw, ← k2]; exact id)
          have hr : fr.foldl walk1 (startOf cwd (b ++ (cut path).1)) = d := g3
          by_cases h3 : (cut path).2 = []
          · rw [if_pos h3, List.append_nil, h3, evalGo_nil]
            refine good_here ?_ hl k3
            show (comps (b ++ (cut path).1)).foldl walk1 (startOf cwd (b ++ (cut path).1)) = e
            rw [g1, List.foldl_append, hr, k2]
            rfl
          · rw [if_neg h3]
            apply ih
            have hne : b ++ (cut path).1 ≠ [] := by simp [h2]
            refine ⟨.inr ⟨b ++ (cut path).1, rfl, ?_, ?_⟩, hl, k3⟩
            · rw [startOf_append cwd hne, g1]
              refine g2.append ?_
              rw [leads_walk h2 k1 (k2 ▸ k3) (fun t => k2 ▸ hl t), ← k2]
              exact .done k3
            · rw [startOf_append cwd hne, g1, List.foldl_append, hr, k2]
              rfl
        cases hn : F e with
        | none => exact absurd hn k3
        | some node =>
          cases node with
          | file i => exact hnl (by rw [hn]; simp)
          | dir => exact hnl (by rw [hn]; simp)
          | link t =>
            simp only
            have hp : Plain (cut path).1 := by
              by_contra hp
              rw [k4 hp] at hn
              cases hn
            have hw : walk1 d (cut path).1 = d ++ [(cut path).1] := by
              unfold walk1
              rw [if_neg (plain_not_stay hp), if_neg hp.2.2]
            rw [k2, hw] at hn
            by_cases ht : t = []
            · rw [if_pos ht]
              subst ht
              exact fun e => leads_empty_link hp hn
            · rw [if_neg ht]
              have hlk := fun e' => leads_link (cs := ne (comps (cut path).2)) (e := e') hp k1 hn ht
              have hdir : F (if rooted t then [] else d) = some .dir := by
                split_ifs
                · exact hF.1
                · exact k1
              have hcmp : ne (comps (t ++ '/' :: (cut path).2)) = ne (comps t) ++ ne (comps (cut path).2) := by
                rw [comps_append, ne_append]
              refine Eval.Good.of (d := if rooted t then [] else d) (cs := ne (comps (t ++ '/' :: (cut path).2))) ?_ ?_ ?_
              · apply ih
                refine ⟨?_, by rw [hdir]; simp, by rw [hdir]; simp⟩
                by_cases hr : rooted t = true
                · left
                  rw [if_pos hr, if_pos hr]
                  refine ⟨rfl, ?_⟩
                  unfold startOf
                  rw [rooted_append ht, if_pos hr]
                · rw [if_neg hr, if_neg hr]
                  rcases h.at_ with ⟨rfl, rfl⟩ | ⟨a, rfl, q1, q2⟩
                  · left
                    refine ⟨rfl, ?_⟩
                    unfold startOf
                    rw [rooted_append ht, if_neg hr, cut_rooted h2]
                    rfl
                  · right
                    exact ⟨a, rfl, q1, q2⟩
              · intro e' he
                have := Leads.drop_empty ((hlk e').1 he)
                rw [ne_append, ne_ne] at this
                rw [hcmp]
                exact this
              · intro e' hx he
                rw [hlk]
                rw [hcmp, leads_append] at he
                obtain ⟨p, e1, e2⟩ := he
                refine Leads.append ?_ e2
                refine Leads.put_empty hdir e1 ?_
                cases hcs : ne (comps (cut path).2) with
                | cons y ys => rw [hcs] at e2; exact .inl (leads_head_dir e2)
                | nil =>
                  rw [hcs] at e2
                  cases e2 with
                  | done _ =>
                    rcases hx with hx | hx
                    · exact .inl hx
                    · exact .inr (comps_last ht (hx _ _ hn))

end Verif.FsLinks
