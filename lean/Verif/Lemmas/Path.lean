import Verif.Model.Path
import Mathlib.Data.List.TakeWhile
import Mathlib.Tactic.SplitIfs
/-!
# Lemmas about paths
-/

set_option linter.unusedSectionVars false

namespace Verif.Path
open Verif.Spec

/-! ## Components -/

theorem comps_ne_nil (s : Str) : comps s ≠ [] := by
  cases s with
  | nil => simp [comps]
  | cons c s => rw [comps]; split_ifs <;> [simp; (split <;> simp)]

theorem comps_noslash (w : Str) (h : '/' ∉ w) : comps w = [w] := by
  induction w with
  | nil => rfl
  | cons c w ih =>
    simp only [List.mem_cons, not_or] at h
    rw [comps, if_neg (fun e => h.1 e.symm), ih h.2]

theorem comps_append (a b : Str) : comps (a ++ '/' :: b) = comps a ++ comps b := by
  induction a with
  | nil => simp [comps]
  | cons c a ih =>
    rw [List.cons_append, comps, comps]
    split_ifs with hc
    · rw [ih]; rfl
    · rw [ih]
      have := comps_ne_nil a
      cases h : comps a with
      | nil => exact absurd h this
      | cons w ws => rfl

theorem comps_joinSlash (ws : List Str) (h : ∀ w ∈ ws, '/' ∉ w) (hne : ws ≠ []) : comps (joinSlash ws) = ws := by
  induction ws with
  | nil => exact absurd rfl hne
  | cons w ws ih =>
    cases ws with
    | nil => rw [joinSlash, comps_noslash w (h w (by simp))]
    | cons v vs =>
      rw [joinSlash, comps_append, comps_noslash w (h w (by simp)), ih (fun x hx => h x (by simp [hx])) (by simp)]
      · rfl
      · simp

theorem comps_mem_noslash (s : Str) : ∀ w ∈ comps s, '/' ∉ w := by
  induction s with
  | nil => simp [comps]
  | cons c s ih =>
    rw [comps]
    split_ifs with hc
    · intro w hw
      rcases List.mem_cons.1 hw with rfl | hw
      · simp
      · exact ih w hw
    · cases h : comps s with
      | nil => simp; exact fun e => hc e.symm
      | cons v vs =>
        rw [h] at ih
        intro w hw
        rcases List.mem_cons.1 hw with rfl | hw
        · simp only [List.mem_cons, not_or]
          exact ⟨fun e => hc e.symm, ih v (by simp)⟩
        · exact ih w (by simp [hw])

/-! ## The shape of a cleaned path -/

/-- A component that is a name. -/
def Name (c : Str) : Prop := c ≠ [] ∧ c ≠ ['.'] ∧ c ≠ ['.', '.'] ∧ '/' ∉ c

/-- One component: how often one must go up, and the names after that (last first). -/
def fstep (rtd : Bool) (f : Nat × List Str) (c : Str) : Nat × List Str :=
  if c = [] ∨ c = ['.'] then f
  else if c = ['.', '.'] then
    match f.2 with
    | [] => (if rtd then f.1 else f.1 + 1, [])
    | _ :: r => (f.1, r)
  else (f.1, c :: f.2)

/-- The number of steps up and the names (last first) of a path. -/
def form (s : Str) : Nat × List Str := (comps s).foldl (fstep (rooted s)) (0, [])

/-- The output of `Clean` for a form. -/
def outOf (f : Nat × List Str) : List Str := f.2 ++ List.replicate f.1 ['.', '.']

theorem push_outOf (rtd : Bool) (f : Nat × List Str) (c : Str) (hn : ∀ x ∈ f.2, Name x) (hr : rtd = true → f.1 = 0) :
    push rtd (outOf f) c = outOf (fstep rtd f c) := by
  obtain ⟨k, rn⟩ := f
  unfold push fstep
  by_cases h1 : c = [] ∨ c = ['.']
  · rw [if_pos h1, if_pos h1]
  rw [if_neg h1, if_neg h1]
  by_cases h2 : c = ['.', '.']
  · rw [if_pos h2, if_pos h2]
    subst h2
    cases rn with
    | nil =>
      cases k with
      | zero => cases rtd <;> simp [outOf]
      | succ k =>
        cases rtd with
        | false => simp [outOf, List.replicate_succ]
        | true => simp at hr
    | cons x r =>
      have := (hn x (by simp)).2.2.1
      simp [outOf, this]
  · rw [if_neg h2, if_neg h2]
    simp [outOf]

theorem fstep_ok (rtd : Bool) (f : Nat × List Str) (c : Str) (hc : '/' ∉ c) (hn : ∀ x ∈ f.2, Name x)
    (hr : rtd = true → f.1 = 0) :
    (∀ x ∈ (fstep rtd f c).2, Name x) ∧ (rtd = true → (fstep rtd f c).1 = 0) := by
  obtain ⟨k, rn⟩ := f
  unfold fstep
  by_cases h1 : c = [] ∨ c = ['.']
  · rw [if_pos h1]; exact ⟨hn, hr⟩
  rw [if_neg h1]
  by_cases h2 : c = ['.', '.']
  · rw [if_pos h2]
    cases rn with
    | nil => refine ⟨by simp, fun h => ?_⟩; simp only [h, if_true]; exact hr h
    | cons x r => exact ⟨fun y hy => hn y (by simp at hy ⊢; exact .inr hy), hr⟩
  · rw [if_neg h2]
    refine ⟨fun x hx => ?_, hr⟩
    rcases List.mem_cons.1 hx with rfl | hx
    · exact ⟨fun e => h1 (.inl e), fun e => h1 (.inr e), h2, hc⟩
    · exact hn x hx

theorem fold_push (rtd : Bool) (cs : List Str) (hcs : ∀ c ∈ cs, '/' ∉ c) (f : Nat × List Str) (hn : ∀ x ∈ f.2, Name x)
    (hr : rtd = true → f.1 = 0) :
    cs.foldl (push rtd) (outOf f) = outOf (cs.foldl (fstep rtd) f) ∧ (∀ x ∈ (cs.foldl (fstep rtd) f).2, Name x) ∧
      (rtd = true → (cs.foldl (fstep rtd) f).1 = 0) := by
  induction cs generalizing f with
  | nil => exact ⟨rfl, hn, hr⟩
  | cons c cs ih =>
    have := fstep_ok rtd f c (hcs c (by simp)) hn hr
    rw [List.foldl_cons, List.foldl_cons, push_outOf rtd f c hn hr]
    exact ih (fun x hx => hcs x (by simp [hx])) _ this.1 this.2

theorem form_names (s : Str) : ∀ x ∈ (form s).2, Name x :=
  (fold_push (rooted s) (comps s) (comps_mem_noslash s) (0, []) (by simp) (by simp)).2.1

theorem form_rooted (s : Str) (h : rooted s = true) : (form s).1 = 0 :=
  (fold_push (rooted s) (comps s) (comps_mem_noslash s) (0, []) (by simp) (by simp)).2.2 h

/-- The text for a form. -/
def render (rtd : Bool) (f : Nat × List Str) : Str :=
  if rtd then '/' :: joinSlash (outOf f).reverse
  else if outOf f = [] then ['.'] else joinSlash (outOf f).reverse

theorem clean_eq (s : Str) : clean s = render (rooted s) (form s) := by
  unfold clean render
  by_cases hs : s = []
  · subst hs; simp [form, rooted, comps, fstep, outOf]
  · rw [if_neg hs]
    have := (fold_push (rooted s) (comps s) (comps_mem_noslash s) (0, []) (by simp) (by simp)).1
    simp only [outOf, List.replicate_zero, List.append_nil] at this
    simp only [this, outOf, form, List.reverse_eq_nil_iff]
    rfl

/-! ## Where a form leads -/

theorem fold_walk (d : List Str) (cs : List Str) (rtd : Bool) (f : Nat × List Str) (b : List Str)
    (hb : b = d.take (d.length - f.1) ++ f.2.reverse) (hr : rtd = true → d = []) :
    cs.foldl walk1 b = d.take (d.length - (cs.foldl (fstep rtd) f).1) ++ (cs.foldl (fstep rtd) f).2.reverse := by
  induction cs generalizing f b with
  | nil => exact hb
  | cons c cs ih =>
    rw [List.foldl_cons, List.foldl_cons]
    apply ih
    subst hb
    obtain ⟨k, rn⟩ := f
    unfold walk1 fstep
    by_cases h1 : c = [] ∨ c = ['.']
    · rw [if_pos h1, if_pos h1]
    rw [if_neg h1, if_neg h1]
    by_cases h2 : c = ['.', '.']
    · rw [if_pos h2, if_pos h2]
      cases rn with
      | nil =>
        cases rtd with
        | false =>
          simp only [List.reverse_nil, List.append_nil, Bool.false_eq_true, if_false]
          rw [List.dropLast_eq_take, List.length_take, List.take_take]
          congr 1
          omega
        | true => simp [hr rfl]
      | cons x r => simp [← List.append_assoc]
    · rw [if_neg h2, if_neg h2]; simp

theorem descend_form (d : List Str) (s : Str) (h : rooted s = true → d = []) :
    descend d s = d.take (d.length - (form s).1) ++ (form s).2.reverse :=
  fold_walk d (comps s) (rooted s) (0, []) d (by simp) h

theorem resolve_form (cwd : List Str) (s : Str) :
    resolve cwd s = (if rooted s then [] else cwd.take (cwd.length - (form s).1)) ++ (form s).2.reverse := by
  unfold resolve
  rw [descend_form _ _ (by intro h; simp [h])]
  cases rooted s <;> simp

/-! ## Rendering and reading back -/

theorem joinSlash_head (w : Str) (ws : List Str) (hw : w ≠ []) (h : '/' ∉ w) : rooted (joinSlash (w :: ws)) = false := by
  cases w with
  | nil => exact absurd rfl hw
  | cons c w =>
    simp only [List.mem_cons, not_or] at h
    cases ws with
    | nil => simp [joinSlash, rooted, Ne.symm h.1]
    | cons v vs => simp [joinSlash, rooted, Ne.symm h.1]

theorem outOf_comp (f : Nat × List Str) (hn : ∀ x ∈ f.2, Name x) : ∀ w ∈ (outOf f).reverse, w ≠ [] ∧ '/' ∉ w := by
  intro w hw
  simp only [outOf, List.reverse_append, List.reverse_replicate, List.mem_append, List.mem_replicate,
    List.mem_reverse] at hw
  rcases hw with ⟨-, rfl⟩ | hw
  · decide
  · exact ⟨(hn w hw).1, (hn w hw).2.2.2⟩

theorem rooted_render (rtd : Bool) (f : Nat × List Str) (hn : ∀ x ∈ f.2, Name x) : rooted (render rtd f) = rtd := by
  unfold render
  cases rtd with
  | true => simp [rooted]
  | false =>
    simp only [Bool.false_eq_true, if_false]
    split_ifs with h
    · rfl
    · have hc := outOf_comp f hn
      cases e : (outOf f).reverse with
      | nil => exact absurd (List.reverse_eq_nil_iff.1 e) h
      | cons w ws =>
        rw [e] at hc
        exact joinSlash_head w ws (hc w (by simp)).1 (hc w (by simp)).2

theorem fold_replicate (k j : Nat) :
    (List.replicate k ['.', '.']).foldl (fstep false) (j, ([] : List Str)) = (j + k, []) := by
  induction k generalizing j with
  | zero => rfl
  | succ k ih =>
    rw [List.replicate_succ, List.foldl_cons]
    have : fstep false (j, []) ['.', '.'] = (j + 1, []) := by simp [fstep]
    rw [this, ih]
    congr 1
    omega

theorem fold_names (rtd : Bool) (l : List Str) (h : ∀ x ∈ l, Name x) (k : Nat) (rn : List Str) :
    l.foldl (fstep rtd) (k, rn) = (k, l.reverse ++ rn) := by
  induction l generalizing rn with
  | nil => rfl
  | cons x l ih =>
    have hx := h x (by simp)
    have : fstep rtd (k, rn) x = (k, x :: rn) := by simp [fstep, hx.1, hx.2.1, hx.2.2.1]
    rw [List.foldl_cons, this, ih fun y hy => h y (by simp [hy])]
    simp

theorem form_render (rtd : Bool) (f : Nat × List Str) (hn : ∀ x ∈ f.2, Name x) (hr : rtd = true → f.1 = 0) :
    form (render rtd f) = f := by
  have hc := outOf_comp f hn
  have hroot := rooted_render rtd f hn
  unfold form
  rw [hroot]
  obtain ⟨k, rn⟩ := f
  have hn' : ∀ x ∈ rn.reverse, Name x := fun x hx => hn x (List.mem_reverse.1 hx)
  cases rtd with
  | true =>
    obtain rfl : k = 0 := hr rfl
    simp only [render, if_true]
    have : comps ('/' :: joinSlash (outOf (0, rn)).reverse) = [] :: comps (joinSlash (outOf (0, rn)).reverse) := by
      rw [comps, if_pos rfl]
    rw [this]
    simp only [outOf, List.replicate_zero, List.append_nil, List.foldl_cons] at hc ⊢
    have e0 : fstep true (0, []) [] = (0, []) := by simp [fstep]
    rw [e0]
    by_cases h : rn.reverse = []
    · rw [h]
      obtain rfl : rn = [] := List.reverse_eq_nil_iff.1 h
      simp [joinSlash, comps, fstep]
    · rw [comps_joinSlash _ (fun w hw => (hc w hw).2) h, fold_names _ _ hn']
      simp
  | false =>
    simp only [render, Bool.false_eq_true, if_false]
    split_ifs with h
    · simp only [outOf, List.append_eq_nil_iff, List.replicate_eq_nil_iff] at h
      obtain ⟨h1, h2⟩ := h
      subst h1 h2
      simp [comps, fstep]
    · rw [comps_joinSlash _ (fun w hw => (hc w hw).2) (by simpa using h)]
      simp only [outOf, List.reverse_append, List.reverse_replicate, List.foldl_append]
      rw [fold_replicate, fold_names _ _ hn']
      simp

theorem rooted_clean (s : Str) : rooted (clean s) = rooted s := by
  rw [clean_eq, rooted_render _ _ (form_names s)]

theorem form_clean (s : Str) : form (clean s) = form s := by
  rw [clean_eq, form_render _ _ (form_names s) (form_rooted s)]

theorem resolve_clean (cwd : List Str) (s : Str) : resolve cwd (clean s) = resolve cwd s := by
  rw [resolve_form, resolve_form, rooted_clean, form_clean]

theorem clean_clean (s : Str) : clean (clean s) = clean s := by
  rw [clean_eq (clean s), rooted_clean, form_clean, clean_eq]

theorem name_ne_nil {x : Str} (h : Name x) : x ≠ [] := h.1

/-- Two paths that lead to the same place from everywhere have the same form. -/
theorem form_inj {s t : Str} (hr : rooted s = rooted t) (h : ∀ cwd, resolve cwd s = resolve cwd t) : form s = form t := by
  have h0 := h []
  rw [resolve_form, resolve_form, hr] at h0
  simp only [List.take_nil, ite_self, List.nil_append] at h0
  have hn : (form s).2 = (form t).2 := List.reverse_inj.1 h0
  cases hb : rooted t with
  | true => exact Prod.ext ((form_rooted s (hr.trans hb)).trans (form_rooted t hb).symm) hn
  | false =>
    refine Prod.ext ?_ hn
    have h1 := congrArg List.length (h (List.replicate ((form s).1 + (form t).1) []))
    rw [resolve_form, resolve_form, hr, hb, hn] at h1
    simp at h1
    omega

theorem clean_inj {s t : Str} (hr : rooted s = rooted t) (h : ∀ cwd, resolve cwd s = resolve cwd t) :
    clean s = clean t := by
  rw [clean_eq, clean_eq, hr, form_inj hr h]

/-! ## Joining -/

theorem descend_append (d : List Str) (a b : Str) : descend d (a ++ '/' :: b) = descend (descend d a) b := by
  unfold descend; rw [comps_append, List.foldl_append]

theorem descend_joinSlash (d : List Str) (e : Str) (es : List Str) :
    descend d (joinSlash (e :: es)) = es.foldl descend (descend d e) := by
  induction es generalizing d e with
  | nil => rfl
  | cons f es ih =>
    have : joinSlash (e :: f :: es) = e ++ '/' :: joinSlash (f :: es) := rfl
    rw [this, descend_append, ih]; rfl

theorem rooted_append {a : Str} (h : a ≠ []) (b : Str) : rooted (a ++ b) = rooted a := by
  cases a with
  | nil => exact absurd rfl h
  | cons c a => rfl

theorem rooted_joinSlash {e : Str} (h : e ≠ []) (es : List Str) : rooted (joinSlash (e :: es)) = rooted e := by
  cases es with
  | nil => rfl
  | cons f es => exact rooted_append h _

theorem resolve_joinSlash (cwd : List Str) {e : Str} (h : e ≠ []) (es : List Str) :
    resolve cwd (joinSlash (e :: es)) = es.foldl descend (resolve cwd e) := by
  unfold resolve; rw [rooted_joinSlash h, descend_joinSlash]

theorem joins_cons {e : Str} (h : e ≠ []) (es : List Str) : joins (e :: es) = clean (joinSlash (e :: es)) := by
  unfold joins filePath; rw [join, if_pos h, clean_clean]

theorem joins_nil_cons (es : List Str) : joins ([] :: es) = joins es := by
  unfold joins; rw [join, if_neg (by simp)]

theorem resolve_joins (cwd : List Str) {e : Str} (h : e ≠ []) (es : List Str) :
    resolve cwd (joins (e :: es)) = es.foldl descend (resolve cwd e) := by
  rw [joins_cons h, resolve_clean, resolve_joinSlash cwd h]

theorem rooted_joins {e : Str} (h : e ≠ []) (es : List Str) : rooted (joins (e :: es)) = rooted e := by
  rw [joins_cons h, rooted_clean, rooted_joinSlash h]

theorem resolve_of_not_rooted (cwd : List Str) {s : Str} (h : rooted s = false) : resolve cwd s = descend cwd s := by
  unfold resolve; rw [h]; rfl

theorem resolve_of_rooted (cwd : List Str) {s : Str} (h : rooted s = true) : resolve cwd s = descend [] s := by
  unfold resolve; rw [h]; rfl

theorem clean_ne_nil (s : Str) : clean s ≠ [] := by
  intro h
  have hr := rooted_clean s
  have hc := clean_eq s
  rw [h] at hr hc
  have hr' : rooted s = false := hr.symm
  rw [hr'] at hc
  simp only [render, Bool.false_eq_true, if_false] at hc
  split_ifs at hc with h1
  have hc' := outOf_comp _ (form_names s)
  cases e : (outOf (form s)).reverse with
  | nil => exact h1 (List.reverse_eq_nil_iff.1 e)
  | cons w ws =>
    rw [e] at hc hc'
    have := (hc' w (by simp)).1
    cases ws with
    | nil => exact this hc.symm
    | cons v vs =>
      have e2 : joinSlash (w :: v :: vs) = w ++ '/' :: joinSlash (v :: vs) := rfl
      rw [e2] at hc
      simp at hc

/-! ## Splitting off the last component -/

theorem split_spec (s : Str) : (split s).1 ++ (split s).2 = s ∧ '/' ∉ (split s).2 ∧
    ((split s).1 = [] ∨ ∃ a, (split s).1 = a ++ ['/']) := by
  unfold split
  generalize hw : s.reverse.takeWhile (· ≠ '/') = w
  have hs : s.reverse = w ++ s.reverse.dropWhile (· ≠ '/') := by rw [← hw, List.takeWhile_append_dropWhile]
  generalize hd : s.reverse.dropWhile (· ≠ '/') = r at hs
  have hs' : s = r.reverse ++ w.reverse := by rw [← List.reverse_append, ← hs, List.reverse_reverse]
  have hl : s.length - w.length = r.reverse.length := by rw [hs']; simp
  simp only [hl]
  have h1 : s.take r.reverse.length = r.reverse := by rw [hs', List.take_left]
  have h2 : s.drop r.reverse.length = w.reverse := by rw [hs', List.drop_left]
  rw [h1, h2]
  refine ⟨hs'.symm, fun hm => ?_, ?_⟩
  · rw [List.mem_reverse, ← hw] at hm
    simpa using List.mem_takeWhile_imp hm
  · cases r with
    | nil => exact .inl rfl
    | cons c r =>
      right
      have : c = '/' := by
        have := List.head?_dropWhile_not (· ≠ '/') s.reverse
        rw [hd] at this
        simpa using this
      exact ⟨r.reverse, by rw [this]; simp⟩

theorem resolve_append_last (cwd : List Str) (a w : Str) (ha : a = [] ∨ ∃ b, a = b ++ ['/']) (hw : '/' ∉ w) :
    resolve cwd (a ++ w) = walk1 (resolve cwd a) w := by
  have hd : ∀ d, descend d w = walk1 d w := fun d => by unfold descend; rw [comps_noslash w hw]; rfl
  rcases ha with rfl | ⟨b, rfl⟩
  · have : rooted w = false := by
      cases w with
      | nil => rfl
      | cons c w =>
        simp only [List.mem_cons, not_or] at hw
        simp [rooted, Ne.symm hw.1]
    rw [List.nil_append, resolve_of_not_rooted cwd this, hd]
    rfl
  · unfold resolve
    rw [rooted_append (by simp)]
    have e1 : b ++ ['/'] ++ w = b ++ '/' :: w := by simp
    rw [e1, descend_append, descend_append, hd]
    rfl

end Verif.Path
