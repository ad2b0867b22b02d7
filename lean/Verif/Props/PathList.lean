import Verif.Model.PathList
import Verif.Lemmas.EvalLinks2
set_option linter.unusedSectionVars false
/-!
# C161: lists of paths

`SplitList` of path objects.
-/

namespace Verif.Path
open Verif.Spec

/-- A list of paths in one text: with colons between them. -/
def Spec.pathList : List Str → Str
  | [] => []
  | [w] => w
  | w :: ws => w ++ ':' :: Spec.pathList ws

theorem pathList_cons {w : Str} {ws : List Str} (h : ws ≠ []) : Spec.pathList (w :: ws) = w ++ ':' :: Spec.pathList ws := by
  cases ws with
  | nil => exact absurd rfl h
  | cons x ws => rfl

theorem splitAt_ne_nil (s : Str) : splitAt ':' s ≠ [] := by
  cases s with
  | nil => simp [splitAt]
  | cons c s => rw [splitAt]; split_ifs <;> [simp; (split <;> simp)]

theorem splitAt_spec (s : Str) : Spec.pathList (splitAt ':' s) = s ∧ ∀ w ∈ splitAt ':' s, ':' ∉ w := by
  induction s with
  | nil => simp [splitAt, Spec.pathList]
  | cons c s ih =>
    rw [splitAt]
    split_ifs with h
    · rw [pathList_cons (splitAt_ne_nil s), ih.1, h]
      refine ⟨rfl, fun w hw => ?_⟩
      rcases List.mem_cons.1 hw with rfl | hw
      · simp
      · exact ih.2 w hw
    · cases hs : splitAt ':' s with
      | nil => exact absurd hs (splitAt_ne_nil s)
      | cons w ws =>
        rw [hs] at ih
        refine ⟨?_, fun x hx => ?_⟩
        · cases ws with
          | nil => simp only [Spec.pathList] at ih ⊢; rw [ih.1]
          | cons y ws => simp only [Spec.pathList, List.cons_append] at ih ⊢; rw [ih.1]
        · rcases List.mem_cons.1 hx with rfl | hx
          · intro hm
            rcases List.mem_cons.1 hm with hm | hm
            · exact h hm.symm
            · exact ih.2 w (by simp) hm
          · exact ih.2 x (by simp [hx])

theorem splitAt_append {w : Str} (h : ':' ∉ w) (s : Str) : splitAt ':' (w ++ ':' :: s) = w :: splitAt ':' s := by
  induction w with
  | nil => simp [splitAt]
  | cons c w ih =>
    have h1 : ¬ c = ':' := fun e => h (by simp [e])
    rw [List.cons_append, splitAt, if_neg h1, ih fun e => h (by simp [e])]

theorem splitAt_one {w : Str} (h : ':' ∉ w) : splitAt ':' w = [w] := by
  induction w with
  | nil => rfl
  | cons c w ih =>
    have h1 : ¬ c = ':' := fun e => h (by simp [e])
    rw [splitAt, if_neg h1, ih fun e => h (by simp [e])]

theorem splitAt_pathList : ∀ {ws : List Str}, ws ≠ [] → (∀ w ∈ ws, ':' ∉ w) → splitAt ':' (Spec.pathList ws) = ws
  | [], h, _ => absurd rfl h
  | [w], _, h => splitAt_one (h w (by simp))
  | w :: x :: ws, _, h => by
    rw [pathList_cons (by simp), splitAt_append (h w (by simp)), splitAt_pathList (by simp) fun y hy => h y (by simp [hy])]

/-- C161: the paths are what stands between the colons, in order: they have no colons, with colons between them they are the text again, and no
other paths are so. -/
theorem C161_parts (me : Str) (h : me ≠ []) :
    splitList me ≠ [] ∧ (∀ w ∈ splitList me, ':' ∉ w) ∧ Spec.pathList (splitList me) = me ∧
    ∀ ws, ws ≠ [] → (∀ w ∈ ws, ':' ∉ w) → Spec.pathList ws = me → splitList me = ws := by
  unfold splitList
  rw [if_neg h]
  refine ⟨splitAt_ne_nil me, (splitAt_spec me).2, (splitAt_spec me).1, ?_⟩
  rintro ws h1 h2 rfl
  exact splitAt_pathList h1 h2

/-- C161: an empty text has no paths. -/
theorem C161_empty : splitList [] = [] := rfl

/-! ## Path objects of lists -/

theorem comps_inj {s t : Str} (h : comps s = comps t) : s = t := by
  have key : ∀ s : Str, joinSlash (comps s) = s := by
    intro s
    induction s with
    | nil => rfl
    | cons c s ih =>
      rw [comps]
      split_ifs with hc
      · cases hs : comps s with
        | nil => exact absurd hs (comps_ne_nil s)
        | cons w ws => rw [hs] at ih; rw [joinSlash, ih, hc]; rfl; simp
      · cases hs : comps s with
        | nil => exact absurd hs (comps_ne_nil s)
        | cons w ws =>
          rw [hs] at ih
          cases ws with
          | nil => simp only [joinSlash] at ih ⊢; rw [ih]
          | cons y ws => simp only [joinSlash, List.cons_append] at ih ⊢; rw [ih]
  rw [← key s, h, key]

/-- Components that make a text in clean form. -/
theorem clean_of_comps {s : Str} {k : Nat} {xs : List Str} (h : comps s = (if rooted s then [[]] else []) ++ (List.replicate k ['.', '.'] ++ xs))
    (hx : ∀ x ∈ xs, Plain x) (hk : rooted s = true → k = 0) (hne : List.replicate k ['.', '.'] ++ xs ≠ []) : clean s = s := by
  have hn : ∀ x ∈ (k, xs.reverse).2, Name x := by
    intro x hm
    have hm : x ∈ xs := by simpa using hm
    obtain ⟨a, b, c⟩ := hx x hm
    exact ⟨a, b, c, comps_mem_noslash s x (by rw [h]; simp [hm])⟩
  have h0 : outOf (k, xs.reverse) ≠ [] := by
    intro h0
    apply hne
    simpa [outOf] using congrArg List.reverse h0
  have hc := FsLinks.comps_render (rooted s) (k, xs.reverse) hn h0
  have he : s = render (rooted s) (k, xs.reverse) := by
    apply comps_inj
    rw [hc, h]
    simp [outOf]
  have hf : form s = (k, xs.reverse) := by
    conv_lhs => rw [he]
    exact form_render _ _ hn hk
  rw [clean_eq, hf, ← he]

theorem clean_comps_rooted {q : Str} (h : clean q = q) : q = ['/'] ∨ q = ['.'] ∨
    ∃ k xs, comps q = (if rooted q then [[]] else []) ++ (List.replicate k ['.', '.'] ++ xs) ∧ (∀ x ∈ xs, Plain x) ∧
      List.replicate k ['.', '.'] ++ xs ≠ [] ∧ (rooted q = true → k = 0) := by
  have hn := form_names q
  have he : q = render (rooted q) (form q) := by rw [← clean_eq, h]
  by_cases h0 : outOf (form q) = []
  · unfold render at he
    rw [h0] at he
    cases hr : rooted q with
    | true => rw [hr] at he; left; simpa [joinSlash] using he
    | false => rw [hr] at he; right; left; simpa using he
  · right; right
    have := FsLinks.comps_render (rooted q) (form q) hn h0
    rw [← he] at this
    refine ⟨(form q).1, (form q).2.reverse, ?_, ?_, ?_, form_rooted q⟩
    · rw [this]; simp [outOf]
    · intro x hx
      have := hn x (by simpa using hx)
      exact ⟨this.1, this.2.1, this.2.2.1⟩
    · intro hc
      apply h0
      simpa [outOf] using congrArg List.reverse hc

/-- A colon joins the last component before it and the first after it. -/
theorem comps_colon (a b : Str) : ∃ x y, (comps a) = (comps a).dropLast ++ [x] ∧ comps b = y :: (comps b).tail ∧
    comps (a ++ ':' :: b) = (comps a).dropLast ++ (x ++ ':' :: y) :: (comps b).tail := by
  obtain ⟨y, ys, hb⟩ : ∃ y ys, comps b = y :: ys := by
    cases hb : comps b with
    | nil => exact absurd hb (comps_ne_nil b)
    | cons y ys => exact ⟨y, ys, rfl⟩
  have key : ∃ pre x, comps a = pre ++ [x] ∧ comps (a ++ ':' :: b) = pre ++ (x ++ ':' :: y) :: ys := by
    induction a with
    | nil =>
      refine ⟨[], [], rfl, ?_⟩
      show comps (':' :: b) = _
      rw [comps, if_neg (by decide), hb]
      rfl
    | cons c a ih =>
      obtain ⟨pre, x, i1, i2⟩ := ih
      rw [List.cons_append, comps, comps]
      by_cases hc : c = '/'
      · exact ⟨[] :: pre, x, by rw [if_pos hc, i1]; rfl, by rw [if_pos hc, i2]; rfl⟩
      · rw [if_neg hc, if_neg hc, i1, i2]
        cases pre with
        | nil => exact ⟨[], c :: x, rfl, rfl⟩
        | cons w pre => exact ⟨(c :: w) :: pre, x, rfl, rfl⟩
  obtain ⟨pre, x, k1, k2⟩ := key
  exact ⟨x, y, by rw [k1, List.dropLast_concat], by rw [hb]; rfl, by rw [k2, k1, List.dropLast_concat, hb]; rfl⟩

theorem plain_colon (x y : Str) : Plain (x ++ ':' :: y) := by
  have hm : ':' ∈ x ++ ':' :: y := by simp
  refine ⟨?_, ?_, ?_⟩ <;> intro h <;> rw [h] at hm <;> revert hm <;> decide

/-- All components but the first are names. -/
def Later (b : Str) : Prop := ∀ c ∈ (comps b).tail, Plain c

theorem replicate_dropLast (k : Nat) (z : Str) : (List.replicate (k + 1) z).dropLast = List.replicate k z := by
  rw [List.replicate_succ', List.dropLast_concat]

/-- The components of a path in clean form but the last, with a name at the end. -/
theorem clean_first {a : Str} (ha : clean a = a) {b : Str} (hb : Later b) : clean (a ++ ':' :: b) = a ++ ':' :: b := by
  obtain ⟨x, y, h1, h2, h3⟩ := comps_colon a b
  have hne : a ≠ [] := by rw [← ha]; exact clean_ne_nil a
  have hr : rooted (a ++ ':' :: b) = rooted a := by
    cases a with
    | nil => exact absurd rfl hne
    | cons c a => rfl
  have hxs : ∀ z ∈ (x ++ ':' :: y) :: (comps b).tail, Plain z := by
    intro z hz
    rcases List.mem_cons.1 hz with rfl | hz
    · exact plain_colon x y
    · exact hb z hz
  rcases clean_comps_rooted ha with rfl | rfl | ⟨k, xs, e1, e2, e3, e4⟩
  · refine clean_of_comps (k := 0) (xs := (x ++ ':' :: y) :: (comps b).tail) ?_ hxs (fun _ => rfl) (by simp)
    rw [h3, hr]
    rfl
  · refine clean_of_comps (k := 0) (xs := (x ++ ':' :: y) :: (comps b).tail) ?_ hxs (fun _ => rfl) (by simp)
    rw [h3, hr]
    rfl
  · rcases List.eq_nil_or_concat xs with hx | ⟨xs', z, hx⟩
    · subst hx
      cases k with
      | zero => exact absurd rfl e3
      | succ k =>
        refine clean_of_comps (k := k) (xs := (x ++ ':' :: y) :: (comps b).tail) ?_ hxs (fun h => ?_) (by simp)
        · rw [h3, hr, e1, List.append_nil, List.dropLast_append_of_ne_nil (by simp), replicate_dropLast, List.append_assoc]
        · rw [hr] at h
          have := e4 h
          omega
    · rw [List.concat_eq_append] at hx
      subst hx
      refine clean_of_comps (k := k) (xs := xs' ++ (x ++ ':' :: y) :: (comps b).tail) ?_ ?_ (fun h => e4 (by rwa [hr] at h)) (by simp)
      · rw [h3, hr, e1, ← List.append_assoc (List.replicate _ _), ← List.append_assoc, List.dropLast_concat]
        simp only [List.append_assoc]
      · intro w hw
        rcases List.mem_append.1 hw with hw | hw
        · exact e2 w (by simp [hw])
        · exact hxs w hw

/-- A path in clean form with at most one step up at the front. -/
theorem later_tail {w : Str} (hw : clean w = w) (hu : ¬ ['.', '.', '/', '.', '.'] <+: w) : (∀ c ∈ (comps w).tail, w = ['/'] ∨ Plain c) ∧
    ∀ c ∈ (comps w).dropLast.tail, Plain c := by
  rcases clean_comps_rooted hw with rfl | rfl | ⟨k, xs, e1, e2, e3, e4⟩
  · exact ⟨fun _ _ => .inl rfl, by decide⟩
  · exact ⟨by decide, by decide⟩
  · have key : ∀ c ∈ (comps w).tail, Plain c := by
      cases hr : rooted w with
      | true =>
        have h0 := e4 hr
        subst h0
        rw [e1, hr]
        exact e2
      | false =>
        rw [e1, hr]
        rcases k with _ | _ | k
        · intro c hc
          exact e2 c (List.mem_of_mem_tail hc)
        · exact e2
        · exfalso
          apply hu
          have he : w = joinSlash (['.', '.'] :: ['.', '.'] :: (List.replicate k ['.', '.'] ++ xs)) := by
            apply comps_inj
            rw [comps_joinSlash _ _ (by simp), e1, hr]
            · rfl
            · intro x hx
              refine comps_mem_noslash w x ?_
              rw [e1, hr]
              exact hx
          rw [he]
          cases hq : List.replicate k ['.', '.'] ++ xs with
          | nil => exact ⟨[], rfl⟩
          | cons z zs => exact ⟨'/' :: joinSlash (z :: zs), rfl⟩
    refine ⟨fun c hc => .inr (key c hc), fun c hc => key c ?_⟩
    cases hq : comps w with
    | nil => exact absurd hq (comps_ne_nil w)
    | cons z zs =>
      rw [hq] at hc
      cases zs with
      | nil => cases hc
      | cons y zs => exact List.dropLast_subset _ hc

theorem later_pathList : ∀ {ws : List Str}, ws ≠ [] → (∀ w ∈ ws, clean w = w) → (∀ w ∈ ws, ¬ ['.', '.', '/', '.', '.'] <+: w) →
    ws.getLast? ≠ some ['/'] → Later (Spec.pathList ws)
  | [], h, _, _, _ => absurd rfl h
  | [w], _, h1, h2, h3 => by
    intro c hc
    rcases (later_tail (h1 w (by simp)) (h2 w (by simp))).1 c hc with h | h
    · exact absurd (by rw [h]; rfl) h3
    · exact h
  | w :: v :: ws, _, h1, h2, h3 => by
    have ih := later_pathList (ws := v :: ws) (by simp) (fun x hx => h1 x (by simp [hx])) (fun x hx => h2 x (by simp [hx]))
      (by rwa [List.getLast?_cons_cons] at h3)
    have hw := (later_tail (h1 w (by simp)) (h2 w (by simp))).2
    rw [pathList_cons (by simp)]
    obtain ⟨x, y, a1, a2, a3⟩ := comps_colon w (Spec.pathList (v :: ws))
    intro c hc
    rw [a3] at hc
    cases hd : (comps w).dropLast with
    | nil =>
      rw [hd] at hc
      exact ih c hc
    | cons z zs =>
      rw [hd] at hc hw
      rcases List.mem_append.1 hc with hc | hc
      · exact hw c hc
      · rcases List.mem_cons.1 hc with rfl | hc
        · exact plain_colon x y
        · exact ih c hc

/-- Full statement: the path object of a list of paths in clean form gives these paths.  Proved if no path after the first one starts with two
steps up, and the last of several paths is not the root; false otherwise (`C161_up_false`, `C161_root_false`). -/
theorem C161_list_partial (w : Str) (ws : List Str) (hc : ∀ x ∈ w :: ws, clean x = x ∧ ':' ∉ x)
    (hu : ∀ x ∈ ws, ¬ "../..".toList <+: x) (hl : ws.getLast? ≠ some "/".toList) :
    splitList (filePath (Spec.pathList (w :: ws))) = w :: ws := by
  have hkeep : filePath (Spec.pathList (w :: ws)) = Spec.pathList (w :: ws) := by
    unfold filePath
    by_cases h : ws = []
    · subst h; exact (hc w (by simp)).1
    · rw [pathList_cons h]
      exact clean_first (hc w (by simp)).1 (later_pathList h (fun x hx => (hc x (by simp [hx])).1) hu hl)
  rw [hkeep]
  refine (C161_parts _ ?_).2.2.2 _ (by simp) (fun x hx => (hc x hx).2) rfl
  rw [← hkeep]
  exact clean_ne_nil _

/-- A path object is never an empty list. -/
theorem C161_object (s : Str) : splitList (filePath s) ≠ [] := (C161_parts _ (clean_ne_nil s)).1

/-- The path object of a list takes a step up in one path as one out of the path before. -/
theorem C161_up_false : splitList (filePath "/usr/lib:../../bin".toList) = ["/usr/bin".toList] ∧
    splitList (filePath "a:../../bin".toList) = ["bin".toList] := by decide +kernel

/-- The root at the end of a list is lost: an empty path comes out, which stands for the working directory. -/
theorem C161_root_false : splitList (filePath "/usr:/".toList) = ["/usr".toList, []] := by decide +kernel

/-! ## Concrete cases -/

example : splitList "/bin::a:b/c".toList = ["/bin".toList, [], "a".toList, "b/c".toList] := by decide +kernel

/-- The hypotheses of `C161_list_partial`. -/
example : splitList (filePath (Spec.pathList ["../../x".toList, "/".toList, "../y".toList, ".".toList, "/usr/bin".toList])) =
    ["../../x".toList, "/".toList, "../y".toList, ".".toList, "/usr/bin".toList] :=
  C161_list_partial _ _ (by decide +kernel) (by decide +kernel) (by decide +kernel)

end Verif.Path
