import Verif.Lemmas.Path
/-!
# Paths: C82-C90
-/

set_option linter.unusedSectionVars false

namespace Verif.Path
open Verif.Spec

/-! ## C82: the canonical form -/

/-- **C82** A file path object leads where the text it was made from leads, from every working directory; making it again
changes nothing; and two texts give the same object exactly when they lead to the same place from everywhere (and are both
absolute or both relative). -/
theorem C82_canonical (s t : Str) :
    (∀ cwd, resolve cwd (filePath s) = resolve cwd s) ∧ filePath (filePath s) = filePath s ∧
    rooted (filePath s) = rooted s ∧
    (filePath s = filePath t ↔ rooted s = rooted t ∧ ∀ cwd, resolve cwd s = resolve cwd t) := by
  refine ⟨fun cwd => resolve_clean cwd s, clean_clean s, rooted_clean s, fun h => ?_, fun h => clean_inj h.1 h.2⟩
  unfold filePath at h
  refine ⟨by rw [← rooted_clean s, h, rooted_clean], fun cwd => ?_⟩
  rw [← resolve_clean cwd s, h, resolve_clean]

/-- A component of a canonical path is a name or a step up, with the steps up all at the front; the exceptions are "." and
the empty components of "/". -/
theorem C82_components (s : Str) :
    ∃ (k : Nat) (names : List Str), (∀ x ∈ names, x ≠ [] ∧ x ≠ ".".toList ∧ x ≠ "..".toList ∧ '/' ∉ x) ∧
      filePath s =
        if rooted s then '/' :: joinSlash names
        else if k = 0 ∧ names = [] then ".".toList
        else joinSlash (List.replicate k "..".toList ++ names) := by
  refine ⟨(form s).1, (form s).2.reverse, fun x hx => form_names s x (List.mem_reverse.1 hx), ?_⟩
  unfold filePath
  rw [clean_eq, render]
  cases hb : rooted s with
  | true => simp [outOf, form_rooted s hb]
  | false =>
    simp only [Bool.false_eq_true, if_false, outOf, List.append_eq_nil_iff, List.replicate_eq_nil_iff,
      List.reverse_append, List.reverse_replicate, List.reverse_eq_nil_iff]
    have : ((form s).2 = [] ∧ (form s).1 = 0) ↔ ((form s).1 = 0 ∧ (form s).2 = []) := and_comm
    simp only [this]
    rfl

example : filePath "a//b/../../../c/.".toList = "../c".toList ∧ filePath "/../x/".toList = "/x".toList ∧
    filePath [] = ".".toList := by decide

/-! ## C83: joining -/

/-- **C83** Joining: leading empty elements are skipped; then one goes where the first element leads and from there down
through the others, whether or not those start with a slash. -/
theorem C83_joins (es : List Str) (cwd : List Str) :
    filePath (joins es) = joins es ∧
    resolve cwd (joins es) =
      match es.dropWhile (· = []) with
      | [] => cwd
      | e :: rest => rest.foldl descend (resolve cwd e) := by
  refine ⟨clean_clean _, ?_⟩
  induction es with
  | nil => rfl
  | cons e es ih =>
    by_cases h : e = []
    · subst h; rw [joins_nil_cons]; simpa using ih
    · rw [List.dropWhile_cons_of_neg (by simpa using h)]
      exact resolve_joins cwd h es

/-- **C83** For relative elements: joining is following one after the other. -/
theorem C83_relative (e : Str) (rest : List Str) (cwd : List Str) (he : e ≠ []) (h : ∀ x ∈ rest, rooted x = false) :
    resolve cwd (joins (e :: rest)) = rest.foldl resolve (resolve cwd e) := by
  rw [resolve_joins cwd he]
  generalize resolve cwd e = d
  induction rest generalizing d with
  | nil => rfl
  | cons x rest ih =>
    rw [List.foldl_cons, List.foldl_cons, resolve_of_not_rooted d (h x (by simp))]
    exact ih (fun y hy => h y (by simp [hy])) _

/-- **C83** Joining to a path object goes where the object leads and from there down through the elements. -/
theorem C83_joins_after (me : Str) (es : List Str) (child : Str) (cwd : List Str) :
    resolve cwd (joinsAfter (filePath me) es) = es.foldl descend (resolve cwd me) ∧
    resolve cwd (joinChild (filePath me) child) = descend (resolve cwd me) child := by
  have h : filePath me ≠ [] := clean_ne_nil me
  have hm : resolve cwd (filePath me) = resolve cwd me := resolve_clean cwd me
  constructor
  · rw [joinsAfter, resolve_joins cwd h, hm]
  · rw [joinChild, resolve_joins cwd h, hm]; rfl

example : joinsAfter (filePath "/a//b".toList) ["..".toList, "/c".toList] = "/a/c".toList := by decide

/-- **C83** Joining in two steps is joining at once. -/
theorem C83_assoc (a b c : Str) (ha : a ≠ []) : joins [joins [a, b], c] = joins [a, b, c] := by
  have h1 : joins [a, b] ≠ [] := clean_ne_nil _
  rw [joins_cons h1, joins_cons ha [b, c]]
  apply clean_inj
  · rw [rooted_joinSlash h1, rooted_joinSlash ha, rooted_joins ha]
  · intro cwd
    rw [resolve_joinSlash cwd h1, resolve_joinSlash cwd ha, resolve_joins cwd ha]
    rfl

example : joins ["a".toList, "/b/../c".toList, "..".toList] = "a".toList ∧
    joins [[], "/x".toList, "y".toList] = "/x/y".toList := by decide

/-! ## C84: relative paths -/

theorem rooted_replicate (k : Nat) (l : List Str) (h : ∀ x ∈ l, Name x) : rooted (render false (k, l)) = false :=
  rooted_render false (k, l) h

theorem resolve_render (d : List Str) (k : Nat) (l : List Str) (h : ∀ x ∈ l, Name x) :
    resolve d (render false (k, l)) = d.take (d.length - k) ++ l.reverse := by
  rw [resolve_form, rooted_render false (k, l) h, form_render false (k, l) h (by simp)]
  simp

/-- What `Relate` gives when the library finds a path, or finds none. -/
theorem relateTo_some (R : RelFn) (me root : Str)
    (h : ∃ s, rooted s = false ∧ ∀ cwd, resolve (resolve cwd root) s = resolve cwd me) :
    rooted (relateTo R me root) = false ∧ ∀ cwd, resolve (resolve cwd root) (relateTo R me root) = resolve cwd me := by
  obtain ⟨s, hs, hr⟩ := h
  have hc := R.complete root me s hs hr
  unfold relateTo filePath
  cases e : R.rel root me with
  | none => exact absurd e hc
  | some t =>
    have := R.sound root me t e
    exact ⟨by rw [rooted_clean]; exact this.1, fun cwd => by rw [resolve_clean]; exact this.2 cwd⟩

theorem relateTo_none (R : RelFn) (me root : Str)
    (h : ¬ ∃ s, rooted s = false ∧ ∀ cwd, resolve (resolve cwd root) s = resolve cwd me) :
    relateTo R me root = ".".toList := by
  unfold relateTo filePath
  cases e : R.rel root me with
  | none => rfl
  | some t => exact absurd ⟨t, R.sound root me t e⟩ h

theorem relate_eq (R : RelFn) (me root : Str) : relate R me root = relateTo R me (filePath root) := rfl

theorem exists_rel_abs (me root : Str) (h1 : rooted me = true) (h2 : rooted root = true) :
    ∃ s, rooted s = false ∧ ∀ cwd, resolve (resolve cwd root) s = resolve cwd me := by
  refine ⟨render false ((form root).2.length, (form me).2), rooted_replicate _ _ (form_names me), fun cwd => ?_⟩
  rw [resolve_render _ _ _ (form_names me), resolve_form, resolve_form, h1, h2]
  simp

theorem exists_rel_below (me root : Str) (h1 : rooted me = false) (h2 : rooted root = false)
    (hb : ∀ cwd, cwd <+: resolve cwd root) :
    ∃ s, rooted s = false ∧ ∀ cwd, resolve (resolve cwd root) s = resolve cwd me := by
  have hk : (form root).1 = 0 := by
    have := hb [[]]
    rw [resolve_form, h2] at this
    by_contra hne
    have e : [([] : Str)].take ([([] : Str)].length - (form root).1) = [] := by
      rw [List.length_singleton, Nat.sub_eq_zero_of_le (by omega)]; rfl
    simp only [Bool.false_eq_true, if_false, e, List.nil_append] at this
    have hm : ([] : Str) ∈ (form root).2.reverse := this.subset (by simp)
    exact (form_names root [] (List.mem_reverse.1 hm)).1 rfl
  refine ⟨render false ((form me).1 + (form root).2.length, (form me).2), rooted_replicate _ _ (form_names me),
    fun cwd => ?_⟩
  rw [resolve_render _ _ _ (form_names me), resolve_form, resolve_form, h1, h2, hk]
  simp only [Bool.false_eq_true, if_false, Nat.sub_zero, List.take_length, List.length_append, List.length_reverse]
  congr 1
  rw [show cwd.length + (form root).2.length - ((form me).1 + (form root).2.length) = cwd.length - (form me).1 by omega]
  exact List.take_append_of_le_length (by omega)

/-- **C84** (partial: only for two absolute paths, or two relative ones the second of which stays below the working
directory; see `C84_false` for the rest) The relative path leads from the root given to the path itself.  This is
`Relate`; the same holds for the paths relative to the working directory and to the Go path (`relateTo`). -/
theorem C84_relate_partial (R : RelFn) (me root : Str)
    (h : (rooted me = true ∧ rooted root = true) ∨
      (rooted me = false ∧ rooted root = false ∧ ∀ cwd, cwd <+: resolve cwd root)) :
    (rooted (relate R me root) = false ∧
      ∀ cwd, resolve (resolve cwd root) (relate R me root) = resolve cwd me) ∧
    (rooted (relateTo R me root) = false ∧
      ∀ cwd, resolve (resolve cwd root) (relateTo R me root) = resolve cwd me) := by
  have hex : ∃ s, rooted s = false ∧ ∀ cwd, resolve (resolve cwd root) s = resolve cwd me := by
    rcases h with h | h
    · exact exists_rel_abs me root h.1 h.2
    · exact exists_rel_below me root h.1 h.2.1 h.2.2
  refine ⟨?_, relateTo_some R me root hex⟩
  have hex' : ∃ s, rooted s = false ∧ ∀ cwd, resolve (resolve cwd (filePath root)) s = resolve cwd me := by
    simpa only [filePath, resolve_clean] using hex
  have := relateTo_some R me (filePath root) hex'
  rw [relate_eq]
  simpa only [filePath, resolve_clean] using this

/-- **C84** In general the property is false: when there is no relative path for certain the error is dropped and the
result is ".", as if the path were the root given.  This is so whenever one path is absolute and the other is not. -/
theorem C84_false (R : RelFn) (me root : Str) (h : rooted me ≠ rooted root) :
    relate R me root = ".".toList ∧ relateTo R me root = ".".toList ∧
    ∀ cwd, resolve (resolve cwd root) (relate R me root) = resolve cwd root := by
  have hno : ¬ ∃ s, rooted s = false ∧ ∀ cwd, resolve (resolve cwd root) s = resolve cwd me := by
    rintro ⟨s, hs, hr⟩
    cases hm : rooted me with
    | true =>
      have hb : rooted root = false := by cases e : rooted root <;> simp_all
      have a := congrArg List.length (hr (List.replicate ((form root).1 + (form s).1) []))
      have b := congrArg List.length (hr (List.replicate ((form root).1 + (form s).1 + 1) []))
      rw [resolve_form _ s, hs, resolve_form _ me, hm, resolve_form, hb] at a b
      simp at a b
      omega
    | false =>
      have hb : rooted root = true := by cases e : rooted root <;> simp_all
      have a := congrArg List.length (hr (List.replicate (form me).1 []))
      have b := congrArg List.length (hr (List.replicate ((form me).1 + 1) []))
      rw [resolve_form _ s, hs, resolve_form _ me, hm, resolve_form, hb] at a b
      simp at a b
      omega
  have hno' : ¬ ∃ s, rooted s = false ∧ ∀ cwd, resolve (resolve cwd (filePath root)) s = resolve cwd me := by
    simpa only [filePath, resolve_clean] using hno
  have e : relate R me root = ".".toList := by rw [relate_eq]; exact relateTo_none R me _ hno'
  refine ⟨e, relateTo_none R me root hno, fun cwd => ?_⟩
  rw [e]; rfl

/-- There is a function as the library documents it. -/
noncomputable def someRel : RelFn where
  rel b t := by
    classical
    exact if h : ∃ s, rooted s = false ∧ ∀ cwd, resolve (resolve cwd b) s = resolve cwd t then some h.choose else none
  sound b t s h := by
    split_ifs at h with hx
    obtain rfl : hx.choose = s := by simpa using h
    exact hx.choose_spec
  complete b t s h1 h2 := by
    rw [dif_pos ⟨s, h1, h2⟩]; simp

example : resolve (resolve [] "/a/b".toList) (relate someRel "/a/c".toList "/a/b".toList) = ["a".toList, "c".toList] ∧
    relate someRel "/a".toList "b".toList = ".".toList :=
  ⟨((C84_relate_partial someRel _ _ (.inl ⟨rfl, rfl⟩)).1.2 []).trans (by decide), (C84_false someRel _ _ (by decide)).1⟩

/-! ## C88: directory and last element -/

theorem split_unique (a w : Str) (ha : a = [] ∨ ∃ b, a = b ++ ['/']) (hw : '/' ∉ w) : split (a ++ w) = (a, w) := by
  have key : ((a ++ w).reverse.takeWhile (· ≠ '/')) = w.reverse := by
    rw [List.reverse_append]
    rcases ha with rfl | ⟨b, rfl⟩
    · rw [List.reverse_nil, List.append_nil, List.takeWhile_eq_self_iff]
      intro x hx
      have : x ≠ '/' := fun e => hw (by rw [← e]; exact List.mem_reverse.1 hx)
      simpa using this
    · rw [List.takeWhile_append_of_pos]
      · simp
      · intro x hx
        have : x ≠ '/' := fun e => hw (by rw [← e]; exact List.mem_reverse.1 hx)
        simpa using this
  unfold split
  rw [key]
  simp

theorem joinSlash_snoc (ws : List Str) (w : Str) :
    joinSlash (ws ++ [w]) = (if ws = [] then [] else joinSlash ws ++ ['/']) ++ w := by
  induction ws with
  | nil => rfl
  | cons v ws ih =>
    cases ws with
    | nil => simp [joinSlash]
    | cons u us =>
      have e1 : joinSlash (v :: u :: us ++ [w]) = v ++ '/' :: joinSlash (u :: us ++ [w]) := rfl
      have e2 : joinSlash (v :: u :: us) = v ++ '/' :: joinSlash (u :: us) := rfl
      rw [e1, ih, if_neg (by simp), if_neg (by simp), e2]
      simp

/-- A canonical path is "/", ".", or something that is empty or ends with a slash, followed by a last component. -/
theorem clean_shape (s : Str) : clean s = ['/'] ∨ clean s = ['.'] ∨
    ∃ a w, clean s = a ++ w ∧ (a = [] ∨ ∃ b, a = b ++ ['/']) ∧ '/' ∉ w ∧ w ≠ [] ∧
      ((form s).2 ≠ [] → Name w ∧ (form s).2.head? = some w) ∧ (rooted s = true → a ≠ []) := by
  rw [clean_eq]
  have hc := outOf_comp _ (form_names s)
  unfold render
  cases ho : outOf (form s) with
  | nil => cases rooted s <;> simp [joinSlash]
  | cons w os =>
    rw [ho] at hc
    have hw := hc w (by simp)
    have hname : (form s).2 ≠ [] → Name w ∧ (form s).2.head? = some w := by
      intro hne
      cases hf : (form s).2 with
      | nil => exact absurd hf hne
      | cons x r =>
        have : x = w := by
          unfold outOf at ho
          rw [hf] at ho
          simpa using (List.cons.inj ho).1
        subst this
        exact ⟨form_names s x (by rw [hf]; simp), rfl⟩
    right; right
    rw [List.reverse_cons, joinSlash_snoc]
    cases rooted s with
    | true =>
      by_cases ho : os.reverse = []
      · exact ⟨['/'], w, by simp [ho], .inr ⟨[], rfl⟩, hw.2, hw.1, hname, by simp⟩
      · exact ⟨'/' :: (joinSlash os.reverse ++ ['/']), w, by simp [ho], .inr ⟨'/' :: joinSlash os.reverse, rfl⟩, hw.2,
          hw.1, hname, by simp⟩
    | false =>
      by_cases ho : os.reverse = []
      · exact ⟨[], w, by simp [ho], .inl rfl, hw.2, hw.1, hname, by simp⟩
      · exact ⟨joinSlash os.reverse ++ ['/'], w, by simp [ho], .inr ⟨_, rfl⟩, hw.2, hw.1, hname, by simp⟩

theorem base_eq (a w : Str) (ha : a = [] ∨ ∃ b, a = b ++ ['/']) (hw : '/' ∉ w) (hne : w ≠ []) :
    base (a ++ w) = w ∧ dir (a ++ w) = clean a := by
  have hs : stripSlashes (a ++ w) = a ++ w := by
    unfold stripSlashes
    rw [List.reverse_append]
    obtain ⟨c, r, hr⟩ := List.exists_cons_of_ne_nil (fun e => hne (List.reverse_eq_nil_iff.1 e) : w.reverse ≠ [])
    have hc : c ≠ '/' := fun e => hw (by rw [← e]; exact List.mem_reverse.1 (by rw [hr]; simp))
    rw [hr, List.cons_append, List.dropWhile_cons_of_neg (by simpa using hc), ← List.cons_append, ← hr,
      ← List.reverse_append, List.reverse_reverse]
  unfold base dir
  rw [if_neg (by simp [hne]), split_unique a w ha hw, hs]
  simp only [split_unique a w ha hw, if_neg hne]
  exact ⟨trivial, trivial⟩

/-- **C88** Joining the directory and the last element of a file path object gives the object again. -/
theorem C88_dir_base (s : Str) : joins [dir (filePath s), base (filePath s)] = filePath s := by
  unfold filePath
  rcases clean_shape s with h | h | ⟨a, w, h, ha, hw, hne, -, -⟩
  · rw [h]; decide
  · rw [h]; decide
  · obtain ⟨hb, hd⟩ := base_eq a w ha hw hne
    have hcl : clean (a ++ w) = a ++ w := by rw [← h, clean_clean]
    rw [h, hb, hd, joins_cons (clean_ne_nil a), ← hcl]
    apply clean_inj
    · rw [rooted_joinSlash (clean_ne_nil a), rooted_clean]
      rcases ha with rfl | ⟨b, rfl⟩
      · cases w with
        | nil => rfl
        | cons c w =>
          simp only [List.mem_cons, not_or] at hw
          simp [rooted, Ne.symm hw.1]
      · rw [rooted_append (a := b ++ ['/']) (by simp)]
    · intro cwd
      rw [resolve_joinSlash cwd (clean_ne_nil a), resolve_append_last cwd a w ha hw]
      simp only [List.foldl_cons, List.foldl_nil, resolve_clean]
      unfold descend
      rw [comps_noslash w hw]
      rfl

/-- **C88** An absolute path other than the root leads to its last element inside its directory; the directory of the root
is the root, and so is its last element. -/
theorem C88_parent (s : Str) (cwd : List Str) (hr : rooted s = true) :
    (resolve cwd s ≠ [] → resolve cwd s = resolve cwd (dir (filePath s)) ++ [base (filePath s)]) ∧
    (resolve cwd s = [] → dir (filePath s) = "/".toList ∧ base (filePath s) = "/".toList) := by
  unfold filePath
  have hrs : resolve cwd s = (form s).2.reverse := by rw [resolve_form, hr]; rfl
  constructor
  · intro h
    have hf : (form s).2 ≠ [] := fun e => h (by rw [hrs, e]; rfl)
    rcases clean_shape s with h | h | ⟨a, w, h, ha, hw, hne, hn, -⟩
    · exact absurd (by rw [← resolve_clean, h]; rfl) ‹resolve cwd s ≠ []›
    · have := rooted_clean s
      rw [h, hr] at this
      exact absurd this (by decide)
    · obtain ⟨hb, hd⟩ := base_eq a w ha hw hne
      have hN := (hn hf).1
      rw [h, hb, hd, resolve_clean, ← resolve_clean cwd s, h, resolve_append_last cwd a w ha hw, walk1,
        if_neg (by simp [hN.1, hN.2.1]), if_neg hN.2.2.1]
  · intro h
    have hf : (form s).2 = [] := List.reverse_eq_nil_iff.1 (by rw [← hrs]; exact h)
    have : clean s = ['/'] := by
      rw [clean_eq, hr, render, outOf, hf, form_rooted s hr]; rfl
    rw [this]; decide

example : dir (filePath "/a/b//c".toList) = "/a/b".toList ∧ base (filePath "/a/b//c".toList) = "c".toList ∧
    dir (filePath "../..".toList) = "..".toList := by decide

/-- **C88** `Split` cuts a path, canonical or not, behind its last slash, and in no other way; `FileName` is the part
behind, the last component of the path. -/
theorem C88_split (s a w : Str) :
    (split s = (a, w) ↔ s = a ++ w ∧ '/' ∉ w ∧ (a = [] ∨ ∃ b, a = b ++ "/".toList)) ∧
    (comps s).getLast? = some (fileName s) := by
  constructor
  · constructor
    · intro h
      have := split_spec s
      rw [h] at this
      exact ⟨this.1.symm, this.2⟩
    · rintro ⟨rfl, hw, ha⟩
      exact split_unique a w ha hw
  · obtain ⟨h1, h2, h3⟩ := split_spec s
    unfold fileName
    generalize (split s).1 = a at *
    generalize (split s).2 = w at *
    subst h1
    rcases h3 with rfl | ⟨b, rfl⟩
    · rw [List.nil_append, comps_noslash w h2]; rfl
    · rw [List.append_assoc, List.singleton_append, comps_append, comps_noslash w h2]; simp

/-- **C88** Of a file path object other than the root `FileName` is the last element. -/
theorem C88_fileName (s : Str) :
    fileName (filePath s) = if filePath s = "/".toList then [] else base (filePath s) := by
  unfold filePath
  rcases clean_shape s with h | h | ⟨a, w, h, ha, hw, hne, -, -⟩
  · rw [h]; decide
  · rw [h]; decide
  · have hb := (base_eq a w ha hw hne).1
    rw [h, hb, if_neg]
    · unfold fileName; rw [split_unique a w ha hw]
    · intro e
      have hm : '/' ∉ w := hw
      obtain ⟨c, r, hr⟩ := List.exists_cons_of_ne_nil (fun e => hne (List.reverse_eq_nil_iff.1 e) : w.reverse ≠ [])
      have h2 := congrArg (fun l => l.reverse.head?) e
      simp only [List.reverse_append, hr] at h2
      have : c = '/' := by simpa using h2
      exact hm (List.mem_reverse.1 (by rw [hr, this]; simp))

/-- **C88** `Ext` is what follows the last dot of the last component, with the dot, or nothing if there is no dot. -/
theorem C88_ext (s : Str) :
    ('.' ∉ fileName s → ext s = []) ∧
    ('.' ∈ fileName s → ∃ stem e, fileName s = stem ++ '.' :: e ∧ '.' ∉ e ∧ ext s = '.' :: e) := by
  obtain ⟨h1, h2, h3⟩ := split_spec s
  unfold fileName ext
  generalize (split s).1 = a at *
  generalize (split s).2 = w at *
  subst h1
  simp only [List.reverse_append]
  have hn : ∀ l : Str, '.' ∉ l → '/' ∉ l → ∀ x ∈ l, decide (x ≠ '/' ∧ x ≠ '.') = true := by
    intro l hd hs x hx
    exact decide_eq_true ⟨fun e => hs (e ▸ hx), fun e => hd (e ▸ hx)⟩
  constructor
  · intro hd
    rw [List.takeWhile_append_of_pos (hn _ (by simpa using hd) (by simpa using h2))]
    rw [if_neg]
    rcases h3 with rfl | ⟨b, rfl⟩ <;> simp
  · intro hd
    obtain ⟨e, stem, hr, he⟩ : ∃ e stem, w.reverse = e ++ '.' :: stem ∧ '.' ∉ e := by
      have : '.' ∈ w.reverse := List.mem_reverse.2 hd
      obtain ⟨e, stem, h, h'⟩ := List.eq_append_cons_of_mem this
      exact ⟨e, stem, h, h'⟩
    have hes : '/' ∉ e := fun h => h2 (List.mem_reverse.1 (by rw [hr]; simp [h]))
    refine ⟨stem.reverse, e.reverse, ?_, by simpa using he, ?_⟩
    · rw [← List.reverse_reverse w, hr]; simp
    · rw [hr, List.append_assoc, List.takeWhile_append_of_pos (hn _ he hes)]
      simp

example : split "/a/b.tar.gz".toList = ("/a/".toList, "b.tar.gz".toList) ∧ ext "/a/b.tar.gz".toList = ".gz".toList ∧
    ext "/a.b/c".toList = [] ∧ fileName "/a/".toList = [] := by decide

/-! ## C85, C86: renaming and moving -/

theorem renameTo_eq (me dest : Str) : renameTo me dest = joins [dir me, filePath dest] := by
  unfold renameTo relateThisPath
  simp only [volumeName, if_true]
  exact clean_clean _

theorem dir_ne_nil (me : Str) : dir me ≠ [] := clean_ne_nil _

theorem resolve_renameTo (cwd : List Str) (me dest : Str) :
    resolve cwd (renameTo me dest) = descend (resolve cwd (dir me)) (filePath dest) := by
  rw [renameTo_eq, resolve_joins cwd (dir_ne_nil me)]; rfl

/-- **C85** (partial: relative names only; see `C85_false`) A new name that is not absolute is taken from the directory of
the path. -/
theorem C85_rename_partial (cwd : List Str) (me dest : Str) (h : rooted dest = false) :
    resolve cwd (renameTo me dest) = resolve (resolve cwd (dir me)) dest := by
  rw [resolve_renameTo, ← resolve_of_not_rooted _ (by rw [filePath, rooted_clean]; exact h), filePath, resolve_clean]

theorem descend_rooted (d : List Str) (s : Str) (h : rooted s = true) : descend d (clean s) = d ++ resolve [] s := by
  rw [resolve_form, h, clean_eq, h]
  have : (form s).1 = 0 := form_rooted s h
  have hn := form_names s
  unfold descend render
  simp only [if_true, outOf, this, List.replicate_zero, List.append_nil, List.nil_append]
  rw [comps, if_pos rfl, List.foldl_cons]
  have e0 : walk1 d [] = d := by simp [walk1]
  rw [e0]
  have hw : ∀ (l : List Str) (d : List Str), (∀ x ∈ l, Name x) → l.foldl walk1 d = d ++ l := by
    intro l
    induction l with
    | nil => simp
    | cons x l ih =>
      intro d hl
      have hx := hl x (by simp)
      rw [List.foldl_cons, ih _ (fun y hy => hl y (by simp [hy])), walk1, if_neg (by simp [hx.1, hx.2.1]),
        if_neg hx.2.2.1]
      simp
  by_cases he : (form s).2.reverse = []
  · rw [he]; simp [joinSlash, comps, walk1]
  · rw [comps_joinSlash _ (fun w hw => (hn w (List.mem_reverse.1 hw)).2.2.2) he]
    exact hw _ _ fun x hx => hn x (List.mem_reverse.1 hx)

/-- **C85** The property is false for absolute names on Unix: the name is taken from the directory of the path all the
same, so the target is right only when that directory is the root. -/
theorem C85_false (cwd : List Str) (me dest : Str) (h : rooted dest = true) :
    resolve cwd (renameTo me dest) = resolve cwd (dir me) ++ resolve cwd dest ∧
    (resolve cwd (renameTo me dest) = resolve cwd dest ↔ resolve cwd (dir me) = []) := by
  have e : resolve cwd (renameTo me dest) = resolve cwd (dir me) ++ resolve cwd dest := by
    rw [resolve_renameTo, filePath, descend_rooted _ _ h, resolve_of_rooted [] h, resolve_of_rooted cwd h]
  refine ⟨e, ?_⟩
  rw [e]
  constructor
  · intro h
    have := congrArg List.length h
    rw [List.length_append] at this
    exact List.eq_nil_of_length_eq_zero (by omega)
  · intro h; rw [h]; rfl

example : renameTo "/a/b".toList "c".toList = "/a/c".toList ∧ renameTo "/a/b".toList "/c".toList = "/a/c".toList := by
  decide

/-- **C86** The property is false: moving takes the destination from the directory of the path twice.  For an absolute path
the target is the directory followed by what `Rename` would use, which is right only in the root. -/
theorem C86_false (cwd : List Str) (me dest : Str) (h : rooted me = true) :
    ∃ t, moveTo me dest = some t ∧ resolve cwd t = resolve cwd (dir me) ++ resolve cwd (renameTo me dest) ∧
      (resolve cwd t = resolve cwd (renameTo me dest) ↔ resolve cwd (dir me) = []) := by
  have hd : rooted (dir me) = true := by
    unfold dir
    rw [rooted_clean]
    obtain ⟨h1, h2, h3⟩ := split_spec me
    rcases h3 with h3 | ⟨b, h3⟩
    · rw [h3, List.nil_append] at h1
      rw [h1] at h2
      cases me with
      | nil => exact absurd h (by decide)
      | cons c me =>
        simp only [List.mem_cons, not_or] at h2
        simp [rooted, Ne.symm h2.1] at h
    · rw [← h1, rooted_append (by rw [h3]; simp)] at h
      exact h
  have hn : rooted (renameTo me dest) = true := by rw [renameTo_eq, rooted_joins (dir_ne_nil me), hd]
  refine ⟨renameTo me (renameTo me dest), rfl, ?_⟩
  exact C85_false cwd me _ hn

/-- **C86** (partial: only for paths directly in the root or in the working directory) Moving goes where renaming goes. -/
theorem C86_move_partial (me dest : Str) (h : dir me = "/".toList ∨ dir me = ".".toList) :
    moveTo me dest = some (renameTo me dest) := by
  have e : moveTo me dest = some (renameTo me (renameTo me dest)) := rfl
  rw [e]
  congr 1
  rw [renameTo_eq me (renameTo me dest), joins_cons (dir_ne_nil me)]
  have hc : clean (renameTo me dest) = renameTo me dest := by rw [renameTo_eq]; exact clean_clean _
  have hr : rooted (renameTo me dest) = rooted (dir me) := by rw [renameTo_eq, rooted_joins (dir_ne_nil me)]
  conv => rhs; rw [← hc]
  apply clean_inj
  · rw [rooted_joinSlash (dir_ne_nil me), hr]
  · intro cwd
    rw [resolve_joinSlash cwd (dir_ne_nil me), filePath, hc]
    simp only [List.foldl_cons, List.foldl_nil]
    rcases h with h | h
    · rw [h] at hr ⊢
      rw [resolve_of_rooted cwd (hr.trans rfl)]
      rfl
    · rw [h] at hr ⊢
      rw [resolve_of_not_rooted cwd (hr.trans rfl)]
      rfl

/-- **C86** Copying is not written: it reports success and an empty path. -/
theorem C86_copy_false (me dest : Str) : copyTo me dest = ([], false) := rfl

example : moveTo "/a/b".toList "c".toList = some "/a/a/c".toList ∧ moveTo "/b".toList "c".toList = some "/c".toList := by
  decide

/-! ## C87: prefixes -/

theorem joinSlash_prefix (a b : List Str) : joinSlash a <+: joinSlash (a ++ b) := by
  induction a with
  | nil => simp [joinSlash]
  | cons w a ih =>
    cases a with
    | nil =>
      cases b with
      | nil => exact List.prefix_rfl
      | cons v b => exact ⟨'/' :: joinSlash (v :: b), rfl⟩
    | cons u us =>
      have e1 : joinSlash (w :: u :: us) = w ++ '/' :: joinSlash (u :: us) := rfl
      have e2 : joinSlash (w :: u :: us ++ b) = w ++ '/' :: joinSlash (u :: us ++ b) := rfl
      rw [e1, e2]
      exact (List.prefix_append_right_inj _).2 ((List.prefix_cons_inj _).2 ih)

/-- **C87** (partial: one direction, for absolute paths) A directory above a path is a prefix of it. -/
theorem C87_prefix_partial (p q : Str) (hp : rooted p = true) (hq : rooted q = true)
    (h : ∀ cwd, resolve cwd p <+: resolve cwd q) : hasPrefix (filePath q) p = true := by
  unfold hasPrefix filePath
  rw [List.isPrefixOf_iff_prefix, clean_eq, clean_eq, hp, hq]
  have h := h []
  rw [resolve_form, resolve_form, hp, hq] at h
  simp only [if_true, List.nil_append] at h
  obtain ⟨r, hr⟩ := h
  simp only [render, if_true, outOf, form_rooted p hp, form_rooted q hq, List.replicate_zero, List.append_nil]
  rw [← hr]
  exact (List.prefix_cons_inj _).2 (joinSlash_prefix _ _)

/-- **C87** The other direction is false: a prefix of the text need not be above the path.  Adding a letter to any absolute
path but the root gives a path that is said to be below it and is not. -/
theorem C87_false (p : Str) (c : Char) (hp : rooted p = true) (hne : filePath p ≠ "/".toList) (hc : c ≠ '/') (cwd : List Str) :
    hasPrefix (filePath (filePath p ++ [c])) p = true ∧
    ¬ resolve cwd p <+: resolve cwd (filePath p ++ [c]) := by
  unfold filePath at *
  have hfn : (form p).2 ≠ [] := by
    intro e
    apply hne
    rw [clean_eq, hp, render, outOf, e, form_rooted p hp]; rfl
  have hN : ∀ w, Name w → Name (w ++ [c]) := by
    intro w hw
    refine ⟨by simp, ?_, ?_, ?_⟩
    · intro e
      have := congrArg List.length e
      simp at this
      exact hw.1 this
    · intro e
      have e' : w ++ [c] = ['.'] ++ ['.'] := e
      exact hw.2.1 (List.append_inj_left' e' rfl)
    · simp only [List.mem_append, List.mem_singleton, not_or]
      exact ⟨hw.2.2.2, fun e => hc e.symm⟩
  rcases clean_shape p with h | h | ⟨a, w, h, ha, hw, hwne, hn, har⟩
  · exact absurd h hne
  · have := rooted_clean p
    rw [h, hp] at this
    exact absurd this (by decide)
  · have hw1 := (hn hfn).1
    have hwc := hN w hw1
    have e : clean p ++ [c] = a ++ (w ++ [c]) := by rw [h]; simp
    have r1 : resolve cwd p = resolve cwd a ++ [w] := by
      rw [← resolve_clean, h, resolve_append_last cwd a w ha hw, walk1, if_neg (by simp [hw1.1, hw1.2.1]),
        if_neg hw1.2.2.1]
    have r2 : ∀ cwd, resolve cwd (clean p ++ [c]) = resolve cwd a ++ [w ++ [c]] := by
      intro cwd
      rw [e, resolve_append_last cwd a _ ha hwc.2.2.2, walk1, if_neg (by simp [hwc.2.1]), if_neg hwc.2.2.1]
    constructor
    · -- the text with one more letter is canonical
      have hcl : clean (clean p ++ [c]) = clean p ++ [c] := by
        have hrt : rooted (clean p ++ [c]) = true := by
          rw [rooted_append (clean_ne_nil p), rooted_clean, hp]
        obtain ⟨x, r, hxr⟩ := List.exists_cons_of_ne_nil hfn
        have hwx : x = w := by
          have := (hn hfn).2
          rw [hxr] at this
          simpa using this
        subst hwx
        have hf : (form (clean p ++ [c])).2 = (x ++ [c]) :: r := by
          have a1 := r2 []
          have a2 : resolve [] p = resolve [] a ++ [x] := by
            rw [← resolve_clean, h, resolve_append_last [] a x ha hw, walk1, if_neg (by simp [hw1.1, hw1.2.1]),
              if_neg hw1.2.2.1]
          rw [resolve_form, hrt] at a1
          rw [resolve_form, hp, hxr] at a2
          simp only [if_true, List.nil_append, List.reverse_cons] at a1 a2
          have a3 : r.reverse = resolve [] a := List.append_inj_left' a2 rfl
          have := congrArg List.reverse a1
          rw [← a3] at this
          simpa using this
        have e1 : clean p = '/' :: joinSlash (r.reverse ++ [x]) := by
          rw [clean_eq, hp]
          simp only [render, if_true, outOf, form_rooted p hp, hxr, List.replicate_zero, List.append_nil,
            List.reverse_cons]
        rw [clean_eq, hrt]
        simp only [render, if_true, outOf, form_rooted _ hrt, hf, List.replicate_zero, List.append_nil,
          List.reverse_cons]
        rw [e1, joinSlash_snoc, joinSlash_snoc]
        simp
      unfold hasPrefix filePath
      rw [List.isPrefixOf_iff_prefix, hcl]
      exact List.prefix_append _ _
    · rw [r1, r2 cwd]
      intro hpre
      have := (List.prefix_append_right_inj _).1 hpre
      have hx := this.subset (List.mem_singleton.2 rfl)
      have := congrArg List.length (List.mem_singleton.1 hx)
      simp at this

example : hasPrefix (filePath "/a/b/c".toList) "/a/b/".toList = true ∧ hasPrefix "/a/bc".toList "/a/b".toList = true ∧
    hasPrefix (filePath "a/b".toList) ".".toList = false := by decide

/-! ## C89: Create -/

/-- **C89** The property (Create makes what was asked for) is false: if the path can be opened it never returns; if it
cannot, it reports success at once, without having created anything. -/
theorem C89_false : (∀ fuel, create true fuel = none) ∧ ∀ fuel, create false (fuel + 1) = some false := by
  refine ⟨fun fuel => ?_, fun fuel => rfl⟩
  induction fuel with
  | zero => rfl
  | succ n ih => rw [create, if_pos rfl, ih]

/-! ## C90: the Go path -/

theorem takeWhile_all (env : Str) (h : ';' ∉ env) : env.takeWhile (· ≠ ';') = env := by
  rw [List.takeWhile_eq_self_iff]
  intro x hx
  have : x ≠ ';' := fun e => h (e ▸ hx)
  simpa using this

/-- **C90** (partial: exactly what is computed; the first entry of the list only when there is one entry, see `C90_false`)
The Go path is the directory "src" in the directory the variable names, if it has neither several entries nor a
semicolon. -/
theorem C90_gopath_partial (env : Str) (h : ';' ∉ env) (hne : env ≠ []) (cwd : List Str) :
    resolve cwd (goPath env) = resolve cwd env ++ ["src".toList] ∧ filePath (goPath env) = goPath env := by
  refine ⟨?_, clean_clean _⟩
  unfold goPath filePath
  rw [takeWhile_all env h, resolve_clean]
  have e : "/src/".toList = '/' :: "src/".toList := by decide
  unfold resolve
  rw [rooted_append hne, e, descend_append]
  generalize descend _ env = d
  have : comps "src/".toList = ["src".toList, []] := by decide
  unfold descend
  rw [this]
  rfl

/-- **C90** In general it is false on Unix: entries are separated by colons there, and the list is taken for one name: with
two entries `/a` and `/b` the Go path is not in `/a`, whatever the names; and when the variable is empty it is "/src". -/
theorem C90_false (a b : Str) (ha : '/' ∉ a) (hb : '/' ∉ b) (ha' : ';' ∉ a) (hb' : ';' ∉ b) (hne : a ≠ [] ∧ a ≠ ".".toList ∧ a ≠ "..".toList)
    (cwd : List Str) :
    resolve cwd (goPath ("/".toList ++ a ++ ":/".toList ++ b)) ≠ resolve cwd ("/".toList ++ a) ++ ["src".toList] ∧
    goPath [] = "/src".toList := by
  refine ⟨?_, by decide⟩
  have hs : ';' ∉ "/".toList ++ a ++ ":/".toList ++ b := by simp [ha', hb']
  rw [(C90_gopath_partial _ hs (by simp) cwd).1]
  intro h
  have h := List.append_cancel_right h
  have e1 : "/".toList ++ a ++ ":/".toList ++ b = ("/".toList ++ a ++ ":".toList ++ ['/']) ++ b := by simp
  have e2 : "/".toList ++ a ++ ":".toList ++ ['/'] = ['/'] ++ (a ++ [':']) ++ '/' :: [] := by simp
  have hac : '/' ∉ a ++ [':'] := by simp [ha]
  have r0 : resolve cwd (['/'] ++ (a ++ [':'])) = [a ++ [':']] := by
    rw [resolve_append_last cwd ['/'] _ (.inr ⟨[], rfl⟩) hac, walk1, if_neg, if_neg]
    · rfl
    · intro e
      have e' : a ++ [':'] = ['.'] ++ ['.'] := e
      exact absurd (List.append_inj_right' e' rfl) (by decide)
    · rintro (e | e)
      · simp at e
      · have e' : a ++ [':'] = [] ++ ['.'] := e
        exact absurd (List.append_inj_right' e' rfl) (by decide)
  rw [e1, resolve_append_last cwd _ b (.inr ⟨_, rfl⟩) hb, e2] at h
  have r1 : resolve cwd (['/'] ++ (a ++ [':']) ++ '/' :: []) = [a ++ [':']] := by
    rw [← r0]
    unfold resolve
    rw [rooted_append (by simp), descend_append]
    rfl
  rw [r1] at h
  have r2 : resolve cwd ("/".toList ++ a) = walk1 [] a := by
    have e : "/".toList ++ a = ['/'] ++ a := by simp
    rw [e, resolve_append_last cwd ['/'] a (.inr ⟨[], rfl⟩) ha]; rfl
  have hn1 : a ≠ ['.'] := hne.2.1
  have hn2 : a ≠ ['.', '.'] := hne.2.2
  have r3 : walk1 [] a = [a] := by rw [walk1, if_neg (by simp [hne.1, hn1]), if_neg hn2]; rfl
  rw [r2, r3] at h
  unfold walk1 at h
  split_ifs at h with c1 c2
  · have := congrArg List.length (List.cons.inj h).1
    simp at this
  · simp at h
  · simp at h

example : goPath "/home/me/go".toList = "/home/me/go/src".toList ∧ goPath "/a:/b".toList = "/a:/b/src".toList := by decide

example := C85_rename_partial ["w".toList] "/a/b".toList "../c".toList rfl
example := C86_false ["w".toList] "/a/b".toList "c".toList rfl
example : hasPrefix (filePath "/a/b//c".toList) "/a/./b".toList = true :=
  C87_prefix_partial _ _ rfl rfl (fun cwd => by rw [resolve_of_rooted cwd rfl, resolve_of_rooted cwd rfl]; decide)
example := C90_gopath_partial "/home/me/go".toList (by decide) (by decide) []

example := C83_relative "/a".toList ["..".toList, "c".toList] [] (by decide) (by decide)
example : moveTo "/b".toList "c".toList = some (renameTo "/b".toList "c".toList) := C86_move_partial _ _ (by decide)

end Verif.Path
