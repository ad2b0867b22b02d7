import Verif.Model.FsLinks
import Verif.Lemmas.Links
import Verif.Props.Path
import Mathlib.Data.List.Induction
/-!
# C131, C132: links and renaming in a file system with symbolic links
-/

set_option linter.unusedSectionVars false

namespace Verif.FsLinks
open Verif.Spec Verif.Path

/-! ## Lemmas -/

/-- The components of a path that do not stay. -/
def going (s : Str) : List Str := (comps s).filter fun c => !(decide (c = [] ∨ c = ['.']))

theorem out_going (f : Nat × List Str) (hn : ∀ x ∈ f.2, Name x) :
    (outOf f).reverse.filter (fun c => !(decide (c = [] ∨ c = ['.']))) = (outOf f).reverse := by
  rw [List.filter_eq_self]
  intro c hc
  simp only [outOf, List.reverse_append, List.reverse_replicate, List.mem_append, List.mem_replicate, List.mem_reverse] at hc
  rcases hc with ⟨-, rfl⟩ | hc
  · decide
  · have := hn c hc
    simp [this.1, this.2.1]

theorem comps_render (rtd : Bool) (f : Nat × List Str) (hn : ∀ x ∈ f.2, Name x) (h0 : outOf f ≠ []) :
    comps (render rtd f) = (if rtd then [[]] else []) ++ (outOf f).reverse := by
  have hc := outOf_comp f hn
  have e : comps (joinSlash (outOf f).reverse) = (outOf f).reverse :=
    comps_joinSlash _ (fun w hw => (hc w hw).2) (by simpa using h0)
  cases rtd with
  | true => simp only [render, if_true]; rw [comps, if_pos rfl, e]; rfl
  | false => simp only [render, if_neg h0, Bool.false_eq_true, if_false, e]; rfl

theorem going_render (rtd : Bool) (f : Nat × List Str) (hn : ∀ x ∈ f.2, Name x) :
    going (render rtd f) = (outOf f).reverse := by
  by_cases h0 : outOf f = []
  · unfold going
    rw [h0]
    cases rtd with
    | true => simp [render, h0, joinSlash, comps]
    | false => simp [render, h0, comps]
  · unfold going
    rw [comps_render _ _ hn h0, List.filter_append, out_going f hn]
    cases rtd <;> simp

theorem clean_name {x : Str} (h : Name x) : clean x = x := by
  have hr : rooted x = false := by
    cases x with
    | nil => rfl
    | cons c x =>
      have := h.2.2.2
      simp only [List.mem_cons, not_or] at this
      simp [rooted, Ne.symm this.1]
  have hf : form x = (0, [x]) := by
    rw [form, comps_noslash _ h.2.2.2]
    simp [fstep, h.1, h.2.1, h.2.2.1]
  rw [clean_eq, hf, hr]
  simp [render, outOf, joinSlash]

/-- The path that `Rename(x)` and the others use, for a plain name. -/
theorem relate_eq (me : Str) {x : Str} (h : Name x) :
    relateThisPath me x = render (rooted (dir me)) ((form (dir me)).1, x :: (form (dir me)).2) := by
  have e1 : relateThisPath me x = clean (dir me ++ '/' :: x) := by
    have := renameTo_eq me x
    unfold renameTo at this
    rw [this, joins_cons (dir_ne_nil me), filePath, clean_name h]
    rfl
  have e2 : rooted (dir me ++ '/' :: x) = rooted (dir me) := rooted_append (dir_ne_nil me) _
  rw [e1, clean_eq, e2]
  congr 1
  rw [form, comps_append, e2, List.foldl_append, comps_noslash _ h.2.2.2]
  have : (comps (dir me)).foldl (fstep (rooted (dir me))) (0, []) = form (dir me) := rfl
  rw [this]
  simp [fstep, h.1, h.2.1, h.2.2.1]

theorem relate_names (me : Str) {x : Str} (h : Name x) : ∀ y ∈ x :: (form (dir me)).2, Name y := by
  intro y hy
  rcases List.mem_cons.1 hy with rfl | hy
  · exact h
  · exact form_names _ y hy

/-- What such a path names: the name in the directory that `Dir` leads to. -/
theorem names_relate {F : FS} {cwd : List Str} (me : Str) {x : Str} (h : Name x) (e : List Str) :
    Names F cwd (relateThisPath me x) e ↔
      ∃ p, LeadsTo F cwd (dir me) p ∧ F p = some .dir ∧ e = p ++ [x] := by
  have hr : rooted (relateThisPath me x) = rooted (dir me) := by
    rw [relate_eq me h, rooted_render _ _ (relate_names me h)]
  have hc : comps (relateThisPath me x) =
      ((if rooted (dir me) then [[]] else []) ++ (outOf (form (dir me))).reverse) ++ [x] := by
    rw [relate_eq me h, comps_render _ _ (relate_names me h) (by simp [outOf])]
    simp [outOf]
  have hs : startOf cwd (relateThisPath me x) = startOf cwd (dir me) := by simp [startOf, hr]
  have hgo : ((if rooted (dir me) then [[]] else []) ++ (outOf (form (dir me))).reverse).filter
      (fun c => !(decide (c = [] ∨ c = ['.']))) = going (dir me) := by
    have : going (dir me) = (outOf (form (dir me))).reverse := by
      have h1 := going_render (rooted (dir me)) _ (form_names (dir me))
      rw [← clean_eq] at h1
      unfold dir at h1 ⊢
      rw [clean_clean] at h1
      exact h1
    rw [this, List.filter_append, out_going _ (form_names _)]
    cases rooted (dir me) <;> simp
  constructor
  · rintro ⟨cs, c, p, h1, -, h3, h4, rfl⟩
    rw [hc] at h1
    obtain ⟨e1, e2⟩ := List.append_inj' h1 rfl
    cases e2
    subst e1
    rw [hs] at h3
    refine ⟨p, ⟨dir_ne_nil me, ?_⟩, h4, rfl⟩
    have := h3.drop_stays
    rw [hgo] at this
    exact this.add_stays h4
  · rintro ⟨p, ⟨-, h1⟩, h4, rfl⟩
    refine ⟨_, x, p, hc, ⟨h.1, h.2.1, h.2.2.1⟩, ?_, h4, rfl⟩
    rw [hs]
    have := h1.drop_stays
    rw [show (comps (dir me)).filter (fun c => !(decide (c = [] ∨ c = ['.']))) = going (dir me) from rfl, ← hgo] at this
    exact this.add_stays h4

theorem put_mono {F : FS} {e : List Str} {n : Node} (h : F e = none) :
    ∀ q m, F q = some m → (F.put e n) q = some m := by
  intro q m hq
  unfold FS.put
  by_cases hqe : q = e
  · subst hqe; rw [h] at hq; cases hq
  · rw [if_neg hqe]; exact hq

theorem comps_name_nonempty {s : Str} {cs : List Str} {c : Str} (h : comps s = cs ++ [c]) (hc : c ≠ []) : s ≠ [] := by
  rintro rfl
  simp only [comps] at h
  cases cs with
  | nil => simp at h; exact hc h
  | cons x cs => simp at h

theorem relate_clean (me x : Str) : clean (relateThisPath me x) = relateThisPath me x := by
  have := renameTo_eq me x
  unfold renameTo at this
  rw [this, joins_cons (dir_ne_nil me), clean_clean]

theorem relate_form (me : Str) {x : Str} (h : Name x) :
    form (relateThisPath me x) = ((form (dir me)).1, x :: (form (dir me)).2) := by
  rw [relate_eq me h]
  exact form_render _ (_, _) (relate_names me h) (fun hr => form_rooted _ hr)

theorem relate_rooted (me : Str) {x : Str} (h : Name x) : rooted (relateThisPath me x) = rooted (dir me) := by
  rw [relate_eq me h, rooted_render _ _ (relate_names me h)]

theorem relate_base (me : Str) {x : Str} (h : Name x) : base (relateThisPath me x) = x := by
  have hf := relate_form me h
  have hcl := relate_clean me x
  rcases clean_shape (relateThisPath me x) with h1 | h1 | ⟨a, w, h1, ha, hw, hne, h2, -⟩
  · rw [hcl] at h1; rw [h1] at hf
    have : (form ['/']).2 = [] := by decide
    rw [hf] at this; simp at this
  · rw [hcl] at h1; rw [h1] at hf
    have : (form ['.']).2 = [] := by decide
    rw [hf] at this; simp at this
  · have h3 := h2 (by rw [hf]; simp)
    rw [hf] at h3
    simp only [List.head?_cons, Option.some.injEq] at h3
    rw [hcl] at h1
    rw [h1, (base_eq a w ha hw hne).1, h3.2]

theorem dir_clean (s : Str) : clean (dir s) = dir s := clean_clean _

/-- The parts of a path in clean form. -/
theorem relate_self {me : Str} (hc : clean me = me) (hb : Name (base me)) : relateThisPath me (base me) = me := by
  have h1 := renameTo_eq me (base me)
  have h2 := C88_dir_base me
  unfold filePath at h2
  rw [hc] at h2
  unfold renameTo at h1
  rw [h1, filePath, clean_name hb, h2]

theorem relate_dir (me : Str) {x : Str} (h : Name x) : dir (relateThisPath me x) = dir me := by
  have h1 := relate_self (relate_clean me x) (by rw [relate_base me h]; exact h)
  rw [relate_base me h] at h1
  have hr : rooted (dir (relateThisPath me x)) = rooted (dir me) := by
    rw [← relate_rooted (relateThisPath me x) h, h1, relate_rooted me h]
  have hf : form (dir (relateThisPath me x)) = form (dir me) := by
    have h2 := relate_form (relateThisPath me x) h
    rw [h1, relate_form me h] at h2
    simp only [Prod.mk.injEq, List.cons.injEq, true_and] at h2
    exact Prod.ext h2.1.symm h2.2.symm
  rw [← dir_clean, clean_eq, hr, hf, ← clean_eq, dir_clean]

theorem Ok.below {F : FS} (hF : F.Ok) {e : List Str} (h : F e = none) : ∀ q, e <+: q → F q = none := by
  rintro q ⟨t, rfl⟩
  induction t using List.reverseRecOn with
  | nil => simpa using h
  | append_singleton t c ih =>
    by_cases hn : F (e ++ (t ++ [c])) = none
    · exact hn
    · rw [← List.append_assoc] at hn
      have := hF.2 _ _ hn
      rw [ih] at this; cases this

instance (c : Str) : Decidable (Plain c) := by unfold Plain; infer_instance

/-- A file system with `/l → a/b`, the directory `/a/b` and the files `/a/c` and `/c`. -/
def demo : FS := fun q =>
  if q = [] ∨ q = [['a']] ∨ q = [['a'], ['b']] then some .dir
  else if q = [['l']] then some (.link ['a', '/', 'b'])
  else if q = [['a'], ['c']] then some (.file 1)
  else if q = [['c']] then some (.file 2)
  else none

/-- A file system without links. -/
def plainDemo : FS := fun q => if q = [] ∨ q = [['a']] then some .dir else none

/-- `/l/../c` leads to `/a/c` in the demonstration. -/
theorem demo_leads : LeadsTo demo [] ['l', '/', '.', '.', '/', 'c'] [['a'], ['c']] :=
  ⟨by decide, .follow (t := ['a', '/', 'b']) (by decide) (by decide) (by decide) (by decide)
    (.down (n := .dir) (by decide) (by decide) (by decide) (by simp)
      (.down (n := .dir) (by decide) (by decide) (by decide) (by simp)
        (.up (by decide)
          (.down (n := .file 1) (by decide) (by decide) (by decide) (by simp) (.done (by decide))))))⟩

/-! ## C131 -/

/-- **C131 (symbolic links, absolute paths).** `Symlink` of an absolute path makes a link that leads where the path leads,
whatever links there are on the way and however the name is given; all other paths still lead where they led.  Missing:
relative paths, for which it is false in general. -/
theorem C131_symlink_absolute_partial {F F' : FS} {cwd : List Str} {me newname n : Str} (hr : rooted me = true)
    (h : symlink F cwd me newname n F') :
    (∀ e, LeadsTo F cwd me e → LeadsTo F' cwd n e) ∧ ∀ s e, LeadsTo F cwd s e → LeadsTo F' cwd s e := by
  obtain ⟨rfl, h0, e0, ⟨cs, c, p, h1, h2, h3, h4, rfl⟩, h5, rfl⟩ := h
  have mono := put_mono (n := Node.link me) h5
  refine ⟨fun e he => ⟨comps_name_nonempty h1 h2.1, ?_⟩, fun s e hs => ⟨hs.1, hs.2.mono mono⟩⟩
  rw [h1]
  refine (h3.mono mono).append (.follow (mono _ _ h4) h2 (by simp [FS.put]) h0 ?_)
  rw [if_pos hr, List.append_nil]
  have := he.2.mono mono
  simpa [startOf, hr] using this

example : rooted ['/', 'l', '/', 'x'] = true ∧
    symlink demo [] ['/', 'l', '/', 'x'] ['y'] ['/', 'l', '/', 'y'] (demo.put [['a'], ['b'], ['y']] (.link ['/', 'l', '/', 'x'])) :=
  ⟨by decide, by decide +kernel, by decide, _,
    ⟨[[], ['l']], ['y'], [['a'], ['b']], by decide, by decide,
      .stay (by decide) (by decide) (.follow (t := ['a', '/', 'b']) (by decide) (by decide) (by decide) (by decide)
        (.down (n := .dir) (by decide) (by decide) (by decide) (by simp)
          (.down (n := .dir) (by decide) (by decide) (by decide) (by simp) (.done (by decide))))), by decide, rfl⟩,
    by decide, rfl⟩

/-- **C131 (symbolic links, relative paths: exact).** The link made by `Symlink` of a relative path with a plain name stands
in the directory of the path and leads where the path leads *from that directory*, not from the working directory. -/
theorem C131_symlink_relative {F F' : FS} {cwd : List Str} {me newname n : Str} (hr : rooted me = false)
    (hx : Plain newname ∧ '/' ∉ newname) (h : symlink F cwd me newname n F') :
    ∃ p, LeadsTo F cwd (dir me) p ∧ F' (p ++ [newname]) = some (.link me) ∧
      ∀ e, LeadsTo F' cwd n e ↔ Leads F' p (comps me) e := by
  have hn : Name newname := ⟨hx.1.1, hx.1.2.1, hx.1.2.2, hx.2⟩
  obtain ⟨rfl, h0, e0, hN, h5, rfl⟩ := h
  obtain ⟨p', hp', -, rfl⟩ := (names_relate me hn e0).1 hN
  obtain ⟨cs, c, p, h1, h2, h3, h4, h6⟩ := hN
  obtain ⟨e1, e2⟩ := List.append_inj' h6 rfl
  cases e2
  subst e1
  have mono := put_mono (n := Node.link me) h5
  have hl : (F.put (p' ++ [newname]) (.link me)) (p' ++ [newname]) = some (.link me) := by simp [FS.put]
  refine ⟨p', hp', hl, fun e => ⟨fun he => ?_, fun he => ⟨comps_name_nonempty h1 h2.1, ?_⟩⟩⟩
  · have h7 := he.2
    rw [h1] at h7
    obtain ⟨q, h8, h9⟩ := leads_append.1 h7
    obtain rfl := (h3.mono mono).unique h8
    cases h9 with
    | stay _ h2' => exact absurd h2' (plain_not_stay h2)
    | up => exact absurd rfl h2.2.2
    | down _ _ h10 h11 => rw [hl] at h10; cases h10; exact absurd rfl (h11 me)
    | follow _ _ h10 _ h11 =>
      rw [hl] at h10; cases h10
      simpa [hr] using h11
  · rw [h1]
    refine (h3.mono mono).append (.follow (mono _ _ h4) h2 hl h0 ?_)
    simpa [hr] using he

/-- `a/c` linked as `d`: the link is `/a/d` and holds `a/c`. -/
theorem demo_symlink : symlink demo [] ['a', '/', 'c'] ['d'] ['a', '/', 'd'] (demo.put [['a'], ['d']] (.link ['a', '/', 'c'])) :=
  ⟨by decide +kernel, by decide, _,
    ⟨[['a']], ['d'], [['a']], by decide, by decide,
      .down (n := .dir) (by decide) (by decide) (by decide) (by simp) (.done (by decide)), by decide, rfl⟩, by decide, rfl⟩

example : rooted ['a', '/', 'c'] = false ∧ (Plain ['d'] ∧ '/' ∉ ['d']) ∧
    ∃ F', symlink demo [] ['a', '/', 'c'] ['d'] ['a', '/', 'd'] F' :=
  ⟨by decide, by decide, _, demo_symlink⟩

/-- **C131 (symbolic links next to the file).** For a plain name in the working directory both agree: the link leads where the
name leads. -/
theorem C131_symlink_name_partial {F F' : FS} {cwd : List Str} {me newname n : Str} (hm : Plain me ∧ '/' ∉ me)
    (hx : Plain newname ∧ '/' ∉ newname) (h : symlink F cwd me newname n F') (e : List Str) (he : LeadsTo F cwd me e) :
    LeadsTo F' cwd n e := by
  have hme : Name me := ⟨hm.1.1, hm.1.2.1, hm.1.2.2, hm.2⟩
  have hr : rooted me = false := by
    cases me with
    | nil => rfl
    | cons c me =>
      have := hm.2
      simp only [List.mem_cons, not_or] at this
      simp [rooted, Ne.symm this.1]
  obtain ⟨p, hp, -, hiff⟩ := C131_symlink_relative hr hx h
  have hd : dir me = ['.'] := by
    have := (base_eq [] me (.inl rfl) hm.2 hm.1.1).2
    rw [List.nil_append] at this
    rw [this]; decide
  rw [hd] at hp
  obtain ⟨rfl, -⟩ : p = cwd ∧ F cwd ≠ none := by
    have h1 := hp.2
    have h2 : comps ['.'] = [['.']] := by decide
    have h3 : startOf cwd ['.'] = cwd := by simp [startOf, rooted]
    rw [h2, h3, leads_stay (.inr rfl)] at h1
    exact leads_nil.1 h1.2
  rw [hiff]
  obtain ⟨-, -, e0, -, h5, rfl⟩ := h
  have := he.2.mono (put_mono (n := Node.link me) h5)
  simpa [startOf, hr] using this

example : (Plain ['c'] ∧ '/' ∉ ['c']) ∧ (∃ F', symlink demo [] ['c'] ['d'] ['d'] F') ∧ LeadsTo demo [] ['c'] [['c']] :=
  ⟨by decide, ⟨_, by decide +kernel, by decide, _, ⟨[], ['d'], [], by decide, by decide, .done (by decide), by decide, rfl⟩,
    by decide, rfl⟩,
    by decide, .down (n := .file 2) (by decide) (by decide) (by decide) (by simp) (.done (by decide))⟩

/-- **C131 is false for other relative paths.** The link leads nowhere when the first name of the path is not also in the
directory of the path. -/
theorem C131_symlink_false {F F' : FS} {cwd : List Str} {me newname n : Str} {c : Str} {cs : List Str}
    (hr : rooted me = false) (hm : comps me = c :: cs) (hc : Plain c) (hx : Plain newname ∧ '/' ∉ newname) (hcx : c ≠ newname)
    (h : symlink F cwd me newname n F') (hno : ∀ p, LeadsTo F cwd (dir me) p → F (p ++ [c]) = none) :
    ∀ e, ¬ LeadsTo F' cwd n e := by
  obtain ⟨p, hp, -, hiff⟩ := C131_symlink_relative hr hx h
  obtain ⟨rfl, -, e0, hN, h5, rfl⟩ := h
  obtain ⟨p', hp', -, rfl⟩ := (names_relate me ⟨hx.1.1, hx.1.2.1, hx.1.2.2, hx.2⟩ e0).1 hN
  obtain rfl := hp.2.unique hp'.2
  intro e he
  rw [hiff, hm] at he
  have h0 : (F.put (p' ++ [newname]) (.link me)) (p' ++ [c]) = none := by
    unfold FS.put
    rw [if_neg (by simp [hcx])]
    exact hno _ hp
  cases he with
  | stay _ h2 => exact plain_not_stay hc h2
  | up => exact hc.2.2 rfl
  | down _ _ h10 _ => rw [h0] at h10; cases h10
  | follow _ _ h10 _ _ => rw [h0] at h10; cases h10

/-- `a/c` leads to a file, and the link `a/d` made from it leads nowhere. -/
theorem C131_symlink_false_case : LeadsTo demo [] ['a', '/', 'c'] [['a'], ['c']] ∧
    ∃ F', symlink demo [] ['a', '/', 'c'] ['d'] ['a', '/', 'd'] F' ∧ ∀ e, ¬ LeadsTo F' [] ['a', '/', 'd'] e := by
  refine ⟨⟨by decide, .down (n := .dir) (by decide) (by decide) (by decide) (by simp)
    (.down (n := .file 1) (by decide) (by decide) (by decide) (by simp) (.done (by decide)))⟩, _, demo_symlink, ?_⟩
  refine C131_symlink_false (c := ['a']) (cs := [['c']]) (by decide) (by decide) (by decide) (by decide) (by decide)
    demo_symlink (fun p hp => ?_)
  have hd : dir ['a', '/', 'c'] = ['a'] := by decide +kernel
  rw [hd] at hp
  have h1 : Leads demo (startOf [] ['a']) (comps ['a']) [['a']] :=
    .down (n := .dir) (by decide) (by decide) (by decide) (by simp) (.done (by decide))
  rw [h1.unique hp.2]
  decide

/-- **C131 (hard links).** After `Link` the path and the new path name the same file, and nothing else has changed; every
path that led somewhere still leads there. -/
theorem C131_link {F F' : FS} {cwd : List Str} {me linkname n : Str} (h : link F cwd me linkname n F') :
    (∃ a e, Names F' cwd me a ∧ Names F' cwd n e ∧ a ≠ e ∧ F' a = F a ∧ F' e = F a ∧ F e = none ∧ F a ≠ none ∧
      F a ≠ some .dir ∧ ∀ q, q ≠ e → F' q = F q) ∧
    ∀ s e, LeadsTo F cwd s e → LeadsTo F' cwd s e := by
  obtain ⟨rfl, a, e, nd, ⟨cs, c, p, h1, h2, h3, h4, rfl⟩, ha, hd, ⟨cs', c', p', h1', h2', h3', h4', rfl⟩, he, rfl⟩ := h
  have mono := put_mono (n := nd) he
  refine ⟨⟨_, _, ⟨cs, c, p, h1, h2, h3.mono mono, mono _ _ h4, rfl⟩, ⟨cs', c', p', h1', h2', h3'.mono mono, mono _ _ h4', rfl⟩,
    ?_, ?_, ?_, he, ?_, ?_, ?_⟩, fun s e hs => ⟨hs.1, hs.2.mono mono⟩⟩
  · intro h; rw [h, he] at ha; cases ha
  · rw [mono _ _ ha, ha]
  · simp [FS.put, ha]
  · rw [ha]; simp
  · rw [ha]; simpa using hd
  · intro q hq; simp [FS.put, hq]

example : ∃ F', link demo [] ['a', '/', 'c'] ['d'] ['a', '/', 'd'] F' :=
  ⟨_, by decide +kernel, _, _, .file 1,
    ⟨[['a']], ['c'], [['a']], by decide, by decide,
      .down (n := .dir) (by decide) (by decide) (by decide) (by simp) (.done (by decide)), by decide, rfl⟩, by decide, by simp,
    ⟨[['a']], ['d'], [['a']], by decide, by decide,
      .down (n := .dir) (by decide) (by decide) (by decide) (by simp) (.done (by decide)), by decide, rfl⟩, by decide, rfl⟩

/-- **C131 (renaming).** `Rename` to a plain name stays in the directory: what was at and below the old name is at and below
the new one, the old name is free, and nothing else has changed. -/
theorem C131_rename {F F' : FS} {cwd : List Str} {me x n : Str} (hc : clean me = me) (hb : Plain (base me) ∧ '/' ∉ base me)
    (hx : Plain x ∧ '/' ∉ x) (hne : x ≠ base me) (hino : ∀ p i, F (p ++ [x]) = some (.file i) → F (p ++ [base me]) ≠ some (.file i))
    (h : rename F cwd me x n F') :
    dir n = dir me ∧ base n = x ∧ ∃ p, LeadsTo F cwd (dir me) p ∧ F (p ++ [base me]) ≠ none ∧
      (∀ q, F' (p ++ [x] ++ q) = F (p ++ [base me] ++ q)) ∧ (∀ q, F' (p ++ [base me] ++ q) = none) ∧
      ∀ q, ¬ p ++ [x] <+: q → ¬ p ++ [base me] <+: q → F' q = F q := by
  have hxn : Name x := ⟨hx.1.1, hx.1.2.1, hx.1.2.2, hx.2⟩
  have hbn : Name (base me) := ⟨hb.1.1, hb.1.2.1, hb.1.2.2, hb.2⟩
  obtain ⟨rfl, a, e, hA, ha, hE, he, hde, hcase⟩ := h
  rw [← relate_self hc hbn] at hA
  obtain ⟨p, hp, -, rfl⟩ := (names_relate me hbn a).1 hA
  obtain ⟨p', hp', -, rfl⟩ := (names_relate me hxn e).1 hE
  obtain rfl := hp.2.unique hp'.2
  refine ⟨relate_dir me hxn, relate_base me hxn, p', hp, ha, ?_⟩
  rcases hcase with ⟨h1 | ⟨i, h1, h2⟩, -⟩ | ⟨-, -, rfl⟩
  · simp only [List.append_cancel_left_eq, List.cons.injEq, and_true] at h1
    exact absurd h1.symm hne
  · exact absurd h1 (hino _ _ h2)
  · have hpre : ∀ q, ¬ p' ++ [x] <+: p' ++ [base me] ++ q := by
      rintro q ⟨t, ht⟩
      simp only [List.append_assoc, List.append_cancel_left_eq, List.cons_append, List.nil_append, List.cons.injEq] at ht
      exact hne ht.1
    refine ⟨fun q => ?_, fun q => ?_, fun q h1 h2 => ?_⟩
    · unfold FS.move
      rw [if_pos (List.prefix_append _ _), List.drop_left]
    · unfold FS.move
      rw [if_neg (hpre q), if_pos (List.prefix_append _ _)]
    · unfold FS.move
      rw [if_neg h1, if_neg h2]

/-- `a` becomes `x`: the directory `/a` and all in it. -/
theorem demo_rename : rename demo [] ['a'] ['x'] ['x'] (demo.move [['a']] [['x']]) :=
  ⟨by decide +kernel, [['a']], [['x']], ⟨[], ['a'], [], by decide, by decide, .done (by decide), by decide, rfl⟩, by decide,
    ⟨[], ['x'], [], by decide, by decide, .done (by decide), by decide, rfl⟩, by decide, by decide,
    .inr ⟨by simp [demo], by decide, rfl⟩⟩

example : clean ['a'] = ['a'] ∧ base ['a'] = ['a'] ∧ (∀ p i, demo (p ++ [['x']]) = some (.file i) → demo (p ++ [['a']]) ≠ some (.file i)) := by
  refine ⟨by decide +kernel, by decide +kernel, fun p i h => ?_⟩
  rcases p with _ | ⟨a, _ | ⟨b, p⟩⟩ <;> simp [demo] at h

/-- **C131 (renaming back).** If the new name was free, renaming the returned path back to the old name gives the old path and
the old file system. -/
theorem C131_rename_back {F F' F'' : FS} {cwd : List Str} {me x n m : Str} (hF : F.Ok) (hc : clean me = me)
    (hb : Plain (base me) ∧ '/' ∉ base me) (hx : Plain x ∧ '/' ∉ x) (hfree : ∀ e, Names F cwd n e → F e = none)
    (h : rename F cwd me x n F') (h' : rename F' cwd n (base me) m F'') : m = me ∧ F'' = F := by
  have hxn : Name x := ⟨hx.1.1, hx.1.2.1, hx.1.2.2, hx.2⟩
  have hbn : Name (base me) := ⟨hb.1.1, hb.1.2.1, hb.1.2.2, hb.2⟩
  obtain ⟨rfl, a, e, hA, ha, hE, he, hde, hcase⟩ := h
  obtain ⟨rfl, a', e', hA', ha', hE', he', hde', hcase'⟩ := h'
  have hm : relateThisPath (relateThisPath me x) (base me) = me := by
    have h1 : relateThisPath (relateThisPath me x) (base me) = relateThisPath me (base me) := by
      rw [relate_eq _ hbn, relate_eq _ hbn, relate_dir me hxn]
    rw [h1, relate_self hc hbn]
  refine ⟨hm, ?_⟩
  have hen := hfree e hE
  have hbelow := Ok.below hF hen
  rw [← relate_self hc hbn] at hA
  obtain ⟨p, hp, -, rfl⟩ := (names_relate me hbn a).1 hA
  obtain ⟨p1, hp1, -, rfl⟩ := (names_relate me hxn e).1 hE
  obtain rfl := hp.2.unique hp1.2
  obtain ⟨p2, hp2, -, rfl⟩ := (names_relate me hxn a').1 hA'
  obtain ⟨p3, hp3, -, rfl⟩ := (names_relate _ hbn e').1 hE'
  rw [relate_dir me hxn] at hp3
  obtain rfl := hp2.2.unique hp3.2
  rcases hcase with ⟨h1 | ⟨i, h1, h2⟩, -⟩ | ⟨hno, hpre, rfl⟩
  · rw [h1] at ha; exact absurd hen ha
  · rw [hen] at h2; cases h2
  · have hsub : ∀ q nd, F q = some nd → (F.move (p1 ++ [base me]) (p1 ++ [x])) q = some nd ∨
        (F.move (p1 ++ [base me]) (p1 ++ [x])) q = none := by
      intro q nd hq
      unfold FS.move
      have : ¬ p1 ++ [x] <+: q := fun h => by rw [hbelow q h] at hq; cases hq
      rw [if_neg this]
      by_cases h : p1 ++ [base me] <+: q
      · rw [if_pos h]; exact .inr rfl
      · rw [if_neg h]; exact .inl hq
    obtain rfl := hp.2.agree hsub hp2.2
    have hne : ¬ p3 ++ [x] <+: p3 ++ [base me] := fun h => ha (hbelow _ h)
    have hgone : (F.move (p3 ++ [base me]) (p3 ++ [x])) (p3 ++ [base me]) = none := by
      unfold FS.move
      rw [if_neg hne, if_pos (List.prefix_refl _)]
    rcases hcase' with ⟨h1 | ⟨i, h1, h2⟩, -⟩ | ⟨-, -, rfl⟩
    · rw [h1] at hne; exact absurd (List.prefix_refl _) hne
    · rw [hgone] at h2; cases h2
    · funext q
      show (if p3 ++ [base me] <+: q then _ else if p3 ++ [x] <+: q then none else _) = F q
      by_cases h1 : p3 ++ [base me] <+: q
      · rw [if_pos h1]
        obtain ⟨t, rfl⟩ := h1
        unfold FS.move
        rw [List.drop_left, if_pos (List.prefix_append _ _), List.drop_left]
      · rw [if_neg h1]
        by_cases h2 : p3 ++ [x] <+: q
        · rw [if_pos h2, hbelow q h2]
        · rw [if_neg h2]
          unfold FS.move
          rw [if_neg h2, if_neg h1]

example : ∃ F' F'', (∀ e, Names plainDemo [] ['x'] e → plainDemo e = none) ∧
    rename plainDemo [] ['a'] ['x'] ['x'] F' ∧ rename F' [] ['x'] (base ['a']) ['a'] F'' := by
  refine ⟨plainDemo.move [['a']] [['x']], (plainDemo.move [['a']] [['x']]).move [['x']] [['a']], ?_, ?_, ?_⟩
  · rintro e ⟨cs, c, p, h1, -, h3, -, rfl⟩
    have h4 : comps ['x'] = [] ++ [['x']] := by decide
    rw [h4] at h1
    obtain ⟨rfl, e2⟩ := List.append_inj' h1 rfl
    cases e2
    obtain ⟨rfl, -⟩ := leads_nil.1 h3
    decide
  · exact ⟨by decide +kernel, [['a']], [['x']], ⟨[], ['a'], [], by decide, by decide, .done (by decide), by decide, rfl⟩, by decide,
      ⟨[], ['x'], [], by decide, by decide, .done (by decide), by decide, rfl⟩, by decide, by decide,
      .inr ⟨by simp [plainDemo], by decide, rfl⟩⟩
  · exact ⟨by decide +kernel, [['x']], [['a']], ⟨[], ['x'], [], by decide, by decide, .done (by decide), by decide, rfl⟩, by decide,
      ⟨[], ['a'], [], by decide, by decide, .done (by decide), by decide, rfl⟩, by decide, by decide,
      .inr ⟨by simp [FS.move, plainDemo], by decide, rfl⟩⟩

/-! ## C132 -/

theorem leads_head_dir {F : FS} {d : List Str} {c : Str} {cs e : List Str} (h : Leads F d (c :: cs) e) : F d = some .dir := by
  cases h <;> assumption

theorem comps_head (s : Str) : ∃ c cs, comps s = c :: cs ∧ (rooted s = true → c = []) := by
  cases s with
  | nil => exact ⟨_, _, rfl, fun _ => rfl⟩
  | cons a s =>
    unfold comps
    split
    · exact ⟨_, _, rfl, fun _ => rfl⟩
    · rename_i ha
      split <;> exact ⟨_, _, rfl, fun h => by simp [rooted] at h; exact absurd h ha⟩

/-- From the parts that go to the clean text. -/
theorem leads_clean {F : FS} {d : List Str} {s : Str} {e : List Str} (hd : F d = some .dir)
    (h : Leads F d (outOf (form s)).reverse e) : Leads F d (comps (clean s)) e := by
  rw [clean_eq]
  by_cases h0 : outOf (form s) = []
  · rw [h0] at h
    cases hr : rooted s with
    | true =>
      have : comps (render true (form s)) = [[], []] := by simp [render, h0, joinSlash, comps]
      rw [this]
      exact .stay hd (.inl rfl) (.stay hd (.inl rfl) h)
    | false =>
      have : comps (render false (form s)) = [['.']] := by simp [render, h0, comps]
      rw [this]
      exact .stay hd (.inr rfl) h
  · rw [comps_render _ _ (form_names s) h0]
    cases rooted s with
    | true => exact .stay hd (.inl rfl) h
    | false => exact h

theorem fold_nodots (rtd : Bool) (cs : List Str) (hcs : ['.', '.'] ∉ cs) (f : Nat × List Str) :
    (outOf (cs.foldl (fstep rtd) f)).reverse =
      (outOf f).reverse ++ cs.filter fun c => !(decide (c = [] ∨ c = ['.'])) := by
  induction cs generalizing f with
  | nil => simp
  | cons c cs ih =>
    simp only [List.mem_cons, not_or] at hcs
    rw [List.foldl_cons, ih hcs.2]
    by_cases hc : c = [] ∨ c = ['.']
    · rw [List.filter_cons_of_neg (by simp only [hc]; simp)]
      simp [fstep, hc]
    · have : fstep rtd f c = (f.1, c :: f.2) := by
        simp [fstep, hc, Ne.symm hcs.1]
      rw [this, List.filter_cons_of_pos (by simp only [hc]; simp)]
      simp [outOf]

/-- **C132 (FilePath, no parent directories).** A text without `..` and the path object made from it lead to the same place,
whatever symbolic links there are.  Missing: `..` after symbolic links, for which it is false. -/
theorem C132_no_parents_partial {F : FS} {cwd : List Str} {s : Str} {e : List Str} (hs : ['.', '.'] ∉ comps s)
    (h : LeadsTo F cwd s e) : LeadsTo F cwd (filePath s) e := by
  obtain ⟨c, cs, hc, -⟩ := comps_head s
  have hd : F (startOf cwd s) = some .dir := by
    have := h.2; rw [hc] at this; exact leads_head_dir this
  refine ⟨clean_ne_nil s, ?_⟩
  unfold filePath
  rw [show startOf cwd (clean s) = startOf cwd s by simp [startOf, rooted_clean]]
  refine leads_clean hd ?_
  rw [form, fold_nodots _ _ hs]
  simpa [outOf] using h.2.drop_stays

example : ['.', '.'] ∉ comps ['l', '/', '/', '.'] ∧ LeadsTo demo [] ['l', '/', '/', '.'] [['a'], ['b']] :=
  ⟨by decide, by decide, .follow (t := ['a', '/', 'b']) (by decide) (by decide) (by decide) (by decide)
    (.down (n := .dir) (by decide) (by decide) (by decide) (by simp)
      (.down (n := .dir) (by decide) (by decide) (by decide) (by simp)
        (.stay (by decide) (by decide) (.stay (by decide) (by decide) (.done (by decide))))))⟩

/-- **C132 (converse).** If the path object leads to a directory, the text does too. -/
theorem C132_no_parents_back {F : FS} {cwd : List Str} {s : Str} {e : List Str} (h0 : s ≠ []) (hs : ['.', '.'] ∉ comps s)
    (he : F e = some .dir) (h : LeadsTo F cwd (filePath s) e) : LeadsTo F cwd s e := by
  refine ⟨h0, Leads.add_stays he ?_⟩
  have h1 := h.2.drop_stays
  have h2 : going (filePath s) = (outOf (form s)).reverse := by
    unfold filePath; rw [clean_eq]; exact going_render _ _ (form_names s)
  unfold going at h2
  rw [h2, form, fold_nodots _ _ hs] at h1
  unfold filePath at h1
  rw [show startOf cwd (clean s) = startOf cwd s by simp [startOf, rooted_clean]] at h1
  simpa [outOf] using h1

theorem leads_up {F : FS} {p : List Str} (hF : F.Ok) (h : F p = some .dir) : Leads F p [['.', '.']] p.dropLast := by
  refine .up h (.done ?_)
  induction p using List.reverseRecOn with
  | nil => simp [hF.1]
  | append_singleton p c _ =>
    rw [List.dropLast_concat, hF.2 p c (by rw [h]; simp)]; simp

theorem fold_nolinks {F : FS} (hOk : F.Ok) (hF : ∀ q t, F q ≠ some (.link t)) (rtd : Bool) (d : List Str)
    (hd : rtd = true → d = []) (cs : List Str) : ∀ (f : Nat × List Str) (p e : List Str), (rtd = true → f.1 = 0) →
      (∀ x ∈ f.2, Plain x) → Leads F d (outOf f).reverse p →
      Leads F p cs e → Leads F d (outOf (cs.foldl (fstep rtd) f)).reverse e := by
  induction cs with
  | nil =>
    intro f p e hk hn h1 h2
    obtain ⟨rfl, -⟩ := leads_nil.1 h2
    exact h1
  | cons c cs ih =>
    intro f p e hk hn h1 h2
    rw [List.foldl_cons]
    cases h2 with
    | stay h3 h4 h5 =>
      have : fstep rtd f c = f := by simp [fstep, h4]
      rw [this]
      exact ih f p e hk hn h1 h5
    | @down _ _ _ n _ h3 h4 h5 h6 h7 =>
      have : fstep rtd f c = (f.1, c :: f.2) := by simp [fstep, plain_not_stay h4, h4.2.2]
      rw [this]
      refine ih _ (p ++ [c]) e hk (by simpa using ⟨h4, hn⟩) ?_ h7
      have : (outOf (f.1, c :: f.2)).reverse = (outOf f).reverse ++ [c] := by simp [outOf]
      rw [this]
      exact h1.append (.down h3 h4 h5 h6 (.done (by rw [h5]; simp)))
    | follow _ _ h5 => exact absurd h5 (hF _ _)
    | up h3 h4 =>
      obtain ⟨k, ns⟩ := f
      cases ns with
      | nil =>
        cases rtd with
        | true =>
          obtain rfl : k = 0 := hk rfl
          have h5 : fstep true (0, []) ['.', '.'] = (0, []) := by decide
          obtain ⟨rfl, -⟩ := leads_nil.1 (show Leads F d [] p from h1)
          rw [h5]
          refine ih _ p.dropLast e (fun _ => rfl) (by simp) ?_ h4
          rw [hd rfl]
          rw [hd rfl] at h1
          exact h1
        | false =>
          have h5 : fstep false (k, []) ['.', '.'] = (k + 1, []) := by simp [fstep]
          rw [h5]
          refine ih _ p.dropLast e (by simp) (by simp) ?_ h4
          have h6 : (outOf (k + 1, [])).reverse = (outOf (k, [])).reverse ++ [['.', '.']] := by
            simp [outOf, List.replicate_succ']
            rw [← List.replicate_succ, List.replicate_succ']
          rw [h6]
          exact h1.append (leads_up hOk h3)
      | cons x ns =>
        have h5 : fstep rtd (k, x :: ns) ['.', '.'] = (k, ns) := by simp [fstep]
        have h6 : (outOf (k, x :: ns)).reverse = (outOf (k, ns)).reverse ++ [x] := by simp [outOf]
        rw [h5]
        have hx := hn x (by simp)
        refine ih _ p.dropLast e hk (fun y hy => hn y (by simp [hy])) ?_ h4
        rw [h6] at h1
        obtain ⟨q, h7, h8⟩ := leads_append.1 h1
        cases h8 with
        | stay _ h9 => exact absurd h9 (plain_not_stay hx)
        | up => exact absurd rfl hx.2.2
        | follow _ _ h9 => exact absurd h9 (hF _ _)
        | down _ _ _ _ h9 =>
          obtain ⟨rfl, -⟩ := leads_nil.1 h9
          rw [List.dropLast_concat]; exact h7

/-- **C132 (FilePath, no symbolic links).** In a file system without symbolic links a text and the path object made from it
lead to the same place, also with `..` in it. -/
theorem C132_no_links_partial {F : FS} {cwd : List Str} {s : Str} {e : List Str} (hF : F.Ok) (hl : ∀ q t, F q ≠ some (.link t))
    (h : LeadsTo F cwd s e) : LeadsTo F cwd (filePath s) e := by
  obtain ⟨c, cs, hc, -⟩ := comps_head s
  have hd : F (startOf cwd s) = some .dir := by
    have := h.2; rw [hc] at this; exact leads_head_dir this
  refine ⟨clean_ne_nil s, ?_⟩
  unfold filePath
  rw [show startOf cwd (clean s) = startOf cwd s by simp [startOf, rooted_clean]]
  refine leads_clean hd ?_
  rw [form]
  refine fold_nolinks hF hl _ _ (fun hr => by simp [startOf, hr]) _ (0, []) _ _ (fun _ => rfl) (by simp) ?_ h.2
  exact .done (by rw [hd]; simp)

example : plainDemo.Ok ∧ (∀ q t, plainDemo q ≠ some (.link t)) ∧ LeadsTo plainDemo [] ['a', '/', '.', '.', '/', 'a'] [['a']] := by
  refine ⟨⟨by decide, fun d c h => ?_⟩, fun q t => ?_, by decide,
    .down (n := .dir) (by decide) (by decide) (by decide) (by simp) (.up (by decide)
      (.down (n := .dir) (by decide) (by decide) (by decide) (by simp) (.done (by decide))))⟩
  · rcases d with _ | ⟨a, d⟩
    · decide
    · simp [plainDemo] at h
  · unfold plainDemo; split <;> simp

/-- **C132 is false in general.** With a symbolic link before `..` the path object leads to another file. -/
theorem C132_false : LeadsTo demo [] ['l', '/', '.', '.', '/', 'c'] [['a'], ['c']] ∧
    LeadsTo demo [] (filePath ['l', '/', '.', '.', '/', 'c']) [['c']] ∧
    ¬ LeadsTo demo [] (filePath ['l', '/', '.', '.', '/', 'c']) [['a'], ['c']] := by
  have h2 : LeadsTo demo [] (filePath ['l', '/', '.', '.', '/', 'c']) [['c']] := by
    have e : filePath ['l', '/', '.', '.', '/', 'c'] = ['c'] := by decide +kernel
    rw [e]
    exact ⟨by decide, .down (n := .file 2) (by decide) (by decide) (by decide) (by simp) (.done (by decide))⟩
  refine ⟨demo_leads, h2, fun h => ?_⟩
  have := h2.2.unique h.2
  simp at this

/-- C131_symlink_false: the link to `a/c` in the directory `a`, where there is no `a`. -/
example : ∃ F', symlink demo [] ['a', '/', 'c'] ['d'] ['a', '/', 'd'] F' ∧ ∀ e, ¬ LeadsTo F' [] ['a', '/', 'd'] e :=
  ⟨_, demo_symlink, C131_symlink_false (c := ['a']) (cs := [['c']]) (by decide) (by decide) (by decide) (by decide) (by decide) demo_symlink (by
    rintro p ⟨-, h⟩
    have hd : dir ['a', '/', 'c'] = ['a'] := by decide +kernel
    rw [hd] at h
    have hc : comps ['a'] = [['a']] := by decide
    have hst : startOf [] ['a'] = [] := by decide
    rw [hc, hst] at h
    cases h with
    | stay _ h => exact absurd h (by decide)
    | down _ _ h _ h' => cases h' with | done _ => decide
    | follow _ _ h => simp [demo] at h)⟩

end Verif.FsLinks
