import Verif.Model.FsOpen
import Verif.Props.FsRemove
import Verif.Props.EvalLinks
import Verif.Props.ReadLink
/-!
# Properties C165 and C166: creating, opening and truncating files
-/

set_option linter.unusedSectionVars false

namespace Verif.FsLinks
open Verif.Spec Verif.Path

variable {F : FS} {w w' : Store} {cwd : List Str} {me : Str} {i : Nat}

theorem makes_none {d cs e : List Str} (h : Makes F d cs e) : F e = none := by
  induction h with
  | here _ _ h => exact h
  | stay _ _ _ ih => exact ih
  | up _ _ ih => exact ih
  | down _ _ _ _ _ ih => exact ih
  | follow _ _ _ _ _ ih => exact ih

theorem makes_parent {d cs e : List Str} (h : Makes F d cs e) : ∃ p c, e = p ++ [c] ∧ F p = some .dir := by
  induction h with
  | here h1 _ _ => exact ⟨_, _, rfl, h1⟩
  | stay _ _ _ ih => exact ih
  | up _ _ ih => exact ih
  | down _ _ _ _ _ ih => exact ih
  | follow _ _ _ _ _ ih => exact ih

theorem makes_leads {d cs e : List Str} (h : Makes F d cs e) (i : Nat) : Leads (F.put e (.file i)) d cs e := by
  induction h with
  | @here d c h1 h2 h3 =>
    exact .down (n := .file i) (put_mono h3 _ _ h1) h2 (if_pos rfl) (by simp) (.done (by simp [FS.put]))
  | stay h1 h2 h3 ih => exact .stay (put_mono (makes_none h3) _ _ h1) h2 ih
  | up h1 h3 ih => exact .up (put_mono (makes_none h3) _ _ h1) ih
  | down h1 h2 h4 h5 h3 ih => exact .down (put_mono (makes_none h3) _ _ h1) h2 (put_mono (makes_none h3) _ _ h4) h5 ih
  | follow h1 h2 h4 h5 h3 ih => exact .follow (put_mono (makes_none h3) _ _ h1) h2 (put_mono (makes_none h3) _ _ h4) h5 ih

theorem leads_makes (hF : F.Ok) {G : FS} {d cs e : List Str} (h : Leads G d cs e) (hG : G = F.put e (.file i)) (h0 : F e = none)
    (hd : d ≠ e) : Makes F d cs e := by
  have key : ∀ {q : List Str} {n : Node}, q ≠ e → G q = some n → F q = some n := by
    intro q n hq hn
    rw [hG] at hn
    unfold FS.put at hn
    rwa [if_neg hq] at hn
  induction h with
  | done _ => exact absurd rfl hd
  | stay h1 h2 _ ih => exact .stay (key hd h1) h2 (ih hG h0 hd key)
  | @up d cs e h1 _ ih =>
    refine .up (key hd h1) (ih hG h0 ?_ key)
    intro he
    have := Ok.below hF h0 d (he ▸ List.dropLast_prefix d)
    rw [key hd h1] at this
    cases this
  | @down d c cs n e h1 h2 h3 h4 h5 ih =>
    by_cases hx : d ++ [c] = e
    · subst hx
      cases cs with
      | nil => exact .here (key hd h1) h2 h0
      | cons x cs =>
        have := leads_head_dir h5
        rw [hG] at this
        simp [FS.put] at this
    · exact .down (key hd h1) h2 (key hx h3) h4 (ih hG h0 hx key)
  | @follow d c cs t e h1 h2 h3 h4 h5 ih =>
    have hx : d ++ [c] ≠ e := by
      intro hx
      rw [hG, hx] at h3
      simp [FS.put] at h3
    refine .follow (key hd h1) h2 (key hx h3) h4 (ih hG h0 ?_ key)
    split_ifs
    · intro he
      rw [← he, hF.1] at h0
      cases h0
    · exact hd

theorem makes_not_leads {d cs e : List Str} (h : Makes F d cs e) (e' : List Str) : ¬ Leads F d cs e' := by
  intro h'
  have h1 := h'.mono (put_mono (n := .file 0) (makes_none h))
  have := Leads.unique (makes_leads h 0) h1
  subst this
  exact h'.ne_none (makes_none h)

theorem makes_unique {d cs e e' : List Str} (h : Makes F d cs e) (h' : Makes F d cs e') : e' = e := by
  by_contra hne
  have a := (makes_leads h 0).mono (F' := (F.put e (.file 0)).put e' (.file 0))
    (put_mono (by unfold FS.put; rw [if_neg hne]; exact makes_none h'))
  have b := (makes_leads h' 0).mono (F' := (F.put e (.file 0)).put e' (.file 0)) (fun q n hq => by
    unfold FS.put at hq ⊢
    split_ifs with g1 g2
    · rwa [if_pos g1] at hq
    · rw [if_neg g1, g2, makes_none h] at hq; cases hq
    · rwa [if_neg g1] at hq)
  exact hne (Leads.unique a b)

theorem makes_append {d xs p ys e : List Str} (h1 : Leads F d xs p) (h2 : Makes F p ys e) : Makes F d (xs ++ ys) e := by
  induction h1 with
  | done _ => exact h2
  | stay g1 g2 _ ih => exact .stay g1 g2 (ih h2)
  | up g1 _ ih => exact .up g1 (ih h2)
  | down g1 g2 g3 g4 _ ih => exact .down g1 g2 g3 g4 (ih h2)
  | follow g1 g2 g3 g4 _ ih => exact .follow g1 g2 g3 g4 (by
      have := ih h2
      rw [List.append_assoc] at this
      exact this)

theorem create_exists {e : List Str} {j : Nat} (h : LeadsTo w.F cwd me e) (hj : w.F e = some (.file j)) :
    create w cwd me i = some (w.write j [], e) := by
  simp [create, openFile, stat_iff.2 h, hj]

theorem create_makes {e : List Str} (h0 : me ≠ []) (h : Makes w.F (startOf cwd me) (comps me) e) :
    create w cwd me i = some (w.make e i, e) := by
  have hs : stat w.F cwd me = none := stat_none fun e' h' => makes_not_leads h e' h'.2
  have hx : ∃ e, me ≠ [] ∧ Makes w.F (startOf cwd me) (comps me) e := ⟨e, h0, h⟩
  simp only [create, openFile, hs, Bool.and_false, Bool.false_eq_true, if_false, if_true]
  rw [dif_pos hx, makes_unique h hx.choose_spec.2]

theorem create_cases {e : List Str} (h : create w cwd me i = some (w', e)) :
    (∃ j, LeadsTo w.F cwd me e ∧ w.F e = some (.file j) ∧ w' = w.write j []) ∨
    (me ≠ [] ∧ Makes w.F (startOf cwd me) (comps me) e ∧ w' = w.make e i) := by
  simp only [create, openFile, Bool.and_false, Bool.false_eq_true, if_false, if_true] at h
  cases hs : stat w.F cwd me with
  | some e' =>
    rw [hs] at h
    simp only at h
    split at h
    · rename_i j hj
      cases h
      exact .inl ⟨j, stat_iff.1 hs, hj, rfl⟩
    · simp at h
  | none =>
    rw [hs] at h
    simp only at h
    split_ifs at h with hx
    cases h
    exact .inr ⟨hx.choose_spec.1, hx.choose_spec.2, rfl⟩

theorem openRead_eq {e : List Str} (h : LeadsTo w.F cwd me e) : openRead w cwd me =
    match w.F e with | some (.file j) => some (w.data j) | _ => none := by
  simp only [openRead, openFile, stat_iff.2 h, Bool.and_false, Bool.false_eq_true, if_false, Bool.or_false]
  split <;> rename_i h1 <;> split at h1 <;> simp_all

theorem openRead_some {bs : List Byte} : openRead w cwd me = some bs ↔
    ∃ e j, LeadsTo w.F cwd me e ∧ w.F e = some (.file j) ∧ bs = w.data j := by
  constructor
  · intro h
    cases hs : stat w.F cwd me with
    | none => simp [openRead, openFile, hs] at h
    | some e =>
      have hl := stat_iff.1 hs
      rw [openRead_eq hl] at h
      split at h
      · rename_i j hj; cases h; exact ⟨e, j, hl, hj, rfl⟩
      · cases h
  · rintro ⟨e, j, hl, hj, rfl⟩
    rw [openRead_eq hl, hj]

theorem start_dir (hF : F.Ok) (hcwd : F cwd = some .dir) : F (startOf cwd me) = some .dir := by
  unfold startOf
  split_ifs
  · exact hF.1
  · exact hcwd

/-- **C165 (when Create succeeds).** `Create` succeeds exactly if the path leads to a file, or if there is a free place such that
the path leads there once a file is there; it opens this place, and there is only one. -/
theorem C165_create_iff (hF : w.F.Ok) (hcwd : w.F cwd = some .dir) (e : List Str) :
    (∃ w', create w cwd me i = some (w', e)) ↔
      (LeadsTo w.F cwd me e ∧ ∃ j, w.F e = some (.file j)) ∨
      (w.F e = none ∧ LeadsTo (w.F.put e (.file i)) cwd me e) := by
  constructor
  · rintro ⟨w', h⟩
    rcases create_cases h with ⟨j, h1, h2, -⟩ | ⟨h1, h2, -⟩
    · exact .inl ⟨h1, j, h2⟩
    · exact .inr ⟨makes_none h2, h1, makes_leads h2 i⟩
  · rintro (⟨h1, j, h2⟩ | ⟨h1, h2, h3⟩)
    · exact ⟨_, create_exists h1 h2⟩
    · refine ⟨_, create_makes h2 (leads_makes hF h3 rfl h1 ?_)⟩
      intro he
      rw [← he, start_dir hF hcwd] at h1
      cases h1

/-- **C165 (the effect of Create).** After `Create` the path leads to the place opened, where an empty file is.  Nothing is
removed or replaced; no other place changes, and the file system is as it should be. -/
theorem C165_create (hF : w.F.Ok) {e : List Str} (h : create w cwd me i = some (w', e)) :
    LeadsTo w'.F cwd me e ∧ openRead w' cwd me = some [] ∧ (∀ q n, w.F q = some n → w'.F q = some n) ∧
      (∀ q, q ≠ e → w'.F q = w.F q) ∧ w'.F.Ok := by
  rcases create_cases h with ⟨j, h1, h2, rfl⟩ | ⟨h1, h2, rfl⟩
  · refine ⟨h1, ?_, fun _ _ h => h, fun _ _ => rfl, hF⟩
    rw [openRead_some]
    exact ⟨e, j, h1, h2, by simp [Store.write]⟩
  · have hl : LeadsTo (w.make e i).F cwd me e := ⟨h1, makes_leads h2 i⟩
    refine ⟨hl, ?_, put_mono (makes_none h2), fun q hq => if_neg hq, ?_⟩
    · rw [openRead_some]
      exact ⟨e, i, hl, if_pos rfl, by simp [Store.make, Store.write]⟩
    · obtain ⟨p, c, rfl, hp⟩ := makes_parent h2
      refine ⟨put_mono (makes_none h2) _ _ hF.1, fun d x hx => ?_⟩
      by_cases hd : d ++ [x] = p ++ [c]
      · obtain ⟨rfl, -⟩ := List.append_inj' hd rfl
        exact put_mono (makes_none h2) _ _ hp
      · exact put_mono (makes_none h2) _ _ (hF.2 d x (by rwa [show (w.make (p ++ [c]) i).F (d ++ [x]) = w.F (d ++ [x]) from if_neg hd] at hx))

/-- **C165 (other files).** After `Create`, with a number of an inode that was not in use, all paths lead where they led.  Those
that lead to the same file, under this or another name, read nothing; all others read what they read. -/
theorem C165_others (hi : ∀ q, w.F q ≠ some (.file i)) {e : List Str} (h : create w cwd me i = some (w', e))
    {p : Str} {cwd' e' : List Str} (hp : LeadsTo w.F cwd' p e') :
    LeadsTo w'.F cwd' p e' ∧ (w'.F e' = w'.F e → openRead w' cwd' p = some []) ∧
      (w'.F e' ≠ w'.F e → openRead w' cwd' p = openRead w cwd' p) := by
  rcases create_cases h with ⟨j, h1, h2, rfl⟩ | ⟨h1, h2, rfl⟩
  · have hp' : LeadsTo (w.write j []).F cwd' p e' := hp
    refine ⟨hp, fun he => ?_, fun he => ?_⟩
    · rw [openRead_some]
      exact ⟨e', j, hp', he.trans h2, by simp [Store.write]⟩
    · rw [openRead_eq hp', openRead_eq hp]
      show (match w.F e' with | some (.file k) => some ((w.write j []).data k) | _ => none) = _
      split
      · rename_i k hk
        have : k ≠ j := by
          rintro rfl
          exact he (hk.trans h2.symm)
        simp [Store.write, this]
      · rfl
  · have hm := put_mono (n := .file i) (makes_none h2)
    have hp' : LeadsTo (w.make e i).F cwd' p e' := ⟨hp.1, hp.2.mono hm⟩
    have hne : e' ≠ e := by
      rintro rfl
      exact hp.2.ne_none (makes_none h2)
    have hF' : (w.make e i).F e' = w.F e' := if_neg hne
    refine ⟨hp', fun he => ?_, fun _ => ?_⟩
    · rw [hF', show (w.make e i).F e = some (.file i) from if_pos rfl] at he
      exact absurd he (hi e')
    · rw [openRead_eq hp', openRead_eq hp, hF']
      split
      · rename_i k hk
        have : k ≠ i := by
          rintro rfl
          exact hi e' hk
        simp [Store.make, Store.write, this]
      · rfl

/-- **C165 (through a link).** `Create` of a symbolic link that leads nowhere makes the file that the link stands for, and keeps
the link. -/
theorem C165_dangling (hF : w.F.Ok) {l e : List Str} {t : Str} (hl : Names w.F cwd me l) (ht : w.F l = some (.link t)) (h0 : t ≠ [])
    (he : w.F e = none) (h : LeadsTo (w.F.put e (.file i)) l.dropLast t e) :
    create w cwd me i = some (w.make e i, e) ∧ (w.make e i).F l = some (.link t) := by
  obtain ⟨cs, c, p, h1, h2, h3, h4, rfl⟩ := hl
  rw [List.dropLast_concat] at h
  refine ⟨create_makes ?_ ?_, put_mono he _ _ ht⟩
  · rintro rfl
    rw [show comps [] = [] ++ [[]] by decide] at h1
    obtain ⟨-, e2⟩ := List.append_inj' h1 rfl
    cases e2
    exact h2.1 rfl
  · rw [h1]
    refine makes_append h3 (.follow h4 h2 ht h0 ?_)
    rw [List.append_nil]
    refine leads_makes hF h.2 rfl he ?_
    intro hx
    have := start_dir (me := t) hF h4
    rw [show startOf p t = e from hx, he] at this
    cases this

/-- **C165 (removing it again).** Where nothing was, `Remove` after `Create` restores the file system. -/
theorem C165_remove {e : List Str} (he : Names w.F cwd me e) (h0 : w.F e = none) :
    ∃ w', create w cwd me i = some (w', e) ∧ remove w'.F cwd me = some w.F := by
  have hm := put_mono (n := .file i) h0
  obtain ⟨cs, c, p, h1, h2, h3, h4, rfl⟩ := he
  have hne : me ≠ [] := by
    rintro rfl
    rw [show comps [] = [] ++ [[]] by decide] at h1
    obtain ⟨-, e2⟩ := List.append_inj' h1 rfl
    cases e2
    exact h2.1 rfl
  refine ⟨_, create_makes hne (by rw [h1]; exact makes_append h3 (.here h4 h2 h0)), ?_⟩
  rw [remove_some (F := (w.make (p ++ [c]) i).F) ⟨cs, c, p, h1, h2, h3.mono hm, hm _ _ h4, rfl⟩]
  · congr 1
    funext q
    unfold FS.del
    split_ifs with hq
    · rw [hq, h0]
    · exact if_neg hq
  · simp [Store.make, Store.write, FS.put]
  · intro hx
    simp [Store.make, Store.write, FS.put] at hx

/-- **C165 (exclusive creation).** With `O_CREATE` and `O_EXCL`, `OpenFile` succeeds exactly if the path names a free place (so
also a link that leads nowhere is in the way); it makes an empty file there. -/
theorem C165_exclusive_iff (wr tr : Bool) (e : List Str) :
    openFile w cwd me ⟨wr, true, true, tr⟩ i = some (w', e) ↔
      Names w.F cwd me e ∧ w.F e = none ∧ w'.F = w.F.put e (.file i) ∧ w'.data i = [] ∧ ∀ j, j ≠ i → w'.data j = w.data j := by
  simp only [openFile, Bool.and_self, if_true]
  constructor
  · intro h
    split_ifs at h with hx
    cases h
    exact ⟨hx.choose_spec.1, hx.choose_spec.2, rfl, by simp [Store.make, Store.write], fun j hj => by simp [Store.make, Store.write, hj]⟩
  · rintro ⟨h1, h2, h3, h4, h5⟩
    have hx : ∃ e, Names w.F cwd me e ∧ w.F e = none := ⟨e, h1, h2⟩
    rw [dif_pos hx, names_unique h1 hx.choose_spec.1]
    congr 2
    cases w' with
    | mk F' d' =>
      simp only at h3 h4 h5
      subst h3
      unfold Store.make Store.write
      congr 1
      funext j
      split_ifs with hj
      · rw [hj, h4]
      · exact (h5 j hj).symm

/-- **C165 (only one succeeds).** After an exclusive creation, as long as nothing is removed, each further exclusive creation of
a path that names the same place fails, whatever was created in between. -/
theorem C165_exclusive_once (wr tr : Bool) {e : List Str} (h : openFile w cwd me ⟨wr, true, true, tr⟩ i = some (w', e))
    {w2 : Store} (hm : ∀ q n, w'.F q = some n → w2.F q = some n) {me' : Str} {cwd' : List Str} (hn : Names w.F cwd' me' e)
    (wr' tr' : Bool) (j : Nat) : openFile w2 cwd' me' ⟨wr', true, true, tr'⟩ j = none := by
  obtain ⟨h1, h2, h3, -, -⟩ := (C165_exclusive_iff wr tr e).1 h
  have hm' : ∀ q n, w.F q = some n → w2.F q = some n := fun q n hq => hm q n (by rw [h3]; exact put_mono h2 _ _ hq)
  obtain ⟨cs, c, p, g1, g2, g3, g4, rfl⟩ := hn
  have hN : Names w2.F cwd' me' (p ++ [c]) := ⟨cs, c, p, g1, g2, g3.mono hm', hm' _ _ g4, rfl⟩
  have hf : w2.F (p ++ [c]) = some (.file i) := hm _ _ (by rw [h3]; exact if_pos rfl)
  cases ho : openFile w2 cwd' me' ⟨wr', true, true, tr'⟩ j with
  | none => rfl
  | some r =>
    obtain ⟨w3, e3⟩ := r
    obtain ⟨k1, k2, -⟩ := (C165_exclusive_iff wr' tr' e3).1 ho
    rw [← names_unique k1 hN, hf] at k2
    cases k2

/-- **C165 (no flags).** `Open`, and `OpenFile` without `O_CREATE` and `O_TRUNC`, change nothing; they succeed only if the path
leads somewhere, and for writing only if there is no directory. -/
theorem C165_open (wr ex : Bool) (e : List Str) (hF : w.F.Ok) :
    openFile w cwd me ⟨wr, false, ex, false⟩ i = some (w', e) ↔
      w' = w ∧ LeadsTo w.F cwd me e ∧ (wr = true → w.F e ≠ some .dir) := by
  simp only [openFile, Bool.false_and, Bool.false_eq_true, if_false, Bool.or_false]
  constructor
  · intro h
    cases hs : stat w.F cwd me with
    | none => rw [hs] at h; cases h
    | some e' =>
      rw [hs] at h
      simp only at h
      split at h
      · rename_i j hj
        cases h
        exact ⟨rfl, stat_iff.1 hs, fun _ => by rw [hj]; simp⟩
      · split_ifs at h with hw
        cases h
        exact ⟨rfl, stat_iff.1 hs, fun hx => absurd hx hw⟩
  · rintro ⟨rfl, h1, h2⟩
    rw [stat_iff.2 h1]
    simp only
    split
    · rfl
    · rename_i hn
      rw [if_neg]
      intro hw
      cases hx : w'.F e with
      | none => exact h1.2.ne_none hx
      | some n =>
        cases n with
        | file j => exact hn j hx
        | dir => exact h2 hw hx
        | link t => exact leads_nolink hF h1.2 (.inl (comps_ne_nil _)) t hx

/-- **C165 (the other flags).** With `O_CREATE` but not `O_EXCL`, `OpenFile` does what `Create` does; only a file there was keeps
its content without `O_TRUNC`.  With `O_TRUNC` but not `O_CREATE` it does what `Create` does if the path leads somewhere, and
fails otherwise. -/
theorem C165_flags (wr ex tr : Bool) :
    ((∀ e, ¬ LeadsTo w.F cwd me e) → openFile w cwd me ⟨wr, true, false, tr⟩ i = create w cwd me i ∧
      openFile w cwd me ⟨wr, false, ex, true⟩ i = none) ∧
    (∀ e, LeadsTo w.F cwd me e →
      openFile w cwd me ⟨wr, true, false, tr⟩ i = (create w cwd me i).map (fun r => (if tr then r.1 else w, r.2)) ∧
      openFile w cwd me ⟨wr, false, ex, true⟩ i = create w cwd me i) := by
  refine ⟨fun h => ?_, fun e h => ?_⟩
  · have hs := stat_none h
    exact ⟨by simp only [create, openFile, hs], by simp [openFile, hs]⟩
  · have hs := stat_iff.2 h
    constructor
    · simp only [create, openFile, hs, Bool.and_false, Bool.false_eq_true, if_false, if_true]
      split <;> simp
    · simp only [create, openFile, hs, Bool.and_false, Bool.false_and, Bool.false_eq_true, if_false, if_true]
      split <;> simp

/-- A path that names a file leads there. -/
theorem names_leads_file {e : List Str} {j : Nat} (h : Names F cwd me e) (hj : F e = some (.file j)) : LeadsTo F cwd me e := by
  obtain ⟨cs, c, p, h1, h2, h3, h4, rfl⟩ := h
  refine ⟨comps_name_nonempty h1 h2.1, ?_⟩
  rw [h1]
  exact Leads.append h3 (.down h4 h2 hj (by simp) (.done (by rw [hj]; simp)))

/-- **C165 (names of one file).** After `Link` of a file both names read what the old one read; and as long as only contents are
written, the two names always read the same. -/
theorem C165_link {linkname n : Str} {F' : FS} (h : link w.F cwd me linkname n F') {a : List Str} {j : Nat}
    (ha : Names w.F cwd me a) (hj : w.F a = some (.file j)) :
    openRead ⟨F', w.data⟩ cwd n = openRead w cwd me ∧ openRead w cwd me = some (w.data j) ∧
    ∀ w2 : Store, w2.F = F' → openRead w2 cwd n = openRead w2 cwd me := by
  obtain ⟨-, a', e, nd, hA, hn, -, hE, he, rfl⟩ := h
  cases names_unique ha hA
  rw [hj] at hn
  cases hn
  have hm := put_mono (n := .file j) he
  have hold := names_leads_file ha hj
  have hme : LeadsTo (w.F.put e (.file j)) cwd me a := ⟨hold.1, hold.2.mono hm⟩
  have hnew : LeadsTo (w.F.put e (.file j)) cwd n e := by
    obtain ⟨cs, c, p, h1, h2, h3, h4, rfl⟩ := hE
    exact names_leads_file (j := j) ⟨cs, c, p, h1, h2, h3.mono hm, hm _ _ h4, rfl⟩ (if_pos rfl)
  have hr : openRead w cwd me = some (w.data j) := openRead_some.2 ⟨a, j, hold, hj, rfl⟩
  have two : ∀ w2 : Store, w2.F = w.F.put e (.file j) →
      openRead w2 cwd n = some (w2.data j) ∧ openRead w2 cwd me = some (w2.data j) := fun w2 h2 =>
    ⟨openRead_some.2 ⟨e, j, h2 ▸ hnew, by rw [h2]; exact if_pos rfl, rfl⟩,
      openRead_some.2 ⟨a, j, h2 ▸ hme, by rw [h2]; exact hm _ _ hj, rfl⟩⟩
  exact ⟨(two ⟨_, w.data⟩ rfl).1.trans hr.symm, hr, fun w2 h2 => (two w2 h2).1.trans (two w2 h2).2.symm⟩

/-- Files are not on the way to a directory. -/
theorem leads_dirs {F' : FS} (hm : ∀ q n, F q = some n → (∀ j, n ≠ .file j) → F' q = some n) {d cs p : List Str}
    (h : Leads F d cs p) (hp : F p = some .dir) : Leads F' d cs p := by
  induction h with
  | done _ => exact .done (by rw [hm _ _ hp (by simp)]; simp)
  | stay h1 h2 _ ih => exact .stay (hm _ _ h1 (by simp)) h2 (ih hp)
  | up h1 _ ih => exact .up (hm _ _ h1 (by simp)) (ih hp)
  | @down d c cs n e h1 h2 h3 h4 h5 ih =>
    refine .down (hm _ _ h1 (by simp)) h2 (hm _ _ h3 ?_) h4 (ih hp)
    rintro j rfl
    cases cs with
    | nil =>
      have := (leads_nil.1 h5).1
      subst this
      rw [h3] at hp
      cases hp
    | cons x cs =>
      have := leads_head_dir h5
      rw [h3] at this
      cases this
  | follow h1 h2 h3 h4 _ ih => exact .follow (hm _ _ h1 (by simp)) h2 (hm _ _ h3 (by simp)) h4 (ih hp)

/-- **C165 (moving a file).** After `Rename` of a file to a free name, the new name reads what the old one read, and the old
name leads nowhere. -/
theorem C165_rename (hF : w.F.Ok) {newname n : Str} {F' : FS} (h : rename w.F cwd me newname n F') {a : List Str} {j : Nat}
    (ha : Names w.F cwd me a) (hj : w.F a = some (.file j)) (hfree : ∀ e, Names w.F cwd n e → w.F e = none) :
    openRead ⟨F', w.data⟩ cwd n = openRead w cwd me ∧ openRead w cwd me = some (w.data j) ∧
      ∀ e, ¬ LeadsTo F' cwd me e := by
  obtain ⟨-, a', e, hA, -, hE, -, -, hcase⟩ := h
  cases names_unique ha hA
  have he := hfree e hE
  have hne : ¬ (a = e ∨ ∃ i, w.F a = some (.file i) ∧ w.F e = some (.file i)) := by
    rintro (rfl | ⟨i, -, h2⟩)
    · rw [hj] at he; cases he
    · rw [h2] at he; cases he
  rcases hcase with ⟨hc, -⟩ | ⟨-, hae, rfl⟩
  · exact absurd hc hne
  have hea : ¬ e <+: a := by
    intro hx
    rw [Ok.below hF he a hx] at hj
    cases hj
  have hm : ∀ q n, w.F q = some n → (∀ j, n ≠ .file j) → w.F.move a e q = some n := by
    intro q n hq hn
    unfold FS.move
    rw [if_neg, if_neg, hq]
    · rintro ⟨t, rfl⟩
      induction t using List.reverseRecOn generalizing n with
      | nil =>
        rw [List.append_nil, hj] at hq
        cases hq
        exact hn j rfl
      | append_singleton t c ih =>
        rw [← List.append_assoc] at hq
        exact ih .dir (by simp) (hF.2 _ c (by rw [hq]; simp))
    · intro hx
      rw [Ok.below hF he q hx] at hq
      cases hq
  have hold := names_leads_file ha hj
  have hr : openRead w cwd me = some (w.data j) := openRead_some.2 ⟨a, j, hold, hj, rfl⟩
  refine ⟨?_, hr, ?_⟩
  · rw [hr]
    obtain ⟨cs, c, p, h1, h2, h3, h4, rfl⟩ := hE
    have hnode : w.F.move a (p ++ [c]) (p ++ [c]) = some (.file j) := by
      unfold FS.move
      rw [if_pos (List.prefix_refl _), List.drop_length, List.append_nil, hj]
    exact openRead_some.2 ⟨p ++ [c], j,
      names_leads_file ⟨cs, c, p, h1, h2, leads_dirs hm h3 h4, hm _ _ h4 (by simp), rfl⟩ hnode, hnode, rfl⟩
  · obtain ⟨cs, c, p, h1, h2, h3, h4, rfl⟩ := ha
    rintro e' ⟨-, hl⟩
    rw [h1] at hl
    obtain ⟨p', g1, g2⟩ := leads_append.1 hl
    cases Leads.unique g1 (leads_dirs hm h3 h4)
    have hgone : w.F.move (p ++ [c]) e (p ++ [c]) = none := by
      unfold FS.move
      rw [if_neg hea, if_pos (List.prefix_refl _)]
    exact leads_plain h2 g2 hgone

/-- **C166 (when Truncate succeeds).** Exactly for sizes that are not negative and paths that can be read. -/
theorem C166_iff (size : Int) : (∃ w', truncate w cwd me size = some w') ↔ 0 ≤ size ∧ ∃ bs, openRead w cwd me = some bs := by
  constructor
  · rintro ⟨w', h⟩
    unfold truncate at h
    split_ifs at h with hs
    cases hst : stat w.F cwd me with
    | none => rw [hst] at h; cases h
    | some e =>
      rw [hst] at h
      simp only at h
      split at h
      · rename_i j hj
        exact ⟨by omega, _, openRead_some.2 ⟨e, j, stat_iff.1 hst, hj, rfl⟩⟩
      · cases h
  · rintro ⟨h0, bs, h⟩
    obtain ⟨e, j, h1, h2, rfl⟩ := openRead_some.1 h
    unfold truncate
    rw [if_neg (by omega), stat_iff.2 h1]
    simp only [h2]
    exact ⟨_, rfl⟩

theorem truncate_cases {size : Int} (h : truncate w cwd me size = some w') : 0 ≤ size ∧ ∃ e j, LeadsTo w.F cwd me e ∧
    w.F e = some (.file j) ∧
    w' = w.write j ((w.data j).take size.toNat ++ List.replicate (size.toNat - (w.data j).length) 0) := by
  unfold truncate at h
  split_ifs at h with hs
  cases hst : stat w.F cwd me with
  | none => rw [hst] at h; cases h
  | some e =>
    rw [hst] at h
    simp only at h
    split at h
    · rename_i j hj
      cases h
      exact ⟨by omega, e, j, stat_iff.1 hst, hj, rfl⟩
    · cases h

/-- **C166 (the effect of Truncate).** The file has the size asked for, with the bytes it had and zeros after them.  The file
system is the same. -/
theorem C166_truncate {size : Int} (h : truncate w cwd me size = some w') : w'.F = w.F ∧ ∃ old new,
    openRead w cwd me = some old ∧ openRead w' cwd me = some new ∧ (new.length : Int) = size ∧
    ∀ k < new.length, new[k]? = some (old[k]?.getD 0) := by
  obtain ⟨h0, e, j, h1, h2, rfl⟩ := truncate_cases h
  refine ⟨rfl, w.data j, _, openRead_some.2 ⟨e, j, h1, h2, rfl⟩,
    openRead_some.2 ⟨e, j, h1, h2, by simp only [Store.write, if_true]; rfl⟩, ?_, ?_⟩
  · simp only [List.length_append, List.length_take, List.length_replicate]
    omega
  · intro k hk
    simp only [List.length_append, List.length_take, List.length_replicate] at hk
    by_cases hkl : k < (w.data j).length
    · rw [List.getElem?_append_left (by simp; omega), List.getElem?_take_of_lt (by omega), List.getElem?_eq_getElem hkl]
      rfl
    · rw [List.getElem?_append_right (by simp; omega), List.getElem?_replicate, if_pos (by simp; omega),
        List.getElem?_eq_none (by omega)]
      rfl

/-- **C166 (other files).** After `Truncate`, paths that lead to the same file read the same as the path; all others read what they
read. -/
theorem C166_others {size : Int} (h : truncate w cwd me size = some w') {e : List Str} (he : LeadsTo w.F cwd me e)
    {p : Str} {cwd' e' : List Str} (hp : LeadsTo w.F cwd' p e') :
    (w.F e' = w.F e → openRead w' cwd' p = openRead w' cwd me) ∧
      (w.F e' ≠ w.F e → openRead w' cwd' p = openRead w cwd' p) := by
  obtain ⟨h0, e1, j, h1, h2, rfl⟩ := truncate_cases h
  cases Leads.unique h1.2 he.2
  generalize hb : (w.data j).take size.toNat ++ List.replicate (size.toNat - (w.data j).length) 0 = bs
  have hp' : LeadsTo (w.write j bs).F cwd' p e' := hp
  have he' : LeadsTo (w.write j bs).F cwd me e := he
  refine ⟨fun hx => ?_, fun hx => ?_⟩
  · rw [openRead_eq hp', openRead_eq he', show (w.write j bs).F = w.F from rfl, hx]
  · rw [openRead_eq hp', openRead_eq hp, show (w.write j bs).F = w.F from rfl]
    split
    · rename_i k hk
      have : k ≠ j := by
        rintro rfl
        exact hx (hk.trans h2.symm)
      simp [Store.write, this]
    · rfl

/-- **C166 (Create truncates).** On a path that can be read, `Create` does what `Truncate` to zero does. -/
theorem C166_create {bs : List Byte} (h : openRead w cwd me = some bs) :
    ∃ w' e, create w cwd me i = some (w', e) ∧ truncate w cwd me 0 = some w' := by
  obtain ⟨e, j, h1, h2, -⟩ := openRead_some.1 h
  refine ⟨_, e, create_exists h1 h2, ?_⟩
  unfold truncate
  rw [if_neg (by omega), stat_iff.2 h1]
  simp [h2]

/-! ## Concrete cases -/

/-- The demonstration, with contents. -/
def demoStore : Store := ⟨demo, fun j => List.replicate j 7⟩

/-- `a/d` is free. -/
theorem demo_free : Names demo [] ['a', '/', 'd'] [['a'], ['d']] :=
  ⟨[['a']], ['d'], [['a']], by decide, by decide,
    .down (n := .dir) (by decide) (by decide) (by decide) (by simp) (.done (by decide)), by decide, rfl⟩

example := C165_remove (w := demoStore) (i := 5) demo_free (by decide)

/-- `a/c` is a file. -/
theorem demo_file : LeadsTo demo [] ['a', '/', 'c'] [['a'], ['c']] :=
  ⟨by decide, .down (n := .dir) (by decide) (by decide) (by decide) (by simp)
    (.down (n := .file 1) (by decide) (by decide) (by decide) (by simp) (.done (by decide)))⟩

/-- C165_create and C165_others: creating `a/c` again keeps the content of `c`. -/
example : openRead demoStore [] ['c'] = some [7, 7] ∧
    ∃ w', create demoStore [] ['a', '/', 'c'] 5 = some (w', [['a'], ['c']]) ∧ openRead w' [] ['a', '/', 'c'] = some [] ∧
      openRead w' [] ['c'] = some [7, 7] := by
  have hc : LeadsTo demo [] ['c'] [['c']] :=
    ⟨by decide, .down (n := .file 2) (by decide) (by decide) (by decide) (by simp) (.done (by decide))⟩
  have h1 : openRead demoStore [] ['c'] = some [7, 7] := openRead_some.2 ⟨_, 2, hc, by decide, rfl⟩
  have h2 : create demoStore [] ['a', '/', 'c'] 5 = some (demoStore.write 1 [], [['a'], ['c']]) :=
    create_exists demo_file (by decide)
  refine ⟨h1, _, h2, (C165_create demo_ok h2).2.1, ?_⟩
  rw [(C165_others (p := ['c']) (cwd' := []) (fun q => ?_) h2 hc).2.2, h1]
  · show demo [['c']] ≠ demo [['a'], ['c']]
    decide
  · show demo q ≠ _
    unfold demo
    split_ifs <;> simp

/-- C166: a file of one byte is made longer. -/
example : ∃ w', truncate demoStore [] ['a', '/', 'c'] 3 = some w' ∧ openRead w' [] ['a', '/', 'c'] = some [7, 0, 0] := by
  refine ⟨demoStore.write 1 [7, 0, 0], ?_, openRead_some.2 ⟨_, 1, demo_file, by decide, rfl⟩⟩
  unfold truncate
  rw [if_neg (by decide), show stat demoStore.F [] ['a', '/', 'c'] = some _ from stat_iff.2 demo_file]
  rfl

/-- C165_link: `a/d` becomes a name of `a/c`. -/
example := C165_link (w := demoStore) (cwd := []) (me := ['a', '/', 'c']) (linkname := ['d']) (n := ['a', '/', 'd'])
  (F' := demo.put [['a'], ['d']] (.file 1)) (a := [['a'], ['c']]) (j := 1)
  ⟨by decide +kernel, [['a'], ['c']], _, .file 1,
    ⟨[['a']], ['c'], [['a']], by decide, by decide,
      .down (n := .dir) (by decide) (by decide) (by decide) (by simp) (.done (by decide)), by decide, rfl⟩,
    by decide, by decide, demo_free, by decide, rfl⟩
  ⟨[['a']], ['c'], [['a']], by decide, by decide,
    .down (n := .dir) (by decide) (by decide) (by decide) (by simp) (.done (by decide)), by decide, rfl⟩ (by decide)

/-- C165_rename: `a/c` becomes `a/d`. -/
example := C165_rename (w := demoStore) (cwd := []) (me := ['a', '/', 'c']) (newname := ['d']) (n := ['a', '/', 'd'])
  (F' := demo.move [['a'], ['c']] [['a'], ['d']]) (a := [['a'], ['c']]) (j := 1) demo_ok
  ⟨by decide +kernel, [['a'], ['c']], [['a'], ['d']],
    ⟨[['a']], ['c'], [['a']], by decide, by decide,
      .down (n := .dir) (by decide) (by decide) (by decide) (by simp) (.done (by decide)), by decide, rfl⟩,
    by decide, demo_free, by decide, by decide, .inr ⟨by simp [demoStore, demo], by decide, rfl⟩⟩
  ⟨[['a']], ['c'], [['a']], by decide, by decide,
    .down (n := .dir) (by decide) (by decide) (by decide) (by simp) (.done (by decide)), by decide, rfl⟩ (by decide)
  (fun e he => by rw [← names_unique he demo_free]; decide)

/-- C165_exclusive_iff: `a/d` can be created exclusively, and only once. -/
example : ∃ w', openFile demoStore [] ['a', '/', 'd'] ⟨true, true, true, false⟩ 5 = some (w', [['a'], ['d']]) ∧
    openFile w' [] ['a', '/', 'd'] ⟨true, true, true, false⟩ 6 = none := by
  have h := (C165_exclusive_iff (w := demoStore) (w' := demoStore.make [['a'], ['d']] 5) (cwd := []) (me := ['a', '/', 'd']) (i := 5)
    true false [['a'], ['d']]).2 ⟨demo_free, by decide, rfl, rfl, fun j hj => by simp [Store.make, Store.write, hj]⟩
  exact ⟨_, h, C165_exclusive_once true false h (fun _ _ h => h) demo_free true false 6⟩

/-- C165_dangling: the link `/k` to `a/d`, where nothing is. -/
def danglingDemo : Store := ⟨demo.put [['k']] (.link ['a', '/', 'd']), fun _ => []⟩

theorem danglingDemo_ok : danglingDemo.F.Ok := by
  refine ⟨by decide, fun d c h => ?_⟩
  by_cases hd : d ++ [c] = [['k']]
  · have : d = [] := by
      have := congrArg List.length hd
      simpa using this
    subst this
    decide
  · have h' : demo (d ++ [c]) ≠ none := by rwa [show danglingDemo.F (d ++ [c]) = demo (d ++ [c]) from if_neg hd] at h
    exact put_mono (by decide) _ _ (demo_ok.2 d c h')

example : create danglingDemo [] ['k'] 5 = some (danglingDemo.make [['a'], ['d']] 5, [['a'], ['d']]) :=
  (C165_dangling (w := danglingDemo) (l := [['k']]) (t := ['a', '/', 'd']) danglingDemo_ok
    ⟨[], ['k'], [], by decide, by decide, .done (by decide), by decide, rfl⟩ (by decide) (by decide) (by decide)
    ⟨by decide, .down (n := .dir) (by decide) (by decide) (by decide) (by simp)
      (.down (n := .file 5) (by decide) (by decide) (by decide) (by simp) (.done (by decide)))⟩).1

end Verif.FsLinks
