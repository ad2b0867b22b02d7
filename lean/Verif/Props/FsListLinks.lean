import Verif.Model.FsListLinks
import Verif.Props.FsFollow
import Verif.Props.FsList
/-!
# C135: directory listing among symbolic links
-/

set_option linter.unusedSectionVars false

namespace Verif.FsLinks
open Verif.Spec Verif.Path
open Verif.Fs (has hasAny fsDir fsFile fsFullPath fsDeep fsLeaf)

/-! ## Specification -/

/-- The places below `e`, given by the names from `e` on, that a listing with these options has to give.  Symbolic links are
entries that are no directories, whatever they lead to. -/
def SelectedAt (opt : Fs.Opt) (W : World) (e p : List Str) : Prop :=
  (p ≠ [] ∧ W.F (e ++ p) ≠ none ∧ (has opt fsDeep ∨ has opt fsLeaf ∨ p.length = 1) ∧
    ((W.F (e ++ p) ≠ some .dir ∧ has opt fsFile) ∨ (W.F (e ++ p) = some .dir ∧ has opt fsDir ∧ ¬ has opt fsLeaf))) ∨
  (W.F (e ++ p) = some .dir ∧ (∀ c, W.F (e ++ p ++ [c]) ≠ some .dir) ∧ has opt fsLeaf ∧ has opt fsDir)

/-- The text for a place below the directory that the text `dir` leads to: the text with the names added, or the last
name. -/
def textAt (opt : Fs.Opt) (dir : Str) (p : List Str) : Str :=
  if has opt fsFullPath then p.foldl joinChild dir else p.getLastD (fileName dir)

/-- The path leads to the place, and so does the path object made from it. -/
def Stable (W : World) (cwd : List Str) (dir : Str) (e : List Str) : Prop :=
  LeadsTo W.F cwd dir e ∧ LeadsTo W.F cwd (filePath dir) e

/-! ## Lemmas -/

theorem comps_fileName (s : Str) : ∃ pre, comps s = pre ++ [fileName s] := by
  obtain ⟨h1, h2, h3⟩ := split_spec s
  rcases h3 with h3 | ⟨a, h3⟩
  · refine ⟨[], ?_⟩
    rw [h3] at h1
    simp only [List.nil_append] at h1 ⊢
    show comps s = [(split s).2]
    rw [← comps_noslash _ h2, h1]
  · refine ⟨comps a, ?_⟩
    show comps s = comps a ++ [(split s).2]
    rw [← comps_noslash _ h2, ← comps_append]
    congr 1
    conv => lhs; rw [← h1, h3]
    simp

theorem child_of_clean {dir c : Str} (hne : dir ≠ []) (h : Name c) : joinChild dir c = joinChild (clean dir) c := by
  rw [child_eq (clean_clean dir) h, rooted_clean, form_clean]
  unfold joinChild
  rw [joins_cons hne]
  show clean (dir ++ '/' :: c) = _
  have e2 : rooted (dir ++ '/' :: c) = rooted dir := rooted_append hne _
  rw [clean_eq, e2]
  congr 1
  rw [form, comps_append, e2, List.foldl_append, comps_noslash _ h.2.2.2]
  have : (comps dir).foldl (fstep (rooted dir)) (0, []) = form dir := rfl
  rw [this]
  simp [fstep, h.1, h.2.1, h.2.2.1]

theorem child_fileName {dir c : Str} (hne : dir ≠ []) (h : Name c) : fileName (joinChild dir c) = c := by
  rw [child_of_clean hne h]
  obtain ⟨-, cs, h2, -⟩ := child_comps (clean_clean dir) h
  obtain ⟨pre, h3⟩ := comps_fileName (joinChild (clean dir) c)
  have := (List.append_inj' (h3.symm.trans h2) rfl).2
  simpa using this

variable {W : World} {cwd : List Str}

theorem name_of (hW : W.Ok) {e : List Str} (hd : W.F e = some .dir) {c : Str} (h : W.F (e ++ [c]) ≠ none) : Name c := by
  have hpl := hW.plain e c hd ((hW.mem e c hd).2 h)
  exact ⟨hpl.1.1, hpl.1.2.1, hpl.1.2.2, hpl.2⟩

theorem stable_child (hW : W.Ok) {dir : Str} {e : List Str} (hs : Stable W cwd dir e) (hd : W.F e = some .dir) {c : Str}
    (hcd : W.F (e ++ [c]) = some .dir) : Stable W cwd (joinChild dir c) (e ++ [c]) := by
  have hn : Name c := name_of hW hd (by rw [hcd]; simp)
  have hp : Plain c := ⟨hn.1, hn.2.1, hn.2.2.1⟩
  have h1 : LeadsTo W.F cwd (joinChild dir c) (e ++ [c]) := by
    rw [child_of_clean hs.1.1 hn]
    exact (child_leads (clean_clean dir) hn hs.2 hd _).2 (.down hd hp hcd (by simp) (.done (by rw [hcd]; simp)))
  refine ⟨h1, ?_⟩
  unfold filePath
  rw [child_clean dir c hs.1.1]
  exact h1

theorem textAt_cons (opt : Fs.Opt) {dir c : Str} (hne : dir ≠ []) (hn : Name c) (p : List Str) :
    textAt opt dir (c :: p) = textAt opt (joinChild dir c) p := by
  unfold textAt
  split
  · rfl
  · cases p with
    | nil => simp [child_fileName hne hn]
    | cons x p => simp [List.getLast?_cons]

theorem pick_eq (opt : Fs.Opt) (dir c : Str) : pick opt (joins [dir, c]) c = textAt opt dir [c] := by
  unfold pick textAt; rfl

theorem parent_dir (hW : W.Ok) {e : List Str} (p : List Str) (h : W.F (e ++ p) ≠ none) (hp : p ≠ []) : W.F e = some .dir := by
  induction p using List.reverseRecOn generalizing e with
  | nil => exact absurd rfl hp
  | append_singleton p c ih =>
    rw [← List.append_assoc] at h
    have := hW.fs.2 _ _ h
    by_cases hp : p = []
    · subst hp; simpa using this
    · exact ih (by rw [this]; simp) hp

/-- What is selected below an entry. -/
theorem selected_cons (hW : W.Ok) (opt : Fs.Opt) {e : List Str} (c : Str) (p : List Str) :
    SelectedAt opt W e (c :: p) ↔
      if W.F (e ++ [c]) = some .dir then
        (p = [] ∧ has opt fsDir ∧ ¬ has opt fsLeaf) ∨ ((has opt fsDeep ∨ has opt fsLeaf) ∧ SelectedAt opt W (e ++ [c]) p)
      else p = [] ∧ W.F (e ++ [c]) ≠ none ∧ has opt fsFile := by
  have e1 : e ++ c :: p = e ++ [c] ++ p := by simp
  by_cases hd : W.F (e ++ [c]) = some .dir
  · rw [if_pos hd]
    unfold SelectedAt
    rw [e1]
    by_cases hp : p = []
    · subst hp
      simp only [List.append_nil, hd]
      simp
      tauto
    · have hl : (c :: p).length ≠ 1 := by cases p with
        | nil => exact absurd rfl hp
        | cons => simp
      simp only [hp, hl, ne_eq, not_false_eq_true, true_and, false_and, false_or, or_false, reduceCtorEq]
      tauto
  · rw [if_neg hd]
    unfold SelectedAt
    rw [e1]
    by_cases hp : p = []
    · subst hp
      simp only [List.append_nil, hd]
      simp [hd]
    · have hno : W.F (e ++ [c] ++ p) = none := by
        by_contra hx
        exact hd (parent_dir hW p hx hp)
      rw [hno]
      simp [hp]

theorem selected_nil (opt : Fs.Opt) (e : List Str) :
    SelectedAt opt W e [] ↔ W.F e = some .dir ∧ (∀ c, W.F (e ++ [c]) ≠ some .dir) ∧ has opt fsLeaf ∧ has opt fsDir := by
  unfold SelectedAt; simp

/-- The loop over the entries. -/
theorem entries_spec (hW : W.Ok) (opt : Fs.Opt) (rec : Str → Option (List Str × Bool)) {dir : Str} {e : List Str}
    (hne : dir ≠ []) (hd : W.F e = some .dir) (hrec : ∀ c, W.F (e ++ [c]) = some .dir → ∃ ps : List (List Str), ps.Nodup ∧
      (∀ p, p ∈ ps ↔ SelectedAt opt W (e ++ [c]) p) ∧
      rec (joinChild dir c) = some (ps.map (textAt opt (joinChild dir c)), false)) :
    ∀ (cs : List Str) (subs : List Str) (b : Bool), cs.Nodup → (∀ c ∈ cs, c ∈ W.list e) →
      ∃ ps : List (List Str), ps.Nodup ∧
        (∀ p, p ∈ ps ↔ ∃ c q, p = c :: q ∧ c ∈ cs ∧ SelectedAt opt W e p) ∧
        entries rec W opt dir e subs b cs =
          some (subs ++ ps.map (textAt opt dir), b || cs.any (fun c => decide (W.F (e ++ [c]) = some .dir)), false) := by
  intro cs
  induction cs with
  | nil => intro subs b _ _; exact ⟨[], by simp, by simp, by simp [entries]⟩
  | cons c cs ih =>
    intro subs b hnd hmem
    have hcl : c ∈ W.list e := hmem c (by simp)
    have hx := (hW.mem e c hd).1 hcl
    have hn : Name c := name_of hW hd hx
    obtain ⟨hc, hnd'⟩ := List.nodup_cons.1 hnd
    have hmem' : ∀ c ∈ cs, c ∈ W.list e := fun c h => hmem c (by simp [h])
    -- the part of this entry, then the rest
    have glue : ∀ (own : List (List Str)) (b' : Bool), own.Nodup → (∀ p, p ∈ own ↔ ∃ q, p = c :: q ∧ SelectedAt opt W e p) →
        entries rec W opt dir e subs b (c :: cs) = entries rec W opt dir e (subs ++ own.map (textAt opt dir)) b' cs →
        (b' || cs.any (fun c => decide (W.F (e ++ [c]) = some .dir))) =
          (b || (c :: cs).any (fun c => decide (W.F (e ++ [c]) = some .dir))) →
        ∃ ps : List (List Str), ps.Nodup ∧
        (∀ p, p ∈ ps ↔ ∃ c' q, p = c' :: q ∧ c' ∈ c :: cs ∧ SelectedAt opt W e p) ∧
        entries rec W opt dir e subs b (c :: cs) =
          some (subs ++ ps.map (textAt opt dir), b || (c :: cs).any (fun c => decide (W.F (e ++ [c]) = some .dir)), false) := by
      intro own b' ho1 ho2 hE hB
      obtain ⟨ps, h1, h2, h3⟩ := ih (subs ++ own.map (textAt opt dir)) b' hnd' hmem'
      refine ⟨own ++ ps, ?_, ?_, ?_⟩
      · rw [List.nodup_append]
        refine ⟨ho1, h1, ?_⟩
        rintro p hp q hq rfl
        obtain ⟨q1, e1, -⟩ := (ho2 p).1 hp
        obtain ⟨c2, q2, e2, hc2, -⟩ := (h2 p).1 hq
        rw [e1] at e2
        cases e2
        exact hc hc2
      · intro p
        rw [List.mem_append, ho2, h2]
        constructor
        · rintro (⟨q, e1, hs⟩ | ⟨c', q, e1, hc', hs⟩)
          · exact ⟨c, q, e1, by simp, hs⟩
          · exact ⟨c', q, e1, by simp [hc'], hs⟩
        · rintro ⟨c', q, e1, hc', hs⟩
          rcases List.mem_cons.1 hc' with rfl | hc'
          · exact .inl ⟨q, e1, hs⟩
          · exact .inr ⟨c', q, e1, hc', hs⟩
      · rw [hE, h3, hB]; simp
    by_cases hcd : W.F (e ++ [c]) = some .dir
    · have hsel := selected_cons hW opt (e := e) c
      simp only [if_pos hcd] at hsel
      have hdots : ¬ (c = ['.'] ∨ c = ['.', '.']) := by
        rintro (h | h)
        · exact hn.2.1 h
        · exact hn.2.2.1 h
      have own1 : subs ++ ((if has opt fsDir && !has opt fsLeaf then [[c]] else []).map (textAt opt dir)) =
          if has opt fsDir && !has opt fsLeaf then subs ++ [pick opt (joins [dir, c]) c] else subs := by
        split <;> simp [pick_eq]
      by_cases hdeep : (has opt fsDeep || has opt fsLeaf) = true
      · obtain ⟨qs, g1, g2, g3⟩ := hrec c hcd
        refine glue ((if has opt fsDir && !has opt fsLeaf then [[c]] else []) ++ qs.map (c :: ·)) true ?_ ?_ ?_ (by simp [hcd])
        · rw [List.nodup_append]
          refine ⟨by split <;> simp, g1.map (by intro a b h; simpa using h), ?_⟩
          rintro p hp q hq rfl
          split at hp
          · rename_i hcond
            simp only [List.mem_singleton] at hp
            subst hp
            rw [List.mem_map] at hq
            obtain ⟨r, hr, e1⟩ := hq
            simp only [List.cons.injEq, true_and] at e1
            subst e1
            have := (selected_nil opt _).1 ((g2 []).1 hr)
            simp [this.2.2.1] at hcond
          · simp at hp
        · intro p
          rw [List.mem_append]
          constructor
          · rintro (hp | hp)
            · split at hp
              · rename_i hcond
                simp only [List.mem_singleton] at hp
                subst hp
                refine ⟨[], rfl, (hsel []).2 (.inl ⟨rfl, ?_⟩)⟩
                simpa using hcond
              · simp at hp
            · rw [List.mem_map] at hp
              obtain ⟨r, hr, rfl⟩ := hp
              exact ⟨r, rfl, (hsel r).2 (.inr ⟨by simpa using hdeep, (g2 r).1 hr⟩)⟩
          · rintro ⟨q, rfl, hs⟩
            rcases (hsel q).1 hs with ⟨rfl, h1, h2⟩ | ⟨-, h2⟩
            · left; rw [if_pos (by simp [h1, h2])]; simp
            · right; rw [List.mem_map]; exact ⟨q, (g2 q).2 h2, rfl⟩
        · have hr : rec (joins [dir, c]) = _ := g3
          rw [entries]
          simp only [if_pos hcd, if_neg hdots, Fs.hasAny_deepLeaf, hdeep, if_true, hr]
          rw [List.map_append, ← List.append_assoc, own1]
          congr 2
          rw [List.map_map]
          apply List.map_congr_left
          intro q _
          exact (textAt_cons opt hne hn q).symm
      · refine glue (if has opt fsDir && !has opt fsLeaf then [[c]] else []) true (by split <;> simp) ?_ ?_ (by simp [hcd])
        · intro p
          constructor
          · intro hp
            split at hp
            · rename_i hcond
              simp only [List.mem_singleton] at hp
              subst hp
              exact ⟨[], rfl, (hsel []).2 (.inl ⟨rfl, by simpa using hcond⟩)⟩
            · simp at hp
          · rintro ⟨q, rfl, hs⟩
            rcases (hsel q).1 hs with ⟨rfl, h1, h2⟩ | ⟨h1, -⟩
            · rw [if_pos (by simp [h1, h2])]; simp
            · exact absurd (by simpa using h1) hdeep
        · rw [entries]
          simp only [if_pos hcd, if_neg hdots, Fs.hasAny_deepLeaf, hdeep]
          rw [own1]; simp
    · have hsel := selected_cons hW opt (e := e) c
      simp only [if_neg hcd] at hsel
      refine glue (if has opt fsFile then [[c]] else []) b (by split <;> simp) ?_ ?_ (by simp [hcd])
      · intro p
        constructor
        · intro hp
          split at hp
          · rename_i hcond
            simp only [List.mem_singleton] at hp
            subst hp
            exact ⟨[], rfl, (hsel []).2 ⟨rfl, hx, hcond⟩⟩
          · simp at hp
        · rintro ⟨q, rfl, hs⟩
          obtain ⟨rfl, -, h2⟩ := (hsel q).1 hs
          rw [if_pos h2]; simp
      · rw [entries]
        simp only [if_neg hcd]
        congr 1
        split <;> simp [pick_eq]

/-! ## Theorems -/

/-- **C135 (listing).** Let a path lead to a directory, and let the path object made from it lead there too.  If nothing below
the directory is more than `k` names deep, `CollectSubs` returns, without an error, the texts of exactly the selected
places below, each exactly once.  A symbolic link is listed like a file and never followed, so circular links do no
harm.  Missing: paths with `..` after a symbolic link (C135_stable, C135_false). -/
theorem C135_listing_partial (hW : W.Ok) (opt : Fs.Opt) : ∀ (k : Nat) (dir : Str) (e : List Str), Stable W cwd dir e →
    W.F e = some .dir → (∀ p, W.F (e ++ p) ≠ none → p.length ≤ k) →
    ∃ ps : List (List Str), ps.Nodup ∧ (∀ p, p ∈ ps ↔ SelectedAt opt W e p) ∧
      collectSubs W cwd opt (k + 1) dir = some (ps.map (textAt opt dir), false) := by
  intro k
  induction k with
  | zero =>
    intro dir e hs hd hk
    have hlist : W.list e = [] := by
      cases hl : W.list e with
      | nil => rfl
      | cons c cs =>
        have := hk [c] ((hW.mem e c hd).1 (by rw [hl]; simp))
        simp at this
    have hsub : ∀ c, W.F (e ++ [c]) ≠ some .dir := by
      intro c h
      have := hk [c] (by rw [h]; simp)
      simp at this
    have hop := open_iff.2 hs.1
    refine ⟨if has opt fsLeaf && has opt fsDir then [[]] else [], by split <;> simp, ?_, ?_⟩
    · intro p
      constructor
      · intro hp
        split at hp
        · rename_i hcond
          simp only [List.mem_singleton] at hp
          subst hp
          exact (selected_nil opt e).2 ⟨hd, hsub, by simpa using hcond⟩
        · simp at hp
      · intro h
        have hp : p = [] := by
          have hx : W.F (e ++ p) ≠ none := by
            rcases h with h | h
            · exact h.2.1
            · rw [h.1]; simp
          exact List.length_eq_zero_iff.1 (Nat.le_zero.1 (hk p hx))
        subst hp
        have := (selected_nil opt e).1 h
        rw [if_pos (by simp [this.2.2])]; simp
    · simp only [collectSubs, hop, if_pos hd, hlist, entries, Fs.has_leafDir]
      cases h1 : has opt fsLeaf && has opt fsDir
      · simp
      · simp [pick, textAt]
  | succ k ih =>
    intro dir e hs hd hk
    have hop := open_iff.2 hs.1
    have hrec : ∀ c, W.F (e ++ [c]) = some .dir → ∃ ps : List (List Str), ps.Nodup ∧
        (∀ p, p ∈ ps ↔ SelectedAt opt W (e ++ [c]) p) ∧
        collectSubs W cwd opt (k + 1) (joinChild dir c) = some (ps.map (textAt opt (joinChild dir c)), false) := by
      intro c hc
      refine ih _ _ (stable_child hW hs hd hc) hc fun p hp => ?_
      have := hk (c :: p) (by rw [show e ++ c :: p = e ++ [c] ++ p by simp]; exact hp)
      simp at this
      omega
    obtain ⟨qs, h1, h2, h3⟩ := entries_spec hW opt (collectSubs W cwd opt (k + 1)) hs.1.1 hd hrec (W.list e) [] false
      (hW.nodup e hd) (fun _ h => h)
    have hany : (W.list e).any (fun c => decide (W.F (e ++ [c]) = some .dir)) = false ↔ ∀ c, W.F (e ++ [c]) ≠ some .dir := by
      rw [List.any_eq_false]
      constructor
      · intro h c hc
        exact h c ((hW.mem e c hd).2 (by rw [hc]; simp)) (by simp [hc])
      · intro h c _
        simp [h c]
    have hsel : ∀ p, SelectedAt opt W e p ↔ (p = [] ∧ (∀ c, W.F (e ++ [c]) ≠ some .dir) ∧ has opt fsLeaf ∧ has opt fsDir) ∨
        ∃ c q, p = c :: q ∧ c ∈ W.list e ∧ SelectedAt opt W e p := by
      intro p
      cases p with
      | nil => rw [selected_nil]; simp [hd]
      | cons c q =>
        simp only [reduceCtorEq, false_and, false_or]
        constructor
        · intro h
          have hx : W.F (e ++ [c]) ≠ none := by
            have h2 := (selected_cons hW opt c q).1 h
            split at h2
            · rename_i hc; rw [hc]; simp
            · exact h2.2.1
          exact ⟨c, q, rfl, (hW.mem e c hd).2 hx, h⟩
        · rintro ⟨_, _, _, _, h⟩; exact h
    refine ⟨qs ++ (if !((W.list e).any (fun c => decide (W.F (e ++ [c]) = some .dir))) && (has opt fsLeaf && has opt fsDir)
      then [[]] else []), ?_, ?_, ?_⟩
    · rw [List.nodup_append]
      refine ⟨h1, by split <;> simp, ?_⟩
      rintro p hp q hq rfl
      obtain ⟨c, q, rfl, -⟩ := (h2 p).1 hp
      split at hq <;> simp at hq
    · intro p
      rw [List.mem_append, h2, Or.comm]
      refine Iff.trans ?_ (hsel p).symm
      refine or_congr_left ?_
      constructor
      · intro hp
        split at hp
        · rename_i hcond
          simp only [List.mem_singleton] at hp
          rw [Bool.and_eq_true, Bool.not_eq_true', hany] at hcond
          exact ⟨hp, hcond.1, by simpa using hcond.2⟩
        · simp at hp
      · rintro ⟨rfl, h4, h5⟩
        rw [if_pos]
        · simp
        · rw [Bool.and_eq_true, Bool.not_eq_true', hany]
          exact ⟨h4, by simpa using h5⟩
    · rw [collectSubs]
      simp only [hop, if_pos hd, h3, Fs.has_leafDir, Bool.false_or, List.nil_append]
      split
      · rename_i hcond; exact absurd hcond (by simp)
      · split
        · simp [pick, textAt]
        · simp

/-- **C135 (nothing there).** A path that leads nowhere, or to something that is no directory, gives an empty listing and no
error. -/
theorem C135_nothing (opt : Fs.Opt) (k : Nat) (dir : Str) (h : ∀ e, LeadsTo W.F cwd dir e → W.F e ≠ some .dir) :
    collectSubs W cwd opt (k + 1) dir = some ([], false) := by
  rw [collectSubs]
  cases ho : W.openPath cwd dir with
  | none => rfl
  | some e => simp only [if_neg (h e (open_iff.1 ho))]

/-- **C135 (the texts name what they stand for).** With full paths, the text of a place below the directory names this place:
links on the way to the directory are followed, a link at the place is not. -/
theorem C135_names (hW : W.Ok) (opt : Fs.Opt) (hf : has opt fsFullPath = true) (p : List Str) : ∀ (dir : Str) (e : List Str),
    Stable W cwd dir e → p ≠ [] → W.F (e ++ p) ≠ none → Names W.F cwd (textAt opt dir p) (e ++ p) := by
  induction p with
  | nil => intro _ _ _ h; exact absurd rfl h
  | cons c p ih =>
    intro dir e hs _ hx
    have hd := parent_dir hW _ hx (by simp)
    have e1 : e ++ c :: p = e ++ [c] ++ p := by simp
    rw [e1] at hx ⊢
    by_cases hp : p = []
    · subst hp
      simp only [List.append_nil] at hx ⊢
      have hn := name_of hW hd hx
      simp only [textAt, hf, if_true, List.foldl_cons, List.foldl_nil]
      rw [child_of_clean hs.1.1 hn]
      exact (child_names (clean_clean dir) hn hs.2 hd _).2 rfl
    · have hcd := parent_dir hW _ hx hp
      have hn := name_of hW hd (by rw [hcd]; simp)
      rw [textAt_cons opt hs.1.1 hn]
      exact ih _ _ (stable_child hW hs hd hcd) hp hx

/-- **C135 (full paths tell places apart).** With full paths the listing has no duplicates. -/
theorem C135_distinct (hW : W.Ok) (opt : Fs.Opt) (hf : has opt fsFullPath = true) (dir : Str) (e : List Str)
    (hs : Stable W cwd dir e) (p q : List Str) (hp : p ≠ []) (hq : q ≠ []) (hxp : W.F (e ++ p) ≠ none)
    (hxq : W.F (e ++ q) ≠ none) (h : textAt opt dir p = textAt opt dir q) : p = q := by
  have h1 := C135_names hW opt hf p dir e hs hp hxp
  have h2 := C135_names hW opt hf q dir e hs hq hxq
  rw [h] at h1
  obtain ⟨cs, c, d, a1, a2, a3, a4, a5⟩ := h1
  obtain ⟨cs', c', d', b1, b2, b3, b4, b5⟩ := h2
  obtain ⟨rfl, e2⟩ := List.append_inj' (a1.symm.trans b1) rfl
  cases e2
  have := a3.unique b3
  subst this
  exact List.append_cancel_left (a5.trans b5.symm)

/-- **C135 (which paths).** The condition on the path holds for every path without `..`, and in a file system without
symbolic links for every path. -/
theorem C135_stable {dir : Str} {e : List Str} (h : LeadsTo W.F cwd dir e)
    (hc : ['.', '.'] ∉ comps dir ∨ (W.F.Ok ∧ ∀ q t, W.F q ≠ some (.link t))) : Stable W cwd dir e := by
  rcases hc with hc | ⟨h1, h2⟩
  · exact ⟨h, C132_no_parents_partial hc h⟩
  · exact ⟨h, C132_no_links_partial h1 h2 h⟩

/-- The demonstration of C131 with its listings: `/l` is a link to `a/b`. -/
def demoWorld : World where
  F := demo
  content _ := []
  list q := if q = [] then [['a'], ['l'], ['c']] else if q = [['a']] then [['b'], ['c']] else []

theorem demoWorld_F : demoWorld.F = demo := rfl

theorem demoWorld_ok : demoWorld.Ok where
  fs := by
    refine ⟨by decide, fun d c h => ?_⟩
    rcases d with _ | ⟨x, _ | ⟨y, d⟩⟩ <;> simp [demoWorld, demo] at h ⊢
    · split_ifs at h with h1 h2
      · exact fun hn => absurd h1.1 hn
      · exact fun hn => absurd h2.1 hn
      · exact absurd rfl h
  nodup p _ := by
    simp only [demoWorld]; split_ifs <;> decide
  mem p c h := by
    rw [demoWorld_F] at h ⊢
    simp only [demo] at h
    have h1 : p = [] ∨ p = [['a']] ∨ p = [['a'], ['b']] := by
      by_contra h1
      rw [if_neg h1] at h
      split_ifs at h <;> simp at h
    rcases h1 with rfl | rfl | rfl
    · simp [demoWorld, demo]; split_ifs <;> simp [*]
    · simp [demoWorld, demo]; split_ifs <;> simp [*]
    · simp [demoWorld, demo]
  plain p c h hc := by
    simp only [demoWorld] at hc
    split_ifs at hc
    · simp only [List.mem_cons, List.not_mem_nil, or_false] at hc
      rcases hc with rfl | rfl | rfl <;> decide
    · simp only [List.mem_cons, List.not_mem_nil, or_false] at hc
      rcases hc with rfl | rfl <;> decide
    · simp at hc

/-- **C135 is false for `..` after a symbolic link.**  `/l/..` is `/a`, where `b` is a directory without sub-directories; but
`GetLeafDirs` of `l/..` gives nothing and reports no error, since it looks for `b` in the root. -/
theorem C135_false : LeadsTo demo [] ['l', '/', '.', '.'] [['a']] ∧
    SelectedAt (fsDir ||| fsLeaf ||| fsFullPath) demoWorld [['a']] [['b']] ∧
    ∀ k, collectSubs demoWorld [] (fsDir ||| fsLeaf ||| fsFullPath) (k + 2) ['l', '/', '.', '.'] = some ([], false) := by
  have h1 : LeadsTo demo [] ['l', '/', '.', '.'] [['a']] :=
    ⟨by decide, .follow (t := ['a', '/', 'b']) (by decide) (by decide) (by decide) (by decide)
      (.down (n := .dir) (by decide) (by decide) (by decide) (by simp)
        (.down (n := .dir) (by decide) (by decide) (by decide) (by simp) (.up (by decide) (.done (by decide)))))⟩
  refine ⟨h1, .inr ⟨by rw [demoWorld_F]; decide, fun c => ?_, by decide, by decide⟩, fun k => ?_⟩
  · rw [demoWorld_F]; simp [demo]
  · have hop : demoWorld.openPath [] ['l', '/', '.', '.'] = some [['a']] := open_iff.2 h1
    have hb : demoWorld.openPath [] ['b'] = none := by
      rw [open_none]
      rintro e ⟨-, h⟩
      rw [demoWorld_F] at h
      have hc : comps ['b'] = [['b']] := by decide
      have hst : startOf [] ['b'] = [] := by decide
      rw [hc, hst] at h
      cases h with
      | stay _ h => revert h; decide
      | down _ _ h => simp [demo] at h
      | follow _ _ h => simp [demo] at h
    have hj : joins [['l', '/', '.', '.'], ['b']] = ['b'] := by decide +kernel
    have hl : demoWorld.list [['a']] = [['b'], ['c']] := by decide
    have hd : demoWorld.F [['a']] = some .dir := by rw [demoWorld_F]; decide
    have hd2 : demoWorld.F ([['a']] ++ [['b']]) = some .dir := by rw [demoWorld_F]; decide
    have hd3 : ¬ demoWorld.F ([['a']] ++ [['c']]) = some .dir := by rw [demoWorld_F]; decide
    have hr : collectSubs demoWorld [] (fsDir ||| fsLeaf ||| fsFullPath) (k + 1) ['b'] = some ([], false) := by
      rw [collectSubs]; simp only [hb]
    rw [collectSubs]
    simp only [hop, if_pos hd, hl, entries, if_pos hd2, if_neg hd3, hj, hr]
    decide

theorem demo_depth (p : List Str) (h : demoWorld.F ([['a']] ++ p) ≠ none) : p.length ≤ 1 := by
  rw [demoWorld_F] at h
  rcases p with _ | ⟨x, _ | ⟨y, p⟩⟩
  · simp
  · simp
  · simp [demo] at h

theorem demo_a : Stable demoWorld [] ['/', 'a'] [['a']] :=
  C135_stable ⟨by decide, .stay (by rw [demoWorld_F]; decide) (.inl rfl) (.down (n := .dir) (by rw [demoWorld_F]; decide)
    (by decide) (by rw [demoWorld_F]; decide) (by simp) (.done (by rw [demoWorld_F]; decide)))⟩ (.inl (by decide))

/-- Instances. -/
example := C135_listing_partial demoWorld_ok (fsFile ||| fsDeep) 1 ['/', 'a'] [['a']] demo_a (by rw [demoWorld_F]; decide) demo_depth
example := C135_names demoWorld_ok (fsFile ||| fsFullPath) (by decide) [['c']] ['/', 'a'] [['a']] demo_a (by decide)
  (by rw [demoWorld_F]; decide)
example := C135_nothing (W := demoWorld) (cwd := []) fsFile 0 [] (fun _ h => absurd rfl h.1)

example := C135_distinct demoWorld_ok (fsFile ||| fsFullPath) (by decide) ['/', 'a'] [['a']] demo_a [['b']] [['b']] (by decide) (by decide)
  (by rw [demoWorld_F]; decide) (by rw [demoWorld_F]; decide) rfl

end Verif.FsLinks
