import Verif.Model.FsHistory
import Verif.Props.FsOpen
/-!
# Property C167: histories of calls on a file system
-/

set_option linter.unusedSectionVars false

namespace Verif.FsLinks
open Verif.Spec Verif.Path

variable {ls : FS → List Str → List Str} {F F' : FS} {w w' : Store} {cwd : List Str} {me : Str}

theorem ok_put (hF : F.Ok) {p : List Str} {c : Str} (hp : F p = some .dir) (h0 : F (p ++ [c]) = none) (n : Node) :
    (F.put (p ++ [c]) n).Ok := by
  have hm := put_mono (n := n) h0
  refine ⟨hm _ _ hF.1, fun d x hx => ?_⟩
  by_cases hd : d ++ [x] = p ++ [c]
  · obtain ⟨rfl, -⟩ := List.append_inj' hd rfl
    exact hm _ _ hp
  · refine hm _ _ (hF.2 d x ?_)
    unfold FS.put at hx
    rwa [if_neg hd] at hx

theorem ok_del (hF : F.Ok) {p : List Str} {c : Str} (h : F (p ++ [c]) = some .dir → ∀ x, F (p ++ [c] ++ [x]) = none) :
    (FS.del F (p ++ [c])).Ok := by
  refine ⟨?_, fun d x hx => ?_⟩
  · unfold FS.del
    rw [if_neg (by simp)]
    exact hF.1
  · unfold FS.del at hx ⊢
    split_ifs at hx with h1
    · exact absurd rfl hx
    · have hd := hF.2 d x hx
      rw [if_neg, hd]
      rintro rfl
      exact hx (h hd x)

theorem ok_move (hF : F.Ok) {p p' : List Str} {c c' : Str} (hp' : F p' = some .dir)
    (hae : ¬ p ++ [c] <+: p' ++ [c']) : (F.move (p ++ [c]) (p' ++ [c'])).Ok := by
  have hpre : ∀ {a d : List Str} {x : Str}, a <+: d → a <+: d ++ [x] := fun h => h.trans (List.prefix_append _ _)
  refine ⟨?_, fun d x hx => ?_⟩
  · unfold FS.move
    rw [if_neg (by simp), if_neg (by simp)]
    exact hF.1
  · by_cases h1 : p' ++ [c'] <+: d
    · obtain ⟨t, rfl⟩ := h1
      unfold FS.move at hx ⊢
      rw [if_pos (hpre (List.prefix_append _ _))] at hx
      rw [if_pos (List.prefix_append _ _)]
      rw [List.append_assoc (p' ++ [c']) t [x], List.drop_left, ← List.append_assoc] at hx
      rw [List.drop_left]
      exact hF.2 _ x hx
    · by_cases h2 : p' ++ [c'] <+: d ++ [x]
      · have : p' ++ [c'] = d ++ [x] := by
          rcases List.prefix_concat_iff.1 h2 with h3 | h3
          · exact h3
          · exact absurd h3 h1
        obtain ⟨rfl, -⟩ := List.append_inj' this rfl
        unfold FS.move
        rw [if_neg h1, if_neg, hp']
        intro h3
        exact hae (hpre h3)
      · unfold FS.move at hx ⊢
        rw [if_neg h2] at hx
        split_ifs at hx with h3
        · exact absurd rfl hx
        · rw [if_neg h1, if_neg (fun h => h3 (hpre h))]
          exact hF.2 d x hx

theorem mkdir_cases (h : mkdir F cwd me = some F') : ∃ p c, F p = some .dir ∧ F (p ++ [c]) = none ∧ F' = F.put (p ++ [c]) .dir := by
  unfold mkdir at h
  split_ifs at h with hx
  cases h
  obtain ⟨h1, h2⟩ := hx.choose_spec
  generalize hx.choose = e at h1 h2 ⊢
  obtain ⟨cs, c, p, -, -, -, h4, rfl⟩ := h1
  exact ⟨p, c, h4, h2, rfl⟩

theorem remove_cases (h : remove F cwd me = some F') : ∃ p c, F (p ++ [c]) ≠ none ∧
    (F (p ++ [c]) = some .dir → ∀ x, F (p ++ [c] ++ [x]) = none) ∧ F' = FS.del F (p ++ [c]) := by
  unfold remove at h
  split_ifs at h with hx
  cases h
  obtain ⟨h1, h2, h3⟩ := hx.choose_spec
  generalize hx.choose = e at h1 h2 h3 ⊢
  obtain ⟨cs, c, p, -, -, -, -, rfl⟩ := h1
  exact ⟨p, c, h2, h3, rfl⟩

/-- What holds after each `Mkdir` holds after `MkdirAll`. -/
theorem mkdirAll_induct (P : FS → Prop) (hP : ∀ {F F' : FS} {me : Str}, P F → mkdir F cwd me = some F' → P F') (hF : P F) :
    P (mkdirAll F cwd me).1 := by
  induction h : me.length using Nat.strongRecOn generalizing me with
  | ind n ih =>
    rw [mkdirAll_eq]
    cases hs : stat F cwd me with
    | some e => exact hF
    | none =>
      have h1 : P ((above me).elim (F, false) (mkdirAll F cwd)).1 := by
        cases ha : above me with
        | none => exact hF
        | some up => exact ih _ (h ▸ above_lt ha) rfl
      simp only
      generalize (above me).elim (F, false) (mkdirAll F cwd) = r at h1 ⊢
      split_ifs
      · exact h1
      · cases hm : mkdir r.1 cwd me with
        | some F2 => exact hP h1 hm
        | none =>
          simp only
          split <;> exact h1

/-- What holds after each `Remove` holds after `RemoveAll`. -/
theorem removeAll_induct (P : FS → Prop) (hP : ∀ {F F' : FS} {me : Str}, P F → remove F cwd me = some F' → P F') :
    ∀ (k : Nat) {F F' : FS} {me : Str} {err : Bool}, P F → removeAll ls cwd k F me = some (F', err) → P F' := by
  intro k
  induction k with
  | zero => intro F F' me err _ h; cases h
  | succ k ih =>
    have loop : ∀ (cs : List Str) {F F' : FS} {me : Str}, P F → removeLoop (removeAll ls cwd k) me F cs = some F' → P F' := by
      intro cs
      induction cs with
      | nil => intro F F' me hF h; cases h; exact hF
      | cons c cs ihc =>
        intro F F' me hF h
        rw [removeLoop] at h
        cases hr : removeAll ls cwd k F (me ++ '/' :: c) with
        | none => rw [hr] at h; cases h
        | some r =>
          rw [hr] at h
          exact ihc (ih (err := r.2) hF hr) h
    intro F F' me err hF h
    rw [removeAll] at h
    cases h1 : remove F cwd me with
    | some F1 => rw [h1] at h; cases h; exact hP hF h1
    | none =>
      rw [h1] at h
      simp only at h
      cases h2 : lstat F cwd me with
      | none => rw [h2] at h; cases h; exact hF
      | some e =>
        rw [h2] at h
        simp only at h
        split_ifs at h
        · cases h; exact hF
        · cases h3 : stat F cwd me with
          | none => rw [h3] at h; cases h; exact hF
          | some d =>
            rw [h3] at h
            simp only at h
            cases h4 : removeLoop (removeAll ls cwd k) me F (ls F d) with
            | none => rw [h4] at h; cases h
            | some F1 =>
              rw [h4] at h
              simp only at h
              have hF1 := loop _ hF h4
              cases h5 : remove F1 cwd me with
              | some F2 => rw [h5] at h; cases h; exact hP hF1 h5
              | none => rw [h5] at h; cases h; exact hF1

/-- What `OpenFile` does: nothing, emptying a file it leads to, or making an empty file. -/
theorem openFile_cases {f : Flags} {i : Nat} {e : List Str} (h : openFile w cwd me f i = some (w', e)) :
    w' = w ∨ (∃ j, w.F e = some (.file j) ∧ f.trunc = true ∧ w' = w.write j []) ∨
    (f.creat = true ∧ ∃ p c, e = p ++ [c] ∧ w.F p = some .dir ∧ w.F (p ++ [c]) = none ∧ w' = w.make (p ++ [c]) i) := by
  unfold openFile at h
  by_cases h1 : (f.creat && f.excl) = true
  · rw [if_pos h1] at h
    split_ifs at h with hx
    cases h
    obtain ⟨h1', h2⟩ := hx.choose_spec
    generalize hx.choose = e at h1' h2 ⊢
    obtain ⟨cs, c, p, -, -, -, h4, rfl⟩ := h1'
    exact .inr (.inr ⟨by simp at h1; exact h1.1, p, c, rfl, h4, h2, rfl⟩)
  · rw [if_neg h1] at h
    cases hs : stat w.F cwd me with
    | some e' =>
      rw [hs] at h
      simp only at h
      split at h
      · rename_i j hj
        cases h
        split_ifs with ht
        · exact .inr (.inl ⟨j, hj, ht, rfl⟩)
        · exact .inl rfl
      · split_ifs at h
        cases h
        exact .inl rfl
    | none =>
      rw [hs] at h
      simp only at h
      split_ifs at h with hc hx
      cases h
      have h2 := hx.choose_spec.2
      generalize hx.choose = e at h2 ⊢
      obtain ⟨p, c, rfl, hp⟩ := makes_parent h2
      exact .inr (.inr ⟨hc, p, c, rfl, hp, makes_none h2, rfl⟩)

theorem step_ok {c : Call} (h : Step ls w c w') (hF : w.F.Ok) : w'.F.Ok := by
  cases h with
  | mkdir h => obtain ⟨p, c, h1, h2, rfl⟩ := mkdir_cases h; exact ok_put hF h1 h2 _
  | mkdirAll cwd =>
    refine mkdirAll_induct (fun F => F.Ok) ?_ hF
    intro F F' me hF h
    obtain ⟨p, c, h1, h2, rfl⟩ := mkdir_cases h
    exact ok_put hF h1 h2 _
  | symlink h => obtain ⟨-, -, e, ⟨cs, c, p, -, -, -, h4, rfl⟩, h5, rfl⟩ := h; exact ok_put hF h4 h5 _
  | link h => obtain ⟨-, a, e, n, -, -, -, ⟨cs, c, p, -, -, -, h4, rfl⟩, h5, rfl⟩ := h; exact ok_put hF h4 h5 _
  | rename h =>
    obtain ⟨-, a, e, ⟨cs, c, p, -, -, -, -, rfl⟩, -, ⟨cs', c', p', -, -, -, h4, rfl⟩, -, -, h5⟩ := h
    rcases h5 with ⟨-, rfl⟩ | ⟨-, h5, rfl⟩
    · exact hF
    · exact ok_move hF h4 h5
  | remove h => obtain ⟨p, c, h1, h2, rfl⟩ := remove_cases h; exact ok_del hF h2
  | removeAll h =>
    refine removeAll_induct (fun F => F.Ok) ?_ _ hF h
    intro F F' me hF h
    obtain ⟨p, c, h1, h2, rfl⟩ := remove_cases h
    exact ok_del hF h2
  | openFile h =>
    rcases openFile_cases h with rfl | ⟨j, -, -, rfl⟩ | ⟨-, p, c, rfl, h1, h2, rfl⟩
    · exact hF
    · exact hF
    · exact ok_put hF h1 h2 _
  | truncate h => obtain ⟨-, e, j, -, -, rfl⟩ := truncate_cases h; exact hF

/-- **C167 (always a tree).** After every history of calls, whatever the paths, links and working directories, the root is a
directory and all there is is in a directory. -/
theorem C167_tree {cs : List Call} (h : History ls w cs w') (hF : w.F.Ok) : w'.F.Ok := by
  induction h with
  | nil => exact hF
  | cons h1 _ ih => exact ih (step_ok h1 hF)

/-- The calls that can take something away. -/
def Call.takes : Call → Bool
  | .rename .. | .remove .. | .removeAll .. => true
  | _ => false

theorem step_mono {c : Call} (h : Step ls w c w') (hc : c.takes = false) (q : List Str) (n : Node) (hq : w.F q = some n) :
    w'.F q = some n := by
  cases h with
  | mkdir h => obtain ⟨p, c, h1, h2, rfl⟩ := mkdir_cases h; exact put_mono h2 _ _ hq
  | mkdirAll cwd =>
    refine mkdirAll_induct (fun F => F q = some n) ?_ hq
    intro F F' me hF h
    obtain ⟨p, c, h1, h2, rfl⟩ := mkdir_cases h
    exact put_mono h2 _ _ hF
  | symlink h => obtain ⟨-, -, e, -, h5, rfl⟩ := h; exact put_mono h5 _ _ hq
  | link h => obtain ⟨-, a, e, n, -, -, -, -, h5, rfl⟩ := h; exact put_mono h5 _ _ hq
  | rename h => cases hc
  | remove h => cases hc
  | removeAll h => cases hc
  | openFile h =>
    rcases openFile_cases h with rfl | ⟨j, -, -, rfl⟩ | ⟨-, p, c, rfl, h1, h2, rfl⟩
    · exact hq
    · exact hq
    · exact put_mono h2 _ _ hq
  | truncate h => obtain ⟨-, e, j, -, -, rfl⟩ := truncate_cases h; exact hq

/-- **C167 (nothing is lost).** In a history without `Rename`, `Remove` and `RemoveAll`, everything stays where it is, and each
path leads where it led. -/
theorem C167_kept {cs : List Call} (h : History ls w cs w') (hc : ∀ c ∈ cs, c.takes = false) :
    (∀ q n, w.F q = some n → w'.F q = some n) ∧ ∀ cwd p e, LeadsTo w.F cwd p e → LeadsTo w'.F cwd p e := by
  have : ∀ q n, w.F q = some n → w'.F q = some n := by
    induction h with
    | nil => exact fun _ _ h => h
    | @cons w w1 w2 c cs h1 _ ih =>
      exact fun q n hq => ih (fun c h => hc c (List.mem_cons_of_mem _ h)) q n (step_mono h1 (hc c (List.mem_cons_self ..)) q n hq)
  exact ⟨this, fun cwd p e h => ⟨h.1, h.2.mono this⟩⟩

/-- The calls that can change a content. -/
def Call.writes : Call → Bool
  | .openFile _ f _ => f.creat || f.trunc
  | .truncate .. => true
  | _ => false

/-- A call changes the content of at most one file, which is at some place afterwards. -/
theorem step_data {c : Call} (h : Step ls w c w') (j : Nat) (hj : w'.data j ≠ w.data j) :
    c.writes = true ∧ (∃ e, w'.F e = some (.file j)) ∧ ∀ k, k ≠ j → w'.data k = w.data k := by
  cases h with
  | openFile h =>
    rcases openFile_cases h with rfl | ⟨j', h1, h2, rfl⟩ | ⟨h0, p, c, rfl, h1, h2, rfl⟩
    · exact absurd rfl hj
    · have : j = j' := by
        by_contra hne
        exact hj (if_neg hne)
      subst this
      exact ⟨by simp [Call.writes, h2], ⟨_, h1⟩, fun k hk => if_neg hk⟩
    · rename_i i
      have : j = i := by
        by_contra hne
        exact hj (if_neg hne)
      subst this
      exact ⟨by simp [Call.writes, h0], ⟨_, if_pos rfl⟩, fun k hk => if_neg hk⟩
  | truncate h =>
    obtain ⟨-, e, j', -, h1, rfl⟩ := truncate_cases h
    have : j = j' := by
      by_contra hne
      exact hj (if_neg hne)
    subst this
    exact ⟨rfl, ⟨e, h1⟩, fun k hk => if_neg hk⟩
  | _ => exact absurd rfl hj

/-- **C167 (contents).** If the content of a file is another after a history, then there was a call in it that created, emptied or
truncated this file: it alone was changed by the call, and it was in the file system after it. -/
theorem C167_content {cs : List Call} (h : History ls w cs w') (j : Nat) (hj : w'.data j ≠ w.data j) :
    ∃ xs c ys w1 w2, cs = xs ++ c :: ys ∧ History ls w xs w1 ∧ Step ls w1 c w2 ∧ History ls w2 ys w' ∧ c.writes = true ∧
      w2.data j ≠ w1.data j ∧ (∃ e, w2.F e = some (.file j)) ∧ ∀ k, k ≠ j → w2.data k = w1.data k := by
  induction h with
  | nil => exact absurd rfl hj
  | @cons w w1 w2 c cs h1 h2 ih =>
    by_cases hx : w1.data j = w.data j
    · obtain ⟨xs, c', ys, a, b, rfl, g1, g2, g3, g4⟩ := ih (by rw [hx]; exact hj)
      exact ⟨c :: xs, c', ys, a, b, rfl, .cons h1 g1, g2, g3, g4⟩
    · have hd := step_data h1 j hx
      exact ⟨[], c, cs, w, w1, rfl, .nil _, h1, h2, hd.1, hx, hd.2⟩

/-- **C167 (contents of what is read).** In a history without calls that write or take away, all paths that could be read read
the same. -/
theorem C167_read {cs : List Call} (h : History ls w cs w') (hc : ∀ c ∈ cs, c.takes = false ∧ c.writes = false)
    {p : Str} {bs : List Byte} (hr : openRead w cwd p = some bs) : openRead w' cwd p = some bs := by
  obtain ⟨e, j, h1, h2, rfl⟩ := openRead_some.1 hr
  have hk := C167_kept h (fun c hc' => (hc c hc').1)
  refine openRead_some.2 ⟨e, j, hk.2 _ _ _ h1, hk.1 _ _ h2, ?_⟩
  by_contra hne
  obtain ⟨xs, c, ys, a, b, rfl, -, -, -, g, -⟩ := C167_content h j (fun e => hne e.symm)
  rw [(hc c (by simp)).2] at g
  cases g

/-- **C167 (exclusive creation).** After an exclusive creation, and any history without `Rename`, `Remove` and `RemoveAll` after
it, an exclusive creation never succeeds at the same place again. -/
theorem C167_exclusive {wr tr wr' tr' : Bool} {i i' : Nat} {e e' : List Str} {w1 w2 w3 : Store} {me' : Str} {cwd' : List Str}
    {cs : List Call} (h1 : openFile w cwd me ⟨wr, true, true, tr⟩ i = some (w1, e)) (h : History ls w1 cs w2)
    (hc : ∀ c ∈ cs, c.takes = false) (h2 : openFile w2 cwd' me' ⟨wr', true, true, tr'⟩ i' = some (w3, e')) : e' ≠ e := by
  rintro rfl
  obtain ⟨-, -, g, -⟩ := (C165_exclusive_iff wr tr e').1 h1
  obtain ⟨-, g2, -⟩ := (C165_exclusive_iff wr' tr' e').1 h2
  rw [(C167_kept h hc).1 e' (.file i) (by rw [g]; exact if_pos rfl)] at g2
  cases g2

/-- The calls that only remove. -/
def Call.removes : Call → Bool
  | .remove .. | .removeAll .. => true
  | _ => false

theorem step_removes {c : Call} (h : Step ls w c w') (hc : c.removes = true) (q : List Str) (n : Node) (hq : w'.F q = some n) :
    w.F q = some n := by
  have del : ∀ {F F' : FS} {cwd : List Str} {me : Str}, remove F cwd me = some F' → F' q = some n → F q = some n := by
    intro F F' cwd me h hq
    obtain ⟨p, c, -, -, rfl⟩ := remove_cases h
    unfold FS.del at hq
    split_ifs at hq
    exact hq
  cases h with
  | remove h => exact del h hq
  | removeAll h =>
    refine removeAll_induct (fun G => G q = some n → w.F q = some n) ?_ _ id h hq
    intro F F' me hF h hq
    exact hF (del h hq)
  | _ => cases hc

/-- **C167 (removing).** In a history of `Remove` and `RemoveAll` nothing appears or changes: what is there was there, and a path
that leads somewhere led there before, and reads the same. -/
theorem C167_removed {cs : List Call} (h : History ls w cs w') (hc : ∀ c ∈ cs, c.removes = true) :
    (∀ q n, w'.F q = some n → w.F q = some n) ∧ (∀ cwd p e, LeadsTo w'.F cwd p e → LeadsTo w.F cwd p e) ∧
      ∀ cwd p bs, openRead w' cwd p = some bs → openRead w cwd p = some bs := by
  have key : (∀ q n, w'.F q = some n → w.F q = some n) ∧ w'.data = w.data := by
    induction h with
    | nil => exact ⟨fun _ _ h => h, rfl⟩
    | @cons w w1 w2 c cs h1 _ ih =>
      obtain ⟨g1, g2⟩ := ih (fun c h => hc c (List.mem_cons_of_mem _ h))
      have hr := hc c (List.mem_cons_self ..)
      refine ⟨fun q n hq => step_removes h1 hr q n (g1 q n hq), g2.trans ?_⟩
      cases h1 with
      | remove _ => rfl
      | removeAll _ => rfl
      | _ => cases hr
  have hl : ∀ cwd p e, LeadsTo w'.F cwd p e → LeadsTo w.F cwd p e := fun cwd p e h => ⟨h.1, h.2.mono key.1⟩
  refine ⟨key.1, hl, fun cwd p bs hb => ?_⟩
  obtain ⟨e, j, h1, h2, rfl⟩ := openRead_some.1 hb
  exact openRead_some.2 ⟨e, j, hl _ _ _ h1, key.1 _ _ h2, by rw [key.2]⟩

/-- A place that reads as inode `j`, whatever the contents are, is that inode. -/
theorem reads_inode {F : FS} {n : Str} {j : Nat}
    (h : openRead ⟨F, fun k => List.replicate k 0⟩ cwd n = some (List.replicate j 0)) :
    ∃ e, LeadsTo F cwd n e ∧ F e = some (.file j) := by
  obtain ⟨e, k, h1, h2, h3⟩ := openRead_some.1 h
  have : j = k := by simpa using congrArg List.length h3
  subst this
  exact ⟨e, h1, h2⟩

/-- **C167 (names of one file).** After `Link` of a file, and any history without `Rename`, `Remove` and `RemoveAll` after it,
in which files may be written, both names read the content of this file. -/
theorem C167_linked {x : Str} {cs : List Call} (h : History ls w (.link me x :: cs) w') (hc : ∀ c ∈ cs, c.takes = false) :
    ∃ cwd a, Names w.F cwd me a ∧ ∀ j, w.F a = some (.file j) →
      openRead w' cwd (relateThisPath me x) = some (w'.data j) ∧ openRead w' cwd me = some (w'.data j) := by
  obtain - | ⟨h1, h2⟩ := h
  obtain - | - | - | ⟨h3⟩ := h1
  rename_i cwd n F'
  have h4 := h3
  obtain ⟨-, a, -, -, ha, -⟩ := h4
  refine ⟨cwd, a, ha, fun j hj => ?_⟩
  obtain ⟨g1, g2, g3⟩ := C165_link (w := ⟨w.F, fun k => List.replicate k 0⟩) h3 ha hj
  have hn := g1.trans g2
  have hm := (g3 ⟨F', fun k => List.replicate k 0⟩ rfl).symm.trans hn
  obtain ⟨e, e1, e2⟩ := reads_inode hn
  obtain ⟨e', e3, e4⟩ := reads_inode hm
  have hk := C167_kept h2 hc
  rw [← h3.1]
  exact ⟨openRead_some.2 ⟨e, j, hk.2 _ _ _ e1, hk.1 _ _ e2, rfl⟩, openRead_some.2 ⟨e', j, hk.2 _ _ _ e3, hk.1 _ _ e4, rfl⟩⟩

/-- **C167 (moving a file).** After `Rename` of a file to a free name, and any history without `Rename`, `Remove` and `RemoveAll`
after it, the new name reads the content of this file. -/
theorem C167_moved (hF : w.F.Ok) {x : Str} {cs : List Call} (h : History ls w (.rename me x :: cs) w')
    (hc : ∀ c ∈ cs, c.takes = false) :
    ∃ cwd a, Names w.F cwd me a ∧ ∀ j, w.F a = some (.file j) → (∀ e, Names w.F cwd (relateThisPath me x) e → w.F e = none) →
      openRead w' cwd (relateThisPath me x) = some (w'.data j) := by
  obtain - | ⟨h1, h2⟩ := h
  obtain - | - | - | - | ⟨h3⟩ := h1
  rename_i cwd n F'
  have h4 := h3
  obtain ⟨-, a, -, ha, -⟩ := h4
  refine ⟨cwd, a, ha, fun j hj hfree => ?_⟩
  rw [← h3.1] at hfree ⊢
  obtain ⟨g1, g2, -⟩ := C165_rename (w := ⟨w.F, fun k => List.replicate k 0⟩) hF h3 ha hj hfree
  obtain ⟨e, e1, e2⟩ := reads_inode (g1.trans g2)
  have hk := C167_kept h2 hc
  exact openRead_some.2 ⟨e, j, hk.2 _ _ _ e1, hk.1 _ _ e2, rfl⟩

/-- **C167 (symbolic links).** After `Symlink` of an absolute path, and any history without `Rename`, `Remove` and `RemoveAll`
after it, the link leads where the path led. -/
theorem C167_symlinked {x : Str} {cs : List Call} (h : History ls w (.symlink me x :: cs) w')
    (hc : ∀ c ∈ cs, c.takes = false) (hr : rooted me = true) :
    ∃ cwd a, Names w.F cwd (relateThisPath me x) a ∧ w'.F a = some (.link me) ∧
      ∀ e, LeadsTo w.F cwd me e → LeadsTo w'.F cwd (relateThisPath me x) e := by
  obtain - | ⟨h1, h2⟩ := h
  obtain - | - | ⟨h3⟩ := h1
  rename_i cwd n F'
  have hs := C131_symlink_absolute_partial hr h3
  obtain ⟨h4, -, a, ha, -, rfl⟩ := h3
  rw [← h4]
  refine ⟨cwd, a, ha, (C167_kept h2 hc).1 _ _ (if_pos rfl), fun e he => ?_⟩
  exact (C167_kept h2 hc).2 _ _ _ (hs.1 e he)

/-- The file `a/c`. -/
theorem demo_names : Names demo [] ['a', '/', 'c'] [['a'], ['c']] :=
  ⟨[['a']], ['c'], [['a']], by decide, by decide,
    .down (n := .dir) (by decide) (by decide) (by decide) (by simp) (.done (by decide)), by decide, rfl⟩

/-- `a/c` is linked as `a/d`, then emptied by `Create`. -/
example := C167_linked (ls := ls) (w := demoStore) (me := ['a', '/', 'c']) (x := ['d'])
  (cs := [.openFile ['a', '/', 'c'] ⟨true, true, false, true⟩ 5])
  (.cons (.link (cwd := []) (n := ['a', '/', 'd']) (F' := demo.put [['a'], ['d']] (.file 1))
      ⟨by decide +kernel, _, _, .file 1, demo_names, by decide, by decide, demo_free, by decide, rfl⟩)
    (.cons (.openFile (create_exists (j := 1) ⟨by decide, demo_file.2.mono (put_mono (by decide))⟩ (by decide))) (.nil _)))
  (by simp [Call.takes])

/-- `a/c` is renamed to `a/d`. -/
example := C167_moved (ls := ls) (w := demoStore) (me := ['a', '/', 'c']) (x := ['d']) (cs := []) demo_ok
  (.cons (.rename (cwd := []) (n := ['a', '/', 'd']) (F' := demo.move [['a'], ['c']] [['a'], ['d']])
      ⟨by decide +kernel, _, _, demo_names, by decide, demo_free, by decide, by decide,
        .inr ⟨by simp [demoStore, demo], by decide, rfl⟩⟩) (.nil _)) (by simp)

/-- `/d` becomes a link to `/a`. -/
example := C167_symlinked (ls := ls) (w := demoStore) (me := ['/', 'a']) (x := ['d']) (cs := [])
  (.cons (.symlink (cwd := []) (n := ['/', 'd']) (F' := demo.put [['d']] (.link ['/', 'a']))
      ⟨by decide +kernel, by decide, [['d']], ⟨[[]], ['d'], [], by decide, by decide, .stay (by decide) (.inl rfl) (.done (by decide)),
        by decide, rfl⟩, by decide, rfl⟩)
    (.nil _)) (by simp) (by decide)

/-- A history: a directory is made, a file in it created, and `c` removed. -/
example : ∃ w', History ls demoStore [.mkdir ['m'], .openFile ['a', '/', 'c'] ⟨true, true, false, true⟩ 5, .remove ['c']] w' ∧
    w'.F.Ok ∧ w'.data 1 ≠ demoStore.data 1 := by
  have h1 : mkdir demoStore.F [] ['m'] = some (demo.put [['m']] .dir) :=
    mkdir_some ⟨[], ['m'], [], by decide, by decide, .done (by decide), by decide, rfl⟩ (by decide)
  have h2 : create ⟨demo.put [['m']] .dir, demoStore.data⟩ [] ['a', '/', 'c'] 5 =
      some ((Store.mk (demo.put [['m']] .dir) demoStore.data).write 1 [], [['a'], ['c']]) :=
    create_exists ⟨by decide, demo_file.2.mono (put_mono (by decide))⟩ (by decide)
  have h3 : remove (demo.put [['m']] .dir) [] ['c'] = some _ :=
    remove_some (e := [['c']]) ⟨[], ['c'], [], by decide, by decide, .done (by decide), by decide, rfl⟩ (by decide)
      (fun h => absurd h (by decide))
  have hh : History ls demoStore [.mkdir ['m'], .openFile ['a', '/', 'c'] ⟨true, true, false, true⟩ 5, .remove ['c']] _ :=
    .cons (.mkdir h1) (.cons (.openFile h2) (.cons (.remove h3) (.nil _)))
  exact ⟨_, hh, C167_tree hh demo_ok, by decide⟩

end Verif.FsLinks
