import Verif.Lemmas.EvalLinks3
set_option linter.unusedSectionVars false
/-!
# C160: paths without symbolic links

`EvalSymlinks` of path objects.
-/

namespace Verif.FsLinks
open Verif.Spec Verif.Path

variable {F : FS} {cwd : List Str} {me q : Str}

/-- The result is in clean form and leads to the place its text says; no part of it leads to a symbolic link; and if the path
leads anywhere, then to the same place. -/
theorem C160_result (hF : F.Ok) (hcwd : F cwd = some .dir) {lim : Nat} (h : evalSymlinks F cwd me lim = .ok q) :
    clean q = q ∧ LeadsTo F cwd q (resolve cwd q) ∧
    (∀ cs rest, comps q = cs ++ rest → ∀ t, F (cs.foldl walk1 (startOf cwd q)) ≠ some (.link t)) ∧
    ∀ e, LeadsTo F cwd me e → e = resolve cwd q := by
  have hg := evalGo_good hF cwd lim [] me _ (inv_start hF hcwd me)
  unfold evalSymlinks at h
  rw [h] at hg
  obtain ⟨h1, h2, h3, h4, -⟩ := hg
  have hr := clean_real hF hcwd h3 h2
  refine ⟨h3, ⟨by rw [← h3]; exact clean_ne_nil q, leads_real hr h2 h1⟩, ?_, fun e he => h4 e (Leads.drop_empty he.2)⟩
  intro cs rest hc t ht
  by_cases hn : rest = []
  · rw [hn, List.append_nil] at hc
    rw [← hc] at ht
    exact h1 t ht
  · rw [hr cs rest hc hn] at ht
    cases ht

/-- Full statement: the path leads to where the result does.  Proved if that is a directory or no text of a symbolic link
ends with a slash; it is false otherwise (`C160_slash_false`). -/
theorem C160_leads_partial (hF : F.Ok) (hcwd : F cwd = some .dir) (hc : clean me = me) {lim : Nat}
    (h : evalSymlinks F cwd me lim = .ok q)
    (hs : F (resolve cwd q) = some .dir ∨ ∀ p t, F p = some (.link t) → t.getLast? ≠ some '/') :
    LeadsTo F cwd me (resolve cwd q) := by
  have hg := evalGo_good hF cwd lim [] me _ (inv_start hF hcwd me)
  unfold evalSymlinks at h
  rw [h] at hg
  obtain ⟨h1, h2, h3, -, h4⟩ := hg
  have hst : F (startOf cwd me) = some .dir := by
    unfold startOf
    split_ifs
    · exact hF.1
    · exact hcwd
  refine ⟨by rw [← hc]; exact clean_ne_nil me, Leads.put_empty hst (h4 hs) ?_⟩
  rcases clean_comps hc with rfl | rfl | ⟨k, xs, e1, e2, e3⟩
  · left
    have h5 : Leads F [] [] (resolve cwd q) := h4 hs
    generalize resolve cwd q = x at h5 ⊢
    cases h5 with
    | done _ => exact hF.1
  · right; decide
  · right
    intro hl
    rw [e1, List.getLast?_append] at hl
    obtain ⟨z, hz⟩ : ∃ z, (List.replicate k ['.', '.'] ++ xs).getLast? = some z := ⟨_, List.getLast?_eq_some_getLast e3⟩
    rw [hz, Option.some_or, Option.some.injEq] at hl
    subst hl
    rcases List.mem_append.1 (List.mem_of_getLast? hz) with hm | hm
    · have := (List.mem_replicate.1 hm).2; cases this
    · exact (e2 _ hm).1 rfl

/-- An error other than that of the limit is reported only if the path leads nowhere. -/
theorem C160_error (hF : F.Ok) (hcwd : F cwd = some .dir) {lim : Nat} (h : evalSymlinks F cwd me lim = .err) (e : List Str) :
    ¬ LeadsTo F cwd me e := by
  have hg := evalGo_good hF cwd lim [] me _ (inv_start hF hcwd me)
  unfold evalSymlinks at h
  rw [h] at hg
  exact fun he => hg e (Leads.drop_empty he.2)

/-- If the path leads to a place, a result that leads there is found, but for the limit of steps: with some limit, and all
above it. -/
theorem C160_found (hF : F.Ok) (hcwd : F cwd = some .dir) {e : List Str} (h : LeadsTo F cwd me e) :
    ∃ N, ∀ lim, N ≤ lim → ∃ q, evalSymlinks F cwd me lim = .ok q ∧ LeadsTo F cwd q e := by
  obtain ⟨N, hN⟩ := leads_ends hF cwd h.2 [] me rfl (inv_start hF hcwd me)
  refine ⟨N, fun lim hl => ?_⟩
  cases hr : evalSymlinks F cwd me lim with
  | limit => exact absurd hr (hN lim hl)
  | err => exact absurd h (C160_error hF hcwd hr e)
  | ok q =>
    obtain ⟨-, h1, -, h2⟩ := C160_result hF hcwd hr
    exact ⟨q, rfl, by rw [h2 e h]; exact h1⟩

/-- A second call returns its argument. -/
theorem C160_again (hF : F.Ok) (hcwd : F cwd = some .dir) {lim : Nat} (hl : 1 ≤ lim) (h : evalSymlinks F cwd me lim = .ok q) :
    evalSymlinks F cwd q lim = .ok q := by
  have hg := evalGo_good hF cwd lim [] me _ (inv_start hF hcwd me)
  unfold evalSymlinks at h ⊢
  have hw := evalGo_weight lim [] me q (.inl rfl) h
  rw [h] at hg
  obtain ⟨h1, h2, h3, -, -⟩ := hg
  refine evalGo_clean hF hcwd h3 h2 h1 ?_
  have : weight [] = 0 := by decide
  omega

/-- A path in clean form that passes through no symbolic link is returned as it is. -/
theorem C160_plain (hF : F.Ok) (hcwd : F cwd = some .dir) (hc : clean me = me) (h0 : F (resolve cwd me) ≠ none)
    (hl : ∀ t, F (resolve cwd me) ≠ some (.link t)) (hn : (comps me).length ≤ 256) : evalSymlinks F cwd me = .ok me := by
  refine evalGo_clean hF hcwd hc h0 hl (le_trans ?_ hn)
  rcases clean_comps hc with rfl | rfl | ⟨k, xs, e1, e2, e3⟩
  · decide
  · decide
  · unfold weight
    rw [e1, ne_append, List.length_append, List.length_append]
    have h1 : (ne (List.replicate k ['.', '.'] ++ xs)).length ≤ (List.replicate k ['.', '.'] ++ xs).length :=
      List.length_filter_le ..
    cases rooted me
    · simp only [Bool.false_eq_true, if_false, show ne [] = [] from rfl, List.length_nil]; omega
    · simp only [if_true, show ne [[]] = [] from rfl, List.length_cons, List.length_nil]; omega

theorem evalGo_rooted : ∀ (n : Nat) (b path q : Str), (b = [] → rooted path = true) → (b ≠ [] → rooted b = true) →
    evalGo F cwd n b path = .ok q → rooted q = true := by
  intro n
  induction n with
  | zero =>
    intro b path q h1 h2 h
    rw [evalGo] at h
    split_ifs at h with h3
    cases h
    rw [rooted_clean]
    by_cases hb : b = []
    · have := h1 hb; rw [h3] at this; cases this
    · exact h2 hb
  | succ n ih =>
    intro b path q h1 h2 h
    rw [evalGo] at h
    by_cases h3 : path = []
    · rw [if_pos h3] at h
      cases h
      rw [rooted_clean]
      by_cases hb : b = []
      · have := h1 hb; rw [h3] at this; cases this
      · exact h2 hb
    rw [if_neg h3] at h
    by_cases h4 : (cut path).1 = []
    · simp only [if_pos h4] at h
      by_cases hb : b = []
      · rw [if_pos hb] at h
        exact ih _ _ _ (by simp) (fun _ => rfl) h
      · rw [if_neg hb] at h
        exact ih _ _ _ (fun h => absurd h hb) h2 h
    · simp only [if_neg h4] at h
      have hb : b ≠ [] := by
        intro hb
        have := h1 hb
        rw [cut_rooted h4] at this
        cases this
      cases hs : lstat F cwd (b ++ (cut path).1) with
      | none => rw [hs] at h; cases h
      | some e =>
        rw [hs] at h
        simp only at h
        have hgo : evalGo F cwd n (b ++ (cut path).1 ++ if (cut path).2 = [] then [] else ['/']) (cut path).2 = .ok q →
            rooted q = true := by
          apply ih
          · intro h; simp [hb] at h
          · intro _; rw [List.append_assoc, rooted_append hb]; exact h2 hb
        cases hn : F e with
        | none => rw [hn] at h; exact hgo h
        | some node =>
          rw [hn] at h
          cases node with
          | file i => exact hgo h
          | dir => exact hgo h
          | link t =>
            simp only at h
            by_cases ht : t = []
            · rw [if_pos ht] at h; cases h
            · rw [if_neg ht] at h
              by_cases hr : rooted t = true
              · rw [if_pos hr] at h
                exact ih _ _ _ (fun _ => by rw [rooted_append ht]; exact hr) (by simp) h
              · rw [if_neg hr] at h
                exact ih _ _ _ (fun h => absurd h hb) h2 h

/-- The result of an absolute path is absolute. -/
theorem C160_absolute (hr : rooted me = true) {lim : Nat} (h : evalSymlinks F cwd me lim = .ok q) : rooted q = true :=
  evalGo_rooted lim [] me q (fun _ => hr) (by simp) h

/-! ## Where it is not as it should be -/

/-- A file `f` and a symbolic link `l` with the text `f/`. -/
def slashDemo : FS := fun q =>
  if q = [] then some .dir else if q = [['f']] then some (.file 1) else if q = [['l']] then some (.link ['f', '/']) else none

theorem slashDemo_ok : slashDemo.Ok := by
  refine ⟨rfl, fun d c h => ?_⟩
  have : d = [] := by
    unfold slashDemo at h
    split_ifs at h with h1 h2 h3
    · simp at h1
    · cases d with
      | nil => rfl
      | cons x d => simp at h2
    · cases d with
      | nil => rfl
      | cons x d => simp at h3
    · exact absurd rfl h
  rw [this]
  rfl

/-- A symbolic link to a file with a slash at the end of its text: the path leads nowhere, for the file is no directory, but a
result is returned. -/
theorem C160_slash_false : evalSymlinks slashDemo [] ['l'] = .ok ['f'] ∧ ∀ e, ¬ LeadsTo slashDemo [] ['l'] e := by
  have h1 : lstat slashDemo [] ['l'] = some [['l']] :=
    lstat_names ⟨[], ['l'], [], by decide, by decide, .done (by decide), by decide, rfl⟩ (by decide)
  have h2 : lstat slashDemo [] ['f'] = some [['f']] :=
    lstat_names ⟨[], ['f'], [], by decide, by decide, .done (by decide), by decide, rfl⟩ (by decide)
  have n1 : slashDemo [['l']] = some (.link ['f', '/']) := by decide
  have n2 : slashDemo [['f']] = some (.file 1) := by decide
  constructor
  · unfold evalSymlinks
    rw [evalGo, if_neg (by decide)]
    simp only [show (cut ['l']).1 = ['l'] by decide, show (cut ['l']).2 = [] by decide, List.nil_append, h1, n1,
      show ¬ (['l'] = ([] : Str)) by decide, if_false, show ¬ (['f', '/'] = ([] : Str)) by decide,
      show rooted ['f', '/'] = false by decide, Bool.false_eq_true, List.cons_append]
    rw [evalGo, if_neg (by decide)]
    simp only [show (cut ['f', '/', '/']).1 = ['f'] by decide, show (cut ['f', '/', '/']).2 = ['/'] by decide, List.nil_append, h2, n2,
      show ¬ (['f'] = ([] : Str)) by decide, if_false, show ¬ (['/'] = ([] : Str)) by decide, List.cons_append]
    rw [evalGo, if_neg (by decide)]
    simp only [show (cut ['/']).1 = [] by decide, show (cut ['/']).2 = [] by decide, if_true, evalGo_nil,
      show ¬ (['f', '/'] = ([] : Str)) by decide, if_false]
    decide +kernel
  · rintro e ⟨-, h⟩
    have hp : Plain ['f'] := by decide
    have h : Leads slashDemo [] (['l'] :: []) e := h
    rw [leads_link (by decide) (by decide) n1 (by decide)] at h
    have h : Leads slashDemo [] (['f'] :: [[]]) e := h
    rw [leads_walk (by decide) (by decide) (by decide) (by intro t; rw [show walk1 [] ['f'] = [['f']] by decide, n2]; simp)] at h
    rw [show walk1 [] ['f'] = [['f']] by decide, leads_stay (.inl rfl), n2] at h
    exact absurd h.1 (by simp)

/-- Directories `a` in each other without end. -/
def deepDemo : FS := fun q => if ∀ c ∈ q, c = ['a'] then some .dir else none

theorem deepDemo_ok : deepDemo.Ok := by
  refine ⟨rfl, fun d c h => ?_⟩
  unfold deepDemo at h ⊢
  split_ifs at h with h1
  · rw [if_pos fun x hx => h1 x (by simp [hx])]
  · exact absurd rfl h

/-- The limit counts the components and not only the symbolic links: paths of directories more than 256 deep are refused. -/
theorem C160_limit_false (n : Nat) (hn : 256 < n) :
    LeadsTo deepDemo [] (joinSlash (List.replicate n ['a'])) (List.replicate n ['a']) ∧
    evalSymlinks deepDemo [] (joinSlash (List.replicate n ['a'])) = .limit := by
  have hne : List.replicate n ['a'] ≠ [] := by
    cases n with
    | zero => omega
    | succ n => simp [List.replicate_succ]
  have hmem : ∀ w ∈ List.replicate n ['a'], w = ['a'] := fun w hw => (List.mem_replicate.1 hw).2
  have hc : comps (joinSlash (List.replicate n ['a'])) = List.replicate n ['a'] :=
    comps_joinSlash _ (fun w hw => by rw [hmem w hw]; decide) hne
  have hr : rooted (joinSlash (List.replicate n ['a'])) = false := by
    cases n with
    | zero => omega
    | succ n => rw [List.replicate_succ, rooted_joinSlash (by decide)]; decide
  have hdir : ∀ m, deepDemo (List.replicate m ['a']) = some .dir := by
    intro m
    unfold deepDemo
    rw [if_pos fun c hc => (List.mem_replicate.1 hc).2]
  have hl : LeadsTo deepDemo [] (joinSlash (List.replicate n ['a'])) (List.replicate n ['a']) := by
    refine ⟨?_, ?_⟩
    · intro h
      rw [h] at hc
      have := hmem [] (by rw [← hc]; simp [comps])
      cases this
    · rw [hc]
      unfold startOf
      rw [hr]
      have := leads_place deepDemo_ok (List.replicate n ['a']) (hdir n) (fun c hc => by rw [hmem c hc]; decide)
      exact this
  refine ⟨hl, ?_⟩
  cases hx : evalSymlinks deepDemo [] (joinSlash (List.replicate n ['a'])) with
  | limit => rfl
  | err => exact absurd hl (C160_error (cwd := []) deepDemo_ok (show deepDemo [] = some .dir from hdir 0) hx _)
  | ok q =>
    exfalso
    obtain ⟨h1, -, -, h3⟩ := C160_result (cwd := []) deepDemo_ok (show deepDemo [] = some .dir from hdir 0) hx
    have h4 := h3 _ hl
    have hw := evalGo_weight 256 [] _ q (.inl rfl) hx
    have hz : weight [] = 0 := by decide
    have h5 := congrArg List.length h4
    rw [List.length_replicate, resolve_form] at h5
    have h6 := out_le q
    unfold weight at hw hz
    have h7 : (if rooted q = true then ([] : List Str) else [].take (([] : List Str).length - (form q).1)) = [] := by split_ifs <;> simp
    rw [h7, List.nil_append, List.length_reverse] at h5
    unfold outOf at h6
    rw [List.length_append] at h6
    omega

/-! ## Concrete cases -/

/-- In the demonstration `/l` is a symbolic link to `a/b`: `/l/../c` is found to be `/a/c`. -/
example : ∃ N, ∀ lim, N ≤ lim → ∃ q, evalSymlinks demo [] ['l', '/', '.', '.', '/', 'c'] lim = .ok q ∧ LeadsTo demo [] q [['a'], ['c']] :=
  C160_found demo_ok (by decide) demo_leads

/-- `/a/b` is returned as it is. -/
example : evalSymlinks demo [] ['/', 'a', '/', 'b'] = .ok ['/', 'a', '/', 'b'] :=
  C160_plain demo_ok (by decide) (by decide +kernel) (by decide +kernel)
    (by intro t; rw [show demo (resolve [] ['/', 'a', '/', 'b']) = some .dir by decide +kernel]; simp) (by decide +kernel)

/-- `/m` is missing. -/
example : evalSymlinks demo [] ['m'] = .err ∧ ∀ e, ¬ LeadsTo demo [] ['m'] e := by
  have h : evalSymlinks demo [] ['m'] = .err := by
    have h1 : lstat demo [] ['m'] = none := by
      unfold lstat
      rw [dif_neg, if_pos ⟨[], ['m'], by decide, by decide⟩]
      rintro ⟨e, ⟨cs, c, p, g1, g2, g3, g4, rfl⟩, g6⟩
      have hcs : cs = [] ∧ c = ['m'] := by
        rw [show comps ['m'] = [] ++ [['m']] by decide] at g1
        obtain ⟨a, b⟩ := List.append_inj' g1 rfl
        cases b
        exact ⟨a.symm, rfl⟩
      obtain ⟨rfl, rfl⟩ := hcs
      cases g3 with
      | done _ => exact g6 (by decide)
    unfold evalSymlinks
    rw [evalGo, if_neg (by decide)]
    simp only [show (cut ['m']).1 = ['m'] by decide, List.nil_append, h1, show ¬ (['m'] = ([] : Str)) by decide, if_false]
  exact ⟨h, C160_error demo_ok (by decide) h⟩

end Verif.FsLinks
