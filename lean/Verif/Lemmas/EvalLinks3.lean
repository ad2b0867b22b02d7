import Verif.Lemmas.EvalLinks2
set_option linter.unusedSectionVars false
/-! # Lemmas on `EvalSymlinks`: a second time -/

namespace Verif.FsLinks
open Verif.Spec Verif.Path

/-- A way without symbolic links is left as it is. -/
theorem evalGo_real {F : FS} (hF : F.Ok) (cwd : List Str) : ∀ (n : Nat) (b path : Str) (d : List Str), Inv F cwd b path d →
    (∀ w ∈ comps path, w ≠ []) → (comps path).length ≤ n →
    (∀ P R, comps path = P ++ R → R ≠ [] → F (P.foldl walk1 d) = some .dir) → F ((comps path).foldl walk1 d) ≠ none →
    (∀ t, F ((comps path).foldl walk1 d) ≠ some (.link t)) → evalGo F cwd n b path = .ok (clean (b ++ path)) := by
  intro n
  induction n with
  | zero =>
    intro b path d _ _ hn
    exact absurd (List.eq_nil_of_length_eq_zero (Nat.le_zero.1 hn)) (comps_ne_nil path)
  | succ n ih =>
    intro b path d hi hw hn hp h0 hl
    have h1 : path ≠ [] := by
      rintro rfl
      exact hw [] (by simp [comps]) rfl
    have hs := comps_noslash _ (cut_noslash path)
    have hc : comps path = [(cut path).1] ∧ path = (cut path).1 ∧ (cut path).2 = [] ∨
        comps path = (cut path).1 :: comps (cut path).2 ∧ path = (cut path).1 ++ '/' :: (cut path).2 ∧ (cut path).2 ≠ [] := by
      rcases cut_eq path with ⟨h2, h3⟩ | h2
      · left
        refine ⟨?_, h2, h3⟩
        conv_lhs => rw [h2, hs]
      · right
        have hcc : comps path = (cut path).1 :: comps (cut path).2 := by
          conv_lhs => rw [h2, comps_append, hs]
          rfl
        refine ⟨hcc, h2, fun h3 => ?_⟩
        rw [h3] at hcc
        exact hw [] (by rw [hcc]; simp [comps]) rfl
    have h2 : (cut path).1 ≠ [] := by
      apply hw
      rcases hc with ⟨hc, -⟩ | ⟨hc, -⟩ <;> rw [hc] <;> simp
    have hd : F d = some .dir := hp [] (comps path) rfl (comps_ne_nil path)
    obtain ⟨fr, g1, g2, g3⟩ := hi.next h2
    have hx : F (walk1 d (cut path).1) ≠ none ∧ ∀ t, F (walk1 d (cut path).1) ≠ some (.link t) := by
      rcases hc with ⟨hc, -⟩ | ⟨hc, -⟩
      · rw [hc] at h0 hl; exact ⟨h0, hl⟩
      · have := hp [(cut path).1] (comps (cut path).2) (by rw [hc]; rfl) (comps_ne_nil _)
        rw [List.foldl_cons, List.foldl_nil] at this
        rw [this]
        exact ⟨by simp, by simp⟩
    rw [evalGo, if_neg h1]
    simp only [if_neg h2]
    cases hls : lstat F cwd (b ++ (cut path).1) with
    | none =>
      exfalso
      exact lstat_none g1 h2 g2 hls [] _ ((leads_walk h2 hd hx.1 hx.2).2 (.done hx.1))
    | some e =>
      obtain ⟨-, k2, -, -⟩ := lstat_next hF g1 h2 g2 hls
      simp only
      have hgo : evalGo F cwd n (b ++ (cut path).1 ++ if (cut path).2 = [] then [] else ['/']) (cut path).2 =
          .ok (clean (b ++ path)) := by
        rcases hc with ⟨hc, hc', hc''⟩ | ⟨hc, hc', hc''⟩
        · rw [hc'', if_pos rfl, evalGo_nil, List.append_nil]
          conv_rhs => rw [hc']
        · rw [if_neg hc'']
          have := ih (b ++ (cut path).1 ++ ['/']) (cut path).2 (walk1 d (cut path).1)
            (Inv.down h2 g1 g2 g3 hd hx.1 hx.2 _) (fun w hm => hw w (by rw [hc]; simp [hm]))
            (by rw [hc, List.length_cons] at hn; omega)
            (fun P R e hR => hp ((cut path).1 :: P) R (by rw [hc, e]; rfl) hR) (by rw [hc] at h0; exact h0)
            (by rw [hc] at hl; exact hl)
          rw [this]
          conv_rhs => rw [hc']
          simp
      cases hn' : F e with
      | none => rw [k2] at hn'; exact absurd hn' hx.1
      | some node =>
        cases node with
        | file i => exact hgo
        | dir => exact hgo
        | link t => rw [k2] at hn'; exact absurd hn' (hx.2 t)

/-- The number of steps for a path without symbolic links. -/
def weight (s : Str) : Nat := (if rooted s then 1 else 0) + (ne (comps s)).length

theorem out_le (s : Str) : (outOf (form s)).length ≤ (ne (comps s)).length := by
  have key : ∀ (cs : List Str) (rtd : Bool) (f : Nat × List Str),
      (outOf (cs.foldl (fstep rtd) f)).length ≤ (outOf f).length + (ne cs).length := by
    intro cs rtd
    induction cs with
    | nil => intro f; simp [ne]
    | cons c cs ih =>
      intro f
      rw [List.foldl_cons]
      refine (ih _).trans ?_
      by_cases hc : c = []
      · subst hc
        rw [ne_nil]
        simp [fstep]
      · rw [ne_cons hc, List.length_cons]
        have : (outOf (fstep rtd f c)).length ≤ (outOf f).length + 1 := by
          unfold fstep outOf
          obtain ⟨k, rn⟩ := f
          cases rn <;> cases rtd <;> split_ifs <;>
            simp only [List.length_append, List.length_replicate, List.length_nil, List.length_cons] <;> omega
        omega
  have := key (comps s) (rooted s) (0, [])
  simpa [form, outOf] using this

theorem weight_clean (s : Str) : weight (clean s) ≤ max 1 (weight s) := by
  unfold weight
  rw [rooted_clean]
  by_cases h0 : outOf (form s) = []
  · rw [clean_eq]
    unfold render
    rw [h0]
    cases rooted s
    · exact le_trans (by decide) (Nat.le_max_left ..)
    · exact le_trans (by decide) (Nat.le_max_left ..)
  · rw [clean_eq, comps_render _ _ (form_names s) h0, ne_append]
    have h1 := out_le s
    have h2 : (ne (outOf (form s)).reverse).length ≤ (outOf (form s)).length := by
      unfold ne
      exact (List.length_filter_le _ _).trans (by simp)
    have h3 : (ne (if rooted s = true then [[]] else [])).length = 0 := by split_ifs <;> simp [ne]
    rw [List.length_append, h3]
    omega

/-- The result has no more components than steps were used. -/
theorem evalGo_weight {F : FS} {cwd : List Str} : ∀ (n : Nat) (b path q : Str), (b = [] ∨ ∃ a, b = a ++ ['/']) →
    evalGo F cwd n b path = .ok q → weight q ≤ max 1 (n + weight b) := by
  intro n
  induction n with
  | zero =>
    intro b path q _ h
    rw [evalGo] at h
    split_ifs at h
    cases h
    rw [Nat.zero_add]
    exact weight_clean b
  | succ n ih =>
    intro b path q hb h
    rw [evalGo] at h
    by_cases h1 : path = []
    · rw [if_pos h1] at h
      cases h
      have := weight_clean b
      omega
    rw [if_neg h1] at h
    by_cases h2 : (cut path).1 = []
    · simp only [if_pos h2] at h
      rcases hb with rfl | ⟨a, rfl⟩
      · rw [if_pos rfl] at h
        have := ih _ _ _ (.inr ⟨[], rfl⟩) h
        have e1 : weight ([] ++ ['/']) = 1 := by decide
        have e2 : weight [] = 0 := by decide
        omega
      · rw [if_neg (by simp)] at h
        have := ih _ _ _ (.inr ⟨a, rfl⟩) h
        omega
    · simp only [if_neg h2] at h
      have hw : ∀ x, (x = [] ∨ x = ['/']) → weight (b ++ (cut path).1 ++ x) ≤ weight b + 1 := by
        intro x hx
        have hs := comps_noslash _ (cut_noslash path)
        have hr : rooted (b ++ (cut path).1 ++ x) = rooted b := by
          rcases hb with rfl | ⟨a, rfl⟩
          · rw [List.nil_append, rooted_append h2]
            have h1 : '/' ∉ (cut path).1 := cut_noslash path
            unfold rooted
            cases hc : (cut path).1 with
            | nil => rfl
            | cons x t =>
              have : x ≠ '/' := by rintro rfl; exact h1 (by rw [hc]; simp)
              simp [this]
          · rw [List.append_assoc, rooted_append (by simp)]
        have h3 : (ne (comps (b ++ (cut path).1))).length = (ne (comps b)).length + 1 := by
          rcases hb with rfl | ⟨a, rfl⟩
          · rw [List.nil_append, hs, ne_cons h2]; simp [ne, comps]
          · rw [List.append_assoc, List.singleton_append, comps_append, hs, ne_append, ne_cons h2, comps_append]
            simp [ne, comps]
        have h4 : ne (comps (b ++ (cut path).1 ++ x)) = ne (comps (b ++ (cut path).1)) := by
          rcases hx with rfl | rfl
          · rw [List.append_nil]
          · rw [comps_append, ne_append]; simp [ne, comps]
        unfold weight
        rw [hr, h4, h3]
        omega
      cases hs : lstat F cwd (b ++ (cut path).1) with
      | none => rw [hs] at h; cases h
      | some e =>
        rw [hs] at h
        simp only at h
        have hgo : evalGo F cwd n (b ++ (cut path).1 ++ if (cut path).2 = [] then [] else ['/']) (cut path).2 = .ok q →
            weight q ≤ max 1 (n + 1 + weight b) := by
          intro hx
          by_cases h3 : (cut path).2 = []
          · rw [h3, evalGo_nil, if_pos rfl] at hx
            cases hx
            have h4 := hw [] (.inl rfl)
            have h5 := weight_clean (b ++ (cut path).1 ++ [])
            omega
          · rw [if_neg h3] at hx
            have h4 := hw ['/'] (.inr rfl)
            have h5 := ih _ _ _ (.inr ⟨_, rfl⟩) hx
            omega
        cases hn : F e with
        | none => rw [hn] at h; exact hgo h
        | some node =>
          rw [hn] at h
          cases node with
          | file i => exact hgo h
          | dir => exact hgo h
          | link t =>
            simp only at h
            by_cases ht : t = []
            · rw [if_pos ht] at h; cases h
            · rw [if_neg ht] at h
              by_cases hr : rooted t = true
              · rw [if_pos hr] at h
                have := ih _ _ _ (.inl rfl) h
                have e2 : weight [] = 0 := by decide
                omega
              · rw [if_neg hr] at h
                have := ih _ _ _ hb h
                omega

theorem inv_start {F : FS} (hF : F.Ok) {cwd : List Str} (hcwd : F cwd = some .dir) (me : Str) :
    Inv F cwd [] me (startOf cwd me) := by
  have hst : F (startOf cwd me) = some .dir := by
    unfold startOf
    split_ifs
    · exact hF.1
    · exact hcwd
  exact ⟨.inl ⟨rfl, rfl⟩, by rw [hst]; simp, by rw [hst]; simp⟩

theorem evalGo_clean {F : FS} (hF : F.Ok) {cwd : List Str} (hcwd : F cwd = some .dir) {q : Str} (hq : clean q = q)
    (h0 : F (resolve cwd q) ≠ none) (hl : ∀ t, F (resolve cwd q) ≠ some (.link t)) {n : Nat} (hn : weight q ≤ n) :
    evalGo F cwd n [] q = .ok q := by
  have hreal := clean_real hF hcwd hq h0
  have hi := inv_start hF hcwd q
  rcases clean_comps hq with rfl | rfl | ⟨k, xs, h1, h2, h3⟩
  · obtain ⟨m, rfl⟩ : ∃ m, n = m + 1 := ⟨n - 1, by have : weight ['/'] = 1 := by decide
                                                   omega⟩
    rw [evalGo, if_neg (by decide)]
    simp only [show (cut ['/']).1 = [] by decide, show (cut ['/']).2 = [] by decide, if_true, evalGo_nil]
    rw [hq]
  · have := evalGo_real hF cwd n [] ['.'] _ hi (by decide) (by simpa [weight, rooted, comps, ne] using hn) hreal h0 hl
    rw [this]
    exact congrArg Eval.ok hq
  · have hne : ∀ w ∈ List.replicate k ['.', '.'] ++ xs, w ≠ [] := by
      intro w hw
      rcases List.mem_append.1 hw with hw | hw
      · rw [(List.mem_replicate.1 hw).2]; decide
      · exact (h2 w hw).1
    have hnn : ne (List.replicate k ['.', '.'] ++ xs) = List.replicate k ['.', '.'] ++ xs := by
      unfold ne
      rw [List.filter_eq_self]
      exact fun w hw => by simpa using hne w hw
    by_cases hr : rooted q = true
    · rw [if_pos hr, List.singleton_append] at h1
      have hqq : q ≠ [] := by rintro rfl; cases hr
      have hc1 : (cut q).1 = [] := by
        by_contra hx
        rw [cut_rooted hx] at hr
        cases hr
      have hp := cut_nil hqq hc1
      have hcr : comps (cut q).2 = List.replicate k ['.', '.'] ++ xs := by
        have := comps_append [] (cut q).2
        rw [List.nil_append, ← hp, h1] at this
        exact (List.cons.inj this).2.symm
      have hwt : weight q = 1 + (List.replicate k ['.', '.'] ++ xs).length := by
        unfold weight
        rw [if_pos hr, h1, ne_nil, hnn]
      obtain ⟨m, rfl⟩ : ∃ m, n = m + 1 := ⟨n - 1, by omega⟩
      rw [evalGo, if_neg hqq]
      simp only [if_pos hc1, if_true]
      have hw : ∀ d, walk1 d [] = d := fun d => by simp [walk1]
      have hres : resolve cwd q = (comps (cut q).2).foldl walk1 (startOf cwd q) := by
        show (comps q).foldl walk1 (startOf cwd q) = _
        rw [h1, hcr, List.foldl_cons, hw]
      have := evalGo_real hF cwd m ['/'] (cut q).2 _ (by simpa using hi.slash hF hqq hc1) (by rw [hcr]; exact hne)
        (by rw [hcr]; omega)
        (fun P R e hR => by
          have := hreal ([] :: P) R (by rw [h1, ← hcr, e]; rfl) hR
          rw [List.foldl_cons, hw] at this
          exact this) (by rw [← hres]; exact h0) (by rw [← hres]; exact hl)
      rw [this, List.singleton_append, ← hp, hq]
    · rw [if_neg hr, List.nil_append] at h1
      have := evalGo_real hF cwd n [] q _ hi (by rw [h1]; exact hne)
        (by unfold weight at hn; rw [h1, hnn] at hn; rw [h1]; omega) hreal h0 hl
      rw [this, List.nil_append, hq]

end Verif.FsLinks
