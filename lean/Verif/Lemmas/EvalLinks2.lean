import Verif.Lemmas.EvalLinks
set_option linter.unusedSectionVars false
/-! # Lemmas on `EvalSymlinks`: steps enough, real paths, a second time -/

namespace Verif.FsLinks
open Verif.Spec Verif.Path

/-! ## With steps enough -/

theorem Inv.slash {F : FS} (hF : F.Ok) {cwd : List Str} {b path : Str} {d : List Str} (h : Inv F cwd b path d) (h1 : path ≠ [])
    (h2 : (cut path).1 = []) : Inv F cwd (if b = [] then ['/'] else b) (cut path).2 d := by
  have hpath := cut_nil h1 h2
  rcases h.at_ with ⟨rfl, rfl⟩ | ⟨a, rfl, g1, g2⟩
  · have hr : startOf cwd path = [] := by rw [hpath]; rfl
    rw [hr, if_pos rfl]
    refine ⟨.inr ⟨[], by simp, ?_, ?_⟩, by rw [hF.1]; simp, by rw [hF.1]; simp⟩
    · exact .stay hF.1 (.inl rfl) (.done (by rw [show startOf cwd ['/'] = [] from rfl, hF.1]; simp))
    · simp [comps, walk1, startOf, rooted]
  · rw [if_neg (by simp)]
    exact ⟨.inr ⟨a, rfl, g1, g2⟩, h.real, h.some_⟩

theorem Inv.down {F : FS} {cwd : List Str} {b path : Str} {d fr : List Str} (h2 : (cut path).1 ≠ [])
    (g1 : comps (b ++ (cut path).1) = fr ++ [(cut path).1]) (g2 : Leads F (startOf cwd (b ++ (cut path).1)) fr d)
    (g3 : fr.foldl walk1 (startOf cwd (b ++ (cut path).1)) = d) (k1 : F d = some .dir) (k3 : F (walk1 d (cut path).1) ≠ none)
    (hl : ∀ t, F (walk1 d (cut path).1) ≠ some (.link t)) (rest : Str) :
    Inv F cwd (b ++ (cut path).1 ++ ['/']) rest (walk1 d (cut path).1) := by
  have hne : b ++ (cut path).1 ≠ [] := by simp [h2]
  refine ⟨.inr ⟨b ++ (cut path).1, rfl, ?_, ?_⟩, hl, k3⟩
  · rw [startOf_append cwd hne, g1]
    refine g2.append ?_
    rw [leads_walk h2 k1 k3 hl]
    exact .done k3
  · rw [startOf_append cwd hne, g1, List.foldl_append, g3]
    rfl

theorem Inv.link {F : FS} (hF : F.Ok) {cwd : List Str} {b path : Str} {d : List Str} (h : Inv F cwd b path d)
    (h2 : (cut path).1 ≠ []) (k1 : F d = some .dir) {t : Str} (ht : t ≠ []) (rest : Str) :
    Inv F cwd (if rooted t then [] else b) (t ++ '/' :: rest) (if rooted t then [] else d) := by
  have hdir : F (if rooted t then [] else d) = some .dir := by
    split_ifs
    · exact hF.1
    · exact k1
  refine ⟨?_, by rw [hdir]; simp, by rw [hdir]; simp⟩
  by_cases hr : rooted t = true
  · left
    rw [if_pos hr, if_pos hr]
    refine ⟨rfl, ?_⟩
    unfold startOf
    rw [rooted_append ht, if_pos hr]
  · rw [if_neg hr, if_neg hr]
    rcases h.at_ with ⟨rfl, rfl⟩ | ⟨a, rfl, q1, q2⟩
    · left
      refine ⟨rfl, ?_⟩
      unfold startOf
      rw [rooted_append ht, if_neg hr, cut_rooted h2]
      rfl
    · right
      exact ⟨a, rfl, q1, q2⟩

theorem limit_step {F : FS} (hF : F.Ok) {cwd : List Str} {n : Nat} {b path : Str} {d : List Str} (h : Inv F cwd b path d)
    (h1 : path ≠ []) (h2 : (cut path).1 ≠ []) (hl : evalGo F cwd (n + 1) b path = .limit) :
    (F (walk1 d (cut path).1) ≠ none ∧ (∀ t, F (walk1 d (cut path).1) ≠ some (.link t)) ∧
      Inv F cwd (b ++ (cut path).1 ++ ['/']) (cut path).2 (walk1 d (cut path).1) ∧
      evalGo F cwd n (b ++ (cut path).1 ++ ['/']) (cut path).2 = .limit) ∨
    ∃ t, Plain (cut path).1 ∧ F (d ++ [(cut path).1]) = some (.link t) ∧
      Inv F cwd (if rooted t then [] else b) (t ++ '/' :: (cut path).2) (if rooted t then [] else d) ∧
      evalGo F cwd n (if rooted t then [] else b) (t ++ '/' :: (cut path).2) = .limit := by
  rw [evalGo, if_neg h1] at hl
  simp only [if_neg h2] at hl
  obtain ⟨fr, g1, g2, g3⟩ := h.next h2
  cases hs : lstat F cwd (b ++ (cut path).1) with
  | none => rw [hs] at hl; cases hl
  | some e =>
    obtain ⟨k1, k2, k3, k4⟩ := lstat_next hF g1 h2 g2 hs
    rw [hs] at hl
    simp only at hl
    have hnl : (∀ t, F e ≠ some (.link t)) →
        evalGo F cwd n (b ++ (cut path).1 ++ if (cut path).2 = [] then [] else ['/']) (cut path).2 = .limit →
        (F (walk1 d (cut path).1) ≠ none ∧ (∀ t, F (walk1 d (cut path).1) ≠ some (.link t)) ∧
        Inv F cwd (b ++ (cut path).1 ++ ['/']) (cut path).2 (walk1 d (cut path).1) ∧
        evalGo F cwd n (b ++ (cut path).1 ++ ['/']) (cut path).2 = .limit) := by
      intro hl' hx
      by_cases h3 : (cut path).2 = []
      · rw [h3, evalGo_nil] at hx; cases hx
      · rw [if_neg h3] at hx
        subst k2
        exact ⟨k3, hl', Inv.down h2 g1 g2 g3 k1 k3 hl' _, hx⟩
    cases hn : F e with
    | none => exact absurd hn k3
    | some node =>
      rw [hn] at hl
      cases node with
      | file i => exact .inl (hnl (by rw [hn]; simp) hl)
      | dir => exact .inl (hnl (by rw [hn]; simp) hl)
      | link t =>
        simp only at hl
        have hp : Plain (cut path).1 := by
          by_contra hp
          rw [k4 hp] at hn
          cases hn
        have hw : walk1 d (cut path).1 = d ++ [(cut path).1] := by
          unfold walk1
          rw [if_neg (plain_not_stay hp), if_neg hp.2.2]
        rw [k2, hw] at hn
        by_cases ht : t = []
        · rw [if_pos ht] at hl; cases hl
        · rw [if_neg ht] at hl
          exact .inr ⟨t, hp, hn, h.link hF h2 k1 ht _, hl⟩

/-- With enough steps there is an outcome. -/
def Ends (F : FS) (cwd d cs : List Str) : Prop :=
  ∀ b path, ne (comps path) = ne cs → Inv F cwd b path d → ∃ N, ∀ n, N ≤ n → evalGo F cwd n b path ≠ .limit

theorem ends_of {F : FS} (hF : F.Ok) {cwd d cs : List Str}
    (h : ∀ b path, ne (comps path) = ne cs → path ≠ [] → (cut path).1 ≠ [] → Inv F cwd b path d →
      ∃ N, ∀ n, N ≤ n → evalGo F cwd n b path ≠ .limit) : Ends F cwd d cs := by
  intro b path
  induction hl : path.length using Nat.strongRecOn generalizing b path with
  | _ k ih =>
    subst hl
    intro hc hi
    by_cases h1 : path = []
    · subst h1; exact ⟨0, fun n _ => by rw [evalGo_nil]; simp⟩
    by_cases h2 : (cut path).1 = []
    · have hp := cut_nil h1 h2
      have hc' : ne (comps (cut path).2) = ne cs := by
        rw [← hc, ne_cut path, h2]; rfl
      obtain ⟨N, hN⟩ := ih (cut path).2.length (by conv_rhs => rw [hp]
                                                   simp) _ _ rfl hc' (hi.slash hF h1 h2)
      refine ⟨N + 1, fun n hn => ?_⟩
      obtain ⟨m, rfl⟩ : ∃ m, n = m + 1 := ⟨n - 1, by omega⟩
      rw [evalGo, if_neg h1]
      simp only [if_pos h2]
      exact hN m (by omega)
    · exact h b path hc h1 h2 hi

theorem ends_cons {F : FS} (hF : F.Ok) {cwd d cs : List Str} {c : Str} (hc : c ≠ [])
    (h1 : F (walk1 d c) ≠ none → (∀ t, F (walk1 d c) ≠ some (.link t)) → Ends F cwd (walk1 d c) cs)
    (h2 : ∀ t, Plain c → F (d ++ [c]) = some (.link t) → Ends F cwd (if rooted t then [] else d) (comps t ++ cs)) :
    Ends F cwd d (c :: cs) := by
  apply ends_of hF
  intro b path hn g1 g2 hi
  rw [ne_cons hc, ne_cut path, ne_cons g2, List.cons_append, List.cons.injEq] at hn
  obtain ⟨e1, e2⟩ := hn
  have e2 : ne (comps (cut path).2) = ne cs := e2
  have f1 : ∃ N, ∀ n, N ≤ n →
      ¬ (F (walk1 d c) ≠ none ∧ (∀ t, F (walk1 d c) ≠ some (.link t)) ∧ Inv F cwd (b ++ c ++ ['/']) (cut path).2 (walk1 d c) ∧
      evalGo F cwd n (b ++ c ++ ['/']) (cut path).2 = .limit) := by
    by_cases hx : F (walk1 d c) ≠ none ∧ (∀ t, F (walk1 d c) ≠ some (.link t)) ∧
        Inv F cwd (b ++ c ++ ['/']) (cut path).2 (walk1 d c)
    · obtain ⟨N, hN⟩ := h1 hx.1 hx.2.1 _ _ e2 hx.2.2
      exact ⟨N, fun n hn h => hN n hn h.2.2.2⟩
    · exact ⟨0, fun n _ h => hx ⟨h.1, h.2.1, h.2.2.1⟩⟩
  have f2 : ∃ N, ∀ n, N ≤ n → ¬ ∃ t, Plain c ∧ F (d ++ [c]) = some (.link t) ∧
      Inv F cwd (if rooted t then [] else b) (t ++ '/' :: (cut path).2) (if rooted t then [] else d) ∧
      evalGo F cwd n (if rooted t then [] else b) (t ++ '/' :: (cut path).2) = .limit := by
    by_cases hx : ∃ t, Plain c ∧ F (d ++ [c]) = some (.link t) ∧
      Inv F cwd (if rooted t then [] else b) (t ++ '/' :: (cut path).2) (if rooted t then [] else d)
    · obtain ⟨t, x1, x2, x3⟩ := hx
      obtain ⟨N, hN⟩ := h2 t x1 x2 _ _ (by rw [comps_append, ne_append, ne_append, e2]) x3
      refine ⟨N, fun n hn => ?_⟩
      rintro ⟨t', -, y2, -, y4⟩
      rw [x2] at y2
      cases y2
      exact hN n hn y4
    · exact ⟨0, fun n _ ⟨t, a, b', c', _⟩ => hx ⟨t, a, b', c'⟩⟩
  obtain ⟨N1, f1⟩ := f1
  obtain ⟨N2, f2⟩ := f2
  refine ⟨max N1 N2 + 1, fun n hn hl => ?_⟩
  obtain ⟨m, rfl⟩ : ∃ m, n = m + 1 := ⟨n - 1, by omega⟩
  rcases limit_step hF hi g1 g2 hl with h | h
  · rw [e1] at h; exact f1 m (by omega) h
  · rw [e1] at h; exact f2 m (by omega) h

theorem leads_ends {F : FS} (hF : F.Ok) (cwd : List Str) {d cs e : List Str} (h : Leads F d cs e) : Ends F cwd d cs := by
  induction h with
  | @done d _ =>
    apply ends_of hF
    intro b path hn _ g2 _
    rw [ne_cut path, ne_cons g2] at hn
    cases hn
  | @stay d c cs e h1 h2 _ ih =>
    rcases h2 with rfl | rfl
    · intro b path hn hi
      rw [ne_nil] at hn
      exact ih b path hn hi
    · exact ends_cons hF (by decide) (fun _ _ => by simpa [walk1] using ih) (fun t hp _ => absurd rfl hp.2.1)
  | @up d cs e h1 _ ih =>
    exact ends_cons hF (by decide) (fun _ _ => by simpa [walk1] using ih) (fun t hp _ => absurd rfl hp.2.2)
  | @down d c cs n e h1 hp h3 h4 _ ih =>
    have hw : walk1 d c = d ++ [c] := by
      unfold walk1
      rw [if_neg (plain_not_stay hp), if_neg hp.2.2]
    refine ends_cons hF hp.1 (fun _ _ => by rw [hw]; exact ih) (fun t _ h => ?_)
    rw [h3] at h
    cases h
    exact absurd rfl (h4 t)
  | @follow d c cs t e h1 hp h3 h4 _ ih =>
    have hw : walk1 d c = d ++ [c] := by
      unfold walk1
      rw [if_neg (plain_not_stay hp), if_neg hp.2.2]
    refine ends_cons hF hp.1 (fun _ h => ?_) (fun t' _ h => ?_)
    · rw [hw] at h; exact absurd h3 (h t)
    · rw [h3] at h
      cases h
      exact ih

/-! ## Real paths -/

theorem dir_of_below {F : FS} (hF : F.Ok) (a : List Str) {b : List Str} (hb : b ≠ []) (h : F (a ++ b) ≠ none) : F a = some .dir := by
  induction b using List.reverseRecOn with
  | nil => exact absurd rfl hb
  | append_singleton b c ih =>
    rw [← List.append_assoc] at h
    have h1 := hF.2 _ _ h
    by_cases h2 : b = []
    · rw [h2, List.append_nil] at h1; exact h1
    · exact ih h2 (by rw [h1]; simp)

theorem walk_names {xs : List Str} (h : ∀ x ∈ xs, Plain x) (d : List Str) : xs.foldl walk1 d = d ++ xs := by
  induction xs generalizing d with
  | nil => simp
  | cons x xs ih =>
    have hp := h x (List.mem_cons_self ..)
    have hw : walk1 d x = d ++ [x] := by
      unfold walk1
      rw [if_neg (plain_not_stay hp), if_neg hp.2.2]
    rw [List.foldl_cons, hw, ih fun y hy => h y (List.mem_cons_of_mem _ hy)]
    simp

/-- A way of steps up and names after them: it passes only through directories. -/
theorem real_way {F : FS} (hF : F.Ok) {xs : List Str} (hx : ∀ x ∈ xs, Plain x) : ∀ (k : Nat) (d : List Str), F d = some .dir →
    F ((List.replicate k ['.', '.'] ++ xs).foldl walk1 d) ≠ none →
    (∀ P R, List.replicate k ['.', '.'] ++ xs = P ++ R → R ≠ [] → F (P.foldl walk1 d) = some .dir) := by
  intro k
  induction k with
  | zero =>
    intro d hd h P R hPR hR
    rw [List.replicate_zero, List.nil_append] at h hPR
    rw [walk_names hx] at h
    have hP : ∀ x ∈ P, Plain x := fun x hm => hx x (by rw [hPR]; simp [hm])
    rw [walk_names hP]
    rw [hPR, ← List.append_assoc] at h
    exact dir_of_below hF _ hR h
  | succ k ih =>
    intro d hd h P R hPR hR
    cases P with
    | nil => exact hd
    | cons p P =>
      rw [List.replicate_succ, List.cons_append, List.cons_append, List.cons.injEq] at hPR
      obtain ⟨rfl, hPR⟩ := hPR
      have hw : walk1 d ['.', '.'] = d.dropLast := by simp [walk1]
      rw [List.replicate_succ, List.cons_append, List.foldl_cons, hw] at h
      rw [List.foldl_cons, hw]
      exact ih _ (dir_up hF hd) h P R hPR hR

/-- The components of a path in clean form. -/
theorem clean_comps {q : Str} (h : clean q = q) : q = ['/'] ∨ q = ['.'] ∨
    ∃ k xs, comps q = (if rooted q then [[]] else []) ++ (List.replicate k ['.', '.'] ++ xs) ∧ (∀ x ∈ xs, Plain x) ∧
      List.replicate k ['.', '.'] ++ xs ≠ [] := by
  have hn := form_names q
  have he : q = render (rooted q) (form q) := by rw [← clean_eq, h]
  by_cases h0 : outOf (form q) = []
  · unfold render at he
    rw [h0] at he
    cases hr : rooted q with
    | true => rw [hr] at he; left; simpa [joinSlash] using he
    | false => rw [hr] at he; right; left; simpa using he
  · right; right
    have := comps_render (rooted q) (form q) hn h0
    rw [← he] at this
    refine ⟨(form q).1, (form q).2.reverse, ?_, ?_, ?_⟩
    · rw [this]; simp [outOf]
    · intro x hx
      have := hn x (by simpa using hx)
      exact ⟨this.1, this.2.1, this.2.2.1⟩
    · intro hc
      apply h0
      simpa [outOf] using congrArg List.reverse hc

/-- Every component of the path leads on from a directory that is there, without symbolic links. -/
theorem clean_real {F : FS} (hF : F.Ok) {cwd : List Str} (hcwd : F cwd = some .dir) {q : Str} (h : clean q = q)
    (h0 : F (resolve cwd q) ≠ none) :
    ∀ P R, comps q = P ++ R → R ≠ [] → F (P.foldl walk1 (startOf cwd q)) = some .dir := by
  have hst : F (startOf cwd q) = some .dir := by
    unfold startOf
    split_ifs
    · exact hF.1
    · exact hcwd
  intro P R hPR hR
  have hres : resolve cwd q = (comps q).foldl walk1 (startOf cwd q) := rfl
  rcases clean_comps h with rfl | rfl | ⟨k, xs, h1, h2, h3⟩
  · have : ∀ x ∈ P, x = [] := by
      intro x hx
      have hm : x ∈ comps ['/'] := by rw [hPR]; simp [hx]
      simpa [comps] using hm
    have hw : P.foldl walk1 (startOf cwd ['/']) = startOf cwd ['/'] := by
      clear hPR
      induction P with
      | nil => rfl
      | cons y P ih =>
        rw [List.foldl_cons, this y (List.mem_cons_self ..)]
        exact ih fun x hx => this x (List.mem_cons_of_mem _ hx)
    rw [hw]
    exact hst
  · have hP : P = [] := by
      have := congrArg List.length hPR
      have hl : (comps ['.']).length = 1 := by decide
      rw [List.length_append, hl] at this
      cases R with
      | nil => exact absurd rfl hR
      | cons y R => exact List.eq_nil_of_length_eq_zero (by simp only [List.length_cons] at this; omega)
    rw [hP]
    exact hst
  · rw [hres, h1] at h0
    rw [h1] at hPR
    by_cases hr : rooted q = true
    · rw [if_pos hr] at h0 hPR
      cases P with
      | nil => exact hst
      | cons p P =>
        rw [List.singleton_append, List.cons_append, List.cons.injEq] at hPR
        obtain ⟨rfl, hPR⟩ := hPR
        have hw : ∀ d, walk1 d [] = d := fun d => by simp [walk1]
        rw [List.singleton_append, List.foldl_cons, hw] at h0
        rw [List.foldl_cons, hw]
        exact real_way hF h2 k _ hst h0 P R hPR hR
    · rw [if_neg hr, List.nil_append] at h0 hPR
      exact real_way hF h2 k _ hst h0 P R hPR hR

/-- Such a way leads where its text says. -/
theorem leads_real {F : FS} {L : List Str} : ∀ {d : List Str},
    (∀ P R, L = P ++ R → R ≠ [] → F (P.foldl walk1 d) = some .dir) → F (L.foldl walk1 d) ≠ none →
    (∀ t, F (L.foldl walk1 d) ≠ some (.link t)) → Leads F d L (L.foldl walk1 d) := by
  induction L with
  | nil => intro d _ h _; exact .done h
  | cons c L ih =>
    intro d h1 h2 h3
    have hd : F d = some .dir := h1 [] (c :: L) rfl (by simp)
    rw [List.foldl_cons] at h2 h3 ⊢
    have hrec := ih (d := walk1 d c) (fun P R e hR => h1 (c :: P) R (by rw [e]; rfl) hR) h2 h3
    by_cases hc : c = []
    · subst hc
      have hw : walk1 d [] = d := by simp [walk1]
      rw [hw] at hrec ⊢
      exact .stay hd (.inl rfl) hrec
    · have hx : F (walk1 d c) ≠ none ∧ ∀ t, F (walk1 d c) ≠ some (.link t) := by
        cases L with
        | nil => exact ⟨h2, h3⟩
        | cons y L =>
          have := h1 [c] (y :: L) rfl (by simp)
          rw [List.foldl_cons, List.foldl_nil] at this
          rw [this]
          exact ⟨by simp, by simp⟩
      exact (leads_walk hc hd hx.1 hx.2).2 hrec

end Verif.FsLinks
