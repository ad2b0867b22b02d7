import Verif.Lemmas.FsDirs
import Verif.Props.FsLinks
set_option linter.unusedSectionVars false
/-!
# Directories made with all their parents

For paths in clean form, as `FilePath` gives them, in file systems with symbolic links.
-/

namespace Verif.Spec

/-- `F'` is `F` with directories at `p ++ [c1]`, `p ++ [c1, c2]`, … -/
def FS.grow (F : FS) (p : List Str) (b : List Str) (F' : FS) : Prop :=
  (∀ n, 0 < n → n ≤ b.length → F' (p ++ b.take n) = some .dir) ∧
    ∀ q, (∀ n, 0 < n → n ≤ b.length → q ≠ p ++ b.take n) → F' q = F q

/-- What `MkdirAll` can do about components that start at `d`: the first ones, `a`, lead to a directory `p`, and the others,
`b`, are missing there. -/
def Growable (F : FS) (d cs a b p : List Str) : Prop :=
  cs = a ++ b ∧ Leads F d a p ∧ F p = some .dir ∧ (∀ c ∈ b, Plain c) ∧ ∀ c, b.head? = some c → F (p ++ [c]) = none

end Verif.Spec

namespace Verif.FsLinks
open Verif.Spec Verif.Path

/-! ## Lemmas -/

open Classical in
/-- The file system that `grow` describes. -/
noncomputable def grown (F : FS) (p b : List Str) : FS := fun q =>
  if ∃ n, 0 < n ∧ n ≤ b.length ∧ q = p ++ b.take n then some .dir else F q

theorem grow_iff {F : FS} {p b : List Str} {F' : FS} : F.grow p b F' ↔ F' = grown F p b := by
  unfold FS.grow grown
  constructor
  · rintro ⟨h1, h2⟩
    funext q
    by_cases h : ∃ n, 0 < n ∧ n ≤ b.length ∧ q = p ++ b.take n
    · rw [if_pos h]
      obtain ⟨n, h3, h4, rfl⟩ := h
      exact h1 n h3 h4
    · rw [if_neg h]
      exact h2 q fun n h3 h4 h5 => h ⟨n, h3, h4, h5⟩
  · rintro rfl
    exact ⟨fun n h3 h4 => if_pos ⟨n, h3, h4, rfl⟩, fun q h => if_neg (by rintro ⟨n, h3, h4, h5⟩; exact h n h3 h4 h5)⟩

theorem grown_nil (F : FS) (p : List Str) : grown F p [] = F := by
  funext q
  unfold grown
  rw [if_neg]
  rintro ⟨n, h1, h2, -⟩
  simp at h2
  omega

theorem grown_snoc (F : FS) (p b : List Str) (c : Str) : (grown F p b).put (p ++ b ++ [c]) .dir = grown F p (b ++ [c]) := by
  funext q
  unfold FS.put grown
  by_cases hq : q = p ++ b ++ [c]
  · rw [if_pos hq, if_pos]
    exact ⟨b.length + 1, by omega, by simp, by rw [hq, List.append_assoc, List.take_of_length_le (by simp)]⟩
  · rw [if_neg hq]
    have : (∃ n, 0 < n ∧ n ≤ b.length ∧ q = p ++ b.take n) ↔
        ∃ n, 0 < n ∧ n ≤ (b ++ [c]).length ∧ q = p ++ (b ++ [c]).take n := by
      constructor
      · rintro ⟨n, h1, h2, rfl⟩
        exact ⟨n, h1, by simp; omega, by rw [List.take_append_of_le_length h2]⟩
      · rintro ⟨n, h1, h2, rfl⟩
        by_cases hn : n ≤ b.length
        · exact ⟨n, h1, hn, by rw [List.take_append_of_le_length hn]⟩
        · exfalso
          apply hq
          rw [List.take_of_length_le (by simp; omega), List.append_assoc]
    by_cases hx : ∃ n, 0 < n ∧ n ≤ b.length ∧ q = p ++ b.take n
    · rw [if_pos hx, if_pos (this.1 hx)]
    · rw [if_neg hx, if_neg fun h => hx (this.2 h)]

theorem growable_none {F : FS} (hF : F.Ok) {d cs a b p : List Str} (h : Growable F d cs a b p) (hb : b ≠ []) :
    ∀ q, b <+: q → F (p ++ q) = none := by
  rintro q ⟨t, rfl⟩
  obtain ⟨x, y, rfl⟩ := List.exists_cons_of_ne_nil hb
  exact Ok.below hF (h.2.2.2.2 x rfl) _ ⟨y ++ t, by simp⟩

theorem grown_mono {F : FS} (hF : F.Ok) {d cs a b p : List Str} (h : Growable F d cs a b p) :
    ∀ q n, F q = some n → grown F p b q = some n := by
  intro q n hq
  unfold grown
  rw [if_neg]
  · exact hq
  · rintro ⟨k, h1, h2, rfl⟩
    cases b with
    | nil => simp at h2; omega
    | cons x b =>
      have := Ok.below hF (h.2.2.2.2 x rfl) (p ++ (x :: b).take k) (by
        cases k with
        | zero => omega
        | succ k => exact ⟨b.take k, by simp⟩)
      rw [this] at hq
      cases hq

theorem grown_leads {F : FS} (hF : F.Ok) {d cs a b p : List Str} (h : Growable F d cs a b p) :
    Leads (grown F p b) d cs (p ++ b) ∧ grown F p b (p ++ b) = some .dir := by
  have hm := grown_mono hF h
  have hat : ∀ n, n ≤ b.length → grown F p b (p ++ b.take n) = some .dir := by
    intro n hn
    by_cases h0 : n = 0
    · subst h0
      simpa using hm _ _ h.2.2.1
    · unfold grown
      rw [if_pos ⟨n, by omega, hn, rfl⟩]
  have key : ∀ n, n ≤ b.length → Leads (grown F p b) p (b.take n) (p ++ b.take n) := by
    intro n
    induction n with
    | zero => intro _; simpa using Leads.done (by rw [hm _ _ h.2.2.1]; simp)
    | succ n ih =>
      intro hn
      have hlt : n < b.length := hn
      have e := List.take_succ_eq_append_getElem hlt
      rw [e, ← List.append_assoc]
      refine (ih (by omega)).append ?_
      have h1 := hat (n + 1) hn
      rw [e, ← List.append_assoc] at h1
      exact .down (hat n (by omega)) (h.2.2.2.1 _ (List.getElem_mem hlt)) h1 (by simp) (.done (by rw [h1]; simp))
  refine ⟨?_, by simpa using hat b.length le_rfl⟩
  rw [h.1]
  have := key b.length le_rfl
  rw [List.take_length] at this
  exact (h.2.1.mono hm).append this

/-- With a path that leads somewhere, only the whole of it can be the existing part. -/
theorem growable_leads {F : FS} {d cs a b p e : List Str} (h : Growable F d cs a b p) (he : Leads F d cs e) : b = [] ∧ e = p := by
  obtain ⟨rfl, h1, h2, h3, h4⟩ := h
  obtain ⟨p', h5, h6⟩ := leads_append.1 he
  have := h1.unique h5
  subst this
  cases b with
  | nil => exact ⟨rfl, (leads_nil.1 h6).1⟩
  | cons c b => exact absurd (h4 c rfl) (leads_plain (h3 c (List.mem_cons_self ..)) h6)

theorem growable_unique {F : FS} {d cs a b p a' b' p' : List Str} (h : Growable F d cs a b p)
    (h' : Growable F d cs a' b' p') : a' = a ∧ b' = b ∧ p' = p := by
  have wlog : ∀ {a b p a' b' p' : List Str}, Growable F d cs a b p → Growable F d cs a' b' p' → a.length ≤ a'.length →
      a' = a ∧ b' = b ∧ p' = p := by
    intro a b p a' b' p' h h' hl
    obtain ⟨rfl, h1, h2, h3, h4⟩ := h
    obtain ⟨e, h1', h2', h3', h4'⟩ := h'
    obtain ⟨t, rfl, rfl⟩ : ∃ t, a' = a ++ t ∧ b = t ++ b' := by
      rcases List.append_eq_append_iff.1 e with ⟨t, e1, e2⟩ | ⟨t, e1, e2⟩
      · exact ⟨t, e1, e2⟩
      · have : t = [] := by
          have := congrArg List.length e1
          simp at this
          exact List.eq_nil_of_length_eq_zero (by omega)
        subst this
        exact ⟨[], by simpa using e1.symm, by simpa using e2.symm⟩
    have := growable_leads (b := t) (a := a) ⟨rfl, h1, h2, fun c hc => h3 c (by simp [hc]), fun c hc => h4 c (by
      cases t with
      | nil => simp at hc
      | cons x t => simpa using hc)⟩ h1'
    obtain ⟨rfl, rfl⟩ := this
    simp
  rcases Nat.le_total a.length a'.length with hl | hl
  · exact wlog h h' hl
  · obtain ⟨h1, h2, h3⟩ := wlog h' h hl
    exact ⟨h1.symm, h2.symm, h3.symm⟩

theorem growable_snoc_inv {F : FS} {d ns a b p : List Str} {c : Str} (h : Growable F d (ns ++ [c]) a b p) (hb : b ≠ []) :
    ∃ b', b = b' ++ [c] ∧ Growable F d ns a b' p := by
  obtain ⟨h1, h2, h3, h4, h5⟩ := h
  obtain ⟨b', x, rfl⟩ : ∃ b' x, b = b' ++ [x] := ⟨_, _, (List.dropLast_concat_getLast hb).symm⟩
  rw [← List.append_assoc] at h1
  obtain ⟨h6, h7⟩ := List.append_inj' h1 rfl
  cases h7
  refine ⟨b', rfl, h6, h2, h3, fun y hy => h4 y (by simp [hy]), fun y hy => h5 y ?_⟩
  cases b' with
  | nil => simp at hy
  | cons z b' => simpa using hy

theorem mkdirAll_exact {F : FS} (hF : F.Ok) {cwd : List Str} {xs d : List Str} (ns : List Str) (hns : ∀ c ∈ ns, Plain c)
    (hd : F d = some .dir) : ∀ (s : Str), s ≠ [] → comps s = xs ++ ns → Leads F (startOf cwd s) xs d →
    (∃ a b p, Growable F (startOf cwd s) (comps s) a b p ∧ mkdirAll F cwd s = (grown F p b, false)) ∨
    ((¬ ∃ a b p, Growable F (startOf cwd s) (comps s) a b p) ∧ mkdirAll F cwd s = (F, true)) := by
  induction ns using List.reverseRecOn with
  | nil =>
    intro s hs hc hl
    rw [List.append_nil] at hc
    left
    refine ⟨xs, [], d, ⟨by simp [hc], hl, hd, by simp, by simp⟩, ?_⟩
    have : stat F cwd s = some d := stat_iff.2 ⟨hs, by rw [hc]; exact hl⟩
    rw [mkdirAll_eq, this, grown_nil]
    simp [hd]
  | append_singleton ns c ih =>
    intro s hs hc hl
    have hpc : Plain c := hns c (by simp)
    by_cases he : ∃ e, LeadsTo F cwd s e
    · obtain ⟨e, he⟩ := he
      have h1 := stat_iff.2 he
      rw [mkdirAll_eq, h1]
      by_cases hdir : F e = some .dir
      · left
        refine ⟨comps s, [], e, ⟨by simp, he.2, hdir, by simp, by simp⟩, ?_⟩
        rw [grown_nil]; simp [hdir]
      · right
        refine ⟨?_, by simp [hdir]⟩
        rintro ⟨a, b, p, hg⟩
        obtain ⟨-, rfl⟩ := growable_leads hg he.2
        exact hdir hg.2.2.1
    · have hnl : ∀ e, ¬ LeadsTo F cwd s e := fun e h => he ⟨e, h⟩
      have hnl' : ∀ e, ¬ Leads F (startOf cwd s) (comps s) e := fun e h => hnl e ⟨hs, h⟩
      rw [mkdirAll_eq, stat_none hnl]
      have hcut : comps s = (xs ++ ns) ++ [c] := by rw [hc, List.append_assoc]
      have hnoslash : '/' ∉ c := comps_mem_noslash s c (by rw [hcut]; simp)
      have hr : ∃ r, (above s).elim (F, false) (mkdirAll F cwd) = r ∧
          ((∃ a b p, Growable F (startOf cwd s) (xs ++ ns) a b p ∧ r = (grown F p b, false)) ∨
          ((¬ ∃ a b p, Growable F (startOf cwd s) (xs ++ ns) a b p) ∧ r = (F, true))) := by
        have triv : ns = [] → Growable F (startOf cwd s) (xs ++ ns) xs [] d := fun h =>
          ⟨by rw [h], hl, hd, by simp, by simp⟩
        rcases comps_cut hcut with ⟨h1, rfl⟩ | ⟨u, h1, h2⟩
        · rw [above_name hpc.1 hnoslash]
          exact ⟨_, rfl, .inl ⟨_, _, _, triv (by simp at h1; exact h1.2), by rw [grown_nil]; rfl⟩⟩
        · rw [h1, above_join u hpc.1 hnoslash]
          by_cases hu : u = []
          · rw [if_pos hu]
            have : ns = [] := by
              rw [hu] at h2
              simp only [comps] at h2
              by_contra hne
              obtain ⟨ns', y, rfl⟩ : ∃ ns' y, ns = ns' ++ [y] := ⟨_, _, (List.dropLast_concat_getLast hne).symm⟩
              have h3 := congrArg List.getLast? h2
              simp at h3
              exact (hns y (by simp)).1 h3
            refine ⟨_, rfl, .inl ⟨xs, [], d, ?_, by rw [grown_nil]; rfl⟩⟩
            rw [← h1]
            exact triv this
          · rw [if_neg hu]
            have hst : startOf cwd u = startOf cwd s := by
              unfold startOf
              rw [h1, rooted_append hu]
            refine ⟨_, rfl, ?_⟩
            have := ih (fun y hy => hns y (by simp [hy])) u hu h2 (by rw [hst]; exact hl)
            rw [hst, h2] at this
            rw [← h1]
            exact this
      obtain ⟨r, hr1, hr2⟩ := hr
      simp only [hr1]
      rw [hcut] at hnl' ⊢
      rcases hr2 with ⟨a, b, p, hg, rfl⟩ | ⟨hg, rfl⟩
      · obtain ⟨hlead, hdir⟩ := grown_leads hF hg
        have hN : Names (grown F p b) cwd s (p ++ b ++ [c]) := ⟨xs ++ ns, c, p ++ b, hcut, hpc, hlead, hdir, rfl⟩
        simp only [Bool.false_eq_true, if_false]
        by_cases h0 : F (p ++ b ++ [c]) = none
        · left
          have h1 : grown F p b (p ++ b ++ [c]) = none := by
            unfold grown
            rw [if_neg]
            · exact h0
            · rintro ⟨n, -, h2, h3⟩
              have := congrArg List.length h3
              simp at this
              omega
          rw [mkdir_some hN h1, grown_snoc]
          refine ⟨a, b ++ [c], p, ⟨by rw [hg.1, List.append_assoc], hg.2.1, hg.2.2.1, ?_, ?_⟩, rfl⟩
          · intro y hy
            rcases List.mem_append.1 hy with hy | hy
            · exact hg.2.2.2.1 y hy
            · simp at hy; rw [hy]; exact hpc
          · intro y hy
            cases b with
            | nil => simp at hy; subst hy; simpa using h0
            | cons z b => exact hg.2.2.2.2 y (by simpa using hy)
        · right
          have hb : b = [] := by
            by_contra hb
            apply h0
            rw [List.append_assoc]
            exact growable_none hF hg hb _ ⟨[c], rfl⟩
          subst hb
          rw [grown_nil, List.append_nil] at hN
          rw [List.append_nil] at h0
          rw [grown_nil]
          simp only [mkdir_none hN h0, lstat_names hN h0]
          have hlk : ∃ t, F (p ++ [c]) = some (.link t) := by
            cases hn : F (p ++ [c]) with
            | none => exact absurd hn h0
            | some n =>
              cases n with
              | link t => exact ⟨t, rfl⟩
              | dir =>
                exfalso
                refine hnl' (p ++ [c]) (Leads.append (p := p) ?_ (.down hg.2.2.1 hpc hn (by simp) (.done h0)))
                rw [hg.1, List.append_nil]; exact hg.2.1
              | file i =>
                exfalso
                refine hnl' (p ++ [c]) (Leads.append (p := p) ?_ (.down hg.2.2.1 hpc hn (by simp) (.done h0)))
                rw [hg.1, List.append_nil]; exact hg.2.1
          obtain ⟨t, ht⟩ := hlk
          refine ⟨?_, by simp [ht]⟩
          rintro ⟨a', b', p', hg'⟩
          by_cases hb' : b' = []
          · subst hb'
            refine hnl' p' ?_
            rw [hg'.1, List.append_nil]
            exact hg'.2.1
          · obtain ⟨b'', rfl, hg''⟩ := growable_snoc_inv hg' hb'
            obtain ⟨-, rfl, rfl⟩ := growable_unique hg hg''
            exact h0 (hg'.2.2.2.2 c rfl)
      · right
        refine ⟨?_, by simp⟩
        rintro ⟨a', b', p', hg'⟩
        by_cases hb' : b' = []
        · subst hb'
          refine hnl' p' ?_
          rw [hg'.1, List.append_nil]
          exact hg'.2.1
        · obtain ⟨b'', rfl, hg''⟩ := growable_snoc_inv hg' hb'
          exact hg ⟨_, _, _, hg''⟩

theorem leads_ups {F : FS} (hF : F.Ok) {d : List Str} (hd : F d = some .dir) (k : Nat) :
    ∃ e, Leads F d (List.replicate k ['.', '.']) e ∧ F e = some .dir := by
  induction k generalizing d with
  | zero => exact ⟨d, .done (by rw [hd]; simp), hd⟩
  | succ k ih =>
    have hup : F d.dropLast = some .dir := by
      rcases List.eq_nil_or_concat d with rfl | ⟨t, c, rfl⟩
      · exact hd
      · rw [List.concat_eq_append] at hd ⊢
        rw [List.dropLast_concat]
        exact hF.2 t c (by rw [hd]; simp)
    obtain ⟨e, h1, h2⟩ := ih hup
    exact ⟨e, .up hd h1, h2⟩

/-- A clean path: a part that leads to a directory, then names. -/
theorem clean_parts {F : FS} (hF : F.Ok) {cwd : List Str} (hw : F cwd = some .dir) {me : Str} (hc : clean me = me) :
    ∃ xs ns d, comps me = xs ++ ns ∧ (∀ c ∈ ns, Plain c) ∧ Leads F (startOf cwd me) xs d ∧ F d = some .dir := by
  have hst : F (startOf cwd me) = some .dir := by
    unfold startOf
    split_ifs
    · exact hF.1
    · exact hw
  have e := clean_eq me
  rw [hc] at e
  have hn := form_names me
  by_cases h0 : outOf (form me) = []
  · refine ⟨comps me, [], startOf cwd me, by simp, by simp, ?_, hst⟩
    have hd : Leads F (startOf cwd me) [] (startOf cwd me) := .done (by rw [hst]; simp)
    have e2 : comps me = if rooted me then [[], []] else [['.']] := by
      have e3 : comps (render (rooted me) (form me)) = if rooted me then [[], []] else [['.']] := by
        unfold render
        rw [h0]
        cases rooted me <;> rfl
      rw [← e] at e3
      exact e3
    rw [e2]
    cases rooted me with
    | true => exact .stay hst (.inl rfl) (.stay hst (.inl rfl) hd)
    | false => exact .stay hst (.inr rfl) hd
  · have hcm := comps_render (rooted me) (form me) hn h0
    rw [← e] at hcm
    obtain ⟨d, h1, h2⟩ := leads_ups hF hst (form me).1
    refine ⟨(if rooted me then [[]] else []) ++ List.replicate (form me).1 ['.', '.'], (form me).2.reverse, d, ?_, ?_, ?_, h2⟩
    · rw [hcm]
      simp [outOf]
    · intro c hx
      have := hn c (List.mem_reverse.1 hx)
      exact ⟨this.1, this.2.1, this.2.2.1⟩
    · cases rooted me with
      | true => exact .stay hst (.inl rfl) h1
      | false => exact h1

/-! ## `MkdirAll` -/

variable {F : FS} {cwd : List Str} {me : Str}

theorem mkdirAll_cases (hF : F.Ok) (hw : F cwd = some .dir) (hc : clean me = me) :
    (∃ a b p, Growable F (startOf cwd me) (comps me) a b p ∧ mkdirAll F cwd me = (grown F p b, false)) ∨
    ((¬ ∃ a b p, Growable F (startOf cwd me) (comps me) a b p) ∧ mkdirAll F cwd me = (F, true)) := by
  obtain ⟨xs, ns, d, h1, h2, h3, h4⟩ := clean_parts hF hw hc
  exact mkdirAll_exact hF ns h2 h4 me (by rw [← hc]; exact clean_ne_nil me) h1 h3

/-- It succeeds exactly if the first components lead to a directory (perhaps through symbolic links) in which the next one is
missing, or all lead to a directory; then it makes exactly the missing directories.  If it fails it changes nothing. -/
theorem C156_exact (hF : F.Ok) (hw : F cwd = some .dir) (hc : clean me = me) :
    ((mkdirAll F cwd me).2 = false ↔ ∃ a b p, Growable F (startOf cwd me) (comps me) a b p) ∧
    (∀ a b p, Growable F (startOf cwd me) (comps me) a b p → F.grow p b (mkdirAll F cwd me).1) ∧
    ((mkdirAll F cwd me).2 = true → (mkdirAll F cwd me).1 = F) := by
  rcases mkdirAll_cases hF hw hc with ⟨a, b, p, hg, e⟩ | ⟨hg, e⟩
  · rw [e]
    refine ⟨⟨fun _ => ⟨a, b, p, hg⟩, fun _ => rfl⟩, fun a' b' p' hg' => ?_, by simp⟩
    obtain ⟨-, rfl, rfl⟩ := growable_unique hg hg'
    exact grow_iff.2 rfl
  · rw [e]
    exact ⟨⟨by simp, fun h => absurd h hg⟩, fun a b p h => absurd ⟨a, b, p, h⟩ hg, fun _ => rfl⟩

/-- After it succeeded the path leads to a directory. -/
theorem C156_made (hF : F.Ok) (hw : F cwd = some .dir) (hc : clean me = me) (h : (mkdirAll F cwd me).2 = false) :
    ∃ e, LeadsTo (mkdirAll F cwd me).1 cwd me e ∧ (mkdirAll F cwd me).1 e = some .dir := by
  rcases mkdirAll_cases hF hw hc with ⟨a, b, p, hg, e⟩ | ⟨-, e⟩
  · rw [e]
    obtain ⟨h1, h2⟩ := grown_leads hF hg
    exact ⟨p ++ b, ⟨by rw [← hc]; exact clean_ne_nil me, h1⟩, h2⟩
  · rw [e] at h; cases h

/-- All that was there is still there and is reached as before; what is new is directories. -/
theorem C156_keeps (hF : F.Ok) (hw : F cwd = some .dir) (hc : clean me = me) :
    (∀ q n, F q = some n → (mkdirAll F cwd me).1 q = some n) ∧
    (∀ s e, LeadsTo F cwd s e → LeadsTo (mkdirAll F cwd me).1 cwd s e) ∧
    (∀ q, (mkdirAll F cwd me).1 q ≠ F q → (mkdirAll F cwd me).1 q = some .dir) ∧ FS.Ok (mkdirAll F cwd me).1 := by
  rcases mkdirAll_cases hF hw hc with ⟨a, b, p, hg, e⟩ | ⟨-, e⟩
  · rw [e]
    have hm := grown_mono hF hg
    refine ⟨hm, fun s e he => ⟨he.1, he.2.mono hm⟩, fun q hq => ?_, hm _ _ hF.1, fun d c hdc => ?_⟩
    · show grown F p b q = _
      have hq : grown F p b q ≠ F q := hq
      unfold grown at hq ⊢
      split_ifs at hq ⊢ with h1
      · rfl
      · exact absurd rfl hq
    · show grown F p b d = some .dir
      have hdc : grown F p b (d ++ [c]) ≠ none := hdc
      by_cases h1 : ∃ n, 0 < n ∧ n ≤ b.length ∧ d ++ [c] = p ++ b.take n
      · obtain ⟨n, h2, h3, h4⟩ := h1
        obtain ⟨m, rfl⟩ : ∃ m, n = m + 1 := ⟨n - 1, by omega⟩
        rw [List.take_succ_eq_append_getElem (by omega), ← List.append_assoc] at h4
        obtain ⟨rfl, -⟩ := List.append_inj' h4 rfl
        by_cases h0 : m = 0
        · subst h0; simpa using hm _ _ hg.2.2.1
        · unfold grown
          rw [if_pos ⟨m, by omega, by omega, rfl⟩]
      · unfold grown at hdc
        rw [if_neg h1] at hdc
        exact hm _ _ (hF.2 d c hdc)
  · rw [e]
    exact ⟨fun _ _ h => h, fun _ _ h => h, fun _ h => absurd rfl h, hF⟩

/-- Once more has no effect. -/
theorem C156_again (h : (mkdirAll F cwd me).2 = false) (hF : F.Ok) (hw : F cwd = some .dir) (hc : clean me = me) :
    mkdirAll (mkdirAll F cwd me).1 cwd me = ((mkdirAll F cwd me).1, false) := by
  obtain ⟨e, h1, h2⟩ := C156_made hF hw hc h
  rw [mkdirAll_eq (mkdirAll F cwd me).1, stat_iff.2 h1]
  simp [h2]

/-- Something else than a directory on the way, or at the end, is an error. -/
theorem C156_in_the_way (hF : F.Ok) (hw : F cwd = some .dir) (hc : clean me = me) {a b p : List Str}
    (h : comps me = a ++ b) (hl : Leads F (startOf cwd me) a p) (hp : F p ≠ some .dir) : mkdirAll F cwd me = (F, true) := by
  rcases mkdirAll_cases hF hw hc with ⟨a', b', p', hg, -⟩ | ⟨-, e⟩
  · exfalso
    rw [h] at hg
    obtain ⟨h0, h1, h2, h3, h4⟩ := hg
    rcases List.append_eq_append_iff.1 h0 with ⟨t, rfl, rfl⟩ | ⟨t, rfl, rfl⟩
    · obtain ⟨p1, h5, h6⟩ := leads_append.1 h1
      have := hl.unique h5
      subst this
      cases h6 with
      | done _ => exact hp h2
      | stay h7 _ _ => exact hp h7
      | up h7 _ => exact hp h7
      | down h7 _ _ _ _ => exact hp h7
      | follow h7 _ _ _ _ => exact hp h7
    · have hg' : Growable F (startOf cwd me) (a' ++ t) a' t p' := ⟨rfl, h1, h2, fun c hc => h3 c (by simp [hc]), fun c hc => h4 c (by
        cases t with
        | nil => simp at hc
        | cons x t => simpa using hc)⟩
      obtain ⟨-, rfl⟩ := growable_leads hg' hl
      exact hp h2
  · exact e

/-- `l/x/y` in the demonstration: `l` is a link to `a/b`, so `a/b/x` and `a/b/x/y` are made. -/
example : Growable demo (startOf [] ['l', '/', 'x', '/', 'y']) (comps ['l', '/', 'x', '/', 'y'])
    [['l']] [['x'], ['y']] [['a'], ['b']] :=
  ⟨by decide, .follow (t := ['a', '/', 'b']) (by decide) (by decide) (by decide) (by decide)
    (.down (n := .dir) (by decide) (by decide) (by decide) (by simp)
      (.down (n := .dir) (by decide) (by decide) (by decide) (by simp) (.done (by decide)))), by decide, by decide,
    by intro c hc; cases hc; decide⟩

/-- The demonstration is a file system as the theorems ask for. -/
theorem demo_ok : demo.Ok := by
  refine ⟨by decide, fun d c h => ?_⟩
  unfold demo at h ⊢
  rcases d with _ | ⟨x, _ | ⟨y, d⟩⟩
  · simp
  · by_cases hx : x = ['a']
    · simp [hx]
    · simp [hx] at h
  · simp at h

example : (mkdirAll demo [] ['l', '/', 'x', '/', 'y']).2 = false :=
  (C156_exact demo_ok (by decide) (by decide +kernel)).1.2 ⟨[['l']], [['x'], ['y']], [['a'], ['b']],
    by decide, .follow (t := ['a', '/', 'b']) (by decide) (by decide) (by decide) (by decide)
    (.down (n := .dir) (by decide) (by decide) (by decide) (by simp)
      (.down (n := .dir) (by decide) (by decide) (by decide) (by simp) (.done (by decide)))), by decide, by decide,
    by intro c hc; cases hc; decide⟩

/-- A file in the way: `a/c/d`. -/
example : mkdirAll demo [] ['a', '/', 'c', '/', 'd'] = (demo, true) :=
  C156_in_the_way (a := [['a'], ['c']]) (b := [['d']]) (p := [['a'], ['c']]) demo_ok (by decide) (by decide +kernel) (by decide)
    (.down (n := .dir) (by decide) (by decide) (by decide) (by simp)
      (.down (n := .file 1) (by decide) (by decide) (by decide) (by simp) (.done (by decide)))) (by decide)

end Verif.FsLinks
