import Verif.Props.FsDirs
set_option linter.unusedSectionVars false
/-!
# Removal of a file or directory with all that is in it

In file systems with symbolic links.  Links are removed, not followed.
-/

namespace Verif.Spec

/-- The file system without what is at a place or below it. -/
def FS.without (F : FS) (e : List Str) : FS := fun q => if e <+: q then none else F q

/-- Every directory holds finitely many names. -/
def FS.Finite (F : FS) : Prop := ∀ p, ∃ l : List Str, ∀ c, F (p ++ [c]) ≠ none → c ∈ l

/-- The names in directories are names. -/
def FS.Named (F : FS) : Prop := ∀ p c, F (p ++ [c]) ≠ none → Plain c ∧ '/' ∉ c

/-- Directories are listed faithfully, in some order. -/
def Listing (ls : FS → List Str → List Str) : Prop := ∀ F p, FS.Finite F → ∀ c, c ∈ ls F p ↔ F (p ++ [c]) ≠ none

end Verif.Spec

namespace Verif.FsLinks
open Verif.Spec Verif.Path

/-! ## Lemmas -/

theorem remove_some {F : FS} {cwd : List Str} {me : Str} {e : List Str} (h : Names F cwd me e) (h0 : F e ≠ none)
    (h1 : F e = some .dir → ∀ c, F (e ++ [c]) = none) : remove F cwd me = some (FS.del F e) := by
  unfold remove
  have hx : ∃ e, Names F cwd me e ∧ F e ≠ none ∧ (F e = some .dir → ∀ c, F (e ++ [c]) = none) := ⟨e, h, h0, h1⟩
  rw [dif_pos hx, names_unique h hx.choose_spec.1]

theorem remove_full {F : FS} {cwd : List Str} {me : Str} {e : List Str} (h : Names F cwd me e)
    (h1 : ¬ (F e ≠ none ∧ (F e = some .dir → ∀ c, F (e ++ [c]) = none))) : remove F cwd me = none := by
  unfold remove
  rw [dif_neg]
  rintro ⟨e', h2, h3⟩
  rw [names_unique h h2] at h3
  exact h1 h3

theorem remove_absent {F : FS} {cwd : List Str} {me : Str} (h : ∀ e, Names F cwd me e → F e = none) :
    remove F cwd me = none := by
  unfold remove
  rw [dif_neg]
  rintro ⟨e', h2, h3, -⟩
  exact h3 (h e' h2)

theorem lstat_absent {F : FS} {cwd : List Str} {me : Str} (h : ∀ e, Names F cwd me e → F e = none)
    {cs : List Str} {c : Str} (hc : comps me = cs ++ [c]) (hp : Plain c) : lstat F cwd me = none := by
  unfold lstat
  rw [dif_neg, if_pos ⟨cs, c, hc, hp⟩]
  rintro ⟨e', h2, h3⟩
  exact h3 (h e' h2)

theorem without_ok {F : FS} (hF : F.Ok) {e : List Str} (he : e ≠ []) : (F.without e).Ok := by
  refine ⟨?_, fun d c h => ?_⟩
  · unfold FS.without
    rw [if_neg (by simpa using he)]; exact hF.1
  · unfold FS.without at h ⊢
    split_ifs at h with h1
    · exact absurd rfl h
    · rw [if_neg (fun h2 => h1 (h2.trans (List.prefix_append ..)))]
      exact hF.2 d c h

theorem without_le {F : FS} {e q : List Str} (h : F.without e q ≠ none) : F q ≠ none := by
  unfold FS.without at h
  split_ifs at h
  · exact absurd rfl h
  · exact h

theorem without_finite {F : FS} (hF : F.Finite) (e : List Str) : (F.without e).Finite := by
  intro p
  obtain ⟨l, hl⟩ := hF p
  exact ⟨l, fun c h => hl c (without_le h)⟩

theorem without_named {F : FS} (hF : F.Named) (e : List Str) : (F.without e).Named := fun p c h => hF p c (without_le h)

theorem without_without {F : FS} {e q : List Str} (h : e <+: q) : (F.without q).without e = F.without e := by
  funext x
  unfold FS.without
  by_cases h1 : e <+: x
  · rw [if_pos h1, if_pos h1]
  · rw [if_neg h1, if_neg h1, if_neg fun h2 => h1 (h.trans h2)]

theorem without_other {F : FS} {e q : List Str} (h : ¬ e <+: q) : F.without e q = F q := if_neg h

theorem without_empty {F : FS} (hF : F.Ok) {e : List Str} (h : F e = none) : F.without e = F := by
  funext q
  unfold FS.without
  split_ifs with h1
  · exact (Ok.below hF h q h1).symm
  · rfl

theorem not_prefix_snoc (p : List Str) (c : Str) : ¬ (p ++ [c]) <+: p := by
  intro h
  have := h.length_le
  rw [List.length_append, List.length_singleton] at this
  omega

/-- Removing one thing with nothing in it is removing all at and below it. -/
theorem del_eq {F : FS} (hF : F.Ok) {e : List Str} (h : F e = some .dir → ∀ c, F (e ++ [c]) = none) :
    FS.del F e = F.without e := by
  funext q
  unfold FS.del FS.without
  by_cases h1 : q = e
  · rw [if_pos h1, if_pos (by rw [h1]; exact List.prefix_refl _)]
  · rw [if_neg h1]
    split_ifs with h2
    · obtain ⟨t, rfl⟩ := h2
      cases t with
      | nil => simp at h1
      | cons x t =>
        have hx : F (e ++ [x]) = none := by
          by_contra hn
          exact hn (h (hF.2 e x hn) x)
        exact Ok.below hF hx _ ⟨t, by simp⟩
    · rfl

section
variable {ls : FS → List Str → List Str} {cwd : List Str}

/-- What is kept during the removal of a directory. -/
structure Going (cwd : List Str) (s : Str) (cs : List Str) (c : Str) (p : List Str) (k : Nat) (F : FS) : Prop where
  ok : F.Ok
  fin : F.Finite
  named : F.Named
  dir : F p = some .dir
  leads : Leads (F.without (p ++ [c])) (startOf cwd s) cs p
  depth : ∀ q, F (p ++ [c] ++ q) ≠ none → q.length ≤ k

theorem Going.names {s : Str} {cs : List Str} {c : Str} {p : List Str} {k : Nat} {F : FS} (h : Going cwd s cs c p k F)
    (hc : comps s = cs ++ [c]) (hp : Plain c) : Names F cwd s (p ++ [c]) :=
  ⟨cs, c, p, hc, hp, h.leads.mono (fun q n hq => by
    unfold FS.without at hq
    split_ifs at hq
    exact hq), h.dir, rfl⟩

theorem Going.without {s : Str} {cs : List Str} {c : Str} {p : List Str} {k : Nat} {F : FS} (h : Going cwd s cs c p k F)
    (x : Str) : Going cwd s cs c p k (F.without (p ++ [c] ++ [x])) where
  ok := without_ok h.ok (by simp)
  fin := without_finite h.fin _
  named := without_named h.named _
  dir := by
    rw [without_other]
    · exact h.dir
    · intro h1
      have := h1.length_le
      simp at this
      omega
  leads := by rw [without_without (List.prefix_append ..)]; exact h.leads
  depth := fun q hq => h.depth q (without_le hq)

/-- In the file system without a child, the way to the directory is still there. -/
theorem Going.child {s : Str} {cs : List Str} {c : Str} {p : List Str} {k : Nat} {F : FS} (h : Going cwd s cs c p (k + 1) F)
    (hs : s ≠ []) (hp : Plain c) (he : F (p ++ [c]) = some .dir) (x : Str) :
    Going cwd (s ++ '/' :: x) (cs ++ [c]) x (p ++ [c]) k F where
  ok := h.ok
  fin := h.fin
  named := h.named
  dir := he
  leads := by
    have hst : startOf cwd (s ++ '/' :: x) = startOf cwd s := by
      unfold startOf
      rw [rooted_append hs]
    rw [hst]
    have h1 : Leads (F.without (p ++ [c] ++ [x])) (startOf cwd s) cs p := h.leads.mono fun q n hq => by
      unfold FS.without at hq ⊢
      split_ifs at hq with h2
      rw [if_neg fun h3 => h2 ((List.prefix_append ..).trans h3)]
      exact hq
    have e1 : F.without (p ++ [c] ++ [x]) (p ++ [c]) = some .dir := by
      rw [without_other (not_prefix_snoc _ _)]; exact he
    have e2 : F.without (p ++ [c] ++ [x]) p = some .dir := (h.without x).dir
    exact h1.append (.down e2 hp e1 (by simp) (.done (by rw [e1]; simp)))
  depth := by
    intro q hq
    have := h.depth (x :: q) (by simpa using hq)
    simpa using this

theorem removeLoop_exact {s : Str} {cs : List Str} {c : Str} {p : List Str} {k : Nat} (hs : s ≠ []) (hp : Plain c)
    (ih : ∀ (F : FS) (x : Str), Going cwd (s ++ '/' :: x) (cs ++ [c]) x (p ++ [c]) k F → Plain x → '/' ∉ x →
      removeAll ls cwd (k + 1) F (s ++ '/' :: x) = some (F.without (p ++ [c] ++ [x]), false)) (l : List Str)
    (hl : ∀ x ∈ l, Plain x ∧ '/' ∉ x) : ∀ (F : FS), Going cwd s cs c p (k + 1) F → F (p ++ [c]) = some .dir →
    ∃ G, removeLoop (removeAll ls cwd (k + 1)) s F l = some G ∧ Going cwd s cs c p (k + 1) G ∧
      (∀ q, (∃ x ∈ l, p ++ [c] ++ [x] <+: q) → G q = none) ∧ (∀ q, (¬ ∃ x ∈ l, p ++ [c] ++ [x] <+: q) → G q = F q) := by
  induction l with
  | nil => intro F hF _; exact ⟨F, rfl, hF, by simp, fun _ _ => rfl⟩
  | cons x l ihl =>
    intro F hF he
    have hx := hl x (List.mem_cons_self ..)
    have h1 := ih F x (hF.child hs hp he x) hx.1 hx.2
    obtain ⟨G, h2, h3, h4, h5⟩ := ihl (fun y hy => hl y (List.mem_cons_of_mem _ hy)) _ (hF.without x)
      (by rw [without_other (not_prefix_snoc _ _)]; exact he)
    refine ⟨G, by rw [removeLoop, h1]; exact h2, h3, ?_, ?_⟩
    · rintro q ⟨y, hy, hq⟩
      by_cases h6 : ∃ y ∈ l, p ++ [c] ++ [y] <+: q
      · exact h4 q h6
      · rw [h5 q h6]
        rcases List.mem_cons.1 hy with rfl | hy
        · exact if_pos hq
        · exact absurd ⟨y, hy, hq⟩ h6
    · intro q hq
      rw [h5 q (by rintro ⟨y, hy, h6⟩; exact hq ⟨y, List.mem_cons_of_mem _ hy, h6⟩), without_other]
      intro h6
      exact hq ⟨x, List.mem_cons_self .., h6⟩

theorem removeAll_exact (hls : Listing ls) (k : Nat) : ∀ (F : FS) (s : Str) (cs : List Str) (c : Str) (p : List Str),
    comps s = cs ++ [c] → Plain c → Going cwd s cs c p k F →
    removeAll ls cwd (k + 1) F s = some (F.without (p ++ [c]), false) := by
  induction k with
  | zero =>
    intro F s cs c p hc hp hg
    have hN := hg.names hc hp
    have hempty : ∀ x, F (p ++ [c] ++ [x]) = none := by
      intro x
      by_contra h
      have := hg.depth [x] h
      simp at this
    rw [removeAll]
    by_cases h0 : F (p ++ [c]) = none
    · have hab : ∀ e, Names F cwd s e → F e = none := fun e he => by rw [names_unique hN he]; exact h0
      rw [remove_absent hab, lstat_absent hab hc hp, without_empty hg.ok h0]
    · rw [remove_some hN h0 (fun _ => hempty), del_eq hg.ok (fun _ => hempty)]
  | succ k ih =>
    intro F s cs c p hc hp hg
    have hN := hg.names hc hp
    have hs : s ≠ [] := comps_name_nonempty hc hp.1
    rw [removeAll]
    by_cases h0 : F (p ++ [c]) = none
    · have hab : ∀ e, Names F cwd s e → F e = none := fun e he => by rw [names_unique hN he]; exact h0
      rw [remove_absent hab, lstat_absent hab hc hp, without_empty hg.ok h0]
    · by_cases h1 : F (p ++ [c]) = some .dir → ∀ x, F (p ++ [c] ++ [x]) = none
      · rw [remove_some hN h0 h1, del_eq hg.ok h1]
      · have hd : F (p ++ [c]) = some .dir := by
          by_contra h2
          exact h1 fun h3 => absurd h3 h2
        have hst : stat F cwd s = some (p ++ [c]) := by
          obtain ⟨cs', c', p', e1, -, e3, e4, e5⟩ := hN
          rw [hc] at e1
          obtain ⟨rfl, e6⟩ := List.append_inj' e1 rfl
          cases e6
          obtain ⟨rfl, -⟩ := List.append_inj' e5 rfl
          refine stat_iff.2 ⟨hs, ?_⟩
          rw [hc]
          exact e3.append (.down e4 hp hd (by simp) (.done h0))
        rw [remove_full hN (fun h2 => h1 h2.2), lstat_names hN h0]
        simp only [hd, ne_eq, not_true_eq_false, if_false, hst]
        obtain ⟨G, h2, h3, h4, h5⟩ := removeLoop_exact (ls := ls) hs hp (fun F' x hg' hx hx' =>
          ih F' (s ++ '/' :: x) (cs ++ [c]) x (p ++ [c]) (by rw [comps_append, hc, comps_noslash x hx']) hx hg')
          (ls F (p ++ [c])) (fun x hx => hg.named (p ++ [c]) x ((hls F _ hg.fin x).1 hx)) F hg hd
        rw [h2]
        have hGe : G (p ++ [c]) = some .dir := by
          rw [h5, hd]
          rintro ⟨x, -, hx⟩
          exact not_prefix_snoc _ _ hx
        have hGx : ∀ x, G (p ++ [c] ++ [x]) = none := by
          intro x
          by_cases h6 : ∃ y ∈ ls F (p ++ [c]), p ++ [c] ++ [y] <+: p ++ [c] ++ [x]
          · exact h4 _ h6
          · rw [h5 _ h6]
            by_contra h7
            exact h6 ⟨x, (hls F _ hg.fin x).2 h7, List.prefix_refl _⟩
        have hGne : G (p ++ [c]) ≠ none := by rw [hGe]; simp
        simp only [remove_some (h3.names hc hp) hGne (fun _ => hGx)]
        rw [del_eq h3.ok (fun _ => hGx)]
        refine congrArg (fun X => some (X, false)) ?_
        funext q
        unfold FS.without
        split_ifs with h6
        · rfl
        · refine h5 q ?_
          rintro ⟨x, -, hx⟩
          exact h6 ((List.prefix_append ..).trans hx)

end

/-! ## `RemoveAll`, `Remove` and `Mkdir` -/

variable {ls : FS → List Str → List Str} {F : FS} {cwd : List Str} {me : Str}

/-- `RemoveAll` removes what the path names and all below it, and nothing else; it is no error if nothing is there.
Symbolic links are removed and not followed.  The directory the path names must be reached without passing through what is
removed. -/
theorem C157_exact_partial (hls : Listing ls) (hF : F.Ok) (hfin : F.Finite) (hnam : F.Named) {cs : List Str} {c : Str}
    {p : List Str} (hc : comps me = cs ++ [c]) (hp : Plain c) (hd : F p = some .dir)
    (hl : Leads (F.without (p ++ [c])) (startOf cwd me) cs p) {k : Nat}
    (hk : ∀ q, F (p ++ [c] ++ q) ≠ none → q.length ≤ k) :
    ∃ F', removeAll ls cwd (k + 1) F me = some (F', false) ∧ (∀ q, p ++ [c] <+: q → F' q = none) ∧
      ∀ q, ¬ p ++ [c] <+: q → F' q = F q :=
  ⟨_, removeAll_exact hls k F me cs c p hc hp ⟨hF, hfin, hnam, hd, hl, hk⟩, fun _ h => if_pos h, fun _ h => if_neg h⟩

/-- Following a path without links, `.` and `..` goes down. -/
theorem leads_names {G : FS} (hno : ∀ q t, G q ≠ some (.link t)) {d : List Str} : ∀ (cs : List Str) {p : List Str},
    (∀ x ∈ cs, Plain x) → Leads G d cs p → p = d ++ cs ∧ ∀ n, n ≤ cs.length → G (d ++ cs.take n) ≠ none := by
  intro cs
  induction cs generalizing d with
  | nil =>
    intro p _ h
    obtain ⟨rfl, h1⟩ := leads_nil.1 h
    exact ⟨by simp, fun n hn => by simpa using h1⟩
  | cons x cs ih =>
    intro p hx h
    have hpx := hx x (List.mem_cons_self ..)
    cases h with
    | stay _ h2 _ => exact absurd h2 (plain_not_stay hpx)
    | up _ _ => exact absurd rfl hpx.2.2
    | down h1 _ h3 h4 h5 =>
      obtain ⟨rfl, h6⟩ := ih (fun y hy => hx y (List.mem_cons_of_mem _ hy)) h5
      refine ⟨by simp, fun n hn => ?_⟩
      cases n with
      | zero => simp [h1]
      | succ n => simpa using h6 n (by simpa using hn)
    | follow _ _ h3 _ _ => exact absurd h3 (hno _ _)

/-- The same with any prefix-closed part of the file system. -/
theorem leads_within {G H : FS} (hno : ∀ q t, G q ≠ some (.link t)) {d : List Str} : ∀ (cs : List Str) {p : List Str},
    (∀ x ∈ cs, Plain x) → (∀ n, n ≤ cs.length → H (d ++ cs.take n) = G (d ++ cs.take n)) → Leads G d cs p → Leads H d cs p := by
  intro cs
  induction cs generalizing d with
  | nil =>
    intro p _ hH h
    obtain ⟨rfl, h1⟩ := leads_nil.1 h
    have := hH 0 (Nat.le_refl _)
    simp only [List.take_nil, List.append_nil] at this
    exact .done (by rw [this]; exact h1)
  | cons x cs ih =>
    intro p hx hH h
    have hpx := hx x (List.mem_cons_self ..)
    cases h with
    | stay _ h2 _ => exact absurd h2 (plain_not_stay hpx)
    | up _ _ => exact absurd rfl hpx.2.2
    | down h1 _ h3 h4 h5 =>
      have e0 : H d = G d := by simpa using hH 0 (Nat.zero_le _)
      have e1 : H (d ++ [x]) = G (d ++ [x]) := by simpa using hH 1 (by simp)
      refine .down (by rw [e0]; exact h1) hpx (by rw [e1]; exact h3) h4
        (ih (fun y hy => hx y (List.mem_cons_of_mem _ hy)) (fun n hn => ?_) h5)
      simpa using hH (n + 1) (by simpa using hn)
    | follow _ _ h3 _ _ => exact absurd h3 (hno _ _)

/-- In a file system without symbolic links, an absolute path in clean form is enough. -/
theorem C157_absolute (hls : Listing ls) (hF : F.Ok) (hfin : F.Finite) (hnam : F.Named) (hno : ∀ q t, F q ≠ some (.link t))
    (hr : rooted me = true) (hc : clean me = me) {e : List Str} (he : Names F cwd me e) {k : Nat}
    (hk : ∀ q, F (e ++ q) ≠ none → q.length ≤ k) :
    ∃ F', removeAll ls cwd (k + 1) F me = some (F', false) ∧ (∀ q, e <+: q → F' q = none) ∧
      ∀ q, ¬ e <+: q → F' q = F q := by
  obtain ⟨cs, c, p, h1, h2, h3, h4, rfl⟩ := he
  refine C157_exact_partial hls hF hfin hnam h1 h2 h4 ?_ hk
  have e := clean_eq me
  rw [hc, hr] at e
  have hn := form_names me
  have hst : startOf cwd me = [] := by unfold startOf; rw [hr]; rfl
  have h0 : outOf (form me) ≠ [] := by
    intro h0
    have : comps me = [[], []] := by
      have e3 : comps (render true (form me)) = [[], []] := by
        unfold render
        rw [h0]
        rfl
      rw [← e] at e3
      exact e3
    rw [this] at h1
    have := congrArg List.getLast? h1
    simp at this
    exact h2.1 this
  have hcm := comps_render true (form me) hn h0
  rw [← e] at hcm
  have hz := form_rooted me hr
  have hout : (outOf (form me)).reverse = (form me).2.reverse := by simp [outOf, hz]
  rw [hout] at hcm
  have hcs : ∃ ms, cs = [] :: ms ∧ ∀ x ∈ ms, Plain x := by
    rw [hcm] at h1
    cases cs with
    | nil =>
      have : (form me).2 = [] := by simpa using congrArg List.length h1
      exact absurd (by simp [outOf, hz, this]) h0
    | cons y ms =>
      simp only [if_true, List.cons_append, List.nil_append, List.cons.injEq] at h1
      refine ⟨ms, by rw [← h1.1], fun x hx => ?_⟩
      have hx' : x ∈ (form me).2.reverse := by rw [h1.2]; simp [hx]
      have := hn x (List.mem_reverse.1 hx')
      exact ⟨this.1, this.2.1, this.2.2.1⟩
  obtain ⟨ms, rfl, hms⟩ := hcs
  rw [hst] at h3 ⊢
  obtain ⟨h5, h6⟩ := (leads_stay (.inl rfl)).1 h3
  obtain ⟨h7, -⟩ := leads_names hno ms hms h6
  rw [List.nil_append] at h7
  subst h7
  have hnp : ∀ n, ¬ p ++ [c] <+: p.take n := by
    intro n h
    have := h.length_le
    simp at this
    omega
  refine (leads_stay (.inl rfl)).2 ⟨?_, leads_within hno p hms (fun n _ => ?_) h6⟩
  · rw [without_other (by simp)]; exact h5
  · rw [List.nil_append, without_other (hnp n)]

/-- A symbolic link is removed itself; what it points to stays. -/
theorem C157_link {e : List Str} {t : Str}
    (he : Names F cwd me e) (ht : F e = some (.link t)) {k : Nat} :
    ∃ F', removeAll ls cwd (k + 1) F me = some (F', false) ∧ F' e = none ∧ ∀ q, q ≠ e → F' q = F q := by
  refine ⟨FS.del F e, ?_, if_pos rfl, fun q hq => if_neg hq⟩
  rw [removeAll, remove_some he (by rw [ht]; simp) (by rw [ht]; simp)]

/-- `Remove` after `Mkdir` restores the file system. -/
theorem C157_mkdir_remove (hF : F.Ok) {F' : FS} (h : mkdir F cwd me = some F') : remove F' cwd me = some F := by
  unfold mkdir at h
  split_ifs at h with hx
  cases h
  obtain ⟨h1, h2⟩ := hx.choose_spec
  generalize hx.choose = e at h1 h2 ⊢
  have hm := put_mono (n := Node.dir) h2
  have hN : Names (F.put e .dir) cwd me e := by
    obtain ⟨cs, c, p, e1, e2, e3, e4, e5⟩ := h1
    exact ⟨cs, c, p, e1, e2, e3.mono hm, hm _ _ e4, e5⟩
  have he : (F.put e .dir) e = some .dir := if_pos rfl
  rw [remove_some hN (by rw [he]; simp)]
  · refine congrArg some ?_
    funext q
    unfold FS.del FS.put
    split_ifs with h3
    · rw [h3, h2]
    · rfl
  · intro _ c
    have : e ++ [c] ≠ e := by
      intro h3
      have := congrArg List.length h3
      simp at this
    show (if e ++ [c] = e then _ else _) = _
    rw [if_neg this]
    exact Ok.below hF h2 _ ⟨[c], rfl⟩

/-! ## The witness and concrete cases -/

/-- A directory `a` with a link `l` to the root and a file `z`. -/
def loopDemo : FS := fun q =>
  if q = [] ∨ q = [['a']] then some .dir
  else if q = [['a'], ['l']] then some (.link ['/'])
  else if q = [['a'], ['z']] then some (.file 1)
  else none

theorem loopDemo_snoc {p : List Str} {c : Str} (h : loopDemo (p ++ [c]) ≠ none) :
    (p = [] ∧ c = ['a']) ∨ (p = [['a']] ∧ (c = ['l'] ∨ c = ['z'])) := by
  unfold loopDemo at h
  rcases p with _ | ⟨x, _ | ⟨y, p⟩⟩
  · left
    by_contra hc
    simp at hc
    simp [hc] at h
  · right
    by_contra hc
    simp only [List.cons.injEq, and_true, not_and, not_or] at hc
    by_cases hx : x = ['a']
    · simp [hx, hc hx] at h
    · simp [hx] at h
  · simp at h

theorem loopDemo_ok : loopDemo.Ok :=
  ⟨by decide, fun d c h => by rcases loopDemo_snoc h with ⟨rfl, -⟩ | ⟨rfl, -⟩ <;> decide⟩

theorem loopDemo_finite : loopDemo.Finite := fun p => ⟨[['a'], ['l'], ['z']], fun c h => by
  rcases loopDemo_snoc h with ⟨-, rfl⟩ | ⟨-, rfl | rfl⟩ <;> simp⟩

theorem loopDemo_named : loopDemo.Named := fun p c h => by
  rcases loopDemo_snoc h with ⟨-, rfl⟩ | ⟨-, rfl | rfl⟩ <;> decide

open Classical in
/-- Some faithful listing, with `l` before `z` in the directory `a` of `loopDemo`. -/
noncomputable def demoLs (F : FS) (p : List Str) : List Str :=
  if F = loopDemo ∧ p = [['a']] then [['l'], ['z']]
  else if h : ∃ l : List Str, ∀ c, c ∈ l ↔ F (p ++ [c]) ≠ none then h.choose else []

theorem demoLs_listing : Listing demoLs := by
  classical
  intro F p hF c
  unfold demoLs
  by_cases h : F = loopDemo ∧ p = [['a']]
  · rw [if_pos h]
    obtain ⟨rfl, rfl⟩ := h
    constructor
    · intro hc
      rcases List.mem_cons.1 hc with rfl | hc
      · decide
      · rw [List.mem_singleton.1 hc]; decide
    · intro hc
      rcases loopDemo_snoc hc with ⟨h1, -⟩ | ⟨-, rfl | rfl⟩
      · cases h1
      · simp
      · simp
  · rw [if_neg h]
    obtain ⟨l, hl⟩ := hF p
    have hx : ∃ l : List Str, ∀ c, c ∈ l ↔ F (p ++ [c]) ≠ none :=
      ⟨l.filter fun c => decide (F (p ++ [c]) ≠ none), fun c => by
        rw [List.mem_filter, decide_eq_true_iff]
        exact ⟨fun h => h.2, fun h => ⟨hl c h, h⟩⟩⟩
    rw [dif_pos hx]
    exact hx.choose_spec c

theorem loopDemo_a : Leads loopDemo [] [['a'], ['l']] [] :=
  .down (n := .dir) (by decide) (by decide) (by decide) (by simp)
    (.follow (t := ['/']) (by decide) (by decide) (by decide) (by decide)
      (.stay (by decide) (.inl rfl) (.stay (by decide) (.inl rfl) (.done (by decide)))))

/-- The claim without the condition is false: a path that passes through what is removed is lost on the way.  `a/l/a` names
the directory `/a`, since `/a/l` is a link to the root.  `RemoveAll` reports success, but the directory and the file in it are
still there. -/
theorem C157_through_itself_false (k : Nat) : ∃ F', Names loopDemo [] ['a', '/', 'l', '/', 'a'] [['a']] ∧
    removeAll demoLs [] (k + 2) loopDemo ['a', '/', 'l', '/', 'a'] = some (F', false) ∧
    F' [['a']] = some .dir ∧ F' [['a'], ['z']] = some (.file 1) := by
  have hN : Names loopDemo [] ['a', '/', 'l', '/', 'a'] [['a']] :=
    ⟨[['a'], ['l']], ['a'], [], by decide, by decide, loopDemo_a, by decide, rfl⟩
  have hlead : Leads loopDemo [] [['a'], ['l'], ['a']] [['a']] :=
    Leads.append (xs := [['a'], ['l']]) loopDemo_a
      (.down (n := .dir) (by decide) (by decide) (by decide) (by simp) (.done (by decide)))
  have hN1 : Names loopDemo [] ['a', '/', 'l', '/', 'a', '/', 'l'] [['a'], ['l']] :=
    ⟨[['a'], ['l'], ['a']], ['l'], [['a']], by decide, by decide, hlead, by decide, rfl⟩
  have hst : stat loopDemo [] ['a', '/', 'l', '/', 'a'] = some [['a']] := stat_iff.2 ⟨by decide, hlead⟩
  have hno : ∀ cs p, ¬ Leads (FS.del loopDemo [['a'], ['l']]) [] (['a'] :: ['l'] :: cs) p := by
    intro cs p h
    obtain ⟨q, h1, h2⟩ := leads_append (xs := [['a']]).1 h
    have h3 : Leads (FS.del loopDemo [['a'], ['l']]) [] [['a']] [['a']] :=
      .down (n := .dir) (by decide) (by decide) (by decide) (by simp) (.done (by decide))
    have := h3.unique h1
    subst this
    exact leads_plain (by decide) h2 (by decide)
  have hab : ∀ (s : Str) c cs, comps s = ['a'] :: ['l'] :: cs ++ [c] → rooted s = false →
      ∀ e, Names (FS.del loopDemo [['a'], ['l']]) [] s e → FS.del loopDemo [['a'], ['l']] e = none := by
    rintro s c cs hs hr e ⟨cs', c', p, h1, -, h3, -, -⟩
    rw [hs] at h1
    obtain ⟨rfl, -⟩ := List.append_inj' h1 rfl
    unfold startOf at h3
    rw [hr] at h3
    exact absurd h3 (hno _ _)
  have hz := hab ['a', '/', 'l', '/', 'a', '/', 'z'] ['z'] [['a']] (by decide) (by decide)
  have ha := hab ['a', '/', 'l', '/', 'a'] ['a'] [] (by decide) (by decide)
  have hls : demoLs loopDemo [['a']] = [['l'], ['z']] := if_pos ⟨rfl, rfl⟩
  have r1 : removeAll demoLs [] (k + 1) loopDemo ['a', '/', 'l', '/', 'a', '/', 'l'] =
      some (FS.del loopDemo [['a'], ['l']], false) := by
    rw [removeAll, remove_some hN1 (by decide) (fun h => absurd h (by decide))]
  have r2 : removeAll demoLs [] (k + 1) (FS.del loopDemo [['a'], ['l']]) ['a', '/', 'l', '/', 'a', '/', 'z'] =
      some (FS.del loopDemo [['a'], ['l']], false) := by
    rw [removeAll, remove_absent hz, lstat_absent hz (cs := [['a'], ['l'], ['a']]) (c := ['z']) (by decide) (by decide)]
  refine ⟨FS.del loopDemo [['a'], ['l']], hN, ?_, by decide, by decide⟩
  rw [removeAll, remove_full hN (fun h => absurd (h.2 (by decide) ['l']) (by decide)), lstat_names hN (by decide)]
  have hd : loopDemo [['a']] = some .dir := by decide
  simp only [hd, ne_eq, not_true_eq_false, if_false, hst, hls]
  simp only [removeLoop, List.cons_append, List.nil_append, r1, r2]
  rw [remove_absent ha, lstat_absent ha (cs := [['a'], ['l']]) (c := ['a']) (by decide) (by decide)]
  simp

/-- The same directory removed by its plain path. -/
example : ∃ F', removeAll demoLs [] 2 loopDemo ['a'] = some (F', false) ∧ (∀ q, [['a']] <+: q → F' q = none) ∧
    ∀ q, ¬ [['a']] <+: q → F' q = loopDemo q :=
  C157_exact_partial (cs := []) (c := ['a']) (p := []) (k := 1) demoLs_listing loopDemo_ok loopDemo_finite loopDemo_named (by decide)
    (by decide) (by decide) (.done (by decide)) (fun q hq => by
      by_contra hl
      obtain ⟨x, y, r, rfl⟩ : ∃ x y r, q = x :: y :: r := by
        rcases q with _ | ⟨x, _ | ⟨y, r⟩⟩
        · simp at hl
        · simp at hl
        · exact ⟨x, y, r, rfl⟩
      simp [loopDemo] at hq)

/-- The link `a/l` removed: the root it points to stays. -/
example : ∃ F', removeAll demoLs [] 1 loopDemo ['a', '/', 'l'] = some (F', false) ∧ F' [['a'], ['l']] = none ∧
    ∀ q, q ≠ [['a'], ['l']] → F' q = loopDemo q :=
  C157_link (k := 0) (t := ['/']) ⟨[['a']], ['l'], [['a']], by decide, by decide,
    .down (n := .dir) (by decide) (by decide) (by decide) (by simp) (.done (by decide)), by decide, rfl⟩ (by decide)

/-- A file system without links, and an absolute path in it. -/
example : plainDemo.Ok ∧ (∀ q t, plainDemo q ≠ some (.link t)) ∧ rooted ['/', 'a'] = true ∧ clean ['/', 'a'] = ['/', 'a'] ∧
    Names plainDemo [] ['/', 'a'] [['a']] := by
  refine ⟨⟨by decide, fun d c h => ?_⟩, fun q t => ?_, by decide, by decide +kernel, ?_⟩
  · unfold plainDemo at h ⊢
    cases d with
    | nil => simp
    | cons x d => simp at h
  · unfold plainDemo
    split_ifs <;> simp
  · exact ⟨[[]], ['a'], [], by decide, by decide, .stay (by decide) (.inl rfl) (.done (by decide)), by decide, rfl⟩

example : ∃ F', mkdir loopDemo [] ['b'] = some F' :=
  ⟨_, mkdir_some (e := [['b']]) ⟨[], ['b'], [], by decide, by decide, .done (by decide), by decide, rfl⟩ (by decide)⟩

end Verif.FsLinks
