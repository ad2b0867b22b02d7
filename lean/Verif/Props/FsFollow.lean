import Verif.Model.FsFollow
import Verif.Props.FsLinks
import Verif.Props.FsHash
import Mathlib.Logic.Relation
/-!
# C133: fingerprints and statistics among symbolic links
-/

set_option linter.unusedSectionVars false

namespace Verif.FsLinks
open Verif.Spec Verif.Path Verif.FileHash Verif.Hash Verif.Tree
open Verif.Fs (FTree digest)

/-! ## Specification -/

/-- Directories list exactly the names that are in them, each once; names have no slash and are not dots. -/
structure World.Ok (W : World) : Prop where
  fs : W.F.Ok
  nodup : ∀ p, W.F p = some .dir → (W.list p).Nodup
  mem : ∀ p c, W.F p = some .dir → (c ∈ W.list p ↔ W.F (p ++ [c]) ≠ none)
  plain : ∀ p c, W.F p = some .dir → c ∈ W.list p → Plain c ∧ '/' ∉ c

/-- The entries of a directory as a tree, given the trees of depth less than `k`. -/
noncomputable def viewE (W : World) (rec : Option (List Str) → Option Fs.Node) (e : List Str) : List Str → Option Fs.Entries
  | [] => some .nil
  | c :: cs =>
    match rec (W.at e [c]), viewE W rec e cs with
    | some n, some es => some (.cons (String.ofList c) n es)
    | _, _ => none

/-- The tree that is seen from a place when all symbolic links are followed, if its depth is less than `k`; a link that
leads nowhere is a file that can not be opened. -/
noncomputable def view (W : World) : Nat → Option (List Str) → Option Fs.Node
  | 0, _ => none
  | _ + 1, none => some (.file false [] 0)
  | k + 1, some e =>
    match W.F e with
    | some (.file i) => some (.file true (W.content i) (W.content i).length)
    | some .dir => (viewE W (view W k) e (W.list e)).map (.dir .ok)
    | _ => none

/-- The entries of a directory as a tree, links not followed. -/
def flatE (rec : List Str → Option Fs.Node) (e : List Str) : List Str → Option Fs.Entries
  | [] => some .nil
  | c :: cs =>
    match rec (e ++ [c]), flatE rec e cs with
    | some n, some es => some (.cons (String.ofList c) n es)
    | _, _ => none

/-- The tree at and below a place, if its depth is less than `k`; a symbolic link is a file that holds its text. -/
def flat (W : World) : Nat → List Str → Option Fs.Node
  | 0, _ => none
  | k + 1, e =>
    match W.F e with
    | some (.file i) => some (.file true (W.content i) (W.content i).length)
    | some (.link t) => some (.file true (strBytes t) (strBytes t).length)
    | some .dir => (flatE (flat W k) e (W.list e)).map (.dir .ok)
    | none => none

/-- `e'` is what an entry of the directory `e` leads to. -/
def Below (W : World) (e e' : List Str) : Prop := W.F e = some .dir ∧ ∃ c ∈ W.list e, Leads W.F e [c] e'

/-! ## Lemmas -/

theorem at_iff {W : World} {d cs e : List Str} : W.at d cs = some e ↔ Leads W.F d cs e := by
  unfold World.at
  constructor
  · intro h
    split at h
    · rename_i hx
      cases h; exact hx.choose_spec
    · cases h
  · intro h
    rw [dif_pos ⟨e, h⟩, h.unique (Exists.choose_spec ⟨e, h⟩)]

theorem at_none {W : World} {d cs : List Str} : W.at d cs = none ↔ ∀ e, ¬ Leads W.F d cs e := by
  rw [Option.eq_none_iff_forall_ne_some]
  simp only [ne_eq, at_iff]

theorem open_iff {W : World} {cwd : List Str} {me : Str} {e : List Str} :
    W.openPath cwd me = some e ↔ LeadsTo W.F cwd me e := by
  unfold World.openPath LeadsTo
  by_cases h : me = []
  · simp [h]
  · simp [h, at_iff]

theorem open_none {W : World} {cwd : List Str} {me : Str} :
    W.openPath cwd me = none ↔ ∀ e, ¬ LeadsTo W.F cwd me e := by
  rw [Option.eq_none_iff_forall_ne_some]
  simp only [ne_eq, open_iff]

theorem child_eq {me : Str} (hc : clean me = me) {c : Str} (h : Name c) :
    joinChild me c = render (rooted me) ((form me).1, c :: (form me).2) := by
  have hne : me ≠ [] := by rw [← hc]; exact clean_ne_nil me
  have e2 : rooted (me ++ '/' :: c) = rooted me := rooted_append hne _
  unfold joinChild
  rw [joins_cons hne]
  show clean (me ++ '/' :: c) = _
  rw [clean_eq, e2]
  congr 1
  rw [form, comps_append, e2, List.foldl_append, comps_noslash _ h.2.2.2]
  have : (comps me).foldl (fstep (rooted me)) (0, []) = form me := rfl
  rw [this]
  simp [fstep, h.1, h.2.1, h.2.2.1]

theorem child_clean (me c : Str) (h : me ≠ []) : clean (joinChild me c) = joinChild me c := by
  unfold joinChild
  rw [joins_cons h, clean_clean]

/-- The components of a child: those of the parent without stays, and the name. -/
theorem child_comps {me : Str} (hc : clean me = me) {c : Str} (h : Name c) :
    rooted (joinChild me c) = rooted me ∧
    ∃ cs, comps (joinChild me c) = cs ++ [c] ∧
      cs.filter (fun c => !(decide (c = [] ∨ c = ['.']))) = going me := by
  have hn : ∀ y ∈ c :: (form me).2, Name y := by
    intro y hy
    rcases List.mem_cons.1 hy with rfl | hy
    · exact h
    · exact form_names _ y hy
  refine ⟨by rw [child_eq hc h, rooted_render _ _ hn], (if rooted me then [[]] else []) ++ (outOf (form me)).reverse, ?_, ?_⟩
  · rw [child_eq hc h, comps_render _ _ hn (by simp [outOf])]
    simp [outOf]
  · have : going me = (outOf (form me)).reverse := by
      have h1 := going_render (rooted me) _ (form_names me)
      rw [← clean_eq, hc] at h1
      exact h1
    rw [this, List.filter_append, out_going _ (form_names _)]
    cases rooted me <;> simp

theorem child_prefix {F : FS} {cwd : List Str} {me : Str} (hc : clean me = me) {c : Str} (h : Name c) {cs : List Str}
    (h1 : comps (joinChild me c) = cs ++ [c]) (q : List Str) (hq : F q = some .dir) :
    Leads F (startOf cwd (joinChild me c)) cs q ↔ LeadsTo F cwd me q := by
  obtain ⟨hr, cs', h2, h3⟩ := child_comps hc h
  obtain ⟨rfl, -⟩ := List.append_inj' (h1.symm.trans h2) rfl
  have hs : startOf cwd (joinChild me c) = startOf cwd me := by simp [startOf, hr]
  rw [hs]
  constructor
  · intro h4
    refine ⟨by rw [← hc]; exact clean_ne_nil me, ?_⟩
    have := h4.drop_stays
    rw [h3] at this
    exact this.add_stays hq
  · rintro ⟨-, h4⟩
    have := h4.drop_stays
    rw [show (comps me).filter (fun c => !(decide (c = [] ∨ c = ['.']))) = going me from rfl, ← h3] at this
    exact this.add_stays hq

theorem child_leads {F : FS} {cwd : List Str} {me : Str} (hc : clean me = me) {c : Str} (h : Name c) {e : List Str}
    (he : LeadsTo F cwd me e) (hd : F e = some .dir) (e' : List Str) :
    LeadsTo F cwd (joinChild me c) e' ↔ Leads F e [c] e' := by
  obtain ⟨-, cs, h2, -⟩ := child_comps hc h
  constructor
  · rintro ⟨-, h4⟩
    rw [h2] at h4
    obtain ⟨q, h5, h6⟩ := leads_append.1 h4
    have h7 := (child_prefix hc h h2 q (leads_head_dir h6)).1 h5
    rw [h7.2.unique he.2]
    exact h6
  · intro h4
    refine ⟨comps_name_nonempty h2 h.1, ?_⟩
    rw [h2]
    exact ((child_prefix hc h h2 e hd).2 he).append h4

theorem child_names {F : FS} {cwd : List Str} {me : Str} (hc : clean me = me) {c : Str} (h : Name c) {e : List Str}
    (he : LeadsTo F cwd me e) (hd : F e = some .dir) (e' : List Str) :
    Names F cwd (joinChild me c) e' ↔ e' = e ++ [c] := by
  obtain ⟨-, cs, h2, -⟩ := child_comps hc h
  constructor
  · rintro ⟨cs', c', q, h4, -, h5, h6, rfl⟩
    obtain ⟨rfl, e2⟩ := List.append_inj' (h4.symm.trans h2) rfl
    cases e2
    rw [he.2.unique ((child_prefix hc h h2 q h6).1 h5).2]
  · rintro rfl
    exact ⟨cs, c, e, h2, ⟨h.1, h.2.1, h.2.2.1⟩, (child_prefix hc h h2 e hd).2 he, hd, rfl⟩

section gen
variable (srt : Fs.Sorter) (W : World) (cwd : List Str) (leaf : Bytes → Nat → Bytes) (comb : List Bytes → UInt64 → Bytes)

/-- The scheme of both functions. -/
noncomputable def genL : Nat → Str → Option (Option FTree)
  | 0, _ => none
  | k + 1, me =>
    match W.openPath cwd me with
    | none => some none
    | some e =>
      match W.F e with
      | some .dir =>
        match loop (genL k) me [] (W.list e) with
        | none => none
        | some none => some none
        | some (some cs) =>
          some (some (.node ⟨strBytes me, comb ((srt.sort cs).map fun c => c.val.hash) (Fs.sizes (srt.sort cs)),
            Fs.sizes (srt.sort cs), true⟩ (srt.sort cs)))
      | some (.file i) =>
        some (some (.node ⟨strBytes me, leaf (W.content i) (W.content i).length, UInt64.ofNat (W.content i).length, false⟩ []))
      | _ => some none

variable {W} (hW : W.Ok)
include hW

theorem loop_view (k : Nat)
    (ih : ∀ (me : Str), clean me = me → ∀ p,
      match view W k (W.openPath cwd me) with
      | some n => ∃ r, genL srt W cwd leaf comb k me = some r ∧
          r.map digest = (Fs.gen srt leaf comb p n).map digest
      | none => ∀ t, genL srt W cwd leaf comb k me ≠ some (some t))
    (me : Str) (hc : clean me = me) (e : List Str) (he : LeadsTo W.F cwd me e) (hd : W.F e = some .dir) (p : Fs.Path) :
    ∀ (cs : List Str) (acc : List FTree), (∀ c ∈ cs, c ∈ W.list e) →
      match viewE W (view W k) e cs with
      | some es => ∃ r, loop (genL srt W cwd leaf comb k) me acc cs = some r ∧
          r.map (·.map digest) = (Fs.genE srt leaf comb p es).map fun l => acc.map digest ++ l.map digest
      | none => ∀ l, loop (genL srt W cwd leaf comb k) me acc cs ≠ some (some l) := by
  intro cs
  induction cs with
  | nil => intro acc _; exact ⟨some acc, rfl, by simp [Fs.genE]⟩
  | cons c cs ihc =>
    intro acc hcs
    have hpl := hW.plain e c hd (hcs c (by simp))
    have hn : Name c := ⟨hpl.1.1, hpl.1.2.1, hpl.1.2.2, hpl.2⟩
    have hne : me ≠ [] := he.1
    have hcc := child_clean me c hne
    have hop : W.openPath cwd (joinChild me c) = W.at e [c] := by
      ext e'
      rw [open_iff, at_iff, child_leads hc hn he hd]
    have h1 := ih (joinChild me c) hcc (p ++ [String.ofList c])
    rw [hop] at h1
    simp only [viewE, loop]
    rw [if_pos ⟨hn.2.1, hn.2.2.1⟩, show filePath (joinChild me c) = joinChild me c from hcc]
    cases hv : view W k (W.at e [c]) with
    | none =>
      rw [hv] at h1
      simp only at h1 ⊢
      intro l
      cases hg : genL srt W cwd leaf comb k (joinChild me c) with
      | none => simp
      | some r =>
        cases r with
        | none => simp
        | some t => exact absurd hg (h1 t)
    | some n =>
      rw [hv] at h1
      simp only at h1
      obtain ⟨r, hg, hr⟩ := h1
      rw [hg]
      cases r with
      | none =>
        simp only [Option.map_none] at hr
        have hno := Option.map_eq_none_iff.1 hr.symm
        cases viewE W (view W k) e cs with
        | none => simp
        | some es => exact ⟨none, rfl, by simp [Fs.genE, hno]⟩
      | some t =>
        simp only [Option.map_some] at hr
        obtain ⟨t', ht', hd'⟩ := Option.map_eq_some_iff.1 hr.symm
        simp only [Fs.insert_end]
        have h2 := ihc (acc ++ [t]) (fun c hc => hcs c (by simp [hc]))
        cases hvs : viewE W (view W k) e cs with
        | none => rw [hvs] at h2; exact h2
        | some es =>
          rw [hvs] at h2
          obtain ⟨r, hl, hr2⟩ := h2
          refine ⟨r, hl, ?_⟩
          rw [hr2]
          simp only [Fs.genE, ht']
          cases Fs.genE srt leaf comb p es with
          | none => rfl
          | some l => simp [hd']

theorem genL_view (k : Nat) : ∀ (me : Str), clean me = me → ∀ p,
    match view W k (W.openPath cwd me) with
    | some n => ∃ r, genL srt W cwd leaf comb k me = some r ∧
        r.map digest = (Fs.gen srt leaf comb p n).map digest
    | none => ∀ t, genL srt W cwd leaf comb k me ≠ some (some t) := by
  induction k with
  | zero => intro me _ p; simp [view, genL]
  | succ k ih =>
    intro me hc p
    cases ho : W.openPath cwd me with
    | none => exact ⟨none, by simp [genL, ho], by simp [Fs.gen]⟩
    | some e =>
      have he := open_iff.1 ho
      cases hF : W.F e with
      | none => exact absurd hF he.2.ne_none
      | some nd =>
        cases nd with
        | link t => simp [view, genL, ho, hF]
        | file i =>
          simp only [view, genL, ho, hF]
          exact ⟨_, rfl, by simp [Fs.gen, digest, Tree.val]⟩
        | dir =>
          have h1 := loop_view srt cwd leaf comb hW k ih me hc e he hF p (W.list e) [] (fun _ h => h)
          simp only [view, genL, ho, hF]
          cases hv : viewE W (view W k) e (W.list e) with
          | none =>
            rw [hv] at h1
            simp only [Option.map_none] at h1 ⊢
            intro t
            cases hl : loop (genL srt W cwd leaf comb k) me [] (W.list e) with
            | none => simp
            | some r =>
              cases r with
              | none => simp
              | some l => exact absurd hl (h1 l)
          | some es =>
            rw [hv] at h1
            simp only [Option.map_some] at h1 ⊢
            obtain ⟨r, hl, hr⟩ := h1
            rw [hl]
            cases hg : Fs.genE srt leaf comb p es with
            | none =>
              rw [hg] at hr
              obtain rfl : r = none := by simpa using hr
              exact ⟨none, rfl, by simp [Fs.gen, hg]⟩
            | some l =>
              rw [hg] at hr
              simp only [List.map_nil, List.nil_append, Option.map_some] at hr
              obtain ⟨cs, rfl, hcs⟩ := Option.map_eq_some_iff.1 hr
              refine ⟨_, rfl, ?_⟩
              have hp : (cs.map Fs.hs).Perm (l.map Fs.hs) := by
                have q : ∀ l : List FTree, l.map Fs.hs = (l.map digest).map fun d => (d.1, d.2.1) := by
                  intro l; rw [List.map_map]; rfl
                rw [q, q, hcs]
              have hsu := Fs.sorted_unique srt srt hp
              have h2 : (srt.sort cs).map (fun c => c.val.hash) = (srt.sort l).map (fun c => c.val.hash) := by
                have := congrArg (List.map (fun x : Bytes × UInt64 => x.1)) hsu
                simpa [List.map_map, Function.comp_def, Fs.hs] using this
              have h3 : Fs.sizes (srt.sort cs) = Fs.sizes (srt.sort l) := by
                have := congrArg (List.map (fun x : Bytes × UInt64 => x.2)) hsu
                rw [Fs.sizes_eq, Fs.sizes_eq]
                congr 1
                simpa [List.map_map, Function.comp_def, Fs.hs] using this
              simp only [Fs.gen, hg, Option.map_some]
              show some (comb ((srt.sort cs).map fun c => c.val.hash) (Fs.sizes (srt.sort cs)), Fs.sizes (srt.sort cs), true) =
                some (comb ((srt.sort l).map fun c => c.val.hash) (Fs.sizes (srt.sort l)), Fs.sizes (srt.sort l), true)
              rw [h2, h3]

omit hW in
theorem loop_congr {f g : Str → Option (Option FTree)} (h : ∀ s, f s = g s) (me : Str) (acc : List FTree) (cs : List Str) :
    loop f me acc cs = loop g me acc cs := by
  rw [funext h]

/-- The tree seen has proper names. -/
theorem view_ok (k : Nat) : ∀ o n, view W k o = some n → n.Ok := by
  induction k with
  | zero => intro o n h; simp [view] at h
  | succ k ih =>
    intro o n h
    cases o with
    | none => simp only [view, Option.some.injEq] at h; subst h; trivial
    | some e =>
      simp only [view] at h
      cases hF : W.F e with
      | none => rw [hF] at h; cases h
      | some nd =>
        cases nd with
        | link t => rw [hF] at h; cases h
        | file i => rw [hF] at h; cases h; trivial
        | dir =>
          rw [hF] at h
          obtain ⟨es, hes, rfl⟩ := Option.map_eq_some_iff.1 h
          have key : ∀ cs es, cs.Nodup → (∀ c ∈ cs, c ∈ W.list e) → viewE W (view W k) e cs = some es →
              es.Ok ∧ ∀ x ∈ es.toList, ∃ c ∈ cs, x.1 = String.ofList c := by
            intro cs
            induction cs with
            | nil => intro es _ _ h; simp only [viewE, Option.some.injEq] at h; subst h; exact ⟨trivial, by simp [Fs.Entries.toList]⟩
            | cons c cs ihc =>
              intro es hnd hcs h
              simp only [viewE] at h
              cases h1 : view W k (W.at e [c]) with
              | none => rw [h1] at h; simp at h
              | some n =>
                cases h2 : viewE W (view W k) e cs with
                | none => rw [h1, h2] at h; simp at h
                | some es' =>
                  rw [h1, h2] at h
                  cases h
                  rw [List.nodup_cons] at hnd
                  obtain ⟨h3, h4⟩ := ihc es' hnd.2 (fun c hc => hcs c (by simp [hc])) h2
                  have hpl := hW.plain e c hF (hcs c (by simp))
                  refine ⟨⟨?_, ?_, ?_, ih _ _ h1, h3⟩, ?_⟩
                  · intro hx
                    exact hpl.1.2.1 (String.ofList_injective (hx.trans (by decide)))
                  · intro hx
                    exact hpl.1.2.2 (String.ofList_injective (hx.trans (by decide)))
                  · intro x hx he
                    obtain ⟨c', hc', he'⟩ := h4 x hx
                    rw [he'] at he
                    rw [String.ofList_injective he] at hc'
                    exact hnd.1 hc'
                  · intro x hx
                    simp only [Fs.Entries.toList, List.mem_cons] at hx
                    rcases hx with rfl | hx
                    · exact ⟨c, by simp, rfl⟩
                    · obtain ⟨c', hc', he'⟩ := h4 x hx
                      exact ⟨c', by simp [hc'], he'⟩
          exact (key _ _ (hW.nodup e hF) (fun _ h => h) hes).1

end gen

theorem fingerprint_genL (M S C : Alg) (srt : Fs.Sorter) (W : World) (cwd : List Str) (k : Nat) (me : Str) :
    fingerprint M S C srt W cwd k me = genL srt W cwd (Fs.fpLeaf M S C) (Fs.fpComb M S C) k me := by
  induction k generalizing me with
  | zero => rfl
  | succ k ih =>
    simp only [fingerprint, genL, funext ih, Fs.fpLeaf, Fs.fpComb, Fs.sizes, List.take_length, List.foldl_map]
    rfl

theorem hash_genL (srt : Fs.Sorter) (W : World) (cwd : List Str) (A : Alg) (salt : Bytes) (k : Nat) (me : Str) :
    hash srt W cwd A salt k me = genL srt W cwd (Fs.hashLeaf A salt) (Fs.hashComb A salt) k me := by
  induction k generalizing me with
  | zero => rfl
  | succ k ih =>
    simp only [hash, genL, funext ih, Fs.hashLeaf, Fs.hashComb, Fs.sizes, List.take_length, List.foldl_map]
    rfl

/-! ## C133 -/

variable (M S C : Alg) (srt : Fs.Sorter) {W : World} {cwd : List Str}

/-- **C133 (fingerprints follow links).** If the tree seen from the path, with all symbolic links followed, is finite, the
fingerprint, the size and the kind are those of this tree.  Missing: that the call returns if the tree is not finite, which is
false. -/
theorem C133_fingerprint_partial (hW : W.Ok) {me : Str} (hc : clean me = me) {e : List Str} (he : LeadsTo W.F cwd me e)
    {k : Nat} {n : Fs.Node} (hv : view W k (some e) = some n) (p : Fs.Path) :
    ∃ r, fingerprint M S C srt W cwd k me = some r ∧ r.map digest = (Fs.fingerprint M S C srt p n).map digest := by
  have h := genL_view srt cwd (Fs.fpLeaf M S C) (Fs.fpComb M S C) hW k me hc p
  rw [open_iff.2 he, hv] at h
  rw [fingerprint_genL, Fs.fingerprint_gen M S C srt p n (view_ok hW k _ _ hv)]
  exact h

/-- **C133 (hashes follow links).** The same for `Hash`. -/
theorem C133_hash_partial (A : Alg) (salt : Bytes) (hW : W.Ok) {me : Str} (hc : clean me = me) {e : List Str}
    (he : LeadsTo W.F cwd me e) {k : Nat} {n : Fs.Node} (hv : view W k (some e) = some n) (p : Fs.Path) :
    ∃ r, hash srt W cwd A salt k me = some r ∧ r.map digest = (Fs.hash srt A salt p n).map digest := by
  have h := genL_view srt cwd (Fs.hashLeaf A salt) (Fs.hashComb A salt) hW k me hc p
  rw [open_iff.2 he, hv] at h
  rw [hash_genL, Fs.hash_gen srt A salt p n (view_ok hW k _ _ hv)]
  exact h

/-- **C133 (only finite trees have fingerprints).** A fingerprint or hash is given only if the tree that is seen is finite and
no link in it leads nowhere. -/
theorem C133_success (hW : W.Ok) {me : Str} (hc : clean me = me) {k : Nat} {t : FTree}
    (h : fingerprint M S C srt W cwd k me = some (some t)) :
    ∃ e n, LeadsTo W.F cwd me e ∧ view W k (some e) = some n ∧ n.opens = true := by
  have h1 := genL_view srt cwd (Fs.fpLeaf M S C) (Fs.fpComb M S C) hW k me hc []
  rw [← fingerprint_genL, h] at h1
  cases ho : W.openPath cwd me with
  | none =>
    rw [ho] at h1
    cases k with
    | zero => simp [view] at h1
    | succ k => simp [view, Fs.gen] at h1
  | some e =>
    rw [ho] at h1
    refine ⟨e, ?_⟩
    cases hv : view W k (some e) with
    | none => rw [hv] at h1; exact absurd rfl (h1 t)
    | some n =>
      rw [hv] at h1
      refine ⟨n, open_iff.1 ho, rfl, ?_⟩
      obtain ⟨r, h2, h3⟩ := h1
      cases h2
      rw [← Fs.gen_some srt (Fs.fpLeaf M S C) (Fs.fpComb M S C) [] n]
      obtain ⟨t', ht', -⟩ := Option.map_eq_some_iff.1 h3.symm
      rw [ht']; rfl

/-- The same for `Hash`. -/
theorem C133_success_hash (A : Alg) (salt : Bytes) (hW : W.Ok) {me : Str} (hc : clean me = me) {k : Nat} {t : FTree}
    (h : hash srt W cwd A salt k me = some (some t)) :
    ∃ e n, LeadsTo W.F cwd me e ∧ view W k (some e) = some n ∧ n.opens = true := by
  have h1 := genL_view srt cwd (Fs.hashLeaf A salt) (Fs.hashComb A salt) hW k me hc []
  rw [← hash_genL, h] at h1
  cases ho : W.openPath cwd me with
  | none =>
    rw [ho] at h1
    cases k with
    | zero => simp [view] at h1
    | succ k => simp [view, Fs.gen] at h1
  | some e =>
    rw [ho] at h1
    refine ⟨e, ?_⟩
    cases hv : view W k (some e) with
    | none => rw [hv] at h1; exact absurd rfl (h1 t)
    | some n =>
      rw [hv] at h1
      refine ⟨n, open_iff.1 ho, rfl, ?_⟩
      obtain ⟨r, h2, h3⟩ := h1
      cases h2
      rw [← Fs.gen_some srt (Fs.hashLeaf A salt) (Fs.hashComb A salt) [] n]
      obtain ⟨t', ht', -⟩ := Option.map_eq_some_iff.1 h3.symm
      rw [ht']; rfl

/-- An entry is part of the tree that is seen. -/
theorem view_entry {k : Nat} {e : List Str} {n : Fs.Node} (h : view W k (some e) = some n) (hd : W.F e = some .dir) :
    ∃ j, k = j + 1 ∧ ∀ c ∈ W.list e, ∃ m, view W j (W.at e [c]) = some m ∧ (n.opens = true → m.opens = true) := by
  cases k with
  | zero => simp [view] at h
  | succ k =>
    refine ⟨k, rfl, ?_⟩
    simp only [view, hd] at h
    obtain ⟨es, hes, rfl⟩ := Option.map_eq_some_iff.1 h
    have key : ∀ cs es, viewE W (view W k) e cs = some es →
        ∀ c ∈ cs, ∃ m, view W k (W.at e [c]) = some m ∧ (es.opens = true → m.opens = true) := by
      intro cs
      induction cs with
      | nil => intro es _ c hc; simp at hc
      | cons c cs ih =>
        intro es h c' hc'
        simp only [viewE] at h
        cases h1 : view W k (W.at e [c]) with
        | none => rw [h1] at h; simp at h
        | some n =>
          cases h2 : viewE W (view W k) e cs with
          | none => rw [h1, h2] at h; simp at h
          | some es' =>
            rw [h1, h2] at h
            cases h
            rcases List.mem_cons.1 hc' with rfl | hc'
            · exact ⟨n, h1, fun ho => by simp [Fs.Entries.opens] at ho; exact ho.1⟩
            · obtain ⟨m, hm, ho⟩ := ih es' h2 c' hc'
              exact ⟨m, hm, fun ho' => ho (by simp [Fs.Entries.opens] at ho'; exact ho'.2)⟩
    intro c hc
    obtain ⟨m, hm, ho⟩ := key _ _ hes c hc
    exact ⟨m, hm, fun h => ho (by simpa [Fs.Node.opens] using h)⟩

theorem view_below {e e' : List Str} (h : Relation.TransGen (Below W) e e') :
    ∀ k n, view W k (some e) = some n → ∃ j < k, ∃ m, view W j (some e') = some m := by
  induction h with
  | single h =>
    intro k n hv
    obtain ⟨hd, c, hc, hl⟩ := h
    obtain ⟨j, rfl, hj⟩ := view_entry hv hd
    obtain ⟨m, hm, -⟩ := hj c hc
    rw [at_iff.2 hl] at hm
    exact ⟨j, by omega, m, hm⟩
  | tail _ h ih =>
    intro k n hv
    obtain ⟨j, hj, m, hm⟩ := ih k n hv
    obtain ⟨hd, c, hc, hl⟩ := h
    obtain ⟨i, rfl, hi⟩ := view_entry hm hd
    obtain ⟨m', hm', -⟩ := hi c hc
    rw [at_iff.2 hl] at hm'
    exact ⟨i, by omega, m', hm'⟩

theorem view_cycle {e : List Str} (h : Relation.TransGen (Below W) e e) : ∀ k, view W k (some e) = none := by
  intro k
  induction k using Nat.strong_induction_on with
  | _ k ih =>
    cases hv : view W k (some e) with
    | none => rfl
    | some n =>
      obtain ⟨j, hj, m, hm⟩ := view_below h k n hv
      rw [ih j hj] at hm; cases hm

/-- **C133 is false for circular links.** If something below a directory leads back to it, `Fingerprint` and `Hash` never give
a result for it or for anything above it. -/
theorem C133_cycle (A : Alg) (salt : Bytes) (hW : W.Ok) {me : Str} (hc : clean me = me) {e d : List Str}
    (he : LeadsTo W.F cwd me e) (h1 : Relation.ReflTransGen (Below W) e d) (h2 : Relation.TransGen (Below W) d d) (k : Nat)
    (t : FTree) : fingerprint M S C srt W cwd k me ≠ some (some t) ∧ hash srt W cwd A salt k me ≠ some (some t) := by
  have key : view W k (some e) = none := by
    cases hv : view W k (some e) with
    | none => rfl
    | some n =>
      rcases Relation.reflTransGen_iff_eq_or_transGen.1 h1 with rfl | h1
      · rw [view_cycle h2] at hv; cases hv
      · obtain ⟨j, -, m, hm⟩ := view_below h1 k n hv
        rw [view_cycle h2] at hm; cases hm
  constructor
  · intro h
    obtain ⟨e', n, h3, h4, -⟩ := C133_success M S C srt hW hc h
    rw [he.2.unique h3.2, key] at h4; cases h4
  · intro h
    obtain ⟨e', n, h3, h4, -⟩ := C133_success_hash srt A salt hW hc h
    rw [he.2.unique h3.2, key] at h4; cases h4

theorem view_opens {e d : List Str} (h : Relation.ReflTransGen (Below W) e d) :
    ∀ k n, view W k (some e) = some n → n.opens = true → ∃ j m, view W j (some d) = some m ∧ m.opens = true := by
  induction h with
  | refl => intro k n hv ho; exact ⟨k, n, hv, ho⟩
  | tail _ h ih =>
    intro k n hv ho
    obtain ⟨j, m, hm, hmo⟩ := ih k n hv ho
    obtain ⟨hd, c, hc, hl⟩ := h
    obtain ⟨i, rfl, hi⟩ := view_entry hm hd
    obtain ⟨m', hm', ho'⟩ := hi c hc
    rw [at_iff.2 hl] at hm'
    exact ⟨i, m', hm', ho' hmo⟩

/-- **C133 is false for links that lead nowhere.** One of them anywhere below a directory, and there is no fingerprint and no
hash of the directory. -/
theorem C133_dangling (A : Alg) (salt : Bytes) (hW : W.Ok) {me : Str} (hc : clean me = me) {e d : List Str}
    (he : LeadsTo W.F cwd me e) (h1 : Relation.ReflTransGen (Below W) e d) (hd : W.F d = some .dir) {c : Str}
    (hcl : c ∈ W.list d) (hno : ∀ q, ¬ Leads W.F d [c] q) (k : Nat) (t : FTree) :
    fingerprint M S C srt W cwd k me ≠ some (some t) ∧ hash srt W cwd A salt k me ≠ some (some t) := by
  have key : ∀ n, view W k (some e) = some n → n.opens ≠ true := by
    intro n hv ho
    obtain ⟨j, m, hm, hmo⟩ := view_opens h1 k n hv ho
    obtain ⟨i, rfl, hi⟩ := view_entry hm hd
    obtain ⟨m', hm', ho'⟩ := hi c hcl
    rw [at_none.2 hno] at hm'
    cases i with
    | zero => simp [view] at hm'
    | succ i =>
      simp only [view, Option.some.injEq] at hm'
      subst hm'
      exact absurd (ho' hmo) (by simp [Fs.Node.opens])
  constructor
  · intro h
    obtain ⟨e', n, h3, h4, h5⟩ := C133_success M S C srt hW hc h
    rw [he.2.unique h3.2] at h4; exact key n h4 h5
  · intro h
    obtain ⟨e', n, h3, h4, h5⟩ := C133_success_hash srt A salt hW hc h
    rw [he.2.unique h3.2] at h4; exact key n h4 h5

theorem loop_fails {rec : Str → Option (Option FTree)} {me : Str} {cs : List Str} : ∀ {acc : List FTree},
    loop rec me acc cs = some none → ∃ c ∈ cs, rec (filePath (joinChild me c)) = some none := by
  induction cs with
  | nil => intro acc h; simp [loop] at h
  | cons c cs ih =>
    intro acc h
    simp only [loop] at h
    by_cases hc : c ≠ ['.'] ∧ c ≠ ['.', '.']
    · rw [if_pos hc] at h
      cases hr : rec (filePath (joinChild me c)) with
      | none => rw [hr] at h; cases h
      | some r =>
        cases r with
        | none => exact ⟨c, by simp, hr⟩
        | some t =>
          rw [hr] at h
          obtain ⟨c', hc', h'⟩ := ih h
          exact ⟨c', by simp [hc'], h'⟩
    · rw [if_neg hc] at h
      obtain ⟨c', hc', h'⟩ := ih h
      exact ⟨c', by simp [hc'], h'⟩

theorem genL_fails (leaf : Bytes → Nat → Bytes) (comb : List Bytes → UInt64 → Bytes) (hW : W.Ok) (k : Nat) :
    ∀ (me : Str), clean me = me → ∀ e, LeadsTo W.F cwd me e → genL srt W cwd leaf comb k me = some none →
      ∃ d c, Relation.ReflTransGen (Below W) e d ∧ W.F d = some .dir ∧ c ∈ W.list d ∧ ∀ q, ¬ Leads W.F d [c] q := by
  induction k with
  | zero => intro me _ e _ h; simp [genL] at h
  | succ k ih =>
    intro me hc e he h
    simp only [genL, open_iff.2 he] at h
    cases hF : W.F e with
    | none => exact absurd hF he.2.ne_none
    | some nd =>
      cases nd with
      | link t =>
        exfalso
        have key : ∀ d cs e, Leads W.F d cs e → (∀ t, W.F d ≠ some (.link t)) → ∀ t, W.F e ≠ some (.link t) := by
          intro d cs e h
          induction h with
          | done h => exact fun h => h
          | stay _ _ _ ih => exact ih
          | up h1 h2 ih =>
            rename_i d cs e
            intro _
            refine ih (fun t ht => ?_)
            induction d using List.reverseRecOn with
            | nil => rw [List.dropLast_nil, hW.fs.1] at ht; cases ht
            | append_singleton d c _ =>
              rw [List.dropLast_concat, hW.fs.2 d c (by rw [h1]; simp)] at ht; cases ht
          | down _ _ h3 h4 _ ih =>
            intro _
            refine ih (fun t ht => ?_)
            rw [h3] at ht; cases ht; exact h4 t rfl
          | follow h1 _ h3 _ _ ih =>
            intro _
            refine ih (fun t' ht => ?_)
            split at ht
            · rw [hW.fs.1] at ht; cases ht
            · rw [h1] at ht; cases ht
        obtain ⟨c0, cs0, hcs0, -⟩ := comps_head me
        have h5 := he.2
        rw [hcs0] at h5
        have hdir := leads_head_dir h5
        exact key _ _ _ he.2 (fun t ht => by rw [hdir] at ht; cases ht) t hF
      | file i => simp [hF] at h
      | dir =>
        simp only [hF] at h
        cases hl : loop (genL srt W cwd leaf comb k) me [] (W.list e) with
        | none => rw [hl] at h; cases h
        | some r =>
          cases r with
          | some cs => rw [hl] at h; cases h
          | none =>
            obtain ⟨c, hcl, hr⟩ := loop_fails hl
            have hpl := hW.plain e c hF hcl
            have hn : Name c := ⟨hpl.1.1, hpl.1.2.1, hpl.1.2.2, hpl.2⟩
            have hcc := child_clean me c he.1
            rw [show filePath (joinChild me c) = joinChild me c from hcc] at hr
            by_cases hex : ∃ e', Leads W.F e [c] e'
            · obtain ⟨e', he'⟩ := hex
              obtain ⟨d, c', h1, h2⟩ := ih _ hcc e' ((child_leads hc hn he hF e').2 he') hr
              exact ⟨d, c', Relation.ReflTransGen.head ⟨hF, c, hcl, he'⟩ h1, h2⟩
            · exact ⟨e, c, .refl, hF, hcl, fun q hq => hex ⟨q, hq⟩⟩

/-- **C133 (circular links: never an end).** If besides no link below leads nowhere, the calls go down for ever: no depth
suffices.  (A system that limits the links on a path ends this with an error.) -/
theorem C133_endless (A : Alg) (salt : Bytes) (hW : W.Ok) {me : Str} (hc : clean me = me) {e d : List Str}
    (he : LeadsTo W.F cwd me e) (h1 : Relation.ReflTransGen (Below W) e d) (h2 : Relation.TransGen (Below W) d d)
    (hall : ∀ d c, Relation.ReflTransGen (Below W) e d → W.F d = some .dir → c ∈ W.list d → ∃ q, Leads W.F d [c] q) (k : Nat) :
    fingerprint M S C srt W cwd k me = none ∧ hash srt W cwd A salt k me = none := by
  have hcy := C133_cycle M S C srt A salt hW hc he h1 h2 k
  constructor
  · cases h : fingerprint M S C srt W cwd k me with
    | none => rfl
    | some r =>
      cases r with
      | some t => exact absurd h (hcy t).1
      | none =>
        rw [fingerprint_genL] at h
        obtain ⟨d, c, h3, h4, h5, h6⟩ := genL_fails srt _ _ hW k me hc e he h
        obtain ⟨q, hq⟩ := hall d c h3 h4 h5
        exact absurd hq (h6 q)
  · cases h : hash srt W cwd A salt k me with
    | none => rfl
    | some r =>
      cases r with
      | some t => exact absurd h (hcy t).2
      | none =>
        rw [hash_genL] at h
        obtain ⟨d, c, h3, h4, h5, h6⟩ := genL_fails srt _ _ hW k me hc e he h
        obtain ⟨q, hq⟩ := hall d c h3 h4 h5
        exact absurd hq (h6 q)

theorem lstat_child (hW : W.Ok) {me : Str} (hc : clean me = me) {c : Str} (h : Name c) {e : List Str}
    (he : LeadsTo W.F cwd me e) (hd : W.F e = some .dir) (hcl : c ∈ W.list e) :
    W.lstat cwd (joinChild me c) = some (e ++ [c]) := by
  unfold World.lstat
  have hx : ∃ e', Names W.F cwd (joinChild me c) e' ∧ W.F e' ≠ none :=
    ⟨e ++ [c], (child_names hc h he hd _).2 rfl, (hW.mem e c hd).1 hcl⟩
  rw [dif_pos hx, (child_names hc h he hd _).1 hx.choose_spec.1]

theorem statistic_flat (early : Bool) (hW : W.Ok) (k : Nat) : ∀ (me : Str) (e : List Str) (s : Fs.Stat) (n : Fs.Node),
    clean me = me → W.lstat cwd me = some e → (W.F e = some .dir → LeadsTo W.F cwd me e) → flat W k e = some n →
    statistic W cwd k s me = some (Fs.statistic early s n) := by
  induction k with
  | zero => intro me e s n _ _ _ h; simp [flat] at h
  | succ k ih =>
    intro me e s n hc hl he h
    simp only [flat] at h
    simp only [statistic, hl]
    cases hF : W.F e with
    | none => rw [hF] at h; cases h
    | some nd =>
      rw [hF] at h
      cases nd with
      | file i => cases h; rfl
      | link t => cases h; rfl
      | dir =>
        have he := he hF
        obtain ⟨es, hes, rfl⟩ := Option.map_eq_some_iff.1 h
        have key : ∀ cs es s, (∀ c ∈ cs, c ∈ W.list e) → flatE (flat W k) e cs = some es →
            walkNames (statistic W cwd k) me s cs = some (Fs.statEntries early s es) := by
          intro cs
          induction cs with
          | nil => intro es s _ h; simp only [flatE, Option.some.injEq] at h; subst h; simp [walkNames, Fs.statEntries]
          | cons c cs ihc =>
            intro es s hcs h
            simp only [flatE] at h
            cases h1 : flat W k (e ++ [c]) with
            | none => rw [h1] at h; simp at h
            | some n =>
              cases h2 : flatE (flat W k) e cs with
              | none => rw [h1, h2] at h; simp at h
              | some es' =>
                rw [h1, h2] at h
                cases h
                have hcl := hcs c (by simp)
                have hpl := hW.plain e c hF hcl
                have hn : Name c := ⟨hpl.1.1, hpl.1.2.1, hpl.1.2.2, hpl.2⟩
                have h3 := ih (joinChild me c) (e ++ [c]) s n (child_clean me c he.1) (lstat_child hW hc hn he hF hcl)
                  (fun hdir => (child_leads hc hn he hF _).2 (.down hF hpl.1 hdir (by simp) (.done (by rw [hdir]; simp)))) h1
                simp only [walkNames, h3, Fs.statEntries]
                exact ihc es' _ (fun c hc => hcs c (by simp [hc])) h2
        exact key _ _ _ (fun _ h => h) hes

theorem lstat_leads {me : Str} {e : List Str} (h : W.lstat cwd me = some e) (hd : W.F e = some .dir) :
    LeadsTo W.F cwd me e := by
  unfold World.lstat at h
  split at h
  · rename_i hx
    cases h
    obtain ⟨⟨cs, c, p, h1, h2, h3, h4, h5⟩, -⟩ := hx.choose_spec
    refine ⟨comps_name_nonempty h1 h2.1, ?_⟩
    rw [h1]
    rw [h5] at hd ⊢
    exact h3.append (.down h4 h2 hd (by simp) (.done (by rw [hd]; simp)))
  · split at h
    · cases h
    · exact open_iff.1 h

/-- **C133 (statistics do not follow links).** `Statistic` counts the directories, the other entries and their sizes at and
below the path, where a symbolic link is an entry with the length of its text. -/
theorem C133_statistic (early : Bool) (hW : W.Ok) {me : Str} (hc : clean me = me) {e : List Str} (hl : W.lstat cwd me = some e)
    {k : Nat} {n : Fs.Node} (h : flat W k e = some n) :
    statistic W cwd k ⟨0, 0, 0, 0⟩ me = some (Fs.statistic early ⟨0, 0, 0, 0⟩ n) :=
  statistic_flat early hW k me e _ n hc hl (lstat_leads hl) h

/-- **C133 (statistics of nothing).** Where the path names nothing and leads nowhere, `Statistic` counts one error and nothing
else. -/
theorem C133_statistic_nothing {me : Str} (hn : ∀ e, Names W.F cwd me e → W.F e = none) (hl : ∀ e, ¬ LeadsTo W.F cwd me e) (k : Nat) :
    statistic W cwd (k + 1) ⟨0, 0, 0, 0⟩ me = some { nDir := 0, nFile := 0, size := 0, nErr := 1 } := by
  have h : W.lstat cwd me = none := by
    unfold World.lstat
    rw [dif_neg (by rintro ⟨e, h1, h2⟩; exact h2 (hn e h1))]
    split
    · rfl
    · by_contra h
      obtain ⟨e, he⟩ := Option.ne_none_iff_exists'.1 h
      exact hl e (open_iff.1 he)
  simp only [statistic, h]

theorem view_flat (hW : W.Ok) (hno : ∀ q t, W.F q ≠ some (.link t)) (k : Nat) : ∀ e, W.F e ≠ none →
    view W k (some e) = flat W k e := by
  induction k with
  | zero => intro e _; rfl
  | succ k ih =>
    intro e he
    simp only [view, flat]
    cases hF : W.F e with
    | none => exact absurd hF he
    | some nd =>
      cases nd with
      | link t => exact absurd hF (hno e t)
      | file i => rfl
      | dir =>
        have key : ∀ cs, (∀ c ∈ cs, c ∈ W.list e) → viewE W (view W k) e cs = flatE (flat W k) e cs := by
          intro cs
          induction cs with
          | nil => intro _; rfl
          | cons c cs ihc =>
            intro hcs
            have hcl := hcs c (by simp)
            have hpl := hW.plain e c hF hcl
            have hx := (hW.mem e c hF).1 hcl
            have hat : W.at e [c] = some (e ++ [c]) := by
              rw [at_iff]
              cases hn : W.F (e ++ [c]) with
              | none => exact absurd hn hx
              | some nd => exact .down hF hpl.1 hn (fun t ht => hno _ t (ht ▸ hn)) (.done hx)
            simp only [viewE, flatE, hat, ih _ hx, ihc (fun c hc => hcs c (by simp [hc]))]
        simp only [key _ (fun _ h => h)]

theorem lstat_nolinks (hno : ∀ q t, W.F q ≠ some (.link t)) {me : Str} {e : List Str} (he : LeadsTo W.F cwd me e) :
    W.lstat cwd me = some e := by
  unfold World.lstat
  by_cases hx : ∃ cs c, comps me = cs ++ [c] ∧ Plain c
  · obtain ⟨cs, c, h1, h2⟩ := hx
    have h3 := he.2
    rw [h1] at h3
    obtain ⟨q, h4, h5⟩ := leads_append.1 h3
    have hq := leads_head_dir h5
    have heq : e = q ++ [c] := by
      cases h5 with
      | stay _ h => exact absurd h (plain_not_stay h2)
      | up => exact absurd rfl h2.2.2
      | follow _ _ h => exact absurd h (hno _ _)
      | down _ _ _ _ h => exact (leads_nil.1 h).1
    have hN : ∃ e, Names W.F cwd me e ∧ W.F e ≠ none := ⟨e, ⟨cs, c, q, h1, h2, h4, hq, heq⟩, he.2.ne_none⟩
    rw [dif_pos hN]
    obtain ⟨⟨cs', c', q', h1', -, h4', -, h6'⟩, -⟩ := hN.choose_spec
    obtain ⟨rfl, e2⟩ := List.append_inj' (h1.symm.trans h1') rfl
    cases e2
    rw [h6', heq, h4.unique h4']
  · rw [dif_neg ?_, if_neg hx]
    · exact open_iff.2 he
    · rintro ⟨e, ⟨cs, c, _, h1, h2, _⟩, -⟩
      exact hx ⟨cs, c, h1, h2⟩

/-- **C133 (agreement).** Without symbolic links `Statistic` and `Fingerprint` report the same size, and no error. -/
theorem C133_agree (hW : W.Ok) (hno : ∀ q t, W.F q ≠ some (.link t)) {me : Str} (hc : clean me = me) {k : Nat} {t : FTree}
    (h : fingerprint M S C srt W cwd k me = some (some t)) :
    ∃ s, statistic W cwd k ⟨0, 0, 0, 0⟩ me = some s ∧ s.size = t.val.size ∧ s.nErr = 0 := by
  obtain ⟨e, n, he, hv, ho⟩ := C133_success M S C srt hW hc h
  obtain ⟨r, h1, h2⟩ := C133_fingerprint_partial M S C srt hW hc he hv []
  rw [h] at h1
  cases h1
  obtain ⟨t', ht', hd'⟩ := Option.map_eq_some_iff.1 h2.symm
  have hok := view_ok hW k _ _ hv
  rw [view_flat hW hno k e he.2.ne_none] at hv
  refine ⟨_, C133_statistic true hW hc (lstat_nolinks hno he) hv, ?_⟩
  have h3 := Fs.C79_agrees M S C srt true n hok [] t' ht'
  refine ⟨h3.1.trans ?_, h3.2⟩
  have := congrArg (fun d : Bytes × UInt64 × Bool => d.2.1) hd'
  exact this

/-- The directory `/a` with nothing but the link `/a/l → ../c`, and the file `/c`. -/
def linkF : FS := fun q =>
  if q = [] ∨ q = [['a']] then some .dir
  else if q = [['a'], ['l']] then some (.link ['.', '.', '/', 'c'])
  else if q = [['c']] then some (.file 0) else none

/-- This file system, where the file has the given content. -/
def linkWorld (bs : Bytes) : World where
  F := linkF
  content _ := bs
  list q := if q = [] then [['a'], ['c']] else if q = [['a']] then [['l']] else []

theorem linkWorld_F (bs : Bytes) : (linkWorld bs).F = linkF := rfl

theorem linkWorld_ok (bs : Bytes) : (linkWorld bs).Ok where
  fs := by
    refine ⟨by rw [linkWorld_F]; decide, fun d c h => ?_⟩
    rcases d with _ | ⟨x, _ | ⟨y, d⟩⟩ <;> simp [linkWorld, linkF] at h ⊢
    · exact h.1
  nodup p _ := by
    simp only [linkWorld]; split_ifs <;> decide
  mem p c h := by
    rcases p with _ | ⟨x, _ | ⟨y, d⟩⟩ <;> simp [linkWorld, linkF] at h ⊢
    · by_cases h1 : c = ['a']
      · simp [h1]
      · by_cases h2 : c = ['c'] <;> simp [h1, h2]
  plain p c h hc := by
    simp only [linkWorld] at hc
    split_ifs at hc
    · simp at hc; rcases hc with rfl | rfl <;> decide
    · simp at hc; subst hc; decide
    · simp at hc

theorem linkF_leads : Leads linkF [['a']] [['l']] [['c']] :=
  .follow (t := ['.', '.', '/', 'c']) (by decide) (by decide) (by decide) (by decide)
    (.up (by decide) (.down (n := .file 0) (by decide) (by decide) (by decide) (by simp) (.done (by decide))))

theorem linkF_a : LeadsTo linkF [] ['a'] [['a']] :=
  ⟨by decide, .down (n := .dir) (by decide) (by decide) (by decide) (by simp) (.done (by decide))⟩

/-- **C133 (disagreement).** With a symbolic link they differ: for the directory with nothing but a link to a file,
`Fingerprint` reports the size of the file, `Statistic` the length of the link, whatever the file. -/
theorem C133_differ (bs : Bytes) :
    (∃ t, fingerprint M S C srt (linkWorld bs) [] 3 ['a'] = some (some t) ∧ t.val.size = UInt64.ofNat bs.length) ∧
    statistic (linkWorld bs) [] 3 ⟨0, 0, 0, 0⟩ ['a'] = some ⟨1, 1, 4, 0⟩ := by
  have hc : clean ['a'] = ['a'] := by decide +kernel
  have he : LeadsTo (linkWorld bs).F [] ['a'] [['a']] := linkF_a
  constructor
  · have hv : view (linkWorld bs) 3 (some [['a']]) = some (.dir .ok (.cons (String.ofList ['l']) (.file true bs bs.length) .nil)) := by
      have hF : (linkWorld bs).F [['a']] = some .dir := by rw [linkWorld_F]; decide
      have hF' : (linkWorld bs).F [['c']] = some (.file 0) := by rw [linkWorld_F]; decide
      have hL : (linkWorld bs).list [['a']] = [['l']] := by simp [linkWorld]
      simp only [view, hF, hL, viewE, at_iff.2 (show Leads (linkWorld bs).F _ _ _ from linkF_leads), hF', Option.map_some]
      rfl
    obtain ⟨r, h1, h2⟩ := C133_fingerprint_partial M S C srt (linkWorld_ok bs) hc he hv []
    have hok := view_ok (linkWorld_ok bs) 3 _ _ hv
    cases hf : Fs.fingerprint M S C srt [] (.dir .ok (.cons (String.ofList ['l']) (.file true bs bs.length) .nil)) with
    | none =>
      rw [Fs.C78_fingerprint_error_partial M S C srt _ hok] at hf
      simp [Fs.Node.opens, Fs.Entries.opens] at hf
    | some t' =>
      rw [hf] at h2
      obtain ⟨t, rfl, hd⟩ := Option.map_eq_some_iff.1 h2
      refine ⟨t, h1, ?_⟩
      have h3 : t.val.size = t'.val.size := congrArg (fun d : Bytes × UInt64 × Bool => d.2.1) hd
      have h4 := Fs.C60_size M S C srt _ hok [] t' hf
      rw [h3]
      apply UInt64.toNat_inj.1
      rw [h4]
      simp [Fs.Node.bytes, Fs.Entries.bytes]
  · have hl : (linkWorld bs).lstat [] ['a'] = some [['a']] := by
      unfold World.lstat
      have hN : ∃ e, Names (linkWorld bs).F [] ['a'] e ∧ (linkWorld bs).F e ≠ none :=
        ⟨[['a']], ⟨[], ['a'], [], by decide, by decide, .done (by rw [linkWorld_F]; decide), by rw [linkWorld_F]; decide, rfl⟩,
          by rw [linkWorld_F]; decide⟩
      rw [dif_pos hN]
      obtain ⟨⟨cs, c, p, h1, -, h3, -, h5⟩, -⟩ := hN.choose_spec
      have h6 : comps ['a'] = [] ++ [['a']] := by decide
      obtain ⟨rfl, e2⟩ := List.append_inj' (h6.symm.trans h1) rfl
      cases e2
      obtain ⟨rfl, -⟩ := leads_nil.1 h3
      rw [h5]; rfl
    have hfl : flat (linkWorld bs) 3 [['a']] = some (.dir .ok (.cons (String.ofList ['l'])
        (.file true (strBytes ['.', '.', '/', 'c']) (strBytes ['.', '.', '/', 'c']).length) .nil)) := by
      have hF : (linkWorld bs).F [['a']] = some .dir := by rw [linkWorld_F]; decide
      have hF' : (linkWorld bs).F ([['a']] ++ [['l']]) = some (.link ['.', '.', '/', 'c']) := by rw [linkWorld_F]; decide
      have hL : (linkWorld bs).list [['a']] = [['l']] := by simp [linkWorld]
      simp only [flat, hF, hL, flatE, hF', Option.map_some]
    rw [C133_statistic true (linkWorld_ok bs) hc hl hfl, Fs.C79_statistic]
    have hlen : (strBytes ['.', '.', '/', 'c']).length = 4 := by decide +kernel
    simp [Fs.Node.counts, Fs.Entries.counts, Fs.Node.seen, Fs.Entries.seen, hlen]

/-- The directory `/a` with a link to itself. -/
def loopWorld : World where
  F q := if q = [] ∨ q = [['a']] then some .dir
    else if q = [['a'], ['l']] then some (.link ['/', 'a']) else none
  content _ := []
  list q := if q = [] then [['a']] else if q = [['a']] then [['l']] else []

theorem loopWorld_leads : Leads loopWorld.F [['a']] [['l']] [['a']] :=
  .follow (t := ['/', 'a']) (by decide) (by decide) (by decide) (by decide)
    (.stay (by decide) (by decide) (.down (n := .dir) (by decide) (by decide) (by decide) (by simp) (.done (by decide))))

theorem loopWorld_ok : loopWorld.Ok where
  fs := by
    refine ⟨by simp [loopWorld], fun d c h => ?_⟩
    rcases d with _ | ⟨x, _ | ⟨y, d⟩⟩ <;> simp [loopWorld] at h ⊢
    exact h.1
  nodup p _ := by
    simp only [loopWorld]; split_ifs <;> decide
  mem p c h := by
    rcases p with _ | ⟨x, _ | ⟨y, d⟩⟩ <;> simp [loopWorld] at h ⊢
  plain p c h hc := by
    simp only [loopWorld] at hc
    split_ifs at hc
    · simp at hc; subst hc; decide
    · simp at hc; subst hc; decide
    · simp at hc

example : Below loopWorld [['a']] [['a']] ∧ LeadsTo loopWorld.F [] ['/'] [] ∧
    Relation.ReflTransGen (Below loopWorld) [] [['a']] ∧ Relation.TransGen (Below loopWorld) [['a']] [['a']] := by
  have h : Below loopWorld [['a']] [['a']] := ⟨by decide, ['l'], by decide, loopWorld_leads⟩
  refine ⟨h, ⟨by decide, .stay (by decide) (by decide) (.stay (by decide) (by decide) (.done (by decide)))⟩,
    .single ⟨by decide, ['a'], by decide, .down (n := .dir) (by decide) (by decide) (by decide) (by simp) (.done (by decide))⟩,
    .single h⟩

/-- Where anything in this directory leads, it leads to the directory. -/
example : ∀ d c, Relation.ReflTransGen (Below loopWorld) [['a']] d → loopWorld.F d = some .dir → c ∈ loopWorld.list d →
    ∃ q, Leads loopWorld.F d [c] q := by
  intro d c hr hd hc
  have h : d = [['a']] := by
    clear hc hd
    induction hr with
    | refl => rfl
    | tail _ h ih =>
      subst ih
      obtain ⟨-, c', hc', hl⟩ := h
      simp [loopWorld] at hc'
      subst hc'
      exact loopWorld_leads.unique hl
  subst h
  simp [loopWorld] at hc
  subst hc
  exact ⟨_, loopWorld_leads⟩

/-- The root with nothing but the link `/l → x`, which leads nowhere; and an empty root. -/
def smallWorld (b : Bool) : World where
  F q := if q = [] then some .dir else if b = true ∧ q = [['l']] then some (.link ['x']) else none
  content _ := []
  list q := if b = true ∧ q = [] then [['l']] else []

theorem smallWorld_ok (b : Bool) : (smallWorld b).Ok where
  fs := by
    refine ⟨by simp [smallWorld], fun d c h => ?_⟩
    rcases d with _ | ⟨x, d⟩ <;> simp [smallWorld] at h ⊢
  nodup p _ := by
    simp only [smallWorld]; split_ifs <;> decide
  mem p c h := by
    rcases p with _ | ⟨x, d⟩ <;> simp [smallWorld] at h ⊢
  plain p c h hc := by
    simp only [smallWorld] at hc
    split_ifs at hc
    · simp at hc; subst hc; decide
    · simp at hc

theorem smallWorld_root (b : Bool) : LeadsTo (smallWorld b).F [] ['/'] [] :=
  ⟨by decide, .stay (by simp [smallWorld, startOf, rooted]) (by decide)
    (.stay (by simp [smallWorld, startOf, rooted]) (by decide) (.done (by simp [smallWorld, startOf, rooted])))⟩

example : (smallWorld true).F [] = some .dir ∧ ['l'] ∈ (smallWorld true).list [] ∧
    ∀ q, ¬ Leads (smallWorld true).F [] [['l']] q := by
  refine ⟨by simp [smallWorld], by simp [smallWorld], fun q h => ?_⟩
  cases h with
  | stay _ h => revert h; decide
  | down _ _ h1 h2 => simp [smallWorld] at h1; subst h1; exact h2 _ rfl
  | follow _ _ h1 _ h2 =>
    simp [smallWorld] at h1
    subst h1
    cases h2 with
    | stay _ h => revert h; decide
    | down _ _ h1 h2 => simp [smallWorld, rooted] at h1
    | follow _ _ h1 _ h2 => simp [smallWorld, rooted] at h1

example : ∃ t, fingerprint M S C srt (smallWorld false) [] 1 ['/'] = some (some t) := by
  have hv : view (smallWorld false) 1 (some []) = some (.dir .ok .nil) := by
    simp [view, smallWorld, viewE]
  obtain ⟨r, h1, h2⟩ := C133_fingerprint_partial M S C srt (smallWorld_ok false) (by decide +kernel) (smallWorld_root false) hv []
  cases r with
  | some t => exact ⟨t, h1⟩
  | none =>
    have := Option.map_eq_none_iff.1 h2.symm
    rw [Fs.C78_fingerprint_error_partial M S C srt _ (view_ok (smallWorld_ok false) 1 _ _ hv)] at this
    simp [Fs.Node.opens, Fs.Entries.opens] at this

/-- C133_statistic_nothing with a path beside a directory that is there. -/
example : statistic loopWorld [] 1 ⟨0, 0, 0, 0⟩ ['/', 'x'] = some { nDir := 0, nFile := 0, size := 0, nErr := 1 } := by
  have hx : loopWorld.F ([] ++ [['x']]) = none := by decide
  have hc : comps ['/', 'x'] = [[], ['x']] := by decide
  have h1 : ∀ e, ¬ Leads loopWorld.F [] [['x']] e := by
    intro e h
    cases h with
    | stay _ h _ => revert h; decide
    | down _ _ h _ _ => rw [hx] at h; cases h
    | follow _ _ h _ _ => rw [hx] at h; cases h
  refine C133_statistic_nothing ?_ ?_ 0
  · rintro e ⟨cs, c, p, h, hp, hl, hd, rfl⟩
    rw [hc] at h
    obtain ⟨h3, h4⟩ := List.append_inj' (s₁ := [[]]) (t₁ := [['x']]) h rfl
    subst h3
    cases h4
    cases hl with
    | stay _ _ h => cases h; exact hx
    | down _ h _ _ _ => exact absurd rfl h.1
    | follow _ h _ _ _ => exact absurd rfl h.1
  · rintro e ⟨_, h⟩
    rw [hc] at h
    cases h with
    | stay _ _ h => exact h1 e h
    | down _ h _ _ _ => exact absurd rfl h.1
    | follow _ h _ _ _ => exact absurd rfl h.1

end Verif.FsLinks
