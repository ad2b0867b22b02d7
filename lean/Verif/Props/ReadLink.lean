import Verif.Props.FsLinks
import Verif.Lemmas.FsDirs
import Verif.Lemmas.EvalLinks
import Verif.Props.EvalLinks
/-!
# More about symbolic links (C131): reading them
-/

set_option linter.unusedSectionVars false

namespace Verif.FsLinks
open Verif.Spec Verif.Path

theorem leads_nolink {F : FS} (hF : F.Ok) {d cs e : List Str} (h : Leads F d cs e) (h0 : cs ≠ [] ∨ ∀ t, F d ≠ some (.link t)) (t : Str) :
    F e ≠ some (.link t) := by
  induction h with
  | done h => exact (h0.resolve_left (fun h => h rfl)) t
  | stay hd _ _ ih => exact ih (.inr fun t e => by rw [hd] at e; cases e)
  | up hd _ ih => exact ih (.inr fun t e => by rw [dir_up hF hd] at e; cases e)
  | down _ _ hn hl _ ih => exact ih (.inr fun t e => by rw [hn] at e; cases e; exact hl t rfl)
  | follow _ _ _ ht _ ih =>
    refine ih (.inl fun e => ?_)
    have := (List.append_eq_nil_iff.1 e).1
    exact absurd this (comps_ne_nil _)

/-- **C131** `Readlink` returns a text exactly if the path names a symbolic link with this text. -/
theorem C131_readlink_iff {F : FS} (hF : F.Ok) (cwd : List Str) (p t : Str) :
    readlink F cwd p = some t ↔ ∃ e, Names F cwd p e ∧ F e = some (.link t) := by
  constructor
  · intro h
    unfold readlink at h
    cases hl : lstat F cwd p with
    | none => rw [hl] at h; cases h
    | some e =>
      rw [hl] at h
      simp only at h
      have he : F e = some (.link t) := by
        split at h
        · rename_i h'; cases h; exact h'
        · cases h
      refine ⟨e, ?_, he⟩
      unfold lstat at hl
      split_ifs at hl with h1 h2
      · cases hl; exact h1.choose_spec.1
      · have hs := stat_iff.1 hl
        exact absurd he (leads_nolink hF hs.2 (.inl (comps_ne_nil _)) t)
  · rintro ⟨e, hn, he⟩
    unfold readlink
    rw [lstat_names hn (by rw [he]; simp)]
    simp only [he]

/-- **C131** After `Symlink`, `Readlink` of the path returned gives the path of the object, and all links there were give what they gave. -/
theorem C131_readlink {F F' : FS} (hF : F.Ok) {cwd : List Str} {me newname n : Str} (h : symlink F cwd me newname n F') :
    readlink F' cwd n = some me ∧ ∀ p t, readlink F cwd p = some t → readlink F' cwd p = some t := by
  obtain ⟨-, h0, e, ⟨cs, c, p, h1, h2, h3, h4, rfl⟩, h5, rfl⟩ := h
  have mono := put_mono (n := Node.link me) h5
  have keep : ∀ q t e', Names F cwd q e' → F e' = some (.link t) → readlink (F.put (p ++ [c]) (.link me)) cwd q = some t := by
    rintro q t e' ⟨cs', c', p', k1, k2, k3, k4, rfl⟩ k5
    unfold readlink
    rw [lstat_names ⟨cs', c', p', k1, k2, k3.mono mono, mono _ _ k4, rfl⟩ (by rw [mono _ _ k5]; simp)]
    simp only [mono _ _ k5]
  refine ⟨?_, fun q t hq => ?_⟩
  · unfold readlink
    rw [lstat_names ⟨cs, c, p, h1, h2, h3.mono mono, mono _ _ h4, rfl⟩ (by simp [FS.put])]
    simp [FS.put]
  · obtain ⟨e', k1, k2⟩ := (C131_readlink_iff hF cwd q t).1 hq
    exact keep q t e' k1 k2

/-- C131_readlink: a link that was made. -/
example := C131_readlink (F := demo) demo_ok demo_symlink

end Verif.FsLinks
