import Verif.Model.Fs
import Mathlib.Data.List.Nodup
import Mathlib.Data.List.Perm.Basic
import Mathlib.Tactic.Tauto
/-!
# Properties of directory listing (C58, C59, C77)
-/
set_option linter.unusedSectionVars false

namespace Verif.Fs

/-! ## Specification -/

/-- The entries as pairs. -/
def Entries.toList : Entries → List (String × Node)
  | .nil => []
  | .cons name n rest => (name, n) :: rest.toList

/-- `At root p n`: going down the path `p` from `root`, through directories that can be opened and listed, one finds
`n`. -/
inductive At : Node → Path → Node → Prop
  | here (n : Node) : At n [] n
  | step {es : Entries} {name : String} {c n : Node} {p : Path} :
      (name, c) ∈ es.toList → At c p n → At (.dir .ok es) (name :: p) n

/-- Is it a directory? -/
def Node.isDir : Node → Bool
  | .dir _ _ => true
  | .file _ _ _ => false

/-- A directory without sub-directories, which can be listed. -/
def LeafDir (n : Node) : Prop := ∃ es, n = .dir .ok es ∧ ∀ e ∈ es.toList, e.2.isDir = false

/-- The paths, relative to the root, that a listing with these options has to give: files if files are asked for,
directories if they are (and not only leaves), both at any depth if deep or leaves are asked for; and the directories
without sub-directories if leaf directories are asked for. -/
def Selected (opt : Opt) (root : Node) (p : Path) : Prop :=
  (∃ n, At root p n ∧ p ≠ [] ∧ (has opt fsDeep ∨ has opt fsLeaf ∨ p.length = 1) ∧
    ((n.isDir = false ∧ has opt fsFile) ∨ (n.isDir = true ∧ has opt fsDir ∧ ¬has opt fsLeaf))) ∨
  (∃ n, At root p n ∧ LeafDir n ∧ has opt fsLeaf ∧ has opt fsDir)

mutual
/-- A file system: the names in a directory are distinct, and none is "." or "..". -/
def Node.Ok : Node → Prop
  | .file _ _ _ => True
  | .dir _ es => es.Ok
def Entries.Ok : Entries → Prop
  | .nil => True
  | .cons name n rest => name ≠ "." ∧ name ≠ ".." ∧ (∀ e ∈ rest.toList, e.1 ≠ name) ∧ n.Ok ∧ rest.Ok
end

/-- The text given for the path `q`: the path itself or its last component. -/
def textOf (opt : Opt) (q : Path) : Out := if has opt fsFullPath then .full q else .name (fileName q)

/-! ## The listing in closed form -/

theorem and_or_left (a b c : BitVec 64) : a &&& (b ||| c) = (a &&& b) ||| (a &&& c) := by
  ext i hi; simp [Bool.and_or_distrib_left]

theorem has_leafDir (opt : Opt) : has opt (fsLeaf ||| fsDir) = (has opt fsLeaf && has opt fsDir) := by
  have key : opt &&& 17#64 = 17#64 ↔ opt &&& 16#64 = 16#64 ∧ opt &&& 1#64 = 1#64 := by
    constructor
    · intro h
      have h1 : (opt &&& 17#64) &&& 16#64 = 17#64 &&& 16#64 := by rw [h]
      have h2 : (opt &&& 17#64) &&& 1#64 = 17#64 &&& 1#64 := by rw [h]
      rw [BitVec.and_assoc] at h1 h2
      exact ⟨h1, h2⟩
    · rintro ⟨h1, h2⟩
      have : (17#64 : BitVec 64) = 16#64 ||| 1#64 := rfl
      rw [this, and_or_left, h1, h2]
  rw [Bool.eq_iff_iff]
  simp only [has, Bool.and_eq_true, fsLeaf, fsDir]
  simp only [show (16#64 ||| 1#64 : BitVec 64) = 17#64 from rfl, key, decide_eq_true_eq]
  simp
  exact ⟨fun ⟨a, b⟩ => ⟨decide_eq_true a, decide_eq_true b⟩, fun ⟨a, b⟩ => ⟨of_decide_eq_true a, of_decide_eq_true b⟩⟩

theorem and_two_pow (opt : Opt) (i : Nat) (h : i < 64) : (opt &&& BitVec.twoPow 64 i = BitVec.twoPow 64 i ↔ opt.getLsbD i = true) ∧
    (opt &&& BitVec.twoPow 64 i = 0 ↔ opt.getLsbD i = false) := by
  rw [BitVec.and_twoPow]
  have hne : BitVec.twoPow 64 i ≠ 0#64 := by
    intro e
    have := congrArg (fun b => BitVec.getLsbD b i) e
    simp [h] at this
  cases hb : opt.getLsbD i <;> simp [hne, hne.symm]

theorem hasAny_deepLeaf (opt : Opt) : hasAny opt (fsDeep ||| fsLeaf) = (has opt fsDeep || has opt fsLeaf) := by
  have d : fsDeep = BitVec.twoPow 64 3 := rfl
  have l : fsLeaf = BitVec.twoPow 64 4 := rfl
  have n0 : (fsDeep ||| fsLeaf : Opt) ≠ 0 := by decide
  have n1 : (fsDeep : Opt) ≠ 0 := by decide
  have n2 : (fsLeaf : Opt) ≠ 0 := by decide
  rw [Bool.eq_iff_iff]
  simp only [has, hasAny, Bool.and_eq_true, Bool.or_eq_true, decide_eq_true_eq, ne_eq, n0, n1, n2, not_false_eq_true,
    true_and]
  rw [and_or_left, show ∀ x y : BitVec 64, (x ||| y = 0) ↔ (x = 0 ∧ y = 0) from fun x y => BitVec.or_eq_zero_iff]
  rw [d, l, (and_two_pow opt 3 (by decide)).1, (and_two_pow opt 4 (by decide)).1]
  have a := (and_two_pow opt 3 (by decide)).2
  have b := (and_two_pow opt 4 (by decide)).2
  rw [a, b]
  cases opt.getLsbD 3 <;> cases opt.getLsbD 4 <;> simp

variable (opt : Opt)

/-- Is there a sub-directory? -/
def Entries.anyDir : Entries → Bool
  | .nil => false
  | .cons _ n rest => n.isDir || rest.anyDir

mutual
/-- The relative paths of the listing, in its order. -/
def sel : Node → List Path
  | .file _ _ _ => []
  | .dir .openFails _ => []
  | .dir .listFails _ => []
  | .dir .ok es => selE es ++ if !es.anyDir && (has opt fsLeaf && has opt fsDir) then [[]] else []
def selE : Entries → List Path
  | .nil => []
  | .cons name (.file _ _ _) rest => (if has opt fsFile then [[name]] else []) ++ selE rest
  | .cons name (.dir st es) rest =>
    (if has opt fsDir && !has opt fsLeaf then [[name]] else []) ++
    (if has opt fsDeep || has opt fsLeaf then (sel (.dir st es)).map (name :: ·) else []) ++ selE rest
end

theorem textOf_choose (q : Path) : chooseName opt q (fileName q) = textOf opt q := rfl

theorem fileName_append (d : Path) (n : String) : fileName (d ++ [n]) = n := by simp [fileName]

theorem choose_name (d : Path) (n : String) : chooseName opt (d ++ [n]) n = textOf opt (d ++ [n]) := by
  conv => lhs; arg 3; rw [← fileName_append d n]
  rfl

mutual
theorem collect_eq (dir : Path) (n : Node) (h : n.Ok) :
    collect opt dir n = ((sel opt n).map fun p => textOf opt (dir ++ p), false) := by
  cases n with
  | file o c r => simp [collect, sel]
  | dir st es =>
    cases st with
    | openFails => simp [collect, sel]
    | listFails => simp [collect, sel]
    | ok =>
      have := walk_eq dir [] false es h
      simp only [collect, this, sel, Bool.false_or, List.nil_append, Bool.false_eq_true, if_false, has_leafDir,
        textOf_choose]
      split_ifs <;> simp
theorem walk_eq (dir : Path) (subs : List Out) (b : Bool) (es : Entries) (h : es.Ok) :
    walk opt dir subs b es = (subs ++ (selE opt es).map (fun p => textOf opt (dir ++ p)), b || es.anyDir, false) := by
  cases es with
  | nil => simp [walk, selE, Entries.anyDir]
  | cons name n rest =>
    obtain ⟨h1, h2, h3, h4, h5⟩ := h
    cases n with
    | file o c r =>
      simp only [walk, selE, Entries.anyDir, Node.isDir, Bool.false_or]
      rw [walk_eq dir _ b rest h5]
      simp only [choose_name]
      split_ifs <;> simp
    | dir st es =>
      simp only [walk, selE, Entries.anyDir, Node.isDir, Bool.true_or, Bool.or_true]
      rw [if_neg (by simp [h1, h2]), hasAny_deepLeaf]
      have hc := collect_eq (dir ++ [name]) (.dir st es) h4
      rw [hc]
      simp only [if_true, choose_name]
      rw [walk_eq dir _ true rest h5, walk_eq dir _ true rest h5]
      split_ifs <;> simp
end

theorem anyDir_iff (es : Entries) : es.anyDir = true ↔ ∃ e ∈ es.toList, e.2.isDir = true := by
  match es with
  | .nil => simp [Entries.anyDir, Entries.toList]
  | .cons name n rest => simp [Entries.anyDir, Entries.toList, anyDir_iff rest]

/-- What the entries of one directory contribute. -/
def SelectedE (es : Entries) (p : Path) : Prop :=
  ∃ name c q, (name, c) ∈ es.toList ∧ p = name :: q ∧
    ((q = [] ∧ ((c.isDir = false ∧ has opt fsFile) ∨ (c.isDir = true ∧ has opt fsDir ∧ ¬has opt fsLeaf))) ∨
     (c.isDir = true ∧ (has opt fsDeep ∨ has opt fsLeaf) ∧ Selected opt c q))

theorem selected_dir (es : Entries) (p : Path) :
    Selected opt (.dir .ok es) p ↔ SelectedE opt es p ∨ (p = [] ∧ es.anyDir = false ∧ has opt fsLeaf ∧ has opt fsDir) := by
  have hsub : ∀ (c : Node) (q : Path), (∃ n, At c q n ∧ (q ≠ [] ∨ LeafDir n)) → c.isDir = true := by
    rintro c q ⟨n, h, h'⟩
    cases h with
    | here n =>
      rcases h' with h' | ⟨es, rfl, -⟩
      · exact absurd rfl h'
      · rfl
    | step => rfl
  constructor
  · rintro (⟨n, hat, hne, hdeep, hk⟩ | ⟨n, hat, hleaf, h1, h2⟩)
    · cases hat with
      | here => exact absurd rfl hne
      | @step _ name c _ q hm hq =>
        refine .inl ⟨name, c, q, hm, rfl, ?_⟩
        by_cases hq0 : q = []
        · subst hq0
          cases hq
          exact .inl ⟨rfl, hk⟩
        · refine .inr ⟨hsub c q ⟨n, hq, .inl hq0⟩, ?_, .inl ⟨n, hq, hq0, ?_, hk⟩⟩
          · rcases hdeep with h | h | h
            · exact .inl h
            · exact .inr h
            · simp at h; exact absurd h hq0
          · rcases hdeep with h | h | h
            · exact .inl h
            · exact .inr (.inl h)
            · simp at h; exact absurd h hq0
    · cases hat with
      | here =>
        obtain ⟨es', e, hl⟩ := hleaf
        cases e
        refine .inr ⟨rfl, ?_, h1, h2⟩
        cases ha : es.anyDir with
        | false => rfl
        | true =>
          obtain ⟨e, he, hd⟩ := (anyDir_iff es).1 ha
          rw [hl e he] at hd; cases hd
      | @step _ name c _ q hm hq =>
        exact .inl ⟨name, c, q, hm, rfl, .inr ⟨hsub c q ⟨n, hq, .inr hleaf⟩, .inr h1, .inr ⟨n, hq, hleaf, h1, h2⟩⟩⟩
  · rintro (⟨name, c, q, hm, rfl, h | h⟩ | ⟨rfl, ha, h1, h2⟩)
    · obtain ⟨rfl, hk⟩ := h
      exact .inl ⟨c, .step hm (.here c), by simp, .inr (.inr rfl), hk⟩
    · obtain ⟨-, hd, h' | h'⟩ := h
      · obtain ⟨n, hat, hne, _, hk⟩ := h'
        exact .inl ⟨n, .step hm hat, by simp, by tauto, hk⟩
      · obtain ⟨n, hat, hl⟩ := h'
        exact .inr ⟨n, .step hm hat, hl⟩
    · refine .inr ⟨_, .here _, ⟨es, rfl, fun e he => ?_⟩, h1, h2⟩
      cases hd : e.2.isDir with
      | false => rfl
      | true => rw [(anyDir_iff es).2 ⟨e, he, hd⟩] at ha; cases ha

theorem selectedE_cons (name : String) (n : Node) (rest : Entries) (p : Path) :
    SelectedE opt (.cons name n rest) p ↔
      (∃ q, p = name :: q ∧
        ((q = [] ∧ ((n.isDir = false ∧ has opt fsFile) ∨ (n.isDir = true ∧ has opt fsDir ∧ ¬has opt fsLeaf))) ∨
        (n.isDir = true ∧ (has opt fsDeep ∨ has opt fsLeaf) ∧ Selected opt n q))) ∨ SelectedE opt rest p := by
  unfold SelectedE
  simp only [Entries.toList, List.mem_cons, Prod.mk.injEq]
  constructor
  · rintro ⟨nm, c, q, ⟨rfl, rfl⟩ | hm, hp, h⟩
    · exact .inl ⟨q, hp, h⟩
    · exact .inr ⟨nm, c, q, hm, hp, h⟩
  · rintro (⟨q, hp, h⟩ | ⟨nm, c, q, hm, hp, h⟩)
    · exact ⟨name, n, q, .inl ⟨rfl, rfl⟩, hp, h⟩
    · exact ⟨nm, c, q, .inr hm, hp, h⟩

mutual
theorem mem_sel (n : Node) (hd : n.isDir = true) (p : Path) : p ∈ sel opt n ↔ Selected opt n p := by
  cases n with
  | file o c r => cases hd
  | dir st es =>
    cases st with
    | ok =>
      rw [selected_dir, sel, List.mem_append, mem_selE es p]
      constructor
      · rintro (h | h)
        · exact .inl h
        · split_ifs at h with hc
          · simp at h hc
            exact .inr ⟨h, hc.1, hc.2⟩
          · simp at h
      · rintro (h | ⟨rfl, h1, h2, h3⟩)
        · exact .inl h
        · exact .inr (by simp [h1, h2, h3])
    | openFails =>
      simp only [sel, List.not_mem_nil, false_iff]
      rintro (⟨n, hat, hne, _⟩ | ⟨n, hat, ⟨es, rfl, _⟩, _⟩)
      · cases hat; exact hne rfl
      · cases hat
    | listFails =>
      simp only [sel, List.not_mem_nil, false_iff]
      rintro (⟨n, hat, hne, _⟩ | ⟨n, hat, ⟨es, rfl, _⟩, _⟩)
      · cases hat; exact hne rfl
      · cases hat
theorem mem_selE (es : Entries) (p : Path) : p ∈ selE opt es ↔ SelectedE opt es p := by
  cases es with
  | nil => simp [selE, SelectedE, Entries.toList]
  | cons name n rest =>
    rw [selectedE_cons]
    have hr := mem_selE rest p
    cases n with
    | file o c r =>
      rw [selE, List.mem_append, hr]
      apply or_congr _ Iff.rfl
      split_ifs with hf <;> simp [Node.isDir, hf]
    | dir st es =>
      have hc := fun q => mem_sel (.dir st es) rfl q
      rw [selE, List.mem_append, List.mem_append, hr]
      apply or_congr _ Iff.rfl
      constructor
      · rintro (h | h)
        · split_ifs at h with hf
          · simp at h hf
            exact ⟨[], h, .inl ⟨rfl, .inr ⟨rfl, by simp [hf]⟩⟩⟩
          · simp at h
        · split_ifs at h with hf
          · obtain ⟨q, hq, rfl⟩ := List.mem_map.1 h
            exact ⟨q, rfl, .inr ⟨rfl, by simpa using hf, (hc q).1 hq⟩⟩
          · simp at h
      · rintro ⟨q, rfl, ⟨rfl, h⟩ | ⟨-, hf, h⟩⟩
        · rcases h with ⟨h, _⟩ | ⟨-, h1, h2⟩
          · cases h
          · left; simp [h1, h2]
        · right
          rw [if_pos (by simpa using hf)]
          exact List.mem_map.2 ⟨q, (hc q).2 h, rfl⟩
end

theorem selE_head {es : Entries} {p : Path} (h : p ∈ selE opt es) : ∃ name q c, p = name :: q ∧ (name, c) ∈ es.toList := by
  obtain ⟨name, c, q, hm, hp, _⟩ := (mem_selE opt es p).1 h
  exact ⟨name, q, c, hp, hm⟩

mutual
theorem nodup_sel (n : Node) (h : n.Ok) : (sel opt n).Nodup := by
  cases n with
  | file o c r => simp [sel]
  | dir st es =>
    cases st with
    | ok =>
      rw [sel]
      refine List.nodup_append.2 ⟨nodup_selE es h, by split_ifs <;> simp, ?_⟩
      intro p hp q hq
      obtain ⟨name, r, c, rfl, _⟩ := selE_head opt hp
      split_ifs at hq
      · simp at hq; subst hq; simp
      · simp at hq
    | openFails => simp [sel]
    | listFails => simp [sel]
theorem nodup_selE (es : Entries) (h : es.Ok) : (selE opt es).Nodup := by
  cases es with
  | nil => simp [selE]
  | cons name n rest =>
    obtain ⟨-, -, h3, h4, h5⟩ := h
    have hr := nodup_selE rest h5
    have hne : ∀ p ∈ selE opt rest, ∀ q : Path, p ≠ name :: q := by
      intro p hp q e
      obtain ⟨nm, q', c, rfl, hm⟩ := selE_head opt hp
      cases e
      exact h3 _ hm rfl
    cases n with
    | file o c r =>
      rw [selE]
      refine List.nodup_append.2 ⟨by split_ifs <;> simp, hr, ?_⟩
      intro p hp q hq e
      subst e
      split_ifs at hp
      · simp at hp; exact hne p hq [] hp
      · simp at hp
    | dir st es =>
      rw [selE]
      have hs := nodup_sel (.dir st es) h4
      refine List.nodup_append.2 ⟨List.nodup_append.2 ⟨by split_ifs <;> simp, ?_, ?_⟩, hr, ?_⟩
      · split_ifs
        · exact hs.map fun a b e => by simpa using e
        · exact List.nodup_nil
      · intro p hp q hq e
        subst e
        split_ifs at hp with h1
        · simp at hp
          subst hp
          split_ifs at hq
          · simp at hq
            -- only a leaf listing has the directory itself
            have := (mem_sel opt (.dir st es) rfl []).1 hq
            rcases this with ⟨n, _, hn, _⟩ | ⟨n, _, _, hl, _⟩
            · exact hn rfl
            · simp [hl] at h1
          · simp at hq
        · simp at hp
      · intro p hp q hq e
        subst e
        rcases List.mem_append.1 hp with hp | hp
        · split_ifs at hp
          · simp at hp; exact hne p hq [] hp
          · simp at hp
        · split_ifs at hp
          · obtain ⟨r, _, e⟩ := List.mem_map.1 hp
            exact hne p hq r e.symm
          · simp at hp
end

/-! ## C58 -/

/-- **C58 (all listings).** For every file tree, every order in which directories list their entries, and all options: the
listing consists of the texts (full path or name) of exactly the selected paths, each exactly once. -/
theorem C58_listing (dir : Path) (n : Node) (hd : n.isDir = true) (h : n.Ok) :
    ∃ ps : List Path, ps.Nodup ∧ (∀ p, p ∈ ps ↔ Selected opt n p) ∧
      (collect opt dir n).1 = ps.map fun p => textOf opt (dir ++ p) :=
  ⟨sel opt n, nodup_sel opt n h, mem_sel opt n hd, by rw [collect_eq opt dir n h]⟩

/-- **C58 (full paths).** With full paths the listing itself has no duplicates. -/
theorem C58_full_paths_distinct (dir : Path) (n : Node) (h : n.Ok) (hf : has opt fsFullPath = true) :
    (collect opt dir n).1.Nodup := by
  rw [collect_eq opt dir n h]
  refine (nodup_sel opt n h).map fun a b e => ?_
  simpa [textOf, hf] using e

/-- **C58 (`GetDeepFiles`).** It gives the names of exactly the files below the directory, at any depth, one for each
file. -/
theorem C58_deep_files (dir : Path) (n : Node) (hd : n.isDir = true) (h : n.Ok) :
    ∃ ps : List Path, ps.Nodup ∧ (∀ p, p ∈ ps ↔ ∃ o c r, At n p (.file o c r)) ∧
      (getDeepFiles dir n).1 = ps.map fun p => .name (fileName p) := by
  obtain ⟨ps, h1, h2, h3⟩ := C58_listing (fsFile ||| fsDeep) dir n hd h
  have hpe : ∀ p ∈ ps, p ≠ [] := by
    intro p hp
    rcases (h2 p).1 hp with ⟨m, _, hn, _⟩ | ⟨m, _, _, hl, _⟩
    · exact hn
    · exact absurd hl (by decide)
  refine ⟨ps, h1, fun p => ?_, ?_⟩
  · rw [h2]
    constructor
    · rintro (⟨m, hat, hne, _, h' | h'⟩ | ⟨m, _, _, hl, _⟩)
      · cases m with
        | file o c r => exact ⟨o, c, r, hat⟩
        | dir => cases h'.1
      · exact absurd h'.2.1 (by decide)
      · exact absurd hl (by decide)
    · rintro ⟨o, c, r, hat⟩
      refine .inl ⟨_, hat, ?_, .inl (by decide), .inl ⟨rfl, by decide⟩⟩
      rintro rfl
      cases hat
      cases hd
  · rw [getDeepFiles, h3]
    apply List.map_congr_left
    intro p hp
    have e : has (fsFile ||| fsDeep) fsFullPath = false := by decide
    simp only [textOf, e, Bool.false_eq_true, if_false, Out.name.injEq, fileName]
    rw [List.getLast?_append_of_ne_nil _ (hpe p hp)]

/-- **C58 (`GetLeafDirs`).** It gives the full paths of exactly the directories without sub-directories (the root
included, if it has none), each once. -/
theorem C58_leaf_dirs (dir : Path) (n : Node) (hd : n.isDir = true) (h : n.Ok) :
    (getLeafDirs dir n).1.Nodup ∧
    ∀ x, x ∈ (getLeafDirs dir n).1 ↔ ∃ p m, x = .full (dir ++ p) ∧ At n p m ∧ LeafDir m := by
  refine ⟨C58_full_paths_distinct _ dir n h (by decide), fun x => ?_⟩
  obtain ⟨ps, -, h2, h3⟩ := C58_listing (fsDir ||| fsLeaf ||| fsFullPath) dir n hd h
  have e : has (fsDir ||| fsLeaf ||| fsFullPath) fsFullPath = true := by decide
  rw [getLeafDirs, h3, List.mem_map]
  simp only [textOf, e, if_true]
  constructor
  · rintro ⟨p, hp, rfl⟩
    rcases (h2 p).1 hp with ⟨m, _, _, _, h' | h'⟩ | ⟨m, hat, hl, _⟩
    · exact absurd h'.2 (by decide)
    · exact absurd (show has (fsDir ||| fsLeaf ||| fsFullPath) fsLeaf = true by decide) h'.2.2
    · exact ⟨p, m, rfl, hat, hl⟩
  · rintro ⟨p, m, rfl, hat, hl⟩
    exact ⟨p, (h2 p).2 (.inr ⟨m, hat, hl, by decide, by decide⟩), rfl⟩

/-- **C58 (one level).** `GetSubFiles`, `GetSubDirs` and `GetSubs` give the names of exactly the files, the directories,
and all entries of the directory, in the order it lists them. -/
theorem C58_one_level (dir : Path) (es : Entries) (h : es.Ok) :
    (getSubFiles dir (.dir .ok es)).1 = (es.toList.filter fun e => !e.2.isDir).map (fun e => .name e.1) ∧
    (getSubDirs dir (.dir .ok es)).1 = (es.toList.filter fun e => e.2.isDir).map (fun e => .name e.1) ∧
    (getSubs dir (.dir .ok es)).1 = es.toList.map (fun e => .name e.1) := by
  have hsel : ∀ opt : Opt, has opt fsDeep = false → has opt fsLeaf = false → ∀ es : Entries,
      selE opt es = (es.toList.filter fun e => (e.2.isDir && has opt fsDir) ||
        (!e.2.isDir && has opt fsFile)).map (fun e => [e.1]) := by
    intro opt h1 h2 es
    induction es using Entries.rec (motive_1 := fun _ => True) with
    | file => trivial
    | dir => trivial
    | nil => rfl
    | cons name n rest _ ih =>
      cases n with
      | file => simp [selE, Entries.toList, ih, Node.isDir, List.filter_cons]; split_ifs <;> simp
      | dir => simp [selE, Entries.toList, ih, Node.isDir, List.filter_cons, h1, h2]; split_ifs <;> simp
  have key : ∀ opt : Opt, has opt fsDeep = false → has opt fsLeaf = false → has opt fsFullPath = false →
      (collect opt dir (.dir .ok es)).1 = (es.toList.filter fun e => (e.2.isDir && has opt fsDir) ||
        (!e.2.isDir && has opt fsFile)).map (fun e => .name e.1) := by
    intro opt h1 h2 h3
    rw [collect_eq opt dir (.dir .ok es) h]
    simp only [sel, h2, Bool.false_and, Bool.and_false, Bool.false_eq_true, if_false, List.append_nil,
      hsel opt h1 h2, List.map_map]
    apply List.map_congr_left
    intro e _
    simp [textOf, h3, fileName]
  refine ⟨?_, ?_, ?_⟩
  · rw [getSubFiles, key _ (by decide) (by decide) (by decide)]
    simp [show has fsFile fsDir = false by decide, show has fsFile fsFile = true by decide]
  · rw [getSubDirs, key _ (by decide) (by decide) (by decide)]
    simp [show has fsDir fsDir = true by decide, show has fsDir fsFile = false by decide]
  · rw [getSubs, key _ (by decide) (by decide) (by decide)]
    simp [show has fsAll fsDir = true by decide, show has fsAll fsFile = true by decide]

/-- A tree with a file at the top, a directory with a file of the same name and an empty directory. -/
def demo : Node :=
  .dir .ok (.cons "a" (.file true [1] 9) (.cons "d" (.dir .ok (.cons "a" (.file true [2] 9)
    (.cons "e" (.dir .ok .nil) .nil))) .nil))

example : demo.Ok ∧ demo.isDir = true := by
  refine ⟨?_, rfl⟩
  simp [demo, Node.Ok, Entries.Ok, Entries.toList]

example : getDeepFiles ["r"] demo = ([.name "a", .name "a"], false) ∧
    getLeafDirs ["r"] demo = ([.full ["r", "d", "e"]], false) := by decide

/-- **C58 (names are not enough).** `GetDeepFiles` gives only the last component of each path, so files of different
directories can not be told apart in the result: the literal claim "each file once" holds of the files, not of the
texts. -/
theorem C58_deep_files_repeats_names : ∃ n : Node, n.Ok ∧ ¬(getDeepFiles ["r"] n).1.Nodup :=
  ⟨demo, by simp [demo, Node.Ok, Entries.Ok, Entries.toList], by decide⟩

/-- The entries without the directories named "." and "..", as some operating systems list them. -/
def Entries.noDots : Entries → Entries
  | .nil => .nil
  | .cons name n rest => if n.isDir = true ∧ (name = "." ∨ name = "..") then rest.noDots else .cons name n rest.noDots

theorem walk_noDots (dir : Path) (subs : List Out) (b : Bool) : ∀ es : Entries,
    walk opt dir subs b es.noDots = walk opt dir subs b es := by
  intro es
  cases es with
  | nil => rfl
  | cons name n rest =>
    cases n with
    | file o c r =>
      rw [Entries.noDots, if_neg (by simp [Node.isDir])]
      simp only [walk]
      exact walk_noDots dir _ b rest
    | dir st es' =>
      by_cases h : name = "." ∨ name = ".."
      · rw [Entries.noDots, if_pos ⟨rfl, h⟩, walk_noDots dir subs b rest, walk, if_pos h]
      · rw [Entries.noDots, if_neg (by rintro ⟨_, h'⟩; exact h h')]
        simp only [walk, if_neg h]
        cases hc : hasAny opt (fsDeep ||| fsLeaf)
        · simp only [Bool.false_eq_true, if_false]; exact walk_noDots dir _ true rest
        · simp only [if_true]
          cases collect opt (dir ++ [name]) (.dir st es') with
          | mk r err =>
            cases err
            · simp only [if_true]; exact walk_noDots dir _ true rest
            · simp

/-- **C58 (dots).** Entries "." and ".." that are directories make no difference: they are not listed, not followed, and
do not count as subdirectories. -/
theorem C58_dots (dir : Path) (es : Entries) :
    collect opt dir (.dir .ok es) = collect opt dir (.dir .ok es.noDots) := by
  simp only [collect, walk_noDots]

example : (Entries.cons "." (.dir .ok .nil) (.cons ".." (.dir .openFails .nil) .nil)).noDots = .nil := by
  simp [Entries.noDots, Node.isDir]

/-! ## C59 -/

/-- Some directory that the listing has to go through cannot be opened or listed. -/
def Unlistable (opt : Opt) (root : Node) : Prop :=
  ∃ p st es, At root p (.dir st es) ∧ st ≠ .ok ∧ (p = [] ∨ has opt fsDeep ∨ has opt fsLeaf)

/-- **C59 is false of the code.** No listing ever reports an error, whatever cannot be opened or listed: the error
variables are shadowed. -/
theorem C59_never_reports (dir : Path) (n : Node) (h : n.Ok) : (collect opt dir n).2 = false := by
  rw [collect_eq opt dir n h]

/-- What is really there: `n` is at the path `p`, whether or not the directories on the way can be listed. -/
inductive There : Node → Path → Node → Prop
  | here (n : Node) : There n [] n
  | step {st : Status} {es : Entries} {name : String} {c n : Node} {p : Path} :
      (name, c) ∈ es.toList → There c p n → There (.dir st es) (name :: p) n

/-- **C59 (partial).** If every directory can be listed there is no error, and the deep listing has every file that is
there.  What is missing is that an error is reported otherwise, which `C59_never_reports` refutes. -/
theorem C59_listable_partial (dir : Path) (n : Node) (hd : n.isDir = true) (h : n.Ok)
    (hall : ∀ p st es, There n p (.dir st es) → st = .ok) :
    (getDeepFiles dir n).2 = false ∧
    ∃ ps : List Path, ps.Nodup ∧ (∀ p, p ∈ ps ↔ ∃ o c r, There n p (.file o c r)) ∧
      (getDeepFiles dir n).1 = ps.map fun p => .name (fileName p) := by
  refine ⟨C59_never_reports _ dir n h, ?_⟩
  have key : ∀ {n : Node} {p m}, There n p m → (∀ p st es, There n p (.dir st es) → st = .ok) → At n p m := by
    intro n p m ht
    induction ht with
    | here n => exact fun _ => .here n
    | @step st es name c n p hm ht ih =>
      intro hall
      have : st = .ok := hall [] st es (.here _)
      subst this
      exact .step hm (ih fun p st es h' => hall (name :: p) st es (.step hm h'))
  have key' : ∀ {n : Node} {p m}, At n p m → There n p m := by
    intro n p m ht
    induction ht with
    | here n => exact .here n
    | step hm _ ih => exact .step hm ih
  obtain ⟨ps, h1, h2, h3⟩ := C58_deep_files dir n hd h
  refine ⟨ps, h1, fun p => (h2 p).trans ?_, h3⟩
  constructor
  · rintro ⟨o, c, r, hat⟩; exact ⟨o, c, r, key' hat⟩
  · rintro ⟨o, c, r, hat⟩; exact ⟨o, c, r, key hat hall⟩

/-- **C59 (negation).** There is a tree, with a directory that has to be listed and cannot be, for which no error is
reported and the listing is a proper part of what is there. -/
theorem C59_silent_loss : ∃ (n : Node) (good : Node), n.Ok ∧ good.Ok ∧ Unlistable (fsFile ||| fsDeep) n ∧
    getDeepFiles ["r"] n = ([.name "a"], false) ∧ getDeepFiles ["r"] good = ([.name "a", .name "b"], false) :=
  ⟨.dir .ok (.cons "a" (.file true [1] 9) (.cons "d" (.dir .openFails (.cons "b" (.file true [2] 9) .nil)) .nil)),
   .dir .ok (.cons "a" (.file true [1] 9) (.cons "d" (.dir .ok (.cons "b" (.file true [2] 9) .nil)) .nil)),
   by simp [Node.Ok, Entries.Ok, Entries.toList], by simp [Node.Ok, Entries.Ok, Entries.toList],
   ⟨["d"], .openFails, _, .step (by simp [Entries.toList]; rfl) (.here _), by decide, .inr (.inl (by decide))⟩,
   by decide, by decide⟩

/-- **C59 (exactly what is lost).** A directory that cannot be opened or listed has an empty listing and no error; by
`C58_listing` everything below it, and nothing else, is missing. -/
theorem C59_unlistable_is_empty (dir : Path) (st : Status) (es : Entries) (h : st ≠ .ok) :
    collect opt dir (.dir st es) = ([], false) := by
  cases st <;> simp [collect] at h ⊢

/-! The theorems on `demo`. -/

theorem demo_ok : demo.Ok := by simp [demo, Node.Ok, Entries.Ok, Entries.toList]

example := C58_listing (fsFile ||| fsDeep) ["r"] demo rfl demo_ok
example := C58_full_paths_distinct (fsFile ||| fsDeep ||| fsFullPath) ["r"] demo demo_ok (by decide)
example := C58_deep_files ["r"] demo rfl demo_ok
example := C58_leaf_dirs ["r"] demo rfl demo_ok
example : (collect (fsFile ||| fsDeep) ["r"] demo).2 = false := C59_never_reports _ ["r"] demo demo_ok
example : collect fsFile ["r"] (.dir .listFails (.cons "a" (.file true [1] 1) .nil)) = ([], false) :=
  C59_unlistable_is_empty _ ["r"] .listFails _ (by decide)

/-- C59_listable_partial: all directories of `demo` can be listed. -/
example := C59_listable_partial ["r"] demo rfl demo_ok (by
  intro p st es h
  simp only [demo] at h
  cases h with
  | here => rfl
  | step hm h =>
    simp [Entries.toList] at hm
    rcases hm with ⟨-, rfl⟩ | ⟨-, rfl⟩
    · cases h
    · cases h with
      | here => rfl
      | step hm h =>
        simp [Entries.toList] at hm
        rcases hm with ⟨-, rfl⟩ | ⟨-, rfl⟩
        · cases h
        · cases h with
          | here => rfl
          | step hm h => simp [Entries.toList] at hm)

end Verif.Fs
