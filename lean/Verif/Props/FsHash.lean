import Verif.Props.FsList
import Verif.Props.Cmp
import Verif.Props.Hash
import Mathlib.Data.List.Sort
import Mathlib.Data.List.Perm.Basic
/-!
# Properties of fingerprints and statistics of directory trees (C60, C77, C78, C79)
-/
set_option linter.unusedSectionVars false

namespace Verif.Fs
open Verif.FileHash Verif.Hash Verif.Tree

/-- The nodes of a fingerprint. -/
abbrev FTree := Verif.Tree.Tree FileHash

/-! ## Specification -/

/-- The nodes of a directory, without their names. -/
def Entries.nodes : Entries → List Node
  | .nil => []
  | .cons _ n rest => n :: rest.nodes

mutual
/-- The same tree up to the names and the order in which directories list their entries: files with the same size and the
same readable bytes; directories whose entries can be matched one to one. -/
def Same : Node → Node → Prop
  | .file o c r, m => ∃ c' r', m = .file o c' r' ∧ c'.length = c.length ∧ c'.take r' = c.take r
  | .dir st es, m => ∃ es', m = .dir st es' ∧ Matches es es'.nodes
/-- The entries can be matched one to one with these nodes. -/
def Matches : Entries → List Node → Prop
  | .nil, L => L = []
  | .cons _ n rest, L => ∃ L1 m L2, L = L1 ++ m :: L2 ∧ Same n m ∧ Matches rest (L1 ++ L2)
end

/-- What a user compares: the hash, the size and whether it is a directory. -/
def digest (t : FTree) : Bytes × UInt64 × Bool := (t.val.hash, t.val.size, t.val.isDir)

mutual
/-- The number of bytes in all files. -/
def Node.bytes : Node → Nat
  | .file _ c _ => c.length
  | .dir _ es => es.bytes
def Entries.bytes : Entries → Nat
  | .nil => 0
  | .cons _ n rest => n.bytes + rest.bytes
end

mutual
/-- Every directory can be opened and listed and every file can be opened. -/
def Node.opens : Node → Bool
  | .file o _ _ => o
  | .dir st es => decide (st = .ok) && es.opens
def Entries.opens : Entries → Bool
  | .nil => true
  | .cons _ n rest => n.opens && rest.opens
end

/-! ## Both hashes are instances of one scheme -/

section gen
variable (srt : Sorter) (leaf : Bytes → Nat → Bytes) (comb : List Bytes → UInt64 → Bytes)

/-- The sum of the sizes. -/
def sizes (cs : List FTree) : UInt64 := cs.foldl (fun n c => n + c.val.size) 0

mutual
/-- The scheme: `leaf` hashes a file, `comb` the hashes of the sorted children. -/
def gen (path : Path) : Node → Option FTree
  | .file o c r => if o then some (.node ⟨pathBytes path, leaf c r, UInt64.ofNat c.length, false⟩ []) else none
  | .dir .openFails _ => none
  | .dir .listFails _ => none
  | .dir .ok es =>
    match genE path es with
    | none => none
    | some cs => some (.node ⟨pathBytes path, comb ((srt.sort cs).map fun c => c.val.hash) (sizes (srt.sort cs)),
        sizes (srt.sort cs), true⟩ (srt.sort cs))
def genE (path : Path) : Entries → Option (List FTree)
  | .nil => some []
  | .cons name n rest =>
    match gen (path ++ [name]) n, genE path rest with
    | some t, some ts => some (t :: ts)
    | _, _ => none
end
end gen

variable (M S C : Alg) (srt srt' : Sorter)

/-- The fingerprint of a file. -/
def fpLeaf (c : Bytes) (r : Nat) : Bytes :=
  textBytes (((FP.new : FP M S C).write (c.take r)).1.resetsize (UInt64.ofNat c.length).toBitVec).string
/-- The fingerprint of a directory. -/
def fpComb (hs : List Bytes) (size : UInt64) : Bytes :=
  textBytes ((hs.foldl (fun h c => (h.write c).1) (FP.new : FP M S C)).resetsize size.toBitVec).string

theorem insert_end (acc : List FTree) (t : FTree) :
    (SortSlice.insert ⟨acc⟩ t (-1)).1.d = acc ++ [t] := by
  simp [SortSlice.insert]

mutual
theorem fingerprint_gen (path : Path) (n : Node) (h : n.Ok) :
    fingerprint M S C srt path n = gen srt (fpLeaf M S C) (fpComb M S C) path n := by
  cases n with
  | file o c r => simp only [fingerprint, gen, fpLeaf]
  | dir st es =>
    cases st with
    | openFails => simp only [fingerprint, gen]
    | listFails => simp only [fingerprint, gen]
    | ok =>
      have := children_gen path [] es h
      simp only [fingerprint, gen, this]
      cases genE srt (fpLeaf M S C) (fpComb M S C) path es with
      | none => rfl
      | some cs =>
        simp only [Option.map_some, List.nil_append, Option.bind_eq_bind, Option.bind_some, fpComb, sizes,
          List.foldl_map]
theorem children_gen (path : Path) (acc : List FTree) (es : Entries) (h : es.Ok) :
    children M S C srt path acc es = (genE srt (fpLeaf M S C) (fpComb M S C) path es).map (acc ++ ·) := by
  cases es with
  | nil => simp [children, genE]
  | cons name n rest =>
    obtain ⟨h1, h2, -, h4, h5⟩ := h
    simp only [children, genE]
    rw [if_pos ⟨h1, h2⟩, fingerprint_gen (path ++ [name]) n h4]
    cases gen srt (fpLeaf M S C) (fpComb M S C) (path ++ [name]) n with
    | none => rfl
    | some t =>
      simp only [Option.bind_eq_bind, Option.bind_some, insert_end]
      rw [children_gen path _ rest h5]
      cases genE srt (fpLeaf M S C) (fpComb M S C) path rest with
      | none => rfl
      | some ts => simp
end

/-- The hash of a file. -/
def hashLeaf (A : Alg) (salt c : Bytes) (r : Nat) : Bytes := textBytes (hexBytes (A.sum (A.write
  (if salt ≠ [] then A.write A.init salt else A.init) (c.take r))))
/-- The hash of a directory. -/
def hashComb (A : Alg) (salt : Bytes) (hs : List Bytes) (_size : UInt64) : Bytes :=
  textBytes (hexBytes (A.sum (hs.foldl A.write (if salt ≠ [] then A.write A.init salt else A.init))))

mutual
theorem hash_gen (A : Alg) (salt : Bytes) (path : Path) (n : Node) (h : n.Ok) :
    hash srt A salt path n = gen srt (hashLeaf A salt) (hashComb A salt) path n := by
  cases n with
  | file o c r => simp only [hash, gen, hashLeaf]
  | dir st es =>
    cases st with
    | openFails => simp only [hash, gen]
    | listFails => simp only [hash, gen]
    | ok =>
      have := hashChildren_gen A salt path [] es h
      simp only [hash, gen, this]
      cases genE srt (hashLeaf A salt) (hashComb A salt) path es with
      | none => rfl
      | some cs =>
        simp only [Option.map_some, List.nil_append, Option.bind_eq_bind, Option.bind_some, hashComb, sizes,
          List.foldl_map]
theorem hashChildren_gen (A : Alg) (salt : Bytes) (path : Path) (acc : List FTree) (es : Entries) (h : es.Ok) :
    hashChildren srt A salt path acc es = (genE srt (hashLeaf A salt) (hashComb A salt) path es).map (acc ++ ·) := by
  cases es with
  | nil => simp [hashChildren, genE]
  | cons name n rest =>
    obtain ⟨h1, h2, -, h4, h5⟩ := h
    simp only [hashChildren, genE]
    rw [if_pos ⟨h1, h2⟩, hash_gen A salt (path ++ [name]) n h4]
    cases gen srt (hashLeaf A salt) (hashComb A salt) (path ++ [name]) n with
    | none => rfl
    | some t =>
      simp only [Option.bind_eq_bind, Option.bind_some, insert_end]
      rw [hashChildren_gen A salt path _ rest h5]
      cases genE srt (hashLeaf A salt) (hashComb A salt) path rest with
      | none => rfl
      | some ts => simp
end

/-! ## Sorting by size and hash determines the sequence of sizes and hashes -/

theorem bytesLt_tri : ∀ a b : List UInt8, bytesLt a b = false → bytesLt b a = false → a = b
  | [], [], _, _ => rfl
  | [], _ :: _, h, _ => by simp [bytesLt] at h
  | _ :: _, [], _, h => by simp [bytesLt] at h
  | x :: xs, y :: ys, h1, h2 => by
    simp only [bytesLt, Bool.or_eq_false_iff, decide_eq_false_iff_not, Bool.and_eq_false_iff, beq_eq_false_iff_ne] at h1 h2
    have e : x = y := by
      have a := h1.1; have b := h2.1
      rw [UInt8.lt_iff_toNat_lt] at a b
      exact UInt8.toNat_inj.1 (by omega)
    subst e
    rw [bytesLt_tri xs ys (by simpa using h1.2) (by simpa using h2.2)]

/-- The part of a node that counts. -/
def hs (t : FTree) : Bytes × UInt64 := (t.val.hash, t.val.size)

/-- The order on these parts. -/
def hsLe (a b : Bytes × UInt64) : Prop := FileHash.less ⟨[], b.1, b.2, false⟩ ⟨[], a.1, a.2, false⟩ = false

theorem nodeLess_hs (a b : FTree) : nodeLess FileHash.less b a = false ↔ hsLe (hs a) (hs b) := Iff.rfl

theorem hsLe_antisymm (a b : Bytes × UInt64) (h1 : hsLe a b) (h2 : hsLe b a) : a = b := by
  unfold hsLe at h1 h2
  rw [← Bool.not_eq_true, FileHash.less_iff] at h1 h2
  simp only [not_or, not_and, Bool.not_eq_true] at h1 h2
  have e : a.2 = b.2 := by
    have a' := h1.1; have b' := h2.1
    rw [UInt64.lt_iff_toNat_lt] at a' b'
    exact UInt64.toNat_inj.1 (by simpa using (by omega : a.2.toNat = b.2.toNat))
  exact Prod.ext (bytesLt_tri _ _ (h2.2 e) (h1.2 e.symm)) e

theorem sorted_unique {l l' : List FTree} (h : (l.map hs).Perm (l'.map hs)) :
    (srt.sort l).map hs = (srt'.sort l').map hs := by
  refine List.Perm.eq_of_pairwise (le := hsLe) (fun a b _ _ => hsLe_antisymm a b) ?_ ?_ ?_
  · exact List.pairwise_map.2 ((srt.sorted l).imp fun h => h)
  · exact List.pairwise_map.2 ((srt'.sorted l').imp fun h => h)
  · exact ((srt.perm l).map hs).trans (h.trans ((srt'.perm l').map hs).symm)

/-! ## C60 -/

section inv
variable (leaf : Bytes → Nat → Bytes) (comb : List Bytes → UInt64 → Bytes)

/-- Options of all. -/
def allSome {β : Type} : List (Option β) → Option (List β)
  | [] => some []
  | none :: _ => none
  | some b :: r => (allSome r).map (b :: ·)

theorem allSome_perm {β : Type} {l l' : List (Option β)} (h : l.Perm l') :
    (allSome l = none ∧ allSome l' = none) ∨ ∃ a b, allSome l = some a ∧ allSome l' = some b ∧ a.Perm b := by
  induction h with
  | nil => exact .inr ⟨[], [], rfl, rfl, .nil⟩
  | cons x _ ih =>
    cases x with
    | none => exact .inl ⟨rfl, rfl⟩
    | some x =>
      rcases ih with ⟨h1, h2⟩ | ⟨a, b, h1, h2, h3⟩
      · exact .inl ⟨by simp [allSome, h1], by simp [allSome, h2]⟩
      · exact .inr ⟨x :: a, x :: b, by simp [allSome, h1], by simp [allSome, h2], h3.cons x⟩
  | swap x y l =>
    cases x <;> cases y
    · exact .inl ⟨rfl, rfl⟩
    · exact .inl ⟨by simp [allSome], rfl⟩
    · exact .inl ⟨rfl, by simp [allSome]⟩
    · rename_i x y
      cases h : allSome l with
      | none => exact .inl ⟨by simp [allSome, h], by simp [allSome, h]⟩
      | some a => exact .inr ⟨y :: x :: a, x :: y :: a, by simp [allSome, h], by simp [allSome, h], .swap x y a⟩
  | trans _ _ ih1 ih2 =>
    rcases ih1 with ⟨h1, h2⟩ | ⟨a, b, h1, h2, h3⟩
    · rcases ih2 with ⟨h3, h4⟩ | ⟨c, d, h3, h4, _⟩
      · exact .inl ⟨h1, h4⟩
      · rw [h2] at h3; cases h3
    · rcases ih2 with ⟨h4, h5⟩ | ⟨c, d, h4, h5, h6⟩
      · rw [h2] at h4; cases h4
      · rw [h2] at h4; cases h4
        exact .inr ⟨a, d, h1, h5, h3.trans h6⟩

/-- What a node gives, without its path. -/
def dig (path : Path) (n : Node) : Option (Bytes × UInt64 × Bool) := (gen srt leaf comb path n).map digest

theorem genE_allSome (path : Path) (es : Entries) :
    (genE srt leaf comb path es).map (·.map digest) =
      allSome (es.toList.map fun e => dig srt leaf comb (path ++ [e.1]) e.2) := by
  induction es using Entries.rec (motive_1 := fun _ => True) with
  | file => trivial
  | dir => trivial
  | nil => rfl
  | cons name n rest _ ih =>
    simp only [genE, Entries.toList, List.map_cons, dig]
    cases h1 : gen srt leaf comb (path ++ [name]) n with
    | none => rfl
    | some t =>
      simp only [Option.map_some, allSome]
      change _ = (allSome (rest.toList.map fun e => dig srt leaf comb (path ++ [e.1]) e.2)).map _
      rw [← ih]
      cases h2 : genE srt leaf comb path rest with
      | none => rfl
      | some ts => rfl

theorem sizes_eq (cs : List FTree) : sizes cs = (cs.map fun c => c.val.size).foldl (· + ·) 0 := by
  rw [sizes, List.foldl_map]

/-- The digest of a directory from the digests of its entries. -/
theorem dig_dir (path : Path) (es : Entries) (l : List FTree) (h : genE srt leaf comb path es = some l) :
    dig srt leaf comb path (.dir .ok es) = some (comb (((srt.sort l).map hs).map (·.1))
      ((((srt.sort l).map hs).map (·.2)).foldl (· + ·) 0), (((srt.sort l).map hs).map (·.2)).foldl (· + ·) 0, true) := by
  simp only [dig, gen, h, Option.map_some, digest, Verif.Tree.Tree.val, sizes_eq, List.map_map]
  rfl

variable (hleaf : ∀ c r c' r', c'.length = c.length → c'.take r' = c.take r → leaf c' r' = leaf c r)
include hleaf

mutual
theorem dig_same (n : Node) (path path' : Path) (m : Node) (h : Same n m) :
    dig srt leaf comb path n = dig srt' leaf comb path' m := by
  cases n with
  | file o c r =>
    simp only [Same] at h
    obtain ⟨c', r', rfl, h1, h2⟩ := h
    simp only [dig, gen, hleaf c r c' r' h1 h2, h1]
    cases o <;> rfl
  | dir st es =>
    simp only [Same] at h
    obtain ⟨es', rfl, hm⟩ := h
    cases st with
    | openFails => simp only [dig, gen]
    | listFails => simp only [dig, gen]
    | ok =>
      have e : ∀ es : Entries, es.toList.map (·.2) = es.nodes := by
        intro es
        induction es using Entries.rec (motive_1 := fun _ => True) with
        | file => trivial
        | dir => trivial
        | nil => rfl
        | cons name n rest _ ih => simp [Entries.toList, Entries.nodes, ih]
      have hp := dig_matches es path path' es'.toList (by rw [e]; exact hm)
      have a := genE_allSome srt leaf comb path es
      have b := genE_allSome srt' leaf comb path' es'
      rcases allSome_perm hp with ⟨h1, h2⟩ | ⟨x, y, h1, h2, h3⟩
      · rw [h1, Option.map_eq_none_iff] at a
        rw [h2, Option.map_eq_none_iff] at b
        simp only [dig, gen, a, b]
      · rw [h1, Option.map_eq_some_iff] at a
        rw [h2, Option.map_eq_some_iff] at b
        obtain ⟨l, hl, hx⟩ := a
        obtain ⟨l', hl', hy⟩ := b
        rw [dig_dir srt leaf comb path es l hl, dig_dir srt' leaf comb path' es' l' hl']
        have : (l.map hs).Perm (l'.map hs) := by
          have q : ∀ l : List FTree, l.map hs = (l.map digest).map fun d => (d.1, d.2.1) := by
            intro l; rw [List.map_map]; rfl
          rw [q, q, hx, hy]
          exact h3.map _
        rw [sorted_unique srt srt' this]
theorem dig_matches (es : Entries) (path path' : Path) (L : List (String × Node)) (h : Matches es (L.map (·.2))) :
    (es.toList.map fun e => dig srt leaf comb (path ++ [e.1]) e.2).Perm
      (L.map fun e => dig srt' leaf comb (path' ++ [e.1]) e.2) := by
  cases es with
  | nil =>
    simp only [Matches, List.map_eq_nil_iff] at h
    subst h
    exact .nil
  | cons name n rest =>
    simp only [Matches] at h
    obtain ⟨L1, m, L2, e, h1, h2⟩ := h
    obtain ⟨A, B, rfl, eA, eB⟩ := List.map_eq_append_iff.1 e
    obtain ⟨⟨nm, m'⟩, B, rfl, rfl, rfl⟩ := List.map_eq_cons_iff.1 eB
    subst eA
    have ih := dig_matches rest path path' (A ++ B) (by rw [List.map_append]; exact h2)
    have e1 := dig_same n (path ++ [name]) (path' ++ [nm]) m' h1
    simp only [Entries.toList, List.map_cons, List.map_append]
    rw [e1]
    rw [List.map_append] at ih
    exact (ih.cons _).trans List.perm_middle.symm
end
end inv

/-- **C60 (fingerprint).** Two trees that are the same up to names and listing order have the same fingerprint, the same
total size and the same kind, or both give an error — whatever the paths, the hash functions, and the way `sort.Sort`
orders equal elements. -/
theorem C60_fingerprint (n m : Node) (hn : n.Ok) (hm : m.Ok) (h : Same n m) (path path' : Path) :
    (fingerprint M S C srt path n).map digest = (fingerprint M S C srt' path' m).map digest := by
  rw [fingerprint_gen M S C srt path n hn, fingerprint_gen M S C srt' path' m hm]
  exact dig_same srt srt' _ _ (fun c r c' r' h1 h2 => by simp only [fpLeaf, h1, h2]) n path path' m h

/-- **C60 (hash).** The same for the hash by any method and salt. -/
theorem C60_hash (A : Alg) (salt : Bytes) (n m : Node) (hn : n.Ok) (hm : m.Ok) (h : Same n m) (path path' : Path) :
    (hash srt A salt path n).map digest = (hash srt' A salt path' m).map digest := by
  rw [hash_gen srt A salt path n hn, hash_gen srt' A salt path' m hm]
  exact dig_same srt srt' _ _ (fun c r c' r' h1 h2 => by simp only [hashLeaf, h2]) n path path' m h

/-! ### The size -/

theorem foldl_size (l : List UInt64) (a : UInt64) :
    (l.foldl (· + ·) a).toNat = (a.toNat + (l.map UInt64.toNat).sum) % 2 ^ 64 := by
  induction l generalizing a with
  | nil => simp [Nat.mod_eq_of_lt a.toNat_lt]
  | cons x l ih => rw [List.foldl_cons, ih, UInt64.toNat_add]; simp; omega

section size
variable (leaf : Bytes → Nat → Bytes) (comb : List Bytes → UInt64 → Bytes)

mutual
theorem gen_size (path : Path) (n : Node) (t : FTree) (h : gen srt leaf comb path n = some t) :
    t.val.size.toNat = n.bytes % 2 ^ 64 := by
  cases n with
  | file o c r =>
    simp only [gen] at h
    split_ifs at h
    cases h
    simp [Verif.Tree.Tree.val, Node.bytes]
  | dir st es =>
    cases st with
    | openFails => simp [gen] at h
    | listFails => simp [gen] at h
    | ok =>
      simp only [gen] at h
      cases hg : genE srt leaf comb path es with
      | none => rw [hg] at h; cases h
      | some l =>
        rw [hg] at h
        cases h
        have := genE_size path es l hg
        change (sizes (srt.sort l)).toNat = es.bytes % 2 ^ 64
        rw [sizes_eq, foldl_size, ← this]
        have hp := (((srt.perm l).map fun c => c.val.size).map UInt64.toNat).sum_nat
        rw [hp]
        simp
theorem genE_size (path : Path) (es : Entries) (l : List FTree) (h : genE srt leaf comb path es = some l) :
    ((l.map fun c => c.val.size).map UInt64.toNat).sum % 2 ^ 64 = es.bytes % 2 ^ 64 := by
  cases es with
  | nil => simp [genE] at h; subst h; rfl
  | cons name n rest =>
    simp only [genE] at h
    cases h1 : gen srt leaf comb (path ++ [name]) n with
    | none => rw [h1] at h; cases h
    | some t =>
      cases h2 : genE srt leaf comb path rest with
      | none => rw [h1, h2] at h; cases h
      | some ts =>
        rw [h1, h2] at h
        cases h
        have a := gen_size (path ++ [name]) n t h1
        have b := genE_size path rest ts h2
        simp only [List.map_cons, List.sum_cons, Entries.bytes]
        omega
end

mutual
theorem gen_some (path : Path) (n : Node) : (gen srt leaf comb path n).isSome = n.opens := by
  cases n with
  | file o c r => cases o <;> simp [gen, Node.opens]
  | dir st es =>
    cases st with
    | openFails => simp [gen, Node.opens]
    | listFails => simp [gen, Node.opens]
    | ok =>
      have := genE_some path es
      simp only [gen, Node.opens, decide_true, Bool.true_and, ← this]
      cases genE srt leaf comb path es <;> rfl
theorem genE_some (path : Path) (es : Entries) : (genE srt leaf comb path es).isSome = es.opens := by
  cases es with
  | nil => rfl
  | cons name n rest =>
    simp only [genE, Entries.opens, ← gen_some (path ++ [name]) n, ← genE_some path rest]
    cases gen srt leaf comb (path ++ [name]) n <;> cases genE srt leaf comb path rest <;> rfl
end
end size

/-- **C60 (total size).** The size of a fingerprinted tree is the number of bytes in all its files, modulo 2^64. -/
theorem C60_size (n : Node) (hn : n.Ok) (path : Path) (t : FTree)
    (h : fingerprint M S C srt path n = some t) : t.val.size.toNat = n.bytes % 2 ^ 64 := by
  rw [fingerprint_gen M S C srt path n hn] at h
  exact gen_size srt _ _ path n t h

/-- **C60 (total size, hash).** The same for `Hash`. -/
theorem C60_size_hash (A : Alg) (salt : Bytes) (n : Node) (hn : n.Ok) (path : Path) (t : FTree)
    (h : hash srt A salt path n = some t) : t.val.size.toNat = n.bytes % 2 ^ 64 := by
  rw [hash_gen srt A salt path n hn] at h
  exact gen_size srt _ _ path n t h

/-- Two trees with other names and another order. -/
def demo2 : Node :=
  .dir .ok (.cons "x" (.dir .ok (.cons "q" (.dir .ok .nil) (.cons "p" (.file true [2] 5) .nil)))
    (.cons "z" (.file true [1] 9) .nil))

example : demo.Ok ∧ demo2.Ok ∧ Same demo demo2 ∧ demo.bytes = 2 := by
  refine ⟨by simp [demo, Node.Ok, Entries.Ok, Entries.toList], by simp [demo2, Node.Ok, Entries.Ok, Entries.toList], ?_, rfl⟩
  simp only [demo, demo2, Same, Matches]
  refine ⟨_, rfl, [.dir .ok _], _, [], rfl, ⟨_, _, rfl, rfl, rfl⟩, [], _, [], rfl, ⟨_, rfl, ?_⟩, rfl⟩
  exact ⟨[.dir .ok .nil], _, [], rfl, ⟨_, _, rfl, rfl, rfl⟩, [], _, [], rfl, ⟨_, rfl, rfl⟩, rfl⟩

/-- A sorting function with the contract. -/
def demoSorter : Sorter where
  sort l := l.mergeSort fun a b => !nodeLess FileHash.less b a
  perm l := List.mergeSort_perm l _
  sorted l := by
    have w := C13_fileHash_strictWeak
    refine (List.pairwise_mergeSort (le := fun a b => !nodeLess FileHash.less b a) ?_ ?_ l).imp ?_
    · intro a b c h1 h2
      simp only [Bool.not_eq_true', nodeLess] at *
      cases h : FileHash.less c.val a.val with
      | false => rfl
      | true =>
        rcases w.negTrans _ b.val _ h with h' | h'
        · rw [h2] at h'; cases h'
        · rw [h1] at h'; cases h'
    · intro a b
      simp only [nodeLess, Bool.or_eq_true, Bool.not_eq_true']
      cases h : FileHash.less b.val a.val with
      | false => exact .inl rfl
      | true => exact .inr (w.asymm h)
    · intro a b h
      simpa using h

example : Sizes (toyAlg 16) (toyAlg 20) (toyAlg 8) ∧ (List.replicate 51 (7 : UInt8)).length = 51 ∧
    (fingerprint (toyAlg 16) (toyAlg 20) (toyAlg 8) demoSorter ["r"] demo).isSome = true := by
  refine ⟨⟨rfl, rfl, rfl⟩, rfl, ?_⟩
  rw [fingerprint_gen _ _ _ _ _ _ (by simp [demo, Node.Ok, Entries.Ok, Entries.toList]), gen_some]
  decide

/-! ## C78: errors -/

/-- **C78 (what holds).** `Fingerprint` gives an error exactly if some directory cannot be opened or listed or some file
cannot be opened.  Missing: errors while reading, for which it is false. -/
theorem C78_fingerprint_error_partial (n : Node) (hn : n.Ok) (path : Path) :
    fingerprint M S C srt path n = none ↔ n.opens = false := by
  have := gen_some srt (fpLeaf M S C) (fpComb M S C) path n
  rw [← fingerprint_gen M S C srt path n hn] at this
  rw [← this]
  cases fingerprint M S C srt path n <;> simp

/-- **C78 (what holds, hash).** The same for `Hash`. -/
theorem C78_hash_error_partial (A : Alg) (salt : Bytes) (n : Node) (hn : n.Ok) (path : Path) :
    hash srt A salt path n = none ↔ n.opens = false := by
  have := gen_some srt (hashLeaf A salt) (hashComb A salt) path n
  rw [← hash_gen srt A salt path n hn] at this
  rw [← this]
  cases hash srt A salt path n <;> simp

/-- **C78 is false of the code for reading errors.** A file whose reading fails after `r` bytes gets, without any error, the
same hash by any method as a file that has only these bytes (and a fingerprint with the hash sums of these bytes). -/
theorem C78_read_error_dropped (A : Alg) (salt : Bytes) (path : Path) (c : Bytes) (r : Nat) :
    ∃ t t', hash srt A salt path (.file true c r) = some t ∧ hash srt A salt path (.file true (c.take r) r) = some t' ∧
      t.val.hash = t'.val.hash := by
  refine ⟨.node ⟨_, _, _, _⟩ [], .node ⟨_, _, _, _⟩ [], by rw [hash, if_pos rfl], by rw [hash, if_pos rfl], ?_⟩
  simp only [Verif.Tree.Tree.val, List.take_take, Nat.min_self]

/-! ## C77: what the fingerprint tells apart -/

/-- **C77 is false of the code.** For every file content of 51 bytes (the length of a fingerprint text), the directory
with this file alone and the file whose content is the text of its fingerprint have the same fingerprint and size, for
all hash functions with the sizes of md5, sha1 and crc64: no collision of theirs is needed. -/
theorem C77_structure_false (hs : Sizes M S C) (c : Bytes) (hc : c.length = 51) (name : String) (hn : name ≠ "." ∧ name ≠ "..")
    (path : Path) : ∃ d t f : FTree,
      fingerprint M S C srt (path ++ [name]) (.file true c c.length) = some f ∧ f.val.hash.length = 51 ∧
      fingerprint M S C srt path (.dir .ok (.cons name (.file true c c.length) .nil)) = some d ∧
      fingerprint M S C srt path (.file true f.val.hash 51) = some t ∧
      d.val.hash = t.val.hash ∧ d.val.size = t.val.size := by
  have hl : ∀ f : FP M S C, (textBytes f.string).length = 51 := by
    intro f
    have l0 : (f.sum []).length = 24 := by
      simp only [FP.sum, List.length_append, bigEndian6_eq, bigEndian_length]
      rw [slice_length _ _ _ (by rw [M.sum_length, hs.1]; decide), slice_length _ _ _ (by rw [S.sum_length, hs.2.1]; decide),
        slice_length _ _ _ (by rw [C.sum_length, hs.2.2]; decide)]
    have fl : ∀ l : Bytes, (l.flatMap Spec.hexByte).length = 2 * l.length := by
      intro l
      induction l with
      | nil => rfl
      | cons x l ih => rw [List.flatMap_cons, List.length_append, ih]; simp [Spec.hexByte]; omega
    rw [textBytes, List.length_map, C52_text hs f []]
    simp only [List.length_append, fl, List.length_take, List.length_drop, l0, List.length_singleton]
    decide
  have s1 : ∀ t : FTree, srt.sort [t] = [t] := fun t => List.perm_singleton.1 (srt.perm [t])
  rw [fingerprint_gen _ _ _ _ _ _ (by simp [Node.Ok]), fingerprint_gen _ _ _ _ _ _ (by simp [Node.Ok, Entries.Ok, hn, Entries.toList])]
  refine ⟨.node ⟨_, _, _, _⟩ [_], .node ⟨_, _, _, _⟩ [], .node ⟨_, _, _, _⟩ [], by rw [gen, if_pos rfl], ?_,
    by simp only [gen, genE, if_true, s1]; rfl, by rw [fingerprint, if_pos rfl], ?_, ?_⟩
  · exact hl _
  · have hll := hl (((FP.new : FP M S C).write (c.take c.length)).1.resetsize (UInt64.ofNat c.length).toBitVec)
    simp only [Verif.Tree.Tree.val, fpComb, fpLeaf, List.map_cons, List.map_nil, List.foldl_cons, List.foldl_nil, sizes] at *
    rw [List.take_of_length_le (i := 51) (by rw [hll]), hll, hc]
    simp
  · have hll := hl (((FP.new : FP M S C).write (c.take c.length)).1.resetsize (UInt64.ofNat c.length).toBitVec)
    simp only [Verif.Tree.Tree.val, fpLeaf, List.map_cons, List.map_nil, List.foldl_cons, List.foldl_nil, sizes] at *
    rw [hll, hc]
    simp

/-- **C77 (empty).** An empty directory and an empty file have the same fingerprint and size. -/
theorem C77_empty_false (path : Path) (r : Nat) : ∃ d t : FTree,
    fingerprint M S C srt path (.dir .ok .nil) = some d ∧ fingerprint M S C srt path (.file true [] r) = some t ∧
    d.val.hash = t.val.hash ∧ d.val.size = t.val.size := by
  have s0 : srt.sort [] = [] := List.perm_nil.1 (srt.perm [])
  rw [fingerprint_gen _ _ _ _ _ _ (by simp [Node.Ok, Entries.Ok])]
  refine ⟨.node ⟨_, _, _, _⟩ [], .node ⟨_, _, _, _⟩ [], by simp only [gen, genE, s0]; rfl, by rw [fingerprint, if_pos rfl], ?_, ?_⟩
  · simp [Verif.Tree.Tree.val, fpComb, sizes, FP.write, M.write_nil, S.write_nil, C.write_nil, FP.new]
  · simp [Verif.Tree.Tree.val, sizes]

theorem hexPad_inj (k n m : Nat) (h : textBytes (hexPad k n) = textBytes (hexPad k m)) : n % 16 ^ k = m % 16 ^ k := by
  have dig : ∀ a b : Fin 16, UInt8.ofNat (hexDigit a.1).toNat = UInt8.ofNat (hexDigit b.1).toNat → a = b := by
    decide +kernel
  induction k generalizing n m with
  | zero => simp [Nat.mod_one]
  | succ k ih =>
    simp only [hexPad, textBytes, List.map_append, List.map_cons, List.map_nil] at h
    obtain ⟨h1, h2⟩ := List.append_inj' h rfl
    have e := dig ⟨n % 16, by omega⟩ ⟨m % 16, by omega⟩ (by simpa using h2)
    have e : n % 16 = m % 16 := congrArg Fin.val e
    have := ih _ _ h1
    rw [Nat.pow_succ, Nat.mul_comm, Nat.mod_mul, Nat.mod_mul, e, this]

theorem hexPad_length (k n : Nat) : (hexPad k n).length = k := by
  induction k generalizing n with
  | zero => rfl
  | succ k ih => simp [hexPad, ih]

theorem string_size (f : FP M S C) : (textBytes f.string).take 12 = textBytes (hexPad 12 (f.size.toNat % 2 ^ 48)) := by
  have hs : (f.size &&& 0xFFFFFFFFFFFF#64).toNat = f.size.toNat % 2 ^ 48 := by
    rw [BitVec.toNat_and, show (0xFFFFFFFFFFFF#64).toNat = 2 ^ 48 - 1 by rfl, Nat.and_two_pow_sub_one_eq_mod]
  have e12 : hex12 (f.size.toNat % 2 ^ 48) = hexPad 12 (f.size.toNat % 2 ^ 48) := by
    rw [hex12, hexNat]
    exact (toDigits_pad 11 _ (by omega)).2
  have l : (textBytes (hexPad 12 (f.size.toNat % 2 ^ 48))).length = 12 := by rw [textBytes, List.length_map, hexPad_length]
  simp only [FP.string, hs, e12]
  simp only [textBytes, List.map_append, List.append_assoc] at *
  exact List.take_left' l

/-- **C77 (partial).** Trees whose numbers of bytes differ (modulo 2^48) never have the same fingerprint, whatever the
hash functions do.  Missing: the kind of the nodes, see `C77_structure_false`. -/
theorem C77_size_partial (n m : Node) (hn : n.Ok) (hm : m.Ok) (path path' : Path) (t t' : FTree)
    (h : fingerprint M S C srt path n = some t) (h' : fingerprint M S C srt' path' m = some t')
    (e : t.val.hash = t'.val.hash) : n.bytes % 2 ^ 48 = m.bytes % 2 ^ 48 := by
  have key : ∀ (srt : Sorter) (n : Node) (path : Path) (t : FTree),
      gen srt (fpLeaf M S C) (fpComb M S C) path n = some t →
      ∃ f : FP M S C, t.val.hash = textBytes f.string ∧ f.size = t.val.size.toBitVec := by
    intro srt n path t h
    cases n with
    | file o c r =>
      simp only [gen] at h
      split_ifs at h
      cases h
      exact ⟨_, rfl, rfl⟩
    | dir st es =>
      cases st with
      | openFails => simp [gen] at h
      | listFails => simp [gen] at h
      | ok =>
        simp only [gen] at h
        cases hg : genE srt (fpLeaf M S C) (fpComb M S C) path es with
        | none => rw [hg] at h; cases h
        | some l =>
          rw [hg] at h
          cases h
          exact ⟨_, rfl, rfl⟩
  have z := C60_size M S C srt n hn path t h
  have z' := C60_size M S C srt' m hm path' t' h'
  rw [fingerprint_gen _ _ _ _ _ _ hn] at h
  rw [fingerprint_gen _ _ _ _ _ _ hm] at h'
  obtain ⟨f, e1, e2⟩ := key srt n path t h
  obtain ⟨f', e1', e2'⟩ := key srt' m path' t' h'
  have := congrArg (List.take 12) e
  rw [e1, e1', string_size, string_size, e2, e2'] at this
  have := hexPad_inj 12 _ _ this
  have a : t.val.size.toBitVec.toNat = n.bytes % 2 ^ 64 := z
  have b : t'.val.size.toBitVec.toNat = m.bytes % 2 ^ 64 := z'
  rw [a, b] at this
  omega

/-! ## C79: statistics -/

mutual
/-- The listable directories, the files and the directories that cannot be listed. -/
def Node.counts : Node → Nat × Nat × Nat
  | .file _ _ _ => (0, 1, 0)
  | .dir .openFails _ => (0, 0, 1)
  | .dir .listFails _ => (0, 0, 1)
  | .dir .ok es => (es.counts.1 + 1, es.counts.2.1, es.counts.2.2)
def Entries.counts : Entries → Nat × Nat × Nat
  | .nil => (0, 0, 0)
  | .cons _ n rest => (n.counts.1 + rest.counts.1, n.counts.2.1 + rest.counts.2.1, n.counts.2.2 + rest.counts.2.2)
end

mutual
/-- The bytes of the files that are reached. -/
def Node.seen : Node → Nat
  | .file _ c _ => c.length
  | .dir .openFails _ => 0
  | .dir .listFails _ => 0
  | .dir .ok es => es.seen
def Entries.seen : Entries → Nat
  | .nil => 0
  | .cons _ n rest => n.seen + rest.seen
end

mutual
theorem statistic_eq (early : Bool) (s : Stat) (n : Node) : statistic early s n =
    ⟨s.nDir + n.counts.1 + (if early then n.counts.2.2 else 0), s.nFile + n.counts.2.1,
      s.size + UInt64.ofNat n.seen, s.nErr + n.counts.2.2⟩ := by
  cases n with
  | file o c r => simp [statistic, Node.counts, Node.seen]
  | dir st es =>
    cases st with
    | openFails => cases early <;> simp [statistic, Node.counts, Node.seen]
    | listFails => cases early <;> simp [statistic, Node.counts, Node.seen]
    | ok =>
      simp only [statistic, Node.counts, Node.seen, statEntries_eq early _ es]
      congr 1
      omega
theorem statEntries_eq (early : Bool) (s : Stat) (es : Entries) : statEntries early s es =
    ⟨s.nDir + es.counts.1 + (if early then es.counts.2.2 else 0), s.nFile + es.counts.2.1,
      s.size + UInt64.ofNat es.seen, s.nErr + es.counts.2.2⟩ := by
  cases es with
  | nil => cases early <;> simp [statEntries, Entries.counts, Entries.seen]
  | cons name n rest =>
    simp only [statEntries, Entries.counts, Entries.seen, statistic_eq early s n, statEntries_eq early _ rest]
    simp only [Stat.mk.injEq, UInt64.ofNat_add]
    refine ⟨by cases early <;> simp <;> omega, by omega, ?_, by omega⟩
    rw [UInt64.add_assoc]
end

/-- **C79.** `Statistic` counts every directory (the root included) and every file that can be reached, adds up the sizes
of these files modulo 2^64, and reports one error for every directory that cannot be listed.  Whether such a directory
is counted depends on the version of the Go library (`early`). -/
theorem C79_statistic (early : Bool) (n : Node) : statistic early ⟨0, 0, 0, 0⟩ n =
    ⟨n.counts.1 + (if early then n.counts.2.2 else 0), n.counts.2.1, UInt64.ofNat n.seen, n.counts.2.2⟩ := by
  rw [statistic_eq]; simp

/-- **C79 (agreement).** For a tree that can be fingerprinted, `Statistic` and `Fingerprint` report the same size, and no
error. -/
theorem C79_agrees (early : Bool) (n : Node) (hn : n.Ok) (path : Path) (t : FTree)
    (h : fingerprint M S C srt path n = some t) :
    (statistic early ⟨0, 0, 0, 0⟩ n).size = t.val.size ∧ (statistic early ⟨0, 0, 0, 0⟩ n).nErr = 0 := by
  have ho : n.opens = true := by
    cases h' : n.opens with
    | true => rfl
    | false => rw [(C78_fingerprint_error_partial M S C srt n hn path).2 h'] at h; cases h
  have key : n.opens = true → n.seen = n.bytes ∧ n.counts.2.2 = 0 := by
    refine Node.rec (motive_1 := fun n => n.opens = true → n.seen = n.bytes ∧ n.counts.2.2 = 0)
      (motive_2 := fun es => es.opens = true → es.seen = es.bytes ∧ es.counts.2.2 = 0) ?_ ?_ ?_ ?_ n
    · intro o c r _; simp [Node.seen, Node.bytes, Node.counts]
    · intro st es ih h
      simp only [Node.opens, Bool.and_eq_true, decide_eq_true_eq] at h
      obtain ⟨rfl, h⟩ := h
      simpa [Node.seen, Node.bytes, Node.counts] using ih h
    · intro _; simp [Entries.seen, Entries.bytes, Entries.counts]
    · intro name n rest ih1 ih2 h
      simp only [Entries.opens, Bool.and_eq_true] at h
      have a := ih1 h.1
      have b := ih2 h.2
      simp only [Entries.seen, Entries.bytes, Entries.counts]
      omega
  obtain ⟨k1, k2⟩ := key ho
  rw [C79_statistic]
  refine ⟨UInt64.toNat_inj.1 ?_, k2⟩
  rw [C60_size M S C srt n hn path t h, k1]
  simp

example : demo.opens = true ∧ ∀ early, statistic early ⟨0, 0, 0, 0⟩ demo = ⟨3, 2, 2, 0⟩ := by decide

/-! The theorems on `demo` and `demo2` with toy hashes. -/

theorem demo_same : demo.Ok ∧ demo2.Ok ∧ Same demo demo2 := by
  refine ⟨by simp [demo, Node.Ok, Entries.Ok, Entries.toList], by simp [demo2, Node.Ok, Entries.Ok, Entries.toList], ?_⟩
  simp only [demo, demo2, Same, Matches]
  refine ⟨_, rfl, [.dir .ok _], _, [], rfl, ⟨_, _, rfl, rfl, rfl⟩, [], _, [], rfl, ⟨_, rfl, ?_⟩, rfl⟩
  exact ⟨[.dir .ok .nil], _, [], rfl, ⟨_, _, rfl, rfl, rfl⟩, [], _, [], rfl, ⟨_, rfl, rfl⟩, rfl⟩

example := C60_fingerprint (toyAlg 16) (toyAlg 20) (toyAlg 8) demoSorter demoSorter _ _ demo_same.1 demo_same.2.1 demo_same.2.2 ["r"] ["s"]
example := C60_hash demoSorter demoSorter (toyAlg 4) [9] _ _ demo_same.1 demo_same.2.1 demo_same.2.2 ["r"] ["s"]
example : ∃ t, fingerprint (toyAlg 16) (toyAlg 20) (toyAlg 8) demoSorter ["r"] demo = some t ∧ t.val.size.toNat = 2 := by
  rcases h : fingerprint (toyAlg 16) (toyAlg 20) (toyAlg 8) demoSorter ["r"] demo with _ | t
  · have := (C78_fingerprint_error_partial (toyAlg 16) (toyAlg 20) (toyAlg 8) demoSorter demo demo_same.1 ["r"]).1 h
    exact absurd this (by decide)
  · exact ⟨t, rfl, C60_size _ _ _ _ demo demo_same.1 _ t h⟩
/-- C78 on a directory with a file that cannot be opened. -/
example : hash demoSorter (toyAlg 4) [9] ["r"] (.dir .ok (.cons "a" (.file false [1] 1) .nil)) = none :=
  (C78_hash_error_partial demoSorter (toyAlg 4) [9] _ (by simp [Node.Ok, Entries.Ok, Entries.toList]) ["r"]).2 (by decide)
example := C77_structure_false (toyAlg 16) (toyAlg 20) (toyAlg 8) demoSorter ⟨rfl, rfl, rfl⟩ (List.replicate 51 7) rfl "a" (by decide) ["r"]
/-- C77_size_partial: the two trees have the same fingerprint, hence the same size. -/
example : demo.bytes % 2 ^ 48 = demo2.bytes % 2 ^ 48 := by
  have e := C60_fingerprint (toyAlg 16) (toyAlg 20) (toyAlg 8) demoSorter demoSorter _ _ demo_same.1 demo_same.2.1 demo_same.2.2 ["r"] ["s"]
  rcases h : fingerprint (toyAlg 16) (toyAlg 20) (toyAlg 8) demoSorter ["r"] demo with _ | t
  · have := (C78_fingerprint_error_partial (toyAlg 16) (toyAlg 20) (toyAlg 8) demoSorter demo demo_same.1 ["r"]).1 h
    exact absurd this (by decide)
  · rcases h' : fingerprint (toyAlg 16) (toyAlg 20) (toyAlg 8) demoSorter ["s"] demo2 with _ | t'
    · rw [h, h'] at e; cases e
    · rw [h, h'] at e
      have e' : digest t = digest t' := Option.some.inj e
      exact C77_size_partial _ _ _ _ _ demo demo2 demo_same.1 demo_same.2.1 _ _ t t' h h' (congrArg Prod.fst e')

end Verif.Fs
