import Verif.Model.FsNone
import Verif.Props.FsHash
/-!
# Hashing a directory tree with the methods `NONE` and `FINGERPRINT` (C114)
-/
set_option linter.unusedSectionVars false

namespace Verif.Fs
open Verif.FileHash Verif.Hash Verif.Tree

variable (M S C : Alg) (srt : Sorter)

/-! ## NONE -/

mutual
/-- The number of files and directories. -/
def Node.count : Node → Nat
  | .file _ _ _ => 1
  | .dir _ es => es.count + 1
def Entries.count : Entries → Nat
  | .nil => 0
  | .cons _ n rest => n.count + rest.count
end

/-- The text of the number `n`: eight hexadecimal digits. -/
def idText (n : Nat) : Bytes := textBytes (hexPad 8 (n % 2 ^ 32))

theorem idText_eq (g : BitVec 32) : textBytes (hexBytes (noneSum g)) = idText g.toNat := by
  rw [noneSum_eq, ← hexPad_bytes, idText, Nat.mod_eq_of_lt g.isLt]

/-- The texts of the `k` numbers behind `g`. -/
def ids (g k : Nat) : List Bytes := (List.range k).map fun i => idText (g + 1 + i)

theorem ids_succ (g k : Nat) : ids g (k + 1) = idText (g + 1) :: ids (g + 1) k := by
  simp only [ids, List.range_succ_eq_map, List.map_cons, List.map_map, Nat.add_zero]
  congr 1
  apply List.map_congr_left
  intro i _
  simp only [Function.comp_apply]
  congr 1
  omega

theorem ids_add (g j k : Nat) : ids g (j + k) = ids g j ++ ids (g + j) k := by
  simp only [ids, List.range_add, List.map_append, List.map_map]
  congr 1
  apply List.map_congr_left
  intro i _
  simp only [Function.comp_apply]
  congr 1
  omega

theorem idText_mod (n : Nat) : idText (n % 2 ^ 32) = idText n := by simp [idText]

theorem ids_mod (g k : Nat) : ids (g % 2 ^ 32) k = ids g k := by
  simp only [ids]
  apply List.map_congr_left
  intro i _
  rw [idText, idText]
  congr 2
  omega

theorem allList_flatMap (cs : List FTree) : allList cs = cs.flatMap all := by
  induction cs with
  | nil => rfl
  | cons c cs ih => simp [allList, ih]

/-- The hashes of a tree. -/
def hashes (t : FTree) : List Bytes := (all t).map FileHash.hash

mutual
theorem hashNone_spec (g : BitVec 32) (path : Path) (n : Node) (h : n.Ok) :
    ∃ o g', hashNone srt g path n = (o, g') ∧
      (n.opens = false → o = none) ∧
      (n.opens = true → ∃ t, o = some t ∧ g' = g + BitVec.ofNat 32 n.count ∧
        (hashes t).Perm (ids g.toNat n.count) ∧ t.val.hash = idText (g.toNat + 1) ∧
        t.val.size.toNat = n.bytes % 2 ^ 64 ∧ t.val.isDir = n.isDir ∧ t.val.path = pathBytes path) := by
  cases n with
  | file o c r =>
    cases o
    · exact ⟨none, g, by simp [hashNone], by simp, by simp [Node.opens]⟩
    · refine ⟨_, _, by simp only [hashNone, if_true]; rfl, by simp [Node.opens], fun _ => ⟨_, rfl, rfl, ?_, ?_, ?_, rfl, rfl⟩⟩
      · simp [hashes, all, allList, idText_eq, Node.count, ids, BitVec.toNat_add]
        exact idText_mod _
      · rw [Verif.Tree.Tree.val, idText_eq, BitVec.toNat_add]
        exact idText_mod _
      · simp [Verif.Tree.Tree.val, Node.bytes]
  | dir st es =>
    cases st with
    | openFails => exact ⟨none, g, by simp [hashNone], by simp, by simp [Node.opens]⟩
    | listFails => exact ⟨none, g + 1, by simp [hashNone], by simp, by simp [Node.opens]⟩
    | ok =>
      obtain ⟨o, g', e, h1, h2⟩ := noneChildren_spec (g + 1) path [] es h
      cases hb : es.opens with
      | false =>
        rw [h1 hb] at e
        exact ⟨none, g', by simp only [hashNone, e], by simp, by simp [Node.opens, hb]⟩
      | true =>
        obtain ⟨cs, rfl, rfl, hp, hs⟩ := h2 hb
        refine ⟨_, _, by simp only [hashNone, e, List.nil_append]; rfl, by simp [Node.opens, hb], fun _ =>
          ⟨_, rfl, ?_, ?_, ?_, ?_, rfl, rfl⟩⟩
        · rw [Node.count, Nat.add_comm, BitVec.ofNat_add, ← BitVec.add_assoc]; rfl
        · simp only [hashes, all, List.cons_append, List.nil_append, List.map_cons, Node.count]
          rw [ids_succ, idText_eq, BitVec.toNat_add]
          refine List.Perm.trans ?_ (List.Perm.of_eq (congrArg _ (ids_mod _ _)))
          rw [show g.toNat + 1 = g.toNat + (1 : BitVec 32).toNat from rfl, idText_mod, ← BitVec.toNat_add]
          refine List.Perm.cons _ (List.Perm.trans (List.Perm.map _ ?_) hp)
          rw [allList_flatMap, allList_flatMap]
          exact (srt.perm cs).flatMap_right _
        · rw [Verif.Tree.Tree.val, idText_eq, BitVec.toNat_add]
          exact idText_mod _
        · change (sizes (srt.sort cs)).toNat = es.bytes % 2 ^ 64
          rw [sizes_eq, foldl_size, ← hs, (((srt.perm cs).map fun c => c.val.size).map UInt64.toNat).sum_nat]
          simp
theorem noneChildren_spec (g : BitVec 32) (path : Path) (acc : List FTree) (es : Entries) (h : es.Ok) :
    ∃ o g', noneChildren srt g path acc es = (o, g') ∧
      (es.opens = false → o = none) ∧
      (es.opens = true → ∃ cs, o = some (acc ++ cs) ∧ g' = g + BitVec.ofNat 32 es.count ∧
        ((allList cs).map FileHash.hash).Perm (ids g.toNat es.count) ∧
        ((cs.map fun c => c.val.size).map UInt64.toNat).sum % 2 ^ 64 = es.bytes % 2 ^ 64) := by
  cases es with
  | nil => exact ⟨_, _, rfl, by simp [Entries.opens], fun _ => ⟨[], by simp, by simp [Entries.count], by simp [allList, Entries.count, ids], rfl⟩⟩
  | cons name n rest =>
    obtain ⟨a1, a2, -, a4, a5⟩ := h
    obtain ⟨o, g', e, h1, h2⟩ := hashNone_spec g (path ++ [name]) n a4
    simp only [noneChildren, if_pos (show name ≠ "." ∧ name ≠ ".." from ⟨a1, a2⟩), e]
    cases hb : n.opens with
    | false =>
      rw [h1 hb]
      exact ⟨none, g', rfl, by simp, by simp [Entries.opens, hb]⟩
    | true =>
      obtain ⟨t, rfl, rfl, hp, -, hs, -⟩ := h2 hb
      simp only [insert_end]
      obtain ⟨o, g', e, k1, k2⟩ := noneChildren_spec (g + BitVec.ofNat 32 n.count) path (acc ++ [t]) rest a5
      refine ⟨o, g', e, by simpa [Entries.opens, hb] using k1, fun hr => ?_⟩
      obtain ⟨cs, rfl, rfl, kp, ks⟩ := k2 (by simpa [Entries.opens, hb] using hr)
      refine ⟨t :: cs, by simp, ?_, ?_, ?_⟩
      · rw [Entries.count, BitVec.ofNat_add, BitVec.add_assoc]
      · rw [allList, List.map_append, Entries.count, ids_add]
        refine hp.append (kp.trans (List.Perm.of_eq ?_))
        rw [BitVec.toNat_add, ids_mod, BitVec.toNat_ofNat, ← ids_mod, Nat.add_mod_mod, ids_mod]
      · simp only [List.map_cons, List.sum_cons, Entries.bytes]
        omega
end

theorem ids_nodup (g k : Nat) (h : k ≤ 2 ^ 32) : (ids g k).Nodup := by
  refine List.Nodup.map_on ?_ List.nodup_range
  intro i hi j hj e
  rw [List.mem_range] at hi hj
  have := hexPad_inj 8 _ _ e
  omega

/-- **C114 (NONE).** `Hash(NONE, salt)` of a tree with `k` files and directories, all of which can be opened, gives the
files and directories the `k` numbers behind the counter, each one once, the root the first of them; so the hashes say
nothing about the contents.  The size is the number of bytes in all files modulo 2^64, and the counter goes up by `k`. -/
theorem C114_none (g : BitVec 32) (path : Path) (n : Node) (hn : n.Ok) (ho : n.opens = true) :
    ∃ t, hashNone srt g path n = (some t, g + BitVec.ofNat 32 n.count) ∧
      (hashes t).Perm ((List.range n.count).map fun i => idText (g.toNat + 1 + i)) ∧
      t.val.hash = idText (g.toNat + 1) ∧ t.val.size.toNat = n.bytes % 2 ^ 64 ∧ t.val.isDir = n.isDir := by
  obtain ⟨o, g', e, -, h⟩ := hashNone_spec srt g path n hn
  obtain ⟨t, rfl, rfl, hp, hh, hs, hd, -⟩ := h ho
  exact ⟨t, e, hp, hh, hs, hd⟩

/-- **C114 (NONE, no two equal).** No two files or directories of one tree have the same hash, up to 2^32 of them. -/
theorem C114_none_distinct (g : BitVec 32) (path : Path) (n : Node) (hn : n.Ok) (hk : n.count ≤ 2 ^ 32) (t : FTree)
    (h : (hashNone srt g path n).1 = some t) : (hashes t).Nodup := by
  obtain ⟨o, g', e, h1, h2⟩ := hashNone_spec srt g path n hn
  rw [e] at h
  cases hb : n.opens with
  | false => rw [h1 hb] at h; cases h
  | true =>
    obtain ⟨t', rfl, -, hp, -⟩ := h2 hb
    cases h
    exact hp.nodup_iff.2 (ids_nodup _ _ hk)

/-- **C114 (NONE, errors).** An error exactly if something cannot be opened or listed. -/
theorem C114_none_error (g : BitVec 32) (path : Path) (n : Node) (hn : n.Ok) :
    (hashNone srt g path n).1 = none ↔ n.opens = false := by
  obtain ⟨o, g', e, h1, h2⟩ := hashNone_spec srt g path n hn
  rw [e]
  refine ⟨fun h => ?_, h1⟩
  cases hb : n.opens with
  | false => rfl
  | true =>
    obtain ⟨t', rfl, -⟩ := h2 hb
    cases h

/-- **C114 (NONE, not repeatable).** Hashing the same tree again gives another hash, unless it has a multiple of 2^32
files and directories. -/
theorem C114_none_again (g : BitVec 32) (path : Path) (n : Node) (hn : n.Ok) (hk : n.count % 2 ^ 32 ≠ 0) (t t' : FTree)
    (g' : BitVec 32) (h : hashNone srt g path n = (some t, g')) (h' : (hashNone srt g' path n).1 = some t') :
    t.val.hash ≠ t'.val.hash := by
  have ho : n.opens = true := by
    cases hb : n.opens with
    | true => rfl
    | false => have := (C114_none_error srt g path n hn).2 hb; rw [h] at this; cases this
  obtain ⟨s, e, -, hs, -⟩ := C114_none srt g path n hn ho
  rw [h] at e
  cases e
  obtain ⟨s', e', -, hs', -⟩ := C114_none srt (g + BitVec.ofNat 32 n.count) path n hn ho
  rw [e'] at h'
  cases h'
  rw [hs, hs']
  intro he
  have := hexPad_inj 8 _ _ he
  rw [BitVec.toNat_add, BitVec.toNat_ofNat] at this
  omega

example : demo.Ok ∧ demo.opens = true ∧ demo.count = 5 := by
  refine ⟨?_, by decide, by decide⟩
  simp [demo, Node.Ok, Entries.Ok, Entries.toList]

/-! ## FINGERPRINT -/

variable {M S C}

/-- The fingerprint as a hash function with the contract of `hash.Hash`, so everything proved of `hash` (C60, C78)
holds for the method `FINGERPRINT`. -/
def fpAlg (h : Sizes M S C) : Alg where
  State := FP M S C
  init := FP.new
  write f p := (f.write p).1
  sum f := f.sum []
  size := 24
  write_nil f := by simp [FP.write, M.write_nil, S.write_nil, C.write_nil]
  write_append f a b := by
    simp only [FP.write, M.write_append, S.write_append, C.write_append, List.length_append, BitVec.ofNat_add,
      BitVec.add_assoc]
  sum_length f := by
    obtain ⟨h1, h2, h3⟩ := h
    simp only [FP.sum, List.length_append, bigEndian6_eq, bigEndian_length]
    rw [slice_length _ _ _ (by rw [M.sum_length, h1]; decide), slice_length _ _ _ (by rw [S.sum_length, h2]; decide),
      slice_length _ _ _ (by rw [C.sum_length, h3]; decide)]

/-- What is written before the content. -/
theorem salted_writes (h : Sizes M S C) (salt : Bytes) (ps : List Bytes) :
    ps.foldl (fpAlg h).write (if salt ≠ [] then (fpAlg h).write (fpAlg h).init salt else (fpAlg h).init) =
      (FP.new : FP M S C).writes (salt :: ps) := by
  have : (if salt ≠ [] then (fpAlg h).write (fpAlg h).init salt else (fpAlg h).init) =
      ((FP.new : FP M S C).write salt).1 := by
    split_ifs with e
    · rfl
    · rw [not_not] at e
      subst e
      exact ((fpAlg h).write_nil _).symm
  rw [this]
  rfl

theorem sum_head (h : Sizes M S C) (ps : List Bytes) :
    (textBytes (hexBytes (((FP.new : FP M S C).writes ps).sum []))).take 12 =
      textBytes (hexPad 12 (ps.flatten.length % 2 ^ 48)) ∧
    (textBytes (hexBytes (((FP.new : FP M S C).writes ps).sum []))).length = 48 := by
  obtain ⟨e, l, -⟩ := C52_content h ps []
  have hl : ∀ b : Bytes, (hexBytes b).length = 2 * b.length := by
    intro b
    induction b with
    | nil => rfl
    | cons x b ih => simp only [hexBytes, List.flatMap_cons, List.length_append, List.length_cons, List.length_nil] at *; omega
  constructor
  · rw [e]
    simp only [List.append_assoc]
    rw [hexBytes, List.flatMap_append, ← hexBytes, ← hexPad_bytes, textBytes, List.map_append]
    exact List.take_left' (by rw [List.length_map, hexPad_length])
  · rw [textBytes, List.length_map, hl, l]

/-- **C114 (FINGERPRINT, the size field of a file).** The first twelve digits of `Hash(FINGERPRINT, salt)` of a file are the
number of bytes hashed, the salt included; so with a salt it is not the size of the file. -/
theorem C114_fingerprint_file (h : Sizes M S C) (salt c : Bytes) (path : Path) :
    ∃ t, hash srt (fpAlg h) salt path (.file true c c.length) = some t ∧ t.val.hash.length = 48 ∧
      t.val.hash.take 12 = textBytes (hexPad 12 ((salt.length + c.length) % 2 ^ 48)) := by
  have e := salted_writes h salt [c]
  have k := sum_head h [salt, c]
  refine ⟨_, by rw [hash, if_pos rfl], ?_, ?_⟩
  · simp only [Verif.Tree.Tree.val, List.take_length]
    simp only [List.foldl_cons, List.foldl_nil] at e
    rw [e]; exact k.2
  · simp only [Verif.Tree.Tree.val, List.take_length]
    simp only [List.foldl_cons, List.foldl_nil] at e
    rw [e]
    refine k.1.trans ?_
    simp

/-- **C114 (FINGERPRINT and Fingerprint).** For a file without a salt, `Hash(FINGERPRINT, "")` is the text of `Fingerprint()`
without the dashes. -/
theorem C114_fingerprint_text (h : Sizes M S C) (c : Bytes) (path : Path) :
    ∃ t f, hash srt (fpAlg h) [] path (.file true c c.length) = some t ∧
      fingerprint M S C srt path (.file true c c.length) = some f ∧
      t.val.hash = f.val.hash.filter (· ≠ 45) ∧ t.val.size = f.val.size := by
  refine ⟨.node ⟨_, _, _, _⟩ [], .node ⟨_, _, _, _⟩ [], by rw [hash, if_pos rfl], by rw [fingerprint, if_pos rfl], ?_, ?_⟩
  swap
  · rfl
  simp only [Verif.Tree.Tree.val, List.take_length]
  have e := salted_writes h [] [c]
  simp only [List.foldl_cons, List.foldl_nil] at e
  rw [e]
  have e1 : (FP.new : FP M S C).writes [[], c] = ((FP.new : FP M S C).write c).1 := by
    simp only [FP.writes, List.foldl_cons, List.foldl_nil]
    congr 2
    exact (fpAlg h).write_nil _
  have e2 : ((FP.new : FP M S C).write c).1.resetsize (UInt64.ofNat c.length).toBitVec =
      ((FP.new : FP M S C).write c).1 := by
    simp [FP.write, FP.resetsize, FP.new]
    rfl
  rw [e1, e2, C52_text h _ []]
  have l := (fpAlg h).sum_length ((FP.new : FP M S C).write c).1
  change (((FP.new : FP M S C).write c).1.sum []).length = 24 at l
  change textBytes (hexBytes (((FP.new : FP M S C).write c).1.sum [])) = _
  generalize ((FP.new : FP M S C).write c).1.sum [] = x at l ⊢
  simp only [textBytes, List.map_append, List.filter_append]
  have dash : (List.map (fun c : Char => UInt8.ofNat c.toNat) ['-']).filter (fun b => decide (b ≠ 45)) = [] := by decide
  have d16 : ∀ d : Fin 16, UInt8.ofNat (hexDigit d.1).toNat ≠ 45 := by decide
  have keep : ∀ y : Bytes, ((y.flatMap Spec.hexByte).map fun c => UInt8.ofNat c.toNat).filter (fun b => decide (b ≠ 45)) =
      (hexBytes y).map fun c => UInt8.ofNat c.toNat := by
    intro y
    rw [← hexBytes_eq, List.filter_eq_self]
    intro b hb
    obtain ⟨ch, hc, rfl⟩ := List.mem_map.1 hb
    obtain ⟨z, -, hz⟩ := List.mem_flatMap.1 hc
    simp only [List.mem_cons, List.not_mem_nil, or_false] at hz
    have := z.toNat_lt
    rcases hz with rfl | rfl
    · exact decide_eq_true (d16 ⟨z.toNat / 16, by omega⟩)
    · exact decide_eq_true (d16 ⟨z.toNat % 16, by omega⟩)
  rw [dash, keep, keep, keep, keep]
  simp only [List.append_nil, ← List.map_append]
  congr 1
  simp only [hexBytes, ← List.flatMap_append]
  congr 1
  have a (n : Nat) : (x.take n ++ (x.drop n).take 6) = x.take (n + 6) := List.take_add.symm
  rw [a 6, a 12, a 18]
  exact (List.take_of_length_le (by omega)).symm

theorem gen_len (h : Sizes M S C) (salt : Bytes) (path : Path) (n : Node) (t : FTree)
    (e : gen srt (hashLeaf (fpAlg h) salt) (hashComb (fpAlg h) salt) path n = some t) : t.val.hash.length = 48 := by
  cases n with
  | file o c r =>
    cases o
    · simp [gen] at e
    · simp only [gen, if_true, Option.some.injEq] at e
      subst e
      have k := salted_writes h salt [c.take r]
      simp only [List.foldl_cons, List.foldl_nil] at k
      simp only [Verif.Tree.Tree.val, hashLeaf]
      rw [k]
      exact (sum_head h [salt, c.take r]).2
  | dir st es =>
    cases st with
    | openFails => simp [gen] at e
    | listFails => simp [gen] at e
    | ok =>
      simp only [gen] at e
      cases hg : genE srt (hashLeaf (fpAlg h) salt) (hashComb (fpAlg h) salt) path es with
      | none => rw [hg] at e; cases e
      | some l =>
        rw [hg] at e
        cases e
        simp only [Verif.Tree.Tree.val, hashComb]
        rw [salted_writes]
        exact (sum_head h _).2

theorem genE_len (h : Sizes M S C) (salt : Bytes) (path : Path) : ∀ (es : Entries) (l : List FTree),
    genE srt (hashLeaf (fpAlg h) salt) (hashComb (fpAlg h) salt) path es = some l →
    (∀ t ∈ l, t.val.hash.length = 48) ∧ l.length = es.toList.length := by
  intro es l e
  cases es with
  | nil => simp [genE] at e; subst e; simp [Entries.toList]
  | cons name n rest =>
    simp only [genE] at e
    cases h1 : gen srt (hashLeaf (fpAlg h) salt) (hashComb (fpAlg h) salt) (path ++ [name]) n with
    | none => rw [h1] at e; cases e
    | some t =>
      cases h2 : genE srt (hashLeaf (fpAlg h) salt) (hashComb (fpAlg h) salt) path rest with
      | none => rw [h1, h2] at e; cases e
      | some ts =>
        rw [h1, h2] at e
        cases e
        obtain ⟨a, b⟩ := genE_len h salt path rest ts h2
        refine ⟨?_, by simp [Entries.toList, b]⟩
        intro u hu
        rcases List.mem_cons.1 hu with rfl | hu
        · exact gen_len srt h salt _ n _ h1
        · exact a u hu

/-- **C114 (FINGERPRINT, the size field of a directory).** The first twelve digits of `Hash(FINGERPRINT, salt)` of a
directory are the length of the salt plus 48 for every entry: they do not say the size of the tree, unlike those of
`Fingerprint()`. -/
theorem C114_fingerprint_dir (h : Sizes M S C) (salt : Bytes) (path : Path) (es : Entries) (hn : es.Ok) (t : FTree)
    (e : hash srt (fpAlg h) salt path (.dir .ok es) = some t) :
    t.val.hash.take 12 = textBytes (hexPad 12 ((salt.length + 48 * es.toList.length) % 2 ^ 48)) := by
  rw [hash_gen srt (fpAlg h) salt path (.dir .ok es) hn] at e
  simp only [gen] at e
  cases hg : genE srt (hashLeaf (fpAlg h) salt) (hashComb (fpAlg h) salt) path es with
  | none => rw [hg] at e; cases e
  | some l =>
    rw [hg] at e
    cases e
    obtain ⟨a, b⟩ := genE_len srt h salt path es l hg
    simp only [Verif.Tree.Tree.val, hashComb]
    rw [salted_writes]
    refine ((sum_head h _).1).trans ?_
    rw [List.flatten_cons, List.length_append, ← b]
    have : ∀ l' : List FTree, (∀ t ∈ l', t.val.hash.length = 48) →
        (l'.map fun c => c.val.hash).flatten.length = 48 * l'.length := by
      intro l'
      induction l' with
      | nil => intro _; rfl
      | cons x l' ih =>
        intro hx
        rw [List.map_cons, List.flatten_cons, List.length_append, hx x (by simp), ih fun t ht => hx t (by simp [ht])]
        simp only [List.length_cons]
        omega
    have k := this (srt.sort l) fun t ht => a t ((srt.perm l).mem_iff.1 ht)
    simp only [Verif.Tree.Tree.val] at k
    rw [k, (srt.perm l).length_eq]

example : Sizes (toyAlg 16) (toyAlg 20) (toyAlg 8) := ⟨rfl, rfl, rfl⟩

/-! The theorems on `demo`. -/

example := C114_none demoSorter 5#32 ["r"] demo demo_ok (by decide)
example : ∃ t, (hashNone demoSorter 5#32 ["r"] demo).1 = some t ∧ (hashes t).Nodup := by
  obtain ⟨t, h, -⟩ := C114_none demoSorter 5#32 ["r"] demo demo_ok (by decide)
  have h' : (hashNone demoSorter 5#32 ["r"] demo).1 = some t := by rw [h]
  exact ⟨t, h', C114_none_distinct demoSorter 5#32 ["r"] demo demo_ok (by decide) t h'⟩
example : (hashNone demoSorter 5#32 ["r"] (.dir .ok (.cons "a" (.file false [1] 1) .nil))).1 = none :=
  (C114_none_error demoSorter 5#32 ["r"] _ (by simp [Node.Ok, Entries.Ok, Entries.toList])).2 (by decide)
example := C114_fingerprint_file demoSorter (M := toyAlg 16) (S := toyAlg 20) (C := toyAlg 8) ⟨rfl, rfl, rfl⟩ [9] [1, 2] ["r"]
example := C114_fingerprint_text demoSorter (M := toyAlg 16) (S := toyAlg 20) (C := toyAlg 8) ⟨rfl, rfl, rfl⟩ [1, 2] ["r"]

end Verif.Fs
