import Verif.Props.FsHash
/-!
# C77: what equal fingerprints say about two trees
-/
set_option linter.unusedSectionVars false

namespace Verif.Fs
open Verif.FileHash Verif.Hash Verif.Tree

variable (M S C : Alg) (srt srt' : Sorter)

/-! ## Specification -/

/-- The parts of the three digests of `x` that go into a fingerprint. -/
def marks (x : Bytes) : Bytes × Bytes × Bytes :=
  (((Hash.Spec.digest M x).drop 4).take 6, ((Hash.Spec.digest S x).drop 7).take 6, ((Hash.Spec.digest C x).drop 1).take 6)

/-- The texts of the fingerprints (or hashes) of the entries of a directory, one after the other. -/
def childTexts (F : Path → Node → Option FTree) (path : Path) (n : Node) : Bytes :=
  match F path n with
  | some t => (t.children.map fun c => c.val.hash).flatten
  | none => []

mutual
/-- What can be read of each file. -/
def Node.contents : Node → List Bytes
  | .file _ c r => [c.take r]
  | .dir _ es => es.contents
def Entries.contents : Entries → List Bytes
  | .nil => []
  | .cons _ n rest => n.contents ++ rest.contents
end

mutual
/-- For each directory the texts of the fingerprints (or hashes) of its entries. -/
def texts (F : Path → Node → Option FTree) (path : Path) : Node → List Bytes
  | .file _ _ _ => []
  | .dir st es => childTexts F path (.dir st es) :: textsE F path es
def textsE (F : Path → Node → Option FTree) (path : Path) : Entries → List Bytes
  | .nil => []
  | .cons name n rest => texts F (path ++ [name]) n ++ textsE F path rest
end

/-- The byte strings that are hashed for the fingerprint (or hash) of a tree. -/
def hashed (F : Path → Node → Option FTree) (path : Path) (n : Node) : List Bytes := n.contents ++ texts F path n

mutual
/-- All files can be read to their end. -/
def Node.complete : Node → Prop
  | .file _ c r => c.length ≤ r
  | .dir _ es => es.complete
def Entries.complete : Entries → Prop
  | .nil => True
  | .cons _ n rest => n.complete ∧ rest.complete
end

/-! ## The text determines size and marks -/

theorem hexBytes_inj : ∀ (a b : Bytes), a.length = b.length → textBytes (hexBytes a) = textBytes (hexBytes b) → a = b
  | [], [], _, _ => rfl
  | [], _ :: _, h, _ => by simp at h
  | _ :: _, [], h, _ => by simp at h
  | x :: xs, y :: ys, hl, h => by
    have dig : ∀ a b : Fin 16, UInt8.ofNat (hexDigit a.1).toNat = UInt8.ofNat (hexDigit b.1).toNat → a = b := by
      decide +kernel
    simp only [hexBytes, textBytes, List.flatMap_cons, List.map_cons, List.cons_append, List.nil_append, List.cons.injEq] at h
    have hx := x.toNat_lt
    have hy := y.toNat_lt
    have e1 := congrArg Fin.val (dig ⟨x.toNat / 16, by omega⟩ ⟨y.toNat / 16, by omega⟩ h.1)
    have e2 := congrArg Fin.val (dig ⟨x.toNat % 16, by omega⟩ ⟨y.toNat % 16, by omega⟩ h.2.1)
    simp only at e1 e2
    rw [UInt8.toNat_inj.1 (show x.toNat = y.toNat by omega)]
    rw [hexBytes_inj xs ys (by simpa using hl) h.2.2]

theorem hexBytes_length (l : Bytes) : (hexBytes l).length = 2 * l.length := by
  induction l with
  | nil => rfl
  | cons x l ih => rw [hexBytes, List.flatMap_cons, List.length_append]; rw [hexBytes] at ih; rw [ih]; simp; omega

/-- The fingerprint of the content `x` with the size `n`. -/
def T (x : Bytes) (n : BitVec 64) : Bytes := textBytes (((FP.new : FP M S C).write x).1.resetsize n).string

theorem T_eq (x : Bytes) (n : BitVec 64) : T M S C x n = textBytes (hexPad 12 (n.toNat % 2 ^ 48)) ++
    textBytes ['-'] ++ textBytes (hexBytes (marks M S C x).1) ++ textBytes ['-'] ++ textBytes (hexBytes (marks M S C x).2.1) ++
    textBytes ['-'] ++ textBytes (hexBytes (marks M S C x).2.2) := by
  have hs : (n &&& 0xFFFFFFFFFFFF#64).toNat = n.toNat % 2 ^ 48 := by
    rw [BitVec.toNat_and, show (0xFFFFFFFFFFFF#64).toNat = 2 ^ 48 - 1 by rfl, Nat.and_two_pow_sub_one_eq_mod]
  have e12 : hex12 (n.toNat % 2 ^ 48) = hexPad 12 (n.toNat % 2 ^ 48) := by
    rw [hex12, hexNat]
    exact (toDigits_pad 11 _ (by omega)).2
  simp only [T, FP.string, FP.resetsize, hs, e12, FP.write, FP.new, marks, slice, List.drop_take, Hash.Spec.digest, textBytes,
    List.map_append]

theorem marks_length (h : Sizes M S C) (x : Bytes) :
    (marks M S C x).1.length = 6 ∧ (marks M S C x).2.1.length = 6 ∧ (marks M S C x).2.2.length = 6 := by
  simp only [marks, List.length_take, List.length_drop, Hash.Spec.digest, M.sum_length, S.sum_length, C.sum_length, h.1,
    h.2.1, h.2.2]
  decide

theorem T_length (h : Sizes M S C) (x : Bytes) (n : BitVec 64) : (T M S C x n).length = 51 := by
  obtain ⟨h1, h2, h3⟩ := marks_length M S C h x
  rw [T_eq]
  simp only [textBytes, List.length_append, List.length_map, hexPad_length, hexBytes_length, h1, h2, h3, List.length_singleton]

theorem T_inj (h : Sizes M S C) (x y : Bytes) (n m : BitVec 64) (e : T M S C x n = T M S C y m) :
    n.toNat % 2 ^ 48 = m.toNat % 2 ^ 48 ∧ marks M S C x = marks M S C y := by
  obtain ⟨a1, a2, a3⟩ := marks_length M S C h x
  obtain ⟨b1, b2, b3⟩ := marks_length M S C h y
  have tl : ∀ l : List Char, (textBytes l).length = l.length := fun l => by simp [textBytes]
  rw [T_eq, T_eq] at e
  obtain ⟨e, e3⟩ := List.append_inj' e (by rw [tl, tl, hexBytes_length, hexBytes_length, a3, b3])
  obtain ⟨e, -⟩ := List.append_inj' e rfl
  obtain ⟨e, e2⟩ := List.append_inj' e (by rw [tl, tl, hexBytes_length, hexBytes_length, a2, b2])
  obtain ⟨e, -⟩ := List.append_inj' e rfl
  obtain ⟨e, e1⟩ := List.append_inj' e (by rw [tl, tl, hexBytes_length, hexBytes_length, a1, b1])
  obtain ⟨e, -⟩ := List.append_inj' e rfl
  have e0 := hexPad_inj 12 _ _ e
  refine ⟨by omega, Prod.ext (hexBytes_inj _ _ (by rw [a1, b1]) e1) (Prod.ext (hexBytes_inj _ _ (by rw [a2, b2]) e2)
    (hexBytes_inj _ _ (by rw [a3, b3]) e3))⟩

theorem fpComb_T (hs : List Bytes) (size : UInt64) : fpComb M S C hs size = T M S C hs.flatten size.toBitVec := by
  have e := writes_state (FP.new : FP M S C) hs
  unfold FP.writes at e
  unfold fpComb T
  congr 2
  simp only [FP.resetsize, FP.write]
  obtain ⟨e1, e2, e3, -⟩ := e
  simp only [FP.write] at e1 e2 e3
  rw [e1, e2, e3]

theorem flatten_inj_of_length {k : Nat} (hk : 0 < k) : ∀ (a b : List Bytes), (∀ x ∈ a, x.length = k) → (∀ x ∈ b, x.length = k) →
    a.flatten = b.flatten → a = b
  | [], [], _, _, _ => rfl
  | [], y :: ys, _, hb, h => by
    have := hb y (by simp)
    have h := congrArg List.length h
    rw [List.flatten_cons, List.length_append, this] at h
    simp at h; omega
  | x :: xs, [], ha, _, h => by
    have := ha x (by simp)
    have h := congrArg List.length h
    rw [List.flatten_cons, List.length_append, this] at h
    simp at h; omega
  | x :: xs, y :: ys, ha, hb, h => by
    simp only [List.flatten_cons] at h
    obtain ⟨h1, h2⟩ := List.append_inj h (by rw [ha x (by simp), hb y (by simp)])
    rw [h1, flatten_inj_of_length hk xs ys (fun z hz => ha z (by simp [hz])) (fun z hz => hb z (by simp [hz])) h2]

theorem flatten_dvd {k : Nat} : ∀ (a : List Bytes), (∀ x ∈ a, x.length = k) → k ∣ a.flatten.length
  | [], _ => by simp
  | x :: xs, h => by
    rw [List.flatten_cons, List.length_append, h x (by simp)]
    exact Nat.dvd_add (Nat.dvd_refl _) (flatten_dvd xs fun z hz => h z (by simp [hz]))

/-! ## The main induction, for any scheme that hashes contents and concatenated texts -/

mutual
/-- All files have the property. -/
def Node.Files (Q : Bytes → Nat → Prop) : Node → Prop
  | .file _ c r => Q c r
  | .dir _ es => es.Files Q
def Entries.Files (Q : Bytes → Nat → Prop) : Entries → Prop
  | .nil => True
  | .cons _ n rest => n.Files Q ∧ rest.Files Q
end

section scheme
variable {leaf : Bytes → Nat → Bytes} {comb : List Bytes → UInt64 → Bytes} {T : Bytes → UInt64 → Bytes} {κ : Type}
  {mk : Bytes → κ} {k : Nat} {Q : Bytes → Nat → Prop} {F F' : Path → Node → Option FTree}
  (hleaf : ∀ c r, leaf c r = T (c.take r) (UInt64.ofNat c.length)) (hcomb : ∀ hs n, comb hs n = T hs.flatten n)
  (hk : 0 < k) (hlen : ∀ x n, (T x n).length = k) (hinj : ∀ x y n m, T x n = T y m → mk x = mk y)
  (hfile : ∀ c r c' r', Q c r → Q c' r' → leaf c r = leaf c' r' → c.take r = c'.take r' → c.length = c'.length)
  (hF : ∀ path n, n.Ok → F path n = gen srt leaf comb path n)
  (hF' : ∀ path n, n.Ok → F' path n = gen srt' leaf comb path n)

section text
include hleaf hcomb hlen

theorem gen_text (path : Path) (n : Node) (t : FTree)
    (e : gen srt leaf comb path n = some t) : t.val.hash.length = k := by
  cases n with
  | file o c r =>
    simp only [gen] at e
    split_ifs at e
    cases e
    simp only [Verif.Tree.Tree.val, hleaf]
    exact hlen _ _
  | dir st es =>
    cases st with
    | openFails => simp [gen] at e
    | listFails => simp [gen] at e
    | ok =>
      simp only [gen] at e
      cases hg : genE srt leaf comb path es with
      | none => rw [hg] at e; cases e
      | some l =>
        rw [hg] at e
        cases e
        simp only [Verif.Tree.Tree.val, hcomb]
        exact hlen _ _

theorem genE_text (path : Path) (es : Entries) (l : List FTree)
    (e : genE srt leaf comb path es = some l) : ∀ t ∈ l, t.val.hash.length = k := by
  induction es using Entries.rec (motive_1 := fun _ => True) generalizing l with
  | file => trivial
  | dir => trivial
  | nil => simp [genE] at e; subst e; simp
  | cons name n rest _ ih =>
    simp only [genE] at e
    cases h1 : gen srt leaf comb (path ++ [name]) n with
    | none => rw [h1] at e; cases e
    | some t =>
      cases h2 : genE srt leaf comb path rest with
      | none => rw [h1, h2] at e; cases e
      | some ts =>
        rw [h1, h2] at e
        cases e
        intro u hu
        rcases List.mem_cons.1 hu with rfl | hu
        · exact gen_text srt hleaf hcomb hlen _ _ _ h1
        · exact ih ts h2 u hu

end text

/-- A fingerprinted tree together with what is known about it. -/
structure Item (srt : Sorter) (leaf : Bytes → Nat → Bytes) (comb : List Bytes → UInt64 → Bytes)
    (F : Path → Node → Option FTree) (Q : Bytes → Nat → Prop) (BC BT : List Bytes) where
  path : Path
  node : Node
  tree : FTree
  ok : node.Ok
  fine : node.Files Q
  subC : ∀ x ∈ node.contents, x ∈ BC
  subT : ∀ x ∈ texts F path node, x ∈ BT
  eq : gen srt leaf comb path node = some tree

theorem items (BC BT : List Bytes) (path : Path) (es : Entries) (l : List FTree)
    (e : genE srt leaf comb path es = some l) (ok : es.Ok) (fine : es.Files Q)
    (subC : ∀ x ∈ es.contents, x ∈ BC) (subT : ∀ x ∈ textsE F path es, x ∈ BT) :
    ∃ L : List (Item srt leaf comb F Q BC BT), L.map (·.node) = es.nodes ∧ L.map (·.tree) = l := by
  induction es using Entries.rec (motive_1 := fun _ => True) generalizing l with
  | file => trivial
  | dir => trivial
  | nil => simp [genE] at e; subst e; exact ⟨[], rfl, rfl⟩
  | cons name n rest _ ih =>
    simp only [genE] at e
    obtain ⟨-, -, -, o1, o2⟩ := ok
    simp only [textsE, List.mem_append] at subT
    simp only [Entries.contents, List.mem_append] at subC
    cases h1 : gen srt leaf comb (path ++ [name]) n with
    | none => rw [h1] at e; cases e
    | some t =>
      cases h2 : genE srt leaf comb path rest with
      | none => rw [h1, h2] at e; cases e
      | some ts =>
        rw [h1, h2] at e
        cases e
        obtain ⟨L, hL1, hL2⟩ := ih ts h2 o2 fine.2 (fun x hx => subC x (.inr hx)) (fun x hx => subT x (.inr hx))
        refine ⟨⟨path ++ [name], n, t, o1, fine.1, fun x hx => subC x (.inl hx), fun x hx => subT x (.inl hx), h1⟩ :: L, ?_, ?_⟩
        · simp [Entries.nodes, hL1]
        · simp [hL2]

theorem childTexts_dir (hF : ∀ path n, n.Ok → F path n = gen srt leaf comb path n) (path : Path) (es : Entries) (l : List FTree) (ok : es.Ok)
    (e : genE srt leaf comb path es = some l) :
    childTexts F path (.dir .ok es) = ((srt.sort l).map fun c => c.val.hash).flatten := by
  rw [childTexts, hF path (.dir .ok es) ok]
  simp only [gen, e]
  rfl

section main
variable {AC AT BC BT : List Bytes}
  (hcol : ∀ x ∈ AC ++ AT, ∀ y ∈ BC ++ BT, mk x = mk y → x = y)
  (hmix : ∀ x ∈ AC, x ∉ BT) (hmix' : ∀ x ∈ BC, x ∉ AT)
include hleaf hcomb hk hlen hinj hfile hF hF' hcol hmix hmix'

mutual
theorem tell (n : Node) (path : Path) (t : FTree) (e : gen srt leaf comb path n = some t)
    (ok : n.Ok) (fine : n.Files Q) (subC : ∀ x ∈ n.contents, x ∈ AC)
    (subT : ∀ x ∈ texts F path n, x ∈ AT) (m : Item srt' leaf comb F' Q BC BT) (he : t.val.hash = m.tree.val.hash) : Same n m.node := by
  obtain ⟨path', m, t', ok', fine', subC', subT', e'⟩ := m
  simp only at he
  cases n with
  | file o c r =>
    simp only [gen] at e
    split_ifs at e with ho
    cases e
    cases m with
    | file o' c' r' =>
      simp only [gen] at e'
      split_ifs at e' with ho'
      cases e'
      have e2 := hinj _ _ _ _ ((hleaf c r).symm.trans (he.trans (hleaf c' r')))
      have e3 := hcol _ (List.mem_append_left _ (subC _ (by simp [Node.contents]))) _
        (List.mem_append_left _ (subC' _ (by simp [Node.contents]))) e2
      simp only [Same]
      exact ⟨c', r', by rw [ho, ho'], (hfile c r c' r' fine fine' he e3).symm, e3.symm⟩
    | dir st es =>
      cases st with
      | openFails => simp [gen] at e'
      | listFails => simp [gen] at e'
      | ok =>
        simp only [gen] at e'
        cases hg : genE srt' leaf comb path' es with
        | none => rw [hg] at e'; cases e'
        | some l =>
          rw [hg] at e'
          cases e'
          simp only [Verif.Tree.Tree.val, hcomb, hleaf] at he
          have e2 := hinj _ _ _ _ he
          have hc := subC _ (List.mem_singleton.2 rfl)
          have hd := subT' (childTexts F' path' (.dir .ok es)) (by simp [texts])
          rw [childTexts_dir srt' hF' path' es l ok' hg] at hd
          have e3 := hcol _ (List.mem_append_left _ hc) _ (List.mem_append_right _ hd) e2
          exact absurd (e3 ▸ hd) (hmix _ hc)
  | dir st es =>
    cases st with
    | openFails => simp [gen] at e
    | listFails => simp [gen] at e
    | ok =>
      simp only [gen] at e
      cases hg : genE srt leaf comb path es with
      | none => rw [hg] at e; cases e
      | some l =>
        rw [hg] at e
        cases e
        have hA := subT (childTexts F path (.dir .ok es)) (by simp [texts])
        rw [childTexts_dir srt hF path es l ok hg] at hA
        have hl : ∀ x ∈ (srt.sort l).map fun c => c.val.hash, x.length = k := fun x hx => by
          obtain ⟨u, hu, rfl⟩ := List.mem_map.1 hx
          exact genE_text srt hleaf hcomb hlen path es l hg u ((srt.perm l).mem_iff.1 hu)
        simp only [Verif.Tree.Tree.val, hcomb] at he
        cases m with
        | file o' c' r' =>
          simp only [gen] at e'
          split_ifs at e' with ho'
          cases e'
          simp only [hleaf] at he
          have e2 := hinj _ _ _ _ he
          have hc := subC' _ (List.mem_singleton.2 rfl)
          have e3 := hcol _ (List.mem_append_right _ hA) _ (List.mem_append_left _ hc) e2
          exact absurd (e3 ▸ hA) (hmix' _ hc)
        | dir st' es' =>
          cases st' with
          | openFails => simp [gen] at e'
          | listFails => simp [gen] at e'
          | ok =>
            simp only [gen] at e'
            cases hg' : genE srt' leaf comb path' es' with
            | none => rw [hg'] at e'; cases e'
            | some l' =>
              rw [hg'] at e'
              cases e'
              have hl' : ∀ x ∈ (srt'.sort l').map fun c => c.val.hash, x.length = k := fun x hx => by
                obtain ⟨u, hu, rfl⟩ := List.mem_map.1 hx
                exact genE_text srt' hleaf hcomb hlen path' es' l' hg' u ((srt'.perm l').mem_iff.1 hu)
              simp only [hcomb] at he
              have e2 := hinj _ _ _ _ he
              have hB := subT' (childTexts F' path' (.dir .ok es')) (by simp [texts])
              rw [childTexts_dir srt' hF' path' es' l' ok' hg'] at hB
              have e3 := hcol _ (List.mem_append_right _ hA) _ (List.mem_append_right _ hB) e2
              have e4 := flatten_inj_of_length hk _ _ hl hl' e3
              have hp : (l.map fun c => c.val.hash).Perm (l'.map fun c => c.val.hash) :=
                ((srt.perm l).map _).symm.trans (e4 ▸ (srt'.perm l').map _)
              obtain ⟨L, hL1, hL2⟩ := items srt' (F := F') (Q := Q) BC BT path' es' l' hg' ok' fine' subC'
                (fun x hx => subT' x (by simp [texts, hx]))
              rw [← hL2, List.map_map] at hp
              simp only [Same]
              exact ⟨es', rfl, hL1 ▸ tellE es path l hg ok fine subC (fun x hx => subT x (by simp [texts, hx])) L hp⟩
theorem tellE (es : Entries) (path : Path) (l : List FTree) (e : genE srt leaf comb path es = some l)
    (ok : es.Ok) (fine : es.Files Q) (subC : ∀ x ∈ es.contents, x ∈ AC)
    (subT : ∀ x ∈ textsE F path es, x ∈ AT) (L : List (Item srt' leaf comb F' Q BC BT))
    (hp : (l.map fun c => c.val.hash).Perm (L.map ((fun c : FTree => c.val.hash) ∘ fun i => i.tree))) :
    Matches es (L.map (·.node)) := by
  cases es with
  | nil =>
    simp [genE] at e
    subst e
    have := List.nil_perm.1 hp
    simp only [List.map_eq_nil_iff] at this
    subst this
    simp [Matches]
  | cons name n rest =>
    simp only [genE] at e
    obtain ⟨-, -, -, o1, o2⟩ := ok
    simp only [textsE, List.mem_append] at subT
    simp only [Entries.contents, List.mem_append] at subC
    cases h1 : gen srt leaf comb (path ++ [name]) n with
    | none => rw [h1] at e; cases e
    | some t =>
      cases h2 : genE srt leaf comb path rest with
      | none => rw [h1, h2] at e; cases e
      | some ts =>
        rw [h1, h2] at e
        cases e
        have hm : t.val.hash ∈ L.map ((fun c : FTree => c.val.hash) ∘ fun i => i.tree) := hp.mem_iff.1 (by simp)
        obtain ⟨i, hi, hh⟩ := List.mem_map.1 hm
        obtain ⟨L1, L2, rfl⟩ := List.append_of_mem hi
        have hs := tell n (path ++ [name]) t h1 o1 fine.1 (fun x hx => subC x (.inl hx))
          (fun x hx => subT x (.inl hx)) i hh.symm
        have hp' : (ts.map fun c => c.val.hash).Perm ((L1 ++ L2).map ((fun c : FTree => c.val.hash) ∘ fun i => i.tree)) := by
          rw [List.map_append, List.map_cons] at hp
          have := hp.trans List.perm_middle
          rw [hh] at this
          rw [List.map_append]
          exact this.cons_inv
        have hr := tellE rest path ts h2 o2 fine.2 (fun x hx => subC x (.inr hx)) (fun x hx => subT x (.inr hx)) (L1 ++ L2) hp'
        simp only [Matches]
        exact ⟨L1.map (·.node), i.node, L2.map (·.node), by simp, hs, by simpa using hr⟩
end
end main
end scheme

theorem files_small (n : Node) (h : n.bytes < 2 ^ 48) : n.Files fun c _ => c.length < 2 ^ 48 := by
  refine Node.rec (motive_1 := fun n => n.bytes < 2 ^ 48 → n.Files fun c _ => c.length < 2 ^ 48)
    (motive_2 := fun es => es.bytes < 2 ^ 48 → es.Files fun c _ => c.length < 2 ^ 48) ?_ ?_ ?_ ?_ n h
  · exact fun o c r h => h
  · exact fun st es ih h => ih h
  · exact fun _ => trivial
  · intro name n rest ih1 ih2 h
    simp only [Entries.bytes] at h
    exact ⟨ih1 (by omega), ih2 (by omega)⟩

theorem files_complete (n : Node) (h : n.complete) : n.Files fun c r => c.length ≤ r := by
  refine Node.rec (motive_1 := fun n => n.complete → n.Files fun c r => c.length ≤ r)
    (motive_2 := fun es => es.complete → es.Files fun c r => c.length ≤ r) ?_ ?_ ?_ ?_ n h
  · exact fun o c r h => h
  · exact fun st es ih h => ih h
  · exact fun _ => trivial
  · exact fun name n rest ih1 ih2 h => ⟨ih1 h.1, ih2 h.2⟩

/-- **C77 (partial).** Two trees with the same fingerprint are the same up to names and listing order, unless two different
byte strings among those hashed for them have the same parts of their md5, sha1 and crc64 digests — for trees of fewer than
2^48 bytes in which no file of the one contains just the texts of the fingerprints of a directory of the other.  Missing: such
files, for which it is false (`C77_structure_false`, `C77_empty_false`). -/
theorem C77_same_partial (h : Sizes M S C) (n m : Node) (hn : n.Ok) (hm : m.Ok) (bn : n.bytes < 2 ^ 48) (bm : m.bytes < 2 ^ 48)
    (path path' : Path) (t t' : FTree)
    (e : fingerprint M S C srt path n = some t) (e' : fingerprint M S C srt' path' m = some t')
    (he : t.val.hash = t'.val.hash)
    (hmix : ∀ x ∈ n.contents, x ∉ texts (fingerprint M S C srt') path' m) (hmix' : ∀ x ∈ m.contents, x ∉ texts (fingerprint M S C srt) path n)
    (hcol : ∀ x ∈ hashed (fingerprint M S C srt) path n, ∀ y ∈ hashed (fingerprint M S C srt') path' m, marks M S C x = marks M S C y → x = y) :
    Same n m := by
  rw [fingerprint_gen _ _ _ _ _ _ hn] at e
  rw [fingerprint_gen _ _ _ _ _ _ hm] at e'
  exact tell srt srt' (T := fun x n => T M S C x n.toBitVec) (mk := marks M S C) (k := 51) (Q := fun c _ => c.length < 2 ^ 48)
    (fun _ _ => rfl) (fpComb_T M S C) (by decide) (fun x n => T_length M S C h _ _)
    (fun x y n m e => (T_inj M S C h _ _ _ _ e).2)
    (fun c r c' r' q q' e _ => by
      have := (T_inj M S C h _ _ _ _ e).1
      simp only [UInt64.toNat_toBitVec, UInt64.toNat_ofNat'] at this
      omega)
    (fun path n => fingerprint_gen M S C srt path n) (fun path n => fingerprint_gen M S C srt' path n)
    hcol hmix hmix' n path t e hn (files_small n bn) (fun _ hx => hx) (fun _ hx => hx)
    ⟨path', m, t', hm, files_small m bm, fun _ hx => hx, fun _ hx => hx, e'⟩ he

/-- **C77 (partial, hash).** The same for `Hash` with any method and salt: two trees whose files can be read to their ends and
that have the same hash are the same up to names and listing order, unless two different byte strings among those hashed for
them, with the salt in front, have the same digest, or a file of the one contains just the texts of the hashes of a directory
of the other. -/
theorem C77_hash_partial (A : Alg) (hA : 0 < A.size) (salt : Bytes) (n m : Node) (hn : n.Ok) (hm : m.Ok) (cn : n.complete)
    (cm : m.complete) (path path' : Path) (t t' : FTree)
    (e : hash srt A salt path n = some t) (e' : hash srt' A salt path' m = some t') (he : t.val.hash = t'.val.hash)
    (hmix : ∀ x ∈ n.contents, x ∉ texts (hash srt' A salt) path' m) (hmix' : ∀ x ∈ m.contents, x ∉ texts (hash srt A salt) path n)
    (hcol : ∀ x ∈ hashed (hash srt A salt) path n, ∀ y ∈ hashed (hash srt' A salt) path' m,
      Hash.Spec.digest A (salt ++ x) = Hash.Spec.digest A (salt ++ y) → x = y) : Same n m := by
  rw [hash_gen _ _ _ _ _ hn] at e
  rw [hash_gen _ _ _ _ _ hm] at e'
  have salted : ∀ x, A.write (if salt ≠ [] then A.write A.init salt else A.init) x = A.write A.init (salt ++ x) := by
    intro x
    split_ifs with h
    · rw [A.write_append]
    · rw [Classical.not_not.1 h]; rfl
  refine tell srt srt' (T := fun x _ => textBytes (hexBytes (Hash.Spec.digest A (salt ++ x))))
    (mk := fun x => Hash.Spec.digest A (salt ++ x)) (k := 2 * A.size) (Q := fun c r => c.length ≤ r)
    (fun c r => ?_) (fun hs n => ?_) (by omega) (fun x n => ?_) (fun x y n m e => ?_) (fun c r c' r' q q' _ e => ?_)
    (fun path n => hash_gen srt A salt path n) (fun path n => hash_gen srt' A salt path n)
    hcol hmix hmix' n path t e hn (files_complete n cn) (fun _ hx => hx) (fun _ hx => hx)
    ⟨path', m, t', hm, files_complete m cm, fun _ hx => hx, fun _ hx => hx, e'⟩ he
  · simp only [hashLeaf, salted, Hash.Spec.digest]
  · have fold : ∀ (hs : List Bytes) (s : A.State), hs.foldl A.write s = A.write s hs.flatten := by
      intro hs
      induction hs with
      | nil => intro s; exact (A.write_nil s).symm
      | cons x xs ih => intro s; rw [List.foldl_cons, ih, List.flatten_cons, A.write_append]
    simp only [hashComb, fold, salted, Hash.Spec.digest]
  · simp only [textBytes, List.length_map, hexBytes_length, Hash.Spec.digest, A.sum_length]
  · exact hexBytes_inj _ _ (by simp only [Hash.Spec.digest, A.sum_length]) e
  · rw [List.take_of_length_le q, List.take_of_length_le q'] at e
    rw [e]

/-- A sorting function with the contract that the kernel evaluates. -/
def insertSorter : Sorter where
  sort l := l.insertionSort fun a b => nodeLess FileHash.less b a = false
  perm l := List.perm_insertionSort _ l
  sorted l := by
    have w := C13_fileHash_strictWeak
    have : Std.Total (fun a b : FTree => nodeLess FileHash.less b a = false) := ⟨fun a b => by
      cases h : nodeLess FileHash.less b a with
      | false => exact .inl rfl
      | true => exact .inr (w.asymm h)⟩
    have : IsTrans FTree (fun a b => nodeLess FileHash.less b a = false) := ⟨fun a b c h1 h2 => by
      cases h : nodeLess FileHash.less c a with
      | false => rfl
      | true =>
        rcases w.negTrans _ b.val _ h with h' | h'
        · exact absurd (show nodeLess FileHash.less c b = true from h') (by rw [h2]; decide)
        · exact absurd (show nodeLess FileHash.less b a = true from h') (by rw [h1]; decide)⟩
    exact List.pairwise_insertionSort _ l

/-- Two trees with other names and another order, and a third one with the bytes of the first in one file. -/
def tellA : Node := .dir .ok (.cons "a" (.file true [1] 1) (.cons "b" (.file true [2, 5] 2) .nil))
def tellB : Node := .dir .ok (.cons "x" (.file true [2, 5] 9) (.cons "y" (.file true [1] 1) .nil))
def tellC : Node := .dir .ok (.cons "a" (.file true [1, 2, 5] 3) .nil)

/-- All hypotheses of `C77_same_partial` hold for the first two; the third has another fingerprint. -/
example : tellA.Ok ∧ tellB.Ok ∧ tellA.bytes < 2 ^ 48 ∧ tellB.bytes < 2 ^ 48 := by
  refine ⟨by simp [tellA, Node.Ok, Entries.Ok, Entries.toList], by simp [tellB, Node.Ok, Entries.Ok, Entries.toList], ?_, ?_⟩ <;> decide
example : (∀ x ∈ tellA.contents, x ∉ texts (fingerprint (toyAlg 16) (toyAlg 20) (toyAlg 8) insertSorter) ["q"] tellB) ∧
    (∀ x ∈ tellB.contents, x ∉ texts (fingerprint (toyAlg 16) (toyAlg 20) (toyAlg 8) insertSorter) ["p"] tellA) ∧
    (∀ x ∈ hashed (fingerprint (toyAlg 16) (toyAlg 20) (toyAlg 8) insertSorter) ["p"] tellA,
      ∀ y ∈ hashed (fingerprint (toyAlg 16) (toyAlg 20) (toyAlg 8) insertSorter) ["q"] tellB,
      marks (toyAlg 16) (toyAlg 20) (toyAlg 8) x = marks (toyAlg 16) (toyAlg 20) (toyAlg 8) y → x = y) ∧
    (fingerprint (toyAlg 16) (toyAlg 20) (toyAlg 8) insertSorter ["p"] tellA).map (·.val.hash) =
      (fingerprint (toyAlg 16) (toyAlg 20) (toyAlg 8) insertSorter ["q"] tellB).map (·.val.hash) ∧
    (fingerprint (toyAlg 16) (toyAlg 20) (toyAlg 8) insertSorter ["p"] tellA).map (·.val.hash) ≠
      (fingerprint (toyAlg 16) (toyAlg 20) (toyAlg 8) insertSorter ["q"] tellC).map (·.val.hash) := by
  decide +kernel

/-- The same for `C77_hash_partial`, with the salt `[9]`. -/
example : 0 < (toyAlg 4).size ∧ tellA.complete ∧ tellB.complete := by
  simp [toyAlg, tellA, tellB, Node.complete, Entries.complete]
example : (∀ x ∈ tellA.contents, x ∉ texts (hash insertSorter (toyAlg 4) [9]) ["q"] tellB) ∧
    (∀ x ∈ tellB.contents, x ∉ texts (hash insertSorter (toyAlg 4) [9]) ["p"] tellA) ∧
    (∀ x ∈ hashed (hash insertSorter (toyAlg 4) [9]) ["p"] tellA, ∀ y ∈ hashed (hash insertSorter (toyAlg 4) [9]) ["q"] tellB,
      Hash.Spec.digest (toyAlg 4) ([9] ++ x) = Hash.Spec.digest (toyAlg 4) ([9] ++ y) → x = y) ∧
    (hash insertSorter (toyAlg 4) [9] ["p"] tellA).map (·.val.hash) =
      (hash insertSorter (toyAlg 4) [9] ["q"] tellB).map (·.val.hash) ∧
    (hash insertSorter (toyAlg 4) [9] ["p"] tellA).map (·.val.hash) ≠
      (hash insertSorter (toyAlg 4) [9] ["q"] tellC).map (·.val.hash) := by
  decide +kernel

end Verif.Fs
