import Verif.Props.RsaGen
set_option linter.unusedSectionVars false
/-!
# C152 and C153: what is needed

Which texts give keys at all, and which random bytes make a key.
-/

namespace Verif.Rsa

open Verif.Hash (ofBig)

/-- What a file must have so that a block is seen in it: a first line with a label, a last line with the same label, and base64 text before
the last line. -/
structure Spec.HasBlock (b file : Bytes) : Prop where
  form : ∃ pre t mid body nl post : Bytes,
    file = pre ++ "-----BEGIN ".toUTF8.toList ++ t ++ "-----".toUTF8.toList ++ mid ++ body ++ nl ++ "-----END ".toUTF8.toList ++ t ++
      "-----".toUTF8.toList ++ post ∧
    10 ∉ t ∧ (nl = [10] ∨ nl = [] ∧ body = []) ∧ Crypto.b64Dec ((body.filter fun c => c ≠ 32 ∧ c ≠ 9).map fun c => Char.ofNat c.toNat) = some b

theorem cut_spec {pat : Bytes} : ∀ {l a c : Bytes}, cut pat l = some (a, c) → l = a ++ pat ++ c
  | [], a, c, h => by
    unfold cut at h
    split_ifs at h with h1
    cases h
    rw [h1]; rfl
  | b :: r, a, c, h => by
    unfold cut at h
    split_ifs at h with h1
    · cases h
      obtain ⟨w, hw⟩ := h1
      rw [← hw]; simp
    · cases hr : cut pat r with
      | none => rw [hr] at h; cases h
      | some x =>
        rw [hr] at h
        simp only [Option.map_some, Option.some.injEq, Prod.mk.injEq] at h
        rw [cut_spec (a := x.1) (c := x.2) hr, ← h.1, ← h.2]
        simp

theorem trimRight_prefix (l : Bytes) : trimRight l <+: l := by
  unfold trimRight
  rw [← List.reverse_suffix, List.reverse_reverse]
  exact List.dropWhile_suffix _

theorem getLine_spec (l : Bytes) : ∃ w, l = (getLine l).1 ++ w ++ (getLine l).2 := by
  have h0 : l.takeWhile (· ≠ 10) ++ l.dropWhile (· ≠ 10) = l := List.takeWhile_append_dropWhile
  have h1 : (getLine l).1 <+: l.takeWhile (· ≠ 10) := by
    unfold getLine
    simp only
    split_ifs
    · exact (trimRight_prefix _).trans (List.dropLast_prefix _)
    · exact trimRight_prefix _
  obtain ⟨w1, h1⟩ := h1
  have h2 : (getLine l).2 <:+ l.dropWhile (· ≠ 10) := List.drop_suffix _ _
  obtain ⟨w2, h2⟩ := h2
  refine ⟨w1 ++ w2, ?_⟩
  rw [List.append_assoc, List.append_assoc, h2, ← List.append_assoc, h1, h0]

theorem skipHeaders_spec : ∀ {f : Nat} {l : Bytes} {h : Bool} {r : Bytes}, skipHeaders f l = some (h, r) → ∃ w, l = w ++ r
  | 0, _, _, _, h => by cases h
  | f + 1, l, b, r, h => by
    unfold skipHeaders at h
    split_ifs at h with h1 h2
    · cases hr : skipHeaders f (getLine l).2 with
      | none => rw [hr] at h; cases h
      | some x =>
        rw [hr] at h
        simp only [Option.map_some, Option.some.injEq, Prod.mk.injEq] at h
        obtain ⟨w, hw⟩ := skipHeaders_spec (h := x.1) (r := x.2) hr
        obtain ⟨w', hw'⟩ := getLine_spec l
        refine ⟨(getLine l).1 ++ w' ++ w, ?_⟩
        rw [← h.2, List.append_assoc, ← hw, ← hw']
    · cases h
      exact ⟨[], rfl⟩

theorem Spec.HasBlock.after {b l : Bytes} (h : Spec.HasBlock b l) (pre : Bytes) : Spec.HasBlock b (pre ++ l) := by
  obtain ⟨p, t, mid, body, nl, post, h1, h2⟩ := h.form
  exact ⟨⟨pre ++ p, t, mid, body, nl, post, by rw [h1]; simp only [List.append_assoc], h2⟩⟩

theorem pemBlock_only {b : Bytes} : ∀ {f : Nat} {data : Bytes}, pemBlock f data = some b → Spec.HasBlock b data
  | 0, _, h => by cases h
  | f + 1, data, h => by
    rw [pemBlock] at h
    split at h
    · cases h
    next rest hrest =>
    have h0 : ∃ pre, data = pre ++ pemBegin ++ rest := by
      split_ifs at hrest with hp
      · cases hrest
        obtain ⟨w, hw⟩ := hp
        exact ⟨[], by rw [← hw]; simp⟩
      · cases hc : cut (10 :: pemBegin) data with
        | none => rw [hc] at hrest; cases hrest
        | some x =>
          rw [hc] at hrest
          cases hrest
          exact ⟨x.1 ++ [10], by rw [cut_spec (a := x.1) (c := x.2) hc]; simp⟩
    clear hrest
    obtain ⟨pre, rfl⟩ := h0
    obtain ⟨w1, hw1⟩ := getLine_spec rest
    have hnl : 10 ∉ (getLine rest).1 := fun h => by
      have := mem_getLine h
      simpa using List.mem_takeWhile_imp this
    simp only at h
    split at h
    swap
    · have := (pemBlock_only h).after (pre ++ pemBegin ++ ((getLine rest).1 ++ w1))
      rwa [List.append_assoc _ _ (getLine rest).2, ← hw1] at this
    next hd =>
    obtain ⟨t, ht⟩ := hd
    have htake : (getLine rest).1.take ((getLine rest).1.length - dashes.length) = t := by
      rw [← ht, List.length_append, Nat.add_sub_cancel, List.take_left]
    rw [htake] at h
    split at h
    · cases h
    next hdr r2 hs =>
    obtain ⟨w2, hw2⟩ := skipHeaders_spec hs
    have hback : Spec.HasBlock b r2 → Spec.HasBlock b (pre ++ pemBegin ++ rest) := fun h => by
      have := h.after (pre ++ pemBegin ++ ((getLine rest).1 ++ w1 ++ w2))
      rwa [List.append_assoc (pre ++ pemBegin), List.append_assoc _ w2 r2, ← hw2, ← hw1] at this
    split at h
    · exact hback (pemBlock_only h)
    next body trailer hb =>
    split at h
    swap
    · exact hback (pemBlock_only h)
    next hc =>
    split at h
    swap
    · exact hback (pemBlock_only h)
    next b' hb64 =>
    cases h
    have htr : trailer.take (t.length + dashes.length) = t ++ dashes := by
      obtain ⟨a, ha⟩ := hc.2.1
      obtain ⟨c, hc'⟩ := hc.2.2.1
      have hl : (trailer.take (t.length + dashes.length)).length = t.length + dashes.length := by
        rw [List.length_take]; exact Nat.min_eq_left hc.1
      rw [← ha, List.length_append] at hl
      rw [← ha] at hc' ⊢
      have := List.append_inj_right' hc' (by omega)
      rw [this]
    have hpost : trailer = t ++ dashes ++ trailer.drop (t.length + dashes.length) := by
      rw [← htr, List.take_append_drop]
    have hend : ∃ nl, r2 = body ++ nl ++ pemEnd ++ trailer ∧ (nl = [10] ∨ nl = [] ∧ body = []) := by
      split_ifs at hb with h1
      · cases hb
        obtain ⟨w, hw⟩ := h1.2
        exact ⟨[], by rw [← hw]; simp, .inr ⟨rfl, rfl⟩⟩
      · exact ⟨[10], by rw [cut_spec hb]; simp, .inl rfl⟩
    obtain ⟨nl, hr2, hnl'⟩ := hend
    refine ⟨⟨pre, t, w1 ++ w2, body, nl, trailer.drop (t.length + dashes.length), ?_, ?_, hnl', ?_⟩⟩
    · rw [texts_eq.1, texts_eq.2.1, texts_eq.2.2]
      conv_lhs => rw [hw1, hw2, hr2, ← ht, hpost]
      simp only [List.append_assoc]
    · intro hm
      exact hnl (by rw [← ht]; exact List.mem_append_left _ hm)
    · exact hb64

variable {Other : Type} (gen : Nat → Int → Option {k : PrivKey // k.Valid}) (other : Bytes → Option Other)

/-- C152: a key comes out of a file only if there is a block in the file, with a first line, the last line that belongs to it and base64
text, and then it is the key that is in the block. -/
theorem C152_block (file : Bytes) :
    (∀ k, newServer (rsaLib (keyTexts gen other)) file = some k → ∃ b, Spec.HasBlock b file ∧
      newServer (rsaLib (keyTexts gen other)) (pemText "private key" b) = some k) ∧
    (∀ k, newClient (rsaLib (keyTexts gen other)) file = .ok (some k) → ∃ b, Spec.HasBlock b file ∧
      newClient (rsaLib (keyTexts gen other)) (pemText "public key" b) = .ok (some k)) := by
  constructor
  · intro k h
    rw [newServer_eq] at h
    obtain ⟨b, hb, h⟩ := Option.bind_eq_some_iff.1 h
    exact ⟨b, pemBlock_only hb, by rw [newServer_eq, pem_private]; exact h⟩
  · intro k h
    cases hb : pemRead file with
    | none =>
      have hd : (rsaLib (keyTexts gen other)).pemDecode file = pemRead file := rfl
      unfold newClient at h
      rw [hd, hb] at h
      cases h
    | some b =>
      rw [newClient_eq gen other hb] at h
      exact ⟨b, pemBlock_only hb, by rw [newClient_eq gen other (pem_public b)]; exact h⟩

/-- C152: a public key that was read has positive numbers, and the bit string with it is the text of the numbers, followed by at most two bits
that are not used and zero. -/
theorem C152_bits (b : Bytes) (k : PubKey) (h : newClient (rsaLib (keyTexts gen other)) (pemText "public key" b) = .ok (some k)) :
    0 < k.n ∧ 0 < k.e ∧ ∃ t1 u r t2 t3, b = der 0x30 (der 0x30 (der 6 rsaOid ++ (5 :: 0 :: t1)) ++ (der 3 (u :: r) ++ t2)) ∧ u.toNat ≤ 2 ∧
      r.length = (der 0x30 (derInt k.n ++ (derInt k.e ++ t3))).length ∧
      ofBig r = ofBig (der 0x30 (derInt k.n ++ (derInt k.e ++ t3))) * 2 ^ u.toNat := by
  have hpos : 0 < k.n ∧ 0 < k.e := by
    rw [newClient_eq gen other (pem_public b)] at h
    cases hr : readPub other b with
    | none => rw [hr] at h; cases h
    | some x =>
      rw [hr] at h
      cases x with
      | inr o => cases h
      | inl k' =>
        have h : k' = k := by
          injection h with h
          injection h
        subst h
        simp only [readPub, Option.bind_eq_bind, Option.bind_eq_some_iff] at hr
        obtain ⟨⟨c, rest⟩, a0, ⟨alg, c1⟩, a1, ⟨oid, params⟩, a2, ⟨bits, c2⟩, a3, key, a4, hr⟩ := hr
        split at hr
        · split at hr
          · simp only [Option.bind_eq_some_iff, Option.ite_none_right_eq_some, Option.some.injEq] at hr
            obtain ⟨⟨c3, rest3⟩, a5, ⟨n, c4⟩, a6, ⟨e, c5⟩, a7, ⟨-, -, hn, he⟩, hk⟩ := hr
            cases hk
            exact ⟨by show 0 < n.toNat; omega, by show 0 < e.toNat; omega⟩
          · simp at hr
        · cases hr
  obtain ⟨t1, bits, t2, t3, h1, h2⟩ := (C152_only gen other b).2 k h
  refine ⟨hpos.1, hpos.2, ?_⟩
  cases bits with
  | nil => cases h2
  | cons u r =>
    simp only [bitString] at h2
    split_ifs at h2 with hc
    simp only [not_or] at hc
    obtain ⟨-, -, hm⟩ := hc
    have hm : ofBig r % 2 ^ u.toNat = 0 := by omega
    simp only [Option.some.injEq] at h2
    have hl := congrArg List.length h2
    rw [bigEndian_len] at hl
    have hlt := ofBig_lt r
    have hv := congrArg ofBig h2
    rw [ofBig_bigEndian _ _ (Nat.lt_of_le_of_lt (Nat.div_le_self _ _) hlt)] at hv
    have hmul : ofBig r = ofBig (der 0x30 (derInt k.n ++ (derInt k.e ++ t3))) * 2 ^ u.toNat := by
      rw [← hv, Nat.div_mul_cancel (Nat.dvd_of_mod_eq_zero hm)]
    refine ⟨t1, u, r, t2, t3, h1, ?_, hl, hmul⟩
    by_contra hu
    have h8 : 2 ^ 3 ≤ 2 ^ u.toNat := Nat.pow_le_pow_right (by decide) (by omega)
    rw [hmul, hl] at hlt
    rw [der, ofBig_cons, List.length_cons, Nat.pow_succ] at hlt
    generalize (derLen (derInt k.n ++ (derInt k.e ++ t3)).length ++ (derInt k.n ++ (derInt k.e ++ t3))) = w at hlt
    have h48 : (0x30 : UInt8).toNat = 48 := rfl
    rw [h48] at hlt
    have h3 : (48 * 256 ^ w.length + ofBig w) * 8 ≤ (48 * 256 ^ w.length + ofBig w) * 2 ^ u.toNat := Nat.mul_le_mul_left _ h8
    have h4 : 0 < 256 ^ w.length := Nat.pow_pos (by decide)
    omega

/-! ## Random bytes -/

variable {test : Nat → Bool} {stream : Nat → UInt8}

theorem randPrime_rounds {bits : Nat} : ∀ {fuel pos p pos' : Nat}, randPrime test stream bits fuel pos = .done (p, pos') →
    ∃ j, j < fuel ∧ pos' = pos + (j + 1) * ((bits + 7) / 8) ∧ p = tested bits (readFull stream (pos + j * ((bits + 7) / 8)) ((bits + 7) / 8)) ∧
      ∀ i < j, ¬ (test (tested bits (readFull stream (pos + i * ((bits + 7) / 8)) ((bits + 7) / 8))) = true ∧
        (tested bits (readFull stream (pos + i * ((bits + 7) / 8)) ((bits + 7) / 8))).size = bits)
  | 0, _, _, _, h => by simp [randPrime] at h
  | fuel + 1, pos, p, pos', h => by
    rw [randPrime] at h
    split at h
    · cases h
    simp only at h
    generalize hn : (bits + 7) / 8 = n at h ⊢
    split at h
    · simp only [Run.done.injEq, Prod.mk.injEq] at h
      exact ⟨0, by omega, by rw [← h.2]; simp, by rw [← h.1]; simp, by simp⟩
    · next ht =>
      simp only [Bool.and_eq_true, beq_iff_eq] at ht
      obtain ⟨j, h1, h2, h3, h4⟩ := randPrime_rounds h
      rw [hn] at h2 h3 h4
      have e : ∀ i, pos + n + i * n = pos + (i + 1) * n := fun i => by rw [Nat.succ_mul]; omega
      refine ⟨j + 1, by omega, by rw [h2, e], by rw [h3, e], fun i hi => ?_⟩
      cases i with
      | zero => simpa using ht
      | succ i => have := h4 i (by omega); rwa [e] at this

/-- C153: each try takes new random bytes: the prime is the first that passes of the numbers made from the pieces of the stream that follow
each other, and what is read next follows after its piece. -/
theorem C153_fresh {bits fuel pos p pos' : Nat} (h : randPrime test stream bits fuel pos = .done (p, pos')) :
    ∃ j, pos' = pos + (j + 1) * ((bits + 7) / 8) ∧ p = tested bits (readFull stream (pos + j * ((bits + 7) / 8)) ((bits + 7) / 8)) ∧
      ∀ i < j, ¬ (test (tested bits (readFull stream (pos + i * ((bits + 7) / 8)) ((bits + 7) / 8))) = true ∧
        (tested bits (readFull stream (pos + i * ((bits + 7) / 8)) ((bits + 7) / 8))).size = bits) := by
  obtain ⟨j, -, h⟩ := randPrime_rounds h
  exact ⟨j, h⟩

/-- The place in the stream where each piece of random bytes of a key begins, with the number of bits: first come the pieces for one prime, then for
the other, and if the pair is rejected this goes on with another pair. -/
inductive Tries (bits : Nat) : Nat → Nat → Nat → Prop
  | last {pos i j} : Tries bits pos (pos + i * ((bits / 2 + 7) / 8))
      (pos + (i + 1) * ((bits / 2 + 7) / 8) + j * ((bits - bits / 2 + 7) / 8))
  | next {pos i j a c} : Tries bits
      (pos + (i + 1) * ((bits / 2 + 7) / 8) + (j + 1) * ((bits - bits / 2 + 7) / 8)) a c → Tries bits pos a c

theorem genLoop_tries {bits : Nat} : ∀ {fuel pos : Nat} {k : PrivKey}, genLoop test stream bits fuel pos = .done k →
    ∃ a c, Tries bits pos a c ∧ k.p = tested (bits / 2) (readFull stream a ((bits / 2 + 7) / 8)) ∧
      k.q = tested (bits - bits / 2) (readFull stream c ((bits - bits / 2 + 7) / 8))
  | 0, _, _, h => by simp [genLoop] at h
  | fuel + 1, pos, k, h => by
    rw [genLoop] at h
    split at h
    · cases h
    · cases h
    next p pos1 h1 =>
    obtain ⟨-, -, -, -, hs⟩ := randPrime_done h1
    rw [hs] at h
    split at h
    · cases h
    · cases h
    next q pos2 h2 =>
    obtain ⟨i, a1, a2, -⟩ := C153_fresh h1
    obtain ⟨j, b1, b2, -⟩ := C153_fresh h2
    have hgo : genLoop test stream bits fuel pos2 = .done k → _ := genLoop_tries
    have hnext : genLoop test stream bits fuel pos2 = .done k →
        ∃ a c, Tries bits pos a c ∧ k.p = tested (bits / 2) (readFull stream a ((bits / 2 + 7) / 8)) ∧
          k.q = tested (bits - bits / 2) (readFull stream c ((bits - bits / 2 + 7) / 8)) := fun h => by
      obtain ⟨a, c, t1, t2⟩ := hgo h
      rw [b1, a1] at t1
      exact ⟨a, c, .next t1, t2⟩
    split at h
    · exact hnext h
    simp only at h
    split at h
    · exact hnext h
    split at h
    · cases h
      rw [a1] at b2
      exact ⟨_, _, .last, a2, b2⟩
    · exact hnext h

theorem Tries.order {bits pos a c : Nat} (h : Tries bits pos a c) : pos ≤ a ∧ a + (bits / 2 + 7) / 8 ≤ c := by
  induction h with
  | last => constructor <;> (try rw [Nat.succ_mul]) <;> omega
  | next _ ih => omega

/-- C153: the two primes of a key are made from different random bytes: those of the second come after those of the first. -/
theorem C153_apart {fuel : Nat} {bits : Int} {k : PrivKey} (h : generateKey test stream fuel bits = .done k) :
    ∃ a c, a + (bits.toNat / 2 + 7) / 8 ≤ c ∧ k.p = tested (bits.toNat / 2) (readFull stream a ((bits.toNat / 2 + 7) / 8)) ∧
      k.q = tested (bits.toNat - bits.toNat / 2) (readFull stream c ((bits.toNat - bits.toNat / 2 + 7) / 8)) := by
  unfold generateKey at h
  split at h
  · cases h
  · obtain ⟨a, c, h1, h2⟩ := genLoop_tries h
    exact ⟨a, c, h1.order.2, h2⟩

/-! ## Concrete cases -/

/-- C152_block, C152_bits: the text of the example key is read. -/
example : newClient (rsaLib (keyTexts exampleGen (fun _ => (none : Option Unit)))) (pemText "public key" (marshalPub exampleKey.pub)) =
    .ok (some exampleKey.pub) := by
  rw [newClient_eq _ _ (pem_public _), readPub_marshal exampleKey_valid]

/-- C152_block: a file without the last line. -/
example : newServer (rsaLib (keyTexts exampleGen (fun _ => (none : Option Unit)))) "-----BEGIN K-----\nAQ==\n".toUTF8.toList = none := by
  rw [newServer_eq, show pemRead "-----BEGIN K-----\nAQ==\n".toUTF8.toList = none by decide +kernel]
  rfl

/-- C153_fresh: the first byte gives 31, which is refused here; the second gives 25, after which 29 is the next number to test. -/
example : randPrime (fun p => p = 29) (fun i => if i = 0 then 255 else 0) 5 3 0 = .done (29, 2) := by decide +kernel

end Verif.Rsa
