import Verif.Model.StringHash
import Verif.Props.Hash
import Verif.Props.Duration
/-!
# String hashes (C91)
-/

set_option linter.unusedSectionVars false

namespace Verif.Hash

/-- The digest the methods 1 to 7 are named after. -/
def Spec.methodDigest (L : Std) (method : Nat) (s : Bytes) : Bytes :=
  match method with
  | 1 => Spec.digest (L .md5) s
  | 2 => Spec.digest (L .sha1) s
  | 3 => Spec.digest (L .sha256) s
  | 4 => Spec.digest (L .sha512) s
  | 5 => Spec.digest (L .crc32) s
  | 6 => Spec.digest (L .crc64) s
  | _ => Spec.bigEndian 6 (s.length % 2 ^ 48) ++ ((Spec.digest (L .md5) s).drop 4).take 6 ++
      ((Spec.digest (L .sha1) s).drop 7).take 6 ++ ((Spec.digest (L .crc64) s).drop 1).take 6

/-- The sizes of the digests, for the methods 1 to 7. -/
def Spec.methodSize : Nat → Nat
  | 1 => 16
  | 2 => 20
  | 3 => 32
  | 4 => 64
  | 5 => 4
  | 6 => 8
  | _ => 24

/-- The interface of the six hash functions. -/
def StdSizes (L : Std) : Prop :=
  (L .md5).size = 16 ∧ (L .sha1).size = 20 ∧ (L .sha256).size = 32 ∧ (L .sha512).size = 64 ∧ (L .crc32).size = 4 ∧ (L .crc64).size = 8

theorem fp_new_sum (L : Std) (hL : StdSizes L) (s : Bytes) :
    ((FP.new : FP (L .md5) (L .sha1) (L .crc64)).write s).1.sum [] = Spec.methodDigest L 7 s := by
  have := (C52_content (M := (L .md5)) (S := (L .sha1)) (C := (L .crc64)) ⟨hL.1, hL.2.1, hL.2.2.2.2.2⟩ [s] []).1
  simpa [FP.writes, Spec.methodDigest] using this

theorem hexBytes_inj : ∀ a b : Bytes, hexBytes a = hexBytes b → a = b := by
  have key : ∀ x y : Fin 256, [hexDigit (x.1 / 16), hexDigit (x.1 % 16)] = [hexDigit (y.1 / 16), hexDigit (y.1 % 16)] →
      x = y := by
    have h16 : ∀ x y : Fin 16, hexDigit x.1 = hexDigit y.1 → x = y := by decide
    intro x y h
    have h1 := h16 ⟨x.1 / 16, by omega⟩ ⟨y.1 / 16, by omega⟩ (by simpa using (List.cons.inj h).1)
    have h2 := h16 ⟨x.1 % 16, by omega⟩ ⟨y.1 % 16, by omega⟩ (by simpa using (List.cons.inj (List.cons.inj h).2).1)
    simp only [Fin.mk.injEq] at h1 h2
    apply Fin.ext; omega
  intro a
  induction a with
  | nil => intro b h; cases b with
    | nil => rfl
    | cons x b => simp [hexBytes] at h
  | cons x a ih => intro b h; cases b with
    | nil => simp [hexBytes] at h
    | cons y b =>
      simp only [hexBytes, List.flatMap_cons] at h
      have h' := List.append_inj h rfl
      have e := key ⟨x.toNat, x.toNat_lt⟩ ⟨y.toNat, y.toNat_lt⟩ h'.1
      simp only [Fin.mk.injEq] at e
      rw [UInt8.toNat_inj.1 e, ih b h'.2]

theorem hexBytes_length (b : Bytes) : (hexBytes b).length = 2 * b.length := by
  induction b with
  | nil => rfl
  | cons x b ih => simp only [hexBytes, List.flatMap_cons, List.length_append, List.length_cons, List.length_nil] at *; omega

theorem methodDigest_length (L : Std) (hL : StdSizes L) (m : Nat) (h1 : 1 ≤ m) (h7 : m ≤ 7) (s : Bytes) :
    (Spec.methodDigest L m s).length = Spec.methodSize m := by
  obtain ⟨a, b, c, d, e, f⟩ := hL
  interval_cases m <;>
    simp [Spec.methodDigest, Spec.methodSize, Spec.digest, Alg.sum_length, a, b, c, d, e, f, bigEndian_length]

/-- **C91** (text).  For the methods 1 to 7 and every string: `StringHash` returns, whatever was hashed before and
without changing anything; the text is the digest the method is named after, in lower case hexadecimal, two digits per
byte, most significant first. -/
theorem C91_text (L : Std) (hL : StdSizes L) (gId : BitVec 32) (m : Nat) (h1 : 1 ≤ m) (h7 : m ≤ 7) (s : Bytes) :
    ∃ t, stringHash L gId m s = .ok (gId, t) ∧ t = (Spec.methodDigest L m s).flatMap Spec.hexByte ∧
      t.length = 2 * Spec.methodSize m := by
  have hlen := methodDigest_length L hL m h1 h7 s
  refine ⟨_, ?_, rfl, ?_⟩
  · rw [← hexBytes_eq]
    have h7' := fp_new_sum L hL s
    interval_cases m <;> first | rfl | (simp only [stringHash, newHash, Res.bind_ok, Obj.write, Obj.sum, h7', Res.pure_eq])
  · rw [← hexBytes_eq, hexBytes_length, hlen]

/-- **C91** (equal texts mean equal digests), for the methods 1 to 7. -/
theorem C91_injective (L : Std) (hL : StdSizes L) (g g' : BitVec 32) (m : Nat) (h1 : 1 ≤ m) (h7 : m ≤ 7) (s s' : Bytes)
    (t t' : List Char) (h : stringHash L g m s = .ok (g, t)) (h' : stringHash L g' m s' = .ok (g', t')) :
    t = t' ↔ Spec.methodDigest L m s = Spec.methodDigest L m s' := by
  obtain ⟨u, hu, eu, -⟩ := C91_text L hL g m h1 h7 s
  obtain ⟨u', hu', eu', -⟩ := C91_text L hL g' m h1 h7 s'
  obtain rfl : u = t := by rw [hu] at h; injection h with h; exact (Prod.mk.inj h).2
  obtain rfl : u' = t' := by rw [hu'] at h'; injection h' with h'; exact (Prod.mk.inj h').2
  rw [eu, eu', ← hexBytes_eq, ← hexBytes_eq]
  exact ⟨hexBytes_inj _ _, fun e => by rw [e]⟩

theorem dec10_spec (n : Nat) : (∀ c ∈ dec10 n, Duration.isDigit c = true) ∧ Duration.Spec.dec (dec10 n) = n ∧
    10 ≤ (dec10 n).length := by
  have h := Duration.decimal_spec n
  unfold Duration.decimal at h
  have hz : ∀ k (l : List Char), Duration.Spec.dec (List.replicate k '0' ++ l) = Duration.Spec.dec l := by
    intro k l
    induction k with
    | zero => rfl
    | succ k ih => rw [List.replicate_succ]; exact ih
  refine ⟨?_, ?_, ?_⟩
  · intro c hc
    rcases List.mem_append.1 hc with hc | hc
    · rw [(List.mem_replicate.1 hc).2]; decide
    · exact h.2.1 c hc
  · rw [dec10, hz, h.1]
  · simp only [dec10, List.length_append, List.length_replicate]; omega

/-- **C91** (with length).  For the methods 1 to 7: the text of `StringHashL` is the number of bytes of the string in
decimal, with at least ten digits, a dash, and the text of `StringHash`. -/
theorem C91_length (L : Std) (g : BitVec 32) (m : Nat) (h1 : 1 ≤ m) (h7 : m ≤ 7) (s : Bytes) :
    ∃ num t, stringHash L g m s = .ok (g, t) ∧ stringHashL L g m s = .ok (g, num ++ '-' :: t) ∧
      (∀ c ∈ num, Duration.isDigit c = true) ∧ 10 ≤ num.length ∧ Duration.Spec.dec num = s.length := by
  obtain ⟨a, b, c⟩ := dec10_spec s.length
  refine ⟨dec10 s.length, ?_⟩
  interval_cases m <;> exact ⟨_, rfl, by simp [stringHashL, newHash, Obj.write, FP.write], a, c, b⟩

/-- **C91** (consequence): two strings with the same text of `StringHashL` have the same number of bytes and the same
text of `StringHash`, whatever the hash functions do. -/
theorem C91_length_injective (L : Std) (g g' k k' : BitVec 32) (m : Nat) (h1 : 1 ≤ m) (h7 : m ≤ 7) (s s' : Bytes)
    (t : List Char) (h : stringHashL L g m s = .ok (k, t)) (h' : stringHashL L g' m s' = .ok (k', t)) :
    s.length = s'.length ∧ ∃ u, stringHash L g m s = .ok (k, u) ∧ stringHash L g' m s' = .ok (k', u) := by
  have key : ∀ (g k : BitVec 32) (s : Bytes), stringHashL L g m s = .ok (k, t) →
      stringHash L g m s = .ok (k, (t.dropWhile (· != '-')).tail) ∧ Duration.Spec.dec (t.takeWhile (· != '-')) = s.length := by
    intro g k s h
    obtain ⟨num, u, e, el, hd, -, hv⟩ := C91_length L g m h1 h7 s
    rw [el] at h
    simp only [Res.ok.injEq, Prod.mk.injEq] at h
    obtain ⟨rfl, rfl⟩ := h
    have hnd : ∀ c ∈ num, (c != '-') = true := by
      intro c hc
      rw [bne_iff_ne]
      rintro rfl
      exact absurd (hd _ hc) (by decide)
    rw [List.dropWhile_append_of_pos hnd, List.takeWhile_append_of_pos hnd]
    simp [hv, e]
  obtain ⟨a, b⟩ := key g k s h
  obtain ⟨a', b'⟩ := key g' k' s' h'
  exact ⟨by rw [← b, ← b'], _, a, a'⟩

/-- **C91** (NONE).  With the method NONE the text does not depend on the string: it is the number of `NoneHash` objects
made so far, so hashing one string twice gives two different texts; and the length in front of the text of
`StringHashL` is always 0. -/
theorem C91_none (L : Std) (g : BitVec 32) (s s' : Bytes) :
    stringHash L g 0 s = .ok (g + 1, (Spec.bigEndian 4 (g + 1).toNat).flatMap Spec.hexByte) ∧
    ∃ t t', stringHash L g 0 s = .ok (g + 1, t) ∧ stringHash L (g + 1) 0 s' = .ok (g + 2, t') ∧ t ≠ t' ∧
      stringHashL L g 0 s = .ok (g + 1, "0000000000-".toList ++ t) := by
  have e : ∀ (g : BitVec 32) (s : Bytes),
      stringHash L g 0 s = .ok (g + 1, (Spec.bigEndian 4 (g + 1).toNat).flatMap Spec.hexByte) := by
    intro g s
    rw [← hexBytes_eq, ← noneSum_eq]; rfl
  refine ⟨e g s, _, (Spec.bigEndian 4 (g + 2).toNat).flatMap Spec.hexByte, e g s, ?_, ?_, ?_⟩
  · rw [e]
    have : g + 1 + 1 = g + 2 := by rw [BitVec.add_assoc]; rfl
    rw [this]
  · rw [← hexBytes_eq, ← hexBytes_eq]
    intro h
    have h := bigEndian_inj 4 _ _ (by have := (g + 1).isLt; omega) (by have := (g + 2).isLt; omega) (hexBytes_inj _ _ h)
    rw [BitVec.toNat_add, BitVec.toNat_add] at h
    have h1 : (1 : BitVec 32).toNat = 1 := rfl
    have h2 : (2 : BitVec 32).toNat = 2 := rfl
    omega
  · rw [← hexBytes_eq, ← noneSum_eq]; rfl

/-- **C91** (unknown methods): exactly the numbers above 7 panic. -/
theorem C91_unknown (L : Std) (g : BitVec 32) (m : Nat) (s : Bytes) : stringHash L g m s = .panic ↔ 7 < m := by
  constructor
  · intro h
    by_contra hm
    have : m ≤ 7 := by omega
    interval_cases m <;> simp [stringHash, newHash] at h
  · intro h
    match m, h with
    | m + 8, _ => rfl

/-- Toy hash functions with the right sizes. -/
def toyStd : Std
  | .md5 => toyAlg 16
  | .sha1 => toyAlg 20
  | .sha256 => toyAlg 32
  | .sha512 => toyAlg 64
  | .crc32 => toyAlg 4
  | .crc64 => toyAlg 8

example : StdSizes toyStd := ⟨rfl, rfl, rfl, rfl, rfl, rfl⟩
example : stringHash toyStd 5 5 [1, 2, 250] = .ok (5, "fdfdfdfd".toList) := by decide +kernel
example : stringHashL toyStd 5 5 [1, 2, 250] = .ok (5, "0000000003-fdfdfdfd".toList) := by decide +kernel
example : stringHash toyStd 5 7 [1] = .ok (5, "000000000001010101010101010101010101010101010101".toList) := by decide +kernel
example : stringHash toyStd 0x10 0 [1, 2] = .ok (0x11, "00000011".toList) := by decide +kernel
example : stringHash toyStd 0 8 [1, 2] = .panic := by decide +kernel

theorem toyStd_sizes : StdSizes toyStd := ⟨rfl, rfl, rfl, rfl, rfl, rfl⟩

example := C91_text toyStd toyStd_sizes 5 5 (by decide) (by decide) [1, 2, 250]
example := C91_injective toyStd toyStd_sizes 5 9 5 (by decide) (by decide) [1, 2, 250] [3, 250] "fdfdfdfd".toList "fdfdfdfd".toList
  (by decide +kernel) (by decide +kernel)
example := C91_length toyStd 5 5 (by decide) (by decide) [1, 2, 250]

example := C91_length_injective toyStd 5 9 5 9 5 (by decide) (by decide) [1, 2, 250] [3, 250, 0] "0000000003-fdfdfdfd".toList
  (by decide +kernel) (by decide +kernel)

end Verif.Hash
