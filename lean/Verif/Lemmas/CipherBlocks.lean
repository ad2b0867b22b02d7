import Verif.Lemmas.Ciphers
/-!
# Ciphers block by block
-/
set_option linter.unusedSectionVars false

namespace Verif.Crypto

/-! ## Blocks -/

/-- Block `i` of a byte string, for blocks of `bs` bytes. -/
def blockAt (bs : Nat) (l : Bytes) (i : Nat) : Bytes := (l.drop (i * bs)).take bs

theorem blocks_cons (f : Bytes → Bytes) {bs : Nat} (h : 0 < bs) {b l : Bytes} (hb : b.length = bs) :
    blocks f bs (b ++ l) = f b ++ blocks f bs l := by
  rw [blocks, if_neg, List.take_left' hb, List.drop_left' hb]
  rintro (h0 | h0)
  · omega
  · have := congrArg List.length h0
    rw [List.length_append, List.length_nil] at this; omega

theorem blocks_nil (f : Bytes → Bytes) (bs : Nat) : blocks f bs [] = [] := by rw [blocks, if_pos (.inr rfl)]

/-- Induction over whole blocks. -/
theorem blocks_ind {bs : Nat} {P : Bytes → Prop} (h0 : P []) (h1 : ∀ b l, b.length = bs → P l → P (b ++ l)) :
    ∀ (n : Nat) (l : Bytes), l.length = n * bs → P l := by
  intro n
  induction n with
  | zero =>
    intro l hl
    have : l = [] := List.length_eq_zero_iff.1 (by omega)
    exact this ▸ h0
  | succ n ih =>
    intro l hl
    rw [Nat.succ_mul] at hl
    rw [← List.take_append_drop bs l]
    exact h1 _ _ (by rw [List.length_take]; omega) (ih _ (by rw [List.length_drop]; omega))

theorem blocks_comp (f g : Bytes → Bytes) {bs : Nat} (h : 0 < bs) (hf : ∀ b, b.length = bs → (f b).length = bs) (n : Nat) (l : Bytes)
    (hl : l.length = n * bs) : blocks g bs (blocks f bs l) = blocks (fun b => g (f b)) bs l := by
  refine blocks_ind (P := fun l => blocks g bs (blocks f bs l) = blocks (fun b => g (f b)) bs l) ?_ ?_ n l hl
  · simp only [blocks_nil]
  · intro b l hb ih
    rw [blocks_cons f h hb, blocks_cons g h (hf b hb), blocks_cons _ h hb, ih]

theorem blocks_congr (f g : Bytes → Bytes) {bs : Nat} (h : 0 < bs) (hf : ∀ b, b.length = bs → f b = g b) (n : Nat) (l : Bytes)
    (hl : l.length = n * bs) : blocks f bs l = blocks g bs l := by
  refine blocks_ind (P := fun l => blocks f bs l = blocks g bs l) ?_ ?_ n l hl
  · simp only [blocks_nil]
  · intro b l hb ih
    rw [blocks_cons f h hb, blocks_cons g h hb, ih, hf b hb]

theorem blockAt_zero {bs : Nat} {b l : Bytes} (hb : b.length = bs) : blockAt bs (b ++ l) 0 = b := by
  simp only [blockAt, Nat.zero_mul, List.drop_zero]
  exact List.take_left' hb

theorem blockAt_succ {bs : Nat} {b l : Bytes} (hb : b.length = bs) (i : Nat) : blockAt bs (b ++ l) (i + 1) = blockAt bs l i := by
  simp only [blockAt]
  rw [show (i + 1) * bs = b.length + i * bs by rw [Nat.succ_mul]; omega, ← List.drop_drop, List.drop_left' rfl]

theorem blockAt_blocks (f : Bytes → Bytes) {bs : Nat} (h : 0 < bs) (hf : ∀ b, b.length = bs → (f b).length = bs) (n : Nat) (l : Bytes)
    (hl : l.length = n * bs) : ∀ i, i * bs < l.length → blockAt bs (blocks f bs l) i = f (blockAt bs l i) := by
  refine blocks_ind (P := fun l => ∀ i, i * bs < l.length → blockAt bs (blocks f bs l) i = f (blockAt bs l i)) ?_ ?_ n l hl
  · intro i hi; simp at hi
  · intro b l hb ih i hi
    rw [blocks_cons f h hb]
    cases i with
    | zero => rw [blockAt_zero (hf b hb), blockAt_zero hb]
    | succ i =>
      rw [blockAt_succ (hf b hb), blockAt_succ hb]
      exact ih i (by rw [Nat.succ_mul, List.length_append] at hi; omega)

/-- What `TripleDesEncrypt` computes. -/
theorem triple_eq (C : Cipher) (hC : IsDes C) (data key : Bytes) :
    tripleEncrypt C data key = .ok (some (blocks (fun b => C.enc ((tkey key).drop 16) (C.dec (((tkey key).take 16).drop 8) (C.enc ((tkey key).take 8) b))) 8
      (data ++ List.replicate (8 - data.length % 8) 0))) := by
  have hb := hC.1
  set p := data ++ List.replicate (8 - data.length % 8) 0 with hp
  have hpl : p.length = (data.length / 8 + 1) * 8 := by
    rw [hp, List.length_append, List.length_replicate]; omega
  have e (k : Bytes) : ∀ b : Bytes, b.length = 8 → (C.enc k b).length = 8 := by
    intro b h; rw [← hb] at *; exact C.enc_len k b h
  have d (k : Bytes) : ∀ b : Bytes, b.length = 8 → (C.dec k b).length = 8 := by
    intro b h; rw [← hb] at *; exact C.dec_len k b h
  have l1 := blocks_length _ 8 (e ((tkey key).take 8)) _ p (by decide) hpl
  have l2 := blocks_length _ 8 (d (((tkey key).take 16).drop 8)) _ _ (by decide) l1
  have hz : zeroPadding data (C.bs : Int) = .ok p := by rw [hb]; exact zeroPadding_ok data
  simp only [tripleEncrypt]
  rw [if_neg (by rw [hC.2, k1_length]; simp), hz]
  simp only [Res.bind_ok, Res.pure_eq, Res.ok.injEq]
  rw [encrypt_ok hC (k1_length key) (by omega) (by omega)]
  simp only [Option.bind_eq_bind, Option.bind_some]
  rw [decrypt_ok hC (k2_length key) (by omega) (by omega)]
  simp only [Option.bind_some]
  rw [encrypt_ok hC (k3_length key) (by omega) (by omega)]
  rw [blocks_comp _ _ (by decide) (e _) _ p hpl, blocks_comp _ _ (by decide) (fun b hb => d _ _ (e _ b hb)) _ p hpl]

/-! ## CBC -/

theorem cbcEnc_cons (C : Cipher) (h : 0 < C.bs) (key iv : Bytes) {b l : Bytes} (hb : b.length = C.bs) :
    cbcEnc C key iv (b ++ l) = (C.enc key (xor b iv) ++ (cbcEnc C key (C.enc key (xor b iv)) l).1, (cbcEnc C key (C.enc key (xor b iv)) l).2) := by
  rw [cbcEnc, if_neg, List.take_left' hb, List.drop_left' hb]
  rintro (h0 | h0)
  · omega
  · have := congrArg List.length h0
    rw [List.length_append, List.length_nil] at this; omega

theorem cbcDec_cons (C : Cipher) (h : 0 < C.bs) (key iv : Bytes) {b l : Bytes} (hb : b.length = C.bs) :
    cbcDec C key iv (b ++ l) = (xor (C.dec key b) iv ++ (cbcDec C key b l).1, (cbcDec C key b l).2) := by
  rw [cbcDec, if_neg, List.take_left' hb, List.drop_left' hb]
  rintro (h0 | h0)
  · omega
  · have := congrArg List.length h0
    rw [List.length_append, List.length_nil] at this; omega

theorem cbcDec_nil (C : Cipher) (key iv : Bytes) : cbcDec C key iv [] = ([], iv) := by rw [cbcDec, if_pos (.inr rfl)]

theorem cbcEnc_nil (C : Cipher) (key iv : Bytes) : cbcEnc C key iv [] = ([], iv) := by rw [cbcEnc, if_pos (.inr rfl)]

theorem cbcDec_length (C : Cipher) (h : 0 < C.bs) (key : Bytes) (n : Nat) (l : Bytes) (hl : l.length = n * C.bs) :
    ∀ iv, iv.length = C.bs → (cbcDec C key iv l).1.length = l.length := by
  refine blocks_ind (P := fun l => ∀ iv, iv.length = C.bs → (cbcDec C key iv l).1.length = l.length) ?_ ?_ n l hl
  · intro iv _; rw [cbcDec_nil]
  · intro b l hb ih iv hi
    rw [cbcDec_cons C h key iv hb]
    simp only [List.length_append, ih b hb, xor_length (C.dec_len key b hb) hi, hb]

/-- The last block depends on the last two blocks only. -/
theorem cbcDec_last (C : Cipher) (h : 0 < C.bs) (key : Bytes) (n : Nat) (l : Bytes) (hl : l.length = n * C.bs) {x y : Bytes}
    (hx : x.length = C.bs) (hy : y.length = C.bs) :
    ∀ iv, (cbcDec C key iv (l ++ (x ++ y))).1 = (cbcDec C key iv (l ++ x)).1 ++ xor (C.dec key y) x := by
  refine blocks_ind (P := fun l => ∀ iv, (cbcDec C key iv (l ++ (x ++ y))).1 = (cbcDec C key iv (l ++ x)).1 ++ xor (C.dec key y) x) ?_ ?_ n l hl
  · intro iv
    have e1 := cbcDec_cons C h key iv (b := x) (l := []) hx
    have e2 := cbcDec_cons C h key x (b := y) (l := []) hy
    rw [List.append_nil] at e1 e2
    rw [List.nil_append, List.nil_append, cbcDec_cons C h key iv hx, e1, e2, cbcDec_nil, cbcDec_nil]
    simp only [List.append_nil]
  · intro b l hb ih iv
    rw [List.append_assoc, List.append_assoc, cbcDec_cons C h key iv hb, cbcDec_cons C h key iv hb]
    simp only [ih b, List.append_assoc]

theorem xor_inj {a b c : Bytes} (h1 : a.length = c.length) (h2 : b.length = c.length) (h : xor a c = xor b c) : a = b := by
  have := congrArg (fun x => xor x c) h
  simpa only [xor_cancel _ _ h1, xor_cancel _ _ h2] using this

theorem enc_inj (C : Cipher) (key : Bytes) {a b : Bytes} (h1 : a.length = C.bs) (h2 : b.length = C.bs) (h : C.enc key a = C.enc key b) : a = b := by
  have := congrArg (C.dec key) h
  rwa [C.dec_enc key a h1, C.dec_enc key b h2] at this

theorem dec_inj (C : Cipher) (key : Bytes) {a b : Bytes} (h1 : a.length = C.bs) (h2 : b.length = C.bs) (h : C.dec key a = C.dec key b) : a = b := by
  have := congrArg (C.enc key) h
  rwa [C.enc_dec key a h1, C.enc_dec key b h2] at this

/-- Two messages under one key and chaining value have the same blocks in front exactly as far as their ciphertexts have. -/
theorem cbcEnc_prefix (C : Cipher) (h : 0 < C.bs) (key : Bytes) (n : Nat) : ∀ (iv l l' r r' : Bytes), iv.length = C.bs → l.length = n * C.bs →
    l'.length = n * C.bs → ((cbcEnc C key iv (l ++ r)).1.take (n * C.bs) = (cbcEnc C key iv (l' ++ r')).1.take (n * C.bs) ↔ l = l') := by
  induction n with
  | zero =>
    intro iv l l' r r' _ hl hl'
    have e : l = [] := List.length_eq_zero_iff.1 (by omega)
    have e' : l' = [] := List.length_eq_zero_iff.1 (by omega)
    simp [e, e']
  | succ n ih =>
    intro iv l l' r r' hi hl hl'
    rw [Nat.succ_mul] at hl hl'
    obtain ⟨b, t, hb, rfl, ht⟩ : ∃ b t, b.length = C.bs ∧ l = b ++ t ∧ t.length = n * C.bs :=
      ⟨l.take C.bs, l.drop C.bs, by rw [List.length_take]; omega, (List.take_append_drop _ _).symm, by rw [List.length_drop]; omega⟩
    obtain ⟨b', t', hb', rfl, ht'⟩ : ∃ b t, b.length = C.bs ∧ l' = b ++ t ∧ t.length = n * C.bs :=
      ⟨l'.take C.bs, l'.drop C.bs, by rw [List.length_take]; omega, (List.take_append_drop _ _).symm, by rw [List.length_drop]; omega⟩
    have x1 := xor_length hb hi
    have x2 := xor_length hb' hi
    have e1 := C.enc_len key _ x1
    have e2 := C.enc_len key _ x2
    rw [List.append_assoc, List.append_assoc, cbcEnc_cons C h key iv hb, cbcEnc_cons C h key iv hb']
    simp only []
    have tk : ∀ {x y : Bytes}, x.length = C.bs → (x ++ y).take ((n + 1) * C.bs) = x ++ y.take (n * C.bs) := by
      intro x y hx
      rw [show (n + 1) * C.bs = x.length + n * C.bs by rw [Nat.succ_mul, hx]; omega, List.take_length_add_append]
    rw [tk e1, tk e2]
    constructor
    · intro hh
      obtain ⟨h1, h2⟩ := List.append_inj hh (by rw [e1, e2])
      have hbb : b = b' := xor_inj (by rw [hb, hi]) (by rw [hb', hi]) (enc_inj C key x1 x2 h1)
      subst hbb
      rw [(ih _ t t' r r' e1 ht ht').mp h2]
    · intro hh
      obtain ⟨h1, h2⟩ := List.append_inj hh (by rw [hb, hb'])
      subst h1
      rw [(ih _ t t' r r' e1 ht ht').mpr h2]

end Verif.Crypto
