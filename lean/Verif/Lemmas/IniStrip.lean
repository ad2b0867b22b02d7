import Verif.Lemmas.IniRunes
/-!
# Taking white space off both ends of a sequence of bytes
-/

set_option linter.unusedSectionVars false

namespace Verif.IniBytes

/-- No word begins another one. -/
def PrefixFree (ws : List Bytes) : Prop := ∀ w ∈ ws, ∀ w' ∈ ws, w <+: w' → w = w'

instance (ws : List Bytes) : Decidable (PrefixFree ws) := by unfold PrefixFree; infer_instance

theorem whites_free : PrefixFree Spec.whites := by decide +kernel
theorem whites_free' : PrefixFree (Spec.whites.map List.reverse) := by decide +kernel

theorem find_word (ws : List Bytes) (hf : PrefixFree ws) (w : Bytes) (hw : w ∈ ws) (s : Bytes) :
    ws.find? (fun x => x.isPrefixOf (w ++ s)) = some w := by
  cases h : ws.find? (fun x => x.isPrefixOf (w ++ s)) with
  | none =>
    exfalso
    exact List.find?_eq_none.1 h w hw (List.isPrefixOf_iff_prefix.2 (List.prefix_append _ _))
  | some x =>
    have h0 := List.find?_some h
    have h1 := List.isPrefixOf_iff_prefix.1 h0
    have h2 := List.mem_of_find?_eq_some h
    rcases List.prefix_or_prefix_of_prefix h1 (List.prefix_append w s) with h3 | h3
    · rw [hf x h2 w hw h3]
    · rw [hf w hw x h2 h3]

theorem lstrip_stop (ws : List Bytes) (n : Nat) (t : Bytes) (h : ∀ w ∈ ws, ¬ w <+: t) : Spec.lstrip ws n t = t := by
  cases n with
  | zero => rfl
  | succ n =>
    have : ws.find? (fun x => x.isPrefixOf t) = none := by
      rw [List.find?_eq_none]
      intro w hw hp
      exact h w hw (List.isPrefixOf_iff_prefix.1 hp)
    rw [Spec.lstrip, this]

theorem lstrip_words (ws : List Bytes) (hf : PrefixFree ws) (pre : List Bytes) (hp : ∀ w ∈ pre, w ∈ ws) (t : Bytes)
    (h : ∀ w ∈ ws, ¬ w <+: t) (n : Nat) (hn : pre.length ≤ n) : Spec.lstrip ws n (pre.flatten ++ t) = t := by
  induction pre generalizing n with
  | nil => exact lstrip_stop ws n t h
  | cons w pre ih =>
    cases n with
    | zero => simp at hn
    | succ n =>
      have hw := hp w (by simp)
      rw [Spec.lstrip, List.flatten_cons, List.append_assoc, find_word ws hf w hw]
      simp only [List.drop_left]
      exact ih (fun x hx => hp x (by simp [hx])) n (by simpa using hn)

theorem lstrip_exists (ws : List Bytes) (h0 : ∀ w ∈ ws, w ≠ []) (n : Nat) (s : Bytes) (hn : s.length ≤ n) :
    (∃ pre : List Bytes, (∀ w ∈ pre, w ∈ ws) ∧ s = pre.flatten ++ Spec.lstrip ws n s) ∧
    ∀ w ∈ ws, ¬ w <+: Spec.lstrip ws n s := by
  induction n generalizing s with
  | zero =>
    obtain rfl : s = [] := List.length_eq_zero_iff.1 (by omega)
    refine ⟨⟨[], by simp, rfl⟩, fun w hw hp => h0 w hw ?_⟩
    exact List.prefix_nil.1 hp
  | succ n ih =>
    rw [Spec.lstrip]
    cases h : ws.find? (fun x => x.isPrefixOf s) with
    | none =>
      refine ⟨⟨[], by simp, rfl⟩, fun w hw hp => ?_⟩
      exact List.find?_eq_none.1 h w hw (List.isPrefixOf_iff_prefix.2 hp)
    | some w =>
      obtain ⟨h1, h2⟩ := find_front _ _ _ h
      have hl : 0 < w.length := List.length_pos_iff.2 (h0 w h1)
      obtain ⟨⟨pre, h3, h4⟩, h5⟩ := ih (s.drop w.length) (by rw [List.length_drop]; omega)
      refine ⟨⟨w :: pre, ?_, ?_⟩, h5⟩
      · intro x hx
        rcases List.mem_cons.1 hx with rfl | hx
        · exact h1
        · exact h3 x hx
      · simp only [List.flatten_cons, List.append_assoc]
        rw [← h4]; exact h2

theorem whites_ne : ∀ w ∈ Spec.whites, w ≠ [] := by
  intro w hw e
  obtain ⟨a, r, h, -⟩ := white_pos w hw
  rw [e] at h; cases h

theorem whites_ne' : ∀ w ∈ Spec.whites.map List.reverse, w ≠ [] := by
  intro w hw e
  obtain ⟨x, hx, rfl⟩ := List.mem_map.1 hw
  exact whites_ne x hx (List.reverse_eq_nil_iff.1 e)

/-- The bytes of a white-space word after the first one continue a rune. -/
theorem white_tail (w : Bytes) (hw : w ∈ Spec.whites) (u : Bytes) (a : UInt8) (r : Bytes) (h : w = u ++ a :: r)
    (hu : u ≠ []) : runeStart a = false := by
  obtain ⟨x, u, rfl⟩ := List.exists_cons_of_ne_nil hu
  rcases (whites_shape w hw).2.2 with ⟨y, e, -⟩ | ⟨y, b, e, -, hb⟩ | ⟨y, b, c, e, -, hb, hc⟩
  · rw [e] at h; simp at h
  · rw [e] at h
    cases u with
    | nil => simp at h; rw [← h.2.1]; exact hb
    | cons z u => simp at h
  · rw [e] at h
    cases u with
    | nil => simp at h; rw [← h.2.1]; exact hb
    | cons z u =>
      cases u with
      | nil => simp at h; rw [← h.2.2.1]; exact hc
      | cons z' u => simp at h

/-- No word runs over the end of `t` into white space behind it. -/
theorem no_straddle (t : Bytes) (ht : t ≠ []) (h : ∀ w ∈ Spec.whites, ¬ w <+: t) (s : Bytes)
    (hs : ∀ b ∈ s.head?, runeStart b = true) : ∀ w ∈ Spec.whites, ¬ w <+: t ++ s := by
  intro w hw hp
  rcases List.prefix_or_prefix_of_prefix hp (List.prefix_append t s) with h1 | ⟨q, h1⟩
  · exact h w hw h1
  · obtain ⟨y, hy⟩ := hp
    cases q with
    | nil => rw [List.append_nil] at h1; exact h w hw ⟨[], by rw [h1]; simp⟩
    | cons a q =>
      have h2 := white_tail w hw t a q h1.symm ht
      rw [← h1, List.append_assoc] at hy
      have := List.append_cancel_left hy
      rw [← this] at hs
      have := hs a (by simp)
      rw [this] at h2; cases h2

theorem flatten_head (post : List Bytes) (hp : ∀ w ∈ post, w ∈ Spec.whites) :
    ∀ b ∈ post.flatten.head?, runeStart b = true := by
  cases post with
  | nil => simp
  | cons w post =>
    obtain ⟨a, r, rfl, ha⟩ := white_pos w (hp w (by simp))
    simpa using ha

theorem flatten_length (ws : List Bytes) (h0 : ∀ w ∈ ws, w ≠ []) (pre : List Bytes) (hp : ∀ w ∈ pre, w ∈ ws) :
    pre.length ≤ pre.flatten.length := by
  induction pre with
  | nil => simp
  | cons w pre ih =>
    have h1 := List.length_pos_iff.2 (h0 w (hp w (by simp)))
    have h2 := ih (fun x hx => hp x (by simp [hx]))
    simp only [List.flatten_cons, List.length_append, List.length_cons]
    omega

theorem flatten_reverse (post : List Bytes) : post.flatten.reverse = ((post.map List.reverse).reverse).flatten := by
  rw [List.reverse_flatten]

/-- What `Spec.strip` leaves. -/
def Stripped (t : Bytes) : Prop := ∀ w ∈ Spec.whites, ¬ w <+: t ∧ ¬ w <:+ t

theorem suffix_rev (w t : Bytes) : w.reverse <+: t.reverse ↔ w <:+ t := List.reverse_prefix

theorem strip_unique (pre : List Bytes) (t : Bytes) (post : List Bytes) (h1 : ∀ w ∈ pre, w ∈ Spec.whites)
    (h2 : ∀ w ∈ post, w ∈ Spec.whites) (ht : Stripped t) : Spec.strip (pre.flatten ++ t ++ post.flatten) = t := by
  have hr : ∀ w ∈ Spec.whites.map List.reverse, ¬ w <+: t.reverse := by
    intro w hw hp
    obtain ⟨x, hx, rfl⟩ := List.mem_map.1 hw
    exact (ht x hx).2 ((suffix_rev x t).1 hp)
  have hr2 : ∀ w ∈ (post.map List.reverse).reverse, w ∈ Spec.whites.map List.reverse := by
    intro w hw
    rw [List.mem_reverse] at hw
    obtain ⟨x, hx, rfl⟩ := List.mem_map.1 hw
    exact List.mem_map.2 ⟨x, h2 x hx, rfl⟩
  have l1 := flatten_length _ whites_ne pre h1
  have l2 := flatten_length _ whites_ne post h2
  unfold Spec.strip
  by_cases h0 : t = []
  · subst h0
    have e : Spec.lstrip Spec.whites (pre.flatten ++ [] ++ post.flatten).length (pre.flatten ++ [] ++ post.flatten) = [] := by
      have h3 : pre.flatten ++ [] ++ post.flatten = (pre ++ post).flatten ++ [] := by simp
      rw [h3]
      refine lstrip_words _ whites_free (pre ++ post) ?_ [] (fun w hw => (ht w hw).1) _ ?_
      · intro w hw
        rcases List.mem_append.1 hw with h | h
        · exact h1 w h
        · exact h2 w h
      · simp only [List.length_append, List.flatten_append, List.append_nil]; omega
    rw [e]
    rfl
  · have e : Spec.lstrip Spec.whites (pre.flatten ++ t ++ post.flatten).length (pre.flatten ++ t ++ post.flatten) =
        t ++ post.flatten := by
      rw [List.append_assoc]
      refine lstrip_words _ whites_free pre h1 _ ?_ _ ?_
      · exact no_straddle t h0 (fun w hw => (ht w hw).1) _ (flatten_head post h2)
      · simp only [List.length_append]; omega
    rw [e]
    simp only
    rw [List.reverse_append, flatten_reverse, lstrip_words _ whites_free' _ hr2 _ hr, List.reverse_reverse]
    simp only [List.length_reverse, List.length_map, List.length_append]
    omega

theorem strip_exists (s : Bytes) : Stripped (Spec.strip s) ∧ ∃ pre post : List Bytes,
    (∀ w ∈ pre, w ∈ Spec.whites) ∧ (∀ w ∈ post, w ∈ Spec.whites) ∧
    s = pre.flatten ++ Spec.strip s ++ post.flatten := by
  obtain ⟨⟨pre, h1, h2⟩, h3⟩ := lstrip_exists Spec.whites whites_ne s.length s (le_refl _)
  unfold Spec.strip
  generalize Spec.lstrip Spec.whites s.length s = t at h2 h3
  obtain ⟨⟨post, h4, h5⟩, h6⟩ := lstrip_exists (Spec.whites.map List.reverse) whites_ne' t.length t.reverse (by simp)
  simp only
  generalize Spec.lstrip (Spec.whites.map List.reverse) t.length t.reverse = u at h5 h6
  have h7 : t = u.reverse ++ ((post.map List.reverse).reverse).flatten := by
    rw [← flatten_reverse, ← List.reverse_append, ← h5, List.reverse_reverse]
  refine ⟨fun w hw => ⟨fun hp => h3 w hw ?_, fun hs => h6 w.reverse (List.mem_map.2 ⟨w, hw, rfl⟩) ?_⟩,
    pre, (post.map List.reverse).reverse, h1, ?_, ?_⟩
  · rw [h7]; exact hp.trans (List.prefix_append _ _)
  · have := (suffix_rev w u.reverse).2 hs
    rwa [List.reverse_reverse] at this
  · intro w hw
    rw [List.mem_reverse] at hw
    obtain ⟨x, hx, rfl⟩ := List.mem_map.1 hw
    obtain ⟨y, hy, rfl⟩ := List.mem_map.1 (h4 x hx)
    rwa [List.reverse_reverse]
  · rw [List.append_assoc, ← h7]; exact h2

theorem strip_white (l w : Bytes) (hw : w ∈ Spec.whites) : Spec.strip (l ++ w) = Spec.strip l := by
  obtain ⟨h0, pre, post, h1, h2, h3⟩ := strip_exists l
  have : l ++ w = pre.flatten ++ Spec.strip l ++ (post ++ [w]).flatten := by
    conv_lhs => rw [h3]
    simp
  rw [this]
  refine strip_unique pre _ _ h1 ?_ h0
  intro x hx
  rcases List.mem_append.1 hx with h | h
  · exact h2 x h
  · rw [List.mem_singleton.1 h]; exact hw

theorem strip_of_stripped (t : Bytes) (h : Stripped t) : Spec.strip t = t := by
  have := strip_unique [] t [] (by simp) (by simp) h
  simpa using this

theorem stripped_of_strip (t : Bytes) (h : Spec.strip t = t) : Stripped t := by
  have := (strip_exists t).1
  rwa [h] at this

end Verif.IniBytes
