import Verif.Model.ErrText
import Verif.Props.Registry
import Verif.Props.Duration
/-!
# Error values and their texts (C93)
-/

set_option linter.unusedSectionVars false

namespace Verif.Errors

/-- The names of the identifiers 1001, 1002, … after the registrations `ts`. -/
def Spec.names (ts : List String) : List String := "unknown error" :: ts.take 8998

/-- The number of an identifier in decimal. -/
def Spec.num (n : Nat) : List Char := Nat.toDigits 10 n

/-- The text of a registered error. -/
def Spec.text (n : Nat) (name : String) : List Char :=
  "error#".toList ++ Spec.num n ++ " (".toList ++ name.toList ++ ")".toList

theorem get_names (ts : List String) (id : BitVec 32) :
    get (regAll start ts).1 id =
      if 1001 ≤ id.toNat then
        match (Spec.names ts)[id.toNat - 1001]? with
        | some n => .ok (n, false)
        | none => .ok ("", true)
      else .ok ("", true) := by
  rw [get_eq]
  have hl : (Spec.names ts).length = 1 + min ts.length 8998 := by
    simp only [Spec.names, List.length_cons, List.length_take]; omega
  by_cases h1 : 1001 ≤ id.toNat
  · rw [if_pos h1]
    by_cases h2 : id.toNat ≤ 1001 + min ts.length 8998
    · rw [dif_pos ⟨h1, h2⟩]
      have e : Spec.names ts = ("unknown error" :: ts).take 8999 := by simp [Spec.names]
      have hlen : id.toNat - 1001 < ("unknown error" :: ts).length := by simp; omega
      rw [e, List.getElem?_take_of_lt (by omega), List.getElem?_eq_getElem hlen]
    · rw [dif_neg (fun h => h2 h.2), List.getElem?_eq_none (by omega)]
  · rw [dif_neg (fun h => h1 h.1), if_neg h1]

theorem newf_text (s : State) (id : BitVec 32) (n : String) (txt : List Char) (hg : get s id = .ok (n, false)) :
    (newf id txt).error s = .ok (Spec.text id.toNat n ++ ": ".toList ++ txt) := by
  simp only [newf, Err.error, hg, Res.bind_ok, Bool.false_eq_true, if_false, Res.pure_eq]
  have e : "): ".toList = ")".toList ++ ": ".toList := by decide
  have hd : dec id = Spec.num id.toNat := rfl
  rw [hd, e]
  unfold Spec.text
  generalize Spec.num id.toNat = d
  generalize "error#".toList = p1
  generalize " (".toList = p2
  generalize ")".toList = p3
  generalize ": ".toList = p4
  simp only [List.append_assoc]

/-- **C93** (texts).  After any registrations, for every identifier: the error made by `New` has that identifier, and its
`Error()` never panics; for a registered identifier it is "error#", the identifier in decimal and the registered name in
parentheses, and `Newf` adds a colon and its own text; for any other identifier both say that it is invalid. -/
theorem C93_text (ts : List String) (id : BitVec 32) (txt : List Char) :
    (new id).id = id ∧ (newf id txt).id = id ∧
    (∀ n, 1001 ≤ id.toNat → (Spec.names ts)[id.toNat - 1001]? = some n →
      (new id).error (regAll start ts).1 = .ok (Spec.text id.toNat n) ∧
      (newf id txt).error (regAll start ts).1 = .ok (Spec.text id.toNat n ++ ": ".toList ++ txt)) ∧
    ((id.toNat < 1001 ∨ 1001 + (Spec.names ts).length ≤ id.toNat) →
      (new id).error (regAll start ts).1 = .ok ("invalid error id:".toList ++ Spec.num id.toNat) ∧
      (newf id txt).error (regAll start ts).1 = .ok ("invalid error id:".toList ++ Spec.num id.toNat)) := by
  refine ⟨rfl, rfl, ?_, ?_⟩
  · intro n h1 hn
    have hg : get (regAll start ts).1 id = .ok (n, false) := by rw [get_names, if_pos h1, hn]
    constructor
    · simp only [new, Err.error, idString, hg, Res.bind_ok, Bool.false_eq_true, if_false, Res.pure_eq]; rfl
    · exact newf_text _ id n txt hg
  · intro h
    have hg : get (regAll start ts).1 id = .ok ("", true) := by
      rw [get_names]
      by_cases h1 : 1001 ≤ id.toNat
      · rw [if_pos h1, List.getElem?_eq_none (by omega)]
      · rw [if_neg h1]
    constructor
    · simp only [new, Err.error, idString, hg, Res.bind_ok, if_true, Res.pure_eq]; rfl
    · simp only [newf, Err.error, hg, Res.bind_ok, if_true, Res.pure_eq]; rfl

/-- **C93** (later registrations) leave the texts of all errors with registered identifiers as they are. -/
theorem C93_stable (ts us : List String) (e : Err) (h1 : 1001 ≤ e.id.toNat)
    (h2 : e.id.toNat < 1001 + (Spec.names ts).length) :
    e.error (regAll start (ts ++ us)).1 = e.error (regAll start ts).1 := by
  have hn : (Spec.names (ts ++ us))[e.id.toNat - 1001]? = (Spec.names ts)[e.id.toNat - 1001]? := by
    have e1 : ∀ ts, Spec.names ts = ("unknown error" :: ts).take 8999 := by intro ts; simp [Spec.names]
    rw [e1, List.length_take, List.length_cons] at h2
    rw [e1, e1, List.getElem?_take_of_lt (by omega), List.getElem?_take_of_lt (by omega), ← List.cons_append,
      List.getElem?_append_left (by rw [List.length_cons]; omega)]
  have hg : get (regAll start (ts ++ us)).1 e.id = get (regAll start ts).1 e.id := by
    rw [get_names, get_names, hn]
  cases e with
  | plain id => simp only [Err.id] at hg; simp only [Err.error, idString, hg]
  | withText id t => simp only [Err.id] at hg; simp only [Err.error, hg]

theorem num_inj {m n : Nat} (h : Spec.num m = Spec.num n) : m = n := by
  have h1 := (Duration.decimal_spec m).1
  have h2 := (Duration.decimal_spec n).1
  unfold Duration.decimal at h1 h2
  unfold Spec.num at h
  rw [← h1, ← h2, h]

theorem num_digits (n : Nat) : ∀ c ∈ Spec.num n, Duration.isDigit c = true := (Duration.decimal_spec n).2.1

/-- Digits followed by something else determine the digits. -/
theorem digits_append {a b x y : List Char} (ha : ∀ c ∈ a, Duration.isDigit c = true)
    (hb : ∀ c ∈ b, Duration.isDigit c = true) (h : a ++ ' ' :: x = b ++ ' ' :: y) : a = b := by
  have key : ∀ (a x : List Char), (∀ c ∈ a, Duration.isDigit c = true) → (a ++ ' ' :: x).takeWhile (· != ' ') = a := by
    intro a x ha
    rw [List.takeWhile_append_of_pos]
    · simp
    · intro c hc
      rw [bne_iff_ne]
      rintro rfl
      exact absurd (ha _ hc) (by decide)
  have := congrArg (List.takeWhile (· != ' ')) h
  rwa [key a x ha, key b y hb] at this

/-- **C93** (texts tell errors apart).  After any registrations, two errors made by `New` or `Newf` with different
identifiers have different texts, whatever their names and own texts. -/
theorem C93_distinct (ts : List String) (e e' : Err) (t : List Char)
    (h : e.error (regAll start ts).1 = .ok t) (h' : e'.error (regAll start ts).1 = .ok t) : e.id = e'.id := by
  have key : ∀ (e : Err) t, e.error (regAll start ts).1 = .ok t →
      (t = "invalid error id:".toList ++ Spec.num e.id.toNat) ∨
      (∃ x, t = "error#".toList ++ (Spec.num e.id.toNat ++ ' ' :: x)) := by
    intro e t h
    cases hg : get (regAll start ts).1 e.id with
    | panic =>
      exfalso
      rw [get_names] at hg
      split_ifs at hg
      split at hg <;> simp at hg
    | ok p =>
      obtain ⟨n, er⟩ := p
      cases e with
      | plain id =>
        simp only [Err.id] at hg ⊢
        cases er
        · right
          simp only [Err.error, idString, hg, Res.bind_ok, Bool.false_eq_true, if_false, Res.pure_eq, Res.ok.injEq] at h
          exact ⟨"(".toList ++ n.toList ++ ")".toList, by rw [← h]; simp [Spec.num, dec]⟩
        · left
          simp only [Err.error, idString, hg, Res.bind_ok, if_true, Res.pure_eq, Res.ok.injEq] at h
          rw [← h]; rfl
      | withText id txt =>
        simp only [Err.id] at hg ⊢
        cases er
        · right
          simp only [Err.error, hg, Res.bind_ok, Bool.false_eq_true, if_false, Res.pure_eq, Res.ok.injEq] at h
          exact ⟨"(".toList ++ n.toList ++ "): ".toList ++ txt, by rw [← h]; simp [Spec.num, dec]⟩
        · left
          simp only [Err.error, hg, Res.bind_ok, if_true, Res.pure_eq, Res.ok.injEq] at h
          rw [← h]; rfl
  apply BitVec.eq_of_toNat_eq
  rcases key e t h with h1 | ⟨x, h1⟩ <;> rcases key e' t h' with h2 | ⟨y, h2⟩
  · exact num_inj (List.append_cancel_left (h1.symm.trans h2))
  · rw [h1] at h2; simp at h2
  · rw [h1] at h2; simp at h2
  · exact num_inj (digits_append (num_digits _) (num_digits _) (List.append_cancel_left (h1.symm.trans h2)))

/-- **C93** (wrapping a standard error), as far as it holds: the text of an error without a percent sign is kept at the
end.  Missing: texts with a percent sign, see `C93_std_false`. -/
theorem C93_std_partial (F : Sprintf0) (ts : List String) (e : List Char) (h : '%' ∉ e) :
    (stdErr F e).error (regAll start ts).1 = .ok ("error#1001 (unknown error): ".toList ++ e) := by
  have := ((C93_text ts erridStd (F.run e)).2.2.1 "unknown error" (by decide +kernel) (by
    rw [show erridStd.toNat - 1001 = 0 by decide +kernel]; rfl)).2
  rw [stdErr, this, F.plain e h]
  rw [show erridStd.toNat = 1001 by decide +kernel]
  rfl

/-- **C93** (wrapping a standard error) is false: the text "%%" becomes "%", so it is not part of the new text; and the
name shown is "unknown error" whatever is registered. -/
theorem C93_std_false (F : Sprintf0) (ts : List String) :
    ∃ t, (stdErr F ['%', '%']).error (regAll start ts).1 = .ok t ∧ ¬ ['%', '%'] <:+: t := by
  have := ((C93_text ts erridStd (F.run ['%', '%'])).2.2.1 "unknown error" (by decide +kernel) (by
    rw [show erridStd.toNat - 1001 = 0 by decide +kernel]; rfl)).2
  refine ⟨_, this, ?_⟩
  rw [F.percent, show erridStd.toNat = 1001 by decide +kernel]
  decide +kernel

theorem showLoop_eq (ts : List String) : ∀ (n k : Nat), k ≤ (Spec.names ts).length → (Spec.names ts).length ≤ k + n →
    showLoop (regAll start ts).1 n (BitVec.ofNat 32 (1001 + k)) =
      .ok (((Spec.names ts).zipIdx.drop k).flatMap fun p => '\n' :: Spec.text (1001 + p.2) p.1) := by
  have hl : (Spec.names ts).length = 1 + min ts.length 8998 := by
    simp only [Spec.names, List.length_cons, List.length_take]; omega
  intro n
  induction n with
  | zero =>
    intro k h1 h2
    rw [showLoop, List.drop_eq_nil_of_le (by rw [List.length_zipIdx]; omega)]
    rfl
  | succ n ih =>
    intro k h1 h2
    have hm : (regAll start ts).1.curMax = BitVec.ofNat 32 (1001 + min ts.length 8998) := by rw [(run_eq ts).1]
    have hk : (BitVec.ofNat 32 (1001 + k)).toNat = 1001 + k := by rw [BitVec.toNat_ofNat]; omega
    rw [showLoop, hm]
    by_cases h : k < (Spec.names ts).length
    · rw [if_pos (by rw [BitVec.le_def, hk, BitVec.toNat_ofNat]; omega)]
      have hnext : BitVec.ofNat 32 (1001 + k) + 1 = BitVec.ofNat 32 (1001 + (k + 1)) := by
        apply BitVec.eq_of_toNat_eq
        rw [BitVec.toNat_add, hk, BitVec.toNat_ofNat]; rfl
      have hget : (Spec.names ts)[k]? = some (Spec.names ts)[k] := List.getElem?_eq_getElem h
      have ht : idString (regAll start ts).1 (BitVec.ofNat 32 (1001 + k)) = .ok (Spec.text (1001 + k) (Spec.names ts)[k]) := by
        have := ((C93_text ts (BitVec.ofNat 32 (1001 + k)) []).2.2.1 (Spec.names ts)[k] (by omega) (by
          rw [hk, show 1001 + k - 1001 = k by omega, hget])).1
        rwa [hk] at this
      rw [ht, hnext, ih (k + 1) (by omega) (by omega)]
      simp only [Res.bind_ok, Res.pure_eq]
      have hd : (Spec.names ts).zipIdx.drop k = ((Spec.names ts)[k], k) :: (Spec.names ts).zipIdx.drop (k + 1) := by
        rw [List.drop_eq_getElem_cons (by rw [List.length_zipIdx]; exact h)]
        simp
      rw [hd, List.flatMap_cons]
    · rw [if_neg (by rw [BitVec.le_def, hk, BitVec.toNat_ofNat]; omega),
        List.drop_eq_nil_of_le (by rw [List.length_zipIdx]; omega)]
      rfl

/-- **C93** (`ShowAll`).  After any registrations `ShowAll` returns the number of identifiers and then one line per
identifier, in increasing order, with the text of the error. -/
theorem C93_showAll (ts : List String) :
    showAll (regAll start ts).1 = .ok ("[errors] Count:".toList ++ Spec.num (Spec.names ts).length ++
      (Spec.names ts).zipIdx.flatMap fun p => '\n' :: Spec.text (1001 + p.2) p.1) := by
  have hl : (Spec.names ts).length = 1 + min ts.length 8998 := by
    simp only [Spec.names, List.length_cons, List.length_take]; omega
  have h := showLoop_eq ts 9000 0 (by omega) (by omega)
  rw [show BitVec.ofNat 32 (1001 + 0) = 1001#32 by rfl] at h
  have hm : (regAll start ts).1.curMax = BitVec.ofNat 32 (1001 + min ts.length 8998) := by rw [(run_eq ts).1]
  have hc : (BitVec.ofNat 32 (1001 + min ts.length 8998) - 1001#32 + 1#32).toNat = (Spec.names ts).length := by
    rw [BitVec.toNat_add, BitVec.toNat_sub, hl, BitVec.toNat_ofNat, BitVec.toNat_ofNat, BitVec.toNat_ofNat]
    omega
  simp only [showAll, h, Res.bind_ok, Res.pure_eq, hm, dec, hc, Spec.num, List.drop_zero]

/-- An interpretation of formats meeting the two facts. -/
def toySprintf : Sprintf0 where
  run t := if t = ['%', '%'] then ['%'] else t
  plain t h := if_neg (by rintro rfl; simp at h)
  percent := rfl

example : (new 1003#32).error (regAll start ["a", "b"]).1 = .ok "error#1003 (b)".toList := by decide +kernel
example : (newf 1002#32 "x y".toList).error (regAll start ["a", "b"]).1 = .ok "error#1002 (a): x y".toList := by
  decide +kernel
example : (newf 1004#32 "x y".toList).error (regAll start ["a", "b"]).1 = .ok "invalid error id:1004".toList := by
  decide +kernel
example : (stdErr toySprintf "EOF".toList).error (regAll start ["a"]).1 = .ok "error#1001 (unknown error): EOF".toList := by
  decide +kernel
example : showLoop (regAll start ["a"]).1 5 1001#32 = .ok "\nerror#1001 (unknown error)\nerror#1002 (a)".toList := by
  decide +kernel

example : (new 1003#32).error (regAll start (["a", "b"] ++ ["c"])).1 = (new 1003#32).error (regAll start ["a", "b"]).1 :=
  C93_stable ["a", "b"] ["c"] _ (by decide) (by decide)
example : (new 1003#32).id = (new 1003#32).id :=
  C93_distinct ["a", "b"] _ _ "error#1003 (b)".toList (by decide +kernel) (by decide +kernel)

example := C93_std_partial toySprintf ["a"] "EOF".toList (by decide)

end Verif.Errors
