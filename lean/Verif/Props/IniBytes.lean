import Verif.Lemmas.IniBytesRun
import Verif.Lemmas.IniUtf8
/-!
# INI files as bytes from a reader (C141)
-/

set_option linter.unusedSectionVars false

namespace Verif.IniBytes

/-! ## UTF-8 texts -/

theorem enc_line (c : Char) (hc : c ≠ '\n') : (10 : UInt8) ∉ String.utf8EncodeChar c := ascii_not_mem c '\n' (by decide) hc

theorem lines_append (u s : Bytes) (h : 10 ∉ u) : ∃ l ls, Spec.lines s = l :: ls ∧ Spec.lines (u ++ s) = (u ++ l) :: ls := by
  induction u with
  | nil =>
    obtain ⟨l, ls, e⟩ := List.exists_cons_of_ne_nil (lines_ne s)
    exact ⟨l, ls, e, e⟩
  | cons c u ih =>
    simp only [List.mem_cons, not_or] at h
    have hc : c ≠ 10 := fun e => h.1 e.symm
    obtain ⟨l, ls, e1, e2⟩ := ih h.2
    refine ⟨l, ls, e1, ?_⟩
    rw [List.cons_append, Spec.lines, if_neg hc, e2]
    rfl

theorem lines_utf8 (cs : List Char) : Spec.lines (Spec.utf8 cs) = (Ini.Spec.lines cs).map Spec.utf8 := by
  induction cs with
  | nil => rfl
  | cons c cs ih =>
    rw [utf8_cons, Ini.Spec.lines]
    by_cases hc : c = '\n'
    · subst hc
      rw [if_pos rfl]
      have : String.utf8EncodeChar '\n' = [10] := by decide
      rw [this, List.cons_append, List.nil_append, Spec.lines, if_pos rfl, ih]
      rfl
    · rw [if_neg hc]
      obtain ⟨l, ls, e1, e2⟩ := lines_append _ (Spec.utf8 cs) (enc_line c hc)
      obtain ⟨l', ls', e⟩ := List.exists_cons_of_ne_nil (Ini.lines_ne cs)
      rw [e2, e]
      rw [ih, e, List.map_cons, List.cons.injEq] at e1
      rw [List.map_cons, utf8_cons, e1.1, e1.2]

theorem takeWhile_utf8 (cs : List Char) :
    (Spec.utf8 cs).takeWhile (· != 61) = Spec.utf8 (cs.takeWhile (· != '=')) ∧
    ((Spec.utf8 cs).dropWhile (· != 61)).tail = Spec.utf8 (cs.dropWhile (· != '=')).tail := by
  induction cs with
  | nil => exact ⟨rfl, rfl⟩
  | cons c cs ih =>
    rw [utf8_cons]
    by_cases hc : c = '='
    · subst hc
      have : String.utf8EncodeChar '=' = [61] := by decide
      rw [this]
      simp [Spec.utf8]
    · have h := ascii_not_mem c '=' (by decide) hc
      have h1 : ∀ x ∈ String.utf8EncodeChar c, (x != (61 : UInt8)) = true := by
        intro x hx
        simp only [bne_iff_ne]
        rintro rfl
        exact h hx
      rw [List.takeWhile_append_of_pos h1, List.dropWhile_append_of_pos h1, ih.1, ih.2,
        List.takeWhile_cons_of_pos (by simpa using hc), List.dropWhile_cons_of_pos (by simpa using hc), utf8_cons]
      exact ⟨rfl, rfl⟩

theorem head_utf8 (cs : List Char) (d : Char) (hd : d.toNat < 0x80) :
    (Spec.utf8 cs).head? = some (UInt8.ofNat d.toNat) ↔ cs.head? = some d := by
  cases cs with
  | nil => simp [Spec.utf8]
  | cons c cs =>
    rw [utf8_cons]
    constructor
    · intro h
      by_contra hne
      have hc : c ≠ d := fun e => hne (by rw [e]; rfl)
      obtain ⟨a, r, e, -⟩ := encode_shape c
      refine ascii_not_mem c d hd hc ?_
      rw [e] at h ⊢
      simp at h
      simp [h]
    · intro h
      simp only [List.head?_cons, Option.some.injEq] at h
      rw [h, encode_ascii d hd]
      rfl

theorem last_utf8 (cs : List Char) (d : Char) (hd : d.toNat < 0x80) :
    (Spec.utf8 cs).getLast? = some (UInt8.ofNat d.toNat) ↔ cs.getLast? = some d := by
  rcases List.eq_nil_or_concat cs with rfl | ⟨v, c, rfl⟩
  · simp [Spec.utf8]
  · rw [List.concat_eq_append, utf8_append, utf8_singleton]
    obtain ⟨a, r, e, -⟩ := encode_shape c
    have hne : String.utf8EncodeChar c ≠ [] := by rw [e]; simp
    rw [List.getLast?_append_of_ne_nil _ hne]
    constructor
    · intro h
      by_contra hcd
      have hc : c ≠ d := fun e => hcd (by rw [e]; simp)
      exact ascii_not_mem c d hd hc (List.mem_of_getLast? h)
    · intro h
      simp only [List.getLast?_append, List.getLast?_singleton] at h
      have h : c = d := by simpa using h
      rw [h, encode_ascii d hd]
      rfl

/-- The bytes of what a line says. -/
def kindMap : Ini.Spec.Kind → Spec.Kind
  | .nothing => .nothing
  | .header s => .header (Spec.utf8 s)
  | .assign k v => .assign (Spec.utf8 k) (Spec.utf8 v)

theorem kind_utf8 (cs : List Char) : Spec.kind (Spec.utf8 cs) = kindMap (Ini.Spec.kind cs) := by
  rw [Spec.kind, Ini.Spec.kind, strip_utf8]
  generalize Ini.Spec.strip cs = t
  have e1 := head_utf8 t ';' (by decide)
  have e2 := head_utf8 t '[' (by decide)
  have e3 := last_utf8 t ']' (by decide)
  rw [show UInt8.ofNat ';'.toNat = 59 from rfl] at e1
  rw [show UInt8.ofNat '['.toNat = 91 from rfl] at e2
  rw [show UInt8.ofNat ']'.toNat = 93 from rfl] at e3
  have e0 := utf8_nil_iff t
  unfold Spec.kindOf Ini.Spec.kindOf
  simp only [e0, e1, e2, e3]
  by_cases h1 : t = [] ∨ t.head? = some ';'
  · rw [if_pos h1, if_pos h1]; rfl
  · rw [if_neg h1, if_neg h1]
    by_cases h2 : t.head? = some '[' ∧ t.getLast? = some ']'
    · rw [if_pos h2, if_pos h2]
      obtain ⟨ha, hb⟩ := h2
      cases t with
      | nil => simp at ha
      | cons c t =>
        simp only [List.head?_cons, Option.some.injEq] at ha
        subst ha
        rcases List.eq_nil_or_concat t with rfl | ⟨v, d, rfl⟩
        · simp at hb
        · rw [List.concat_eq_append] at hb ⊢
          rw [List.getLast?_cons] at hb
          have hb : d = ']' := by simpa using hb
          subst hb
          rw [utf8_cons, utf8_append, utf8_singleton, show String.utf8EncodeChar '[' = [91] from by decide,
            show String.utf8EncodeChar ']' = [93] from by decide]
          simp [kindMap]
    · rw [if_neg h2, if_neg h2, (takeWhile_utf8 t).1, (takeWhile_utf8 t).2, strip_utf8, strip_utf8]
      have e4 := utf8_nil_iff (Ini.Spec.strip (t.takeWhile (· != '=')))
      simp only [e4]
      split_ifs <;> rfl

/-- The bytes of a section. -/
def secMap (s : Ini.Section) : Section := s.map fun p => (Spec.utf8 p.1, Spec.utf8 p.2)

/-- The bytes of a file. -/
def Spec.utf8File (p : List (List Char × List (List Char × List Char))) : List (Bytes × List (Bytes × Bytes)) :=
  p.map fun s => (Spec.utf8 s.1, s.2.map fun kv => (Spec.utf8 kv.1, Spec.utf8 kv.2))

theorem lookup_map {α β : Type} (f : α → β) (k : List Char) (m : List (List Char × α)) :
    lookup (Spec.utf8 k) (m.map fun p => (Spec.utf8 p.1, f p.2)) = (Ini.lookup k m).map f := by
  induction m with
  | nil => rfl
  | cons p m ih =>
    obtain ⟨a, b⟩ := p
    simp only [List.map_cons, lookup, Ini.lookup]
    by_cases h : a = k
    · subst h; simp
    · rw [if_neg (fun e => h (utf8_inj _ _ e)), if_neg h, ih]

theorem insert_map {α β : Type} (f : α → β) (k : List Char) (v : α) (m : List (List Char × α)) :
    insert (Spec.utf8 k) (f v) (m.map fun p => (Spec.utf8 p.1, f p.2)) =
      (Ini.insert k v m).map fun p => (Spec.utf8 p.1, f p.2) := by
  induction m with
  | nil => rfl
  | cons p m ih =>
    obtain ⟨a, b⟩ := p
    simp only [List.map_cons, insert, Ini.insert]
    by_cases h : a = k
    · subst h; simp
    · rw [if_neg (fun e => h (utf8_inj _ _ e)), if_neg h, ih]; rfl

def stMap (st : Ini.St) : St := ⟨Spec.utf8File st.m, Spec.utf8 st.sec⟩

theorem body_utf8 (st : Ini.St) (l : List Char) : body (stMap st) (Spec.utf8 l) =
    match Ini.body st l with
    | .ok st => .ok (stMap st)
    | .panic => .panic := by
  rw [body_eq, Ini.body_eq, kind_utf8]
  have hl : ∀ k, lookup (Spec.utf8 k) (Spec.utf8File st.m) = (Ini.lookup k st.m).map secMap :=
    fun k => lookup_map secMap k st.m
  have hi : ∀ k v, insert (Spec.utf8 k) (secMap v) (Spec.utf8File st.m) = Spec.utf8File (Ini.insert k v st.m) :=
    fun k v => insert_map secMap k v st.m
  have hj : ∀ k v s, insert (Spec.utf8 k) (Spec.utf8 v) (secMap s) = secMap (Ini.insert k v s) :=
    fun k v s => insert_map Spec.utf8 k v s
  cases Ini.Spec.kind l with
  | nothing => rfl
  | header s =>
    simp only [kindMap, stMap, hl]
    cases Ini.lookup s st.m with
    | none => exact congrArg (fun m => Res.ok (St.mk m (Spec.utf8 s))) (hi s [])
    | some x => rfl
  | assign k v =>
    simp only [kindMap, stMap, hl, utf8_nil_iff]
    by_cases h : st.sec = []
    · simp [h]
    · simp only [h, if_false]
      cases Ini.lookup st.sec st.m with
      | none => rfl
      | some x =>
        simp only [Option.map_some]
        rw [hj, hi]

theorem run_utf8 (ls : List (List Char)) (st : Ini.St) : run (stMap st) (ls.map Spec.utf8) =
    match Ini.run st ls with
    | .ok st => .ok (stMap st)
    | .panic => .panic := by
  induction ls generalizing st with
  | nil => rfl
  | cons l ls ih =>
    simp only [List.map_cons, run, Ini.run, body_utf8]
    cases Ini.body st l with
    | ok s => exact ih s
    | panic => rfl

/-! ## The theorems -/

/-- **C141**.  Loading from any reader succeeds, whatever bytes it delivers, UTF-8 or not.  `GetString(sec, key, def)` is the value of the last line that assigns the key in
that section, and `def` when no line does; so blank lines, comments and lines outside a section have no effect.
Missing: a byte order mark is not skipped but counts as part of the first line (`C141_bom_false`). -/
theorem C141_lookup_partial (src : Source) : ∃ p, load src = .ok p ∧ ∀ sec key dflt,
    (∀ i v, Spec.Assigns (Spec.lines (Spec.content 0 src)) i sec key v →
      (∀ j, i < j → ∀ v', ¬ Spec.Assigns (Spec.lines (Spec.content 0 src)) j sec key v') → getString p sec key dflt = v) ∧
    ((∀ i v, ¬ Spec.Assigns (Spec.lines (Spec.content 0 src)) i sec key v) → getString p sec key dflt = dflt) := by
  obtain ⟨st, h1, h2⟩ := load_inv src
  refine ⟨st.m, h1, fun sec key dflt => ⟨fun i v ha hl => ?_, fun hn => ?_⟩⟩
  · obtain ⟨j, -, hj, -⟩ := ha.2.1
    obtain ⟨m, hm⟩ := Option.ne_none_iff_exists'.1 ((h2.secs sec).2 ⟨j, hj⟩)
    have := (h2.vals sec m hm key v).2 ⟨i, ha, hl⟩
    simp [getString, hm, this]
  · unfold getString
    cases hm : lookup sec st.m with
    | none => rfl
    | some m =>
      simp only
      cases hv : lookup key m with
      | none => rfl
      | some v =>
        obtain ⟨i, hi, -⟩ := (h2.vals sec m hm key v).1 hv
        exact absurd hi (hn i v)

/-- **C141** (listing).  `Sections` lists every section that has a header, once; `Keys` lists every key assigned in the
section, once. -/
theorem C141_listing (src : Source) : ∃ p, load src = .ok p ∧
    ((sections p).Nodup ∧ ∀ s, s ∈ sections p ↔ ∃ l ∈ Spec.lines (Spec.content 0 src), Spec.kind l = .header s) ∧
    (∀ s, (keys p s).Nodup ∧ ∀ k, k ∈ keys p s ↔ ∃ i v, Spec.Assigns (Spec.lines (Spec.content 0 src)) i s k v) := by
  obtain ⟨st, h1, h2⟩ := load_inv src
  refine ⟨st.m, h1, ⟨h2.nod, fun s => ?_⟩, fun s => ?_⟩
  · rw [sections, ← lookup_isSome, h2.secs]
    constructor
    · rintro ⟨i, hi⟩
      obtain ⟨l, hl, hk⟩ := Option.map_eq_some_iff.1 hi
      exact ⟨l, List.mem_of_getElem? hl, hk⟩
    · rintro ⟨l, hl, hk⟩
      obtain ⟨i, hi⟩ := List.mem_iff_getElem?.1 hl
      exact ⟨i, by rw [hi]; simp [hk]⟩
  · unfold keys
    cases hm : lookup s st.m with
    | none =>
      refine ⟨by simp, fun k => ?_⟩
      simp only [List.not_mem_nil, false_iff]
      rintro ⟨i, v, -, ⟨j, -, hj, -⟩, -⟩
      exact (h2.secs s).2 ⟨j, hj⟩ hm
    | some m =>
      refine ⟨h2.nods s m hm, fun k => ?_⟩
      rw [← lookup_isSome]
      constructor
      · intro hne
        obtain ⟨v, hv⟩ := Option.ne_none_iff_exists'.1 hne
        obtain ⟨i, hi, -⟩ := (h2.vals s m hm k v).1 hv
        exact ⟨i, v, hi⟩
      · rintro ⟨i, v, hi⟩
        obtain ⟨v', hv'⟩ := exists_last hi
        rw [(h2.vals s m hm k v').2 hv']; simp

/-! ## The reader -/

theorem content_pieces (pieces : List Bytes) (h : ∀ p ∈ pieces, p ≠ []) (r : Source) (k : Nat) (hk : k = 0 ∨ pieces ≠ []) :
    Spec.content k (pieces.map (fun p => (p, false)) ++ r) = pieces.flatten ++ Spec.content 0 r := by
  induction pieces generalizing k with
  | nil =>
    rcases hk with rfl | hk
    · rfl
    · exact absurd rfl hk
  | cons p ps ih =>
    rw [List.map_cons, List.cons_append, Spec.content, if_neg (h p (by simp))]
    simp only [Bool.false_eq_true, if_false]
    rw [ih (fun q hq => h q (by simp [hq])) 0 (.inl rfl), List.flatten_cons, List.append_assoc]

/-- **C141** (reader).  In which pieces a reader delivers a file does not matter: neither their sizes nor where lines or
characters are cut, nor whether io.EOF comes with the last piece or after it. -/
theorem C141_pieces (pieces : List Bytes) (h : ∀ p ∈ pieces, p ≠ []) :
    load (pieces.map fun p => (p, false)) = load [(pieces.flatten, true)] := by
  have e := content_pieces pieces h [] 0 (.inl rfl)
  rw [List.append_nil] at e
  rw [load_run, load_run, e]
  congr 3
  by_cases h0 : pieces.flatten = []
  · rw [h0]; rfl
  · simp [Spec.content, h0]

/-- **C141** (reader).  What `Load` gives depends on the bytes before the first error only. -/
theorem C141_reader (a b : Source) (h : Spec.content 0 a = Spec.content 0 b) : load a = load b := by
  rw [load_run, load_run, h]

/-- **C141** (read errors, the property fails).  When reading fails midway, `Load` gives what the file says up to there,
as if the file ended there. -/
theorem C141_read_error_false (pieces : List Bytes) (h : ∀ p ∈ pieces, p ≠ []) (c : Bytes) (rest : Source) :
    load (pieces.map (fun p => (p, false)) ++ (c, true) :: rest) = load [(pieces.flatten ++ c, true)] := by
  rw [load_run, load_run, content_pieces pieces h _ 0 (.inl rfl)]
  congr 3
  by_cases h0 : c = []
  · subst h0
    by_cases h1 : pieces.flatten = []
    · simp [Spec.content, h1]
    · simp [Spec.content, h1]
  · simp [Spec.content, h0]

/-- **C141** (read errors, the property fails).  `New` gives an error exactly when the file cannot be opened; an error of
reading is never reported, which is what is missing. -/
theorem C141_new_partial {ε : Type} (opened : Except ε Source) :
    (∀ e, new opened = .ok (.error e) ↔ opened = .error e) ∧
    ∀ src, opened = .ok src → ∃ p, load src = .ok p ∧ new opened = .ok (.ok p) := by
  cases opened with
  | error e =>
    refine ⟨fun e' => ?_, by simp⟩
    simp [new]
  | ok f =>
    obtain ⟨st, h1, -⟩ := load_inv f
    have h2 : new (ε := ε) (.ok f) = .ok (.ok st.m) := by
      rw [new, h1]; rfl
    refine ⟨fun e => ?_, fun src hs => ?_⟩
    · rw [h2]; simp
    · cases hs; exact ⟨st.m, h1, h2⟩

/-! ## Encodings -/

/-- **C141** (UTF-8).  Loading the bytes of a text is loading the text: both succeed or both panic, and the sections,
keys and values are the bytes of those of the text. -/
theorem C141_utf8 (text : List Char) (src : Source) (h : Spec.content 0 src = Spec.utf8 text) :
    load src = match Ini.load text with
      | .ok p => .ok (Spec.utf8File p)
      | .panic => .panic := by
  have h1 := run_utf8 (Ini.Spec.lines text) ⟨[], []⟩
  rw [load_run, h, lines_utf8, show (⟨[], []⟩ : St) = stMap ⟨[], []⟩ from rfl, h1, Ini.load, Ini.loop_eq]
  cases Ini.run ⟨[], []⟩ (Ini.Spec.lines text) <;> rfl

/-- **C141** (UTF-8).  Asking for the bytes of a name is asking for the name. -/
theorem C141_utf8_get (p : List (List Char × List (List Char × List Char))) (sec key dflt : List Char) :
    getString (Spec.utf8File p) (Spec.utf8 sec) (Spec.utf8 key) (Spec.utf8 dflt) =
      Spec.utf8 (Ini.getString p sec key dflt) ∧
    sections (Spec.utf8File p) = (Ini.sections p).map Spec.utf8 ∧
    keys (Spec.utf8File p) (Spec.utf8 sec) = (Ini.keys p sec).map Spec.utf8 := by
  have hl : lookup (Spec.utf8 sec) (Spec.utf8File p) = (Ini.lookup sec p).map secMap := lookup_map secMap sec p
  refine ⟨?_, ?_, ?_⟩
  · rw [getString, Ini.getString, hl]
    cases Ini.lookup sec p with
    | none => rfl
    | some m =>
      simp only [Option.map_some]
      have : lookup (Spec.utf8 key) (secMap m) = (Ini.lookup key m).map Spec.utf8 := lookup_map Spec.utf8 key m
      rw [this]
      cases Ini.lookup key m <;> rfl
  · simp [sections, Ini.sections, Spec.utf8File]
  · rw [keys, Ini.keys, hl]
    cases Ini.lookup sec p with
    | none => rfl
    | some m => simp [secMap]

/-! ## Line ends -/

theorem lines_join (sep : Bytes) (hs : 10 ∉ sep) (ls : List Bytes) (h : ∀ l ∈ ls, 10 ∉ l) (last : Bytes) :
    Spec.lines (ls.flatMap (fun l => l ++ (sep ++ [10])) ++ last) = ls.map (· ++ sep) ++ Spec.lines last := by
  induction ls with
  | nil => rfl
  | cons l ls ih =>
    have h1 : 10 ∉ l ++ sep := by
      rw [List.mem_append, not_or]; exact ⟨h l (by simp), hs⟩
    have e : (l :: ls).flatMap (fun l => l ++ (sep ++ [10])) ++ last =
        (l ++ sep) ++ [10] ++ (ls.flatMap (fun l => l ++ (sep ++ [10])) ++ last) := by simp
    rw [e, lines_line _ _ h1, ih (fun x hx => h x (by simp [hx]))]
    rfl

theorem run_cr (st : St) (ls : List Bytes) (tl : List Bytes) :
    run st (ls.map (· ++ [13]) ++ tl) = run st (ls ++ tl) := by
  induction ls generalizing st with
  | nil => rfl
  | cons l ls ih =>
    have hk : Spec.kind (l ++ [13]) = Spec.kind l := by
      rw [Spec.kind, Spec.kind, strip_white l [13] (by rw [whites_eq]; decide)]
    have : body st (l ++ [13]) = body st l := by rw [body_eq, body_eq, hk]
    simp only [List.map_cons, List.cons_append, run, this]
    cases body st l with
    | ok s => exact ih s
    | panic => rfl

/-- **C141** (line ends).  A file with the line ends of Windows says the same as with those of Unix. -/
theorem C141_crlf (ls : List Bytes) (h : ∀ l ∈ ls, 10 ∉ l) (last : Bytes) (unix windows : Source)
    (hu : Spec.content 0 unix = ls.flatMap (fun l => l ++ [10]) ++ last)
    (hw : Spec.content 0 windows = ls.flatMap (fun l => l ++ [13, 10]) ++ last) : load windows = load unix := by
  have e1 := lines_join [] (by simp) ls h last
  have e2 := lines_join [13] (by decide) ls h last
  simp only [List.nil_append, List.append_nil, List.map_id'] at e1
  simp only [List.cons_append, List.nil_append] at e2
  rw [load_run, load_run, hu, hw, e1, e2, run_cr]

/-! ## Byte order marks -/

theorem kind_bom (x s : Bytes) : Spec.kind (0xEF :: x) ≠ .header s := by
  obtain ⟨-, pre, post, h1, h2, h3⟩ := strip_exists (0xEF :: x)
  have hw : ∀ w ∈ Spec.whites, w.head? ≠ some 0xEF := by rw [whites_eq]; decide
  have head : ∀ (ws : List Bytes) (t : Bytes), (∀ w ∈ ws, w ∈ Spec.whites) → 0xEF :: x = ws.flatten ++ t →
      ws = [] := by
    intro ws t hm e
    cases ws with
    | nil => rfl
    | cons w ws =>
      exfalso
      have hne := whites_ne w (hm w (by simp))
      have := congrArg List.head? e
      rw [List.flatten_cons, List.append_assoc, List.head?_append_of_ne_nil _ hne] at this
      exact hw w (hm w (by simp)) this.symm
  have hp := head pre (Spec.strip (0xEF :: x) ++ post.flatten) h1 (by rw [← List.append_assoc]; exact h3)
  subst hp
  have hn : Spec.strip (0xEF :: x) ≠ [] := by
    intro e
    rw [e] at h3
    have hq := head post [] h2 (by simpa using h3)
    subst hq
    simp at h3
  have hh : (Spec.strip (0xEF :: x)).head? = some 0xEF := by
    have := congrArg List.head? h3
    rw [List.flatten_nil, List.nil_append, List.head?_append_of_ne_nil _ hn] at this
    exact this.symm
  rw [Spec.kind]
  generalize Spec.strip (0xEF :: x) = t at hn hh
  unfold Spec.kindOf
  rw [hh]
  simp only [hn, Option.some.injEq, false_or]
  rw [if_neg (by decide), if_neg (by simp)]
  split_ifs <;> simp

/-- **C141** (byte order mark, the property fails).  In a file that starts with a byte order mark (EF BB BF), as editors on
Windows write it, the header in the first line is not seen: its section is not there, unless there is another header for it. -/
theorem C141_bom_false (sec rest : Bytes) (hs : 10 ∉ sec) (hr : ∀ l ∈ Spec.lines rest, Spec.kind l ≠ .header sec) (src : Source)
    (h : Spec.content 0 src = [0xEF, 0xBB, 0xBF] ++ ([91] ++ sec ++ [93]) ++ [10] ++ rest) :
    ∃ p, load src = .ok p ∧ sec ∉ sections p ∧ keys p sec = [] ∧ ∀ key dflt, getString p sec key dflt = dflt := by
  obtain ⟨p, h1, ⟨-, h2⟩, -⟩ := C141_listing src
  have hnl : (10 : UInt8) ∉ [0xEF, 0xBB, 0xBF] ++ ([91] ++ sec ++ [93]) := by
    simp only [List.mem_append, not_or]
    exact ⟨by decide, ⟨by decide, hs⟩, by decide⟩
  have hn : sec ∉ sections p := by
    rw [h2, h, lines_line _ _ hnl]
    rintro ⟨l, hl, hk⟩
    rcases List.mem_cons.1 hl with rfl | hl
    · exact kind_bom _ _ hk
    · exact hr l hl hk
  have hl : lookup sec p = none := by
    by_contra hc
    exact hn ((lookup_isSome sec p).1 hc)
  exact ⟨p, h1, hn, by simp [keys, hl], fun k d => by simp [getString, hl]⟩

/-! ## Round trip -/

/-- **C141** (round trip).  Writing any well-formed sections, with names, keys and values of any bytes, and loading them
from a reader that delivers the file in any pieces gives back exactly these sections, keys and values. -/
theorem C141_roundtrip (secs : List (Bytes × List (Bytes × Bytes))) (h : Spec.FileOk secs) (src : Source)
    (hsrc : Spec.content 0 src = Spec.render secs) :
    ∃ p, load src = .ok p ∧ sections p = secs.map Prod.fst ∧
      (∀ s kvs, (s, kvs) ∈ secs → keys p s = kvs.map Prod.fst ∧
        ∀ k v, (k, v) ∈ kvs → ∀ dflt, getString p s k dflt = v) ∧
      (∀ s, s ∉ secs.map Prod.fst → keys p s = [] ∧ ∀ k dflt, getString p s k dflt = dflt) := by
  obtain ⟨c, hc⟩ := run_render secs [] [] h
  have find : ∀ {β : Type} (l : List (Bytes × β)), (l.map Prod.fst).Nodup → ∀ k v, (k, v) ∈ l → lookup k l = some v := by
    intro β l
    induction l with
    | nil => simp
    | cons p l ih =>
      intro hn k v hm
      obtain ⟨a, b⟩ := p
      simp only [List.map_cons, List.nodup_cons] at hn
      rcases List.mem_cons.1 hm with e | hm
      · obtain ⟨rfl, rfl⟩ := Prod.mk.inj e
        simp [lookup]
      · have : a ≠ k := by
          rintro rfl
          exact hn.1 (List.mem_map.2 ⟨(a, v), hm, rfl⟩)
        rw [lookup, if_neg this]; exact ih hn.2 k v hm
  refine ⟨secs, by rw [load_run, hsrc, hc]; rfl, rfl, ?_, ?_⟩
  · intro s kvs hm
    have hl := find secs h.1 s kvs hm
    refine ⟨by simp [keys, hl], fun k v hkv dflt => ?_⟩
    simp [getString, hl, find kvs (h.2 _ hm).2.2.1 k v hkv]
  · intro s hm
    have hl : lookup s secs = none := by
      by_contra hc
      exact hm ((lookup_isSome s secs).1 hc)
    exact ⟨by simp [keys, hl], fun k dflt => by simp [getString, hl]⟩

/-! ## Examples -/

/-- A file in three pieces, with Windows line ends, a character cut in two (é is C3 A9) and a no-break space. -/
def sample : Source :=
  [([91, 97, 93, 13, 10, 107], false), ([0xC2, 0xA0, 61, 32, 0xC3], false), ([0xA9, 13, 10, 0xFF, 61, 50], false)]

example : Spec.content 0 sample = [91, 97, 93, 13, 10, 107, 0xC2, 0xA0, 61, 32, 0xC3, 0xA9, 13, 10, 0xFF, 61, 50] := by
  decide

example : ∃ p, load sample = .ok p ∧ getString p [97] [107] [] = [0xC3, 0xA9] ∧ getString p [97] [0xFF] [] = [50] := by
  obtain ⟨p, h1, h2⟩ := C141_lookup_partial sample
  refine ⟨p, h1, ?_, ?_⟩
  · refine (h2 [97] [107] []).1 1 _ ⟨by decide, ⟨0, by decide, by decide +kernel, ?_⟩, by decide +kernel⟩ ?_
    · intro j' a b; omega
    · intro j hj v' ha
      have := assigns_lt ha
      obtain rfl : j = 2 := by
        have e : (Spec.lines (Spec.content 0 sample)).length = 3 := by decide +kernel
        omega
      have h3 := ha.2.2
      have e : ((Spec.lines (Spec.content 0 sample))[2]?.map Spec.kind) = some (.assign [0xFF] [50]) := by decide +kernel
      rw [e] at h3
      simp at h3
  · refine (h2 [97] [0xFF] []).1 2 _ ⟨by decide, ⟨0, by decide, by decide +kernel, ?_⟩, by decide +kernel⟩ ?_
    · intro j' a b s
      obtain rfl : j' = 1 := by omega
      have e : ((Spec.lines (Spec.content 0 sample))[1]?.map Spec.kind) = some (.assign [107] [0xC3, 0xA9]) := by decide +kernel
      rw [e]; simp
    · intro j hj v' ha
      have := assigns_lt ha
      have e : (Spec.lines (Spec.content 0 sample)).length = 3 := by decide +kernel
      omega

/-- The pieces of the sample are not empty. -/
example : ∀ p ∈ sample.map Prod.fst, p ≠ [] := by decide

/-- A reader that fails after the first header, as of a file on a broken disk: the key is missing, without an error. -/
example : new (ε := Unit) (.ok [([91, 97, 93, 10], true), ([107, 61, 49], false)]) = new (.ok [([91, 97, 93, 10], true)]) := by
  have := C141_read_error_false [] (by simp) [91, 97, 93, 10] [([107, 61, 49], false)]
  simp only [List.map_nil, List.nil_append, List.flatten_nil] at this
  rw [new, new, this]

/-- A text that is not ASCII. -/
example : Spec.utf8 ['[', 'é', ']', '\n'] = [91, 0xC3, 0xA9, 93, 10] := by decide

/-- The hypotheses of the theorem about byte order marks. -/
example : (∀ l ∈ Spec.lines [107, 61, 49], Spec.kind l ≠ .header [97]) ∧
    Spec.content 0 [([0xEF, 0xBB, 0xBF, 91, 97, 93, 10, 107, 61, 49], false)] =
      [0xEF, 0xBB, 0xBF] ++ ([91] ++ [97] ++ [93]) ++ [10] ++ [107, 61, 49] := by
  constructor
  · decide +kernel
  · decide

/-- A file in an encoding that is not UTF-8. -/
example : Spec.FileOk [([0xD6, 0xD0], [([107], [0xCE, 0xC4, 61, 49])])] := by
  refine ⟨by decide, ?_⟩
  intro s hs
  simp only [List.mem_cons, List.not_mem_nil, or_false] at hs
  subst hs
  refine ⟨by decide, by decide, by decide, ?_⟩
  intro p hp
  simp only [List.mem_cons, List.not_mem_nil, or_false] at hp
  subst hp
  exact ⟨⟨by decide, by decide +kernel, by decide, by decide, by decide, by decide⟩, by decide +kernel, by decide⟩

example : load [([91, 97, 93, 13, 10, 107, 61, 49], false)] = load [([91, 97, 93, 10, 107], false), ([61, 49], true)] :=
  C141_crlf [[91, 97, 93]] (by decide) [107, 61, 49] _ _ (by decide) (by decide)

end Verif.IniBytes
