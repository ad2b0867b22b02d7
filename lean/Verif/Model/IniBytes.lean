import Verif.Model.Go
/-!
# Model of `encoding/ini/ini.go`, on bytes and from a reader

Model/Ini works on a text.  Here a file is a sequence of bytes, valid UTF-8 or not, that an `io.Reader` delivers in
pieces of any size, with an error at some point.  `bufio.Reader` and the parts of `unicode/utf8` and `strings` that
`Load` uses are written out.  Maps are association lists with unique keys, as in Model/Ini: the results of `Sections` and
`Keys` are to be read up to order.
-/

namespace Verif.IniBytes

/-- The strings of ini.go:48-123. -/
abbrev Bytes := List UInt8

/-! ## The reader -/

/-- An `io.Reader`: its answers, in order; the flag says that the answer comes with an error (io.EOF or another one, `Load`
does not tell them apart, ini.go:54).  After the last answer there is only io.EOF; readers that never end are not modelled. -/
abbrev Source := List (Bytes × Bool)

/-- `Read` with a buffer of `space` bytes: an answer that is longer is given in several pieces.  Called through
`bufio.Reader`, ini.go:50 and 55. -/
def read (src : Source) (space : Nat) : Bytes × Bool × Source :=
  match src with
  | [] => ([], true, [])
  | (c, e) :: r => if c.length ≤ space then (c, e, r) else (c.take space, false, (c.drop space, e) :: r)

/-- `bufio.Reader`, ini.go:50: the bytes that are buffered, whether an error is pending, and the reader behind it. -/
structure Rd where
  buf : Bytes
  err : Bool
  src : Source

/-- The size of the buffer of `bufio.NewReader`, ini.go:50. -/
def bufSize : Nat := 4096

/-- The loop of `(*bufio.Reader).fill`: at most `i` tries, then io.ErrNoProgress.  Used by ini.go:55. -/
def fillLoop (space : Nat) : Nat → Source → Bytes × Bool × Source
  | 0, src => ([], true, src)
  | i + 1, src =>
    match read src space with
    | (c, e, src') =>
      if e then (c, true, src')
      else if 0 < c.length then (c, false, src')
      else fillLoop space i src'

/-- `(*bufio.Reader).fill`: `maxConsecutiveEmptyReads` is 100.  Used by ini.go:55. -/
def fill (b : Rd) : Rd :=
  match fillLoop (bufSize - b.buf.length) 100 b.src with
  | (c, e, src') => ⟨b.buf ++ c, e, src'⟩

/-- A bound for what the reader still delivers, for the end of the loop of ini.go:54-85. -/
def size : Source → Nat
  | [] => 0
  | (c, _) :: r => c.length + 1 + size r

theorem read_size (src : Source) (space : Nat) :
    (read src space).1.length + size (read src space).2.2 ≤ size src := by
  unfold read
  split
  · simp [size]
  · split <;> simp only [size, List.length_take, List.length_drop] <;> omega

theorem fillLoop_size (space i : Nat) (src : Source) :
    (fillLoop space i src).1.length + size (fillLoop space i src).2.2 ≤ size src ∧
    ((fillLoop space i src).2.1 = false → 0 < (fillLoop space i src).1.length) := by
  induction i generalizing src with
  | zero => simp [fillLoop]
  | succ i ih =>
    have h0 := read_size src space
    have h1 := ih (read src space).2.2
    rw [fillLoop]
    generalize read src space = r at h0 h1
    obtain ⟨c, e, s'⟩ := r
    simp only at h0 h1 ⊢
    by_cases he : e = true
    · rw [if_pos he]; exact ⟨h0, by simp⟩
    · rw [if_neg he]
      by_cases hc : 0 < c.length
      · rw [if_pos hc]; exact ⟨h0, fun _ => hc⟩
      · rw [if_neg hc]; exact ⟨by omega, h1.2⟩

/-- A bound for the number of calls of `fill`, for the end of the call in ini.go:55. -/
def Rd.measure (b : Rd) : Nat := size b.src + if b.err then 0 else 1

theorem fill_size (b : Rd) (h : b.err = false) : (fill b).measure < b.measure ∧
    (fill b).buf.length + size (fill b).src ≤ b.buf.length + size b.src := by
  have := fillLoop_size (bufSize - b.buf.length) 100 b.src
  unfold fill Rd.measure
  generalize fillLoop (bufSize - b.buf.length) 100 b.src = r at this
  obtain ⟨c, e, s'⟩ := r
  simp only [h, List.length_append] at this ⊢
  cases e
  · have := this.2 rfl
    simp; omega
  · simp; omega

/-- How `ReadSlice` ends: at the delimiter, with a full buffer (bufio.ErrBufferFull), or with an error.  Used by
ini.go:55. -/
inductive SliceEnd where
  | found | full | failed
  deriving DecidableEq

/-- `(*bufio.Reader).ReadSlice('\\n')`; the first `s` bytes of the buffer have been searched.  Used by ini.go:55. -/
def readSlice (b : Rd) (s : Nat) : Bytes × SliceEnd × Rd :=
  match (b.buf.drop s).dropWhile (· != 10) with
  | _ :: rest =>
    let i := s + ((b.buf.drop s).takeWhile (· != 10)).length
    (b.buf.take (i + 1), .found, ⟨rest, b.err, b.src⟩)
  | [] =>
    if _h : b.err then (b.buf, .failed, ⟨[], false, b.src⟩)
    else if bufSize ≤ b.buf.length then (b.buf, .full, ⟨[], b.err, b.src⟩)
    else readSlice (fill b) b.buf.length
termination_by b.measure
decreasing_by exact (fill_size b (by simpa using _h)).1

theorem readSlice_size (b : Rd) (s : Nat) (hs : s ≤ b.buf.length) :
    (readSlice b s).1.length + (readSlice b s).2.2.buf.length + size (readSlice b s).2.2.src ≤ b.buf.length + size b.src ∧
    ((readSlice b s).2.1 ≠ .failed → 0 < (readSlice b s).1.length) := by
  induction hn : b.measure using Nat.strongRecOn generalizing b s with
  | _ n ih =>
    rw [readSlice]
    split
    · rename_i x rest hd
      have h1 : ((b.buf.drop s).takeWhile (· != 10)).length + (rest.length + 1) = b.buf.length - s := by
        have := congrArg List.length (List.takeWhile_append_dropWhile (p := (· != 10)) (l := b.buf.drop s))
        rw [hd] at this
        simp only [List.length_append, List.length_cons, List.length_drop] at this
        exact this
      simp only [List.length_take]
      refine ⟨?_, fun _ => ?_⟩ <;> omega
    · split
      · simp
      · rename_i he
        split
        · rename_i hf
          refine ⟨by simp, fun _ => ?_⟩
          have : 0 < bufSize := by decide
          simp only; omega
        · have h1 := fill_size b (by simpa using he)
          have h2 := ih _ (by omega) (fill b) b.buf.length (by simp [fill]) rfl
          exact ⟨by omega, h2.2⟩

/-- The loop of `(*bufio.Reader).collectFragments`: pieces of full buffers, and the last piece.  Used by ini.go:55. -/
def collect (b : Rd) (full : Bytes) : Bytes × Bool × Rd :=
  match _h : readSlice b 0 with
  | (frag, .found, b') => (full ++ frag, false, b')
  | (frag, .failed, b') => (full ++ frag, true, b')
  | (frag, .full, b') => collect b' (full ++ frag)
termination_by b.buf.length + size b.src
decreasing_by
  have := readSlice_size b 0 (by simp)
  rw [_h] at this
  simp at this
  omega

/-- `(*bufio.Reader).ReadString('\\n')`: the line, whether there is an error, and the reader afterwards.  ini.go:55. -/
def readString (b : Rd) : Bytes × Bool × Rd := collect b []

theorem collect_size (b : Rd) (full : Bytes) :
    (collect b full).2.2.buf.length + size (collect b full).2.2.src ≤ b.buf.length + size b.src ∧
    ((collect b full).2.1 = false →
      (collect b full).2.2.buf.length + size (collect b full).2.2.src < b.buf.length + size b.src) := by
  induction hn : b.buf.length + size b.src using Nat.strongRecOn generalizing b full with
  | _ n ih =>
    have h := readSlice_size b 0 (by simp)
    rw [collect]
    split
    · rename_i hr
      rw [hr] at h
      simp at h
      constructor
      · simp only; omega
      · intro; simp only; omega
    · rename_i hr
      rw [hr] at h
      simp at h
      simp only
      exact ⟨by omega, by simp⟩
    · rename_i frag b' hr
      rw [hr] at h
      simp at h
      have := ih _ (by omega) b' (full ++ frag) rfl
      omega

/-! ## Runes -/

/-- A byte that continues a rune, between `lo` and `hi`.  In `utf8.DecodeRuneInString`, through ini.go:56, 79 and 80. -/
def within (lo hi : Nat) (b : UInt8) : Bool := lo ≤ b.toNat && b.toNat ≤ hi

/-- The bytes after the first one, which is `a`, in `utf8.DecodeRuneInString`; bit operations are written as arithmetic.
Through ini.go:56, 79 and 80. -/
def decode2 (a : Nat) : Bytes → Nat × Nat
  | b :: _ => if within 0x80 0xBF b then ((a - 0xC0) * 64 + (b.toNat - 0x80), 2) else (0xFFFD, 1)
  | _ => (0xFFFD, 1)

/-- The same for three bytes: after 0xE0 and 0xED the second byte is restricted.  Through ini.go:56, 79 and 80. -/
def decode3 (a : Nat) : Bytes → Nat × Nat
  | b :: c :: _ =>
    if within (if a = 0xE0 then 0xA0 else 0x80) (if a = 0xED then 0x9F else 0xBF) b && within 0x80 0xBF c
    then ((a - 0xE0) * 4096 + (b.toNat - 0x80) * 64 + (c.toNat - 0x80), 3) else (0xFFFD, 1)
  | _ => (0xFFFD, 1)

/-- The same for four bytes: after 0xF0 and 0xF4 the second byte is restricted.  Through ini.go:56, 79 and 80. -/
def decode4 (a : Nat) : Bytes → Nat × Nat
  | b :: c :: d :: _ =>
    if within (if a = 0xF0 then 0x90 else 0x80) (if a = 0xF4 then 0x8F else 0xBF) b && within 0x80 0xBF c && within 0x80 0xBF d
    then ((a - 0xF0) * 262144 + (b.toNat - 0x80) * 4096 + (c.toNat - 0x80) * 64 + (d.toNat - 0x80), 4) else (0xFFFD, 1)
  | _ => (0xFFFD, 1)

/-- `utf8.DecodeRuneInString`: the rune (0xFFFD if the bytes are no UTF-8) and the number of bytes.  Through
`strings.TrimSpace`, ini.go:56, 79 and 80. -/
def decodeRune : Bytes → Nat × Nat
  | [] => (0xFFFD, 0)
  | p :: t =>
    let a := p.toNat
    if a < 0x80 then (a, 1)
    else if a < 0xC2 || 0xF4 < a then (0xFFFD, 1)
    else if a < 0xE0 then decode2 a t
    else if a < 0xF0 then decode3 a t
    else decode4 a t

/-- `utf8.RuneStart`.  Through `strings.TrimSpace`, ini.go:56, 79 and 80. -/
def runeStart (b : UInt8) : Bool := b.toNat < 0x80 || 0xC0 ≤ b.toNat

/-- The loop of `utf8.DecodeLastRuneInString` that goes back to the beginning of a rune, at most to `lim`; the argument is
one more than `start`.  Through `strings.TrimSpace`, ini.go:56, 79 and 80. -/
def backTo (s : Bytes) (lim : Nat) : Nat → Nat
  | 0 => 0
  | p + 1 => if lim ≤ p then (if runeStart (s.getD p 0) then p else backTo s lim p) else p

/-- `utf8.DecodeLastRuneInString`.  Through `strings.TrimSpace`, ini.go:56, 79 and 80. -/
def decodeLast (s : Bytes) : Nat × Nat :=
  match s.getLast? with
  | none => (0xFFFD, 0)
  | some b =>
    if b.toNat < 0x80 then (b.toNat, 1)
    else
      let start := backTo s (s.length - 4) (s.length - 1)
      let r := decodeRune (s.drop start)
      if start + r.2 ≠ s.length then (0xFFFD, 1) else r

/-- `unicode.IsSpace`.  In `strings.TrimSpace`, ini.go:56, 79 and 80. -/
def isSpace (n : Nat) : Bool :=
  (9 ≤ n && n ≤ 13) || n == 0x20 || n == 0x85 || n == 0xA0 || n == 0x1680 || (0x2000 ≤ n && n ≤ 0x200a) ||
    n == 0x2028 || n == 0x2029 || n == 0x202f || n == 0x205f || n == 0x3000

theorem decodeRune_pos (p : UInt8) (t : Bytes) : 0 < (decodeRune (p :: t)).2 := by
  have h2 : ∀ a, 0 < (decode2 a t).2 := by
    intro a; unfold decode2; (repeat' split) <;> exact Nat.succ_pos _
  have h3 : ∀ a, 0 < (decode3 a t).2 := by
    intro a; unfold decode3; (repeat' split) <;> exact Nat.succ_pos _
  have h4 : ∀ a, 0 < (decode4 a t).2 := by
    intro a; unfold decode4; (repeat' split) <;> exact Nat.succ_pos _
  rw [decodeRune]
  split
  · exact Nat.succ_pos _
  · split
    · exact Nat.succ_pos _
    · split
      · exact h2 _
      · split
        · exact h3 _
        · exact h4 _

/-- `strings.TrimLeftFunc(s, unicode.IsSpace)`.  In `strings.TrimSpace`, ini.go:56, 79 and 80. -/
def trimLeft (s : Bytes) : Bytes :=
  match s with
  | [] => []
  | p :: t => if isSpace (decodeRune (p :: t)).1 then trimLeft ((p :: t).drop (decodeRune (p :: t)).2) else p :: t
termination_by s.length
decreasing_by
  have := decodeRune_pos p t
  simp only [List.length_drop, List.length_cons]
  omega

/-- `strings.lastIndexFunc(s, unicode.IsSpace, false)` from position `i` on downwards; each round takes at least one byte,
`fuel` is the number of rounds.  In `strings.TrimSpace`, ini.go:56, 79 and 80. -/
def lastIndex (s : Bytes) : Nat → Nat → Option Nat
  | 0, _ => none
  | _, 0 => none
  | fuel + 1, i =>
    let r := decodeLast (s.take i)
    if isSpace r.1 then lastIndex s fuel (i - r.2) else some (i - r.2)

/-- `strings.TrimRightFunc(s, unicode.IsSpace)`.  In `strings.TrimSpace`, ini.go:56, 79 and 80. -/
def trimRight (s : Bytes) : Bytes :=
  match lastIndex s s.length s.length with
  | none => []
  | some i =>
    if 0x80 ≤ (s.getD i 0).toNat then s.take (i + (decodeRune (s.drop i)).2) else s.take (i + 1)

/-- `strings.TrimSpace`; its short cut for ASCII bytes, which does the same, is left out.  ini.go:56, 79 and 80. -/
def trimSpace (s : Bytes) : Bytes := trimRight (trimLeft s)

/-! ## Load -/

/-- Reading a map: `m[k]`.  ini.go:62, 84 and 113-120. -/
def lookup {β : Type} (k : Bytes) : List (Bytes × β) → Option β
  | [] => none
  | (k', v) :: r => if k' = k then some v else lookup k r

/-- Writing a map: `m[k] = v`.  ini.go:64 and 84. -/
def insert {β : Type} (k : Bytes) (v : β) : List (Bytes × β) → List (Bytes × β)
  | [] => [(k, v)]
  | (k', v') :: r => if k' = k then (k', v) :: r else (k', v') :: insert k v r

/-- `section`, ini.go:30. -/
abbrev Section := List (Bytes × Bytes)

/-- The variables of `Load`: `m` and `sec`, ini.go:49, 51. -/
structure St where
  m : List (Bytes × Section)
  sec : Bytes
deriving DecidableEq

/-- `strings.SplitN(line, "=", 2)`, ini.go:71. -/
def splitN2 (line : Bytes) : List Bytes :=
  match line.dropWhile (· != 61) with
  | [] => [line]
  | _ :: after => [line.takeWhile (· != 61), after]

/-- The body of the loop, ini.go:57-84, given the trimmed line.  Assigning to a key of a section that is not in the map
panics (the map is nil). -/
def handle (st : St) (line : Bytes) : Res St :=
  match line with
  | [] => .ok st
  | c :: _ =>
    if c = 59 then .ok st
    else if c = 91 ∧ line.getLast? = some 93 then
      -- `line[1:len(line)-1]` of the line "[" would panic, but "[" does not end with "]"
      let sec := (line.drop 1).take (line.length - 1 - 1)
      match lookup sec st.m with
      | none => .ok ⟨insert sec [] st.m, sec⟩
      | some _ => .ok ⟨st.m, sec⟩
    else if st.sec = [] then .ok st
    else
      let pair := splitN2 line
      let val := match pair with
        | [_, v] => v
        | _ => []
      let key := match pair with
        | k :: _ => trimSpace k
        | [] => []
      let val := trimSpace val
      if key = [] then .ok st
      else match lookup st.sec st.m with
        | some s => .ok ⟨insert st.sec (insert key val s) st.m, st.sec⟩
        | none => .panic

/-- The loop of `Load`, ini.go:54-85. -/
def loop (st : St) (b : Rd) : Res St :=
  match _h : readString b with
  | (line, err, b') =>
    match handle st (trimSpace line) with
    | .panic => .panic
    | .ok st => if _e : err then .ok st else loop st b'
termination_by b.buf.length + size b.src
decreasing_by
  have := (collect_size b []).2
  rw [← readString, _h] at this
  exact this (by simpa using _e)

/-- `Load`, ini.go:48-87. -/
def load (src : Source) : Res (List (Bytes × Section)) := do
  let st ← loop ⟨[], []⟩ ⟨[], false, src⟩
  return st.m

/-- `New`, ini.go:36-46: `opened` is what `os.Open` gives, an error or the file. -/
def new {ε : Type} (opened : Except ε Source) : Res (Except ε (List (Bytes × Section))) :=
  match opened with
  | .error e => .ok (.error e)
  | .ok f => do
    let r ← load f
    return .ok r

/-- `Sections`, ini.go:89-97. -/
def sections (p : List (Bytes × Section)) : List Bytes := p.map Prod.fst

/-- `Keys`, ini.go:99-111. -/
def keys (p : List (Bytes × Section)) (sec : Bytes) : List Bytes :=
  match lookup sec p with
  | none => []
  | some m => m.map Prod.fst

/-- `GetString`, ini.go:113-123. -/
def getString (p : List (Bytes × Section)) (sec key dflt : Bytes) : Bytes :=
  match lookup sec p with
  | none => dflt
  | some m => match lookup key m with
    | none => dflt
    | some v => v

end Verif.IniBytes
