import Verif.Model.Go
/-!
# Model of `encoding/ini/ini.go`

Text is a list of characters (invalid UTF-8 is not modelled); `section` and the map of sections are association lists
with unique keys, so the order in which Go ranges over a map is not modelled: the results of `Sections` and `Keys` are
to be read up to order.  Opening the file (`New`, lines 36-46) is not modelled, the text is what the reader delivers
before its first error.
-/

namespace Verif.Ini

/-- The strings of ini.go:48-123. -/
abbrev Str := List Char

/-- `unicode.IsSpace`.  In `strings.TrimSpace`, ini.go:56, 79 and 80. -/
def isSpace (c : Char) : Bool :=
  let n := c.toNat
  (9 ≤ n && n ≤ 13) || n == 0x20 || n == 0x85 || n == 0xA0 || n == 0x1680 || (0x2000 ≤ n && n ≤ 0x200a) ||
    n == 0x2028 || n == 0x2029 || n == 0x202f || n == 0x205f || n == 0x3000

/-- `strings.TrimSpace`.  ini.go:56, 79 and 80. -/
def trimSpace (s : Str) : Str := ((s.dropWhile isSpace).reverse.dropWhile isSpace).reverse

/-- Reading a map: `m[k]`.  ini.go:62, 84 and 113-120. -/
def lookup {β : Type} (k : Str) : List (Str × β) → Option β
  | [] => none
  | (k', v) :: r => if k' = k then some v else lookup k r

/-- Writing a map: `m[k] = v`.  ini.go:64 and 84. -/
def insert {β : Type} (k : Str) (v : β) : List (Str × β) → List (Str × β)
  | [] => [(k, v)]
  | (k', v') :: r => if k' = k then (k', v) :: r else (k', v') :: insert k v r

/-- `section`, ini.go:30. -/
abbrev Section := List (Str × Str)

/-- The variables of `Load`: `m` and `sec`, ini.go:49, 51. -/
structure St where
  m : List (Str × Section)
  sec : Str
deriving DecidableEq

/-- `strings.SplitN(line, "=", 2)`, ini.go:71. -/
def splitN2 (line : Str) : List Str :=
  match line.dropWhile (· != '=') with
  | [] => [line]
  | _ :: after => [line.takeWhile (· != '='), after]

/-- The body of the loop, ini.go:57-84, given the trimmed line.  Assigning to a key of a section that is not in the map
panics (the map is nil). -/
def handle (st : St) (line : Str) : Res St :=
  match line with
  | [] => .ok st
  | c :: _ =>
    if c = ';' then .ok st
    else if c = '[' ∧ line.getLast? = some ']' then
      let sec := (line.drop 1).take (line.length - 1 - 1)
      match lookup sec st.m with
      | none => .ok ⟨insert sec [] st.m, sec⟩
      | some _ => .ok ⟨st.m, sec⟩
    else if st.sec = [] then .ok st
    else
      let pair := splitN2 line
      let val := match pair with
        | [_, v] => v
        | _ => []
      let key := match pair with
        | k :: _ => trimSpace k
        | [] => []
      let val := trimSpace val
      if key = [] then .ok st
      else match lookup st.sec st.m with
        | some s => .ok ⟨insert st.sec (insert key val s) st.m, st.sec⟩
        | none => .panic

/-- The body of the loop, ini.go:56-84, given the line as read. -/
def body (st : St) (line : Str) : Res St := handle st (trimSpace line)

/-- `r.ReadString('\\n')`, ini.go:55: the line with its terminator and the rest, or what is left at the end of the text
together with an error. -/
def readString (text : Str) : Str × Option Str :=
  match text.dropWhile (· != '\n') with
  | [] => (text, none)
  | _ :: rest => (text.takeWhile (· != '\n') ++ ['\n'], some rest)

theorem readString_length (text : Str) (l rest : Str) (h : readString text = (l, some rest)) :
    rest.length < text.length := by
  unfold readString at h
  have h1 : (text.dropWhile (· != '\n')).length ≤ text.length := (List.dropWhile_sublist _).length_le
  split at h
  · simp at h
  · rename_i hd
    simp only [Prod.mk.injEq, Option.some.injEq] at h
    rw [hd, List.length_cons] at h1
    rw [← h.2]; omega

/-- The loop of `Load`, ini.go:54-85. -/
def loop (st : St) (text : Str) : Res St :=
  match _h : readString text with
  | (line, some rest) =>
    match body st line with
    | .ok st => loop st rest
    | .panic => .panic
  | (line, none) => body st line
termination_by text.length
decreasing_by exact readString_length text _ _ _h

/-- `Load`, ini.go:48-87. -/
def load (text : Str) : Res (List (Str × Section)) := do
  let st ← loop ⟨[], []⟩ text
  return st.m

/-- `Sections`, ini.go:89-97. -/
def sections (p : List (Str × Section)) : List Str := p.map Prod.fst

/-- `Keys`, ini.go:99-111. -/
def keys (p : List (Str × Section)) (sec : Str) : List Str :=
  match lookup sec p with
  | none => []
  | some m => m.map Prod.fst

/-- `GetString`, ini.go:113-123. -/
def getString (p : List (Str × Section)) (sec key dflt : Str) : Str :=
  match lookup sec p with
  | none => dflt
  | some m => match lookup key m with
    | none => dflt
    | some v => v

end Verif.Ini
