import Verif.Model.IniBytes
/-!
# What an INI file says, byte by byte

The numbers are ASCII: 10 is the end of a line, 59 is `;`, 61 is `=`, 91 is `[` and 93 is `]`.
-/

set_option linter.unusedSectionVars false

namespace Verif.IniBytes

/-- What a reader delivers before its first error; a hundred empty answers in a row count as an error.  `k` is the number
of empty answers just before. -/
def Spec.content : Nat → Source → Bytes
  | _, [] => []
  | k, (c, e) :: r =>
    if c = [] then (if e = true ∨ k + 1 = 100 then [] else Spec.content (k + 1) r)
    else c ++ (if e then [] else Spec.content 0 r)

/-- The white-space characters of Unicode. -/
def Spec.whiteCodes : List Nat :=
  [0x09, 0x0A, 0x0B, 0x0C, 0x0D, 0x20, 0x85, 0xA0, 0x1680, 0x2000, 0x2001, 0x2002, 0x2003, 0x2004, 0x2005, 0x2006,
    0x2007, 0x2008, 0x2009, 0x200A, 0x2028, 0x2029, 0x202F, 0x205F, 0x3000]

/-- Their UTF-8 codes. -/
def Spec.whites : List Bytes := Spec.whiteCodes.map fun n => String.utf8EncodeChar (Char.ofNat n)

/-- Words of `ws` taken off the front as long as there are any, at most `n`. -/
def Spec.lstrip (ws : List Bytes) : Nat → Bytes → Bytes
  | 0, s => s
  | n + 1, s =>
    match ws.find? (fun w => w.isPrefixOf s) with
    | some w => Spec.lstrip ws n (s.drop w.length)
    | none => s

/-- White space removed at both ends; bytes that are no UTF-8 are not white space. -/
def Spec.strip (s : Bytes) : Bytes :=
  let t := Spec.lstrip Spec.whites s.length s
  (Spec.lstrip (Spec.whites.map List.reverse) t.length t.reverse).reverse

/-- The lines of a text. -/
def Spec.lines : Bytes → List Bytes
  | [] => [[]]
  | c :: t => if c = 10 then [] :: Spec.lines t else
    match Spec.lines t with
    | l :: ls => (c :: l) :: ls
    | [] => [[c]]

/-- What a line says. -/
inductive Spec.Kind
  | nothing
  | header (sec : Bytes)
  | assign (key value : Bytes)
deriving DecidableEq

/-- What a line without white space at its ends says.  Blank lines, lines starting with `;` and lines with an empty key say nothing; `[sec]` is a header; everything else is
an assignment, `key=value` or a lone key. -/
def Spec.kindOf (t : Bytes) : Spec.Kind :=
  if t = [] ∨ t.head? = some 59 then .nothing
  else if t.head? = some 91 ∧ t.getLast? = some 93 then .header t.tail.dropLast
  else
    let k := Spec.strip (t.takeWhile (· != 61))
    let v := Spec.strip (t.dropWhile (· != 61)).tail
    if k = [] then .nothing else .assign k v

/-- What a line as it stands in the text says. -/
def Spec.kind (line : Bytes) : Spec.Kind := Spec.kindOf (Spec.strip line)

/-- Line `i` stands in section `sec`: the last header before it is `[sec]`. -/
def Spec.InSection (ls : List Bytes) (i : Nat) (sec : Bytes) : Prop :=
  ∃ j < i, (ls[j]?.map Spec.kind) = some (.header sec) ∧
    ∀ j', j < j' → j' < i → ∀ s, (ls[j']?.map Spec.kind) ≠ some (.header s)

/-- Line `i` assigns `v` to the key `k` of the section `sec`. -/
def Spec.Assigns (ls : List Bytes) (i : Nat) (sec k v : Bytes) : Prop :=
  sec ≠ [] ∧ Spec.InSection ls i sec ∧ (ls[i]?.map Spec.kind) = some (.assign k v)

/-! ## Round trip -/

/-- One assignment as a line of text. -/
def Spec.renderPair (p : Bytes × Bytes) : Bytes := p.1 ++ [61] ++ p.2 ++ [10]

/-- One section as text. -/
def Spec.renderSection (p : Bytes × List (Bytes × Bytes)) : Bytes := [91] ++ p.1 ++ [93, 10] ++ p.2.flatMap Spec.renderPair

/-- A whole file. -/
def Spec.render (secs : List (Bytes × List (Bytes × Bytes))) : Bytes := secs.flatMap Spec.renderSection

/-- A well-formed key: not empty, no white space at its ends, no `=` or line end, not starting with `;` or `[`. -/
def Spec.KeyOk (k : Bytes) : Prop :=
  k ≠ [] ∧ Spec.strip k = k ∧ 61 ∉ k ∧ 10 ∉ k ∧ k.head? ≠ some 59 ∧ k.head? ≠ some 91

/-- A well-formed value: no white space at its ends, no line end. -/
def Spec.ValueOk (v : Bytes) : Prop := Spec.strip v = v ∧ 10 ∉ v

/-- Well-formed sections: distinct non-empty names without line end, distinct well-formed keys, well-formed values. -/
def Spec.FileOk (secs : List (Bytes × List (Bytes × Bytes))) : Prop :=
  (secs.map Prod.fst).Nodup ∧ ∀ s ∈ secs, s.1 ≠ [] ∧ 10 ∉ s.1 ∧ (s.2.map Prod.fst).Nodup ∧
    ∀ p ∈ s.2, Spec.KeyOk p.1 ∧ Spec.ValueOk p.2

/-- A text as bytes. -/
def Spec.utf8 (cs : List Char) : Bytes := cs.flatMap String.utf8EncodeChar

end Verif.IniBytes
