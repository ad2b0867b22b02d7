import Verif.Spec.Path
/-!
# Unix file systems with symbolic links

A place is given by the names that lead to it from the root without following links.  A path leads to a place by following
its components; a symbolic link on the way is replaced by the path it holds, which counts from the directory the link is
in unless it starts with a slash.  Rights and limits of length are left out.  Independent of the model.
-/

namespace Verif.Spec

/-- What is at a place: a file (given by the number of its inode), a directory, or a symbolic link with its text. -/
inductive Node
  | file (ino : Nat)
  | dir
  | link (text : Str)
deriving DecidableEq, Repr

/-- What is where; `none`: nothing. -/
abbrev FS := List Str → Option Node

/-- A component that goes down. -/
def Plain (c : Str) : Prop := c ≠ [] ∧ c ≠ ['.'] ∧ c ≠ ['.', '.']

/-- Following components from a place: all symbolic links are followed, and the result exists. -/
inductive Leads (F : FS) : List Str → List Str → List Str → Prop
  | done {d : List Str} : F d ≠ none → Leads F d [] d
  | stay {d : List Str} {c : Str} {cs : List Str} {e : List Str} : F d = some .dir → c = [] ∨ c = ['.'] → Leads F d cs e →
    Leads F d (c :: cs) e
  | up {d : List Str} {cs : List Str} {e : List Str} : F d = some .dir → Leads F d.dropLast cs e →
    Leads F d (['.', '.'] :: cs) e
  | down {d : List Str} {c : Str} {cs : List Str} {n : Node} {e : List Str} : F d = some .dir → Plain c →
    F (d ++ [c]) = some n → (∀ t, n ≠ .link t) → Leads F (d ++ [c]) cs e → Leads F d (c :: cs) e
  | follow {d : List Str} {c : Str} {cs : List Str} {t : Str} {e : List Str} : F d = some .dir → Plain c →
    F (d ++ [c]) = some (.link t) → t ≠ [] → Leads F (if rooted t then [] else d) (comps t ++ cs) e → Leads F d (c :: cs) e

/-- Where a path starts. -/
def startOf (cwd : List Str) (s : Str) : List Str := if rooted s then [] else cwd

/-- The path leads to the place, links followed. -/
def LeadsTo (F : FS) (cwd : List Str) (s : Str) (e : List Str) : Prop := s ≠ [] ∧ Leads F (startOf cwd s) (comps s) e

/-- The path names the place: its last component is a name in the directory its other components lead to.  If there is a
symbolic link at the place, it is not followed. -/
def Names (F : FS) (cwd : List Str) (s : Str) (e : List Str) : Prop :=
  ∃ cs c p, comps s = cs ++ [c] ∧ Plain c ∧ Leads F (startOf cwd s) cs p ∧ F p = some .dir ∧ e = p ++ [c]

/-- The file system with something put at a place. -/
def FS.put (F : FS) (e : List Str) (n : Node) : FS := fun q => if q = e then some n else F q

/-- The file system with all that is at a place and below it moved elsewhere. -/
def FS.move (F : FS) (src dst : List Str) : FS := fun q =>
  if dst <+: q then F (src ++ q.drop dst.length) else if src <+: q then none else F q

/-- The root is a directory, and what is below something is in a directory. -/
def FS.Ok (F : FS) : Prop := F [] = some .dir ∧ ∀ d c, F (d ++ [c]) ≠ none → F d = some .dir

end Verif.Spec
