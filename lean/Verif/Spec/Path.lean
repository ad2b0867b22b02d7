/-!
# What a Unix path means

A path is a list of characters.  Its components are what stands between the slashes.  Starting from a directory, given by
the list of names that leads to it from the root, a path leads to another one: an empty component or "." stays, ".." goes
up (and stays at the root), any other component goes down.  Symbolic links are not considered.
-/

namespace Verif.Spec

abbrev Str := List Char

/-- The components: what stands between the slashes. -/
def comps : Str → List Str
  | [] => [[]]
  | c :: s =>
    if c = '/' then [] :: comps s
    else match comps s with
      | [] => [[c]]
      | w :: ws => (c :: w) :: ws

/-- The path starts at the root. -/
def rooted (s : Str) : Bool := s.head? == some '/'

/-- One step from a directory. -/
def walk1 (d : List Str) (c : Str) : List Str :=
  if c = [] ∨ c = ['.'] then d else if c = ['.', '.'] then d.dropLast else d ++ [c]

/-- Following all components from a directory, whether or not the path starts with a slash. -/
def descend (d : List Str) (s : Str) : List Str := (comps s).foldl walk1 d

/-- Where the path leads when the working directory is `cwd`. -/
def resolve (cwd : List Str) (s : Str) : List Str := descend (if rooted s then [] else cwd) s

end Verif.Spec
