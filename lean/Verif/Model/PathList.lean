import Verif.Model.Path
/-!
# Model of `SplitList`, on Unix
-/

namespace Verif.Path
open Verif.Spec

/-- `strings.Split` of the Go library at a character.  Behind file_path.go:105. -/
def splitAt (sep : Char) : Str → List Str
  | [] => [[]]
  | c :: s =>
    if c = sep then [] :: splitAt sep s
    else match splitAt sep s with
      | [] => [[c]]
      | w :: ws => (c :: w) :: ws

/-- `SplitList`, file_path.go:104-106: `filepath.SplitList` of the Go library, on Unix.  The empty text is no list with an empty path but an empty
list. -/
def splitList (me : Str) : List Str := if me = [] then [] else splitAt ':' me

end Verif.Path
