import Verif.Model.FsOpen
/-!
# Histories of calls on a Unix file system

Calls of `Mkdir`, `MkdirAll`, `Symlink`, `Link`, `Rename`, `Remove`, `RemoveAll`, `Create`, `OpenFile` and `Truncate` of path
objects one after another, from any working directories.  Calls that fail and change nothing are left out of the history;
`MkdirAll` and `RemoveAll` that fail half-way are not.
-/

namespace Verif.FsLinks
open Verif.Spec Verif.Path

/-- The calls, file_path.go:255-324. -/
inductive Call
  | mkdir (me : Str)
  | mkdirAll (me : Str)
  | symlink (me newname : Str)
  | link (me linkname : Str)
  | rename (me newname : Str)
  | remove (me : Str)
  | removeAll (me : Str)
  | openFile (me : Str) (f : Flags) (i : Nat)
  | truncate (me : Str) (size : Int)

/-- The effect of a call, file_path.go:255-324.  `ls` gives the names in a directory, to `RemoveAll`. -/
inductive Step (ls : FS → List Str → List Str) : Store → Call → Store → Prop
  | mkdir {w : Store} {cwd : List Str} {me : Str} {F' : FS} : mkdir w.F cwd me = some F' → Step ls w (.mkdir me) ⟨F', w.data⟩
  | mkdirAll {w : Store} (cwd : List Str) {me : Str} : Step ls w (.mkdirAll me) ⟨(mkdirAll w.F cwd me).1, w.data⟩
  | symlink {w : Store} {cwd : List Str} {me x n : Str} {F' : FS} : symlink w.F cwd me x n F' →
    Step ls w (.symlink me x) ⟨F', w.data⟩
  | link {w : Store} {cwd : List Str} {me x n : Str} {F' : FS} : link w.F cwd me x n F' → Step ls w (.link me x) ⟨F', w.data⟩
  | rename {w : Store} {cwd : List Str} {me x n : Str} {F' : FS} : rename w.F cwd me x n F' →
    Step ls w (.rename me x) ⟨F', w.data⟩
  | remove {w : Store} {cwd : List Str} {me : Str} {F' : FS} : remove w.F cwd me = some F' → Step ls w (.remove me) ⟨F', w.data⟩
  | removeAll {w : Store} {cwd : List Str} {me : Str} {k : Nat} {F' : FS} {err : Bool} :
    removeAll ls cwd k w.F me = some (F', err) → Step ls w (.removeAll me) ⟨F', w.data⟩
  | openFile {w w' : Store} {cwd : List Str} {me : Str} {f : Flags} {i : Nat} {e : List Str} :
    openFile w cwd me f i = some (w', e) → Step ls w (.openFile me f i) w'
  | truncate {w w' : Store} {cwd : List Str} {me : Str} {size : Int} :
    truncate w cwd me size = some w' → Step ls w (.truncate me size) w'

/-- Calls one after another, file_path.go:255-324. -/
inductive History (ls : FS → List Str → List Str) : Store → List Call → Store → Prop
  | nil (w : Store) : History ls w [] w
  | cons {w w1 w2 : Store} {c : Call} {cs : List Call} : Step ls w c w1 → History ls w1 cs w2 → History ls w (c :: cs) w2

end Verif.FsLinks
