/-!
# Search trees without balancing (specification for C80)
-/

namespace Verif.Spec

/-- Binary trees with keys. -/
inductive KTree (κ : Type) where
  | leaf
  | node (l : KTree κ) (k : κ) (r : KTree κ)
deriving DecidableEq

variable {κ : Type}

/-- Plain insertion: go left for smaller keys, right for all others, and put the key where the tree ends. -/
def KTree.insert (lt : κ → κ → Bool) (k : κ) : KTree κ → KTree κ
  | .leaf => .node .leaf k .leaf
  | .node l a r => if lt k a then .node (l.insert lt k) a r else .node l a (r.insert lt k)

/-- Plain insertion of keys one after the other. -/
def KTree.ofList (lt : κ → κ → Bool) (ks : List κ) : KTree κ := ks.foldl (fun T k => T.insert lt k) .leaf

/-- The number of nodes on the way down when `left` says where to go. -/
def KTree.way (left : κ → Bool) : KTree κ → Nat
  | .leaf => 0
  | .node l a r => (if left a then l.way left else r.way left) + 1

/-- The number of nodes on the longest way down. -/
def KTree.height : KTree κ → Nat
  | .leaf => 0
  | .node l _ r => max l.height r.height + 1

end Verif.Spec
