/-!
# Binary trees and walks down from the root

Nothing here refers to the model of the C++ code.
-/
namespace Succinct.Spec

/-- a binary tree: every node has no child or two -/
inductive BinTree
  | leaf
  | node (l r : BinTree)
deriving DecidableEq, Repr

namespace BinTree

/-- the nodes in preorder, `true` for one with children -/
def code : BinTree → List Bool
  | leaf => [false]
  | node l r => true :: l.code ++ r.code

/-- Walk down from the root, to the right for `true` and to the left for `false`, until there are no children or no more directions: the preorder
number of the node reached, from 0, and the directions left. -/
def walk : BinTree → List Bool → Nat × List Bool
  | leaf, bs => (0, bs)
  | node _ _, [] => (0, [])
  | node l r, b :: bs => if b then (1 + l.code.length + (walk r bs).1, (walk r bs).2) else (1 + (walk l bs).1, (walk l bs).2)

/-- Walks from the root one after the other until the directions are used up, ending in node number `q`; it is `p` if there is no walk. -/
inductive Walks (t : BinTree) : List Bool → Nat → Nat → Prop
  | stop {p} : Walks t [] p p
  | more {bs p q} : bs ≠ [] → Walks t (t.walk bs).2 (t.walk bs).1 q → Walks t bs p q

end BinTree
end Succinct.Spec
