/-!
# Ordered forests and their parenthesis sequences

Nodes are named by paths: `[i]` is the `i`-th root, `p ++ [i]` the `i`-th child of the node `p`.
Nothing here refers to the model of the C++ code.
-/
namespace Succinct.Spec

/-- an ordered forest: empty, or a first tree, given by the forest of its root's children, and the rest -/
inductive Forest
  | nil
  | cons (kids rest : Forest)
deriving DecidableEq, Repr

namespace Forest

/-- number of nodes -/
def size : Forest → Nat
  | nil => 0
  | cons k r => 1 + k.size + r.size

/-- one pair of parentheses per node, around those of its children -/
def bp : Forest → List Bool
  | nil => []
  | cons k r => true :: k.bp ++ false :: r.bp

/-- `Node F p n o s`: the node with path `p` is the `n`-th in preorder (from 0), `o` parentheses precede
its own, and `s` is the forest of its children. -/
inductive Node : Forest → List Nat → Nat → Nat → Forest → Prop
  | here {k r} : Node (cons k r) [0] 0 0 k
  | down {k r p n o s} : Node k p n o s → Node (cons k r) (0 :: p) (1 + n) (1 + o) s
  | next {k r i p n o s} : Node r (i :: p) n o s → Node (cons k r) ((i + 1) :: p) (1 + k.size + n) (2 + 2 * k.size + o) s

end Forest
end Succinct.Spec
