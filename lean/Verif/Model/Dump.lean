import Verif.Model.Mapper

/-! # `size_node::dump` of `mapper.hpp`

The output is the list of characters sent to `os`, whose formatting flags are the default ones, so that numbers are decimal without separators. -/
namespace Succinct.Mapper

/-- the three `<<` of `mapper.hpp:41-43` -/
def dumpLine (depth : Nat) (name : String) (size : Nat) : List Char :=
  List.replicate (depth * 4) ' ' ++ name.toList ++ [':', ' '] ++ Nat.toDigits 10 size ++ ['\n']

/-- `size_node::dump`, `mapper.hpp:40-47`, called for every node of a list in order (the loop `mapper.hpp:44-46`) -/
def dumpNodes : Nodes → Nat → List Char
  | .nil, _ => []
  | .cons name size children next, depth => dumpLine depth name size ++ dumpNodes children (depth + 1) ++ dumpNodes next depth

/-- `dump(os)` of the node that `size_tree_of` returns (`mapper.hpp:40,272-278`) -/
def dump (t : String × Nat × Nodes) : List Char := dumpNodes (.cons t.1 t.2.1 t.2.2 .nil) 0

end Succinct.Mapper
