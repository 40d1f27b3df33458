import Verif.Btree.MapPool
/-!
# Clearing the nodes of a tree (btree.hpp)
-/

namespace Gtl.Btree.MapSlots

variable {K V : Type}

/-- `internal_clear` (btree.hpp:3074-3083) with `btree_node::destroy` (1190-1194) for the nodes of the tree, in the order in
which they are destroyed. That the nodes of a tree are visited once each is part of the model of the tree. -/
def clearNodes (cap : Nat) (m : Mem K V) (c : Nat → Nat) : List Nat → Out (Mem K V)
  | [] => .ok m
  | n :: ns => (destroyN m (n * cap) (c n)).then fun m => clearNodes cap m c ns

end Gtl.Btree.MapSlots
