import Verif.Model.Joint

/-! Shape of a nested structure, independent of what is stored at its leaves. -/

namespace Distrax

mutual
/-- The structure with its leaves erased. -/
def Tree.skel {α : Type} : Tree α → Tree Unit
  | .leaf _ => .leaf ()
  | .node tag es => .node tag (Forest.skel es)
/-- On entries. -/
def Forest.skel {α : Type} : Forest α → Forest Unit
  | .nil => .nil
  | .cons k t rest => .cons k (Tree.skel t) (Forest.skel rest)
end

mutual
/-- The structure with leaves and container types erased (nesting and keys only). -/
def Tree.keys {α : Type} : Tree α → Tree Unit
  | .leaf _ => .leaf ()
  | .node _ es => .node 0 (Forest.keys es)
/-- On entries. -/
def Forest.keys {α : Type} : Forest α → Forest Unit
  | .nil => .nil
  | .cons k t rest => .cons k (Tree.keys t) (Forest.keys rest)
end

end Distrax
