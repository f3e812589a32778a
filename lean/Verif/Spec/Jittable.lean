import Verif.Model.Jittable

/-! Specification side of C50: which leaves are array data, and what it means to change exactly those. -/

namespace Distrax.Spec

open Distrax

variable {L : Type}

mutual
/-- `v` with every leaf that JAX sees replaced through `g`: all leaves outside `Jittable` objects, and inside objects the data
leaves only; everything else as it was. -/
def mapData (isData : L → Bool) (g : L → L) : PV L → PV L
  | .leaf a => .leaf (g a)
  | .none => .none
  | .node tag kids => .node tag (mapDatas isData g kids)
  | .obj c attrs => .obj c (mapDatas isData (fun a => if isData a then g a else a) attrs)
/-- On the children. -/
def mapDatas (isData : L → Bool) (g : L → L) : PVs L → PVs L
  | .nil => .nil
  | .cons k v rest => .cons k (mapData isData g v) (mapDatas isData g rest)
end

mutual
/-- The leaves JAX sees, in order. -/
def dataLeaves (isData : L → Bool) : PV L → List L
  | .leaf a => [a]
  | .none => []
  | .node _ kids => dataLeavess isData kids
  | .obj _ attrs => (dataLeavess isData attrs).filter isData
/-- On the children. -/
def dataLeavess (isData : L → Bool) : PVs L → List L
  | .nil => []
  | .cons _ v rest => dataLeaves isData v ++ dataLeavess isData rest
end

end Distrax.Spec
