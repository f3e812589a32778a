import Verif.Spec.Jittable
import Mathlib.Data.List.Basic

/-! # C50: Jittable objects survive flattening -/

namespace Distrax

open Spec

variable {L : Type} (isData : L → Bool)

theorem jitChildren_eq (ls : List L) :
    jitChildren ls (ls.map isData) = ls.map fun a => if isData a then some a else none := by
  unfold jitChildren
  induction ls with
  | nil => rfl
  | cons a ls ih => simp only [List.map_cons, List.zip_cons_cons, ih]

theorem jitMetadata_eq (ls : List L) :
    jitMetadata ls (ls.map isData) = ls.map fun a => if isData a then none else some a := by
  unfold jitMetadata
  induction ls with
  | nil => rfl
  | cons a ls ih => simp only [List.map_cons, List.zip_cons_cons, ih]

theorem filterMap_children (ls : List L) :
    (ls.map fun a => if isData a then some a else none).filterMap id = ls.filter isData := by
  induction ls with
  | nil => rfl
  | cons a ls ih =>
    rw [List.map_cons, List.filterMap_cons, ih]
    cases h : isData a <;> simp [h]

theorem takeKids_eq (g : L → L) (ls : List L) (rest : List (Option L)) :
    takeKids ((ls.map fun a => if isData a then some a else none).map Option.isSome)
      ((ls.filter isData).map (some ∘ g) ++ rest) =
      some (ls.map fun a => if isData a then some (g a) else none, rest) := by
  induction ls with
  | nil => rfl
  | cons a ls ih =>
    cases h : isData a with
    | true =>
      have h1 : (a :: ls).filter isData = a :: ls.filter isData := by simp [h]
      rw [h1]
      simp only [List.map_cons, h, if_true, Option.isSome_some, List.cons_append, takeKids, ih, Option.map_some]
      rfl
    | false =>
      have h1 : (a :: ls).filter isData = ls.filter isData := by simp [h]
      rw [h1]
      simp only [List.map_cons, h, Bool.false_eq_true, if_false, Option.isSome_none, takeKids, ih, Option.map_some]

theorem jitLeaves_eq (g : L → L) (ls : List L) :
    jitLeaves (ls.map fun a => if isData a then some (g a) else none)
      (ls.map fun a => if isData a then none else some a) (ls.map isData) =
      ls.map (some ∘ fun a => if isData a then g a else a) := by
  unfold jitLeaves
  induction ls with
  | nil => rfl
  | cons a ls ih => cases h : isData a <;> simp [h, ih]

mutual
theorem unflatten_flatten : ∀ (v : PV L) (g : L → L) (rest : List (Option L)),
    (v.flatten isData).2.unflatten ((v.flatten isData).1.map (some ∘ g) ++ rest) = some (mapData isData g v, rest)
  | .leaf a, g, rest => rfl
  | .none, g, rest => rfl
  | .node tag kids, g, rest => by
    simp only [PV.flatten, TD.unflatten, unflattens_flatten kids g rest, Option.map_some, mapData]
  | .obj c attrs, g, rest => by
    have h := unflattens_flatten attrs (fun a => if isData a then g a else a) []
    rw [List.append_nil] at h
    simp only [PV.flatten, TD.unflatten, jitChildren_eq, jitMetadata_eq, filterMap_children, takeKids_eq, jitLeaves_eq, h,
      mapData]
theorem unflattens_flatten : ∀ (vs : PVs L) (g : L → L) (rest : List (Option L)),
    (vs.flatten isData).2.unflatten ((vs.flatten isData).1.map (some ∘ g) ++ rest) = some (mapDatas isData g vs, rest)
  | .nil, g, rest => rfl
  | .cons k v vs, g, rest => by
    simp only [PVs.flatten, TDs.unflatten, List.map_append, List.append_assoc]
    rw [unflatten_flatten v g _]
    simp only [unflattens_flatten vs g rest, Option.map_some, mapDatas]
end

mutual
theorem mapData_id : ∀ (v : PV L) (g : L → L), (∀ a, g a = a) → mapData isData g v = v
  | .leaf a, g, h => by simp only [mapData, h]
  | .none, _, _ => rfl
  | .node tag kids, g, h => by simp only [mapData, mapDatas_id kids g h]
  | .obj c attrs, g, h => by
    simp only [mapData]
    rw [mapDatas_id attrs _ fun a => by simp [h]]
theorem mapDatas_id : ∀ (vs : PVs L) (g : L → L), (∀ a, g a = a) → mapDatas isData g vs = vs
  | .nil, _, _ => rfl
  | .cons k v vs, g, h => by simp only [mapDatas, mapData_id v g h, mapDatas_id vs g h]
end

mutual
theorem flatten_leaves : ∀ v : PV L, (v.flatten isData).1 = dataLeaves isData v
  | .leaf a => rfl
  | .none => rfl
  | .node tag kids => by simp only [PV.flatten, dataLeaves, flattens_leaves kids]
  | .obj c attrs => by
    simp only [PV.flatten, dataLeaves, jitChildren_eq, filterMap_children, flattens_leaves attrs]
theorem flattens_leaves : ∀ vs : PVs L, (vs.flatten isData).1 = dataLeavess isData vs
  | .nil => rfl
  | .cons k v vs => by simp only [PVs.flatten, dataLeavess, flatten_leaves v, flattens_leaves vs]
end

/-- **Replacing the leaves changes exactly the array attributes.**  `tree_map(f, v)` succeeds and gives `v` with `f` applied
to every leaf JAX sees, in place, and every other attribute, key, class and container untouched. -/
theorem C50_tree_map (f : L → L) (v : PV L) : v.treeMap isData f = some (mapData isData f v) := by
  have h := unflatten_flatten isData v f []
  rw [List.append_nil] at h
  unfold PV.treeMap TD.rebuild
  rw [List.map_map, h]

/-- **Round trip.**  Rebuilding from the leaves and the tree definition gives back the same value, for every nesting of
containers and `Jittable` objects. -/
theorem C50_round_trip (v : PV L) : (v.flatten isData).2.rebuild (v.flatten isData).1 = some v := by
  have h := C50_tree_map isData id v
  unfold PV.treeMap at h
  rw [List.map_id] at h
  rw [h, mapData_id isData v id fun _ => rfl]

/-- **What is a leaf.**  The leaves of an object are exactly its data attributes, in order of their position; in particular
nothing that is not data is ever handed to a JAX transformation. -/
theorem C50_leaves (v : PV L) : (v.flatten isData).1 = dataLeaves isData v ∧
    ∀ c attrs, v = .obj c attrs → ∀ a ∈ (v.flatten isData).1, isData a = true := by
  refine ⟨flatten_leaves isData v, ?_⟩
  rintro c attrs rfl a ha
  rw [flatten_leaves, dataLeaves] at ha
  exact (List.mem_filter.1 ha).2

mutual
/-- Number of leaves of a tree definition. -/
def TD.count : TD L → ℕ
  | .leaf => 1
  | .none => 0
  | .node _ kids => kids.count
  | .obj _ _ _ _ kids => (kids.filter id).length
/-- On the children. -/
def TDs.count : TDs L → ℕ
  | .nil => 0
  | .cons _ t rest => t.count + rest.count
end

mutual
theorem flatten_count : ∀ v : PV L, (v.flatten isData).1.length = (v.flatten isData).2.count
  | .leaf a => rfl
  | .none => rfl
  | .node tag kids => by simp only [PV.flatten, TD.count, flattens_count kids]
  | .obj c attrs => by
    simp only [PV.flatten, TD.count, jitChildren_eq, filterMap_children]
    induction (attrs.flatten isData).1 with
    | nil => rfl
    | cons a ls ih => cases h : isData a <;> simp [h, ih]
theorem flattens_count : ∀ vs : PVs L, (vs.flatten isData).1.length = (vs.flatten isData).2.count
  | .nil => rfl
  | .cons k v vs => by simp only [PVs.flatten, TDs.count, List.length_append, flatten_count v, flattens_count vs]
end

mutual
theorem flatten_mapData : ∀ (v : PV L) (g : L → L), (∀ a, isData a = true → isData (g a) = true) →
    (mapData isData g v).flatten isData = ((v.flatten isData).1.map g, (v.flatten isData).2)
  | .leaf a, g, _ => rfl
  | .none, g, _ => rfl
  | .node tag kids, g, h => by simp only [mapData, PV.flatten, flattens_mapData kids g h]
  | .obj c attrs, g, h => by
    have hg' : ∀ a, isData (if isData a then g a else a) = isData a := by
      intro a
      cases ha : isData a with
      | true => simp [h a ha]
      | false => simp [ha]
    have h1 := flattens_mapData attrs (fun a => if isData a then g a else a) fun a ha => by rw [hg', ha]
    have h2 : ((attrs.flatten isData).1.map fun a => if isData a then g a else a).map isData =
        (attrs.flatten isData).1.map isData := by
      rw [List.map_map]; exact List.map_congr_left fun a _ => hg' a
    simp only [mapData, PV.flatten, h1]
    rw [jitChildren_eq, jitMetadata_eq, jitChildren_eq, jitMetadata_eq, h2, filterMap_children, filterMap_children]
    generalize (attrs.flatten isData).1 = ls
    refine Prod.ext ?_ ?_
    · show (List.map _ ls).filter isData = (ls.filter isData).map g
      induction ls with
      | nil => rfl
      | cons a ls ih =>
        cases ha : isData a with
        | true => simpa [ha, h a ha] using ih
        | false => simpa [ha] using ih
    · show TD.obj _ _ _ _ _ = TD.obj _ _ _ _ _
      congr 1
      · rw [List.map_map]
        refine List.map_congr_left fun a _ => ?_
        show (if isData (if isData a then g a else a) then none else some (if isData a then g a else a)) = _
        rw [hg']
        cases ha : isData a <;> simp
      · rw [List.map_map, List.map_map, List.map_map]
        refine List.map_congr_left fun a _ => ?_
        show (if isData (if isData a then g a else a) then some (if isData a then g a else a) else none).isSome = 
          (if isData a then some a else none).isSome
        rw [hg']
        cases ha : isData a <;> simp
theorem flattens_mapData : ∀ (vs : PVs L) (g : L → L), (∀ a, isData a = true → isData (g a) = true) →
    (mapDatas isData g vs).flatten isData = ((vs.flatten isData).1.map g, (vs.flatten isData).2)
  | .nil, _, _ => rfl
  | .cons k v vs, g, h => by
    simp only [mapDatas, PVs.flatten, flatten_mapData v g h, flattens_mapData vs g h, List.map_append]
end

/-- **Transformations keep the structure.**  If data is replaced by data (arrays by tracers, or by the sentinels of `vmap`),
the new object has the same tree definition, and its leaves are the replacements. -/
theorem C50_structure_kept (g : L → L) (hg : ∀ a, isData a = true → isData (g a) = true) (v : PV L) :
    (mapData isData g v).flatten isData = ((v.flatten isData).1.map g, (v.flatten isData).2) :=
  flatten_mapData isData v g hg

/-- **The tree definition determines everything but the data** (and conversely): two values with the same tree definition — the
key under which `jit` caches compiled functions — become equal when all their data leaves are replaced by one array, so a
function compiled for one is never reused for another with different metadata. -/
theorem C50_cache_key (c : L) (hc : isData c = true) (v w : PV L) :
    (v.flatten isData).2 = (w.flatten isData).2 ↔ mapData isData (fun _ => c) v = mapData isData (fun _ => c) w := by
  constructor
  · intro h
    have h1 := unflatten_flatten isData v (fun _ => c) []
    have h2 := unflatten_flatten isData w (fun _ => c) []
    have hl : (v.flatten isData).1.length = (w.flatten isData).1.length := by
      rw [flatten_count, flatten_count, h]
    have hm : ∀ l : List L, l.map (some ∘ fun _ => c) = List.replicate l.length (some c) := by
      intro l; rw [List.eq_replicate_iff]; simp
    rw [hm, List.append_nil] at h1 h2
    rw [h, hl, h2] at h1
    simp only [Option.some.injEq, Prod.mk.injEq, and_true] at h1
    exact h1.symm
  · intro h
    have h1 := flatten_mapData isData v (fun _ => c) fun _ _ => hc
    have h2 := flatten_mapData isData w (fun _ => c) fun _ _ => hc
    rw [h, h2] at h1
    exact (congrArg Prod.snd h1).symm

/-- Two values with the same tree definition and the same leaves are equal: nothing is lost by flattening. -/
theorem C50_flatten_injective (v w : PV L) (h : v.flatten isData = w.flatten isData) : v = w := by
  have h1 := C50_round_trip isData v
  rw [h, C50_round_trip isData w] at h1
  exact (Option.some.inj h1).symm

/-- **Classification.**  Tracers and `vmap`'s sentinels count as data; python numbers (including numpy's `float64`), `None`,
strings and functions are metadata; arrays are data. -/
theorem C50_classification (i : ℕ) (b : Bool) (z : ℤ) :
    isJaxData (.tracer i) = true ∧ isJaxData (.sentinel i) = true ∧ isJaxData (.array i) = true ∧
    isJaxData (.bool b) = false ∧ isJaxData (.int z) = false ∧ isJaxData (.float i) = false ∧ isJaxData .none = false ∧
    isJaxData (.opaque i) = false := ⟨rfl, rfl, rfl, rfl, rfl, rfl, rfl, rfl⟩

/-- A distribution-like object: `_loc` an array, `_max_scale` a python float, `_base` a nested object with an array and a shape
tuple. -/
def exJit : PV PyLeaf :=
  .obj 0 (.cons 0 (.leaf (.array 1)) (.cons 1 (.leaf (.float 2)) (.cons 2
    (.obj 1 (.cons 0 (.node 0 (.cons 0 (.leaf (.int 3)) .nil)) (.cons 1 (.leaf (.array 4)) (.cons 2 .none .nil)))) .nil)))

/-- Non-vacuity: its leaves are the two arrays; mapping them to tracers touches nothing else. -/
example : (exJit.flatten isJaxData).1 = [.array 1, .array 4] ∧
    exJit.treeMap isJaxData (fun _ => .tracer 9) = some
      (.obj 0 (.cons 0 (.leaf (.tracer 9)) (.cons 1 (.leaf (.float 2)) (.cons 2
        (.obj 1 (.cons 0 (.node 0 (.cons 0 (.leaf (.int 3)) .nil)) (.cons 1 (.leaf (.tracer 9)) (.cons 2 .none .nil)))) .nil)))) := by
  constructor
  · rfl
  · rw [C50_tree_map]; rfl

end Distrax
