import Mathlib.Data.List.Perm.Basic

/-!
# Hash maps

`HashMap<K, V>` is an association list with distinct keys. Its iteration order is not
specified, so every iteration goes through an arbitrary `IterOrder`; theorems quantify
over it.
-/

namespace Carmen

/-- A hash map: distinct keys, in no meaningful order. -/
abbrev HMap (K V : Type) := List (K × V)

namespace HMap
variable {K V : Type} [DecidableEq K]

/-- `map.get(&k)`. -/
def find (k : K) : HMap K V → Option V
  | [] => none
  | (k', v') :: t => if k = k' then some v' else find k t

/-- `map.entry(k)`: `or_insert(dflt)`, then update in place with `f`. -/
def upsert (k : K) (dflt : V) (f : V → V) : HMap K V → HMap K V
  | [] => [(k, f dflt)]
  | (k', v') :: t => if k = k' then (k', f v') :: t else (k', v') :: upsert k dflt f t

/-- `map.remove(&k)`. -/
def erase (k : K) : HMap K V → HMap K V
  | [] => []
  | (k', v') :: t => if k = k' then t else (k', v') :: erase k t

/-- `map.insert(k, v)`. -/
def insert (k : K) (v : V) (m : HMap K V) : HMap K V := upsert k v (fun _ => v) m

/-- The representation invariant: keys are distinct. -/
def Wf (m : HMap K V) : Prop := (m.map Prod.fst).Nodup

end HMap

/-- An iteration order of hash maps: any function that permutes. -/
structure IterOrder where
  /-- The order in which the items of a hash map with representation `l` are visited. -/
  run : {α : Type} → List α → List α
  perm : ∀ {α : Type} (l : List α), (run l).Perm l

/-- Representation order, as an example of an iteration order. -/
def IterOrder.id : IterOrder := ⟨fun l => l, fun l => List.Perm.refl l⟩

/-- Reverse representation order, as an example of an iteration order. -/
def IterOrder.rev : IterOrder := ⟨fun l => l.reverse, fun l => List.reverse_perm l⟩

end Carmen
