import Mathlib.Order.Defs.LinearOrder
import Mathlib.Data.List.Basic

/-!
# Ordered maps

`BTreeMap<K, V>` (builder.rs:18) and a RocksDB database (builder.rs:189, store.rs:22):
finite maps iterated in ascending key order. Modelled as association lists kept in
strictly ascending key order.
-/

namespace Carmen

/-- A finite map in ascending key order. -/
abbrev SMap (K V : Type) := List (K × V)

namespace SMap

variable {K V : Type} [LinearOrder K]

/-- Keys strictly ascend; holds of every map built from `[]` by `insert`. -/
def Sorted (m : SMap K V) : Prop := m.Pairwise (fun a b => a.1 < b.1)

/-- `BTreeMap::insert` / RocksDB `put`: replace or add. -/
def insert (k : K) (v : V) : SMap K V → SMap K V
  | [] => [(k, v)]
  | (k', v') :: t =>
    if k < k' then (k, v) :: (k', v') :: t
    else if k = k' then (k, v) :: t
    else (k', v') :: insert k v t

/-- `BTreeMap::get` / RocksDB `get`. -/
def find (k : K) : SMap K V → Option V
  | [] => none
  | (k', v') :: t => if k = k' then some v' else find k t

/-- `map.entry(k).or_insert_with(dflt)` followed by an in-place update `f`. -/
def upsert (k : K) (dflt : V) (f : V → V) (m : SMap K V) : SMap K V :=
  insert k (f ((find k m).getD dflt)) m

end SMap

end Carmen
