import Verif.Model.Store
import Verif.Model.HMap

/-!
# gridstore/stackable.rs

`none` is a panic. References to phrase matches and stores are the values themselves.
-/

namespace Carmen

/-- `MatchKeyWithId` (common.rs:449-456). -/
structure KeyWithId where
  key : MatchKey
  nearbyOnly : Bool
  id : ℕ
  phraseLength : ℕ
  deriving DecidableEq

/-- `PhrasematchSubquery` (common.rs:471-480). `non_overlapping_indexes`, a `FixedBitSet`, is
the list of its ones; `contains` is false beyond its length. -/
structure Subquery where
  store : Store
  idx : ℕ
  nonOverlapping : List ℕ
  weight : F64
  mask : ℕ
  matchKeys : List KeyWithId
  deriving DecidableEq

/-- `StackableNode` (stackable.rs:14-23). An arena index is the number of the insertion. -/
structure StackNode where
  pm : Option Subquery
  children : List ℕ
  bmask : List ℕ
  mask : ℕ
  idx : ℕ
  maxRelev : F64
  zoom : ℕ
  deriving DecidableEq

/-- `is_leaf` (stackable.rs:25-29). -/
def StackNode.isLeaf (n : StackNode) : Bool := n.children.length == 0

/-- `LEAF_SOFT_MAX` (stackable.rs:49). -/
def leafSoftMax : ℕ := 2000

/-- `ArenaManager` (stackable.rs:51-60). The generational arena (crate `generational-arena`)
never gives out the same index twice; it is modelled by the list of everything ever inserted,
each with a flag telling whether it is still there. -/
structure Arena where
  nodes : List (StackNode × Bool)
  relevMap : HMap F64 (ℕ × List ℕ)
  minRelev : F64
  totalLeaves : ℕ
  softMax : ℕ
  deriving DecidableEq

namespace Arena

/-- `ArenaManager::new` (stackable.rs:63-71), for any soft maximum. -/
def new (softMax : ℕ) : Arena := ⟨[], [], F64.maxValue, 0, softMax⟩

/-- `is_full` (stackable.rs:73-76). -/
def isFull (a : Arena) : Bool := decide (a.softMax ≤ a.totalLeaves)

/-- `get` (stackable.rs:133-136). -/
def get (a : Arena) (i : ℕ) : Option StackNode :=
  match a.nodes[i]? with
  | some (n, true) => some n
  | _ => none

/-- `arena.remove(i)`. -/
def removeAt (l : List (StackNode × Bool)) (i : ℕ) : List (StackNode × Bool) :=
  l.modify i (fun p => (p.1, false))

/-- The smallest key of the map, `f64::MAX` when there is none (stackable.rs:129-130); the
iteration order of the map does not matter. -/
def smallestKey (m : HMap F64 (ℕ × List ℕ)) : F64 :=
  ((m.map Prod.fst).min?).getD F64.maxValue

/-- `cull_min` (stackable.rs:121-131). -/
def cullMin (a : Arena) : Arena :=
  match HMap.find a.minRelev a.relevMap with
  | some (count, ids) =>
    let m := HMap.erase a.minRelev a.relevMap
    { a with nodes := ids.foldl removeAt a.nodes, relevMap := m,
             totalLeaves := a.totalLeaves - count, minRelev := smallestKey m }
  | none => { a with minRelev := smallestKey a.relevMap }

/-- `add` (stackable.rs:78-119). The comparisons are those of `OrderedFloat`. -/
def add (a : Arena) (n : StackNode) : Option (Arena × Option ℕ) :=
  if a.softMax ≤ a.totalLeaves ∧ n.maxRelev < a.minRelev then some (a, none)
  else
    let i := a.nodes.length
    let leaf : ℕ := if n.children.length = 0 then 1 else 0
    let a' : Arena :=
      { a with nodes := a.nodes ++ [(n, true)],
               relevMap := HMap.upsert n.maxRelev (0, []) (fun p => (p.1 + leaf, p.2 ++ [i]))
                 a.relevMap,
               totalLeaves := a.totalLeaves + leaf }
    if a.totalLeaves < a.softMax then
      some ({ a' with minRelev := if n.maxRelev < a.minRelev then n.maxRelev else a.minRelev },
        some i)
    else if a.minRelev < n.maxRelev then
      match HMap.find a.minRelev a'.relevMap with
      | none => none
      | some (count, _) =>
        if a.softMax ≤ a'.totalLeaves - count then some (a'.cullMin, some i) else some (a', some i)
    else some (a', some i)

end Arena

/-- `PhrasematchBin` (stackable.rs:145-149). -/
structure PmBin where
  pms : List Subquery
  maxRelev : F64
  maxAfter : F64
  deriving DecidableEq

/-- One phrase match going into its bin (stackable.rs:158-170). -/
def binPut (m : SMap ℕ PmBin) (pm : Subquery) : SMap ℕ PmBin :=
  let bin := (SMap.find pm.store.typeId m).getD ⟨[], 0, 0⟩
  SMap.insert pm.store.typeId
    ⟨bin.pms ++ [pm], if F64.flt bin.maxRelev pm.weight then pm.weight else bin.maxRelev,
      bin.maxAfter⟩ m

/-- The sort key inside a bin (stackable.rs:175). -/
def Subquery.binKey (pm : Subquery) : F64ᵒᵈ ×ₗ ℕ := toLex (OrderDual.toDual pm.weight, pm.idx)

/-- The sums of stackable.rs:180-184, from the last bin to the first: the bins with
`max_relev_after_this` set, and `sum_so_far`. -/
def sumAfter : List PmBin → List PmBin × F64
  | [] => ([], 0)
  | b :: t =>
    let r := sumAfter t
    ({ b with maxAfter := r.2 } :: r.1, r.2 + b.maxRelev)

/-- The bins of `stackable` (stackable.rs:157-184). -/
def pmBins (pms : List Subquery) : List PmBin :=
  let m := pms.foldl binPut ([] : SMap ℕ PmBin)
  (sumAfter (m.map fun p =>
    { p.2 with pms := p.2.pms.insertionSort (fun a b => a.binKey ≤ b.binKey) })).1

/-- The node `binned_stackable` starts with (stackable.rs:212-220) for a phrase match below
`parent`. -/
def childNode (parent : StackNode) (pm : Subquery) (relev : F64) : StackNode :=
  ⟨some pm, [], parent.bmask ++ pm.nonOverlapping, pm.mask ||| parent.mask, pm.idx, relev,
    pm.store.zoom⟩

/-- Linking an added child (stackable.rs:253-259). -/
def linkChild (n : StackNode) (child : StackNode) : Option ℕ → StackNode
  | none => n
  | some i => { n with children := n.children ++ [i],
                       maxRelev := if F64.flt n.maxRelev child.maxRelev then child.maxRelev
                         else n.maxRelev }

/-- The loops of `binned_stackable` (stackable.rs:222-262) over the bins from
`start_type_idx` on, for a node of path relevance `relev`. -/
def stackLoop : List PmBin → F64 → StackNode × Arena → Option (StackNode × Arena)
  | [], _, st => some st
  | g :: rest, relev, st => do
    let st ← g.pms.foldlM (fun (st : StackNode × Arena) pm =>
      if st.1.mask &&& pm.mask = 0 ∧ st.1.idx ∉ pm.nonOverlapping then
        let target := relev + pm.weight
        let possible := target + g.maxAfter
        if st.2.isFull && F64.flt possible st.2.minRelev then some st
        else do
          let r ← stackLoop rest target (childNode st.1 pm target, st.2)
          let added ← r.2.add r.1
          some (linkChild st.1 r.1 added.2, added.1)
      else some st) st
    stackLoop rest relev st

/-- `StackableTree` (stackable.rs:139-143). -/
structure StackTree where
  root : StackNode
  arena : Arena
  deriving DecidableEq

/-- The root before its children are added (stackable.rs:186-196). -/
def rootNode : StackNode := ⟨none, [], [], 0, 129, 0, 0⟩

/-- `stackable` (stackable.rs:151-198), for any soft maximum. -/
def stackableWith (softMax : ℕ) (pms : List Subquery) : Option StackTree :=
  (stackLoop (pmBins pms) 0 (rootNode, Arena.new softMax)).map fun r => ⟨r.1, r.2⟩

/-- `stackable` (stackable.rs:151-198). -/
def stackable (pms : List Subquery) : Option StackTree := stackableWith leafSoftMax pms

end Carmen
