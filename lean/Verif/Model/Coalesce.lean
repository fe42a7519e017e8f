import Verif.Model.Store
import Verif.Model.Stack
import Verif.Model.Queue
import Verif.Model.Spatial

/-!
# gridstore/coalesce.rs: `coalesce`, `coalesce_single`, `coalesce_multi`

`none` is a panic or an error (`Err` only comes from RocksDB). With `chk` arithmetic is checked and
debug assertions are on, without it arithmetic wraps.
-/

namespace Carmen

/-- `CoalesceEntry` (common.rs:398-408). -/
structure CoalesceEntry where
  entry : GridEntry
  matchesLanguage : Bool
  idx : ℕ
  tmpId : ℕ
  mask : ℕ
  distance : F64
  scoredist : F64
  phrasematchId : ℕ
  deriving DecidableEq

/-- A placeholder; contexts always have an entry. -/
instance : Inhabited CoalesceEntry := ⟨⟨⟨0, 0, 0, 0, 0, 0⟩, false, 0, 0, 0, 0, 0, 0⟩⟩

/-- `CoalesceContext` (common.rs:410-415). -/
structure Context where
  mask : ℕ
  relev : F64
  entries : List CoalesceEntry
  deriving DecidableEq

/-- `entries[0]`; contexts always have an entry. -/
def Context.first (c : Context) : CoalesceEntry := c.entries.headD default

/-- `sort_key` (common.rs:419-428). -/
def Context.sortKey (c : Context) : F64 ×ₗ F64 ×ₗ ℕᵒᵈ ×ₗ ℕ ×ₗ ℕ ×ₗ ℕ :=
  toLex (c.relev, toLex (c.first.scoredist, toLex (OrderDual.toDual c.first.idx,
    toLex (c.first.entry.x, toLex (c.first.entry.y, c.first.entry.id)))))

/-- What a query runs with: the two crates behind `streaming_get_matching`, and whether arithmetic
is checked. -/
structure Env where
  merger : KMerger
  rows : Heap QueueElement.key
  chk : Bool

/-- `streaming_get_matching` in the environment. -/
def Env.query (env : Env) (s : Store) (mk : MatchKey) (opts : MatchOpts) (maxValues : ℕ) :
    Option (List MatchEntry) :=
  s.getMatching env.merger env.rows env.chk mk opts maxValues

/-- `adjust_to_zoom` in the environment. -/
def Env.adjust (env : Env) (o : MatchOpts) (zoom : ℕ) : Option MatchOpts :=
  if env.chk then o.adjustToZoomChecked zoom else some (o.adjustToZoom zoom)

/-- The temporary id (coalesce.rs:69): `((idx as u32) << 25) + id`, wrapping. -/
def tmpIdOf (idx id : ℕ) : ℕ := ((idx <<< 25) % 2 ^ 32 + id) % 2 ^ 32

/-- The value `grid_to_coalesce_entry` builds (coalesce.rs:63-74). -/
def toEntry (g : MatchEntry) (q : Subquery) (phrasematchId : ℕ) : CoalesceEntry :=
  ⟨{ g.entry with relev := g.entry.relev * q.weight }, g.matchesLanguage, q.idx,
    tmpIdOf q.idx g.entry.id, q.mask, g.distance, g.scoredist, phrasematchId⟩

/-- `grid_to_coalesce_entry` (coalesce.rs:55-75) with its assertion and the overflow check of the
temporary id. -/
def mkEntry (chk : Bool) (opts : MatchOpts) (q : Subquery) (phrasematchId : ℕ) (g : MatchEntry) :
    Option CoalesceEntry :=
  if chk && (decide (opts.zoom ≠ q.store.zoom) ||
      decide (2 ^ 32 ≤ (q.idx <<< 25) % 2 ^ 32 + g.entry.id)) then none
  else some (toEntry g q phrasematchId)

/-! ## One phrase match -/

/-- The variables of the loop of `coalesce_single` (coalesce.rs:88-95). -/
structure SingleState where
  maxRelev : F64
  prevId : ℕ
  prevRelev : F64
  prevSd : F64
  minSd : F64
  count : ℕ
  coalesced : HMap ℕ CoalesceEntry

/-- Their initial values. -/
def SingleState.init : SingleState := ⟨0, 0, 0, 0, F64.maxValue, 0, []⟩

/-- Keeping the better entry of a feature (coalesce.rs:127-138). -/
def betterOf (new old : CoalesceEntry) : CoalesceEntry :=
  if F64.flt old.scoredist new.scoredist && F64.fle old.entry.relev new.entry.relev then new
  else old

/-- Recording an entry (coalesce.rs:127-153 without the exit in between). -/
def SingleState.record (s : SingleState) (e : CoalesceEntry) : SingleState :=
  { maxRelev := if F64.flt s.maxRelev e.entry.relev then e.entry.relev else s.maxRelev
    prevId := e.entry.id
    prevRelev := e.entry.relev
    prevSd := e.scoredist
    minSd := if F64.flt e.scoredist s.minSd then e.scoredist else s.minSd
    count := if s.prevId ≠ e.entry.id then s.count + 1 else s.count
    coalesced := HMap.upsert e.entry.id e (betterOf e) s.coalesced }

/-- What a round of the loop does. -/
inductive SingleMove where
  | skip
  | stop
  | take
  | takeAndStop
  deriving DecidableEq

/-- One round of the loop (coalesce.rs:97-154); `noProx`: no proximity in the options. -/
def singleMove (noProx : Bool) (s : SingleState) (e : CoalesceEntry) : SingleMove :=
  if s.prevId = e.entry.id ∧ F64.fle e.scoredist s.prevSd = true then .skip
  else if 2 * maxContexts < s.count ∧ F64.flt e.scoredist s.minSd = true then .skip
  else if 2 * maxContexts < s.count ∧ F64.flt e.entry.relev s.prevRelev = true then .stop
  else if F64.fle (lit 0.25) (s.maxRelev - e.entry.relev) = true then .stop
  else if noProx = true ∧
      2 * maxContexts < (if s.prevId ≠ e.entry.id then s.count + 1 else s.count) then .takeAndStop
  else .take

/-- The loop of `coalesce_single` and of `tree_coalesce_single` (coalesce.rs:97-154, 884-941; the
same text). -/
def singleLoop (mk : MatchEntry → Option CoalesceEntry) (noProx : Bool) :
    SingleState → List MatchEntry → Option SingleState
  | s, [] => some s
  | s, g :: t => do
    let e ← mk g
    match singleMove noProx s e with
    | .skip => singleLoop mk noProx s t
    | .stop => some s
    | .take => singleLoop mk noProx (s.record e) t
    | .takeAndStop => some (s.record e)

/-- A context of one entry (coalesce.rs:158-162, 947). -/
def singleContext (e : CoalesceEntry) : Context := ⟨e.mask, e.entry.relev, [e]⟩

/-- The sort key of `coalesce_single` (coalesce.rs:165-173). -/
def Context.singleKey (c : Context) : F64 ×ₗ F64 ×ₗ ℕ ×ₗ ℕ ×ₗ ℕ :=
  toLex (c.relev, toLex (c.first.scoredist,
    toLex (c.first.entry.x, toLex (c.first.entry.y, c.first.entry.id))))

/-- The collected features of `coalesce_single` (coalesce.rs:81-154). -/
def singleFeatures (env : Env) (q : Subquery) (opts : MatchOpts) :
    Option (HMap ℕ CoalesceEntry) := do
  let k ← q.matchKeys.head?
  let grids ← env.query q.store k.key opts (2 * maxContexts)
  let s ← singleLoop (mkEntry env.chk opts q 0) opts.proximity.isNone SingleState.init grids
  some s.coalesced

/-- `coalesce_single` (coalesce.rs:77-178); `o` is the iteration order of the hash map. -/
def coalesceSingle (env : Env) (o : IterOrder) (q : Subquery) (opts : MatchOpts) :
    Option (List Context) := do
  let m ← singleFeatures env q opts
  some ((((o.run m).map fun p => singleContext p.2).insertionSort
    fun a b => b.singleKey ≤ a.singleKey).take maxContexts)

/-! ## Several phrase matches -/

/-- The variables of the loops that look for parents (coalesce.rs:223-235). -/
structure Absorb where
  entries : List CoalesceEntry
  mask : ℕ
  relev : F64
  prevMask : ℕ
  prevRelev : F64

/-- One parent entry (coalesce.rs:237-262). -/
def Absorb.step (a : Absorb) (p : CoalesceEntry) : Absorb :=
  if p.mask = a.prevMask ∧ F64.flt a.prevRelev p.entry.relev = true then
    ⟨a.entries.dropLast ++ [p], a.mask, a.relev - a.prevRelev + p.entry.relev, p.mask,
      p.entry.relev⟩
  else if a.mask &&& p.mask = 0 then
    ⟨a.entries ++ [p], a.mask ||| p.mask, a.relev + p.entry.relev, p.mask, p.entry.relev⟩
  else a

/-- A tile: zoom, x, y. -/
abbrev Zxy := ℕ × ℕ × ℕ

/-- The tile above at another zoom (coalesce.rs:223-228). The shift amount is below 16 or masked. -/
def tileAbove (chk : Bool) (zoom otherZoom : ℕ) (e : CoalesceEntry) : Option Zxy :=
  if chk && decide (16 ≤ zoom - otherZoom) then none
  else
    let f := oneShl16 (zoom - otherZoom)
    some (otherZoom, e.entry.x / f, e.entry.y / f)

/-- The contexts of one compatible zoom (coalesce.rs:222-265). -/
def absorbZoom (chk : Bool) (zoom : ℕ) (coalesced : HMap Zxy (List Context)) (c : Context)
    (otherZoom : ℕ) : Option Context := do
  let z ← tileAbove chk zoom otherZoom c.first
  match HMap.find z coalesced with
  | none => some c
  | some parents =>
    let a := (parents.flatMap Context.entries).foldl Absorb.step ⟨c.entries, c.mask, c.relev, 0, 0⟩
    some ⟨a.mask, a.relev, a.entries⟩

/-- `Iterator::dedup` of itertools. -/
def dedupAdjacent : List ℕ → List ℕ
  | [] => []
  | a :: t =>
    match dedupAdjacent t with
    | [] => [a]
    | b :: r => if a = b then b :: r else a :: b :: r

/-- `compatible_zooms` (coalesce.rs:195-208). -/
def compatibleZooms (stack : List Subquery) (q : Subquery) : List ℕ :=
  dedupAdjacent ((stack.filter fun b => !(q.idx == b.idx || decide (q.store.zoom < b.store.zoom))).map
    fun b => b.store.zoom)

/-- The penalty of coalesce.rs:271-277 and `penalize_multi_context` (coalesce.rs:436-441). -/
def Context.penalize (c : Context) : Context :=
  match c.entries with
  | e0 :: e1 :: _ => if e1.mask < e0.mask then { c with relev := c.relev - lit 0.01 } else c
  | _ => { c with relev := c.relev - lit 0.01 }

/-- The variables of the loops over phrase matches and grids (coalesce.rs:185-194). -/
structure MultiState where
  coalesced : HMap Zxy (List Context)
  toAdd : HMap Zxy (List Context)
  contexts : List Context
  maxRelev : F64
  opts : MatchOpts

/-- One grid of one phrase match (coalesce.rs:219-303). `first`, `last`: whether the phrase match is
the first or the last one of the stack. -/
def multiGrid (chk : Bool) (zooms : List ℕ) (q : Subquery) (first last : Bool) (s : MultiState)
    (g : MatchEntry) : Option MultiState := do
  let e ← mkEntry chk s.opts q 0 g
  let c ← zooms.foldlM (absorbZoom chk q.store.zoom s.coalesced) ⟨e.mask, e.entry.relev, [e]⟩
  let maxRelev := if F64.flt s.maxRelev c.relev then c.relev else s.maxRelev
  if last then
    let c := c.penalize
    if F64.flt (maxRelev - c.relev) (lit 0.25) then
      some { s with contexts := s.contexts ++ [c], maxRelev := maxRelev }
    else some { s with maxRelev := maxRelev }
  else if first || decide (1 < c.entries.length) then
    some { s with toAdd := HMap.upsert (q.store.zoom, g.entry.x, g.entry.y) [] (· ++ [c]) s.toAdd,
                  maxRelev := maxRelev }
  else some { s with maxRelev := maxRelev }

/-- Moving the contexts of one phrase match over (coalesce.rs:304-310), in the order of `o`. -/
def moveOver (o : IterOrder) (s : MultiState) : MultiState :=
  { s with coalesced := (o.run s.toAdd).foldl (fun m p => HMap.upsert p.1 [] (· ++ p.2) m)
             s.coalesced,
           toAdd := [] }

/-- The options for a phrase match (coalesce.rs:210-214). -/
def MultiState.optsFor (env : Env) (opts : MatchOpts) (s : MultiState) (q : Subquery) :
    Option MatchOpts :=
  if s.opts.zoom ≠ q.store.zoom then env.adjust opts q.store.zoom else some s.opts

/-- One phrase match of the stack (coalesce.rs:192-311). -/
def multiStep (env : Env) (o : IterOrder) (opts : MatchOpts) (stack : List Subquery)
    (s : MultiState) (i : ℕ) (q : Subquery) : Option MultiState := do
  let adjusted ← s.optsFor env opts q
  let k ← q.matchKeys.head?
  let grids ← env.query q.store k.key adjusted maxGridsPerPhrase
  let s ← (grids.take maxGridsPerPhrase).foldlM
    (multiGrid env.chk (compatibleZooms stack q) q (i == 0) (i + 1 == stack.length))
    { s with opts := adjusted }
  some (moveOver o s)

/-- The sort key of a stack (coalesce.rs:184). -/
def Subquery.stackKey (q : Subquery) : ℕ ×ₗ ℕ := toLex (q.store.zoom, q.idx)

/-- The loop over the stack (coalesce.rs:192-311); `os i` is the iteration order of the hash map in
round `i`. -/
def multiLoop (env : Env) (os : ℕ → IterOrder) (opts : MatchOpts) (stack : List Subquery) :
    ℕ → List Subquery → MultiState → Option MultiState
  | _, [], s => some s
  | i, q :: t, s => do
    let s ← multiStep env (os i) opts stack s i q
    multiLoop env os opts stack (i + 1) t s

/-- `coalesce_multi` (coalesce.rs:180-339); `os` are the iteration orders of the hash maps, the last
one after the loop. -/
def coalesceMulti (env : Env) (os : ℕ → IterOrder) (stack : List Subquery) (opts : MatchOpts) :
    Option (List Context) := do
  let stack := stack.insertionSort fun a b => a.stackKey ≤ b.stackKey
  let s ← multiLoop env os opts stack 0 stack ⟨[], [], [], 0, opts⟩
  let rest := ((((os stack.length).run s.coalesced).flatMap Prod.snd).filter fun c =>
    F64.flt (s.maxRelev - c.relev) (lit 0.25))
  some ((s.contexts ++ rest).insertionSort fun a b => b.sortKey ≤ a.sortKey)

/-! ## `coalesce` -/

/-- The loop of `coalesce` (coalesce.rs:38-50): `out` has `n` contexts, `seen` are the temporary
ids taken. -/
def pickContexts (maxRelev : F64) : ℕ → List ℕ → List Context → List Context
  | _, _, [] => []
  | n, seen, c :: t =>
    if maxContexts ≤ n then []
    else if F64.fle (lit 0.25) (maxRelev - c.relev) = true then []
    else if c.first.tmpId ∈ seen then pickContexts maxRelev n seen t
    else c :: pickContexts maxRelev (n + 1) (c.first.tmpId :: seen) t

/-- The contexts `coalesce` picks from (coalesce.rs:28-32); `stack[0]` of an empty stack panics. -/
def allContexts (env : Env) (os : ℕ → IterOrder) (stack : List Subquery) (opts : MatchOpts) :
    Option (List Context) :=
  if stack.length ≤ 1 then stack.head?.bind fun q => coalesceSingle env (os 0) q opts
  else coalesceMulti env os stack opts

/-- `coalesce` (coalesce.rs:24-53). -/
def coalesce (env : Env) (os : ℕ → IterOrder) (stack : List Subquery) (opts : MatchOpts) :
    Option (List Context) := do
  let contexts ← allContexts env os stack opts
  match contexts with
  | [] => some []
  | c :: _ => some (pickContexts c.relev 0 [] contexts)

end Carmen
