import Verif.Model.Coalesce

/-!
# gridstore/coalesce.rs: `tree_coalesce`, `collapse_phrasematches`, `stack_and_coalesce`

`none` is a panic or an error (`Err` only comes from RocksDB). The two parallel phases are ordered
maps here; `Model/Parallel.lean` has the worker threads. Fields called ghost are not in the code,
they record what happened.
-/

namespace Carmen

/-- `KDBush` (crate `kdbush`) of the points of some contexts: any function that finds the indices
of all points equal to a given one, in any order. -/
structure Bush where
  /-- `exact_as_vec`. -/
  exact : List (ℕ × ℕ) → ℕ × ℕ → List ℕ
  exact_perm : ∀ pts p, (exact pts p).Perm
    ((List.range pts.length).filter fun i => decide (pts[i]? = some p))

/-- The points of `TreeCoalesceState::new` (coalesce.rs:347-355). -/
def points (cs : List Context) : List (ℕ × ℕ) := cs.map fun c => (c.first.entry.x, c.first.entry.y)

/-- `search_range(..).next().is_some()`. -/
def anyInside (pts : List (ℕ × ℕ)) (b : BBox) : Bool :=
  pts.any fun p => decide (b.minX ≤ p.1 ∧ p.1 ≤ b.maxX ∧ b.minY ≤ p.2 ∧ p.2 ≤ b.maxY)

/-- `CoalesceStep` (coalesce.rs:358-365). `ix` (ghost) is the arena index of the node, `q` its
phrase match (`new` panics without one), `prev` the contexts of `prev_state`. -/
structure Step where
  node : StackNode
  ix : ℕ
  q : Subquery
  prev : Option (List Context)
  prevZoom : ℕ
  opts : MatchOpts
  possible : F64
  containsProx : Bool

/-- `cmp_key` (coalesce.rs:394-401). -/
def Step.key (s : Step) : F64 ×ₗ Bool ×ₗ F64 :=
  toLex (s.node.maxRelev, toLex (s.containsProx, s.q.store.maxScore))

/-- What tree coalesce runs with. -/
structure TreeEnv extends Env where
  bush : Bush
  steps : Heap Step.key
  contexts : Heap Context.sortKey

/-- Whether some bounding box of the index contains the proximity point (coalesce.rs:382-388). -/
def containsProx (q : Subquery) (o : MatchOpts) : Bool :=
  match o.proximity with
  | none => false
  | some p => q.store.bboxes.any fun b =>
      decide (b.minX ≤ p.1 ∧ p.1 ≤ b.maxX ∧ b.minY ≤ p.2 ∧ p.2 ≤ b.maxY)

/-- `CoalesceStep::new` (coalesce.rs:368-391). -/
def newStep (env : Env) (opts : MatchOpts) (ix : ℕ) (node : StackNode) (q : Subquery)
    (prev : Option (List Context)) (prevZoom : ℕ) (possible : F64) : Option Step := do
  let o ← env.adjust opts q.store.zoom
  some ⟨node, ix, q, prev, prevZoom, o, possible, containsProx q o⟩

/-! ## Choosing what to fetch -/

/-- The quota counters (coalesce.rs:462-466). -/
structure Counts where
  oneLetter : ℕ
  oneWord : ℕ
  oneWordHigh : ℕ
  allHighRange : ℕ
  allHigh : ℕ
  deriving DecidableEq

/-- `COALESCE_CHUNK_SIZE` (coalesce.rs:443). -/
def chunkSize : ℕ := 8
/-- `ONE_LETTER_RANGE_QUOTA` (coalesce.rs:444). -/
def oneLetterQuota : ℕ := 8
/-- `ONE_WORD_HIGH_ZOOM_RANGE_QUOTA` (coalesce.rs:445). -/
def oneWordHighQuota : ℕ := 8
/-- `ONE_WORD_RANGE_QUOTA` (coalesce.rs:446). -/
def oneWordQuota : ℕ := 40
/-- `ALL_HIGH_ZOOM_RANGE_QUOTA` (coalesce.rs:447). -/
def allHighRangeQuota : ℕ := 40
/-- `ALL_HIGH_ZOOM_QUOTA` (coalesce.rs:448). -/
def allHighQuota : ℕ := 600

namespace Counts

/-- Going on with the next quota unless the last one was used up (`continue`). -/
def andThen (p : Counts × Bool) (f : Counts → Counts × Bool) : Counts × Bool :=
  if p.2 then f p.1 else p

/-- The quota of one-letter scans (coalesce.rs:540-549). -/
def takeOneLetter (kg : KeyWithId) (c : Counts) : Counts × Bool :=
  if kg.phraseLength = 1 then
    if c.oneLetter < oneLetterQuota then ({ c with oneLetter := c.oneLetter + 1 }, true)
    else (c, false)
  else (c, true)

/-- The quota of one-word scans of high-zoom indexes (coalesce.rs:551-561). -/
def takeOneWordHigh (slow : Bool) (kg : KeyWithId) (c : Counts) : Counts × Bool :=
  if slow && !kg.nearbyOnly then
    if c.oneWordHigh < oneWordHighQuota then ({ c with oneWordHigh := c.oneWordHigh + 1 }, true)
    else (c, false)
  else (c, true)

/-- The quota of one-word scans (coalesce.rs:563-567). -/
def takeOneWord (c : Counts) : Counts × Bool :=
  if c.oneWord < oneWordQuota then ({ c with oneWord := c.oneWord + 1 }, true) else (c, false)

/-- The three quotas for one word (coalesce.rs:539-567). -/
def takeWord (slow : Bool) (kg : KeyWithId) (c : Counts) : Counts × Bool :=
  andThen (andThen (takeOneLetter kg c) (takeOneWordHigh slow kg)) takeOneWord

/-- The quota of range scans of high-zoom indexes (coalesce.rs:573-579). -/
def takeHighRange (isRange : Bool) (c : Counts) : Counts × Bool :=
  if isRange then
    if c.allHighRange < allHighRangeQuota then ({ c with allHighRange := c.allHighRange + 1 }, true)
    else (c, false)
  else (c, true)

/-- The quota of scans of high-zoom indexes (coalesce.rs:581-585). -/
def takeAllHigh (c : Counts) : Counts × Bool :=
  if c.allHigh < allHighQuota then ({ c with allHigh := c.allHigh + 1 }, true) else (c, false)

/-- The quotas for high-zoom indexes (coalesce.rs:571-586). -/
def takeHigh (slow isRange : Bool) (kg : KeyWithId) (c : Counts) : Counts × Bool :=
  if slow && !kg.nearbyOnly then andThen (takeHighRange isRange c) takeAllHigh else (c, true)

end Counts

/-- `KeyFetchStep` (coalesce.rs:421-427). -/
structure FetchKey where
  kg : KeyWithId
  q : Subquery
  opts : MatchOpts
  single : Bool

/-- The variables of the loop that fills a chunk (coalesce.rs:484-490, 601-608). `visited` (ghost)
are the steps taken, `stopped` is set instead of `complete`, with the step that was popped. -/
structure Fill where
  steps : List Step
  counts : Counts
  unique : List (ℕ × Bool)
  keys : List FetchKey
  enqueued : Bool
  chunk : List Step
  added : ℕ
  visited : List ℕ
  stopped : Option Step

/-- `is_range` (coalesce.rs:522-525); `end - start` is a `u32`. -/
def isRangeKey (chk : Bool) : MatchPhrase → Option Bool
  | .exact _ => some false
  | .range s e => if chk && decide (e < s) then none else some (decide (1 < (e + 2 ^ 32 - s) % 2 ^ 32))

/-- `mask.count_ones() == 1` of a `u32`. -/
def oneToken (mask : ℕ) : Bool := (List.range 32).countP (fun i => mask.testBit i) == 1

/-- The options of a key (coalesce.rs:516-520). -/
def keyOpts (chk : Bool) (kg : KeyWithId) (o : MatchOpts) : Option MatchOpts :=
  if kg.nearbyOnly then (if chk then o.withNearbyOnlyChecked else some o.withNearbyOnly) else some o

/-- The test of coalesce.rs:528-537. -/
def notWorthIt (env : TreeEnv) (contexts : List Context) (step : Step) : Bool :=
  step.q.store.mightBeSlow && step.node.isLeaf &&
    F64.fle step.possible (lit 0.75 * (((env.contexts.peekMax contexts).map (·.relev)).getD 0))

/-- The quotas a key has to pass (coalesce.rs:527-586); `fresh`: the key is not yet in the
chunk. -/
def takeQuotas (slow isRange oneWord fresh : Bool) (kg : KeyWithId) (c : Counts) : Counts × Bool :=
  Counts.andThen (if isRange && oneWord && fresh then Counts.takeWord slow kg c else (c, true))
    (Counts.takeHigh slow isRange kg)

/-- One match key of a step (coalesce.rs:514-599). -/
def considerKey (env : TreeEnv) (cache : HMap ℕ (List MatchEntry)) (contexts : List Context)
    (step : Step) (single : Bool) (f : Fill) (kg : KeyWithId) : Option Fill :=
  if !single && (HMap.find kg.id cache).isSome then some f
  else do
    let o ← keyOpts env.chk kg step.opts
    let isRange ← isRangeKey env.chk kg.key.phrase
    if isRange && oneToken step.q.mask && notWorthIt env contexts step then some f
    else
      let p := takeQuotas step.q.store.mightBeSlow isRange (oneToken step.q.mask)
        (!decide ((kg.id, single) ∈ f.unique)) kg f.counts
      if p.2 && !decide ((kg.id, single) ∈ f.unique) then
        some { f with counts := p.1, unique := (kg.id, single) :: f.unique,
                      keys := f.keys ++ [⟨kg, step.q, o, single⟩], enqueued := true }
      else some { f with counts := p.1 }

/-- The size of the list of results (coalesce.rs:457-458). -/
def maxResults : ℕ := maxContexts * 20

/-- Whether nothing better can come (coalesce.rs:495-502). -/
def cannotBeat (env : TreeEnv) (contexts : List Context) (step : Step) : Bool :=
  decide (maxResults ≤ contexts.length) &&
    match env.contexts.peekMin contexts with
    | some worst => F64.fle step.node.maxRelev worst.relev
    | none => false

/-- The end of a round of the loop (coalesce.rs:601-608). -/
def Fill.settle (f : Fill) (single : Bool) (step : Step) : Fill :=
  { f with chunk := if single then f.chunk else f.chunk ++ [step],
           added := if f.enqueued || !single then f.added + 1 else f.added,
           visited := f.visited ++ [step.ix] }

/-- Whether a step has no parents and no children (coalesce.rs:506). -/
def Step.isSingle (s : Step) : Bool := s.prev.isNone && s.node.children.length == 0

/-- The loop that fills a chunk (coalesce.rs:488-612). Every round pops a step, so the number of
steps is enough fuel. -/
def fillChunk (env : TreeEnv) (cache : HMap ℕ (List MatchEntry)) (contexts : List Context) :
    ℕ → Fill → Option Fill
  | 0, f => some f
  | n + 1, f =>
    if chunkSize ≤ f.added then some f
    else
      match env.steps.peekMax f.steps with
      | none => some f
      | some step =>
        if cannotBeat env contexts step then
          some { f with steps := env.steps.popMax f.steps, stopped := some step }
        else do
          let f' ← step.q.matchKeys.foldlM (considerKey env cache contexts step step.isSingle)
            { f with steps := env.steps.popMax f.steps, enqueued := false }
          fillChunk env cache contexts n (f'.settle step.isSingle step)

/-! ## Phase 1 -/

/-- `KeyFetchResult` (coalesce.rs:432-435). -/
inductive Fetched where
  | single (contexts : List Context)
  | multi (id : ℕ) (data : List MatchEntry)

/-- Keeping the first of equals (coalesce.rs:651, 662-668). -/
def keepFirst {α K : Type} [DecidableEq K] (key : α → K) : List K → List α → List α
  | _, [] => []
  | seen, a :: t =>
    if key a ∈ seen then keepFirst key seen t else a :: keepFirst key (key a :: seen) t

/-- The contexts of `tree_coalesce_single` (coalesce.rs:942-948): by ascending feature id. -/
def singleById (m : HMap ℕ CoalesceEntry) : List Context :=
  (m.insertionSort fun a b => a.1 ≤ b.1).map fun p => singleContext p.2

/-- `tree_coalesce_single` (coalesce.rs:865-950). -/
def treeSingle (env : Env) (q : Subquery) (opts : MatchOpts) (grids : List MatchEntry)
    (phrasematchId : ℕ) : Option (List Context) := do
  let s ← singleLoop (mkEntry env.chk opts q phrasematchId) opts.proximity.isNone SingleState.init
    grids
  some (singleById s.coalesced)

/-- Phase 1 for one key (coalesce.rs:618-672). -/
def fetchKey (env : TreeEnv) (k : FetchKey) : Option Fetched :=
  if k.single then do
    let grids ← env.query k.q.store k.kg.key k.opts (2 * maxContexts)
    let cs ← treeSingle env.toEnv k.q k.opts grids k.kg.id
    some (.single (cpqPushAll env.contexts maxContexts [] cs))
  else do
    let grids ← env.query k.q.store k.kg.key k.opts maxGridsPerPhrase
    some (.multi k.kg.id (keepFirst (fun g => (g.entry.x, g.entry.y, g.entry.id)) []
      (grids.take maxGridsPerPhrase)))

/-- Taking in one result of phase 1 (coalesce.rs:675-688). -/
def absorbFetched (env : TreeEnv) (s : List Context × HMap ℕ (List MatchEntry)) (r : Fetched) :
    List Context × HMap ℕ (List MatchEntry) :=
  match r with
  | .single cs => (cpqPushAll env.contexts maxResults s.1 cs, s.2)
  | .multi id data => (s.1, HMap.insert id data s.2)

/-! ## Phase 2 -/

/-- `scale_factor` (coalesce.rs:705): `u16` arithmetic. -/
def scaleFactor (chk : Bool) (zoom prevZoom : ℕ) : Option ℕ :=
  if chk then
    if prevZoom ≤ zoom ∧ zoom - prevZoom < 16 then some (1 <<< (zoom - prevZoom)) else none
  else some (oneShl16 ((zoom + 2 ^ 16 - prevZoom) % 2 ^ 16))

/-- The parents of a grid (coalesce.rs:724-727, 736-739); the indices are in bounds by the law of
the bush. -/
def parentsOf (bush : Bush) (prev : List Context) (p : ℕ × ℕ) : List Context :=
  (bush.exact (points prev) p).filterMap fun i => prev[i]?

/-- A context with an entry put in front (coalesce.rs:740-744). -/
def Context.extend (c : Context) (q : Subquery) (e : CoalesceEntry) : Context :=
  ⟨c.mask ||| q.mask, c.relev + e.entry.relev, e :: c.entries⟩

/-- The new contexts of one entry (coalesce.rs:720-787). -/
def newContexts (bush : Bush) (step : Step) (scale : ℕ) (e : CoalesceEntry) : List Context :=
  match step.prev with
  | none => [⟨step.q.mask, e.entry.relev, [e]⟩]
  | some prev => (parentsOf bush prev (e.entry.x / scale, e.entry.y / scale)).map
      fun c => c.extend step.q e

/-- The new contexts of one match key (coalesce.rs:709-788). -/
def expandKey (env : TreeEnv) (cache : HMap ℕ (List MatchEntry)) (step : Step) (scale : ℕ)
    (kg : KeyWithId) : Option (List Context) :=
  match HMap.find kg.id cache with
  | none => some []
  | some grids =>
    (grids.mapM (mkEntry env.chk step.opts step.q kg.id)).map
      (·.flatMap (newContexts env.bush step scale))

/-- The bounding boxes of a child at the current zoom (coalesce.rs:796-811). -/
def childBoxes (chk : Bool) (child : Store) (zoom : ℕ) : Option (List BBox) :=
  if child.zoom = zoom then some child.bboxes
  else if chk then child.bboxes.mapM fun b => adjustBBoxZoomChecked b child.zoom zoom
  else some (child.bboxes.map fun b => adjustBBoxZoom b child.zoom zoom)

/-- The step for one child (coalesce.rs:794-836), if it is still there and overlaps. -/
def nextStep (env : TreeEnv) (t : StackTree) (opts : MatchOpts) (step : Step) (state : List Context)
    (best : F64) (c : ℕ) : Option (Option Step) :=
  match t.arena.get c with
  | none => some none
  | some child => do
    let q ← child.pm
    let boxes ← childBoxes env.chk q.store step.q.store.zoom
    if boxes.any (anyInside (points state)) then
      (newStep env.toEnv opts c child q (some state) step.q.store.zoom (best + q.weight)).map some
    else some none

/-- `relev_so_far` (coalesce.rs:696, 745-747, 774-776). -/
def bestRelev (cs : List Context) : F64 :=
  cs.foldl (fun r c => if F64.flt r c.relev then c.relev else r) 0

/-- The contexts of `state_contexts` (coalesce.rs:707, 753-757, 784). -/
def stateContexts (step : Step) (groups : List (List Context)) : List Context :=
  if step.prev.isNone || !step.node.isLeaf then groups.flatten else []

/-- The next steps (coalesce.rs:790-837). -/
def nextSteps (env : TreeEnv) (t : StackTree) (opts : MatchOpts) (step : Step)
    (groups : List (List Context)) : Option (List Step) :=
  if stateContexts step groups = [] then some []
  else (step.node.children.mapM
    (nextStep env t opts step (stateContexts step groups) (bestRelev groups.flatten))).map
      (fun (l : List (Option Step)) => l.filterMap id)

/-- Phase 2 for one step (coalesce.rs:695-840): contexts for the results and next steps. -/
def expandStep (env : TreeEnv) (t : StackTree) (opts : MatchOpts)
    (cache : HMap ℕ (List MatchEntry)) (step : Step) : Option (List Context × List Step) := do
  let scale ← scaleFactor env.chk step.q.store.zoom step.prevZoom
  let groups ← step.q.matchKeys.mapM (expandKey env cache step scale)
  let next ← nextSteps env t opts step groups
  some (groups.flatMap (fun g => cpqPushAll env.contexts maxContexts [] (g.map Context.penalize)),
    next)

/-! ## The loop -/

/-- The variables of `tree_coalesce` (coalesce.rs:457-466). `fetched`, `visited` and `left` are
ghost: all scans so far, all steps taken, and, after a stop, the steps in the heap at that moment. -/
structure TreeState where
  contexts : List Context
  steps : List Step
  cache : HMap ℕ (List MatchEntry)
  counts : Counts
  fetched : List FetchKey
  visited : List ℕ
  stopped : Option Step
  left : List Step

/-- The steps of the first level (coalesce.rs:468-478). -/
def firstSteps (env : TreeEnv) (t : StackTree) (opts : MatchOpts) : Option (List Step) :=
  (t.root.children.mapM fun c =>
    match t.arena.get c with
    | none => some none
    | some node => node.pm.bind fun q =>
        (newStep env.toEnv opts c node q none 0 q.weight).map some).map
      (fun (l : List (Option Step)) => l.filterMap id)

/-- The state before the loop (coalesce.rs:455-478). -/
def treeInit (env : TreeEnv) (t : StackTree) (opts : MatchOpts) : Option TreeState :=
  if env.chk && t.root.pm.isSome then none
  else (firstSteps env t opts).map fun ss =>
    ⟨[], ss.foldl env.steps.push [], [], ⟨0, 0, 0, 0, 0⟩, [], [], none, []⟩

/-- The chunk of a round (coalesce.rs:484-612). -/
def TreeState.fill (env : TreeEnv) (s : TreeState) : Option Fill :=
  fillChunk env s.cache s.contexts s.steps.length
    ⟨s.steps, s.counts, [], [], false, [], 0, [], none⟩

/-- One round of the loop (coalesce.rs:481-853). -/
def treeRound (env : TreeEnv) (t : StackTree) (opts : MatchOpts) (s : TreeState) :
    Option TreeState := do
  let f ← s.fill env
  let fetched ← f.keys.mapM (fetchKey env)
  let r := fetched.foldl (absorbFetched env) (s.contexts, s.cache)
  let expanded ← f.chunk.mapM (expandStep env t opts r.2)
  some { contexts := cpqPushAll env.contexts maxResults r.1 (expanded.flatMap Prod.fst)
         steps := (expanded.flatMap Prod.snd).foldl env.steps.push f.steps
         cache := r.2
         counts := f.counts
         fetched := s.fetched ++ f.keys
         visited := s.visited ++ f.visited
         stopped := f.stopped
         left := f.steps }

/-- The loop is over: nothing to do, or stopped. -/
def TreeState.finished (s : TreeState) : Bool := s.steps.isEmpty || s.stopped.isSome

/-- The loop (coalesce.rs:480-853), at most `n` rounds. -/
def treeLoop (env : TreeEnv) (t : StackTree) (opts : MatchOpts) : ℕ → TreeState → Option TreeState
  | 0, s => some s
  | n + 1, s => if s.finished then some s else (treeRound env t opts s).bind (treeLoop env t opts n)

/-- `tree_coalesce` (coalesce.rs:451-863). The number of rounds is limited by the number of nodes;
`C44_terminates` shows that this is never too few. -/
def treeCoalesce (env : TreeEnv) (t : StackTree) (opts : MatchOpts) : Option (List Context) := do
  let s ← treeInit env t opts
  let s ← treeLoop env t opts t.arena.nodes.length s
  some (env.contexts.intoVecDesc s.contexts)

/-! ## `stack_and_coalesce` -/

/-- `group_hash` (coalesce.rs:959). -/
def Subquery.groupKey (q : Subquery) : F64 × ℕ × ℕ := (q.weight, q.idx, q.mask)

/-- One phrase match (coalesce.rs:958-968); `match_keys[0]` of an empty vector panics. -/
def collapseStep (m : HMap (F64 × ℕ × ℕ) Subquery) (q : Subquery) :
    Option (HMap (F64 × ℕ × ℕ) Subquery) :=
  match HMap.find q.groupKey m with
  | none => some (m ++ [(q.groupKey, q)])
  | some _ => q.matchKeys.head?.map fun k =>
      HMap.upsert q.groupKey q (fun old => { old with matchKeys := old.matchKeys ++ [k] }) m

/-- `collapse_phrasematches` (coalesce.rs:952-974). The crate `indexmap` iterates in order of
insertion. -/
def collapse (qs : List Subquery) : Option (List Subquery) :=
  (qs.foldlM collapseStep []).map (·.map Prod.snd)

/-- `stack_and_coalesce` (coalesce.rs:976-985). -/
def stackAndCoalesce (env : TreeEnv) (qs : List Subquery) (opts : MatchOpts) :
    Option (List Context) := do
  let collapsed ← collapse qs
  let t ← stackable collapsed
  treeCoalesce env t opts

end Carmen
