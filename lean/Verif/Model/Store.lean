import Verif.Model.Builder
import Verif.Model.Spatial
import Verif.Model.Heap

/-!
# gridstore/store.rs

`none` is a panic. Streams are lists read to the end; a Rust consumer that stops early
may avoid a panic reported here.
-/

namespace Carmen
open Format

/-- One decoded id (store.rs:70-71, 190-191). -/
def splitId (c : ℕ) : ℕ × ℕ := (c >>> 8, c &&& 255)

/-- `decode_value` (store.rs:35-77). -/
def decodeValue (v : Bytes) : Option (List GridEntry) := do
  let root ← readRoot v
  let rss ← readVarVec v root
  let groups ← rss.mapM fun rs => do
    let coords ← readUniformVec v rs.coords
    let cs ← coords.mapM fun c => do
      let ids ← readFixedVec v c.ids
      let p := deinterleave c.coord
      some (ids.map fun i => (⟨relevOfInt (rs.relevScore >>> 4), rs.relevScore &&& 15,
        p.1, p.2, (splitId i).1, (splitId i).2⟩ : GridEntry))
    some cs.flatten
  some groups.flatten

/-- A tile with distance, radius test, score, score-distance (store.rs:172). -/
structure ScoredCoord where
  distance : F64
  within : Bool
  score : ℕ
  scoredist : F64
  coord : Coord
  deriving DecidableEq

/-- Distances of a tile (store.rs:159-171). -/
def scoreCoord (opts : MatchOpts) (radius : F64) (score : ℕ) (c : Coord) : ScoredCoord :=
  match opts.proximity with
  | some p =>
    let t := deinterleave c.coord
    let d := tileDist p.1 p.2 t.1 t.2
    ⟨d, F64.fle d (proximityRadius opts.zoom radius), score,
      scoredist opts.zoom d score radius, c⟩
  | none => ⟨0, false, score, F64.ofNat score, c⟩

/-- The tile selection (store.rs:122-154). -/
def selectCoords (opts : MatchOpts) (cs : List Coord) : List Coord :=
  match opts.bbox, opts.proximity with
  | none, none => cs
  | some b, none => (bboxFilter cs b).getD []
  | none, some p => (proximity cs p).getD []
  | some b, some p => (bboxProximity cs b p).getD []

/-- `KMerge lt streams out`: `out` interleaves the streams, at every step taking the
head of a stream such that no other head is `lt`-before it. This is what itertools'
`kmerge_by` guarantees for a strict weak order `lt`. -/
inductive KMerge {α : Type} (lt : α → α → Prop) : List (List α) → List α → Prop
  | done {ss : List (List α)} : (∀ s ∈ ss, s = []) → KMerge lt ss []
  | step {ss ss' : List (List α)} {a : α} {s out : List α} :
      ss.Perm ((a :: s) :: ss') →
      (∀ b t, (b :: t) ∈ ss → ¬ lt b a) →
      KMerge lt (s :: ss') out → KMerge lt ss (a :: out)

/-- A lawful `kmerge_by` (crate `itertools`): any function producing a `KMerge`. Theorems
quantify over all of them and hence over every way of breaking ties. The law is only
demanded of strict weak orders. -/
structure KMerger where
  merge : {α : Type} → (α → α → Bool) → List (List α) → List α
  law : ∀ {α : Type} (lt : α → α → Bool) (ss : List (List α)),
    (∀ a, lt a a = false) → (∀ a b c, lt a b = true → lt b c = true → lt a c = true) →
    (∀ a b c, lt a b = false → lt b c = false → lt a c = false) →
    KMerge (fun a b => lt a b = true) ss (merge lt ss)

/-- The merge of the score groups of one relevance (store.rs:176-182). Comparing a NaN
panics; that needs two streams with a NaN among them (pessimistic: a real merge might
never reach the NaN). The comparison is then the one of `OrderedFloat`. -/
def mergeScores (M : KMerger) (ss : List (List ScoredCoord)) : Option (List ScoredCoord) :=
  if 2 ≤ (ss.filter (· ≠ [])).length ∧ (∃ s ∈ ss, ∃ c ∈ s, c.scoredist = .nan) then none
  else some (M.merge (fun a b => decide (b.scoredist < a.scoredist)) ss)

/-- The factor for entries of another language (store.rs:195-199). -/
def langFactor (matchesLang within : Bool) : F64 :=
  if matchesLang || within then 1 else lit 0.96

/-- One result (store.rs:192-209). -/
def mkMatch (matchesLang : Bool) (relev : F64) (s : ScoredCoord) (i : ℕ) : MatchEntry :=
  let p := deinterleave s.coord.coord
  ⟨⟨relev * langFactor matchesLang s.within, s.score, p.1, p.2, (splitId i).1, (splitId i).2⟩,
    matchesLang, s.distance, s.scoredist⟩

/-- Whether the tile selection passes the debug assertions of `bbox_range`. `bbox_filter` does not
call it for an empty vector (spatial.rs:59-63), `bbox_proximity_filter` always does
(spatial.rs:115). -/
def selectAsserts (opts : MatchOpts) (cs : List Coord) : Bool :=
  match opts.bbox with
  | none => true
  | some b => (decide (opts.proximity = none) && decide (cs.length = 0)) || bboxRangeAsserts cs b

/-- `decode_matching_value` (store.rs:80-215). With `chk` (debug build) a failing debug assertion
panics. All relevances are decoded at once, the code decodes one when the ones before it are used
up. -/
def decodeMatching (M : KMerger) (chk : Bool) (opts : MatchOpts) (matchesLang : Bool) (radius : F64)
    (v : Bytes) : Option (List MatchEntry) := do
  let root ← readRoot v
  let rss ← readVarVec v root
  let groups ← (groupBy (fun rs : RelevScore => relevOfInt (rs.relevScore >>> 4)) rss).mapM
    fun g => do
      let streams ← g.2.mapM fun rs => do
        let cs ← readUniformVec v rs.coords
        if chk && !selectAsserts opts cs then none
        else some ((selectCoords opts cs).map (scoreCoord opts radius (rs.relevScore &&& 15)))
      let merged ← mergeScores M streams
      let es ← merged.mapM fun s => do
        let ids ← readFixedVec v s.coord.ids
        some (ids.map (mkMatch matchesLang g.1 s))
      some es.flatten
  some groups.flatten

/-- `QueueElement` (store.rs:217-220): the entry to be emitted next and the rest of the
stream. -/
structure QueueElement where
  next : MatchEntry
  rest : List MatchEntry

/-- The sort key of an entry (store.rs:223-232). -/
def MatchEntry.sortKey (e : MatchEntry) : F64 ×ₗ F64 ×ₗ Bool ×ₗ ℕ ×ₗ ℕ ×ₗ ℕ :=
  toLex (e.entry.relev, toLex (e.scoredist, toLex (e.matchesLanguage,
    toLex (e.entry.x, toLex (e.entry.y, e.entry.id)))))

/-- `QueueElement::sort_key` (store.rs:223-232). -/
def QueueElement.key (q : QueueElement) : F64 ×ₗ F64 ×ₗ Bool ×ₗ ℕ ×ₗ ℕ ×ₗ ℕ :=
  q.next.sortKey

/-- `GridStore` (store.rs:20-32) without its path. `bounds` is a hash set, only tested for
membership. -/
structure Store where
  db : SMap Bytes Bytes
  bounds : List ℕ
  zoom : ℕ
  typeId : ℕ
  radius : F64
  bboxes : List BBox
  maxScore : F64
  deriving DecidableEq

namespace Store

/-- `.chunks(4)` and the length filter (store.rs:281-290). -/
def decodeBounds : Bytes → List ℕ
  | a :: b :: c :: d :: t => ofLe [a, b, c, d] :: decodeBounds t
  | _ => []

/-- `GridStore::new_with_options` (store.rs:264-305). -/
def openWith (db : SMap Bytes Bytes) (zoom typeId : ℕ) (radius : F64) (bboxes : List BBox)
    (maxScore : F64) : Store :=
  ⟨db, match SMap.find Builder.boundsKey db with
    | some v => decodeBounds v
    | none => [], zoom, typeId, radius, bboxes, maxScore⟩

/-- `GridStore::new` (store.rs:256-258). -/
def new (db : SMap Bytes Bytes) : Store := openWith db 6 0 0 [⟨0, 0, 63, 63⟩] 0

/-- `might_be_slow` (store.rs:260-262). -/
def mightBeSlow (s : Store) : Bool := decide (14 ≤ s.zoom)

/-- `get` (store.rs:308-316): `none` is a panic, `some none` is `Ok(None)`. -/
def get (s : Store) (k : GridKey) : Option (Option (List GridEntry)) :=
  match SMap.find (k.dbKey .singlePhrase) s.db with
  | none => some none
  | some v => (decodeValue v).map some

/-- Which rows a query reads (store.rs:324-333): start, end, row kind. With overflow
checks (`chk`, debug build) `id + 1` panics for the largest id. -/
def fetchPlan (s : Store) (chk : Bool) : MatchPhrase → Option (ℕ × ℕ × TypeMarker)
  | .exact id =>
    if chk && decide (id + 1 = 2 ^ 32) then none
    else some (id, (id + 1) % 2 ^ 32, .singlePhrase)
  | .range st en =>
    if st ∈ s.bounds ∧ en ∈ s.bounds then some (st, en, .prefixBin)
    else some (st, en, .singlePhrase)

/-- `take_while` over the database iterator (store.rs:345). -/
def takeMatching (k : MatchKey) (m : TypeMarker) :
    List (Bytes × Bytes) → Option (List (Bytes × Bytes))
  | [] => some []
  | r :: t =>
    match k.matchesKey m r.1 with
    | none => none
    | some false => some []
    | some true => (takeMatching k m t).map (r :: ·)

/-- The rows of a query (store.rs:324-345). -/
def queryRows (s : Store) (chk : Bool) (mk : MatchKey) : Option (List (Bytes × Bytes)) := do
  let plan ← s.fetchPlan chk mk.phrase
  let rangeKey : MatchKey := ⟨.range plan.1 plan.2.1, mk.langSet⟩
  takeMatching rangeKey plan.2.2
    (s.db.dropWhile (fun r => decide (r.1 < rangeKey.startKey plan.2.2)))

/-- The stream of one row (store.rs:350-354): `some none` when it is empty. -/
def rowElement (M : KMerger) (chk : Bool) (s : Store) (mk : MatchKey) (opts : MatchOpts)
    (r : Bytes × Bytes) : Option (Option QueueElement) := do
  let ml ← mk.matchesLanguage r.1
  let es ← decodeMatching M chk opts ml s.radius r.2
  some (match es with
    | [] => none
    | e :: t => some ⟨e, t⟩)

/-- Adding a row to the bounded queue (store.rs:355-364); `none`: `peek_min().unwrap()`
on an empty queue. -/
def pushRow (H : Heap QueueElement.key) (maxValues : ℕ) (q : List QueueElement)
    (e : QueueElement) : Option (List QueueElement) :=
  if maxValues ≤ q.length then
    match H.peekMin q with
    | none => none
    | some w => if e.key ≤ w.key then some q else some (H.replaceMin q e)
  else some (H.push q e)

/-- The loop over rows (store.rs:349-366). -/
def fillQueue (M : KMerger) (H : Heap QueueElement.key) (chk : Bool) (s : Store) (mk : MatchKey)
    (opts : MatchOpts) (maxValues : ℕ) :
    List QueueElement → List (Bytes × Bytes) → Option (List QueueElement)
  | q, [] => some q
  | q, r :: t => do
    let e ← s.rowElement M chk mk opts r
    match e with
    | none => fillQueue M H chk s mk opts maxValues q t
    | some e =>
      let q ← pushRow H maxValues q e
      fillQueue M H chk s mk opts maxValues q t

/-- The result iterator (store.rs:368-380), `fuel` items at most. -/
def drain (H : Heap QueueElement.key) : ℕ → List QueueElement → List MatchEntry
  | 0, _ => []
  | fuel + 1, q =>
    match H.peekMax q with
    | none => []
    | some b =>
      match b.rest with
      | n :: r => b.next :: drain H fuel (H.replaceMax q ⟨n, r⟩)
      | [] => b.next :: drain H fuel (H.popMax q)

/-- Number of entries in a queue. -/
def queueSize (q : List QueueElement) : ℕ := (q.map (fun e => e.rest.length + 1)).sum

/-- `streaming_get_matching` (store.rs:318-382), read to the end. -/
def getMatching (M : KMerger) (H : Heap QueueElement.key) (chk : Bool) (s : Store)
    (mk : MatchKey) (opts : MatchOpts) (maxValues : ℕ) : Option (List MatchEntry) := do
  let rows ← s.queryRows chk mk
  let q ← fillQueue M H chk s mk opts maxValues [] rows
  some (drain H (queueSize q) q)

/-- The scan of `keys` and `iter` (store.rs:385-386, 407-408). Stored keys are not empty. -/
def phraseRows (s : Store) : List (Bytes × Bytes) :=
  s.db.takeWhile (fun r => decide (r.1.head? = some 0))

/-- Decoding a stored key (store.rs:387-400, 409-420). -/
def decodeKey (k : Bytes) : Option GridKey := do
  let p ← readBe4 k.tail
  let l ← keyLang k
  some ⟨p, l⟩

/-- `keys` (store.rs:384-402). -/
def keys (s : Store) : Option (List GridKey) := s.phraseRows.mapM (fun r => decodeKey r.1)

/-- `iter` (store.rs:404-426). -/
def iter (s : Store) : Option (List (GridKey × List GridEntry)) :=
  s.phraseRows.mapM fun r => do
    let k ← decodeKey r.1
    let es ← decodeValue r.2
    some (k, es)

end Store

end Carmen
