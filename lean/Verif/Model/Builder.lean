import Verif.Model.Common
import Verif.Model.Format
import Verif.Model.HMap

/-! # gridstore/builder.rs -/

namespace Carmen
open Format

/-- `BuilderEntry` (builder.rs:14): relevance-score byte to tile to id list. -/
abbrev BuilderEntry := HMap ℕ (HMap ℕ (List ℕ))

/-- `(relev_float_to_int(relev) << 4) | score`, a `u8` (builder.rs:25, 136). -/
def rsByte (relev : F64) (score : ℕ) : ℕ := (relevToInt relev <<< 4) ||| score

/-- `(id << 8) | (source_phrase_hash as u32)`, a `u32` (builder.rs:33, 137); the shift
drops the high bits of the id. -/
def idComp (id hash : ℕ) : ℕ := ((id <<< 8) % 2 ^ 32) ||| hash

/-- `extend_entries` (builder.rs:23-44). -/
def extendEntries (e : BuilderEntry) (values : List GridEntry) : BuilderEntry :=
  (groupBy (fun v => rsByte v.relev v.score) values).foldl
    (fun e g => HMap.upsert g.1 [] (fun inner =>
      (groupBy (fun v => interleave v.x v.y) g.2).foldl
        (fun inner zg =>
          HMap.upsert zg.1 [] (fun ids => ids ++ zg.2.map (fun v => idComp v.id v.hash)) inner)
        inner) e) e

/-- `copy_entries` (builder.rs:46-54). -/
def copyEntries (o : IterOrder) (src dst : BuilderEntry) : BuilderEntry :=
  (o.run src).foldl
    (fun dst rv => HMap.upsert rv.1 [] (fun inner =>
      (o.run rv.2).foldl
        (fun inner zv => HMap.upsert zv.1 [] (fun ids => ids ++ zv.2) inner) inner) dst) dst

/-! ## Encoding one record -/

/-- `Vec::dedup`: drop repeats of the previous item. -/
def dedupAdj {α : Type} [DecidableEq α] : List α → List α
  | [] => []
  | a :: t => match dedupAdj t with
    | [] => [a]
    | b :: t' => if a = b then b :: t' else a :: b :: t'

/-- Writer buffer and the map of id lists already written (builder.rs:57, 66). -/
structure EncState where
  buf : Bytes
  idLists : HMap (List ℕ) ℕ

/-- `ids.sort_by(|a, b| b.cmp(a)); ids.dedup()` (builder.rs:76-77). -/
def normIds (ids : List ℕ) : List ℕ := dedupAdj (ids.insertionSort (· ≥ ·))

/-- Builder.rs:79-80: the address of an id list, written unless already there. -/
def encIds (st : EncState) (ids : List ℕ) : EncState × ℕ :=
  match HMap.find ids st.idLists with
  | some a => (st, a)
  | none =>
    let w := writeFixedVec st.buf ids
    (⟨w.1, (ids, w.2) :: st.idLists⟩, w.2)

/-- The loop over tiles (builder.rs:74-84). -/
def encCoords : EncState → List (ℕ × List ℕ) → EncState × List Coord
  | st, [] => (st, [])
  | st, (c, ids) :: t =>
    let r := encIds st (normIds ids)
    let r' := encCoords r.1 t
    (r'.1, ⟨c, r.2⟩ :: r'.2)

/-- Descending stable sort by key (builder.rs:60-62, 70). -/
def sortDesc {V : Type} (l : List (ℕ × V)) : List (ℕ × V) :=
  l.insertionSort (fun a b => b.1 ≤ a.1)

/-- The loop over relevance-score groups (builder.rs:68-89). -/
def encGroups (o : IterOrder) :
    EncState → List (ℕ × HMap ℕ (List ℕ)) → EncState × List RelevScore
  | st, [] => (st, [])
  | st, (rs, coords) :: t =>
    let r := encCoords st (sortDesc (o.run coords))
    let w := writeUniformVec r.1.buf r.2
    let r' := encGroups o ⟨w.1, r.1.idLists⟩ t
    (r'.1, ⟨rs, w.2⟩ :: r'.2)

/-- `get_encoded_value` (builder.rs:56-97). -/
def encodeValue (o : IterOrder) (value : BuilderEntry) : Bytes :=
  let r := encGroups o ⟨[], []⟩ (sortDesc (o.run value))
  let w := writeVarVec r.1.buf r.2
  writeRoot w.1 w.2

/-! ## The builder -/

/-- `GridStoreBuilder` (builder.rs:16-20) without its path. -/
structure Builder where
  data : SMap GridKey BuilderEntry
  bounds : List ℕ

namespace Builder

/-- `GridStoreBuilder::new` (builder.rs:101-107). -/
def new : Builder := ⟨[], []⟩

/-- `insert` (builder.rs:110-115). -/
def insert (b : Builder) (k : GridKey) (values : List GridEntry) : Builder :=
  { b with data := SMap.insert k (extendEntries [] values) b.data }

/-- `append` (builder.rs:118-122). -/
def append (b : Builder) (k : GridKey) (values : List GridEntry) : Builder :=
  { b with data := SMap.upsert k [] (fun e => extendEntries e values) b.data }

/-- `compact_append` (builder.rs:124-151). -/
def compactAppend (b : Builder) (k : GridKey) (relev : F64) (score id hash : ℕ)
    (coords : List (ℕ × ℕ)) : Builder :=
  { b with data := SMap.upsert k [] (fun e =>
      HMap.upsert (rsByte relev score) [] (fun inner =>
        coords.foldl (fun inner p =>
          HMap.upsert (interleave p.1 p.2) [] (fun ids => ids ++ [idComp id hash]) inner)
          inner) e) b.data }

/-- Errors of `renumber` (builder.rs:162, 169). -/
inductive RenumberError where
  | outOfBounds (tmpId : ℕ)
  | duplicate (targetId : ℕ)
  deriving DecidableEq

/-- The loop of `renumber` (builder.rs:159-174): the map built so far and the result. -/
def renumberLoop (ids : List ℕ) :
    SMap GridKey BuilderEntry → List (GridKey × BuilderEntry) →
      SMap GridKey BuilderEntry × Except RenumberError Unit
  | acc, [] => (acc, .ok ())
  | acc, (k, v) :: t =>
    match ids[k.phraseId]? with
    | none => (acc, .error (.outOfBounds k.phraseId))
    | some n =>
      match SMap.find ⟨n, k.langSet⟩ acc with
      | some _ => (acc, .error (.duplicate n))
      | none => renumberLoop ids (SMap.insert ⟨n, k.langSet⟩ v acc) t

/-- `renumber` (builder.rs:155-176): the builder afterwards, also on error. -/
def renumber (b : Builder) (ids : List ℕ) : Builder × Except RenumberError Unit :=
  let r := renumberLoop ids [] b.data
  ({ b with data := r.1 }, r.2)

/-- `load_bin_boundaries` (builder.rs:178-181). -/
def loadBinBoundaries (b : Builder) (bounds : List ℕ) : Builder := { b with bounds := bounds }

/-! ### `finish` -/

/-- State of the bin closure (builder.rs:192-194): boundaries not yet consumed,
`current_bin`, `next_boundary`. -/
structure BinState where
  seq : List ℕ
  cur : Option ℕ
  next : ℕ
  deriving DecidableEq

/-- Initial state (builder.rs:192-194). -/
def BinState.init (bounds : List ℕ) : BinState := ⟨bounds, none, 0⟩

/-- One execution of the loop body (builder.rs:197-198). -/
def BinState.step (s : BinState) : BinState :=
  ⟨s.seq.tail, s.seq.head?, s.seq.tail.head?.getD u32Max⟩

/-- The `while` loop (builder.rs:196-199). `none`: the loop never ends, which happens
exactly when no boundary is left and the phrase id is not below `u32::MAX`
(`Verif.Lemmas.Builder.advance_none_iff` relates this to `BinState.step`). -/
def advance (pid : ℕ) : List ℕ → Option ℕ → ℕ → Option BinState
  | [], cur, next =>
    if pid < next then some ⟨[], cur, next⟩
    else if pid < u32Max then some ⟨[], none, u32Max⟩
    else none
  | b :: t, cur, next =>
    if pid < next then some ⟨b :: t, cur, next⟩
    else advance pid t (some b) (t.head?.getD u32Max)

/-- Bins of the rows in order, until the closure loops forever (`false`). -/
def assignBins : BinState → List (GridKey × BuilderEntry) →
    List (Option ℕ × (GridKey × BuilderEntry)) × Bool
  | _, [] => ([], true)
  | s, kv :: t =>
    match advance kv.1.phraseId s.seq s.cur s.next with
    | none => ([], false)
    | some s' =>
      let r := assignBins s' t
      ((s'.cur, kv) :: r.1, r.2)

/-- The groups of rows `finish` processes (builder.rs:195-204), and whether the
iteration ends. When the closure loops forever, the group being collected is never
handed out. -/
def binGroups (b : Builder) :
    List (Option ℕ × List (Option ℕ × (GridKey × BuilderEntry))) × Bool :=
  let r := assignBins (BinState.init b.bounds) b.data
  let g := groupBy (fun x : Option ℕ × (GridKey × BuilderEntry) => x.1) r.1
  (if r.2 then g else g.dropLast, r.2)

/-- The merged rows of a bin by language set (builder.rs:205, 212-214). -/
def langMap (o : IterOrder) (rows : List (GridKey × BuilderEntry)) : HMap ℕ BuilderEntry :=
  rows.foldl (fun m kv => HMap.upsert kv.1.langSet [] (fun d => copyEntries o kv.2 d) m) []

/-- The puts of one group (builder.rs:205-227). -/
def groupPuts (o : IterOrder)
    (g : Option ℕ × List (Option ℕ × (GridKey × BuilderEntry))) : List (Bytes × Bytes) :=
  (g.2.map (fun x => (x.2.1.dbKey .singlePhrase, encodeValue o x.2.2))) ++
  (match g.1 with
   | none => []
   | some bin => (o.run (langMap o (g.2.map (·.2)))).map
      (fun le => ((⟨bin, le.1⟩ : GridKey).dbKey .prefixBin, encodeValue o le.2)))

/-- The key `"~BOUNDS"` (builder.rs:235, store.rs:278). -/
def boundsKey : Bytes := [126, 66, 79, 85, 78, 68, 83]

/-- The stored boundaries (builder.rs:231-234). -/
def boundsValue (bounds : List ℕ) : Bytes := bounds.flatMap (leBytes 4)

/-- All `db.put`s of `finish` in order (builder.rs:204-235), and whether it returns. -/
def finishPuts (o : IterOrder) (b : Builder) : List (Bytes × Bytes) × Bool :=
  let g := b.binGroups
  let puts := g.1.flatMap (groupPuts o)
  if g.2 then (puts ++ [(boundsKey, boundsValue b.bounds)], true) else (puts, false)

/-- Apply puts to a database. -/
def applyPuts (db : SMap Bytes Bytes) (puts : List (Bytes × Bytes)) : SMap Bytes Bytes :=
  puts.foldl (fun db p => SMap.insert p.1 p.2 db) db

/-- `finish` into an existing database (builder.rs:184-240); `none`: it never returns. -/
def finishInto (o : IterOrder) (db : SMap Bytes Bytes) (b : Builder) :
    Option (SMap Bytes Bytes) :=
  let r := finishPuts o b
  if r.2 then some (applyPuts db r.1) else none

/-- `finish` into an empty directory. -/
def finish (o : IterOrder) (b : Builder) : Option (SMap Bytes Bytes) := finishInto o [] b

end Builder

end Carmen
