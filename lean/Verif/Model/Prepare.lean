import Verif.Model.Tools
import Verif.Model.Stack

/-!
# Model: the requests the benchmarks read from files (test_utils/src/lib.rs)

Downloads are a function from names to decompressed texts: files in the bucket do not change, and
`ensure_downloaded` (156-179) gives back what it has stored. `none` is a panic or a load that does not
return. A directory of an index is the database in it.
-/

namespace Carmen
namespace Tools

/-- `str::replace` of a non-empty pattern; the number bounds the steps. -/
def replaceAll (pat new : Text) : ℕ → Text → Text
  | 0, t => t
  | _ + 1, [] => []
  | n + 1, c :: t =>
    if pat.isPrefixOf (c :: t) then new ++ replaceAll pat new n ((c :: t).drop pat.length)
    else c :: replaceAll pat new n t

/-- The file a store is loaded from, by the last part of its path (test_utils/src/lib.rs:254-260). -/
def storeName (path : Text) : Text :=
  let last := (path.reverse.takeWhile (· ≠ '/')).reverse
  replaceAll ".rocksdb".toList ".dat.lz4".toList last.length last

/-- The name of the directory of the index (test_utils/src/lib.rs:187). -/
def indexName (datafile : Text) : Text :=
  replaceAll ".dat.lz4".toList ".rocksdb".toList datafile.length datafile

/-- The file with the boundaries (test_utils/src/lib.rs:181-182, 190-191). -/
def splitsName (datafile : Text) : Text :=
  replaceAll ".gridstore.dat.lz4".toList ".gridstore.splits.lz4".toList datafile.length datafile

/-- `ensure_store` (test_utils/src/lib.rs:184-203) with the indexes there are: the database, and the
indexes there are then. -/
def ensureStore (J : JsonCrate) (o : IterOrder) (files : Text → Text)
    (indexes : HMap Text (SMap Bytes Bytes)) (datafile : Text) :
    Option (SMap Bytes Bytes × HMap Text (SMap Bytes Bytes)) :=
  match HMap.find (indexName datafile) indexes with
  | some db => some (db, indexes)
  | none => (load J o [] (files datafile) (files (splitsName datafile))).map fun db =>
      (db, HMap.insert (indexName datafile) db indexes)

/-- `GridStorePlaceholder` (test_utils/src/lib.rs:205-213); the other kind (216-222) has no boxes and
no score. -/
structure StoreHolder where
  path : Text
  zoom : ℕ
  typeId : ℕ
  radius : F64
  bboxes : List BBox
  maxScore : F64

/-- `SubqueryPlaceholder` (test_utils/src/lib.rs:224-232). -/
structure Holder where
  store : StoreHolder
  idx : ℕ
  nonOverlapping : List ℕ
  weight : F64
  matchKeys : List KeyWithId
  mask : ℕ

/-- Which file a store is loaded from, and how it is opened. -/
structure Opening where
  file : StoreHolder → Text
  store : StoreHolder → SMap Bytes Bytes → Store

/-- The one of `prepare_phrasematches` (test_utils/src/lib.rs:254-271). -/
def fullOpening : Opening where
  file h := storeName h.path
  store h db := Store.openWith db h.zoom h.typeId h.radius h.bboxes h.maxScore

/-- The one of `prepare_stackable_phrasematches` (test_utils/src/lib.rs:322-336). -/
def stackOpening : Opening where
  file _ := "aa-country-both_wvus-fa5c865008-e06f993377.gridstore.dat.lz4".toList
  store h db := Store.openWith db h.zoom h.typeId h.radius (globalBBoxForZoom h.zoom) 1

/-- The stores opened so far, and the indexes there are. -/
structure Prepared where
  stores : HMap Text Store
  indexes : HMap Text (SMap Bytes Bytes)

/-- `PhrasematchSubquery` of a placeholder (test_utils/src/lib.rs:273-287, 339-353). -/
def Holder.subquery (h : Holder) (s : Store) : Subquery :=
  ⟨s, h.idx, h.nonOverlapping, h.weight, h.mask, h.matchKeys⟩

/-- One placeholder (test_utils/src/lib.rs:252-287, 320-353): a store that is open under its path is
taken. -/
def prepareHolder (w : Opening) (J : JsonCrate) (o : IterOrder) (files : Text → Text) (st : Prepared)
    (h : Holder) : Option (Subquery × Prepared) :=
  match HMap.find h.store.path st.stores with
  | some s => some (h.subquery s, st)
  | none => (ensureStore J o files st.indexes (w.file h.store)).map fun p =>
      (h.subquery (w.store h.store p.1),
        ⟨HMap.insert h.store.path (w.store h.store p.1) st.stores, p.2⟩)

/-- The placeholders of a line. -/
def prepareAll (w : Opening) (J : JsonCrate) (o : IterOrder) (files : Text → Text) :
    Prepared → List Holder → Option (List Subquery × Prepared)
  | st, [] => some ([], st)
  | st, h :: t => (prepareHolder w J o files st h).bind fun p =>
      (prepareAll w J o files p.2 t).map fun r => (p.1 :: r.1, r.2)

/-- The lines of the file (test_utils/src/lib.rs:241-296, 306-361); `parse` is `serde_json` of a
line. -/
def prepareLines (w : Opening) (J : JsonCrate) (parse : Text → Option (List Holder × MatchOpts))
    (o : IterOrder) (files : Text → Text) :
    Prepared → List Text → Option (List (List Subquery × MatchOpts) × Prepared)
  | st, [] => some ([], st)
  | st, l :: t =>
    if l.isEmpty then prepareLines w J parse o files st t
    else (parse l).bind fun r => (prepareAll w J o files st r.1).bind fun p =>
      (prepareLines w J parse o files p.2 t).map fun q => ((p.1, r.2) :: q.1, q.2)

/-- `prepare_phrasematches` (test_utils/src/lib.rs:234-298), and with `stackOpening` and the options
left out `prepare_stackable_phrasematches` (300-363). -/
def prepare (w : Opening) (J : JsonCrate) (parse : Text → Option (List Holder × MatchOpts))
    (o : IterOrder) (files : Text → Text) (indexes : HMap Text (SMap Bytes Bytes)) (datafile : Text) :
    Option (List (List Subquery × MatchOpts) × HMap Text (SMap Bytes Bytes)) :=
  (prepareLines w J parse o files ⟨[], indexes⟩ (linesFrom [] (files datafile))).map fun r =>
    (r.1, r.2.indexes)

end Tools
end Carmen
