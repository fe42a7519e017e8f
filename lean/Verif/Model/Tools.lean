import Verif.Model.Store
import Verif.Model.Builder

/-!
# Model: the tools `dump_store` and `load_store` (test_utils/src/lib.rs, dump.rs, load.rs), and the
helpers of the tests that make stores

A file is a list of characters. Everything written is ASCII, so characters are bytes. Errors of the
file system, which make the tools panic, are left out; what is kept of it is that a `write` may take
less than it is given.
-/

namespace Carmen

/-- The text of a file. -/
abbrev Text := List Char

namespace Tools

/-- A number in JSON, as `serde_json` (serde_json 1.0.51, not in the repository) prints an unsigned
integer. -/
def numText (n : ℕ) : Text := Nat.toDigits 10 n

/-- The items of a JSON array. -/
def commaSep : List Text → Text
  | [] => []
  | [t] => t
  | t :: u :: r => t ++ ',' :: commaSep (u :: r)

/-- JSON of a `GridEntry` (common.rs:378-388, derived, so in the order of the fields), given how a
float is printed. -/
def entryText (float : F64 → Text) (e : GridEntry) : Text :=
  "{\"relev\":".toList ++ (float e.relev ++ (",\"score\":".toList ++ (numText e.score ++
  (",\"x\":".toList ++ (numText e.x ++ (",\"y\":".toList ++ (numText e.y ++
  (",\"id\":".toList ++ (numText e.id ++ (",\"source_phrase_hash\":".toList ++
  (numText e.hash ++ ['}'])))))))))))

/-- JSON of a `StoreEntryBuildingBlock` (test_utils/src/lib.rs:41-45) with its `GridKey`
(common.rs:20-24). -/
def recordText (float : F64 → Text) (p : GridKey × List GridEntry) : Text :=
  "{\"grid_key\":{\"phrase_id\":".toList ++ (numText p.1.phraseId ++
  (",\"lang_set\":".toList ++ (numText p.1.langSet ++
  ("},\"entries\":[".toList ++ (commaSep (p.2.map (entryText float)) ++ "]}".toList)))))

/-- JSON of a list of numbers. -/
def numsText (l : List ℕ) : Text := '[' :: (commaSep (l.map numText) ++ [']'])

/-- A record a store can return: types of 8, 16, 32 and 128 bits, and one of the four relevances. -/
def Printable (p : GridKey × List GridEntry) : Prop :=
  p.1.Wf ∧ ∀ e ∈ p.2, e.Wf ∧
    (e.relev = lit 0.4 ∨ e.relev = lit 0.6 ∨ e.relev = lit 0.8 ∨ e.relev = 1)

/-- What is used of `serde_json`: how it prints floats and what it reads. -/
structure JsonCrate where
  float : F64 → Text
  record : Text → Option (GridKey × List GridEntry)
  nums : Text → Option (List ℕ)
  float_line : ∀ r, '\n' ∉ float r
  record_read : ∀ p, Printable p → record (recordText float p) = some p
  nums_read : ∀ l, (∀ x ∈ l, x < 2 ^ 32) → nums (numsText l) = some l

/-- The capacity of a `BufWriter`. -/
def bufCapacity : ℕ := 8192

/-- What `write` of a `BufWriter` on a file writes: it copies to its buffer, but pieces as long as its
buffer go to the file, which may take less; the number taken is returned and dropped
(test_utils/src/lib.rs:144-145, 153). `takes i n`: how much of `n` characters the `i`-th write takes. -/
def written (takes : ℕ → ℕ → ℕ) (pieces : List Text) : Text :=
  (pieces.zipIdx.map fun p =>
    if p.1.length < bufCapacity then p.1 else p.1.take (takes p.2 p.1.length)).flatten

/-- `dump_db_to_json` (test_utils/src/lib.rs:135-154): the file with the records and the file with the
boundaries; `none`: it panics. -/
def dump (J : JsonCrate) (takes : ℕ → ℕ → ℕ) (db : SMap Bytes Bytes) : Option (Text × Text) := do
  let s := Store.new db
  let items ← s.iter
  let data := written takes (items.flatMap fun p => [recordText J.float p, ['\n']])
  let boundaries := s.bounds.dedup.insertionSort (· ≤ ·)
  some (data, written takes [numsText boundaries])

/-- `str::replace` of a non-empty pattern by the empty string (used in test_utils/src/lib.rs:150); the
number bounds the steps. -/
def removeAll (pat : Text) : ℕ → Text → Text
  | 0, t => t
  | _ + 1, [] => []
  | n + 1, c :: t =>
    if pat.isPrefixOf (c :: t) then removeAll pat n ((c :: t).drop pat.length)
    else c :: removeAll pat n t

/-- The path of the second file (test_utils/src/lib.rs:150). -/
def splitsPath (jsonPath : Text) : Text :=
  removeAll ".gridstore.dat".toList jsonPath.length jsonPath ++ ".gridstore.splits".toList

/-- A line ends before its newline, and before a carriage return in front of it. -/
def chomp (l : Text) : Text := if l.getLast? = some '\r' then l.dropLast else l

/-- `BufRead::lines`; the first argument is the line read so far, in reverse. -/
def linesFrom : Text → Text → List Text
  | [], [] => []
  | acc, [] => [acc.reverse]
  | acc, c :: t => if c = '\n' then chomp acc.reverse :: linesFrom [] t else linesFrom (c :: acc) t

/-- `load_db_from_json_reader` (test_utils/src/lib.rs:113-131) into a directory; `none`: it panics or
does not return. `insert` and `load_bin_boundaries` do not fail (builder.rs:110-115, 178-181). -/
def load (J : JsonCrate) (o : IterOrder) (old : SMap Bytes Bytes) (data splits : Text) :
    Option (SMap Bytes Bytes) := do
  let records ← ((linesFrom [] data).filter fun l => !l.isEmpty).mapM J.record
  let b := records.foldl (fun b p => b.insert p.1 p.2) Builder.new
  let boundaries ← J.nums splits
  (b.loadBinBoundaries boundaries).finishInto o old

/-- The loop of `langarray_to_langfield` (test_utils/src/lib.rs:31-37). The shift of a `u128` by 128
or more panics with overflow checks (`chk`), without them the amount is taken modulo 128. -/
def langLoop (chk : Bool) : ℕ → List ℕ → Option ℕ
  | out, [] => some out
  | out, lang :: t =>
    if chk && decide (128 ≤ lang) then none else langLoop chk (out ||| (1 <<< (lang % 128))) t

/-- `langarray_to_langfield` (test_utils/src/lib.rs:31-37) of language ids of type `u32`. -/
def langField (chk : Bool) (langs : List ℕ) : Option ℕ := langLoop chk 0 langs

/-- `create_store` (test_utils/src/lib.rs:59-87), the store without the number of the index; `none`:
`finish` does not return. The directory is a new one. -/
def createStore (o : IterOrder) (blocks : List (GridKey × List GridEntry)) (zoom typeId : ℕ)
    (radius : F64) : Option Store :=
  (Builder.finish o (blocks.foldl (fun b p => b.insert p.1 p.2) Builder.new)).map fun db =>
    Store.openWith db zoom typeId radius (globalBBoxForZoom zoom) 1

end Tools
end Carmen
