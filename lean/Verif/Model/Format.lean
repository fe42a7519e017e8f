import Verif.Model.Bytes

/-!
# gridstore/gridstore_format.rs

The writer is its byte buffer; every write appends and returns the address where the
item starts. Readers take the whole buffer and an address; `none` is a panic (slice
index out of range). Vectors are read whole: the Rust views read items lazily, so a
Rust reader that stops early may avoid a panic that the model reports; the round-trip
theorems show there is none.
-/

namespace Carmen.Format

/-- `Coord` (gridstore_format.rs:426-430): tile and address of its id list. -/
structure Coord where
  coord : ℕ
  ids : ℕ
  deriving DecidableEq

/-- `RelevScore` (gridstore_format.rs:405-408): relevance and score byte, address of
its vector of coords. -/
structure RelevScore where
  relevScore : ℕ
  coords : ℕ
  deriving DecidableEq

/-- The length prefix of all vectors: `(s.len() as u32).encode_var`
(gridstore_format.rs:165-167, 176-178, 187-189). -/
def lenPrefix (n : ℕ) : Bytes := encodeVar (n % 2 ^ 32)

/-- `Writer::write_fixed_vec` for `u32` items (gridstore_format.rs:174-183, 462-464). -/
def writeFixedVec (buf : Bytes) (items : List ℕ) : Bytes × ℕ :=
  (buf ++ lenPrefix items.length ++ items.flatMap (leBytes 4), buf.length)

/-- `Coord::get_min_size` (gridstore_format.rs:434-441). -/
def Coord.minSize (c : Coord) : ℕ :=
  if c.ids ≤ 255 then 5
  else if c.ids ≤ 65535 then 6
  else if c.ids ≤ 16777215 then 7
  else 8

/-- `Coord::write_with_size_to` (gridstore_format.rs:443-446). -/
def Coord.write (size : ℕ) (c : Coord) : Bytes :=
  leBytes 4 c.coord ++ (leBytes 4 c.ids).take (size - 4)

/-- The record size chosen by `write_uniform_vec` (gridstore_format.rs:190). -/
def recSize (s : List Coord) : ℕ :=
  match s.map Coord.minSize with
  | [] => 255
  | a :: t => t.foldl max a

/-- `Writer::write_uniform_vec` for `Coord` items (gridstore_format.rs:185-197). -/
def writeUniformVec (buf : Bytes) (s : List Coord) : Bytes × ℕ :=
  (buf ++ lenPrefix s.length ++ [recSize s % 256] ++ s.flatMap (Coord.write (recSize s)),
    buf.length)

/-- `RelevScore::write_to` (gridstore_format.rs:411-417). -/
def RelevScore.write (r : RelevScore) : Bytes := r.relevScore % 256 :: encodeVar (r.coords % 2 ^ 32)

/-- `Writer::write_var_vec` for `RelevScore` items (gridstore_format.rs:163-172). -/
def writeVarVec (buf : Bytes) (s : List RelevScore) : Bytes × ℕ :=
  (buf ++ lenPrefix s.length ++ s.flatMap RelevScore.write, buf.length)

/-- `Writer::write_fixed_scalar` of the root `PhraseRecord`
(gridstore_format.rs:146-150, 482-484). -/
def writeRoot (buf : Bytes) (addr : ℕ) : Bytes := buf ++ leBytes 4 addr

/-- `buffer[off..off + n]`; `none` is a panic. -/
def slice (buf : Bytes) (off n : ℕ) : Option Bytes :=
  if off + n ≤ buf.length then some ((buf.drop off).take n) else none

/-- `u32::from_le_bytes(buffer[off..off + 4])`
(gridstore_format.rs:54-57, 77-80, 101-104, 466-468). -/
def readU32 (buf : Bytes) (off : ℕ) : Option ℕ := (slice buf off 4).map ofLe

/-- `u32::decode_var(&data[off..])` (gridstore_format.rs:292, 327, 380); slicing past
the end panics. -/
def readVar (buf : Bytes) (off : ℕ) : Option (ℕ × ℕ) :=
  if off ≤ buf.length then some (decodeVar (buf.drop off)) else none

/-- `FixedVec<u32>`: header and all items (gridstore_format.rs:291-314). -/
def readFixedVec (buf : Bytes) (addr : ℕ) : Option (List ℕ) := do
  let (len, lenLen) ← readVar buf addr
  (List.range len).mapM (fun pos => readU32 buf (addr + lenLen + pos * 4))

/-- `Coord::read_with_size_from` (gridstore_format.rs:448-457); a record size below 4
or above 8 panics. -/
def readCoord (buf : Bytes) (size off : ℕ) : Option Coord := do
  let coord ← readU32 buf off
  if 4 ≤ size ∧ size ≤ 8 then
    let ptr ← slice buf (off + 4) (size - 4)
    some ⟨coord, ofLe ptr⟩
  else none

/-- `UniformVec<Coord>`: header and all items (gridstore_format.rs:379-402). -/
def readUniformVec (buf : Bytes) (addr : ℕ) : Option (List Coord) := do
  let (len, lenLen) ← readVar buf addr
  let rs ← buf[addr + lenLen]?
  (List.range len).mapM (fun pos => readCoord buf rs (addr + lenLen + 1 + pos * rs))

/-- `RelevScore::read_from` (gridstore_format.rs:419-423). -/
def readRelevScore (buf : Bytes) (off : ℕ) : Option (RelevScore × ℕ) := do
  let rs ← buf[off]?
  let (ptr, n) ← readVar buf (off + 1)
  some (⟨rs, ptr⟩, 1 + n)

/-- `VarVec<RelevScore>::into_iter` (gridstore_format.rs:353-366). -/
def readVarItems (buf : Bytes) : ℕ → ℕ → Option (List RelevScore)
  | 0, _ => some []
  | k + 1, loc => do
    let (v, n) ← readRelevScore buf loc
    let t ← readVarItems buf k (loc + n)
    some (v :: t)

/-- `VarVec<RelevScore>` (gridstore_format.rs:326-366). -/
def readVarVec (buf : Bytes) (addr : ℕ) : Option (List RelevScore) := do
  let (len, lenLen) ← readVar buf addr
  readVarItems buf len (addr + lenLen)

/-- `Reader::read_root::<PhraseRecord>` (gridstore_format.rs:255-258, 475-489): the
address of the relevance-score vector, in the last four bytes. -/
def readRoot (buf : Bytes) : Option ℕ :=
  if buf.length < 4 then none else readU32 buf (buf.length - 4)

end Carmen.Format
