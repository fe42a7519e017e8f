import Verif.F64.Basic
import Verif.Model.Bytes
import Verif.Model.SMap
import Mathlib.Data.List.Lex
import Mathlib.Data.Prod.Lex
import Mathlib.Data.List.Sort

/-!
# gridstore/common.rs

Integers are natural numbers; where the Rust type bounds them the bounds appear as
`Wf` predicates, and where the Rust code truncates the model takes remainders.
-/

namespace Carmen

/-- `std::u128::MAX`, the all-languages marker. -/
def allLangs : ℕ := 2 ^ 128 - 1
/-- `std::u32::MAX`. -/
def u32Max : ℕ := 2 ^ 32 - 1

/-- `TypeMarker` (common.rs:14-18). -/
inductive TypeMarker where
  | singlePhrase
  | prefixBin
  deriving DecidableEq

/-- `type_marker as u8`. -/
def TypeMarker.byte : TypeMarker → ℕ
  | singlePhrase => 0
  | prefixBin => 1

/-- `GridKey` (common.rs:20-24): `phrase_id: u32`, `lang_set: u128`. -/
structure GridKey where
  phraseId : ℕ
  langSet : ℕ
  deriving DecidableEq

/-- The Rust types bound the fields. -/
def GridKey.Wf (k : GridKey) : Prop := k.phraseId < 2 ^ 32 ∧ k.langSet < 2 ^ 128

instance (k : GridKey) : Decidable k.Wf := by unfold GridKey.Wf; infer_instance

/-- Lexicographic image of a grid key. -/
def GridKey.toPair (k : GridKey) : ℕ ×ₗ ℕ := toLex (k.phraseId, k.langSet)

theorem GridKey.toPair_injective : Function.Injective GridKey.toPair := by
  rintro ⟨a, b⟩ ⟨c, d⟩ h
  simpa [GridKey.toPair] using h

/-- The derived `Ord` of `GridKey` (common.rs:20): phrase id, then language set. -/
instance : LinearOrder GridKey := LinearOrder.lift' GridKey.toPair GridKey.toPair_injective

/-- The language suffix of a database key (common.rs:32-42). -/
def langBytes (l : ℕ) : Bytes :=
  if l = allLangs then []
  else if l = 0 then [0]
  else (beBytes 16 l).dropWhile (· = 0)

/-- `GridKey::write_to` (common.rs:27-44), starting from an empty buffer. -/
def GridKey.dbKey (m : TypeMarker) (k : GridKey) : Bytes :=
  m.byte :: (beBytes 4 k.phraseId ++ langBytes k.langSet)

/-- `MatchPhrase` (common.rs:47-51). -/
inductive MatchPhrase where
  | exact (id : ℕ)
  | range (start stop : ℕ)
  deriving DecidableEq

/-- `MatchKey` (common.rs:53-57). -/
structure MatchKey where
  phrase : MatchPhrase
  langSet : ℕ
  deriving DecidableEq

/-- The start of the range of a match phrase (common.rs:73-76). -/
def MatchPhrase.start : MatchPhrase → ℕ
  | exact id => id
  | range s _ => s

/-- `MatchKey::write_start_to` (common.rs:66-79). -/
def MatchKey.startKey (m : TypeMarker) (k : MatchKey) : Bytes :=
  m.byte :: beBytes 4 k.phrase.start

/-- `(&b[..]).read_u32::<BigEndian>()`: `none` when fewer than four bytes are left. -/
def readBe4 (b : Bytes) : Option ℕ := if b.length < 4 then none else some (ofBe (b.take 4))

/-- `MatchKey::matches_key` (common.rs:81-90), as called with `.unwrap()`
(store.rs:348); `none` is a panic (key shorter than five bytes). -/
def MatchKey.matchesKey (k : MatchKey) (m : TypeMarker) (dbKey : Bytes) : Option Bool :=
  match dbKey with
  | [] => none
  | b :: rest =>
    match readBe4 rest with
    | none => none
    | some p =>
      if b ≠ m.byte then some false
      else some (match k.phrase with
        | .exact id => decide (id = p)
        | .range s e => decide (s ≤ p ∧ p < e))

/-- The language set encoded in a database key (common.rs:93-102, store.rs:389-398):
`none` is a panic (key shorter than five bytes, or more than sixteen language bytes). -/
def keyLang (dbKey : Bytes) : Option ℕ :=
  if dbKey.length < 5 then none
  else
    let part := dbKey.drop 5
    if part.length = 0 then some allLangs
    else if 16 < part.length then none
    else some (ofBe part)

/-- `MatchKey::matches_language` (common.rs:92-105), `.unwrap()`ed (store.rs:353).
The zero-padding of the suffix to sixteen bytes does not change its value. -/
def MatchKey.matchesLanguage (k : MatchKey) (dbKey : Bytes) : Option Bool :=
  if dbKey.length < 5 then none
  else
    let part := dbKey.drop 5
    if part.length = 0 then some true
    else if 16 < part.length then none
    else some (decide (k.langSet &&& ofBe part ≠ 0))

/-- A box of tiles `[min x, min y, max x, max y]` (`[u16; 4]`). -/
structure BBox where
  minX : ℕ
  minY : ℕ
  maxX : ℕ
  maxY : ℕ
  deriving DecidableEq

/-- `MatchOpts` (common.rs:108-113). -/
structure MatchOpts where
  bbox : Option BBox
  proximity : Option (ℕ × ℕ)
  zoom : ℕ
  deriving DecidableEq

/-- `MatchOpts::default` (common.rs:115-119). -/
def MatchOpts.default : MatchOpts := ⟨none, none, 16⟩

/-- `GridEntry` (common.rs:378-388). -/
structure GridEntry where
  relev : F64
  score : ℕ
  x : ℕ
  y : ℕ
  id : ℕ
  hash : ℕ
  deriving DecidableEq

/-- Bounds given by the Rust field types (`u8`, `u16`, `u16`, `u32`, `u8`). -/
def GridEntry.Wf (e : GridEntry) : Prop :=
  e.score < 2 ^ 8 ∧ e.x < 2 ^ 16 ∧ e.y < 2 ^ 16 ∧ e.id < 2 ^ 32 ∧ e.hash < 2 ^ 8

instance (e : GridEntry) : Decidable e.Wf := by unfold GridEntry.Wf; infer_instance

/-- `MatchEntry` (common.rs:390-396). -/
structure MatchEntry where
  entry : GridEntry
  matchesLanguage : Bool
  distance : F64
  scoredist : F64
  deriving DecidableEq

/-- `relev_float_to_int` (common.rs:545-555). -/
def relevToInt (r : F64) : ℕ :=
  if F64.feq r (lit 0.4) then 0
  else if F64.feq r (lit 0.6) then 1
  else if F64.feq r (lit 0.8) then 2
  else 3

/-- `relev_int_to_float` (common.rs:558-565). -/
def relevOfInt (n : ℕ) : F64 :=
  if n = 0 then lit 0.4 else if n = 1 then lit 0.6 else if n = 2 then lit 0.8 else 1

/-- `MAX_CONTEXTS` (common.rs:371). -/
def maxContexts : ℕ := 40
/-- `MAX_GRIDS_PER_PHRASE` (common.rs:376). -/
def maxGridsPerPhrase : ℕ := 100000

/-! ## `somewhat_eager_groupby` (common.rs:573-629) -/

section GroupBy
variable {α K σ : Type} [DecidableEq K]

/-- The iterator of `somewhat_eager_groupby`, run to the end. The key function may
carry state (`FnMut`): `step s a` gives the key of `a` and the next state. `cur` is
`curr_key`, `run` is `running_group`. -/
def groupByAux (step : σ → α → K × σ) : σ → Option K → List α → List α → List (K × List α)
  | _, none, _, [] => []
  | _, some o, run, [] => [(o, run)]
  | s, none, run, v :: vs =>
    groupByAux step (step s v).2 (some (step s v).1) (run ++ [v]) vs
  | s, some o, run, v :: vs =>
    if o ≠ (step s v).1 then
      (o, run) :: groupByAux step (step s v).2 (some (step s v).1) [v] vs
    else
      groupByAux step (step s v).2 (some o) (run ++ [v]) vs

/-- `somewhat_eager_groupby(it, key)` with a stateful key function. -/
def groupByS (step : σ → α → K × σ) (s : σ) (l : List α) : List (K × List α) :=
  groupByAux step s none [] l

/-- `somewhat_eager_groupby(it, key)` with a pure key function; also itertools'
`group_by` (builder.rs:31), which groups runs of equal keys the same way. -/
def groupBy (key : α → K) (l : List α) : List (K × List α) :=
  groupByS (fun (_ : Unit) a => (key a, ())) () l

end GroupBy

end Carmen
