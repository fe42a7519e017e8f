import Mathlib.Data.Nat.Digits.Defs
import Verif.Spec.Builder
import Verif.Spec.History

/-!
# Specification: the bytes of a store

What the files of a store look like, as relations between bytes and numbers: nothing here says
how the bytes are produced or read.  Numbers are related to bytes by their digits
(`Nat.ofDigits`), tiles to coordinates by their bits.
-/

namespace Carmen.Spec

/-- The bytes `bs` are at address `a` of `v`. -/
def At (v : Bytes) (a : ℕ) (bs : Bytes) : Prop := a ≤ v.length ∧ bs <+: v.drop a

/-- `bs` is the number `n` in `k` bytes, least significant first. -/
def Little (k n : ℕ) (bs : Bytes) : Prop :=
  bs.length = k ∧ (∀ b ∈ bs, b < 256) ∧ Nat.ofDigits 256 bs = n

/-- `bs` is the number `n` in `k` bytes, most significant first. -/
def Big (k n : ℕ) (bs : Bytes) : Prop := Little k n bs.reverse

/-- `bs` is the number `n` in base 128, least significant digit first, without superfluous zeros;
all bytes but the last have 128 added. -/
def Varint (n : ℕ) (bs : Bytes) : Prop :=
  ∃ (ds : List ℕ) (last : ℕ), (∀ d ∈ ds ++ [last], d < 128) ∧ (last = 0 → ds = []) ∧
    Nat.ofDigits 128 (ds ++ [last]) = n ∧ bs = ds.map (· + 128) ++ [last]

/-- A list of ids: how many, then four bytes each. -/
def IdsAt (v : Bytes) (a : ℕ) (ids : List ℕ) : Prop :=
  ∃ (n : Bytes) (items : List Bytes), At v a (n ++ items.flatten) ∧ Varint ids.length n ∧
    List.Forall₂ (Little 4) ids items

/-- A tile with its ids: the number of the tile in four bytes, then the address of the ids in the
rest of the `w` bytes. -/
def TileItem (v : Bytes) (w : ℕ) (t : ℕ × List ℕ) (item : Bytes) : Prop :=
  ∃ (tile ptr : Bytes) (a : ℕ), item = tile ++ ptr ∧ Little 4 t.1 tile ∧ Little (w - 4) a ptr ∧
    IdsAt v a t.2

/-- A list of tiles: how many, then the width of an item in one byte (five to eight if there are
items), then the items. -/
def TilesAt (v : Bytes) (a : ℕ) (tiles : List (ℕ × List ℕ)) : Prop :=
  ∃ (n : Bytes) (w : ℕ) (items : List Bytes), At v a (n ++ w :: items.flatten) ∧
    Varint tiles.length n ∧ (tiles ≠ [] → 5 ≤ w ∧ w ≤ 8) ∧
    List.Forall₂ (TileItem v w) tiles items

/-- A group with its tiles: one byte, then the address of the tiles. -/
def GroupItem (v : Bytes) (g : ℕ × List (ℕ × List ℕ)) (item : Bytes) : Prop :=
  ∃ (ptr : Bytes) (a : ℕ), g.1 < 256 ∧ item = g.1 :: ptr ∧ Varint a ptr ∧ TilesAt v a g.2

/-- A list of groups: how many, then the groups. -/
def GroupsAt (v : Bytes) (a : ℕ) (groups : List (ℕ × List (ℕ × List ℕ))) : Prop :=
  ∃ (n : Bytes) (items : List Bytes), At v a (n ++ items.flatten) ∧ Varint groups.length n ∧
    List.Forall₂ (GroupItem v) groups items

/-- A record: the last four bytes are the address of the groups. -/
def Record (v : Bytes) (groups : List (ℕ × List (ℕ × List ℕ))) : Prop :=
  ∃ (body tail : Bytes) (a : ℕ), v = body ++ tail ∧ Little 4 a tail ∧ GroupsAt v a groups

/-- `t` is the number of the tile in column `x` and row `y`: their bits alternate, the lowest one
being of the column. -/
def IsTile (t x y : ℕ) : Prop :=
  ∀ i, t.testBit (2 * i) = x.testBit i ∧ t.testBit (2 * i + 1) = y.testBit i

/-- The entry is kept under these three numbers. -/
def Packed (e : GridEntry) (g t i : ℕ) : Prop :=
  g = 16 * (relevCode e.relev ||| e.score / 16) + e.score % 16 ∧ IsTile t e.x e.y ∧
    i = 256 * (e.id % 2 ^ 24) + e.hash

/-- The three numbers stand for this entry. -/
def Unpacked (n : ℕ × ℕ × ℕ) (e : GridEntry) : Prop :=
  e.relev = (match n.1 / 16 with
    | 0 => lit 0.4
    | 1 => lit 0.6
    | 2 => lit 0.8
    | _ => 1) ∧
  e.score = n.1 % 16 ∧ IsTile n.2.1 e.x e.y ∧ e.id = n.2.2 / 256 ∧ e.hash = n.2.2 % 256

/-- The numbers in the groups, in order. -/
def numbers (groups : List (ℕ × List (ℕ × List ℕ))) : List (ℕ × ℕ × ℕ) :=
  groups.flatMap fun g => g.2.flatMap fun t => t.2.map fun i => (g.1, t.1, i)

/-- Groups and the tiles of a group are in descending order without repetition. -/
def TilesInOrder (groups : List (ℕ × List (ℕ × List ℕ))) : Prop :=
  groups.Pairwise (fun a b => b.1 < a.1) ∧ ∀ g ∈ groups, g.2.Pairwise (fun a b => b.1 < a.1)

/-- A record with exactly these entries, also the ids of a tile being in descending order without
repetition. -/
def RecordFor (v : Bytes) (es : List GridEntry) : Prop :=
  ∃ groups, Record v groups ∧ TilesInOrder groups ∧
    (∀ g ∈ groups, ∀ t ∈ g.2, t.2.Pairwise (fun a b => b < a)) ∧
    ∀ g t i, (g, t, i) ∈ numbers groups ↔ ∃ e ∈ es, Packed e g t i

/-- The key of a row: its kind, the number of the phrase (or bin) and the languages. -/
def RowKey (kind : ℕ) (k : GridKey) (key : Bytes) : Prop :=
  ∃ id, Big 4 k.phraseId id ∧ key = kind :: (id ++ langWord k.langSet)

/-- The bin of a phrase: the last boundary not after it, or the first boundary. -/
def InBin (bounds : List ℕ) (p x : ℕ) : Prop :=
  x ∈ bounds ∧ (x ≤ p ∨ ∀ y ∈ bounds, x ≤ y) ∧ ∀ y ∈ bounds, x < y → p < y

/-- The row with the boundaries. -/
def BoundsRow (bounds : List ℕ) (row : Bytes × Bytes) : Prop :=
  row.1 = "~BOUNDS".toList.map Char.toNat ∧
    ∃ items, List.Forall₂ (Little 4) bounds items ∧ row.2 = items.flatten

/-- The rows of a store, in the order of their keys: records of phrases (kind 0) and bins (kind 1) of
less than 4 GiB, and a row for the boundaries. -/
structure LaidOut (db : SMap Bytes Bytes) : Prop where
  sorted : SMap.Sorted db
  bytes : ∀ r ∈ db, ∀ x ∈ r.2, x < 256
  rows : ∀ r ∈ db, (∃ kind k groups, (kind = 0 ∨ kind = 1) ∧ k.Wf ∧ RowKey kind k r.1 ∧
      r.2.length < 2 ^ 32 ∧ Record r.2 groups ∧ TilesInOrder groups) ∨
    r.1 = "~BOUNDS".toList.map Char.toNat

end Carmen.Spec
