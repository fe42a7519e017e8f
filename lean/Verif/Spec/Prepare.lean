import Verif.Model.Prepare

/-!
# Specification: requests read from files
-/

namespace Carmen.Spec
open Tools

/-- The first placeholder with the path. -/
def firstAt (hs : List Holder) (path : Text) : Option Holder :=
  hs.find? fun h => decide (h.store.path = path)

/-- The phrase match is the one of the placeholder. -/
structure PreparedFrom (h : Holder) (q : Subquery) : Prop where
  idx : q.idx = h.idx
  mask : q.mask = h.mask
  weight : q.weight = h.weight
  matchKeys : q.matchKeys = h.matchKeys
  nonOverlapping : q.nonOverlapping = h.nonOverlapping

/-- The store of the phrase match is the index of its path, opened with what the first placeholder
with this path says. -/
def StoreOfFirst (w : Opening) (hs : List Holder) (indexes : HMap Text (SMap Bytes Bytes))
    (h : Holder) (q : Subquery) : Prop :=
  ∃ h0 db, firstAt hs h.store.path = some h0 ∧
    HMap.find (indexName (w.file h0.store)) indexes = some db ∧ q.store = w.store h0.store db

/-- The second indexes are the first ones, and others that were loaded from their two files. -/
structure Loads (J : JsonCrate) (o : IterOrder) (files : Text → Text)
    (before after : HMap Text (SMap Bytes Bytes)) : Prop where
  kept : ∀ name db, HMap.find name before = some db → HMap.find name after = some db
  new : ∀ name db, HMap.find name after = some db → HMap.find name before = some db ∨
    ∃ datafile, name = indexName datafile ∧
      load J o [] (files datafile) (files (splitsName datafile)) = some db

/-- All placeholders with one path say the same about the index. -/
def PathsAgree (hs : List Holder) : Prop :=
  ∀ a ∈ hs, ∀ b ∈ hs, a.store.path = b.store.path → a.store = b.store

end Carmen.Spec
