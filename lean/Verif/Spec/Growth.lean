import Verif.Spec.Provenance
import Verif.Spec.Boxes
import Verif.Spec.Languages

/-!
# Specification: indexes that hold more
-/

namespace Carmen.Spec

/-- Everything under every key is under that key in the second content too. -/
def MoreContent (c c' : Content) : Prop :=
  ∀ k es, c k = some es → ∃ es', c' k = some es' ∧ ∀ e ∈ es, e ∈ es'

/-- The second index is of the same type, zoom and radius, and its bounding boxes cover the ones of the
first one. -/
structure SameKind (s s' : Store) : Prop where
  zoom : s'.zoom = s.zoom
  typeId : s'.typeId = s.typeId
  radius : s'.radius = s.radius
  boxes : Widens s s'.bboxes

/-- The second index is of the same kind and holds everything the first one holds. -/
structure GrowsTo (s s' : Store) : Prop extends SameKind s s' where
  content : ∃ c c', StoreWith c s ∧ StoreWith c' s' ∧ MoreContent c c'

/-- Stored for the languages of the first set at least. -/
def StoredForMore (l l' : ℕ) : Prop :=
  l' = 2 ^ 128 - 1 ∨ (l ≠ 2 ^ 128 - 1 ∧ LangsWithin l l')

/-- An entry for the same tile and feature, with at least the relevance and score (as they are
stored). -/
structure EntryNotWorse (e e' : GridEntry) : Prop where
  tile : e'.x = e.x ∧ e'.y = e.y
  feature : (storedAny e').id = (storedAny e).id
  relev : (storedAny e).relev ≤ (storedAny e').relev
  score : (storedAny e).score ≤ (storedAny e').score

/-- Everything under every key is, or something better is, under a key of the same phrase for at least
the same languages in the second content. -/
def RaisedContent (c c' : Content) : Prop :=
  ∀ k es e, c k = some es → e ∈ es → ∃ k' es' e', c' k' = some es' ∧ e' ∈ es' ∧
    k'.phraseId = k.phraseId ∧ StoredForMore k.langSet k'.langSet ∧ EntryNotWorse e e'

/-- The second index is of the same kind and holds everything the first one holds, or something
better. -/
structure RaisesTo (s s' : Store) : Prop extends SameKind s s' where
  content : ∃ c c', StoreWith c s ∧ StoreWith c' s' ∧ RaisedContent c c'

/-- A result for the same tile and feature that is no less relevant. -/
structure ResultNotWorse (r r' : MatchEntry) : Prop where
  tile : r'.entry.x = r.entry.x ∧ r'.entry.y = r.entry.y
  feature : r'.entry.id = r.entry.id
  language : r.matchesLanguage = true → r'.matchesLanguage = true
  distance : r'.distance = r.distance
  relev : r.entry.relev ≤ r'.entry.relev
  score : r.entry.score ≤ r'.entry.score

/-- With a proximity point, the radius is a number of miles that is not negative and not
astronomical. -/
def RadiusFits (opts : MatchOpts) (radius : F64) : Prop :=
  opts.proximity ≠ none → ∃ m : ℚ, radius = .fin m ∧ 0 ≤ m ∧ m ≤ 2 ^ (999 : ℤ)

/-- A lookup that is answered from the rows of single phrases, with at most 100000 of them. -/
structure PlainLookup (s : Store) (phrase : MatchPhrase) : Prop where
  start : phrase.start < 2 ^ 32
  largest : phrase ≠ .exact (2 ^ 32 - 1)
  bins : ¬ FromBins s phrase
  rows : ∀ ks, s.keys = some ks → ks.length ≤ 100000

/-- The store has the boundaries that are in its database, as one that has just been opened. -/
def AsOpened (s : Store) : Prop :=
  ∃ zoom typeId radius bboxes maxScore, s = Store.openWith s.db zoom typeId radius bboxes maxScore

/-- A lookup that both indexes answer from prefix bins with the same boundaries, in order, from at most
100000 rows. -/
structure BinLookup (s s' : Store) (phrase : MatchPhrase) : Prop where
  bins : FromBins s phrase
  same : s'.bounds = s.bounds
  ascending : s.bounds.Pairwise (· ≤ ·)
  opened : AsOpened s ∧ AsOpened s'
  rows : s.db.length ≤ 100000 ∧ s'.db.length ≤ 100000

/-- One or the other. -/
def GrownLookup (s s' : Store) (phrase : MatchPhrase) : Prop :=
  (PlainLookup s phrase ∧ PlainLookup s' phrase) ∨ BinLookup s s' phrase

/-- The phrase match with its index grown. -/
def grown (f : Store → Store) (q : Subquery) : Subquery := { q with store := f q.store }

end Carmen.Spec
