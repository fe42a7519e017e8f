import Verif.Spec.SameAnswers
import Verif.Spec.NoPanic

/-!
# Specification: asking for more languages
-/

namespace Carmen.Spec

/-- Every language (bit) of the first set is in the second. -/
def LangsWithin (l l' : ℕ) : Prop := ∀ i < 128, l.testBit i = true → l'.testBit i = true

/-- The result of a query as it comes back when more languages are asked for: the same, or no longer
in another language, and then the same but for a relevance that is no lower. -/
def SameOrBetter (r r' : MatchEntry) : Prop :=
  r' = r ∨ (r.matchesLanguage = false ∧ r.entry.relev ≤ r'.entry.relev ∧
    r' = { r with matchesLanguage := true, entry := { r.entry with relev := r'.entry.relev } })

/-- The match key with the languages that its id stands for. -/
def keyInLangs (l : ℕ → ℕ) (kg : KeyWithId) : KeyWithId :=
  { kg with key := { kg.key with langSet := l kg.id } }

/-- The phrase match with the languages that the ids of its match keys stand for. -/
def withLangs (l : ℕ → ℕ) (q : Subquery) : Subquery :=
  { q with matchKeys := q.matchKeys.map (keyInLangs l) }

/-- A part of a context as it comes back when more languages are asked for: the same tile, feature
and phrase match, and a relevance that is no lower. -/
structure PartNotWorse (e e' : CoalesceEntry) : Prop where
  tile : e'.entry.x = e.entry.x ∧ e'.entry.y = e.entry.y
  feature : e'.entry.id = e.entry.id
  match_ : e'.phrasematchId = e.phrasematchId ∧ e'.idx = e.idx ∧ e'.mask = e.mask
  relev : e.entry.relev ≤ e'.entry.relev

/-- A context as it comes back when more languages are asked for. -/
structure ContextNotWorse (c c' : Context) : Prop where
  parts : List.Forall₂ PartNotWorse c.entries c'.entries
  mask : c'.mask = c.mask
  relev : c.relev ≤ c'.relev

/-- What is asked of the phrase matches: indexes with at most 100000 rows, and lookups with at most
100000 results. -/
structure SmallLookups (env : Env) (opts : MatchOpts) (qs : List Subquery) : Prop where
  index : ∀ q ∈ qs, StoreFit q.store ∧ q.store.db.length ≤ 100000
  key : ∀ q ∈ qs, ∀ kg ∈ q.matchKeys, kg.key.phrase.start < 2 ^ 32
  answers : ∀ q ∈ qs, ∀ kg ∈ q.matchKeys, ∀ gs, answersTo env opts q kg 100000 = some gs →
    gs.length ≤ 100000

end Carmen.Spec
