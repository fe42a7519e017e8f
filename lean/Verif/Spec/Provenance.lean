import Verif.Spec.Failed
import Verif.Spec.Exact
import Verif.Spec.Query
import Verif.Spec.Builder

/-!
# Where results come from
-/

namespace Carmen.Spec
open Builder

/-- The database of the store was left by a builder: any calls on a new one, whether they returned
errors or not, and then `finish`. The calls left the content `c` behind. (Records are below 4 GiB,
their offsets have 32 bits.) -/
def StoreWith (c : Content) (s : Store) : Prop :=
  ∃ (o : IterOrder) (ds : List Call), (∀ d ∈ ds, d.Wf) ∧
    finish o (runAll Builder.new ds) = some s.db ∧ (∀ r ∈ s.db, r.2.length < 2 ^ 32) ∧
    Effects (fun _ => none) ds c

/-- The query is answered from prefix bins. -/
def FromBins (s : Store) (phrase : MatchPhrase) : Prop :=
  ∃ st en, phrase = .range st en ∧ st ∈ s.bounds ∧ en ∈ s.bounds

/-- The result tells of the stored entry `e`: its tile, feature, source and score are those of the
entry, and so is its relevance, except that it may be cut to 96 percent if the language does not
match. -/
structure TellsOf (matchesLang : Bool) (e : GridEntry) (r : MatchEntry) : Prop where
  x : r.entry.x = e.x
  y : r.entry.y = e.y
  id : r.entry.id = e.id
  hash : r.entry.hash = e.hash
  score : r.entry.score = e.score
  lang : r.matchesLanguage = matchesLang
  relev : r.entry.relev = e.relev ∨ (matchesLang = false ∧ r.entry.relev = e.relev * lit 0.96)

/-- The result tells of an entry of the content, as it is stored, under a key the query asks for. A
query answered from prefix bins may ask for more than its range (see C17). -/
def Written (c : Content) (s : Store) (mk : MatchKey) (r : MatchEntry) : Prop :=
  ∃ k es e, c k = some es ∧ e ∈ es ∧ (¬ FromBins s mk.phrase → InPhrase mk.phrase k.phraseId) ∧
    TellsOf (langMatches mk.langSet k.langSet) (storedAny e) r

/-- Every entry of the content lies in a bounding box of the store. -/
def BoxesHold (c : Content) (s : Store) : Prop :=
  ∀ k es e, c k = some es → e ∈ es →
    ∃ b ∈ s.bboxes, b.minX ≤ e.x ∧ e.x ≤ b.maxX ∧ b.minY ≤ e.y ∧ e.y ≤ b.maxY

end Carmen.Spec
