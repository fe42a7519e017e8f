import Verif.Model.Spatial

/-!
# Specification: what a matching query reports

Independent of records, streams, merges and queues. `tileDist`, `proximityRadius` and
`scoredist` are the code's numbers (what they satisfy is C25).
-/

namespace Carmen.Spec

/-- The tile of the entry lies in the box of the query, if there is one. -/
def InBox (opts : MatchOpts) (e : GridEntry) : Prop :=
  match opts.bbox with
  | none => True
  | some b => b.minX ≤ e.x ∧ e.x ≤ b.maxX ∧ b.minY ≤ e.y ∧ e.y ≤ b.maxY

instance (opts : MatchOpts) (e : GridEntry) : Decidable (InBox opts e) := by
  unfold InBox; cases opts.bbox <;> infer_instance

/-- The tile distance reported. -/
def distanceOf (opts : MatchOpts) (e : GridEntry) : F64 :=
  match opts.proximity with
  | none => 0
  | some p => tileDist p.1 p.2 e.x e.y

/-- Within the proximity radius of the query. -/
def WithinRadius (opts : MatchOpts) (radius : F64) (e : GridEntry) : Prop :=
  match opts.proximity with
  | none => False
  | some p => F64.fle (tileDist p.1 p.2 e.x e.y) (proximityRadius opts.zoom radius) = true

instance (opts : MatchOpts) (radius : F64) (e : GridEntry) :
    Decidable (WithinRadius opts radius e) := by
  unfold WithinRadius; cases opts.proximity <;> infer_instance

/-- The score-distance reported. -/
def scoredistOf (opts : MatchOpts) (radius : F64) (e : GridEntry) : F64 :=
  match opts.proximity with
  | none => F64.ofNat e.score
  | some p => scoredist opts.zoom (tileDist p.1 p.2 e.x e.y) e.score radius

/-- The result for a stored entry: everything as stored, except that the relevance is
multiplied by 0.96 when the language does not match and the tile is not within the radius. -/
def report (opts : MatchOpts) (radius : F64) (matchesLang : Bool) (e : GridEntry) : MatchEntry :=
  ⟨{ e with
      relev := if matchesLang ∨ WithinRadius opts radius e then e.relev else e.relev * lit 0.96 },
    matchesLang, distanceOf opts e, scoredistOf opts radius e⟩

/-- Does a stored language set match a query's: stored for all languages, or some language
(bit) is in both sets. -/
def langMatches (query stored : ℕ) : Bool :=
  decide (stored = 2 ^ 128 - 1 ∨
    ∃ i ∈ List.range 128, query.testBit i = true ∧ stored.testBit i = true)

/-- The phrase ids a query asks for. -/
def InPhrase : MatchPhrase → ℕ → Prop
  | .exact id, p => p = id
  | .range s e, p => s ≤ p ∧ p < e

instance (m : MatchPhrase) (p : ℕ) : Decidable (InPhrase m p) := by
  cases m <;> unfold InPhrase <;> infer_instance

/-- The bounds the Rust types put on query options. -/
def OptsWf (opts : MatchOpts) : Prop :=
  (∀ b, opts.bbox = some b → b.maxX < 2 ^ 16 ∧ b.maxY < 2 ^ 16) ∧
  (∀ p, opts.proximity = some p → p.1 < 2 ^ 16 ∧ p.2 < 2 ^ 16)

/-- What a build with debug assertions asks of the box of a query: its corners are in order. -/
def BoxFit (chk : Bool) (opts : MatchOpts) : Prop :=
  chk = true → ∀ b, opts.bbox = some b → b.minX ≤ b.maxX ∧ b.minY ≤ b.maxY

end Carmen.Spec
