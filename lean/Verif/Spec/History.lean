import Verif.Model.Builder

/-!
# Specification: a builder as a map from keys to entries

`Call` is the public interface of the builder; `Spec.run` is what a history of calls
should leave behind, without any of the builder's data structures.
-/

namespace Carmen

/-- The calls a user can make on a builder before `finish`. -/
inductive Call where
  | insert (k : GridKey) (es : List GridEntry)
  | append (k : GridKey) (es : List GridEntry)
  | compactAppend (k : GridKey) (relev : F64) (score id hash : ℕ) (tiles : List (ℕ × ℕ))
  | renumber (map : List ℕ)
  | loadBounds (bounds : List ℕ)

/-- One entry per tile. -/
def tileEntries (relev : F64) (score id hash : ℕ) (tiles : List (ℕ × ℕ)) : List GridEntry :=
  tiles.map (fun p => ⟨relev, score, p.1, p.2, id, hash⟩)

/-- The bounds the Rust types put on the arguments of a call. -/
def Call.Wf : Call → Prop
  | insert k es => k.Wf ∧ ∀ e ∈ es, e.Wf
  | append k es => k.Wf ∧ ∀ e ∈ es, e.Wf
  | compactAppend k _ score id hash tiles =>
    k.Wf ∧ score < 2 ^ 8 ∧ id < 2 ^ 32 ∧ hash < 2 ^ 8 ∧
      ∀ t ∈ tiles, t.1 < 2 ^ 16 ∧ t.2 < 2 ^ 16
  | renumber map => ∀ q ∈ map, q < 2 ^ 32
  | loadBounds bounds => ∀ q ∈ bounds, q < 2 ^ 32

/-- The entries a call writes. -/
def Call.entries : Call → List GridEntry
  | insert _ es => es
  | append _ es => es
  | compactAppend _ relev score id hash tiles => tileEntries relev score id hash tiles
  | _ => []

/-- Running a call on a builder; `none` when it returns an error. -/
def Builder.call (b : Builder) : Call → Option Builder
  | .insert k es => some (b.insert k es)
  | .append k es => some (b.append k es)
  | .compactAppend k relev score id hash tiles =>
    some (b.compactAppend k relev score id hash tiles)
  | .renumber map =>
    match b.renumber map with
    | (b', .ok ()) => some b'
    | (_, .error _) => none
  | .loadBounds bounds => some (b.loadBinBoundaries bounds)

/-- Running a history on a new builder; `none` when some call returns an error. -/
def Builder.runFrom (b : Builder) : List Call → Option Builder
  | [] => some b
  | c :: t => (b.call c).bind (fun b' => b'.runFrom t)

/-- Running a history on a new builder. -/
def Builder.run (calls : List Call) : Option Builder := Builder.new.runFrom calls

namespace Spec

/-- What is stored: for each key nothing, or a list of entries (to be read as a set). -/
abbrev Content := GridKey → Option (List GridEntry)

/-- Set the value of one key. -/
def Content.set (s : Content) (k : GridKey) (v : List GridEntry) : Content :=
  fun k' => if k' = k then some v else s k'

/-- Move every phrase `p` to `map[p]`. -/
def Content.renumber (s : Content) (map : List ℕ) : Content := fun k' =>
  (List.range map.length).findSome? (fun p =>
    if map[p]? = some k'.phraseId then s ⟨p, k'.langSet⟩ else none)

/-- The effect of a call. -/
def Content.call (s : Content) : Call → Content
  | .insert k es => s.set k es
  | .append k es => s.set k ((s k).getD [] ++ es)
  | .compactAppend k relev score id hash tiles =>
    s.set k ((s k).getD [] ++ tileEntries relev score id hash tiles)
  | .renumber map => s.renumber map
  | .loadBounds _ => s

/-- The effect of a history on an empty store. -/
def Content.run (calls : List Call) : Content := calls.foldl Content.call (fun _ => none)

end Spec

end Carmen
