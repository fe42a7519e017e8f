import Verif.Conformance.Coalesce

/-!
# The model against the unit tests of gridstore/mod.rs and gridstore/builder.rs

See `Verif.Conformance.Coalesce`.
-/

namespace Carmen.Conformance
open Builder

/-- What `get` reads under a key after some inserts. -/
def readBack (blocks : List (GridKey × List GridEntry)) (k : GridKey) :
    Option (Option (List GridEntry)) :=
  (finish .id (blocks.foldl (fun b p => b.insert p.1 p.2) Builder.new)).bind fun db =>
    (Store.new db).get k

/-! ## combined_test, phrase_hash_test, cover_test, score_test (mod.rs:23-53, 92-166) -/

example : readBack [(⟨1, 1⟩, [⟨lit 0.8, 3, 2, 2, 2, 0⟩, ⟨1, 1, 3, 3, 3, 1⟩, ⟨1, 7, 1, 1, 1, 2⟩])]
    ⟨1, 1⟩ = some (some [⟨1, 7, 1, 1, 1, 2⟩, ⟨1, 1, 3, 3, 3, 1⟩, ⟨lit 0.8, 3, 2, 2, 2, 0⟩]) := by
  decide +kernel

example : readBack [(⟨1, 1⟩, [⟨lit 0.8, 3, 2, 2, 2, 0⟩, ⟨1, 1, 3, 3, 3, 1⟩, ⟨1, 7, 1, 1, 1, 2⟩])]
    ⟨2, 1⟩ = some none := by decide +kernel

example : readBack [(⟨1, 1⟩, [⟨1, 1, 1, 1, 1, 0⟩, ⟨lit 0.6, 1, 1, 1, 1, 2⟩,
      ⟨lit 0.4, 1, 1, 1, 1, 3⟩])] ⟨1, 1⟩ =
    some (some [⟨1, 1, 1, 1, 1, 0⟩, ⟨lit 0.6, 1, 1, 1, 1, 2⟩, ⟨lit 0.4, 1, 1, 1, 1, 3⟩]) := by
  decide +kernel

example : readBack [(⟨1, 1⟩, [⟨1, 1, 1, 1, 1, 0⟩, ⟨1, 1, 1, 2, 1, 0⟩, ⟨1, 1, 2, 1, 1, 0⟩])] ⟨1, 1⟩ =
    some (some [⟨1, 1, 1, 2, 1, 0⟩, ⟨1, 1, 2, 1, 1, 0⟩, ⟨1, 1, 1, 1, 1, 0⟩]) := by decide +kernel

example : readBack [(⟨1, 1⟩, [⟨1, 1, 1, 1, 1, 0⟩, ⟨1, 7, 1, 1, 1, 0⟩])] ⟨1, 1⟩ =
    some (some [⟨1, 7, 1, 1, 1, 0⟩, ⟨1, 1, 1, 1, 1, 0⟩]) := by decide +kernel

/-! ## renumber_test (mod.rs:55-89) -/

/-- The builder after `renumber`. -/
def renumbered : Builder × Except RenumberError Unit :=
  (((Builder.new.insert ⟨2, 1⟩ [⟨1, 7, 1, 1, 0, 2⟩]).insert ⟨1, 1⟩ [⟨1, 7, 1, 1, 1, 2⟩]).insert
    ⟨0, 1⟩ [⟨1, 7, 1, 1, 2, 2⟩]).renumber [2, 1, 0]

example : renumbered.2.toOption = some () ∧ ∀ id ∈ [0, 1, 2], (finish .id renumbered.1).bind
    (fun db => (Store.new db).get ⟨id, 1⟩) = some (some [⟨1, 7, 1, 1, id, 2⟩]) := by decide +kernel

/-! ## matching_test (mod.rs:168-459) -/

/-- The four entries inserted with counter `i`. -/
def fourEntries (i : ℕ) : List GridEntry :=
  [⟨1, 1, 2 * i, 1, i, 0⟩, ⟨1, 7, 2 * i + 1, 1, i + 1, 0⟩, ⟨1, 7, 2 * i + 2, 1, i + 2, 0⟩,
   ⟨1, 7, 2 * i + 1, 1, i + 3, 0⟩]

/-- The store. -/
def matchingStore : Option Store :=
  createStore [(⟨1, 1⟩, fourEntries 0), (⟨1, 1⟩, fourEntries 4), (⟨1, 2⟩, fourEntries 8),
    (⟨1, 2⟩, fourEntries 12), (⟨2, 1⟩, fourEntries 16), (⟨2, 1⟩, fourEntries 20),
    (⟨1, 1⟩, fourEntries 24), (⟨1, 1⟩, fourEntries 28)] 14 0 (.fin 1000)

/-- A query. -/
def matching (start stop lang : ℕ) (box : Option BBox) (prox : Option (ℕ × ℕ)) :
    Option (List MatchEntry) :=
  matchingStore.bind fun s =>
    s.getMatching listMerger (listHeap _) true ⟨.range start stop, lang⟩ ⟨box, prox, 16⟩ maxContexts

example : matching 1 2 1 none none = some
    [⟨⟨1, 7, 58, 1, 30, 0⟩, true, 0, .fin 7⟩,
     ⟨⟨1, 7, 57, 1, 31, 0⟩, true, 0, .fin 7⟩,
     ⟨⟨1, 7, 57, 1, 29, 0⟩, true, 0, .fin 7⟩,
     ⟨⟨1, 1, 56, 1, 28, 0⟩, true, 0, 1⟩,
     ⟨⟨lit 0.96, 7, 26, 1, 14, 0⟩, false, 0, .fin 7⟩,
     ⟨⟨lit 0.96, 7, 25, 1, 15, 0⟩, false, 0, .fin 7⟩,
     ⟨⟨lit 0.96, 7, 25, 1, 13, 0⟩, false, 0, .fin 7⟩,
     ⟨⟨lit 0.96, 1, 24, 1, 12, 0⟩, false, 0, 1⟩] := by decide +kernel

example : matching 1 3 1 none none = some
    [⟨⟨1, 7, 58, 1, 30, 0⟩, true, 0, .fin 7⟩,
     ⟨⟨1, 7, 57, 1, 31, 0⟩, true, 0, .fin 7⟩,
     ⟨⟨1, 7, 57, 1, 29, 0⟩, true, 0, .fin 7⟩,
     ⟨⟨1, 7, 42, 1, 22, 0⟩, true, 0, .fin 7⟩,
     ⟨⟨1, 7, 41, 1, 23, 0⟩, true, 0, .fin 7⟩,
     ⟨⟨1, 7, 41, 1, 21, 0⟩, true, 0, .fin 7⟩,
     ⟨⟨1, 1, 56, 1, 28, 0⟩, true, 0, 1⟩,
     ⟨⟨1, 1, 40, 1, 20, 0⟩, true, 0, 1⟩,
     ⟨⟨lit 0.96, 7, 26, 1, 14, 0⟩, false, 0, .fin 7⟩,
     ⟨⟨lit 0.96, 7, 25, 1, 15, 0⟩, false, 0, .fin 7⟩,
     ⟨⟨lit 0.96, 7, 25, 1, 13, 0⟩, false, 0, .fin 7⟩,
     ⟨⟨lit 0.96, 1, 24, 1, 12, 0⟩, false, 0, 1⟩] := by decide +kernel

example : matching 1 3 0 none none = some
    [⟨⟨lit 0.96, 7, 58, 1, 30, 0⟩, false, 0, .fin 7⟩,
     ⟨⟨lit 0.96, 7, 57, 1, 31, 0⟩, false, 0, .fin 7⟩,
     ⟨⟨lit 0.96, 7, 57, 1, 29, 0⟩, false, 0, .fin 7⟩,
     ⟨⟨lit 0.96, 7, 42, 1, 22, 0⟩, false, 0, .fin 7⟩,
     ⟨⟨lit 0.96, 7, 41, 1, 23, 0⟩, false, 0, .fin 7⟩,
     ⟨⟨lit 0.96, 7, 41, 1, 21, 0⟩, false, 0, .fin 7⟩,
     ⟨⟨lit 0.96, 7, 26, 1, 14, 0⟩, false, 0, .fin 7⟩,
     ⟨⟨lit 0.96, 7, 25, 1, 15, 0⟩, false, 0, .fin 7⟩,
     ⟨⟨lit 0.96, 7, 25, 1, 13, 0⟩, false, 0, .fin 7⟩,
     ⟨⟨lit 0.96, 1, 56, 1, 28, 0⟩, false, 0, 1⟩,
     ⟨⟨lit 0.96, 1, 40, 1, 20, 0⟩, false, 0, 1⟩,
     ⟨⟨lit 0.96, 1, 24, 1, 12, 0⟩, false, 0, 1⟩] := by decide +kernel

example : matching 1 3 2 none none = some
    [⟨⟨1, 7, 26, 1, 14, 0⟩, true, 0, .fin 7⟩,
     ⟨⟨1, 7, 25, 1, 15, 0⟩, true, 0, .fin 7⟩,
     ⟨⟨1, 7, 25, 1, 13, 0⟩, true, 0, .fin 7⟩,
     ⟨⟨1, 1, 24, 1, 12, 0⟩, true, 0, 1⟩,
     ⟨⟨lit 0.96, 7, 58, 1, 30, 0⟩, false, 0, .fin 7⟩,
     ⟨⟨lit 0.96, 7, 57, 1, 31, 0⟩, false, 0, .fin 7⟩,
     ⟨⟨lit 0.96, 7, 57, 1, 29, 0⟩, false, 0, .fin 7⟩,
     ⟨⟨lit 0.96, 7, 42, 1, 22, 0⟩, false, 0, .fin 7⟩,
     ⟨⟨lit 0.96, 7, 41, 1, 23, 0⟩, false, 0, .fin 7⟩,
     ⟨⟨lit 0.96, 7, 41, 1, 21, 0⟩, false, 0, .fin 7⟩,
     ⟨⟨lit 0.96, 1, 56, 1, 28, 0⟩, false, 0, 1⟩,
     ⟨⟨lit 0.96, 1, 40, 1, 20, 0⟩, false, 0, 1⟩] := by decide +kernel

example : matching 1 3 3 none none = some
    [⟨⟨1, 7, 58, 1, 30, 0⟩, true, 0, .fin 7⟩,
     ⟨⟨1, 7, 57, 1, 31, 0⟩, true, 0, .fin 7⟩,
     ⟨⟨1, 7, 57, 1, 29, 0⟩, true, 0, .fin 7⟩,
     ⟨⟨1, 7, 42, 1, 22, 0⟩, true, 0, .fin 7⟩,
     ⟨⟨1, 7, 41, 1, 23, 0⟩, true, 0, .fin 7⟩,
     ⟨⟨1, 7, 41, 1, 21, 0⟩, true, 0, .fin 7⟩,
     ⟨⟨1, 7, 26, 1, 14, 0⟩, true, 0, .fin 7⟩,
     ⟨⟨1, 7, 25, 1, 15, 0⟩, true, 0, .fin 7⟩,
     ⟨⟨1, 7, 25, 1, 13, 0⟩, true, 0, .fin 7⟩,
     ⟨⟨1, 1, 56, 1, 28, 0⟩, true, 0, 1⟩,
     ⟨⟨1, 1, 40, 1, 20, 0⟩, true, 0, 1⟩,
     ⟨⟨1, 1, 24, 1, 12, 0⟩, true, 0, 1⟩] := by decide +kernel

example : matching 1 1 1 none none = some
    [] := by decide +kernel

example : matching 3 4 1 none none = some
    [] := by decide +kernel

example : matching 1 3 1 (some ⟨26, 0, 41, 2⟩) none = some
    [⟨⟨1, 7, 41, 1, 23, 0⟩, true, 0, .fin 7⟩,
     ⟨⟨1, 7, 41, 1, 21, 0⟩, true, 0, .fin 7⟩,
     ⟨⟨1, 1, 40, 1, 20, 0⟩, true, 0, 1⟩,
     ⟨⟨lit 0.96, 7, 26, 1, 14, 0⟩, false, 0, .fin 7⟩] := by decide +kernel

example : matching 1 3 1 (some ⟨0, 2, 100, 2⟩) none = some
    [] := by decide +kernel

example : matching 1 3 1 (some ⟨100, 100, 100, 100⟩) none = some
    [] := by decide +kernel

example : matching 1 3 2 none (some (26, 1)) = some
    [⟨⟨1, 7, 26, 1, 14, 0⟩, true, 0, lit 15750.000000000002⟩,
     ⟨⟨1, 7, 25, 1, 15, 0⟩, true, 1, lit 12600.000000000002⟩,
     ⟨⟨1, 7, 25, 1, 13, 0⟩, true, 1, lit 12600.000000000002⟩,
     ⟨⟨1, 1, 24, 1, 12, 0⟩, true, .fin 2, lit 913.3852617539986⟩,
     ⟨⟨1, 7, 41, 1, 23, 0⟩, false, .fin 15, lit 840.0000000000002⟩,
     ⟨⟨1, 7, 41, 1, 21, 0⟩, false, .fin 15, lit 840.0000000000002⟩,
     ⟨⟨1, 7, 42, 1, 22, 0⟩, false, .fin 16, lit 787.5000000000001⟩,
     ⟨⟨1, 7, 57, 1, 31, 0⟩, false, .fin 31, lit 406.4516129032259⟩,
     ⟨⟨1, 7, 57, 1, 29, 0⟩, false, .fin 31, lit 406.4516129032259⟩,
     ⟨⟨1, 7, 58, 1, 30, 0⟩, false, .fin 32, lit 393.75000000000006⟩,
     ⟨⟨1, 1, 40, 1, 20, 0⟩, false, .fin 14, lit 130.48360882199978⟩,
     ⟨⟨1, 1, 56, 1, 28, 0⟩, false, .fin 30, lit 60.89235078359991⟩] := by decide +kernel

example : matching 1 3 2 (some ⟨10, 0, 41, 2⟩) (some (26, 1)) = some
    [⟨⟨1, 7, 26, 1, 14, 0⟩, true, 0, lit 15750.000000000002⟩,
     ⟨⟨1, 7, 25, 1, 15, 0⟩, true, 1, lit 12600.000000000002⟩,
     ⟨⟨1, 7, 25, 1, 13, 0⟩, true, 1, lit 12600.000000000002⟩,
     ⟨⟨1, 1, 24, 1, 12, 0⟩, true, .fin 2, lit 913.3852617539986⟩,
     ⟨⟨1, 7, 41, 1, 23, 0⟩, false, .fin 15, lit 840.0000000000002⟩,
     ⟨⟨1, 7, 41, 1, 21, 0⟩, false, .fin 15, lit 840.0000000000002⟩,
     ⟨⟨1, 1, 40, 1, 20, 0⟩, false, .fin 14, lit 130.48360882199978⟩] := by decide +kernel

example : matchingStore.bind Store.keys = some [⟨1, 1⟩, ⟨1, 2⟩, ⟨2, 1⟩] := by decide +kernel

end Carmen.Conformance
