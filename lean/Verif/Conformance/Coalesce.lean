import Verif.Model.Tools
import Verif.Props.TreeCoalesce

/-!
# The model against the integration tests of the repository

The tests of tests/coalesce_test.rs, run on the model: the same stores, the same requests, the
expectations the tests state. These are examples on literals; they prove nothing in general and no
property rests on them. They are here to show that the model is a model of this code, down to the
last bit of the floating point numbers. Everything runs with overflow checks and debug assertions,
as `cargo test` does.
-/

namespace Carmen.Conformance
open Builder

/-- `create_store` (test_utils/src/lib.rs:59-87). -/
def createStore (blocks : List (GridKey × List GridEntry)) (zoom typeId : ℕ) (radius : F64) :
    Option Store :=
  Tools.createStore .id blocks zoom typeId radius

/-- A phrase match on a store, with one match key for the phrases `start..stop`. -/
def phraseMatch (s : Store) (idx : ℕ) (weight : F64) (mask start stop lang id : ℕ) : Subquery :=
  ⟨s, idx, [], weight, mask, [⟨⟨.range start stop, lang⟩, false, id, 2⟩]⟩

/-- `truncate_coalesce_results` (coalesce_test.rs:1563-1573). -/
def truncate (cs : List Context) : List Context :=
  cs.filter fun c => F64.flt ((cs.head?.elim 1 (·.relev)) - c.relev) (lit 0.25)

/-- The contexts of tree coalesce, truncated. -/
def treeResult (stack : List Subquery) (opts : MatchOpts) : Option (List Context) :=
  (stackable stack).bind fun t => (treeCoalesce (listTreeEnv true) t opts).map truncate

/-- The contexts of coalesce, provided tree coalesce gives the same ones; contexts are compared by
their sort keys (common.rs:441-445). -/
def bothResults (stack : List Subquery) (opts : MatchOpts) : Option (List Context) := do
  let cs ← coalesce (listTreeEnv true).toEnv (fun _ => .id) stack opts
  let ts ← treeResult stack opts
  if cs.map Context.sortKey = ts.map Context.sortKey then some cs else none

/-- Ids of the first entries. -/
def ids (cs : List Context) : List ℕ := cs.map (·.first.entry.id)

/-- Distances of the first entries lie within `tol` of these. -/
def distancesNear (tol : ℚ) (cs : List Context) (ds : List ℚ) : Bool :=
  decide (cs.length = ds.length) && (cs.zip ds).all fun p =>
    match p.1.first.distance with
    | .fin q => decide (|q - p.2| ≤ tol)
    | _ => false

/-- Relevance of a context, relevances of its entries, and whether they match the language. -/
def relevs (cs : List Context) : List (F64 × List (F64 × Bool)) :=
  cs.map fun c => (c.relev, c.entries.map fun e => (e.entry.relev, e.matchesLanguage))

/-! ## coalesce_single_test_proximity_quadrants (coalesce_test.rs:8-109) -/

/-- The store. -/
def quadrants : Option Store :=
  createStore [(⟨1, 1⟩, [⟨1, 1, 200, 200, 1, 0⟩, ⟨1, 1, 200, 0, 2, 0⟩, ⟨1, 1, 0, 0, 3, 0⟩,
    ⟨1, 1, 0, 200, 4, 0⟩])] 14 1 (.fin 200)

/-- The request with a proximity point. -/
def quadrant (x y : ℕ) : Option (List Context) :=
  quadrants.bind fun s => bothResults [phraseMatch s 1 1 1 1 3 1 0] ⟨none, some (x, y), 14⟩

example : (quadrant 110 115).map (fun cs => (ids cs, distancesNear 0.5 cs [124, 139, 146, 159])) =
    some ([1, 4, 2, 3], true) := by decide +kernel

example : (quadrant 110 85).map (fun cs => (ids cs, distancesNear 0.5 cs [124, 139, 146, 159])) =
    some ([2, 3, 1, 4], true) := by decide +kernel

example : (quadrant 90 85).map (fun cs => (ids cs, distancesNear 0.5 cs [124, 139, 146, 159])) =
    some ([3, 2, 4, 1], true) := by decide +kernel

example : (quadrant 90 115).map (fun cs => (ids cs, distancesNear 0.5 cs [124, 139, 146, 159])) =
    some ([4, 1, 3, 2], true) := by decide +kernel

/-! ## coalesce_single_test_proximity_basic (coalesce_test.rs:111-164) -/

/-- The entries. -/
def fourCorners : List GridEntry :=
  [⟨1, 1, 2, 2, 1, 0⟩, ⟨1, 1, 2, 0, 2, 0⟩, ⟨1, 1, 0, 0, 3, 0⟩, ⟨1, 1, 0, 2, 4, 0⟩]

example : ((createStore [(⟨1, 1⟩, fourCorners)] 14 1 (.fin 200)).bind fun s =>
      bothResults [phraseMatch s 1 1 1 1 3 1 0] ⟨none, some (2, 2), 14⟩).map
        (fun cs => (ids cs, distancesNear 0.005 cs [0, 2, 2, 2.83])) =
    some ([1, 2, 4, 3], true) := by decide +kernel

/-! ## coalesce_single_test_language_penalty (coalesce_test.rs:166-224) -/

/-- The request in another language, with or without a proximity point. -/
def penalty (prox : Option (ℕ × ℕ)) : Option (List Context) :=
  (createStore [(⟨1, 1⟩, fourCorners)] 14 1 1).bind fun s =>
    bothResults [phraseMatch s 1 1 1 1 3 2 0] ⟨none, prox, 14⟩

example : (penalty (some (2, 2))).map (fun cs => (relevs cs).take 2) =
    some [(1, [(1, false)]), (lit 0.96, [(lit 0.96, false)])] := by decide +kernel

example : (penalty none).map (fun cs => (relevs cs).take 1) =
    some [(lit 0.96, [(lit 0.96, false)])] := by decide +kernel

/-! ## coalesce_multi_test_language_penalty (coalesce_test.rs:226-323) -/

/-- Two stores. -/
def twoStores (b₁ b₂ : List (GridKey × List GridEntry)) (z₁ t₁ z₂ t₂ : ℕ) (radius : F64) :
    Option (Store × Store) := do
  let s₁ ← createStore b₁ z₁ t₁ radius
  let s₂ ← createStore b₂ z₂ t₂ radius
  some (s₁, s₂)

/-- The request in another language, with or without a proximity point. -/
def multiPenalty (prox : Option (ℕ × ℕ)) : Option (List Context) :=
  (twoStores [(⟨1, 1⟩, [⟨1, 1, 2, 2, 1, 0⟩, ⟨1, 1, 12800, 12800, 2, 0⟩])]
    [(⟨2, 1⟩, [⟨1, 1, 0, 0, 3, 0⟩, ⟨1, 1, 50, 50, 4, 0⟩])] 14 1 6 0 (.fin 200)).bind fun s =>
    bothResults [phraseMatch s.1 1 (lit 0.5) 1 1 3 2 0, phraseMatch s.2 2 (lit 0.5) 2 1 3 2 1]
      ⟨none, prox, 14⟩

example : (multiPenalty (some (2, 2))).map (fun cs => (relevs cs).take 2) =
    some [(1, [(lit 0.5, false), (lit 0.5, false)]),
      (lit 0.96, [(lit 0.48, false), (lit 0.48, false)])] := by decide +kernel

example : (multiPenalty none).map (fun cs => (relevs cs).take 1) =
    some [(lit 0.96, [(lit 0.48, false), (lit 0.48, false)])] := by decide +kernel

/-! ## coalesce_single_test (coalesce_test.rs:325-571) -/

/-- The request with a box and a proximity point. -/
def single (box : Option BBox) (prox : Option (ℕ × ℕ)) : Option (List Context) :=
  (createStore [(⟨1, 1⟩, [⟨1, 3, 1, 1, 1, 0⟩, ⟨lit 0.8, 3, 2, 2, 2, 0⟩, ⟨1, 1, 3, 3, 3, 0⟩])]
    6 0 (.fin 40)).bind fun s => bothResults [phraseMatch s 1 1 1 1 3 1 0] ⟨box, prox, 6⟩

example : single none none = some
    [⟨1, 1, [⟨⟨1, 3, 1, 1, 1, 0⟩, true, 1, 33554433, 1, 0, .fin 3, 0⟩]⟩,
     ⟨1, 1, [⟨⟨1, 1, 3, 3, 3, 0⟩, true, 1, 33554435, 1, 0, 1, 0⟩]⟩,
     ⟨1, lit 0.8, [⟨⟨lit 0.8, 3, 2, 2, 2, 0⟩, true, 1, 33554434, 1, 0, .fin 3, 0⟩]⟩] := by
  decide +kernel

example : single none (some (3, 3)) = some
    [⟨1, 1, [⟨⟨1, 1, 3, 3, 3, 0⟩, true, 1, 33554435, 1, 0, lit 1.5839497841387566, 0⟩]⟩,
     ⟨1, 1, [⟨⟨1, 3, 1, 1, 1, 0⟩, true, 1, 33554433, 1, lit 2.8284271247461903,
       lit 1.109893833332405, 0⟩]⟩,
     ⟨1, lit 0.8, [⟨⟨lit 0.8, 3, 2, 2, 2, 0⟩, true, 1, 33554434, 1, lit 1.4142135623730951,
       lit 1.109893833332405, 0⟩]⟩] := by decide +kernel

example : single (some ⟨1, 1, 1, 1⟩) none = some
    [⟨1, 1, [⟨⟨1, 3, 1, 1, 1, 0⟩, true, 1, 33554433, 1, 0, .fin 3, 0⟩]⟩] := by decide +kernel

example : single (some ⟨1, 1, 1, 1⟩) (some (1, 1)) = some
    [⟨1, 1, [⟨⟨1, 3, 1, 1, 1, 0⟩, true, 1, 33554433, 1, 0, lit 1.7322531402718835, 0⟩]⟩] := by
  decide +kernel

/-! ## coalesce_single_languages_test (coalesce_test.rs:573-725) -/

/-- The request for a language set. -/
def singleLanguages (lang : ℕ) : Option (List Context) :=
  (createStore [(⟨1, 1⟩, [⟨1, 0, 1, 1, 0, 0⟩]), (⟨1, 2⟩, [⟨1, 0, 1, 1, 1, 0⟩]),
    (⟨1, 3⟩, [⟨1, 0, 1, 1, 2, 0⟩]), (⟨1, 4⟩, [⟨1, 0, 1, 1, 3, 0⟩])] 6 1 (.fin 200)).bind fun s =>
    bothResults [phraseMatch s 1 1 1 1 3 lang 0] ⟨none, none, 6⟩

example : (singleLanguages allLangs).map (fun cs => (ids cs, relevs cs)) =
    some ([3, 2, 1, 0], List.replicate 4 (1, [(1, true)])) := by decide +kernel

example : (singleLanguages 1).map (fun cs => (ids cs, relevs cs)) =
    some ([2, 0, 3, 1], List.replicate 2 (1, [(1, true)]) ++
      List.replicate 2 (lit 0.96, [(lit 0.96, false)])) := by decide +kernel

example : (singleLanguages 8).map (fun cs => (ids cs, relevs cs)) =
    some ([3, 2, 1, 0], List.replicate 4 (lit 0.96, [(lit 0.96, false)])) := by decide +kernel

/-! ## coalesce_single_nearby_only (coalesce_test.rs:727-771) -/

example : ((createStore [(⟨1, 1⟩, [⟨1, 1, 100, 100, 1, 0⟩, ⟨1, 1, 50, 50, 2, 0⟩,
      ⟨1, 1, 90, 90, 3, 0⟩, ⟨1, 1, 200, 200, 4, 0⟩])] 14 1 (.fin 200)).bind fun s =>
      treeResult [⟨s, 1, [], 1, 1, [⟨⟨.range 1 3, 1⟩, true, 0, 2⟩]⟩] ⟨none, some (100, 100), 14⟩).map
        ids = some [1, 3] := by decide +kernel

/-! ## coalesce_multi_test (coalesce_test.rs:773-1034) -/

/-- The request with a proximity point. -/
def multi (prox : Option (ℕ × ℕ)) (zoom : ℕ) : Option (List Context) :=
  (twoStores [(⟨1, 1⟩, [⟨1, 1, 1, 1, 1, 0⟩, ⟨1, 1, 2, 2, 2, 0⟩])]
    [(⟨2, 1⟩, [⟨1, 3, 1, 1, 1, 0⟩, ⟨1, 3, 2, 2, 2, 0⟩, ⟨1, 1, 3, 3, 3, 0⟩])]
    1 0 2 1 (.fin 40)).bind fun s =>
    bothResults [phraseMatch s.1 0 (lit 0.5) 2 1 3 1 0, phraseMatch s.2 1 (lit 0.5) 1 1 3 1 1]
      ⟨none, prox, zoom⟩

example : (multi none 6).map (List.take 2) = some
    [⟨3, 1, [⟨⟨lit 0.5, 3, 2, 2, 2, 0⟩, true, 1, 33554434, 1, 0, .fin 3, 0⟩,
       ⟨⟨lit 0.5, 1, 1, 1, 1, 0⟩, true, 0, 1, 2, 0, 1, 0⟩]⟩,
     ⟨3, 1, [⟨⟨lit 0.5, 1, 3, 3, 3, 0⟩, true, 1, 33554435, 1, 0, 1, 0⟩,
       ⟨⟨lit 0.5, 1, 1, 1, 1, 0⟩, true, 0, 1, 2, 0, 1, 0⟩]⟩] := by decide +kernel

example : (multi (some (3, 3)) 2).map (List.take 2) = some
    [⟨3, 1, [⟨⟨lit 0.5, 1, 3, 3, 3, 0⟩, true, 1, 33554435, 1, 0, lit 1.5839497841387566, 0⟩,
       ⟨⟨lit 0.5, 1, 1, 1, 1, 0⟩, true, 0, 1, 2, 0, lit 1.5839497841387566, 0⟩]⟩,
     ⟨3, 1, [⟨⟨lit 0.5, 3, 2, 2, 2, 0⟩, true, 1, 33554434, 1, lit 1.4142135623730951,
         lit 1.109893833332405, 0⟩,
       ⟨⟨lit 0.5, 1, 1, 1, 1, 0⟩, true, 0, 1, 2, 0, lit 1.5839497841387566, 0⟩]⟩] := by
  decide +kernel

/-! ## coalesce_multi_languages_test (coalesce_test.rs:1036-1271) -/

/-- The request for a language set. -/
def multiLanguages (lang : ℕ) : Option (List Context) :=
  (twoStores [(⟨1, allLangs⟩, [⟨1, 1, 1, 1, 1, 0⟩])]
    [(⟨2, 2⟩, [⟨1, 1, 1, 1, 2, 0⟩]), (⟨2, 1⟩, [⟨1, 1, 1, 1, 3, 0⟩])]
    1 0 1 1 (.fin 200)).bind fun s =>
    bothResults [phraseMatch s.1 0 (lit 0.5) 2 1 3 allLangs 0,
      phraseMatch s.2 1 (lit 0.5) 1 1 3 lang 1] ⟨none, none, 6⟩

/-- Ids of all entries. -/
def allIds (cs : List Context) : List (List ℕ) := cs.map fun c => c.entries.map (·.entry.id)

example : (multiLanguages allLangs).map (fun cs => (allIds cs, relevs cs)) =
    some ([[3, 1], [2, 1]], List.replicate 2 (1, [(lit 0.5, true), (lit 0.5, true)])) := by
  decide +kernel

example : (multiLanguages 1).map (fun cs => (allIds cs, relevs cs)) =
    some ([[3, 1], [2, 1]], [(1, [(lit 0.5, true), (lit 0.5, true)]),
      (lit 0.98, [(lit 0.48, false), (lit 0.5, true)])]) := by decide +kernel

example : (multiLanguages 8).map (fun cs => (allIds cs, relevs cs)) =
    some ([[3, 1], [2, 1]],
      List.replicate 2 (lit 0.98, [(lit 0.48, false), (lit 0.5, true)])) := by decide +kernel

/-! ## coalesce_multi_scoredist (coalesce_test.rs:1273-1373) -/

/-- The request with a proximity point. -/
def multiScoredist (x y : ℕ) : Option (List Context) :=
  (twoStores [(⟨1, 0⟩, [⟨1, 1, 0, 0, 1, 0⟩])]
    [(⟨2, 0⟩, [⟨1, 7, 4800, 6200, 2, 0⟩, ⟨1, 1, 4600, 6200, 3, 0⟩])] 0 0 14 1 (.fin 200)).bind
    fun s => bothResults [phraseMatch s.1 0 (lit 0.5) 2 1 3 0 0,
      phraseMatch s.2 1 (lit 0.5) 1 1 3 0 1] ⟨none, some (x, y), 14⟩

example : (multiScoredist 4601 6200).map (fun cs => ((ids cs).take 2,
    decide (((cs.take 2).map (·.first.distance)).Pairwise (· < ·)))) = some ([3, 2], true) := by decide +kernel

example : (multiScoredist 4610 6200).map (fun cs => ((ids cs).take 2,
    decide (((cs.take 2).map (·.first.distance)).Pairwise (· < ·)))) = some ([3, 2], true) := by decide +kernel

/-! ## coalesce_multi_test_bbox (coalesce_test.rs:1375-1560) -/

/-- The three stores. -/
def boxStores : List (Option Store) :=
  [createStore [(⟨1, allLangs⟩, [⟨lit 0.8, 1, 0, 0, 1, 0⟩, ⟨1, 1, 1, 1, 2, 0⟩])] 1 0 (.fin 200),
   createStore [(⟨2, allLangs⟩, [⟨1, 1, 3, 0, 3, 0⟩, ⟨1, 1, 0, 3, 4, 0⟩])] 2 1 (.fin 200),
   createStore [(⟨3, allLangs⟩, [⟨1, 1, 21, 7, 5, 0⟩, ⟨1, 1, 21, 18, 6, 0⟩])] 5 2 (.fin 200)]

/-- Tiles of the first entries coalesce finds for the stores `i` and `j` in a box. -/
def boxTiles (i j stop : ℕ) (box : BBox) (zoom : ℕ) : Option (List (ℕ × ℕ)) := do
  let s ← (boxStores[i]?).join
  let t ← (boxStores[j]?).join
  let cs ← coalesce (listTreeEnv true).toEnv (fun _ => .id)
    [phraseMatch s i (lit 0.5) 2 1 stop allLangs 0, phraseMatch t j (lit 0.5) 1 1 stop allLangs 1]
    ⟨some box, none, zoom⟩
  some (cs.map fun c => (c.first.entry.x, c.first.entry.y))

example : boxTiles 0 1 3 ⟨0, 0, 1, 0⟩ 1 = some [(3, 0), (0, 0)] := by decide +kernel
example : boxTiles 0 1 3 ⟨0, 0, 1, 3⟩ 2 = some [(0, 3), (0, 0)] := by decide +kernel
example : boxTiles 0 1 3 ⟨14, 30, 15, 64⟩ 6 = some [(0, 3), (0, 0)] := by decide +kernel
example : boxTiles 1 2 4 ⟨0, 0, 1, 0⟩ 1 = some [(3, 0), (21, 7)] := by decide +kernel

end Carmen.Conformance
