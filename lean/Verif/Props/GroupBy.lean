import Verif.Lemmas.GroupBy

/-! # C29: grouping loses and reorders nothing -/

namespace Carmen

/-- C29. For every sequence and every key function, stateful or not, grouping yields
non-empty groups whose concatenation is the sequence, every item in a group labelled
with the key the key function returned for it (called once per item, in order), and
neighbouring groups with different keys. -/
theorem C29_groupby_correct {α K σ : Type} [DecidableEq K] (step : σ → α → K × σ) (s : σ)
    (l : List α) : Spec.IsGrouping (Spec.keySeq step s l) l (groupByS step s l) :=
  groupByS_isGrouping step s l

/-- A stateful key function: counts the items, changing the key every two. -/
example : groupByS (fun (n : ℕ) (_ : Char) => (n / 2, n + 1)) 0 ['a', 'b', 'c', 'd', 'e']
    = [(0, ['a', 'b']), (1, ['c', 'd']), (2, ['e'])] := by decide

/-- C29 for pure key functions: groups carry the key of their items. -/
theorem C29_groupby_pure {α K : Type} [DecidableEq K] (key : α → K) (l : List α) :
    Spec.IsGrouping (l.map key) l (groupBy key l) := groupBy_isGrouping key l

/-- The case of the repository's own test (`eager_test`, common.rs:631). -/
example : groupBy id [1, 1, 1, 2, 3, 4, 4, 4, 7, 7, 8]
    = [(1, [1, 1, 1]), (2, [2]), (3, [3]), (4, [4, 4, 4]), (7, [7, 7]), (8, [8])] := by decide

end Carmen
