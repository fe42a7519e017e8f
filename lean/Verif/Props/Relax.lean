import Verif.Lemmas.Relax
import Verif.Props.NoPanic
import Verif.Props.NativeCoalesce

/-!
# C70: debug builds and release builds
-/

namespace Carmen

open Builder Spec Store

/-- C70: what a query returns in a debug build it returns in a release build. -/
theorem C70_query {M : KMerger} {H : Heap QueueElement.key} {s : Store} {mk : MatchKey}
    {opts : MatchOpts} {n : ℕ} {out : List MatchEntry} {chk : Bool}
    (h : getMatching M H chk s mk opts n = some out) : getMatching M H false s mk opts n = some out :=
  getMatching_relax h

/-- C70: the same for `coalesce`, with no conditions on the stores and the request. -/
theorem C70_coalesce {env : Env} {os : ℕ → IterOrder} {stack : List Subquery} {opts : MatchOpts}
    {out : List Context} (h : coalesce env os stack opts = some out) :
    coalesce { env with chk := false } os stack opts = some out :=
  coalesce_under env os stack opts out h

/-- C70: the same for `tree_coalesce` and `stack_and_coalesce`. -/
theorem C70_tree_coalesce {env : TreeEnv} {opts : MatchOpts} {out : List Context} :
    (∀ t, treeCoalesce env t opts = some out →
      treeCoalesce { env with chk := false } t opts = some out) ∧
    ∀ qs, stackAndCoalesce env qs opts = some out →
      stackAndCoalesce { env with chk := false } qs opts = some out :=
  ⟨fun t h => treeCoalesce_under env t opts out h, fun qs h => stackAndCoalesce_under env qs opts out h⟩

/-- C70: from JavaScript: whatever the arguments, the two builds throw for the same ones, and the
callback of a release build gets what that of a debug build gets, unless that crashed. -/
theorem C70_from_js (S : SearchSerde) (env : TreeEnv) (os : ℕ → IterOrder) (args : List JsValue) :
    (jsCoalesce S env.toEnv os args = .returned none ∨
      jsCoalesce S env.toEnv os args = jsCoalesce S { env.toEnv with chk := false } os args) ∧
    (jsStackAndCoalesce S env args = .returned none ∨
      jsStackAndCoalesce S env args = jsStackAndCoalesce S { env with chk := false } args) := by
  unfold jsCoalesce jsStackAndCoalesce
  cases requestArgs S args with
  | none => exact ⟨Or.inr rfl, Or.inr rfl⟩
  | some r =>
    simp only
    constructor
    · cases h : coalesce env.toEnv os r.1 r.2 with
      | none => exact Or.inl rfl
      | some out => rw [C70_coalesce h]; exact Or.inr rfl
    · cases h : stackAndCoalesce env r.1 r.2 with
      | none => exact Or.inl rfl
      | some out => rw [C70_tree_coalesce.2 _ h]; exact Or.inr rfl

/-- C70: for the requests of which C60 says that they do not panic, the two builds return the same. -/
theorem C70_fit_same {env : TreeEnv} {qs : List Subquery} {opts : MatchOpts}
    (h : RequestFit env.chk qs opts) :
    (∀ os, qs ≠ [] → (env.chk = true → ∀ q, qs = [q] → opts.zoom = q.store.zoom) →
      ∃ out, coalesce env.toEnv os qs opts = some out ∧
        coalesce { env.toEnv with chk := false } os qs opts = some out) ∧
    (TreeFit env.chk qs opts → (∀ q ∈ qs, q.weight.IsFin ∧ q.weight ≤ 1) →
      ∃ out, stackAndCoalesce env qs opts = some out ∧
        stackAndCoalesce { env with chk := false } qs opts = some out) := by
  refine ⟨fun os hne hz => ?_, fun ht hw => ?_⟩
  · obtain ⟨out, ho⟩ := C60_coalesce (env := env.toEnv) h hne hz os
    exact ⟨out, ho, C70_coalesce ho⟩
  · obtain ⟨out, ho⟩ := C60_stack_and_coalesce h ht hw
    exact ⟨out, ho, C70_tree_coalesce.2 _ ho⟩

/-- C70: the converse fails: a release build answers requests at which a debug build panics. -/
theorem C70_not_conversely :
    ∃ (qs : List Subquery) (opts : MatchOpts) (out : List Context),
      stackAndCoalesce (listTreeEnv true) qs opts = none ∧
      stackAndCoalesce (listTreeEnv false) qs opts = some out :=
  ⟨[nearStreetMatch], ⟨some ⟨0, 0, 5, 5⟩, some (32, 32), 6⟩, [],
    C60_exceptions.2.2.2.2.2.2.2.2, C60_empty_box.2⟩

/-- A request that a debug build answers with two contexts. -/
example : (stackAndCoalesce (listTreeEnv true) [regionTreeMatch, streetTreeMatch]
    ⟨none, none, 6⟩).map List.length =
  (stackAndCoalesce (listTreeEnv false) [regionTreeMatch, streetTreeMatch]
    ⟨none, none, 6⟩).map List.length ∧
    ((stackAndCoalesce (listTreeEnv true) [regionTreeMatch, streetTreeMatch]
    ⟨none, none, 6⟩).map List.length).getD 0 ≠ 0 := by
  decide +kernel

end Carmen
