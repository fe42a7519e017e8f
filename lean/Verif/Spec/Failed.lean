import Verif.Spec.Native

/-!
# Specification: what calls leave behind, whether they succeed or not

The only builder call that can fail is `renumber`, and it leaves the builder half done.
-/

namespace Carmen.Spec

/-- `renumber` cannot go past the key: the map has no new id for it, or an earlier key with the same
languages goes to the same new id. -/
def Blocked (s : Content) (map : List ℕ) (k : GridKey) : Prop :=
  (s k).isSome = true ∧ (map[k.phraseId]? = none ∨
    ∃ p < k.phraseId, (s ⟨p, k.langSet⟩).isSome = true ∧ map[p]? = map[k.phraseId]?)

/-- The content below a key. -/
def Content.before (s : Content) (k : GridKey) : Content := fun k' => if k' < k then s k' else none

/-- What a call leaves behind. A `renumber` that is blocked keeps only what it moved before the first
key it could not move. -/
def Effect (s : Content) : Call → Content → Prop
  | .renumber map, s' =>
    ((∀ k, ¬ Blocked s map k) ∧ s' = s.renumber map) ∨
    ∃ k, Blocked s map k ∧ (∀ k₀ < k, ¬ Blocked s map k₀) ∧ s' = (s.before k).renumber map
  | c, s' => s' = s.call c

/-- What a sequence of calls leaves behind. -/
inductive Effects : Content → List Call → Content → Prop
  | nil (s : Content) : Effects s [] s
  | cons {s s' s'' : Content} {c : Call} {t : List Call} (h : Effect s c s')
      (ht : Effects s' t s'') : Effects s (c :: t) s''

/-- The builder after calls that may fail. -/
def runAll (b : Builder) (ds : List Call) : Builder := ds.foldl (fun b d => (native b d).1) b

/-- What a JavaScript call, with any arguments, is taken for: nothing (it throws), or a call with
arguments of the right types; if the arguments stand for a native call, for such a call. -/
def Understood (S : Serde) (c : JsCall) (d : Option Call) : Prop :=
  (∀ d', d = some d' → d'.Wf) ∧ ((∃ d', Means S c d') → ∃ d', d = some d' ∧ Means S c d')

end Carmen.Spec
