import Verif.Spec.Query

/-!
# Specification: one result before another
-/

namespace Carmen.Spec

/-- `r` is not worse than `r'` in relevance, but for one thing: of two results in another language,
one outside the radius may stand before one within it, which is spared the factor 0.96. -/
def NotWorse (opts : MatchOpts) (radius : F64) (r r' : MatchEntry) : Prop :=
  r'.entry.relev ≤ r.entry.relev ∨
    (r.matchesLanguage = false ∧ r'.matchesLanguage = false ∧ ¬ WithinRadius opts radius r.entry ∧
      WithinRadius opts radius r'.entry ∧ r.entry.relev = r'.entry.relev * lit 0.96)

/-- Results in another language lie all within the radius, or all outside it. -/
def SameSide (opts : MatchOpts) (radius : F64) (rs : List MatchEntry) : Prop :=
  ∀ r ∈ rs, ∀ r' ∈ rs, r.matchesLanguage = false → r'.matchesLanguage = false →
    WithinRadius opts radius r.entry → WithinRadius opts radius r'.entry

end Carmen.Spec
