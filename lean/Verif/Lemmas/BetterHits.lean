import Verif.Lemmas.MovedHits

/-!
# Requests of one shape of which one has the more relevant results at the same places
-/

namespace Carmen
open Spec

/-- The same parts, with relevances of one direction. -/
structure SameParts (R : F64 → F64 → Prop) (c c' : Context) : Prop where
  parts : List.Forall₂ (fun e e' : CoalesceEntry => (e'.entry.x = e.entry.x ∧
    e'.entry.y = e.entry.y) ∧ e'.entry.id = e.entry.id ∧ (e'.phrasematchId = e.phrasematchId ∧
    e'.idx = e.idx ∧ e'.mask = e.mask) ∧ R e.entry.relev e'.entry.relev) c.entries c'.entries
  mask : c'.mask = c.mask
  relev : R c.relev c'.relev

theorem SameParts.up {c c' : Context} (h : SameParts (· ≤ ·) c c') : ContextNotWorse c c' :=
  ⟨h.parts.imp fun _ _ h => ⟨h.1, h.2.1, h.2.2.1, h.2.2.2⟩, h.mask, h.relev⟩

theorem SameParts.down {c c' : Context} (h : SameParts (· ≥ ·) c c') : ContextNotWorse c' c :=
  ⟨List.Forall₂.flip (h.parts.imp fun _ _ h => ⟨⟨h.1.1.symm, h.1.2.symm⟩, h.2.1.symm,
    ⟨h.2.2.1.1.symm, h.2.2.1.2.1.symm, h.2.2.1.2.2.symm⟩, h.2.2.2⟩), h.mask.symm, h.relev⟩

/-! ## Contexts -/

section
variable {R : F64 → F64 → Prop} {env : Env} {opts opts' : MatchOpts} {mv : Subquery → Subquery}
  {mk : Subquery → KeyWithId → KeyWithId} {pms pms' : List Subquery}

/-- Each first result of the one request has one of the other one at the same place that is at least
as relevant (or at most, depending on `R`). -/
def Improves (R : F64 → F64 → Prop) (env : Env) (opts opts' : MatchOpts) (mv : Subquery → Subquery)
    (mk : Subquery → KeyWithId → KeyWithId) (pms : List Subquery) : Prop :=
  ∀ h : Hit, h.q ∈ pms → h.FirstAnswer env opts →
    ∃ g', (moveTo mv mk h g').FirstAnswer env opts' ∧ AtSamePlace h.grid g' ∧
      R h.grid.entry.relev g'.entry.relev

/-- `h'` is what `Improves` has for `h`. -/
structure BetterHit (R : F64 → F64 → Prop) (env : Env) (opts' : MatchOpts) (mv : Subquery → Subquery)
    (mk : Subquery → KeyWithId → KeyWithId) (h h' : Hit) : Prop where
  eq : h' = moveTo mv mk h h'.grid
  first : h'.FirstAnswer env opts'
  place : AtSamePlace h.grid h'.grid
  relev : R h.grid.entry.relev h'.grid.entry.relev

/-- Nothing is moved. -/
def stay (_ : Subquery) (p p' : Place) : Prop := p' = p

theorem stay_nest (pms : List Subquery) : TilesNest stay pms := by
  rintro a - b - p p' r r' rfl rfl h
  exact h

theorem stay_iff {q : Subquery} {g g' : MatchEntry} :
    stay q (placeOf g.entry) (placeOf g'.entry) ↔ AtSamePlace g g' := by
  unfold stay placeOf AtSamePlace
  rw [Prod.mk.injEq, Prod.mk.injEq]

theorem Improves.carries (hi : Improves R env opts opts' mv mk pms) :
    Carries stay R env opts opts' mv mk pms := by
  intro h h1 h2
  obtain ⟨g', g1, g2, g3⟩ := hi h h1 h2
  exact ⟨g', g1, stay_iff.2 g2, g3⟩

theorem BetterHit.moved {h h' : Hit} :
    BetterHit R env opts' mv mk h h' ↔ MovedHit stay R env opts' mv mk h h' :=
  ⟨fun ⟨h1, h2, h3, h4⟩ => ⟨h1, h2, stay_iff.2 h3, h4⟩,
    fun ⟨h1, h2, h3, h4⟩ => ⟨h1, h2, stay_iff.1 h3, h4⟩⟩

theorem MovedParts.stays {c c' : Context} (h : MovedParts pms stay R c c') : SameParts R c c' := by
  refine ⟨h.parts.imp ?_, h.mask, h.relev⟩
  rintro e e' ⟨⟨q, -, -, h1⟩, h2, h3⟩
  have := Prod.mk.inj h1
  have h4 := Prod.mk.inj this.2
  exact ⟨⟨this.1, h4.1⟩, h4.2, h2, h3⟩

variable (hmv : SameForm mv mk pms pms')
include hmv

/-- Hits at the same places that relate to the ones of a context make a context that relates to it. -/
theorem better_context_hits (hR : Direction R) (hw : WeightsPositive pms) (hw' : WeightsPositive pms')
    (hww : ∀ q ∈ pms, R q.weight (mv q).weight) {hs hs' : List Hit}
    (hb : List.Forall₂ (BetterHit R env opts' mv mk) hs hs') {c : Context} (hl : ¬ Lone pms hs)
    (hc : ContextOf env opts pms hs c) :
    ∃ c', ¬ Lone pms' hs' ∧ ContextOf env opts' pms' hs' c' ∧ SameParts R c c' := by
  obtain ⟨c', h1, h2, h3⟩ := moved_context_hits hmv (stay_nest pms) hR hw hw' hww
    (hb.imp fun _ _ h => BetterHit.moved.1 h) hl hc
  exact ⟨c', h1, h2, h3.stays⟩

/-- A stack of hits that is let through has a counterpart whose relevances are at
least (or at most) the ones it had. -/
theorem better_context (hR : Direction R) (hw : WeightsPositive pms) (hw' : WeightsPositive pms')
    (hww : ∀ q ∈ pms, R q.weight (mv q).weight) (hi : Improves R env opts opts' mv mk pms)
    {hs : List Hit} {c : Context} (hl : ¬ Lone pms hs) (hc : ContextOf env opts pms hs c) :
    ∃ hs' c', List.Forall₂ (BetterHit R env opts' mv mk) hs hs' ∧ ¬ Lone pms' hs' ∧
      ContextOf env opts' pms' hs' c' ∧ SameParts R c c' := by
  obtain ⟨hs', c', hb, h1, h2, h3⟩ := moved_context hmv (stay_nest pms) hR hw hw' hww hi.carries hl hc
  exact ⟨hs', c', hb.imp fun _ _ h => BetterHit.moved.2 h, h1, h2, h3.stays⟩

end

section
variable {R : F64 → F64 → Prop} {env : Env} {opts opts' : MatchOpts} {mv : Subquery → Subquery}
  {mk : Subquery → KeyWithId → KeyWithId} {pms pms' : List Subquery}

theorem better_returned (hmv : Shapes mv mk pms pms') (hR : Direction R) (hw : WeightsPositive pms)
    (hw' : WeightsPositive pms') (hww : ∀ q ∈ pms, R q.weight (mv q).weight)
    (hi : Improves R env opts opts' mv mk pms)
    (hm : ∀ q ∈ pms, ∀ z x y, Meets q.store z x y → Meets (mv q).store z x y)
    {hs : List Hit} {c : Context} (hl : ¬ Lone pms hs) (hcut : NotCut env opts pms (hs.map Hit.q))
    (hc : ContextOf env opts pms hs c) :
    ∃ c', IsReturned env opts' pms' c' ∧ SameParts R c c' := by
  obtain ⟨c', h1, h2⟩ := moved_returned hmv (stay_nest pms) hR hw hw' hww hi.carries
    (by rintro q hq l - p p' rfl h; exact hm q hq _ _ _ h) hl hcut hc
  exact ⟨c', h1, h2.stays⟩

end

end Carmen
