import Verif.Props.Builder
import Verif.Props.Keys

/-!
# Writing what a store lists into another builder
-/

namespace Carmen
open Builder Spec

/-- Calls that write one record. -/
def Spec.Writes (c : Call) (p : GridKey × List GridEntry) : Prop :=
  c = .insert p.1 p.2 ∨ c = .append p.1 p.2

theorem content_writes {cs : List Call} {l : List (GridKey × List GridEntry)}
    (h : List.Forall₂ Writes cs l) : ∀ s : Content, (l.map Prod.fst).Nodup →
      (∀ p ∈ l, s p.1 = none) →
      (∀ p ∈ l, cs.foldl Content.call s p.1 = some p.2) ∧
      ∀ k, k ∉ l.map Prod.fst → cs.foldl Content.call s k = s k := by
  induction h with
  | nil => intro s _ _; exact ⟨by simp, fun k _ => rfl⟩
  | @cons c p cs l hw _ ih =>
    intro s hnd hs
    rw [List.map_cons, List.nodup_cons] at hnd
    have hstep : s.call c = s.set p.1 p.2 := by
      rcases hw with rfl | rfl
      · rfl
      · change s.set p.1 ((s p.1).getD [] ++ p.2) = _
        rw [hs p List.mem_cons_self]
        rfl
    have hne : ∀ q ∈ l, q.1 ≠ p.1 := fun q hq he => hnd.1 (he ▸ List.mem_map_of_mem hq)
    obtain ⟨h1, h2⟩ := ih (s.set p.1 p.2) hnd.2 fun q hq => by
      unfold Content.set
      rw [if_neg (hne q hq)]
      exact hs q (List.mem_cons_of_mem _ hq)
    rw [List.foldl_cons, hstep]
    refine ⟨?_, ?_⟩
    · intro q hq
      rcases List.mem_cons.1 hq with rfl | hq
      · rw [h2 _ hnd.1]
        unfold Content.set
        rw [if_pos rfl]
      · exact h1 q hq
    · intro k hk
      rw [List.map_cons, List.mem_cons, not_or] at hk
      rw [h2 k hk.2]
      unfold Content.set
      rw [if_neg hk.1]

theorem run_writes {cs : List Call} {l : List (GridKey × List GridEntry)}
    (h : List.Forall₂ Writes cs l) (bounds : List ℕ) : ∀ b : Builder,
      ∃ b', b.runFrom (cs ++ [.loadBounds bounds]) = some b' := by
  induction h with
  | nil => intro b; exact ⟨_, rfl⟩
  | cons hw _ ih =>
    intro b
    rcases hw with rfl | rfl
    · exact ih (b.insert _ _)
    · exact ih (b.append _ _)

theorem relevToInt_eq_code (r : F64) : relevToInt r = relevCode r := by
  have hq : ∀ q : ℚ, (F64.feq r (lit q) = true) = (r = lit q) := by
    intro q
    unfold F64.feq
    rw [decide_eq_true_eq]
    refine propext ⟨fun h => h.2, fun h => ⟨?_, h⟩⟩
    rw [h]; unfold lit F64.ofRat F64.ofRounded
    split_ifs <;> simp
  unfold relevToInt relevCode
  simp only [hq]

theorem storedAs_stored {v : GridEntry} {rs z i : ℕ} : StoredAs (stored v) rs z i ↔ StoredAs v rs z i := by
  have h1 : rsByte (stored v).relev v.score = rsByte v.relev v.score := by
    unfold rsByte
    congr 2
    unfold stored
    simp only
    split_ifs with h
    · rfl
    · rw [not_or, not_or] at h
      rw [relevToInt_eq_code, relevToInt_eq_code]
      have : relevCode 1 = 3 := by decide +kernel
      rw [this]
      unfold relevCode
      simp only [h.1, h.2.1, h.2.2, if_false]
  have h2 : idComp (stored v).id v.hash = idComp v.id v.hash := by
    unfold idComp stored
    congr 1
    simp only [Nat.shiftLeft_eq]
    omega
  unfold StoredAs
  rw [show (stored v).score = v.score from rfl, show (stored v).hash = v.hash from rfl, h1, h2]
  rfl

/-- Builders that hold the same entries after rounding finish alike. -/
theorem finish_of_stored {o o' : IterOrder} {b b' : Builder} {s s' : Content}
    (hr : Refines b s) (hr' : Refines b' s') (hn : b.NE) (hn' : b'.NE)
    (hb : b.bounds = b'.bounds)
    (hs : ∀ k, (s k = none ↔ s' k = none) ∧
      ∀ es es', s k = some es → s' k = some es' → ∀ v, v ∈ es.map stored ↔ v ∈ es'.map stored) :
    finish o b = finish o' b' := by
  have key : ∀ (e : BuilderEntry) (es : List GridEntry), Holds e es ↔ Holds e (es.map stored) := by
    intro e es
    unfold Holds
    have : ∀ rs z i, (∃ v ∈ es, StoredAs v rs z i) ↔ ∃ v ∈ es.map stored, StoredAs v rs z i := by
      intro rs z i
      simp only [List.mem_map]
      constructor
      · rintro ⟨v, hv, h⟩; exact ⟨_, ⟨v, hv, rfl⟩, storedAs_stored.2 h⟩
      · rintro ⟨_, ⟨v, hv, rfl⟩, h⟩; exact ⟨v, hv, storedAs_stored.1 h⟩
    simp only [this]
  have lift : ∀ {b : Builder} {s : Content}, Refines b s →
      Refines b fun k => (s k).map fun es => es.map stored := by
    intro b s h
    refine ⟨h.wf, fun k => by rw [h.absent k, Option.map_eq_none_iff], ?_⟩
    intro k e es h1 h2
    obtain ⟨es', h3, rfl⟩ := Option.map_eq_some_iff.1 h2
    exact (key e es').1 (h.present k e es' h1 h3)
  refine finish_of_content (lift hr) (lift hr') hn hn' hb fun k => ?_
  simp only [Option.map_eq_none_iff]
  refine ⟨(hs k).1, ?_⟩
  intro es es' h1 h2
  obtain ⟨u, h3, rfl⟩ := Option.map_eq_some_iff.1 h1
  obtain ⟨w, h4, rfl⟩ := Option.map_eq_some_iff.1 h2
  exact (hs k).2 u w h3 h4

end Carmen
