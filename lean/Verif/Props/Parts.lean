import Verif.Spec.Parts
import Verif.Props.Wider
import Verif.Props.Frame

/-!
# C107: ranges add up
-/

namespace Carmen
open Spec

theorem inRange_parts {db : SMap Bytes Bytes} (hd : LaidOut db) {m : TypeMarker} {st mid en : ℕ}
    (h1 : st ≤ mid) (h2 : mid ≤ en) :
    (db.filter (inRange m st en)).Perm
      (db.filter (inRange m st mid) ++ db.filter (inRange m mid en)) := by
  have key : ∀ r ∈ db, inRange m st en r = (inRange m st mid r || inRange m mid en r) ∧
      ¬ (inRange m st mid r = true ∧ inRange m mid en r = true) := by
    intro r hr
    rcases laid_row hd hr with ⟨m', k, v, _, hk, rfl, _, _⟩ | hbk
    · constructor
      · rw [Bool.eq_iff_iff, Bool.or_eq_true, inRange_dbKey hk, inRange_dbKey hk, inRange_dbKey hk]
        constructor
        · rintro ⟨e, a, b⟩
          rcases lt_or_ge k.phraseId mid with h | h
          · exact Or.inl ⟨e, a, h⟩
          · exact Or.inr ⟨e, h, b⟩
        · rintro (⟨e, a, b⟩ | ⟨e, a, b⟩)
          · exact ⟨e, a, b.trans_le h2⟩
          · exact ⟨e, h1.trans a, b⟩
      · rw [inRange_dbKey hk, inRange_dbKey hk]
        rintro ⟨⟨-, -, a⟩, ⟨-, b, -⟩⟩
        omega
    · have hf : ∀ a b, inRange m a b r = false := by
        intro a b
        unfold inRange
        rw [hbk, matchesKey_bounds]
        simp
      simp [hf]
  clear hd
  induction db with
  | nil => simp
  | cons r t ih =>
    obtain ⟨k1, k2⟩ := key r List.mem_cons_self
    have ih := ih fun x hx => key x (List.mem_cons_of_mem _ hx)
    simp only [List.filter_cons, k1]
    cases ha : inRange m st mid r <;> cases hb : inRange m mid en r
    · simpa using ih
    · simpa using (ih.cons r).trans List.perm_middle.symm
    · simpa using ih.cons r
    · exact absurd ⟨ha, hb⟩ k2

section
variable {s : Store} (hd : LaidOut s.db) (M : KMerger) (H : Heap QueueElement.key) {chk : Bool}
  {opts : MatchOpts} (ho : OptsWf opts) (hbf : BoxFit chk opts) (hn : NumbersOk opts s.radius)
  {n : ℕ} (hlim : s.db.length ≤ n) (lang : ℕ)
include hd ho hbf hn hlim

/-- What a query returns, by the rows it reads. -/
theorem query_by_rows {phrase : MatchPhrase} {st en : ℕ} {m : TypeMarker}
    (hp : s.fetchPlan chk phrase = some (st, en, m)) (hst : st < 2 ^ 32) :
    ∃ out, s.getMatching M H chk ⟨phrase, lang⟩ opts n = some out ∧
      out.Perm ((s.db.filter (inRange m st en)).flatMap (rowOut M s ⟨.exact 0, lang⟩ opts)) := by
  obtain ⟨out, a1, a2, -⟩ := getMatching_all (M := M) (H := H) (n := n) (opts := opts)
    (queryRows_eq hd rfl hp hst) _ (rowElement_rows hd ho hbf hn M ⟨phrase, lang⟩)
    ((List.length_filter_le _ _).trans hlim)
  exact ⟨out, a1, a2⟩

/-- **C107**: what a query for a range returns is what queries for its two parts return, together, when
the limit leaves room for all. -/
theorem C107_parts {st mid en : ℕ} (h1 : st ≤ mid) (h2 : mid ≤ en) (hmid : mid < 2 ^ 32)
    (hs : ReadAlike s.bounds st mid en) :
    ∃ low high all, s.getMatching M H chk ⟨.range st mid, lang⟩ opts n = some low ∧
      s.getMatching M H chk ⟨.range mid en, lang⟩ opts n = some high ∧
      s.getMatching M H chk ⟨.range st en, lang⟩ opts n = some all ∧ all.Perm (low ++ high) := by
  have hst := h1.trans_lt hmid
  obtain ⟨m, p1, p2, p3⟩ : ∃ m, s.fetchPlan chk (.range st mid) = some (st, mid, m) ∧
      s.fetchPlan chk (.range mid en) = some (mid, en, m) ∧
      s.fetchPlan chk (.range st en) = some (st, en, m) := by
    rcases hs with ⟨a, b, c⟩ | ⟨a, b, c⟩
    · exact ⟨.prefixBin, if_pos ⟨a, b⟩, if_pos ⟨b, c⟩, if_pos ⟨a, c⟩⟩
    · exact ⟨.singlePhrase, if_neg a, if_neg b, if_neg c⟩
  obtain ⟨low, a1, a2⟩ := query_by_rows hd M H ho hbf hn hlim lang p1 hst
  obtain ⟨high, b1, b2⟩ := query_by_rows hd M H ho hbf hn hlim lang p2 hmid
  obtain ⟨all, c1, c2⟩ := query_by_rows hd M H ho hbf hn hlim lang p3 hst
  refine ⟨low, high, all, a1, b1, c1, c2.trans ?_⟩
  refine ((inRange_parts hd h1 h2).flatMap_right _).trans ?_
  rw [List.flatMap_append]
  exact (a2.append b2).symm

/-- **C107**: and what its phrases return, one by one, when it is not answered from bins. -/
theorem C107_phrases {st en : ℕ} (hle : st ≤ en) (hen : en < 2 ^ 32)
    (hs : ¬ (st ∈ s.bounds ∧ en ∈ s.bounds)) :
    ∃ all parts, s.getMatching M H chk ⟨.range st en, lang⟩ opts n = some all ∧
      List.Forall₂ (fun id part => s.getMatching M H chk ⟨.exact id, lang⟩ opts n = some part)
        (List.range' st (en - st)) parts ∧ all.Perm parts.flatten := by
  obtain ⟨all, c1, c2⟩ := query_by_rows hd M H ho hbf hn hlim lang
    (show s.fetchPlan chk (.range st en) = some (st, en, .singlePhrase) from if_neg hs)
    (hle.trans_lt hen)
  suffices h : ∀ k, st + k < 2 ^ 32 → ∃ parts,
      List.Forall₂ (fun id part => s.getMatching M H chk ⟨.exact id, lang⟩ opts n = some part)
        (List.range' st k) parts ∧
      ((s.db.filter (inRange .singlePhrase st (st + k))).flatMap
        (rowOut M s ⟨.exact 0, lang⟩ opts)).Perm parts.flatten by
    obtain ⟨parts, h1, h2⟩ := h (en - st) (by omega)
    rw [Nat.add_sub_cancel' hle] at h2
    exact ⟨all, parts, c1, h1, c2.trans h2⟩
  intro k
  induction k with
  | zero =>
    intro _
    refine ⟨[], .nil, ?_⟩
    have := (inRange_parts hd (m := .singlePhrase) (le_refl st) (le_refl st)).length_eq
    rw [List.length_append] at this
    have e : s.db.filter (inRange .singlePhrase st st) = [] :=
      List.length_eq_zero_iff.1 (by omega)
    rw [Nat.add_zero, e]
    rfl
  | succ k ih =>
    intro hk
    obtain ⟨parts, h1, h2⟩ := ih (by omega)
    have hplan : s.fetchPlan chk (.exact (st + k)) = some (st + k, st + k + 1, .singlePhrase) := by
      unfold Store.fetchPlan
      simp only
      rw [if_neg (by simp; intro; omega), Nat.mod_eq_of_lt (by omega)]
    obtain ⟨out, d1, d2⟩ := query_by_rows hd M H ho hbf hn hlim lang hplan (by omega)
    refine ⟨parts ++ [out], ?_, ?_⟩
    · rw [List.range'_1_concat]
      exact List.rel_append h1 (.cons d1 .nil)
    · refine ((inRange_parts hd (mid := st + k) (by omega) (by omega)).flatMap_right _).trans ?_
      rw [List.flatMap_append, List.flatten_append, List.flatten_singleton]
      exact h2.append d2.symm

end

/-! ## Examples -/

/-- Four phrases, two of them with the same entry, and three boundaries. -/
def partsCalls : List Call :=
  [.append ⟨5, 1⟩ [⟨1, 3, 5, 6, 7, 8⟩], .append ⟨6, 1⟩ [⟨1, 3, 5, 6, 7, 8⟩, ⟨lit 0.8, 2, 5, 6, 9, 8⟩],
    .append ⟨8, 1⟩ [⟨1, 3, 4, 4, 4, 4⟩], .append ⟨9, 2⟩ [⟨lit 0.6, 3, 4, 4, 5, 4⟩],
    .loadBounds [5, 7, 10]]

theorem parts_made : ∃ b, Made partsCalls .id b (leaves partsCalls) := by
  refine ⟨_, ?_, ?_, rfl, by decide +kernel⟩
  · intro c hc
    simp only [partsCalls, List.mem_cons, List.not_mem_nil, or_false] at hc
    rcases hc with rfl | rfl | rfl | rfl | rfl <;>
      simp [Call.Wf, GridKey.Wf, GridEntry.Wf] <;> decide +kernel
  · intro c hc
    simp only [partsCalls, List.mem_cons, List.not_mem_nil, or_false] at hc
    rcases hc with rfl | rfl | rfl | rfl | rfl <;> trivial

theorem parts_laid : LaidOut (Store.new (leaves partsCalls)).db := by
  obtain ⟨b, hb⟩ := parts_made
  exact hb.laidOut (by unfold SmallRecords; decide +kernel)

/-- Through bins, and phrase by phrase. -/
example :
    (∃ low high all,
      (Store.new (leaves partsCalls)).getMatching listMerger (listHeap _) true ⟨.range 5 7, 1⟩
        plainOpts 9 = some low ∧
      (Store.new (leaves partsCalls)).getMatching listMerger (listHeap _) true ⟨.range 7 10, 1⟩
        plainOpts 9 = some high ∧
      (Store.new (leaves partsCalls)).getMatching listMerger (listHeap _) true ⟨.range 5 10, 1⟩
        plainOpts 9 = some all ∧ all.Perm (low ++ high)) ∧
    ∃ all parts,
      (Store.new (leaves partsCalls)).getMatching listMerger (listHeap _) true ⟨.range 4 10, 1⟩
        plainOpts 9 = some all ∧
      List.Forall₂ (fun id part => (Store.new (leaves partsCalls)).getMatching listMerger (listHeap _)
        true ⟨.exact id, 1⟩ plainOpts 9 = some part) [4, 5, 6, 7, 8, 9] parts ∧
      all.Perm parts.flatten := by
  have hl : (Store.new (leaves partsCalls)).db.length ≤ 9 := by decide +kernel
  have hn : NumbersOk plainOpts (Store.new (leaves partsCalls)).radius := fun h => absurd rfl h
  have hb : BoxFit true plainOpts := fun _ b h => nomatch h
  have ho : OptsWf plainOpts := by constructor <;> intro b h <;> cases h
  exact ⟨C107_parts parts_laid _ _ ho hb hn hl 1 (by decide) (by decide) (by decide)
      (by unfold ReadAlike; decide +kernel),
    C107_phrases parts_laid _ _ ho hb hn hl 1 (st := 4) (en := 10) (by decide) (by decide)
      (by decide +kernel)⟩

/-- When the range is answered from bins and its parts are not, an entry of two phrases of a bin comes
back once for the range, and twice for the parts. -/
theorem C107_bins_return_once : ∃ low high all,
    (Store.new (leaves partsCalls)).getMatching listMerger (listHeap _) true ⟨.range 5 6, 1⟩
      plainOpts 9 = some low ∧
    (Store.new (leaves partsCalls)).getMatching listMerger (listHeap _) true ⟨.range 6 10, 1⟩
      plainOpts 9 = some high ∧
    (Store.new (leaves partsCalls)).getMatching listMerger (listHeap _) true ⟨.range 5 10, 1⟩
      plainOpts 9 = some all ∧ all.length + 1 = (low ++ high).length := by
  have h : (((Store.new (leaves partsCalls)).getMatching listMerger (listHeap _) true ⟨.range 5 6, 1⟩
      plainOpts 9).bind fun low =>
    ((Store.new (leaves partsCalls)).getMatching listMerger (listHeap _) true ⟨.range 6 10, 1⟩
      plainOpts 9).bind fun high =>
    ((Store.new (leaves partsCalls)).getMatching listMerger (listHeap _) true ⟨.range 5 10, 1⟩
      plainOpts 9).map fun all => decide (all.length + 1 = (low ++ high).length)) = some true := by
    decide +kernel
  obtain ⟨low, h1, h⟩ := Option.bind_eq_some_iff.1 h
  obtain ⟨high, h2, h⟩ := Option.bind_eq_some_iff.1 h
  obtain ⟨all, h3, h⟩ := Option.map_eq_some_iff.1 h
  exact ⟨low, high, all, h1, h2, h3, of_decide_eq_true h⟩

end Carmen
