import Mathlib.Data.List.Perm.Basic
import Mathlib.Order.Basic
import Mathlib.Data.List.Sort

/-!
# Sorted lists of which one has the larger members
-/

namespace Carmen

/-- Of two lists in falling order, the one whose members can be paired with larger ones is below the
other one at each place. -/
theorem sorted_dominated {α : Type} [LinearOrder α] (l : List α) :
    ∀ (l' : List α) (ps : List (α × α)), (ps.map Prod.fst).Perm l → (ps.map Prod.snd).Perm l' →
      (∀ p ∈ ps, p.1 ≤ p.2) → l.Pairwise (fun a b => b ≤ a) → l'.Pairwise (fun a b => b ≤ a) →
      List.Forall₂ (· ≤ ·) l l' := by
  induction l with
  | nil =>
    intro l' ps h1 h2 _ _ _
    have : ps = [] := List.map_eq_nil_iff.1 h1.eq_nil
    subst this
    rw [List.nil_perm.1 h2]
    exact .nil
  | cons a t ih =>
    intro l' ps h1 h2 hle hs hs'
    cases l' with
    | nil =>
      have : ps = [] := List.map_eq_nil_iff.1 h2.eq_nil
      subst this
      exact absurd h1.length_eq (by simp)
    | cons b t' =>
      rw [List.pairwise_cons] at hs hs'
      obtain ⟨p, hp, rfl⟩ := List.mem_map.1 (h1.mem_iff.2 List.mem_cons_self)
      have hpb : p.2 ≤ b := by
        rcases List.mem_cons.1 (h2.mem_iff.1 (List.mem_map_of_mem hp)) with h | h
        · exact h.le
        · exact hs'.1 _ h
      refine .cons ((hle p hp).trans hpb) ?_
      obtain ⟨u, v, rfl⟩ := List.append_of_mem hp
      have h1' : ((u ++ v).map Prod.fst).Perm t := by
        refine List.Perm.cons_inv (a := p.1) (List.Perm.trans ?_ h1)
        rw [List.map_append, List.map_append, List.map_cons]
        exact List.perm_middle.symm
      by_cases e : p.2 = b
      · refine ih t' (u ++ v) h1' ?_ (fun x hx => hle x ?_) hs.2 hs'.2
        · refine List.Perm.cons_inv (a := b) (List.Perm.trans ?_ h2)
          rw [List.map_append, List.map_append, List.map_cons, e]
          exact List.perm_middle.symm
        · rcases List.mem_append.1 hx with h | h
          · exact List.mem_append_left _ h
          · exact List.mem_append_right _ (List.mem_cons_of_mem _ h)
      · have h2' : (p.2 :: (u ++ v).map Prod.snd).Perm (b :: t') := by
          refine List.Perm.trans ?_ h2
          rw [List.map_append, List.map_append, List.map_cons]
          exact List.perm_middle.symm
        have hb : b ∈ (u ++ v).map Prod.snd := by
          rcases List.mem_cons.1 (h2'.mem_iff.2 List.mem_cons_self) with h | h
          · exact absurd h.symm e
          · exact h
        obtain ⟨r, hr, rfl⟩ := List.mem_map.1 hb
        have hru : r ∈ u ++ p :: v := by
          rcases List.mem_append.1 hr with h | h
          · exact List.mem_append_left _ h
          · exact List.mem_append_right _ (List.mem_cons_of_mem _ h)
        obtain ⟨u', v', huv⟩ := List.append_of_mem hr
        have hr1 : r.1 ≤ p.1 := hs.1 _ (h1'.mem_iff.1 (List.mem_map_of_mem hr))
        refine ih t' ((r.1, p.2) :: (u' ++ v')) ?_ ?_ ?_ hs.2 hs'.2
        · refine List.Perm.trans ?_ h1'
          rw [huv, List.map_cons, List.map_append, List.map_append, List.map_cons]
          exact List.perm_middle.symm
        · refine List.Perm.cons_inv (a := r.2) (List.Perm.trans ?_ h2')
          rw [huv, List.map_cons, List.map_append, List.map_append, List.map_cons]
          refine (List.Perm.swap _ _ _).trans (List.Perm.cons _ ?_)
          exact List.perm_middle.symm
        · intro x hx
          rcases List.mem_cons.1 hx with rfl | hx
          · exact hr1.trans (hle p hp)
          · have hxuv : x ∈ u ++ v := by
              rw [huv]
              rcases List.mem_append.1 hx with h | h
              · exact List.mem_append_left _ h
              · exact List.mem_append_right _ (List.mem_cons_of_mem _ h)
            refine hle x ?_
            rcases List.mem_append.1 hxuv with h | h
            · exact List.mem_append_left _ h
            · exact List.mem_append_right _ (List.mem_cons_of_mem _ h)

/-- Lists that are flattened from lists paired place by place, up to order. -/
theorem pairs_flatMap {α β : Type} {R : β → β → Prop} (rows : List α) (f f' : α → List β)
    (h : ∀ r ∈ rows, ∃ ps : List (β × β), (ps.map Prod.fst).Perm (f r) ∧
      (ps.map Prod.snd).Perm (f' r) ∧ ∀ p ∈ ps, R p.1 p.2) :
    ∃ ps : List (β × β), (ps.map Prod.fst).Perm (rows.flatMap f) ∧
      (ps.map Prod.snd).Perm (rows.flatMap f') ∧ ∀ p ∈ ps, R p.1 p.2 := by
  induction rows with
  | nil => exact ⟨[], .refl _, .refl _, by simp⟩
  | cons r t ih =>
    obtain ⟨ps, a1, a2, a3⟩ := h r List.mem_cons_self
    obtain ⟨qs, b1, b2, b3⟩ := ih fun x hx => h x (List.mem_cons_of_mem _ hx)
    refine ⟨ps ++ qs, ?_, ?_, fun p hp => ?_⟩
    · rw [List.map_append, List.flatMap_cons]; exact a1.append b1
    · rw [List.map_append, List.flatMap_cons]; exact a2.append b2
    · exact (List.mem_append.1 hp).elim (a3 p) (b3 p)

end Carmen
