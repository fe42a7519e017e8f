import Mathlib.Data.List.Sort
import Mathlib.Order.Defs.LinearOrder

/-!
# Stable sorting

A stable sort is determined by the order of the elements of each key.
-/

namespace Carmen

variable {α K : Type} [LinearOrder K]

/-- `sort_by_key(|x| Reverse(key(x)))`: descending and stable. -/
theorem pairwise_insertionSort_desc (key : α → K) (l : List α) :
    (l.insertionSort fun a b => key b ≤ key a).Pairwise fun a b => key b ≤ key a := by
  have h1 : Std.Total (fun a b : α => key b ≤ key a) := ⟨fun a b => le_total _ _⟩
  have h2 : IsTrans α (fun a b : α => key b ≤ key a) := ⟨fun a b c h h' => le_trans h' h⟩
  exact List.pairwise_insertionSort (fun a b : α => key b ≤ key a) l

theorem filter_orderedInsert_desc (key : α → K) (k : K) (a : α) (l : List α)
    (hl : l.Pairwise fun a b => key b ≤ key a) :
    (l.orderedInsert (fun a b => key b ≤ key a) a).filter (fun x => key x = k) =
      (a :: l).filter (fun x => key x = k) := by
  induction l with
  | nil => rfl
  | cons b t ih =>
    rw [List.orderedInsert_cons]
    by_cases hab : key b ≤ key a
    · rw [if_pos hab]
    · rw [if_neg hab]
      have hlt : key a < key b := not_le.1 hab
      rw [List.filter_cons, ih (List.pairwise_cons.1 hl).2]
      simp only [List.filter_cons]
      by_cases hb : key b = k
      · have ha : ¬ key a = k := by
          intro h; rw [h, hb] at hlt; exact lt_irrefl _ hlt
        simp [hb, ha]
      · simp [hb]

/-- Sorting keeps the order of the elements of each key. -/
theorem filter_insertionSort_desc (key : α → K) (k : K) (l : List α) :
    (l.insertionSort fun a b => key b ≤ key a).filter (fun x => key x = k) =
      l.filter (fun x => key x = k) := by
  induction l with
  | nil => rfl
  | cons a t ih =>
    rw [List.insertionSort_cons, filter_orderedInsert_desc key k a _
      (pairwise_insertionSort_desc key t), List.filter_cons, List.filter_cons, ih]

/-- Sorted lists with the same elements in the same order for each key are equal. -/
theorem eq_of_filter_eq (key : α → K) {l₁ l₂ : List α}
    (h₁ : l₁.Pairwise fun a b => key b ≤ key a) (h₂ : l₂.Pairwise fun a b => key b ≤ key a)
    (h : ∀ k, l₁.filter (fun x => key x = k) = l₂.filter (fun x => key x = k)) : l₁ = l₂ := by
  induction l₁ generalizing l₂ with
  | nil =>
    cases l₂ with
    | nil => rfl
    | cons b t =>
      have := h (key b)
      simp at this
  | cons a t ih =>
    cases l₂ with
    | nil =>
      have := h (key a)
      simp at this
    | cons b u =>
      have hmem1 : a ∈ (b :: u) := by
        have : a ∈ (b :: u).filter (fun x => key x = key a) := by rw [← h]; simp
        exact List.mem_of_mem_filter this
      have hmem2 : b ∈ (a :: t) := by
        have : b ∈ (a :: t).filter (fun x => key x = key b) := by rw [h]; simp
        exact List.mem_of_mem_filter this
      have hle1 : key a ≤ key b := by
        rcases List.mem_cons.1 hmem1 with rfl | hm
        · exact le_refl _
        · exact (List.pairwise_cons.1 h₂).1 a hm
      have hle2 : key b ≤ key a := by
        rcases List.mem_cons.1 hmem2 with rfl | hm
        · exact le_refl _
        · exact (List.pairwise_cons.1 h₁).1 b hm
      have hk : key a = key b := le_antisymm hle1 hle2
      have hab : a = b := by
        have := h (key a)
        simp [hk] at this
        exact this.1
      subst hab
      refine congrArg _ (ih (List.pairwise_cons.1 h₁).2 (List.pairwise_cons.1 h₂).2 fun k => ?_)
      have := h k
      rw [List.filter_cons, List.filter_cons] at this
      by_cases hk : key a = k
      · simpa [hk] using this
      · simpa [hk] using this

/-- Sorting gives the same for lists with the same elements in the same order for each key. -/
theorem insertionSort_desc_congr (key : α → K) {l₁ l₂ : List α}
    (h : ∀ k, l₁.filter (fun x => key x = k) = l₂.filter (fun x => key x = k)) :
    (l₁.insertionSort fun a b => key b ≤ key a) = l₂.insertionSort fun a b => key b ≤ key a := by
  refine eq_of_filter_eq key (pairwise_insertionSort_desc _ _) (pairwise_insertionSort_desc _ _) ?_
  intro k
  rw [filter_insertionSort_desc, filter_insertionSort_desc, h]

/-- Groups with disjoint keys may come in any order. -/
theorem filter_flatMap_perm {G : Type} (key : α → K) (f : G → List α) {g₁ g₂ : List G}
    (hp : g₁.Perm g₂) (hnd : g₁.Pairwise fun a b => ∀ x ∈ f a, ∀ y ∈ f b, key x ≠ key y) (k : K) :
    (g₁.flatMap f).filter (fun x => key x = k) = (g₂.flatMap f).filter (fun x => key x = k) := by
  rw [List.filter_flatMap, List.filter_flatMap]
  induction hp with
  | nil => rfl
  | cons a h ih =>
    rw [List.flatMap_cons, List.flatMap_cons, ih (List.pairwise_cons.1 hnd).2]
  | swap a b l =>
    simp only [List.flatMap_cons]
    rw [← List.append_assoc, ← List.append_assoc]
    congr 1
    have hab := (List.pairwise_cons.1 hnd).1 a (by simp)
    by_cases h : ((f a).filter fun x => decide (key x = k)) = []
    · rw [h]; simp
    · have : ((f b).filter fun x => decide (key x = k)) = [] := by
        rw [List.filter_eq_nil_iff]
        intro y hy hyk
        obtain ⟨x, hx⟩ := List.exists_mem_of_ne_nil _ h
        have hx' := List.mem_filter.1 hx
        have h1 : key y = k := by simpa using hyk
        have h2 : key x = k := by simpa using hx'.2
        exact hab y hy x hx'.1 (h1.trans h2.symm)
      rw [this]; simp
  | trans h1 h2 ih1 ih2 =>
    rw [ih1 hnd]
    refine ih2 ?_
    exact (h1.pairwise_iff (fun h x hx y hy => (h y hy x hx).symm)).1 hnd

end Carmen
