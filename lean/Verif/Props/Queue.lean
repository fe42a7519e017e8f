import Verif.Lemmas.Heap

/-!
# C28: the bounded priority queue
-/

namespace Carmen
open Spec

variable {α K : Type} [LinearOrder K] {key : α → K}

/-- C28. After any sequence of pushes on a new queue of size `n` it holds the `n` largest
of the pushed elements, whatever the heap does with ties. -/
theorem C28_queue_keeps_best (H : Heap key) (n : ℕ) (es : List α) :
    ∃ out, IsBest key n es (cpqPushAll H n [] es) out := by
  obtain ⟨out, h⟩ := (IsBest.nil (key := key) n).cpqPushAll H es
  refine ⟨out, h.congr ?_⟩
  rw [List.append_nil]
  exact List.reverse_perm _

/-- C28. `push` answers whether the element was kept: on a queue holding the best of what
was pushed so far, `true` means that the new element is in the queue, `false` that the queue
is unchanged. -/
theorem C28_push_reports (H : Heap key) (n : ℕ) (es : List α) (e : α) :
    let q := cpqPushAll H n [] es
    ((cpqPush H n q e).2 = true → e ∈ (cpqPush H n q e).1) ∧
    ((cpqPush H n q e).2 = false → (cpqPush H n q e).1 = q) ∧
    ((cpqPush H n q e).2 = true ↔
      (q.length < n ∨ ∃ m ∈ q, (∀ k ∈ q, key m ≤ key k) ∧ key m < key e)) := by
  intro q
  obtain ⟨out, h⟩ := C28_queue_keeps_best H n es
  obtain ⟨out', _, h2, h3⟩ := h.cpqPush H e
  refine ⟨fun ht => (h2 ht).2, h3, ?_⟩
  unfold cpqPush
  by_cases hn : n ≤ q.length
  · rw [if_pos hn]
    cases hm : H.peekMin q with
    | none =>
      have hq := (H.peekMin_none q).1 hm
      simp only [Bool.false_eq_true, false_iff, not_or, not_exists, not_and]
      refine ⟨by omega, ?_⟩
      intro m hm'
      rw [hq] at hm'; cases hm'
    | some m =>
      simp only
      by_cases hlt : key m < key e
      · rw [if_pos hlt]
        simp only [true_iff]
        exact Or.inr ⟨m, H.peekMin_mem q m hm, H.peekMin_le q m hm, hlt⟩
      · rw [if_neg hlt]
        simp only [Bool.false_eq_true, false_iff, not_or, not_exists, not_and]
        refine ⟨by omega, ?_⟩
        intro m' hm' hle hlt'
        exact hlt (lt_of_le_of_lt (H.peekMin_le q m hm m' hm') hlt')
  · rw [if_neg hn]
    simp only [true_iff]
    exact Or.inl (by omega)

/-- C28. The queue emptied in order is the sorted list of the best elements: any two heaps
give lists with the same keys, namely those of the `n` largest elements pushed. -/
theorem C28_sorted_keys_unique (H : Heap key) (n : ℕ) (es : List α) :
    (H.intoVecDesc (cpqPushAll H n [] es)).map key =
      ((es.map key).insertionSort (fun a b => b ≤ a)).take n := by
  obtain ⟨out, h⟩ := C28_queue_keeps_best H n es
  have : Std.Total (fun a b : K => b ≤ a) := ⟨fun a b => le_total _ _⟩
  have : IsTrans K (fun a b : K => b ≤ a) := ⟨fun a b c h1 h2 => le_trans h2 h1⟩
  have : Std.Antisymm (fun a b : K => b ≤ a) := ⟨fun a b h1 h2 => le_antisymm h2 h1⟩
  set q := cpqPushAll H n [] es with hq
  have hs1 : ((H.intoVecDesc q).map key).Pairwise (fun a b => b ≤ a) :=
    List.pairwise_map.2 (H.intoVecDesc_sorted q)
  have hs2 : ((out.map key).insertionSort (fun a b => b ≤ a)).Pairwise (fun a b => b ≤ a) :=
    List.pairwise_insertionSort _ _
  have hp : ((H.intoVecDesc q).map key ++ (out.map key).insertionSort (fun a b => b ≤ a)).Perm
      ((es.map key).insertionSort (fun a b => b ≤ a)) := by
    refine List.Perm.trans ?_ (List.perm_insertionSort _ _).symm
    refine (((H.intoVecDesc_perm q).map key).append (List.perm_insertionSort _ _)).trans ?_
    rw [← List.map_append]
    exact h.perm.map key
  have hsorted : ((H.intoVecDesc q).map key ++
      (out.map key).insertionSort (fun a b => b ≤ a)).Pairwise (fun a b => b ≤ a) := by
    rw [List.pairwise_append]
    refine ⟨hs1, hs2, ?_⟩
    intro a ha b hb
    obtain ⟨a', ha', rfl⟩ := List.mem_map.1 ha
    rw [List.mem_insertionSort] at hb
    obtain ⟨b', hb', rfl⟩ := List.mem_map.1 hb
    exact h.best a' ((H.intoVecDesc_perm q).mem_iff.1 ha') b' hb'
  have heq := hp.eq_of_pairwise' hsorted (List.pairwise_insertionSort _ _)
  rw [← heq]
  have hlen : ((H.intoVecDesc q).map key).length = min n es.length := by
    rw [List.length_map, (H.intoVecDesc_perm q).length_eq]; exact h.size
  rcases Nat.le_total n es.length with hle | hle
  · rw [List.take_append_of_le_length (by omega), List.take_of_length_le (by omega)]
  · have ho : out = [] := by
      have h1 := h.perm.length_eq
      have h2 := h.size
      rw [List.length_append] at h1
      exact List.length_eq_zero_iff.1 (by omega)
    rw [ho]
    simp only [List.map_nil, List.insertionSort_nil, List.append_nil]
    rw [List.take_of_length_le (by omega)]

/-- A concrete heap and pushes with ties. -/
example : cpqPushAll (listHeap (fun p : ℕ × ℕ => p.1)) 2 [] [(1, 0), (3, 1), (2, 2), (3, 3)] =
    [(3, 3), (3, 1)] := by decide +kernel

end Carmen
