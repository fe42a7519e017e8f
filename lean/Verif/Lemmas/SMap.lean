import Verif.Model.SMap
import Mathlib.Data.List.Pairwise
import Mathlib.Order.Basic

/-! Laws of ordered maps. -/

namespace Carmen.SMap

variable {K V : Type} [LinearOrder K]

theorem mem_insert {k : K} {v : V} {m : SMap K V} {p : K × V} (h : p ∈ insert k v m) :
    p = (k, v) ∨ p ∈ m := by
  induction m with
  | nil => simpa [insert] using h
  | cons a t ih =>
    obtain ⟨k', v'⟩ := a
    unfold insert at h
    split_ifs at h with h1 h2
    · simpa using h
    · rcases List.mem_cons.1 h with h | h
      · exact Or.inl h
      · exact Or.inr (List.mem_cons_of_mem _ h)
    · rcases List.mem_cons.1 h with h | h
      · exact Or.inr (by simp [h])
      · rcases ih h with h | h
        · exact Or.inl h
        · exact Or.inr (List.mem_cons_of_mem _ h)

theorem sorted_insert {k : K} {v : V} {m : SMap K V} (hm : Sorted m) :
    Sorted (insert k v m) := by
  unfold Sorted at *
  induction m with
  | nil => simp [insert]
  | cons a t ih =>
    obtain ⟨k', v'⟩ := a
    rw [List.pairwise_cons] at hm
    unfold insert
    split_ifs with h1 h2
    · refine List.pairwise_cons.2 ⟨?_, List.pairwise_cons.2 hm⟩
      intro b hb
      rcases List.mem_cons.1 hb with rfl | hb
      · exact h1
      · exact h1.trans (hm.1 b hb)
    · subst h2
      exact List.pairwise_cons.2 ⟨hm.1, hm.2⟩
    · refine List.pairwise_cons.2 ⟨?_, ih hm.2⟩
      intro b hb
      rcases mem_insert hb with rfl | hb
      · exact lt_of_le_of_ne (not_lt.1 h1) (Ne.symm h2)
      · exact hm.1 b hb

theorem sorted_nil : Sorted ([] : SMap K V) := List.Pairwise.nil

theorem find_insert (k k' : K) (v : V) (m : SMap K V) :
    find k' (insert k v m) = if k' = k then some v else find k' m := by
  induction m with
  | nil => simp [insert, find]
  | cons a t ih =>
    obtain ⟨k₁, v₁⟩ := a
    unfold insert
    split_ifs with h1 h2 h3
    · subst h2; simp [find]
    · simp [find, h2]
    · subst h3; rename_i h; subst h; simp [find]
    · subst h3; rename_i h; simp [find, h]
    · rename_i h; subst h
      simp only [find, if_neg h3, ih, if_pos]
    · rename_i h
      simp only [find, ih, if_neg h]

theorem find_eq_none_of_forall {k : K} {m : SMap K V} (h : ∀ p ∈ m, p.1 ≠ k) :
    find k m = none := by
  induction m with
  | nil => rfl
  | cons a t ih =>
    obtain ⟨k', v'⟩ := a
    have h1 : k' ≠ k := h (k', v') (by simp)
    simp [find, h1.symm, ih (fun p hp => h p (List.mem_cons_of_mem _ hp))]

theorem mem_iff_find {m : SMap K V} (hm : Sorted m) {k : K} {v : V} :
    (k, v) ∈ m ↔ find k m = some v := by
  induction m with
  | nil => simp [find]
  | cons a t ih =>
    obtain ⟨k', v'⟩ := a
    unfold Sorted at hm
    rw [List.pairwise_cons] at hm
    have ih := ih hm.2
    unfold find
    split_ifs with h
    · subst h
      constructor
      · intro hmem
        rcases List.mem_cons.1 hmem with h | h
        · simp at h; rw [h]
        · exact absurd (hm.1 _ h) (lt_irrefl _)
      · intro h; simp at h; simp [h]
    · rw [← ih, List.mem_cons]
      constructor
      · rintro (h' | h')
        · simp at h'; exact absurd h'.1 h
        · exact h'
      · exact Or.inr

theorem mem_keys_iff {m : SMap K V} (hm : Sorted m) {k : K} :
    k ∈ m.map Prod.fst ↔ (find k m).isSome := by
  rw [Option.isSome_iff_exists, List.mem_map]
  constructor
  · rintro ⟨⟨k', v⟩, h, rfl⟩; exact ⟨v, (mem_iff_find hm).1 h⟩
  · rintro ⟨v, h⟩; exact ⟨(k, v), (mem_iff_find hm).2 h, rfl⟩

theorem Sorted.tail {a : K × V} {m : SMap K V} (h : Sorted (a :: m)) : Sorted m :=
  (List.pairwise_cons.1 h).2

theorem Sorted.head_lt {a b : K × V} {m : SMap K V} (h : Sorted (a :: m)) (hb : b ∈ m) :
    a.1 < b.1 := (List.pairwise_cons.1 h).1 b hb

theorem Sorted.keys_nodup {m : SMap K V} (h : Sorted m) : (m.map Prod.fst).Nodup := by
  rw [List.nodup_iff_pairwise_ne, List.pairwise_map]
  exact h.imp (fun h => h.ne)

/-- Two ordered maps with the same lookups are equal. -/
theorem ext_find {m₁ m₂ : SMap K V} (h₁ : Sorted m₁) (h₂ : Sorted m₂)
    (h : ∀ k, find k m₁ = find k m₂) : m₁ = m₂ := by
  induction m₁ generalizing m₂ with
  | nil =>
    cases m₂ with
    | nil => rfl
    | cons b t => have := h b.1; simp [find] at this
  | cons a t ih =>
    cases m₂ with
    | nil => have := h a.1; simp [find] at this
    | cons b t₂ =>
      have hmem : ∀ p : K × V, p ∈ a :: t ↔ p ∈ b :: t₂ := by
        rintro ⟨k, v⟩; rw [mem_iff_find h₁, mem_iff_find h₂, h]
      have hab : a = b := by
        rcases List.mem_cons.1 ((hmem a).1 (by simp)) with e | e
        · exact e
        rcases List.mem_cons.1 ((hmem b).2 (by simp)) with e' | e'
        · exact e'.symm
        · exact absurd (h₂.head_lt e) (not_lt.2 (h₁.head_lt e').le)
      subst hab
      rw [ih h₁.tail h₂.tail]
      intro k
      by_cases hk : k = a.1
      · subst hk
        rw [find_eq_none_of_forall (fun p hp => (h₁.head_lt hp).ne'),
          find_eq_none_of_forall (fun p hp => (h₂.head_lt hp).ne')]
      · have := h k
        simpa [find, hk] using this

theorem sorted_upsert {k : K} {d : V} {f : V → V} {m : SMap K V} (hm : Sorted m) :
    Sorted (upsert k d f m) := sorted_insert hm

theorem find_upsert (k k' : K) (d : V) (f : V → V) (m : SMap K V) :
    find k' (upsert k d f m) = if k' = k then some (f ((find k m).getD d)) else find k' m :=
  find_insert _ _ _ _

/-- Inserting different keys commutes. -/
theorem insert_comm {k₁ k₂ : K} (h : k₁ ≠ k₂) (v₁ v₂ : V) {m : SMap K V} (hm : Sorted m) :
    insert k₁ v₁ (insert k₂ v₂ m) = insert k₂ v₂ (insert k₁ v₁ m) := by
  apply ext_find (sorted_insert (sorted_insert hm)) (sorted_insert (sorted_insert hm))
  intro k
  simp only [find_insert]
  split_ifs with h1 h2
  · exact absurd (h1.symm.trans h2) h
  · rfl
  · rfl
  · rfl

end Carmen.SMap
