import Verif.Model.HMap
import Mathlib.Data.List.Nodup

set_option linter.unusedSectionVars false

namespace Carmen.HMap
variable {K V : Type} [DecidableEq K]

theorem find_upsert (k k' : K) (d : V) (f : V → V) (m : HMap K V) :
    find k' (upsert k d f m) = if k' = k then some (f ((find k m).getD d)) else find k' m := by
  induction m with
  | nil =>
    simp only [upsert, find]
    split <;> rfl
  | cons p t ih =>
    obtain ⟨k₀, v₀⟩ := p
    simp only [upsert, find]
    by_cases h : k = k₀
    · subst h
      simp only [if_true, find]
      by_cases h' : k' = k <;> simp [h']
    · simp only [h, if_false, find]
      by_cases h' : k' = k₀
      · subst h'
        rw [if_pos rfl, if_neg (Ne.symm h), if_pos rfl]
      · simp only [h', if_false, ih]

theorem keys_upsert_subset {k : K} {d : V} {f : V → V} {m : HMap K V} {p : K × V}
    (h : p ∈ upsert k d f m) : p.1 = k ∨ p ∈ m := by
  induction m with
  | nil => left; simp [upsert] at h; rw [h]
  | cons q t ih =>
    obtain ⟨k₀, v₀⟩ := q
    simp only [upsert] at h
    by_cases hk : k = k₀
    · rw [if_pos hk] at h
      rcases List.mem_cons.1 h with rfl | h
      · left; exact hk.symm
      · right; exact List.mem_cons_of_mem _ h
    · rw [if_neg hk] at h
      rcases List.mem_cons.1 h with rfl | h
      · right; simp
      · rcases ih h with h | h
        · exact Or.inl h
        · right; exact List.mem_cons_of_mem _ h

theorem wf_nil : Wf ([] : HMap K V) := List.nodup_nil

theorem wf_upsert {k : K} {d : V} {f : V → V} {m : HMap K V} (h : Wf m) :
    Wf (upsert k d f m) := by
  induction m with
  | nil => simp [upsert, Wf]
  | cons q t ih =>
    obtain ⟨k₀, v₀⟩ := q
    have ht : Wf t := (List.nodup_cons.1 h).2
    have hn : k₀ ∉ t.map Prod.fst := (List.nodup_cons.1 h).1
    simp only [upsert]
    by_cases hk : k = k₀
    · rw [if_pos hk]; exact h
    · rw [if_neg hk]
      refine List.nodup_cons.2 ⟨?_, ih ht⟩
      intro hm
      obtain ⟨p, hp, hpk⟩ := List.mem_map.1 hm
      rcases keys_upsert_subset hp with h' | h'
      · exact hk (by rw [← h', hpk])
      · exact hn (List.mem_map.2 ⟨p, h', hpk⟩)

theorem mem_of_find {k : K} {v : V} {m : HMap K V} (h : find k m = some v) : (k, v) ∈ m := by
  induction m with
  | nil => simp [find] at h
  | cons q t ih =>
    obtain ⟨k₀, v₀⟩ := q
    simp only [find] at h
    by_cases hk : k = k₀
    · rw [if_pos hk] at h
      simp only [Option.some.injEq] at h
      subst hk h; simp
    · rw [if_neg hk] at h
      exact List.mem_cons_of_mem _ (ih h)

theorem find_of_mem {k : K} {v : V} {m : HMap K V} (hm : Wf m) (h : (k, v) ∈ m) :
    find k m = some v := by
  induction m with
  | nil => simp at h
  | cons q t ih =>
    obtain ⟨k₀, v₀⟩ := q
    have ht : Wf t := (List.nodup_cons.1 hm).2
    have hn : k₀ ∉ t.map Prod.fst := (List.nodup_cons.1 hm).1
    simp only [find]
    rcases List.mem_cons.1 h with h | h'
    · simp only [Prod.mk.injEq] at h
      rw [if_pos h.1, h.2]
    · have : k ≠ k₀ := by
        intro e; subst e
        exact hn (List.mem_map.2 ⟨(k, v), h', rfl⟩)
      rw [if_neg this, ih ht h']

theorem mem_iff_find {k : K} {v : V} {m : HMap K V} (hm : Wf m) :
    (k, v) ∈ m ↔ find k m = some v := ⟨find_of_mem hm, mem_of_find⟩

theorem mem_keys_iff {k : K} {m : HMap K V} : k ∈ m.map Prod.fst ↔ (find k m).isSome := by
  induction m with
  | nil => simp [find]
  | cons q t ih =>
    obtain ⟨k₀, v₀⟩ := q
    simp only [List.map_cons, List.mem_cons, find]
    by_cases hk : k = k₀
    · simp [hk]
    · simp only [hk, if_false, false_or]; exact ih

theorem wf_of_perm {m m' : HMap K V} (h : m.Perm m') (hm : Wf m) : Wf m' :=
  (h.map Prod.fst).nodup_iff.1 hm

/-- Values of an updated map. -/
theorem forall_upsert {k : K} {d : V} {f : V → V} {m : HMap K V} {P : K → V → Prop}
    (hm : ∀ p ∈ m, P p.1 p.2) (hd : P k d) (hf : ∀ v, P k v → P k (f v)) :
    ∀ p ∈ upsert k d f m, P p.1 p.2 := by
  induction m with
  | nil =>
    intro p hp
    simp only [upsert, List.mem_singleton] at hp
    subst hp; exact hf d hd
  | cons q t ih =>
    obtain ⟨k₀, v₀⟩ := q
    intro p hp
    simp only [upsert] at hp
    by_cases hk : k = k₀
    · rw [if_pos hk] at hp
      rcases List.mem_cons.1 hp with rfl | hp
      · subst hk; exact hf v₀ (hm (k, v₀) (by simp))
      · exact hm p (by simp [hp])
    · rw [if_neg hk] at hp
      rcases List.mem_cons.1 hp with rfl | hp
      · exact hm (k₀, v₀) (by simp)
      · exact ih (fun p hp => hm p (by simp [hp])) p hp

end Carmen.HMap
