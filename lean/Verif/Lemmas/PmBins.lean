import Mathlib.Data.List.Sort
import Verif.Model.Stack
import Verif.Lemmas.SMap
import Verif.Lemmas.Stack

/-!
# The bins phrase matches are sorted into
-/

namespace Carmen

/-- Bins are homogeneous and ascend by type. -/
structure TypedBins (bins : List PmBin) : Prop where
  asc : bins.Pairwise fun b c => ∀ x ∈ b.pms, ∀ y ∈ c.pms, x.store.typeId < y.store.typeId
  same : ∀ b ∈ bins, ∀ x ∈ b.pms, ∀ y ∈ b.pms, x.store.typeId = y.store.typeId

theorem flatMap_insert {V α : Type} (f : V → List α) {k : ℕ} {v : V} {x : α} {m : SMap ℕ V}
    (hm : SMap.Sorted m) (hv : f v = ((SMap.find k m).elim [] f) ++ [x]) :
    ((SMap.insert k v m).flatMap fun p => f p.2).Perm (x :: m.flatMap fun p => f p.2) := by
  induction m with
  | nil =>
    have hv' : f v = [x] := by simpa [SMap.find] using hv
    simp [SMap.insert, hv']
  | cons p t ih =>
    obtain ⟨k', v'⟩ := p
    unfold SMap.insert
    by_cases h1 : k < k'
    · rw [if_pos h1]
      have hn : SMap.find k ((k', v') :: t) = none := by
        refine SMap.find_eq_none_of_forall ?_
        intro q hq
        rcases List.mem_cons.1 hq with rfl | hq
        · exact (ne_of_gt h1)
        · exact ne_of_gt (lt_trans h1 (SMap.Sorted.head_lt hm hq))
      rw [hn] at hv
      rw [List.flatMap_cons, hv]
      simp
    · rw [if_neg h1]
      by_cases h2 : k = k'
      · rw [if_pos h2]
        subst h2
        have hs : SMap.find k ((k, v') :: t) = some v' := by simp [SMap.find]
        rw [hs] at hv
        rw [List.flatMap_cons, List.flatMap_cons]
        show (f v ++ _).Perm (x :: (f v' ++ _))
        rw [hv]
        show ((f v' ++ [x]) ++ _).Perm _
        rw [List.append_assoc]
        exact List.perm_middle
      · rw [if_neg h2, List.flatMap_cons, List.flatMap_cons]
        have hs : SMap.find k ((k', v') :: t) = SMap.find k t := by simp [SMap.find, h2]
        rw [hs] at hv
        have := ih hm.tail hv
        exact (List.Perm.append_left _ this).trans List.perm_middle

/-- What holds of the map of bins while it is filled. -/
structure BinMapOk (m : SMap ℕ PmBin) (done : List Subquery) : Prop where
  sorted : SMap.Sorted m
  typed : ∀ k b, SMap.find k m = some b → ∀ x ∈ b.pms, x.store.typeId = k
  perm : (m.flatMap fun p => p.2.pms).Perm done

theorem BinMapOk.put {m : SMap ℕ PmBin} {done : List Subquery} (h : BinMapOk m done)
    (pm : Subquery) : BinMapOk (binPut m pm) (done ++ [pm]) := by
  unfold binPut
  refine ⟨SMap.sorted_insert h.sorted, ?_, ?_⟩
  · intro k b hb
    rw [SMap.find_insert] at hb
    by_cases hk : k = pm.store.typeId
    · rw [if_pos hk] at hb
      cases hb
      intro x hx
      simp only [List.mem_append, List.mem_singleton] at hx
      rcases hx with hx | rfl
      · cases hf : SMap.find pm.store.typeId m with
        | none => rw [hf] at hx; cases hx
        | some b' =>
          rw [hf] at hx
          rw [hk]
          exact h.typed _ _ hf x hx
      · exact hk.symm
    · rw [if_neg hk] at hb
      exact h.typed k b hb
  · refine (flatMap_insert PmBin.pms (x := pm) h.sorted ?_).trans ?_
    · cases SMap.find pm.store.typeId m <;> rfl
    · exact (List.Perm.cons _ h.perm).trans (List.perm_append_singleton _ _).symm

theorem binMapOk (pms : List Subquery) : BinMapOk (pms.foldl binPut ([] : SMap ℕ PmBin)) pms := by
  have key : ∀ l m done, BinMapOk m done → BinMapOk (l.foldl binPut m) (done ++ l) := by
    intro l
    induction l with
    | nil => intro m done h; simpa using h
    | cons x t ih =>
      intro m done h
      have := ih _ _ (h.put x)
      simpa using this
  simpa using key pms [] [] ⟨SMap.sorted_nil, (by intro k b hb; cases hb), by simp⟩

theorem sumAfter_pms (bins : List PmBin) :
    (sumAfter bins).1.map PmBin.pms = bins.map PmBin.pms := by
  induction bins with
  | nil => rfl
  | cons b t ih => simp [sumAfter, ih]

theorem typedBins_of_map {bins bins' : List PmBin}
    (h : bins'.map PmBin.pms = bins.map PmBin.pms) (hb : TypedBins bins) : TypedBins bins' := by
  have h1 : (bins.map PmBin.pms).Pairwise
      fun b c => ∀ x ∈ b, ∀ y ∈ c, x.store.typeId < y.store.typeId := List.pairwise_map.2 hb.asc
  have h2 : ∀ l ∈ bins.map PmBin.pms, ∀ x ∈ l, ∀ y ∈ l, x.store.typeId = y.store.typeId := by
    intro l hl
    obtain ⟨b, hb', rfl⟩ := List.mem_map.1 hl
    exact hb.same b hb'
  rw [← h] at h1 h2
  exact ⟨List.pairwise_map.1 h1, fun b hb' => h2 _ (List.mem_map_of_mem hb')⟩

theorem pmBins_typed (pms : List Subquery) : TypedBins (pmBins pms) := by
  have hok := binMapOk pms
  unfold pmBins
  refine typedBins_of_map (sumAfter_pms _) ?_
  have hmem : ∀ p ∈ pms.foldl binPut ([] : SMap ℕ PmBin), ∀ x ∈ p.2.pms,
      x.store.typeId = p.1 := by
    intro p hp x hx
    exact hok.typed p.1 p.2 ((SMap.mem_iff_find hok.sorted).1 hp) x hx
  refine ⟨?_, ?_⟩
  · rw [List.pairwise_map]
    refine List.Pairwise.imp_of_mem ?_ hok.sorted
    intro p q hp hq hlt x hx y hy
    simp only [List.mem_insertionSort] at hx hy
    rw [hmem p hp x hx, hmem q hq y hy]
    exact hlt
  · intro b hb x hx y hy
    obtain ⟨p, hp, rfl⟩ := List.mem_map.1 hb
    simp only [List.mem_insertionSort] at hx hy
    rw [hmem p hp x hx, hmem p hp y hy]

theorem perm_flatMap_map {α β : Type} {l : List α} {f g : α → List β}
    (h : ∀ a ∈ l, (f a).Perm (g a)) : (l.flatMap f).Perm (l.flatMap g) := by
  induction l with
  | nil => exact List.Perm.refl _
  | cons a t ih =>
    rw [List.flatMap_cons, List.flatMap_cons]
    exact List.Perm.append (h a (by simp)) (ih fun b hb => h b (by simp [hb]))

theorem pmBins_perm (pms : List Subquery) : ((pmBins pms).flatMap PmBin.pms).Perm pms := by
  have hok := binMapOk pms
  unfold pmBins
  rw [List.flatMap_def, sumAfter_pms, ← List.flatMap_def, List.flatMap_map]
  exact (perm_flatMap_map fun p _ => List.perm_insertionSort _ _).trans hok.perm

theorem TypedBins.tail {pre bins : List PmBin} (h : TypedBins (pre ++ bins)) : TypedBins bins :=
  ⟨(List.pairwise_append.1 h.asc).2.1, fun b hb => h.same b (List.mem_append.2 (Or.inr hb))⟩

/-- Where a phrase match sits in the bins is determined. -/
theorem TypedBins.unique {bins : List PmBin} (h : TypedBins bins) {pre pre' rest rest' : List PmBin}
    {b b' : PmBin} {q : Subquery} (h1 : bins = pre ++ b :: rest) (h2 : bins = pre' ++ b' :: rest')
    (hq : q ∈ b.pms) (hq' : q ∈ b'.pms) : b = b' ∧ rest = rest' := by
  induction pre generalizing bins pre' with
  | nil =>
    cases pre' with
    | nil =>
      rw [h1] at h2
      simp only [List.nil_append, List.cons.injEq] at h2
      exact h2
    | cons x t =>
      rw [h1] at h2 h
      simp only [List.nil_append, List.cons_append, List.cons.injEq] at h2
      have := (List.pairwise_cons.1 h.asc).1 b' (by rw [h2.2]; simp) q hq q hq'
      exact absurd this (lt_irrefl _)
  | cons x t ih =>
    cases pre' with
    | nil =>
      rw [h2] at h1 h
      simp only [List.nil_append, List.cons_append, List.cons.injEq] at h1
      have := (List.pairwise_cons.1 h.asc).1 b (by rw [h1.2]; simp) q hq' q hq
      exact absurd this (lt_irrefl _)
    | cons x' t' =>
      rw [h1] at h2 h
      simp only [List.cons_append, List.cons.injEq] at h2
      exact ih (TypedBins.tail (pre := [x]) h) rfl h2.2

/-- A phrase match of the later bins is not in the earlier ones. -/
theorem TypedBins.count_suffix {pre bins : List PmBin} (h : TypedBins (pre ++ bins)) {q : Subquery}
    (hq : q ∈ bins.flatMap PmBin.pms) :
    ((pre ++ bins).flatMap PmBin.pms).count q = (bins.flatMap PmBin.pms).count q := by
  rw [List.flatMap_append, List.count_append]
  have : (pre.flatMap PmBin.pms).count q = 0 := by
    rw [List.count_eq_zero]
    intro hp
    obtain ⟨b, hb, hqb⟩ := List.mem_flatMap.1 hp
    obtain ⟨c, hc, hqc⟩ := List.mem_flatMap.1 hq
    exact lt_irrefl _ ((List.pairwise_append.1 h.asc).2.2 b hb c hc q hqb q hqc)
  rw [this, Nat.zero_add]

end Carmen
