import Verif.Model.Store
import Verif.Lemmas.Heap

/-!
# Lemmas on k-way merging, and a concrete merger
-/

namespace Carmen

section
variable {α : Type}

theorem KMerge.perm_left {lt : α → α → Prop} {ss ss' : List (List α)} {out : List α}
    (h : KMerge lt ss out) (hp : ss.Perm ss') : KMerge lt ss' out := by
  cases h with
  | done h => exact KMerge.done (fun s hs => h s (hp.mem_iff.2 hs))
  | step h1 h2 h3 =>
    exact KMerge.step (hp.symm.trans h1) (fun b t hb => h2 b t (hp.mem_iff.2 hb)) h3

theorem KMerge.nil_cons {lt : α → α → Prop} {ss : List (List α)} {out : List α}
    (h : KMerge lt ss out) : KMerge lt ([] :: ss) out := by
  induction h with
  | done h =>
    refine KMerge.done (fun s hs => ?_)
    rcases List.mem_cons.1 hs with rfl | hs
    · rfl
    · exact h s hs
  | @step ss ss' a s out h1 h2 _ ih =>
    refine KMerge.step (ss' := [] :: ss') ((h1.cons []).trans (List.Perm.swap _ _ _)) ?_
      (ih.perm_left (List.Perm.swap _ _ _))
    intro b t hb
    rcases List.mem_cons.1 hb with hb | hb
    · cases hb
    · exact h2 b t hb

/-- A merge loses, repeats and invents nothing. -/
theorem KMerge.perm {lt : α → α → Prop} {ss : List (List α)} {out : List α}
    (h : KMerge lt ss out) : out.Perm ss.flatten := by
  induction h with
  | done h => rw [List.flatten_eq_nil_iff.2 h]
  | @step ss ss' a s out h1 h2 _ ih =>
    refine ((ih.cons a).trans ?_).trans h1.flatten.symm
    rw [List.flatten_cons, List.flatten_cons, List.cons_append]

/-- A merge of sorted streams is sorted. -/
theorem KMerge.sorted {lt : α → α → Prop} {ss : List (List α)} {out : List α}
    (h : KMerge lt ss out)
    (htr : ∀ a b c, ¬ lt a b → ¬ lt b c → ¬ lt a c)
    (hs : ∀ s ∈ ss, s.Pairwise (fun a b => ¬ lt b a)) :
    out.Pairwise (fun a b => ¬ lt b a) := by
  induction h with
  | done h => exact List.Pairwise.nil
  | @step ss ss' a s out h1 h2 hrec ih =>
    have hs' : ∀ t ∈ (a :: s) :: ss', t.Pairwise (fun a b => ¬ lt b a) :=
      fun t ht => hs t (h1.mem_iff.2 ht)
    have has := hs' _ (List.mem_cons_self ..)
    rw [List.pairwise_cons]
    refine ⟨?_, ih ?_⟩
    · intro b hb
      have hb' := hrec.perm.mem_iff.1 hb
      rw [List.mem_flatten] at hb'
      obtain ⟨t, ht, hbt⟩ := hb'
      rcases List.mem_cons.1 ht with rfl | ht
      · exact (List.pairwise_cons.1 has).1 b hbt
      · cases t with
        | nil => cases hbt
        | cons c t' =>
          have hca : ¬ lt c a := h2 c t' (h1.mem_iff.2 (List.mem_cons_of_mem _ ht))
          rcases List.mem_cons.1 hbt with rfl | hbt
          · exact hca
          · have := (List.pairwise_cons.1 (hs' _ (List.mem_cons_of_mem _ ht))).1 b hbt
            exact htr _ _ _ this hca
    · intro t ht
      rcases List.mem_cons.1 ht with rfl | ht
      · exact (List.pairwise_cons.1 has).2
      · exact hs' t (List.mem_cons_of_mem _ ht)

/-- A merge of streams that lie one entirely before the other is their concatenation. -/
theorem KMerge.eq_flatten {lt : α → α → Prop} {ss os : List (List α)} {out : List α}
    (h : KMerge lt ss out) (hp : ss.Perm os)
    (ho : os.Pairwise (fun s t => ∀ a ∈ s, ∀ b ∈ t, lt a b)) : out = os.flatten := by
  induction h generalizing os with
  | done h => rw [List.flatten_eq_nil_iff.2 (fun s hs => h s (hp.mem_iff.2 hs))]
  | @step ss ss' a s out h1 h2 _ ih =>
    have hm : (a :: s) ∈ os := (hp.symm.trans h1).mem_iff.2 (List.mem_cons_self ..)
    obtain ⟨l1, l2, rfl⟩ := List.append_of_mem hm
    have hl1 : ∀ t ∈ l1, t = [] := by
      intro t ht
      cases t with
      | nil => rfl
      | cons b t =>
        exfalso
        have hlt := (List.pairwise_append.1 ho).2.2 _ ht _ (List.mem_cons_self ..) b
          (List.mem_cons_self ..) a (List.mem_cons_self ..)
        exact h2 b t (hp.mem_iff.2 (by simp [ht])) hlt
    have hp' : (s :: ss').Perm (l1 ++ s :: l2) := by
      have : ((a :: s) :: ss').Perm ((a :: s) :: (l1 ++ l2)) :=
        (h1.symm.trans hp).trans List.perm_middle
      exact (this.cons_inv.cons s).trans List.perm_middle.symm
    have ho' : (l1 ++ s :: l2).Pairwise (fun s t => ∀ a ∈ s, ∀ b ∈ t, lt a b) := by
      obtain ⟨g1, g2, g3⟩ := List.pairwise_append.1 ho
      rw [List.pairwise_append]
      refine ⟨g1, ?_, ?_⟩
      · rw [List.pairwise_cons] at g2 ⊢
        exact ⟨fun t ht c hc => g2.1 t ht c (List.mem_cons_of_mem _ hc), g2.2⟩
      · intro t ht u hu c hc
        rw [hl1 t ht] at hc
        cases hc
    rw [ih hp' ho', List.flatten_append, List.flatten_append, List.flatten_cons,
      List.flatten_cons, List.flatten_eq_nil_iff.2 hl1]
    rfl

/-! ## A concrete merger -/

/-- Take the first best head. -/
def pickHead (lt : α → α → Bool) : List (List α) → Option (α × List α × List (List α))
  | [] => none
  | [] :: t => (pickHead lt t).map (fun p => (p.1, p.2.1, [] :: p.2.2))
  | (x :: xs) :: t =>
    match pickHead lt t with
    | none => some (x, xs, t)
    | some p => if lt p.1 x then some (p.1, p.2.1, (x :: xs) :: p.2.2) else some (x, xs, t)

/-- Merge by repeatedly taking the best head. -/
def kmergeF (lt : α → α → Bool) : ℕ → List (List α) → List α
  | 0, _ => []
  | n + 1, ss =>
    match pickHead lt ss with
    | none => []
    | some p => p.1 :: kmergeF lt n (p.2.1 :: p.2.2)

theorem pickHead_none {lt : α → α → Bool} {ss : List (List α)} (h : pickHead lt ss = none) :
    ∀ s ∈ ss, s = [] := by
  induction ss with
  | nil => simp
  | cons s t ih =>
    cases s with
    | nil =>
      simp only [pickHead, Option.map_eq_none_iff] at h
      intro u hu
      rcases List.mem_cons.1 hu with rfl | hu
      · rfl
      · exact ih h u hu
    | cons x xs =>
      simp only [pickHead] at h
      split at h
      · cases h
      · split at h <;> cases h

theorem pickHead_some {lt : α → α → Bool} (hirr : ∀ a, lt a a = false)
    (htr : ∀ a b c, lt a b = true → lt b c = true → lt a c = true)
    (hntr : ∀ a b c, lt a b = false → lt b c = false → lt a c = false)
    {ss : List (List α)} {p : α × List α × List (List α)} (h : pickHead lt ss = some p) :
    ss.Perm ((p.1 :: p.2.1) :: p.2.2) ∧ ∀ b t, (b :: t) ∈ ss → lt b p.1 = false := by
  induction ss generalizing p with
  | nil => simp [pickHead] at h
  | cons s t ih =>
    cases s with
    | nil =>
      simp only [pickHead] at h
      obtain ⟨q, hq, rfl⟩ := Option.map_eq_some_iff.1 h
      obtain ⟨h1, h2⟩ := ih hq
      refine ⟨(h1.cons []).trans (List.Perm.swap _ _ _), ?_⟩
      intro b u hb
      rcases List.mem_cons.1 hb with hb | hb
      · cases hb
      · exact h2 b u hb
    | cons x xs =>
      simp only [pickHead] at h
      cases hq : pickHead lt t with
      | none =>
        rw [hq] at h
        cases h
        refine ⟨List.Perm.refl _, ?_⟩
        intro b u hb
        rcases List.mem_cons.1 hb with hb | hb
        · cases hb; exact hirr _
        · have := pickHead_none hq _ hb
          cases this
      | some q =>
        rw [hq] at h
        simp only at h
        obtain ⟨h1, h2⟩ := ih hq
        by_cases hc : lt q.1 x = true
        · rw [if_pos hc] at h
          cases h
          refine ⟨(h1.cons _).trans (List.Perm.swap _ _ _), ?_⟩
          intro b u hb
          rcases List.mem_cons.1 hb with hb | hb
          · cases hb
            by_contra hx
            rw [Bool.not_eq_false] at hx
            have := htr _ _ _ hc hx
            rw [hirr] at this
            cases this
          · exact h2 b u hb
        · rw [if_neg hc] at h
          cases h
          refine ⟨List.Perm.refl _, ?_⟩
          intro b u hb
          rcases List.mem_cons.1 hb with hb | hb
          · cases hb; exact hirr _
          · exact hntr _ _ _ (h2 b u hb) (by simpa using hc)

theorem kmergeF_law {lt : α → α → Bool} (hirr : ∀ a, lt a a = false)
    (htr : ∀ a b c, lt a b = true → lt b c = true → lt a c = true)
    (hntr : ∀ a b c, lt a b = false → lt b c = false → lt a c = false) :
    ∀ (n : ℕ) (ss : List (List α)), ss.flatten.length ≤ n →
      KMerge (fun a b => lt a b = true) ss (kmergeF lt n ss) := by
  intro n
  induction n with
  | zero =>
    intro ss h
    refine KMerge.done ?_
    exact List.flatten_eq_nil_iff.1 (List.length_eq_zero_iff.1 (by omega))
  | succ n ih =>
    intro ss h
    unfold kmergeF
    cases hp : pickHead lt ss with
    | none => exact KMerge.done (pickHead_none hp)
    | some p =>
      obtain ⟨h1, h2⟩ := pickHead_some hirr htr hntr hp
      refine KMerge.step h1 (fun b t hb => by rw [h2 b t hb]; simp) (ih _ ?_)
      have := h1.flatten.length_eq
      rw [List.flatten_cons, List.cons_append, List.length_cons] at this
      rw [List.flatten_cons]
      omega

end

/-- A lawful merger. -/
def listMerger : KMerger where
  merge lt ss := kmergeF lt ss.flatten.length ss
  law _ ss h1 h2 h3 := kmergeF_law h1 h2 h3 _ ss le_rfl

/-- The law of a merger for an order by a key, largest first. -/
theorem KMerger.law_key {α K : Type} [LinearOrder K] (M : KMerger) (key : α → K)
    (ss : List (List α)) :
    KMerge (fun a b => key b < key a) ss (M.merge (fun a b => decide (key b < key a)) ss) := by
  have := M.law (fun a b => decide (key b < key a)) ss (by simp)
    (by
      intro a b c h1 h2
      simp only [decide_eq_true_eq] at h1 h2 ⊢
      exact lt_trans h2 h1)
    (by
      intro a b c h1 h2
      simp only [decide_eq_false_iff_not, not_lt] at h1 h2 ⊢
      exact le_trans h1 h2)
  simpa only [decide_eq_true_eq] using this

end Carmen
