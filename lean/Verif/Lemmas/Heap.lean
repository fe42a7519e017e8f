import Verif.Model.Queue
import Verif.Spec.Best
import Mathlib.Data.List.Sort
import Mathlib.Order.OrderDual

/-!
# Lemmas on heaps and bounded queues, and a concrete heap
-/

namespace Carmen
open Spec

section Extract
variable {α K : Type} [LinearOrder K]

/-- The first largest element and the rest. -/
def extractMax (key : α → K) : List α → Option (α × List α)
  | [] => none
  | a :: t =>
    match extractMax key t with
    | none => some (a, t)
    | some (b, r) => if key b ≤ key a then some (a, t) else some (b, a :: r)

theorem extractMax_none {key : α → K} {l : List α} : extractMax key l = none ↔ l = [] := by
  cases l with
  | nil => simp [extractMax]
  | cons a t =>
    unfold extractMax
    constructor
    · intro h
      split at h
      · cases h
      · split at h <;> cases h
    · intro h; cases h

theorem extractMax_spec {key : α → K} {l : List α} {m : α} {r : List α}
    (h : extractMax key l = some (m, r)) :
    (m :: r).Perm l ∧ ∀ b ∈ l, key b ≤ key m := by
  induction l generalizing m r with
  | nil => simp [extractMax] at h
  | cons a t ih =>
    unfold extractMax at h
    cases ht : extractMax key t with
    | none =>
      rw [ht] at h
      cases h
      rw [extractMax_none] at ht
      subst ht
      exact ⟨List.Perm.refl _, by simp⟩
    | some p =>
      obtain ⟨b, r'⟩ := p
      rw [ht] at h
      simp only at h
      obtain ⟨h1, h2⟩ := ih ht
      by_cases hc : key b ≤ key a
      · rw [if_pos hc] at h
        cases h
        refine ⟨List.Perm.refl _, ?_⟩
        intro c hc'
        rcases List.mem_cons.1 hc' with rfl | hc'
        · exact le_rfl
        · exact (h2 c hc').trans hc
      · rw [if_neg hc] at h
        cases h
        refine ⟨(List.Perm.swap _ _ _).trans (h1.cons a), ?_⟩
        intro c hc'
        rcases List.mem_cons.1 hc' with rfl | hc'
        · exact (not_le.1 hc).le
        · exact h2 c hc'

/-- A concrete lawful heap: an unsorted list. -/
def listHeap (key : α → K) : Heap key where
  push l a := a :: l
  peekMin l := (extractMax (fun a => OrderDual.toDual (key a)) l).map Prod.fst
  peekMax l := (extractMax key l).map Prod.fst
  replaceMin l a := ((extractMax (fun a => OrderDual.toDual (key a)) l).map
    (fun p => a :: p.2)).getD l
  replaceMax l a := ((extractMax key l).map (fun p => a :: p.2)).getD l
  popMax l := ((extractMax key l).map Prod.snd).getD l
  intoVecDesc l := l.insertionSort (fun a b => key b ≤ key a)
  push_perm l a := List.Perm.refl _
  peekMin_none l := by rw [Option.map_eq_none_iff, extractMax_none]
  peekMin_mem l m h := by
    obtain ⟨⟨m', r⟩, h1, rfl⟩ := Option.map_eq_some_iff.1 h
    exact (extractMax_spec h1).1.subset (by simp)
  peekMin_le l m h := by
    obtain ⟨⟨m', r⟩, h1, rfl⟩ := Option.map_eq_some_iff.1 h
    intro b hb
    exact OrderDual.toDual_le_toDual.1 ((extractMax_spec h1).2 b hb)
  peekMax_none l := by rw [Option.map_eq_none_iff, extractMax_none]
  peekMax_mem l m h := by
    obtain ⟨⟨m', r⟩, h1, rfl⟩ := Option.map_eq_some_iff.1 h
    exact (extractMax_spec h1).1.subset (by simp)
  peekMax_le l m h := by
    obtain ⟨⟨m', r⟩, h1, rfl⟩ := Option.map_eq_some_iff.1 h
    exact (extractMax_spec h1).2
  replaceMin_perm l m a h := by
    obtain ⟨⟨m', r⟩, h1, rfl⟩ := Option.map_eq_some_iff.1 h
    rw [h1]
    simp only [Option.map_some, Option.getD_some]
    exact (List.Perm.swap _ _ _).trans ((extractMax_spec h1).1.cons a)
  replaceMax_perm l m a h := by
    obtain ⟨⟨m', r⟩, h1, rfl⟩ := Option.map_eq_some_iff.1 h
    rw [h1]
    simp only [Option.map_some, Option.getD_some]
    exact (List.Perm.swap _ _ _).trans ((extractMax_spec h1).1.cons a)
  popMax_perm l m h := by
    obtain ⟨⟨m', r⟩, h1, rfl⟩ := Option.map_eq_some_iff.1 h
    rw [h1]
    simp only [Option.map_some, Option.getD_some]
    exact (extractMax_spec h1).1
  intoVecDesc_perm l := List.perm_insertionSort _ _
  intoVecDesc_sorted l := by
    have : Std.Total (fun a b : α => key b ≤ key a) := ⟨fun a b => le_total _ _⟩
    have : IsTrans α (fun a b : α => key b ≤ key a) := ⟨fun a b c h1 h2 => le_trans h2 h1⟩
    exact List.pairwise_insertionSort _ _

end Extract

section Best
variable {α K : Type} [LinearOrder K] {key : α → K}

theorem Spec.IsBest.nil (n : ℕ) : IsBest key n ([] : List α) [] [] :=
  ⟨List.Perm.refl _, by simp, by simp⟩

theorem Spec.IsBest.replace {n : ℕ} {all q out : List α} (h : IsBest key n all q out) (H : Heap key)
    {m e : α} (hm : H.peekMin q = some m) (hlt : key m ≤ key e) (hn : n ≤ q.length) :
    IsBest key n (e :: all) (H.replaceMin q e) (m :: out) := by
  have hp := H.replaceMin_perm q m e hm
  have hlen : (H.replaceMin q e).length = q.length := by
    have := hp.length_eq
    simpa using this
  refine ⟨?_, ?_, ?_⟩
  · refine List.perm_middle.trans ?_
    rw [← List.cons_append]
    exact (hp.append_right out).trans (h.perm.cons e)
  · rw [hlen, List.length_cons]
    have := h.size
    omega
  · intro k hk d hd
    have hk' : k ∈ e :: q := hp.subset (by simp [hk])
    have hmk : key m ≤ key k := by
      rcases List.mem_cons.1 hk' with rfl | hk'
      · exact hlt
      · exact H.peekMin_le q m hm k hk'
    rcases List.mem_cons.1 hd with rfl | hd
    · exact hmk
    · exact (h.best m (H.peekMin_mem q m hm) d hd).trans hmk

theorem Spec.IsBest.drop {n : ℕ} {all q out : List α} (h : IsBest key n all q out) {e : α}
    (hle : ∀ k ∈ q, key e ≤ key k) (hn : n ≤ q.length) :
    IsBest key n (e :: all) q (e :: out) := by
  refine ⟨List.perm_middle.trans (h.perm.cons e), ?_, ?_⟩
  · rw [List.length_cons]
    have := h.size
    omega
  · intro k hk d hd
    rcases List.mem_cons.1 hd with rfl | hd
    · exact hle k hk
    · exact h.best k hk d hd

theorem Spec.IsBest.out_nil {n : ℕ} {all q out : List α} (h : IsBest key n all q out)
    (hn : q.length < n) : out = [] := by
  have h1 := h.perm.length_eq
  have h2 := h.size
  rw [List.length_append] at h1
  exact List.length_eq_zero_iff.1 (by omega)

theorem Spec.IsBest.push {n : ℕ} {all q out : List α} (h : IsBest key n all q out) (H : Heap key)
    (e : α) (hn : q.length < n) : IsBest key n (e :: all) (H.push q e) out := by
  have ho := h.out_nil hn
  subst ho
  refine ⟨?_, ?_, by simp⟩
  · rw [List.append_nil]
    refine (H.push_perm q e).trans ?_
    have := h.perm
    rw [List.append_nil] at this
    exact this.cons e
  · rw [(H.push_perm q e).length_eq, List.length_cons, List.length_cons]
    have := h.size
    omega

theorem Spec.IsBest.congr {n : ℕ} {all all' q out : List α} (h : IsBest key n all q out)
    (hp : all.Perm all') : IsBest key n all' q out :=
  ⟨h.perm.trans hp, by rw [h.size, hp.length_eq], h.best⟩

/-- One push on a bounded queue keeps it a choice of the best. -/
theorem Spec.IsBest.cpqPush {n : ℕ} {all q out : List α} (h : IsBest key n all q out) (H : Heap key)
    (e : α) :
    ∃ out', IsBest key n (e :: all) (cpqPush H n q e).1 out' ∧
      ((cpqPush H n q e).2 = true → ((cpqPush H n q e).1 ++ out').Perm (e :: (q ++ out)) ∧
        e ∈ (cpqPush H n q e).1) ∧
      ((cpqPush H n q e).2 = false → (cpqPush H n q e).1 = q) := by
  unfold Carmen.cpqPush
  by_cases hn : n ≤ q.length
  · rw [if_pos hn]
    cases hm : H.peekMin q with
    | none =>
      have hq := (H.peekMin_none q).1 hm
      refine ⟨e :: out, h.drop (by simp [hq]) hn, by simp, by simp⟩
    | some m =>
      simp only
      by_cases hlt : key m < key e
      · rw [if_pos hlt]
        have hr := h.replace H hm hlt.le hn
        refine ⟨m :: out, hr, ?_, by simp⟩
        intro _
        refine ⟨hr.perm.trans (h.perm.symm.cons e), ?_⟩
        have hp := (H.replaceMin_perm q m e hm).symm.subset (show e ∈ e :: q by simp)
        rcases List.mem_cons.1 hp with rfl | hp
        · exact absurd hlt (lt_irrefl _)
        · exact hp
      · rw [if_neg hlt]
        refine ⟨e :: out, h.drop ?_ hn, by simp, by simp⟩
        intro k hk
        exact (not_lt.1 hlt).trans (H.peekMin_le q m hm k hk)
  · rw [if_neg hn]
    refine ⟨out, h.push H e (by omega), ?_, by simp⟩
    intro _
    exact ⟨(H.push_perm q e).append_right out, (H.push_perm q e).symm.subset (by simp)⟩

theorem Spec.IsBest.cpqPushAll {n : ℕ} (H : Heap key) (es : List α) :
    ∀ {all q out : List α}, IsBest key n all q out →
      ∃ out', IsBest key n (es.reverse ++ all) (cpqPushAll H n q es) out' := by
  induction es with
  | nil => intro all q out h; exact ⟨out, h⟩
  | cons e t ih =>
    intro all q out h
    obtain ⟨out', h', _⟩ := h.cpqPush H e
    obtain ⟨out'', h''⟩ := ih h'
    refine ⟨out'', ?_⟩
    rw [List.reverse_cons, List.append_assoc]
    exact h''

/-- A lawful bounded queue never holds more than its bound. -/
theorem cpqPush_length_le {n : ℕ} (H : Heap key) {q : List α} (e : α) (h : q.length ≤ n) :
    (cpqPush H n q e).1.length ≤ n := by
  unfold Carmen.cpqPush
  split
  · split
    · rename_i m hm
      split
      · have := (H.replaceMin_perm q m e hm).length_eq
        simp only [List.length_cons] at this
        simp only; omega
      · exact h
    · exact h
  · simp only
    rw [(H.push_perm q e).length_eq, List.length_cons]; omega

theorem mem_cpqPush {n : ℕ} (H : Heap key) {q : List α} {e a : α}
    (h : a ∈ (cpqPush H n q e).1) : a = e ∨ a ∈ q := by
  unfold Carmen.cpqPush at h
  split at h
  · split at h
    · rename_i m hm
      split at h
      · have := (H.replaceMin_perm q m e hm).subset (List.mem_cons_of_mem _ h)
        exact List.mem_cons.1 this
      · exact Or.inr h
    · exact Or.inr h
  · exact List.mem_cons.1 ((H.push_perm q e).subset h)

end Best

end Carmen
