import Mathlib.Tactic.Linarith
import Mathlib.Tactic.Ring
import Mathlib.Tactic.Positivity
import Verif.F64.Error
import Verif.Lemmas.StackKeep

/-!
# How good the estimates of `binned_stackable` are

`binned_stackable` leaves out a phrase match when its path relevance and the best of the later types
together do not reach the relevance of what is kept. The sums are rounded in different orders, so
the estimate may be smaller than the relevance it estimates. -/

namespace Carmen

/-- Numbers whose sums, as long as they are at most `B`, are right up to `ε`. -/
structure SumsTo (D : ℚ → Prop) (B ε : ℚ) : Prop where
  eps : 0 ≤ ε
  zero : D 0
  nonneg : ∀ a, D a → 0 ≤ a
  add : ∀ a b, D a → D b → a + b ≤ B →
    ∃ r, F64.fin a + F64.fin b = F64.fin r ∧ D r ∧ |r - (a + b)| ≤ ε

/-- The number a float is, zero if it is none. -/
def F64.rat : F64 → ℚ
  | .fin q => q
  | _ => 0

/-- A weight the sums are right for. -/
def WeightOk (D : ℚ → Prop) (w : F64) : Prop := ∃ x, w = .fin x ∧ D x ∧ x ≤ 1

/-- The maximal relevance of a bin is a bound. -/
def BinOk (D : ℚ → Prop) (b : PmBin) : Prop :=
  WeightOk D b.maxRelev ∧ ∀ q ∈ b.pms, WeightOk D q.weight ∧ q.weight ≤ b.maxRelev

/-- The sums over later bins are right up to rounding. -/
def AfterOk (D : ℚ → Prop) (ε : ℚ) : List PmBin → Prop
  | [] => True
  | b :: rest => BinOk D b ∧ (∃ σ, b.maxAfter = .fin σ ∧ D σ ∧
      |σ - (rest.map fun b => b.maxRelev.rat).sum| ≤ rest.length * ε) ∧ AfterOk D ε rest

variable {D : ℚ → Prop} {B ε : ℚ}

theorem WeightOk.rat {w : F64} (h : WeightOk D w) : w = .fin w.rat ∧ D w.rat ∧ w.rat ≤ 1 := by
  obtain ⟨x, rfl, h1, h2⟩ := h
  exact ⟨rfl, h1, h2⟩

theorem rat_le {a b : F64} (ha : a = .fin a.rat) (hb : b = .fin b.rat) (h : a ≤ b) :
    a.rat ≤ b.rat := by
  rw [ha, hb] at h
  exact F64.fin_le_fin.1 h

theorem sumAfter_max (bins : List PmBin) :
    (sumAfter bins).1.map PmBin.maxRelev = bins.map PmBin.maxRelev := by
  induction bins with
  | nil => rfl
  | cons b t ih => simp [sumAfter, ih]

theorem top_sum_le {bins : List PmBin} (h : ∀ b ∈ bins, BinOk D b) :
    (bins.map fun b => b.maxRelev.rat).sum ≤ bins.length := by
  induction bins with
  | nil => simp
  | cons b t ih =>
    have h1 := (h b (by simp)).1.rat.2.2
    have h2 := ih fun b hb => h b (by simp [hb])
    simp only [List.map_cons, List.sum_cons, List.length_cons]
    push_cast
    linarith

theorem sumAfter_ok (hA : SumsTo D B ε) {bins : List PmBin} (h : ∀ b ∈ bins, BinOk D b)
    (hB : (bins.length : ℚ) * (1 + ε) + ε ≤ B) :
    AfterOk D ε (sumAfter bins).1 ∧ ∃ σ, (sumAfter bins).2 = .fin σ ∧ D σ ∧
      |σ - (bins.map fun b => b.maxRelev.rat).sum| ≤ bins.length * ε := by
  induction bins with
  | nil => exact ⟨trivial, 0, rfl, hA.zero, by simp⟩
  | cons b t ih =>
    have heps := hA.eps
    have hB' : (t.length : ℚ) * (1 + ε) + ε ≤ B := by
      simp only [List.length_cons] at hB
      push_cast at hB
      linarith
    obtain ⟨h1, σ, h2, h3, h4⟩ := ih (fun b hb => h b (by simp [hb])) hB'
    have hb := h b (by simp)
    have hbr := hb.1.rat
    have htop := top_sum_le fun b hb => h b (List.mem_cons_of_mem _ hb)
    have h4' := abs_le.1 h4
    have hle : σ + b.maxRelev.rat ≤ B := by
      simp only [List.length_cons] at hB
      push_cast at hB
      nlinarith [h4'.2, hbr.2.2]
    obtain ⟨r, r1, r2, r3⟩ := hA.add σ b.maxRelev.rat h3 hbr.2.1 hle
    refine ⟨⟨hb, ⟨σ, h2, h3, ?_⟩, h1⟩, r, ?_, r2, ?_⟩
    · have e1 : ((sumAfter t).1.map fun b => b.maxRelev.rat) = t.map fun b => b.maxRelev.rat := by
        have := congrArg (List.map F64.rat) (sumAfter_max t)
        simpa [List.map_map, Function.comp_def] using this
      have e2 : (sumAfter t).1.length = t.length := by
        have := congrArg List.length (sumAfter_max t)
        simpa using this
      rw [e1, e2]
      exact h4
    · show (sumAfter t).2 + b.maxRelev = _
      rw [h2, hbr.1]
      exact r1
    · have r3' := abs_le.1 r3
      simp only [List.map_cons, List.sum_cons, List.length_cons]
      push_cast
      rw [abs_le]
      constructor <;> nlinarith [h4'.1, h4'.2, r3'.1, r3'.2]

theorem AfterOk.tail {pre rest : List PmBin} (h : AfterOk D ε (pre ++ rest)) : AfterOk D ε rest := by
  induction pre with
  | nil => exact h
  | cons b t ih => exact ih h.2.2

theorem AfterOk.binOk {bins : List PmBin} (h : AfterOk D ε bins) : ∀ b ∈ bins, BinOk D b := by
  induction bins with
  | nil => intro b hb; cases hb
  | cons c t ih =>
    intro b hb
    rcases List.mem_cons.1 hb with rfl | hb
    · exact h.1
    · exact ih h.2.2 b hb

/-- The weights of a stack. -/
def weightSum (qs : List Subquery) : ℚ := (qs.map fun q => q.weight.rat).sum

theorem top_sum_nonneg (hA : SumsTo D B ε) {bins : List PmBin} (h : ∀ b ∈ bins, BinOk D b) :
    0 ≤ (bins.map fun b => b.maxRelev.rat).sum := by
  refine List.sum_nonneg ?_
  intro x hx
  obtain ⟨b, hb, rfl⟩ := List.mem_map.1 hx
  exact hA.nonneg _ (h b hb).1.rat.2.1

theorem chain_sum (hA : SumsTo D B ε) {qs : List Subquery} : ∀ {bins : List PmBin} {mask idx : ℕ},
    AfterOk D ε bins → Chain bins mask idx qs →
    weightSum qs ≤ (bins.map fun b => b.maxRelev.rat).sum ∧ qs.length ≤ bins.length := by
  induction qs with
  | nil =>
    intro bins mask idx h _
    exact ⟨by simpa [weightSum] using top_sum_nonneg hA h.binOk, Nat.zero_le _⟩
  | cons q qs ih =>
    rintro bins mask idx h ⟨pre, b, rest, rfl, h2, _, _, h5⟩
    have h6 : AfterOk D ε (b :: rest) := h.tail
    obtain ⟨i1, i2⟩ := ih h6.2.2 h5
    have hp := top_sum_nonneg hA (bins := pre) fun b hb => h.binOk b (by simp [hb])
    have hq := h6.1.2 q h2
    have := rat_le hq.1.rat.1 h6.1.1.rat.1 hq.2
    constructor
    · simp only [weightSum, List.map_cons, List.sum_cons, List.map_append, List.sum_append] at i1 ⊢
      linarith
    · simp only [List.length_cons, List.length_append]
      omega

/-- The relevance of a stack is the sum of its weights, up to rounding. -/
theorem fold_value (hA : SumsTo D B ε) {qs : List Subquery} : ∀ {bins : List PmBin} {mask idx : ℕ}
    {x : ℚ} {j : ℕ}, AfterOk D ε bins → Chain bins mask idx qs → D x → x ≤ j * (1 + ε) →
    ((j + bins.length : ℕ) : ℚ) * (1 + ε) + ε ≤ B →
    ∃ s, qs.foldl (fun r q => r + q.weight) (.fin x) = .fin s ∧ D s ∧
      |s - (x + weightSum qs)| ≤ qs.length * ε := by
  induction qs with
  | nil =>
    intro bins mask idx x j _ _ hx _ _
    exact ⟨x, rfl, hx, by simp [weightSum]⟩
  | cons q qs ih =>
    rintro bins mask idx x j h ⟨pre, b, rest, rfl, h2, _, _, h5⟩ hx hxj hB
    have heps := hA.eps
    have h6 : AfterOk D ε (b :: rest) := h.tail
    have hq := (h6.1.2 q h2).1.rat
    simp only [List.length_append, List.length_cons] at hB
    push_cast at hB
    have hp0 : (0:ℚ) ≤ pre.length := by positivity
    have hr0 : (0:ℚ) ≤ rest.length := by positivity
    have hle : x + q.weight.rat ≤ B := by nlinarith [hq.2.2]
    obtain ⟨r, r1, r2, r3⟩ := hA.add x q.weight.rat hx hq.2.1 hle
    have r3' := abs_le.1 r3
    obtain ⟨s, s1, s2, s3⟩ := ih (x := r) (j := j + 1) h6.2.2 h5 r2
      (by push_cast; nlinarith [hq.2.2, r3'.2]) (by push_cast; nlinarith)
    refine ⟨s, ?_, s2, ?_⟩
    · rw [List.foldl_cons, hq.1, r1]
      exact s1
    · have s3' := abs_le.1 s3
      simp only [weightSum, List.map_cons, List.sum_cons, List.length_cons] at s3' ⊢
      push_cast
      rw [abs_le]
      constructor <;> nlinarith [s3'.1, s3'.2, r3'.1, r3'.2]

/-- A stack whose relevance exceeds the threshold by the rounding is never left out. -/
theorem reaches_of_value (hA : SumsTo D B ε) {m : F64} {s : ℚ} {N : ℕ} {qs : List Subquery} :
    ∀ {bins : List PmBin} {mask idx : ℕ} {x : ℚ} {j : ℕ}, TypedBins bins → AfterOk D ε bins →
    Chain bins mask idx qs → D x → x ≤ j * (1 + ε) →
    ((j + bins.length : ℕ) : ℚ) * (1 + ε) + ε ≤ B → bins.length ≤ N →
    qs.foldl (fun r q => r + q.weight) (.fin x) = .fin s →
    m ≤ .fin (s - (2 * N + 1) * ε) → Reaches m bins (.fin x) qs := by
  induction qs with
  | nil =>
    intro bins mask idx x j _ _ _ _ _ _ _ hs hm
    have heps := hA.eps
    have hxs : x = s := F64.fin.inj hs
    subst hxs
    refine le_trans hm (F64.fin_le_fin.2 ?_)
    nlinarith [show (0:ℚ) ≤ N by positivity]
  | cons q qs ih =>
    rintro bins mask idx x j hb h hch hx hxj hB hN hs hm
    have heps := hA.eps
    have hch' := hch
    obtain ⟨pre, b, rest, hbins, h2, _, _, h5⟩ := hch
    intro pre' b' rest' e1 e2
    obtain ⟨rfl, rfl⟩ := hb.unique hbins e1 h2 e2
    subst hbins
    have h6 : AfterOk D ε (b :: rest) := h.tail
    have hq := (h6.1.2 q h2).1.rat
    obtain ⟨σ, a1, a2, a3⟩ := h6.2.1
    have a3' := abs_le.1 a3
    have htop := top_sum_le h6.2.2.binOk
    have hB' := hB
    simp only [List.length_append, List.length_cons] at hB'
    push_cast at hB'
    have hp0 : (0:ℚ) ≤ pre.length := by positivity
    have hr0 : (0:ℚ) ≤ rest.length := by positivity
    have hle : x + q.weight.rat ≤ B := by nlinarith [hq.2.2]
    obtain ⟨r, r1, r2, r3⟩ := hA.add x q.weight.rat hx hq.2.1 hle
    have r3' := abs_le.1 r3
    obtain ⟨p, p1, p2, p3⟩ := hA.add r σ r2 a2 (by nlinarith [hq.2.2])
    have p3' := abs_le.1 p3
    obtain ⟨s', s1, _, s3⟩ := fold_value hA h hch' hx hxj hB
    rw [hs] at s1
    obtain rfl := F64.fin.inj s1
    have s3' := abs_le.1 s3
    obtain ⟨c1, c2⟩ := chain_sum hA h6.2.2 h5
    have hlen : ((qs.length : ℚ) + 1) + rest.length + 2 ≤ 2 * N + 1 := by
      have : qs.length + 1 + rest.length + 2 ≤ 2 * N + 1 := by
        simp only [List.length_append, List.length_cons] at hN
        omega
      exact_mod_cast this
    have hxw : F64.fin x + q.weight = .fin r := by rw [hq.1]; exact r1
    constructor
    · rw [hxw, a1, p1]
      refine le_trans hm (F64.fin_le_fin.2 ?_)
      simp only [weightSum, List.map_cons, List.sum_cons, List.length_cons] at s3' c1
      push_cast at s3'
      have : ((qs.length : ℚ) + 1 + rest.length + 2) * ε ≤ (2 * N + 1) * ε :=
        mul_le_mul_of_nonneg_right hlen heps
      nlinarith [s3'.2, p3'.1, r3'.1, a3'.1]
    · rw [hxw]
      refine ih (x := r) (j := j + 1) (TypedBins.tail (pre := pre ++ [b]) (by simpa using hb))
        h6.2.2 h5 r2 (by push_cast; nlinarith [hq.2.2, r3'.2]) (by push_cast; nlinarith)
        (by simp only [List.length_append, List.length_cons] at hN; omega) ?_ hm
      rw [List.foldl_cons, hxw] at hs
      exact hs

theorem binPut_ok (hA : SumsTo D B ε) {m : SMap ℕ PmBin} {pm : Subquery} (hpm : WeightOk D pm.weight)
    (hs : SMap.Sorted m) (h : ∀ k b, SMap.find k m = some b → BinOk D b) :
    SMap.Sorted (binPut m pm) ∧ (∀ k b, SMap.find k (binPut m pm) = some b → BinOk D b) ∧
      ∀ k b, SMap.find k (binPut m pm) = some b →
        k = pm.store.typeId ∨ (SMap.find k m).isSome := by
  unfold binPut
  refine ⟨SMap.sorted_insert hs, ?_, ?_⟩
  · intro k b hb
    rw [SMap.find_insert] at hb
    by_cases hk : k = pm.store.typeId
    · rw [if_pos hk] at hb
      cases hb
      have hold : BinOk D ((SMap.find pm.store.typeId m).getD ⟨[], 0, 0⟩) := by
        cases hf : SMap.find pm.store.typeId m with
        | none => exact ⟨⟨0, rfl, hA.zero, zero_le_one⟩, by intro q hq; cases hq⟩
        | some b' => exact h _ _ hf
      generalize (SMap.find pm.store.typeId m).getD ⟨[], 0, 0⟩ = o at hold
      have hn1 : o.maxRelev ≠ .nan := by rw [hold.1.rat.1]; intro e; cases e
      have hn2 : pm.weight ≠ .nan := by rw [hpm.rat.1]; intro e; cases e
      by_cases hlt : F64.flt o.maxRelev pm.weight = true
      · have hlt' : o.maxRelev < pm.weight := by
          unfold F64.flt at hlt
          exact (of_decide_eq_true hlt).2.2
        simp only [hlt, if_true]
        refine ⟨hpm, ?_⟩
        intro q hq
        rcases List.mem_append.1 hq with hq | hq
        · exact ⟨(hold.2 q hq).1, le_trans (hold.2 q hq).2 (le_of_lt hlt')⟩
        · obtain rfl := List.mem_singleton.1 hq
          exact ⟨hpm, le_refl _⟩
      · have hle : pm.weight ≤ o.maxRelev := le_of_flt_false hn1 hn2 (by simpa using hlt)
        simp only [hlt]
        refine ⟨hold.1, ?_⟩
        intro q hq
        rcases List.mem_append.1 hq with hq | hq
        · exact hold.2 q hq
        · obtain rfl := List.mem_singleton.1 hq
          exact ⟨hpm, hle⟩
    · rw [if_neg hk] at hb
      exact h k b hb
  · intro k b hb
    rw [SMap.find_insert] at hb
    by_cases hk : k = pm.store.typeId
    · exact Or.inl hk
    · rw [if_neg hk] at hb
      exact Or.inr (by rw [hb]; rfl)

theorem binMap_ok (hA : SumsTo D B ε) {pms : List Subquery} (hw : ∀ q ∈ pms, WeightOk D q.weight) :
    ∀ b ∈ (pms.foldl binPut ([] : SMap ℕ PmBin)), BinOk D b.2 ∧
      b.1 ∈ pms.map fun q => q.store.typeId := by
  have key : ∀ (l : List Subquery) (m : SMap ℕ PmBin), (∀ q ∈ l, WeightOk D q.weight) →
      SMap.Sorted m → (∀ k b, SMap.find k m = some b → BinOk D b) →
      SMap.Sorted (l.foldl binPut m) ∧
      (∀ k b, SMap.find k (l.foldl binPut m) = some b → BinOk D b ∧
        (k ∈ (l.map fun q => q.store.typeId) ∨ (SMap.find k m).isSome)) := by
    intro l
    induction l with
    | nil =>
      intro m _ hs h
      exact ⟨hs, fun k b hb => ⟨h k b hb, Or.inr (by
        have : SMap.find k m = some b := hb
        rw [this]; rfl)⟩⟩
    | cons x t ih =>
      intro m hl hs h
      obtain ⟨h1, h2, h3⟩ := binPut_ok hA (hl x (by simp)) hs h
      obtain ⟨h4, h5⟩ := ih (binPut m x) (fun q hq => hl q (by simp [hq])) h1 h2
      refine ⟨h4, fun k b hb => ⟨(h5 k b hb).1, ?_⟩⟩
      rcases (h5 k b hb).2 with h6 | h6
      · exact Or.inl (by simp only [List.map_cons, List.mem_cons]; exact Or.inr h6)
      · obtain ⟨b', hb'⟩ := Option.isSome_iff_exists.1 h6
        rcases h3 k b' hb' with h7 | h7
        · exact Or.inl (by simp [h7])
        · exact Or.inr h7
  obtain ⟨h1, h2⟩ := key pms [] hw SMap.sorted_nil (by intro k b hb; cases hb)
  intro b hb
  obtain ⟨h3, h4⟩ := h2 b.1 b.2 ((SMap.mem_iff_find h1).1 hb)
  refine ⟨h3, ?_⟩
  rcases h4 with h4 | h4
  · exact h4
  · cases h4

theorem pmBins_length (pms : List Subquery) :
    (pmBins pms).length ≤ (pms.map fun q => q.store.typeId).dedup.length := by
  have h0 : (pmBins pms).length = (pms.foldl binPut ([] : SMap ℕ PmBin)).length := by
    unfold pmBins
    have := congrArg List.length (sumAfter_max ((pms.foldl binPut ([] : SMap ℕ PmBin)).map fun p =>
      { p.2 with pms := p.2.pms.insertionSort (fun a b => a.binKey ≤ b.binKey) }))
    simpa using this
  have hsorted : SMap.Sorted (pms.foldl binPut ([] : SMap ℕ PmBin)) := (binMapOk pms).sorted
  have hnd : ((pms.foldl binPut ([] : SMap ℕ PmBin)).map Prod.fst).Nodup := by
    rw [List.Nodup, List.pairwise_map]
    exact List.Pairwise.imp (fun h => ne_of_lt h) hsorted
  have hkeys : ∀ (l : List Subquery) (m : SMap ℕ PmBin) (k : ℕ),
      k ∈ (l.foldl binPut m).map Prod.fst →
      k ∈ (l.map fun q => q.store.typeId) ∨ k ∈ m.map Prod.fst := by
    intro l
    induction l with
    | nil => intro m k hk; exact Or.inr hk
    | cons x t ih =>
      intro m k hk
      rcases ih (binPut m x) k hk with h | h
      · exact Or.inl (by simp only [List.map_cons, List.mem_cons]; exact Or.inr h)
      · have hins : ∀ (m : SMap ℕ PmBin) (k0 : ℕ) (v : PmBin) (k : ℕ),
            k ∈ (SMap.insert k0 v m).map Prod.fst → k = k0 ∨ k ∈ m.map Prod.fst := by
          intro m k0 v
          induction m with
          | nil => intro k hk; simpa [SMap.insert] using hk
          | cons p t ih =>
            intro k hk
            unfold SMap.insert at hk
            split_ifs at hk with c1 c2
            · simpa using hk
            · simp only [List.map_cons, List.mem_cons] at hk ⊢
              rcases hk with rfl | hk
              · exact Or.inl rfl
              · exact Or.inr (Or.inr hk)
            · simp only [List.map_cons, List.mem_cons] at hk ⊢
              rcases hk with rfl | hk
              · exact Or.inr (Or.inl rfl)
              · rcases ih k hk with h | h
                · exact Or.inl h
                · exact Or.inr (Or.inr h)
        rcases hins _ _ _ _ h with h | h
        · exact Or.inl (by simp [h])
        · exact Or.inr h
  rw [h0, ← List.length_map (f := Prod.fst)]
  refine (List.Nodup.subperm hnd ?_).length_le
  intro k hk
  rw [List.mem_dedup]
  rcases hkeys pms [] k hk with h | h
  · exact h
  · cases h

theorem pmBins_after (hA : SumsTo D B ε) {pms : List Subquery} (hw : ∀ q ∈ pms, WeightOk D q.weight)
    (hB : ((pms.map fun q => q.store.typeId).dedup.length : ℚ) * (1 + ε) + ε ≤ B) :
    AfterOk D ε (pmBins pms) := by
  have hlen := pmBins_length pms
  have heps := hA.eps
  unfold pmBins at hlen ⊢
  refine (sumAfter_ok hA ?_ ?_).1
  · intro b hb
    obtain ⟨p, hp, rfl⟩ := List.mem_map.1 hb
    obtain ⟨h1, h2⟩ := (binMap_ok hA hw p hp).1
    refine ⟨h1, ?_⟩
    intro q hq
    rw [List.mem_insertionSort] at hq
    exact h2 q hq
  · have := congrArg List.length (sumAfter_max ((pms.foldl binPut ([] : SMap ℕ PmBin)).map fun p =>
      { p.2 with pms := p.2.pms.insertionSort (fun a b => a.binKey ≤ b.binKey) }))
    rw [List.length_map, List.length_map] at this
    rw [this] at hlen
    have h2 : (((pms.foldl binPut ([] : SMap ℕ PmBin)).map fun p =>
      { p.2 with pms := p.2.pms.insertionSort (fun a b => a.binKey ≤ b.binKey) }).length : ℚ) ≤
        ((pms.map fun q => q.store.typeId).dedup.length : ℚ) := by exact_mod_cast hlen
    nlinarith

end Carmen
