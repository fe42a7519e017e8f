import Verif.Spec.Share
import Verif.Props.Nested
import Verif.Props.ResultRanges
import Verif.Lemmas.StackOnce
import Verif.Props.Growth

/-!
# C102: relevance is a share of the query
-/

namespace Carmen
open Format Spec

/-! ## Shares -/

theorem shareOf_or (share : ℕ → ℚ) {a b : ℕ} (h : a &&& b = 0) :
    shareOf share (a ||| b) = shareOf share a + shareOf share b := by
  unfold shareOf
  induction List.range 32 with
  | nil => simp
  | cons i t ih =>
    simp only [List.map_cons, List.sum_cons, ih]
    have hb := congrArg (fun n => n.testBit i) h
    simp only [Nat.testBit_and, Nat.zero_testBit] at hb
    rw [Nat.testBit_or]
    cases ha : a.testBit i <;> cases hbb : b.testBit i <;> simp [ha, hbb] at hb ⊢ <;> ring

theorem shareOf_zero (share : ℕ → ℚ) : shareOf share 0 = 0 := by
  unfold shareOf
  simp

theorem disjoint_union {a : ℕ} {l : List ℕ} (h : ∀ m ∈ l, a &&& m = 0) : a &&& unionMask l = 0 := by
  apply Nat.eq_of_testBit_eq
  intro i
  rw [Nat.testBit_and, testBit_unionMask, Nat.zero_testBit]
  cases ha : a.testBit i with
  | false => rfl
  | true =>
    rw [Bool.true_and, List.any_eq_false]
    intro m hm hmi
    have := congrArg (fun n => n.testBit i) (h m hm)
    simp [ha, hmi] at this

theorem shareOf_union (share : ℕ → ℚ) {l : List ℕ} (h : l.Pairwise fun a b => a &&& b = 0) :
    shareOf share (unionMask l) = (l.map (shareOf share)).sum := by
  induction l with
  | nil => exact shareOf_zero share
  | cons a t ih =>
    rw [List.pairwise_cons] at h
    change shareOf share (a ||| unionMask t) = _
    rw [shareOf_or _ (disjoint_union h.1), ih h.2]
    rfl

theorem shareOf_le {share : ℕ → ℚ} (h0 : ∀ i, 0 ≤ share i) (mask : ℕ) :
    shareOf share mask ≤ ((List.range 32).map share).sum := by
  unfold shareOf
  refine List.sum_le_sum fun i _ => ?_
  split_ifs
  · exact le_rfl
  · exact h0 i

/-! ## Numbers -/

theorem queryRelevs_bounds : ∀ r ∈ queryRelevs, ∃ x, r = .fin x ∧
    (384 / 1000 - 1 / 2 ^ 50 : ℚ) ≤ x ∧ x ≤ 1 := by
  have h : ∀ r ∈ queryRelevs, r.IsFin ∧ (384 / 1000 - 1 / 2 ^ 50 : ℚ) ≤ value r ∧ value r ≤ 1 := by
    decide +kernel
  intro r hr
  obtain ⟨h1, h2, h3⟩ := h r hr
  obtain ⟨x, rfl⟩ := h1.exists
  exact ⟨x, rfl, h2, h3⟩

/-- The relevance of an entry and the weight of its phrase match. -/
def InShare (w : ℚ) (r : F64) : Prop :=
  ∃ x, r = .fin x ∧ 0 ≤ x ∧ x ≤ 1 ∧ 384 / 1000 * w - 1 / 2 ^ 46 ≤ x ∧ x ≤ w

theorem product_share {r w : F64} (hr : r ∈ queryRelevs) (hw : w.IsFin ∧ w.Valid ∧ 0 ≤ w ∧ w ≤ 1) :
    InShare (value w) (r * w) := by
  obtain ⟨x, rfl, h1, h2⟩ := queryRelevs_bounds r hr
  obtain ⟨w1, w2, w3, w4⟩ := hw
  obtain ⟨y, rfl⟩ := w1.exists
  have y0 : 0 ≤ y := F64.fin_le_fin.1 w3
  have y1 : y ≤ 1 := F64.fin_le_fin.1 w4
  have hx0 : (0 : ℚ) ≤ x := by
    refine le_trans ?_ h1
    norm_num
  have p0 : 0 ≤ x * y := mul_nonneg hx0 y0
  have p1 : x * y ≤ 1 := mul_le_one₀ h2 y0 y1
  obtain ⟨z, hz, he⟩ := F64.ofRat_err (q := x * y) (by rw [abs_lt]; constructor <;> linarith)
  have hm : (F64.fin x * F64.fin y) = .fin z := hz
  have n0 := F64.mul_nonneg' (a := .fin x) (b := .fin y) trivial trivial (F64.fin_le_fin.2 hx0) w3
  have n1 := F64.mul_le_right (a := .fin x) (b := .fin y) trivial trivial w2 w3 (F64.fin_le_fin.2 h2)
  rw [hm] at n0 n1 ⊢
  have n0 := F64.fin_le_fin.1 n0
  have n1 := F64.fin_le_fin.1 n1
  refine ⟨z, rfl, n0, n1.trans y1, ?_, n1⟩
  have he := abs_le.1 he
  have h3 : (384 / 1000 - 1 / 2 ^ 50) * y ≤ x * y := mul_le_mul_of_nonneg_right h1 y0
  have h4 : (1 / 2 ^ 50 : ℚ) * y ≤ 1 / 2 ^ 50 := mul_le_of_le_one_right (by norm_num) y1
  have h5 : (1 : ℚ) / 2 ^ 50 + 1 / 2 ^ 48 ≤ 1 / 2 ^ 46 := by norm_num
  change 384 / 1000 * y - 1 / 2 ^ 46 ≤ z
  rw [sub_mul] at h3
  linarith

theorem share_sum {rs : List F64} {ws : List ℚ} (h : List.Forall₂ InShare ws rs) :
    ∃ xs : List ℚ, rs = xs.map .fin ∧ (∀ x ∈ xs, 0 ≤ x ∧ x ≤ 1) ∧ xs.length = ws.length ∧
      384 / 1000 * ws.sum - ws.length / 2 ^ 46 ≤ xs.sum ∧ xs.sum ≤ ws.sum := by
  induction h with
  | nil => exact ⟨[], rfl, nofun, rfl, by simp, le_rfl⟩
  | cons h _ ih =>
    obtain ⟨x, rfl, h0, h1, h2, h3⟩ := h
    obtain ⟨xs, rfl, i1, i2, i3, i4⟩ := ih
    refine ⟨x :: xs, rfl, ?_, by simp [i2], ?_, ?_⟩
    · simpa using ⟨⟨h0, h1⟩, i1⟩
    · simp only [List.sum_cons, List.length_cons]
      push_cast
      rw [add_div, mul_add]
      linarith
    · simp only [List.sum_cons]
      linarith

theorem foldl_err {xs : List ℚ} (h : ∀ x ∈ xs, 0 ≤ x ∧ x ≤ 1) : ∀ {s t : ℚ} {n : ℕ}, 0 ≤ t → t ≤ n →
    n + xs.length ≤ 32 → |s - t| ≤ n / 2 ^ 48 →
    ∃ r, (xs.map F64.fin).foldl (· + ·) (.fin s) = .fin r ∧
      |r - (t + xs.sum)| ≤ (n + xs.length : ℕ) / 2 ^ 48 := by
  induction xs with
  | nil =>
    intro s t n h0 h1 h2 h3
    exact ⟨s, rfl, by simpa using h3⟩
  | cons x xs ih =>
    intro s t n h0 h1 h2 h3
    obtain ⟨x0, x1⟩ := h x List.mem_cons_self
    have h3' := abs_le.1 h3
    have hn : (n : ℚ) ≤ 32 := by
      have : n ≤ 32 := by omega
      exact_mod_cast this
    have hk : (n : ℚ) / 2 ^ 48 ≤ 1 := by
      rw [div_le_one (by norm_num)]
      refine hn.trans (by norm_num)
    obtain ⟨y, hy, he⟩ := F64.add_err (a := s) (b := x) (by rw [abs_lt]; constructor <;> linarith)
    have he' := abs_le.1 he
    obtain ⟨r, hr, hre⟩ := ih (fun z hz => h z (List.mem_cons_of_mem _ hz)) (s := y) (t := t + x)
      (n := n + 1) (by linarith) (by push_cast; linarith)
      (by rw [List.length_cons] at h2; omega) (by
        push_cast
        rw [add_div, abs_le]
        constructor <;> linarith)
    refine ⟨r, ?_, ?_⟩
    · rw [List.map_cons, List.foldl_cons, hy]
      exact hr
    · rw [List.sum_cons, List.length_cons, ← add_assoc t]
      have : n + (xs.length + 1) = n + 1 + xs.length := by omega
      rw [this]
      exact hre

theorem sumRelev_err {xs : List ℚ} (h : ∀ x ∈ xs, 0 ≤ x ∧ x ≤ 1) (hl : xs.length ≤ 32) :
    ∃ r, sumRelev (xs.map F64.fin) = .fin r ∧ |r - xs.sum| ≤ 32 / 2 ^ 48 := by
  cases xs with
  | nil => exact ⟨0, rfl, by simp; norm_num⟩
  | cons x t =>
    obtain ⟨x0, x1⟩ := h x List.mem_cons_self
    obtain ⟨r, h1, h2⟩ := foldl_err (xs := t) (fun z hz => h z (List.mem_cons_of_mem _ hz)) (s := x)
      (t := x) (n := 1) x0 (by exact_mod_cast x1) (by rw [List.length_cons] at hl; omega) (by simp)
    refine ⟨r, h1, ?_⟩
    rw [List.sum_cons]
    refine h2.trans ?_
    refine div_le_div_of_nonneg_right ?_ (by norm_num)
    rw [List.length_cons] at hl
    exact_mod_cast (by omega : 1 + t.length ≤ 32)

/-- What the relevances of the entries add up to, in shares. -/
theorem shares_add {low high : ℕ → ℚ} {qs stack : List Subquery} (h : WeightsAreShares low high qs)
    (hm : ∀ q ∈ stack, q ∈ qs) (hd : stack.Pairwise fun a b => a.mask &&& b.mask = 0) :
    stack.length ≤ 32 ∧
    shareOf low (unionMask (stack.map (·.mask))) ≤ (stack.map fun q => value q.weight).sum ∧
    (stack.map fun q => value q.weight).sum ≤ shareOf high (unionMask (stack.map (·.mask))) := by
  have hd' : (stack.map (·.mask)).Pairwise fun a b => a &&& b = 0 := List.pairwise_map.2 hd
  refine ⟨?_, ?_, ?_⟩
  · rw [← List.length_map (f := fun q : Subquery => q.mask)]
    refine length_le_of_disjoint ?_ hd'
    intro m hm'
    obtain ⟨q, hq, rfl⟩ := List.mem_map.1 hm'
    exact h.covers q (hm q hq)
  · rw [shareOf_union _ hd', List.map_map]
    exact List.sum_le_sum fun q hq => h.low q (hm q hq)
  · rw [shareOf_union _ hd', List.map_map]
    exact List.sum_le_sum fun q hq => h.high q (hm q hq)

theorem penalty_value : ∃ d : ℚ, lit 0.01 = .fin d ∧ |d - 1 / 100| ≤ 1 / 2 ^ 48 :=
  F64.ofRat_err (q := 0.01) (by rw [abs_lt]; constructor <;> norm_num) |>.imp fun _ h =>
    ⟨h.1, by have := h.2; norm_num at this ⊢; exact this⟩

theorem collapse_shares {low high : ℕ → ℚ} {qs out : List Subquery} (h : collapse qs = some out)
    (hs : WeightsAreShares low high qs) : WeightsAreShares low high out := by
  have hm : ∀ o ∈ out, ∃ q ∈ qs, o.mask = q.mask ∧ o.weight = q.weight := by
    intro o ho
    obtain ⟨q, later, h2, rfl⟩ := (C47_kept_keys_partial h).made o ho
    exact ⟨q, mem_groupOf (h2 ▸ List.mem_cons_self), rfl, rfl⟩
  refine ⟨?_, ?_, ?_, ?_⟩ <;> intro o ho <;> obtain ⟨q, hq, e1, e2⟩ := hm o ho
  · rw [e1]; exact hs.covers q hq
  · rw [e2]; exact hs.weights q hq
  · rw [e1, e2]; exact hs.low q hq
  · rw [e1, e2]; exact hs.high q hq

/-- **C102**: with weights that are shares of the query, as the caller makes them, the relevance of
every context a search returns is the share of the query the context covers, but for what the
relevances of its grids, other languages and the order of its entries take away: at most to 0.384 of
it, less 0.01. -/
theorem C102_search (env : TreeEnv) (qs : List Subquery) (opts : MatchOpts) (low high : ℕ → ℚ)
    (hw : WeightsAreShares low high qs) (out : List Context)
    (h : stackAndCoalesce env qs opts = some out) : ∀ c ∈ out, RelevIsShare low high c := by
  unfold stackAndCoalesce at h
  simp only [Option.bind_eq_bind, Option.bind_eq_some_iff] at h
  obtain ⟨pms, hc, t, hst, h⟩ := h
  have hw := collapse_shares hc hw
  intro c hcm
  obtain ⟨ls, hs⟩ := C41_any_request (sm := leafSoftMax) hst h c hcm
  have hlim : ∃ limit, (Alone ls → limit = 80) ∧ (¬ Alone ls → limit = 100000) := by
    by_cases ha : Alone ls
    · exact ⟨80, fun _ => rfl, fun h => absurd ha h⟩
    · exact ⟨100000, fun h => absurd h ha, fun _ => rfl⟩
  obtain ⟨limit, hl1, hl2⟩ := hlim
  have hans := fun l hl => hs.answers l hl limit hl1 hl2
  have hstk : IsStack pms (ls.map (·.q)) := by
    refine path_isStack hst hs.path ?_
    rw [List.map_map, List.map_map]
    exact List.map_congr_left fun l hl => (hans l hl).1
  have hpm : ∀ l ∈ ls, l.q ∈ pms := fun l hl => hstk.mem _ (List.mem_map_of_mem hl)
  have hin : List.Forall₂ InShare ((ls.map (·.q)).map fun q => value q.weight)
      (ls.map Level.relev) := by
    rw [List.map_map, List.forall₂_map_left_iff, List.forall₂_map_right_iff, List.forall₂_same]
    intro l hl
    obtain ⟨-, hk, q, hq, kg, hkg, -, o, grids, -, hgrids, hg⟩ := hans l hl
    exact product_share (getMatching_mem hgrids _ hg).relev (hw.weights _ (hpm l hl))
  obtain ⟨n32, s1, s2⟩ := shares_add hw hstk.mem hstk.masks
  rw [show (ls.map (·.q)).map (·.mask) = ls.map (·.q.mask) from List.map_map .., ← hs.mask] at s1 s2
  obtain ⟨xs, e, x1, x2, x3, x4⟩ := share_sum hin
  rw [List.length_map] at x2 x3
  obtain ⟨r, hr, he⟩ := sumRelev_err x1 (x2.trans_le n32)
  have he := abs_le.1 he
  rw [← e] at hr
  have hn : ((ls.map (·.q)).length : ℚ) / 2 ^ 46 ≤ 32 / 2 ^ 46 :=
    div_le_div_of_nonneg_right (by exact_mod_cast n32) (by norm_num)
  have k1 : (32 : ℚ) / 2 ^ 48 + 32 / 2 ^ 46 + 2 / 2 ^ 48 ≤ 1 / 2 ^ 38 := by norm_num
  have k2 : (32 : ℚ) / 2 ^ 48 ≤ 1 := by norm_num
  have k3 : (2 : ℚ) / 2 ^ 48 = 1 / 2 ^ 48 + 1 / 2 ^ 48 := by norm_num
  have k4 : (0 : ℚ) ≤ 1 / 2 ^ 48 := by norm_num
  have k5 : (0 : ℚ) ≤ 32 / 2 ^ 46 := by norm_num
  have k6 : (1 : ℚ) / 2 ^ 48 ≤ 1 / 100 := by norm_num
  by_cases hp : Penalized ls
  · have hrel := hs.penalty hp
    obtain ⟨d, hd, hde⟩ := penalty_value
    have hde := abs_le.1 hde
    have hx0 : 0 ≤ xs.sum := List.sum_nonneg fun x hx => (x1 x hx).1
    have hx32 : xs.sum ≤ 32 := by
      refine (List.sum_le_card_nsmul xs 1 fun x hx => (x1 x hx).2).trans ?_
      rw [nsmul_eq_mul, mul_one]
      exact_mod_cast x2.trans_le n32
    obtain ⟨y, hy, hye⟩ := F64.sub_err (a := r) (b := d) (by rw [abs_lt]; constructor <;> linarith)
    have hye := abs_le.1 hye
    rw [hr, hd, hy] at hrel
    refine ⟨by rw [hrel]; trivial, ?_, ?_⟩
    · rw [hrel]
      change _ ≤ y
      linarith
    · rw [hrel]
      change y ≤ _
      linarith
  · have hrel := hs.plain hp
    rw [hr] at hrel
    refine ⟨by rw [hrel]; trivial, ?_, ?_⟩
    · rw [hrel]
      change _ ≤ r
      linarith
    · rw [hrel]
      change r ≤ _
      linarith

/-- **C102**: when the shares of all tokens add up to at most 1, no relevance is above 1, up to
rounding. -/
theorem C102_at_most_one (env : TreeEnv) (qs : List Subquery) (opts : MatchOpts) (low high : ℕ → ℚ)
    (hw : WeightsAreShares low high qs) (h0 : ∀ i, 0 ≤ high i)
    (h1 : ((List.range 32).map high).sum ≤ 1) (out : List Context)
    (h : stackAndCoalesce env qs opts = some out) : ∀ c ∈ out, value c.relev ≤ 1 + 1 / 2 ^ 38 := by
  intro c hc
  have := (C102_search env qs opts low high hw out h c hc).high
  have := shareOf_le h0 c.mask
  linarith

/-- **C102** for `coalesce` with several phrase matches. -/
theorem C102_coalesce (env : Env) (os : ℕ → IterOrder) (stack : List Subquery) (opts : MatchOpts)
    (low high : ℕ → ℚ) (hlen : 2 ≤ stack.length) (hw : WeightsAreShares low high stack)
    (hd : stack.Pairwise fun a b => a.mask &&& b.mask = 0)
    (hz : env.chk = true ∨ ∀ q ∈ stack, ∀ q' ∈ stack, q.store.zoom < q'.store.zoom + 16)
    (hl : ∃ l, IsLast stack l) (out : List Context) (h : coalesce env os stack opts = some out) :
    ∀ c ∈ out, RelevIsShare low high c := by
  intro c hc
  obtain ⟨l, hl⟩ := hl
  obtain ⟨hf, hrel⟩ := C58_relevance_is_sum env os stack opts hlen ⟨hw.covers, hd, hw.weights⟩ hz l hl
    out h c hc
  obtain ⟨q, g, rest, ent, hmem, hdis, hmask, -⟩ := C39_contexts_consistent env os stack opts hlen
    (fun q hq => (hw.covers q hq).1) hz out h c hc
  generalize (q, g) :: rest = ps at ent hmem hdis hmask
  obtain ⟨n32, s1, s2⟩ := shares_add (stack := ps.map (·.1)) hw
    (fun q hq => by obtain ⟨p, hp, rfl⟩ := List.mem_map.1 hq; exact (hmem p hp).1)
    (List.pairwise_map.2 hdis)
  rw [show (ps.map (·.1)).map (·.mask) = ps.map (·.1.mask) from List.map_map .., ← hmask] at s1 s2
  have hin : List.Forall₂ InShare ((ps.map (·.1)).map fun q => value q.weight)
      (c.entries.map (·.entry.relev)) := by
    rw [List.map_map, List.forall₂_map_left_iff, List.forall₂_map_right_iff]
    clear hmask hdis s1 s2 n32 hrel hf
    generalize c.entries = es at ent
    induction ent with
    | nil => exact .nil
    | cons hm _ ih =>
      refine .cons ?_ (ih fun p hp => hmem p (List.mem_cons_of_mem _ hp))
      obtain ⟨hq, o, k, grids, -, -, hgrids, hg⟩ := hmem _ List.mem_cons_self
      rw [hm.2.2.2.2.2.1]
      exact product_share (getMatching_mem hgrids _ hg).relev (hw.weights _ hq)
  obtain ⟨xs, e, x1, x2, x3, x4⟩ := share_sum hin
  rw [List.length_map] at x2 x3
  have hsum : entrySum c.entries = xs.sum := by
    unfold entrySum
    have hv : (c.entries.map fun e => value e.entry.relev) =
        (c.entries.map (·.entry.relev)).map value := by
      rw [List.map_map]
      rfl
    rw [hv, e, List.map_map]
    exact congrArg _ (List.map_id _)
  rw [hsum] at hrel
  have hrel := abs_le.1 hrel
  have hn : ((ps.map (·.1)).length : ℚ) / 2 ^ 46 ≤ 32 / 2 ^ 46 :=
    div_le_div_of_nonneg_right (by exact_mod_cast n32) (by norm_num)
  have k1 : (32 : ℚ) / 2 ^ 46 + 1 / 2 ^ 39 ≤ 1 / 2 ^ 38 := by norm_num
  have k5 : (0 : ℚ) ≤ 32 / 2 ^ 46 := by norm_num
  have hpen : (0 : ℚ) ≤ (if c.first.mask = l.mask then penalty c.entries else 0) ∧
      (if c.first.mask = l.mask then penalty c.entries else 0) ≤ (1 / 100 : ℚ) := by
    unfold penalty
    split_ifs
    · split
      · split_ifs <;> norm_num
      · norm_num
    · norm_num
  exact ⟨hf, by linarith [hpen.2], by linarith [hpen.1]⟩

/-- **C102** for `coalesce` with one phrase match. -/
theorem C102_single (env : Env) (os : ℕ → IterOrder) (q : Subquery) (opts : MatchOpts)
    (low high : ℕ → ℚ) (hw : WeightsAreShares low high [q]) (out : List Context)
    (h : coalesce env os [q] opts = some out) : ∀ c ∈ out, RelevIsShare low high c := by
  intro c hc
  obtain ⟨e, he, hrel, hmask⟩ := C58_single env os q opts out h c hc
  obtain ⟨-, hany, -⟩ := C39_any_stack env os [q] opts out h c hc
  obtain ⟨q', hq', g, hg, hm, -⟩ := hany e (by rw [he]; exact List.mem_cons_self)
  rw [List.mem_singleton] at hq'
  subst hq'
  have hq : q' ∈ [q'] := List.mem_cons_self
  have hgr : g.entry.relev ∈ queryRelevs := by
    unfold AnswersIn at hg
    split_ifs at hg
    · obtain ⟨k, grids, -, h, hg⟩ := hg
      exact (getMatching_mem h g hg).relev
    · obtain ⟨_, k, grids, -, -, h, hg⟩ := hg
      exact (getMatching_mem h g hg).relev
  obtain ⟨x, hx, x0, x1, x2, x3⟩ := product_share hgr (hw.weights q' hq)
  rw [hm.2.2.2.2.2.1, hx] at hrel
  have l := hw.low q' hq
  have u := hw.high q' hq
  have k : (1 : ℚ) / 2 ^ 46 ≤ 1 / 2 ^ 38 := by norm_num
  have k' : (0 : ℚ) ≤ 1 / 2 ^ 46 := by norm_num
  refine ⟨by rw [hrel]; trivial, ?_, ?_⟩
  · rw [hrel, hmask]
    change _ ≤ x
    linarith
  · rw [hrel, hmask]
    change x ≤ _
    linarith

/-! ## An example -/

/-- A query of two tokens. -/
def halves (i : ℕ) : ℚ := if i < 2 then 1 / 2 else 0

theorem growth_shares : WeightsAreShares halves halves growthMatches := by
  have h : ∀ q ∈ growthMatches, (q.mask ≠ 0 ∧ q.mask < 2 ^ 32) ∧
      (q.weight.IsFin ∧ q.weight.Valid ∧ 0 ≤ q.weight ∧ q.weight ≤ 1) ∧
      shareOf halves q.mask = value q.weight := by decide +kernel
  exact ⟨fun q hq => (h q hq).1, fun q hq => (h q hq).2.1, fun q hq => (h q hq).2.2.le,
    fun q hq => (h q hq).2.2.ge⟩

/-- A context covers the whole query, and its relevance is at most 1. -/
example : ∃ out, stackAndCoalesce (listTreeEnv false) growthMatches plainOpts = some out ∧
    (∃ c ∈ out, shareOf halves c.mask = 1) ∧ (∀ c ∈ out, RelevIsShare halves halves c) ∧
    ∀ c ∈ out, value c.relev ≤ 1 + 1 / 2 ^ 38 := by
  have h1 : (stackAndCoalesce (listTreeEnv false) growthMatches plainOpts).map
      (fun out => decide (∃ c ∈ out, shareOf halves c.mask = 1)) = some true := by decide +kernel
  obtain ⟨out, ho, h2⟩ := Option.map_eq_some_iff.1 h1
  refine ⟨out, ho, of_decide_eq_true h2, C102_search _ _ _ _ _ growth_shares out ho,
    C102_at_most_one _ _ _ _ _ growth_shares (fun i => ?_) (by decide +kernel) out ho⟩
  unfold halves
  split_ifs <;> norm_num

/-- The same phrase matches in `coalesce`. -/
example : ∃ out, coalesce (listTreeEnv false).toEnv (fun _ => .id) growthMatches plainOpts =
    some out ∧ (∃ c ∈ out, shareOf halves c.mask = 1) ∧ ∀ c ∈ out, RelevIsShare halves halves c := by
  have h1 : (coalesce (listTreeEnv false).toEnv (fun _ => .id) growthMatches plainOpts).map
      (fun out => decide (∃ c ∈ out, shareOf halves c.mask = 1)) = some true := by decide +kernel
  obtain ⟨out, ho, h2⟩ := Option.map_eq_some_iff.1 h1
  refine ⟨out, ho, of_decide_eq_true h2, C102_coalesce _ _ _ _ _ _ (by decide) growth_shares
    (by decide +kernel) (.inr (by decide +kernel)) ?_ out ho⟩
  refine ⟨growthMatches[1], List.getElem_mem _, fun q hq hne => .inl ?_⟩
  simp only [growthMatches, List.mem_cons, List.not_mem_nil, or_false] at hq
  rcases hq with rfl | rfl
  · decide +kernel
  · exact absurd rfl hne

end Carmen
