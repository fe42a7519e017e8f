import Verif.Lemmas.CoalesceMulti
import Verif.Lemmas.QueryAny
import Verif.Spec.Nested
import Verif.F64.Error

/-!
# The relevance of a context is the sum of those of its entries
-/

namespace Carmen
open Spec

/-! ## Disjoint masks -/

/-- Pairwise disjoint non-empty sets of 32 tokens: there are at most 32 of them. -/
theorem length_le_of_disjoint {l : List ℕ} (h0 : ∀ m ∈ l, m ≠ 0 ∧ m < 2 ^ 32)
    (hd : l.Pairwise fun a b => a &&& b = 0) : l.length ≤ 32 := by
  have hnd : (l.map Nat.log2).Nodup := by
    rw [List.Nodup, List.pairwise_map]
    refine hd.imp_of_mem ?_
    intro a b ha hb hab he
    have h1 := Nat.testBit_log2 (h0 a ha).1
    have h2 := Nat.testBit_log2 (h0 b hb).1
    rw [← he] at h2
    have := congrArg (fun n => n.testBit a.log2) hab
    simp [h1, h2] at this
  have hsub : (l.map Nat.log2) ⊆ List.range 32 := by
    intro i hi
    obtain ⟨m, hm, rfl⟩ := List.mem_map.1 hi
    rw [List.mem_range]
    exact (Nat.log2_lt (h0 m hm).1).2 (h0 m hm).2
  have := (List.subperm_of_subset hnd hsub).length_le
  simpa using this

/-! ## The bookkeeping -/

/-- An entry of a context: its relevance is one of at most eight values that go with its mask. -/
structure EntryOk (vals : ℕ → List ℚ) (e : CoalesceEntry) : Prop where
  mask : e.mask ≠ 0 ∧ e.mask < 2 ^ 32
  relev : ∃ r, e.entry.relev = .fin r ∧ 0 ≤ r ∧ r ≤ 1 ∧ r ∈ vals e.mask

/-- How many roundings went into a context because of this entry, at most. -/
def entryCost (vals : ℕ → List ℚ) (e : CoalesceEntry) : ℕ :=
  1 + 2 * (vals e.mask).countP (· < value e.entry.relev)

theorem entryCost_le {vals : ℕ → List ℚ} (hv : ∀ m, (vals m).length ≤ 8) {e : CoalesceEntry}
    (h : EntryOk vals e) : entryCost vals e ≤ 15 := by
  obtain ⟨r, hr, _, _, hm⟩ := h.relev
  unfold entryCost
  rw [hr]
  have hlt : (vals e.mask).countP (· < r) < (vals e.mask).length := by
    refine lt_of_le_of_ne List.countP_le_length fun he => ?_
    rw [List.countP_eq_length] at he
    simpa using he r hm
  have h8 := hv e.mask
  show 1 + 2 * (vals e.mask).countP (· < r) ≤ 15
  omega

theorem countP_lt_of_lt {l : List ℚ} {a b : ℚ} (ha : a ∈ l) (hab : a < b) :
    l.countP (· < a) < l.countP (· < b) := by
  induction l with
  | nil => cases ha
  | cons c t ih =>
    have hle : t.countP (· < a) ≤ t.countP (· < b) :=
      List.countP_mono_left fun x _ hx => by
        have : x < a := by simpa using hx
        simpa using this.trans hab
    rw [List.countP_cons, List.countP_cons]
    rcases List.mem_cons.1 ha with rfl | ha
    · rw [if_neg (by simp), if_pos (by simpa using hab)]
      omega
    · have := ih ha
      split_ifs with h1 h2
      · omega
      · have h1 : c < a := by simpa using h1
        exact absurd (h1.trans hab) (by simpa using h2)
      · omega
      · omega

/-- A context under construction. -/
structure AccOk (vals : ℕ → List ℚ) (entries : List CoalesceEntry) (mask : ℕ) (relev : F64) :
    Prop where
  ne : entries ≠ []
  ok : ∀ e ∈ entries, EntryOk vals e
  disjoint : entries.Pairwise fun a b => a.mask &&& b.mask = 0
  mask : mask = unionMask (entries.map (·.mask))
  relev : ∃ R, relev = .fin R ∧
    |R - entrySum entries| ≤ ((entries.tail.map (entryCost vals)).sum : ℕ) / 2 ^ 48

theorem AccOk.length_le {vals : ℕ → List ℚ} {es : List CoalesceEntry} {m : ℕ} {r : F64}
    (h : AccOk vals es m r) : es.length ≤ 32 := by
  have := length_le_of_disjoint (l := es.map (·.mask)) (by
    intro m hm
    obtain ⟨e, he, rfl⟩ := List.mem_map.1 hm
    exact (h.ok e he).mask) (List.pairwise_map.2 h.disjoint)
  simpa using this

theorem sum_map_le {α : Type} {l : List α} {f : α → ℕ} {k : ℕ} (h : ∀ a ∈ l, f a ≤ k) :
    (l.map f).sum ≤ l.length * k := by
  induction l with
  | nil => simp
  | cons a t ih =>
    rw [List.map_cons, List.sum_cons, List.length_cons, Nat.add_mul, Nat.one_mul]
    have h1 := h a List.mem_cons_self
    have h2 := ih fun a ha => h a (List.mem_cons_of_mem _ ha)
    omega

theorem AccOk.cost_le {vals : ℕ → List ℚ} (hv : ∀ m, (vals m).length ≤ 8)
    {es : List CoalesceEntry} {m : ℕ} {r : F64} (h : AccOk vals es m r) :
    (es.tail.map (entryCost vals)).sum ≤ 465 := by
  have h1 := sum_map_le (l := es.tail) (f := entryCost vals) (k := 15)
    fun e he => entryCost_le hv (h.ok e (List.mem_of_mem_tail he))
  have h2 := h.length_le
  have h3 : es.tail.length = es.length - 1 := List.length_tail
  rw [h3] at h1
  omega

theorem entrySum_bounds {vals : ℕ → List ℚ} {es : List CoalesceEntry}
    (h : ∀ e ∈ es, EntryOk vals e) : 0 ≤ entrySum es ∧ entrySum es ≤ es.length := by
  induction es with
  | nil => simp [entrySum]
  | cons e t ih =>
    obtain ⟨r, hr, h0, h1, _⟩ := (h e List.mem_cons_self).relev
    have h2 := ih fun e he => h e (List.mem_cons_of_mem _ he)
    unfold entrySum at h2 ⊢
    rw [List.map_cons, List.sum_cons, hr, List.length_cons]
    push_cast
    show 0 ≤ r + _ ∧ r + _ ≤ _
    constructor <;> linarith

/-- The relevance of a context is off by less than `2 ^ -39`. -/
theorem AccOk.near {vals : ℕ → List ℚ} (hv : ∀ m, (vals m).length ≤ 8)
    {es : List CoalesceEntry} {m : ℕ} {r : F64} (h : AccOk vals es m r) :
    ∃ R, r = .fin R ∧ |R - entrySum es| ≤ 465 / 2 ^ 48 ∧ 0 ≤ entrySum es ∧ entrySum es ≤ 32 := by
  obtain ⟨R, hR, he⟩ := h.relev
  refine ⟨R, hR, he.trans ?_, (entrySum_bounds h.ok).1, (entrySum_bounds h.ok).2.trans ?_⟩
  · have : ((es.tail.map (entryCost vals)).sum : ℚ) ≤ 465 := by exact_mod_cast h.cost_le hv
    exact div_le_div_of_nonneg_right this (by positivity)
  · exact_mod_cast h.length_le

/-! ## One parent entry -/

/-- The loop over parents. -/
structure AbsorbRel (vals : ℕ → List ℚ) (a : Absorb) : Prop where
  acc : AccOk vals a.entries a.mask a.relev
  prev : a.prevMask ≠ 0 → ∃ init l, a.entries = init ++ [l] ∧ init ≠ [] ∧ l.mask = a.prevMask ∧
    l.entry.relev = a.prevRelev

theorem entrySum_append (a b : List CoalesceEntry) :
    entrySum (a ++ b) = entrySum a + entrySum b := by
  simp [entrySum]

theorem entrySum_singleton (e : CoalesceEntry) : entrySum [e] = value e.entry.relev := by
  simp [entrySum]

theorem absorbRel_step {vals : ℕ → List ℚ} (hv : ∀ m, (vals m).length ≤ 8) {a : Absorb}
    (h : AbsorbRel vals a) {p : CoalesceEntry} (hp : EntryOk vals p) :
    AbsorbRel vals (a.step p) := by
  obtain ⟨R, hR, hnear, hs0, hs32⟩ := h.acc.near hv
  obtain ⟨R', hR', herr⟩ := h.acc.relev
  have : R' = R := by rw [hR] at hR'; exact (F64.fin.inj hR').symm
  subst this
  obtain ⟨r, hr, hr0, hr1, hrm⟩ := hp.relev
  have hnear' := abs_le.1 hnear
  have hk : (465:ℚ) / 2 ^ 48 ≤ 1 := by norm_num
  unfold Absorb.step
  split_ifs with h1 h2
  · -- the last entry is replaced
    obtain ⟨h1, hlt⟩ := h1
    obtain ⟨init, l, hent, hne, hlm, hlr⟩ := h.prev (by rw [← h1]; exact hp.mask.1)
    have hl : EntryOk vals l := h.acc.ok l (by rw [hent]; simp)
    obtain ⟨s, hs, hs0', hs1, hsm⟩ := hl.relev
    have hps : a.prevRelev = .fin s := by rw [← hlr, hs]
    have hsr : s < r := by
      rw [hps, hr] at hlt
      simpa [F64.flt] using hlt
    obtain ⟨x, hx, hxe⟩ := F64.sub_err (a := R') (b := s) (by rw [abs_lt]; constructor <;> linarith)
    have hxe' := abs_le.1 hxe
    have h48 : (1:ℚ) / 2 ^ 48 ≤ 1 := by norm_num
    obtain ⟨y, hy, hye⟩ := F64.add_err (a := x) (b := r) (by rw [abs_lt]; constructor <;> linarith)
    have hmp : l.mask = p.mask := by rw [hlm, h1]
    have hcost : entryCost vals l + 2 ≤ entryCost vals p := by
      unfold entryCost
      rw [hmp, hs, hr]
      have := countP_lt_of_lt (l := vals p.mask) (by rw [← hmp]; exact hsm) hsr
      show 1 + 2 * (vals p.mask).countP (· < s) + 2 ≤ 1 + 2 * (vals p.mask).countP (· < r)
      omega
    refine ⟨⟨by simp, ?_, ?_, ?_, y, ?_, ?_⟩, ?_⟩
    · intro e he
      rcases List.mem_append.1 he with he | he
      · exact h.acc.ok e (List.mem_of_mem_dropLast he)
      · rw [List.mem_singleton] at he; subst he; exact hp
    · show (a.entries.dropLast ++ [p]).Pairwise _
      have hd := h.acc.disjoint
      rw [hent] at hd ⊢
      rw [List.dropLast_concat]
      have hd := List.pairwise_append.1 hd
      refine List.pairwise_append.2 ⟨hd.1, List.pairwise_singleton _ _, ?_⟩
      intro u hu w hw
      rw [List.mem_singleton] at hw
      subst hw
      rw [← hmp]
      exact hd.2.2 u hu l (by simp)
    · show a.mask = unionMask ((a.entries.dropLast ++ [p]).map _)
      rw [h.acc.mask, hent, List.dropLast_concat, List.map_append, List.map_append,
        List.map_singleton, List.map_singleton, unionMask_append, unionMask_append, hmp]
    · show a.relev - a.prevRelev + p.entry.relev = _
      rw [hR, hps, hr, hx, hy]
    · show |y - entrySum (a.entries.dropLast ++ [p])| ≤
        (((a.entries.dropLast ++ [p]).tail.map (entryCost vals)).sum : ℕ) / 2 ^ 48
      rw [hent] at herr ⊢
      rw [List.dropLast_concat, entrySum_append, entrySum_singleton, hr]
      rw [entrySum_append, entrySum_singleton, hs] at herr
      rw [List.tail_append_of_ne_nil hne, List.map_append, List.sum_append, List.map_singleton,
        List.sum_singleton] at herr ⊢
      have hc : ((((init.tail.map (entryCost vals)).sum + entryCost vals l : ℕ) : ℚ) + 2) ≤
          (((init.tail.map (entryCost vals)).sum + entryCost vals p : ℕ) : ℚ) := by
        exact_mod_cast (by omega)
      have herr' := abs_le.1 herr
      have hye' := abs_le.1 hye
      have hdiv := div_le_div_of_nonneg_right hc (by positivity : (0:ℚ) ≤ 2 ^ 48)
      rw [add_div] at hdiv
      have h2 : (2:ℚ) / 2 ^ 48 = 1 / 2 ^ 48 + 1 / 2 ^ 48 := by norm_num
      rw [h2] at hdiv
      simp only [value] at herr' ⊢
      rw [abs_le]
      constructor <;> linarith
    · intro _
      exact ⟨a.entries.dropLast, p, rfl, by rw [hent, List.dropLast_concat]; exact hne, rfl, rfl⟩
  · -- a new entry
    obtain ⟨y, hy, hye⟩ := F64.add_err (a := R') (b := r) (by rw [abs_lt]; constructor <;> linarith)
    refine ⟨⟨by simp, ?_, ?_, ?_, y, ?_, ?_⟩, ?_⟩
    · intro e he
      rcases List.mem_append.1 he with he | he
      · exact h.acc.ok e he
      · rw [List.mem_singleton] at he; subst he; exact hp
    · refine List.pairwise_append.2 ⟨h.acc.disjoint, List.pairwise_singleton _ _, ?_⟩
      intro u hu w hw
      rw [List.mem_singleton] at hw
      subst hw
      rw [h.acc.mask, Nat.and_comm] at h2
      have := and_unionMask h2 u.mask (List.mem_map_of_mem hu)
      rw [Nat.and_comm]
      exact this
    · show a.mask ||| p.mask = unionMask ((a.entries ++ [p]).map _)
      rw [h.acc.mask, List.map_append, List.map_singleton, unionMask_append]
    · show a.relev + p.entry.relev = _
      rw [hR, hr, hy]
    · show |y - entrySum (a.entries ++ [p])| ≤
        (((a.entries ++ [p]).tail.map (entryCost vals)).sum : ℕ) / 2 ^ 48
      rw [entrySum_append, entrySum_singleton, hr, List.tail_append_of_ne_nil h.acc.ne,
        List.map_append, List.sum_append, List.map_singleton, List.sum_singleton]
      have hc : (((a.entries.tail.map (entryCost vals)).sum : ℕ) : ℚ) + 1 ≤
          (((a.entries.tail.map (entryCost vals)).sum + entryCost vals p : ℕ) : ℚ) := by
        have : 1 ≤ entryCost vals p := by unfold entryCost; omega
        exact_mod_cast (by omega)
      have hdiv := div_le_div_of_nonneg_right hc (by positivity : (0:ℚ) ≤ 2 ^ 48)
      rw [add_div] at hdiv
      have herr' := abs_le.1 herr
      have hye' := abs_le.1 hye
      simp only [value]
      rw [abs_le]
      constructor <;> linarith
    · intro _
      exact ⟨a.entries, p, rfl, h.acc.ne, rfl, rfl⟩
  · exact h

theorem absorbRel_foldl {vals : ℕ → List ℚ} (hv : ∀ m, (vals m).length ≤ 8)
    {ps : List CoalesceEntry} (hp : ∀ p ∈ ps, EntryOk vals p) {a : Absorb}
    (h : AbsorbRel vals a) : AbsorbRel vals (ps.foldl Absorb.step a) := by
  induction ps generalizing a with
  | nil => exact h
  | cons p t ih =>
    exact ih (fun p hp' => hp p (List.mem_cons_of_mem _ hp'))
      (absorbRel_step hv h (hp p List.mem_cons_self))

/-! ## One grid -/

/-- The bookkeeping of a context. -/
def CtxRel (vals : ℕ → List ℚ) (c : Context) : Prop := AccOk vals c.entries c.mask c.relev

theorem absorbZoom_rel {vals : ℕ → List ℚ} (hv : ∀ m, (vals m).length ≤ 8) {chk : Bool}
    {zoom oz : ℕ} {m : HMap Zxy (List Context)} (hm : AllCtx (fun _ c => CtxRel vals c) m)
    {c c' : Context} (hc : CtxRel vals c) (h : absorbZoom chk zoom m c oz = some c') :
    CtxRel vals c' := by
  unfold absorbZoom at h
  rw [Option.bind_eq_bind, Option.bind_eq_some_iff] at h
  obtain ⟨z, _, h⟩ := h
  cases hf : HMap.find z m with
  | none => rw [hf] at h; cases h; exact hc
  | some ps =>
    rw [hf] at h
    cases h
    refine (absorbRel_foldl hv ?_ (a := ⟨c.entries, c.mask, c.relev, 0, 0⟩)
      ⟨hc, fun hne => absurd rfl hne⟩).acc
    intro p hp
    obtain ⟨d, hd, hp⟩ := List.mem_flatMap.1 hp
    exact (hm.find hf d hd).ok p hp

theorem absorbZooms_rel {vals : ℕ → List ℚ} (hv : ∀ m, (vals m).length ≤ 8) {chk : Bool}
    {zoom : ℕ} {m : HMap Zxy (List Context)} (hm : AllCtx (fun _ c => CtxRel vals c) m)
    {ozs : List ℕ} {c c' : Context} (hc : CtxRel vals c)
    (h : ozs.foldlM (absorbZoom chk zoom m) c = some c') : CtxRel vals c' := by
  induction ozs generalizing c with
  | nil => cases h; exact hc
  | cons z t ih =>
    rw [List.foldlM_cons, Option.bind_eq_bind, Option.bind_eq_some_iff] at h
    obtain ⟨c1, h1, h⟩ := h
    exact ih (absorbZoom_rel hv hm hc h1) h

/-! ## The values a phrase match gives -/

/-- The relevances queries give. -/
def queryRelevs : List F64 :=
  [lit 0.4, lit 0.6, lit 0.8, 1, lit 0.4 * lit 0.96, lit 0.6 * lit 0.96, lit 0.8 * lit 0.96,
    1 * lit 0.96]

/-- The relevances entries of the phrase match with mask `m` can have. -/
def relevVals (stack : List Subquery) (m : ℕ) : List ℚ :=
  match stack.find? fun q => q.mask == m with
  | some q => queryRelevs.map fun r => value (r * q.weight)
  | none => []

theorem relevVals_length (stack : List Subquery) (m : ℕ) : (relevVals stack m).length ≤ 8 := by
  unfold relevVals
  split
  · simp [queryRelevs]
  · simp

theorem eq_of_mask {stack : List Subquery} (h : StackOk stack) {a b : Subquery} (ha : a ∈ stack)
    (hb : b ∈ stack) (hm : a.mask = b.mask) : a = b := by
  by_contra hne
  have hs : Std.Symm fun a b : Subquery => a.mask &&& b.mask = 0 :=
    ⟨fun a b hab => by rw [Nat.and_comm]; exact hab⟩
  have := h.disjoint.forall ha hb hne
  rw [hm, Nat.and_self] at this
  exact (h.covers b hb).1 this

theorem relevVals_of_mem {stack : List Subquery} (h : StackOk stack) {q : Subquery}
    (hq : q ∈ stack) :
    relevVals stack q.mask = queryRelevs.map fun r => value (r * q.weight) := by
  unfold relevVals
  have hsome : (stack.find? fun p => p.mask == q.mask).isSome := by
    rw [List.find?_isSome]
    exact ⟨q, hq, by simp⟩
  obtain ⟨p, hp⟩ := Option.isSome_iff_exists.1 hsome
  rw [hp]
  have h1 := List.mem_of_find?_eq_some hp
  have h2 : p.mask = q.mask := by simpa using List.find?_some hp
  rw [eq_of_mask h h1 hq h2]

/-- Every entry of a grid of a phrase match is accounted for. -/
theorem toEntry_ok {env : Env} {opts : MatchOpts} {stack : List Subquery} (h : StackOk stack)
    {q : Subquery} (hq : q ∈ stack) {g : MatchEntry} (hg : Answers env opts q g) :
    EntryOk (relevVals stack) (toEntry g q 0) := by
  obtain ⟨adj, k, grids, _, _, hqr, hgm⟩ := hg
  have hres := getMatching_mem hqr g hgm
  obtain ⟨h1, _, h2, h3⟩ := hres.relev_bounds
  obtain ⟨w1, w2, w3, w4⟩ := h.weights q hq
  have h0 := F64.mul_nonneg' h1 w1 h2.le w3
  have hle := F64.mul_le_right h1 w1 w2 w3 h3
  obtain ⟨a, ha⟩ := h1.exists
  obtain ⟨w, hw⟩ := w1.exists
  have hfin : (g.entry.relev * q.weight).IsFin := by
    cases hx : g.entry.relev * q.weight with
    | fin x => trivial
    | nan => rw [ha, hw] at hx; exact absurd hx (F64.ofRat_ne_nan _)
    | inf s =>
      rw [hx] at h0 hle
      rw [hw] at hle
      cases s
      · exact absurd hle F64.not_inf_le_fin
      · exact absurd h0 (by decide)
  obtain ⟨r, hr⟩ := hfin.exists
  refine ⟨h.covers q hq, r, hr, ?_, ?_, ?_⟩
  · rw [hr] at h0
    exact F64.fin_le_fin.1 h0
  · have := hle.trans w4
    rw [hr] at this
    exact F64.fin_le_fin.1 this
  · show r ∈ relevVals stack q.mask
    rw [relevVals_of_mem h hq]
    refine List.mem_map.2 ⟨g.entry.relev, hres.relev, ?_⟩
    rw [hr]
    rfl

/-- A context of one grid. -/
theorem ctxRel_one {env : Env} {opts : MatchOpts} {stack : List Subquery} (h : StackOk stack)
    {q : Subquery} (hq : q ∈ stack) {g : MatchEntry} (hg : Answers env opts q g) :
    CtxRel (relevVals stack) ⟨q.mask, g.entry.relev * q.weight, [toEntry g q 0]⟩ := by
  have hok := toEntry_ok h hq hg
  obtain ⟨r, hr, _⟩ := hok.relev
  refine ⟨by simp, ?_, List.pairwise_singleton _ _, by simp [unionMask, toEntry], r, hr, ?_⟩
  · intro e he
    rw [List.mem_singleton] at he
    subst he
    exact hok
  · rw [entrySum_singleton, hr]
    simp [value]

theorem gridStep_rel {env : Env} {opts : MatchOpts} {stack : List Subquery} (h : StackOk stack) :
    GridStep env opts stack (fun _ c => CtxRel (relevVals stack) c) := by
  intro q hq g hg m hm c hc
  exact absorbZooms_rel (relevVals_length stack) hm (ctxRel_one h hq hg) hc

/-- A context as it is, without a penalty. -/
theorem CtxRel.relevIs {stack : List Subquery} {c : Context} (h : CtxRel (relevVals stack) c) :
    RelevIs c 0 := by
  obtain ⟨R, hR, he, _, _⟩ := h.near (relevVals_length stack)
  refine ⟨by rw [hR]; trivial, ?_⟩
  rw [hR, sub_zero]
  exact he.trans (by norm_num)

theorem penalize_relev (c : Context) : c.penalize.relev =
    if penalty c.entries = 0 then c.relev else c.relev - lit 0.01 := by
  obtain ⟨m, r, es⟩ := c
  rcases es with _ | ⟨e0, _ | ⟨e1, es⟩⟩
  · simp [Context.penalize, penalty]
  · simp [Context.penalize, penalty]
  · simp only [Context.penalize, penalty]
    split_ifs <;> first | rfl | simp_all

/-- A context after the penalty. -/
theorem CtxRel.relevIs_penalize {stack : List Subquery} {c : Context}
    (h : CtxRel (relevVals stack) c) : RelevIs c.penalize (penalty c.entries) := by
  obtain ⟨R, hR, he, h0, h32⟩ := h.near (relevVals_length stack)
  unfold RelevIs
  rw [penalize_entries, penalize_relev]
  have hpen : penalty c.entries = 0 ∨ penalty c.entries = 1 / 100 := by
    unfold penalty
    split
    · split_ifs <;> simp
    · simp
  rcases hpen with hp | hp
  · rw [hp, if_pos rfl]
    exact h.relevIs
  · rw [hp, if_neg (by norm_num)]
    obtain ⟨d, hd, hde⟩ := F64.ofRat_err (q := 0.01) (by norm_num)
    have hl : lit 0.01 = .fin d := hd
    have he' := abs_le.1 he
    have hde' := abs_le.1 hde
    have hk : (465:ℚ) / 2 ^ 48 ≤ 1 := by norm_num
    have hk1 : (1:ℚ) / 2 ^ 48 ≤ 1 := by norm_num
    obtain ⟨y, hy, hye⟩ := F64.sub_err (a := R) (b := d) (by
      rw [abs_lt]; norm_num at hde' ⊢; constructor <;> linarith)
    rw [hR, hl, hy]
    refine ⟨trivial, ?_⟩
    have hye' := abs_le.1 hye
    have hk2 : (465:ℚ) / 2 ^ 48 + 1 / 2 ^ 48 + 1 / 2 ^ 48 ≤ 1 / 2 ^ 39 := by norm_num
    have hk3 : (0.01 : ℚ) = 1 / 100 := by norm_num
    rw [hk3] at hde'
    simp only [value]
    rw [abs_le]
    constructor <;> linarith

end Carmen
