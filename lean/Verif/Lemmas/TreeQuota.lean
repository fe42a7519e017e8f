import Verif.Lemmas.TreeRound
import Verif.Spec.TreeCoalesce

/-!
# The quotas of `tree_coalesce`
-/

namespace Carmen

/-- An invariant of counters and queued scans is one of filling a chunk. -/
theorem fillChunk_counts {env : TreeEnv} {cache : HMap ℕ (List MatchEntry)}
    {contexts : List Context} {P : Counts → List FetchKey → Prop}
    (hkey : ∀ step f kg f', KeyMove env step f kg f' → P f.counts f.keys → P f'.counts f'.keys)
    {n : ℕ} {f f' : Fill} (hP : P f.counts f.keys)
    (h : fillChunk env cache contexts n f = some f') : P f'.counts f'.keys := by
  induction n generalizing f with
  | zero => cases h; exact hP
  | succ n ih =>
    unfold fillChunk at h
    by_cases h1 : chunkSize ≤ f.added
    · rw [if_pos h1] at h
      cases h
      exact hP
    · rw [if_neg h1] at h
      cases hp : env.steps.peekMax f.steps with
      | none =>
        rw [hp] at h
        cases h
        exact hP
      | some step =>
        rw [hp] at h
        simp only at h
        by_cases hc : cannotBeat env contexts step = true
        · rw [if_pos hc] at h
          cases h
          exact hP
        · rw [if_neg hc] at h
          simp only [Option.bind_eq_bind, Option.bind_eq_some_iff] at h
          obtain ⟨g, hg, h⟩ := h
          refine ih ?_ h
          show P g.counts g.keys
          have : ∀ (kgs : List KeyWithId) (a : Fill), P a.counts a.keys →
              kgs.foldlM (considerKey env cache contexts step step.isSingle) a = some g →
              P g.counts g.keys := by
            intro kgs
            induction kgs with
            | nil => intro a ha hf; cases hf; exact ha
            | cons k t iht =>
              intro a ha hf
              rw [List.foldlM_cons, Option.bind_eq_bind, Option.bind_eq_some_iff] at hf
              obtain ⟨b, hb, hf⟩ := hf
              exact iht b (hkey step a k b (considerKey_move hb) ha) hf
          exact this _ { f with steps := env.steps.popMax f.steps, enqueued := false } hP hg

/-- Every counter is at least the number of its scans and at most its quota. -/
structure QuotaOk (c : Counts) (n : Counts) : Prop where
  letters : n.oneLetter ≤ c.oneLetter ∧ c.oneLetter ≤ 8
  words : n.oneWord ≤ c.oneWord ∧ c.oneWord ≤ 40
  wordsHigh : n.oneWordHigh ≤ c.oneWordHigh ∧ c.oneWordHigh ≤ 8
  ranges : n.allHighRange ≤ c.allHighRange ∧ c.allHighRange ≤ 40
  highs : n.allHigh ≤ c.allHigh ∧ c.allHigh ≤ 600

/-- Adding up numbers of scans. -/
def Counts.plus (a b : Counts) : Counts :=
  ⟨a.oneLetter + b.oneLetter, a.oneWord + b.oneWord, a.oneWordHigh + b.oneWordHigh,
    a.allHighRange + b.allHighRange, a.allHigh + b.allHigh⟩

theorem Counts.plus_assoc (a b c : Counts) : (a.plus b).plus c = a.plus (b.plus c) := by
  simp only [Counts.plus, Nat.add_assoc]

theorem Counts.plus_zero (a : Counts) : a.plus ⟨0, 0, 0, 0, 0⟩ = a := rfl

theorem Counts.zero_plus (a : Counts) : Counts.plus ⟨0, 0, 0, 0, 0⟩ a = a := by
  simp only [Counts.plus, Nat.zero_add]

/-- A quota check that allows for `d` more scans when it passes. -/
def Takes (f : Counts → Counts × Bool) (d : Counts) : Prop :=
  ∀ c n, QuotaOk c n → QuotaOk (f c).1 n ∧ ((f c).2 = true → QuotaOk (f c).1 (n.plus d))

theorem Takes.pass : Takes (fun c => (c, true)) ⟨0, 0, 0, 0, 0⟩ := fun _ _ h => ⟨h, fun _ => h⟩

theorem Takes.andThen {f g : Counts → Counts × Bool} {d e : Counts} (hf : Takes f d)
    (hg : Takes g e) : Takes (fun c => Counts.andThen (f c) g) (d.plus e) := by
  intro c n h
  obtain ⟨h1, h2⟩ := hf c n h
  simp only [Counts.andThen]
  by_cases hb : (f c).2 = true
  · rw [if_pos hb]
    refine ⟨(hg _ _ h1).1, fun h3 => ?_⟩
    rw [← Counts.plus_assoc]
    exact (hg _ _ (h2 hb)).2 h3
  · rw [if_neg hb]
    exact ⟨h1, fun h3 => absurd h3 hb⟩

theorem Takes.ite {b : Bool} {f g : Counts → Counts × Bool} {d e : Counts} (hf : Takes f d)
    (hg : Takes g e) : Takes (fun c => if b then f c else g c) (if b then d else e) := by
  cases b
  · exact hg
  · exact hf

theorem takes_oneLetter (kg : KeyWithId) : Takes (Counts.takeOneLetter kg)
    ⟨if kg.phraseLength = 1 then 1 else 0, 0, 0, 0, 0⟩ := by
  intro c n h
  obtain ⟨h1, h2, h3, h4, h5⟩ := h
  unfold Counts.takeOneLetter oneLetterQuota
  by_cases hl : kg.phraseLength = 1
  · rw [if_pos hl, if_pos hl]
    by_cases hc : c.oneLetter < 8
    · rw [if_pos hc]
      exact ⟨⟨by simp only; omega, h2, h3, h4, h5⟩,
        fun _ => ⟨by simp only [Counts.plus]; omega, h2, h3, h4, h5⟩⟩
    · rw [if_neg hc]
      exact ⟨⟨h1, h2, h3, h4, h5⟩, fun h => by cases h⟩
  · rw [if_neg hl, if_neg hl]
    exact ⟨⟨h1, h2, h3, h4, h5⟩, fun _ => ⟨h1, h2, h3, h4, h5⟩⟩

theorem takes_oneWordHigh (slow : Bool) (kg : KeyWithId) : Takes (Counts.takeOneWordHigh slow kg)
    ⟨0, 0, if slow && !kg.nearbyOnly then 1 else 0, 0, 0⟩ := by
  intro c n h
  obtain ⟨h1, h2, h3, h4, h5⟩ := h
  unfold Counts.takeOneWordHigh oneWordHighQuota
  by_cases hl : (slow && !kg.nearbyOnly) = true
  · rw [if_pos hl, if_pos hl]
    by_cases hc : c.oneWordHigh < 8
    · rw [if_pos hc]
      exact ⟨⟨h1, h2, by simp only; omega, h4, h5⟩,
        fun _ => ⟨h1, h2, by simp only [Counts.plus]; omega, h4, h5⟩⟩
    · rw [if_neg hc]
      exact ⟨⟨h1, h2, h3, h4, h5⟩, fun h => by cases h⟩
  · rw [if_neg hl, if_neg hl]
    exact ⟨⟨h1, h2, h3, h4, h5⟩, fun _ => ⟨h1, h2, h3, h4, h5⟩⟩

theorem takes_oneWord : Takes Counts.takeOneWord ⟨0, 1, 0, 0, 0⟩ := by
  intro c n h
  obtain ⟨h1, h2, h3, h4, h5⟩ := h
  unfold Counts.takeOneWord oneWordQuota
  by_cases hc : c.oneWord < 40
  · rw [if_pos hc]
    exact ⟨⟨h1, by simp only; omega, h3, h4, h5⟩,
      fun _ => ⟨h1, by simp only [Counts.plus]; omega, h3, h4, h5⟩⟩
  · rw [if_neg hc]
    exact ⟨⟨h1, h2, h3, h4, h5⟩, fun h => by cases h⟩

theorem takes_highRange (isRange : Bool) : Takes (Counts.takeHighRange isRange)
    ⟨0, 0, 0, if isRange then 1 else 0, 0⟩ := by
  intro c n h
  obtain ⟨h1, h2, h3, h4, h5⟩ := h
  unfold Counts.takeHighRange allHighRangeQuota
  by_cases hl : isRange = true
  · rw [if_pos hl, if_pos hl]
    by_cases hc : c.allHighRange < 40
    · rw [if_pos hc]
      exact ⟨⟨h1, h2, h3, by simp only; omega, h5⟩,
        fun _ => ⟨h1, h2, h3, by simp only [Counts.plus]; omega, h5⟩⟩
    · rw [if_neg hc]
      exact ⟨⟨h1, h2, h3, h4, h5⟩, fun h => by cases h⟩
  · rw [if_neg hl, if_neg hl]
    exact ⟨⟨h1, h2, h3, h4, h5⟩, fun _ => ⟨h1, h2, h3, h4, h5⟩⟩

theorem takes_allHigh : Takes Counts.takeAllHigh ⟨0, 0, 0, 0, 1⟩ := by
  intro c n h
  obtain ⟨h1, h2, h3, h4, h5⟩ := h
  unfold Counts.takeAllHigh allHighQuota
  by_cases hc : c.allHigh < 600
  · rw [if_pos hc]
    exact ⟨⟨h1, h2, h3, h4, by simp only; omega⟩,
      fun _ => ⟨h1, h2, h3, h4, by simp only [Counts.plus]; omega⟩⟩
  · rw [if_neg hc]
    exact ⟨⟨h1, h2, h3, h4, h5⟩, fun h => by cases h⟩

/-- The counters a new scan is charged to. -/
def charge (slow isRange oneWord : Bool) (kg : KeyWithId) : Counts :=
  Counts.plus
    (if isRange && oneWord then
      ⟨if kg.phraseLength = 1 then 1 else 0, 1, if slow && !kg.nearbyOnly then 1 else 0, 0, 0⟩
    else ⟨0, 0, 0, 0, 0⟩)
    (if slow && !kg.nearbyOnly then ⟨0, 0, 0, if isRange then 1 else 0, 1⟩ else ⟨0, 0, 0, 0, 0⟩)

theorem takes_quotas (slow isRange oneWord : Bool) (kg : KeyWithId) :
    Takes (takeQuotas slow isRange oneWord true kg) (charge slow isRange oneWord kg) := by
  have h1 : Takes (Counts.takeWord slow kg)
      ⟨if kg.phraseLength = 1 then 1 else 0, 1, if slow && !kg.nearbyOnly then 1 else 0, 0, 0⟩ := by
    have := ((takes_oneLetter kg).andThen (takes_oneWordHigh slow kg)).andThen takes_oneWord
    simp only [Counts.plus, Nat.add_zero, Nat.zero_add] at this
    exact this
  have h2 : Takes (fun c => Counts.andThen (Counts.takeHighRange isRange c) Counts.takeAllHigh)
      ⟨0, 0, 0, if isRange then 1 else 0, 1⟩ := by
    have := (takes_highRange isRange).andThen takes_allHigh
    simpa only [Counts.plus, Nat.add_zero, Nat.zero_add] using this
  have h3 := (h1.ite (b := isRange && oneWord) Takes.pass).andThen
    (h2.ite (b := slow && !kg.nearbyOnly) Takes.pass)
  unfold takeQuotas
  rw [Bool.and_true]
  exact h3

theorem takeQuotas_ok {slow isRange oneWord fresh : Bool} {kg : KeyWithId} {c n : Counts}
    (h : QuotaOk c n) : QuotaOk (takeQuotas slow isRange oneWord fresh kg c).1 n := by
  cases fresh with
  | true => exact (takes_quotas slow isRange oneWord kg c n h).1
  | false =>
    have h2 : Takes (fun c => Counts.andThen (Counts.takeHighRange isRange c) Counts.takeAllHigh)
        ⟨0, 0, 0, if isRange then 1 else 0, 1⟩ := by
      have := (takes_highRange isRange).andThen takes_allHigh
      simpa only [Counts.plus, Nat.add_zero, Nat.zero_add] using this
    have h3 := Takes.pass.andThen (h2.ite (b := slow && !kg.nearbyOnly) Takes.pass)
    unfold takeQuotas
    rw [Bool.and_false]
    exact (h3 c n h).1

/-- What a scan is charged to; ranges as the code sees them. -/
def FetchKey.charge (chk : Bool) (k : FetchKey) : Counts :=
  Carmen.charge k.q.store.mightBeSlow ((isRangeKey chk k.kg.key.phrase).getD false)
    (oneToken k.q.mask) k.kg

/-- What some scans are charged to. -/
def chargeAll (chk : Bool) (ks : List FetchKey) : Counts :=
  ks.foldl (fun c k => c.plus (k.charge chk)) ⟨0, 0, 0, 0, 0⟩

theorem fill_quota {env : TreeEnv} {s : TreeState} {f : Fill}
    (hq : QuotaOk s.counts (chargeAll env.chk s.fetched)) (h : s.fill env = some f) :
    QuotaOk f.counts (chargeAll env.chk (s.fetched ++ f.keys)) := by
  refine fillChunk_counts (P := fun c ks => QuotaOk c (chargeAll env.chk (s.fetched ++ ks)))
    ?_ ?_ h
  · intro step f kg f' hm hf
    cases hm with
    | nothing => exact hf
    | count isRange fresh hr => exact takeQuotas_ok hf
    | fetch o isRange ho hr hq hfresh =>
      have := (takes_quotas step.q.store.mightBeSlow isRange (oneToken step.q.mask) kg _ _ hf).2 hq
      simp only [← List.append_assoc]
      unfold chargeAll at this ⊢
      rw [List.foldl_concat]
      unfold FetchKey.charge
      simp only [hr, Option.getD_some]
      exact this
  · simpa using hq

theorem treeRound_quota {env : TreeEnv} {t : StackTree} {opts : MatchOpts} {s s' : TreeState}
    (hq : QuotaOk s.counts (chargeAll env.chk s.fetched))
    (h : treeRound env t opts s = some s') : QuotaOk s'.counts (chargeAll env.chk s'.fetched) := by
  unfold treeRound at h
  simp only [Option.bind_eq_bind, Option.bind_eq_some_iff] at h
  obtain ⟨f, hf, results, hr, expanded, he, h⟩ := h
  rw [← Option.some.inj h]
  exact fill_quota hq hf

theorem treeLoop_quota {env : TreeEnv} {t : StackTree} {opts : MatchOpts} (n : ℕ)
    {s s' : TreeState} (hq : QuotaOk s.counts (chargeAll env.chk s.fetched))
    (h : treeLoop env t opts n s = some s') : QuotaOk s'.counts (chargeAll env.chk s'.fetched) := by
  induction n generalizing s with
  | zero => cases h; exact hq
  | succ n ih =>
    unfold treeLoop at h
    by_cases hf : s.finished = true
    · rw [if_pos hf] at h
      cases h
      exact hq
    · rw [if_neg hf, Option.bind_eq_some_iff] at h
      obtain ⟨s1, h1, h2⟩ := h
      exact ih (treeRound_quota hq h1) h2

/-- A counter that every member of a class of scans is charged to limits the class. -/
theorem atMost_of_charge {chk : Bool} {ks : List FetchKey} {p : FetchKey → Prop}
    {get : Counts → ℕ} (h0 : get ⟨0, 0, 0, 0, 0⟩ = 0)
    (hadd : ∀ a b, get (Counts.plus a b) = get a + get b)
    (hp : ∀ k ∈ ks, p k → 1 ≤ get (k.charge chk)) {n : ℕ} (hn : get (chargeAll chk ks) ≤ n) :
    Spec.AtMost n p ks := by
  have hsum : ∀ (l : List FetchKey) (c : Counts),
      get (l.foldl (fun c k => c.plus (k.charge chk)) c) =
        get c + (l.map fun k => get (k.charge chk)).sum := by
    intro l
    induction l with
    | nil => intro c; simp
    | cons a t ih =>
      intro c
      rw [List.foldl_cons, ih, hadd, List.map_cons, List.sum_cons, Nat.add_assoc]
  unfold chargeAll at hn
  rw [hsum, h0, Nat.zero_add] at hn
  intro s hs hps
  refine le_trans ?_ hn
  refine le_trans ?_ ((hs.map fun k => get (k.charge chk)).sum_le_sum fun _ _ => Nat.zero_le _)
  have : ∀ l : List FetchKey, (∀ k ∈ l, 1 ≤ get (k.charge chk)) →
      l.length ≤ (l.map fun k => get (k.charge chk)).sum := by
    intro l
    induction l with
    | nil => simp
    | cons a t ih =>
      intro hl
      rw [List.length_cons, List.map_cons, List.sum_cons]
      have h1 := hl a (by simp)
      have h2 := ih fun k hk => hl k (List.mem_cons_of_mem _ hk)
      omega
  exact this s fun k hk => hp k (hs.subset hk) (hps k hk)

end Carmen
