import Verif.Spec.Respace
import Verif.Props.Share
import Verif.Props.Wider
import Verif.Lemmas.MovedHits

/-!
# C103: words in between
-/

namespace Carmen
open Spec

/-! ## Masks -/

section
variable {σ : ℕ → ℕ} (hσ : StrictMono σ)

theorem testBit_respace (σ : ℕ → ℕ) (m j : ℕ) :
    (respace σ m).testBit j = true ↔ ∃ i < 32, m.testBit i = true ∧ σ i = j := by
  unfold respace
  rw [testBit_unionMask, List.any_eq_true]
  constructor
  · rintro ⟨x, hx, h⟩
    obtain ⟨i, hi, rfl⟩ := List.mem_map.1 hx
    rw [List.mem_filter, List.mem_range] at hi
    rw [Nat.testBit_two_pow] at h
    exact ⟨i, hi.1, hi.2, by simpa using h⟩
  · rintro ⟨i, h1, h2, rfl⟩
    refine ⟨2 ^ σ i, List.mem_map_of_mem (List.mem_filter.2 ⟨List.mem_range.2 h1, h2⟩), ?_⟩
    rw [Nat.testBit_two_pow]
    simp

theorem respace_or (σ : ℕ → ℕ) (a b : ℕ) : respace σ (a ||| b) = respace σ a ||| respace σ b := by
  apply Nat.eq_of_testBit_eq
  intro j
  rw [Bool.eq_iff_iff, Nat.testBit_or, Bool.or_eq_true, testBit_respace, testBit_respace,
    testBit_respace]
  constructor
  · rintro ⟨i, h1, h2, h3⟩
    rw [Nat.testBit_or, Bool.or_eq_true] at h2
    exact h2.imp (fun h => ⟨i, h1, h, h3⟩) fun h => ⟨i, h1, h, h3⟩
  · rintro (⟨i, h1, h2, h3⟩ | ⟨i, h1, h2, h3⟩)
    · exact ⟨i, h1, by rw [Nat.testBit_or, h2, Bool.true_or], h3⟩
    · exact ⟨i, h1, by rw [Nat.testBit_or, h2, Bool.or_true], h3⟩

theorem respace_zero (σ : ℕ → ℕ) : respace σ 0 = 0 := by
  unfold respace
  simp [unionMask]

theorem respace_union (σ : ℕ → ℕ) (l : List ℕ) :
    respace σ (unionMask l) = unionMask (l.map (respace σ)) := by
  induction l with
  | nil => exact respace_zero σ
  | cons a t ih =>
    change respace σ (a ||| unionMask t) = respace σ a ||| unionMask (t.map (respace σ))
    rw [respace_or, ih]

theorem bit_lt {m i : ℕ} (h : m < 2 ^ 32) (hi : m.testBit i = true) : i < 32 := by
  by_contra hn
  rw [Nat.testBit_eq_false_of_lt (lt_of_lt_of_le h (Nat.pow_le_pow_right (by decide)
    (not_lt.1 hn)))] at hi
  cases hi

include hσ

theorem testBit_respace_at {m i : ℕ} (hi : i < 32) : (respace σ m).testBit (σ i) = m.testBit i := by
  rw [Bool.eq_iff_iff, testBit_respace]
  constructor
  · rintro ⟨k, _, h2, h3⟩
    rwa [← hσ.injective h3]
  · intro h
    exact ⟨i, hi, h, rfl⟩

theorem respace_disjoint {a b : ℕ} (ha : a < 2 ^ 32) :
    respace σ a &&& respace σ b = 0 ↔ a &&& b = 0 := by
  constructor
  · intro h
    apply Nat.eq_of_testBit_eq
    intro i
    rw [Nat.testBit_and, Nat.zero_testBit]
    cases e : a.testBit i with
    | false => rfl
    | true =>
      have hi := bit_lt ha e
      have := congrArg (fun n => n.testBit (σ i)) h
      simp only [Nat.testBit_and, Nat.zero_testBit, testBit_respace_at hσ hi, e] at this
      exact this
  · intro h
    apply Nat.eq_of_testBit_eq
    intro j
    rw [Nat.testBit_and, Nat.zero_testBit]
    cases e : (respace σ a).testBit j with
    | false => rfl
    | true =>
      obtain ⟨i, h1, h2, rfl⟩ := (testBit_respace σ a j).1 e
      rw [testBit_respace_at hσ h1]
      have := congrArg (fun n => n.testBit i) h
      simp only [Nat.testBit_and, Nat.zero_testBit, h2] at this
      exact this

theorem respace_mono {a b : ℕ} (ha : a < 2 ^ 32) (hb : b < 2 ^ 32) (h : a < b) :
    respace σ a < respace σ b := by
  have hx : a ^^^ b ≠ 0 := by
    intro e
    rw [Nat.xor_eq_zero_iff] at e
    omega
  obtain ⟨i, h1, h2⟩ := Nat.exists_most_significant_bit hx
  rw [Nat.testBit_xor] at h1
  have h2 : ∀ j, i < j → a.testBit j = b.testBit j := by
    intro j hj
    have := h2 j hj
    rw [Nat.testBit_xor] at this
    cases ea : a.testBit j <;> cases eb : b.testBit j <;> simp [ea, eb] at this ⊢
  have h3 : a.testBit i = false ∧ b.testBit i = true := by
    cases ea : a.testBit i with
    | false =>
      rw [ea] at h1
      exact ⟨rfl, by simpa using h1⟩
    | true =>
      have eb : b.testBit i = false := by
        rw [ea] at h1
        simpa using h1
      exact absurd (Nat.lt_of_testBit i eb ea fun j hj => (h2 j hj).symm) (by omega)
  have hi := bit_lt hb h3.2
  refine Nat.lt_of_testBit (σ i) (by rw [testBit_respace_at hσ hi]; exact h3.1)
    (by rw [testBit_respace_at hσ hi]; exact h3.2) fun j hj => ?_
  rw [Bool.eq_iff_iff, testBit_respace, testBit_respace]
  constructor
  · rintro ⟨k, k1, k2, rfl⟩
    exact ⟨k, k1, by rw [← h2 k (hσ.lt_iff_lt.1 hj)]; exact k2, rfl⟩
  · rintro ⟨k, k1, k2, rfl⟩
    exact ⟨k, k1, by rw [h2 k (hσ.lt_iff_lt.1 hj)]; exact k2, rfl⟩

theorem respace_lt {a b : ℕ} (ha : a < 2 ^ 32) (hb : b < 2 ^ 32) :
    respace σ a < respace σ b ↔ a < b := by
  refine ⟨fun h => ?_, respace_mono hσ ha hb⟩
  rcases lt_trichotomy a b with h1 | h1 | h1
  · exact h1
  · rw [h1] at h
    exact absurd h (lt_irrefl _)
  · exact absurd h (not_lt.2 (respace_mono hσ hb ha h1).le)

theorem respace_inj {a b : ℕ} (ha : a < 2 ^ 32) (hb : b < 2 ^ 32)
    (h : respace σ a = respace σ b) : a = b := by
  rcases lt_trichotomy a b with h1 | h1 | h1
  · exact absurd h (respace_mono hσ ha hb h1).ne
  · exact h1
  · exact absurd h (respace_mono hσ hb ha h1).ne'

end

/-! ## Stacks -/

section
variable {σ : ℕ → ℕ} {pms : List Subquery} (hk : KeepsOrder σ pms)
include hk

theorem respace_isStack {qs : List Subquery} (hq : ∀ q ∈ qs, q ∈ pms) :
    IsStack (pms.map (respaceMatch σ)) (qs.map (respaceMatch σ)) ↔ IsStack pms qs := by
  have hd : ∀ a ∈ qs, ∀ b ∈ qs, (respaceMatch σ a).mask &&& (respaceMatch σ b).mask = 0 ↔
      a.mask &&& b.mask = 0 := fun a ha b _ => respace_disjoint hk.mono (hk.before a (hq a ha))
  constructor
  · intro h
    refine ⟨hq, (List.pairwise_map (f := respaceMatch σ)).1 h.types, ?_,
      (List.isChain_map (respaceMatch σ)).1 h.neighbours, ?_⟩
    · exact (List.pairwise_map.1 h.masks).imp_of_mem fun {a b} ha hb e => (hd a ha b hb).1 e
    · intro q hq'
      exact h.root (respaceMatch σ q) (by rw [List.head?_map, Option.mem_def.1 hq']; rfl)
  · intro h
    refine ⟨?_, List.pairwise_map.2 h.types, ?_, (List.isChain_map _).2 h.neighbours, ?_⟩
    · intro q hq'
      obtain ⟨a, ha, rfl⟩ := List.mem_map.1 hq'
      exact List.mem_map_of_mem (hq a ha)
    · exact List.pairwise_map.2 (h.masks.imp_of_mem fun {a b} ha hb e => (hd a ha b hb).2 e)
    · intro q hq'
      rw [List.head?_map, Option.mem_def, Option.map_eq_some_iff] at hq'
      obtain ⟨a, ha, rfl⟩ := hq'
      exact h.root a ha

omit hk in
theorem respace_pull {qs' : List Subquery} (hq : ∀ q ∈ qs', q ∈ pms.map (respaceMatch σ)) :
    ∃ qs : List Subquery, qs.map (respaceMatch σ) = qs' ∧ ∀ q ∈ qs, q ∈ pms := by
  induction qs' with
  | nil => exact ⟨[], rfl, by simp⟩
  | cons q' t ih =>
    obtain ⟨qs, h1, h2⟩ := ih fun q h => hq q (List.mem_cons_of_mem _ h)
    obtain ⟨q, h3, rfl⟩ := List.mem_map.1 (hq q' List.mem_cons_self)
    exact ⟨q :: qs, by rw [List.map_cons, h1], List.forall_mem_cons.2 ⟨h3, h2⟩⟩

omit hk in
theorem respace_pullStacks {l' : List (List Subquery)}
    (h : ∀ qs ∈ l', ∀ q ∈ qs, q ∈ pms.map (respaceMatch σ)) :
    ∃ l : List (List Subquery), l.map (List.map (respaceMatch σ)) = l' ∧
      ∀ qs ∈ l, ∀ q ∈ qs, q ∈ pms := by
  induction l' with
  | nil => exact ⟨[], rfl, by simp⟩
  | cons qs' t ih =>
    obtain ⟨l, h1, h2⟩ := ih fun q h' => h q (List.mem_cons_of_mem _ h')
    obtain ⟨qs, h3, h4⟩ := respace_pull (h qs' List.mem_cons_self)
    exact ⟨qs :: l, by rw [List.map_cons, h1, h3], List.forall_mem_cons.2 ⟨h4, h2⟩⟩

theorem respace_extendable {qs : List Subquery} (hq : ∀ q ∈ qs, q ∈ pms) :
    Extendable (pms.map (respaceMatch σ)) (qs.map (respaceMatch σ)) ↔ Extendable pms qs := by
  constructor
  · rintro ⟨q', h⟩
    obtain ⟨q, h1, rfl⟩ := List.mem_map.1 (h.mem q' (by simp))
    refine ⟨q, (respace_isStack hk ?_).1 (by rwa [List.map_append])⟩
    intro a ha
    rcases List.mem_append.1 ha with ha | ha
    · exact hq a ha
    · rw [List.mem_singleton.1 ha]; exact h1
  · rintro ⟨q, h⟩
    refine ⟨respaceMatch σ q, ?_⟩
    have := (respace_isStack hk h.mem).2 h
    rwa [List.map_append] at this

/-- The hit in the longer query. -/
def respaceHit (σ : ℕ → ℕ) (h : Hit) : Hit := { h with q := respaceMatch σ h.q }

omit hk in
theorem respace_pullHits {hs' : List Hit} (hq : ∀ h ∈ hs', h.q ∈ pms.map (respaceMatch σ)) :
    ∃ hs : List Hit, hs.map (respaceHit σ) = hs' ∧ ∀ h ∈ hs, h.q ∈ pms := by
  induction hs' with
  | nil => exact ⟨[], rfl, by simp⟩
  | cons h' t ih =>
    obtain ⟨hs, h1, h2⟩ := ih fun q h => hq q (List.mem_cons_of_mem _ h)
    obtain ⟨q, h3, h4⟩ := List.mem_map.1 (hq h' List.mem_cons_self)
    refine ⟨⟨q, h'.kg, h'.grid⟩ :: hs, ?_, List.forall_mem_cons.2 ⟨h3, h2⟩⟩
    rw [List.map_cons, h1]
    congr 1
    unfold respaceHit
    rw [h4]

theorem respace_lone {hs : List Hit} (hq : ∀ h ∈ hs, h.q ∈ pms) :
    Lone (pms.map (respaceMatch σ)) (hs.map (respaceHit σ)) ↔ Lone pms hs := by
  constructor
  · rintro ⟨h', e, hx⟩
    obtain ⟨h, rfl, rfl⟩ := List.map_eq_singleton_iff.1 e
    exact ⟨h, rfl, fun hy => hx ((respace_extendable hk (qs := [h.q]) (by simpa using hq)).2 hy)⟩
  · rintro ⟨h, rfl, hx⟩
    exact ⟨respaceHit σ h, rfl,
      fun hy => hx ((respace_extendable hk (qs := [h.q]) (by simpa using hq)).1 hy)⟩

theorem respace_loses {hs : List Hit} (hq : ∀ h ∈ hs, h.q ∈ pms) :
    LosesPoints (pms.map (respaceMatch σ)) (hs.map (respaceHit σ)) ↔ LosesPoints pms hs := by
  constructor
  · rintro (⟨h', e, hx⟩ | ⟨a', u', l', e, hlt⟩)
    · obtain ⟨h, rfl, rfl⟩ := List.map_eq_singleton_iff.1 e
      exact Or.inl ⟨h, rfl, (respace_extendable hk (qs := [h.q]) (by simpa using hq)).1 hx⟩
    · obtain ⟨a, b, rfl, rfl, e2⟩ := List.map_eq_append_iff.1 e
      obtain ⟨u, t, rfl, rfl, e3⟩ := List.map_eq_cons_iff.1 e2
      obtain ⟨l, t', rfl, rfl, e4⟩ := List.map_eq_cons_iff.1 e3
      rw [List.map_eq_nil_iff] at e4
      subst e4
      exact Or.inr ⟨a, u, l, rfl, (respace_lt hk.mono (hk.before _ (hq u (by simp)))
        (hk.before _ (hq l (by simp)))).1 hlt⟩
  · rintro (⟨h, rfl, hx⟩ | ⟨a, u, l, rfl, hlt⟩)
    · exact Or.inl ⟨respaceHit σ h, rfl,
        (respace_extendable hk (qs := [h.q]) (by simpa using hq)).2 hx⟩
    · exact Or.inr ⟨a.map (respaceHit σ), respaceHit σ u, respaceHit σ l, by simp,
        respace_mono hk.mono (hk.before _ (hq u (by simp))) (hk.before _ (hq l (by simp))) hlt⟩

theorem respace_keys {a b : List Subquery} (ha : ∀ q ∈ a, q ∈ pms) (hb : ∀ q ∈ b, q ∈ pms) :
    groupKeys (a.map (respaceMatch σ)) = groupKeys (b.map (respaceMatch σ)) ↔
      groupKeys a = groupKeys b := by
  unfold groupKeys
  induction a generalizing b with
  | nil => cases b <;> simp
  | cons x a ih =>
    cases b with
    | nil => simp
    | cons y b =>
      have ih := ih (fun q hq => ha q (List.mem_cons_of_mem _ hq))
        (b := b) (fun q hq => hb q (List.mem_cons_of_mem _ hq))
      have hm : respace σ x.mask = respace σ y.mask ↔ x.mask = y.mask :=
        ⟨respace_inj hk.mono (hk.before _ (ha x List.mem_cons_self))
          (hk.before _ (hb y List.mem_cons_self)), fun e => by rw [e]⟩
      simp only [List.map_cons, List.cons.injEq, Prod.mk.injEq, ih, respaceMatch, hm]

theorem respace_few {n : ℕ} (h : FewGroupStacks n pms) :
    FewGroupStacks n (pms.map (respaceMatch σ)) := by
  intro l' h1 h2
  obtain ⟨l, rfl, hl⟩ := respace_pullStacks fun qs hqs => (h2 qs hqs).2.1.mem
  rw [List.length_map]
  refine h l ?_ fun qs hqs => ?_
  · rw [List.map_map] at h1
    exact nodup_map_of h1 fun a ha b hb e => (respace_keys hk (hl a ha) (hl b hb)).2 e
  · obtain ⟨a1, a2, a3⟩ := h2 _ (List.mem_map_of_mem hqs)
    exact ⟨fun e => a1 (by rw [e]; rfl), (respace_isStack hk (hl qs hqs)).1 a2,
      fun hx => a3 ((respace_extendable hk (hl qs hqs)).2 hx)⟩

theorem respace_coversOne {q : Subquery} (hq : q ∈ pms) {kg : KeyWithId}
    (h : CoversOne (respaceMatch σ q, kg)) : CoversOne (q, kg) := by
  obtain ⟨i, hi, h⟩ := h
  obtain ⟨k, k1, k2, rfl⟩ := (testBit_respace σ q.mask i).1 ((h i hi).2 rfl)
  refine ⟨k, k1, fun j hj => ⟨fun hb => ?_, fun e => by rw [e]; exact k2⟩⟩
  have hb' : (respace σ q.mask).testBit (σ j) = true := by
    rw [testBit_respace_at hk.mono hj]
    exact hb
  exact hk.mono.injective ((h (σ j) (bit_lt (hk.after q hq) hb')).1 hb')

theorem respace_room (h : RoomForGroups pms) : RoomForGroups (pms.map (respaceMatch σ)) := by
  intro l' h1 h2
  obtain ⟨l, rfl, hl⟩ := respace_pullStacks fun qs hqs => (h2 qs hqs).2.mem
  have hr : RoomFor (lastScans l) := by
    refine h l ?_ fun qs hqs => ?_
    · rw [List.map_map] at h1
      refine nodup_map_of h1 fun a ha b hb e => ?_
      obtain ⟨e1, e2⟩ := Prod.mk.injEq .. ▸ e
      simp only [Function.comp, List.getLast?_map, (respace_keys hk (hl a ha) (hl b hb)).2 e1, e2]
    · obtain ⟨a1, a2⟩ := h2 _ (List.mem_map_of_mem hqs)
      exact ⟨fun e => a1 (by rw [e]; rfl), (respace_isStack hk (hl qs hqs)).1 a2⟩
  have e : lastScans (l.map (List.map (respaceMatch σ))) =
      (lastScans l).map fun s => (respaceMatch σ s.1, s.2) := by
    unfold lastScans
    rw [List.flatMap_map, List.map_flatMap]
    congr 1
    funext qs
    rw [List.getLast?_map]
    cases qs.getLast? with
    | none => rfl
    | some q => simp [respaceMatch]
  have hmem : ∀ s ∈ lastScans l, s.1 ∈ pms := by
    intro s hs
    obtain ⟨qs, hqs, hs⟩ := List.mem_flatMap.1 hs
    obtain ⟨q, hq, hs⟩ := List.mem_flatMap.1 hs
    obtain ⟨kg, hk, rfl⟩ := List.mem_map.1 hs
    exact hl qs hqs q (List.mem_of_getLast? (Option.mem_toList.1 hq))
  have hone : ∀ s ∈ lastScans l, CoversOne (respaceMatch σ s.1, s.2) → CoversOne s :=
    fun s hs h => respace_coversOne hk (hmem s hs) h
  rw [e]
  refine ⟨?_, AtMost.map hr.letters ?_, AtMost.map hr.words ?_, AtMost.map hr.ranges ?_,
    AtMost.map hr.highs fun _ _ h => h⟩
  · intro s' hs' hw ho
    obtain ⟨s, hs, rfl⟩ := List.mem_map.1 hs'
    exact hr.worth s hs hw (hone s hs ho)
  · rintro s hs ⟨a, b, c⟩
    exact ⟨a, hone s hs b, c⟩
  · rintro s hs ⟨a, b⟩
    exact ⟨a, hone s hs b⟩
  · rintro s hs ⟨a, b⟩
    exact ⟨a, b⟩

end

/-! ## Phrase matches that stand alone -/

/-- The state of the loop in the longer query. -/
def respaceState (σ : ℕ → ℕ) (s : SingleState) : SingleState :=
  { s with coalesced := s.coalesced.map fun p => (p.1, respaceEntry σ p.2) }

theorem respace_upsert (σ : ℕ → ℕ) (e : CoalesceEntry) (m : HMap ℕ CoalesceEntry) :
    HMap.upsert e.entry.id (respaceEntry σ e) (betterOf (respaceEntry σ e))
      (m.map fun p => (p.1, respaceEntry σ p.2)) =
    (HMap.upsert e.entry.id e (betterOf e) m).map fun p => (p.1, respaceEntry σ p.2) := by
  have hb : ∀ a b, betterOf (respaceEntry σ a) (respaceEntry σ b) = respaceEntry σ (betterOf a b) := by
    intro a b
    unfold betterOf
    rw [apply_ite (respaceEntry σ)]
    rfl
  induction m with
  | nil => simp only [List.map_nil, HMap.upsert, List.map_cons, hb]
  | cons p t ih =>
    simp only [List.map_cons, HMap.upsert]
    split_ifs
    · simp only [List.map_cons, hb]
    · simp only [List.map_cons, ih]

theorem respace_loop (σ : ℕ → ℕ) {mk mk' : MatchEntry → Option CoalesceEntry}
    (hmk : ∀ g, mk' g = (mk g).map (respaceEntry σ)) (noProx : Bool) (grids : List MatchEntry)
    (s : SingleState) :
    singleLoop mk' noProx (respaceState σ s) grids =
      (singleLoop mk noProx s grids).map (respaceState σ) := by
  induction grids generalizing s with
  | nil => rfl
  | cons g t ih =>
    unfold singleLoop
    rw [hmk]
    cases mk g with
    | none => rfl
    | some e =>
      have hmove : singleMove noProx (respaceState σ s) (respaceEntry σ e) = singleMove noProx s e := rfl
      have hrec : (respaceState σ s).record (respaceEntry σ e) = respaceState σ (s.record e) := by
        unfold SingleState.record respaceState
        congr 1
        exact respace_upsert σ e s.coalesced
      simp only [Option.map_some, Option.bind_eq_bind, Option.bind_some, hmove, hrec]
      cases singleMove noProx s e <;> simp [ih]

theorem respace_single (σ : ℕ → ℕ) (env : Env) (q : Subquery) (o : MatchOpts)
    (grids : List MatchEntry) (id : ℕ) : treeSingle env (respaceMatch σ q) o grids id =
      (treeSingle env q o grids id).map (List.map (respaceContext σ)) := by
  unfold treeSingle
  have := respace_loop σ (mk := mkEntry env.chk o q id) (mk' := mkEntry env.chk o (respaceMatch σ q) id)
    (fun g => by
      unfold mkEntry
      rw [apply_ite (Option.map (respaceEntry σ))]
      rfl) o.proximity.isNone grids SingleState.init
  change singleLoop _ _ SingleState.init _ = _ at this
  rw [this]
  cases singleLoop (mkEntry env.chk o q id) o.proximity.isNone SingleState.init grids with
  | none => rfl
  | some s =>
    simp only [Option.map_some, Option.bind_eq_bind, Option.bind_some, singleById, respaceState]
    rw [← List.map_insertionSort (r := fun a b : ℕ × CoalesceEntry => a.1 ≤ b.1)
      (s := fun a b : ℕ × CoalesceEntry => a.1 ≤ b.1)
      (f := fun p : ℕ × CoalesceEntry => (p.1, respaceEntry σ p.2)) s.coalesced
      (fun a _ b _ => Iff.rfl), List.map_map, List.map_map]
    rfl

/-! ## Contexts -/

section
variable {σ : ℕ → ℕ} {pms : List Subquery} (hk : KeepsOrder σ pms) {env : Env} {opts : MatchOpts}
include hk

omit hk in
theorem respace_entries {hs : List Hit} {es : List CoalesceEntry}
    (h : List.Forall₂ (fun h e => MadeFrom h.q h.grid e ∧ e.phrasematchId = h.kg.id) hs es) :
    List.Forall₂ (fun h e => MadeFrom h.q h.grid e ∧ e.phrasematchId = h.kg.id)
      (hs.map (respaceHit σ)) (es.map (respaceEntry σ)) := by
  rw [List.forall₂_map_left_iff, List.forall₂_map_right_iff]
  refine h.imp fun h e ⟨⟨h1, h2, h3, h4, h5, h6, h7, h8, h9, h10, h11, h12⟩, hid⟩ =>
    ⟨⟨h1, h2, h3, h4, h5, h6, h7, h8, h9, h10, h11, ?_⟩, hid⟩
  change respace σ e.mask = respace σ h.q.mask
  rw [h12]

omit hk in
theorem respace_entries_back {hs : List Hit} {es' : List CoalesceEntry}
    (h : List.Forall₂ (fun h e => MadeFrom h.q h.grid e ∧ e.phrasematchId = h.kg.id)
      (hs.map (respaceHit σ)) es') :
    ∃ es : List CoalesceEntry, es.map (respaceEntry σ) = es' ∧
      List.Forall₂ (fun h e => MadeFrom h.q h.grid e ∧ e.phrasematchId = h.kg.id) hs es := by
  rw [List.forall₂_map_left_iff] at h
  induction h with
  | nil => exact ⟨[], rfl, .nil⟩
  | @cons a e' t t' h1 _ ih =>
    obtain ⟨es, h2, h3⟩ := ih
    obtain ⟨⟨g1, g2, g3, g4, g5, g6, g7, g8, g9, g10, g11, g12⟩, hid⟩ := h1
    refine ⟨{ e' with mask := a.q.mask } :: es, ?_, .cons ⟨⟨g1, g2, g3, g4, g5, g6, g7, g8, g9, g10,
      g11, rfl⟩, hid⟩ h3⟩
    rw [List.map_cons, h2]
    congr 1
    unfold respaceEntry
    change { e' with mask := respace σ a.q.mask } = e'
    have : e'.mask = respace σ a.q.mask := g12
    rw [← this]

theorem respace_contextOf {hs : List Hit} (hq : ∀ h ∈ hs, h.q ∈ pms) {c : Context} :
    ContextOf env opts pms hs c →
      ContextOf env opts (pms.map (respaceMatch σ)) (hs.map (respaceHit σ)) (respaceContext σ c) := by
  intro h
  have hmapq : (hs.map (respaceHit σ)).map Hit.q = (hs.map Hit.q).map (respaceMatch σ) := by
    rw [List.map_map, List.map_map]; rfl
  have hrel : (hs.map (respaceHit σ)).map Hit.relev = hs.map Hit.relev := by
    rw [List.map_map]; rfl
  have hqm : ∀ q ∈ hs.map Hit.q, q ∈ pms := by
    intro q hq'
    obtain ⟨x, hx, rfl⟩ := List.mem_map.1 hq'
    exact hq x hx
  refine ⟨by simpa using h.ne, ?_, ?_, ?_, (List.isChain_map (respaceHit σ)).2 h.tiles, ?_, ?_, ?_, ?_⟩
  · rw [hmapq]
    exact (respace_isStack hk hqm).2 h.stack
  · intro x hx limit h1 h2
    obtain ⟨x, hx', rfl⟩ := List.mem_map.1 hx
    rw [respace_lone hk hq] at h1 h2
    exact h.answers x hx' limit h1 h2
  · rw [← List.map_reverse]
    exact respace_entries h.entries
  · change respace σ c.mask = _
    rw [h.mask, respace_union, List.map_map, List.map_map]
    rfl
  · intro hn
    rw [respace_loses hk hq] at hn
    rw [hrel]
    exact h.plain hn
  · intro hn
    rw [respace_loses hk hq] at hn
    rw [hrel]
    exact h.penalty hn
  · intro hn x hx
    obtain ⟨x, hx', rfl⟩ := List.mem_map.1 hx
    rw [respace_lone hk hq] at hn
    exact h.first hn x hx'

theorem respace_contextOf_back {hs : List Hit} (hq : ∀ h ∈ hs, h.q ∈ pms) {c' : Context}
    (h : ContextOf env opts (pms.map (respaceMatch σ)) (hs.map (respaceHit σ)) c') :
    ∃ c, c' = respaceContext σ c ∧ ContextOf env opts pms hs c := by
  have hmapq : (hs.map (respaceHit σ)).map Hit.q = (hs.map Hit.q).map (respaceMatch σ) := by
    rw [List.map_map, List.map_map]; rfl
  have hrel : (hs.map (respaceHit σ)).map Hit.relev = hs.map Hit.relev := by
    rw [List.map_map]; rfl
  have hqm : ∀ q ∈ hs.map Hit.q, q ∈ pms := by
    intro q hq'
    obtain ⟨x, hx, rfl⟩ := List.mem_map.1 hq'
    exact hq x hx
  have hent := h.entries
  rw [← List.map_reverse] at hent
  obtain ⟨es, e1, e2⟩ := respace_entries_back hent
  refine ⟨⟨unionMask (hs.map (·.q.mask)), c'.relev, es⟩, ?_, ?_, ?_, ?_, e2,
    (List.isChain_map (respaceHit σ)).1 h.tiles, rfl, ?_, ?_, ?_⟩
  · have hm := h.mask
    rw [List.map_map] at hm
    unfold respaceContext
    rw [respace_union, e1, List.map_map]
    cases c'
    simp only [Context.mk.injEq, and_true]
    exact hm
  · simpa using h.ne
  · have := h.stack
    rw [hmapq] at this
    exact (respace_isStack hk hqm).1 this
  · intro x hx limit h1 h2
    rw [← respace_lone hk hq] at h1 h2
    exact h.answers (respaceHit σ x) (List.mem_map_of_mem hx) limit h1 h2
  · intro hn
    rw [← respace_loses hk hq] at hn
    rw [← hrel]
    exact h.plain hn
  · intro hn
    rw [← respace_loses hk hq] at hn
    rw [← hrel]
    exact h.penalty hn
  · intro hn x hx
    rw [← respace_lone hk hq] at hn
    exact h.first hn (respaceHit σ x) (List.mem_map_of_mem hx)

theorem respace_over {above : List Subquery} (ha : ∀ q ∈ above, q ∈ pms) {hs : List Hit}
    (hq : ∀ h ∈ hs, h.q ∈ pms) :
    HitsOver env opts (pms.map (respaceMatch σ)) (above.map (respaceMatch σ))
      (hs.map (respaceHit σ)) ↔ HitsOver env opts pms above hs := by
  have hmapq : (hs.map (respaceHit σ)).map Hit.q = (hs.map Hit.q).map (respaceMatch σ) := by
    rw [List.map_map, List.map_map]; rfl
  have hqm : ∀ q ∈ hs.map Hit.q, q ∈ pms := by
    intro q hq'
    obtain ⟨x, hx, rfl⟩ := List.mem_map.1 hq'
    exact hq x hx
  constructor
  · intro h
    refine ⟨?_, hq, fun x hx => h.answers (respaceHit σ x) (List.mem_map_of_mem hx),
      (List.isChain_map (respaceHit σ)).1 h.tiles⟩
    have := h.keys
    rw [hmapq] at this
    exact (respace_keys hk hqm ha).1 this
  · intro h
    refine ⟨?_, ?_, ?_, (List.isChain_map (respaceHit σ)).2 h.tiles⟩
    · rw [hmapq]
      exact (respace_keys hk hqm ha).2 h.keys
    · intro x hx
      obtain ⟨x, hx', rfl⟩ := List.mem_map.1 hx
      exact List.mem_map_of_mem (hq x hx')
    · intro x hx
      obtain ⟨x, hx', rfl⟩ := List.mem_map.1 hx
      exact h.answers x hx'

theorem respace_notCut {qs : List Subquery} (hq : ∀ q ∈ qs, q ∈ pms) :
    NotCut env opts (pms.map (respaceMatch σ)) (qs.map (respaceMatch σ)) ↔ NotCut env opts pms qs := by
  constructor
  · intro h above q below e hne
    subst e
    obtain ⟨tops, last, h1, h2⟩ := h (above.map (respaceMatch σ)) (respaceMatch σ q)
      (below.map (respaceMatch σ)) (by simp) (by simpa using hne)
    obtain ⟨hs, h3, h4⟩ := respace_pullHits h1.mem
    rw [← h3] at h1
    obtain ⟨tops, l, rfl, rfl, h5⟩ := List.map_eq_append_iff.1 h3
    obtain ⟨last, rfl, rfl⟩ := List.map_eq_singleton_iff.1 h5
    exact ⟨tops, last, (respace_over hk (fun a ha => hq a (by simp [ha])) h4).1 h1, h2⟩
  · intro h above' q' below' e hne
    obtain ⟨above, rest, rfl, rfl, hrest⟩ := List.map_eq_append_iff.1 e
    obtain ⟨q, below, rfl, rfl, rfl⟩ := List.map_eq_cons_iff.1 hrest
    obtain ⟨tops, last, h1, h2⟩ := h above q below rfl (by simpa using hne)
    refine ⟨tops.map (respaceHit σ), respaceHit σ last, ?_, h2⟩
    have := (respace_over hk (fun a ha => hq a (by simp [ha])) h1.mem).2 h1
    rwa [List.map_append] at this

theorem respace_loneResult {c : Context} (h : LoneResult env opts pms c) :
    LoneResult env opts (pms.map (respaceMatch σ)) (respaceContext σ c) := by
  obtain ⟨q, kg, o, grids, all, h1, h2, h3, h4, h5, h6, h7⟩ := h
  have hq : ∀ a ∈ [q], a ∈ pms := h1.mem
  refine ⟨respaceMatch σ q, kg, o, grids, all.map (respaceContext σ), (respace_isStack hk hq).2 h1,
    fun hx => h2 ((respace_extendable hk hq).1 hx), h3, h4, h5, ?_, List.mem_map_of_mem h7⟩
  rw [respace_single, h6]
  rfl

theorem respace_loneResult_back {c' : Context}
    (h : LoneResult env opts (pms.map (respaceMatch σ)) c') :
    ∃ c, c' = respaceContext σ c ∧ LoneResult env opts pms c := by
  obtain ⟨q', kg, o, grids, all', h1, h2, h3, h4, h5, h6, h7⟩ := h
  obtain ⟨q, hqm, rfl⟩ := List.mem_map.1 (h1.mem q' (by simp))
  have hq : ∀ a ∈ [q], a ∈ pms := by simpa using hqm
  rw [respace_single, Option.map_eq_some_iff] at h6
  obtain ⟨all, h6, rfl⟩ := h6
  obtain ⟨c, hc, rfl⟩ := List.mem_map.1 h7
  exact ⟨c, rfl, q, kg, o, grids, all, (respace_isStack hk hq).1 h1,
    fun hx => h2 ((respace_extendable hk hq).2 hx), h3, h4, h5, h6, hc⟩

theorem respace_returned {c : Context} (h : IsReturned env opts pms c) :
    IsReturned env opts (pms.map (respaceMatch σ)) (respaceContext σ c) := by
  rcases h with ⟨hs, h1, h2, h3⟩ | h
  · have hq : ∀ h ∈ hs, h.q ∈ pms := fun x hx => h3.stack.mem _ (List.mem_map_of_mem hx)
    refine Or.inl ⟨hs.map (respaceHit σ), fun hl => h1 ((respace_lone hk hq).1 hl), ?_,
      respace_contextOf hk hq h3⟩
    have := (respace_notCut hk (env := env) (opts := opts) h3.stack.mem).2 h2
    rw [List.map_map] at this ⊢
    exact this
  · exact Or.inr (respace_loneResult hk h)

theorem respace_returned_back {c' : Context}
    (h : IsReturned env opts (pms.map (respaceMatch σ)) c') :
    ∃ c, c' = respaceContext σ c ∧ IsReturned env opts pms c := by
  rcases h with ⟨hs', h1, h2, h3⟩ | h
  · obtain ⟨hs, rfl, hq⟩ := respace_pullHits (σ := σ) (pms := pms) (hs' := hs')
      fun x hx => h3.stack.mem _ (List.mem_map_of_mem hx)
    obtain ⟨c, rfl, hc⟩ := respace_contextOf_back hk hq h3
    refine ⟨c, rfl, Or.inl ⟨hs, fun hl => h1 ((respace_lone hk hq).2 hl), ?_, hc⟩⟩
    refine (respace_notCut hk (env := env) (opts := opts) hc.stack.mem).1 ?_
    rw [List.map_map] at h2 ⊢
    exact h2
  · obtain ⟨c, rfl, hc⟩ := respace_loneResult_back hk h
    exact ⟨c, rfl, Or.inr hc⟩

omit hk in
theorem respace_delivered (h : Delivered pms) : Delivered (pms.map (respaceMatch σ)) := by
  refine ⟨?_, ?_, ?_⟩
  · intro q hq
    obtain ⟨q, hq', rfl⟩ := List.mem_map.1 hq
    exact h.one q hq'
  · rw [List.flatMap_map]
    exact h.ids
  · intro a ha b hb e
    obtain ⟨a, ha', rfl⟩ := List.mem_map.1 ha
    obtain ⟨b, hb', rfl⟩ := List.mem_map.1 hb
    exact h.index a ha' b hb' e

omit hk in
theorem respace_zooms (h : ZoomsAscend pms) : ZoomsAscend (pms.map (respaceMatch σ)) := by
  intro a ha b hb hlt
  obtain ⟨a, ha', rfl⟩ := List.mem_map.1 ha
  obtain ⟨b, hb', rfl⟩ := List.mem_map.1 hb
  exact h a ha' b hb' hlt

end

/-- **C103**: words put into the query that no phrase match covers change nothing: every context
returned for the query without them is returned with them, with the same entries and the same
relevance, covering the same words. -/
theorem C103_kept {env env' : TreeEnv} (henv : env.toEnv = env'.toEnv) {σ : ℕ → ℕ}
    {qs : List Subquery} {opts : MatchOpts} (hk : KeepsOrder σ qs) (hd : Delivered qs)
    (hfew : FewGroupStacks 2000 qs) (hz : env.chk = true ∨ ZoomsAscend qs) (hroom : RoomForGroups qs)
    {out out' : List Context} (hout : stackAndCoalesce env qs opts = some out)
    (hout' : stackAndCoalesce env' (qs.map (respaceMatch σ)) opts = some out') (hlen : Short out') :
    ∀ c ∈ out, respaceContext σ c ∈ out' := by
  intro c hc
  refine C91_complete (respace_delivered hd) (respace_few hk hfew) ?_ (respace_room hk hroom) hout'
    hlen _ ?_
  · rw [← show env.chk = env'.chk from congrArg Env.chk henv]
    exact hz.imp_right respace_zooms
  · rw [← henv]
    exact respace_returned hk (C91_sound hd hfew hz hout c hc)

/-- **C103**: and nothing else is returned. -/
theorem C103_nothing_new {env env' : TreeEnv} (henv : env.toEnv = env'.toEnv) {σ : ℕ → ℕ}
    {qs : List Subquery} {opts : MatchOpts} (hk : KeepsOrder σ qs) (hd : Delivered qs)
    (hfew : FewGroupStacks 2000 qs) (hz : env.chk = true ∨ ZoomsAscend qs) (hroom : RoomForGroups qs)
    {out out' : List Context} (hout : stackAndCoalesce env qs opts = some out)
    (hout' : stackAndCoalesce env' (qs.map (respaceMatch σ)) opts = some out') (hlen : Short out) :
    ∀ c' ∈ out', ∃ c ∈ out, c' = respaceContext σ c := by
  intro c' hc'
  have hz' : env'.chk = true ∨ ZoomsAscend (qs.map (respaceMatch σ)) := by
    rw [← show env.chk = env'.chk from congrArg Env.chk henv]
    exact hz.imp_right respace_zooms
  have := C91_sound (respace_delivered hd) (respace_few hk hfew) hz' hout' c' hc'
  rw [← henv] at this
  obtain ⟨c, rfl, hc⟩ := respace_returned_back hk this
  exact ⟨c, C91_complete hd hfew hz hroom hout hlen c hc, rfl⟩

/-! ## An example -/

/-- A word between the first one and the rest. -/
def afterFirst (i : ℕ) : ℕ := if i = 0 then 0 else i + 1

theorem afterFirst_mono : StrictMono afterFirst := by
  intro a b h
  unfold afterFirst
  split_ifs <;> omega

theorem afterFirst_keeps : KeepsOrder afterFirst growthMatches :=
  ⟨afterFirst_mono, by decide +kernel, by decide +kernel⟩

/-- The masks are 1 and 2 without the word, 1 and 4 with it. -/
example : (growthMatches.map (respaceMatch afterFirst)).map (·.mask) = [1, 4] := by decide +kernel

example : ∃ out out', stackAndCoalesce (listTreeEnv false) growthMatches plainOpts = some out ∧
    stackAndCoalesce (listTreeEnv false) (growthMatches.map (respaceMatch afterFirst)) plainOpts =
      some out' ∧ (∃ c ∈ out, c.entries.length = 2) ∧
    (∀ c ∈ out, respaceContext afterFirst c ∈ out') ∧
    ∀ c' ∈ out', ∃ c ∈ out, c' = respaceContext afterFirst c := by
  have h1 : (stackAndCoalesce (listTreeEnv false) growthMatches plainOpts).map
      (fun out => decide (out.length < 40 ∧ ∃ c ∈ out, c.entries.length = 2)) = some true := by
    decide +kernel
  have h2 : (stackAndCoalesce (listTreeEnv false) (growthMatches.map (respaceMatch afterFirst))
      plainOpts).map (fun out => decide (out.length < 40)) = some true := by
    decide +kernel
  obtain ⟨out, h1, h3⟩ := Option.map_eq_some_iff.1 h1
  obtain ⟨out', h2, h4⟩ := Option.map_eq_some_iff.1 h2
  obtain ⟨h3, h5⟩ := of_decide_eq_true h3
  have h4 := of_decide_eq_true h4
  have hd : Delivered growthMatches := ⟨by decide +kernel, by decide +kernel, by decide +kernel⟩
  have hroom : RoomForGroups growthMatches :=
    room_of_small (by decide +kernel) (by decide +kernel) (by
      intro q hq kg hk
      simp only [growthMatches, List.mem_cons, List.not_mem_nil, or_false] at hq
      rcases hq with rfl | rfl <;> exact ⟨_, by rw [List.mem_singleton.1 hk]⟩)
  have hz : ZoomsAscend growthMatches := by
    unfold ZoomsAscend
    decide +kernel
  have hfew : FewGroupStacks 2000 growthMatches := few_of_small (by decide +kernel)
  exact ⟨out, out', h1, h2, h5,
    C103_kept rfl afterFirst_keeps hd hfew (.inr hz) hroom h1 h2 (short_of_few h4),
    C103_nothing_new rfl afterFirst_keeps hd hfew (.inr hz) hroom h1 h2 (short_of_few h3)⟩

/-- The first two words change places. -/
def swapFirst (i : ℕ) : ℕ := if i = 0 then 1 else if i = 1 then 0 else i

/-- The order of words does matter: when two words change places, the relevance of the context of both
changes (C58: 0.01 is taken away for entries that are not in order). -/
theorem C103_order_matters : ∃ out out',
    stackAndCoalesce (listTreeEnv false) growthMatches plainOpts = some out ∧
    stackAndCoalesce (listTreeEnv false) (growthMatches.map (respaceMatch swapFirst)) plainOpts =
      some out' ∧
    ∃ c ∈ out, ∃ c' ∈ out', c.entries.map (·.entry) = c'.entries.map (·.entry) ∧ c.mask = 3 ∧
      c'.mask = 3 ∧ c.relev < c'.relev := by
  have h : ((stackAndCoalesce (listTreeEnv false) growthMatches plainOpts).bind fun out =>
      (stackAndCoalesce (listTreeEnv false) (growthMatches.map (respaceMatch swapFirst))
        plainOpts).map fun out' => decide (∃ c ∈ out, ∃ c' ∈ out',
          c.entries.map (·.entry) = c'.entries.map (·.entry) ∧ c.mask = 3 ∧ c'.mask = 3 ∧
            c.relev < c'.relev)) = some true := by decide +kernel
  obtain ⟨out, h1, h⟩ := Option.bind_eq_some_iff.1 h
  obtain ⟨out', h2, h⟩ := Option.map_eq_some_iff.1 h
  exact ⟨out, out', h1, h2, of_decide_eq_true h⟩

end Carmen
