import Verif.Lemmas.Encode
import Verif.Lemmas.GroupBy
import Verif.Spec.Builder
import Mathlib.Data.List.Dedup

/-!
From the normalised record to the specification: the entries read back are the distinct
entries, best first.
-/

namespace Carmen
open Format Spec

/-! ### Content of a builder entry -/

/-- The builder entry holds compound id `i` for byte `rs` at tile `z`. -/
def Has (e : BuilderEntry) (rs z i : ℕ) : Prop :=
  ∃ inner, HMap.find rs e = some inner ∧ ∃ ids, HMap.find z inner = some ids ∧ i ∈ ids

/-- Representation invariant of a builder entry. -/
def EntryWf (e : BuilderEntry) : Prop := HMap.Wf e ∧ ∀ g ∈ e, HMap.Wf g.2

/-- Byte, tile, id triples of a record in order. -/
def triples (s : List (ℕ × List (ℕ × List ℕ))) : List (ℕ × ℕ × ℕ) :=
  s.flatMap (fun g => g.2.flatMap (fun c => c.2.map (fun i => (g.1, c.1, i))))

theorem shapeEntries_eq (s : List (ℕ × List (ℕ × List ℕ))) :
    shapeEntries s = (triples s).map (fun t => entryOf t.1 t.2.1 t.2.2) := by
  unfold shapeEntries triples
  simp [List.map_flatMap, Function.comp_def]

theorem mem_triples_normEntry {o : IterOrder} {e : BuilderEntry} (he : EntryWf e)
    {rs z i : ℕ} : (rs, z, i) ∈ triples (normEntry o e) ↔ Has e rs z i := by
  unfold triples normEntry Has
  simp only [List.mem_flatMap, List.mem_map, Prod.mk.injEq, mem_sortDesc_run]
  constructor
  · rintro ⟨g, ⟨g', hg', rfl⟩, c, hc, j, hj, rfl, rfl, rfl⟩
    simp only [List.mem_map, mem_sortDesc_run] at hc
    obtain ⟨c', hc', rfl⟩ := hc
    exact ⟨g'.2, HMap.find_of_mem he.1 hg', c'.2, HMap.find_of_mem (he.2 g' hg') hc',
      mem_normIds.1 hj⟩
  · rintro ⟨inner, h1, ids, h2, h3⟩
    refine ⟨_, ⟨(rs, inner), HMap.mem_of_find h1, rfl⟩, (z, normIds ids), ?_, i,
      mem_normIds.2 h3, rfl, rfl, rfl⟩
    simp only [List.mem_map, mem_sortDesc_run]
    exact ⟨(z, ids), HMap.mem_of_find h2, rfl⟩

theorem sortDesc_pairwise {V : Type} (l : List (ℕ × V)) :
    (sortDesc l).Pairwise (fun a b => b.1 ≤ a.1) :=
  have : Std.Total (fun a b : ℕ × V => b.1 ≤ a.1) := ⟨fun a b => le_total b.1 a.1⟩
  have : IsTrans (ℕ × V) (fun a b => b.1 ≤ a.1) := ⟨fun _ _ _ h1 h2 => le_trans h2 h1⟩
  List.pairwise_insertionSort _ l

theorem sortDesc_strict {V : Type} {l : List (ℕ × V)} (h : (l.map Prod.fst).Nodup) :
    (sortDesc l).Pairwise (fun a b => b.1 < a.1) := by
  have h1 := sortDesc_pairwise l
  have h2 : ((sortDesc l).map Prod.fst).Nodup := ((sortDesc_perm l).map _).nodup_iff.2 h
  have h3 : (sortDesc l).Pairwise (fun a b => a.1 ≠ b.1) := List.pairwise_map.1 h2
  exact (h1.and h3).imp (fun ⟨a, b⟩ => lt_of_le_of_ne a (Ne.symm b))

theorem dedupAdj_strict {l : List ℕ} (h : l.Pairwise (· ≥ ·)) :
    (dedupAdj l).Pairwise (· > ·) := by
  induction l with
  | nil => simp [dedupAdj]
  | cons a t ih =>
    have ht := ih (List.pairwise_cons.1 h).2
    have ha := (List.pairwise_cons.1 h).1
    rw [dedupAdj]
    cases hd : dedupAdj t with
    | nil => simp
    | cons b t' =>
      rw [hd] at ht
      have hm : ∀ x ∈ b :: t', x ≤ a := by
        intro x hx
        rw [← hd] at hx
        exact ha x (mem_dedupAdj.1 hx)
      by_cases hab : a = b
      · simp only [hab, if_true]; exact ht
      · simp only [hab, if_false]
        refine List.pairwise_cons.2 ⟨?_, ht⟩
        intro x hx
        rcases List.mem_cons.1 hx with rfl | hx'
        · exact lt_of_le_of_ne (hm x hx) (Ne.symm hab)
        · have h1 := (List.pairwise_cons.1 ht).1 x hx'
          have h2 := hm b (by simp)
          exact lt_of_lt_of_le h1 h2

theorem normIds_strict (ids : List ℕ) : (normIds ids).Pairwise (· > ·) :=
  dedupAdj_strict (List.pairwise_insertionSort (· ≥ ·) ids)

/-- Descending lexicographic order of triples. -/
def TripleGt (a b : ℕ × ℕ × ℕ) : Prop :=
  b.1 < a.1 ∨ (b.1 = a.1 ∧ (b.2.1 < a.2.1 ∨ (b.2.1 = a.2.1 ∧ b.2.2 < a.2.2)))

theorem triples_strict {o : IterOrder} {e : BuilderEntry} (he : EntryWf e) :
    (triples (normEntry o e)).Pairwise TripleGt := by
  unfold triples
  rw [List.pairwise_flatMap]
  constructor
  · intro g hg
    unfold normEntry at hg
    simp only [List.mem_map, mem_sortDesc_run] at hg
    obtain ⟨g', hg', rfl⟩ := hg
    rw [List.pairwise_flatMap]
    constructor
    · intro c hc
      simp only [List.mem_map, mem_sortDesc_run] at hc
      obtain ⟨c', hc', rfl⟩ := hc
      rw [List.pairwise_map]
      exact (normIds_strict c'.2).imp (fun h => Or.inr ⟨rfl, Or.inr ⟨rfl, h⟩⟩)
    · have hs := sortDesc_strict (l := o.run g'.2)
        ((((o.perm g'.2)).map Prod.fst).nodup_iff.2 (he.2 g' hg'))
      simp only [List.pairwise_map]
      refine hs.imp ?_
      intro a b hab x hx y hy
      simp only [List.mem_map] at hx hy
      obtain ⟨i, _, rfl⟩ := hx
      obtain ⟨j, _, rfl⟩ := hy
      exact Or.inr ⟨rfl, Or.inl hab⟩
  · have hs := sortDesc_strict (l := o.run e) ((((o.perm e)).map Prod.fst).nodup_iff.2 he.1)
    unfold normEntry
    simp only [List.pairwise_map]
    refine hs.imp ?_
    intro a b hab x hx y hy
    simp only [List.mem_flatMap, List.mem_map] at hx hy
    obtain ⟨c, _, i, _, rfl⟩ := hx
    obtain ⟨d, _, j, _, rfl⟩ := hy
    exact Or.inl hab

/-! ### Uniqueness of a strictly sorted list -/

/-- A strictly descending list is determined by its members. -/
theorem eq_of_strict {α κ : Type} [LinearOrder κ] (key : α → κ) {l₁ l₂ : List α}
    (h₁ : l₁.Pairwise (fun a b => key b < key a)) (h₂ : l₂.Pairwise (fun a b => key b < key a))
    (h : ∀ a, a ∈ l₁ ↔ a ∈ l₂) : l₁ = l₂ := by
  have n₁ : l₁.Nodup := h₁.imp (fun hab e => absurd hab (by rw [e]; exact lt_irrefl _))
  have n₂ : l₂.Nodup := h₂.imp (fun hab e => absurd hab (by rw [e]; exact lt_irrefl _))
  have hp : l₁.Perm l₂ := (List.perm_ext_iff_of_nodup n₁ n₂).2 h
  exact hp.eq_of_pairwise (le := fun a b => key b < key a)
    (fun a b _ _ hab hba => absurd hab (lt_asymm hba)) h₁ h₂

theorem entryKey_injOn {a b : GridEntry} (ha : a.x < 2 ^ 16 ∧ a.y < 2 ^ 16)
    (hb : b.x < 2 ^ 16 ∧ b.y < 2 ^ 16) (h : entryKey a = entryKey b) : a = b := by
  unfold entryKey at h
  simp only [EmbeddingLike.apply_eq_iff_eq, Prod.mk.injEq] at h
  obtain ⟨h1, h2, h3, h4, h5⟩ := h
  obtain ⟨hx, hy⟩ := interleave_inj ha.1 ha.2 hb.1 hb.2 h3
  cases a; cases b; simp_all

theorem readBack_pairwise {es : List GridEntry} (h : ∀ e ∈ es, e.x < 2 ^ 16 ∧ e.y < 2 ^ 16) :
    (readBack es).Pairwise (fun a b => entryKey b < entryKey a) := by
  unfold readBack
  have : Std.Total (fun a b : GridEntry => entryKey b ≤ entryKey a) :=
    ⟨fun a b => le_total _ _⟩
  have : IsTrans GridEntry (fun a b => entryKey b ≤ entryKey a) :=
    ⟨fun _ _ _ h1 h2 => le_trans h2 h1⟩
  have h1 := List.pairwise_insertionSort (fun a b : GridEntry => entryKey b ≤ entryKey a) es.dedup
  have h2 : (es.dedup.insertionSort (fun a b => entryKey b ≤ entryKey a)).Nodup :=
    ((List.perm_insertionSort _ _).nodup_iff).2 (List.nodup_dedup es)
  refine (h1.and h2).imp_of_mem ?_
  intro a b ha hb ⟨hle, hne⟩
  rw [List.mem_insertionSort, List.mem_dedup] at ha hb
  exact lt_of_le_of_ne hle (fun he => hne (entryKey_injOn (h b hb) (h a ha) he).symm)

theorem mem_readBack {es : List GridEntry} {e : GridEntry} : e ∈ readBack es ↔ e ∈ es := by
  unfold readBack
  rw [List.mem_insertionSort, List.mem_dedup]

/-! ### Decoding triples is monotone -/

theorem and15 (n : ℕ) : n &&& 15 = n % 16 := Nat.and_two_pow_sub_one_eq_mod n 4
theorem and255 (n : ℕ) : n &&& 255 = n % 256 := Nat.and_two_pow_sub_one_eq_mod n 8
theorem shr4 (n : ℕ) : n >>> 4 = n / 16 := Nat.shiftRight_eq_div_pow n 4
theorem shr8 (n : ℕ) : n >>> 8 = n / 256 := Nat.shiftRight_eq_div_pow n 8

theorem relevOfInt_strict {a b : ℕ} (h : a < b) (hb : b < 4) : relevOfInt a < relevOfInt b := by
  have h01 : lit 0.4 < lit 0.6 := by decide +kernel
  have h12 : lit 0.6 < lit 0.8 := by decide +kernel
  have h23 : lit 0.8 < (1 : F64) := by decide +kernel
  have : a = 0 ∨ a = 1 ∨ a = 2 := by omega
  unfold relevOfInt
  rcases this with rfl | rfl | rfl
  · have : b = 1 ∨ b = 2 ∨ b = 3 := by omega
    rcases this with rfl | rfl | rfl
    · simpa using h01
    · simpa using h01.trans h12
    · simpa using (h01.trans h12).trans h23
  · have : b = 2 ∨ b = 3 := by omega
    rcases this with rfl | rfl
    · simpa using h12
    · simpa using h12.trans h23
  · have : b = 3 := by omega
    subst this
    simpa using h23

theorem lex_lt {α β : Type} [LinearOrder α] [LinearOrder β] {a c : α} {b d : β}
    (h : a < c ∨ (a = c ∧ b < d)) : toLex (a, b) < toLex (c, d) := by
  rw [Prod.Lex.toLex_lt_toLex]; exact h

theorem entryOf_gt {a b : ℕ × ℕ × ℕ} (h : TripleGt a b) (ha : a.1 < 64)
    (haz : a.2.1 < 2 ^ 32) (hbz : b.2.1 < 2 ^ 32) :
    entryKey (entryOf b.1 b.2.1 b.2.2) < entryKey (entryOf a.1 a.2.1 a.2.2) := by
  obtain ⟨a1, a2, a3⟩ := a
  obtain ⟨b1, b2, b3⟩ := b
  simp only [entryKey, entryOf, splitId, and15, and255, shr4, shr8] at *
  rw [interleave_deinterleave haz, interleave_deinterleave hbz]
  simp only [TripleGt] at h
  rcases h with h | ⟨rfl, h⟩
  · by_cases hd : b1 / 16 = a1 / 16
    · rw [hd]
      refine lex_lt (Or.inr ⟨rfl, lex_lt (Or.inl ?_)⟩)
      omega
    · exact lex_lt (Or.inl (relevOfInt_strict (by omega) (by omega)))
  · refine lex_lt (Or.inr ⟨rfl, lex_lt (Or.inr ⟨rfl, ?_⟩)⟩)
    rcases h with h | ⟨rfl, h⟩
    · exact lex_lt (Or.inl h)
    · refine lex_lt (Or.inr ⟨rfl, ?_⟩)
      by_cases hd : b3 / 256 = a3 / 256
      · rw [hd]
        exact lex_lt (Or.inr ⟨rfl, by omega⟩)
      · exact lex_lt (Or.inl (by omega))

/-- Reading a record whose bytes are all below 64 (scores at most 15) gives the distinct
entries, best first. -/
theorem shapeEntries_normEntry {o : IterOrder} {e : BuilderEntry} (he : EntryWf e)
    (hb : ∀ rs z i, Has e rs z i → rs < 64 ∧ z < 2 ^ 32) {es : List GridEntry}
    (hes : ∀ x, x ∈ es ↔ ∃ rs z i, Has e rs z i ∧ x = entryOf rs z i) :
    shapeEntries (normEntry o e) = readBack es := by
  rw [shapeEntries_eq]
  refine eq_of_strict entryKey ?_ (readBack_pairwise ?_) ?_
  · rw [List.pairwise_map]
    refine (triples_strict (o := o) he).imp_of_mem ?_
    rintro ⟨a1, a2, a3⟩ ⟨b1, b2, b3⟩ ha hb' hab
    rw [mem_triples_normEntry he] at ha hb'
    exact entryOf_gt hab (hb _ _ _ ha).1 (hb _ _ _ ha).2 (hb _ _ _ hb').2
  · intro x hx
    obtain ⟨rs, z, i, _, rfl⟩ := (hes x).1 hx
    exact deinterleave_lt z
  · intro x
    rw [mem_readBack, hes]
    simp only [List.mem_map]
    constructor
    · rintro ⟨⟨rs, z, i⟩, h, rfl⟩
      exact ⟨rs, z, i, (mem_triples_normEntry he).1 h, rfl⟩
    · rintro ⟨rs, z, i, h, rfl⟩
      exact ⟨(rs, z, i), (mem_triples_normEntry he).2 h, rfl⟩

/-! ### What one entry is stored as -/

theorem relevToInt_lt (r : F64) : relevToInt r < 4 := by
  unfold relevToInt; split_ifs <;> omega

theorem rsByte_eq {r : F64} {s : ℕ} (hs : s < 16) : rsByte r s = 16 * relevToInt r + s := by
  unfold rsByte
  rw [← Nat.shiftLeft_add_eq_or_of_lt (by simpa using hs), Nat.shiftLeft_eq]
  ring

theorem rsByte_lt {r : F64} {s : ℕ} (hs : s < 2 ^ 8) : rsByte r s < 2 ^ 8 := by
  unfold rsByte
  refine Nat.or_lt_two_pow ?_ hs
  rw [Nat.shiftLeft_eq]
  have := relevToInt_lt r
  omega

theorem idComp_eq {id h : ℕ} (hh : h < 256) : idComp id h = 256 * (id % 2 ^ 24) + h := by
  unfold idComp
  have : id <<< 8 % 2 ^ 32 = (id % 2 ^ 24) <<< 8 := by
    rw [Nat.shiftLeft_eq, Nat.shiftLeft_eq]; omega
  rw [this, ← Nat.shiftLeft_add_eq_or_of_lt (by simpa using hh), Nat.shiftLeft_eq]
  ring

theorem relevOfInt_relevToInt (r : F64) :
    relevOfInt (relevToInt r) =
      if r = lit 0.4 ∨ r = lit 0.6 ∨ r = lit 0.8 then r else 1 := by
  have h4 : ∀ q : ℚ, F64.feq r (lit q) = decide (r = lit q) := by
    intro q
    unfold F64.feq
    refine decide_eq_decide.2 ⟨fun h => h.2, fun h => ⟨?_, h⟩⟩
    rw [h]; unfold lit F64.ofRat F64.ofRounded
    split_ifs <;> simp
  unfold relevToInt
  simp only [h4]
  by_cases h1 : r = lit 0.4
  · simp [h1, relevOfInt]
  · by_cases h2 : r = lit 0.6
    · simp only [h2, decide_true, if_true, or_true, true_or]
      rw [if_neg (by decide +kernel)]; rfl
    · by_cases h3 : r = lit 0.8
      · simp only [h3, decide_true, if_true, or_true]
        rw [if_neg (by decide +kernel), if_neg (by decide +kernel)]; rfl
      · simp [h1, h2, h3, relevOfInt]

/-- An entry with score at most 15 is stored as `Spec.stored` says. -/
theorem entryOf_stored {e : GridEntry} (he : e.Wf) (hs : e.score ≤ 15) :
    entryOf (rsByte e.relev e.score) (interleave e.x e.y) (idComp e.id e.hash) = stored e := by
  obtain ⟨_, hx, hy, _, hh⟩ := he
  have hh' : e.hash < 256 := by simpa using hh
  unfold entryOf stored splitId
  rw [deinterleave_interleave hx hy, rsByte_eq (by omega), idComp_eq hh']
  simp only [and15, and255, shr4, shr8]
  have e1 : (16 * relevToInt e.relev + e.score) / 16 = relevToInt e.relev := by omega
  have e2 : (16 * relevToInt e.relev + e.score) % 16 = e.score := by omega
  have e3 : (256 * (e.id % 2 ^ 24) + e.hash) / 256 = e.id % 2 ^ 24 := by omega
  have e4 : (256 * (e.id % 2 ^ 24) + e.hash) % 256 = e.hash := by omega
  rw [e1, e2, e3, e4, relevOfInt_relevToInt]

end Carmen
