import Verif.Lemmas.BuilderEntry
import Verif.Lemmas.Keys

/-! Lemmas on `finish` and on the invariants of the builder. -/

set_option linter.unusedSectionVars false

namespace Carmen
open Format Spec

namespace Builder

/-! ### The bin closure -/

theorem step_iter_nil (n : ℕ) : ∀ (cur : Option ℕ) (next : ℕ),
    (BinState.step^[n + 1]) ⟨[], cur, next⟩ = ⟨[], none, u32Max⟩ := by
  induction n with
  | zero => intro cur next; rfl
  | succ n ih =>
    intro cur next
    rw [Function.iterate_succ_apply]
    exact ih _ _

/-- `advance` is the loop: it gives the first state in the sequence of loop-body
executions whose boundary is above the phrase id, … -/
theorem advance_some {pid : ℕ} {seq : List ℕ} {cur : Option ℕ} {next : ℕ} {s : BinState}
    (h : advance pid seq cur next = some s) :
    ∃ n, (BinState.step^[n]) ⟨seq, cur, next⟩ = s ∧ pid < s.next ∧
      ∀ m < n, ¬ pid < ((BinState.step^[m]) ⟨seq, cur, next⟩).next := by
  induction seq generalizing cur next with
  | nil =>
    unfold advance at h
    by_cases h1 : pid < next
    · rw [if_pos h1] at h
      cases h
      exact ⟨0, rfl, h1, by omega⟩
    · rw [if_neg h1] at h
      by_cases h2 : pid < u32Max
      · rw [if_pos h2] at h
        cases h
        refine ⟨1, rfl, h2, ?_⟩
        intro m hm
        obtain rfl : m = 0 := by omega
        exact h1
      · rw [if_neg h2] at h; cases h
  | cons b t ih =>
    unfold advance at h
    by_cases h1 : pid < next
    · rw [if_pos h1] at h
      cases h
      exact ⟨0, rfl, h1, by omega⟩
    · rw [if_neg h1] at h
      obtain ⟨n, e, hs, hm⟩ := ih h
      refine ⟨n + 1, ?_, hs, ?_⟩
      · rw [Function.iterate_succ_apply]; exact e
      · intro m hmn
        cases m with
        | zero => exact h1
        | succ m =>
          rw [Function.iterate_succ_apply]
          exact hm m (by omega)

/-- … and it gives nothing exactly when no state of the sequence ends the loop. -/
theorem advance_none_iff {pid : ℕ} {seq : List ℕ} {cur : Option ℕ} {next : ℕ} :
    advance pid seq cur next = none ↔
      ∀ n, ¬ pid < ((BinState.step^[n]) ⟨seq, cur, next⟩).next := by
  constructor
  · intro h
    induction seq generalizing cur next with
    | nil =>
      unfold advance at h
      by_cases h1 : pid < next
      · rw [if_pos h1] at h; cases h
      · rw [if_neg h1] at h
        by_cases h2 : pid < u32Max
        · rw [if_pos h2] at h; cases h
        · intro n
          cases n with
          | zero => exact h1
          | succ n => rw [step_iter_nil]; exact h2
    | cons b t ih =>
      unfold advance at h
      by_cases h1 : pid < next
      · rw [if_pos h1] at h; cases h
      · rw [if_neg h1] at h
        intro n
        cases n with
        | zero => exact h1
        | succ n => rw [Function.iterate_succ_apply]; exact ih h n
  · intro h
    cases hs : advance pid seq cur next with
    | none => rfl
    | some s =>
      obtain ⟨n, e, h1, _⟩ := advance_some hs
      exact absurd h1 (by rw [← e]; exact h n)

theorem advance_isSome {pid : ℕ} (hp : pid < u32Max) (seq : List ℕ) (cur : Option ℕ)
    (next : ℕ) : ∃ s, advance pid seq cur next = some s := by
  induction seq generalizing cur next with
  | nil =>
    unfold advance
    by_cases h1 : pid < next
    · exact ⟨_, if_pos h1⟩
    · rw [if_neg h1, if_pos hp]; exact ⟨_, rfl⟩
  | cons b t ih =>
    unfold advance
    by_cases h1 : pid < next
    · exact ⟨_, if_pos h1⟩
    · rw [if_neg h1]; exact ih _ _

theorem head_getD_le {l : List ℕ} (h : ∀ x ∈ l, x < 2 ^ 32) : l.head?.getD u32Max ≤ u32Max := by
  cases l with
  | nil => simp
  | cons a t => have := h a (by simp); simp only [List.head?_cons, Option.getD_some, u32Max]; omega

theorem advance_max {seq : List ℕ} (hs : ∀ x ∈ seq, x < 2 ^ 32) {cur : Option ℕ} {next : ℕ}
    (hn : next ≤ u32Max) : advance u32Max seq cur next = none := by
  induction seq generalizing cur next with
  | nil => unfold advance; rw [if_neg (by omega), if_neg (by omega)]
  | cons b t ih =>
    unfold advance
    rw [if_neg (by omega)]
    exact ih (fun x hx => hs x (by simp [hx])) (head_getD_le (fun x hx => hs x (by simp [hx])))

/-- The boundary states reached keep the boundaries 32 bit wide. -/
theorem advance_bounds {pid : ℕ} {seq : List ℕ} (hs : ∀ x ∈ seq, x < 2 ^ 32) {cur : Option ℕ}
    {next : ℕ} (hn : next ≤ u32Max) {s : BinState} (h : advance pid seq cur next = some s) :
    (∀ x ∈ s.seq, x < 2 ^ 32) ∧ s.next ≤ u32Max := by
  induction seq generalizing cur next with
  | nil =>
    unfold advance at h
    split at h
    · cases h; exact ⟨by simp, hn⟩
    · split at h
      · cases h; exact ⟨by simp, le_refl _⟩
      · cases h
  | cons b t ih =>
    unfold advance at h
    split at h
    · cases h; exact ⟨hs, hn⟩
    · exact ih (fun x hx => hs x (by simp [hx])) (head_getD_le (fun x hx => hs x (by simp [hx]))) h

/-! ### Bins of rows -/

theorem assignBins_prefix (s : BinState) (rows : List (GridKey × BuilderEntry)) :
    (assignBins s rows).1.map Prod.snd <+: rows := by
  induction rows generalizing s with
  | nil => simp [assignBins]
  | cons r t ih =>
    unfold assignBins
    cases h : advance r.1.phraseId s.seq s.cur s.next with
    | none => simp
    | some s' => simpa using ih s'

theorem assignBins_all {s : BinState} {rows : List (GridKey × BuilderEntry)}
    (h : (assignBins s rows).2 = true) : (assignBins s rows).1.map Prod.snd = rows := by
  induction rows generalizing s with
  | nil => simp [assignBins]
  | cons r t ih =>
    unfold assignBins at h ⊢
    cases h' : advance r.1.phraseId s.seq s.cur s.next with
    | none => rw [h'] at h; simp at h
    | some s' => rw [h'] at h; simpa using ih h

theorem assignBins_ends {s : BinState} {rows : List (GridKey × BuilderEntry)}
    (h : ∀ r ∈ rows, r.1.phraseId < u32Max) : (assignBins s rows).2 = true := by
  induction rows generalizing s with
  | nil => simp [assignBins]
  | cons r t ih =>
    unfold assignBins
    obtain ⟨s', hs'⟩ := advance_isSome (h r (by simp)) s.seq s.cur s.next
    rw [hs']
    exact ih (fun x hx => h x (by simp [hx]))

theorem assignBins_stuck {s : BinState} (hs : ∀ x ∈ s.seq, x < 2 ^ 32) (hn : s.next ≤ u32Max)
    {rows : List (GridKey × BuilderEntry)} (h : ∃ r ∈ rows, r.1.phraseId = u32Max) :
    (assignBins s rows).2 = false := by
  induction rows generalizing s with
  | nil => simp at h
  | cons r t ih =>
    unfold assignBins
    cases h' : advance r.1.phraseId s.seq s.cur s.next with
    | none => rfl
    | some s' =>
      have hb := advance_bounds hs hn h'
      refine ih hb.1 hb.2 ?_
      obtain ⟨q, hq, hqm⟩ := h
      rcases List.mem_cons.1 hq with rfl | hq
      · rw [hqm, advance_max hs hn] at h'; cases h'
      · exact ⟨q, hq, hqm⟩

/-! ### Puts -/

theorem applyPuts_append (db : SMap Bytes Bytes) (a b : List (Bytes × Bytes)) :
    applyPuts db (a ++ b) = applyPuts (applyPuts db a) b := by
  unfold applyPuts; rw [List.foldl_append]

theorem applyPuts_sorted {db : SMap Bytes Bytes} (h : SMap.Sorted db)
    (puts : List (Bytes × Bytes)) : SMap.Sorted (applyPuts db puts) := by
  induction puts generalizing db with
  | nil => exact h
  | cons p t ih => exact ih (SMap.sorted_insert h)

theorem find_applyPuts_of_not_mem {db : SMap Bytes Bytes} {puts : List (Bytes × Bytes)}
    {k : Bytes} (h : ∀ p ∈ puts, p.1 ≠ k) :
    SMap.find k (applyPuts db puts) = SMap.find k db := by
  induction puts generalizing db with
  | nil => rfl
  | cons p t ih =>
    have h1 := ih (db := SMap.insert p.1 p.2 db) (fun q hq => h q (by simp [hq]))
    have h2 : p.1 ≠ k := h p (by simp)
    unfold applyPuts at h1 ⊢
    rw [List.foldl_cons, h1, SMap.find_insert, if_neg h2.symm]

theorem find_applyPuts_of_unique {db : SMap Bytes Bytes} {puts : List (Bytes × Bytes)}
    {k v : Bytes} (hm : (k, v) ∈ puts) (h : ∀ p ∈ puts, p.1 = k → p.2 = v) :
    SMap.find k (applyPuts db puts) = some v := by
  induction puts generalizing db with
  | nil => simp at hm
  | cons p t ih =>
    by_cases ht : (k, v) ∈ t
    · exact ih ht (fun q hq => h q (by simp [hq]))
    · have hp : p = (k, v) := by
        rcases List.mem_cons.1 hm with h1 | h1
        · exact h1.symm
        · exact absurd h1 ht
      have h1 : ∀ q ∈ t, q.1 ≠ k := by
        intro q hq hk
        have := h q (by simp [hq]) hk
        exact ht (by rw [← hk, ← this]; exact hq)
      have h2 := find_applyPuts_of_not_mem (db := SMap.insert p.1 p.2 db) h1
      unfold applyPuts at h2 ⊢
      rw [List.foldl_cons, h2, hp, SMap.find_insert, if_pos rfl]

/-- Whatever the puts, a key found was put. -/
theorem mem_of_find_applyPuts {puts : List (Bytes × Bytes)} {k v : Bytes} :
    ∀ {db : SMap Bytes Bytes}, SMap.find k (applyPuts db puts) = some v →
      SMap.find k db = some v ∨ (k, v) ∈ puts := by
  induction puts with
  | nil => intro db h; exact Or.inl h
  | cons p t ih =>
    intro db h
    unfold applyPuts at h
    rw [List.foldl_cons] at h
    rcases ih (db := SMap.insert p.1 p.2 db) h with h | h
    · rw [SMap.find_insert] at h
      by_cases hk : k = p.1
      · rw [if_pos hk] at h
        right
        simp only [Option.some.injEq] at h
        rw [hk, ← h]; simp
      · rw [if_neg hk] at h
        exact Or.inl h
    · exact Or.inr (by simp [h])

/-- Keys of all puts of a group. -/
theorem mem_groupPuts {o : IterOrder}
    {g : Option ℕ × List (Option ℕ × (GridKey × BuilderEntry))} {p : Bytes × Bytes} :
    p ∈ groupPuts o g ↔
      (∃ r ∈ g.2, p = (r.2.1.dbKey .singlePhrase, encodeValue o r.2.2)) ∨
      (∃ bin, g.1 = some bin ∧ ∃ le ∈ langMap o (g.2.map (·.2)),
        p = ((⟨bin, le.1⟩ : GridKey).dbKey .prefixBin, encodeValue o le.2)) := by
  unfold groupPuts
  rw [List.mem_append]
  refine or_congr ?_ ?_
  · rw [List.mem_map]
    constructor
    · rintro ⟨r, hr, rfl⟩; exact ⟨r, hr, rfl⟩
    · rintro ⟨r, hr, rfl⟩; exact ⟨r, hr, rfl⟩
  · cases hg : g.1 with
    | none => simp
    | some bin =>
      simp only [List.mem_map, Option.some.injEq]
      constructor
      · rintro ⟨le, hle, rfl⟩
        exact ⟨bin, rfl, le, (o.perm _).mem_iff.1 hle, rfl⟩
      · rintro ⟨_, rfl, le, hle, rfl⟩
        exact ⟨le, (o.perm _).mem_iff.2 hle, rfl⟩

theorem binGroups_concat {b : Builder} (h : b.binGroups.2 = true) :
    b.binGroups.1.flatMap (·.2) = (assignBins (BinState.init b.bounds) b.data).1 := by
  unfold binGroups at h ⊢
  simp only at h ⊢
  rw [if_pos h]
  exact groupBy_concat _ _

theorem binGroups_mem {b : Builder} {g : Option ℕ × List (Option ℕ × (GridKey × BuilderEntry))}
    (hg : g ∈ b.binGroups.1) {r : Option ℕ × (GridKey × BuilderEntry)} (hr : r ∈ g.2) :
    r ∈ (assignBins (BinState.init b.bounds) b.data).1 ∧ r.1 = g.1 := by
  have hg' : g ∈ groupBy (fun x : Option ℕ × (GridKey × BuilderEntry) => x.1)
      (assignBins (BinState.init b.bounds) b.data).1 := by
    unfold binGroups at hg
    simp only at hg
    split at hg
    · exact hg
    · exact List.dropLast_subset _ hg
  constructor
  · rw [← groupBy_concat (fun x : Option ℕ × (GridKey × BuilderEntry) => x.1)
      (assignBins (BinState.init b.bounds) b.data).1]
    exact List.mem_flatMap.2 ⟨g, hg', hr⟩
  · exact groupBy_key hg' hr

theorem binGroups_data {b : Builder} {g : Option ℕ × List (Option ℕ × (GridKey × BuilderEntry))}
    (hg : g ∈ b.binGroups.1) {r : Option ℕ × (GridKey × BuilderEntry)} (hr : r ∈ g.2) :
    r.2 ∈ b.data :=
  (assignBins_prefix _ _).subset (List.mem_map.2 ⟨r, (binGroups_mem hg hr).1, rfl⟩)

/-- The three kinds of puts. -/
theorem mem_finishPuts_cases {o : IterOrder} {b : Builder} {p : Bytes × Bytes}
    (hp : p ∈ (finishPuts o b).1) :
    (∃ r ∈ b.data, p = (r.1.dbKey .singlePhrase, encodeValue o r.2)) ∨
    (∃ g ∈ b.binGroups.1, ∃ bin, g.1 = some bin ∧ ∃ le ∈ langMap o (g.2.map (·.2)),
        p = ((⟨bin, le.1⟩ : GridKey).dbKey .prefixBin, encodeValue o le.2)) ∨
    (p = (boundsKey, boundsValue b.bounds) ∧ b.binGroups.2 = true) := by
  unfold finishPuts at hp
  simp only at hp
  have key : ∀ q ∈ b.binGroups.1.flatMap (groupPuts o),
      (∃ r ∈ b.data, q = (r.1.dbKey .singlePhrase, encodeValue o r.2)) ∨
      (∃ g ∈ b.binGroups.1, ∃ bin, g.1 = some bin ∧ ∃ le ∈ langMap o (g.2.map (·.2)),
        q = ((⟨bin, le.1⟩ : GridKey).dbKey .prefixBin, encodeValue o le.2)) := by
    intro q hq
    obtain ⟨g, hg, hq⟩ := List.mem_flatMap.1 hq
    rcases mem_groupPuts.1 hq with ⟨r, hr, e⟩ | ⟨bin, hb, le, hle, e⟩
    · exact Or.inl ⟨r.2, binGroups_data hg hr, e⟩
    · exact Or.inr ⟨g, hg, bin, hb, le, hle, e⟩
  split at hp
  · rename_i ht
    rcases List.mem_append.1 hp with hp | hp
    · rcases key p hp with h | h
      · exact Or.inl h
      · exact Or.inr (Or.inl h)
    · exact Or.inr (Or.inr ⟨by simpa using hp, ht⟩)
  · rcases key p hp with h | h
    · exact Or.inl h
    · exact Or.inr (Or.inl h)

theorem single_mem_finishPuts {o : IterOrder} {b : Builder} (h : (finishPuts o b).2 = true)
    {r : GridKey × BuilderEntry} (hr : r ∈ b.data) :
    (r.1.dbKey .singlePhrase, encodeValue o r.2) ∈ (finishPuts o b).1 := by
  have ht : b.binGroups.2 = true := by
    by_contra hc
    unfold finishPuts at h
    simp only [hc] at h
    simp at h
  unfold finishPuts
  simp only [ht, if_true]
  rw [List.mem_append]
  left
  have ha : (assignBins (BinState.init b.bounds) b.data).1.map Prod.snd = b.data :=
    assignBins_all ht
  rw [← ha] at hr
  obtain ⟨x, hx, rfl⟩ := List.mem_map.1 hr
  rw [← binGroups_concat ht] at hx
  obtain ⟨g, hg, hx⟩ := List.mem_flatMap.1 hx
  exact List.mem_flatMap.2 ⟨g, hg, mem_groupPuts.2 (Or.inl ⟨x, hx, rfl⟩)⟩

theorem finishPuts_snd {o : IterOrder} {b : Builder} :
    (finishPuts o b).2 = b.binGroups.2 := by
  unfold finishPuts
  cases h : b.binGroups.2 <;> simp [h]

theorem finish_eq_some {o : IterOrder} {b : Builder} {db : SMap Bytes Bytes} :
    finish o b = some db ↔ (finishPuts o b).2 = true ∧ applyPuts [] (finishPuts o b).1 = db := by
  unfold finish finishInto
  simp only
  cases h : (finishPuts o b).2 <;> simp

/-! ### Well-formed builders -/

/-- What the Rust types guarantee of a builder. -/
structure Wf (b : Builder) : Prop where
  sorted : SMap.Sorted b.data
  keys : ∀ r ∈ b.data, r.1.Wf
  entries : ∀ r ∈ b.data, EntryWf r.2 ∧ EntryBounds r.2
  bounds : ∀ x ∈ b.bounds, x < 2 ^ 32

theorem assignBins_cur {s : BinState} {rows : List (GridKey × BuilderEntry)} {P : ℕ → Prop}
    (hs : ∀ x ∈ s.seq, P x) (hc : ∀ x, s.cur = some x → P x) :
    ∀ r ∈ (assignBins s rows).1, ∀ x, r.1 = some x → P x := by
  have adv : ∀ (pid : ℕ) (seq : List ℕ) (cur : Option ℕ) (next : ℕ) (s : BinState),
      (∀ x ∈ seq, P x) → (∀ x, cur = some x → P x) → advance pid seq cur next = some s →
      (∀ x ∈ s.seq, P x) ∧ (∀ x, s.cur = some x → P x) := by
    intro pid seq
    induction seq with
    | nil =>
      intro cur next s h1 h2 h
      unfold advance at h
      split at h
      · cases h; exact ⟨h1, h2⟩
      · split at h
        · cases h; exact ⟨h1, by simp⟩
        · cases h
    | cons b t ih =>
      intro cur next s h1 h2 h
      unfold advance at h
      split at h
      · cases h; exact ⟨h1, h2⟩
      · refine ih _ _ _ (fun x hx => h1 x (by simp [hx])) ?_ h
        intro x hx; cases hx; exact h1 b (by simp)
  induction rows generalizing s with
  | nil => simp [assignBins]
  | cons r t ih =>
    unfold assignBins
    cases h : advance r.1.phraseId s.seq s.cur s.next with
    | none => simp
    | some s' =>
      obtain ⟨h1, h2⟩ := adv _ _ _ _ _ hs hc h
      intro q hq
      rcases List.mem_cons.1 hq with rfl | hq
      · exact h2
      · exact ih h1 h2 q hq

theorem langMap_langs {o : IterOrder} {rows : List (GridKey × BuilderEntry)} {le : ℕ × BuilderEntry}
    (h : le ∈ langMap o rows) : ∃ r ∈ rows, r.1.langSet = le.1 := by
  have : ∀ (rows' : List (GridKey × BuilderEntry)) (m : HMap ℕ BuilderEntry),
      (∀ r ∈ rows', r ∈ rows) → (∀ p ∈ m, ∃ r ∈ rows, r.1.langSet = p.1) →
      ∀ p ∈ rows'.foldl (fun m (kv : GridKey × BuilderEntry) =>
        HMap.upsert kv.1.langSet [] (fun d => copyEntries o kv.2 d) m) m,
        ∃ r ∈ rows, r.1.langSet = p.1 := by
    intro rows' m h1 h2
    exact hmap_foldl_forall (fun kv : GridKey × BuilderEntry => kv.1.langSet) []
      (fun kv d => copyEntries o kv.2 d) (fun k _ => ∃ r ∈ rows, r.1.langSet = k) rows' m h2
      (fun a ha => ⟨a, h1 a ha, rfl⟩) (fun a ha _ _ => ⟨a, h1 a ha, rfl⟩)
  exact this rows [] (fun _ h => h) (by simp) le h

/-- The keys of bin rows are well-formed. -/
theorem bin_key_wf {b : Builder} (hb : b.Wf) {o : IterOrder}
    {g : Option ℕ × List (Option ℕ × (GridKey × BuilderEntry))} (hg : g ∈ b.binGroups.1)
    {bin : ℕ} (hbin : g.1 = some bin) {le : ℕ × BuilderEntry}
    (hle : le ∈ langMap o (g.2.map (·.2))) : (⟨bin, le.1⟩ : GridKey).Wf := by
  obtain ⟨r, hr, hl⟩ := langMap_langs hle
  obtain ⟨x, hx, rfl⟩ := List.mem_map.1 hr
  have h1 := binGroups_data hg hx
  have h2 := binGroups_mem hg hx
  refine ⟨?_, ?_⟩
  · refine assignBins_cur (P := fun x => x < 2 ^ 32) (s := BinState.init b.bounds) ?_ ?_ x h2.1
      bin (by rw [h2.2, hbin])
    · exact hb.bounds
    · intro x hx; simp [BinState.init] at hx
  · have := (hb.keys _ h1).2
    rw [hl] at this
    exact this

/-- Every put under the database key of a phrase row is the encoding of that row. -/
theorem put_single {o : IterOrder} {b : Builder} (hb : b.Wf) {k : GridKey} (hk : k.Wf)
    {p : Bytes × Bytes} (hp : p ∈ (finishPuts o b).1) (hpk : p.1 = k.dbKey .singlePhrase) :
    ∃ e, (k, e) ∈ b.data ∧ p.2 = encodeValue o e := by
  rcases mem_finishPuts_cases hp with ⟨r, hr, rfl⟩ | ⟨g, hg, bin, hbin, le, hle, rfl⟩ | ⟨rfl, _⟩
  · have := (dbKey_inj (hb.keys r hr) hk hpk).2
    exact ⟨r.2, by rw [← this]; exact hr, rfl⟩
  · have := (dbKey_inj (bin_key_wf hb hg hbin hle) hk hpk).1
    cases this
  · exact absurd hpk.symm (dbKey_ne_bounds _ _)

/-- The row of a key after `finish`. -/
theorem find_finish {o : IterOrder} {b : Builder} (hb : b.Wf) {db : SMap Bytes Bytes}
    (h : finish o b = some db) {k : GridKey} (hk : k.Wf) :
    SMap.find (k.dbKey .singlePhrase) db = (SMap.find k b.data).map (encodeValue o) := by
  obtain ⟨h1, rfl⟩ := finish_eq_some.1 h
  cases hf : SMap.find k b.data with
  | none =>
    rw [find_applyPuts_of_not_mem]
    · rfl
    · intro p hp hpk
      obtain ⟨e, he, _⟩ := put_single hb hk hp hpk
      rw [(SMap.mem_iff_find hb.sorted).1 he] at hf
      cases hf
  | some e =>
    have hm := (SMap.mem_iff_find hb.sorted).2 hf
    refine find_applyPuts_of_unique (single_mem_finishPuts h1 hm) ?_
    intro p hp hpk
    obtain ⟨e', he', hv⟩ := put_single hb hk hp hpk
    rw [(SMap.mem_iff_find hb.sorted).1 he'] at hf
    cases hf
    exact hv

/-- The boundaries row after `finish`. -/
theorem find_bounds {o : IterOrder} {b : Builder} {db : SMap Bytes Bytes}
    (h : finish o b = some db) : SMap.find boundsKey db = some (boundsValue b.bounds) := by
  obtain ⟨h1, rfl⟩ := finish_eq_some.1 h
  rw [finishPuts_snd] at h1
  refine find_applyPuts_of_unique ?_ ?_
  · unfold finishPuts
    simp only [h1, if_true]
    simp
  · intro p hp hpk
    rcases mem_finishPuts_cases hp with ⟨r, hr, rfl⟩ | ⟨g, hg, bin, hbin, le, hle, rfl⟩ | ⟨rfl, _⟩
    · exact absurd hpk (dbKey_ne_bounds _ _)
    · exact absurd hpk (dbKey_ne_bounds _ _)
    · rfl

theorem finish_sorted {o : IterOrder} {b : Builder} {db : SMap Bytes Bytes}
    (h : finish o b = some db) : SMap.Sorted db := by
  obtain ⟨_, rfl⟩ := finish_eq_some.1 h
  exact applyPuts_sorted SMap.sorted_nil _

/-- Every row of a finished database is a phrase row, a bin row or the boundaries. -/
theorem finish_rows {o : IterOrder} {b : Builder} (hb : b.Wf) {db : SMap Bytes Bytes}
    (h : finish o b = some db) {r : Bytes × Bytes} (hr : r ∈ db) :
    (∃ k e, (k, e) ∈ b.data ∧ r = (k.dbKey .singlePhrase, encodeValue o e)) ∨
    (∃ k : GridKey, k.Wf ∧ r.1 = k.dbKey .prefixBin) ∨ r.1 = boundsKey := by
  have hf := (SMap.mem_iff_find (finish_sorted h) (k := r.1) (v := r.2)).1 hr
  obtain ⟨_, rfl⟩ := finish_eq_some.1 h
  rcases mem_of_find_applyPuts hf with h0 | hp
  · simp [SMap.find] at h0
  · rcases mem_finishPuts_cases hp with ⟨q, hq, e⟩ | ⟨g, hg, bin, hbin, le, hle, e⟩ | ⟨e, _⟩
    · exact Or.inl ⟨q.1, q.2, hq, e⟩
    · exact Or.inr (Or.inl ⟨_, bin_key_wf hb hg hbin hle, congrArg Prod.fst e⟩)
    · exact Or.inr (Or.inr (congrArg Prod.fst e))

end Builder

end Carmen
