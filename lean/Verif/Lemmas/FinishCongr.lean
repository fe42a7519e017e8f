import Verif.Lemmas.History
import Mathlib.Data.List.Forall2

/-! `finish` depends on the content of the builder only, not on hash orders. -/

set_option linter.unusedSectionVars false

namespace Carmen
open Format Spec

/-- Two builder entries with the same content, without empty groups. -/
structure SameEntry (e e' : BuilderEntry) : Prop where
  wf : EntryWf e
  wf' : EntryWf e'
  ne : NoEmpty e
  ne' : NoEmpty e'
  has : ∀ rs z i, Has e rs z i ↔ Has e' rs z i

theorem SameEntry.encode {e e' : BuilderEntry} (h : SameEntry e e') (o o' : IterOrder) :
    encodeValue o e = encodeValue o' e' := encodeValue_ext h.wf h.wf' h.ne h.ne' h.has

theorem noEmpty_copyEntries {o : IterOrder} {src dst : BuilderEntry} (hs : NoEmpty src)
    (hd : NoEmpty dst) : NoEmpty (copyEntries o src dst) := by
  unfold copyEntries
  have : ∀ l : List (ℕ × HMap ℕ (List ℕ)), (∀ g ∈ l, g.2 ≠ [] ∧ ∀ c ∈ g.2, c.2 ≠ []) →
      ∀ dst, NoEmpty dst → NoEmpty (l.foldl (fun dst rv => HMap.upsert rv.1 [] (fun inner =>
      (o.run rv.2).foldl
        (fun inner zv => HMap.upsert zv.1 [] (fun ids => ids ++ zv.2) inner) inner) dst) dst) := by
    intro l
    induction l with
    | nil => intro _ dst h; exact h
    | cons g t ih =>
      intro hl dst hd
      rw [List.foldl_cons]
      refine ih (fun g hg => hl g (by simp [hg])) _ (noEmpty_upsert hd _ _ ?_)
      intro inner hi
      refine noEmpty_foldl_inner (fun zv : ℕ × List ℕ => zv.1) (fun zv => zv.2) _ ?_ ?_ inner hi
      · intro zv hzv
        exact (hl g (by simp)).2 zv ((o.perm g.2).mem_iff.1 hzv)
      · intro h0
        have := (o.perm g.2).length_eq
        rw [h0] at this
        exact (hl g (by simp)).1 (List.length_eq_zero_iff.1 (by simpa using this.symm))
  exact this _ (fun g hg => hs g ((o.perm src).mem_iff.1 hg)) dst hd

theorem SameEntry.copy {e e' d d' : BuilderEntry} (o o' : IterOrder) (h : SameEntry e e')
    (hd : SameEntry d d') : SameEntry (copyEntries o e d) (copyEntries o' e' d') :=
  ⟨entryWf_copyEntries hd.wf, entryWf_copyEntries hd.wf', noEmpty_copyEntries h.ne hd.ne,
    noEmpty_copyEntries h.ne' hd.ne', fun rs z i => by
      rw [has_copyEntries h.wf, has_copyEntries h.wf', h.has, hd.has]⟩

theorem sameEntry_nil : SameEntry [] [] :=
  ⟨entryWf_nil, entryWf_nil, noEmpty_nil, noEmpty_nil, fun _ _ _ => Iff.rfl⟩

/-- Rows with the same key and content. -/
def SameRow (r r' : GridKey × BuilderEntry) : Prop := r.1 = r'.1 ∧ SameEntry r.2 r'.2

/-- Rows with bins. -/
def SameBinRow (r r' : Option ℕ × (GridKey × BuilderEntry)) : Prop :=
  r.1 = r'.1 ∧ SameRow r.2 r'.2

namespace Builder

theorem assignBins_congr {s : BinState} {l l' : List (GridKey × BuilderEntry)}
    (h : List.Forall₂ SameRow l l') :
    List.Forall₂ SameBinRow (assignBins s l).1 (assignBins s l').1 ∧
      (assignBins s l).2 = (assignBins s l').2 := by
  induction h generalizing s with
  | nil => exact ⟨.nil, rfl⟩
  | cons hr ht ih =>
    rename_i r r' t t'
    unfold assignBins
    rw [hr.1]
    cases h : advance r'.1.phraseId s.seq s.cur s.next with
    | none => exact ⟨.nil, rfl⟩
    | some s' =>
      simp only
      exact ⟨.cons ⟨rfl, hr⟩ ih.1, ih.2⟩

theorem groupByAux_congr {R : (Option ℕ × (GridKey × BuilderEntry)) →
      (Option ℕ × (GridKey × BuilderEntry)) → Prop} (hR : ∀ a b, R a b → a.1 = b.1)
    {l l' : List (Option ℕ × (GridKey × BuilderEntry))} (h : List.Forall₂ R l l') :
    ∀ (cur : Option (Option ℕ)) (run run' : List (Option ℕ × (GridKey × BuilderEntry))),
      List.Forall₂ R run run' →
      List.Forall₂ (fun g g' => g.1 = g'.1 ∧ List.Forall₂ R g.2 g'.2)
        (groupByAux (fun (_ : Unit) (a : Option ℕ × (GridKey × BuilderEntry)) => (a.1, ()))
          () cur run l)
        (groupByAux (fun (_ : Unit) (a : Option ℕ × (GridKey × BuilderEntry)) => (a.1, ()))
          () cur run' l') := by
  induction h with
  | nil =>
    intro cur run run' hrun
    cases cur with
    | none => exact .nil
    | some o => exact .cons ⟨rfl, hrun⟩ .nil
  | cons hr ht ih =>
    rename_i a b t t'
    have hab := hR a b hr
    intro cur run run' hrun
    have happ : List.Forall₂ R (run ++ [a]) (run' ++ [b]) :=
      List.rel_append hrun (.cons hr .nil)
    cases cur with
    | none =>
      simp only [groupByAux]
      rw [hab]
      exact ih _ _ _ happ
    | some o =>
      simp only [groupByAux]
      rw [hab]
      split
      · exact .cons ⟨rfl, hrun⟩ (ih _ _ _ (.cons hr .nil))
      · exact ih _ _ _ happ

theorem groupBy_congr {l l' : List (Option ℕ × (GridKey × BuilderEntry))}
    (h : List.Forall₂ SameBinRow l l') :
    List.Forall₂ (fun g g' => g.1 = g'.1 ∧ List.Forall₂ SameBinRow g.2 g'.2)
      (groupBy (fun x : Option ℕ × (GridKey × BuilderEntry) => x.1) l)
      (groupBy (fun x : Option ℕ × (GridKey × BuilderEntry) => x.1) l') :=
  groupByAux_congr (fun _ _ h => h.1) h none [] [] .nil

theorem binGroups_congr {b b' : Builder} (hb : b.bounds = b'.bounds)
    (h : List.Forall₂ SameRow b.data b'.data) :
    List.Forall₂ (fun g g' => g.1 = g'.1 ∧ List.Forall₂ SameBinRow g.2 g'.2)
      b.binGroups.1 b'.binGroups.1 ∧ b.binGroups.2 = b'.binGroups.2 := by
  obtain ⟨h1, h2⟩ := assignBins_congr (s := BinState.init b'.bounds) h
  unfold binGroups
  simp only [hb, h2, and_true]
  have hg := groupBy_congr h1
  split
  · exact hg
  · rw [List.dropLast_eq_take, List.dropLast_eq_take, hg.length_eq]
    exact List.forall₂_take _ hg

theorem langMap_wf (o : IterOrder) (rows : List (GridKey × BuilderEntry)) :
    HMap.Wf (langMap o rows) :=
  hmap_foldl_wf (fun kv : GridKey × BuilderEntry => kv.1.langSet) []
    (fun kv d => copyEntries o kv.2 d) rows [] HMap.wf_nil

theorem langMap_congr {o o' : IterOrder} {l l' : List (GridKey × BuilderEntry)}
    (h : List.Forall₂ SameRow l l') (lang : ℕ) :
    (HMap.find lang (langMap o l) = none ∧ HMap.find lang (langMap o' l') = none) ∨
    ∃ e e', HMap.find lang (langMap o l) = some e ∧ HMap.find lang (langMap o' l') = some e' ∧
      SameEntry e e' := by
  have key : ∀ (m m' : HMap ℕ BuilderEntry),
      (∀ lang, (HMap.find lang m = none ∧ HMap.find lang m' = none) ∨
        ∃ e e', HMap.find lang m = some e ∧ HMap.find lang m' = some e' ∧ SameEntry e e') →
      ∀ lang, (HMap.find lang (l.foldl (fun m kv => HMap.upsert kv.1.langSet []
          (fun d => copyEntries o kv.2 d) m) m) = none ∧
        HMap.find lang (l'.foldl (fun m kv => HMap.upsert kv.1.langSet []
          (fun d => copyEntries o' kv.2 d) m) m') = none) ∨
        ∃ e e', HMap.find lang (l.foldl (fun m kv => HMap.upsert kv.1.langSet []
          (fun d => copyEntries o kv.2 d) m) m) = some e ∧
          HMap.find lang (l'.foldl (fun m kv => HMap.upsert kv.1.langSet []
          (fun d => copyEntries o' kv.2 d) m) m') = some e' ∧ SameEntry e e' := by
    induction h with
    | nil => intro m m' hm; exact hm
    | cons hr ht ih =>
      rename_i r r' t t'
      intro m m' hm
      rw [List.foldl_cons, List.foldl_cons]
      refine ih _ _ ?_
      intro lang
      rw [HMap.find_upsert, HMap.find_upsert, hr.1]
      by_cases hl : lang = r'.1.langSet
      · subst hl
        simp only [if_true]
        right
        refine ⟨_, _, rfl, rfl, ?_⟩
        refine hr.2.copy o o' ?_
        rcases hm r'.1.langSet with ⟨h1, h2⟩ | ⟨e, e', h1, h2, h3⟩
        · rw [h1, h2]; exact sameEntry_nil
        · rw [h1, h2]; exact h3
      · simp only [if_neg hl]; exact hm lang
  exact key [] [] (fun _ => Or.inl ⟨rfl, rfl⟩) lang

/-- Puts of the rows of a hash map under distinct keys. -/
theorem find_applyPuts_map {m : HMap ℕ BuilderEntry} (hm : HMap.Wf m) {o : IterOrder} {bin : ℕ}
    (hwf : ∀ le ∈ m, (⟨bin, le.1⟩ : GridKey).Wf) {db : SMap Bytes Bytes} {l : ℕ}
    {e : BuilderEntry} (h : HMap.find l m = some e) :
    SMap.find ((⟨bin, l⟩ : GridKey).dbKey .prefixBin) (applyPuts db ((o.run m).map
      (fun le => ((⟨bin, le.1⟩ : GridKey).dbKey .prefixBin, encodeValue o le.2)))) =
    some (encodeValue o e) := by
  have hmem := HMap.mem_of_find h
  refine find_applyPuts_of_unique ?_ ?_
  · rw [List.mem_map]
    exact ⟨(l, e), (o.perm m).mem_iff.2 hmem, rfl⟩
  · intro p hp hpk
    rw [List.mem_map] at hp
    obtain ⟨⟨l', e'⟩, hle, rfl⟩ := hp
    have hle' := (o.perm m).mem_iff.1 hle
    have := (dbKey_inj (hwf _ hle') (hwf _ hmem) hpk).2
    have h1 : l' = l := congrArg GridKey.langSet this
    have h2 : HMap.find l' m = some e' := HMap.find_of_mem hm hle'
    rw [h1, h] at h2
    cases h2; rfl

theorem find_applyPuts_map_none {m : HMap ℕ BuilderEntry} {o : IterOrder} {bin : ℕ}
    {db : SMap Bytes Bytes} {K : Bytes}
    (h : ∀ le ∈ m, (⟨bin, le.1⟩ : GridKey).dbKey .prefixBin ≠ K) :
    SMap.find K (applyPuts db ((o.run m).map
      (fun le => ((⟨bin, le.1⟩ : GridKey).dbKey .prefixBin, encodeValue o le.2)))) =
    SMap.find K db := by
  refine find_applyPuts_of_not_mem ?_
  intro p hp hpk
  rw [List.mem_map] at hp
  obtain ⟨le, hle, rfl⟩ := hp
  exact h le ((o.perm m).mem_iff.1 hle) hpk

theorem applyPuts_group_congr {o o' : IterOrder} {b b' : Builder} (hbw : b.Wf) (hbw' : b'.Wf)
    {g g' : Option ℕ × List (Option ℕ × (GridKey × BuilderEntry))} (hg : g ∈ b.binGroups.1)
    (hg' : g' ∈ b'.binGroups.1) (h1 : g.1 = g'.1) (h2 : List.Forall₂ SameBinRow g.2 g'.2)
    {db : SMap Bytes Bytes} (hdb : SMap.Sorted db) :
    applyPuts db (groupPuts o g) = applyPuts db (groupPuts o' g') := by
  unfold groupPuts
  rw [applyPuts_append, applyPuts_append]
  have hsingle : g.2.map (fun x => (x.2.1.dbKey .singlePhrase, encodeValue o x.2.2)) =
      g'.2.map (fun x => (x.2.1.dbKey .singlePhrase, encodeValue o' x.2.2)) := by
    clear hg hg'
    generalize g.2 = l at h2
    generalize g'.2 = l' at h2
    induction h2 with
    | nil => rfl
    | cons hr _ ih =>
      rw [List.map_cons, List.map_cons, ih, hr.2.1, hr.2.2.encode o o']
  rw [hsingle]
  have hsort := applyPuts_sorted hdb
    (g'.2.map (fun x => (x.2.1.dbKey .singlePhrase, encodeValue o' x.2.2)))
  generalize applyPuts db _ = db₁ at hsort ⊢
  rw [← h1]
  cases hb : g.1 with
  | none => rfl
  | some bin =>
    simp only
    refine SMap.ext_find (applyPuts_sorted hsort _) (applyPuts_sorted hsort _) ?_
    intro K
    have hrows : List.Forall₂ SameRow (g.2.map (·.2)) (g'.2.map (·.2)) := by
      rw [List.forall₂_map_left_iff, List.forall₂_map_right_iff]
      exact h2.imp (fun _ _ h => h.2)
    have hw := fun le (hle : le ∈ langMap o (g.2.map (·.2))) => bin_key_wf hbw hg hb hle
    have hw' := fun le (hle : le ∈ langMap o' (g'.2.map (·.2))) =>
      bin_key_wf hbw' hg' (by rw [← h1, hb]) hle
    by_cases h : ∃ le ∈ langMap o (g.2.map (·.2)), (⟨bin, le.1⟩ : GridKey).dbKey .prefixBin = K
    · obtain ⟨⟨l, e⟩, hle, rfl⟩ := h
      have hf := HMap.find_of_mem (langMap_wf o _) hle
      rcases langMap_congr (o := o) (o' := o') hrows l with ⟨hn, _⟩ | ⟨e, e', he, he', hs⟩
      · rw [hn] at hf; cases hf
      · rw [find_applyPuts_map (langMap_wf o _) hw he, find_applyPuts_map (langMap_wf o' _) hw' he',
          hs.encode o o']
    · rw [find_applyPuts_map_none, find_applyPuts_map_none]
      · rintro ⟨l, e⟩ hle hk
        have hf' := HMap.find_of_mem (langMap_wf o' _) hle
        rcases langMap_congr (o := o) (o' := o') hrows l with ⟨_, hn⟩ | ⟨e, e', he, he', hs⟩
        · rw [hn] at hf'; cases hf'
        · exact h ⟨(l, e), HMap.mem_of_find he, hk⟩
      · intro le hle hk
        exact h ⟨le, hle, hk⟩

/-- `finish` is a function of the content and the boundaries. -/
theorem finish_congr {o o' : IterOrder} {b b' : Builder} (hbw : b.Wf) (hbw' : b'.Wf)
    (hb : b.bounds = b'.bounds) (h : List.Forall₂ SameRow b.data b'.data) :
    finish o b = finish o' b' := by
  obtain ⟨hg, h2⟩ := binGroups_congr hb h
  have key : ∀ (gs gs' : List (Option ℕ × List (Option ℕ × (GridKey × BuilderEntry))))
      (_ : ∀ g ∈ gs, g ∈ b.binGroups.1) (_ : ∀ g ∈ gs', g ∈ b'.binGroups.1)
      (_ : List.Forall₂ (fun g g' => g.1 = g'.1 ∧ List.Forall₂ SameBinRow g.2 g'.2) gs gs')
      (db : SMap Bytes Bytes), SMap.Sorted db →
      applyPuts db (gs.flatMap (groupPuts o)) = applyPuts db (gs'.flatMap (groupPuts o')) := by
    intro gs gs' m1 m2 hf
    induction hf with
    | nil => intro db _; rfl
    | cons hr ht ih =>
      intro db hdb
      rw [List.flatMap_cons, List.flatMap_cons, applyPuts_append, applyPuts_append,
        applyPuts_group_congr (o := o) (o' := o') hbw hbw' (m1 _ (by simp)) (m2 _ (by simp))
          hr.1 hr.2 hdb]
      exact ih (fun g hg => m1 g (by simp [hg])) (fun g hg => m2 g (by simp [hg])) _
        (applyPuts_sorted hdb _)
  unfold finish finishInto
  simp only [finishPuts_snd]
  rw [h2]
  split
  · rename_i ht
    congr 1
    unfold finishPuts
    simp only [h2, ht, if_true]
    rw [applyPuts_append, applyPuts_append, hb,
      key _ _ (fun _ h => h) (fun _ h => h) hg [] SMap.sorted_nil]
  · rfl

/-! ### Rows of refined builders -/

theorem forall₂_of_find {m m' : SMap GridKey BuilderEntry} (hm : SMap.Sorted m)
    (hm' : SMap.Sorted m')
    (h : ∀ k, (SMap.find k m = none ∧ SMap.find k m' = none) ∨
      ∃ e e', SMap.find k m = some e ∧ SMap.find k m' = some e' ∧ SameEntry e e') :
    List.Forall₂ SameRow m m' := by
  induction m generalizing m' with
  | nil =>
    cases m' with
    | nil => exact .nil
    | cons r t =>
      rcases h r.1 with ⟨_, h2⟩ | ⟨e, e', h1, _⟩
      · simp [SMap.find] at h2
      · simp [SMap.find] at h1
  | cons r t ih =>
    cases m' with
    | nil =>
      rcases h r.1 with ⟨h2, _⟩ | ⟨e, e', _, h1, _⟩
      · simp [SMap.find] at h2
      · simp [SMap.find] at h1
    | cons r' t' =>
      have hfr : SMap.find r.1 (r :: t) = some r.2 := by simp [SMap.find]
      have hfr' : SMap.find r'.1 (r' :: t') = some r'.2 := by simp [SMap.find]
      have mem : ∀ {x : GridKey × BuilderEntry} {l : SMap GridKey BuilderEntry} {k : GridKey}
          {e : BuilderEntry}, SMap.Sorted (x :: l) → SMap.find k (x :: l) = some e → x.1 ≤ k := by
        intro x l k e hs hf
        have := (SMap.mem_iff_find hs).2 hf
        rcases List.mem_cons.1 this with h | h
        · rw [← h]
        · exact le_of_lt (hs.head_lt h)
      have hkey : r.1 = r'.1 := by
        refine le_antisymm ?_ ?_
        · rcases h r'.1 with ⟨_, h2⟩ | ⟨e, e', h1, _⟩
          · rw [hfr'] at h2; cases h2
          · exact mem hm h1
        · rcases h r.1 with ⟨h2, _⟩ | ⟨e, e', _, h1, _⟩
          · rw [hfr] at h2; cases h2
          · exact mem hm' h1
      refine .cons ⟨hkey, ?_⟩ (ih hm.tail hm'.tail ?_)
      · rcases h r.1 with ⟨h2, _⟩ | ⟨e, e', h1, h2, hs⟩
        · rw [hfr] at h2; cases h2
        · rw [hfr] at h1
          rw [hkey, hfr'] at h2
          cases h1; cases h2; exact hs
      · intro k
        have ntail : ∀ {x : GridKey × BuilderEntry} {l : SMap GridKey BuilderEntry},
            SMap.Sorted (x :: l) → SMap.find x.1 l = none := by
          intro x l hs
          refine SMap.find_eq_none_of_forall ?_
          intro p hp e
          exact absurd (hs.head_lt hp) (by rw [e]; exact lt_irrefl _)
        by_cases hk : k = r.1
        · left
          constructor
          · rw [hk]; exact ntail hm
          · rw [hk, hkey]; exact ntail hm'
        · have e1 : SMap.find k (r :: t) = SMap.find k t := by
            obtain ⟨a, b⟩ := r; simp only [SMap.find]; rw [if_neg hk]
          have e2 : SMap.find k (r' :: t') = SMap.find k t' := by
            obtain ⟨a, b⟩ := r'; simp only [SMap.find]
            exact if_neg (fun e => hk (e.trans hkey.symm))
          rw [← e1, ← e2]; exact h k

/-- No empty groups anywhere. -/
def NE (b : Builder) : Prop := ∀ r ∈ b.data, NoEmpty r.2

/-- A call that never creates an empty group. -/
def _root_.Carmen.Call.NonEmpty : Call → Prop
  | .compactAppend _ _ _ _ _ tiles => tiles ≠ []
  | _ => True

theorem ne_call {b b' : Builder} (hb : b.Wf) (hn : b.NE) {c : Call} (hc : c.NonEmpty)
    (h : b.call c = some b') : b'.NE := by
  cases c with
  | insert k es =>
    simp only [Builder.call, Option.some.injEq] at h
    subst h
    intro r hr
    have hr' := (SMap.mem_iff_find (SMap.sorted_insert hb.sorted) (k := r.1) (v := r.2)).1 hr
    rw [SMap.find_insert] at hr'
    by_cases h : r.1 = k
    · rw [if_pos h] at hr'
      simp only [Option.some.injEq] at hr'
      rw [← hr']
      exact noEmpty_extendEntries noEmpty_nil es
    · rw [if_neg h] at hr'
      exact hn r ((SMap.mem_iff_find hb.sorted).2 hr')
  | append k es =>
    simp only [Builder.call, Option.some.injEq] at h
    subst h
    intro r hr
    have hr : r ∈ SMap.upsert k [] (fun e => extendEntries e es) b.data := hr
    rcases mem_smap_upsert hb.sorted hr with h | ⟨_, e, he, h⟩
    · exact hn r h
    · rw [h]
      rcases he with rfl | he
      · exact noEmpty_extendEntries noEmpty_nil es
      · exact noEmpty_extendEntries (hn (k, e) he) es
  | compactAppend k relev score id hash tiles =>
    simp only [Builder.call, Option.some.injEq] at h
    subst h
    intro r hr
    have hr : r ∈ SMap.upsert k [] (compactEntry relev score id hash tiles) b.data := hr
    rcases mem_smap_upsert hb.sorted hr with h | ⟨_, e, he, h⟩
    · exact hn r h
    · rw [h]
      rcases he with rfl | he
      · exact noEmpty_compactEntry noEmpty_nil relev score id hash hc
      · exact noEmpty_compactEntry (hn (k, e) he) relev score id hash hc
  | renumber map =>
    have hok : (b.renumber map).2 = .ok () ∧ b' = (b.renumber map).1 := by
      unfold Builder.call at h
      simp only at h
      cases hx : b.renumber map with
      | mk x y =>
        rw [hx] at h
        cases y with
        | error e => simp at h
        | ok u => simp only [Option.some.injEq] at h; exact ⟨rfl, h.symm⟩
    obtain ⟨hok, rfl⟩ := hok
    obtain ⟨h1, _, h3, h4⟩ := renumberLoop_ok b.data SMap.sorted_nil hok
    intro r hr
    have hf := (SMap.mem_iff_find h1 (k := r.1) (v := r.2)).1 hr
    rcases (h4 r.1 r.2).1 hf with h | ⟨k, hk, _⟩
    · simp [SMap.find] at h
    · exact hn (k, r.2) hk
  | loadBounds bs =>
    simp only [Builder.call, Option.some.injEq] at h
    subst h
    exact hn

theorem ne_runFrom {b b' : Builder} {s : Content} (hr : Refines b s) (hn : b.NE)
    {cs : List Call} (hc : ∀ c ∈ cs, c.Wf) (hcn : ∀ c ∈ cs, c.NonEmpty)
    (h : b.runFrom cs = some b') : b'.NE := by
  induction cs generalizing b s with
  | nil => simp only [Builder.runFrom, Option.some.injEq] at h; subst h; exact hn
  | cons c t ih =>
    unfold Builder.runFrom at h
    cases hb : b.call c with
    | none => rw [hb] at h; cases h
    | some b₁ =>
      rw [hb] at h
      exact ih (hr.call (hc c (by simp)) hb) (ne_call hr.wf hn (hcn c (by simp)) hb)
        (fun c hc' => hc c (by simp [hc'])) (fun c hc' => hcn c (by simp [hc'])) h

theorem ne_run {b : Builder} {cs : List Call} (hc : ∀ c ∈ cs, c.Wf)
    (hcn : ∀ c ∈ cs, c.NonEmpty) (h : Builder.run cs = some b) : b.NE :=
  ne_runFrom refines_new (by intro r hr; simp [Builder.new] at hr) hc hcn h

/-- Builders with the same content finish alike. -/
theorem finish_of_content {o o' : IterOrder} {b b' : Builder} {s s' : Content}
    (hr : Refines b s) (hr' : Refines b' s') (hn : b.NE) (hn' : b'.NE)
    (hb : b.bounds = b'.bounds)
    (hs : ∀ k, (s k = none ↔ s' k = none) ∧
      ∀ es es', s k = some es → s' k = some es' → ∀ v, v ∈ es ↔ v ∈ es') :
    finish o b = finish o' b' := by
  refine finish_congr hr.wf hr'.wf hb (forall₂_of_find hr.wf.sorted hr'.wf.sorted ?_)
  intro k
  cases hf : SMap.find k b.data with
  | none =>
    left
    exact ⟨rfl, (hr'.absent k).2 ((hs k).1.1 ((hr.absent k).1 hf))⟩
  | some e =>
    right
    cases hf' : SMap.find k b'.data with
    | none =>
      have := (hr.absent k).2 ((hs k).1.2 ((hr'.absent k).1 hf'))
      rw [hf] at this; cases this
    | some e' =>
      refine ⟨e, e', rfl, rfl, ?_⟩
      have m := (SMap.mem_iff_find hr.wf.sorted).2 hf
      have m' := (SMap.mem_iff_find hr'.wf.sorted).2 hf'
      refine ⟨(hr.wf.entries _ m).1, (hr'.wf.entries _ m').1, hn _ m, hn' _ m', ?_⟩
      cases hk : s k with
      | none => rw [(hr.absent k).2 hk] at hf; cases hf
      | some es =>
        cases hk' : s' k with
        | none => rw [(hr'.absent k).2 hk'] at hf'; cases hf'
        | some es' =>
          intro rs z i
          rw [hr.present k e es hf hk rs z i, hr'.present k e' es' hf' hk' rs z i]
          simp only [(hs k).2 es es' hk hk']

end Builder

end Carmen
