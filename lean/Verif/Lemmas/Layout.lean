import Verif.Lemmas.LangWord
import Verif.Lemmas.Encode
import Verif.Lemmas.Entries
import Verif.Lemmas.BuilderEntry
import Verif.Spec.Layout

/-!
# Lemmas: the layout of records
-/

namespace Carmen

open Format Builder Spec Store

/-! ### Bytes and digits -/

theorem ofDigits_eq_ofLe (bs : Bytes) : Nat.ofDigits 256 bs = ofLe bs := by
  induction bs with
  | nil => rfl
  | cons b t ih => rw [Nat.ofDigits_cons, ih]; rfl

theorem little_iff {k n : ℕ} {bs : Bytes} : Little k n bs ↔ n < 256 ^ k ∧ bs = leBytes k n := by
  constructor
  · rintro ⟨h1, h2, h3⟩
    rw [ofDigits_eq_ofLe] at h3
    subst h1 h3
    exact ⟨ofLe_lt h2, (leBytes_ofLe h2).symm⟩
  · rintro ⟨h1, rfl⟩
    refine ⟨leBytes_length _ _, leBytes_lt _ _, ?_⟩
    rw [ofDigits_eq_ofLe, ofLe_leBytes_of_lt h1]

theorem big_iff {k n : ℕ} {bs : Bytes} : Big k n bs ↔ n < 256 ^ k ∧ bs = beBytes k n := by
  unfold Big
  rw [little_iff, beBytes]
  refine and_congr Iff.rfl ⟨fun h => ?_, fun h => ?_⟩
  · rw [← h, List.reverse_reverse]
  · rw [h, List.reverse_reverse]

theorem varint_encodeVarF : ∀ (f n : ℕ), n < 128 ^ (f + 1) → Varint n (encodeVarF f n)
  | 0, n, h => by
    have h' : n < 128 := by simpa using h
    have : n % 256 = n := by omega
    refine ⟨[], n, ?_, fun _ => rfl, by simp, ?_⟩
    · intro d hd
      simp at hd
      omega
    · simp [encodeVarF, this]
  | f + 1, n, h => by
    unfold encodeVarF
    split_ifs with hn
    · have hlt : n / 128 < 128 ^ (f + 1) := by
        rw [Nat.div_lt_iff_lt_mul (by norm_num)]; rw [pow_succ] at h; exact h
      obtain ⟨ds, last, h1, h2, h3, h4⟩ := varint_encodeVarF f (n / 128) hlt
      refine ⟨n % 128 :: ds, last, ?_, ?_, ?_, ?_⟩
      · intro d hd
        rcases List.mem_cons.1 (by simpa using hd : d ∈ n % 128 :: (ds ++ [last])) with rfl | hd
        · exact Nat.mod_lt _ (by decide)
        · exact h1 d hd
      · intro h0
        rw [h2 h0, h0] at h3
        simp at h3
        omega
      · rw [List.cons_append, Nat.ofDigits_cons, h3]
        exact Nat.mod_add_div n 128
      · rw [h4]
        simp [Nat.add_comm]
    · refine ⟨[], n, ?_, fun _ => rfl, by simp, by simp⟩
      intro d hd
      simp at hd
      omega

theorem varint_unique {n : ℕ} : ∀ {bs bs' : Bytes}, Varint n bs → Varint n bs' → bs = bs' := by
  have key : ∀ (ds ds' : List ℕ) (last last' : ℕ), (∀ d ∈ ds ++ [last], d < 128) →
      (∀ d ∈ ds' ++ [last'], d < 128) → (last = 0 → ds = []) → (last' = 0 → ds' = []) →
      Nat.ofDigits 128 (ds ++ [last]) = Nat.ofDigits 128 (ds' ++ [last']) →
      ds = ds' ∧ last = last' := by
    intro ds
    induction ds with
    | nil =>
      intro ds' last last' h1 h2 _ h4 h
      have hl : last < 128 := h1 last (by simp)
      cases ds' with
      | nil => simpa using h
      | cons d t =>
        exfalso
        have hpos : 0 < Nat.ofDigits 128 (t ++ [last']) := by
          rw [Nat.ofDigits_append]
          have : last' ≠ 0 := fun h0 => by simpa using h4 h0
          have : 0 < last' := Nat.pos_of_ne_zero this
          simp only [Nat.ofDigits_singleton]
          positivity
        rw [List.nil_append, Nat.ofDigits_singleton, List.cons_append, Nat.ofDigits_cons] at h
        omega
    | cons c u ih =>
      intro ds' last last' h1 h2 h3 h4 h
      have hc : c < 128 := h1 c (by simp)
      have hpos : 0 < Nat.ofDigits 128 (u ++ [last]) := by
        rw [Nat.ofDigits_append]
        have : last ≠ 0 := fun h0 => by simpa using h3 h0
        have : 0 < last := Nat.pos_of_ne_zero this
        simp only [Nat.ofDigits_singleton]
        positivity
      cases ds' with
      | nil =>
        exfalso
        have hl : last' < 128 := h2 last' (by simp)
        rw [List.nil_append, Nat.ofDigits_singleton, List.cons_append, Nat.ofDigits_cons] at h
        omega
      | cons d t =>
        have hd : d < 128 := h2 d (by simp)
        simp only [List.cons_append, Nat.ofDigits_cons] at h
        have hcd : c = d := by omega
        have hrest : Nat.ofDigits 128 (u ++ [last]) = Nat.ofDigits 128 (t ++ [last']) := by omega
        obtain ⟨e1, e2⟩ := ih t last last' (fun x hx => h1 x (by simpa using Or.inr (by simpa using hx)))
          (fun x hx => h2 x (by simpa using Or.inr (by simpa using hx)))
          (fun h0 => by simpa using h3 h0) (fun h0 => by simpa using h4 h0) hrest
        exact ⟨by rw [hcd, e1], e2⟩
  rintro bs bs' ⟨ds, last, h1, h2, h3, rfl⟩ ⟨ds', last', h1', h2', h3', rfl⟩
  obtain ⟨rfl, rfl⟩ := key ds ds' last last' h1 h1' h2 h2' (h3.trans h3'.symm)
  rfl

theorem varint_iff {n : ℕ} (hn : n < 2 ^ 32) {bs : Bytes} : Varint n bs ↔ bs = encodeVar n := by
  have h : Varint n (encodeVar n) := by
    unfold encodeVar
    rw [Nat.mod_eq_of_lt hn]
    exact varint_encodeVarF 10 n (lt_of_lt_of_le hn (by norm_num))
  exact ⟨fun h' => varint_unique h' h, fun h' => h' ▸ h⟩

/-! ### Addresses -/

theorem at_iff_hasAt {v bs : Bytes} {a : ℕ} : At v a bs ↔ HasAt v a bs := by
  constructor
  · rintro ⟨h, post, hp⟩
    exact ⟨v.take a, post, by rw [hp, List.take_append_drop], by simp [h]⟩
  · rintro ⟨pre, post, rfl, rfl⟩
    exact ⟨by simp, post, by simp⟩

theorem forall₂_little {l : List ℕ} {items : List Bytes} :
    List.Forall₂ (Little 4) l items ↔ (∀ x ∈ l, x < 2 ^ 32) ∧ items = l.map (leBytes 4) := by
  induction l generalizing items with
  | nil =>
    simp
  | cons x t ih =>
    constructor
    · intro h
      cases h with
      | cons hx ht =>
        obtain ⟨h1, h2⟩ := ih.1 ht
        obtain ⟨h3, h4⟩ := little_iff.1 hx
        refine ⟨?_, by rw [h2, h4]; rfl⟩
        intro y hy
        rcases List.mem_cons.1 hy with rfl | hy
        · exact lt_of_lt_of_le h3 (by norm_num)
        · exact h1 y hy
    · rintro ⟨h1, rfl⟩
      exact List.Forall₂.cons (little_iff.2 ⟨lt_of_lt_of_le (h1 x (by simp)) (by norm_num), rfl⟩)
        (ih.2 ⟨fun y hy => h1 y (List.mem_cons_of_mem _ hy), rfl⟩)

theorem length_le_flatten {l : List Bytes} (h : ∀ x ∈ l, 0 < x.length) :
    l.length ≤ l.flatten.length := by
  induction l with
  | nil => exact Nat.le_refl _
  | cons x t ih =>
    have h1 := h x (by simp)
    have h2 := ih fun y hy => h y (List.mem_cons_of_mem _ hy)
    simp only [List.length_cons, List.flatten_cons, List.length_append]
    omega

theorem idsAt_iff {v : Bytes} (hv : v.length < 2 ^ 32) {a : ℕ} {ids : List ℕ} :
    IdsAt v a ids ↔ (∀ i ∈ ids, i < 2 ^ 32) ∧ HasAt v a (fixedBytes ids) := by
  constructor
  · rintro ⟨n, items, h1, h2, h3⟩
    obtain ⟨h4, rfl⟩ := forall₂_little.1 h3
    refine ⟨h4, ?_⟩
    have h5 := at_iff_hasAt.1 h1
    have hl : ids.length < 2 ^ 32 := by
      have := h5.length_le
      rw [List.length_append] at this
      have h6 := length_le_flatten (l := ids.map (leBytes 4)) (by
        intro x hx
        obtain ⟨i, _, rfl⟩ := List.mem_map.1 hx
        rw [leBytes_length]
        decide)
      rw [List.length_map] at h6
      omega
    rw [(varint_iff hl).1 h2] at h5
    unfold fixedBytes
    rw [lenPrefix_eq hl, List.flatMap_def]
    exact h5
  · rintro ⟨h1, h2⟩
    have hl := (HasAt.fixed_bounds h2).2
    have hl' : ids.length < 2 ^ 32 := by omega
    refine ⟨encodeVar ids.length, ids.map (leBytes 4), ?_, (varint_iff hl').2 rfl,
      forall₂_little.2 ⟨h1, rfl⟩⟩
    rw [at_iff_hasAt, ← lenPrefix_eq hl', ← List.flatMap_def]
    exact h2

/-! ### Written records -/

theorem forall₂_map_right {α β γ : Type} {R : α → γ → Prop} {f : β → γ} {l : List α} {m : List β}
    (h : List.Forall₂ (fun a b => R a (f b)) l m) : List.Forall₂ R l (m.map f) := by
  induction h with
  | nil => exact List.Forall₂.nil
  | cons h _ ih => exact List.Forall₂.cons h ih

theorem coord_write_eq {c : Coord} {w : ℕ} (h8 : w ≤ 8) :
    c.write w = leBytes 4 c.coord ++ leBytes (w - 4) c.ids := by
  unfold Coord.write
  rw [leBytes_take (by omega)]

theorem tilesAt_of_uniform {v : Bytes} (hv : v.length < 2 ^ 32) {a : ℕ}
    {tiles : List (ℕ × List ℕ)} {cds : List Coord} (h : HasAt v a (uniformBytes cds))
    (ht : List.Forall₂ (fun t c => t.1 = c.coord ∧ t.1 < 2 ^ 32 ∧ IdsAt v c.ids t.2) tiles cds) :
    TilesAt v a tiles := by
  have hlen : tiles.length = cds.length := ht.length_eq
  have hl := (HasAt.uniform_bounds h).2
  refine ⟨encodeVar cds.length, recSize cds % 256, cds.map (Coord.write (recSize cds)), ?_, ?_, ?_,
    forall₂_map_right ?_⟩
  · rw [at_iff_hasAt, ← lenPrefix_eq (by omega), ← List.flatMap_def]
    exact h
  · rw [hlen]
    exact (varint_iff (by omega)).2 rfl
  · intro hne
    obtain ⟨c, hc⟩ : ∃ c, c ∈ cds := by
      cases cds with
      | nil => simp at hlen; exact absurd hlen hne
      | cons c t => exact ⟨c, by simp⟩
    have h1 := minSize_le_recSize hc
    have h2 := (Coord.minSize_bounds c).1
    have h3 := recSize_le (List.ne_nil_of_mem hc)
    have : recSize cds % 256 = recSize cds := by omega
    omega
  · refine List.Forall₂.imp ?_ (List.forall₂_iff_get.2 ⟨hlen, fun i h1 h2 => ?_⟩ :
      List.Forall₂ (fun t c => c ∈ cds ∧ t.1 = c.coord ∧ t.1 < 2 ^ 32 ∧ IdsAt v c.ids t.2)
        tiles cds)
    · rintro t c ⟨hc, h1, h2, h3⟩
      have h4 := minSize_le_recSize hc
      have h5 := recSize_le (List.ne_nil_of_mem hc)
      have h6 : recSize cds % 256 = recSize cds := by omega
      have h7 : c.ids < 2 ^ 32 := by
        obtain ⟨n, items, h8, _⟩ := h3
        have := h8.1
        omega
      refine ⟨leBytes 4 c.coord, leBytes (recSize cds - 4) c.ids, c.ids, coord_write_eq h5, ?_, ?_,
        h3⟩
      · rw [h1] at h2 ⊢
        exact little_iff.2 ⟨lt_of_lt_of_le h2 (by norm_num), rfl⟩
      · rw [h6]
        exact little_iff.2 ⟨ids_lt_of_minSize h7 h4, rfl⟩
    · exact ⟨List.get_mem _ _, (List.forall₂_iff_get.1 ht).2 i h1 h2⟩

theorem groupsAt_of_var {v : Bytes} (hv : v.length < 2 ^ 32) {a : ℕ}
    {groups : List (ℕ × List (ℕ × List ℕ))} {rss : List RelevScore}
    (h : HasAt v a (varBytes rss))
    (hg : List.Forall₂ (fun g r => g.1 = r.relevScore ∧ g.1 < 256 ∧ TilesAt v r.coords g.2)
      groups rss) : GroupsAt v a groups := by
  have hlen : groups.length = rss.length := hg.length_eq
  have hl := (HasAt.var_bounds h).2
  refine ⟨encodeVar rss.length, rss.map RelevScore.write, ?_, ?_, forall₂_map_right ?_⟩
  · rw [at_iff_hasAt, ← lenPrefix_eq (by omega), ← List.flatMap_def]
    exact h
  · rw [hlen]
    exact (varint_iff (by omega)).2 rfl
  · refine hg.imp ?_
    rintro g r ⟨h1, h2, h3⟩
    have h4 : r.coords < 2 ^ 32 := by
      obtain ⟨n, w, items, h8, _⟩ := h3
      have := h8.1
      omega
    refine ⟨encodeVar r.coords, r.coords, h2, ?_, (varint_iff h4).2 rfl, h3⟩
    unfold RelevScore.write
    rw [Nat.mod_eq_of_lt h4, ← h1, Nat.mod_eq_of_lt h2]

theorem forall₂_map_left {α β γ : Type} {R : γ → β → Prop} {f : α → γ} {l : List α} {m : List β}
    (h : List.Forall₂ (fun a b => R (f a) b) l m) : List.Forall₂ R (l.map f) m := by
  induction h with
  | nil => exact List.Forall₂.nil
  | cons h _ ih => exact List.Forall₂.cons h ih

theorem forall₂_mem {α β : Type} {R : α → β → Prop} {l : List α} {m : List β}
    (h : List.Forall₂ R l m) : List.Forall₂ (fun a b => a ∈ l ∧ R a b) l m :=
  List.forall₂_iff_get.2 ⟨h.length_eq, fun i h1 h2 =>
    ⟨List.get_mem _ _, (List.forall₂_iff_get.1 h).2 i h1 h2⟩⟩

theorem encodeValue_record (o : IterOrder) (e : BuilderEntry) (hb : EntryBounds e)
    (hsize : (encodeValue o e).length < 2 ^ 32) : Record (encodeValue o e) (normEntry o e) := by
  obtain ⟨m1, hb1, _, hall⟩ := encGroups_spec o (sortDesc (o.run e)) (st := ⟨[], []⟩)
    (by intro p hp; simp at hp)
  set G := encGroups o ⟨[], []⟩ (sortDesc (o.run e)) with hG
  have hE : encodeValue o e = G.1.buf ++ (varBytes G.2 ++ leBytes 4 G.1.buf.length) := by
    unfold encodeValue
    simp only [← hG, writeVarVec, writeRoot, varBytes]
    simp
  have hall' : List.Forall₂ (GroupOk o (encodeValue o e)) (sortDesc (o.run e)) G.2 := by
    rw [hE]; exact hall.imp (fun a b hab => hab.append _)
  have hat : HasAt (encodeValue o e) G.1.buf.length (varBytes G.2) :=
    ⟨G.1.buf, leBytes 4 G.1.buf.length, hE, rfl⟩
  have hbd := HasAt.var_bounds hat
  refine ⟨G.1.buf ++ varBytes G.2, leBytes 4 G.1.buf.length, G.1.buf.length, ?_, ?_, ?_⟩
  · rw [hE, List.append_assoc]
  · exact little_iff.2 ⟨lt_of_le_of_lt hbd.1 (lt_of_lt_of_le hsize (by norm_num)), rfl⟩
  · refine groupsAt_of_var hsize hat (forall₂_map_left ((forall₂_mem hall').imp ?_))
    rintro g r ⟨hg, h1, cds, h2, h3⟩
    have hg' := hb g (mem_sortDesc_run.1 hg)
    refine ⟨h1.symm, hg'.1, tilesAt_of_uniform hsize h2
      (forall₂_map_left ((forall₂_mem h3).imp ?_))⟩
    rintro t c ⟨ht, h4, h5⟩
    have ht' := hg'.2 t (mem_sortDesc_run.1 ht)
    refine ⟨h4.symm, ht'.1, (idsAt_iff hsize).2 ⟨?_, h5⟩⟩
    intro i hi
    exact ht'.2 i (mem_normIds.1 hi)

/-! ### Reading records -/

theorem Spec.IdsAt.read {v : Bytes} (hv : v.length < 2 ^ 32) {a : ℕ} {ids : List ℕ}
    (h : IdsAt v a ids) : readFixedVec v a = some ids ∧ a < 2 ^ 32 := by
  obtain ⟨h1, h2⟩ := (idsAt_iff hv).1 h
  have := (HasAt.fixed_bounds h2)
  exact ⟨h2.readFixedVec (by omega) h1, by omega⟩

theorem tileItems_read {v : Bytes} (hv : v.length < 2 ^ 32) {w : ℕ} (hw : w ≤ 8)
    {tiles : List (ℕ × List ℕ)} {items : List Bytes}
    (h : List.Forall₂ (TileItem v w) tiles items) :
    ∃ cs : List (Coord × List ℕ), cs.map (fun c => (c.1.coord, c.2)) = tiles ∧
      items = (cs.map Prod.fst).map (Coord.write w) ∧
      (∀ c ∈ cs, c.1.coord < 2 ^ 32 ∧ c.1.ids < 256 ^ (w - 4) ∧
        readFixedVec v c.1.ids = some c.2) := by
  induction h with
  | nil => exact ⟨[], rfl, rfl, by simp⟩
  | @cons t item _ _ hx _ ih =>
    obtain ⟨cs, h1, h2, h3⟩ := ih
    obtain ⟨tile, ptr, a, rfl, h4, h5, h6⟩ := hx
    obtain ⟨k4, rfl⟩ := little_iff.1 h4
    obtain ⟨k5, rfl⟩ := little_iff.1 h5
    refine ⟨(⟨t.1, a⟩, t.2) :: cs, by rw [List.map_cons, h1], ?_, ?_⟩
    · rw [List.map_cons, List.map_cons, h2, coord_write_eq hw]
    · intro c hc
      rcases List.mem_cons.1 hc with rfl | hc
      · exact ⟨lt_of_lt_of_le k4 (by norm_num), k5, (h6.read hv).1⟩
      · exact h3 c hc

theorem Spec.TilesAt.read {v : Bytes} (hv : v.length < 2 ^ 32) {a : ℕ} {tiles : List (ℕ × List ℕ)}
    (h : TilesAt v a tiles) : a < 2 ^ 32 ∧
    ∃ cs : List (Coord × List ℕ), cs.map (fun c => (c.1.coord, c.2)) = tiles ∧
      readUniformVec v a = some (cs.map Prod.fst) ∧
      ∀ c ∈ cs, c.1.coord < 2 ^ 32 ∧ readFixedVec v c.1.ids = some c.2 := by
  obtain ⟨n, w, items, h1, h2, h3, h4⟩ := h
  have ha : a < 2 ^ 32 := lt_of_le_of_lt h1.1 hv
  refine ⟨ha, ?_⟩
  rw [at_iff_hasAt] at h1
  have hlen := h4.length_eq
  have htl : tiles.length < 2 ^ 32 := by
    by_cases hne : tiles = []
    · simp [hne]
    · have h5 := length_le_flatten (l := items) (by
        intro x hx
        obtain ⟨i, hi, rfl⟩ := List.mem_iff_getElem.1 hx
        obtain ⟨tile, ptr, a', h6, h7, _⟩ := (List.forall₂_iff_get.1 h4).2 i (by omega) hi
        have := congrArg List.length h6
        rw [List.length_append, h7.1] at this
        simp at this
        omega)
      have := h1.length_le
      rw [List.length_append, List.length_cons] at this
      omega
  rw [(varint_iff htl).1 h2] at h1
  unfold Format.readUniformVec
  rw [h1.left.readVar htl]
  have hw := h1.right
  simp only [Option.bind_eq_bind, Option.bind_some]
  rw [hw.getElem]
  simp only [Option.bind_some]
  by_cases hne : tiles = []
  · subst hne
    exact ⟨[], rfl, rfl, by simp⟩
  · obtain ⟨hw5, hw8⟩ := h3 hne
    obtain ⟨cs, g1, g2, g3⟩ := tileItems_read hv hw8 h4
    refine ⟨cs, g1, ?_, fun c hc => ⟨(g3 c hc).1, (g3 c hc).2.2⟩⟩
    have hcl : tiles.length = (cs.map Prod.fst).length := by
      rw [← g1, List.length_map, List.length_map]
    rw [hcl, List.range_eq_range']
    refine mapM_range_of_hasAt v (Coord.write w) w (Format.readCoord v w) (cs.map Prod.fst)
      (fun x _ => x.write_length hw5 hw8) ?_ _ 0 ?_
    · intro x hx b hb
      obtain ⟨c, hc, rfl⟩ := List.mem_map.1 hx
      exact hb.readCoord hw5 hw8 (g3 c hc).1 (g3 c hc).2.1
    · have h6 : HasAt v (a + (encodeVar tiles.length).length) ([w] ++ items.flatten) := hw
      have h7 := h6.right
      rw [g2, ← List.flatMap_def] at h7
      rw [hcl] at h7
      simpa using h7

theorem groupItems_read {v : Bytes} (hv : v.length < 2 ^ 32)
    {groups : List (ℕ × List (ℕ × List ℕ))} {items : List Bytes}
    (h : List.Forall₂ (GroupItem v) groups items) :
    ∃ rec : List (RelevScore × List (Coord × List ℕ)), shape rec = groups ∧
      items = (rec.map Prod.fst).map RelevScore.write ∧
      ∀ g ∈ rec, g.1.relevScore < 256 ∧ g.1.coords < 2 ^ 32 ∧
        readUniformVec v g.1.coords = some (g.2.map Prod.fst) ∧
        ∀ c ∈ g.2, c.1.coord < 2 ^ 32 ∧ readFixedVec v c.1.ids = some c.2 := by
  induction h with
  | nil => exact ⟨[], rfl, rfl, by simp⟩
  | @cons g item _ _ hx _ ih =>
    obtain ⟨rec, h1, h2, h3⟩ := ih
    obtain ⟨ptr, a, h4, rfl, h5, h6⟩ := hx
    obtain ⟨ha, cs, g1, g2, g3⟩ := h6.read hv
    refine ⟨(⟨g.1, a⟩, cs) :: rec, ?_, ?_, ?_⟩
    · unfold shape at h1 ⊢
      rw [List.map_cons, h1, g1]
    · rw [List.map_cons, List.map_cons, h2, (varint_iff ha).1 h5]
      unfold RelevScore.write
      rw [Nat.mod_eq_of_lt ha, Nat.mod_eq_of_lt h4]
    · intro x hx
      rcases List.mem_cons.1 hx with rfl | hx
      · exact ⟨h4, ha, g2, g3⟩
      · exact h3 x hx

theorem Spec.Record.reads {v : Bytes} (hv : v.length < 2 ^ 32)
    {groups : List (ℕ × List (ℕ × List ℕ))} (h : Record v groups) :
    (∃ rec, ReadsAs v rec ∧ shape rec = groups) ∧ ∀ g ∈ groups, ∀ t ∈ g.2, t.1 < 2 ^ 32 := by
  obtain ⟨body, tail, a, hvb, h1, n, items, h2, h3, h4⟩ := h
  have ha : a < 2 ^ 32 := lt_of_le_of_lt h2.1 hv
  obtain ⟨_, rfl⟩ := little_iff.1 h1
  rw [at_iff_hasAt] at h2
  obtain ⟨rec, g1, g2, g3⟩ := groupItems_read hv h4
  have hlen := h4.length_eq
  have hgl : groups.length < 2 ^ 32 := by
    have h5 := length_le_flatten (l := items) (by
      intro x hx
      rw [g2] at hx
      obtain ⟨y, _, rfl⟩ := List.mem_map.1 hx
      exact Nat.succ_pos _)
    have := h2.length_le
    rw [List.length_append] at this
    omega
  have hrl : groups.length = (rec.map Prod.fst).length := by
    rw [← g1, shape, List.length_map, List.length_map]
  refine ⟨⟨rec, ⟨⟨a, ?_, ?_⟩, fun g hg => (g3 g hg).2.2.1, fun g hg c hc =>
    ((g3 g hg).2.2.2 c hc).2⟩, g1⟩, ?_⟩
  · rw [hvb]
    exact readRoot_writeRoot body ha
  · refine HasAt.readVarVec ?_ (by omega) ?_ ?_
    · unfold varBytes
      rw [lenPrefix_eq (by omega), List.flatMap_def, ← g2, ← hrl, ← (varint_iff hgl).1 h3]
      exact h2
    · intro r hr
      obtain ⟨g, hg, rfl⟩ := List.mem_map.1 hr
      exact (g3 g hg).1
    · intro r hr
      obtain ⟨g, hg, rfl⟩ := List.mem_map.1 hr
      exact (g3 g hg).2.1
  · rw [← g1]
    intro g hg t ht
    obtain ⟨x, hx, rfl⟩ := List.mem_map.1 hg
    obtain ⟨c, hc, rfl⟩ := List.mem_map.1 ht
    exact ((g3 x hx).2.2.2 c hc).1


/-! ### Keys -/

theorem rowKey_iff {m : TypeMarker} {k : GridKey} (hk : k.Wf) {key : Bytes} :
    RowKey m.byte k key ↔ key = k.dbKey m := by
  unfold RowKey GridKey.dbKey
  rw [langBytes_eq_word hk.2]
  constructor
  · rintro ⟨id, h1, rfl⟩
    rw [(big_iff.1 h1).2]
  · rintro rfl
    exact ⟨_, big_iff.2 ⟨lt_of_lt_of_le hk.1 (by norm_num), rfl⟩, rfl⟩

theorem boundsKey_eq : "~BOUNDS".toList.map Char.toNat = boundsKey := by decide

theorem boundsRow_iff {bounds : List ℕ} {row : Bytes × Bytes} : BoundsRow bounds row ↔
    (∀ x ∈ bounds, x < 2 ^ 32) ∧ row = (boundsKey, boundsValue bounds) := by
  unfold BoundsRow boundsValue
  rw [boundsKey_eq]
  constructor
  · rintro ⟨h1, items, h2, h3⟩
    obtain ⟨h4, rfl⟩ := forall₂_little.1 h2
    exact ⟨h4, Prod.ext h1 (by rw [h3, List.flatMap_def])⟩
  · rintro ⟨h1, rfl⟩
    exact ⟨rfl, _, forall₂_little.2 ⟨h1, rfl⟩, List.flatMap_def⟩

/-! ### The three numbers of an entry -/

theorem testBit_add_four (a n i : ℕ) (ha : a < 4) :
    (a + 4 * n).testBit 0 = decide (a % 2 = 1) ∧ (a + 4 * n).testBit 1 = decide (a / 2 = 1) ∧
      (a + 4 * n).testBit (i + 2) = n.testBit i := by
  refine ⟨?_, ?_, ?_⟩
  · rw [Nat.testBit_zero]
    congr 1
    apply propext
    omega
  · rw [Nat.testBit_succ, Nat.testBit_zero]
    congr 1
    apply propext
    omega
  · rw [Nat.testBit_succ, Nat.testBit_succ]
    congr 1
    omega

theorem testBit_interleave : ∀ (k x y : ℕ), x < 2 ^ k → y < 2 ^ k → ∀ i,
    (spread k x + 2 * spread k y).testBit (2 * i) = x.testBit i ∧
      (spread k x + 2 * spread k y).testBit (2 * i + 1) = y.testBit i
  | 0, x, y, hx, hy, i => by
    have h1 : x = 0 := by simpa using hx
    have h2 : y = 0 := by simpa using hy
    subst h1 h2
    simp [spread]
  | k + 1, x, y, hx, hy, i => by
    have e : spread (k + 1) x + 2 * spread (k + 1) y =
        (x % 2 + 2 * (y % 2)) + 4 * (spread k (x / 2) + 2 * spread k (y / 2)) := by
      rw [show spread (k + 1) x = x % 2 + 4 * spread k (x / 2) from rfl,
        show spread (k + 1) y = y % 2 + 4 * spread k (y / 2) from rfl]
      omega
    rw [e]
    have ha : x % 2 + 2 * (y % 2) < 4 := by omega
    cases i with
    | zero =>
      obtain ⟨h1, h2, _⟩ := testBit_add_four _ (spread k (x / 2) + 2 * spread k (y / 2)) 0 ha
      refine ⟨?_, ?_⟩
      · rw [h1, Nat.testBit_zero]
        congr 1
        apply propext
        omega
      · rw [h2, Nat.testBit_zero]
        congr 1
        apply propext
        omega
    | succ i =>
      have ih := testBit_interleave k (x / 2) (y / 2) (by rw [pow_succ] at hx; omega)
        (by rw [pow_succ] at hy; omega) i
      rw [show 2 * (i + 1) = 2 * i + 2 by omega, show 2 * i + 2 + 1 = 2 * i + 1 + 2 by omega,
        (testBit_add_four _ _ (2 * i) ha).2.2, (testBit_add_four _ _ (2 * i + 1) ha).2.2, ih.1, ih.2,
        Nat.testBit_succ, Nat.testBit_succ]
      exact ⟨rfl, rfl⟩

theorem isTile_interleave {x y : ℕ} (hx : x < 2 ^ 16) (hy : y < 2 ^ 16) :
    IsTile (interleave x y) x y := testBit_interleave 16 x y hx hy

theorem Spec.IsTile.unique {t t' x y : ℕ} (h : IsTile t x y) (h' : IsTile t' x y) : t = t' := by
  apply Nat.eq_of_testBit_eq
  intro j
  rcases Nat.even_or_odd' j with ⟨i, rfl | rfl⟩
  · rw [(h i).1, (h' i).1]
  · rw [(h i).2, (h' i).2]

theorem isTile_iff {t x y : ℕ} (hx : x < 2 ^ 16) (hy : y < 2 ^ 16) :
    IsTile t x y ↔ t = interleave x y :=
  ⟨fun h => Spec.IsTile.unique h (isTile_interleave hx hy), fun h => h ▸ isTile_interleave hx hy⟩

theorem relevToInt_eq_code (r : F64) : relevToInt r = relevCode r := by
  have hq : ∀ q : ℚ, (F64.feq r (lit q) = true) = (r = lit q) := by
    intro q
    unfold F64.feq
    rw [decide_eq_true_eq]
    refine propext ⟨fun h => h.2, fun h => ⟨?_, h⟩⟩
    rw [h]; unfold lit F64.ofRat F64.ofRounded
    split_ifs <;> simp
  unfold relevToInt relevCode
  simp only [hq]

theorem rsByte_eq_code (r : F64) (s : ℕ) :
    rsByte r s = 16 * (relevCode r ||| s / 16) + s % 16 := by
  rw [rsByte, relevToInt_eq_code]
  generalize relevCode r = c
  have h1 : (c <<< 4 ||| s) / 16 = c ||| s / 16 := by
    have := Nat.shiftRight_or_distrib (a := c <<< 4) (b := s) (i := 4)
    rw [Nat.shiftLeft_shiftRight, Nat.shiftRight_eq_div_pow, Nat.shiftRight_eq_div_pow] at this
    exact this
  have h2 : (c <<< 4 ||| s) % 16 = s % 16 := by
    apply Nat.eq_of_testBit_eq
    intro j
    rw [show (16 : ℕ) = 2 ^ 4 from rfl, Nat.testBit_mod_two_pow, Nat.testBit_mod_two_pow,
      Nat.testBit_or, Nat.testBit_shiftLeft]
    by_cases hj : j < 4
    · have : ¬ 4 ≤ j := by omega
      simp [hj, this]
    · simp [hj]
  omega

theorem packed_iff {e : GridEntry} (he : e.Wf) {g t i : ℕ} :
    Packed e g t i ↔ StoredAs e g t i := by
  unfold Packed StoredAs
  obtain ⟨_, hx, hy, _, hh⟩ := he
  rw [rsByte_eq_code, isTile_iff hx hy, idComp_eq hh]

theorem unpacked_entryOf {g t i : ℕ} (ht : t < 2 ^ 32) : Unpacked (g, t, i) (entryOf g t i) := by
  refine ⟨?_, ?_, ?_, ?_, ?_⟩
  · show relevOfInt (g >>> 4) = _
    rw [shr4]
    generalize g / 16 = n
    rcases n with _ | _ | _ | n <;> simp [relevOfInt]
  · exact and15 g
  · have h := deinterleave_lt t
    refine (isTile_iff h.1 h.2).2 ?_
    exact (interleave_deinterleave ht).symm
  · exact shr8 i
  · exact and255 i

theorem Spec.Unpacked.unique {n : ℕ × ℕ × ℕ} {e e' : GridEntry} (h : Unpacked n e) (h' : Unpacked n e') :
    e = e' := by
  obtain ⟨h1, h2, h3, h4, h5⟩ := h
  obtain ⟨h1', h2', h3', h4', h5'⟩ := h'
  have hx : e.x = e'.x := Nat.eq_of_testBit_eq fun i => by rw [← (h3 i).1, ← (h3' i).1]
  have hy : e.y = e'.y := Nat.eq_of_testBit_eq fun i => by rw [← (h3 i).2, ← (h3' i).2]
  cases e
  cases e'
  simp only [GridEntry.mk.injEq] at *
  exact ⟨h1.trans h1'.symm, h2.trans h2'.symm, hx, hy, h4.trans h4'.symm, h5.trans h5'.symm⟩

/-- What is read from a record. -/
theorem Spec.Record.decode {v : Bytes} (hv : v.length < 2 ^ 32)
    {groups : List (ℕ × List (ℕ × List ℕ))} (h : Record v groups) :
    ∃ es, decodeValue v = some es ∧ List.Forall₂ Unpacked (numbers groups) es := by
  obtain ⟨⟨rec, h1, rfl⟩, h2⟩ := h.reads hv
  refine ⟨_, h1.decodeValue, ?_⟩
  rw [shapeEntries_eq]
  have : numbers (shape rec) = triples (shape rec) := rfl
  rw [this]
  refine forall₂_map_right ?_
  refine List.forall₂_same.2 ?_
  rintro ⟨g, t, i⟩ hm
  refine unpacked_entryOf ?_
  unfold triples at hm
  obtain ⟨x, hx, hm⟩ := List.mem_flatMap.1 hm
  obtain ⟨c, hc, hm⟩ := List.mem_flatMap.1 hm
  obtain ⟨j, _, hm⟩ := List.mem_map.1 hm
  cases hm
  exact h2 x hx c hc

/-! ### Written records hold their entries -/

theorem recordFor_encodeValue {o : IterOrder} {e : BuilderEntry} (hw : EntryWf e)
    (hb : EntryBounds e) (hsize : (encodeValue o e).length < 2 ^ 32) {es : List GridEntry}
    (hes : ∀ x ∈ es, x.Wf)
    (hh : ∀ rs z i, Has e rs z i ↔ ∃ v ∈ es, StoredAs v rs z i) :
    RecordFor (encodeValue o e) es := by
  refine ⟨normEntry o e, encodeValue_record o e hb hsize, ⟨?_, ?_⟩, ?_, ?_⟩
  · unfold normEntry
    rw [List.pairwise_map]
    exact sortDesc_strict (((o.perm e).map Prod.fst).nodup_iff.2 hw.1)
  · intro g hg
    obtain ⟨g', hg', rfl⟩ := List.mem_map.1 hg
    rw [mem_sortDesc_run] at hg'
    simp only
    rw [List.pairwise_map]
    exact sortDesc_strict (((o.perm g'.2).map Prod.fst).nodup_iff.2 (hw.2 g' hg'))
  · intro g hg t ht
    obtain ⟨g', _, rfl⟩ := List.mem_map.1 hg
    obtain ⟨t', _, rfl⟩ := List.mem_map.1 ht
    exact normIds_strict _
  · intro g t i
    have : numbers (normEntry o e) = triples (normEntry o e) := rfl
    rw [this, mem_triples_normEntry hw, hh]
    exact exists_congr fun v => and_congr_right fun hv => (packed_iff (hes v hv)).symm

end Carmen
