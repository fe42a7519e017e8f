import Verif.Model.Store
import Verif.Lemmas.Format
import Verif.Lemmas.HMap

/-!
The encoder of one record (`encodeValue`): every address handed out stays readable, and
reading the record gives the sorted, deduplicated content.
-/

set_option linter.unusedSectionVars false

namespace Carmen
open Format

/-! ### Encoder invariant -/

/-- Every id list remembered by the encoder sits where it says. -/
def EncState.Ok (st : EncState) : Prop :=
  ∀ p ∈ st.idLists, HasAt st.buf p.2 (fixedBytes p.1)

/-- A tile was written correctly. -/
def CoordOk (F : Bytes) (x : ℕ × List ℕ) (c : Coord) : Prop :=
  c.coord = x.1 ∧ HasAt F c.ids (fixedBytes (normIds x.2))

theorem CoordOk.append {F : Bytes} {x : ℕ × List ℕ} {c : Coord} (h : CoordOk F x c)
    (more : Bytes) : CoordOk (F ++ more) x c := ⟨h.1, h.2.append more⟩

theorem encIds_spec {st : EncState} (h : st.Ok) (ids : List ℕ) :
    ∃ more, (encIds st ids).1.buf = st.buf ++ more ∧ (encIds st ids).1.Ok ∧
      HasAt (encIds st ids).1.buf (encIds st ids).2 (fixedBytes ids) := by
  unfold encIds
  cases hf : HMap.find ids st.idLists with
  | some a =>
    refine ⟨[], by simp, h, h (ids, a) (HMap.mem_of_find hf)⟩
  | none =>
    have hw := writeFixedVec_hasAt st.buf ids
    refine ⟨fixedBytes ids, by simp [writeFixedVec, fixedBytes], ?_, hw⟩
    intro p hp
    rcases List.mem_cons.1 hp with rfl | hp
    · exact hw
    · have : (writeFixedVec st.buf ids).1 = st.buf ++ fixedBytes ids := by
        simp [writeFixedVec, fixedBytes]
      simp only [this]
      exact (h p hp).append _

theorem encCoords_spec (l : List (ℕ × List ℕ)) :
    ∀ {st : EncState}, st.Ok →
      ∃ more, (encCoords st l).1.buf = st.buf ++ more ∧ (encCoords st l).1.Ok ∧
        List.Forall₂ (CoordOk (encCoords st l).1.buf) l (encCoords st l).2 := by
  induction l with
  | nil => intro st h; exact ⟨[], by simp [encCoords], h, List.Forall₂.nil⟩
  | cons x t ih =>
    intro st h
    obtain ⟨c, ids⟩ := x
    obtain ⟨m1, hb1, hok1, hat⟩ := encIds_spec h (normIds ids)
    obtain ⟨m2, hb2, hok2, hall⟩ := ih hok1
    simp only [encCoords]
    refine ⟨m1 ++ m2, by rw [hb2, hb1]; simp, hok2, List.Forall₂.cons ⟨rfl, ?_⟩ hall⟩
    rw [hb2]
    exact hat.append m2

/-- A relevance-score group was written correctly. -/
def GroupOk (o : IterOrder) (F : Bytes) (x : ℕ × HMap ℕ (List ℕ)) (r : RelevScore) : Prop :=
  r.relevScore = x.1 ∧ ∃ cds, HasAt F r.coords (uniformBytes cds) ∧
    List.Forall₂ (CoordOk F) (sortDesc (o.run x.2)) cds

theorem GroupOk.append {o : IterOrder} {F : Bytes} {x : ℕ × HMap ℕ (List ℕ)} {r : RelevScore}
    (h : GroupOk o F x r) (more : Bytes) : GroupOk o (F ++ more) x r := by
  obtain ⟨h1, cds, h2, h3⟩ := h
  exact ⟨h1, cds, h2.append more, h3.imp (fun a b hab => hab.append more)⟩

theorem encGroups_spec (o : IterOrder) (l : List (ℕ × HMap ℕ (List ℕ))) :
    ∀ {st : EncState}, st.Ok →
      ∃ more, (encGroups o st l).1.buf = st.buf ++ more ∧ (encGroups o st l).1.Ok ∧
        List.Forall₂ (GroupOk o (encGroups o st l).1.buf) l (encGroups o st l).2 := by
  induction l with
  | nil => intro st h; exact ⟨[], by simp [encGroups], h, List.Forall₂.nil⟩
  | cons x t ih =>
    intro st h
    obtain ⟨rs, coords⟩ := x
    obtain ⟨m1, hb1, hok1, hall1⟩ := encCoords_spec (sortDesc (o.run coords)) h
    have hw := writeUniformVec_hasAt (encCoords st (sortDesc (o.run coords))).1.buf
      (encCoords st (sortDesc (o.run coords))).2
    have hwb : (writeUniformVec (encCoords st (sortDesc (o.run coords))).1.buf
      (encCoords st (sortDesc (o.run coords))).2).1 =
        (encCoords st (sortDesc (o.run coords))).1.buf ++
          uniformBytes (encCoords st (sortDesc (o.run coords))).2 := by
      simp [writeUniformVec, uniformBytes]
    have hok2 : EncState.Ok ⟨(writeUniformVec (encCoords st (sortDesc (o.run coords))).1.buf
      (encCoords st (sortDesc (o.run coords))).2).1,
      (encCoords st (sortDesc (o.run coords))).1.idLists⟩ := by
      intro p hp
      simp only [hwb]
      exact (hok1 p hp).append _
    obtain ⟨m3, hb3, hok3, hall3⟩ := ih hok2
    simp only [encGroups]
    refine ⟨m1 ++ uniformBytes (encCoords st (sortDesc (o.run coords))).2 ++ m3, ?_, hok3,
      List.Forall₂.cons ⟨rfl, (encCoords st (sortDesc (o.run coords))).2, ?_, ?_⟩ hall3⟩
    · rw [hb3]; simp only; rw [hwb, hb1]; simp
    · rw [hb3]; exact hw.append m3
    · rw [hb3]
      simp only [hwb]
      exact hall1.imp (fun a b hab => (hab.append _).append _)

/-! ### Reading a record -/

/-- What a record reads as: for each group its pointer record and, for each tile, its
pointer record and ids. -/
structure ReadsAs (v : Bytes) (rec : List (RelevScore × List (Coord × List ℕ))) : Prop where
  root : ∃ a, readRoot v = some a ∧ readVarVec v a = some (rec.map Prod.fst)
  coords : ∀ g ∈ rec, readUniformVec v g.1.coords = some (g.2.map Prod.fst)
  ids : ∀ g ∈ rec, ∀ c ∈ g.2, readFixedVec v c.1.ids = some c.2

/-- A record without its pointers. -/
def shape (rec : List (RelevScore × List (Coord × List ℕ))) : List (ℕ × List (ℕ × List ℕ)) :=
  rec.map (fun g => (g.1.relevScore, g.2.map (fun c => (c.1.coord, c.2))))

/-- The sorted, deduplicated content of a builder entry. -/
def normEntry (o : IterOrder) (e : BuilderEntry) : List (ℕ × List (ℕ × List ℕ)) :=
  (sortDesc (o.run e)).map (fun g => (g.1, (sortDesc (o.run g.2)).map
    (fun c => (c.1, normIds c.2))))

/-- Bounds of the values in a builder entry given by the Rust types. -/
def EntryBounds (e : BuilderEntry) : Prop :=
  ∀ g ∈ e, g.1 < 2 ^ 8 ∧ ∀ c ∈ g.2, c.1 < 2 ^ 32 ∧ ∀ i ∈ c.2, i < 2 ^ 32

theorem mem_dedupAdj {α : Type} [DecidableEq α] {a : α} {l : List α} :
    a ∈ dedupAdj l ↔ a ∈ l := by
  induction l with
  | nil => simp [dedupAdj]
  | cons b t ih =>
    rw [dedupAdj]
    cases hd : dedupAdj t with
    | nil =>
      rw [hd] at ih
      simp only [List.mem_cons, List.not_mem_nil, or_false]
      constructor
      · intro h; exact Or.inl h
      · rintro (h | h)
        · exact h
        · exact absurd (ih.2 h) (by simp)
    | cons c t' =>
      rw [hd] at ih
      by_cases hbc : b = c
      · simp only [hbc, if_true, List.mem_cons]
        rw [← ih]; simp
      · simp only [hbc, if_false, List.mem_cons]
        rw [← ih]; simp

theorem mem_normIds {i : ℕ} {ids : List ℕ} : i ∈ normIds ids ↔ i ∈ ids := by
  unfold normIds
  rw [mem_dedupAdj, List.mem_insertionSort]

theorem sortDesc_perm {V : Type} (l : List (ℕ × V)) : (sortDesc l).Perm l :=
  List.perm_insertionSort _ l

theorem mem_sortDesc_run {V : Type} {o : IterOrder} {l : List (ℕ × V)} {p : ℕ × V} :
    p ∈ sortDesc (o.run l) ↔ p ∈ l :=
  ((sortDesc_perm _).trans (o.perm l)).mem_iff

/-- Lengths and addresses are bounded by the size of the buffer they sit in. -/
theorem HasAt.fixed_bounds {F : Bytes} {a : ℕ} {ids : List ℕ} (h : HasAt F a (fixedBytes ids)) :
    a ≤ F.length ∧ ids.length ≤ F.length := by
  have h1 := h.length_le
  have h2 : (ids.flatMap (leBytes 4)).length = 4 * ids.length := by
    clear h h1
    induction ids with
    | nil => rfl
    | cons x xs ih => simp [leBytes_length, ih]; ring
  unfold fixedBytes at h1
  rw [List.length_append, h2] at h1
  omega

theorem HasAt.uniform_bounds {F : Bytes} {a : ℕ} {s : List Coord}
    (h : HasAt F a (uniformBytes s)) : a ≤ F.length ∧ s.length ≤ F.length := by
  have h1 := h.length_le
  have h2 : s.length ≤ (s.flatMap (Coord.write (recSize s))).length := by
    generalize recSize s = n
    clear h h1
    induction s with
    | nil => simp
    | cons x xs ih =>
      have : 4 ≤ (x.write n).length := by simp [Coord.write, leBytes_length]
      rw [List.flatMap_cons, List.length_append, List.length_cons]; omega
  unfold uniformBytes at h1
  rw [List.length_append, List.length_append] at h1
  omega

theorem HasAt.var_bounds {F : Bytes} {a : ℕ} {s : List RelevScore}
    (h : HasAt F a (varBytes s)) : a ≤ F.length ∧ s.length ≤ F.length := by
  have h1 := h.length_le
  have h2 : s.length ≤ (s.flatMap RelevScore.write).length := by
    clear h h1
    induction s with
    | nil => simp
    | cons x xs ih =>
      have : 1 ≤ x.write.length := by simp [RelevScore.write]
      rw [List.flatMap_cons, List.length_append, List.length_cons]; omega
  unfold varBytes at h1
  rw [List.length_append] at h1
  omega

/-- Choose the coords of a group correctly written into a buffer below 4 GiB. -/
theorem CoordOk.reads {F : Bytes} (hF : F.length < 2 ^ 32) :
    ∀ {l : List (ℕ × List ℕ)} {cds : List Coord},
      (∀ c ∈ l, c.1 < 2 ^ 32 ∧ ∀ i ∈ c.2, i < 2 ^ 32) → List.Forall₂ (CoordOk F) l cds →
      ∃ cs : List (Coord × List ℕ), cs.map Prod.fst = cds ∧
        cs.map (fun c => (c.1.coord, c.2)) = l.map (fun c => (c.1, normIds c.2)) ∧
        (∀ c ∈ cs, readFixedVec F c.1.ids = some c.2) ∧
        (∀ c ∈ cds, c.coord < 2 ^ 32 ∧ c.ids < 2 ^ 32) := by
  intro l cds hb h
  induction h with
  | nil => exact ⟨[], rfl, rfl, by simp, by simp⟩
  | @cons x c l cds hxc _ ih =>
    obtain ⟨cs, h1, h2, h3, h4⟩ := ih (fun c hc => hb c (by simp [hc]))
    have hx := hb x (by simp)
    have hbd := HasAt.fixed_bounds hxc.2
    refine ⟨(c, normIds x.2) :: cs, by simp [h1], by simp [h2, hxc.1], ?_, ?_⟩
    · intro c' hc'
      rcases List.mem_cons.1 hc' with rfl | hc'
      · exact hxc.2.readFixedVec (by omega) (fun i hi => hx.2 i (mem_normIds.1 hi))
      · exact h3 c' hc'
    · intro c' hc'
      rcases List.mem_cons.1 hc' with rfl | hc'
      · exact ⟨by rw [hxc.1]; exact hx.1, by omega⟩
      · exact h4 c' hc'

theorem GroupOk.reads {o : IterOrder} {F : Bytes} (hF : F.length < 2 ^ 32) :
    ∀ {l : List (ℕ × HMap ℕ (List ℕ))} {rss : List RelevScore},
      (∀ g ∈ l, g.1 < 2 ^ 8 ∧ ∀ c ∈ g.2, c.1 < 2 ^ 32 ∧ ∀ i ∈ c.2, i < 2 ^ 32) →
      List.Forall₂ (GroupOk o F) l rss →
      ∃ rec : List (RelevScore × List (Coord × List ℕ)), rec.map Prod.fst = rss ∧
        shape rec = l.map (fun g => (g.1, (sortDesc (o.run g.2)).map
          (fun c => (c.1, normIds c.2)))) ∧
        (∀ g ∈ rec, readUniformVec F g.1.coords = some (g.2.map Prod.fst)) ∧
        (∀ g ∈ rec, ∀ c ∈ g.2, readFixedVec F c.1.ids = some c.2) ∧
        (∀ r ∈ rss, r.relevScore < 256 ∧ r.coords < 2 ^ 32) := by
  intro l rss hb h
  induction h with
  | nil => exact ⟨[], rfl, rfl, by simp, by simp, by simp⟩
  | @cons x r l rss hxr _ ih =>
    obtain ⟨rec, h1, h2, h3, h4, h5⟩ := ih (fun g hg => hb g (by simp [hg]))
    have hx := hb x (by simp)
    obtain ⟨hr, cds, hat, hall⟩ := hxr
    obtain ⟨cs, c1, c2, c3, c4⟩ := CoordOk.reads hF
      (fun c hc => hx.2 c (mem_sortDesc_run.1 hc)) hall
    have hbd := HasAt.uniform_bounds hat
    refine ⟨(r, cs) :: rec, by simp [h1], ?_, ?_, ?_, ?_⟩
    · unfold shape at h2 ⊢
      simp [h2, c2, hr]
    · intro g hg
      rcases List.mem_cons.1 hg with rfl | hg
      · simp only [c1]
        exact hat.readUniformVec (by omega) (fun c hc => (c4 c hc).1) (fun c hc => (c4 c hc).2)
      · exact h3 g hg
    · intro g hg
      rcases List.mem_cons.1 hg with rfl | hg
      · exact c3
      · exact h4 g hg
    · intro r' hr'
      rcases List.mem_cons.1 hr' with rfl | hr'
      · exact ⟨by rw [hr]; exact hx.1, by omega⟩
      · exact h5 r' hr'

/-- Reading an encoded record below 4 GiB gives the normalised content. -/
theorem encodeValue_readsAs (o : IterOrder) (e : BuilderEntry) (hb : EntryBounds e)
    (hsize : (encodeValue o e).length < 2 ^ 32) :
    ∃ rec, ReadsAs (encodeValue o e) rec ∧ shape rec = normEntry o e := by
  obtain ⟨m1, hb1, _, hall⟩ := encGroups_spec o (sortDesc (o.run e)) (st := ⟨[], []⟩)
    (by intro p hp; simp at hp)
  set G := encGroups o ⟨[], []⟩ (sortDesc (o.run e)) with hG
  have hE : encodeValue o e = G.1.buf ++ (varBytes G.2 ++ leBytes 4 G.1.buf.length) := by
    unfold encodeValue
    simp only [← hG, writeVarVec, writeRoot, varBytes]
    simp
  have hall' : List.Forall₂ (GroupOk o (encodeValue o e)) (sortDesc (o.run e)) G.2 := by
    rw [hE]; exact hall.imp (fun a b hab => hab.append _)
  obtain ⟨rec, r1, r2, r3, r4, r5⟩ := GroupOk.reads hsize
    (fun g hg => hb g (mem_sortDesc_run.1 hg)) hall'
  have hat : HasAt (encodeValue o e) G.1.buf.length (varBytes G.2) :=
    ⟨G.1.buf, leBytes 4 G.1.buf.length, hE, rfl⟩
  have hbd := HasAt.var_bounds hat
  refine ⟨rec, ⟨⟨G.1.buf.length, ?_, ?_⟩, r3, r4⟩, r2⟩
  · have : encodeValue o e = writeRoot (G.1.buf ++ varBytes G.2) G.1.buf.length := by
      rw [hE]; simp [writeRoot]
    rw [this]
    exact readRoot_writeRoot _ (by omega)
  · rw [r1]
    exact hat.readVarVec (by omega) (fun r hr => (r5 r hr).1) (fun r hr => (r5 r hr).2)

/-! ### `decodeValue` on a readable record -/

theorem mapM_eq_some {α β : Type} {f : α → Option β} {g : α → β} {l : List α}
    (h : ∀ a ∈ l, f a = some (g a)) : l.mapM f = some (l.map g) := by
  induction l with
  | nil => rfl
  | cons a t ih =>
    rw [List.mapM_cons, h a (by simp), ih (fun x hx => h x (by simp [hx]))]
    rfl

/-- The entry stored as relevance-score byte, tile and compound id. -/
def entryOf (rs z i : ℕ) : GridEntry :=
  ⟨relevOfInt (rs >>> 4), rs &&& 15, (deinterleave z).1, (deinterleave z).2,
    (splitId i).1, (splitId i).2⟩

/-- Entries of a record in order. -/
def shapeEntries (s : List (ℕ × List (ℕ × List ℕ))) : List GridEntry :=
  s.flatMap (fun g => g.2.flatMap (fun c => c.2.map (entryOf g.1 c.1)))

theorem ReadsAs.decodeValue {v : Bytes} {rec : List (RelevScore × List (Coord × List ℕ))}
    (h : ReadsAs v rec) : decodeValue v = some (shapeEntries (shape rec)) := by
  obtain ⟨a, ha, hv⟩ := h.root
  unfold Carmen.decodeValue
  rw [ha]
  simp only [Option.bind_eq_bind, Option.bind_some, hv]
  have key : (rec.map Prod.fst).mapM (fun rs => (readUniformVec v rs.coords).bind fun coords =>
      (coords.mapM fun c => (readFixedVec v c.ids).bind fun ids =>
        some (ids.map fun i => (⟨relevOfInt (rs.relevScore >>> 4), rs.relevScore &&& 15,
          (deinterleave c.coord).1, (deinterleave c.coord).2,
          (splitId i).1, (splitId i).2⟩ : GridEntry))).bind fun cs => some cs.flatten)
      = some (rec.map (fun g => g.2.flatMap
          (fun c => c.2.map (entryOf g.1.relevScore c.1.coord)))) := by
    rw [List.mapM_map]
    refine mapM_eq_some ?_
    intro g hg
    simp only [Function.comp]
    rw [h.coords g hg]
    simp only [Option.bind_some]
    rw [List.mapM_map]
    rw [mapM_eq_some (g := fun c : Coord × List ℕ =>
      c.2.map (entryOf g.1.relevScore c.1.coord))]
    · simp only [Option.bind_some, List.flatMap]
    · intro c hc
      simp only [Function.comp]
      rw [h.ids g hg c hc]
      rfl
  erw [key]
  simp only [Option.bind_some, shapeEntries, shape, List.flatMap, List.map_map,
    Function.comp_def]

end Carmen
