import Verif.Lemmas.Entries

/-!
Effect of the builder's operations on the content of one builder entry, and the encoder
as a function of that content.
-/

set_option linter.unusedSectionVars false

namespace Carmen
open Format Spec

attribute [local irreducible] interleave idComp rsByte groupBy

/-! ### One level -/

/-- The tile map holds id `i` at tile `z`. -/
def HasI (inner : HMap ℕ (List ℕ)) (z i : ℕ) : Prop :=
  ∃ ids, HMap.find z inner = some ids ∧ i ∈ ids

theorem hasI_nil (z i : ℕ) : ¬ HasI [] z i := by
  rintro ⟨ids, h, _⟩; simp [HMap.find] at h

theorem has_nil (rs z i : ℕ) : ¬ Has [] rs z i := by
  rintro ⟨inner, h, _⟩; simp [HMap.find] at h

theorem has_iff {e : BuilderEntry} {rs z i : ℕ} :
    Has e rs z i ↔ HasI ((HMap.find rs e).getD []) z i := by
  unfold Has HasI
  constructor
  · rintro ⟨inner, h, h2⟩; rw [h]; exact h2
  · intro h
    cases hf : HMap.find rs e with
    | none => rw [hf] at h; obtain ⟨ids, h, _⟩ := h; simp [HMap.find] at h
    | some inner => rw [hf] at h; exact ⟨inner, rfl, h⟩

theorem hasI_upsert {inner : HMap ℕ (List ℕ)} {k z i : ℕ} {add : List ℕ} :
    HasI (HMap.upsert k [] (fun ids => ids ++ add) inner) z i ↔
      HasI inner z i ∨ (z = k ∧ i ∈ add) := by
  unfold HasI
  simp only [HMap.find_upsert]
  by_cases h : z = k
  · subst h
    simp only [if_true, true_and]
    cases hf : HMap.find z inner with
    | none => simp
    | some ids => simp
  · simp [h]

theorem has_upsert {e : BuilderEntry} {k rs z i : ℕ}
    {f : HMap ℕ (List ℕ) → HMap ℕ (List ℕ)} {P : ℕ → ℕ → Prop}
    (hf : ∀ inner z i, HasI (f inner) z i ↔ HasI inner z i ∨ P z i) :
    Has (HMap.upsert k [] f e) rs z i ↔ Has e rs z i ∨ (rs = k ∧ P z i) := by
  rw [has_iff, has_iff, HMap.find_upsert]
  by_cases h : rs = k
  · subst h; simp [hf]
  · simp [h]

theorem hasI_foldl {α : Type} (kz : α → ℕ) (ids : α → List ℕ) (l : List α) :
    ∀ (inner : HMap ℕ (List ℕ)) (z i : ℕ),
    HasI (l.foldl (fun inner a => HMap.upsert (kz a) [] (fun x => x ++ ids a) inner) inner) z i ↔
      HasI inner z i ∨ ∃ a ∈ l, z = kz a ∧ i ∈ ids a := by
  induction l with
  | nil => simp
  | cons a t ih =>
    intro inner z i
    rw [List.foldl_cons, ih, hasI_upsert]
    simp only [List.mem_cons, exists_eq_or_imp]
    tauto

theorem has_foldl {α : Type} (kr : α → ℕ) (f : α → HMap ℕ (List ℕ) → HMap ℕ (List ℕ))
    (P : α → ℕ → ℕ → Prop)
    (hf : ∀ a inner z i, HasI (f a inner) z i ↔ HasI inner z i ∨ P a z i) (l : List α) :
    ∀ (e : BuilderEntry) (rs z i : ℕ),
    Has (l.foldl (fun e a => HMap.upsert (kr a) [] (f a) e) e) rs z i ↔
      Has e rs z i ∨ ∃ a ∈ l, rs = kr a ∧ P a z i := by
  induction l with
  | nil => simp
  | cons a t ih =>
    intro e rs z i
    rw [List.foldl_cons, ih, has_upsert (hf a)]
    simp only [List.mem_cons, exists_eq_or_imp]
    tauto

/-! ### `extendEntries`, `compactAppend`, `copyEntries` -/

/-- The entry `v` is stored as this triple. -/
def StoredAs (v : GridEntry) (rs z i : ℕ) : Prop :=
  rs = rsByte v.relev v.score ∧ z = interleave v.x v.y ∧ i = idComp v.id v.hash

theorem has_extendEntries {e : BuilderEntry} {values : List GridEntry} {rs z i : ℕ} :
    Has (extendEntries e values) rs z i ↔
      Has e rs z i ∨ ∃ v ∈ values, StoredAs v rs z i := by
  unfold extendEntries
  rw [has_foldl (kr := fun g : ℕ × List GridEntry => g.1)
    (f := fun g inner => (groupBy (fun v : GridEntry => interleave v.x v.y) g.2).foldl
        (fun inner zg =>
          HMap.upsert zg.1 [] (fun ids => ids ++ zg.2.map (fun v => idComp v.id v.hash)) inner)
        inner)
    (P := fun g z i => ∃ zg ∈ groupBy (fun v : GridEntry => interleave v.x v.y) g.2,
      z = zg.1 ∧ i ∈ zg.2.map (fun v => idComp v.id v.hash))
    (hf := fun g inner z i => hasI_foldl (fun zg : ℕ × List GridEntry => zg.1)
      (fun zg => zg.2.map (fun v => idComp v.id v.hash)) _ inner z i)]
  refine or_congr Iff.rfl ?_
  constructor
  · rintro ⟨g, hg, rfl, zg, hzg, rfl, hi⟩
    obtain ⟨v, hv, rfl⟩ := List.mem_map.1 hi
    have h1 : v ∈ g.2 := by
      rw [← groupBy_concat (fun v : GridEntry => interleave v.x v.y) g.2]
      exact List.mem_flatMap.2 ⟨zg, hzg, hv⟩
    have h2 : v ∈ values := by
      rw [← groupBy_concat (fun v : GridEntry => rsByte v.relev v.score) values]
      exact List.mem_flatMap.2 ⟨g, hg, h1⟩
    exact ⟨v, h2, (groupBy_key hg h1).symm, (groupBy_key hzg hv).symm, rfl⟩
  · rintro ⟨v, hv, rfl, rfl, rfl⟩
    rw [← groupBy_concat (fun v : GridEntry => rsByte v.relev v.score) values] at hv
    obtain ⟨g, hg, h1⟩ := List.mem_flatMap.1 hv
    have h1' := h1
    rw [← groupBy_concat (fun v : GridEntry => interleave v.x v.y) g.2] at h1
    obtain ⟨zg, hzg, h2⟩ := List.mem_flatMap.1 h1
    exact ⟨g, hg, groupBy_key hg h1', zg, hzg, groupBy_key hzg h2, List.mem_map.2 ⟨v, h2, rfl⟩⟩

/-- The update of `compact_append` on the entry of the key. -/
def compactEntry (relev : F64) (score id hash : ℕ) (coords : List (ℕ × ℕ)) (e : BuilderEntry) :
    BuilderEntry :=
  HMap.upsert (rsByte relev score) [] (fun inner =>
    coords.foldl (fun inner p =>
      HMap.upsert (interleave p.1 p.2) [] (fun ids => ids ++ [idComp id hash]) inner) inner) e

theorem has_compactEntry {relev : F64} {score id hash : ℕ} {coords : List (ℕ × ℕ)}
    {e : BuilderEntry} {rs z i : ℕ} :
    Has (compactEntry relev score id hash coords e) rs z i ↔
      Has e rs z i ∨ ∃ v ∈ coords.map (fun p => (⟨relev, score, p.1, p.2, id, hash⟩ : GridEntry)),
        StoredAs v rs z i := by
  unfold compactEntry
  rw [has_upsert (P := fun z i => ∃ p ∈ coords, z = interleave p.1 p.2 ∧ i ∈ [idComp id hash])
    (fun inner z i => hasI_foldl (fun p : ℕ × ℕ => interleave p.1 p.2)
      (fun _ => [idComp id hash]) _ inner z i)]
  refine or_congr Iff.rfl ?_
  simp only [List.mem_singleton, List.mem_map, StoredAs]
  constructor
  · rintro ⟨rfl, p, hp, rfl, rfl⟩
    exact ⟨_, ⟨p, hp, rfl⟩, rfl, rfl, rfl⟩
  · rintro ⟨_, ⟨p, hp, rfl⟩, rfl, rfl, rfl⟩
    exact ⟨rfl, p, hp, rfl, rfl⟩

theorem has_copyEntries {o : IterOrder} {src dst : BuilderEntry} (hs : EntryWf src)
    {rs z i : ℕ} : Has (copyEntries o src dst) rs z i ↔ Has dst rs z i ∨ Has src rs z i := by
  unfold copyEntries
  rw [has_foldl (kr := fun rv : ℕ × HMap ℕ (List ℕ) => rv.1)
    (f := fun rv inner => (o.run rv.2).foldl
        (fun inner zv => HMap.upsert zv.1 [] (fun ids => ids ++ zv.2) inner) inner)
    (P := fun rv z i => ∃ zv ∈ o.run rv.2, z = zv.1 ∧ i ∈ zv.2)
    (hf := fun rv inner z i => hasI_foldl (fun zv : ℕ × List ℕ => zv.1) (fun zv => zv.2) _
      inner z i)]
  refine or_congr Iff.rfl ?_
  unfold Has
  constructor
  · rintro ⟨rv, hrv, rfl, zv, hzv, rfl, hi⟩
    have h1 := (o.perm src).mem_iff.1 hrv
    have h2 := (o.perm rv.2).mem_iff.1 hzv
    exact ⟨rv.2, HMap.find_of_mem hs.1 h1, zv.2, HMap.find_of_mem (hs.2 rv h1) h2, hi⟩
  · rintro ⟨inner, h1, ids, h2, hi⟩
    exact ⟨(rs, inner), (o.perm src).mem_iff.2 (HMap.mem_of_find h1), rfl, (z, ids),
      (o.perm inner).mem_iff.2 (HMap.mem_of_find h2), rfl, hi⟩

/-! ### Invariants -/

theorem hmap_foldl_wf {α : Type} {K V : Type} [DecidableEq K] (k : α → K) (d : V)
    (f : α → V → V) (l : List α) : ∀ (m : HMap K V), HMap.Wf m →
      HMap.Wf (l.foldl (fun m a => HMap.upsert (k a) d (f a) m) m) := by
  induction l with
  | nil => intro m h; exact h
  | cons a t ih => intro m h; exact ih _ (HMap.wf_upsert h)

theorem hmap_foldl_forall {α : Type} {K V : Type} [DecidableEq K] (k : α → K) (d : V)
    (f : α → V → V) (P : K → V → Prop) (l : List α) :
    ∀ (m : HMap K V), (∀ p ∈ m, P p.1 p.2) → (∀ a ∈ l, P (k a) d) →
      (∀ a ∈ l, ∀ v, P (k a) v → P (k a) (f a v)) →
      ∀ p ∈ l.foldl (fun m a => HMap.upsert (k a) d (f a) m) m, P p.1 p.2 := by
  induction l with
  | nil => intro m h _ _; exact h
  | cons a t ih =>
    intro m h hd hf
    exact ih _ (HMap.forall_upsert h (hd a (by simp)) (hf a (by simp)))
      (fun b hb => hd b (by simp [hb])) (fun b hb => hf b (by simp [hb]))

theorem entryWf_nil : EntryWf [] := ⟨HMap.wf_nil, by simp⟩

theorem entryWf_foldl {α : Type} (kr : α → ℕ) (f : α → HMap ℕ (List ℕ) → HMap ℕ (List ℕ))
    (hf : ∀ a inner, HMap.Wf inner → HMap.Wf (f a inner)) (l : List α) (e : BuilderEntry)
    (he : EntryWf e) : EntryWf (l.foldl (fun e a => HMap.upsert (kr a) [] (f a) e) e) :=
  ⟨hmap_foldl_wf kr [] f l e he.1,
    hmap_foldl_forall kr [] f (fun _ inner => HMap.Wf inner) l e he.2
      (fun _ _ => HMap.wf_nil) (fun a _ v hv => hf a v hv)⟩

theorem entryWf_extendEntries {e : BuilderEntry} (he : EntryWf e) (values : List GridEntry) :
    EntryWf (extendEntries e values) :=
  entryWf_foldl _ _ (fun _ _ h => hmap_foldl_wf _ _ (fun (zg : ℕ × List GridEntry) ids =>
    ids ++ zg.2.map (fun v => idComp v.id v.hash)) _ _ h) _ _ he

theorem entryWf_compactEntry {e : BuilderEntry} (he : EntryWf e) (relev : F64)
    (score id hash : ℕ) (coords : List (ℕ × ℕ)) :
    EntryWf (compactEntry relev score id hash coords e) :=
  entryWf_foldl (fun _ : Unit => rsByte relev score) (fun _ inner =>
    coords.foldl (fun inner p =>
      HMap.upsert (interleave p.1 p.2) [] (fun ids => ids ++ [idComp id hash]) inner) inner)
    (fun _ _ h => hmap_foldl_wf (fun p : ℕ × ℕ => interleave p.1 p.2) []
      (fun _ ids => ids ++ [idComp id hash]) _ _ h) [()] e he

theorem entryWf_copyEntries {o : IterOrder} {src dst : BuilderEntry} (hd : EntryWf dst) :
    EntryWf (copyEntries o src dst) :=
  entryWf_foldl _ _ (fun _ _ h => hmap_foldl_wf (fun zv : ℕ × List ℕ => zv.1) []
    (fun zv ids => ids ++ zv.2) _ _ h) _ _ hd

/-- Bounds in terms of the content alone. -/
theorem entryBounds_of_has {e : BuilderEntry} (he : EntryWf e)
    (hk : ∀ g ∈ e, g.1 < 2 ^ 8 ∧ ∀ c ∈ g.2, c.1 < 2 ^ 32)
    (h : ∀ rs z i, Has e rs z i → i < 2 ^ 32) : EntryBounds e := by
  intro g hg
  refine ⟨(hk g hg).1, fun c hc => ⟨(hk g hg).2 c hc, fun i hi => ?_⟩⟩
  exact h g.1 c.1 i ⟨g.2, HMap.find_of_mem he.1 hg, c.2, HMap.find_of_mem (he.2 g hg) hc, hi⟩

/-- Bounds of the keys. -/
def KeyBounds (e : BuilderEntry) : Prop := ∀ g ∈ e, g.1 < 2 ^ 8 ∧ ∀ c ∈ g.2, c.1 < 2 ^ 32

/-- Bounds of one tile map. -/
def InnerBounds (inner : HMap ℕ (List ℕ)) : Prop :=
  ∀ c ∈ inner, c.1 < 2 ^ 32 ∧ ∀ i ∈ c.2, i < 2 ^ 32

theorem entryBounds_foldl {α : Type} (kr : α → ℕ)
    (f : α → HMap ℕ (List ℕ) → HMap ℕ (List ℕ)) (l : List α) (hk : ∀ a ∈ l, kr a < 2 ^ 8)
    (hf : ∀ a ∈ l, ∀ inner, InnerBounds inner → InnerBounds (f a inner)) (e : BuilderEntry)
    (he : EntryBounds e) : EntryBounds (l.foldl (fun e a => HMap.upsert (kr a) [] (f a) e) e) :=
  hmap_foldl_forall kr [] f (fun k inner => k < 2 ^ 8 ∧ InnerBounds inner) l e he
    (fun a ha => ⟨hk a ha, by intro c hc; simp at hc⟩)
    (fun a ha v hv => ⟨hv.1, hf a ha v hv.2⟩)

theorem innerBounds_foldl {α : Type} (kz : α → ℕ) (ids : α → List ℕ) (l : List α)
    (hk : ∀ a ∈ l, kz a < 2 ^ 32) (hi : ∀ a ∈ l, ∀ i ∈ ids a, i < 2 ^ 32)
    (inner : HMap ℕ (List ℕ)) (he : InnerBounds inner) :
    InnerBounds (l.foldl (fun inner a => HMap.upsert (kz a) [] (fun x => x ++ ids a) inner)
      inner) :=
  hmap_foldl_forall kz [] (fun a x => x ++ ids a)
    (fun k x => k < 2 ^ 32 ∧ ∀ i ∈ x, i < 2 ^ 32) l inner he
    (fun a ha => ⟨hk a ha, by simp⟩)
    (fun a ha v hv => ⟨hv.1, by
      intro i hi'
      rcases List.mem_append.1 hi' with h | h
      · exact hv.2 i h
      · exact hi a ha i h⟩)

theorem idComp_lt {id h : ℕ} (hh : h < 2 ^ 8) : idComp id h < 2 ^ 32 := by
  rw [idComp_eq (by simpa using hh)]; omega

theorem entryBounds_extendEntries {e : BuilderEntry} (he : EntryBounds e)
    {values : List GridEntry} (hv : ∀ v ∈ values, v.Wf) :
    EntryBounds (extendEntries e values) := by
  unfold extendEntries
  refine entryBounds_foldl (fun g : ℕ × List GridEntry => g.1) _ _ ?_ ?_ e he
  · intro g hg
    have hne := (groupBy_isGrouping (fun v : GridEntry => rsByte v.relev v.score)
      values).nonempty g hg
    obtain ⟨v, hv'⟩ := List.exists_mem_of_ne_nil _ hne
    rw [← groupBy_key hg hv']
    have : v ∈ values := by
      rw [← groupBy_concat (fun v : GridEntry => rsByte v.relev v.score) values]
      exact List.mem_flatMap.2 ⟨g, hg, hv'⟩
    exact rsByte_lt (hv v this).1
  · intro g hg inner hi
    refine innerBounds_foldl (fun zg : ℕ × List GridEntry => zg.1) _ _ ?_ ?_ inner hi
    · intro zg hzg
      have hne := (groupBy_isGrouping (fun v : GridEntry => interleave v.x v.y)
        g.2).nonempty zg hzg
      obtain ⟨v, hv'⟩ := List.exists_mem_of_ne_nil _ hne
      rw [← groupBy_key hzg hv']
      exact interleave_lt _ _
    · intro zg hzg i hi
      obtain ⟨v, hv1, rfl⟩ := List.mem_map.1 hi
      have h1 : v ∈ g.2 := by
        rw [← groupBy_concat (fun v : GridEntry => interleave v.x v.y) g.2]
        exact List.mem_flatMap.2 ⟨zg, hzg, hv1⟩
      have h2 : v ∈ values := by
        rw [← groupBy_concat (fun v : GridEntry => rsByte v.relev v.score) values]
        exact List.mem_flatMap.2 ⟨g, hg, h1⟩
      exact idComp_lt (hv v h2).2.2.2.2

theorem entryBounds_compactEntry {e : BuilderEntry} (he : EntryBounds e) {relev : F64}
    {score id hash : ℕ} (hs : score < 2 ^ 8) (hh : hash < 2 ^ 8) (coords : List (ℕ × ℕ)) :
    EntryBounds (compactEntry relev score id hash coords e) := by
  have h := entryBounds_foldl (fun _ : Unit => rsByte relev score) (fun _ inner =>
    coords.foldl (fun inner (p : ℕ × ℕ) =>
      HMap.upsert (interleave p.1 p.2) [] (fun ids => ids ++ [idComp id hash]) inner) inner)
    [()] (fun _ _ => rsByte_lt hs)
    (fun _ _ inner hi => innerBounds_foldl (fun p : ℕ × ℕ => interleave p.1 p.2)
      (fun _ => [idComp id hash]) coords (fun _ _ => interleave_lt _ _)
      (fun _ _ i hi => by rw [List.mem_singleton.1 hi]; exact idComp_lt hh) inner hi) e he
  exact h

theorem entryBounds_copyEntries {o : IterOrder} {src dst : BuilderEntry}
    (hs : EntryBounds src) (hd : EntryBounds dst) : EntryBounds (copyEntries o src dst) := by
  unfold copyEntries
  refine entryBounds_foldl (fun rv : ℕ × HMap ℕ (List ℕ) => rv.1) _ _ ?_ ?_ dst hd
  · intro rv hrv; exact (hs rv ((o.perm src).mem_iff.1 hrv)).1
  · intro rv hrv inner hi
    have h := (hs rv ((o.perm src).mem_iff.1 hrv)).2
    refine innerBounds_foldl (fun zv : ℕ × List ℕ => zv.1) (fun zv => zv.2) _ ?_ ?_ inner hi
    · intro zv hzv; exact (h zv ((o.perm rv.2).mem_iff.1 hzv)).1
    · intro zv hzv; exact (h zv ((o.perm rv.2).mem_iff.1 hzv)).2

/-- No empty groups and no empty id lists. -/
def NoEmpty (e : BuilderEntry) : Prop := ∀ g ∈ e, g.2 ≠ [] ∧ ∀ c ∈ g.2, c.2 ≠ []

/-! ### The encoder depends on the normalised content only -/

/-- The encoder's tile loop on sorted, deduplicated ids. -/
def encCoordsN : EncState → List (ℕ × List ℕ) → EncState × List Coord
  | st, [] => (st, [])
  | st, (c, ids) :: t =>
    let r := encIds st ids
    let r' := encCoordsN r.1 t
    (r'.1, ⟨c, r.2⟩ :: r'.2)

/-- The encoder's group loop on normalised content. -/
def encGroupsN : EncState → List (ℕ × List (ℕ × List ℕ)) → EncState × List RelevScore
  | st, [] => (st, [])
  | st, (rs, coords) :: t =>
    let r := encCoordsN st coords
    let w := writeUniformVec r.1.buf r.2
    let r' := encGroupsN ⟨w.1, r.1.idLists⟩ t
    (r'.1, ⟨rs, w.2⟩ :: r'.2)

theorem encCoords_eq (l : List (ℕ × List ℕ)) : ∀ st,
    encCoords st l = encCoordsN st (l.map (fun c => (c.1, normIds c.2))) := by
  induction l with
  | nil => intro st; rfl
  | cons x t ih => intro st; simp [encCoords, encCoordsN, ih]

theorem encGroups_eq (o : IterOrder) (l : List (ℕ × HMap ℕ (List ℕ))) : ∀ st,
    encGroups o st l = encGroupsN st (l.map (fun g => (g.1, (sortDesc (o.run g.2)).map
      (fun c => (c.1, normIds c.2))))) := by
  induction l with
  | nil => intro st; rfl
  | cons x t ih => intro st; simp [encGroups, encGroupsN, ih, encCoords_eq]

theorem encodeValue_of_norm {o o' : IterOrder} {e e' : BuilderEntry}
    (h : normEntry o e = normEntry o' e') : encodeValue o e = encodeValue o' e' := by
  unfold encodeValue
  rw [encGroups_eq, encGroups_eq]
  unfold normEntry at h
  rw [h]

theorem sort_map_ext {V V' W : Type} {o o' : IterOrder} {m : HMap ℕ V} {m' : HMap ℕ V'}
    (hm : HMap.Wf m) (hm' : HMap.Wf m') (f : V → W) (f' : V' → W)
    (h : ∀ k, (HMap.find k m).map f = (HMap.find k m').map f') :
    (sortDesc (o.run m)).map (fun p => (p.1, f p.2)) =
      (sortDesc (o'.run m')).map (fun p => (p.1, f' p.2)) := by
  refine eq_of_strict Prod.fst ?_ ?_ ?_
  · rw [List.pairwise_map]
    exact sortDesc_strict (((o.perm m).map Prod.fst).nodup_iff.2 hm)
  · rw [List.pairwise_map]
    exact sortDesc_strict (((o'.perm m').map Prod.fst).nodup_iff.2 hm')
  · rintro ⟨k, w⟩
    simp only [List.mem_map, mem_sortDesc_run, Prod.mk.injEq]
    have e1 : (∃ a ∈ m, a.1 = k ∧ f a.2 = w) ↔ (HMap.find k m).map f = some w := by
      rw [Option.map_eq_some_iff]
      constructor
      · rintro ⟨⟨k', v⟩, ha, rfl, rfl⟩; exact ⟨v, HMap.find_of_mem hm ha, rfl⟩
      · rintro ⟨v, hv, rfl⟩; exact ⟨(k, v), HMap.mem_of_find hv, rfl, rfl⟩
    have e2 : (∃ a ∈ m', a.1 = k ∧ f' a.2 = w) ↔ (HMap.find k m').map f' = some w := by
      rw [Option.map_eq_some_iff]
      constructor
      · rintro ⟨⟨k', v⟩, ha, rfl, rfl⟩; exact ⟨v, HMap.find_of_mem hm' ha, rfl⟩
      · rintro ⟨v, hv, rfl⟩; exact ⟨(k, v), HMap.mem_of_find hv, rfl, rfl⟩
    rw [e1, e2, h]

theorem normIds_ext {a b : List ℕ} (h : ∀ i, i ∈ a ↔ i ∈ b) : normIds a = normIds b :=
  eq_of_strict (fun i : ℕ => i) (normIds_strict a) (normIds_strict b)
    (fun i => by rw [mem_normIds, mem_normIds, h])

theorem find_isSome_of_hasI {inner : HMap ℕ (List ℕ)} {z i : ℕ} (h : HasI inner z i) :
    (HMap.find z inner).isSome := by
  obtain ⟨ids, h, _⟩ := h; rw [h]; rfl

theorem inner_norm_ext {o o' : IterOrder} {m m' : HMap ℕ (List ℕ)} (hm : HMap.Wf m)
    (hm' : HMap.Wf m') (hn : ∀ c ∈ m, c.2 ≠ []) (hn' : ∀ c ∈ m', c.2 ≠ [])
    (h : ∀ z i, HasI m z i ↔ HasI m' z i) :
    (sortDesc (o.run m)).map (fun c => (c.1, normIds c.2)) =
      (sortDesc (o'.run m')).map (fun c => (c.1, normIds c.2)) := by
  refine sort_map_ext hm hm' normIds normIds ?_
  intro z
  cases hf : HMap.find z m with
  | none =>
    cases hf' : HMap.find z m' with
    | none => rfl
    | some ids' =>
      obtain ⟨i, hi⟩ := List.exists_mem_of_ne_nil _ (hn' _ (HMap.mem_of_find hf'))
      have := find_isSome_of_hasI ((h z i).2 ⟨ids', hf', hi⟩)
      rw [hf] at this; simp at this
  | some ids =>
    obtain ⟨i, hi⟩ := List.exists_mem_of_ne_nil _ (hn _ (HMap.mem_of_find hf))
    have := find_isSome_of_hasI ((h z i).1 ⟨ids, hf, hi⟩)
    obtain ⟨ids', hf'⟩ := Option.isSome_iff_exists.1 this
    rw [hf']
    simp only [Option.map_some, Option.some.injEq]
    refine normIds_ext (fun j => ?_)
    have h1 : HasI m z j ↔ j ∈ ids := by unfold HasI; rw [hf]; simp
    have h2 : HasI m' z j ↔ j ∈ ids' := by unfold HasI; rw [hf']; simp
    rw [← h1, ← h2, h]

theorem has_nonempty {e : BuilderEntry} (he : EntryWf e) (hn : NoEmpty e) {rs : ℕ}
    {inner : HMap ℕ (List ℕ)} (hf : HMap.find rs e = some inner) : ∃ z i, Has e rs z i := by
  have hg := HMap.mem_of_find hf
  obtain ⟨c, hc⟩ := List.exists_mem_of_ne_nil _ (hn _ hg).1
  obtain ⟨i, hi⟩ := List.exists_mem_of_ne_nil _ ((hn _ hg).2 c hc)
  exact ⟨c.1, i, inner, hf, c.2, HMap.find_of_mem (he.2 _ hg) hc, hi⟩

/-- The encoded bytes are a function of the content. -/
theorem encodeValue_ext {o o' : IterOrder} {e e' : BuilderEntry} (he : EntryWf e)
    (he' : EntryWf e') (hn : NoEmpty e) (hn' : NoEmpty e')
    (h : ∀ rs z i, Has e rs z i ↔ Has e' rs z i) : encodeValue o e = encodeValue o' e' := by
  refine encodeValue_of_norm ?_
  unfold normEntry
  refine sort_map_ext he.1 he'.1
    (fun inner => (sortDesc (o.run inner)).map (fun c => (c.1, normIds c.2)))
    (fun inner => (sortDesc (o'.run inner)).map (fun c => (c.1, normIds c.2))) ?_
  intro rs
  cases hf : HMap.find rs e with
  | none =>
    cases hf' : HMap.find rs e' with
    | none => rfl
    | some inner' =>
      obtain ⟨z, i, hz⟩ := has_nonempty he' hn' hf'
      obtain ⟨inner, h1, _⟩ := (h rs z i).2 hz
      rw [hf] at h1; simp at h1
  | some inner =>
    obtain ⟨z, i, hz⟩ := has_nonempty he hn hf
    obtain ⟨inner', hf', _⟩ := (h rs z i).1 hz
    rw [hf']
    simp only [Option.map_some, Option.some.injEq]
    have hg := HMap.mem_of_find hf
    have hg' := HMap.mem_of_find hf'
    refine inner_norm_ext (he.2 _ hg) (he'.2 _ hg') (hn _ hg).2 (hn' _ hg').2 (fun z i => ?_)
    have h1 : Has e rs z i ↔ HasI inner z i := by unfold Has HasI; rw [hf]; simp
    have h2 : Has e' rs z i ↔ HasI inner' z i := by unfold Has HasI; rw [hf']; simp
    rw [← h1, ← h2, h]

theorem upsert_ne_nil {K V : Type} [DecidableEq K] (k : K) (d : V) (f : V → V) (m : HMap K V) :
    HMap.upsert k d f m ≠ [] := by
  cases m with
  | nil => simp [HMap.upsert]
  | cons q t => obtain ⟨a, b⟩ := q; simp only [HMap.upsert]; split <;> simp

/-- Two-level fold without empty leftovers. -/
theorem noEmpty_upsert {e : BuilderEntry} (he : NoEmpty e) (k : ℕ)
    (f : HMap ℕ (List ℕ) → HMap ℕ (List ℕ))
    (hf : ∀ inner, (∀ c ∈ inner, c.2 ≠ []) → f inner ≠ [] ∧ ∀ c ∈ f inner, c.2 ≠ []) :
    NoEmpty (HMap.upsert k [] f e) := by
  have : ∀ (m : BuilderEntry), NoEmpty m → NoEmpty (HMap.upsert k [] f m) := by
    intro m
    induction m with
    | nil =>
      intro _ g hg
      simp only [HMap.upsert, List.mem_singleton] at hg
      subst hg
      exact hf [] (by simp)
    | cons q t ih =>
      obtain ⟨a, b⟩ := q
      intro hm g hg
      simp only [HMap.upsert] at hg
      by_cases hk : k = a
      · rw [if_pos hk] at hg
        rcases List.mem_cons.1 hg with rfl | hg
        · exact hf b (hm (a, b) (by simp)).2
        · exact hm g (by simp [hg])
      · rw [if_neg hk] at hg
        rcases List.mem_cons.1 hg with rfl | hg
        · exact hm (a, b) (by simp)
        · exact ih (fun g hg => hm g (by simp [hg])) g hg
  exact this e he

theorem noEmpty_foldl_inner {α : Type} (kz : α → ℕ) (ids : α → List ℕ) (l : List α)
    (hids : ∀ a ∈ l, ids a ≠ []) (hl : l ≠ []) (inner : HMap ℕ (List ℕ))
    (hi : ∀ c ∈ inner, c.2 ≠ []) :
    (l.foldl (fun inner a => HMap.upsert (kz a) [] (fun x => x ++ ids a) inner) inner) ≠ [] ∧
    ∀ c ∈ l.foldl (fun inner a => HMap.upsert (kz a) [] (fun x => x ++ ids a) inner) inner,
      c.2 ≠ [] := by
  constructor
  · obtain ⟨l', a, rfl⟩ := List.eq_nil_or_concat l |>.resolve_left hl
    simp only [List.concat_eq_append, List.foldl_append, List.foldl_cons, List.foldl_nil]
    exact upsert_ne_nil _ _ _ _
  · clear hl
    induction l generalizing inner with
    | nil => exact hi
    | cons a t ih =>
      refine ih (fun b hb => hids b (by simp [hb])) _ ?_
      have ha := hids a (by simp)
      intro c hc
      have : ∀ (m : HMap ℕ (List ℕ)), (∀ c ∈ m, c.2 ≠ []) →
          ∀ c ∈ HMap.upsert (kz a) [] (fun x => x ++ ids a) m, c.2 ≠ [] := by
        intro m
        induction m with
        | nil =>
          intro _ c hc
          simp only [HMap.upsert, List.mem_singleton] at hc
          subst hc; simpa using ha
        | cons q t ih' =>
          obtain ⟨x, y⟩ := q
          intro hm c hc
          simp only [HMap.upsert] at hc
          by_cases hk : kz a = x
          · rw [if_pos hk] at hc
            rcases List.mem_cons.1 hc with rfl | hc
            · simp [ha]
            · exact hm c (by simp [hc])
          · rw [if_neg hk] at hc
            rcases List.mem_cons.1 hc with rfl | hc
            · exact hm (x, y) (by simp)
            · exact ih' (fun c hc => hm c (by simp [hc])) c hc
      exact this inner hi c hc

theorem noEmpty_extendEntries {e : BuilderEntry} (he : NoEmpty e) (values : List GridEntry) :
    NoEmpty (extendEntries e values) := by
  unfold extendEntries
  have hg := groupBy_isGrouping (fun v : GridEntry => rsByte v.relev v.score) values
  generalize groupBy (fun v : GridEntry => rsByte v.relev v.score) values = gs at hg
  have hne := hg.nonempty
  clear hg
  induction gs generalizing e with
  | nil => exact he
  | cons g t ih =>
    rw [List.foldl_cons]
    refine ih (noEmpty_upsert he _ _ ?_) (fun x hx => hne x (by simp [hx]))
    intro inner hi
    have hz := groupBy_isGrouping (fun v : GridEntry => interleave v.x v.y) g.2
    refine noEmpty_foldl_inner (fun zg : ℕ × List GridEntry => zg.1)
      (fun zg => zg.2.map (fun v => idComp v.id v.hash)) _ ?_ ?_ inner hi
    · intro zg hzg
      have := hz.nonempty zg hzg
      simpa using this
    · intro h0
      have := hz.concat
      rw [h0] at this
      exact hne g (by simp) (by simpa using this.symm)

theorem noEmpty_compactEntry {e : BuilderEntry} (he : NoEmpty e) (relev : F64)
    (score id hash : ℕ) {coords : List (ℕ × ℕ)} (hc : coords ≠ []) :
    NoEmpty (compactEntry relev score id hash coords e) :=
  noEmpty_upsert he _ _ (fun inner hi => noEmpty_foldl_inner
    (fun p : ℕ × ℕ => interleave p.1 p.2) (fun _ => [idComp id hash]) coords (by simp) hc inner hi)

theorem noEmpty_nil : NoEmpty [] := by intro g hg; simp at hg

end Carmen
