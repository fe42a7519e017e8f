import Verif.Spec.Languages
import Verif.Lemmas.Shapes
import Verif.Props.Boxes
import Verif.Props.FullList
import Verif.Lemmas.FirstBest

/-!
# Requests of one shape of which one has the more relevant results
-/

namespace Carmen
open Spec

/-! ## Numbers -/

theorem sub_le_sub_fin {a b d : F64} (ha : a ≠ .nan) (hb : b ≠ .nan) (hd : d.IsFin) (h : a ≤ b) :
    a - d ≤ b - d := by
  obtain ⟨d, rfl⟩ := hd.exists
  exact add_le_add_fin ha hb (b := .fin (-d)) (d := .fin (-d)) trivial trivial h le_rfl

theorem mul_le_mul_fin {a b w w' : F64} (ha : a.IsFin) (hb : b.IsFin) (hw : w.IsFin)
    (hw' : w'.IsFin) (h0 : 0 ≤ b) (hw0 : 0 ≤ w) (h : a ≤ b) (hww : w ≤ w') : a * w ≤ b * w' := by
  obtain ⟨a, rfl⟩ := ha.exists
  obtain ⟨b, rfl⟩ := hb.exists
  obtain ⟨w, rfl⟩ := hw.exists
  obtain ⟨w', rfl⟩ := hw'.exists
  have h1 : a ≤ b := by simpa using h
  have h3 : w ≤ w' := by simpa using hww
  have h2 : 0 ≤ b := by
    have : F64.fin 0 ≤ F64.fin b := h0
    simpa using this
  have h4 : 0 ≤ w := by
    have : F64.fin 0 ≤ F64.fin w := hw0
    simpa using this
  exact F64.ofRat_mono (mul_le_mul h1 h3 h4 h2)

theorem foldl_add_mono {as bs : List F64} (h : List.Forall₂ (fun a b : F64 => a.IsFin ∧ b.IsFin ∧ a ≤ b) as bs) :
    ∀ {x y : F64}, x ≠ .nan → y ≠ .nan → x ≤ y →
      as.foldl (· + ·) x ≠ .nan ∧ bs.foldl (· + ·) y ≠ .nan ∧
      as.foldl (· + ·) x ≤ bs.foldl (· + ·) y := by
  induction h with
  | nil => intro x y hx hy h; exact ⟨hx, hy, h⟩
  | cons h1 _ ih =>
    intro x y hx hy hxy
    rw [List.foldl_cons, List.foldl_cons]
    exact ih (add_ne_nan hx h1.1) (add_ne_nan hy h1.2.1)
      (add_le_add_fin hx hy h1.1 h1.2.1 hxy h1.2.2)

theorem sumRelev_mono {as bs : List F64}
    (h : List.Forall₂ (fun a b : F64 => a.IsFin ∧ b.IsFin ∧ a ≤ b) as bs) :
    sumRelev as ≠ .nan ∧ sumRelev bs ≠ .nan ∧ sumRelev as ≤ sumRelev bs := by
  cases h with
  | nil => exact ⟨by decide, by decide, le_rfl⟩
  | cons h1 h2 =>
    refine foldl_add_mono h2 ?_ ?_ h1.2.2
    · intro e; rw [e] at h1; exact h1.1
    · intro e; rw [e] at h1; exact h1.2.1

/-- At most, at least, or the same. -/
def Direction (R : F64 → F64 → Prop) : Prop := R = (· ≤ ·) ∨ R = (· ≥ ·) ∨ R = (· = ·)

section
variable {R : F64 → F64 → Prop} (hR : Direction R)
include hR

theorem Direction.refl (a : F64) : R a a := by
  rcases hR with rfl | rfl | rfl
  · exact le_refl a
  · exact le_refl a
  · exact rfl

theorem Direction.mul {a b w w' : F64} (ha : a.IsFin) (hb : b.IsFin) (ha0 : 0 ≤ a) (hb0 : 0 ≤ b)
    (hw : w.IsFin) (hw' : w'.IsFin) (h0 : 0 ≤ w) (h0' : 0 ≤ w') (h : R a b) (hww : R w w') :
    R (a * w) (b * w') := by
  rcases hR with rfl | rfl | rfl
  · exact mul_le_mul_fin ha hb hw hw' hb0 h0 h hww
  · exact mul_le_mul_fin hb ha hw' hw ha0 h0' h hww
  · exact congrArg₂ (· * ·) h hww

theorem Direction.sum {as bs : List F64}
    (h : List.Forall₂ (fun a b : F64 => a.IsFin ∧ b.IsFin ∧ R a b) as bs) :
    R (sumRelev as) (sumRelev bs) ∧ R (sumRelev as - lit 0.01) (sumRelev bs - lit 0.01) := by
  rcases hR with rfl | rfl | rfl
  · obtain ⟨s1, s2, s3⟩ := sumRelev_mono h
    exact ⟨s3, sub_le_sub_fin s1 s2 (by decide +kernel) s3⟩
  · obtain ⟨s1, s2, s3⟩ := sumRelev_mono (List.Forall₂.flip (h.imp fun _ _ h => ⟨h.2.1, h.1, h.2.2⟩))
    exact ⟨s3, sub_le_sub_fin s1 s2 (by decide +kernel) s3⟩
  · have : as = bs := by
      rw [← List.forall₂_eq_eq_eq]
      exact h.imp fun _ _ h => h.2.2
    rw [this]
    exact ⟨rfl, rfl⟩

end

/-- Tile and feature. -/
abbrev Place := ℕ × ℕ × ℕ

/-- Tile and feature of an entry. -/
def placeOf (e : GridEntry) : Place := (e.x, e.y, e.id)

/-- The same parts at other places, with relevances of one direction. -/
structure MovedParts (pms : List Subquery) (pl : Subquery → Place → Place → Prop)
    (R : F64 → F64 → Prop) (c c' : Context) : Prop where
  parts : List.Forall₂ (fun e e' : CoalesceEntry => (∃ q ∈ pms, q.idx = e.idx ∧
    pl q (placeOf e.entry) (placeOf e'.entry)) ∧ (e'.phrasematchId = e.phrasematchId ∧
    e'.idx = e.idx ∧ e'.mask = e.mask) ∧ R e.entry.relev e'.entry.relev) c.entries c'.entries
  mask : c'.mask = c.mask
  relev : R c.relev c'.relev

/-- Tiles in tiles go to tiles in tiles. -/
def TilesNest (pl : Subquery → Place → Place → Prop) (pms : List Subquery) : Prop :=
  ∀ a ∈ pms, ∀ b ∈ pms, ∀ p p' r r', pl a p p' → pl b r r' →
    TileContains (a.store.zoom, p.1, p.2.1) (b.store.zoom, r.1, r.2.1) →
    TileContains (a.store.zoom, p'.1, p'.2.1) (b.store.zoom, r'.1, r'.2.1)

/-! ## Contexts -/

section
variable {pl : Subquery → Place → Place → Prop} {R : F64 → F64 → Prop} {env : Env} {opts opts' : MatchOpts} {mv : Subquery → Subquery}
  {mk : Subquery → KeyWithId → KeyWithId} {pms pms' : List Subquery}

/-- The hit on the other request, with another result. -/
def moveTo (mv : Subquery → Subquery) (mk : Subquery → KeyWithId → KeyWithId) (h : Hit)
    (g : MatchEntry) : Hit := ⟨mv h.q, mk h.q h.kg, g⟩

/-- Each first result of the one request has one of the other one at the place that `pl` allows that is at
least as relevant (or at most, depending on `R`). -/
def Carries (pl : Subquery → Place → Place → Prop) (R : F64 → F64 → Prop) (env : Env) (opts opts' : MatchOpts) (mv : Subquery → Subquery)
    (mk : Subquery → KeyWithId → KeyWithId) (pms : List Subquery) : Prop :=
  ∀ h : Hit, h.q ∈ pms → h.FirstAnswer env opts →
    ∃ g', (moveTo mv mk h g').FirstAnswer env opts' ∧ pl h.q (placeOf h.grid.entry) (placeOf g'.entry) ∧
      R h.grid.entry.relev g'.entry.relev

/-- `h'` is what `Carries` has for `h`. -/
structure MovedHit (pl : Subquery → Place → Place → Prop) (R : F64 → F64 → Prop) (env : Env) (opts' : MatchOpts) (mv : Subquery → Subquery)
    (mk : Subquery → KeyWithId → KeyWithId) (h h' : Hit) : Prop where
  eq : h' = moveTo mv mk h h'.grid
  first : h'.FirstAnswer env opts'
  place : pl h.q (placeOf h.grid.entry) (placeOf h'.grid.entry)
  relev : R h.grid.entry.relev h'.grid.entry.relev

theorem Carries.hits (hi : Carries pl R env opts opts' mv mk pms) {hs : List Hit}
    (h : ∀ x ∈ hs, x.q ∈ pms ∧ x.FirstAnswer env opts) :
    ∃ hs', List.Forall₂ (MovedHit pl R env opts' mv mk) hs hs' := by
  induction hs with
  | nil => exact ⟨[], .nil⟩
  | cons a t ih =>
    obtain ⟨t', ht⟩ := ih fun x hx => h x (List.mem_cons_of_mem _ hx)
    obtain ⟨h1, h2⟩ := h a List.mem_cons_self
    obtain ⟨g', g1, g2, g3⟩ := hi a h1 h2
    exact ⟨moveTo mv mk a g' :: t', .cons ⟨rfl, g1, g2, g3⟩ ht⟩

theorem MovedHit.map {hs hs' : List Hit} (h : List.Forall₂ (MovedHit pl R env opts' mv mk) hs hs') :
    hs'.map Hit.q = (hs.map Hit.q).map mv := by
  induction h with
  | nil => rfl
  | cons h1 _ ih => rw [List.map_cons, List.map_cons, List.map_cons, ih, h1.eq]; rfl

theorem MovedHit.forall_mem {hs hs' : List Hit}
    (h : List.Forall₂ (MovedHit pl R env opts' mv mk) hs hs') {P : Hit → Prop}
    (hp : ∀ a ∈ hs, ∀ b, MovedHit pl R env opts' mv mk a b → P b) : ∀ b ∈ hs', P b := by
  induction h with
  | nil => simp
  | cons h1 _ ih =>
    exact List.forall_mem_cons.2 ⟨hp _ List.mem_cons_self _ h1,
      ih fun a ha => hp a (List.mem_cons_of_mem _ ha)⟩

variable (hmv : SameForm mv mk pms pms')
include hmv

variable (hpl : TilesNest pl pms)

include hpl in
theorem MovedHit.chain {hs hs' : List Hit} (h : List.Forall₂ (MovedHit pl R env opts' mv mk) hs hs')
    (hq : ∀ x ∈ hs, x.q ∈ pms) (hc : hs.IsChain fun a b => TileContains a.tile b.tile) :
    hs'.IsChain fun a b => TileContains a.tile b.tile := by
  induction h with
  | nil => exact .nil
  | @cons a a' t t' h1 ht ih =>
    cases ht with
    | nil => exact .singleton _
    | @cons b b' t t' h2 ht =>
      rw [List.isChain_cons_cons] at hc ⊢
      refine ⟨?_, ih (fun x hx => hq x (List.mem_cons_of_mem _ hx)) hc.2⟩
      have ha := hq a List.mem_cons_self
      have hb := hq b (List.mem_cons_of_mem _ List.mem_cons_self)
      have := hpl a.q ha b.q hb _ _ _ _ h1.place h2.place hc.1
      rw [← hmv.zoom _ ha, ← hmv.zoom _ hb] at this
      have ea : a'.q = mv a.q := by rw [h1.eq]; rfl
      have eb : b'.q = mv b.q := by rw [h2.eq]; rfl
      unfold Hit.tile tileOf
      rw [ea, eb]
      exact this

/-- Being alone is a matter of the phrase matches. -/
theorem MovedHit.lone {hs hs' : List Hit} (h : List.Forall₂ (MovedHit pl R env opts' mv mk) hs hs')
    (hq : ∀ x ∈ hs, x.q ∈ pms) : Lone pms' hs' ↔ Lone pms hs := by
  have e := MovedHit.map h
  have key : ∀ (p : List Subquery) (l : List Hit), Lone p l ↔
      ∃ q, l.map Hit.q = [q] ∧ ¬ Extendable p [q] := by
    intro p l
    constructor
    · rintro ⟨x, rfl, hx⟩; exact ⟨x.q, rfl, hx⟩
    · rintro ⟨q, hl, hx⟩
      obtain ⟨x, rfl, rfl⟩ := List.map_eq_singleton_iff.1 hl
      exact ⟨x, rfl, hx⟩
  rw [key, key, e]
  constructor
  · rintro ⟨q', h1, h2⟩
    obtain ⟨q, h3, rfl⟩ := List.map_eq_singleton_iff.1 h1
    have hqs : ∀ a ∈ [q], a ∈ pms := by
      intro a ha
      rw [← h3] at ha
      obtain ⟨x, hx, rfl⟩ := List.mem_map.1 ha
      exact hq x hx
    exact ⟨q, h3, fun hx => h2 ((hmv.extendable hqs).2 hx)⟩
  · rintro ⟨q, h1, h2⟩
    have hqs : ∀ a ∈ [q], a ∈ pms := by
      intro a ha
      rw [← h1] at ha
      obtain ⟨x, hx, rfl⟩ := List.mem_map.1 ha
      exact hq x hx
    exact ⟨mv q, by rw [h1]; rfl, fun hx => h2 ((hmv.extendable hqs).1 hx)⟩

omit hmv in
theorem loses_keys (p : List Subquery) (l : List Hit) : LosesPoints p l ↔
    (∃ q, l.map Hit.q = [q] ∧ Extendable p [q]) ∨
      ∃ above u d, l.map Hit.q = above ++ [u, d] ∧ u.mask < d.mask := by
  constructor
  · rintro (⟨x, rfl, hx⟩ | ⟨a, u, d, rfl, hlt⟩)
    · exact Or.inl ⟨x.q, rfl, hx⟩
    · exact Or.inr ⟨a.map Hit.q, u.q, d.q, by simp, hlt⟩
  · rintro (⟨q, hl, hx⟩ | ⟨a, u, d, hl, hlt⟩)
    · obtain ⟨x, rfl, rfl⟩ := List.map_eq_singleton_iff.1 hl
      exact Or.inl ⟨x, rfl, hx⟩
    · obtain ⟨a, b, rfl, rfl, e2⟩ := List.map_eq_append_iff.1 hl
      obtain ⟨u, t, rfl, rfl, e3⟩ := List.map_eq_cons_iff.1 e2
      obtain ⟨d, t', rfl, rfl, e4⟩ := List.map_eq_cons_iff.1 e3
      rw [List.map_eq_nil_iff] at e4
      subst e4
      exact Or.inr ⟨a, u, d, rfl, hlt⟩

theorem MovedHit.loses {hs hs' : List Hit} (h : List.Forall₂ (MovedHit pl R env opts' mv mk) hs hs')
    (hq : ∀ x ∈ hs, x.q ∈ pms) : LosesPoints pms' hs' ↔ LosesPoints pms hs := by
  have e : hs'.map Hit.q = (hs.map (moveKey mv mk)).map Hit.q := by
    rw [MovedHit.map h, List.map_map, List.map_map]; rfl
  rw [← hmv.loses hq, loses_keys, loses_keys, e]

include hpl in
/-- Hits that relate to the ones of a context make a context that relates to it. -/
theorem moved_context_hits (hR : Direction R) (hw : WeightsPositive pms) (hw' : WeightsPositive pms')
    (hww : ∀ q ∈ pms, R q.weight (mv q).weight) {hs hs' : List Hit}
    (hb : List.Forall₂ (MovedHit pl R env opts' mv mk) hs hs') {c : Context} (hl : ¬ Lone pms hs)
    (hc : ContextOf env opts pms hs c) :
    ∃ c', ¬ Lone pms' hs' ∧ ContextOf env opts' pms' hs' c' ∧ MovedParts pms pl R c c' := by
  classical
  have hq : ∀ x ∈ hs, x.q ∈ pms := fun x hx => hc.stack.mem _ (List.mem_map_of_mem hx)
  have hf := hc.first hl
  have hl' : ¬ Lone pms' hs' := fun h => hl ((MovedHit.lone hmv hb hq).1 h)
  have hlp := MovedHit.loses hmv hb hq
  have hmap := MovedHit.map hb
  have hfirst : ∀ x ∈ hs', x.FirstAnswer env opts' :=
    MovedHit.forall_mem hb fun _ _ _ h => h.first
  let c' : Context := ⟨unionMask (hs'.map (·.q.mask)),
    if LosesPoints pms' hs' then sumRelev (hs'.map Hit.relev) - lit 0.01 else
      sumRelev (hs'.map Hit.relev), hs'.reverse.map fun h => toEntry h.grid h.q h.kg.id⟩
  have hsum : List.Forall₂ (fun a b : F64 => a.IsFin ∧ b.IsFin ∧ R a b) (hs.map Hit.relev)
      (hs'.map Hit.relev) := by
    have : ∀ {xs xs' : List Hit}, List.Forall₂ (MovedHit pl R env opts' mv mk) xs xs' →
        (∀ x ∈ xs, x.q ∈ pms ∧ x.FirstAnswer env opts) →
        List.Forall₂ (fun a b : F64 => a.IsFin ∧ b.IsFin ∧ R a b) (xs.map Hit.relev)
          (xs'.map Hit.relev) := by
      intro xs xs' hx
      induction hx with
      | nil => intro _; exact .nil
      | @cons a b _ _ h1 _ ih =>
        intro hall
        refine .cons ?_ (ih fun x hx => hall x (List.mem_cons_of_mem _ hx))
        obtain ⟨a1, a2⟩ := hall a List.mem_cons_self
        obtain ⟨w1, w2, w3⟩ := hw _ a1
        obtain ⟨-, o, _, _, -, q1, -⟩ := a2
        obtain ⟨-, o', _, _, -, q1', -⟩ := h1.first
        obtain ⟨f1, f2, f3, f4⟩ := (getMatching_mem q1 a.grid (by simp)).relev_bounds
        obtain ⟨g1, g2, g3, g4⟩ := (getMatching_mem q1' b.grid (by simp)).relev_bounds
        have hbq : b.q = mv a.q := by rw [h1.eq]; rfl
        obtain ⟨v1, v2, v3⟩ := hw' _ (hmv.mem _ a1)
        unfold Hit.relev
        rw [hbq]
        refine ⟨isFin_of_between w1 (F64.mul_nonneg' f1 w1 f3.le w3.le)
          (F64.mul_le_right f1 w1 w2 w3.le f4), isFin_of_between v1 (F64.mul_nonneg' g1 v1 g3.le v3.le)
          (F64.mul_le_right g1 v1 v2 v3.le g4),
          hR.mul f1 g1 f3.le g3.le w1 v1 w3.le v3.le h1.relev (hww _ a1)⟩
    exact this hb fun x hx => ⟨hq x hx, hf x hx⟩
  have hcx : ContextOf env opts' pms' hs' c' := by
    refine ⟨?_, ?_, ?_, ?_, MovedHit.chain hmv hpl hb hq hc.tiles, rfl, fun hn => if_neg hn,
      fun hn => if_pos hn, fun _ => hfirst⟩
    · intro e
      rw [e] at hb
      cases hb
      exact hc.ne rfl
    · rw [hmap]
      refine (hmv.isStack ?_).2 hc.stack
      intro q h
      obtain ⟨a, ha, rfl⟩ := List.mem_map.1 h
      exact hq a ha
    · intro x hx limit _ hlim
      obtain ⟨hk, o, before, after, h1, h2, _, _⟩ := hfirst x hx
      rw [hlim hl']
      exact ⟨hk, o, _, h1, h2, by simp⟩
    · change List.Forall₂ _ hs'.reverse (hs'.reverse.map fun h => toEntry h.grid h.q h.kg.id)
      generalize hs'.reverse = l
      induction l with
      | nil => exact .nil
      | cons x l ih => exact .cons (toEntry_madeFrom_id _ _ _) ih
  refine ⟨c', hl', hcx, ?_, ?_, ?_⟩
  · have h1 := hc.entries
    have hr := List.rel_reverse hb
    change List.Forall₂ _ c.entries (hs'.reverse.map fun h => toEntry h.grid h.q h.kg.id)
    have hqr : ∀ x ∈ hs.reverse, x.q ∈ pms ∧ x.FirstAnswer env opts := fun x hx =>
      ⟨hq x (List.mem_reverse.1 hx), hf x (List.mem_reverse.1 hx)⟩
    have : ∀ {xs xs' : List Hit} {es : List CoalesceEntry},
        List.Forall₂ (MovedHit pl R env opts' mv mk) xs xs' →
        (∀ x ∈ xs, x.q ∈ pms ∧ x.FirstAnswer env opts) →
        List.Forall₂ (fun h e => MadeFrom h.q h.grid e ∧ e.phrasematchId = h.kg.id) xs es →
        List.Forall₂ (fun e e' : CoalesceEntry => (∃ q ∈ pms, q.idx = e.idx ∧
          pl q (placeOf e.entry) (placeOf e'.entry)) ∧ (e'.phrasematchId = e.phrasematchId ∧
          e'.idx = e.idx ∧ e'.mask = e.mask) ∧ R e.entry.relev e'.entry.relev) es (xs'.map fun h => toEntry h.grid h.q h.kg.id) := by
      intro xs xs' es hx
      induction hx generalizing es with
      | nil => intro _ h; cases h; exact .nil
      | @cons a b _ _ h1 _ ih =>
        intro hall h
        cases h with
        | @cons _ e _ _ m1 m2 =>
          refine .cons ?_ (ih (fun x hx => hall x (List.mem_cons_of_mem _ hx)) m2)
          obtain ⟨a1, a2⟩ := hall a List.mem_cons_self
          obtain ⟨w1, w2, w3⟩ := hw _ a1
          obtain ⟨-, o, _, _, -, q1, -⟩ := a2
          obtain ⟨-, o', _, _, -, q1', -⟩ := h1.first
          obtain ⟨f1, -, f3, -⟩ := (getMatching_mem q1 a.grid (by simp)).relev_bounds
          obtain ⟨g1, -, g3, -⟩ := (getMatching_mem q1' b.grid (by simp)).relev_bounds
          obtain ⟨⟨n1, n2, n3, -, -, n6, -, -, -, -, n11, n12⟩, n13⟩ := m1
          obtain ⟨⟨k1, k2, k3, -, -, k6, -, -, -, -, k11, k12⟩, k13⟩ :=
            toEntry_madeFrom_id b.q b.grid b.kg.id
          have hbq : b.q = mv a.q := by rw [h1.eq]; rfl
          obtain ⟨v1, v2, v3⟩ := hw' _ (hmv.mem _ a1)
          have hbi : b.q.idx = a.q.idx := by rw [h1.eq]; exact hmv.idx a.q
          have hbm : b.q.mask = a.q.mask := by rw [h1.eq]; exact hmv.mask a.q
          have hbk : b.kg.id = a.kg.id := by rw [h1.eq]; exact hmv.id a.q a.kg
          refine ⟨⟨a.q, a1, n11.symm, ?_⟩, ⟨?_, ?_, ?_⟩, ?_⟩
          · unfold placeOf
            rw [k1, k2, k3, n1, n2, n3]
            exact h1.place
          · rw [k13, n13, hbk]
          · rw [k11, n11, hbi]
          · rw [k12, n12, hbm]
          · rw [k6, n6, hbq]
            exact hR.mul f1 g1 f3.le g3.le w1 v1 w3.le v3.le h1.relev (hww _ a1)
    exact this hr hqr h1
  · change unionMask (hs'.map (·.q.mask)) = c.mask
    rw [hc.mask]
    congr 1
    have : hs'.map (·.q.mask) = (hs'.map Hit.q).map (·.mask) := by rw [List.map_map]; rfl
    rw [this, hmap, List.map_map, List.map_map]
    exact List.map_congr_left fun x _ => hmv.mask x.q
  · obtain ⟨s1, s2⟩ := hR.sum hsum
    change R c.relev (if LosesPoints pms' hs' then _ else _)
    by_cases hL : LosesPoints pms hs
    · rw [if_pos (hlp.2 hL), hc.penalty hL]
      exact s2
    · rw [if_neg fun h => hL (hlp.1 h), hc.plain hL]
      exact s1

include hpl in
/-- A stack of hits that is let through has a counterpart whose relevances are at
least (or at most) the ones it had. -/
theorem moved_context (hR : Direction R) (hw : WeightsPositive pms) (hw' : WeightsPositive pms')
    (hww : ∀ q ∈ pms, R q.weight (mv q).weight) (hi : Carries pl R env opts opts' mv mk pms)
    {hs : List Hit} {c : Context} (hl : ¬ Lone pms hs) (hc : ContextOf env opts pms hs c) :
    ∃ hs' c', List.Forall₂ (MovedHit pl R env opts' mv mk) hs hs' ∧ ¬ Lone pms' hs' ∧
      ContextOf env opts' pms' hs' c' ∧ MovedParts pms pl R c c' := by
  obtain ⟨hs', hb⟩ := hi.hits fun x hx =>
    ⟨hc.stack.mem _ (List.mem_map_of_mem hx), hc.first hl x hx⟩
  obtain ⟨c', h1, h2, h3⟩ := moved_context_hits hmv hpl hR hw hw' hww hb hl hc
  exact ⟨hs', c', hb, h1, h2, h3⟩

end

section
variable {pl : Subquery → Place → Place → Prop} {R : F64 → F64 → Prop} {env : Env} {opts opts' : MatchOpts} {mv : Subquery → Subquery}
  {mk : Subquery → KeyWithId → KeyWithId} {pms pms' : List Subquery}

theorem moved_returned (hmv : Shapes mv mk pms pms') (hpl : TilesNest pl pms) (hR : Direction R) (hw : WeightsPositive pms)
    (hw' : WeightsPositive pms') (hww : ∀ q ∈ pms, R q.weight (mv q).weight)
    (hi : Carries pl R env opts opts' mv mk pms)
    (hm : ∀ q ∈ pms, ∀ l ∈ pms, ∀ p p', pl l p p' → Meets q.store l.store.zoom p.1 p.2.1 →
      Meets (mv q).store l.store.zoom p'.1 p'.2.1)
    {hs : List Hit} {c : Context} (hl : ¬ Lone pms hs) (hcut : NotCut env opts pms (hs.map Hit.q))
    (hc : ContextOf env opts pms hs c) :
    ∃ c', IsReturned env opts' pms' c' ∧ MovedParts pms pl R c c' := by
  obtain ⟨hs', c', hb, hl', hcx, hp⟩ := moved_context hmv.toSameForm hpl hR hw hw' hww hi hl hc
  have hmap := MovedHit.map hb
  refine ⟨c', Or.inl ⟨hs', hl', ?_, hcx⟩, hp⟩
  intro above q below he hne
  rw [hmap] at he
  obtain ⟨above, rest, hsplit, rfl, hrest⟩ := List.map_eq_append_iff.1 he
  obtain ⟨q, below, rfl, rfl, rfl⟩ := List.map_eq_cons_iff.1 hrest
  obtain ⟨tops, last, h1, h2⟩ := hcut above q below hsplit (by simpa using hne)
  obtain ⟨xs', hx⟩ := hi.hits fun x hx => ⟨h1.mem x hx, h1.answers x hx⟩
  have hqm : q ∈ pms := hc.stack.mem q (by rw [hsplit]; simp)
  have hlast : last.q ∈ pms := h1.mem last (by simp)
  have hover : HitsOver env opts' pms' (above.map mv) xs' := by
    refine ⟨?_, ?_, ?_, MovedHit.chain hmv.toSameForm hpl hx h1.mem h1.tiles⟩
    · rw [MovedHit.map hx]
      refine hmv.groupKeys (fun a ha => ?_) (fun a ha => hc.stack.mem a ?_) h1.keys
      · obtain ⟨x, hx, rfl⟩ := List.mem_map.1 ha
        exact h1.mem x hx
      · rw [hsplit]
        simp [ha]
    · refine MovedHit.forall_mem hx fun a ha b h => ?_
      rw [h.eq]
      exact hmv.mem _ (h1.mem a ha)
    · exact MovedHit.forall_mem hx fun _ _ _ h => h.first
  obtain ⟨tops', last', rfl, hlb⟩ : ∃ tops' last', xs' = tops' ++ [last'] ∧
      MovedHit pl R env opts' mv mk last last' := by
    have hr := List.rel_reverse hx
    rw [List.reverse_append, List.reverse_cons, List.reverse_nil, List.nil_append,
      List.singleton_append] at hr
    cases hxr : xs'.reverse with
    | nil => rw [hxr] at hr; cases hr
    | cons b t =>
      rw [hxr] at hr
      cases hr with
      | cons h3 _ =>
        refine ⟨t.reverse, b, ?_, h3⟩
        rw [← List.reverse_reverse xs', hxr, List.reverse_cons]
  refine ⟨tops', last', hover, ?_⟩
  have : last'.q.store.zoom = last.q.store.zoom := by rw [hlb.eq]; exact hmv.zoom _ hlast
  rw [this]
  exact hm q hqm _ hlast _ _ hlb.place h2

end

end Carmen
