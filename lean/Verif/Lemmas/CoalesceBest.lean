import Verif.Lemmas.CoalesceNested
import Verif.Lemmas.SingleLoop
import Verif.Lemmas.StackPath

/-!
# Which parents `coalesce_multi` keeps
-/

namespace Carmen
open Spec

theorem entries_eq_first_cons {c : Context} (h : c.entries ≠ []) :
    c.entries = c.first :: c.entries.tail := by
  cases hc : c.entries with
  | nil => exact absurd hc h
  | cons e t => simp [Context.first, hc]

theorem relev_ne_nan {vals : ℕ → List ℚ} {e : CoalesceEntry} (h : EntryOk vals e) :
    e.entry.relev ≠ .nan := by
  obtain ⟨r, hr, _⟩ := h.relev
  rw [hr]
  exact F64.noConfusion

/-- A list of contexts on a tile as the loop makes them, given the entries `E` so far: contexts that
begin with the same mask follow each other, and what is not at the front of a context is there
already. -/
structure InStages (E : List CoalesceEntry) (cs : List Context) : Prop where
  new : ∀ c ∈ cs, c.first.mask ∉ E.map (·.mask)
  tails : ∀ l c r, cs = l ++ c :: r → ∀ e ∈ c.entries.tail,
    e.mask ∈ E.map (·.mask) ∨ e.mask ∈ l.map (·.first.mask)
  grouped : ∀ l c r, cs = l ++ c :: r → c.first.mask ∈ l.map (·.first.mask) →
    ∃ l' d, l = l' ++ [d] ∧ d.first.mask = c.first.mask

/-- The loop over parents, after the contexts `pre`. -/
structure Absorbed (vals : ℕ → List ℚ) (E : List CoalesceEntry) (pre : List Context) (a : Absorb) :
    Prop where
  rel : AbsorbRel vals a
  masks : ∀ m, m ∈ a.entries.map (·.mask) ↔ m ∈ E.map (·.mask) ∨ m ∈ pre.map (·.first.mask)
  none : pre = [] → a.prevMask = 0
  prev : ∀ l d, pre = l ++ [d] → a.prevMask = d.first.mask
  best : ∀ d ∈ pre, ∃ e ∈ a.entries, e.mask = d.first.mask ∧ d.first.entry.relev ≤ e.entry.relev
  source : ∀ e ∈ a.entries, e ∈ E ∨ e ∈ pre.map Context.first
  keeps : ∀ e ∈ E, e ∈ a.entries

theorem and_self_ne {vals : ℕ → List ℚ} {a : Absorb} (h : AbsorbRel vals a) {m : ℕ}
    (hm : m ∈ a.entries.map (·.mask)) (h0 : m ≠ 0) : a.mask &&& m ≠ 0 := by
  intro hz
  rw [h.acc.mask, Nat.and_comm] at hz
  have := and_unionMask hz m hm
  rw [Nat.and_self] at this
  exact h0 this

theorem absorb_tail {vals : ℕ → List ℚ} {a : Absorb} (h : AbsorbRel vals a)
    {t : List CoalesceEntry} (ht : ∀ e ∈ t, e.mask ≠ 0 ∧ e.mask ≠ a.prevMask ∧
      e.mask ∈ a.entries.map (·.mask)) : t.foldl Absorb.step a = a := by
  induction t with
  | nil => rfl
  | cons e t ih =>
    obtain ⟨h0, h1, h2⟩ := ht e List.mem_cons_self
    have : a.step e = a := by
      unfold Absorb.step
      rw [if_neg (fun hh => h1 hh.1), if_neg (and_self_ne h h2 h0)]
    rw [List.foldl_cons, this]
    exact ih fun e he => ht e (List.mem_cons_of_mem _ he)

theorem disjoint_of_stack {stack : List Subquery} (hst : StackOk stack) {m m' : ℕ}
    (hm : ∃ q ∈ stack, q.mask = m) (hm' : ∃ q ∈ stack, q.mask = m') (hne : m ≠ m') :
    m &&& m' = 0 := by
  obtain ⟨q, hq, rfl⟩ := hm
  obtain ⟨q', hq', rfl⟩ := hm'
  have hs : Std.Symm fun a b : Subquery => a.mask &&& b.mask = 0 :=
    ⟨fun a b hab => by rw [Nat.and_comm]; exact hab⟩
  exact hst.disjoint.forall hq hq' fun h => hne (by rw [h])

/-- One context of parents. -/
theorem Absorbed.context {stack : List Subquery} (hst : StackOk stack) {E : List CoalesceEntry}
    {pre post : List Context} {c : Context} {a : Absorb} (hs : InStages E (pre ++ c :: post))
    (hc : CtxRel (relevVals stack) c) (h : Absorbed (relevVals stack) E pre a) :
    Absorbed (relevVals stack) E (pre ++ [c]) (c.entries.foldl Absorb.step a) := by
  have hne : c.entries ≠ [] := hc.ne
  have hcons := entries_eq_first_cons hne
  have hfirst : EntryOk (relevVals stack) c.first := hc.ok _ (by rw [hcons]; exact List.mem_cons_self)
  have hdis := hc.disjoint
  rw [hcons, List.pairwise_cons] at hdis
  have hnew := hs.new c (by simp)
  -- the first entry of the context
  have h1 : Absorbed (relevVals stack) E (pre ++ [c]) (a.step c.first) := by
    have hrel := absorbRel_step (relevVals_length stack) h.rel hfirst
    by_cases hp : c.first.mask = a.prevMask
    · -- the mask of the parent before
      obtain ⟨init, l, hent, hine, hlm, hlr⟩ := h.rel.prev (by rw [← hp]; exact hfirst.mask.1)
      have hl : EntryOk (relevVals stack) l := h.rel.acc.ok l (by rw [hent]; simp)
      have hmem : c.first.mask ∈ pre.map (·.first.mask) := by
        have : c.first.mask ∈ a.entries.map (·.mask) := by rw [hent, hp, ← hlm]; simp
        exact ((h.masks _).1 this).resolve_left hnew
      have hdisj := h.rel.acc.disjoint
      rw [hent, List.pairwise_append] at hdisj
      have hinit : ∀ e ∈ init, e.mask ≠ l.mask := by
        intro e he hm
        have := hdisj.2.2 e he l (by simp)
        rw [hm, Nat.and_self] at this
        exact hl.mask.1 this
      by_cases hr : F64.flt a.prevRelev c.first.entry.relev = true
      · have he : a.step c.first = ⟨init ++ [c.first], a.mask,
            a.relev - a.prevRelev + c.first.entry.relev, c.first.mask, c.first.entry.relev⟩ := by
          unfold Absorb.step
          rw [if_pos ⟨hp, hr⟩, hent, List.dropLast_concat]
        have hlt : l.entry.relev < c.first.entry.relev := by
          rw [hlr]
          have := (flt_iff (by rw [← hlr]; exact relev_ne_nan hl) (relev_ne_nan hfirst)).1 hr
          exact this
        rw [he] at hrel ⊢
        refine ⟨hrel, ?_, by simp, ?_, ?_, ?_, ?_⟩
        · intro m
          have := h.masks m
          rw [hent] at this
          simp only [List.map_append, List.mem_append, List.map_cons, List.map_nil,
            List.mem_singleton] at this ⊢
          rw [hp, ← hlm, this]
          constructor
          · rintro (h | h)
            · exact Or.inl h
            · exact Or.inr (Or.inl h)
          · rintro (h | h | h)
            · exact Or.inl h
            · exact Or.inr h
            · right
              rw [h, hlm, ← hp]
              exact hmem
        · intro l' d hd
          obtain ⟨-, hd⟩ := List.append_inj' hd rfl
          rw [List.cons.injEq] at hd
          rw [← hd.1]
        · intro d hd
          by_cases hdm : d.first.mask = c.first.mask
          · refine ⟨c.first, by simp, hdm.symm, ?_⟩
            rcases List.mem_append.1 hd with hd | hd
            · obtain ⟨e, he, hem, her⟩ := h.best d hd
              rw [hent] at he
              rcases List.mem_append.1 he with he | he
              · exact absurd (by rw [hem, hdm, hp, hlm]) (hinit e he)
              · rw [List.mem_singleton] at he
                subst he
                exact her.trans hlt.le
            · rw [List.mem_singleton] at hd
              rw [hd]
          · rcases List.mem_append.1 hd with hd | hd
            · obtain ⟨e, he, hem, her⟩ := h.best d hd
              rw [hent] at he
              rcases List.mem_append.1 he with he | he
              · exact ⟨e, List.mem_append_left _ he, hem, her⟩
              · rw [List.mem_singleton] at he
                subst he
                exact absurd (by rw [← hem, hlm, hp]) hdm
            · rw [List.mem_singleton] at hd
              rw [hd] at hdm
              exact absurd rfl hdm
        · intro e he
          rcases List.mem_append.1 he with he | he
          · rcases h.source e (by rw [hent]; exact List.mem_append_left _ he) with h | h
            · exact Or.inl h
            · right; rw [List.map_append]; exact List.mem_append_left _ h
          · right
            rw [List.mem_singleton] at he
            rw [he]; simp
        · intro e he
          have := h.keeps e he
          rw [hent] at this
          rcases List.mem_append.1 this with hi | hi
          · exact List.mem_append_left _ hi
          · rw [List.mem_singleton] at hi
            refine absurd ?_ hnew
            rw [hp, ← hlm, ← hi]
            exact List.mem_map_of_mem he
      · have hin : c.first.mask ∈ a.entries.map (·.mask) := (h.masks _).2 (Or.inr hmem)
        have he : a.step c.first = a := by
          unfold Absorb.step
          rw [if_neg (fun hh => hr hh.2), if_neg (and_self_ne h.rel hin hfirst.mask.1)]
        rw [he]
        refine ⟨h.rel, ?_, by simp, ?_, ?_, ?_, h.keeps⟩
        · intro m
          rw [h.masks m]
          simp only [List.map_append, List.mem_append, List.map_cons, List.map_nil,
            List.mem_singleton]
          constructor
          · rintro (h | h)
            · exact Or.inl h
            · exact Or.inr (Or.inl h)
          · rintro (h | h | h)
            · exact Or.inl h
            · exact Or.inr h
            · right; rw [h]; exact hmem
        · intro l' d hd
          obtain ⟨-, hd⟩ := List.append_inj' hd rfl
          rw [List.cons.injEq] at hd
          rw [← hd.1, hp]
        · intro d hd
          rcases List.mem_append.1 hd with hd | hd
          · exact h.best d hd
          · rw [List.mem_singleton] at hd
            refine ⟨l, by rw [hent]; simp, by rw [hd, hp, hlm], ?_⟩
            rw [hd, hlr]
            exact le_of_flt_false (by rw [← hlr]; exact relev_ne_nan hl) (relev_ne_nan hfirst)
              (by simpa using hr)
        · intro e he
          rcases h.source e he with h | h
          · exact Or.inl h
          · right; rw [List.map_append]; exact List.mem_append_left _ h
    · -- a mask not seen before
      have hnp : c.first.mask ∉ pre.map (·.first.mask) := by
        intro hm
        obtain ⟨l', d, rfl, hd⟩ := hs.grouped pre c post rfl hm
        exact hp (by rw [← hd, h.prev l' d rfl])
      have hz : a.mask &&& c.first.mask = 0 := by
        by_contra hne
        rw [h.rel.acc.mask] at hne
        obtain ⟨m, hm, hmp⟩ := unionMask_and hne
        have hmc : m ≠ c.first.mask := by
          rintro rfl
          rcases (h.masks _).1 hm with h | h
          · exact hnew h
          · exact hnp h
        obtain ⟨e, he, rfl⟩ := List.mem_map.1 hm
        exact hmp (disjoint_of_stack hst (h.rel.acc.ok e he).source hfirst.source hmc)
      have he : a.step c.first = ⟨a.entries ++ [c.first], a.mask ||| c.first.mask,
          a.relev + c.first.entry.relev, c.first.mask, c.first.entry.relev⟩ := by
        unfold Absorb.step
        rw [if_neg (fun hh => hp hh.1), if_pos hz]
      rw [he] at hrel ⊢
      refine ⟨hrel, ?_, by simp, ?_, ?_, ?_, ?_⟩
      · intro m
        have := h.masks m
        simp only [List.map_append, List.mem_append, List.map_cons, List.map_nil,
          List.mem_singleton] at this ⊢
        rw [this, or_assoc]
      · intro l' d hd
        obtain ⟨-, hd⟩ := List.append_inj' hd rfl
        rw [List.cons.injEq] at hd
        rw [← hd.1]
      · intro d hd
        rcases List.mem_append.1 hd with hd | hd
        · obtain ⟨e, he, hem⟩ := h.best d hd
          exact ⟨e, List.mem_append_left _ he, hem⟩
        · rw [List.mem_singleton] at hd
          exact ⟨c.first, by simp, by rw [hd], by rw [hd]⟩
      · intro e he
        rcases List.mem_append.1 he with he | he
        · rcases h.source e he with h | h
          · exact Or.inl h
          · right; rw [List.map_append]; exact List.mem_append_left _ h
        · right
          rw [List.mem_singleton] at he
          rw [he]; simp
      · intro e he
        exact List.mem_append_left _ (h.keeps e he)
  rw [hcons, List.foldl_cons, absorb_tail h1.rel]
  · exact h1
  · intro e he
    have hok : EntryOk (relevVals stack) e := hc.ok e (by rw [hcons]; exact List.mem_cons_of_mem _ he)
    refine ⟨hok.mask.1, ?_, ?_⟩
    · rw [h1.prev pre c rfl]
      intro hm
      have := hdis.1 e he
      rw [hm, Nat.and_self] at this
      exact hfirst.mask.1 this
    · rw [h1.masks]
      rcases hs.tails pre c post rfl e he with h | h
      · exact Or.inl h
      · right; rw [List.map_append]; exact List.mem_append_left _ h

theorem Absorbed.all {stack : List Subquery} (hst : StackOk stack) {E : List CoalesceEntry}
    {pre cs : List Context} {a : Absorb} (hs : InStages E (pre ++ cs))
    (hc : ∀ c ∈ cs, CtxRel (relevVals stack) c) (h : Absorbed (relevVals stack) E pre a) :
    Absorbed (relevVals stack) E (pre ++ cs)
      ((cs.flatMap Context.entries).foldl Absorb.step a) := by
  induction cs generalizing pre a with
  | nil => simpa using h
  | cons c t ih =>
    rw [List.flatMap_cons, List.foldl_append]
    have := ih (pre := pre ++ [c]) (by simpa using hs) (fun d hd => hc d (List.mem_cons_of_mem _ hd))
      (h.context hst hs (hc c List.mem_cons_self))
    simpa using this

/-! ## The contexts on the tiles -/

/-- The contexts on each tile: those that begin with the same mask follow each other, and what is
not at the front of a context is at the front of an earlier one, or of one on a tile around. -/
structure Tidy (m : HMap Zxy (List Context)) : Prop where
  tails : ∀ z cs, HMap.find z m = some cs → ∀ l c r, cs = l ++ c :: r → ∀ e ∈ c.entries.tail,
    e.mask ∈ l.map (·.first.mask) ∨
      ∃ z' d, z'.1 < z.1 ∧ TileContains z' z ∧ OnTile m z' d ∧ d.first.mask = e.mask
  grouped : ∀ z cs, HMap.find z m = some cs → ∀ l c r, cs = l ++ c :: r →
    c.first.mask ∈ l.map (·.first.mask) → ∃ l' d, l = l' ++ [d] ∧ d.first.mask = c.first.mask

theorem mask_inj {stack : List Subquery} (hst : StackOk stack) {q q' : Subquery} (hq : q ∈ stack)
    (hq' : q' ∈ stack) (h : q.mask = q'.mask) : q = q' := by
  by_contra hne
  have hs : Std.Symm fun a b : Subquery => a.mask &&& b.mask = 0 :=
    ⟨fun a b hab => by rw [Nat.and_comm]; exact hab⟩
  have := hst.disjoint.forall hq hq' hne
  rw [h, Nat.and_self] at this
  exact (hst.covers q' hq').1 this

theorem idx_inj {stack : List Subquery} (h : (stack.map (·.idx)).Nodup) {q q' : Subquery}
    (hq : q ∈ stack) (hq' : q' ∈ stack) (he : q.idx = q'.idx) : q = q' :=
  List.inj_on_of_nodup_map h hq hq' he

/-- Whose context it is. -/
theorem PreCtx.owner {env : Env} {opts : MatchOpts} {stack done : List Subquery} {z : Zxy}
    {d : Context} (hst : StackOk stack) (hd : done ⊆ stack) (h : PreCtx env opts stack done z d) :
    ∃ q ∈ done, z.1 = q.store.zoom ∧ d.first.mask = q.mask := by
  obtain ⟨q, g, src, hz, hb, he, -⟩ := h.built
  obtain ⟨q', hq', hm⟩ := h.first
  have hf : d.first.mask = q.mask := by
    have hh := hb.head
    cases src with
    | nil => cases hh
    | cons p t =>
      rw [List.head?_cons, Option.some.injEq] at hh
      subst hh
      simp [Context.first, he, toEntry]
  have hqs : q ∈ stack := (hb.from_stack (q, g) (List.mem_of_head? hb.head)).1
  have : q = q' := mask_inj hst hqs (hd hq') (hf.symm.trans hm)
  subst this
  exact ⟨q, hq', by rw [hz], hf⟩

theorem dedupAdjacent_sorted {l : List ℕ} (h : l.Pairwise (· ≤ ·)) :
    (dedupAdjacent l).Pairwise (· < ·) := by
  induction l with
  | nil => exact List.Pairwise.nil
  | cons a t ih =>
    obtain ⟨h1, h2⟩ := List.pairwise_cons.1 h
    have ih := ih h2
    unfold dedupAdjacent
    cases hd : dedupAdjacent t with
    | nil => simp
    | cons b r =>
      rw [hd] at ih
      simp only
      split_ifs with hab
      · exact ih
      · refine List.pairwise_cons.2 ⟨?_, ih⟩
        intro x hx
        have hb : b ∈ t := mem_dedupAdjacent (by rw [hd]; exact List.mem_cons_self)
        have hlt : a < b := lt_of_le_of_ne (h1 b hb) hab
        rcases List.mem_cons.1 hx with rfl | hx
        · exact hlt
        · exact hlt.trans ((List.pairwise_cons.1 ih).1 x hx)

theorem compatibleZooms_sorted {stack : List Subquery}
    (h : stack.Pairwise fun a b => a.stackKey ≤ b.stackKey) (q : Subquery) :
    (compatibleZooms stack q).Pairwise (· < ·) := by
  refine dedupAdjacent_sorted (List.pairwise_map.2 (List.Pairwise.filter _ (h.imp ?_)))
  intro a b hab
  unfold Subquery.stackKey at hab
  rw [Prod.Lex.toLex_le_toLex] at hab
  rcases hab with hab | hab
  · exact hab.le
  · exact hab.1.le

/-- The tile above, unless it panics, is the only one at that zoom that contains the tile. -/
theorem tileAbove_iff {chk : Bool} {zoom oz : ℕ} {e : CoalesceEntry} {z : Zxy}
    (hoz : oz ≤ zoom) (hz : chk = true ∨ zoom < oz + 16) (h : tileAbove chk zoom oz e = some z) :
    ∀ z' : Zxy, z'.1 = oz → (TileContains z' (zoom, e.entry.x, e.entry.y) ↔ z' = z) := by
  unfold tileAbove at h
  split_ifs at h with hc
  have hlt : zoom - oz < 16 := by
    rcases hz with hz | hz
    · rw [hz] at hc
      simpa using hc
    · omega
  have hf : oneShl16 (zoom - oz) = 2 ^ (zoom - oz) := by
    unfold oneShl16
    rw [Nat.mod_eq_of_lt hlt, Nat.shiftLeft_eq, Nat.one_mul]
  simp only [hf, Option.some.injEq] at h
  rintro ⟨z1, x1, y1⟩ rfl
  subst h
  unfold TileContains
  simp only [Prod.mk.injEq, true_and]
  exact ⟨fun h => h.2, fun h => ⟨hoz, h⟩⟩

/-- What the context of a grid holds: its entry, then entries from the front of contexts on the
tiles around, and of each mask found there one that is as relevant as any. -/
theorem Builds.best {env : Env} {opts : MatchOpts} {stack done : List Subquery}
    (hst : MultiOk env stack) (hsort : stack.Pairwise fun a b => a.stackKey ≤ b.stackKey)
    (hidx : (stack.map (·.idx)).Nodup) {m : HMap Zxy (List Context)}
    (hm : AllCtx (PreCtx env opts stack done) m) (ht : Tidy m) {q : Subquery}
    (hq : q ∈ stack)
    (hds : done ⊆ stack) (hqd : q ∉ done) {g : MatchEntry} (hg : Answers env opts q g) {c : Context}
    (h : Builds env stack m q g c) :
    (∀ e ∈ c.entries.tail, ∃ z d, TileContains z (tileOf q g) ∧ OnTile m z d ∧ d.first = e) ∧
    ∀ z d, TileContains z (tileOf q g) → OnTile m z d →
      ∃ e ∈ c.entries, e.mask = d.first.mask ∧ d.first.entry.relev ≤ e.entry.relev := by
  have hon : ∀ z d, OnTile m z d → PreCtx env opts stack done z d := fun z d ⟨cs, hf, hd⟩ =>
    hm.find hf d hd
  have hrel : AllCtx (fun _ c => CtxRel (relevVals stack) c) m := hm.imp fun _ _ h => h.rel
  have hcompat : ∀ z d, TileContains z (tileOf q g) → OnTile m z d →
      z.1 ∈ compatibleZooms stack q := by
    intro z d hz hd
    obtain ⟨q', hq', hz', -⟩ := (hon z d hd).owner hst.ok hds
    rw [hz']
    refine compatibleZooms_mem (hds hq') ?_ ?_
    · intro he
      exact hqd (idx_inj hidx hq (hds hq') he ▸ hq')
    · rw [← hz']; exact hz.1
  have key : ∀ (ozs before : List ℕ) (c0 : Context), compatibleZooms stack q = before ++ ozs →
      CtxRel (relevVals stack) c0 → c0.first = toEntry g q 0 →
      (∀ e ∈ c0.entries, e = toEntry g q 0 ∨
        ∃ z d, z.1 ∈ before ∧ TileContains z (tileOf q g) ∧ OnTile m z d ∧ d.first = e) →
      (∀ z d, z.1 ∈ before → TileContains z (tileOf q g) → OnTile m z d →
        ∃ e ∈ c0.entries, e.mask = d.first.mask ∧ d.first.entry.relev ≤ e.entry.relev) →
      ozs.foldlM (absorbZoom env.chk q.store.zoom m) c0 = some c →
      CtxRel (relevVals stack) c ∧ c.first = toEntry g q 0 ∧
      (∀ e ∈ c.entries, e = toEntry g q 0 ∨
        ∃ z d, TileContains z (tileOf q g) ∧ OnTile m z d ∧ d.first = e) ∧
      (∀ z d, TileContains z (tileOf q g) → OnTile m z d →
        ∃ e ∈ c.entries, e.mask = d.first.mask ∧ d.first.entry.relev ≤ e.entry.relev) := by
    intro ozs
    induction ozs with
    | nil =>
      intro before c0 hsplit h1 h2 h3 h4 hf
      cases hf
      rw [List.append_nil] at hsplit
      refine ⟨h1, h2, ?_, ?_⟩
      · intro e he
        rcases h3 e he with h | ⟨z, d, -, h⟩
        · exact Or.inl h
        · exact Or.inr ⟨z, d, h⟩
      · intro z d hz hd
        exact h4 z d (by rw [← hsplit]; exact hcompat z d hz hd) hz hd
    | cons oz t ih =>
      intro before c0 hsplit h1 h2 h3 h4 hf
      rw [List.foldlM_cons, Option.bind_eq_bind, Option.bind_eq_some_iff] at hf
      obtain ⟨c1, hc1, hf⟩ := hf
      have hmemoz : oz ∈ compatibleZooms stack q := by rw [hsplit]; simp
      obtain ⟨hoz, b, hb, hbz⟩ := mem_compatibleZooms hmemoz
      have hstrict := compatibleZooms_sorted hsort q
      rw [hsplit, List.pairwise_append] at hstrict
      have hlt : ∀ x ∈ before, x < oz := fun x hx => hstrict.2.2 x hx oz List.mem_cons_self
      have hr1 := absorbZoom_rel (relevVals_length stack) hrel h1 hc1
      obtain ⟨-, k2, -⟩ := absorbZoom_covers hst.ok hrel h1 hc1
      have hnext : (∀ e ∈ c1.entries, e = toEntry g q 0 ∨
            ∃ z d, z.1 ∈ before ++ [oz] ∧ TileContains z (tileOf q g) ∧ OnTile m z d ∧
              d.first = e) ∧
          (∀ z d, z.1 ∈ before ++ [oz] → TileContains z (tileOf q g) → OnTile m z d →
            ∃ e ∈ c1.entries, e.mask = d.first.mask ∧ d.first.entry.relev ≤ e.entry.relev) := by
        unfold absorbZoom at hc1
        rw [Option.bind_eq_bind, Option.bind_eq_some_iff] at hc1
        obtain ⟨z, hz, hc1⟩ := hc1
        have huniq := tileAbove_iff hoz (hst.zooms.imp_right fun hz => by
          have := hz q hq b hb
          rw [hbz] at this
          exact this) hz
        rw [h2] at huniq
        have hz1 : z.1 = oz := by
          unfold tileAbove at hz
          split_ifs at hz
          simp only [Option.some.injEq] at hz
          rw [← hz]
        have huniq : ∀ z' : Zxy, z'.1 = oz → (TileContains z' (tileOf q g) ↔ z' = z) := huniq
        cases hfind : HMap.find z m with
        | none =>
          rw [hfind] at hc1
          cases hc1
          refine ⟨?_, ?_⟩
          · intro e he
            rcases h3 e he with h | ⟨z', d, hz', h⟩
            · exact Or.inl h
            · exact Or.inr ⟨z', d, List.mem_append_left _ hz', h⟩
          · intro z' d hz' hct hd
            rcases List.mem_append.1 hz' with hz' | hz'
            · exact h4 z' d hz' hct hd
            · rw [List.mem_singleton] at hz'
              rw [(huniq z' hz').1 hct] at hd
              obtain ⟨cs, hcs, -⟩ := hd
              rw [hfind] at hcs
              cases hcs
        | some cs =>
          rw [hfind] at hc1
          cases hc1
          have hcz : TileContains z (tileOf q g) := (huniq z hz1).2 rfl
          have hstages : InStages c0.entries cs := by
            refine ⟨?_, ?_, ?_⟩
            · intro d hd hmem
              obtain ⟨q', hq', hz', hmk⟩ := (hon z d ⟨cs, hfind, hd⟩).owner hst.ok hds
              obtain ⟨e, he, hem⟩ := List.mem_map.1 hmem
              rcases h3 e he with rfl | ⟨z'', d'', hb'', -, hd'', rfl⟩
              · have : q = q' := mask_inj hst.ok hq (hds hq') (hem.trans hmk)
                rw [this] at hqd
                exact hqd hq'
              · obtain ⟨q'', hq'', hz'', hmk''⟩ := (hon z'' d'' hd'').owner hst.ok hds
                have : q'' = q' := mask_inj hst.ok (hds hq'') (hds hq')
                  (hmk''.symm.trans (hem.trans hmk))
                subst this
                have := hlt _ hb''
                omega
            · intro l d r hl e he
              rcases ht.tails z cs hfind l d r hl e he with h | ⟨z', d', hlt', hct, hd', hmk⟩
              · exact Or.inr h
              · left
                have hct' := TileContains.trans hct hcz
                have hmem := hcompat z' d' hct' hd'
                rw [hsplit] at hmem
                have hb' : z'.1 ∈ before := by
                  rcases List.mem_append.1 hmem with h | h
                  · exact h
                  · exfalso
                    rw [hz1] at hlt'
                    rcases List.mem_cons.1 h with h | h
                    · omega
                    · have := (List.pairwise_cons.1 hstrict.2.1).1 _ h
                      omega
                obtain ⟨e', he', hem, -⟩ := h4 z' d' hb' hct' hd'
                rw [← hmk, ← hem]
                exact List.mem_map_of_mem he'
            · exact ht.grouped z cs hfind
          have hab := Absorbed.all hst.ok (pre := []) (a := ⟨c0.entries, c0.mask, c0.relev, 0, 0⟩)
            hstages (fun d hd => hrel.find hfind d hd)
            ⟨⟨h1, fun hne => absurd rfl hne⟩, by simp, fun _ => rfl, by simp, by simp,
              fun e he => Or.inl he, fun e he => he⟩
          rw [List.nil_append] at hab
          refine ⟨?_, ?_⟩
          · intro e he
            rcases hab.source e he with h | h
            · rcases h3 e h with h | ⟨z', d, hz', h⟩
              · exact Or.inl h
              · exact Or.inr ⟨z', d, List.mem_append_left _ hz', h⟩
            · obtain ⟨d, hd, rfl⟩ := List.mem_map.1 h
              exact Or.inr ⟨z, d, by simp [hz1], hcz, ⟨cs, hfind, hd⟩, rfl⟩
          · intro z' d hz' hct hd
            rcases List.mem_append.1 hz' with hz' | hz'
            · obtain ⟨e, he, h⟩ := h4 z' d hz' hct hd
              exact ⟨e, hab.keeps e he, h⟩
            · rw [List.mem_singleton] at hz'
              rw [(huniq z' hz').1 hct] at hd
              obtain ⟨cs', hcs, hd⟩ := hd
              rw [hfind, Option.some.injEq] at hcs
              subst hcs
              exact hab.best d hd
      exact ih (before ++ [oz]) c1 (by rw [hsplit]; simp) hr1 (k2.trans h2) hnext.1 hnext.2 hf
  obtain ⟨r1, r2, r3, r4⟩ := key _ [] _ rfl (ctxRel_one hst.ok hq hg) rfl (by simp) (by simp) h
  refine ⟨?_, r4⟩
  intro e he
  have hcons := entries_eq_first_cons r1.ne
  rcases r3 e (List.mem_of_mem_tail he) with rfl | h
  · exfalso
    have hdis := r1.disjoint
    rw [hcons, List.pairwise_cons] at hdis
    have := hdis.1 _ he
    rw [r2, Nat.and_self] at this
    exact (hst.ok.covers q hq).1 this
  · exact h

/-! ## The next phrase match -/

theorem find_foldl_upsert {l : List (Zxy × List Context)} {m : HMap Zxy (List Context)} {z : Zxy}
    {cs : List Context}
    (h : HMap.find z (l.foldl (fun m p => HMap.upsert p.1 [] (· ++ p.2) m) m) = some cs) :
    ∃ new, cs = (HMap.find z m).getD [] ++ new ∧ ∀ c ∈ new, ∃ p ∈ l, p.1 = z ∧ c ∈ p.2 := by
  induction l generalizing m with
  | nil => exact ⟨[], by rw [List.foldl_nil] at h; rw [h]; simp, by simp⟩
  | cons p t ih =>
    rw [List.foldl_cons] at h
    obtain ⟨new, hcs, hnew⟩ := ih h
    rw [HMap.find_upsert] at hcs
    by_cases hz : z = p.1
    · rw [if_pos hz, Option.getD_some, List.append_assoc] at hcs
      refine ⟨p.2 ++ new, by rw [hcs, hz], ?_⟩
      intro c hc
      rcases List.mem_append.1 hc with hc | hc
      · exact ⟨p, List.mem_cons_self, hz.symm, hc⟩
      · obtain ⟨p', hp', h⟩ := hnew c hc
        exact ⟨p', List.mem_cons_of_mem _ hp', h⟩
    · rw [if_neg hz] at hcs
      refine ⟨new, hcs, ?_⟩
      intro c hc
      obtain ⟨p', hp', h⟩ := hnew c hc
      exact ⟨p', List.mem_cons_of_mem _ hp', h⟩

theorem TileContains.eq_of_zoom {a b : Zxy} (h : TileContains a b) (hz : b.1 ≤ a.1) : a = b := by
  obtain ⟨a1, a2, a3⟩ := a
  obtain ⟨b1, b2, b3⟩ := b
  obtain ⟨h1, h2, h3⟩ := h
  simp only at h1 h2 h3 hz
  obtain rfl : a1 = b1 := by omega
  simp only [Nat.sub_self, pow_zero, Nat.div_one] at h2 h3
  rw [h2, h3]

/-- Adding the contexts of the next phrase match. -/
theorem Tidy.next {env : Env} {opts : MatchOpts} {stack done : List Subquery}
    (hst : MultiOk env stack) (hsort : stack.Pairwise fun a b => a.stackKey ≤ b.stackKey)
    (hidx : (stack.map (·.idx)).Nodup) {m m' : HMap Zxy (List Context)}
    (hm : AllCtx (PreCtx env opts stack done) m) (ht : Tidy m) {q : Subquery}
    (hq : q ∈ stack) (hds : done ⊆ stack) (hqd : q ∉ done)
    (hold : ∀ z c, OnTile m z c → OnTile m' z c)
    (hnew : ∀ z cs, HMap.find z m' = some cs → ∃ new, cs = (HMap.find z m).getD [] ++ new ∧
      ∀ c ∈ new, ∃ g, Answers env opts q g ∧ z = tileOf q g ∧ Builds env stack m q g c) :
    Tidy m' := by
  have hon : ∀ z d, OnTile m z d → PreCtx env opts stack done z d := fun z d ⟨cs, hf, hd⟩ =>
    hm.find hf d hd
  have hsome : ∀ z c, c ∈ (HMap.find z m).getD [] → HMap.find z m = some ((HMap.find z m).getD []) := by
    intro z c hc
    cases hf : HMap.find z m with
    | none => rw [hf] at hc; cases hc
    | some cs => rfl
  have hfirst : ∀ g c, Answers env opts q g → Builds env stack m q g c → c.first.mask = q.mask := by
    intro g c hg hb
    rw [(hb.preCtx hst hm hq hg).2]
    rfl
  constructor
  · intro z cs hf l c r hl e he
    obtain ⟨new, rfl, hn⟩ := hnew z cs hf
    rcases List.append_eq_append_iff.1 hl with ⟨l', rfl, hl'⟩ | ⟨l', hl1, hl'⟩
    · -- a new context
      obtain ⟨g, hg, rfl, hb⟩ := hn c (by rw [hl']; simp)
      obtain ⟨z', d, hct, hd, hde⟩ :=
        (hb.best hst hsort hidx hm ht hq hds hqd hg).1 e he
      by_cases hz : z'.1 < (tileOf q g).1
      · exact Or.inr ⟨z', d, hz, hct, hold z' d hd, by rw [hde]⟩
      · left
        have := TileContains.eq_of_zoom hct (not_lt.1 hz)
        subst this
        obtain ⟨cs, hcs, hdc⟩ := hd
        rw [hcs, Option.getD_some, List.map_append]
        refine List.mem_append_left _ ?_
        rw [← hde]
        exact List.mem_map_of_mem (f := fun c : Context => c.first.mask) hdc
    · cases l' with
      | nil =>
        rw [List.nil_append] at hl'
        rw [List.append_nil] at hl1
        obtain ⟨g, hg, rfl, hb⟩ := hn c (by rw [← hl']; simp)
        obtain ⟨z', d, hct, hd, hde⟩ :=
          (hb.best hst hsort hidx hm ht hq hds hqd hg).1 e he
        by_cases hz : z'.1 < (tileOf q g).1
        · exact Or.inr ⟨z', d, hz, hct, hold z' d hd, by rw [hde]⟩
        · left
          have := TileContains.eq_of_zoom hct (not_lt.1 hz)
          subst this
          obtain ⟨cs, hcs, hdc⟩ := hd
          rw [hcs, Option.getD_some] at hl1
          rw [← hl1, ← hde]
          exact List.mem_map_of_mem (f := fun c : Context => c.first.mask) hdc
      | cons c' t =>
        rw [List.cons_append, List.cons.injEq] at hl'
        obtain ⟨rfl, -⟩ := hl'
        have hs := hsome z c (by rw [hl1]; simp)
        rcases ht.tails z _ hs l c t hl1 e he with h | ⟨z', d, h1, h2, h3, h4⟩
        · exact Or.inl h
        · exact Or.inr ⟨z', d, h1, h2, hold z' d h3, h4⟩
  · intro z cs hf l c r hl hmem
    obtain ⟨new, rfl, hn⟩ := hnew z cs hf
    have hother : ∀ d ∈ (HMap.find z m).getD [], d.first.mask ≠ q.mask := by
      intro d hd he
      obtain ⟨q', hq', -, hmk⟩ := (hon z d ⟨_, hsome z d hd, hd⟩).owner hst.ok hds
      have : q = q' := mask_inj hst.ok hq (hds hq') (he.symm.trans hmk)
      rw [this] at hqd
      exact hqd hq'
    rcases List.append_eq_append_iff.1 hl with ⟨l', rfl, hl'⟩ | ⟨l', hl1, hl'⟩
    · obtain ⟨g, hg, -, hb⟩ := hn c (by rw [hl']; simp)
      have hcm := hfirst g c hg hb
      rcases List.eq_nil_or_concat l' with rfl | ⟨l'', d, rfl⟩
      · exfalso
        rw [List.append_nil] at hmem
        obtain ⟨d, hd, hdm⟩ := List.mem_map.1 hmem
        exact hother d hd (hdm.trans hcm)
      · obtain ⟨g', hg', -, hb'⟩ := hn d (by rw [hl']; simp)
        exact ⟨(HMap.find z m).getD [] ++ l'', d, by simp, (hfirst g' d hg' hb').trans hcm.symm⟩
    · cases l' with
      | nil =>
        exfalso
        rw [List.nil_append] at hl'
        rw [List.append_nil] at hl1
        obtain ⟨g, hg, -, hb⟩ := hn c (by rw [← hl']; simp)
        obtain ⟨d, hd, hdm⟩ := List.mem_map.1 hmem
        exact hother d (by rw [hl1]; exact hd) (hdm.trans (hfirst g c hg hb))
      | cons c' t =>
        rw [List.cons_append, List.cons.injEq] at hl'
        obtain ⟨rfl, -⟩ := hl'
        exact ht.grouped z _ (hsome z c (by rw [hl1]; simp)) l c t hl1 hmem

theorem tidy_nil : Tidy [] := by
  constructor <;> (intro z cs h; cases h)

end Carmen
