import Verif.Lemmas.EndToEnd
import Verif.Lemmas.Crowded
import Mathlib.Data.List.Permutation

/-!
# C56: stacking and coalescing from one end to the other
-/

namespace Carmen
open Spec

/-! ## Without collapsing -/

/-- Everything that comes out is a context over a stack of phrase matches. -/
theorem C56_tree_sound {env : TreeEnv} {sm : ℕ} {pms : List Subquery} {t : StackTree}
    {opts : MatchOpts} {out : List Context} (h : stackableWith sm pms = some t)
    (hnd : pms.Nodup) (hfew : FewStacks sm pms) (hids : IdsUnique pms)
    (hz : env.chk = true ∨ ZoomsAscend pms) (hout : treeCoalesce env t opts = some out) :
    ∀ c ∈ out, ∃ hs, ContextOf env.toEnv opts pms hs c := by
  intro c hc
  obtain ⟨ls, hls⟩ := C41_genuine h hids hz hout c hc
  have hpm : ∀ l ∈ ls, l.node.pm = some l.q := by
    intro l hl
    by_cases ha : Alone ls
    · exact (hls.answers l hl 80 (fun _ => rfl) (fun hn => absurd ha hn)).1
    · exact (hls.answers l hl 100000 (fun hn => absurd hn ha) (fun _ => rfl)).1
  exact ⟨_, (stackedFrom_iff h hnd (whole_of_lim h (few_below_limit h hnd hfew).1 _) hls.path hpm).1 hls⟩

/-- The same with any number of stacks: one that stands for a single phrase match may have been made as
if nothing could go below. -/
theorem tree_sound_any {env : TreeEnv} {sm : ℕ} {pms : List Subquery} {t : StackTree}
    {opts : MatchOpts} {out : List Context} (h : stackableWith sm pms = some t)
    (hnd : pms.Nodup) (hids : IdsUnique pms)
    (hz : env.chk = true ∨ ZoomsAscend pms) (hout : treeCoalesce env t opts = some out) :
    ∀ c ∈ out, (∃ hs, ContextOf env.toEnv opts pms hs c) ∨
      ∃ hit : Hit, hit.q ∈ pms ∧ ContextOf env.toEnv opts [hit.q] [hit] c ∧
        Extendable pms [hit.q] ∧ ¬ Whole pms t [hit.q] := by
  intro c hc
  obtain ⟨ls, hls⟩ := C41_genuine h hids hz hout c hc
  have hpm : ∀ l ∈ ls, l.node.pm = some l.q := by
    intro l hl
    by_cases ha : Alone ls
    · exact (hls.answers l hl 80 (fun _ => rfl) (fun hn => absurd ha hn)).1
    · exact (hls.answers l hl 100000 (fun hn => absurd hn ha) (fun _ => rfl)).1
  have hstack := levels_isStack h hls.path hpm
  by_cases hodd : ∃ l, ls = [l] ∧ l.node.children = [] ∧ Extendable pms [l.q]
  · obtain ⟨l, rfl, hch, hext⟩ := hodd
    have hq : l.q ∈ pms := hstack.mem l.q (by simp [Level.hit])
    refine Or.inr ⟨l.hit, hq, ?_, hext, fun hwh => ?_⟩
    · refine (stackedFrom_iff' (pms := [l.q]) ?_ ?_ hls.path hpm).1 hls
      · intro l' hl'
        obtain rfl := List.singleton_injective hl'
        constructor
        · exact fun hne => absurd hch hne
        · rintro ⟨x, hx⟩
          have hx' := hx.mem x (by simp)
          rw [List.mem_singleton] at hx'
          subst hx'
          have := hx.types
          simp at this
      · exact isStack_move (pms := pms) (qs := [l.q]) (by simp [Level.hit]) (by simp [Level.hit]) hstack
    · exact (children_iff h hnd hwh hls.path (hpm l (by simp))).2 hext hch
  · refine Or.inl ⟨_, (stackedFrom_iff' ?_ hstack hls.path hpm).1 hls⟩
    rintro l rfl
    constructor
    · intro hne
      obtain ⟨c, rest, hc⟩ := List.exists_cons_of_ne_nil hne
      exact child_extends h hls.path (qs := [l.q]) (by simp [hpm l (by simp)]) (c := c) (by
        show c ∈ l.node.children
        rw [hc]
        exact List.mem_cons_self)
    · exact fun hext hnil => hodd ⟨l, rfl, hnil, hext⟩

/-- The last scan of the hits is given up. -/
def HitsDropped (env : Env) (opts : MatchOpts) (pms : List Subquery) (hs : List Hit)
    (out : List Context) : Prop :=
  ∃ above last, hs = above ++ [last] ∧ SlowScan (last.q, last.kg) ∧
    ¬ Extendable pms (hs.map Hit.q) ∧ (WeightsPositive pms →
      ∃ b ∈ out, ∀ c, ContextOf env opts pms hs c → c.relev ≤ lit 0.75 * b.relev)

theorem Spec.RoomForStacks.toTry {pms : List Subquery} (h : RoomForStacks pms) :
    RoomToTryStacks pms := fun l h1 h2 => (h l h1 h2).toTry

theorem Spec.RoomForGroups.toTry {pms : List Subquery} (h : RoomForGroups pms) :
    RoomToTryGroups pms := fun l h1 h2 => (h l h1 h2).toTry

/-- Where no scan is slow, nothing is given up. -/
theorem not_hitsDropped {env : Env} {opts : MatchOpts} {pms : List Subquery} {hs : List Hit}
    {out : List Context} (hroom : RoomFor (lastScans [hs.map Hit.q]))
    (hk : ∀ h ∈ hs, h.kg ∈ h.q.matchKeys) : ¬ HitsDropped env opts pms hs out := by
  rintro ⟨above, last, rfl, ⟨h1, h2, h3⟩, _⟩
  have hmem : (last.q, last.kg) ∈ lastScans [(above ++ [last]).map Hit.q] := by
    unfold lastScans
    simpa using hk last (by simp)
  have := hroom.worth _ hmem h1 h2
  simp only at this h3
  omega

theorem Spec.RoomToTryStacks.for {pms : List Subquery} (h : RoomToTryStacks pms)
    (s : Subquery × KeyWithId) : RoomInStacks pms s := fun l h1 h2 => RoomToTry.for (h l h1 h2) s

theorem Spec.RoomToTryGroups.for {pms : List Subquery} (h : RoomToTryGroups pms)
    (s : Subquery × KeyWithId) : RoomInGroups pms s := fun l h1 h2 => RoomToTry.for (h l h1 h2) s

/-- What counts against no quota needs no room. -/
theorem Spec.Unlimited.room {s : Subquery × KeyWithId} (h : Unlimited s) (pms : List Subquery) :
    RoomInGroups pms s := fun _ _ _ =>
  ⟨fun w o _ => absurd ⟨w, o⟩ h.1, fun w o => absurd ⟨w, o⟩ h.1, fun w o _ => absurd ⟨w, o⟩ h.1,
    fun _ g => absurd g h.2, fun g => absurd g h.2⟩

/-- For every phrase match below the first, some hits above it, to scans that are `P`, end in a tile
that a bounding box of its index meets. -/
def HitsOpen (P : Subquery × KeyWithId → Prop) (env : Env) (opts : MatchOpts)
    (qs : List Subquery) : Prop :=
  ∀ above q below, qs = above ++ q :: below → above ≠ [] →
    ∃ tops last, (tops ++ [last]).map Hit.q = above ∧
      (∀ h ∈ tops ++ [last], h.FirstAnswer env opts ∧ P (h.q, h.kg)) ∧
      ((tops ++ [last]).IsChain fun a b => TileContains a.tile b.tile) ∧
      Meets q.store last.q.store.zoom last.grid.entry.x last.grid.entry.y

/-- Hits that stack up where the way is open. -/
structure HitsClimb (P : Subquery × KeyWithId → Prop) (env : Env) (opts : MatchOpts)
    (pms : List Subquery) (hs : List Hit) : Prop where
  ne : hs ≠ []
  notLone : ¬ Lone pms hs
  stack : IsStack pms (hs.map Hit.q)
  answers : ∀ h ∈ hs, h.FirstAnswer env opts
  tiles : hs.IsChain fun a b => TileContains a.tile b.tile
  opened : HitsOpen P env opts (hs.map Hit.q)

/-- Where bounding boxes contain the tiles, the way is open. -/
theorem Spec.HitsStackUp.climb {P : Subquery × KeyWithId → Prop} {env : Env} {opts : MatchOpts}
    {pms : List Subquery} {hs : List Hit} (h : HitsStackUp env opts pms hs)
    (hP : ∀ h ∈ hs, P (h.q, h.kg)) : HitsClimb P env opts pms hs := by
  refine ⟨h.ne, h.notLone, h.stack, h.answers, h.tiles, ?_⟩
  intro above q below he hne
  obtain ⟨pre, rest, rfl, rfl, hrest⟩ := List.map_eq_append_iff.1 he
  obtain ⟨l', post, rfl, rfl, rfl⟩ := List.map_eq_cons_iff.1 hrest
  rcases List.eq_nil_or_concat pre with rfl | ⟨up, l, rfl⟩
  · exact absurd rfl hne
  rw [List.concat_eq_append] at *
  refine ⟨up, l, rfl, fun a ha => ⟨h.answers a (List.mem_append_left _ ha),
    hP a (List.mem_append_left _ ha)⟩, (List.isChain_append.1 h.tiles).1, ?_⟩
  have ht := h.tiles
  rw [List.append_assoc, List.singleton_append] at ht
  have ht := (List.isChain_append.1 ht).2.1
  rw [List.isChain_cons_cons] at ht
  obtain ⟨_, hx, hy⟩ := ht.1
  have hx : l.grid.entry.x = l'.grid.entry.x / 2 ^ (l'.q.store.zoom - l.q.store.zoom) := hx
  have hy : l.grid.entry.y = l'.grid.entry.y / 2 ^ (l'.q.store.zoom - l.q.store.zoom) := hy
  obtain ⟨b, hb, h1, h2, h3, h4⟩ := h.boxes l' (by simp)
  refine ⟨b, hb, ?_⟩
  rw [hx, hy]
  exact ⟨Nat.div_le_div_right h1, Nat.div_le_div_right h2, Nat.div_le_div_right h3,
    Nat.div_le_div_right h4⟩

/-- Other hits on the phrase matches of some levels. -/
theorem levels_for {pre : List Level} {hs : List Hit} (h : hs.map Hit.q = pre.map Level.q)
    (hpm : ∀ l ∈ pre, l.node.pm = some l.q) :
    ∃ tw : List Level, tw.map Level.node = pre.map Level.node ∧ tw.map Level.hit = hs ∧
      ∀ l ∈ tw, l.node.pm = some l.q := by
  induction pre generalizing hs with
  | nil =>
    rw [List.map_nil, List.map_eq_nil_iff] at h
    exact ⟨[], rfl, h.symm, by simp⟩
  | cons l pre ih =>
    obtain ⟨x, xs, rfl, hx, hxs⟩ := List.map_eq_cons_iff.1 h
    obtain ⟨tw, h1, h2, h3⟩ := ih hxs fun k hk => hpm k (List.mem_cons_of_mem _ hk)
    refine ⟨⟨l.node, x.q, x.kg, x.grid⟩ :: tw, ?_, ?_, ?_⟩
    · rw [List.map_cons, h1, List.map_cons]
    · rw [List.map_cons, h2]
      rfl
    · intro k hk
      rcases List.mem_cons.1 hk with rfl | hk
      · show l.node.pm = some x.q
        rw [hx]
        exact hpm l (by simp)
      · exact h3 k hk

/-- What becomes of hits that stack up where the way is open when the quotas are enough for their
scans, if nothing about their stack is missing from the tree. -/
theorem hits_full_open {env : TreeEnv} {sm : ℕ} {pms : List Subquery} {t : StackTree}
    {opts : MatchOpts} {out : List Context} (h : stackableWith sm pms = some t)
    (hnd : pms.Nodup) (hscans : ∃ l : List (List Subquery), l.Nodup ∧
      (∀ qs ∈ l, qs ≠ [] ∧ IsStack pms qs) ∧ scansOf t = lastScans l) (hids : IdsUnique pms)
    (hz : env.chk = true ∨ ZoomsAscend pms)
    (hout : treeCoalesce env t opts = some out) :
    ∃ tops : List (List Subquery), tops.length ≤ 7 ∧
    ∀ hs, HitsClimb (RoomInStacks pms) env.toEnv opts pms hs → Whole pms t (hs.map Hit.q) →
    (∀ h ∈ hs, RoomInStacks pms (h.q, h.kg)) →
    (((∃ c ∈ out, ContextOf env.toEnv opts pms hs c) ∨
      ∃ better : List Context, better.Subperm out ∧ better.length = 40 ∧ ∀ r ∈ better,
        (∃ hs', ContextOf env.toEnv opts pms hs' r ∧ SameLastScan hs' hs) ∧
        ∀ c, ContextOf env.toEnv opts pms hs c → RanksBefore r c) ∨
    HitsDropped env.toEnv opts pms hs out) ∨
    (out.length = 800 ∧ ((WeightsOk pms → ∀ c, ContextOf env.toEnv opts pms hs c →
      ∀ r ∈ out, c.relev ≤ r.relev) ∨ Continues tops (hs.map Hit.q))) := by
  obtain ⟨l, hl1, hl2, hl3⟩ := hscans
  obtain ⟨few, hf7, hall⟩ := tree_full_open h hids hz hout
  obtain ⟨tops, htl, htops⟩ := continues_of_goesBelow (C32_tree_shape h) few
  refine ⟨tops, by omega, fun hs hup hwh hroom => ?_⟩
  obtain ⟨ls, rfl, hp, hpm⟩ := levels_of_hits h hnd hup.stack hwh.1
  have hwhole : Whole pms t (ls.map (·.q)) := by
    rw [List.map_map] at hwh
    exact hwh
  have hiff := fun c => stackedFrom_iff (env := env.toEnv) (opts := opts) (c := c) h hnd hwhole hp hpm
  have hsu : Climbs env.toEnv t opts ls := by
    refine ⟨by simpa using hup.ne, ?_, hp, ?_, ?_, ?_⟩
    · rw [alone_iff (pms := pms) (by
        rintro l rfl
        exact children_iff h hnd hwhole hp (hpm l (by simp)))]
      exact hup.notLone
    · intro l hl
      exact ⟨hpm l hl, hup.answers l.hit (List.mem_map_of_mem hl)⟩
    · have := hup.tiles
      rw [List.isChain_map] at this
      exact this
    · intro above n below he hne q hq
      obtain ⟨pre, rest, rfl, rfl, hrest⟩ := List.map_eq_append_iff.1 he
      obtain ⟨l', post, rfl, rfl, rfl⟩ := List.map_eq_cons_iff.1 hrest
      have hq' : q = l'.q := by
        have := hpm l' (by simp)
        rw [hq] at this
        exact Option.some.inj this
      subst hq'
      obtain ⟨tops, last, e1, e2, e3, e4⟩ := hup.opened (pre.map Level.q) l'.q (post.map Level.q)
        (by simp [Level.hit, Function.comp_def]) (by simpa using hne)
      obtain ⟨tw, f1, f2, f3⟩ := levels_for e1 fun k hk => hpm k (List.mem_append_left _ hk)
      obtain ⟨up, one, rfl, rfl, g3⟩ := List.map_eq_append_iff.1 f2
      obtain ⟨k, rfl, rfl⟩ := map_eq_one g3
      rw [← List.map_singleton (f := Level.hit), ← List.map_append] at e2 e3
      refine ⟨up, k, ⟨f1, fun a ha => ⟨f3 a ha, (e2 a.hit (List.mem_map_of_mem ha)).1⟩,
        fun a ha => ?_, ?_⟩, fun _ => e4⟩
      · show RoomToTryFor (scansOf t) (a.q, a.kg)
        rw [hl3]
        exact (e2 a.hit (List.mem_map_of_mem ha)).2 l hl1 hl2
      · rw [List.isChain_map] at e3
        exact e3
  have hroom' : ∀ l ∈ ls, RoomToTryFor (scansOf t) (l.q, l.kg) := by
    intro k hk
    rw [hl3]
    exact hroom k.hit (List.mem_map_of_mem hk) l hl1 hl2
  rcases hall ls hsu hroom' with
    ((⟨c, hc, hs⟩ | ⟨better, h1, h2, h3⟩) | ⟨up, l, rfl, d1, d2, d3⟩) | ⟨hl, hd⟩
  · exact Or.inl (Or.inl (Or.inl ⟨c, hc, (hiff c).1 hs⟩))
  · refine Or.inl (Or.inl (Or.inr ⟨better, h1, h2, fun r hr => ?_⟩))
    obtain ⟨⟨ls', hs', hk⟩, hb⟩ := h3 r hr
    have hna : ¬ Alone ls' := by
      intro ha
      obtain ⟨l', rfl, hc⟩ := ha
      refine hsu.notAlone ?_
      obtain ⟨l0, rfl, hl0⟩ := map_eq_one (hk.1.symm : ls.map Level.node = [l'.node])
      exact ⟨l0, rfl, by rw [hl0]; exact hc⟩
    have hpm' : ∀ l ∈ ls', l.node.pm = some l.q := fun l hl =>
      (hs'.answers l hl 100000 (fun hn => absurd hn hna) (fun _ => rfl)).1
    have hsame : (ls'.map Level.hit).map Hit.q = (ls.map Level.hit).map Hit.q := by
      have e : ∀ m : List Level, (∀ l ∈ m, l.node.pm = some l.q) →
          ((m.map Level.hit).map Hit.q).map some = (m.map Level.node).map StackNode.pm := by
        intro m hm
        rw [List.map_map, List.map_map, List.map_map]
        exact List.map_congr_left fun l hl => (hm l hl).symm
      have := (e ls' hpm').trans ((congrArg _ hk.1).trans (e ls hpm).symm)
      exact List.map_injective_iff.2 (Option.some_injective _) this
    have hwhole' : Whole pms t (ls'.map (·.q)) := by
      rw [← hsame, List.map_map] at hwh
      exact hwh
    refine ⟨⟨ls'.map Level.hit, (stackedFrom_iff h hnd hwhole' hs'.path hpm').1 hs', ?_, ?_⟩,
      fun c hc => hb c ((hiff c).2 hc)⟩
    · exact hsame
    · have := hk.2
      rw [List.getLast?_map, List.getLast?_map, Option.map_map, Option.map_map]
      exact this
  · refine Or.inl (Or.inr ⟨up.map Level.hit, l.hit, by simp, d1, ?_, fun hw => ?_⟩)
    · refine not_extendable_of_leaf h hnd (p := up.map Level.node) (m := l.node) hwh.2 ?_ ?_ d2
      · simpa using hp
      · rw [← List.map_singleton (f := Level.node), ← List.map_append, List.map_map, List.map_map,
          List.map_map]
        exact List.map_congr_left fun k hk => hpm k hk
    · obtain ⟨b, hb, hbd⟩ := d3 hw
      exact ⟨b, hb, fun c hc => hbd c ((hiff c).2 hc)⟩
  · refine Or.inr ⟨hl, hd.imp (fun hd hw c hc => hd hw c ((hiff c).2 hc)) fun hd => ?_⟩
    have := htops ls hp hpm hd
    rw [List.map_map]
    exact this

/-- What becomes of hits that stack up when the quotas are enough for their scans, if nothing about
their stack is missing from the tree. -/
theorem hits_full {env : TreeEnv} {sm : ℕ} {pms : List Subquery} {t : StackTree}
    {opts : MatchOpts} {out : List Context} (h : stackableWith sm pms = some t)
    (hnd : pms.Nodup) (hscans : ∃ l : List (List Subquery), l.Nodup ∧
      (∀ qs ∈ l, qs ≠ [] ∧ IsStack pms qs) ∧ scansOf t = lastScans l) (hids : IdsUnique pms)
    (hz : env.chk = true ∨ ZoomsAscend pms)
    (hout : treeCoalesce env t opts = some out) :
    ∃ tops : List (List Subquery), tops.length ≤ 7 ∧
    ∀ hs, HitsStackUp env.toEnv opts pms hs → Whole pms t (hs.map Hit.q) →
    (∀ h ∈ hs, RoomInStacks pms (h.q, h.kg)) →
    (((∃ c ∈ out, ContextOf env.toEnv opts pms hs c) ∨
      ∃ better : List Context, better.Subperm out ∧ better.length = 40 ∧ ∀ r ∈ better,
        (∃ hs', ContextOf env.toEnv opts pms hs' r ∧ SameLastScan hs' hs) ∧
        ∀ c, ContextOf env.toEnv opts pms hs c → RanksBefore r c) ∨
    HitsDropped env.toEnv opts pms hs out) ∨
    (out.length = 800 ∧ ((WeightsOk pms → ∀ c, ContextOf env.toEnv opts pms hs c →
      ∀ r ∈ out, c.relev ≤ r.relev) ∨ Continues tops (hs.map Hit.q))) := by
  obtain ⟨tops, ht, hall⟩ := hits_full_open h hnd hscans hids hz hout
  exact ⟨tops, ht, fun hs hup hwh hroom => hall hs (hup.climb hroom) hwh hroom⟩

/-- What becomes of them when the list of results is not full. -/
theorem hits_complete {env : TreeEnv} {sm : ℕ} {pms : List Subquery} {t : StackTree}
    {opts : MatchOpts} {out : List Context} (h : stackableWith sm pms = some t)
    (hnd : pms.Nodup) (hfew : FewStacks sm pms) (hids : IdsUnique pms)
    (hz : env.chk = true ∨ ZoomsAscend pms) (hroom : RoomToTryStacks pms)
    (hout : treeCoalesce env t opts = some out) (hlen : out.length < 800) {hs : List Hit}
    (hup : HitsStackUp env.toEnv opts pms hs) :
    ((∃ c ∈ out, ContextOf env.toEnv opts pms hs c) ∨
      ∃ better : List Context, better.Subperm out ∧ better.length = 40 ∧ ∀ r ∈ better,
        (∃ hs', ContextOf env.toEnv opts pms hs' r ∧ SameLastScan hs' hs) ∧
        ∀ c, ContextOf env.toEnv opts pms hs c → RanksBefore r c) ∨
    HitsDropped env.toEnv opts pms hs out := by
  obtain ⟨hlim, hscans⟩ := few_below_limit h hnd hfew
  obtain ⟨tops, _, hall⟩ := hits_full h hnd hscans hids hz hout
  exact (hall hs hup (whole_of_lim h hlim _) fun _ _ => hroom.for _).resolve_right
    fun hfull => by omega

/-- Nothing that stacks up is missed. -/
theorem C56_tree_complete {env : TreeEnv} {sm : ℕ} {pms : List Subquery} {t : StackTree}
    {opts : MatchOpts} {out : List Context} (h : stackableWith sm pms = some t)
    (hnd : pms.Nodup) (hfew : FewStacks sm pms) (hids : IdsUnique pms)
    (hz : env.chk = true ∨ ZoomsAscend pms) (hroom : RoomForStacks pms)
    (hout : treeCoalesce env t opts = some out) (hlen : out.length < 800) {hs : List Hit}
    (hup : HitsStackUp env.toEnv opts pms hs) :
    (∃ c ∈ out, ContextOf env.toEnv opts pms hs c) ∨
      ∃ better : List Context, better.Subperm out ∧ better.length = 40 ∧ ∀ r ∈ better,
        (∃ hs', ContextOf env.toEnv opts pms hs' r ∧ SameLastScan hs' hs) ∧
        ∀ c, ContextOf env.toEnv opts pms hs c → RanksBefore r c := by
  refine (hits_complete h hnd hfew hids hz hroom.toTry hout hlen hup).resolve_right
    (not_hitsDropped (hroom [hs.map Hit.q] (by simp) ?_) fun h hh => (hup.answers h hh).1)
  intro qs hqs
  rw [List.mem_singleton.1 hqs]
  exact ⟨by simpa using hup.ne, hup.stack⟩

/-- Every stack is a rearranged part of the phrase matches. -/
theorem stack_candidates {pms qs : List Subquery} (h : IsStack pms qs) :
    qs ∈ pms.sublists'.flatMap List.permutations' := by
  have hnd : qs.Nodup := h.types.imp fun h e => by
    rw [e] at h
    exact lt_irrefl _ h
  obtain ⟨l, h1, h2⟩ := hnd.subperm h.mem
  exact List.mem_flatMap.2 ⟨l, List.mem_sublists'.2 h2, List.mem_permutations'.2 h1.symm⟩

theorem length_le_of_candidates {α β : Type} {f : α → β} {l cands : List α}
    (hl : (l.map f).Nodup) (h : ∀ a ∈ l, a ∈ cands) : l.length ≤ cands.length := by
  have := (hl.subperm (l₂ := cands.map f) fun b hb => by
    obtain ⟨a, ha, rfl⟩ := List.mem_map.1 hb
    exact List.mem_map_of_mem (h a ha)).length_le
  rwa [List.length_map, List.length_map] at this

/-! ## From the phrase matches to the contexts -/

/-- C56: everything `stack_and_coalesce` returns is a context over a stack of the phrase matches it
was given. -/
theorem C56_sound {env : TreeEnv} {qs : List Subquery} {opts : MatchOpts} {out : List Context}
    (hd : Delivered qs) (hfew : FewGroupStacks 2000 qs) (hz : env.chk = true ∨ ZoomsAscend qs)
    (hout : stackAndCoalesce env qs opts = some out) :
    ∀ c ∈ out, ∃ hs, ContextOf env.toEnv opts qs hs c := by
  unfold stackAndCoalesce at hout
  obtain ⟨collapsed, h1, hout⟩ := Option.bind_eq_some_iff.1 hout
  obtain ⟨t, h2, hout⟩ := Option.bind_eq_some_iff.1 hout
  obtain ⟨rep, orig, grp, hr⟩ := collapse_regroups hd h1
  intro c hc
  obtain ⟨hs, hcx⟩ := C56_tree_sound h2 hr.nodup (hr.fewStacks hfew) (hr.idsUnique hd)
    (hz.imp_right hr.zooms) hout c hc
  obtain ⟨hb, hk⟩ := hr.orig_bare hcx.keys
  exact ⟨_, contextOf_move hr.covers hr.covers' hb (fun h hh => (hcx.keys h hh).1)
    (fun h hh => (hk h hh).1) (fun h hh => (hk h hh).2) hcx⟩

/-- C79: with any number of stacks, everything `stack_and_coalesce` returns is a context over a stack of
the phrase matches it was given; or a single phrase match that is taken as if nothing could go below,
though something could, and then 2000 stacks are at least about as good as it. -/
theorem C79_sound {env : TreeEnv} {qs : List Subquery} {opts : MatchOpts} {out : List Context}
    (hd : Delivered qs) (hf : FewTypes qs) (hz : env.chk = true ∨ ZoomsAscend qs)
    (hw : WeightsOk qs) (hout : stackAndCoalesce env qs opts = some out) :
    ∀ c ∈ out, (∃ hs, ContextOf env.toEnv opts qs hs c) ∨
      ∃ hit : Hit, hit.q ∈ qs ∧ ContextOf env.toEnv opts [hit.q] [hit] c ∧
        Extendable qs [hit.q] ∧ Crowded 2000 qs [hit.q] := by
  unfold stackAndCoalesce at hout
  obtain ⟨collapsed, h1, hout⟩ := Option.bind_eq_some_iff.1 hout
  obtain ⟨t, h2, hout⟩ := Option.bind_eq_some_iff.1 hout
  obtain ⟨rep, orig, grp, hr⟩ := collapse_regroups hd h1
  intro c hc
  rcases tree_sound_any h2 hr.nodup (hr.idsUnique hd) (hz.imp_right hr.zooms) hout c hc with
    ⟨hs, hcx⟩ | ⟨hit, hm, hcx, hext, hwh⟩
  · obtain ⟨hb, hk⟩ := hr.orig_bare hcx.keys
    exact Or.inl ⟨_, contextOf_move hr.covers hr.covers' hb (fun h hh => (hcx.keys h hh).1)
      (fun h hh => (hk h hh).1) (fun h hh => (hk h hh).2) hcx⟩
  · have hkey := (hcx.keys hit (by simp)).2
    obtain ⟨o1, o2, o3⟩ := hr.orig_mem hit.q hm hit.kg hkey
    have hkey' : hit.kg ∈ (orig hit.q hit.kg).matchKeys := o3 ▸ List.mem_singleton_self _
    have e : ({ hit with q := orig hit.q hit.kg } : Hit).bare = hit.bare := by
      show ({ hit with q := bare (orig hit.q hit.kg) } : Hit) = { hit with q := bare hit.q }
      rw [o2]
    have hc1 : ∀ a b : Subquery, bare a = bare b → Covers [a] [b] := by
      intro a b hab x hx
      rw [List.mem_singleton.1 hx]
      exact ⟨b, by simp, hab.symm⟩
    refine Or.inr ⟨{ hit with q := orig hit.q hit.kg }, o1, ?_, ?_, ?_⟩
    · exact contextOf_move (hc1 _ _ o2.symm) (hc1 _ _ o2) (by simpa using e) (by simp) (by simp)
        (by simpa using hkey') hcx
    · exact (extendable_one hr.covers hr.covers' (h := hit)
        (h' := { hit with q := orig hit.q hit.kg }) e hm o1).1 hext
    · exact hr.crowded h2 hw hf (xs := [hit.q]) (by simp [o2]) hwh

/-- The way is open, up to phrase matches of the same weights, indexes and masks. -/
def GroupsOpen (P : Subquery × KeyWithId → Prop) (env : Env) (opts : MatchOpts)
    (pms qs : List Subquery) : Prop :=
  ∀ above q below, qs = above ++ q :: below → above ≠ [] →
    ∃ tops last, HitsOver env opts pms above (tops ++ [last]) ∧
      (∀ h ∈ tops ++ [last], P (h.q, h.kg)) ∧
      Meets q.store last.q.store.zoom last.grid.entry.x last.grid.entry.y

/-- Hits that stack up where the way is open, up to phrase matches of the same weights, indexes and
masks. -/
structure GroupsClimb (P : Subquery × KeyWithId → Prop) (env : Env) (opts : MatchOpts)
    (pms : List Subquery) (hs : List Hit) : Prop where
  ne : hs ≠ []
  notLone : ¬ Lone pms hs
  stack : IsStack pms (hs.map Hit.q)
  answers : ∀ h ∈ hs, h.FirstAnswer env opts
  tiles : hs.IsChain fun a b => TileContains a.tile b.tile
  opened : GroupsOpen P env opts pms (hs.map Hit.q)

theorem HitsClimb.groups {P : Subquery × KeyWithId → Prop} {env : Env} {opts : MatchOpts}
    {pms : List Subquery} {hs : List Hit} (h : HitsClimb P env opts pms hs) :
    GroupsClimb P env opts pms hs := by
  refine ⟨h.ne, h.notLone, h.stack, h.answers, h.tiles, fun above q below he hne => ?_⟩
  obtain ⟨tops, last, e1, e2, e3, e4⟩ := h.opened above q below he hne
  refine ⟨tops, last, ⟨by rw [e1], fun x hx => ?_, fun x hx => (e2 x hx).1, e3⟩,
    fun x hx => (e2 x hx).2, e4⟩
  refine h.stack.mem x.q ?_
  rw [he, ← e1]
  exact List.mem_append_left _ (List.mem_map_of_mem hx)

/-- A hit on a phrase match is one on its group. -/
theorem firstAnswer_group {env : Env} {opts : MatchOpts} {qs collapsed : List Subquery}
    {rep : Subquery → Subquery} {orig : Subquery → KeyWithId → Subquery} {grp : Subquery → Subquery}
    (hr : Regroups qs collapsed rep orig grp) {h : Hit} (hq : h.q ∈ qs)
    (ha : h.FirstAnswer env opts) : Hit.FirstAnswer env opts { h with q := grp h.q } := by
  obtain ⟨_, g2, g3⟩ := hr.grp_mem _ hq
  obtain ⟨hk, o, before, after, e1, e2, e3⟩ := ha
  have hs : (grp h.q).store = h.q.store := store_of_bare g2
  refine ⟨g3 _ hk, o, before, after, ?_, ?_, e3⟩
  · unfold lookupOpts at e1 ⊢
    rw [hs]
    exact e1
  · rw [hs]
    exact e2

/-- Hits on the same groups. -/
theorem grp_of_keys {qs collapsed : List Subquery}
    {rep : Subquery → Subquery} {orig : Subquery → KeyWithId → Subquery} {grp : Subquery → Subquery}
    (hr : Regroups qs collapsed rep orig grp) {as bs : List Hit}
    (h : groupKeys (as.map Hit.q) = groupKeys (bs.map Hit.q)) (ha : ∀ h ∈ as, h.q ∈ qs)
    (hb : ∀ h ∈ bs, h.q ∈ qs) : as.map (fun h => grp h.q) = bs.map fun h => grp h.q := by
  induction as generalizing bs with
  | nil =>
    have : bs = [] := by
      have h := congrArg List.length h
      unfold groupKeys at h
      rw [List.length_map, List.length_map, List.length_map, List.length_map] at h
      exact List.length_eq_zero_iff.1 h.symm
    rw [this]
  | cons a as ih =>
    cases bs with
    | nil => cases h
    | cons b bs =>
      unfold groupKeys at h
      rw [List.map_cons, List.map_cons, List.map_cons, List.map_cons, List.cons.injEq] at h
      rw [List.map_cons, List.map_cons, ih h.2 (fun x hx => ha x (List.mem_cons_of_mem _ hx))
        (fun x hx => hb x (List.mem_cons_of_mem _ hx))]
      obtain ⟨a1, a2, _⟩ := hr.grp_mem _ (ha a (by simp))
      obtain ⟨b1, b2, _⟩ := hr.grp_mem _ (hb b (by simp))
      congr 1
      refine hr.inj _ a1 _ b1 ?_
      rw [groupKey_of_bare a2, groupKey_of_bare b2]
      exact h.1

/-- What becomes of hits that stack up where the way is open when the quotas are enough for
their scans. -/
theorem groups_tree_open {env : TreeEnv} {sm : ℕ} {qs collapsed : List Subquery} {t : StackTree}
    {opts : MatchOpts} {out : List Context} {rep : Subquery → Subquery}
    {orig : Subquery → KeyWithId → Subquery} {grp : Subquery → Subquery}
    (hd : Delivered qs) (hr : Regroups qs collapsed rep orig grp)
    (h2 : stackableWith sm collapsed = some t) (hscans : ∃ l : List (List Subquery), l.Nodup ∧
      (∀ qs ∈ l, qs ≠ [] ∧ IsStack collapsed qs) ∧ scansOf t = lastScans l)
    (hz : env.chk = true ∨ ZoomsAscend qs) (hout : treeCoalesce env t opts = some out) :
    ∃ tops : List (List Subquery), tops.length ≤ 7 ∧
    ∀ hs, GroupsClimb (RoomInGroups qs) env.toEnv opts qs hs → (∀ h ∈ hs, RoomInGroups qs (h.q, h.kg)) →
    Whole collapsed t (hs.map fun h => grp h.q) →
    (((∃ c ∈ out, ContextOf env.toEnv opts qs hs c) ∨
      ∃ better : List Context, better.Subperm out ∧ better.length = 40 ∧ ∀ r ∈ better,
        (∃ hs', ContextOf env.toEnv opts qs hs' r ∧ SameLastGroup hs' hs) ∧
        ∀ c, ContextOf env.toEnv opts qs hs c → RanksBefore r c) ∨
    HitsDropped env.toEnv opts qs hs out) ∨
    (out.length = 800 ∧ ((WeightsOk qs → ∀ c, ContextOf env.toEnv opts qs hs c →
      ∀ r ∈ out, c.relev ≤ r.relev) ∨ ContinuesGroup tops (hs.map Hit.q))) := by
  obtain ⟨tops, ht7, hall⟩ := hits_full_open h2 hr.nodup hscans (hr.idsUnique hd)
    (hz.imp_right hr.zooms) hout
  refine ⟨tops, ht7, fun hs hup hroom hwh => ?_⟩
  have hk : ∀ h ∈ hs, h.q ∈ qs ∧ h.kg ∈ h.q.matchKeys := fun h hh =>
    ⟨hup.stack.mem _ (List.mem_map_of_mem hh), (hup.answers h hh).1⟩
  let gs : List Hit := hs.map fun h => { h with q := grp h.q }
  have hb : gs.map Hit.bare = hs.map Hit.bare := by
    show (hs.map _).map _ = _
    rw [List.map_map]
    refine List.map_congr_left fun h hh => ?_
    show ({ h with q := bare (grp h.q) } : Hit) = { h with q := bare h.q }
    rw [(hr.grp_mem _ (hk h hh).1).2.1]
  have hgk : ∀ h ∈ gs, h.q ∈ collapsed ∧ h.kg ∈ h.q.matchKeys := by
    intro h hh
    obtain ⟨h0, hh0, rfl⟩ := List.mem_map.1 hh
    obtain ⟨g1, g2, g3⟩ := hr.grp_mem _ (hk h0 hh0).1
    exact ⟨g1, g3 _ (hk h0 hh0).2⟩
  have hgs : HitsClimb (RoomInStacks collapsed) env.toEnv opts collapsed gs := by
    have hl := lone_move hr.covers' hr.covers hb (fun h hh => (hk h hh).1)
      (fun h hh => (hgk h hh).1)
    refine ⟨?_, fun hn => hup.notLone (hl.2 hn), isStack_move (bare_qs hb) ?_ hup.stack, ?_, ?_, ?_⟩
    · rintro he
      exact hup.ne (List.map_eq_nil_iff.1 he)
    · intro q hq
      obtain ⟨h, hh, rfl⟩ := List.mem_map.1 hq
      exact (hgk h hh).1
    · intro h hh
      obtain ⟨h0, hh0, rfl⟩ := List.mem_map.1 hh
      exact firstAnswer_group hr (hk h0 hh0).1 (hup.answers h0 hh0)
    · have e : (hs.map Hit.bare).IsChain fun a b => TileContains a.tile b.tile := by
        rw [List.isChain_map]
        exact hup.tiles
      rw [← hb, List.isChain_map] at e
      exact e
    · intro above q below he hne
      have he : hs.map (fun h => grp h.q) = above ++ q :: below := by
        rw [← he]
        show _ = (hs.map _).map _
        rw [List.map_map]
        rfl
      obtain ⟨pre, rest, hsplit, rfl, hrest⟩ := List.map_eq_append_iff.1 he
      obtain ⟨l', post, rfl, rfl, rfl⟩ := List.map_eq_cons_iff.1 hrest
      obtain ⟨tops, last, h1, h2, h3⟩ := hup.opened (pre.map Hit.q) l'.q (post.map Hit.q)
        (by rw [hsplit]; simp) (by simpa using hne)
      have hm' : l' ∈ hs := by rw [hsplit]; simp
      refine ⟨tops.map fun h => { h with q := grp h.q }, { last with q := grp last.q }, ?_, ?_, ?_, ?_⟩
      · have e1 : ((tops.map fun h => ({ h with q := grp h.q } : Hit)) ++
            [({ last with q := grp last.q } : Hit)]).map Hit.q = (tops ++ [last]).map fun h => grp h.q := by
          simp [Function.comp_def]
        rw [e1]
        have hkeys := h1.keys
        have hmem := h1.mem
        clear e1
        have hpm : ∀ h ∈ pre, h.q ∈ qs := fun h hh => (hk h (by rw [hsplit]; simp [hh])).1
        exact grp_of_keys hr hkeys hmem hpm
      · intro h hh
        obtain ⟨h0, hh0, rfl⟩ : ∃ h0 ∈ tops ++ [last], ({ h0 with q := grp h0.q } : Hit) = h := by
          have : (tops.map fun h => ({ h with q := grp h.q } : Hit)) ++
              [({ last with q := grp last.q } : Hit)] =
              (tops ++ [last]).map fun h => ({ h with q := grp h.q } : Hit) := by simp
          rw [this] at hh
          exact List.mem_map.1 hh
        refine ⟨firstAnswer_group hr (h1.mem h0 hh0) (h1.answers h0 hh0), ?_⟩
        exact hr.room (x := (grp h0.q, h0.kg)) (y := (h0.q, h0.kg))
          (hr.grp_mem _ (h1.mem h0 hh0)).2.1 rfl (h2 h0 hh0)
      · have e1 : (((tops.map fun h => ({ h with q := grp h.q } : Hit)) ++
            [({ last with q := grp last.q } : Hit)])).map Hit.bare = (tops ++ [last]).map Hit.bare := by
          rw [← List.map_singleton (f := fun h : Hit => ({ h with q := grp h.q } : Hit)),
            ← List.map_append, List.map_map]
          refine List.map_congr_left fun h hh => ?_
          show ({ h with q := bare (grp h.q) } : Hit) = { h with q := bare h.q }
          rw [(hr.grp_mem _ (h1.mem h hh)).2.1]
        have e : ((tops ++ [last]).map Hit.bare).IsChain fun a b => TileContains a.tile b.tile := by
          rw [List.isChain_map]
          exact h1.tiles
        rw [← e1, List.isChain_map] at e
        exact e
      · have s1 : (grp l'.q).store = l'.q.store := store_of_bare (hr.grp_mem _ (hk l' hm').1).2.1
        have s2 : (grp last.q).store = last.q.store :=
          store_of_bare (hr.grp_mem _ (h1.mem last (by simp))).2.1
        show Meets (grp l'.q).store (grp last.q).store.zoom _ _
        rw [s1, s2]
        exact h3
  have back : ∀ c, ContextOf env.toEnv opts collapsed gs c ↔ ContextOf env.toEnv opts qs hs c :=
    fun c => ⟨contextOf_move hr.covers hr.covers' hb.symm (fun h hh => (hgk h hh).1)
      (fun h hh => (hk h hh).1) (fun h hh => (hk h hh).2),
      contextOf_move hr.covers' hr.covers hb (fun h hh => (hk h hh).1)
      (fun h hh => (hgk h hh).1) (fun h hh => (hgk h hh).2)⟩
  have hgroom : ∀ h ∈ gs, RoomInStacks collapsed (h.q, h.kg) := by
    intro h hh
    obtain ⟨h0, hh0, rfl⟩ := List.mem_map.1 hh
    exact hr.room (x := (grp h0.q, h0.kg)) (y := (h0.q, h0.kg)) (hr.grp_mem _ (hk h0 hh0).1).2.1 rfl
      (hroom h0 hh0)
  have hgwh : Whole collapsed t (gs.map Hit.q) := by
    show Whole collapsed t ((hs.map _).map _)
    rw [List.map_map]
    exact hwh
  rcases hall gs hgs hgwh hgroom with
    ((⟨c, hc, hcx⟩ | ⟨better, b1, b2, b3⟩) | ⟨above, last, d1, d2, d3, d4⟩) | ⟨hl, hd'⟩
  · exact Or.inl (Or.inl (Or.inl ⟨c, hc, (back c).1 hcx⟩))
  · refine Or.inl (Or.inl (Or.inr ⟨better, b1, b2, fun r hr' => ?_⟩))
    obtain ⟨⟨hs', hcx, hsame⟩, hbest⟩ := b3 r hr'
    obtain ⟨hb', hk'⟩ := hr.orig_bare hcx.keys
    refine ⟨⟨origHits orig hs', contextOf_move hr.covers hr.covers' hb'
      (fun h hh => (hcx.keys h hh).1) (fun h hh => (hk' h hh).1) (fun h hh => (hk' h hh).2) hcx,
      ?_, ?_⟩, fun c hc => hbest c ((back c).2 hc)⟩
    · have e : ∀ {a b : List Hit}, a.map Hit.bare = b.map Hit.bare →
          a.map (fun h => (h.q.weight, h.q.idx, h.q.mask)) =
            b.map (fun h => (h.q.weight, h.q.idx, h.q.mask)) := by
        intro a b hab
        have := congrArg (List.map fun h : Hit => (h.q.weight, h.q.idx, h.q.mask)) hab
        rw [List.map_map, List.map_map] at this
        exact this
      rw [e hb', ← e hb]
      have := congrArg (List.map fun q : Subquery => (q.weight, q.idx, q.mask)) hsame.1
      rw [List.map_map, List.map_map] at this
      exact this
    · have := hsame.2
      unfold origHits
      rw [List.getLast?_map, Option.map_map]
      refine Eq.trans this ?_
      show (List.map _ hs).getLast?.map _ = _
      rw [List.getLast?_map, Option.map_map]
      rfl
  · have hqb : (gs.map Hit.q).map bare = (hs.map Hit.q).map bare := by
      have := congrArg (List.map Hit.q) hb
      simpa [List.map_map, Function.comp_def, Hit.bare] using this
    rcases List.eq_nil_or_concat hs with rfl | ⟨above', last', he⟩
    · exact absurd rfl hup.ne
    rw [List.concat_eq_append] at he
    have hl : last = { last' with q := grp last'.q } := by
      have e : gs = (above'.map fun h => { h with q := grp h.q }) ++
          [{ last' with q := grp last'.q }] := by
        show hs.map _ = _
        rw [he, List.map_append]
        rfl
      rw [d1] at e
      exact (List.append_inj' e rfl).2 |> List.singleton_inj.1
    have hm : last' ∈ hs := by rw [he]; simp
    obtain ⟨-, hgb, -⟩ := hr.grp_mem _ (hk last' hm).1
    refine Or.inl (Or.inr ⟨above', last', he, ?_, fun hx => d3 ?_, fun hw => ?_⟩)
    · rw [hl] at d2
      obtain ⟨p1, p2, p3⟩ := d2
      refine ⟨p1, ?_, ?_⟩
      · unfold CoversOne at p2 ⊢
        simp only at p2 ⊢
        rwa [mask_of_bare hgb] at p2
      · simp only at p3 ⊢
        rwa [store_of_bare hgb] at p3
    · exact extendable_move hr.covers' hqb (by
        intro q hq
        obtain ⟨h, hh, rfl⟩ := List.mem_map.1 hq
        exact (hgk h hh).1) hx
    · obtain ⟨b, hbm, hbd⟩ := d4 (hr.weightsPositive hw)
      exact ⟨b, hbm, fun c hc => hbd c ((back c).2 hc)⟩
  · refine Or.inr ⟨hl, hd'.imp (fun hd' hw c hc => hd' (hr.weightsOk hw) c ((back c).2 hc)) ?_⟩
    rintro ⟨top, h1, h2, q, below, he⟩
    have e : ∀ l : List Hit, groupKeys (l.map Hit.q) =
        (l.map Hit.bare).map fun h => (h.q.weight, h.q.idx, h.q.mask) := by
      intro l
      unfold groupKeys
      rw [List.map_map, List.map_map]
      rfl
    have hkeys : groupKeys (gs.map Hit.q) = groupKeys (hs.map Hit.q) := by rw [e, e, hb]
    obtain ⟨upper, low, e1, e2, e3⟩ := List.map_eq_append_iff.1 (hkeys.symm.trans (congrArg groupKeys he) |>.trans (by
      unfold groupKeys
      rw [List.map_append]))
    obtain ⟨l, lower, rfl, _, _⟩ := List.map_eq_cons_iff.1 e3
    exact ⟨top, h1, h2, upper, l, lower, e1, e2⟩

/-- The same for few stacks, where the way is open. -/
theorem groups_full_open {env : TreeEnv} {qs : List Subquery} {opts : MatchOpts}
    {out : List Context}
    (hd : Delivered qs) (hfew : FewGroupStacks 2000 qs) (hz : env.chk = true ∨ ZoomsAscend qs)
    (hout : stackAndCoalesce env qs opts = some out) :
    ∃ tops : List (List Subquery), tops.length ≤ 7 ∧
    ∀ hs, GroupsClimb (RoomInGroups qs) env.toEnv opts qs hs → (∀ h ∈ hs, RoomInGroups qs (h.q, h.kg)) →
    (((∃ c ∈ out, ContextOf env.toEnv opts qs hs c) ∨
      ∃ better : List Context, better.Subperm out ∧ better.length = 40 ∧ ∀ r ∈ better,
        (∃ hs', ContextOf env.toEnv opts qs hs' r ∧ SameLastGroup hs' hs) ∧
        ∀ c, ContextOf env.toEnv opts qs hs c → RanksBefore r c) ∨
    HitsDropped env.toEnv opts qs hs out) ∨
    (out.length = 800 ∧ ((WeightsOk qs → ∀ c, ContextOf env.toEnv opts qs hs c →
      ∀ r ∈ out, c.relev ≤ r.relev) ∨ ContinuesGroup tops (hs.map Hit.q))) := by
  unfold stackAndCoalesce at hout
  obtain ⟨collapsed, h1, hout⟩ := Option.bind_eq_some_iff.1 hout
  obtain ⟨t, h2, hout⟩ := Option.bind_eq_some_iff.1 hout
  obtain ⟨rep, orig, grp, hr⟩ := collapse_regroups hd h1
  obtain ⟨hlim, hscans⟩ := few_below_limit h2 hr.nodup (hr.fewStacks hfew)
  obtain ⟨tops, h7, hall⟩ := groups_tree_open hd hr h2 hscans hz hout
  exact ⟨tops, h7, fun hs hup hroom => hall hs hup hroom (whole_of_lim h2 hlim _)⟩

/-- The same for few stacks. -/
theorem groups_full {env : TreeEnv} {qs : List Subquery} {opts : MatchOpts}
    {out : List Context}
    (hd : Delivered qs) (hfew : FewGroupStacks 2000 qs) (hz : env.chk = true ∨ ZoomsAscend qs)
    (hout : stackAndCoalesce env qs opts = some out) :
    ∃ tops : List (List Subquery), tops.length ≤ 7 ∧
    ∀ hs, HitsStackUp env.toEnv opts qs hs → (∀ h ∈ hs, RoomInGroups qs (h.q, h.kg)) →
    (((∃ c ∈ out, ContextOf env.toEnv opts qs hs c) ∨
      ∃ better : List Context, better.Subperm out ∧ better.length = 40 ∧ ∀ r ∈ better,
        (∃ hs', ContextOf env.toEnv opts qs hs' r ∧ SameLastGroup hs' hs) ∧
        ∀ c, ContextOf env.toEnv opts qs hs c → RanksBefore r c) ∨
    HitsDropped env.toEnv opts qs hs out) ∨
    (out.length = 800 ∧ ((WeightsOk qs → ∀ c, ContextOf env.toEnv opts qs hs c →
      ∀ r ∈ out, c.relev ≤ r.relev) ∨ ContinuesGroup tops (hs.map Hit.q))) := by
  obtain ⟨tops, ht, hall⟩ := groups_full_open hd hfew hz hout
  exact ⟨tops, ht, fun hs hup hroom => hall hs (hup.climb hroom).groups hroom⟩

/-- The same for any number of stacks, where the way is open. -/
theorem groups_any_open {env : TreeEnv} {qs : List Subquery} {opts : MatchOpts}
    {out : List Context} (hd : Delivered qs) (hw : WeightsOk qs) (hf : FewTypes qs)
    (hz : env.chk = true ∨ ZoomsAscend qs) (hout : stackAndCoalesce env qs opts = some out) :
    ∃ tops : List (List Subquery), tops.length ≤ 7 ∧
    ∀ hs, GroupsClimb (RoomInGroups qs) env.toEnv opts qs hs → (∀ h ∈ hs, RoomInGroups qs (h.q, h.kg)) →
    ¬ Crowded 2000 qs (hs.map Hit.q) →
    (((∃ c ∈ out, ContextOf env.toEnv opts qs hs c) ∨
      ∃ better : List Context, better.Subperm out ∧ better.length = 40 ∧ ∀ r ∈ better,
        (∃ hs', ContextOf env.toEnv opts qs hs' r ∧ SameLastGroup hs' hs) ∧
        ∀ c, ContextOf env.toEnv opts qs hs c → RanksBefore r c) ∨
    HitsDropped env.toEnv opts qs hs out) ∨
    (out.length = 800 ∧ ((WeightsOk qs → ∀ c, ContextOf env.toEnv opts qs hs c →
      ∀ r ∈ out, c.relev ≤ r.relev) ∨ ContinuesGroup tops (hs.map Hit.q))) := by
  unfold stackAndCoalesce at hout
  obtain ⟨collapsed, h1, hout⟩ := Option.bind_eq_some_iff.1 hout
  obtain ⟨t, h2, hout⟩ := Option.bind_eq_some_iff.1 hout
  obtain ⟨rep, orig, grp, hr⟩ := collapse_regroups hd h1
  have hscans := scans_of_stacks h2 hr.nodup fun q hq =>
    ⟨(hr.weightsOk hw q hq).1, (hr.fewTypes hf).weights q hq⟩
  obtain ⟨tops, h7, hall⟩ := groups_tree_open hd hr h2 hscans hz hout
  refine ⟨tops, h7, fun hs hup hroom hnc => hall hs hup hroom ?_⟩
  by_contra hwh
  refine hnc (hr.crowded h2 hw hf ?_ hwh)
  rw [List.map_map, List.map_map]
  refine List.map_congr_left fun h hh => ?_
  exact (hr.grp_mem _ (hup.stack.mem _ (List.mem_map_of_mem hh))).2.1

/-- The same for any number of stacks. -/
theorem groups_any {env : TreeEnv} {qs : List Subquery} {opts : MatchOpts}
    {out : List Context} (hd : Delivered qs) (hw : WeightsOk qs) (hf : FewTypes qs)
    (hz : env.chk = true ∨ ZoomsAscend qs) (hout : stackAndCoalesce env qs opts = some out) :
    ∃ tops : List (List Subquery), tops.length ≤ 7 ∧
    ∀ hs, HitsStackUp env.toEnv opts qs hs → (∀ h ∈ hs, RoomInGroups qs (h.q, h.kg)) →
    ¬ Crowded 2000 qs (hs.map Hit.q) →
    (((∃ c ∈ out, ContextOf env.toEnv opts qs hs c) ∨
      ∃ better : List Context, better.Subperm out ∧ better.length = 40 ∧ ∀ r ∈ better,
        (∃ hs', ContextOf env.toEnv opts qs hs' r ∧ SameLastGroup hs' hs) ∧
        ∀ c, ContextOf env.toEnv opts qs hs c → RanksBefore r c) ∨
    HitsDropped env.toEnv opts qs hs out) ∨
    (out.length = 800 ∧ ((WeightsOk qs → ∀ c, ContextOf env.toEnv opts qs hs c →
      ∀ r ∈ out, c.relev ≤ r.relev) ∨ ContinuesGroup tops (hs.map Hit.q))) := by
  obtain ⟨tops, ht, hall⟩ := groups_any_open hd hw hf hz hout
  exact ⟨tops, ht, fun hs hup hroom hnc => hall hs (hup.climb hroom).groups hroom hnc⟩

/-- What becomes of them when the list of results is not full. -/
theorem groups_complete {env : TreeEnv} {qs : List Subquery} {opts : MatchOpts}
    {out : List Context}
    (hd : Delivered qs) (hfew : FewGroupStacks 2000 qs) (hz : env.chk = true ∨ ZoomsAscend qs)
    (hroom : RoomToTryGroups qs) (hout : stackAndCoalesce env qs opts = some out)
    (hlen : out.length < 800) {hs : List Hit} (hup : HitsStackUp env.toEnv opts qs hs) :
    ((∃ c ∈ out, ContextOf env.toEnv opts qs hs c) ∨
      ∃ better : List Context, better.Subperm out ∧ better.length = 40 ∧ ∀ r ∈ better,
        (∃ hs', ContextOf env.toEnv opts qs hs' r ∧ SameLastGroup hs' hs) ∧
        ∀ c, ContextOf env.toEnv opts qs hs c → RanksBefore r c) ∨
    HitsDropped env.toEnv opts qs hs out := by
  obtain ⟨tops, _, hall⟩ := groups_full hd hfew hz hout
  exact (hall hs hup fun _ _ => hroom.for _).resolve_right fun hfull => by omega

/-- C56: nothing that stacks up is missed by `stack_and_coalesce`, when there is room. -/
theorem C56_complete {env : TreeEnv} {qs : List Subquery} {opts : MatchOpts} {out : List Context}
    (hd : Delivered qs) (hfew : FewGroupStacks 2000 qs) (hz : env.chk = true ∨ ZoomsAscend qs)
    (hroom : RoomForGroups qs) (hout : stackAndCoalesce env qs opts = some out)
    (hlen : out.length < 800) {hs : List Hit} (hup : HitsStackUp env.toEnv opts qs hs) :
    (∃ c ∈ out, ContextOf env.toEnv opts qs hs c) ∨
      ∃ better : List Context, better.Subperm out ∧ better.length = 40 ∧ ∀ r ∈ better,
        (∃ hs', ContextOf env.toEnv opts qs hs' r ∧ SameLastGroup hs' hs) ∧
        ∀ c, ContextOf env.toEnv opts qs hs c → RanksBefore r c := by
  refine (groups_complete hd hfew hz hroom.toTry hout hlen hup).resolve_right
    (not_hitsDropped (hroom [hs.map Hit.q] (by simp) ?_) fun h hh => (hup.answers h hh).1)
  intro qs hqs
  rw [List.mem_singleton.1 hqs]
  exact ⟨by simpa using hup.ne, hup.stack⟩

/-- C75: the same without the rule that slow scans do not occur. If the quotas are enough, then hits
that stack up are only missed if the scan for the last one is wide, for one token, in an index of
zoom 14 or more and with nothing to be put below; and then something is returned that has at least
a third more relevance. -/
theorem C75_complete {env : TreeEnv} {qs : List Subquery} {opts : MatchOpts} {out : List Context}
    (hd : Delivered qs) (hfew : FewGroupStacks 2000 qs) (hz : env.chk = true ∨ ZoomsAscend qs)
    (hw : WeightsPositive qs)
    (hroom : RoomToTryGroups qs) (hout : stackAndCoalesce env qs opts = some out)
    (hlen : out.length < 800) {hs : List Hit} (hup : HitsStackUp env.toEnv opts qs hs) :
    (∃ c ∈ out, ContextOf env.toEnv opts qs hs c) ∨
    (∃ better : List Context, better.Subperm out ∧ better.length = 40 ∧ ∀ r ∈ better,
      (∃ hs', ContextOf env.toEnv opts qs hs' r ∧ SameLastGroup hs' hs) ∧
      ∀ c, ContextOf env.toEnv opts qs hs c → RanksBefore r c) ∨
    NotWorthTrying env.toEnv opts qs hs out := by
  rcases groups_complete hd hfew hz hroom hout hlen hup with (h | h) | ⟨above, last, h1, h2, h3, h4⟩
  · exact Or.inl h
  · exact Or.inr (Or.inl h)
  · exact Or.inr (Or.inr ⟨above, last, h1, h2, h3, h4 hw⟩)

/-- C78: hits that stack up come back, whatever quotas are spent that their own scans do not count
against. If every quota that a scan for one of the hits counts against is enough for all stacks, then
the hits are only missed if there are forty others for the same phrase matches and the same last match
key that rank before them or tie with them, or the last scan was not worth trying, or 800 contexts are
returned and none of them has less relevance than a context of these hits; or if 800 contexts are
returned and the stack is one of seven stacks with something put below. -/
theorem C78_complete {env : TreeEnv} {qs : List Subquery} {opts : MatchOpts} {out : List Context}
    (hd : Delivered qs) (hfew : FewGroupStacks 2000 qs) (hz : env.chk = true ∨ ZoomsAscend qs)
    (hw : WeightsPositive qs) (hout : stackAndCoalesce env qs opts = some out) :
    ∃ tops : List (List Subquery), tops.length ≤ 7 ∧
    ∀ hs, HitsStackUp env.toEnv opts qs hs → (∀ h ∈ hs, RoomInGroups qs (h.q, h.kg)) →
    (∃ c ∈ out, ContextOf env.toEnv opts qs hs c) ∨
    (∃ better : List Context, better.Subperm out ∧ better.length = 40 ∧ ∀ r ∈ better,
      (∃ hs', ContextOf env.toEnv opts qs hs' r ∧ SameLastGroup hs' hs) ∧
      ∀ c, ContextOf env.toEnv opts qs hs c → RanksBefore r c) ∨
    NotWorthTrying env.toEnv opts qs hs out ∨
    (out.length = 800 ∧ ((∀ c, ContextOf env.toEnv opts qs hs c → ∀ r ∈ out, c.relev ≤ r.relev) ∨
      ContinuesGroup tops (hs.map Hit.q))) := by
  obtain ⟨tops, h7, hall⟩ := groups_full hd hfew hz hout
  refine ⟨tops, h7, fun hs hup hroom => ?_⟩
  rcases hall hs hup hroom with ((h | h) | ⟨above, last, h1, h2, h3, h4⟩) | ⟨h1, h2⟩
  · exact Or.inl h
  · exact Or.inr (Or.inl h)
  · exact Or.inr (Or.inr (Or.inl ⟨above, last, h1, h2, h3, h4 hw⟩))
  · exact Or.inr (Or.inr (Or.inr ⟨h1, h2.imp (fun h => h (weightsOk_of_positive hw)) id⟩))

/-- C78: hits whose scans count against no quota are not affected by the quotas, nor by the rule that
gives up slow scans. -/
theorem C78_unlimited {env : TreeEnv} {qs : List Subquery} {opts : MatchOpts} {out : List Context}
    (hd : Delivered qs) (hfew : FewGroupStacks 2000 qs) (hz : env.chk = true ∨ ZoomsAscend qs)
    (hout : stackAndCoalesce env qs opts = some out) (hlen : out.length < 800) {hs : List Hit}
    (hup : HitsStackUp env.toEnv opts qs hs) (hun : ∀ h ∈ hs, Unlimited (h.q, h.kg)) :
    (∃ c ∈ out, ContextOf env.toEnv opts qs hs c) ∨
    ∃ better : List Context, better.Subperm out ∧ better.length = 40 ∧ ∀ r ∈ better,
      (∃ hs', ContextOf env.toEnv opts qs hs' r ∧ SameLastGroup hs' hs) ∧
      ∀ c, ContextOf env.toEnv opts qs hs c → RanksBefore r c := by
  obtain ⟨tops, h7, hall⟩ := groups_full hd hfew hz hout
  rcases hall hs hup (fun h hh => (hun h hh).room qs) with
    (h | ⟨above, last, h1, ⟨h2, h3, -⟩, -⟩) | ⟨h1, -⟩
  · exact h
  · exact absurd ⟨h2, h3⟩ (hun last (by rw [h1]; simp)).1
  · omega

/-- C79: the same for any number of stacks. Beyond the limit of 2000 stacks hits that stack up may also be
missed if 2000 other stacks, none of which begins with another one, are no less relevant than theirs,
except by rounding. -/
theorem C79_complete {env : TreeEnv} {qs : List Subquery} {opts : MatchOpts} {out : List Context}
    (hd : Delivered qs) (hf : FewTypes qs) (hz : env.chk = true ∨ ZoomsAscend qs)
    (hw : WeightsPositive qs) (hout : stackAndCoalesce env qs opts = some out) :
    ∃ tops : List (List Subquery), tops.length ≤ 7 ∧
    ∀ hs, HitsStackUp env.toEnv opts qs hs → (∀ h ∈ hs, RoomInGroups qs (h.q, h.kg)) →
    (∃ c ∈ out, ContextOf env.toEnv opts qs hs c) ∨
    (∃ better : List Context, better.Subperm out ∧ better.length = 40 ∧ ∀ r ∈ better,
      (∃ hs', ContextOf env.toEnv opts qs hs' r ∧ SameLastGroup hs' hs) ∧
      ∀ c, ContextOf env.toEnv opts qs hs c → RanksBefore r c) ∨
    NotWorthTrying env.toEnv opts qs hs out ∨
    (out.length = 800 ∧ ((∀ c, ContextOf env.toEnv opts qs hs c → ∀ r ∈ out, c.relev ≤ r.relev) ∨
      ContinuesGroup tops (hs.map Hit.q))) ∨
    Crowded 2000 qs (hs.map Hit.q) := by
  obtain ⟨tops, h7, hall⟩ := groups_any hd (weightsOk_of_positive hw) hf hz hout
  refine ⟨tops, h7, fun hs hup hroom => ?_⟩
  by_cases hc : Crowded 2000 qs (hs.map Hit.q)
  · exact Or.inr (Or.inr (Or.inr (Or.inr hc)))
  rcases hall hs hup hroom hc with ((h | h) | ⟨above, last, h1, h2, h3, h4⟩) | ⟨h1, h2⟩
  · exact Or.inl h
  · exact Or.inr (Or.inl h)
  · exact Or.inr (Or.inr (Or.inl ⟨above, last, h1, h2, h3, h4 hw⟩))
  · exact Or.inr (Or.inr (Or.inr (Or.inl
      ⟨h1, h2.imp (fun h => h (weightsOk_of_positive hw)) id⟩)))

/-- Every stack goes on to one nothing can be put below. -/
theorem goes_on {pms qs : List Subquery} (h : IsStack pms qs) :
    ∃ rest, IsStack pms (qs ++ rest) ∧ ¬ Extendable pms (qs ++ rest) := by
  induction hk : pms.length - qs.length generalizing qs with
  | zero =>
    refine ⟨[], by simpa using h, ?_⟩
    rintro ⟨q, hq⟩
    have hnd : (qs ++ [] ++ [q]).Nodup := hq.types.imp fun h e => by
      rw [e] at h
      exact lt_irrefl _ h
    have := (hnd.subperm hq.mem).length_le
    simp only [List.append_nil, List.length_append, List.length_singleton] at this
    omega
  | succ k ih =>
    by_cases hx : Extendable pms qs
    · obtain ⟨q, hq⟩ := hx
      obtain ⟨rest, h1, h2⟩ := ih hq (by rw [List.length_append, List.length_singleton]; omega)
      exact ⟨q :: rest, by simpa using h1, by simpa using h2⟩
    · exact ⟨[], by simpa using h, by simpa using hx⟩

/-- C79: below the limit nothing is crowded. -/
theorem C79_few {n : ℕ} {pms qs : List Subquery} (hn : 2 ≤ n) (h : FewGroupStacks n pms) :
    ¬ Crowded n pms qs := by
  rintro ⟨l, h1, h2, h3⟩
  have hne : ∀ ls ∈ l, ls ≠ [] := by
    rintro ls hls rfl
    obtain ⟨a, b, rfl⟩ := List.append_of_mem hls
    rw [List.pairwise_append, List.pairwise_cons] at h2
    have ha : a = [] := by
      rw [List.eq_nil_iff_forall_not_mem]
      exact fun x hx => (h2.2.2 x hx [] (by simp)).2 (by simp [groupKeys])
    have hb : b = [] := by
      rw [List.eq_nil_iff_forall_not_mem]
      exact fun x hx => (h2.2.1.1 x hx).1 (by simp [groupKeys])
    subst ha hb
    simp at h1
    omega
  have hmax : ∀ ls : List Subquery, ∃ m, ls ∈ l → ls <+: m ∧ IsStack pms m ∧ ¬ Extendable pms m := by
    intro ls
    by_cases hls : ls ∈ l
    · obtain ⟨rest, e1, e2⟩ := goes_on (h3 ls hls).1
      exact ⟨_, fun _ => ⟨List.prefix_append _ _, e1, e2⟩⟩
    · exact ⟨[], fun h => absurd h hls⟩
  choose f hf using hmax
  have := h (l.map f) ?_ ?_
  · rw [List.length_map] at this
    omega
  · rw [List.map_map, List.Nodup, List.pairwise_map]
    refine h2.imp_of_mem fun {a b} ha hb hab he => ?_
    have pa : groupKeys a <+: groupKeys (f a) := (hf a ha).1.map _
    have pb : groupKeys b <+: groupKeys (f b) := (hf b hb).1.map _
    simp only [Function.comp] at he
    rw [← he] at pb
    rcases List.prefix_or_prefix_of_prefix pa pb with hp | hp
    · exact hab.1 hp
    · exact hab.2 hp
  · intro m hm
    obtain ⟨ls, hls, rfl⟩ := List.mem_map.1 hm
    obtain ⟨p1, p2, p3⟩ := hf ls hls
    refine ⟨fun he => hne ls hls ?_, p2, p3⟩
    rw [he] at p1
    exact List.prefix_nil.1 p1

/-- C76: the same for any number of results. If the quotas are enough, then hits that stack up are
only missed if there are forty others for the same phrase matches and the same last match key that
rank before them or tie with them, or the last scan was not worth trying, or 800 contexts are
returned and none of them has less relevance than a context of these hits; or if 800 contexts are
returned and the stack is one of seven stacks with something put below. -/
theorem C76_complete {env : TreeEnv} {qs : List Subquery} {opts : MatchOpts} {out : List Context}
    (hd : Delivered qs) (hfew : FewGroupStacks 2000 qs) (hz : env.chk = true ∨ ZoomsAscend qs)
    (hw : WeightsPositive qs)
    (hroom : RoomToTryGroups qs) (hout : stackAndCoalesce env qs opts = some out) :
    ∃ tops : List (List Subquery), tops.length ≤ 7 ∧
    ∀ hs, HitsStackUp env.toEnv opts qs hs →
    (∃ c ∈ out, ContextOf env.toEnv opts qs hs c) ∨
    (∃ better : List Context, better.Subperm out ∧ better.length = 40 ∧ ∀ r ∈ better,
      (∃ hs', ContextOf env.toEnv opts qs hs' r ∧ SameLastGroup hs' hs) ∧
      ∀ c, ContextOf env.toEnv opts qs hs c → RanksBefore r c) ∨
    NotWorthTrying env.toEnv opts qs hs out ∨
    (out.length = 800 ∧ ((∀ c, ContextOf env.toEnv opts qs hs c → ∀ r ∈ out, c.relev ≤ r.relev) ∨
      ContinuesGroup tops (hs.map Hit.q))) := by
  obtain ⟨tops, h7, hall⟩ := C78_complete hd hfew hz hw hout
  exact ⟨tops, h7, fun hs hup => hall hs hup fun _ _ => hroom.for _⟩

/-! ## A case -/

theorem few_of_small {n : ℕ} {pms : List Subquery}
    (h : (pms.sublists'.flatMap List.permutations').length < n) : FewGroupStacks n pms :=
  fun _ hl hall => (length_le_of_candidates hl fun a ha => stack_candidates (hall a ha).2.1).trans_lt h

/-- There is room for a small number of phrase matches at low zooms. -/
theorem room_of_small {pms : List Subquery}
    (h : (pms.sublists'.flatMap List.permutations').length ≤ 600)
    (h1 : ∀ q ∈ pms, q.matchKeys.length = 1)
    (hx : ∀ q ∈ pms, ∀ kg ∈ q.matchKeys, ∃ i, kg.key.phrase = .exact i) : RoomForGroups pms := by
  intro l hl hall
  have hlen : (lastScans l).length ≤ l.length := by
    clear hl
    unfold lastScans
    induction l with
    | nil => simp
    | cons a l ih =>
      rw [List.flatMap_cons, List.length_append, List.length_cons]
      have ih := ih fun s hs => hall s (List.mem_cons_of_mem _ hs)
      suffices (a.getLast?.toList.flatMap fun q => q.matchKeys.map fun kg => (q, kg)).length ≤ 1 by
        omega
      cases hg : a.getLast? with
      | none => simp
      | some q =>
        have := h1 q ((hall a (by simp)).2.mem q (List.mem_of_getLast? hg))
        simp [this]
  have hle := hlen.trans (length_le_of_candidates hl fun a ha => stack_candidates (hall a ha).2)
  have hnw : ∀ s ∈ lastScans l, ¬ WideScan s := by
    rintro ⟨q, kg⟩ hs ⟨a, b, hp, _⟩
    obtain ⟨st, hst, hs⟩ := List.mem_flatMap.1 hs
    obtain ⟨q', hq', hs⟩ := List.mem_flatMap.1 hs
    obtain ⟨kg', hk, he⟩ := List.mem_map.1 hs
    cases he
    obtain ⟨i, hi⟩ := hx q ((hall st hst).2.mem q (List.mem_of_getLast? (Option.mem_toList.1 hq')))
      kg hk
    rw [hi] at hp
    cases hp
  have none : ∀ n (p : Subquery × KeyWithId → Prop), (∀ s, p s → WideScan s) →
      AtMost n p (lastScans l) := by
    intro n p hp s hs hall
    cases s with
    | nil => simp
    | cons x s => exact absurd (hp x (hall x (by simp))) (hnw x (hs.subset (by simp)))
  exact ⟨fun s hs hw => absurd hw (hnw s hs), none _ _ fun _ h => h.1, none _ _ fun _ h => h.1,
    none _ _ fun _ h => h.1, fun s hs _ => hs.length_le.trans (hle.trans h)⟩

/-- Result `n` for the first match key of a phrase match. -/
def hitAt (q : Subquery) (n : ℕ) : Option Hit := do
  let kg ← q.matchKeys.head?
  let o ← lookupOpts (listTreeEnv false).toEnv plainOpts q kg
  let grids ← (listTreeEnv false).query q.store kg.key o 100000
  let g ← grids[n]?
  some ⟨q, kg, g⟩

theorem hitAt_first {q : Subquery} {h : Hit} (hh : hitAt q 0 = some h) :
    h.q = q ∧ h.FirstAnswer (listTreeEnv false).toEnv plainOpts := by
  unfold hitAt at hh
  simp only [Option.bind_eq_bind, Option.bind_eq_some_iff] at hh
  obtain ⟨kg, h3, o, h4, grids, h5, g, h6, hh⟩ := hh
  cases hh
  refine ⟨rfl, List.mem_of_mem_head? h3, o, [], grids.drop 1, h4, ?_, by simp,
    fun _ h => by cases h⟩
  obtain ⟨hlt, rfl⟩ := List.getElem?_eq_some_iff.1 h6
  rw [h5, List.nil_append, ← List.drop_eq_getElem_cons, List.drop_zero]

/-- Two regions of one index that are collapsed, and a street. -/
def pairedPms : List Subquery :=
  [{ regionTreeMatch with matchKeys := [⟨⟨.exact 2, 1⟩, false, 7, 5⟩] }, streetTreeMatch,
    regionTreeMatch]

/-- The phrase matches are collapsed, and a street in a region stacks up: the hypotheses of C56. -/
example : Delivered pairedPms ∧ (collapse pairedPms).map List.length = some 2 ∧
    FewGroupStacks 2000 pairedPms ∧ ZoomsAscend pairedPms ∧ RoomForGroups pairedPms ∧
    ∃ out hs, stackAndCoalesce (listTreeEnv false) pairedPms plainOpts = some out ∧
      out.length < 800 ∧ HitsStackUp (listTreeEnv false).toEnv plainOpts pairedPms hs ∧
      hs.length = 2 := by
  refine ⟨⟨by decide +kernel, by decide +kernel, by decide +kernel⟩, by decide +kernel,
    few_of_small (by decide +kernel), by unfold ZoomsAscend; decide +kernel,
    room_of_small (by decide +kernel) (by decide +kernel) ?_, ?_⟩
  · have : ∀ q ∈ pairedPms, ∀ kg ∈ q.matchKeys,
        kg.key.phrase = .exact 1 ∨ kg.key.phrase = .exact 2 := by decide +kernel
    intro q hq kg hk
    rcases this q hq kg hk with h | h
    · exact ⟨1, h⟩
    · exact ⟨2, h⟩
  have hev : ((stackAndCoalesce (listTreeEnv false) pairedPms plainOpts).bind fun out =>
      (hitAt regionTreeMatch 0).bind fun a => (hitAt streetTreeMatch 0).map fun b =>
        decide (out.length < 800) &&
        (a.q.store.bboxes.any fun bb => decide (bb.minX ≤ a.grid.entry.x ∧
          a.grid.entry.x ≤ bb.maxX ∧ bb.minY ≤ a.grid.entry.y ∧ a.grid.entry.y ≤ bb.maxY)) &&
        (b.q.store.bboxes.any fun bb => decide (bb.minX ≤ b.grid.entry.x ∧
          b.grid.entry.x ≤ bb.maxX ∧ bb.minY ≤ b.grid.entry.y ∧ b.grid.entry.y ≤ bb.maxY)) &&
        decide (a.tile.1 ≤ b.tile.1 ∧ a.tile.2.1 = b.tile.2.1 / 2 ^ (b.tile.1 - a.tile.1) ∧
          a.tile.2.2 = b.tile.2.2 / 2 ^ (b.tile.1 - a.tile.1))) = some true := by decide +kernel
  obtain ⟨out, hout, hev⟩ := Option.bind_eq_some_iff.1 hev
  obtain ⟨a, ha, hev⟩ := Option.bind_eq_some_iff.1 hev
  obtain ⟨b, hb, hev⟩ := Option.map_eq_some_iff.1 hev
  simp only [Bool.and_eq_true, decide_eq_true_eq, List.any_eq_true] at hev
  obtain ⟨⟨⟨e1, e2⟩, e3⟩, e4⟩ := hev
  obtain ⟨a1, a2⟩ := hitAt_first ha
  obtain ⟨b1, b2⟩ := hitAt_first hb
  refine ⟨out, [a, b], hout, e1, ⟨by simp, ?_, ?_, ?_, ?_, ?_⟩, rfl⟩
  · rintro ⟨l, h, _⟩
    have := congrArg List.length h
    simp at this
  · rw [List.map_cons, List.map_singleton, a1, b1]
    exact ⟨by decide +kernel, by decide +kernel, by decide +kernel, by decide +kernel,
      by decide +kernel⟩
  · intro l hl
    rcases List.mem_cons.1 hl with rfl | hl
    · exact a2
    · rw [List.mem_singleton.1 hl]
      exact b2
  · intro l hl
    rcases List.mem_cons.1 hl with rfl | hl
    · exact e2
    · rw [List.mem_singleton.1 hl]
      exact e3
  · rw [List.isChain_cons_cons]
    exact ⟨e4, List.isChain_singleton _⟩

end Carmen
