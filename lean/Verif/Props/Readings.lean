import Verif.Spec.Readings
import Verif.Props.Monotone
import Verif.Props.Exchange

/-!
# C110: readings of a query that exclude each other do not affect each other
-/

namespace Carmen
open Spec

theorem readings_symm {as bs : List Subquery} (h : ExcludeEachOther as bs) :
    ExcludeEachOther bs as := fun b hb a ha =>
  (h a ha b hb).imp (fun e => by rwa [Nat.land_comm]) Eq.symm

section
variable {pms as bs : List Subquery} {env : Env} {opts : MatchOpts}

theorem readings_pair (h : ExcludeEachOther as bs) {qs : List Subquery} (hs : IsStack pms qs)
    {a b : Subquery} (ha : a ∈ as) (hb : b ∈ bs) (h1 : a ∈ qs) (h2 : b ∈ qs) : a = b := by
  by_contra hne
  have hp : qs.Pairwise fun a b => a.mask &&& b.mask = 0 ∧ a.store.typeId ≠ b.store.typeId :=
    (hs.masks.and hs.types).imp fun ⟨x, y⟩ => ⟨x, ne_of_lt y⟩
  have : Std.Symm fun a b : Subquery => a.mask &&& b.mask = 0 ∧ a.store.typeId ≠ b.store.typeId :=
    ⟨fun _ _ h => ⟨by rw [Nat.land_comm]; exact h.1, Ne.symm h.2⟩⟩
  obtain ⟨h3, h4⟩ := hp.forall h1 h2 hne
  exact (h a ha b hb).elim (fun e => e h3) h4

/-- A stack is of one of the readings. -/
theorem readings_stack (h : ExcludeEachOther as bs) (hm : ∀ q, q ∈ pms ↔ q ∈ as ∨ q ∈ bs)
    {qs : List Subquery} {a : Subquery} (hs : IsStack pms qs) (ha : a ∈ as) (h1 : a ∈ qs) :
    IsStack as qs := by
  refine ⟨fun q hq => ?_, hs.types, hs.masks, hs.neighbours, hs.root⟩
  rcases (hm q).1 (hs.mem q hq) with h2 | h2
  · exact h2
  · exact readings_pair h hs ha h2 h1 hq ▸ ha

theorem readings_extendable (h : ExcludeEachOther as bs) (hm : ∀ q, q ∈ pms ↔ q ∈ as ∨ q ∈ bs)
    {qs : List Subquery} (hs : IsStack as qs) (hne : qs ≠ []) :
    Extendable as qs ↔ Extendable pms qs := by
  refine ⟨extendable_mono fun q hq => (hm q).2 (Or.inl hq), fun ⟨q, hq⟩ => ⟨q, ?_⟩⟩
  obtain ⟨a, ha⟩ := List.exists_mem_of_ne_nil qs hne
  exact readings_stack h hm hq (hs.mem a ha) (List.mem_append_left _ ha)

/-- What a context is depends only on what can be put below single phrase matches. -/
theorem contextOf_within {hs : List Hit} {c : Context} (hst : IsStack as (hs.map Hit.q))
    (hx : ∀ h, hs = [h] → (Extendable as [h.q] ↔ Extendable pms [h.q]))
    (h : ContextOf env opts pms hs c) :
    (Lone as hs ↔ Lone pms hs) ∧ ContextOf env opts as hs c := by
  have hl : Lone as hs ↔ Lone pms hs :=
    exists_congr fun x => and_congr_right fun e => not_congr (hx x e)
  have hlp : LosesPoints as hs ↔ LosesPoints pms hs :=
    or_congr_left (exists_congr fun x => and_congr_right fun e => hx x e)
  exact ⟨hl, h.ne, hst, fun x hx limit a b => h.answers x hx limit (fun y => a (hl.2 y))
    (fun y => b (fun z => y (hl.1 z))), h.entries, h.tiles, h.mask, fun y => h.plain fun z => y (hlp.2 z),
    fun y => h.penalty (hlp.1 y), fun y => h.first fun z => y (hl.2 z)⟩

theorem readings_return (h : ExcludeEachOther as bs) (hm : ∀ q, q ∈ pms ↔ q ∈ as ∨ q ∈ bs)
    {c : Context} : ShouldReturn env opts pms c ↔
      ShouldReturn env opts as c ∨ ShouldReturn env opts bs c := by
  have hm' : ∀ q, q ∈ pms ↔ q ∈ bs ∨ q ∈ as := fun q => (hm q).trans or_comm
  have one : ∀ {as bs : List Subquery}, ExcludeEachOther as bs → (∀ q, q ∈ pms ↔ q ∈ as ∨ q ∈ bs) →
      ShouldReturn env opts as c → ShouldReturn env opts pms c := by
    rintro as bs h hm (⟨hs, hl, hcx⟩ | ⟨q, kg, o, grids, all, h1, h2, h3⟩)
    · exact Or.inl ⟨hs, contextOf_mono (fun q hq => (hm q).2 (Or.inl hq)) hl hcx⟩
    · exact Or.inr ⟨q, kg, o, grids, all, isStack_mono (fun q hq => (hm q).2 (Or.inl hq)) h1,
        fun e => h2 ((readings_extendable h hm h1 (by simp)).2 e), h3⟩
  have two : ∀ {as bs : List Subquery}, ExcludeEachOther as bs → (∀ q, q ∈ pms ↔ q ∈ as ∨ q ∈ bs) →
      ∀ {hs : List Hit} {x : Hit}, x ∈ hs → x.q ∈ as → ¬ Lone pms hs → ContextOf env opts pms hs c →
      ShouldReturn env opts as c := by
    intro as bs h hm hs x hx hxa hl hcx
    have hst := readings_stack h hm hcx.stack hxa (List.mem_map_of_mem hx)
    obtain ⟨h1, h2⟩ := contextOf_within (as := as) hst (fun y e => by
      subst e
      exact readings_extendable h hm hst (by simp)) hcx
    exact Or.inl ⟨hs, fun e => hl (h1.1 e), h2⟩
  have three : ∀ {as bs : List Subquery}, ExcludeEachOther as bs →
      (∀ q, q ∈ pms ↔ q ∈ as ∨ q ∈ bs) → ∀ {q : Subquery}, q ∈ as → IsStack pms [q] →
      IsStack as [q] ∧ (Extendable as [q] ↔ Extendable pms [q]) := by
    intro as bs h hm q hq hs
    have hst := readings_stack h hm hs hq (by simp)
    exact ⟨hst, readings_extendable h hm hst (by simp)⟩
  refine ⟨?_, fun e => e.elim (one h hm) (one (readings_symm h) hm')⟩
  rintro (⟨hs, hl, hcx⟩ | ⟨q, kg, o, grids, all, h1, h2, h3⟩)
  · obtain ⟨x, hx⟩ := List.exists_mem_of_ne_nil hs hcx.ne
    exact ((hm x.q).1 (hcx.stack.mem _ (List.mem_map_of_mem hx))).imp
      (fun e => two h hm hx e hl hcx) (fun e => two (readings_symm h) hm' hx e hl hcx)
  · refine ((hm q).1 (h1.mem q (by simp))).imp (fun e => ?_) (fun e => ?_)
    · obtain ⟨g1, g2⟩ := three h hm e h1
      exact Or.inr ⟨q, kg, o, grids, all, g1, fun z => h2 (g2.1 z), h3⟩
    · obtain ⟨g1, g2⟩ := three (readings_symm h) hm' e h1
      exact Or.inr ⟨q, kg, o, grids, all, g1, fun z => h2 (g2.1 z), h3⟩

/-- The match key at the lowest level is one of the phrase matches'. -/
theorem shouldReturn_id {c : Context} (h : ShouldReturn env opts pms c) :
    ∃ q ∈ pms, ∃ kg ∈ q.matchKeys, c.first.phrasematchId = kg.id := by
  rcases h with ⟨hs, -, hcx⟩ | ⟨q, kg, o, grids, all, h1, -, hk, -, -, h3, hc⟩
  · obtain ⟨above, last, rfl⟩ := (List.eq_nil_or_concat' hs).resolve_left hcx.ne
    exact ⟨last.q, (hcx.keys last (by simp)).1, last.kg, (hcx.keys last (by simp)).2,
      hcx.first_id List.getLast?_concat⟩
  · obtain ⟨g, -, rfl⟩ := treeSingle_made h3 c hc
    exact ⟨q, h1.mem q (by simp), kg, hk, (toEntry_madeFrom_id q g kg.id).2⟩

theorem readings_few (h : ExcludeEachOther as bs) (hm : ∀ q, q ∈ pms ↔ q ∈ as ∨ q ∈ bs) {n : ℕ}
    (hf : FewGroupStacks n pms) : FewGroupStacks n as := fun l hl hq =>
  hf l hl fun qs hqs => ⟨(hq qs hqs).1,
    isStack_mono (fun q hq => (hm q).2 (Or.inl hq)) (hq qs hqs).2.1,
    fun e => (hq qs hqs).2.2 ((readings_extendable h hm (hq qs hqs).2.1 (hq qs hqs).1).2 e)⟩

theorem readings_delivered (hd : Delivered (as ++ bs)) : Delivered as ∧ Delivered bs := by
  have hi := hd.ids
  rw [List.flatMap_append] at hi
  have hi := List.nodup_append.1 hi
  exact ⟨⟨fun q hq => hd.one q (by simp [hq]), hi.1,
      fun a ha b hb => hd.index a (by simp [ha]) b (by simp [hb])⟩,
    ⟨fun q hq => hd.one q (by simp [hq]), hi.2.1,
      fun a ha b hb => hd.index a (by simp [ha]) b (by simp [hb])⟩⟩

theorem short_of_subset {out out' : List Context} (hn : out.Nodup) (hsub : out ⊆ out')
    (h : Short out') : Short out :=
  ⟨lt_of_le_of_lt (hn.subperm hsub).length_le h.all, fun id =>
    lt_of_le_of_lt ((hn.subperm hsub).filter _).length_le (h.each id)⟩

end

/-- **C110**: when a request is of two readings that exclude each other, what is returned is what is
returned for the one and for the other. -/
theorem C110_readings {env envA envB : TreeEnv} (hA : env.toEnv = envA.toEnv)
    (hB : env.toEnv = envB.toEnv) {qs as bs : List Subquery} (hp : qs.Perm (as ++ bs))
    (hex : ExcludeEachOther as bs) {opts : MatchOpts} (hd : Delivered qs)
    (hfew : FewGroupStacks 2000 qs) (hz : ZoomsAscend qs)
    (hroom : RoomForGroups qs) (hbox : BoxesCover env.toEnv opts qs) {out outA outB : List Context}
    (hout : stackAndCoalesce env qs opts = some out)
    (houtA : stackAndCoalesce envA as opts = some outA)
    (houtB : stackAndCoalesce envB bs opts = some outB) (hlen : Short out) :
    out.Perm (outA ++ outB) := by
  have hm : ∀ q, q ∈ qs ↔ q ∈ as ∨ q ∈ bs := fun q => hp.mem_iff.trans List.mem_append
  have hm' : ∀ q, q ∈ qs ↔ q ∈ bs ∨ q ∈ as := fun q => (hm q).trans or_comm
  obtain ⟨hda, hdb⟩ := readings_delivered (hd.perm hp)
  have part : ∀ {as bs : List Subquery} {env' : TreeEnv} {o : List Context}, env.toEnv = env'.toEnv →
      ExcludeEachOther as bs → (∀ q, q ∈ qs ↔ q ∈ as ∨ q ∈ bs) → Delivered as →
      stackAndCoalesce env' as opts = some o →
      o.Nodup ∧ ∀ c, c ∈ o ↔ ShouldReturn env.toEnv opts as c := by
    intro as bs env' o he hex hm hda ho
    have hsub : as ⊆ qs := fun q hq => (hm q).2 (Or.inl hq)
    have hz' : ZoomsAscend as := fun a ha b hb => hz a (hsub ha) b (hsub hb)
    have hf := readings_few hex hm hfew
    have hn : o.Nodup := (C80_request hda ho).of_map _
    have hin : o ⊆ out := fun c hc => C81_complete hd hfew (Or.inr hz) hroom hbox hout hlen c
      ((readings_return hex hm).2 (Or.inl (he ▸ C81_sound hda hf (Or.inr hz') ho c hc)))
    have := C81_exact hda hf (Or.inr hz')
      (fun l hl hq => hroom l hl fun qs hqs => ⟨(hq qs hqs).1, isStack_mono hsub (hq qs hqs).2⟩)
      (fun x hx hf => hbox x (hsub hx) (he ▸ hf)) ho (short_of_subset hn hin hlen)
    rwa [← he] at this
  obtain ⟨na, ma⟩ := part hA hex hm hda houtA
  obtain ⟨nb, mb⟩ := part hB (readings_symm hex) hm' hdb houtB
  obtain ⟨n, m⟩ := C81_exact hd hfew (Or.inr hz) hroom hbox hout hlen
  refine (List.perm_ext_iff_of_nodup n (List.nodup_append.2 ⟨na, nb, ?_⟩)).2 fun c => ?_
  · rintro c hc _ hc' rfl
    obtain ⟨q, hq, k, hk, e⟩ := shouldReturn_id ((ma c).1 hc)
    obtain ⟨q', hq', k', hk', e'⟩ := shouldReturn_id ((mb c).1 hc')
    have hi := (hd.perm hp).ids
    rw [List.flatMap_append] at hi
    exact (List.nodup_append.1 hi).2.2 k.id (List.mem_flatMap.2 ⟨q, hq, List.mem_map_of_mem hk⟩) k'.id
      (List.mem_flatMap.2 ⟨q', hq', List.mem_map_of_mem hk'⟩) (e.symm.trans e')
  · rw [List.mem_append, m, ma, mb]
    exact readings_return hex hm

/-! ## An example -/

/-- Of two words the first as a region and the second as a street. -/
def firstReading : List Subquery :=
  [⟨growthStore smallRegion 6 0, 0, [], lit 0.5, 1, [⟨⟨.exact 1, 1⟩, false, 0, 5⟩]⟩,
    ⟨growthStore smallStreet 8 2, 2, [], lit 0.5, 2, [⟨⟨.exact 2, 1⟩, false, 2, 5⟩]⟩]

/-- Both words as a place. -/
def secondReading : List Subquery :=
  [⟨growthStore smallRegion 6 1, 1, [], 1, 3, [⟨⟨.exact 1, 1⟩, false, 1, 5⟩]⟩]

/-- The results for the two readings together are those for the first, among them the street in the
region, and those for the second. -/
example : ∃ out outA outB,
    stackAndCoalesce (listTreeEnv false) (firstReading ++ secondReading) plainOpts = some out ∧
    stackAndCoalesce (listTreeEnv false) firstReading plainOpts = some outA ∧
    stackAndCoalesce (listTreeEnv false) secondReading plainOpts = some outB ∧
    (∃ c ∈ outA, c.entries.length = 2) ∧ outB ≠ [] ∧ out.Perm (outA ++ outB) := by
  have h1 : (stackAndCoalesce (listTreeEnv false) (firstReading ++ secondReading) plainOpts).map
      (fun out => decide (out.length < 40)) = some true := by decide +kernel
  have h2 : (stackAndCoalesce (listTreeEnv false) firstReading plainOpts).map
      (fun out => decide (∃ c ∈ out, c.entries.length = 2)) = some true := by decide +kernel
  have h3 : (stackAndCoalesce (listTreeEnv false) secondReading plainOpts).map
      (fun out => decide (out ≠ [])) = some true := by decide +kernel
  obtain ⟨out, h1, e1⟩ := Option.map_eq_some_iff.1 h1
  obtain ⟨outA, h2, e2⟩ := Option.map_eq_some_iff.1 h2
  obtain ⟨outB, h3, e3⟩ := Option.map_eq_some_iff.1 h3
  have hroom : RoomForGroups (firstReading ++ secondReading) :=
    room_of_small (by decide +kernel) (by decide +kernel) (by
      intro q hq kg hk
      simp only [firstReading, secondReading, List.cons_append, List.nil_append, List.mem_cons,
        List.not_mem_nil, or_false] at hq
      rcases hq with rfl | rfl | rfl <;> exact ⟨_, by rw [List.mem_singleton.1 hk]⟩)
  refine ⟨out, outA, outB, h1, h2, h3, of_decide_eq_true e2, of_decide_eq_true e3, ?_⟩
  exact C110_readings rfl rfl (List.Perm.refl _) (by unfold ExcludeEachOther; decide +kernel)
    ⟨by decide +kernel, by decide +kernel, by decide +kernel⟩ (few_of_small (by decide +kernel))
    (by unfold ZoomsAscend; decide +kernel) hroom (boxesCover_of (by decide +kernel)) h1 h2 h3
    (short_of_few (of_decide_eq_true e1))

end Carmen
