import Verif.Spec.Motion
import Verif.Props.Growth

/-!
# C96: moving the map moves the results, and C97: ids are labels
-/

namespace Carmen
open Format Spec Builder

theorem motion_wf {m : Motion} {o : MatchOpts} (h : m.StaysOpts o) : OptsWf (m.opts o) := by
  refine ⟨?_, ?_⟩
  · intro b' hb
    obtain ⟨b, hb', rfl⟩ := Option.map_eq_some_iff.1 hb
    obtain ⟨⟨⟨h1, h2⟩, h3, h4⟩, ⟨h5, h6⟩, h7, h8⟩ := h.1 b hb'
    unfold Motion.box Motion.corners
    obtain ⟨swap, ⟨f1, d1⟩, ⟨f2, d2⟩⟩ := m
    revert h1 h2 h3 h4 h5 h6 h7 h8
    cases swap <;> cases f1 <;> cases f2 <;> simp [Motion.move, Axis.at] <;> omega
  · intro p' hp
    obtain ⟨p, hp', rfl⟩ := Option.map_eq_some_iff.1 hp
    obtain ⟨⟨h1, h2⟩, h3, h4⟩ := h.2 p hp'
    constructor <;> simp only <;> omega

theorem motion_boxFit {m : Motion} {o : MatchOpts} {chk : Bool} (h : m.StaysOpts o)
    (hf : BoxFit chk o) : BoxFit chk (m.opts o) := by
  intro hc b' hb
  obtain ⟨b, hb', rfl⟩ := Option.map_eq_some_iff.1 hb
  obtain ⟨g1, g2⟩ := hf hc b hb'
  obtain ⟨⟨⟨h1, h2⟩, h3, h4⟩, ⟨h5, h6⟩, h7, h8⟩ := h.1 b hb'
  unfold Motion.box Motion.corners
  obtain ⟨swap, ⟨f1, d1⟩, ⟨f2, d2⟩⟩ := m
  revert h1 h2 h3 h4 h5 h6 h7 h8
  cases swap <;> cases f1 <;> cases f2 <;> simp [Motion.move, Axis.at] <;> omega

theorem motion_inBox {m : Motion} {o : MatchOpts} (h : m.StaysOpts o) {e : GridEntry}
    (he : m.Stays e.x e.y) : InBox (m.opts o) (m.entry e) ↔ InBox o e := by
  obtain ⟨box, prox, zoom⟩ := o
  cases box with
  | none => exact Iff.rfl
  | some b =>
    obtain ⟨⟨⟨h1, h2⟩, h3, h4⟩, ⟨h5, h6⟩, h7, h8⟩ := h.1 b rfl
    obtain ⟨⟨g1, g2⟩, g3, g4⟩ := he
    change _ ∧ _ ∧ _ ∧ _ ↔ b.minX ≤ e.x ∧ e.x ≤ b.maxX ∧ b.minY ≤ e.y ∧ e.y ≤ b.maxY
    unfold Motion.box Motion.corners Motion.entry
    obtain ⟨swap, ⟨f1, d1⟩, ⟨f2, d2⟩⟩ := m
    revert h1 h2 h3 h4 h5 h6 h7 h8 g1 g2 g3 g4
    cases swap <;> cases f1 <;> cases f2 <;> simp [Motion.move, Axis.at] <;> omega

theorem motion_dist {m : Motion} {px py gx gy : ℕ} (h1 : px < 2 ^ 16) (h2 : py < 2 ^ 16)
    (h3 : gx < 2 ^ 16) (h4 : gy < 2 ^ 16) (hp : m.Stays px py) (hg : m.Stays gx gy) :
    tileDist (m.move px py).1.toNat (m.move px py).2.toNat (m.move gx gy).1.toNat
      (m.move gx gy).2.toNat = tileDist px py gx gy := by
  obtain ⟨⟨a1, a2⟩, a3, a4⟩ := hp
  obtain ⟨⟨b1, b2⟩, b3, b4⟩ := hg
  rw [tileDist_eq h1 h2 h3 h4, tileDist_eq (by omega) (by omega) (by omega) (by omega)]
  rw [Int.toNat_of_nonneg a1, Int.toNat_of_nonneg a3, Int.toNat_of_nonneg b1, Int.toNat_of_nonneg b3]
  congr 3
  obtain ⟨swap, ⟨f1, d1⟩, ⟨f2, d2⟩⟩ := m
  cases swap <;> cases f1 <;> cases f2 <;> simp only [Motion.move, Axis.at] <;> simp <;> ring

theorem motion_report {m : Motion} {o : MatchOpts} (ho : OptsWf o) (h : m.StaysOpts o) {e : GridEntry}
    (hx : e.x < 2 ^ 16) (hy : e.y < 2 ^ 16) (he : m.Stays e.x e.y) (radius : F64) (ml : Bool) :
    report (m.opts o) radius ml (m.entry e) = m.result (report o radius ml e) := by
  obtain ⟨box, prox, zoom⟩ := o
  cases prox with
  | none => rfl
  | some p =>
    obtain ⟨p1, p2⟩ := ho.2 p rfl
    have hd := motion_dist p1 p2 hx hy (h.2 p rfl) he
    have h1 : distanceOf (m.opts ⟨box, some p, zoom⟩) (m.entry e) =
        distanceOf ⟨box, some p, zoom⟩ e := hd
    have h2 : WithinRadius (m.opts ⟨box, some p, zoom⟩) radius (m.entry e) ↔
        WithinRadius ⟨box, some p, zoom⟩ radius e := by
      change F64.fle (tileDist (m.move p.1 p.2).1.toNat (m.move p.1 p.2).2.toNat
        (m.move e.x e.y).1.toNat (m.move e.x e.y).2.toNat) (proximityRadius zoom radius) = true ↔ _
      rw [hd]
      rfl
    have h3 : scoredistOf (m.opts ⟨box, some p, zoom⟩) radius (m.entry e) =
        scoredistOf ⟨box, some p, zoom⟩ radius e := by
      change scoredist zoom (tileDist (m.move p.1 p.2).1.toNat (m.move p.1 p.2).2.toNat
        (m.move e.x e.y).1.toNat (m.move e.x e.y).2.toNat) e.score radius = _
      rw [hd]
      rfl
    unfold report Motion.result
    rw [h1, h3]
    simp only [h2]
    rfl

/-- What is asked of functions on entries and on results for the second query to return the results of
the first one, mapped. -/
def Commutes (c : Content) (radius : F64) (opts opts' : MatchOpts) (f : GridEntry → GridEntry)
    (g : MatchEntry → MatchEntry) : Prop :=
  ∀ k es e, c k = some es → e ∈ es → (InBox opts' (f e) ↔ InBox opts e) ∧
    ∀ ml, report opts' radius ml (storedAny (f e)) = g (report opts radius ml (storedAny e))

section
variable {c : Content} {s s' : Store} {f : GridEntry → GridEntry} {g : MatchEntry → MatchEntry}
  {opts opts' : MatchOpts} {chk : Bool} {n : ℕ} (hc : StoreWith c s)
  (hc' : StoreWith (fun k => (c k).map (List.map f)) s') (hrad : s'.radius = s.radius)
  (hg : Commutes c s.radius opts opts' f g) (M M' : KMerger) (H H' : Heap QueueElement.key)
  (lang : ℕ) (ho : OptsWf opts) (hbf : BoxFit chk opts) (hn : NumbersOk opts s.radius)
  (ho' : OptsWf opts') (hbf' : BoxFit chk opts') (hn' : NumbersOk opts' s'.radius)
include hc hc' hrad hg ho hbf hn ho' hbf' hn'

theorem mapped_query {phrase : MatchPhrase} (hph : phrase.start < 2 ^ 32)
    (hmax : phrase ≠ .exact (2 ^ 32 - 1)) (hb : ¬ FromBins s phrase) (hb' : ¬ FromBins s' phrase)
    (hlim : ∀ ks, s.keys = some ks → ks.length ≤ n)
    (hlim' : ∀ ks, s'.keys = some ks → ks.length ≤ n) :
    ∃ out out', s.getMatching M H chk ⟨phrase, lang⟩ opts n = some out ∧
      s'.getMatching M' H' chk ⟨phrase, lang⟩ opts' n = some out' ∧
      ∀ r, r ∈ out' ↔ r ∈ out.map g := by
  obtain ⟨out, h1, h2⟩ := storeWith_query hc M H chk phrase lang hph hmax hb ho hbf hn hlim
  obtain ⟨out', h3, h4⟩ := storeWith_query hc' M' H' chk phrase lang hph hmax hb' ho' hbf' hn' hlim'
  refine ⟨out, out', h1, h3, fun r => ?_⟩
  rw [h4, List.mem_map, hrad]
  constructor
  · rintro ⟨k, es', e', k1, k2, k3, k4, rfl⟩
    obtain ⟨es, k5, rfl⟩ := Option.map_eq_some_iff.1 k1
    obtain ⟨e, k6, rfl⟩ := List.mem_map.1 k3
    obtain ⟨i1, i2⟩ := hg k es e k5 k6
    exact ⟨_, (h2 _).2 ⟨k, es, e, k5, k2, k6, i1.1 k4, rfl⟩, (i2 _).symm⟩
  · rintro ⟨r, hr, rfl⟩
    obtain ⟨k, es, e, k1, k2, k3, k4, rfl⟩ := (h2 r).1 hr
    obtain ⟨i1, i2⟩ := hg k es e k1 k3
    exact ⟨k, es.map f, f e, by rw [k1]; rfl, k2, List.mem_map_of_mem k3, i1.2 k4, (i2 _).symm⟩

theorem mapped_bins {st en : ℕ} (hop : AsOpened s) (hop' : AsOpened s')
    (hb : st ∈ s.bounds ∧ en ∈ s.bounds) (hasc : s.bounds.Pairwise (· ≤ ·))
    (hbs : s'.bounds = s.bounds) (hlim : s.db.length ≤ n) (hlim' : s'.db.length ≤ n) :
    ∃ out out', s.getMatching M H chk ⟨.range st en, lang⟩ opts n = some out ∧
      s'.getMatching M' H' chk ⟨.range st en, lang⟩ opts' n = some out' ∧
      ∀ r, r ∈ out' ↔ r ∈ out.map g := by
  obtain ⟨h32, out, h1, p, h2, h3⟩ := bins_query hc hop M H chk lang hb hasc ho hbf hn hlim
  obtain ⟨-, out', g1, p', g2, g3⟩ := bins_query hc' hop' M' H' chk lang (hbs ▸ hb) (hbs ▸ hasc)
    ho' hbf' hn' hlim'
  rw [hbs] at g2
  have hph : (MatchPhrase.range (binStart s.bounds st en) en).start < 2 ^ 32 := by
    simp only [MatchPhrase.start, binStart]
    split_ifs
    · decide
    · exact h32
  obtain ⟨p1, p1', k1, k2, k3⟩ := mapped_query (s := { s with bounds := [] })
    (s' := { s' with bounds := [] }) hc hc' hrad hg M M' H H' lang ho hbf hn ho' hbf' hn' hph nofun
    (by rintro ⟨_, _, _, h, -⟩; cases h) (by rintro ⟨_, _, _, h, -⟩; cases h)
    (keys_le (s := { s with bounds := [] }) hlim) (keys_le (s := { s' with bounds := [] }) hlim')
  rw [h2] at k1
  cases k1
  rw [g2] at k2
  cases k2
  refine ⟨out, out', h1, g1, fun r => ?_⟩
  rw [g3, k3, List.mem_map, List.mem_map]
  exact exists_congr fun a => and_congr_left fun _ => (h3 a).symm

end

/-! ## Motions -/

theorem motion_commutes {c : Content} {s : Store} {m : Motion} {opts : MatchOpts} (hc : StoreWith c s)
    (hst : m.StaysContent c) (ho : OptsWf opts) (hso : m.StaysOpts opts) :
    Commutes c s.radius opts (m.opts opts) m.entry m.result := by
  intro k es e hk he
  have hs := hst k es hk e he
  have hw := storeWith_wf hc k es hk e he
  exact ⟨motion_inBox hso hs, fun _ =>
    motion_report ho hso (e := storedAny e) hw.2.1 hw.2.2.1 hs _ _⟩

theorem motion_numbers {s s' : Store} (m : Motion) {opts : MatchOpts} (hrad : s'.radius = s.radius)
    (hn : NumbersOk opts s.radius) : NumbersOk (m.opts opts) s'.radius := by
  intro hp
  rw [hrad]
  exact hn fun e => hp (by unfold Motion.opts; rw [e]; rfl)

/-- **C96**: a query on a store with everything moved, with the box and the point moved alike, returns
the results of the query on the first store, moved. -/
theorem C96_query {c : Content} {s s' : Store} {m : Motion} (hc : StoreWith c s)
    (hc' : StoreWith (m.content c) s') (hst : m.StaysContent c) (hrad : s'.radius = s.radius)
    (M M' : KMerger) (H H' : Heap QueueElement.key) (chk : Bool) {phrase : MatchPhrase} (lang : ℕ)
    (hph : phrase.start < 2 ^ 32) (hmax : phrase ≠ .exact (2 ^ 32 - 1)) (hb : ¬ FromBins s phrase)
    (hb' : ¬ FromBins s' phrase) {opts : MatchOpts} (ho : OptsWf opts) (hso : m.StaysOpts opts)
    (hbf : BoxFit chk opts) (hn : NumbersOk opts s.radius) {n : ℕ}
    (hlim : ∀ ks, s.keys = some ks → ks.length ≤ n)
    (hlim' : ∀ ks, s'.keys = some ks → ks.length ≤ n) :
    ∃ out out', s.getMatching M H chk ⟨phrase, lang⟩ opts n = some out ∧
      s'.getMatching M' H' chk ⟨phrase, lang⟩ (m.opts opts) n = some out' ∧
      ∀ r, r ∈ out' ↔ r ∈ out.map m.result :=
  mapped_query hc hc' hrad (motion_commutes hc hst ho hso) M M' H H' lang ho hbf hn (motion_wf hso)
    (motion_boxFit hso hbf) (motion_numbers m hrad hn) hph hmax hb hb' hlim hlim'

/-- **C96**, ranges answered from prefix bins. -/
theorem C96_bins {c : Content} {s s' : Store} {m : Motion} (hc : StoreWith c s)
    (hc' : StoreWith (m.content c) s') (hop : AsOpened s) (hop' : AsOpened s')
    (hst : m.StaysContent c) (hrad : s'.radius = s.radius) (M M' : KMerger)
    (H H' : Heap QueueElement.key) (chk : Bool) {st en : ℕ} (lang : ℕ)
    (hb : st ∈ s.bounds ∧ en ∈ s.bounds) (hasc : s.bounds.Pairwise (· ≤ ·))
    (hbs : s'.bounds = s.bounds) {opts : MatchOpts} (ho : OptsWf opts) (hso : m.StaysOpts opts)
    (hbf : BoxFit chk opts) (hn : NumbersOk opts s.radius) {n : ℕ} (hlim : s.db.length ≤ n)
    (hlim' : s'.db.length ≤ n) :
    ∃ out out', s.getMatching M H chk ⟨.range st en, lang⟩ opts n = some out ∧
      s'.getMatching M' H' chk ⟨.range st en, lang⟩ (m.opts opts) n = some out' ∧
      ∀ r, r ∈ out' ↔ r ∈ out.map m.result :=
  mapped_bins hc hc' hrad (motion_commutes hc hst ho hso) M M' H H' lang ho hbf hn (motion_wf hso)
    (motion_boxFit hso hbf) (motion_numbers m hrad hn) hop hop' hb hasc hbs hlim hlim'

/-! ## Labels -/

theorem relabel_commutes {c : Content} {f : ℕ → ℕ → ℕ × ℕ} (hl : LabelsFit f c) (radius : F64)
    (opts : MatchOpts) :
    Commutes c radius opts opts (relabel f) fun r => { r with entry := relabel f r.entry } := by
  intro k es e hk he
  obtain ⟨h1, h2⟩ := hl k es e hk he
  refine ⟨Iff.rfl, fun _ => ?_⟩
  have : storedAny (relabel f e) = relabel f (storedAny e) := by
    simp only [storedAny, relabel, Nat.mod_eq_of_lt h1, Nat.mod_eq_of_lt h2]
  rw [this]
  generalize storedAny e = e
  unfold report
  congr 1

/-- **C97**: ids of features and sources are labels. A query on a store with other ids returns the
results of the query on the first store with these ids, if they fit in 24 bits; two ids may become
one. -/
theorem C97_query {c : Content} {s s' : Store} {rename : ℕ → ℕ → ℕ × ℕ} (hc : StoreWith c s)
    (hc' : StoreWith (relabelled rename c) s') (hl : LabelsFit rename c)
    (hrad : s'.radius = s.radius) (M M' : KMerger) (H H' : Heap QueueElement.key) (chk : Bool) {phrase : MatchPhrase} (lang : ℕ)
    (hph : phrase.start < 2 ^ 32) (hmax : phrase ≠ .exact (2 ^ 32 - 1)) (hb : ¬ FromBins s phrase)
    (hb' : ¬ FromBins s' phrase) {opts : MatchOpts} (ho : OptsWf opts)
    (hbf : BoxFit chk opts) (hn : NumbersOk opts s.radius) {n : ℕ}
    (hlim : ∀ ks, s.keys = some ks → ks.length ≤ n)
    (hlim' : ∀ ks, s'.keys = some ks → ks.length ≤ n) :
    ∃ out out', s.getMatching M H chk ⟨phrase, lang⟩ opts n = some out ∧
      s'.getMatching M' H' chk ⟨phrase, lang⟩ opts n = some out' ∧
      ∀ r, r ∈ out' ↔ r ∈ out.map fun r => { r with entry := relabel rename r.entry } :=
  mapped_query hc hc' hrad (relabel_commutes hl _ opts) M M' H H' lang ho hbf hn ho hbf
    (hrad ▸ hn) hph hmax hb hb' hlim hlim'

/-- **C97**, ranges answered from prefix bins. -/
theorem C97_bins {c : Content} {s s' : Store} {rename : ℕ → ℕ → ℕ × ℕ} (hc : StoreWith c s)
    (hc' : StoreWith (relabelled rename c) s') (hl : LabelsFit rename c) (hop : AsOpened s) (hop' : AsOpened s')
    (hrad : s'.radius = s.radius) (M M' : KMerger)
    (H H' : Heap QueueElement.key) (chk : Bool) {st en : ℕ} (lang : ℕ)
    (hb : st ∈ s.bounds ∧ en ∈ s.bounds) (hasc : s.bounds.Pairwise (· ≤ ·))
    (hbs : s'.bounds = s.bounds) {opts : MatchOpts} (ho : OptsWf opts)
    (hbf : BoxFit chk opts) (hn : NumbersOk opts s.radius) {n : ℕ} (hlim : s.db.length ≤ n)
    (hlim' : s'.db.length ≤ n) :
    ∃ out out', s.getMatching M H chk ⟨.range st en, lang⟩ opts n = some out ∧
      s'.getMatching M' H' chk ⟨.range st en, lang⟩ opts n = some out' ∧
      ∀ r, r ∈ out' ↔ r ∈ out.map fun r => { r with entry := relabel rename r.entry } :=
  mapped_bins hc hc' hrad (relabel_commutes hl _ opts) M M' H H' lang ho hbf hn ho hbf
    (hrad ▸ hn) hop hop' hb hasc hbs hlim hlim'

/-! ## Examples -/

/-- Two entries. -/
def motionCalls : List Call := [.append ⟨1, 1⟩ [⟨1, 3, 1, 2, 7, 0⟩, ⟨lit 0.8, 5, 4, 6, 8, 0⟩]]

/-- The map is mirrored at the diagonal, and then turned round horizontally. -/
def motionTurn : Motion := ⟨true, ⟨true, 10⟩, ⟨false, 3⟩⟩

/-- The same entries after that. -/
def turnedCalls : List Call := [.append ⟨1, 1⟩ [⟨1, 3, 8, 4, 7, 0⟩, ⟨lit 0.8, 5, 4, 7, 8, 0⟩]]

/-- A box around one of them, and a point near it. -/
def motionOpts : MatchOpts := ⟨some ⟨0, 1, 3, 5⟩, some (2, 2), 6⟩

theorem motion_content : motionTurn.content (Content.run motionCalls) = Content.run turnedCalls := by
  funext k
  simp only [motionCalls, turnedCalls, Content.run, List.foldl_cons, List.foldl_nil, Content.call,
    Content.set, Motion.content]
  by_cases hk : k = ⟨1, 1⟩
  · subst hk
    simp [Motion.entry, Motion.move, motionTurn, Axis.at]
  · simp [hk]

theorem motionCalls_with : StoreWith (Content.run motionCalls) (growthStore motionCalls 6 0) := by
  refine growth_storeWith ?_ ?_ (by decide +kernel) (by decide +kernel) _ _ <;> intro d hd <;>
    simp only [motionCalls, List.mem_cons, List.not_mem_nil, or_false] at hd
  · exact ⟨_, _, hd⟩
  · subst hd
    simp [Call.Wf, GridKey.Wf, GridEntry.Wf]

theorem turnedCalls_with : StoreWith (motionTurn.content (Content.run motionCalls))
    (growthStore turnedCalls 6 0) := by
  rw [motion_content]
  refine growth_storeWith ?_ ?_ (by decide +kernel) (by decide +kernel) _ _ <;> intro d hd <;>
    simp only [turnedCalls, List.mem_cons, List.not_mem_nil, or_false] at hd
  · exact ⟨_, _, hd⟩
  · subst hd
    simp [Call.Wf, GridKey.Wf, GridEntry.Wf]

example : motionTurn.opts motionOpts = ⟨some ⟨5, 3, 9, 6⟩, some (8, 5), 6⟩ ∧ ∃ out out',
    (growthStore motionCalls 6 0).getMatching listMerger (listHeap _) true ⟨.exact 1, 1⟩ motionOpts 9 =
      some out ∧
    (growthStore turnedCalls 6 0).getMatching listMerger (listHeap _) true ⟨.exact 1, 1⟩
      (motionTurn.opts motionOpts) 9 = some out' ∧ out.length = 1 ∧
    ∀ r, r ∈ out' ↔ r ∈ out.map motionTurn.result := by
  refine ⟨by decide, ?_⟩
  have h1 : ((growthStore motionCalls 6 0).getMatching listMerger (listHeap _) true ⟨.exact 1, 1⟩
      motionOpts 9).map List.length = some 1 := by decide +kernel
  obtain ⟨out, out', g1, g2, g3⟩ := C96_query motionCalls_with turnedCalls_with (by
      intro k es hk e he
      simp only [motionCalls, Content.run, List.foldl_cons, List.foldl_nil, Content.call,
        Content.set] at hk
      by_cases h : k = ⟨1, 1⟩
      · subst h
        simp only [if_true] at hk
        cases hk
        simp only [Option.getD_none, List.nil_append, List.mem_cons, List.not_mem_nil, or_false] at he
        rcases he with rfl | rfl <;> simp [Motion.Stays, Motion.move, motionTurn, Axis.at]
      · simp [h] at hk) rfl listMerger listMerger (listHeap _) (listHeap _) true
    (phrase := .exact 1) 1 (by decide) (by decide) (by rintro ⟨_, _, h, -⟩; cases h)
    (by rintro ⟨_, _, h, -⟩; cases h) (opts := motionOpts)
    ⟨by rintro b ⟨⟩; decide, by rintro b ⟨⟩; decide⟩
    ⟨by rintro b ⟨⟩; simp [Motion.Stays, Motion.move, motionTurn, Axis.at],
      by rintro b ⟨⟩; simp [Motion.Stays, Motion.move, motionTurn, Axis.at]⟩
    (by rintro _ b ⟨⟩; decide) (fun _ => ⟨by decide, by decide +kernel⟩) (n := 9)
    (keys_le (by decide +kernel)) (keys_le (by decide +kernel))
  rw [g1] at h1
  exact ⟨out, out', g1, g2, by simpa using h1, g3⟩

/-- The entries of `motionCalls` with other ids; they become one feature. -/
def labelledCalls : List Call := [.append ⟨1, 1⟩ [⟨1, 3, 1, 2, 9, 1⟩, ⟨lit 0.8, 5, 4, 6, 9, 1⟩]]

theorem labelledCalls_with : StoreWith (relabelled (fun _ hash => (9, hash + 1))
    (Content.run motionCalls)) (growthStore labelledCalls 6 0) := by
  have : relabelled (fun _ hash => (9, hash + 1)) (Content.run motionCalls) =
      Content.run labelledCalls := by
    funext k
    simp only [motionCalls, labelledCalls, Content.run, List.foldl_cons, List.foldl_nil, Content.call,
      Content.set, relabelled]
    by_cases hk : k = ⟨1, 1⟩
    · subst hk
      simp [relabel]
    · simp [hk]
  rw [this]
  refine growth_storeWith ?_ ?_ (by decide +kernel) (by decide +kernel) _ _ <;> intro d hd <;>
    simp only [labelledCalls, List.mem_cons, List.not_mem_nil, or_false] at hd
  · exact ⟨_, _, hd⟩
  · subst hd
    simp [Call.Wf, GridKey.Wf, GridEntry.Wf]

theorem labelled_fit : LabelsFit (fun _ hash => (9, hash + 1)) (Content.run motionCalls) := by
  intro k es e hk he
  simp only [motionCalls, Content.run, List.foldl_cons, List.foldl_nil, Content.call,
    Content.set] at hk
  split_ifs at hk
  cases hk
  simp only [Option.getD_none, List.nil_append, List.mem_cons, List.not_mem_nil, or_false] at he
  rcases he with rfl | rfl <;> decide

example : ∃ out out',
    (growthStore motionCalls 6 0).getMatching listMerger (listHeap _) true ⟨.exact 1, 1⟩ plainOpts 9 =
      some out ∧
    (growthStore labelledCalls 6 0).getMatching listMerger (listHeap _) true ⟨.exact 1, 1⟩ plainOpts 9 =
      some out' ∧ out.length = 2 ∧ ∀ r, r ∈ out' ↔
        r ∈ out.map fun r => { r with entry := relabel (fun _ hash => (9, hash + 1)) r.entry } := by
  have h1 : ((growthStore motionCalls 6 0).getMatching listMerger (listHeap _) true ⟨.exact 1, 1⟩
      plainOpts 9).map List.length = some 2 := by decide +kernel
  obtain ⟨out, out', g1, g2, g3⟩ := C97_query motionCalls_with labelledCalls_with labelled_fit rfl listMerger
    listMerger (listHeap _) (listHeap _) true (phrase := .exact 1) 1 (by decide) (by decide)
    (by rintro ⟨_, _, h, -⟩; cases h) (by rintro ⟨_, _, h, -⟩; cases h) (opts := plainOpts)
    ⟨by decide, by decide⟩ (by rintro _ b ⟨⟩) (fun _ => ⟨by decide, by decide +kernel⟩) (n := 9)
    (keys_le (by decide +kernel)) (keys_le (by decide +kernel))
  rw [g1] at h1
  exact ⟨out, out', g1, g2, by simpa using h1, g3⟩

end Carmen
