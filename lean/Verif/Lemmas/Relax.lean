import Verif.Model.NativeCoalesce
import Verif.Lemmas.Query

/-!
# What a build with checks returns, a build without returns too
-/

namespace Carmen
open Format Spec

/-- The second returns what the first returns, if that returns anything. -/
def Under {α : Type} (a b : Option α) : Prop := ∀ x, a = some x → b = some x

theorem Under.rfl {α : Type} {a : Option α} : Under a a := fun _ h => h

theorem Under.none {α : Type} {b : Option α} : Under none b := fun _ h => nomatch h

theorem Under.of_eq {α : Type} {a b : Option α} (h : a = b) : Under a b := h ▸ .rfl

theorem Under.bind {α β : Type} {a b : Option α} {f g : α → Option β} (h : Under a b)
    (hf : ∀ x, Under (f x) (g x)) : Under (a.bind f) (b.bind g) := by
  intro y hy
  obtain ⟨x, h1, h2⟩ := Option.bind_eq_some_iff.1 hy
  rw [h x h1, Option.bind_some]
  exact hf x y h2

theorem Under.map {α β : Type} {a b : Option α} (f : α → β) (h : Under a b) :
    Under (a.map f) (b.map f) := by
  intro y hy
  obtain ⟨x, h1, h2⟩ := Option.map_eq_some_iff.1 hy
  rw [h x h1, ← h2, Option.map_some]

theorem Under.mapM {α β : Type} {f g : α → Option β} {l : List α} (h : ∀ a, Under (f a) (g a)) :
    Under (l.mapM f) (l.mapM g) := fun _ hr => mapM_relax (fun a _ b hb => h a b hb) hr

theorem Under.foldlM {α β : Type} {f g : β → α → Option β} {l : List α}
    (h : ∀ s a, Under (f s a) (g s a)) (s : β) : Under (l.foldlM f s) (l.foldlM g s) := by
  induction l generalizing s with
  | nil => exact .rfl
  | cons a l ih =>
    rw [List.foldlM_cons, List.foldlM_cons]
    exact (h s a).bind fun s' => ih s'

theorem Under.ite {α : Type} {p : Prop} [Decidable p] {a b : Option α} (h : Under a b) :
    Under (if p then Option.none else a) b := by
  split_ifs
  · exact Under.none
  · exact h

/-! ## Arithmetic -/

theorem chk16_under {n m : ℕ} (h : chk16 n = some m) : m = n ∧ n < 2 ^ 16 := by
  unfold chk16 at h
  split_ifs at h with h1
  exact ⟨(Option.some.inj h).symm, h1⟩

theorem chkSub_under {a b m : ℕ} (h : chkSub a b = some m) : m = a - b ∧ b ≤ a := by
  unfold chkSub at h
  split_ifs at h with h1
  exact ⟨(Option.some.inj h).symm, h1⟩

theorem chkShift_under {n m : ℕ} (h : chkShift n = some m) : m = n ∧ n < 16 := by
  unfold chkShift at h
  split_ifs at h with h1
  exact ⟨(Option.some.inj h).symm, h1⟩

theorem shl_le {n : ℕ} (h : n < 16) : 1 <<< n < 2 ^ 16 := by
  rw [Nat.one_shiftLeft]
  exact Nat.pow_lt_pow_right (by norm_num) h

theorem sub16_of {a b : ℕ} (h : b ≤ a) (ha : a < 2 ^ 16) : sub16 a b = a - b := by
  unfold sub16
  rw [show a + 2 ^ 16 - b = a - b + 2 ^ 16 by omega, Nat.add_mod_right, Nat.mod_eq_of_lt (by omega)]

theorem adjustBBox_under (b : BBox) (s t : ℕ) :
    Under (adjustBBoxZoomChecked b s t) (some (adjustBBoxZoom b s t)) := by
  intro x h
  unfold adjustBBoxZoomChecked at h
  unfold adjustBBoxZoom
  split_ifs at h ⊢ with hlt
  · simp only [Option.bind_eq_bind, Option.bind_eq_some_iff] at h
    obtain ⟨n, h1, h2⟩ := h
    obtain ⟨rfl, hn⟩ := chkShift_under h1
    simp only [shr16, Nat.mod_eq_of_lt hn]
    exact h2
  · simp only [Option.bind_eq_bind, Option.bind_eq_some_iff] at h
    obtain ⟨n, h1, x0, h2, y0, h3, d, h4, x1, h5, x2, h6, y1, h7, y2, h8, h9⟩ := h
    obtain ⟨rfl, hn⟩ := chkShift_under h1
    obtain ⟨rfl, k2⟩ := chk16_under h2
    obtain ⟨rfl, k3⟩ := chk16_under h3
    obtain ⟨rfl, k4⟩ := chkSub_under h4
    obtain ⟨rfl, k5⟩ := chk16_under h5
    obtain ⟨rfl, k6⟩ := chk16_under h6
    obtain ⟨rfl, k7⟩ := chk16_under h7
    obtain ⟨rfl, k8⟩ := chk16_under h8
    simp only [oneShl16, Nat.mod_eq_of_lt hn, mul16, add16, sub16_of k4 (shl_le hn),
      Nat.mod_eq_of_lt k2, Nat.mod_eq_of_lt k3, Nat.mod_eq_of_lt k5, Nat.mod_eq_of_lt k6,
      Nat.mod_eq_of_lt k7, Nat.mod_eq_of_lt k8]
    exact h9

theorem adjustProximity_under (p : ℕ × ℕ) (s t : ℕ) :
    Under (adjustProximityChecked p s t) (some (adjustProximity p s t)) := by
  intro x h
  unfold adjustProximityChecked at h
  unfold adjustProximity
  split_ifs at h ⊢ with hlt
  · simp only [Option.bind_eq_bind, Option.bind_eq_some_iff] at h
    obtain ⟨n, h1, h2⟩ := h
    obtain ⟨rfl, hn⟩ := chkShift_under h1
    simp only [shr16, Nat.mod_eq_of_lt hn]
    exact h2
  · simp only [Option.bind_eq_bind, Option.bind_eq_some_iff] at h
    obtain ⟨n, h1, d, h4, x1, h5, x2, h6, y1, h7, y2, h8, h9⟩ := h
    obtain ⟨rfl, hn⟩ := chkShift_under h1
    obtain ⟨rfl, k4⟩ := chkSub_under h4
    obtain ⟨rfl, k5⟩ := chk16_under h5
    obtain ⟨rfl, k6⟩ := chk16_under h6
    obtain ⟨rfl, k7⟩ := chk16_under h7
    obtain ⟨rfl, k8⟩ := chk16_under h8
    have := shl_le hn
    simp only [oneShl16, Nat.mod_eq_of_lt hn, mul16, add16, sub16_of k4 (by omega),
      Nat.mod_eq_of_lt k5, Nat.mod_eq_of_lt k6, Nat.mod_eq_of_lt k7, Nat.mod_eq_of_lt k8]
    exact h9

theorem adjustToZoom_under (o : MatchOpts) (t : ℕ) :
    Under (o.adjustToZoomChecked t) (some (o.adjustToZoom t)) := by
  intro x h
  unfold MatchOpts.adjustToZoomChecked at h
  unfold MatchOpts.adjustToZoom
  split_ifs at h ⊢ with he
  · exact h
  · cases hp : o.proximity with
    | none =>
      rw [hp] at h
      cases hb : o.bbox with
      | none => rw [hb] at h; exact h
      | some b' =>
        rw [hb] at h
        simp only [Option.bind_eq_bind, Option.bind_some] at h
        obtain ⟨c, h4, h5⟩ := Option.bind_eq_some_iff.1 h
        obtain ⟨d, h6, rfl⟩ := Option.map_eq_some_iff.1 h4
        rw [← h5, ← Option.some.inj (adjustBBox_under _ _ _ _ h6)]
        rfl
    | some p' =>
      rw [hp] at h
      simp only [Option.bind_eq_bind] at h
      obtain ⟨c, h4, h5⟩ := Option.bind_eq_some_iff.1 h
      obtain ⟨d, h6, rfl⟩ := Option.map_eq_some_iff.1 h4
      have h7 := Option.some.inj (adjustProximity_under _ _ _ _ h6)
      cases hb : o.bbox with
      | none => rw [hb] at h5; rw [Option.map_some, h7]; exact h5
      | some b' =>
        rw [hb] at h5
        obtain ⟨c, h4, h5⟩ := Option.bind_eq_some_iff.1 h5
        obtain ⟨e, h8, rfl⟩ := Option.map_eq_some_iff.1 h4
        rw [← h5, ← h7, ← Option.some.inj (adjustBBox_under _ _ _ _ h8)]
        rfl

theorem nearbyOnly_under (o : MatchOpts) :
    Under o.withNearbyOnlyChecked (some o.withNearbyOnly) := by
  intro x h
  unfold MatchOpts.withNearbyOnlyChecked at h
  unfold MatchOpts.withNearbyOnly
  cases hp : o.proximity with
  | none => rw [hp] at h; exact h
  | some p =>
    rw [hp] at h
    simp only [Option.bind_eq_bind, Option.bind_eq_some_iff] at h
    obtain ⟨pad, h0, mx, h1, my, h2, h3⟩ := h
    unfold nearbyPaddingChecked at h0
    split at h0
    swap
    · cases h0
    cases h0
    obtain ⟨rfl, k1⟩ := chk16_under h1
    obtain ⟨rfl, k2⟩ := chk16_under h2
    simp only [add16, Nat.mod_eq_of_lt k1, Nat.mod_eq_of_lt k2]
    exact h3

/-! ## Coalesce -/

/-- The environment of a release build. -/
def Env.release (env : Env) : Env := { env with chk := false }

/-- The environment of a release build. -/
def TreeEnv.release (env : TreeEnv) : TreeEnv := { env with chk := false }

theorem query_under (env : Env) (s : Store) (mk : MatchKey) (o : MatchOpts) (n : ℕ) :
    Under (env.query s mk o n) (env.release.query s mk o n) := fun _ h => getMatching_relax h

theorem adjust_under (env : Env) (o : MatchOpts) (z : ℕ) :
    Under (env.adjust o z) (env.release.adjust o z) := by
  unfold Env.adjust Env.release
  simp only [Bool.false_eq_true, if_false]
  split_ifs
  · exact adjustToZoom_under o z
  · exact .rfl

theorem mkEntry_under (chk : Bool) (o : MatchOpts) (q : Subquery) (id : ℕ) (g : MatchEntry) :
    Under (mkEntry chk o q id g) (mkEntry false o q id g) := by
  unfold mkEntry
  rw [if_neg (c := ((false && _) = true)) (by simp)]
  exact .ite .rfl

theorem singleLoop_under {f g : MatchEntry → Option CoalesceEntry} (h : ∀ e, Under (f e) (g e))
    (noProx : Bool) (l : List MatchEntry) :
    ∀ s, Under (singleLoop f noProx s l) (singleLoop g noProx s l) := by
  induction l with
  | nil => intro s; exact .rfl
  | cons a l ih =>
    intro s
    unfold singleLoop
    refine (h a).bind fun e => ?_
    cases singleMove noProx s e with
    | skip => exact ih s
    | stop => exact .rfl
    | take => exact ih _
    | takeAndStop => exact .rfl

theorem coalesceSingle_under (env : Env) (o : IterOrder) (q : Subquery) (opts : MatchOpts) :
    Under (coalesceSingle env o q opts) (coalesceSingle env.release o q opts) := by
  unfold coalesceSingle singleFeatures
  refine Under.bind ?_ fun _ => .rfl
  refine Under.bind .rfl fun k => Under.bind (query_under _ _ _ _ _) fun grids => ?_
  exact Under.bind (singleLoop_under (fun e => mkEntry_under _ _ _ _ e) _ _ _) fun _ => .rfl

theorem tileAbove_under (chk : Bool) (z z' : ℕ) (e : CoalesceEntry) :
    Under (tileAbove chk z z' e) (tileAbove false z z' e) := by
  unfold tileAbove
  rw [if_neg (c := ((false && _) = true)) (by simp)]
  exact .ite .rfl

theorem multiGrid_under (chk : Bool) (zooms : List ℕ) (q : Subquery) (first last : Bool)
    (s : MultiState) (g : MatchEntry) :
    Under (multiGrid chk zooms q first last s g) (multiGrid false zooms q first last s g) := by
  unfold multiGrid
  refine (mkEntry_under _ _ _ _ _).bind fun e => ?_
  refine (Under.foldlM (fun c z => ?_) _).bind fun c => .rfl
  unfold absorbZoom
  exact (tileAbove_under _ _ _ _).bind fun _ => .rfl

theorem multiStep_under (env : Env) (o : IterOrder) (opts : MatchOpts) (stack : List Subquery)
    (s : MultiState) (i : ℕ) (q : Subquery) :
    Under (multiStep env o opts stack s i q) (multiStep env.release o opts stack s i q) := by
  unfold multiStep
  refine Under.bind ?_ fun a => Under.bind .rfl fun k => Under.bind (query_under _ _ _ _ _) fun grids =>
    Under.bind (Under.foldlM (fun s g => multiGrid_under _ _ _ _ _ s g) _) fun _ => .rfl
  unfold MultiState.optsFor
  split_ifs
  · exact adjust_under _ _ _
  · exact .rfl

theorem multiLoop_under (env : Env) (os : ℕ → IterOrder) (opts : MatchOpts) (stack : List Subquery)
    (l : List Subquery) : ∀ i s,
    Under (multiLoop env os opts stack i l s) (multiLoop env.release os opts stack i l s) := by
  induction l with
  | nil => intro i s; exact .rfl
  | cons q l ih =>
    intro i s
    unfold multiLoop
    exact (multiStep_under _ _ _ _ _ _ _).bind fun s => ih _ _

theorem coalesce_under (env : Env) (os : ℕ → IterOrder) (stack : List Subquery) (opts : MatchOpts) :
    Under (coalesce env os stack opts) (coalesce env.release os stack opts) := by
  unfold coalesce
  refine Under.bind ?_ fun _ => .rfl
  unfold allContexts
  split_ifs
  · exact Under.bind .rfl fun q => coalesceSingle_under _ _ _ _
  · unfold coalesceMulti
    exact (multiLoop_under _ _ _ _ _ _ _).bind fun _ => .rfl

/-! ## Tree coalesce -/

theorem newStep_under (env : Env) (opts : MatchOpts) (ix : ℕ) (node : StackNode) (q : Subquery)
    (prev : Option (List Context)) (z : ℕ) (p : F64) :
    Under (newStep env opts ix node q prev z p) (newStep env.release opts ix node q prev z p) := by
  unfold newStep
  exact (adjust_under _ _ _).bind fun _ => .rfl

theorem keyOpts_under (chk : Bool) (kg : KeyWithId) (o : MatchOpts) :
    Under (keyOpts chk kg o) (keyOpts false kg o) := by
  unfold keyOpts
  simp only [Bool.false_eq_true, if_false]
  split_ifs
  · exact nearbyOnly_under o
  · exact .rfl
  · exact .rfl

theorem isRangeKey_under (chk : Bool) (p : MatchPhrase) :
    Under (isRangeKey chk p) (isRangeKey false p) := by
  cases p with
  | exact id => exact .rfl
  | range s e =>
    unfold isRangeKey
    simp only
    rw [if_neg (c := ((false && _) = true)) (by simp)]
    exact .ite .rfl

theorem considerKey_under (env : TreeEnv) (cache : HMap ℕ (List MatchEntry)) (cs : List Context)
    (step : Step) (single : Bool) (f : Fill) (kg : KeyWithId) :
    Under (considerKey env cache cs step single f kg)
      (considerKey env.release cache cs step single f kg) := by
  unfold considerKey
  split_ifs
  · exact .rfl
  · exact (keyOpts_under _ _ _).bind fun o => (isRangeKey_under _ _).bind fun r => .rfl

theorem fillChunk_under (env : TreeEnv) (cache : HMap ℕ (List MatchEntry)) (cs : List Context) :
    ∀ n f, Under (fillChunk env cache cs n f) (fillChunk env.release cache cs n f) := by
  intro n
  induction n with
  | zero => intro f; exact .rfl
  | succ n ih =>
    intro f
    unfold fillChunk
    split_ifs
    · exact .rfl
    · change Under _ (match env.steps.peekMax f.steps with
        | none => some f
        | some step =>
          if cannotBeat env cs step then
            some { f with steps := env.steps.popMax f.steps, stopped := some step }
          else do
            let f' ← step.q.matchKeys.foldlM (considerKey env.release cache cs step step.isSingle)
              { f with steps := env.steps.popMax f.steps, enqueued := false }
            fillChunk env.release cache cs n (f'.settle step.isSingle step))
      cases env.steps.peekMax f.steps with
      | none => exact .rfl
      | some step =>
        simp only
        split_ifs
        · exact .rfl
        · exact (Under.foldlM (fun s a => considerKey_under _ _ _ _ _ s a) _).bind fun f' => ih _

theorem fetchKey_under (env : TreeEnv) (k : FetchKey) :
    Under (fetchKey env k) (fetchKey env.release k) := by
  unfold fetchKey
  split_ifs
  · refine (query_under _ _ _ _ _).bind fun grids => Under.bind ?_ fun _ => .rfl
    unfold treeSingle
    exact (singleLoop_under (fun e => mkEntry_under _ _ _ _ e) _ _ _).bind fun _ => .rfl
  · exact (query_under _ _ _ _ _).bind fun grids => .rfl

theorem scaleFactor_under (chk : Bool) (z p : ℕ) :
    Under (scaleFactor chk z p) (scaleFactor false z p) := by
  cases chk with
  | false => exact .rfl
  | true =>
    intro x h
    unfold scaleFactor at h ⊢
    simp only [if_true, Bool.false_eq_true, if_false] at h ⊢
    split_ifs at h with hz
    rw [← h, oneShl16, show z + 2 ^ 16 - p = z - p + 2 ^ 16 by omega, Nat.add_mod_right,
      Nat.mod_eq_of_lt (by omega : z - p < 2 ^ 16), Nat.mod_eq_of_lt hz.2]

theorem childBoxes_under (chk : Bool) (child : Store) (z : ℕ) :
    Under (childBoxes chk child z) (childBoxes false child z) := by
  unfold childBoxes
  simp only [Bool.false_eq_true, if_false]
  split_ifs
  · exact .rfl
  · intro l h
    have h1 := mapM_relax (g := fun b => some (adjustBBoxZoom b child.zoom z))
      (fun b _ c hc => adjustBBox_under b _ _ c hc) h
    rw [mapM_eq_some (g := fun b => adjustBBoxZoom b child.zoom z) fun _ _ => rfl] at h1
    exact h1
  · exact .rfl

theorem nextStep_under (env : TreeEnv) (t : StackTree) (opts : MatchOpts) (step : Step)
    (state : List Context) (best : F64) (c : ℕ) :
    Under (nextStep env t opts step state best c) (nextStep env.release t opts step state best c) := by
  unfold nextStep
  cases t.arena.get c with
  | none => exact .rfl
  | some child =>
    simp only
    refine Under.bind .rfl fun q => (childBoxes_under _ _ _).bind fun boxes => ?_
    split_ifs
    · exact (newStep_under _ _ _ _ _ _ _ _).map _
    · exact .rfl

theorem expandStep_under (env : TreeEnv) (t : StackTree) (opts : MatchOpts)
    (cache : HMap ℕ (List MatchEntry)) (step : Step) :
    Under (expandStep env t opts cache step) (expandStep env.release t opts cache step) := by
  unfold expandStep
  refine (scaleFactor_under _ _ _).bind fun scale => Under.bind (Under.mapM fun kg => ?_) fun groups =>
    Under.bind ?_ fun _ => .rfl
  · unfold expandKey
    cases HMap.find kg.id cache with
    | none => exact .rfl
    | some grids => exact (Under.mapM fun g => mkEntry_under _ _ _ _ g).map _
  · unfold nextSteps
    split_ifs
    · exact .rfl
    · exact (Under.mapM fun c => nextStep_under _ _ _ _ _ _ c).map _

theorem treeRound_under (env : TreeEnv) (t : StackTree) (opts : MatchOpts) (s : TreeState) :
    Under (treeRound env t opts s) (treeRound env.release t opts s) := by
  unfold treeRound
  exact (fillChunk_under _ _ _ _ _).bind fun f => (Under.mapM fun k => fetchKey_under _ k).bind fun fs =>
    (Under.mapM fun st => expandStep_under _ _ _ _ st).bind fun _ => .rfl

theorem treeLoop_under (env : TreeEnv) (t : StackTree) (opts : MatchOpts) : ∀ n s,
    Under (treeLoop env t opts n s) (treeLoop env.release t opts n s) := by
  intro n
  induction n with
  | zero => intro s; exact .rfl
  | succ n ih =>
    intro s
    unfold treeLoop
    split_ifs
    · exact .rfl
    · exact (treeRound_under _ _ _ _).bind fun s => ih s

theorem treeCoalesce_under (env : TreeEnv) (t : StackTree) (opts : MatchOpts) :
    Under (treeCoalesce env t opts) (treeCoalesce env.release t opts) := by
  unfold treeCoalesce
  refine Under.bind ?_ fun s => (treeLoop_under _ _ _ _ _).bind fun _ => .rfl
  unfold treeInit
  rw [if_neg (c := ((env.release.chk && _) = true)) (by simp [TreeEnv.release])]
  refine .ite (Under.map _ ?_)
  unfold firstSteps
  refine Under.map _ (Under.mapM fun c => ?_)
  cases t.arena.get c with
  | none => exact .rfl
  | some node => exact Under.bind .rfl fun q => (newStep_under _ _ _ _ _ _ _ _).map _

theorem stackAndCoalesce_under (env : TreeEnv) (qs : List Subquery) (opts : MatchOpts) :
    Under (stackAndCoalesce env qs opts) (stackAndCoalesce env.release qs opts) := by
  unfold stackAndCoalesce
  exact Under.bind .rfl fun _ => Under.bind .rfl fun t => treeCoalesce_under _ _ _

end Carmen
