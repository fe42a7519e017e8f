import Verif.Props.Arena
import Verif.Lemmas.StackPath

/-!
# C33 for the tree construction: `stackable` never panics
-/

namespace Carmen

theorem add_le_max {a w : F64} (ha : a ≤ F64.maxValue) (hw : w.IsFin) (hw1 : w ≤ 1) :
    a + w ≤ F64.maxValue := by
  obtain ⟨q, rfl⟩ := hw.exists
  cases a with
  | nan => exact absurd ha (by decide +kernel)
  | inf s =>
    cases s with
    | false => exact absurd ha (by decide +kernel)
    | true => exact ha
  | fin p =>
    have h1 : F64.maxValue + 1 = F64.maxValue := by decide +kernel
    refine le_trans (F64.add_mono (c := F64.maxValue) (d := 1) trivial trivial trivial trivial ha
      hw1) (le_of_eq h1)

/-- The arena can be reached and is no limit of zero. -/
theorem stackLoop_total {sm : ℕ} (h0 : 0 < sm) {bins : List PmBin}
    (hw : ∀ q ∈ bins.flatMap PmBin.pms, q.weight.IsFin ∧ q.weight ≤ 1) :
    ∀ {relev : F64} {st : StackNode × Arena}, relev ≤ F64.maxValue →
    st.1.maxRelev ≤ F64.maxValue → ArenaReached sm st.2 →
    ∃ st', stackLoop bins relev st = some st' ∧ st'.1.maxRelev ≤ F64.maxValue ∧
      ArenaReached sm st'.2 := by
  induction bins with
  | nil => intro relev st _ h2 h3; exact ⟨st, rfl, h2, h3⟩
  | cons g rest ih =>
    intro relev st hr hm ha
    have hwr : ∀ q ∈ rest.flatMap PmBin.pms, q.weight.IsFin ∧ q.weight ≤ 1 := by
      intro q hq
      refine hw q ?_
      rw [List.flatMap_cons]
      simp [hq]
    have hstep : ∀ pm ∈ g.pms, ∀ b : StackNode × Arena, b.1.maxRelev ≤ F64.maxValue →
        ArenaReached sm b.2 → ∃ b', stackStep g rest relev b pm = some b' ∧
          b'.1.maxRelev ≤ F64.maxValue ∧ ArenaReached sm b'.2 := by
      intro pm hpm b hb1 hb2
      unfold stackStep
      by_cases hf : b.1.mask &&& pm.mask = 0 ∧ b.1.idx ∉ pm.nonOverlapping
      · rw [if_pos hf]
        by_cases hfull : (b.2.isFull &&
            F64.flt (relev + pm.weight + g.maxAfter) b.2.minRelev) = true
        · rw [if_pos hfull]
          exact ⟨b, rfl, hb1, hb2⟩
        · rw [if_neg hfull]
          have hpw := hw pm (by rw [List.flatMap_cons]; simp [hpm])
          have ht := add_le_max hr hpw.1 hpw.2
          obtain ⟨r, e1, e2, e3⟩ := ih hwr (relev := relev + pm.weight)
            (st := (childNode b.1 pm (relev + pm.weight), b.2)) ht ht hb2
          rw [e1]
          have hne := C33_never_panics_partial e3 h0 r.1
          cases hadd : r.2.add r.1 with
          | none => exact absurd hadd hne
          | some added =>
            refine ⟨(linkChild b.1 r.1 added.2, added.1), by simp [hadd], ?_, e3.add e2 hadd⟩
            cases added.2 with
            | none => exact hb1
            | some i =>
              show (if F64.flt b.1.maxRelev r.1.maxRelev then r.1.maxRelev else b.1.maxRelev) ≤ _
              split_ifs
              · exact e2
              · exact hb1
      · rw [if_neg hf]
        exact ⟨b, rfl, hb1, hb2⟩
    have hfold : ∀ (l : List Subquery) (b : StackNode × Arena), (∀ pm ∈ l, pm ∈ g.pms) →
        b.1.maxRelev ≤ F64.maxValue → ArenaReached sm b.2 →
        ∃ b', l.foldlM (stackStep g rest relev) b = some b' ∧
          b'.1.maxRelev ≤ F64.maxValue ∧ ArenaReached sm b'.2 := by
      intro l
      induction l with
      | nil => intro b _ h1 h2; exact ⟨b, rfl, h1, h2⟩
      | cons pm t iht =>
        intro b hl h1 h2
        obtain ⟨b1, e1, e2, e3⟩ := hstep pm (hl pm (by simp)) b h1 h2
        obtain ⟨b2, f1, f2, f3⟩ := iht b1 (fun q hq => hl q (by simp [hq])) e2 e3
        exact ⟨b2, by rw [List.foldlM_cons, e1]; exact f1, f2, f3⟩
    obtain ⟨b, e1, e2, e3⟩ := hfold g.pms st (fun _ h => h) hm ha
    obtain ⟨b', f1, f2, f3⟩ := ih hwr hr e2 e3
    exact ⟨b', by rw [stackLoop_cons, e1]; exact f1, f2, f3⟩

/-- C33 for `stackable` itself: with weights that are numbers of at most 1 (they are shares of the
query) the tree is built without a panic, for every list and every limit, and the node store it ends
with is one the properties above speak of. -/
theorem C33_stackable_never_panics {sm : ℕ} (h0 : 0 < sm) {pms : List Subquery}
    (hw : ∀ q ∈ pms, q.weight.IsFin ∧ q.weight ≤ 1) :
    ∃ t, stackableWith sm pms = some t ∧ ArenaReached sm t.arena := by
  obtain ⟨st, h1, h2, h3⟩ := stackLoop_total h0 (bins := pmBins pms)
    (fun q hq => hw q ((pmBins_perm pms).mem_iff.1 hq)) (relev := 0)
    (st := (rootNode, Arena.new sm)) (by decide +kernel)
    (show rootNode.maxRelev ≤ F64.maxValue by decide +kernel) .new
  exact ⟨⟨st.1, st.2⟩, by unfold stackableWith; rw [h1]; rfl, h3⟩

/-- A limit of one, exceeded by three leaves. -/
example : ((stackableWith 1 [⟨⟨[], [], 6, 0, 0, [], 0⟩, 1, [], lit 0.25, 1, []⟩,
    ⟨⟨[], [], 6, 0, 0, [], 0⟩, 1, [], lit 0.25, 2, []⟩,
    ⟨⟨[], [], 6, 0, 0, [], 0⟩, 1, [], lit 0.5, 4, []⟩]).map fun t =>
      (t.root.children, t.arena.totalLeaves)) = some ([0], 1) := by decide +kernel

end Carmen
