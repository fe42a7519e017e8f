import Verif.Model.Parallel

/-!
# C46: parallel phases
-/

namespace Carmen

variable {α σ ρ : Type}

/-- What a slot is for a task: waiting, or on the way to a result, or holding it. -/
def SlotOf (p : Prog σ ρ) (load : α → σ) (a : α) : Slot α σ ρ → Prop
  | .waiting b => b = a
  | .running _ s => ∀ r, Eval p s r → Eval p (load a) r
  | .done r => Eval p (load a) r

theorem slotOf_step {p : Prog σ ρ} {load : α → σ} {a : α} {w : ℕ} {s : σ}
    (h : SlotOf p load a (.running w s)) : SlotOf p load a (Slot.after w (p.step s)) := by
  cases hs : p.step s with
  | inl s' => exact fun r hr => h r (.next hs hr)
  | inr r => exact h r (.stop hs)

theorem forall₂_set {β γ : Type} {R : β → γ → Prop} {xs : List β} {pre post : List γ} {a b : γ}
    (h : List.Forall₂ R xs (pre ++ a :: post)) (hab : ∀ x, R x a → R x b) :
    List.Forall₂ R xs (pre ++ b :: post) := by
  induction pre generalizing xs with
  | nil =>
    cases h with
    | cons h1 h2 => exact .cons (hab _ h1) h2
  | cons c pre ih =>
    cases h with
    | cons h1 h2 => exact .cons h1 (ih h2)

theorem PoolRun.slots {p : Prog σ ρ} {load : α → σ} {n k : ℕ} {xs : List α}
    {slots : List (Slot α σ ρ)} (h : PoolRun p load n k (xs.map .waiting) slots) :
    List.Forall₂ (SlotOf p load) xs slots := by
  generalize hs : xs.map Slot.waiting = start at h
  induction h with
  | refl =>
    subst hs
    induction xs with
    | nil => exact .nil
    | cons x xs ih => exact .cons rfl ih
  | tail _ h' ih =>
    have ih := ih hs
    cases h' with
    | take pre post a w _ _ =>
      refine forall₂_set ih ?_
      intro x (hx : a = x)
      subst hx
      exact fun r hr => hr
    | go pre post w s _ => exact forall₂_set ih fun x hx => slotOf_step hx

/-- A program has one result. -/
theorem Eval.unique {p : Prog σ ρ} {s : σ} {r₁ r₂ : ρ} (h₁ : Eval p s r₁) (h₂ : Eval p s r₂) :
    r₁ = r₂ := by
  induction h₁ with
  | stop h =>
    cases h₂ with
    | stop h' => exact Sum.inr.inj (h.symm.trans h')
    | next h' _ => exact absurd (h.symm.trans h') (by simp)
  | next h _ ih =>
    cases h₂ with
    | stop h' => exact absurd (h.symm.trans h') (by simp)
    | next h' h'' => exact ih (by rwa [Sum.inl.inj (h.symm.trans h')])

/-- C46: however the workers interleave, once every task has a result, the results are in the order
of the tasks, and each is what its task gives when run alone. -/
theorem C46_in_order {p : Prog σ ρ} {load : α → σ} {n k : ℕ} {xs : List α} {ys : List ρ}
    (h : PoolRun p load n k (xs.map .waiting) (ys.map .done)) :
    List.Forall₂ (fun x y => Eval p (load x) y) xs ys := by
  have := h.slots
  rwa [List.forall₂_map_right_iff] at this

/-- C46: all schedules, with any number of workers, give the same results. -/
theorem C46_deterministic {p : Prog σ ρ} {load : α → σ} {n m k l : ℕ} {xs : List α} {ys zs : List ρ}
    (h : PoolRun p load n k (xs.map .waiting) (ys.map .done))
    (h' : PoolRun p load m l (xs.map .waiting) (zs.map .done)) : ys = zs := by
  have h1 := C46_in_order h
  have h2 := C46_in_order h'
  clear h h'
  induction h1 generalizing zs with
  | nil => cases h2; rfl
  | cons e _ ih =>
    cases h2 with
    | cons e' h2 => rw [e.unique e', ih h2]

/-- C46: the workers never get stuck before every task has its result. -/
theorem C46_no_deadlock {p : Prog σ ρ} {load : α → σ} {n k : ℕ} (hn : 0 < n) {xs : List α}
    {slots : List (Slot α σ ρ)} (h : PoolRun p load n k (xs.map .waiting) slots)
    (hopen : ¬ ∃ ys : List ρ, slots = ys.map .done) : ∃ slots', PoolStep p load n slots slots' := by
  have hbusy : ∀ w s, Slot.running w s ∈ slots → w < n := by
    clear hopen
    generalize hs : xs.map Slot.waiting = start at h
    induction h with
    | refl =>
      intro w s hws
      rw [← hs] at hws
      obtain ⟨_, _, h⟩ := List.mem_map.1 hws
      cases h
    | tail _ h' ih =>
      have ih := ih hs
      intro w s hws
      cases h' with
      | take pre post a w' hw' _ =>
        rcases List.mem_append.1 hws with hm | hm
        · exact ih w s (List.mem_append_left _ hm)
        · rcases List.mem_cons.1 hm with hm | hm
          · cases hm
            exact hw'
          · exact ih w s (List.mem_append_right _ (List.mem_cons_of_mem _ hm))
      | go pre post w' s' hw' =>
        rcases List.mem_append.1 hws with hm | hm
        · exact ih w s (List.mem_append_left _ hm)
        · rcases List.mem_cons.1 hm with hm | hm
          · cases hp : p.step s' with
            | inl s'' =>
              rw [hp] at hm
              cases hm
              exact hw'
            | inr r =>
              rw [hp] at hm
              cases hm
          · exact ih w s (List.mem_append_right _ (List.mem_cons_of_mem _ hm))
  by_cases hr : ∃ w s, Slot.running w s ∈ slots
  · obtain ⟨w, s, hm⟩ := hr
    obtain ⟨pre, post, rfl⟩ := List.append_of_mem hm
    exact ⟨_, .go pre post w s (hbusy w s hm)⟩
  · by_cases hw : ∃ a, Slot.waiting a ∈ slots
    · obtain ⟨a, hm⟩ := hw
      obtain ⟨pre, post, rfl⟩ := List.append_of_mem hm
      exact ⟨_, .take pre post a 0 hn fun ⟨s, hs⟩ => hr ⟨0, s, hs⟩⟩
    · exfalso
      apply hopen
      clear h hbusy hopen
      induction slots with
      | nil => exact ⟨[], rfl⟩
      | cons c t ih =>
        obtain ⟨ys, hys⟩ := ih (fun ⟨w, s, h⟩ => hr ⟨w, s, List.mem_cons_of_mem _ h⟩)
          (fun ⟨a, h⟩ => hw ⟨a, List.mem_cons_of_mem _ h⟩)
        cases c with
        | waiting a => exact absurd ⟨a, by simp⟩ hw
        | running w s => exact absurd ⟨w, s, by simp⟩ hr
        | done r => exact ⟨r :: ys, by rw [hys]; rfl⟩

/-- The program, started in a state, ends after that many steps. -/
inductive EvalIn (p : Prog σ ρ) : ℕ → σ → Prop where
  | stop {s : σ} {r : ρ} (h : p.step s = .inr r) : EvalIn p 1 s
  | next {k : ℕ} {s s' : σ} (h : p.step s = .inl s') (h' : EvalIn p k s') : EvalIn p (k + 1) s

theorem Eval.steps {p : Prog σ ρ} {s : σ} {r : ρ} (h : Eval p s r) : ∃ k, EvalIn p k s := by
  induction h with
  | stop h => exact ⟨1, .stop h⟩
  | next h _ ih =>
    obtain ⟨k, hk⟩ := ih
    exact ⟨k + 1, .next h hk⟩

/-- The number of steps a slot still needs. -/
def Slot.Needs (p : Prog σ ρ) (load : α → σ) : Slot α σ ρ → ℕ → Prop
  | .waiting a, k => ∃ j, EvalIn p j (load a) ∧ k = j + 1
  | .running _ s, k => EvalIn p k s
  | .done _, k => k = 0

theorem forall₂_split {β γ : Type} {R : β → γ → Prop} {pre post : List β} {a : β} {ks : List γ}
    (h : List.Forall₂ R (pre ++ a :: post) ks) :
    ∃ k₁ k k₂, ks = k₁ ++ k :: k₂ ∧ List.Forall₂ R pre k₁ ∧ R a k ∧ List.Forall₂ R post k₂ := by
  induction pre generalizing ks with
  | nil =>
    cases h with
    | cons h1 h2 => exact ⟨[], _, _, rfl, .nil, h1, h2⟩
  | cons c pre ih =>
    cases h with
    | cons h1 h2 =>
      obtain ⟨k₁, k, k₂, rfl, h3, h4, h5⟩ := ih h2
      exact ⟨_ :: k₁, k, k₂, rfl, .cons h1 h3, h4, h5⟩

theorem forall₂_join {β γ : Type} {R : β → γ → Prop} {pre post : List β} {a : β} {k₁ k₂ : List γ}
    {k : γ} (h1 : List.Forall₂ R pre k₁) (h2 : R a k) (h3 : List.Forall₂ R post k₂) :
    List.Forall₂ R (pre ++ a :: post) (k₁ ++ k :: k₂) := by
  induction h1 with
  | nil => exact .cons h2 h3
  | cons h _ ih => exact .cons h ih

/-- C46: when every task ends on its own, every way of interleaving them ends: it has at most as
many steps as all tasks together, and one more per task for taking it. -/
theorem C46_terminates {p : Prog σ ρ} {load : α → σ} {n k : ℕ} {xs : List α} {cost : List ℕ}
    {slots : List (Slot α σ ρ)} (hcost : List.Forall₂ (fun x c => EvalIn p c (load x)) xs cost)
    (h : PoolRun p load n k (xs.map .waiting) slots) : k ≤ (cost.map (· + 1)).sum := by
  suffices ∃ ks : List ℕ, List.Forall₂ (Slot.Needs p load) slots ks ∧
      k + ks.sum = (cost.map (· + 1)).sum by
    obtain ⟨ks, _, h⟩ := this
    omega
  generalize hs : xs.map Slot.waiting = start at h
  induction h with
  | refl =>
    subst hs
    refine ⟨cost.map (· + 1), ?_, Nat.zero_add _⟩
    rw [List.forall₂_map_left_iff, List.forall₂_map_right_iff]
    exact hcost.imp fun x c hxc => ⟨c, hxc, rfl⟩
  | tail _ h' ih =>
    obtain ⟨ks, h1, h2⟩ := ih hs
    cases h' with
    | take pre post a w _ _ =>
      obtain ⟨k₁, c, k₂, rfl, h3, ⟨j, h4, rfl⟩, h5⟩ := forall₂_split h1
      refine ⟨k₁ ++ j :: k₂, forall₂_join h3 h4 h5, ?_⟩
      rw [← h2, List.sum_append, List.sum_append, List.sum_cons, List.sum_cons]
      omega
    | go pre post w s _ =>
      obtain ⟨k₁, c, k₂, rfl, h3, h4, h5⟩ := forall₂_split h1
      cases h4 with
      | stop h =>
        refine ⟨k₁ ++ 0 :: k₂, forall₂_join h3 (by rw [h]; exact rfl) h5, ?_⟩
        rw [← h2, List.sum_append, List.sum_append, List.sum_cons, List.sum_cons]
        omega
      | next h h4 =>
        refine ⟨k₁ ++ _ :: k₂, forall₂_join h3 (by rw [h]; exact h4) h5, ?_⟩
        rw [← h2, List.sum_append, List.sum_append, List.sum_cons, List.sum_cons]
        omega

/-- C46: a parallel map is the ordered map. -/
theorem C46_map {f : α → ρ} {xs : List α} {ys : List ρ} : ParMap f xs ys ↔ ys = xs.map f := by
  constructor
  · rintro ⟨σ, p, load, n, k, he, h⟩
    have := C46_in_order h
    clear h
    induction this with
    | nil => rfl
    | cons h1 _ ih =>
      rw [List.map_cons, ← ih fun x hx => he x (List.mem_cons_of_mem _ hx),
        h1.unique (he _ (by simp))]
  · rintro rfl
    refine ⟨α, ⟨fun a => .inr (f a)⟩, id, 1, 2 * xs.length, fun x _ => .stop rfl, ?_⟩
    suffices ∀ (done : List ρ) (xs : List α) (k : ℕ) (start : List (Slot α α ρ)),
        PoolRun ⟨fun a => .inr (f a)⟩ id 1 k start (done.map .done ++ xs.map .waiting) →
        PoolRun ⟨fun a => .inr (f a)⟩ id 1 (k + 2 * xs.length) start
          ((done ++ xs.map f).map .done) by
      have := this [] xs 0 _ (.refl _)
      rwa [Nat.zero_add, List.nil_append] at this
    intro done xs
    induction xs generalizing done with
    | nil =>
      intro k start h
      simpa using h
    | cons x xs ih =>
      intro k start h
      have h1 := h.tail (.take (done.map .done) (xs.map .waiting) x 0 Nat.zero_lt_one (by
        rintro ⟨s, hs⟩
        simp at hs))
      have h2 := h1.tail (.go (done.map .done) (xs.map .waiting) 0 _ Nat.zero_lt_one)
      have h3 := ih (done ++ [f x]) (k + 1 + 1) start (by simpa [Slot.after] using h2)
      rw [List.append_assoc, List.singleton_append] at h3
      rw [List.length_cons, show k + 2 * (xs.length + 1) = k + 1 + 1 + 2 * xs.length by omega]
      exact h3

theorem map_eq_map_some {β : Type} {f : α → Option β} {xs : List α} {ys : List β} :
    ys.map some = xs.map f ↔ xs.mapM f = some ys := by
  induction xs generalizing ys with
  | nil =>
    rw [List.mapM_nil]
    cases ys with
    | nil => exact iff_of_true rfl rfl
    | cons y ys => simp
  | cons x xs ih =>
    rw [List.mapM_cons]
    cases hf : f x with
    | none => cases ys <;> simp [hf]
    | some y =>
      cases ys with
      | nil => cases hm : xs.mapM f <;> simp
      | cons z zs =>
        have := ih (ys := zs)
        cases hm : xs.mapM f with
        | none => simp [hf, hm] at this ⊢; intro _; exact this
        | some w =>
          rw [hm] at this
          simp only [List.map_cons, hf, List.cons.injEq, Option.some.injEq, this]
          simp [eq_comm]

/-- C46: a round of tree coalesce with its two phases run by workers, however they interleave, is
the round with ordered maps. -/
theorem C46_round {env : TreeEnv} {t : StackTree} {opts : MatchOpts} {s s' : TreeState} :
    ParRound env t opts s s' ↔ treeRound env t opts s = some s' := by
  unfold ParRound treeRound
  simp only [C46_map, map_eq_map_some, Option.bind_eq_bind, Option.bind_eq_some_iff,
    Option.some.injEq]
  constructor
  · rintro ⟨f, fetched, expanded, h1, h2, h3, rfl⟩
    exact ⟨f, h1, fetched, h2, expanded, h3, rfl⟩
  · rintro ⟨f, h1, fetched, h2, expanded, h3, rfl⟩
    exact ⟨f, fetched, expanded, h1, h2, h3, rfl⟩

/-- Counting down: a program with as many steps as its state says. -/
def countdown : Prog (ℕ × ℕ) ℕ := ⟨fun s => if s.2 = 0 then .inr s.1 else .inl (s.1, s.2 - 1)⟩

/-- Two workers; the second task is taken first and ends first, its result is second. -/
example : PoolRun countdown (fun a => (a, a)) 2 5 ([1, 0].map .waiting) ([1, 0].map .done) := by
  have h0 : PoolRun countdown (fun a => (a, a)) 2 0 [.waiting 1, .waiting 0]
    [.waiting 1, .waiting 0] := .refl _
  have h1 := h0.tail (.take [.waiting 1] [] 0 1 (by omega) (by rintro ⟨s, hs⟩; simp at hs))
  have h2 := h1.tail (.take [] [.running 1 (0, 0)] 1 0 (by omega) (by rintro ⟨s, hs⟩; simp at hs))
  have h3 := h2.tail (.go [.running 0 (1, 1)] [] 1 (0, 0) (by omega))
  have h4 := h3.tail (.go [] [.done 0] 0 (1, 1) (by omega))
  exact h4.tail (.go [] [.done 0] 0 (1, 0) (by omega))

end Carmen
