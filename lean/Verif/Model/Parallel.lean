import Verif.Model.TreeCoalesce

/-!
# The parallel phases of `tree_coalesce`

`into_par_iter().map(f).collect()` of the crate `rayon`: worker threads take tasks in any order, run
each one to its end, and put its result into the slot of its position. A task is a program that goes
in small steps; the steps of different workers interleave in any way. Tasks only read what they
share (stores, the cache, the tree), so the shared data is not part of the state. The scheduler of
rayon itself is not modelled: every choice it could make is allowed.
-/

namespace Carmen

/-- A program over a private state: the next state or the result. -/
structure Prog (σ ρ : Type) where
  step : σ → σ ⊕ ρ

/-- The slot of a task: not yet taken, running on a worker, or with its result. -/
inductive Slot (α σ ρ : Type) where
  | waiting (a : α)
  | running (worker : ℕ) (s : σ)
  | done (r : ρ)

variable {α σ ρ : Type}

/-- The slot after one step of its worker. -/
def Slot.after (w : ℕ) : σ ⊕ ρ → Slot α σ ρ
  | .inl s => .running w s
  | .inr r => .done r

/-- The worker is busy with a task. -/
def Busy (slots : List (Slot α σ ρ)) (w : ℕ) : Prop := ∃ s, Slot.running w s ∈ slots

/-- What one of `n` workers can do next: take a task if it has none, or go on with its task. -/
inductive PoolStep (p : Prog σ ρ) (load : α → σ) (n : ℕ) :
    List (Slot α σ ρ) → List (Slot α σ ρ) → Prop where
  | take (pre post : List (Slot α σ ρ)) (a : α) (w : ℕ) (hw : w < n)
      (idle : ¬ Busy (pre ++ .waiting a :: post) w) :
      PoolStep p load n (pre ++ .waiting a :: post) (pre ++ .running w (load a) :: post)
  | go (pre post : List (Slot α σ ρ)) (w : ℕ) (s : σ) (hw : w < n) :
      PoolStep p load n (pre ++ .running w s :: post) (pre ++ Slot.after w (p.step s) :: post)

/-- A number of steps. -/
inductive PoolRun (p : Prog σ ρ) (load : α → σ) (n : ℕ) :
    ℕ → List (Slot α σ ρ) → List (Slot α σ ρ) → Prop where
  | refl (slots : List (Slot α σ ρ)) : PoolRun p load n 0 slots slots
  | tail {k : ℕ} {a b c : List (Slot α σ ρ)} (h : PoolRun p load n k a b)
      (h' : PoolStep p load n b c) : PoolRun p load n (k + 1) a c

/-- The program, started in a state, ends with a result. -/
inductive Eval (p : Prog σ ρ) : σ → ρ → Prop where
  | stop {s : σ} {r : ρ} (h : p.step s = .inr r) : Eval p s r
  | next {s s' : σ} {r : ρ} (h : p.step s = .inl s') (h' : Eval p s' r) : Eval p s r

/-- A parallel map: some number of workers, some program that computes `f`, and some way in which
the workers interleave until every task has its result. -/
def ParMap (f : α → ρ) (xs : List α) (ys : List ρ) : Prop :=
  ∃ (σ : Type) (p : Prog σ ρ) (load : α → σ) (n k : ℕ), (∀ x ∈ xs, Eval p (load x) (f x)) ∧
    PoolRun p load n k (xs.map .waiting) (ys.map .done)

/-- One round of the loop (coalesce.rs:481-853) with phase 1 (coalesce.rs:616-673) and phase 2
(coalesce.rs:692-841) run by workers. -/
def ParRound (env : TreeEnv) (t : StackTree) (opts : MatchOpts) (s s' : TreeState) : Prop :=
  ∃ (f : Fill) (fetched : List Fetched) (expanded : List (List Context × List Step)),
    s.fill env = some f ∧
    ParMap (fetchKey env) f.keys (fetched.map some) ∧
    ParMap (expandStep env t opts (fetched.foldl (absorbFetched env) (s.contexts, s.cache)).2)
      f.chunk (expanded.map some) ∧
    s' = { contexts := cpqPushAll env.contexts maxResults
             (fetched.foldl (absorbFetched env) (s.contexts, s.cache)).1
             (expanded.flatMap Prod.fst)
           steps := (expanded.flatMap Prod.snd).foldl env.steps.push f.steps
           cache := (fetched.foldl (absorbFetched env) (s.contexts, s.cache)).2
           counts := f.counts
           fetched := s.fetched ++ f.keys
           visited := s.visited ++ f.visited
           stopped := f.stopped
           left := f.steps }

end Carmen
