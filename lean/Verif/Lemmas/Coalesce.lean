import Verif.F64.Lemmas
import Verif.Model.Coalesce
import Verif.Lemmas.HMap
import Verif.Lemmas.StableSort
import Mathlib.Data.List.Nodup

/-!
# Lemmas about `coalesce`
-/

namespace Carmen

theorem tmpIdOf_eq (idx id : ℕ) : tmpIdOf idx id = (idx * 2 ^ 25 + id) % 2 ^ 32 := by
  unfold tmpIdOf
  rw [Nat.shiftLeft_eq, Nat.mod_add_mod]

/-! ## Picking contexts -/

theorem pickContexts_sublist (r : F64) (n : ℕ) (seen : List ℕ) (cs : List Context) :
    (pickContexts r n seen cs).Sublist cs := by
  induction cs generalizing n seen with
  | nil => exact List.Sublist.slnil
  | cons c t ih =>
    unfold pickContexts
    split_ifs
    · exact List.nil_sublist _
    · exact List.nil_sublist _
    · exact (ih n seen).cons _
    · exact (ih _ _).cons_cons _

theorem pickContexts_length (r : F64) (n : ℕ) (seen : List ℕ) (cs : List Context) :
    (pickContexts r n seen cs).length ≤ maxContexts - n := by
  induction cs generalizing n seen with
  | nil => exact Nat.zero_le _
  | cons c t ih =>
    unfold pickContexts
    split_ifs with h1 h2 h3
    · exact Nat.zero_le _
    · exact Nat.zero_le _
    · exact ih n seen
    · have := ih (n + 1) (c.first.tmpId :: seen)
      rw [List.length_cons]
      omega

theorem pickContexts_close {r : F64} {n : ℕ} {seen : List ℕ} {cs : List Context} {c : Context}
    (h : c ∈ pickContexts r n seen cs) : F64.fle (lit 0.25) (r - c.relev) = false := by
  induction cs generalizing n seen with
  | nil => cases h
  | cons a t ih =>
    unfold pickContexts at h
    split_ifs at h with h1 h2 h3
    · cases h
    · cases h
    · exact ih h
    · rcases List.mem_cons.1 h with rfl | h
      · simpa using h2
      · exact ih h

theorem pickContexts_fresh {r : F64} {n : ℕ} {seen : List ℕ} {cs : List Context} {c : Context}
    (h : c ∈ pickContexts r n seen cs) : c.first.tmpId ∉ seen := by
  induction cs generalizing n seen with
  | nil => cases h
  | cons a t ih =>
    unfold pickContexts at h
    split_ifs at h with h1 h2 h3
    · cases h
    · cases h
    · exact ih h
    · rcases List.mem_cons.1 h with rfl | h
      · exact h3
      · exact fun hs => ih h (List.mem_cons_of_mem _ hs)

theorem pickContexts_nodup (r : F64) (n : ℕ) (seen : List ℕ) (cs : List Context) :
    (pickContexts r n seen cs).Pairwise fun a b => a.first.tmpId ≠ b.first.tmpId := by
  induction cs generalizing n seen with
  | nil => exact List.Pairwise.nil
  | cons a t ih =>
    unfold pickContexts
    split_ifs
    · exact List.Pairwise.nil
    · exact List.Pairwise.nil
    · exact ih n seen
    · refine List.pairwise_cons.2 ⟨?_, ih _ _⟩
      intro b hb heq
      exact pickContexts_fresh hb (by rw [heq]; exact List.mem_cons_self)

theorem fle_quarter_sub_self (r : F64) : F64.fle (lit 0.25) (r - r) = false := by
  cases r with
  | nan => decide +kernel
  | inf s => cases s <;> decide +kernel
  | fin q =>
    have : (F64.fin q - F64.fin q : F64) = 0 := by
      show F64.ofRat (q + -q) = 0
      rw [add_neg_cancel]
      exact F64.ofRat_zero
    rw [this]
    decide +kernel

theorem pickContexts_head {c : Context} {t : List Context} :
    (pickContexts c.relev 0 [] (c :: t)).head? = some c := by
  unfold pickContexts
  rw [if_neg (by decide), if_neg (by rw [fle_quarter_sub_self]; simp), if_neg (by simp)]
  rfl

/-! ## Where entries come from -/

/-- An entry with the temporary id made of its index and feature id. -/
def CoalesceEntry.IdOk (e : CoalesceEntry) : Prop := e.tmpId = tmpIdOf e.idx e.entry.id

/-- A context that has an entry, with temporary ids as they should be. -/
def Context.IdsOk (c : Context) : Prop := c.entries ≠ [] ∧ ∀ e ∈ c.entries, e.IdOk

theorem Context.IdsOk.first {c : Context} (h : c.IdsOk) : c.first.IdOk := by
  obtain ⟨hne, h⟩ := h
  unfold Context.first
  cases hc : c.entries with
  | nil => exact absurd hc hne
  | cons a t => exact h a (by rw [hc]; exact List.mem_cons_self)

theorem mkEntry_some {chk : Bool} {opts : MatchOpts} {q : Subquery} {pid : ℕ} {g : MatchEntry}
    {e : CoalesceEntry} (h : mkEntry chk opts q pid g = some e) : e = toEntry g q pid := by
  unfold mkEntry at h
  split_ifs at h
  exact (Option.some.inj h).symm

theorem toEntry_idOk (g : MatchEntry) (q : Subquery) (pid : ℕ) : (toEntry g q pid).IdOk := rfl

/-! ## The loop over the grids of one phrase match -/

/-- An induction principle for the loop: what every recording preserves holds at the end. -/
theorem singleLoop_induct {mk : MatchEntry → Option CoalesceEntry} {noProx : Bool}
    {P : SingleState → Prop} {grids : List MatchEntry}
    (hrec : ∀ s g e, P s → g ∈ grids → mk g = some e → P (s.record e))
    {s s' : SingleState} (hs : P s) (h : singleLoop mk noProx s grids = some s') : P s' := by
  induction grids generalizing s with
  | nil =>
    unfold singleLoop at h
    cases h
    exact hs
  | cons g t ih =>
    unfold singleLoop at h
    cases he : mk g with
    | none => rw [he] at h; simp at h
    | some e =>
      rw [he] at h
      simp only [Option.bind_eq_bind, Option.bind_some] at h
      have ih' := fun {s : SingleState} => ih (s := s)
        (fun s g e hp hg => hrec s g e hp (List.mem_cons_of_mem _ hg))
      cases hm : singleMove noProx s e <;> rw [hm] at h
      · exact ih' hs h
      · cases h; exact hs
      · exact ih' (hrec s g e hs List.mem_cons_self he) h
      · cases h; exact hrec s g e hs List.mem_cons_self he

theorem betterOf_cases (a b : CoalesceEntry) : betterOf a b = a ∨ betterOf a b = b := by
  unfold betterOf
  split_ifs <;> simp

/-- What the collected features satisfy: distinct keys, each entry under its own id, made from one
of the grids. -/
structure Collected (made : CoalesceEntry → Prop) (m : HMap ℕ CoalesceEntry) : Prop where
  wf : HMap.Wf m
  key : ∀ p ∈ m, p.2.entry.id = p.1
  made : ∀ p ∈ m, made p.2

theorem Collected.record {made : CoalesceEntry → Prop} {m : HMap ℕ CoalesceEntry}
    (h : Collected made m) {e : CoalesceEntry} (he : made e) :
    Collected made (HMap.upsert e.entry.id e (betterOf e) m) := by
  refine ⟨HMap.wf_upsert h.wf, ?_, ?_⟩
  · refine HMap.forall_upsert (P := fun k (v : CoalesceEntry) => v.entry.id = k) h.key rfl ?_
    intro v hv
    rcases betterOf_cases e v with h' | h' <;> rw [h']
    exact hv
  · refine HMap.forall_upsert (P := fun _ v => made v) h.made he ?_
    intro v hv
    rcases betterOf_cases e v with h' | h' <;> rw [h']
    · exact he
    · exact hv

theorem singleFeatures_collected {env : Env} {q : Subquery} {opts : MatchOpts}
    {m : HMap ℕ CoalesceEntry} (h : singleFeatures env q opts = some m) :
    Collected (fun e => ∃ g, e = toEntry g q 0) m := by
  unfold singleFeatures at h
  cases hk : q.matchKeys.head? with
  | none => rw [hk] at h; simp at h
  | some k =>
    rw [hk] at h
    simp only [Option.bind_eq_bind, Option.bind_some] at h
    cases hg : env.query q.store k.key opts (2 * maxContexts) with
    | none => rw [hg] at h; simp at h
    | some grids =>
      rw [hg] at h
      simp only [Option.bind_some] at h
      cases hl : singleLoop (mkEntry env.chk opts q 0) opts.proximity.isNone SingleState.init
          grids with
      | none => rw [hl] at h; simp at h
      | some s =>
        rw [hl] at h
        simp only [Option.bind_some, Option.some.injEq] at h
        subst h
        refine singleLoop_induct (P := fun s => Collected (fun e => ∃ g, e = toEntry g q 0)
          s.coalesced) ?_ ?_ hl
        · intro s g e hs _ he
          exact hs.record ⟨g, mkEntry_some he⟩
        · exact ⟨HMap.wf_nil, by simp [SingleState.init], by simp [SingleState.init]⟩

end Carmen
