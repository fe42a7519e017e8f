import Mathlib.Data.Nat.Digits.Defs
import Verif.Model.Common

/-!
# Specification: what a store returns for a key

Independent of the encoder, the decoder and the builder's data structures.
-/

namespace Carmen.Spec

/-- The order in which entries come back: relevance, score, z-order tile, id, phrase
hash (compared descending). -/
def entryKey (e : GridEntry) : F64 ×ₗ ℕ ×ₗ ℕ ×ₗ ℕ ×ₗ ℕ :=
  toLex (e.relev, toLex (e.score, toLex (interleave e.x e.y, toLex (e.id, e.hash))))

/-- The distinct entries of a list, best first. -/
def readBack (es : List GridEntry) : List GridEntry :=
  es.dedup.insertionSort (fun a b => entryKey b ≤ entryKey a)

/-- The entry kept for an entry written: relevances other than 0.4, 0.6, 0.8 become 1,
ids keep their low 24 bits (documented at common.rs:380-387). -/
def stored (e : GridEntry) : GridEntry :=
  { e with
    relev := if e.relev = lit 0.4 ∨ e.relev = lit 0.6 ∨ e.relev = lit 0.8 then e.relev else 1
    id := e.id % 2 ^ 24 }

/-- The two bits kept of a relevance. -/
def relevCode (r : F64) : ℕ :=
  if r = lit 0.4 then 0 else if r = lit 0.6 then 1 else if r = lit 0.8 then 2 else 3

/-- The entry kept for an entry written with any 8-bit score: the low four bits of the score
stay, its high four bits are mixed into the relevance. -/
def storedAny (e : GridEntry) : GridEntry :=
  { e with
    relev :=
      match relevCode e.relev ||| e.score / 16 with
      | 0 => lit 0.4
      | 1 => lit 0.6
      | 2 => lit 0.8
      | _ => 1
    score := e.score % 16
    id := e.id % 2 ^ 24 }

/-- The entry is kept unchanged. -/
def Exact (e : GridEntry) : Prop :=
  e.score ≤ 15 ∧ e.id < 2 ^ 24 ∧
    (e.relev = lit 0.4 ∨ e.relev = lit 0.6 ∨ e.relev = lit 0.8 ∨ e.relev = 1)

instance (e : GridEntry) : Decidable (Exact e) := by unfold Exact; infer_instance

theorem stored_of_exact {e : GridEntry} (h : Exact e) : stored e = e := by
  obtain ⟨_, h2, h3⟩ := h
  unfold stored
  rw [Nat.mod_eq_of_lt h2]
  by_cases h : e.relev = lit 0.4 ∨ e.relev = lit 0.6 ∨ e.relev = lit 0.8
  · rw [if_pos h]
  · rw [if_neg h]
    have : e.relev = 1 := by
      rcases h3 with h3 | h3 | h3 | h3
      · exact absurd (Or.inl h3) h
      · exact absurd (Or.inr (Or.inl h3)) h
      · exact absurd (Or.inr (Or.inr h3)) h
      · exact h3
    rw [← this]

/-- The digits of a language set to base 256, first digit first, as keys are compared by them: none
for the set of all languages, and one for the empty set. -/
def langWord (l : ℕ) : List ℕ :=
  if l = 2 ^ 128 - 1 then [] else if l = 0 then [0] else (Nat.digits 256 l).reverse

end Carmen.Spec
