import Verif.Model.Tools
import Verif.Model.Native

/-!
# C90: lists of languages in the tests and in the bindings
-/

namespace Carmen

theorem langLoop_helper (chk : Bool) (langs : List ℕ) (h : ∀ l ∈ langs, l < 128) (out : ℕ) :
    ∃ s, Tools.langLoop chk out langs = some s ∧
      langLoop out (langs.map fun (l : ℕ) => .num (.fin l)) = some s ∧
      ∀ i, s.testBit i = true ↔ out.testBit i = true ∨ i ∈ langs := by
  induction langs generalizing out with
  | nil => exact ⟨out, rfl, rfl, by simp⟩
  | cons l t ih =>
    have hl : l < 128 := h l List.mem_cons_self
    obtain ⟨s, h1, h2, h3⟩ := ih (fun l hl => h l (List.mem_cons_of_mem _ hl)) (out ||| (1 <<< l))
    refine ⟨s, ?_, ?_, fun i => ?_⟩
    · unfold Tools.langLoop
      rw [if_neg (by simp; omega), Nat.mod_eq_of_lt hl]
      exact h1
    · rw [List.map_cons]
      unfold langLoop
      have hcast : castTo usizeMax (.fin (l : ℚ)) = l := by
        unfold castTo usizeMax
        simp only [Int.floor_natCast, Int.toNat_natCast]
        omega
      simp only [JsValue.number, Option.bind_eq_bind, Option.bind_some]
      rw [hcast, if_neg (by omega)]
      exact h2
    · rw [h3, Nat.testBit_or, Bool.or_eq_true, Nat.one_shiftLeft, Nat.testBit_two_pow,
        decide_eq_true_eq, List.mem_cons, or_assoc]
      tauto

/-- **C90**: a list of languages below 128 means the same to the tests' `langarray_to_langfield`, in
either build, and to the bindings: the set of exactly these languages. -/
theorem C90_langs (chk : Bool) (langs : List ℕ) (h : ∀ l ∈ langs, l < 128) :
    ∃ s, Tools.langField chk langs = some s ∧
      langSetOf (.arr (langs.map fun (l : ℕ) => .num (.fin l))) = some s ∧
      s < 2 ^ 128 ∧ ∀ i, s.testBit i = true ↔ i ∈ langs := by
  obtain ⟨s, h1, h2, h3⟩ := langLoop_helper chk langs h 0
  simp only [Nat.zero_testBit, Bool.false_eq_true, false_or] at h3
  refine ⟨s, h1, h2, ?_, h3⟩
  refine Nat.lt_pow_two_of_testBit s fun i hi => ?_
  rw [Bool.eq_false_iff]
  intro hb
  exact absurd (h i ((h3 i).1 hb)) (by omega)

/-- **C90**, beyond: the bindings ignore a language of 128 or more, the helper of the tests panics, or
without overflow checks takes it for another language. -/
theorem C90_langs_beyond (l : ℕ) (hl : 128 ≤ l) (hl' : l < 2 ^ 32) :
    Tools.langField true [l] = none ∧ Tools.langField false [l] = some (2 ^ (l % 128)) ∧
      langSetOf (.arr [.num (.fin l)]) = some 0 := by
  refine ⟨?_, ?_, ?_⟩
  · simp [Tools.langField, Tools.langLoop, hl]
  · simp [Tools.langField, Tools.langLoop, Nat.one_shiftLeft]
  · have hcast : castTo usizeMax (.fin (l : ℚ)) = l := by
      unfold castTo usizeMax
      simp only [Int.floor_natCast, Int.toNat_natCast]
      omega
    simp only [langSetOf, langLoop, JsValue.number, Option.bind_eq_bind, Option.bind_some]
    rw [hcast, if_pos hl]

example : Tools.langField true [0, 2, 127] = some (1 + 4 + 2 ^ 127) ∧
    Tools.langField false [129] = some 2 := by decide +kernel

end Carmen
