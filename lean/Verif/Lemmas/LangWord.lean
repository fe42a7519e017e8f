import Mathlib.Data.Nat.Digits.Lemmas
import Verif.Spec.Builder
import Verif.Lemmas.Order

/-! The language part of a key is the language set to base 256. -/

namespace Carmen

theorem ofLe_eq_ofDigits (b : Bytes) : ofLe b = Nat.ofDigits 256 b := by
  induction b with
  | nil => rfl
  | cons a t ih => rw [Nat.ofDigits_cons, ← ih]; rfl

theorem langBytes_eq_word {l : ℕ} (hl : l < 2 ^ 128) : langBytes l = Spec.langWord l := by
  by_cases ha : l = allLangs
  · rw [ha, langBytes_allLangs]; rfl
  have h1 := ofBe_langBytes hl ha
  have hb := langBytes_isBytes l
  unfold Spec.langWord
  rw [if_neg (show ¬ l = 2 ^ 128 - 1 from ha)]
  unfold langBytes at h1 hb ⊢
  rw [if_neg ha] at h1 hb ⊢
  by_cases h0 : l = 0
  · rw [if_pos h0, if_pos h0]
  rw [if_neg h0] at h1 hb ⊢
  rw [if_neg h0]
  generalize hd : (beBytes 16 l).dropWhile (· = 0) = d at h1 hb ⊢
  have hne : ∀ x, d.head? = some x → x ≠ 0 := by
    intro x hx
    rw [← hd] at hx
    have := List.head?_dropWhile_not (fun x : ℕ => decide (x = 0)) (beBytes 16 l)
    rw [hx] at this
    simpa using this
  unfold ofBe at h1
  rw [ofLe_eq_ofDigits] at h1
  conv_rhs => rw [← h1]
  rw [Nat.digits_ofDigits 256 (by norm_num) d.reverse
    (fun x hx => hb x (List.mem_reverse.1 hx)) ?_, List.reverse_reverse]
  intro h
  rw [List.getLast_reverse]
  exact hne _ (List.head?_eq_some_head _)

theorem append_lt_append_iff {a s t : Bytes} : a ++ s < a ++ t ↔ s < t := by
  induction a with
  | nil => rfl
  | cons x a ih => rw [List.cons_append, List.cons_append, cons_lt_cons_iff']; simp [ih]

/-- Sets of the same number of digits are ordered like the numbers. -/
theorem langWord_lt_iff {l l' : ℕ} (hl : l < 2 ^ 128) (hl' : l' < 2 ^ 128)
    (hlen : (Spec.langWord l).length = (Spec.langWord l').length) :
    Spec.langWord l < Spec.langWord l' ↔ l < l' := by
  rw [← langBytes_eq_word hl, ← langBytes_eq_word hl'] at *
  by_cases h1 : l = allLangs
  · have h2 : l' = allLangs := by
      by_contra h2
      rw [h1, langBytes_allLangs] at hlen
      exact langBytes_ne_nil hl' h2 (List.length_eq_zero_iff.1 hlen.symm)
    rw [h1, h2]
    simp
  · have h2 : l' ≠ allLangs := by
      intro h2
      rw [h2, langBytes_allLangs] at hlen
      exact langBytes_ne_nil hl h1 (List.length_eq_zero_iff.1 hlen)
    have e1 := ofBe_langBytes hl h1
    have e2 := ofBe_langBytes hl' h2
    constructor
    · intro h
      have h3 := le_of_append_lt hlen (langBytes_isBytes _) (langBytes_isBytes _) (s := [])
        (t := []) (by simpa using h)
      rw [e1, e2] at h3
      rcases Nat.lt_or_eq_of_le h3 with h4 | h4
      · exact h4
      · rw [h4] at h
        exact absurd h (lt_irrefl _)
    · intro h
      have := append_lt_of_ofBe_lt hlen (langBytes_isBytes _) (langBytes_isBytes _)
        (by rw [e1, e2]; exact h) [] []
      simpa using this

end Carmen
