import Verif.Model.Bytes
import Mathlib.Tactic.Linarith
import Mathlib.Tactic.Ring
import Mathlib.Algebra.Order.Ring.Nat

/-! Round trips and order properties of the byte-level encodings. -/

namespace Carmen

theorem leBytes_length (k n : ℕ) : (leBytes k n).length = k := by
  induction k generalizing n with
  | zero => rfl
  | succ k ih => simp [leBytes, ih]

theorem leBytes_lt (k n : ℕ) : IsBytes (leBytes k n) := by
  induction k generalizing n with
  | zero => intro x hx; simp [leBytes] at hx
  | succ k ih =>
    intro x hx
    simp only [leBytes, List.mem_cons] at hx
    rcases hx with rfl | hx
    · omega
    · exact ih _ x hx

theorem ofLe_leBytes (k n : ℕ) : ofLe (leBytes k n) = n % 256 ^ k := by
  induction k generalizing n with
  | zero => simp [leBytes, ofLe, Nat.mod_one]
  | succ k ih =>
    simp only [leBytes, ofLe, ih]
    rw [pow_succ', Nat.mod_mul]

theorem ofLe_leBytes_of_lt {k n : ℕ} (h : n < 256 ^ k) : ofLe (leBytes k n) = n := by
  rw [ofLe_leBytes, Nat.mod_eq_of_lt h]

theorem ofLe_lt {b : Bytes} (h : IsBytes b) : ofLe b < 256 ^ b.length := by
  induction b with
  | nil => simp [ofLe]
  | cons a t ih =>
    have h1 := h a (by simp)
    have h2 := ih (fun x hx => h x (List.mem_cons_of_mem _ hx))
    simp only [ofLe, List.length_cons, pow_succ']
    omega

theorem leBytes_ofLe {b : Bytes} (h : IsBytes b) : leBytes b.length (ofLe b) = b := by
  induction b with
  | nil => rfl
  | cons a t ih =>
    have h1 := h a (by simp)
    have h2 := ih (fun x hx => h x (List.mem_cons_of_mem _ hx))
    simp only [ofLe, List.length_cons, leBytes]
    have e1 : (a + 256 * ofLe t) % 256 = a := by omega
    have e2 : (a + 256 * ofLe t) / 256 = ofLe t := by omega
    rw [e1, e2, h2]

theorem ofLe_append (a b : Bytes) : ofLe (a ++ b) = ofLe a + 256 ^ a.length * ofLe b := by
  induction a with
  | nil => simp [ofLe]
  | cons x t ih => simp only [List.cons_append, ofLe, ih, List.length_cons]; ring

theorem leBytes_append (j k n : ℕ) :
    leBytes (j + k) n = leBytes j n ++ leBytes k (n / 256 ^ j) := by
  induction j generalizing n with
  | zero => simp [leBytes]
  | succ j ih =>
    rw [show j + 1 + k = (j + k) + 1 by omega]
    simp only [leBytes, List.cons_append, ih]
    rw [Nat.div_div_eq_div_mul, pow_succ', mul_comm]

theorem leBytes_take {j k n : ℕ} (h : j ≤ k) : (leBytes k n).take j = leBytes j n := by
  obtain ⟨i, rfl⟩ := Nat.exists_eq_add_of_le h
  rw [leBytes_append, List.take_append_of_le_length (by rw [leBytes_length]),
    List.take_of_length_le (by rw [leBytes_length])]

theorem beBytes_length (k n : ℕ) : (beBytes k n).length = k := by
  simp [beBytes, leBytes_length]

theorem beBytes_lt (k n : ℕ) : IsBytes (beBytes k n) := by
  intro x hx; exact leBytes_lt k n x (List.mem_reverse.1 hx)

theorem ofBe_beBytes {k n : ℕ} (h : n < 256 ^ k) : ofBe (beBytes k n) = n := by
  simp [ofBe, beBytes, ofLe_leBytes_of_lt h]

theorem ofBe_lt {b : Bytes} (h : IsBytes b) : ofBe b < 256 ^ b.length := by
  have := ofLe_lt (b := b.reverse) (fun x hx => h x (List.mem_reverse.1 hx))
  simpa [ofBe] using this

theorem beBytes_ofBe {b : Bytes} (h : IsBytes b) : beBytes b.length (ofBe b) = b := by
  have := leBytes_ofLe (b := b.reverse) (fun x hx => h x (List.mem_reverse.1 hx))
  rw [List.length_reverse] at this
  simp [ofBe, beBytes, this]

theorem ofBe_cons (a : ℕ) (t : Bytes) : ofBe (a :: t) = a * 256 ^ t.length + ofBe t := by
  simp [ofBe, ofLe_append, ofLe]; ring

theorem beBytes_succ (k n : ℕ) : beBytes (k + 1) n = (n / 256 ^ k) % 256 :: beBytes k n := by
  unfold beBytes
  rw [leBytes_append k 1 n]
  simp [leBytes]

/-! ## Varints -/

theorem encodeVarF_ne_nil (f n : ℕ) : encodeVarF f n ≠ [] := by
  cases f <;> simp [encodeVarF]
  split_ifs <;> simp

theorem encodeVarF_lt {f n : ℕ} : IsBytes (encodeVarF f n) := by
  induction f generalizing n with
  | zero => intro x hx; simp [encodeVarF] at hx; omega
  | succ f ih =>
    unfold encodeVarF
    split_ifs with h
    · intro x hx
      rcases List.mem_cons.1 hx with rfl | hx
      · omega
      · exact ih x hx
    · intro x hx; simp at hx; omega

theorem encodeVar_lt (n : ℕ) : IsBytes (encodeVar n) := encodeVarF_lt

theorem decodeVarF_encodeVarF {f n : ℕ} (h : n < 128 ^ (f + 1)) {g : ℕ} (hg : f < g)
    (rest : Bytes) :
    decodeVarF g (encodeVarF f n ++ rest) = (n, (encodeVarF f n).length) := by
  induction f generalizing n g with
  | zero =>
    obtain ⟨g, rfl⟩ : ∃ k, g = k + 1 := ⟨g - 1, by omega⟩
    have : n % 256 = n := by simp at h; omega
    simp only [encodeVarF, List.cons_append, List.nil_append, decodeVarF, this]
    simp at h
    simp [h]
  | succ f ih =>
    obtain ⟨g, rfl⟩ : ∃ k, g = k + 1 := ⟨g - 1, by omega⟩
    unfold encodeVarF
    split_ifs with hn
    · have hlt : n / 128 < 128 ^ (f + 1) := by
        rw [Nat.div_lt_iff_lt_mul (by norm_num)]; rw [pow_succ] at h; exact h
      have hih := ih hlt (g := g) (by omega)
      simp only [List.cons_append, decodeVarF, hih, List.length_cons]
      rw [if_neg (by omega)]
      ext
      · simp; omega
      · rfl
    · simp only [List.cons_append, List.nil_append, decodeVarF]
      rw [if_pos (by omega)]; rfl

/-- Varint round trip for 32-bit values, with arbitrary bytes following. -/
theorem decodeVar_encodeVar {n : ℕ} (h : n < 2 ^ 32) (rest : Bytes) :
    decodeVar (encodeVar n ++ rest) = (n, (encodeVar n).length) := by
  unfold decodeVar encodeVar
  rw [Nat.mod_eq_of_lt h]
  rw [decodeVarF_encodeVarF (by norm_num; omega) (by norm_num)]
  simp only [Prod.mk.injEq, and_true]
  exact Nat.mod_eq_of_lt h

/-! ## Z-order -/

theorem spread_lt (k n : ℕ) : 3 * spread k n < 4 ^ k := by
  induction k generalizing n with
  | zero => simp [spread]
  | succ k ih => have := ih (n / 2); simp only [spread, pow_succ']; omega

theorem compact_lt (k c : ℕ) : compact k c < 2 ^ k := by
  induction k generalizing c with
  | zero => simp [compact]
  | succ k ih => have := ih (c / 4); simp only [compact, pow_succ']; omega

theorem compact_spread {k x y : ℕ} (hx : x < 2 ^ k) :
    compact k (spread k x + 2 * spread k y) = x := by
  induction k generalizing x y with
  | zero => simp at hx; simp [compact, hx]
  | succ k ih =>
    simp only [compact, spread]
    have h1 : (x % 2 + 4 * spread k (x / 2) + 2 * (y % 2 + 4 * spread k (y / 2))) % 2 = x % 2 := by
      omega
    have h2 : (x % 2 + 4 * spread k (x / 2) + 2 * (y % 2 + 4 * spread k (y / 2))) / 4 =
        spread k (x / 2) + 2 * spread k (y / 2) := by omega
    rw [h1, h2, ih (by rw [pow_succ'] at hx; omega)]
    omega

theorem compact_spread_two {k x y : ℕ} (hy : y < 2 ^ k) :
    compact k ((spread k x + 2 * spread k y) / 2) = y := by
  induction k generalizing x y with
  | zero => simp at hy; simp [compact, hy]
  | succ k ih =>
    simp only [compact, spread]
    have h1 : ((x % 2 + 4 * spread k (x / 2) + 2 * (y % 2 + 4 * spread k (y / 2))) / 2) % 2 = y % 2 := by
      omega
    have h2 : ((x % 2 + 4 * spread k (x / 2) + 2 * (y % 2 + 4 * spread k (y / 2))) / 2) / 4 =
        (spread k (x / 2) + 2 * spread k (y / 2)) / 2 := by omega
    rw [h1, h2, ih (by rw [pow_succ'] at hy; omega)]
    omega

theorem spread_compact {k c : ℕ} (hc : c < 4 ^ k) :
    spread k (compact k c) + 2 * spread k (compact k (c / 2)) = c := by
  induction k generalizing c with
  | zero => simp at hc; simp [spread, hc]
  | succ k ih =>
    simp only [compact, spread]
    have h1 : (c % 2 + 2 * compact k (c / 4)) % 2 = c % 2 := by omega
    have h2 : (c % 2 + 2 * compact k (c / 4)) / 2 = compact k (c / 4) := by omega
    have h3 : (c / 2 % 2 + 2 * compact k (c / 2 / 4)) % 2 = c / 2 % 2 := by omega
    have h4 : (c / 2 % 2 + 2 * compact k (c / 2 / 4)) / 2 = compact k (c / 2 / 4) := by omega
    rw [h1, h2, h3, h4]
    have := ih (c := c / 4) (by rw [pow_succ'] at hc; omega)
    rw [show c / 2 / 4 = c / 4 / 2 by omega]
    omega

theorem deinterleave_interleave {x y : ℕ} (hx : x < 2 ^ 16) (hy : y < 2 ^ 16) :
    deinterleave (interleave x y) = (x, y) := by
  unfold deinterleave interleave
  rw [compact_spread hx, compact_spread_two hy]

theorem interleave_deinterleave {c : ℕ} (hc : c < 2 ^ 32) :
    interleave (deinterleave c).1 (deinterleave c).2 = c := by
  unfold deinterleave interleave
  exact spread_compact (by norm_num; omega)

theorem interleave_lt (x y : ℕ) : interleave x y < 2 ^ 32 := by
  have h1 := spread_lt 16 x
  have h2 := spread_lt 16 y
  unfold interleave
  norm_num at h1 h2 ⊢
  omega

theorem deinterleave_lt (c : ℕ) : (deinterleave c).1 < 2 ^ 16 ∧ (deinterleave c).2 < 2 ^ 16 :=
  ⟨compact_lt _ _, compact_lt _ _⟩

theorem spread_mono {k x y : ℕ} (h : x ≤ y) (hy : y < 2 ^ k) : spread k x ≤ spread k y := by
  induction k generalizing x y with
  | zero => simp [spread]
  | succ k ih =>
    simp only [spread]
    rw [pow_succ'] at hy
    rcases Nat.lt_or_ge (x / 2) (y / 2) with hlt | hge
    · -- the higher bits of y are larger: strict in the higher part
      have hstrict : spread k (x / 2) < spread k (y / 2) := by
        have h1 := ih (x := x / 2) (y := y / 2) (by omega) (by omega)
        rcases h1.lt_or_eq with h2 | h2
        · exact h2
        · have hx := compact_spread (k := k) (x := x / 2) (y := 0) (by omega)
          have hy' := compact_spread (k := k) (x := y / 2) (y := 0) (by omega)
          rw [h2, hy'] at hx
          omega
      omega
    · have : x / 2 = y / 2 := by omega
      rw [this]
      omega

/-- Z-order is monotone in each coordinate. -/
theorem interleave_mono {x y x' y' : ℕ} (hx : x ≤ x') (hy : y ≤ y')
    (hx' : x' < 2 ^ 16) (hy' : y' < 2 ^ 16) : interleave x y ≤ interleave x' y' := by
  unfold interleave
  have h1 := spread_mono hx hx'
  have h2 := spread_mono hy hy'
  omega

theorem interleave_inj {x y x' y' : ℕ} (hx : x < 2 ^ 16) (hy : y < 2 ^ 16)
    (hx' : x' < 2 ^ 16) (hy' : y' < 2 ^ 16) (h : interleave x y = interleave x' y') :
    x = x' ∧ y = y' := by
  have h1 := deinterleave_interleave hx hy
  rw [h, deinterleave_interleave hx' hy'] at h1
  simp at h1
  exact ⟨h1.1.symm, h1.2.symm⟩

end Carmen
