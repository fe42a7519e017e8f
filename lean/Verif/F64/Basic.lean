import Mathlib.Data.Rat.Floor
import Mathlib.Data.Int.Log
import Mathlib.Data.Nat.Sqrt
import Mathlib.Order.Lex
import Mathlib.Data.Prod.Lex

/-!
# IEEE binary64

Rust's `f64`, as a computable Lean type: finite values are rationals, every
operation is the exact result rounded to nearest, ties to even, with gradual
underflow and overflow to infinity.

Simplifications: there is one zero (Rust has `0.0` and `-0.0`, which compare equal);
there is one NaN. A `fin q` with `q` not representable as a double is not excluded by
the type; `F64.Valid` singles out the representable ones, and all operations return
valid values.
-/

namespace Carmen

/-- A Rust `f64` (see the simplifications above). -/
inductive F64 where
  | nan
  | inf (neg : Bool)
  | fin (q : ℚ)
  deriving DecidableEq

namespace F64

/-- Round a rational to the nearest integer, ties to even. -/
def roundHalfEven (q : ℚ) : ℤ :=
  if q - ⌊q⌋ < 1 / 2 then ⌊q⌋
  else if 1 / 2 < q - ⌊q⌋ then ⌊q⌋ + 1
  else if ⌊q⌋ % 2 = 0 then ⌊q⌋ else ⌊q⌋ + 1

/-- Exponent of the unit in the last place of a double of magnitude `a > 0`
(52 bits below the leading bit, never below `2^-1074`). -/
def ulpExp (a : ℚ) : ℤ := max (Int.log 2 a) (-1022) - 52

/-- Round a rational to the nearest multiple of the unit in the last place
(unbounded exponent upwards). -/
def roundQ (q : ℚ) : ℚ :=
  roundHalfEven (q / 2 ^ ulpExp |q|) * 2 ^ ulpExp |q|

/-- The smallest magnitude that overflows, `2^1024`. -/
def overflowBound : ℚ := 2 ^ 1024

/-- Overflow to infinity. -/
def ofRounded (r : ℚ) : F64 :=
  if overflowBound ≤ r then inf false else if r ≤ -overflowBound then inf true else fin r

/-- The double nearest to a rational. Used for literals and as the last step of every
operation. -/
def ofRat (q : ℚ) : F64 := ofRounded (roundQ q)

/-- `n as f64` for an integer `n`. -/
def ofNat (n : ℕ) : F64 := ofRat n

instance : Zero F64 := ⟨fin 0⟩
instance : One F64 := ⟨fin 1⟩

/-- Is this value a double? -/
def Valid : F64 → Prop
  | fin q => roundQ q = q ∧ -overflowBound < q ∧ q < overflowBound
  | _ => True

instance : DecidablePred Valid := fun x => by cases x <;> unfold Valid <;> infer_instance

/-- Finite, i.e. neither NaN nor infinite. -/
def IsFin : F64 → Prop
  | fin _ => True
  | _ => False

instance : DecidablePred IsFin := fun x => by cases x <;> unfold IsFin <;> infer_instance

/-- `-x`. -/
def neg : F64 → F64
  | nan => nan
  | inf s => inf (!s)
  | fin q => fin (-q)

/-- `x + y`. -/
def add : F64 → F64 → F64
  | nan, _ => nan
  | _, nan => nan
  | inf s, inf t => if s = t then inf s else nan
  | inf s, fin _ => inf s
  | fin _, inf t => inf t
  | fin a, fin b => ofRat (a + b)

/-- `x - y`. -/
def sub (x y : F64) : F64 := add x (neg y)

/-- `x * y`. -/
def mul : F64 → F64 → F64
  | nan, _ => nan
  | _, nan => nan
  | inf s, inf t => inf (s != t)
  | inf s, fin b => if b = 0 then nan else inf (s != decide (b < 0))
  | fin a, inf t => if a = 0 then nan else inf (t != decide (a < 0))
  | fin a, fin b => ofRat (a * b)

/-- `x / y` (division by zero as by `+0.0`). -/
def div : F64 → F64 → F64
  | nan, _ => nan
  | _, nan => nan
  | inf _, inf _ => nan
  | inf s, fin b => inf (s != decide (b < 0))
  | fin _, inf _ => fin 0
  | fin a, fin b =>
    if b = 0 then (if a = 0 then nan else inf (decide (a < 0))) else ofRat (a / b)

instance : Add F64 := ⟨add⟩
instance : Sub F64 := ⟨sub⟩
instance : Mul F64 := ⟨mul⟩
instance : Div F64 := ⟨div⟩
instance : Neg F64 := ⟨neg⟩

/-- Square root of a positive rational, correctly rounded: with `E` the exponent of
the last place of the root, the root is `√(q/4^E) · 2^E`, and the nearest integer to
`√(q/4^E)` is found from its integer part. -/
def sqrtQ (q : ℚ) : ℚ :=
  let E : ℤ := Int.log 2 q / 2 - 52
  let t : ℚ := q / 4 ^ E
  let n : ℕ := Nat.sqrt ⌊t⌋₊
  let h : ℚ := (n + 1 / 2) * (n + 1 / 2)
  let m : ℕ := if t < h then n else if h < t then n + 1 else if n % 2 = 0 then n else n + 1
  m * 2 ^ E

/-- `x.sqrt()`. -/
def sqrt : F64 → F64
  | nan => nan
  | inf s => if s then nan else inf false
  | fin q => if q < 0 then nan else if q = 0 then fin 0 else fin (sqrtQ q)

/-- `x.ceil()`. -/
def ceil : F64 → F64
  | fin q => fin ⌈q⌉
  | x => x

/-- `x as u16` (saturating, NaN to 0, fractions truncated toward zero). -/
def toU16 : F64 → ℕ
  | nan => 0
  | inf s => if s then 0 else 65535
  | fin q => min ⌊q⌋₊ 65535

/-- The order used by `OrderedFloat`: `-∞ < finite < ∞ < NaN`. -/
def rank : F64 → ℤ ×ₗ ℚ
  | inf true => toLex (-1, 0)
  | fin q => toLex (0, q)
  | inf false => toLex (1, 0)
  | nan => toLex (2, 0)

theorem rank_injective : Function.Injective rank := by
  intro a b h
  cases a with
  | nan =>
    cases b with
    | nan => rfl
    | inf t => cases t <;> simp [rank] at h
    | fin q => simp [rank] at h
  | inf s =>
    cases b with
    | nan => cases s <;> simp [rank] at h
    | inf t => cases s <;> cases t <;> simp [rank] at h ⊢
    | fin q => cases s <;> simp [rank] at h
  | fin q =>
    cases b with
    | nan => simp [rank] at h
    | inf t => cases t <;> simp [rank] at h
    | fin r => simp [rank] at h; rw [h]

/-- `OrderedFloat<f64>` comparison (ordered-float 1.0: NaN is greatest and equal to
itself). -/
instance : LinearOrder F64 := LinearOrder.lift' rank rank_injective

theorem le_def {a b : F64} : a ≤ b ↔ rank a ≤ rank b := Iff.rfl
theorem lt_def {a b : F64} : a < b ↔ rank a < rank b := Iff.rfl

/-- Rust's `a < b` on raw `f64`: false when either side is NaN. -/
def flt (a b : F64) : Bool := decide (a ≠ nan ∧ b ≠ nan ∧ a < b)
/-- Rust's `a <= b` on raw `f64`. -/
def fle (a b : F64) : Bool := decide (a ≠ nan ∧ b ≠ nan ∧ a ≤ b)
/-- Rust's `a == b` on raw `f64`. -/
def feq (a b : F64) : Bool := decide (a ≠ nan ∧ a = b)

/-- The largest finite double, `std::f64::MAX`. -/
def maxValue : F64 := fin ((2 ^ 53 - 1) * 2 ^ 971)

end F64

/-- A decimal literal in the Rust source: the double nearest to the rational. -/
abbrev lit (q : ℚ) : F64 := F64.ofRat q

end Carmen
