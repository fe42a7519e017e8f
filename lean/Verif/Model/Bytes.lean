import Mathlib.Data.Nat.Notation
import Mathlib.Data.List.Basic

/-!
# Bytes, fixed-width integers, varints, z-order

A byte string is a list of natural numbers; everything the model writes is reduced
modulo 256 (`Verif.Lemmas.Bytes.*_lt`).
-/

namespace Carmen

/-- A byte string (`Vec<u8>`, `&[u8]`). -/
abbrev Bytes := List ℕ

/-- All elements are bytes. -/
def IsBytes (b : Bytes) : Prop := ∀ x ∈ b, x < 256

/-- `n.to_le_bytes()` of a `k`-byte integer (gridstore_format.rs:444, 463, 485;
builder.rs:232). -/
def leBytes : ℕ → ℕ → Bytes
  | 0, _ => []
  | k + 1, n => n % 256 :: leBytes k (n / 256)

/-- `uN::from_le_bytes` (gridstore_format.rs:103, 449, 455, 467; store.rs:285). -/
def ofLe : Bytes → ℕ
  | [] => 0
  | b :: bs => b + 256 * ofLe bs

/-- `write_u32::<BigEndian>`, `to_be_bytes` (common.rs:30, 38). -/
def beBytes (k n : ℕ) : Bytes := (leBytes k n).reverse

/-- `read_u32::<BigEndian>`, `read_u128::<BigEndian>` (common.rs:82, 102; store.rs:387). -/
def ofBe (b : Bytes) : ℕ := ofLe b.reverse

/-- `encode_var` of crate `integer-encoding` for a `u32` (used in
gridstore_format.rs:166, 177, 188, 414): seven bits per byte, least significant first,
high bit set on all but the last. `fuel` bounds the number of bytes; 5 suffice for 32
bits (`Verif.Lemmas.Bytes.decodeVar_encodeVar`). -/
def encodeVarF : ℕ → ℕ → Bytes
  | 0, n => [n % 256]
  | f + 1, n => if 128 ≤ n then (128 + n % 128) :: encodeVarF f (n / 128) else [n]

/-- `(n as u32).encode_var(..)`. -/
def encodeVar (n : ℕ) : Bytes := encodeVarF 10 (n % 2 ^ 32)

/-- `u32::decode_var` of crate `integer-encoding` (gridstore_format.rs:108, 292, 327,
380): value and number of bytes consumed; on exhausted input it returns what it has. -/
def decodeVarF : ℕ → Bytes → ℕ × ℕ
  | 0, _ => (0, 0)
  | _ + 1, [] => (0, 0)
  | f + 1, b :: bs =>
    if b < 128 then (b, 1)
    else
      let r := decodeVarF f bs
      (b % 128 + 128 * r.1, r.2 + 1)

/-- `u32::decode_var`: at most 11 bytes are looked at, the result is cut to 32 bits. -/
def decodeVar (b : Bytes) : ℕ × ℕ :=
  let r := decodeVarF 11 b
  (r.1 % 2 ^ 32, r.2)

/-- Spread the low `k` bits of `n` to the even positions. -/
def spread : ℕ → ℕ → ℕ
  | 0, _ => 0
  | k + 1, n => n % 2 + 4 * spread k (n / 2)

/-- Collect the low `k` even-position bits of `c`. -/
def compact : ℕ → ℕ → ℕ
  | 0, _ => 0
  | k + 1, c => c % 2 + 2 * compact k (c / 4)

/-- `interleave_morton(x: u16, y: u16) -> u32` of crate `morton` (builder.rs:31, 140;
spatial.rs:15): bit `i` of `x` goes to bit `2i`, bit `i` of `y` to bit `2i+1`. -/
def interleave (x y : ℕ) : ℕ := spread 16 x + 2 * spread 16 y

/-- `deinterleave_morton(c: u32) -> (u16, u16)` (store.rs:64, 153; spatial.rs:67). -/
def deinterleave (c : ℕ) : ℕ × ℕ := (compact 16 c, compact 16 (c / 2))

end Carmen
