import Mathlib.Algebra.BigOperators.Fin
import Verif.Smooth.Model
/-
What block smoothing is meant to compute, without reference to the code: the estimates of low-frequency coefficients are
weighted sums (`kernel`) of the DC values of the 5x5 blocks around a block, in units of 1/256 and of the quantization step,
rounded to nearest, and limited to what the bits received so far allow.
-/
namespace Verif.Smooth.Spec
open Verif.Smooth

/-- DC values of the 5x5 blocks around a block, which is at (2,2). -/
abbrev Window := Fin 5 → Fin 5 → Int

/-- Weighted sum. -/
def conv (K W : Window) : Int := ∑ i, ∑ j, K i j * W i j

/-- Positions (row * 8 + column) of the first ten coefficients in zigzag order. -/
def zig : List Nat := [0, 1, 8, 16, 9, 2, 3, 10, 17, 24]

/-- Transposed. -/
def tr (K : Window) : Window := fun i j => K j i

/-- Horizontal gradient, used when no AC coefficient is known. -/
def k01 : Window :=
  ![![-1, -1, 0, 1, 1], ![-3, 13, 0, -13, 3], ![-3, 38, 0, -38, 3], ![-3, 13, 0, -13, 3], ![-1, -1, 0, 1, 1]]
/-- Vertical curvature. -/
def k20 : Window :=
  ![![0, 0, 1, 0, 0], ![0, 2, 7, 2, 0], ![0, -5, -14, -5, 0], ![0, 2, 7, 2, 0], ![0, 0, 1, 0, 0]]
/-- Saddle. -/
def k11 : Window :=
  ![![-1, 0, 0, 0, 1], ![0, 9, 0, -9, 0], ![0, 0, 0, 0, 0], ![0, -9, 0, 9, 0], ![1, 0, 0, 0, -1]]
/-- Third order, horizontal. -/
def k03 : Window :=
  ![![0, 0, 0, 0, 0], ![0, 1, 0, -1, 0], ![0, 2, 0, -2, 0], ![0, 1, 0, -1, 0], ![0, 0, 0, 0, 0]]
/-- Vertical gradient of the horizontal curvature. -/
def k12 : Window :=
  ![![0, 0, 0, 0, 0], ![0, 1, -3, 1, 0], ![0, 0, 0, 0, 0], ![0, -1, 3, -1, 0], ![0, 0, 0, 0, 0]]
/-- The new DC value. -/
def k00 : Window :=
  ![![-2, -6, -8, -6, -2], ![-6, 6, 42, 6, -6], ![-8, 42, 152, 42, -8], ![-6, 6, 42, 6, -6], ![-2, -6, -8, -6, -2]]
/-- Horizontal gradient, used when some AC coefficient is known. -/
def a01 : Window :=
  ![![0, 0, 0, 0, 0], ![0, 0, 0, 0, 0], ![-7, 50, 0, -50, 7], ![0, 0, 0, 0, 0], ![0, 0, 0, 0, 0]]
/-- Horizontal curvature, used when some AC coefficient is known. -/
def a02 : Window :=
  ![![0, 0, 0, 0, 0], ![0, 0, 0, 0, 0], ![-1, 13, -24, 13, -1], ![0, 0, 0, 0, 0], ![0, 0, 0, 0, 0]]
/-- Saddle, used when some AC coefficient is known. -/
def a11 : Window :=
  ![![0, -1, 0, 1, 0], ![-1, 10, 0, -10, 1], ![0, 0, 0, 0, 0], ![1, -10, 0, 10, -1], ![0, 1, 0, -1, 0]]

/-- The weights for coefficient number `k` in zigzag order (1..9, or 1..5 if some AC coefficient is known). -/
def kernel : Bool → Nat → Window
  | true, 1 => k01
  | true, 2 => tr k01
  | true, 3 => k20
  | true, 4 => k11
  | true, 5 => tr k20
  | true, 6 => k03
  | true, 7 => k12
  | true, 8 => tr k12
  | true, 9 => tr k03
  | false, 1 => a01
  | false, 2 => tr a01
  | false, 3 => tr a02
  | false, 4 => a11
  | false, 5 => a02
  | _, _ => fun _ _ => 0

/-- `a / b` rounded to nearest, halves away from zero. -/
def roundAway (a b : Int) : Int := a.sign * ((2 * |a| + b) / (2 * b))

/-- If bits from number `al` up were received and are all 0, the magnitude is less than `2 ^ al`. -/
def limit (al e : Int) : Int := if al > 0 then max (-(2 ^ al.toNat - 1)) (min (2 ^ al.toNat - 1) e) else e

/-- No data at all was received for the AC coefficients 1..9. -/
def noAC (bits : Nat → Int) : Bool := decide (∀ k : Fin 9, bits (k + 1) = -1)

/-- Quantized estimate of coefficient `k`. -/
def estimate (bits : Nat → Int) (q : Nat → Nat) (W : Window) (k : Nat) : Int :=
  limit (bits k) (roundAway (q 0 * conv (kernel (noAC bits) k) W) (256 * q (zig.getD k 0)))

/-- Reduction to 16 bits. -/
def wrap (x : Int) : Int := Int.bmod x 65536

/-- The coefficients that are estimated: those not known exactly and 0 so far. -/
def estimated (bits : Nat → Int) (ws : Nat → Int) (k : Nat) : Prop :=
  1 ≤ k ∧ k ≤ (if noAC bits then 9 else 5) ∧ bits k ≠ 0 ∧ ws (zig.getD k 0) = 0

instance (bits ws k) : Decidable (estimated bits ws k) := by unfold estimated; infer_instance

/-- The smoothed block. -/
def block (bits : Nat → Int) (q : Nat → Nat) (W : Window) (ws : Nat → Int) (p : Nat) : Int :=
  let k := zig.idxOf p
  if p = 0 then if noAC bits then wrap (roundAway (conv k00 W) 256) else ws 0
  else if k < 10 ∧ estimated bits ws k then wrap (estimate bits q W k) else ws p

/-- The rows of the window around block row `row` in iMCU row `t` of `T`. The first and last ones are repeated, with two
peculiarities of the code: (1) except in the last iMCU row the last row is that of the padded array; (2) if there are two
iMCU rows and the second has just one block row, this row does not see the row two above it. -/
def winRow (c : Comp) (T t row : Nat) : Fin 5 → Nat :=
  let hi := if t + 1 < T then c.v * T - 1 else c.height - 1
  ![if T = 2 ∧ t = 1 ∧ c.height = c.v + 1 then row - 1 else row - 2, row - 1, row, min (row + 1) hi, min (row + 2) hi]

/-- The columns of the window: repeated at the right edge of the image, and at the left edge of the output region. -/
def winCol (c : Comp) (x : Nat) (j : Fin 5) : Nat := max c.first (min (x + j - 2) (c.width - 1))

/-- The window around a block. -/
def window (c : Comp) (T t row x : Nat) : Window := fun i j => c.blk (winRow c T t row i) (winCol c x j) 0

/-- The blocks of an iMCU row of a component: its block rows inside the image, and the columns of the output region. -/
def comp (bits : Nat → Int) (c : Comp) (T t : Nat) : List (List (Nat → Int)) :=
  (List.range (min c.v (c.height - t * c.v))).map fun br =>
    (List.range (c.last + 1 - c.first)).map fun k =>
      block bits c.q (window c T t (t * c.v + br) (c.first + k)) (c.blk (t * c.v + br) (c.first + k))

/-- A component as the decoder sets it up: `D` bounds the DC values, `Q` the quantization values. -/
structure WF (c : Comp) (T : Nat) (D Q : Nat) : Prop where
  h : 0 < c.h
  v : 0 < c.v
  height : 0 < c.height
  T : T = (c.height + c.v - 1) / c.v
  first : c.first ≤ c.last
  last : c.last < c.width
  dc : ∀ r x, |c.blk r x 0| ≤ D
  q : ∀ p ∈ zig, 0 < c.q p ∧ c.q p ≤ Q

/-- Bounds under which nothing overflows: DC values are 16-bit, quantization values are 16-bit, and `lm`, the largest `long`,
is large enough (which it is if it has 64 bits, or if it has 32 bits and both kinds of values are those of baseline files). -/
structure Bd (lm D Q : Nat) : Prop where
  dc : D ≤ 32768
  quant : Q ≤ 65535
  long : Q * (432 * D + 256) ≤ lm

end Verif.Smooth.Spec
