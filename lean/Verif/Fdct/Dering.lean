import Verif.Huff.Enc
import Mathlib.Data.Rat.Floor
import Mathlib.Algebra.Order.Field.Rat
/-
Overshoot deringing of the compressor (jcdctmgr.c:387-498, `catmull_rom` and `preprocess_deringing`).

A block is a list of 64 integers (the level-shifted samples).  Single-precision arithmetic is modelled by rationals with a
rounding function that is applied after every operation; the function may differ between the operations (its first
argument numbers them), which covers fused multiply-add and excess precision.  `none` is an access outside the 64 element
arrays or a conversion of a float to DCTELEM that does not fit (undefined in C); `w` is the largest DCTELEM: 32767 in the
8-bit build with SIMD, 2147483647 in the others (jdct.h:33-48).
-/
namespace Verif.Fdct

open Verif.Huff (natOrder)

/-- One float operation: the number of the operation, the exact result, the computed result. -/
abbrev Rnd := Nat → ℚ → ℚ

/-- What IEEE single precision promises about an operation (round to nearest, gradual underflow). -/
def Rnd.Ok (R : Rnd) : Prop := ∀ n x, |R n x - x| ≤ |x| / 2 ^ 24 + 1 / 2 ^ 149

/-- jcdctmgr.c:387-403 `catmull_rom`.  The two tangents are computed in `int`. -/
def catmullRom (R : Rnd) (v1 v2 v3 v4 : Int) (t : ℚ) (size : Int) : ℚ :=
  let tan1 : Int := (v3 - v1) * size
  let tan2 : Int := (v4 - v2) * size
  let t2 := R 1 (t * t)
  let t3 := R 2 (t2 * t)
  let f1 := R 6 (R 5 (R 3 (2 * t3) - R 4 (3 * t2)) + 1)
  let f2 := R 9 (R 7 (-2 * t3) + R 8 (3 * t2))
  let f3 := R 12 (R 11 (t3 - R 10 (2 * t2)) + t)
  let f4 := R 13 (t3 - t2)
  R 20 (R 19 (R 18 (R 14 (v2 * f1) + R 15 (R 21 tan1 * f3)) + R 16 (v3 * f2)) + R 17 (R 22 tan2 * f4))

/-- `maxsample`: 255 - CENTERJSAMPLE (jcdctmgr.c:418; CENTERJSAMPLE is 128 in every build, jmorecfg.h:52). -/
def maxSample : Int := 127

/-- `data[jpeg_natural_order[i]]` with both accesses checked. -/
def at? (d : List Int) (i : Nat) : Option Int := do d[← natOrder[i]?]?

/-- jcdctmgr.c:455 `while (++n < size && data[..] >= maxsample)`: the first position after `n` not in the run. -/
def runEnd (d : List Int) : Nat → Nat → Option Nat
  | 0, n => some n
  | fuel + 1, n =>
    if n + 1 < 64 then do
      let v ← at? d (n + 1)
      if maxSample ≤ v then runEnd d fuel (n + 1) else some (n + 1)
    else some (n + 1)

/-- jcdctmgr.c:489-492: the run is overwritten.  `pos` is the float `position`. -/
def fill (w : Int) (R : Rnd) (mo fs ls : Int) (len : Nat) (step : ℚ) : Nat → Nat → ℚ → List Int → Option (List Int)
  | 0, _, _, d => some d
  | c + 1, i, pos, d => do
    let tmp := ⌈catmullRom R (maxSample - fs) maxSample maxSample (maxSample - ls) pos len⌉
    if tmp < -w - 1 ∨ w < tmp then none
    let k ← natOrder[i]?
    if k < d.length then
      fill w R mo fs ls len step c (i + 1) (R 0 (pos + step)) (d.set k (min tmp mo))
    else none

/-- jcdctmgr.c:444-494: one turn of the do-while loop; the new data and `n`. -/
def turn (w : Int) (R : Rnd) (mo : Int) (d : List Int) (n : Nat) : Option (List Int × Nat) := do
  let v ← at? d n
  if v < maxSample then some (d, n + 1)
  else
    let start := n
    let stop ← runEnd d 64 n
    let f1 ← at? d (if 1 ≤ start then start - 1 else 0)
    let f2 ← at? d (if 2 ≤ start then start - 2 else 0)
    let l1 ← at? d (if stop < 63 then stop else 63)
    let l2 ← at? d (if stop < 62 then stop + 1 else 63)
    let fs := max (f1 - f2) (maxSample - f1)
    let ls := max (l1 - l2) (maxSample - l1)
    let fs := if start = 0 then ls else fs
    let ls := if stop = 64 then fs else ls
    let len := stop - start
    let step := R 30 (1 / ((len : ℚ) + 1))
    let d ← fill w R mo fs ls len step len start step d
    some (d, stop + 1)

/-- jcdctmgr.c:443-497: the loop. -/
def turns (w : Int) (R : Rnd) (mo : Int) : Nat → List Int → Nat → Option (List Int)
  | 0, _, _ => none
  | fuel + 1, d, n => do
    let (d, n) ← turn w R mo d n
    if n < 64 then turns w R mo fuel d n else some d

/-- jcdctmgr.c:426-431: `maxsample_count`. -/
def maxCount (d : List Int) : Nat := d.countP (fun v => decide (maxSample ≤ v))

/-- jcdctmgr.c:440: `maxovershoot`. -/
def maxOvershoot (q0 : Nat) (d : List Int) : Int :=
  maxSample + min (min 31 (2 * (q0 : Int))) ((maxSample * 64 - d.sum).tdiv (maxCount d))

/-- jcdctmgr.c:415-498 `preprocess_deringing`.  `q0` is `quantization_table->quantval[0]`. -/
def deringing (w : Int) (R : Rnd) (q0 : Nat) (d : List Int) : Option (List Int) :=
  if maxCount d = 0 ∨ maxCount d = 64 then some d
  else turns w R (maxOvershoot q0 d) 65 d 0

end Verif.Fdct
