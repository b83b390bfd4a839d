import Verif.Common.RangeLimit
/-
The integer inverse DCTs: the accurate 8x8 transform `jpeg_idct_islow` and the reduced-size 7x7, 6x6, 5x5, 3x3
(jidctint.c:173-890) and 4x4, 2x2, 1x1 (jidctred.c:121-407).

C types: coefficients are JCOEF (16-bit), multipliers ISLOW_MULT_TYPE (short or int), JLONG is a 64-bit `long`, the
workspace holds 32-bit `int`s.  JLONG arithmetic is done on `Int`: every product is of a 32-bit by a 15-bit value and
at most nine are added, so 64 bits never overflow (simplification: not tracked further).  Casts to `int` wrap.
Where several stores are written out one per line, the model lists the stored values in index order.
-/
namespace Verif.Idct

/-- Build-time sample precision: CENTERJSAMPLE and PASS1_BITS (jidctint.c:104-110, jmorecfg.h). -/
structure Build where
  c : Nat
  p1 : Nat

/-- 8-bit samples: CENTERJSAMPLE 128, PASS1_BITS 2 (jidctint.c:104-106). -/
def bits8 : Build := ⟨128, 2⟩

/-- 12-bit samples: CENTERJSAMPLE 2048, PASS1_BITS 1 (jidctint.c:107-109). -/
def bits12 : Build := ⟨2048, 1⟩

/-- The C conversion of a wider value to `int` (two's complement). -/
def toInt32 (x : Int) : Int := (x + 2147483648) % 4294967296 - 2147483648

/-- `RIGHT_SHIFT(x, n)` (jpegint.h:535): arithmetic shift, i.e. division rounding down. -/
def shr (x : Int) (n : Nat) : Int := x / (2 ^ n : Nat)

/-- `LEFT_SHIFT(x, n)` (jpegint.h:87). -/
def shl (x : Int) (n : Nat) : Int := x * (2 ^ n : Nat)

/-- `DESCALE(x, n)` (jdct.h:191). -/
def descale (x : Int) (n : Nat) : Int := shr (x + (2 ^ (n - 1) : Nat)) n

/-- `range_limit[(int)(x) & RANGE_MASK]` with `range_limit = IDCT_range_limit(cinfo)`, which is the
sample_range_limit pointer plus CENTERJSAMPLE (jdct.h:88-91).  RANGE_MASK is 8*CENTERJSAMPLE-1, so the mask is the
remainder modulo 8*CENTERJSAMPLE.  `none` = read outside the table. -/
def limit (b : Build) (x : Int) : Option Nat :=
  (rangeLimitTable b.c).get? ((b.c : Int) + toInt32 x % (8 * b.c : Nat))

/-- `CONST_BITS` (jidctint.c:105). -/
def cb : Nat := 13

/-- The work array; `none` = not yet written. -/
abbrev Work := List (Option Int)

/-- The stores `wsptr[n*0] = v0; wsptr[n*1] = v1; …` into column `col`. -/
def put (n col : Nat) (w : Work) (vals : List Int) : Work :=
  (List.range vals.length).foldl (fun w k => w.set (n * k + col) (some (vals.getD k 0))) w

/-- Pass 1 of every routine (e.g. jidctint.c:193-298): one step per input column, `skip` the columns the reduced
routines do not process.  `col` gets the column's coefficients and its dequantized values
(`DEQUANTIZE(inptr[DCTSIZE*k], quantptr[DCTSIZE*k])`, jidctint.c:165). -/
def pass1 (n m : Nat) (skip : Nat → Bool) (col : (Nat → Int) → (Nat → Int) → List Int) (coef q : List Int) : Work :=
  (List.range n).foldl
    (fun w c =>
      if skip c then w
      else put n c w (col (fun k => coef.getD (8 * k + c) 0)
        (fun k => coef.getD (8 * k + c) 0 * q.getD (8 * k + c) 0)))
    (List.replicate (n * m) none)

/-- Pass 2 (e.g. jidctint.c:304-412): one step per output row; `wsptr` advances by `n`.  A read of an entry outside
the current row or never written gives `none`. -/
def pass2 (n m : Nat) (row : (Nat → Option Int) → Option (List Nat)) (ws : Work) : Option (List (List Nat)) :=
  (List.range m).mapM (fun r => row (fun k => if k < n then (ws.getD (n * r + k) none) else none))

/-! ### 8x8 (jidctint.c:173-413) -/

/-- The 1-D kernel, the same text in both passes: even part and odd part, before descaling
(jidctint.c:229-284 and 334-380). -/
def k8 (w0 w1 w2 w3 w4 w5 w6 w7 : Int) : List Int :=
  let z1 := (w2 + w6) * 4433
  let t2 := z1 + w6 * (-15137)
  let t3 := z1 + w2 * 6270
  let t0 := shl (w0 + w4) cb
  let t1 := shl (w0 - w4) cb
  let t10 := t0 + t3
  let t13 := t0 - t3
  let t11 := t1 + t2
  let t12 := t1 - t2
  let z1 := w7 + w1
  let z2 := w5 + w3
  let z3 := w7 + w3
  let z4 := w5 + w1
  let z5 := (z3 + z4) * 9633
  let t0 := w7 * 2446
  let t1 := w5 * 16819
  let t2 := w3 * 25172
  let t3 := w1 * 12299
  let z1 := z1 * (-7373)
  let z2 := z2 * (-20995)
  let z3 := z3 * (-16069)
  let z4 := z4 * (-3196)
  let z3 := z3 + z5
  let z4 := z4 + z5
  let t0 := t0 + (z1 + z3)
  let t1 := t1 + (z2 + z4)
  let t2 := t2 + (z2 + z3)
  let t3 := t3 + (z1 + z4)
  [t10 + t3, t11 + t2, t12 + t1, t13 + t0, t13 - t0, t12 - t1, t11 - t2, t10 - t3]

/-- One column of pass 1 with the all-AC-zero shortcut (jidctint.c:206-297). -/
def col8 (b : Build) (x z : Nat → Int) : List Int :=
  if x 1 = 0 ∧ x 2 = 0 ∧ x 3 = 0 ∧ x 4 = 0 ∧ x 5 = 0 ∧ x 6 = 0 ∧ x 7 = 0 then
    List.replicate 8 (toInt32 (shl (z 0) b.p1))
  else
    (k8 (z 0) (z 1) (z 2) (z 3) (z 4) (z 5) (z 6) (z 7)).map (fun s => toInt32 (descale s (cb - b.p1)))

/-- One row of pass 2 with the zero-row shortcut (jidctint.c:305-411). -/
def row8 (b : Build) (rd : Nat → Option Int) : Option (List Nat) := do
  let w0 ← rd 0
  let w1 ← rd 1
  let w2 ← rd 2
  let w3 ← rd 3
  let w4 ← rd 4
  let w5 ← rd 5
  let w6 ← rd 6
  let w7 ← rd 7
  if w1 = 0 ∧ w2 = 0 ∧ w3 = 0 ∧ w4 = 0 ∧ w5 = 0 ∧ w6 = 0 ∧ w7 = 0 then
    (List.replicate 8 (descale w0 (b.p1 + 3))).mapM (limit b)
  else
    (k8 w0 w1 w2 w3 w4 w5 w6 w7).mapM (fun s => limit b (descale s (cb + b.p1 + 3)))

/-- `jpeg_idct_islow` (jidctint.c:173-413). -/
def idct8 (b : Build) (coef q : List Int) : Option (List (List Nat)) :=
  pass2 8 8 (row8 b) (pass1 8 8 (fun _ => false) (col8 b) coef q)

/-! ### 7x7 (jidctint.c:427-564) -/

/-- The 7-point kernel (jidctint.c:454-497, 508-548); `t13` already contains the rounding fudge. -/
def k7 (t13 w1 w2 w3 w4 w5 w6 : Int) : List Int :=
  let z1 := w2
  let z2 := w4
  let z3 := w6
  let t10 := (z2 - z3) * 7223
  let t12 := (z1 - z2) * 2578
  let t11 := t10 + t12 + t13 - z2 * 15083
  let t0 := z1 + z3
  let z2 := z2 - t0
  let t0 := t0 * 10438 + t13
  let t10 := t10 + (t0 - z3 * 637)
  let t12 := t12 + (t0 - z1 * 20239)
  let t13 := t13 + z2 * 11585
  let z1 := w1
  let z2 := w3
  let z3 := w5
  let t1 := (z1 + z2) * 7663
  let t2 := (z1 - z2) * 1395
  let t0 := t1 - t2
  let t1 := t1 + t2
  let t2 := (z2 + z3) * (-11295)
  let t1 := t1 + t2
  let z2 := (z1 + z3) * 5027
  let t0 := t0 + z2
  let t2 := t2 + (z2 + z3 * 15326)
  [t10 + t0, t11 + t1, t12 + t2, t13, t12 - t2, t11 - t1, t10 - t0]

/-- Pass 1 of 7x7 (jidctint.c:448-504). -/
def col7 (b : Build) (_x z : Nat → Int) : List Int :=
  (k7 (shl (z 0) cb + (2 ^ (cb - b.p1 - 1) : Nat)) (z 1) (z 2) (z 3) (z 4) (z 5) (z 6)).map
    (fun s => toInt32 (shr s (cb - b.p1)))

/-- Pass 2 of 7x7 (jidctint.c:509-563). -/
def row7 (b : Build) (rd : Nat → Option Int) : Option (List Nat) := do
  let w0 ← rd 0
  let w1 ← rd 1
  let w2 ← rd 2
  let w3 ← rd 3
  let w4 ← rd 4
  let w5 ← rd 5
  let w6 ← rd 6
  (k7 (shl (w0 + (2 ^ (b.p1 + 2) : Nat)) cb) w1 w2 w3 w4 w5 w6).mapM (fun s => limit b (shr s (cb + b.p1 + 3)))

/-- `jpeg_idct_7x7` (jidctint.c:427-564). -/
def idct7 (b : Build) (coef q : List Int) : Option (List (List Nat)) :=
  pass2 7 7 (row7 b) (pass1 7 7 (fun _ => false) (col7 b) coef q)

/-! ### 6x6 (jidctint.c:576-685) -/

/-- Pass 1 of 6x6 (jidctint.c:597-635); the middle pair is shifted before the odd part is added. -/
def col6 (b : Build) (_x z : Nat → Int) : List Int :=
  let t0 := shl (z 0) cb + (2 ^ (cb - b.p1 - 1) : Nat)
  let t2 := z 4
  let t10 := t2 * 5793
  let t1 := t0 + t10
  let t11 := shr (t0 - t10 - t10) (cb - b.p1)
  let t10 := z 2
  let t0 := t10 * 10033
  let t10 := t1 + t0
  let t12 := t1 - t0
  let z1 := z 1
  let z2 := z 3
  let z3 := z 5
  let t1 := (z1 + z3) * 2998
  let t0 := t1 + shl (z1 + z2) cb
  let t2 := t1 + shl (z3 - z2) cb
  let t1 := shl (z1 - z2 - z3) b.p1
  [toInt32 (shr (t10 + t0) (cb - b.p1)), toInt32 (t11 + t1), toInt32 (shr (t12 + t2) (cb - b.p1)),
    toInt32 (shr (t12 - t2) (cb - b.p1)), toInt32 (t11 - t1), toInt32 (shr (t10 - t0) (cb - b.p1))]

/-- Pass 2 of 6x6 (jidctint.c:640-684). -/
def row6 (b : Build) (rd : Nat → Option Int) : Option (List Nat) := do
  let w0 ← rd 0
  let w1 ← rd 1
  let w2 ← rd 2
  let w3 ← rd 3
  let w4 ← rd 4
  let w5 ← rd 5
  let t0 := shl (w0 + (2 ^ (b.p1 + 2) : Nat)) cb
  let t10 := w4 * 5793
  let t1 := t0 + t10
  let t11 := t0 - t10 - t10
  let t10 := w2
  let t0 := t10 * 10033
  let t10 := t1 + t0
  let t12 := t1 - t0
  let t1 := (w1 + w5) * 2998
  let t0 := t1 + shl (w1 + w3) cb
  let t2 := t1 + shl (w5 - w3) cb
  let t1 := shl (w1 - w3 - w5) cb
  [t10 + t0, t11 + t1, t12 + t2, t12 - t2, t11 - t1, t10 - t0].mapM (fun s => limit b (shr s (cb + b.p1 + 3)))

/-- `jpeg_idct_6x6` (jidctint.c:576-685). -/
def idct6 (b : Build) (coef q : List Int) : Option (List (List Nat)) :=
  pass2 6 6 (row6 b) (pass1 6 6 (fun _ => false) (col6 b) coef q)

/-! ### 5x5 (jidctint.c:697-800) -/

/-- The 5-point kernel (jidctint.c:722-745, 762-783); `t12` already contains the rounding fudge. -/
def k5 (t12 w1 w2 w3 w4 : Int) : List Int :=
  let t0 := w2
  let t1 := w4
  let z1 := (t0 + t1) * 6476
  let z2 := (t0 - t1) * 2896
  let z3 := t12 + z2
  let t10 := z3 + z1
  let t11 := z3 - z1
  let t12 := t12 - shl z2 2
  let z2 := w1
  let z3 := w3
  let z1 := (z2 + z3) * 6810
  let t0 := z1 + z2 * 4209
  let t1 := z1 - z3 * 17828
  [t10 + t0, t11 + t1, t12, t11 - t1, t10 - t0]

/-- Pass 1 of 5x5 (jidctint.c:716-752). -/
def col5 (b : Build) (_x z : Nat → Int) : List Int :=
  (k5 (shl (z 0) cb + (2 ^ (cb - b.p1 - 1) : Nat)) (z 1) (z 2) (z 3) (z 4)).map (fun s => toInt32 (shr s (cb - b.p1)))

/-- Pass 2 of 5x5 (jidctint.c:757-799). -/
def row5 (b : Build) (rd : Nat → Option Int) : Option (List Nat) := do
  let w0 ← rd 0
  let w1 ← rd 1
  let w2 ← rd 2
  let w3 ← rd 3
  let w4 ← rd 4
  (k5 (shl (w0 + (2 ^ (b.p1 + 2) : Nat)) cb) w1 w2 w3 w4).mapM (fun s => limit b (shr s (cb + b.p1 + 3)))

/-- `jpeg_idct_5x5` (jidctint.c:697-800). -/
def idct5 (b : Build) (coef q : List Int) : Option (List (List Nat)) :=
  pass2 5 5 (row5 b) (pass1 5 5 (fun _ => false) (col5 b) coef q)

/-! ### 3x3 (jidctint.c:812-890) -/

/-- The 3-point kernel (jidctint.c:836-849, 865-876); `t0` already contains the rounding fudge. -/
def k3 (t0 w1 w2 : Int) : List Int :=
  let t12 := w2 * 5793
  let t10 := t0 + t12
  let t2 := t0 - t12 - t12
  let t0 := w1 * 10033
  [t10 + t0, t2, t10 - t0]

/-- Pass 1 of 3x3 (jidctint.c:831-856). -/
def col3 (b : Build) (_x z : Nat → Int) : List Int :=
  (k3 (shl (z 0) cb + (2 ^ (cb - b.p1 - 1) : Nat)) (z 1) (z 2)).map (fun s => toInt32 (shr s (cb - b.p1)))

/-- Pass 2 of 3x3 (jidctint.c:860-889). -/
def row3 (b : Build) (rd : Nat → Option Int) : Option (List Nat) := do
  let w0 ← rd 0
  let w1 ← rd 1
  let w2 ← rd 2
  (k3 (shl (w0 + (2 ^ (b.p1 + 2) : Nat)) cb) w1 w2).mapM (fun s => limit b (shr s (cb + b.p1 + 3)))

/-- `jpeg_idct_3x3` (jidctint.c:812-890). -/
def idct3 (b : Build) (coef q : List Int) : Option (List (List Nat)) :=
  pass2 3 3 (row3 b) (pass1 3 3 (fun _ => false) (col3 b) coef q)

/-! ### 4x4 (jidctred.c:121-268) -/

/-- The 4-point kernel on eight coefficients (jidctred.c:162-190, 225-250); term 4 is not used. -/
def k4 (w0 w1 w2 w3 w5 w6 w7 : Int) : List Int :=
  let t0 := shl w0 (cb + 1)
  let t2 := w2 * 15137 + w6 * (-6270)
  let t10 := t0 + t2
  let t12 := t0 - t2
  let t0 := w7 * (-1730) + w5 * 11893 + w3 * (-17799) + w1 * 8697
  let t2 := w7 * (-4176) + w5 * (-4926) + w3 * 7373 + w1 * 20995
  [t10 + t2, t12 + t0, t12 - t0, t10 - t2]

/-- Pass 1 of 4x4 with its shortcut (jidctred.c:145-201). -/
def col4 (b : Build) (x z : Nat → Int) : List Int :=
  if x 1 = 0 ∧ x 2 = 0 ∧ x 3 = 0 ∧ x 5 = 0 ∧ x 6 = 0 ∧ x 7 = 0 then List.replicate 4 (toInt32 (shl (z 0) b.p1))
  else
    (k4 (z 0) (z 1) (z 2) (z 3) (z 5) (z 6) (z 7)).map (fun s => toInt32 (descale s (cb - b.p1 + 1)))

/-- Pass 2 of 4x4 with its shortcut (jidctred.c:206-267). -/
def row4 (b : Build) (rd : Nat → Option Int) : Option (List Nat) := do
  let w0 ← rd 0
  let w1 ← rd 1
  let w2 ← rd 2
  let w3 ← rd 3
  let w5 ← rd 5
  let w6 ← rd 6
  let w7 ← rd 7
  if w1 = 0 ∧ w2 = 0 ∧ w3 = 0 ∧ w5 = 0 ∧ w6 = 0 ∧ w7 = 0 then
    (List.replicate 4 (descale w0 (b.p1 + 3))).mapM (limit b)
  else
    (k4 w0 w1 w2 w3 w5 w6 w7).mapM (fun s => limit b (descale s (cb + b.p1 + 3 + 1)))

/-- `jpeg_idct_4x4` (jidctred.c:121-268): column 4 is not processed (jidctred.c:144-145). -/
def idct4 (b : Build) (coef q : List Int) : Option (List (List Nat)) :=
  pass2 8 4 (row4 b) (pass1 8 4 (fun c => c == 4) (col4 b) coef q)

/-! ### 2x2 (jidctred.c:279-382) -/

/-- The 2-point kernel (jidctred.c:316-333, 359-367); terms 2, 4, 6 are not used. -/
def k2 (w0 w1 w3 w5 w7 : Int) : List Int :=
  let t10 := shl w0 (cb + 2)
  let t0 := w7 * (-5906) + w5 * 6967 + w3 * (-10426) + w1 * 29692
  [t10 + t0, t10 - t0]

/-- Pass 1 of 2x2 with its shortcut (jidctred.c:303-338). -/
def col2 (b : Build) (x z : Nat → Int) : List Int :=
  if x 1 = 0 ∧ x 3 = 0 ∧ x 5 = 0 ∧ x 7 = 0 then List.replicate 2 (toInt32 (shl (z 0) b.p1))
  else (k2 (z 0) (z 1) (z 3) (z 5) (z 7)).map (fun s => toInt32 (descale s (cb - b.p1 + 2)))

/-- Pass 2 of 2x2 with its shortcut (jidctred.c:343-381). -/
def row2 (b : Build) (rd : Nat → Option Int) : Option (List Nat) := do
  let w0 ← rd 0
  let w1 ← rd 1
  let w3 ← rd 3
  let w5 ← rd 5
  let w7 ← rd 7
  if w1 = 0 ∧ w3 = 0 ∧ w5 = 0 ∧ w7 = 0 then (List.replicate 2 (descale w0 (b.p1 + 3))).mapM (limit b)
  else (k2 w0 w1 w3 w5 w7).mapM (fun s => limit b (descale s (cb + b.p1 + 3 + 2)))

/-- `jpeg_idct_2x2` (jidctred.c:279-382): columns 2, 4, 6 are not processed (jidctred.c:301-302). -/
def idct2 (b : Build) (coef q : List Int) : Option (List (List Nat)) :=
  pass2 8 2 (row2 b) (pass1 8 2 (fun c => c == 2 || c == 4 || c == 6) (col2 b) coef q)

/-! ### 1x1 (jidctred.c:390-407) -/

/-- `jpeg_idct_1x1` (jidctred.c:390-407). -/
def idct1 (b : Build) (coef q : List Int) : Option (List (List Nat)) := do
  let v ← limit b (descale (coef.getD 0 0 * q.getD 0 0) 3)
  some [[v]]

/-- `start_pass` of the inverse-DCT manager picks the routine from the component's scaled size
(jddctmgr.c:103-245, the 1..8 cases of the islow method). -/
def idct (b : Build) (n : Nat) (coef q : List Int) : Option (List (List Nat)) :=
  match n with
  | 1 => idct1 b coef q
  | 2 => idct2 b coef q
  | 3 => idct3 b coef q
  | 4 => idct4 b coef q
  | 5 => idct5 b coef q
  | 6 => idct6 b coef q
  | 7 => idct7 b coef q
  | 8 => idct8 b coef q
  | _ => none

end Verif.Idct
