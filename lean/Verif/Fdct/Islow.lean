import Verif.Idct.Model
/-
The accurate integer forward DCT (jfdctint.c:147-286, `_jpeg_fdct_islow`).

JLONG arithmetic is checked: `none` is a value that does not fit JLONG (undefined in C) or a stored value that does not
fit DCTELEM.  The constants are the pre-calculated ones of jfdctint.c:100-112.
-/
namespace Verif.Fdct

open Verif.Idct (descale shl cb)

/-- Build-time types: PASS1_BITS (jfdctint.c:80-86), the largest DCTELEM (jdct.h:33-48) and the largest JLONG (`long`). -/
structure Types where
  p1 : Nat
  elem : Int
  long : Int

/-- 8-bit samples, 16-bit DCTELEM (build with SIMD), 32-bit `long`: the narrowest combination. -/
def types8 : Types := ⟨2, 32767, 2147483647⟩

/-- 12-bit samples; JLONG and DCTELEM (which is JLONG) 64 bits, as on Unix. -/
def types12 : Types := ⟨1, 9223372036854775807, 9223372036854775807⟩

/-- 12-bit samples where `long` has 32 bits (Windows, 32-bit systems). -/
def types12w : Types := ⟨1, 2147483647, 2147483647⟩

/-- A value of a signed C type with largest value `m`. -/
def ck (m v : Int) : Option Int := if -m - 1 ≤ v ∧ v ≤ m then some v else none

/-- The 1-D kernel, the same text in both passes, before scaling (jfdctint.c:163-213 and 230-284).  The results are in
index order; 0 and 4 carry no factor, the others 2^CONST_BITS. -/
def kern (m : Int) (x : Nat → Int) : Option (List Int) := do
  let tmp0 ← ck m (x 0 + x 7)
  let tmp7 ← ck m (x 0 - x 7)
  let tmp1 ← ck m (x 1 + x 6)
  let tmp6 ← ck m (x 1 - x 6)
  let tmp2 ← ck m (x 2 + x 5)
  let tmp5 ← ck m (x 2 - x 5)
  let tmp3 ← ck m (x 3 + x 4)
  let tmp4 ← ck m (x 3 - x 4)
  let tmp10 ← ck m (tmp0 + tmp3)
  let tmp13 ← ck m (tmp0 - tmp3)
  let tmp11 ← ck m (tmp1 + tmp2)
  let tmp12 ← ck m (tmp1 - tmp2)
  let o0 ← ck m (tmp10 + tmp11)
  let o4 ← ck m (tmp10 - tmp11)
  let s ← ck m (tmp12 + tmp13)
  let z1 ← ck m (s * 4433)
  let a ← ck m (tmp13 * 6270)
  let o2 ← ck m (z1 + a)
  let a ← ck m (tmp12 * (-15137))
  let o6 ← ck m (z1 + a)
  let z1 ← ck m (tmp4 + tmp7)
  let z2 ← ck m (tmp5 + tmp6)
  let z3 ← ck m (tmp4 + tmp6)
  let z4 ← ck m (tmp5 + tmp7)
  let s ← ck m (z3 + z4)
  let z5 ← ck m (s * 9633)
  let tmp4 ← ck m (tmp4 * 2446)
  let tmp5 ← ck m (tmp5 * 16819)
  let tmp6 ← ck m (tmp6 * 25172)
  let tmp7 ← ck m (tmp7 * 12299)
  let z1 ← ck m (z1 * (-7373))
  let z2 ← ck m (z2 * (-20995))
  let z3 ← ck m (z3 * (-16069))
  let z4 ← ck m (z4 * (-3196))
  let z3 ← ck m (z3 + z5)
  let z4 ← ck m (z4 + z5)
  let s ← ck m (tmp4 + z1)
  let o7 ← ck m (s + z3)
  let s ← ck m (tmp5 + z2)
  let o5 ← ck m (s + z4)
  let s ← ck m (tmp6 + z2)
  let o3 ← ck m (s + z3)
  let s ← ck m (tmp7 + z1)
  let o1 ← ck m (s + z4)
  some [o0, o1, o2, o3, o4, o5, o6, o7]

/-- `DESCALE(x, n)` (jdct.h:191) with the sum checked. -/
def descaleC (m x : Int) (n : Nat) : Option Int := do
  let _ ← ck m (x + (2 ^ (n - 1) : Nat))
  some (descale x n)

/-- One row of pass 1 (jfdctint.c:162-215). -/
def row1 (t : Types) (x : Nat → Int) : Option (List Int) := do
  let o ← kern t.long x
  (List.range 8).mapM (fun k =>
    (if k = 0 ∨ k = 4 then ck t.long (shl (o.getD k 0) t.p1) else descaleC t.long (o.getD k 0) (cb - t.p1)).bind
      (ck t.elem))

/-- One column of pass 2 (jfdctint.c:229-285). -/
def col2 (t : Types) (x : Nat → Int) : Option (List Int) := do
  let o ← kern t.long x
  (List.range 8).mapM (fun k =>
    (descaleC t.long (o.getD k 0) (if k = 0 ∨ k = 4 then t.p1 else cb + t.p1)).bind (ck t.elem))

/-- The stores `dataptr[s*0] = v0; …` at `base`, `base + s`, ... -/
def put8 (s base : Nat) (d : List Int) (vals : List Int) : List Int :=
  (List.range 8).foldl (fun d k => d.set (base + s * k) (vals.getD k 0)) d

/-- jfdctint.c:147-286 `_jpeg_fdct_islow`: the block is transformed in place, rows then columns. -/
def fdctIslow (t : Types) (d : List Int) : Option (List Int) := do
  let d ← (List.range 8).foldlM (fun d r => do
    let vals ← row1 t (fun k => d.getD (8 * r + k) 0)
    some (put8 1 (8 * r) d vals)) d
  (List.range 8).foldlM (fun d c => do
    let vals ← col2 t (fun k => d.getD (8 * k + c) 0)
    some (put8 8 c d vals)) d

end Verif.Fdct
