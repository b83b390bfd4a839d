import Verif.Color.Model
/-
Merged upsampling and colour conversion of one row group: jdmrgext.c (all RGB pixel formats), jdmrg565.c (RGB565 with and without ordered dithering, both byte orders) and the tables of jdmerge.c, portable C code.
`c` is CENTERJSAMPLE (128 or 2048; 128 for RGB565).  Input rows are the lists of their samples, an output row is the list of its pixels, a pixel the list of its bytes (samples); every read or write outside a row or table is `none`.
-/
namespace Verif.Merge
open Verif.Color

/-- `FIX(x)` (jdmerge.c:50) for x = n/100000, see `Color.fix`. -/
def fixM (n : Nat) : Int := (((n * 65536 + 50000) / 100000 : Nat) : Int)

/-- build_ycc_rgb_table (jdmerge.c:155-193): the tables Cr_r_tab, Cb_b_tab, Cr_g_tab, Cb_g_tab. -/
def mCrR (c : Nat) : PTab Int := ⟨0, (List.range (2 * c)).map fun (i : Nat) => (fixM 140200 * ((i : Int) - c) + 32768) / 65536⟩
def mCbB (c : Nat) : PTab Int := ⟨0, (List.range (2 * c)).map fun (i : Nat) => (fixM 177200 * ((i : Int) - c) + 32768) / 65536⟩
def mCrG (c : Nat) : PTab Int := ⟨0, (List.range (2 * c)).map fun (i : Nat) => -(fixM 71414) * ((i : Int) - c)⟩
def mCbG (c : Nat) : PTab Int := ⟨0, (List.range (2 * c)).map fun (i : Nat) => -(fixM 34414) * ((i : Int) - c) + 32768⟩

/-- The chroma part (jdmrgext.c:50-54, 118-122): cred, cgreen, cblue from the samples at column `i` of the chroma rows. -/
def chroma (c : Nat) (cbRow crRow : List Nat) (i : Nat) : Option (Int × Int × Int) := do
  let cb ← cbRow[i]?
  let cr ← crRow[i]?
  let cred ← (mCrR c).get? cr
  let g1 ← (mCbG c).get? cb
  let g2 ← (mCrG c).get? cr
  let cblue ← (mCbB c).get? cb
  pure (cred, (g1 + g2) / 65536, cblue)

/-- One pixel (jdmrgext.c:56-63 and the like): luma sample at column `i`, written to pixel `o` of the output row. -/
def px1 (c : Nat) (fmt : PixFmt) (yRow : List Nat) (i : Nat) (ch : Int × Int × Int) (o : Nat) (out : List (List Nat)) : Option (List (List Nat)) := do
  let y ← yRow[i]?
  let r ← (rangeLimitTable c).get? ((y : Int) + ch.1)
  let g ← (rangeLimitTable c).get? ((y : Int) + ch.2.1)
  let b ← (rangeLimitTable c).get? ((y : Int) + ch.2.2)
  let old ← out[o]?
  pure (out.set o (putPixel fmt (2 * c - 1) old r g b))

/-- The pair loop of h2v1_merged_upsample_internal (jdmrgext.c:48-73): `i0` = inptr0, `i1` = inptr1 = inptr2, `o` = outptr. -/
def h2v1Loop (c : Nat) (fmt : PixFmt) (y cb cr : List Nat) : Nat → (i0 i1 o : Nat) → List (List Nat) → Option (Nat × Nat × Nat × List (List Nat))
  | 0, i0, i1, o, out => some (i0, i1, o, out)
  | n + 1, i0, i1, o, out => do
    let ch ← chroma c cb cr i1
    let out ← px1 c fmt y i0 ch o out
    let out ← px1 c fmt y (i0 + 1) ch (o + 1) out
    h2v1Loop c fmt y cb cr n (i0 + 2) (i1 + 1) (o + 2) out

/-- h2v1_merged_upsample_internal (jdmrgext.c:22-90); `w` = output_width. -/
def h2v1 (c : Nat) (fmt : PixFmt) (w : Nat) (y cb cr : List Nat) (out : List (List Nat)) : Option (List (List Nat)) := do
  let (i0, i1, o, out) ← h2v1Loop c fmt y cb cr (w / 2) 0 0 0 out
  if w % 2 = 1 then do
    let ch ← chroma c cb cr i1
    px1 c fmt y i0 ch o out
  else pure out

/-- The loop of h2v2_merged_upsample_internal (jdmrgext.c:116-157): the two luma rows and the two output rows advance together. -/
def h2v2Loop (c : Nat) (fmt : PixFmt) (y0 y1 cb cr : List Nat) : Nat → (i0 i1 o : Nat) → List (List Nat) → List (List Nat) → Option (Nat × Nat × Nat × List (List Nat) × List (List Nat))
  | 0, i0, i1, o, out0, out1 => some (i0, i1, o, out0, out1)
  | n + 1, i0, i1, o, out0, out1 => do
    let ch ← chroma c cb cr i1
    let out0 ← px1 c fmt y0 i0 ch o out0
    let out0 ← px1 c fmt y0 (i0 + 1) ch (o + 1) out0
    let out1 ← px1 c fmt y1 i0 ch o out1
    let out1 ← px1 c fmt y1 (i0 + 1) ch (o + 1) out1
    h2v2Loop c fmt y0 y1 cb cr n (i0 + 2) (i1 + 1) (o + 2) out0 out1

/-- h2v2_merged_upsample_internal (jdmrgext.c:93-183). -/
def h2v2 (c : Nat) (fmt : PixFmt) (w : Nat) (y0 y1 cb cr : List Nat) (out0 out1 : List (List Nat)) : Option (List (List Nat) × List (List Nat)) := do
  let (i0, i1, o, out0, out1) ← h2v2Loop c fmt y0 y1 cb cr (w / 2) 0 0 0 out0 out1
  if w % 2 = 1 then do
    let ch ← chroma c cb cr i1
    let out0 ← px1 c fmt y0 i0 ch o out0
    let out1 ← px1 c fmt y1 i0 ch o out1
    pure (out0, out1)
  else pure (out0, out1)

/-! ## RGB565 -/

/-- PACK_SHORT_565_LE, PACK_SHORT_565_BE (jdmerge.c:394-397, jdcolor.c:594-597). -/
def pack565 (be : Bool) (r g b : Nat) : Nat :=
  if be then (r &&& 0xF8) ||| (g >>> 5) ||| ((g <<< 11) &&& 0xE000) ||| ((b <<< 5) &&& 0x1F00)
  else ((r <<< 8) &&& 0xF800) ||| ((g <<< 3) &&& 0x7E0) ||| (b >>> 3)

/-- PACK_TWO_PIXELS_LE, PACK_TWO_PIXELS_BE (jdmerge.c:399-400, jdcolor.c:599-600). -/
def packTwo (be : Bool) (l r : Nat) : Nat := if be then (l <<< 16) ||| r else (r <<< 16) ||| l

/-- The two bytes of an INT16 in memory. -/
def bytes16 (be : Bool) (v : Nat) : List Nat := if be then [v / 256 % 256, v % 256] else [v % 256, v / 256 % 256]

/-- WRITE_TWO_PIXELS_LE, WRITE_TWO_PIXELS_BE (jdmerge.c:402-409): the two pixels (byte lists) at addr, addr + 2. -/
def writeTwo (be : Bool) (v : Nat) : List Nat × List Nat := if be then (bytes16 be (v >>> 16), bytes16 be v) else (bytes16 be v, bytes16 be (v >>> 16))

/-- DITHER_ROTATE (jdmerge.c:423, jdcolor.c:618). -/
def ditherRotate (x : Nat) : Nat := ((x &&& 0xFF) <<< 24) ||| ((x >>> 8) &&& 0x00FFFFFF)

/-- dither_matrix (jdmerge.c:424-429, jdcolor.c:619-624) at row `t & DITHER_MASK`. -/
def ditherRow (t : Nat) : Nat := [0x0008020A, 0x0C040E06, 0x030B0109, 0x0F070D05].getD (t &&& 3) 0

/-- The number added to red and blue, and to green: DITHER_565_R/B, DITHER_565_G (jdmerge.c:411-413, jdcolor.c:606-608); nothing without dithering. -/
def dByte : Option Nat → Nat
  | none => 0
  | some d => d &&& 0xFF
def dHalf : Option Nat → Nat
  | none => 0
  | some d => (d &&& 0xFF) >>> 1

/-- One RGB565 pixel value: DITHER_565_R/G/B and PACK_SHORT_565 (jdmrg565.c:54-58, 126-129 and the like; jdmerge.c:411-413); `d` = `none` without dithering. -/
def pix565 (be : Bool) (d : Option Nat) (y : Nat) (ch : Int × Int × Int) : Option Nat := do
  let r ← (rangeLimitTable 128).get? ((y : Int) + ch.1 + dByte d)
  let g ← (rangeLimitTable 128).get? ((y : Int) + ch.2.1 + dHalf d)
  let b ← (rangeLimitTable 128).get? ((y : Int) + ch.2.2 + dByte d)
  pure (pack565 be r g b)

/-- Two pixels (jdmrg565.c:53-67, 125-141): the dither word is rotated after each. -/
def pair565 (be : Bool) (yRow : List Nat) (i : Nat) (ch : Int × Int × Int) (o : Nat) (d : Option Nat) (out : List (List Nat)) : Option (Option Nat × List (List Nat)) := do
  let y ← yRow[i]?
  let p ← pix565 be d y ch
  let d := d.map ditherRotate
  let y' ← yRow[i + 1]?
  let p' ← pix565 be d y' ch
  let d := d.map ditherRotate
  if o + 1 < out.length then
    pure (d, (out.set o (writeTwo be (packTwo be p p')).1).set (o + 1) (writeTwo be (packTwo be p p')).2)
  else none

/-- The last pixel of a row of odd width (jdmrg565.c:77-82, 151-156). -/
def last565 (be : Bool) (yRow : List Nat) (i : Nat) (ch : Int × Int × Int) (o : Nat) (d : Option Nat) (out : List (List Nat)) : Option (List (List Nat)) := do
  let y ← yRow[i]?
  let p ← pix565 be d y ch
  if o < out.length then pure (out.set o (bytes16 be p)) else none

/-- The loop of h2v1_merged_upsample_565_internal and h2v1_merged_upsample_565D_internal (jdmrg565.c:45-68, 117-142). -/
def h2v1Loop565 (be : Bool) (y cb cr : List Nat) : Nat → (i0 i1 o : Nat) → Option Nat → List (List Nat) → Option (Nat × Nat × Nat × Option Nat × List (List Nat))
  | 0, i0, i1, o, d, out => some (i0, i1, o, d, out)
  | n + 1, i0, i1, o, d, out => do
    let ch ← chroma 128 cb cr i1
    let (d, out) ← pair565 be y i0 ch o d out
    h2v1Loop565 be y cb cr n (i0 + 2) (i1 + 1) (o + 2) d out

/-- h2v1_merged_upsample_565_internal (jdmrg565.c:16-84), h2v1_merged_upsample_565D_internal (jdmrg565.c:87-158); `d` = the dither word of the row. -/
def h2v1_565 (be : Bool) (d : Option Nat) (w : Nat) (y cb cr : List Nat) (out : List (List Nat)) : Option (List (List Nat)) := do
  let (i0, i1, o, d, out) ← h2v1Loop565 be y cb cr (w / 2) 0 0 0 d out
  if w % 2 = 1 then do
    let ch ← chroma 128 cb cr i1
    last565 be y i0 ch o d out
  else pure out

/-- The loop of h2v2_merged_upsample_565_internal and h2v2_merged_upsample_565D_internal (jdmrg565.c:191-229, 289-331). -/
def h2v2Loop565 (be : Bool) (y0 y1 cb cr : List Nat) : Nat → (i0 i1 o : Nat) → (d0 d1 : Option Nat) → List (List Nat) → List (List Nat) → Option (Nat × Nat × Nat × Option Nat × Option Nat × List (List Nat) × List (List Nat))
  | 0, i0, i1, o, d0, d1, out0, out1 => some (i0, i1, o, d0, d1, out0, out1)
  | n + 1, i0, i1, o, d0, d1, out0, out1 => do
    let ch ← chroma 128 cb cr i1
    let (d0, out0) ← pair565 be y0 i0 ch o d0 out0
    let (d1, out1) ← pair565 be y1 i0 ch o d1 out1
    h2v2Loop565 be y0 y1 cb cr n (i0 + 2) (i1 + 1) (o + 2) d0 d1 out0 out1

/-- h2v2_merged_upsample_565_internal (jdmrg565.c:161-253), h2v2_merged_upsample_565D_internal (jdmrg565.c:256-355). -/
def h2v2_565 (be : Bool) (d0 d1 : Option Nat) (w : Nat) (y0 y1 cb cr : List Nat) (out0 out1 : List (List Nat)) : Option (List (List Nat) × List (List Nat)) := do
  let (i0, i1, o, d0, d1, out0, out1) ← h2v2Loop565 be y0 y1 cb cr (w / 2) 0 0 0 d0 d1 out0 out1
  if w % 2 = 1 then do
    let ch ← chroma 128 cb cr i1
    let out0 ← last565 be y0 i0 ch o d0 out0
    let out1 ← last565 be y1 i0 ch o d1 out1
    pure (out0, out1)
  else pure (out0, out1)

/-! ## RGB565 after separate upsampling: jdcol565.c -/

/-- The chroma part of ycc_rgb565_convert_internal at column `i` of upsampled rows (jdcol565.c:52-55; tables of jdcolor.c:213-258). -/
def chromaS (cbRow crRow : List Nat) (i : Nat) : Option (Int × Int × Int) := do
  let cb ← cbRow[i]?
  let cr ← crRow[i]?
  let cred ← (crRTab 128).get? cr
  let g1 ← (cbGTab 128).get? cb
  let g2 ← (crGTab 128).get? cr
  let cblue ← (cbBTab 128).get? cb
  pure (cred, (g1 + g2) / 65536, cblue)

/-- A single pixel `i`, the dither word not rotated (jdcol565.c:48-60, 83-93, 132-145, 172-183). -/
def one565S (be : Bool) (y cb cr : List Nat) (i : Nat) (d : Option Nat) (out : List (List Nat)) : Option (List (List Nat)) := do
  let ch ← chromaS cb cr i
  let v ← y[i]?
  let p ← pix565 be d v ch
  if i < out.length then pure (out.set i (bytes16 be p)) else none

/-- The pair loop (jdcol565.c:61-82, 146-171); WRITE_TWO_ALIGNED_PIXELS (jdcolor.c:604) stores the 32-bit word, the same bytes as WRITE_TWO_PIXELS. -/
def pairs565S (be : Bool) (y cb cr : List Nat) : Nat → (i : Nat) → Option Nat → List (List Nat) → Option (Nat × Option Nat × List (List Nat))
  | 0, i, d, out => some (i, d, out)
  | n + 1, i, d, out => do
    let ch ← chromaS cb cr i
    let v ← y[i]?
    let p ← pix565 be d v ch
    let d := d.map ditherRotate
    let ch ← chromaS cb cr (i + 1)
    let v ← y[i + 1]?
    let p' ← pix565 be d v ch
    let d := d.map ditherRotate
    if i + 1 < out.length then
      pairs565S be y cb cr n (i + 2) d ((out.set i (writeTwo be (packTwo be p p')).1).set (i + 1) (writeTwo be (packTwo be p p')).2)
    else none

/-- The body of the row loop of ycc_rgb565_convert_internal and ycc_rgb565D_convert_internal (jdcol565.c:39-94, 123-184); `aligned` = the output row starts at a multiple of 4 bytes; `nc` = num_cols, which like the dither word `d` is carried
over from row to row. -/
def row565S (be : Bool) (aligned : Bool) (y cb cr : List Nat) (nc : Nat) (d : Option Nat) (out : List (List Nat)) : Option (Nat × Option Nat × List (List Nat)) := do
  let (i, nc, out) ← if aligned then pure (0, nc, out) else do
    let out ← one565S be y cb cr 0 d out
    pure (1, nc - 1, out)
  let (i, d, out) ← pairs565S be y cb cr (nc / 2) i d out
  if nc % 2 = 1 then do
    let out ← one565S be y cb cr i d out
    pure (nc, d, out)
  else pure (nc, d, out)

/-- The row loop (jdcol565.c:39-94, 123-184): each row is given as its alignment, its input rows and the old contents of the output row. -/
def rows565S (be : Bool) : List (Bool × List Nat × List Nat × List Nat × List (List Nat)) → Nat → Option Nat → Option (List (List (List Nat)))
  | [], _, _ => some []
  | (a, y, cb, cr, out) :: l, nc, d => do
    let (nc, d, out) ← row565S be a y cb cr nc d out
    let rest ← rows565S be l nc d
    pure (out :: rest)

/-- ycc_rgb565_convert, ycc_rgb565D_convert (jdcolor.c:675-694, jdcol565.c:18-98, 101-188); `w` = output_width, `d` = `some t` for dithering with output_scanline = t. -/
def convert565S (be : Bool) (w : Nat) (dith : Option Nat) (rows : List (Bool × List Nat × List Nat × List Nat × List (List Nat))) : Option (List (List (List Nat))) :=
  rows565S be rows w (dith.map ditherRow)

end Verif.Merge
