import Verif.Common.RangeLimit
/-
Model of the colour conversions (jccolor.c, jccolext.c, jdcolor.c, jdcolext.c), portable C code, for 8- and 12-bit
samples.  `c` is CENTERJSAMPLE (128 or 2048), MAXJSAMPLE+1 is `2*c`.
-/
namespace Verif.Color

/-- `FIX(x)` (jccolor.c:72, jdcolor.c:81) for x = n/100000. The C code evaluates it in `double`; no constant used
is near enough to a half for that to matter. -/
def fix (n : Nat) : Int := (((n * 65536 + 50000) / 100000 : Nat) : Int)

/-- `ONE_HALF` (jccolor.c:71). -/
def oneHalf : Int := 32768

/-- `rgb_ycc_start` (jccolor.c:213-247): one array of eight sections of MAXJSAMPLE+1 entries. -/
def rgbYccTab (c : Nat) : PTab Int where
  base := 0
  data :=
    let sect (f : Int → Int) := (List.range (2 * c)).map (fun (i : Nat) => f i)
    sect (fun i => fix 29900 * i) ++ sect (fun i => fix 58700 * i) ++ sect (fun i => fix 11400 * i + oneHalf) ++
    sect (fun i => -(fix 16874) * i) ++ sect (fun i => -(fix 33126) * i) ++
    sect (fun i => fix 50000 * i + (c : Int) * 65536 + oneHalf - 1) ++
    sect (fun i => -(fix 41869) * i) ++ sect (fun i => -(fix 8131) * i)

/-- Section offsets (jccolor.c:80-88); `R_CR_OFF` is `B_CB_OFF`. -/
def off (c k : Nat) : Int := (k : Int) * (2 * c)
def rYOff := 0
def gYOff := 1
def bYOff := 2
def rCbOff := 3
def gCbOff := 4
def bCbOff := 5
def rCrOff := bCbOff
def gCrOff := 6
def bCrOff := 7

/-- The cast `(_JSAMPLE)`: unsigned char for 8 bits, short for 12 (a negative short is kept as its 16-bit pattern). -/
def castSample (c : Nat) (x : Int) : Nat := (x % (if c ≤ 128 then 256 else 65536)).toNat

/-- `RANGE_LIMIT` on input (jccolor.c:97-101): 12-bit samples (shorts) are masked, 8-bit ones are bytes already. -/
def maskIn (c : Nat) (v : Int) : Int := if c ≤ 128 then v else v % 4096

/-- One pixel of `rgb_ycc_convert_internal` (jccolext.c:51-72). Right shift of a nonnegative value.
A read outside the table is `none`. -/
def rgbYcc (c : Nat) (r g b : Int) : Option (Nat × Nat × Nat) := do
  let t := rgbYccTab c
  let s (kr kg kb : Nat) : Option Nat := do
    let a ← t.get? (r + off c kr)
    let b' ← t.get? (g + off c kg)
    let d ← t.get? (b + off c kb)
    pure (castSample c ((a + b' + d) / 65536))
  let y ← s rYOff gYOff bYOff
  let cb ← s rCbOff gCbOff bCbOff
  let cr ← s rCrOff gCrOff bCrOff
  pure (y, cb, cr)

/-- One pixel of `rgb_gray_convert_internal` (jccolext.c:101-111), also jdcolor.c:357-362. -/
def rgbGray (c : Nat) (r g b : Int) : Option Nat := do
  let t := rgbYccTab c
  let a ← t.get? (r + off c rYOff)
  let b' ← t.get? (g + off c gYOff)
  let d ← t.get? (b + off c bYOff)
  pure (castSample c ((a + b' + d) / 65536))

/-- One pixel of `cmyk_ycck_convert` (jccolor.c:416-435). -/
def cmykYcck (c : Nat) (p : Int × Int × Int × Int) : Option (Nat × Nat × Nat × Int) := do
  let m : Int := 2 * c - 1
  let (y, cb, cr) ← rgbYcc c (m - maskIn c p.1) (m - maskIn c p.2.1) (m - maskIn c p.2.2.1)
  pure (y, cb, cr, p.2.2.2)

/-- `build_ycc_rgb_table` (jdcolor.c:213-258): the four tables, indexed by sample value. -/
def crRTab (c : Nat) : PTab Int :=
  ⟨0, (List.range (2 * c)).map fun (i : Nat) => (fix 140200 * ((i : Int) - c) + oneHalf) / 65536⟩
def cbBTab (c : Nat) : PTab Int :=
  ⟨0, (List.range (2 * c)).map fun (i : Nat) => (fix 177200 * ((i : Int) - c) + oneHalf) / 65536⟩
def crGTab (c : Nat) : PTab Int :=
  ⟨0, (List.range (2 * c)).map fun (i : Nat) => -(fix 71414) * ((i : Int) - c)⟩
def cbGTab (c : Nat) : PTab Int :=
  ⟨0, (List.range (2 * c)).map fun (i : Nat) => -(fix 34414) * ((i : Int) - c) + oneHalf⟩

/-- One pixel of `ycc_rgb_convert_internal` (jdcolext.c:57-66); `>>` is an arithmetic shift (floor division). -/
def yccRgb (c : Nat) (y cb cr : Int) : Option (Nat × Nat × Nat) := do
  let rl := rangeLimitTable c
  let r ← rl.get? (y + (← (crRTab c).get? cr))
  let g ← rl.get? (y + ((← (cbGTab c).get? cb) + (← (crGTab c).get? cr)) / 65536)
  let b ← rl.get? (y + (← (cbBTab c).get? cb))
  pure (r, g, b)

/-- One pixel of `ycck_cmyk_convert` (jdcolor.c:570-581). -/
def ycckCmyk (c : Nat) (p : Int × Int × Int × Int) : Option (Nat × Nat × Nat × Int) := do
  let rl := rangeLimitTable c
  let m : Int := 2 * c - 1
  let y := p.1
  let cb := p.2.1
  let cr := p.2.2.1
  let r ← rl.get? (m - (y + (← (crRTab c).get? cr)))
  let g ← rl.get? (m - (y + ((← (cbGTab c).get? cb) + (← (crGTab c).get? cr)) / 65536))
  let b ← rl.get? (m - (y + (← (cbBTab c).get? cb)))
  pure (r, g, b, p.2.2.2)

/-! ## Rows and pixel formats -/

/-- RGB_RED, RGB_GREEN, RGB_BLUE, RGB_PIXELSIZE, RGB_ALPHA of one pixel format. -/
structure PixFmt where
  red : Nat
  green : Nat
  blue : Nat
  size : Nat
  alpha : Option Nat
deriving DecidableEq, Repr

/-- The pixel formats (jmorecfg.h:295-330; RGB_ALPHA jdcolor.c:119-202). Plain RGB is the same as EXT_RGB. -/
def extRGB : PixFmt := ⟨0, 1, 2, 3, none⟩
def extRGBX : PixFmt := ⟨0, 1, 2, 4, some 3⟩
def extBGR : PixFmt := ⟨2, 1, 0, 3, none⟩
def extBGRX : PixFmt := ⟨2, 1, 0, 4, some 3⟩
def extXBGR : PixFmt := ⟨3, 2, 1, 4, some 0⟩
def extXRGB : PixFmt := ⟨1, 2, 3, 4, some 0⟩
def formats : List PixFmt := [extRGB, extRGBX, extBGR, extBGRX, extXBGR, extXRGB]

/-- The column loop of the compressor's converters (jccolext.c:50-73, 100-112, 128-140): pixel `col` of a row is
`row[col*size + offset]`; each pixel is mapped by `f`. -/
def rowIn {α : Type} (fmt : PixFmt) (f : Int → Int → Int → Option α) (row : List Int) (ncols : Nat) :
    Option (List α) :=
  (List.range ncols).mapM fun col => do
    let r ← row[col * fmt.size + fmt.red]?
    let g ← row[col * fmt.size + fmt.green]?
    let b ← row[col * fmt.size + fmt.blue]?
    f r g b

/-- Writing one pixel (jdcolext.c:62-72): the components, then MAXJSAMPLE into the alpha position if there is one.
`old` is the previous content of the output pixel. -/
def putPixel (fmt : PixFmt) (maxv : Nat) (old : List Nat) (r g b : Nat) : List Nat :=
  let p := ((old.set fmt.red r).set fmt.green g).set fmt.blue b
  match fmt.alpha with
  | none => p
  | some a => p.set a maxv

/-- The column loop of the decompressor's converters (jdcolext.c:56-74, 96-106, 128-142) on one output row, given as
its list of pixels. -/
def rowOut (fmt : PixFmt) (maxv : Nat) (olds : List (List Nat)) (px : List (Nat × Nat × Nat)) : List Nat :=
  (List.zipWith (fun old p => putPixel fmt maxv old p.1 p.2.1 p.2.2) olds px).flatten

end Verif.Color
