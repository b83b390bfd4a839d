import Mathlib.Data.Nat.Init
import Mathlib.Data.List.Basic
/-
Model of the PPM/PGM reader of cjpeg (rdppm.c), the writer of djpeg (wrppm.c), and the conversion to and from CMYK (cmyk.h).

Both files are compiled for 8, 12 and 16 bits per sample; `mx` is _MAXJSAMPLE (255, 4095 or 65535). A file is the list of its bytes.
An error exit and an access outside a buffer are told apart (`Err`).
-/
namespace Verif.Ppm

/-- `exit`: ERREXIT. `fault`: access outside an array. -/
inductive Err where
  | exit | fault
deriving DecidableEq, Repr

abbrev R := Except Err

/-- `pbm_getc` (rdppm.c:75-89): the character (`none` is EOF) and the rest of the file. -/
def pbmGetc : List Nat → Option Nat × List Nat
  | [] => (none, [])
  | c :: s =>
    if c = 35 then
      match s.dropWhile (· ≠ 10) with
      | [] => (none, [])
      | _ :: s => (some 10, s)
    else (some c, s)

theorem pbmGetc_lt {s s' : List Nat} {c : Nat} (h : pbmGetc s = (some c, s')) : s'.length < s.length := by
  cases s with
  | nil => simp [pbmGetc] at h
  | cons a s =>
    simp only [pbmGetc] at h
    split at h
    · have hl := (List.dropWhile_sublist (· ≠ 10) (l := s)).length_le
      split at h
      · simp at h
      · rename_i b t e
        simp only [Prod.mk.injEq] at h
        rw [← h.2]
        rw [e] at hl
        simp only [List.length_cons] at hl ⊢
        omega
    · simp only [Prod.mk.injEq] at h
      rw [← h.2]; simp

/-- Space, tab, newline, carriage return (rdppm.c:107). -/
def isWs (c : Nat) : Bool := c = 32 || c = 9 || c = 10 || c = 13

/-- A decimal digit (rdppm.c:109, 113). -/
def isDigit (c : Nat) : Bool := 48 ≤ c && c ≤ 57

/-- "Skip any leading whitespace" (rdppm.c:102-107): the first other character. -/
def skipWs (s : List Nat) : R (Nat × List Nat) :=
  match h : pbmGetc s with
  | (none, _) => .error .exit
  | (some c, s') =>
    have := pbmGetc_lt h
    if isWs c then skipWs s' else .ok (c, s')
termination_by s.length

/-- The loop over further digits (rdppm.c:112-118). -/
def digits (maxval v : Nat) (s : List Nat) : R (Nat × List Nat) :=
  match h : pbmGetc s with
  | (none, s') => .ok (v, s')
  | (some c, s') =>
    have := pbmGetc_lt h
    if isDigit c then
      let v' := (v * 10 + (c - 48)) % 2 ^ 32
      if v' > maxval then .error .exit else digits maxval v' s'
    else .ok (v, s')
termination_by s.length

/-- `read_pbm_integer` (rdppm.c:92-121). -/
def readInt (maxval : Nat) (s : List Nat) : R (Nat × List Nat) := do
  let (c, s) ← skipWs s
  if isDigit c then digits maxval (c - 48) s else .error .exit

/-! ## Pixel formats

Colour spaces are numbered as in `J_COLOR_SPACE` (jpeglib.h): 0 unknown, 1 gray, 2 RGB, 4 CMYK, 6..15 extended RGB. -/

/-- `IsExtRGB` (jpegint.h:79-80). -/
def isExt (cs : Nat) : Bool := cs = 2 || (6 ≤ cs && cs ≤ 15)
/-- `rgb_red` (jmorecfg.h:332-337). -/
def rIdx (cs : Nat) : Nat := [0, 0, 0, 0, 0, 0, 0, 0, 2, 2, 3, 1, 0, 2, 3, 1].getD cs 0
/-- `rgb_green` (jmorecfg.h:339-344). -/
def gIdx (cs : Nat) : Nat := [0, 0, 1, 0, 0, 0, 1, 1, 1, 1, 2, 2, 1, 1, 2, 2].getD cs 0
/-- `rgb_blue` (jmorecfg.h:346-351). -/
def bIdx (cs : Nat) : Nat := [0, 0, 2, 0, 0, 0, 2, 2, 0, 0, 1, 3, 2, 0, 1, 3].getD cs 0
/-- `rgb_pixelsize` (jmorecfg.h:353-358). -/
def pSize (cs : Nat) : Nat := [0, 0, 3, 0, 0, 0, 3, 4, 3, 4, 4, 4, 4, 4, 4, 4].getD cs 0
/-- `alpha_index` (rdppm.c:54-56). -/
def aIdx (cs : Nat) : Option Nat := if cs = 12 ∨ cs = 13 then some 3 else if cs = 14 ∨ cs = 15 then some 0 else none

/-- A component of `rgb_to_cmyk` (cmyk.h:25-46), with exact arithmetic instead of `double`: with `M` the largest of R, G, B,
`ktmp` is 1 - M / mx, `ctmp` is (M - r) / M, and the result is mx - mx * ctmp + 1/2, rounded down. -/
def cmyOf (mx M v : Nat) : Nat := if M = 0 then mx else (2 * mx * v + M) / (2 * M)

/-- `rgb_to_cmyk` (cmyk.h:25-46). `K` is mx - mx * ktmp = M. -/
def rgbToCmyk (mx r g b : Nat) : Nat × Nat × Nat × Nat :=
  let M := max (max r g) b
  (cmyOf mx M r, cmyOf mx M g, cmyOf mx M b, M)

/-- `cmyk_to_rgb` (cmyk.h:51-59), with exact arithmetic. -/
def cmykToRgb (mx c m y k : Nat) : Nat × Nat × Nat :=
  ((2 * (c * k) + mx) / (2 * mx), (2 * (m * k) + mx) / (2 * mx), (2 * (y * k) + mx) / (2 * mx))

/-! ## Reading rows -/

/-- `ptr[i] = v`. -/
def put (i v : Nat) (b : List Nat) : R (List Nat) := if i < b.length then .ok (b.set i v) else .error .fault

/-- The rescaling array (rdppm.c:833-850). -/
def rescaleTab (mx maxval : Nat) : List Nat :=
  (List.range (max maxval 255 + 1)).map fun v => if v ≤ maxval then (v * mx + maxval / 2) / maxval % (mx + 1) else 0

/-- `rescale[v]`. -/
def lookup (tab : List Nat) (v : Nat) : R Nat := match tab[v]? with
  | some x => .ok x
  | none => .error .fault

/-- Where samples come from: text, bytes or words, and whether they pass through the rescaling array. -/
inductive Kind where
  | text | byte | word
deriving DecidableEq

/-- One sample: `read_pbm_integer` (for example rdppm.c:148, 182), a byte (rdppm.c:320, 347-357) or two bytes (rdppm.c:499-504). For text
and words `s` is the file or the I/O buffer, respectively. -/
def sample (k : Kind) (mx maxval : Nat) (direct : Bool) (s : List Nat) : R (Nat × List Nat) :=
  let scaled := fun v => if direct then .ok (v % (mx + 1)) else lookup (rescaleTab mx maxval) v
  match k with
  | .text => do
    let (v, s) ← readInt maxval s
    let x ← scaled v
    pure (x, s)
  | .byte => match s with
    | [] => .error .fault
    | v :: s => do
      let x ← scaled v
      pure (x, s)
  | .word => match s with
    | hi :: lo :: s =>
      let t := hi * 256 + lo
      if t > maxval then .error .exit else do
        let x ← lookup (rescaleTab mx maxval) t
        pure (x, s)
    | _ => .error .fault

/-- What is done with the samples of a pixel. -/
inductive Sink where
  | gray | grayRgb | grayCmyk | rgb | rgbCmyk
deriving DecidableEq

/-- `ptr[aindex] = _MAXJSAMPLE` (rdppm.c:182-183 and others). -/
def putAlpha (mx cs p : Nat) (b : List Nat) : R (List Nat) := match aIdx cs with
  | some a => put (p + a) mx b
  | none => .ok b

/-- Storing a CMYK pixel. -/
def putCmyk (mx p r g b : Nat) (buf : List Nat) : R (List Nat) := do
  let q := rgbToCmyk mx r g b
  let buf ← put p q.1 buf
  let buf ← put (p + 1) q.2.1 buf
  let buf ← put (p + 2) q.2.2.1 buf
  put (p + 3) q.2.2.2 buf

/-- One pixel at `ptr` = `p`: bodies of the loops in rdppm.c:147-149 (gray), 154-160 (grayRgb), 211-221 (grayCmyk), 227-235 (rgb), 285-299
(rgbCmyk), and the same for bytes and words (rdppm.c:305-655). -/
def pixel (sink : Sink) (cs mx : Nat) (get : List Nat → R (Nat × List Nat)) (p : Nat) (s buf : List Nat) : R (List Nat × List Nat) :=
  match sink with
  | .gray => do
    let (v, s) ← get s
    let buf ← put p v buf
    pure (s, buf)
  | .grayRgb => do
    let (v, s) ← get s
    let buf ← put (p + bIdx cs) v buf
    let buf ← put (p + gIdx cs) v buf
    let buf ← put (p + rIdx cs) v buf
    let buf ← putAlpha mx cs p buf
    pure (s, buf)
  | .grayCmyk => do
    let (v, s) ← get s
    let buf ← putCmyk mx p v v v buf
    pure (s, buf)
  | .rgb => do
    let (v, s) ← get s
    let buf ← put (p + rIdx cs) v buf
    let (v, s) ← get s
    let buf ← put (p + gIdx cs) v buf
    let (v, s) ← get s
    let buf ← put (p + bIdx cs) v buf
    let buf ← putAlpha mx cs p buf
    pure (s, buf)
  | .rgbCmyk => do
    let (r, s) ← get s
    let (g, s) ← get s
    let (b, s) ← get s
    let buf ← putCmyk mx p r g b buf
    pure (s, buf)

/-- The column loop: `n` pixels of `ps` samples from `p` on. -/
def cols (ps : Nat) (px : Nat → List Nat → List Nat → R (List Nat × List Nat)) : Nat → Nat → List Nat → List Nat → R (List Nat × List Nat)
  | 0, _, s, buf => .ok (s, buf)
  | n + 1, p, s, buf => do
    let (s, buf) ← px p s buf
    cols ps px n (p + ps) s buf

/-- What `start_input_ppm` sets up. -/
structure Src where
  w : Nat
  h : Nat
  maxval : Nat
  cs : Nat
  /-- `input_components` -/
  nc : Nat
  kind : Kind
  sink : Sink
  /-- `maxval == _MAXJSAMPLE` in a routine that looks at it -/
  direct : Bool
  /-- `get_raw_row` -/
  raw : Bool
  /-- `buffer_width` -/
  bw : Nat
deriving DecidableEq

/-- Colour space after defaults, input components and sink (rdppm.c:705-803). `color` is c = '3' or '6'. -/
def target (color : Bool) (cs : Nat) : R (Nat × Nat × Sink) :=
  if color then
    let cs := if cs = 0 then 6 else cs
    if isExt cs then .ok (cs, pSize cs, .rgb) else if cs = 4 then .ok (cs, 4, .rgbCmyk) else .error .exit
  else
    let cs := if cs = 0 ∨ cs = 2 then 1 else cs
    if cs = 1 then .ok (cs, 1, .gray) else if isExt cs then .ok (cs, pSize cs, .grayRgb)
    else if cs = 4 then .ok (cs, 4, .grayCmyk) else .error .exit

/-- The format character (rdppm.c:671-683): whether it is colour, whether it is text. -/
def format (c : Nat) : Option (Bool × Bool) :=
  if c = 50 then some (false, true) else if c = 51 then some (true, true)
  else if c = 53 then some (false, false) else if c = 54 then some (true, false) else none

/-- `start_input_ppm` (rdppm.c:660-851). `maxPixels` is 0 for no limit. The result is the state and the rest of the file. -/
def start (mx maxPixels cs : Nat) (s : List Nat) : R (Src × List Nat) :=
  match s with
  | 80 :: c :: s =>
    match format c with
    | none => .error .exit
    | some (color, text) => do
      let (w, s) ← readInt 65535 s
      let (h, s) ← readInt 65535 s
      let (maxval, s) ← readInt 65535 s
      if w = 0 ∨ h = 0 ∨ maxval = 0 then .error .exit
      else if maxPixels ≠ 0 ∧ w * h > maxPixels then .error .exit
      else do
        let (cs, nc, sink) ← target color cs
        let word := decide (maxval > 255)
        let raw := !text && !word && decide (maxval = mx) && decide (mx = 255) &&
          (if color then decide (cs = 6 ∨ cs = 2) else decide (cs = 1))
        let kind := if text then Kind.text else if word then .word else .byte
        let direct := decide (maxval = mx) && decide (sink ≠ .gray) && decide (kind ≠ .word)
        let bw := w * (if color then 3 else 1) * (if word then 2 else 1)
        pure ({ w := w, h := h, maxval := maxval, cs := cs, nc := nc, kind := kind, sink := sink, direct := direct, raw := raw, bw := bw }, s)
  | _ => .error .exit

/-- `get_pixel_rows`: rest of the file and the buffer (rdppm.c:135-655). A row of bytes or words is first read into the I/O buffer
(`ReadOK`, rdppm.c:50-51); `get_raw_row` (rdppm.c:468-480) reads into the sample buffer itself. -/
def readRow (mx : Nat) (src : Src) (s buf : List Nat) : R (List Nat × List Nat) :=
  let px := pixel src.sink src.cs mx (sample src.kind mx src.maxval src.direct)
  if src.raw then
    if s.length < src.bw then .error .exit else .ok (s.drop src.bw, s.take src.bw)
  else match src.kind with
    | .text => cols src.nc px src.w 0 s buf
    | _ =>
      if s.length < src.bw then .error .exit else do
        let (_, buf) ← cols src.nc px src.w 0 (s.take src.bw) buf
        pure (s.drop src.bw, buf)

/-- The rows one after the other (cjpeg.c:1004-1024). -/
def readRows (mx : Nat) (src : Src) : Nat → List Nat → List Nat → R (List (List Nat))
  | 0, _, _ => .ok []
  | n + 1, s, buf => do
    let (s, buf) ← readRow mx src s buf
    let rows ← readRows mx src n s buf
    pure (buf :: rows)

/-- A whole file: `init` is what the sample buffer holds at first. -/
def load (mx maxPixels cs : Nat) (init : Nat → Nat) (s : List Nat) : R (Src × List (List Nat)) := do
  let (src, s) ← start mx maxPixels cs s
  let rows ← readRows mx src src.h s ((List.range (src.w * src.nc)).map init)
  pure (src, rows)

/-! ## Writing -/

/-- `%ld`. -/
def dec (n : Nat) : List Nat := if n < 10 then [48 + n] else dec (n / 10) ++ [48 + n % 10]
termination_by n

/-- `PUTPPMSAMPLE` (wrppm.c:39-57), without PPM_NORAWWORD. -/
def putSample (mx v : Nat) : List Nat := if mx = 255 then [v % 256] else [v / 256 % 256, v % 256]

/-- The header (wrppm.c:236-269): P5 for gray, P6 otherwise. -/
def header (mx w h : Nat) (color : Bool) : List Nat :=
  [80, if color then 54 else 53, 10] ++ dec w ++ [32] ++ dec h ++ [10] ++ dec mx ++ [10]

/-- A pixel of a row (wrppm.c:90-189): gray samples as they are, RGB reordered, CMYK converted. -/
def writePixel (mx cs : Nat) (row : List Nat) (x : Nat) : List Nat :=
  if cs = 1 then putSample mx (row.getD x 0)
  else if cs = 4 then
    let q := cmykToRgb mx (row.getD (4 * x) 0) (row.getD (4 * x + 1) 0) (row.getD (4 * x + 2) 0) (row.getD (4 * x + 3) 0)
    putSample mx q.1 ++ putSample mx q.2.1 ++ putSample mx q.2.2
  else putSample mx (row.getD (x * pSize cs + rIdx cs) 0) ++ putSample mx (row.getD (x * pSize cs + gIdx cs) 0) ++
    putSample mx (row.getD (x * pSize cs + bIdx cs) 0)

/-- A file written by djpeg, colours not quantized (wrppm.c:90-269): colour spaces 1, 4, 2 and 6 to 15. -/
def write (mx cs w h : Nat) (rows : List (List Nat)) : List Nat :=
  header mx w h (decide (cs ≠ 1)) ++ rows.flatMap fun row => (List.range w).flatMap (writePixel mx cs row)

end Verif.Ppm
