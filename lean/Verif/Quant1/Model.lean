import Verif.Common.RangeLimit
import Verif.Color.Model
/-
Model of the one-pass colour quantizer (jquant1.c): choice of the colour counts, the colour map, the colour index
tables, the ordered-dither tables, and the five row functions (no dithering, ordered, Floyd-Steinberg), together with
`start_pass`, which may be called again with another dither mode between output passes.

`c` is CENTERJSAMPLE (128 for 8-bit, 2048 for 12-bit samples), MAXJSAMPLE is `2*c-1`.  `none` is an access outside an
array, or a loop that does not end.
-/
namespace Verif.Quant1
open Verif.Color (castSample)

/-- `for (i = 0; i < n; i++)`. -/
def forN {A : Type} (f : Nat → A → Option A) : Nat → A → Option A
  | 0, a => some a
  | n + 1, a => (forN f n a).bind (f n)

/-- The C read `p[i]` of an array. -/
def rd {α : Type} (l : List α) (i : Int) : Option α := if i < 0 then none else l[i.toNat]?

/-- The C write `p[i] = v` to an array. -/
def wr {α : Type} (l : List α) (i : Int) (v : α) : Option (List α) :=
  if i < 0 ∨ (l.length : Int) ≤ i then none else some (l.set i.toNat v)

/-- The same write through a pointer `base` entries past the start of the array. -/
def wrT {α : Type} (t : PTab α) (i : Int) (v : α) : Option (PTab α) :=
  (wr t.data (i + t.base) v).map fun d => ⟨t.base, d⟩

/-- `cinfo->dither_mode` (jpeglib.h:319-323); `other` is any value that is none of the three. -/
inductive Dither
  | none | ordered | fs | other
deriving DecidableEq, Repr

/-- What the module reads of the decompression object. `rgb` says `out_color_space == JCS_RGB`; `junk` is what freshly
allocated memory holds. -/
structure Cfg where
  c : Nat
  nc : Nat
  desired : Int
  rgb : Bool
  width : Nat
  junk : Nat
  lossless : Bool

/-- MAXJSAMPLE. -/
def Cfg.max (k : Cfg) : Nat := 2 * k.c - 1

/-- The error exits of the module. -/
inductive Err
  | notImpl | components | manyColors | fewColors (n : Nat) | notCompiled | modeChange
deriving DecidableEq, Repr

/-! ## Colour counts and the colour map -/

/-- `temp = iroot ** nc` (jquant1.c:208-210). -/
def power (nc iroot : Nat) : Nat := (List.range (nc - 1)).foldl (fun t _ => t * iroot) iroot

/-- The do-while loop of `select_ncolors` (jquant1.c:206-211): (iroot, temp) on leaving it. -/
def rootGo (nc : Nat) (mx : Int) : Nat → Nat → Option (Nat × Nat)
  | 0, _ => none
  | f + 1, iroot =>
    let iroot := iroot + 1
    let temp := power nc iroot
    if (temp : Int) ≤ mx then rootGo nc mx f iroot else some (iroot, temp)

/-- The order in which components are tried (jquant1.c:198-201, 233): G, R, B in JCS_RGB. `rgb_green`, `rgb_red`,
`rgb_blue` are 1, 0, 2 for JCS_RGB (jdcolext.c/jmorecfg.h:295-330). -/
def order (k : Cfg) (i : Nat) : Nat := if k.rgb then (if i = 0 then 1 else if i = 1 then 0 else 2) else i

/-- The `for` loop of the second do-while (jquant1.c:232-241), from component `i` on, `left` components to go. -/
def growGo (k : Cfg) : Nat → Nat → List Nat → Nat → Bool → Option (List Nat × Nat × Bool)
  | 0, _, ns, tot, ch => some (ns, tot, ch)
  | left + 1, i, ns, tot, ch => do
    let j := order k i
    let n ← ns[j]?
    let temp := tot / n * (n + 1)
    if (temp : Int) > k.desired then some (ns, tot, ch)
    else growGo k left (i + 1) (ns.set j (n + 1)) temp true

/-- The do-while loop (jquant1.c:230-242). -/
def grow (k : Cfg) : Nat → List Nat → Nat → Option (List Nat × Nat)
  | 0, _, _ => none
  | f + 1, ns, tot => do
    let (ns, tot, ch) ← growGo k k.nc 0 ns tot false
    if ch then grow k f ns tot else some (ns, tot)

/-- `select_ncolors` (jquant1.c:187-245): the counts and their product. -/
def selectNcolors (k : Cfg) : Option (Except Err (List Nat × Nat)) := do
  let (iroot, temp) ← rootGo k.nc k.desired (k.desired.toNat + 2) 1
  let iroot := iroot - 1
  if iroot < 2 then return .error (.fewColors temp)
  let tot := (List.range k.nc).foldl (fun t _ => t * iroot) 1
  let r ← grow k (k.desired.toNat + 2) (List.replicate k.nc iroot) tot
  return .ok r

/-- `output_value` (jquant1.c:248-260). -/
def outputValue (M j maxj : Nat) : Nat := (j * M + maxj / 2) / maxj

/-- `largest_input_value` (jquant1.c:263-270). -/
def largestInput (M j maxj : Nat) : Nat := ((2 * j + 1) * M + maxj) / (2 * maxj)

/-- The loop over `ptr` (jquant1.c:317-321). -/
def ptrGo (total blkdist blksize val : Nat) : Nat → Nat → List Nat → Option (List Nat)
  | 0, _, _ => none
  | f + 1, ptr, row =>
    if ptr < total then do
      let row ← forN (fun k row => wr row ((ptr : Int) + k) val) blksize row
      ptrGo total blkdist blksize val f (ptr + blkdist) row
    else some row

/-- The entries of one component (jquant1.c:313-322). -/
def fillRow (c total blkdist blksize nci : Nat) (row : List Nat) : Option (List Nat) :=
  forN (fun j row =>
    ptrGo total blkdist blksize (castSample c (outputValue (2 * c - 1) j (nci - 1))) (total + 1) (j * blksize) row)
    nci row

/-- `create_colormap` (jquant1.c:278-331) after the counts are chosen. -/
def createColormap (k : Cfg) (ns : List Nat) (total : Nat) : Option (List (List Nat)) := do
  let (_, rows) ← forN (fun i (s : Nat × List (List Nat)) => do
    let nci ← ns[i]?
    let blksize := s.1 / nci
    let row ← fillRow k.c total s.1 blksize nci (List.replicate total k.junk)
    pure (blksize, s.2 ++ [row])) k.nc (total, [])
  pure rows

/-! ## Colour index tables -/

/-- `while (j > k) k = largest_input_value(cinfo, i, ++val, nci - 1)` (jquant1.c:380-381). -/
def advance (M maxj j : Nat) : Nat → Nat → Nat → Option (Nat × Nat)
  | 0, _, _ => none
  | f + 1, val, k => if j > k then advance M maxj j f (val + 1) (largestInput M (val + 1) maxj) else some (val, k)

/-- The table of one component (jquant1.c:366-393). -/
def indexRow (c : Nat) (pad : Bool) (junk nci blksize : Nat) : Option (PTab Nat) := do
  let M := 2 * c - 1
  let t0 : PTab Nat := ⟨if pad then M else 0, List.replicate (M + 1 + (if pad then M * 2 else 0)) junk⟩
  let (_, _, t) ← forN (fun j (s : Nat × Nat × PTab Nat) => do
    let (val, k) ← advance M (nci - 1) j (M + 2) s.1 s.2.1
    let t ← wrT s.2.2 j (castSample c ((val * blksize : Nat) : Int))
    pure (val, k, t)) (M + 1) (0, largestInput M 0 (nci - 1), t0)
  if pad then
    forN (fun i t => do
      let j : Int := i + 1
      let t ← wrT t (-j) (← t.get? 0)
      wrT t ((M : Int) + j) (← t.get? M)) M t
  else pure t

/-- `create_colorindex` (jquant1.c:338-394). -/
def createColorindex (k : Cfg) (ns : List Nat) (actual : Nat) (pad : Bool) : Option (List (PTab Nat)) := do
  let (_, ts) ← forN (fun i (s : Nat × List (PTab Nat)) => do
    let nci ← ns[i]?
    let blksize := s.1 / nci
    let t ← indexRow k.c pad k.junk nci blksize
    pure (blksize, s.2 ++ [t])) k.nc (actual, [])
  pure ts

/-! ## Ordered-dither tables -/

/-- `base_dither_matrix` (jquant1.c:84-105). -/
def baseDither : List (List Nat) :=
  [[0, 192, 48, 240, 12, 204, 60, 252, 3, 195, 51, 243, 15, 207, 63, 255],
   [128, 64, 176, 112, 140, 76, 188, 124, 131, 67, 179, 115, 143, 79, 191, 127],
   [32, 224, 16, 208, 44, 236, 28, 220, 35, 227, 19, 211, 47, 239, 31, 223],
   [160, 96, 144, 80, 172, 108, 156, 92, 163, 99, 147, 83, 175, 111, 159, 95],
   [8, 200, 56, 248, 4, 196, 52, 244, 11, 203, 59, 251, 7, 199, 55, 247],
   [136, 72, 184, 120, 132, 68, 180, 116, 139, 75, 187, 123, 135, 71, 183, 119],
   [40, 232, 24, 216, 36, 228, 20, 212, 43, 235, 27, 219, 39, 231, 23, 215],
   [168, 104, 152, 88, 164, 100, 148, 84, 171, 107, 155, 91, 167, 103, 151, 87],
   [2, 194, 50, 242, 14, 206, 62, 254, 1, 193, 49, 241, 13, 205, 61, 253],
   [130, 66, 178, 114, 142, 78, 190, 126, 129, 65, 177, 113, 141, 77, 189, 125],
   [34, 226, 18, 210, 46, 238, 30, 222, 33, 225, 17, 209, 45, 237, 29, 221],
   [162, 98, 146, 82, 174, 110, 158, 94, 161, 97, 145, 81, 173, 109, 157, 93],
   [10, 202, 58, 250, 6, 198, 54, 246, 9, 201, 57, 249, 5, 197, 53, 245],
   [138, 74, 186, 122, 134, 70, 182, 118, 137, 73, 185, 121, 133, 69, 181, 117],
   [42, 234, 26, 218, 38, 230, 22, 214, 41, 233, 25, 217, 37, 229, 21, 213],
   [170, 106, 154, 90, 166, 102, 150, 86, 169, 105, 153, 89, 165, 101, 149, 85]]

/-- One cell of `make_odither_array` (jquant1.c:415-423). -/
def ditherCell (M ncolors f : Nat) : Int :=
  let den : Int := 2 * 256 * ((ncolors : Int) - 1)
  let num : Int := (256 - 1 - 2 * (f : Int)) * M
  if num < 0 then -((-num) / den) else num / den

/-- `make_odither_array` (jquant1.c:401-427). -/
def makeOdither (M ncolors : Nat) : List (List Int) := baseDither.map fun r => r.map (ditherCell M ncolors)

/-- `create_odither_tables` (jquant1.c:437-457): a component shares the table of the first component before it that has
as many colours. -/
def createOdither (k : Cfg) (ns : List Nat) : Option (List (List (List Int))) :=
  forN (fun i ts => do
    let nci ← ns[i]?
    match (List.range i).find? fun j => ns[j]? == some nci with
    | some j => do pure (ts ++ [← ts[j]?])
    | none => pure (ts ++ [makeOdither k.max nci])) k.nc []

/-! ## The row functions -/

/-- `_color_quantize`, the function pointer set by `start_pass`. -/
inductive Fn
  | gen | gen3 | ord | ord3 | fs
deriving DecidableEq, Repr

/-- The private object (jquant1.c:144-167). A null `odither[0]` or `fserrors[0]` is `none`. -/
structure Q where
  ncolors : List Nat
  actual : Nat
  colormap : List (List Nat)
  colorindex : List (PTab Nat)
  padded : Bool
  odither : Option (List (List (List Int)))
  rowIndex : Nat
  fserrors : Option (List (List Int))
  onOdd : Bool
  fn : Option Fn

/-- One row of `color_quantize` (jquant1.c:477-487). -/
def rowGen (k : Cfg) (q : Q) (inp : List Nat) : Option (List Nat) := do
  let (_, out) ← forN (fun col (s : Int × List Nat) => do
    let (pix, p) ← forN (fun ci (s : Nat × Int) => do
      let t ← q.colorindex[ci]?
      let v ← rd inp s.2
      let e ← t.get? v
      pure (s.1 + e, s.2 + 1)) k.nc (0, s.1)
    let out ← wr s.2 col (castSample k.c (pix : Int))
    pure (p, out)) k.width (0, List.replicate k.width k.junk)
  pure out

/-- One row of `color_quantize3` (jquant1.c:506-516). -/
def rowGen3 (k : Cfg) (q : Q) (inp : List Nat) : Option (List Nat) := do
  let t0 ← q.colorindex[0]?
  let t1 ← q.colorindex[1]?
  let t2 ← q.colorindex[2]?
  let (_, out) ← forN (fun col (s : Int × List Nat) => do
    let a ← t0.get? (← rd inp s.1)
    let b ← t1.get? (← rd inp (s.1 + 1))
    let d ← t2.get? (← rd inp (s.1 + 2))
    let out ← wr s.2 col (castSample k.c ((a + b + d : Nat) : Int))
    pure (s.1 + 3, out)) k.width (0, List.replicate k.width k.junk)
  pure out

/-- One row of `quantize_ord_dither` (jquant1.c:536-566), without the advance of the row index. -/
def rowOrd (k : Cfg) (q : Q) (inp : List Nat) : Option (List Nat) := do
  let od ← q.odither
  forN (fun ci out => do
    let t ← q.colorindex[ci]?
    let m ← od[ci]?
    let dither ← m[q.rowIndex]?
    let (_, _, out) ← forN (fun col (s : Int × Nat × List Nat) => do
      let v ← rd inp s.1
      let d ← dither[s.2.1]?
      let e ← t.get? ((v : Int) + d)
      let o ← rd s.2.2 col
      let out ← wr s.2.2 col (castSample k.c ((o + e : Nat) : Int))
      pure (s.1 + k.nc, (s.2.1 + 1) % 16, out)) k.width ((ci : Int), 0, out)
    pure out) k.nc (List.replicate k.width 0)

/-- One pixel of `quantize3_ord_dither` (jquant1.c:598-604), with the pointers set up for the row. -/
def ord3Pixel (k : Cfg) (t0 t1 t2 : PTab Nat) (d0 d1 d2 : List Int) (inp : List Nat) (col : Nat)
    (s : Int × Nat × List Nat) : Option (Int × Nat × List Nat) := do
  let a ← t0.get? (((← rd inp s.1) : Int) + (← d0[s.2.1]?))
  let b ← t1.get? (((← rd inp (s.1 + 1)) : Int) + (← d1[s.2.1]?))
  let d ← t2.get? (((← rd inp (s.1 + 2)) : Int) + (← d2[s.2.1]?))
  let out ← wr s.2.2 col (castSample k.c ((a + b + d : Nat) : Int))
  pure (s.1 + 3, (s.2.1 + 1) % 16, out)

/-- One row of `quantize3_ord_dither` (jquant1.c:589-608), without the advance of the row index. -/
def rowOrd3 (k : Cfg) (q : Q) (inp : List Nat) : Option (List Nat) := do
  let od ← q.odither
  let t0 ← q.colorindex[0]?
  let t1 ← q.colorindex[1]?
  let t2 ← q.colorindex[2]?
  let m0 ← od[0]?
  let m1 ← od[1]?
  let m2 ← od[2]?
  let d0 ← m0[q.rowIndex]?
  let d1 ← m1[q.rowIndex]?
  let d2 ← m2[q.rowIndex]?
  let (_, _, out) ← forN (ord3Pixel k t0 t1 t2 d0 d1 d2 inp) k.width (0, 0, List.replicate k.width k.junk)
  pure out

/-- The cast `(FSERROR)`: INT16 for 8-bit samples, JLONG for 12-bit ones (jquant1.c:129-135). -/
def castErr (c : Nat) (x : Int) : Int := if c ≤ 128 then (x + 32768) % 65536 - 32768 else x

/-- The variables of the column loop of `quantize_fs_dither`. -/
structure FsSt where
  cur : Int
  below : Int
  bprev : Int
  ip : Int
  op : Int
  ep : Int
  err : List Int
  out : List Nat

/-- One pixel of one component (jquant1.c:664-706). -/
def fsPixel (k : Cfg) (t : PTab Nat) (cm : List Nat) (dir : Int) (inp : List Nat) (s : FsSt) : Option FsSt := do
  let cur := (s.cur + (← rd s.err (s.ep + dir)) + 8) / 16
  let cur := cur + (← rd inp s.ip)
  let lim ← (rangeLimitTable k.c).get? cur
  let pix ← t.get? lim
  let out ← wr s.out s.op (castSample k.c (((← rd s.out s.op) + pix : Nat) : Int))
  let cur : Int := (lim : Int) - (← cm[pix]?)
  let bnext := cur
  let delta := cur * 2
  let cur := cur + delta
  let err ← wr s.err s.ep (castErr k.c (s.bprev + cur))
  let cur := cur + delta
  let bprev := s.below + cur
  let below := bnext
  let cur := cur + delta
  pure ⟨cur, below, bprev, s.ip + dir * k.nc, s.op + dir, s.ep + dir, err, out⟩

/-- One component of one row (jquant1.c:641-712): the error array and the output row. -/
def fsComp (k : Cfg) (q : Q) (ci : Nat) (inp : List Nat) (err : List Int) (out : List Nat) :
    Option (List Int × List Nat) := do
  let t ← q.colorindex[ci]?
  let cm ← q.colormap[ci]?
  let dir : Int := if q.onOdd then -1 else 1
  let s0 : FsSt :=
    if q.onOdd then ⟨0, 0, 0, ci + ((k.width : Int) - 1) * k.nc, (k.width : Int) - 1, (k.width : Int) + 1, err, out⟩
    else ⟨0, 0, 0, ci, 0, 0, err, out⟩
  let s ← forN (fun _ s => fsPixel k t cm dir inp s) k.width s0
  let err ← wr s.err s.ep (castErr k.c s.bprev)
  pure (err, s.out)

/-- One row of `quantize_fs_dither` (jquant1.c:638-714), without the flip of `on_odd_row`. -/
def rowFs (k : Cfg) (q : Q) (inp : List Nat) : Option (List (List Int) × List Nat) := do
  let errs ← q.fserrors
  forN (fun ci (s : List (List Int) × List Nat) => do
    let (e, out) ← fsComp k q ci inp (← s.1[ci]?) s.2
    pure (s.1.set ci e, out)) k.nc (errs, List.replicate k.width 0)

/-- One iteration of the row loop of the installed function. -/
def rowStep (k : Cfg) (q : Q) (inp : List Nat) : Option (Q × List Nat) := do
  match ← q.fn with
  | .gen => pure (q, ← rowGen k q inp)
  | .gen3 => pure (q, ← rowGen3 k q inp)
  | .ord => pure ({ q with rowIndex := (q.rowIndex + 1) % 16 }, ← rowOrd k q inp)
  | .ord3 => pure ({ q with rowIndex := (q.rowIndex + 1) % 16 }, ← rowOrd3 k q inp)
  | .fs => do
    let (e, out) ← rowFs k q inp
    pure ({ q with fserrors := some e, onOdd := !q.onOdd }, out)

/-- One call of `_color_quantize` with `num_rows` rows (jquant1.c:464-715, the row loops). -/
def quantize (k : Cfg) : Q → List (List Nat) → Option (Q × List (List Nat))
  | q, [] => some (q, [])
  | q, r :: rs => do
    let (q, o) ← rowStep k q r
    let (q, os) ← quantize k q rs
    pure (q, o :: os)

/-! ## Passes -/

/-- `start_pass_1_quant` (jquant1.c:742-793), with `cinfo->dither_mode` as it is now. -/
def startPass (k : Cfg) (d : Dither) (q : Q) : Option (Except Err Q) := do
  match d with
  | .none => return .ok { q with fn := some (if k.nc = 3 then .gen3 else .gen) }
  | .ordered => do
    let q := { q with fn := some (if k.nc = 3 then .ord3 else .ord), rowIndex := 0 }
    let q ← if q.padded then pure q else do
      let ts ← createColorindex k q.ncolors q.actual true
      pure { q with colorindex := ts, padded := true }
    let q ← match q.odither with
      | some _ => pure q
      | none => do
        let od ← createOdither k q.ncolors
        pure { q with odither := some od }
    return .ok q
  | .fs => return .ok { q with
      fn := some .fs, onOdd := false, fserrors := some (List.replicate k.nc (List.replicate (k.width + 2) 0)) }
  | .other => return .error .notCompiled

/-- `_jinit_1pass_quantizer` (jquant1.c:822-867), with `cinfo->dither_mode` as it is at `jpeg_start_decompress`. The
Floyd-Steinberg workspace allocated here is cleared before use, so only `startPass` creates it. -/
def init (k : Cfg) (d : Dither) : Option (Except Err Q) := do
  if k.lossless then return .error .notImpl
  if k.nc > 4 then return .error .components
  if k.desired > 2 * k.c then return .error .manyColors
  match ← selectNcolors k with
  | .error e => return .error e
  | .ok (ns, total) => do
    let cm ← createColormap k ns total
    let pad := decide (d = .ordered)
    let ts ← createColorindex k ns total pad
    return .ok ⟨ns, total, cm, ts, pad, none, 0, none, false, none⟩

end Verif.Quant1
