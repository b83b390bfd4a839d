import Verif.Quant1.Model
import Mathlib.Data.Fin.VecNotation
import Mathlib.Logic.Function.Basic
import Mathlib.Data.Fintype.Pi
/-
Model of the two-pass colour quantizer (jquant2.c): the histogram of the prescan, median cut, the representative
colours, the inverse colour map, and the two output functions (no dithering, Floyd-Steinberg), together with
`start_pass`, `finish_pass` and `new_color_map` in any order the decompressor calls them.

`c` is CENTERJSAMPLE (128 for 8-bit, 2048 for 12-bit samples), MAXJSAMPLE is `2*c-1`.  `none` is an access outside an
array, a division by zero, or the overflow of a `long`.  The three variables or array rows that the code writes out for
components 0, 1, 2 are functions on `Fin 3`.
-/
namespace Verif.Quant2
open Verif.Color (castSample)
open Verif.Quant1 (forN rd wr castErr)

/-- What is written three times in the code, for components 0, 1 and 2. -/
abbrev V := Fin 3 → Nat

/-- The histogram, later the inverse colour map (jquant2.c:135-140). -/
abbrev Hist := V → Nat

/-- What the module reads of the decompression object. `order` is the place of the components: `some false` red first
(rgb_red, rgb_green, rgb_blue = 0, 1, 2), `some true` blue first, `none` when `out_color_space` is not an RGB space and
these tables hold -1 (jmorecfg.h:332-355). `longMax` is the largest `long`; `junk` is what fresh memory holds. -/
structure Cfg where
  c : Nat
  order : Option Bool
  components : Nat
  rgb565 : Bool
  lossless : Bool
  enable2pass : Bool
  desired : Int
  width : Nat
  longMax : Nat
  junk : Nat

/-- MAXJSAMPLE. -/
def Cfg.max (k : Cfg) : Nat := 2 * k.c - 1

/-- HIST_C0_ELEMS, HIST_C1_ELEMS, HIST_C2_ELEMS (jquant2.c:115-122). -/
def dims : V := ![32, 64, 32]

/-- `1 << C0_SHIFT` and so on (jquant2.c:125-127): the size of a histogram cell in sample units. -/
def size (k : Cfg) : V := fun i => 2 * k.c / dims i

/-- BOX_C0_ELEMS, BOX_C1_ELEMS, BOX_C2_ELEMS (jquant2.c:608-614). -/
def boxElems : V := ![4, 8, 4]

/-- C0_SCALE, C1_SCALE, C2_SCALE (jquant2.c:77-84): with the tables holding -1 `c_scales` is read outside. -/
def scales (k : Cfg) : Option V :=
  match k.order with
  | some false => some ![2, 3, 1]
  | some true => some ![1, 3, 2]
  | none => none

/-- `histogram[c0][c1][c2]` is inside the arrays. -/
def CellOk (c : V) : Prop := ∀ i, c i < dims i

instance (c : V) : Decidable (CellOk c) := by unfold CellOk; infer_instance

/-- The read `histogram[c0][c1][c2]`. -/
def rdH (h : Hist) (c : V) : Option Nat := if CellOk c then some (h c) else none

/-- The write `histogram[c0][c1][c2] = v`, a UINT16. -/
def wrH (h : Hist) (c : V) (v : Nat) : Option Hist :=
  if CellOk c then some (Function.update h c (v % 65536)) else none

/-- Three reads. -/
def seq3 {α : Type} (f : Fin 3 → Option α) : Option (Fin 3 → α) := do
  let a ← f 0
  let b ← f 1
  let d ← f 2
  pure ![a, b, d]

/-- The pixel at position `ip` of a row. -/
def pixelAt (inp : List Nat) (ip : Int) : Option V := seq3 fun i => rd inp (ip + (i : Nat))

/-! ## Prescan -/

/-- One pixel of `prescan_quantize` (jquant2.c:222-231): increment a UINT16 and undo the increment if it wrapped. -/
def countPixel (k : Cfg) (h : Hist) (p : V) : Option Hist := do
  let c : V := fun i => p i / size k i
  let v ← rdH h c
  let v := (v + 1) % 65536
  let v := if v ≤ 0 then (v + 65535) % 65536 else v
  wrH h c v

/-- One row of `prescan_quantize` (jquant2.c:219-233). -/
def prescanRow (k : Cfg) (h : Hist) (inp : List Nat) : Option Hist := do
  let (_, h) ← forN (fun _ (s : Int × Hist) => do
    let p ← pixelAt inp s.1
    let h ← countPixel k s.2 p
    pure (s.1 + 3, h)) k.width (0, h)
  pure h

/-! ## Median cut -/

/-- `box` (jquant2.c:244-254). -/
structure Box where
  min : V
  max : V
  volume : Int
  count : Nat

/-- The cells of a box, in the order of three nested loops. -/
def cells (lo hi : V) : List V :=
  (List.range' (lo 0) (hi 0 + 1 - lo 0)).flatMap fun a =>
    (List.range' (lo 1) (hi 1 + 1 - lo 1)).flatMap fun b =>
      (List.range' (lo 2) (hi 2 + 1 - lo 2)).map fun d => ![a, b, d]

/-- Some cell with coordinate `x` on axis `i` is used: the two inner loops of the shrinking scans (jquant2.c:318-325 and
the five others). Their order of scanning does not matter, they only look for a nonzero cell. -/
def slabUsed (h : Hist) (lo hi : V) (i : Fin 3) (x : Nat) : Bool :=
  (cells (Function.update lo i x) (Function.update hi i x)).any fun c => decide (h c ≠ 0)

/-- The scan for the new lower bound (jquant2.c:316-325, 337-346, 358-367). -/
def shrinkLo (h : Hist) (i : Fin 3) (lo hi : V) : V :=
  if hi i > lo i then
    match (List.range' (lo i) (hi i + 1 - lo i)).find? (slabUsed h lo hi i) with
    | some x => Function.update lo i x
    | none => lo
  else lo

/-- The scan for the new upper bound (jquant2.c:326-335, 347-356, 368-377). -/
def shrinkHi (h : Hist) (i : Fin 3) (lo hi : V) : V :=
  if hi i > lo i then
    match (List.range' (lo i) (hi i + 1 - lo i)).reverse.find? (slabUsed h lo hi i) with
    | some x => Function.update hi i x
    | none => hi
  else hi

/-- Both scans of one axis. -/
def shrinkAxis (h : Hist) (i : Fin 3) (b : V × V) : V × V :=
  let lo := shrinkLo h i b.1 b.2
  (lo, shrinkHi h i lo b.2)

/-- `((cNmax - cNmin) << CN_SHIFT) * CN_SCALE` (jquant2.c:389-391, 446-448). -/
def extent (k : Cfg) (sc lo hi : V) (i : Fin 3) : Int := ((hi i : Int) - lo i) * size k i * sc i

/-- `update_box` (jquant2.c:300-407). It reads cells of the box given, so all of these must be in the histogram. -/
def updateBox (k : Cfg) (h : Hist) (b : Box) : Option Box := do
  let sc ← scales k
  if CellOk b.max then
    let (lo, hi) := shrinkAxis h 2 (shrinkAxis h 1 (shrinkAxis h 0 (b.min, b.max)))
    let d0 := extent k sc lo hi 0
    let d1 := extent k sc lo hi 1
    let d2 := extent k sc lo hi 2
    some ⟨lo, hi, d0 * d0 + d1 * d1 + d2 * d2, (cells lo hi).countP fun c => decide (h c ≠ 0)⟩
  else none

/-- `find_biggest_color_pop` (jquant2.c:259-277). -/
def findPop (bs : List Box) : Option Nat :=
  (bs.zipIdx.foldl (fun (s : Nat × Option Nat) b =>
    if b.1.count > s.1 ∧ b.1.volume > 0 then (b.1.count, some b.2) else s) (0, none)).2

/-- `find_biggest_volume` (jquant2.c:280-297). -/
def findVolume (bs : List Box) : Option Nat :=
  (bs.zipIdx.foldl (fun (s : Int × Option Nat) b =>
    if b.1.volume > s.1 then (b.1.volume, some b.2) else s) (0, none)).2

/-- The axis to split (jquant2.c:446-462). -/
def splitAxis (k : Cfg) (sc : V) (b : Box) : Fin 3 :=
  let c0 := extent k sc b.min b.max 0
  let c1 := extent k sc b.min b.max 1
  let c2 := extent k sc b.min b.max 2
  if k.order = some false then
    let (cmax, n) := if c0 > c1 then (c0, 0) else (c1, 1)
    if c2 > cmax then 2 else n
  else
    let (cmax, n) := if c2 > c1 then (c2, 2) else (c1, 1)
    if c0 > cmax then 0 else n

/-- One iteration of the loop of `median_cut` (jquant2.c:420-495); `none` inside is "no splittable boxes left". -/
def cutStep (k : Cfg) (h : Hist) (bs : List Box) : Option (Option (List Box)) := do
  match (if (bs.length : Int) * 2 ≤ k.desired then findPop bs else findVolume bs) with
  | none => pure none
  | some i => do
    let b ← bs[i]?
    let sc ← scales k
    let n := splitAxis k sc b
    let lb := (b.max n + b.min n) / 2
    let b1 ← updateBox k h { b with max := Function.update b.max n lb }
    let b2 ← updateBox k h { b with min := Function.update b.min n (lb + 1) }
    pure (some (bs.set i b1 ++ [b2]))

/-- `median_cut` (jquant2.c:410-497). The box list has room for `desired` boxes. -/
def medianCut (k : Cfg) (h : Hist) : Nat → List Box → Option (List Box)
  | 0, bs => some bs
  | f + 1, bs =>
    if (bs.length : Int) < k.desired then do
      match ← cutStep k h bs with
      | none => pure bs
      | some bs => medianCut k h f bs
    else some bs

/-- `((cN << CN_SHIFT) + ((1 << CN_SHIFT) >> 1))` (jquant2.c:531-533). -/
def cellCentre (k : Cfg) (c : V) : V := fun i => c i * size k i + size k i / 2

/-- `compute_color` (jquant2.c:500-545). The sums only grow, so none overflows if the last value of each does not. -/
def computeColor (k : Cfg) (h : Hist) (b : Box) : Option V :=
  let total := ((cells b.min b.max).map h).sum
  let sum : V := fun i => ((cells b.min b.max).map fun c => cellCentre k c i * h c).sum
  if ¬ CellOk b.max ∨ total = 0 ∨ k.longMax < total ∨ ∃ i, k.longMax < sum i + total / 2 then none
  else some fun i => castSample k.c (((sum i + total / 2) / total : Nat) : Int)

/-- The box of all cells (jquant2.c:562-569). -/
def wholeBox (k : Cfg) : Box := ⟨fun _ => 0, fun i => k.max / size k i, 0, 0⟩

/-- `select_colors` (jquant2.c:548-580): the colour map with its first entries filled in, and the number of colours. -/
def selectColors (k : Cfg) (h : Hist) (sv : List V) : Option (List V × Nat) := do
  let b ← updateBox k h (wholeBox k)
  let bs ← medianCut k h k.desired.toNat [b]
  let sv ← forN (fun i sv => do
    let b ← bs[i]?
    wr sv (i : Int) (← computeColor k h b)) bs.length sv
  pure (sv, bs.length)

/-! ## The inverse colour map -/

/-- The contribution of one component to `min_dist` and `max_dist` (jquant2.c:677-698 and the two others). -/
def axisDist (sc : Nat) (x lo hi : Int) : Int × Int :=
  let near := (x - lo) * sc
  let far := (x - hi) * sc
  if x < lo then (near * near, far * far)
  else if x > hi then (far * far, near * near)
  else if x ≤ (lo + hi) / 2 then (0, far * far)
  else (0, near * near)

/-- `min_dist` and `max_dist` of a colour (jquant2.c:674-744). -/
def boxDist (sc : V) (lo hi : V) (p : V) : Int × Int :=
  let a := axisDist (sc 0) (p 0) (lo 0) (hi 0)
  let b := axisDist (sc 1) (p 1) (lo 1) (hi 1)
  let d := axisDist (sc 2) (p 2) (lo 2) (hi 2)
  (a.1 + b.1 + d.1, a.2 + b.2 + d.2)

/-- `find_nearby_colors` (jquant2.c:629-757): the colour map indexes that may be nearest to a cell of the box whose first
cell has centre `lo`. -/
def findNearby (k : Cfg) (sc : V) (cm : List V) (actual : Nat) (lo : V) : Option (List Nat) := do
  let hi : V := fun i => lo i + (boxElems i * size k i - size k i)
  let ds ← (List.range actual).mapM fun i => (cm[i]?).map (boxDist sc lo hi)
  let minmax := ds.foldl (fun m d => if d.2 < m then d.2 else m) (0x7FFFFFFF : Int)
  pure ((ds.zipIdx.filter fun d => decide (d.1.1 ≤ minmax)).map fun d => castSample k.c (d.2 : Nat))

/-- The successive values of a distance and its increment (jquant2.c:813-837, one loop). -/
def thomas (step : Int) : Nat → Int → Int → List Int
  | 0, _, _ => []
  | n + 1, d, xx => d :: thomas step n (d + xx) (xx + 2 * step * step)

/-- The distances from a colour to the cells of the box, in loop order (jquant2.c:797-838). -/
def distances (k : Cfg) (sc lo p : V) : List Int :=
  let inc : Fin 3 → Int := fun i => ((lo i : Int) - p i) * sc i
  let step : Fin 3 → Int := fun i => (size k i : Int) * sc i
  let d0 := inc 0 * inc 0 + inc 1 * inc 1 + inc 2 * inc 2
  let xx : Fin 3 → Int := fun i => inc i * (2 * step i) + step i * step i
  (thomas (step 0) (boxElems 0) d0 (xx 0)).flatMap fun d1 =>
    (thomas (step 1) (boxElems 1) d1 (xx 1)).flatMap fun d2 => thomas (step 2) (boxElems 2) d2 (xx 2)

/-- `find_best_colors` (jquant2.c:760-839). -/
def findBest (k : Cfg) (sc : V) (cm : List V) (colors : List Nat) (lo : V) : Option (List Nat) := do
  let best ← colors.foldlM (fun (best : List (Int × Nat)) ic => do
    let p ← cm[ic]?
    pure (List.zipWith (fun b d => if d < b.1 then (d, ic) else b) best (distances k sc lo p)))
    (List.replicate (4 * 8 * 4) (0x7FFFFFFF, k.junk))
  pure (best.map (·.2))

/-- `fill_inverse_cmap` (jquant2.c:842-891). -/
def fill (k : Cfg) (cm : List V) (actual : Nat) (h : Hist) (c : V) : Option Hist := do
  let sc ← scales k
  let id : V := fun i => c i / boxElems i
  let lo : V := fun i => id i * (boxElems i * size k i) + size k i / 2
  let colors ← findNearby k sc cm actual lo
  let best ← findBest k sc cm colors lo
  let base : V := fun i => id i * boxElems i
  ((cells base fun i => base i + (boxElems i - 1)).zip best).foldlM (fun h x => wrH h x.1 (x.2 + 1)) h

/-- The lookup of both output functions (jquant2.c:921-930, 1020-1034): the colour map index of a cell, and the cache. -/
def lookup (k : Cfg) (cm : List V) (actual : Nat) (h : Hist) (c : V) : Option (Hist × Int) := do
  let v ← rdH h c
  let h ← if v = 0 then fill k cm actual h c else some h
  let v ← rdH h c
  pure (h, (v : Int) - 1)

/-- One row of `pass2_no_dither` (jquant2.c:914-932). -/
def rowPlain (k : Cfg) (cm : List V) (actual : Nat) (h : Hist) (inp : List Nat) : Option (Hist × List Nat) := do
  let (_, h, out) ← forN (fun col (s : Int × Hist × List Nat) => do
    let p ← pixelAt inp s.1
    let (h, pix) ← lookup k cm actual s.2.1 fun i => p i / size k i
    let out ← wr s.2.2 col (castSample k.c pix)
    pure (s.1 + 3, h, out)) k.width (0, h, List.replicate k.width k.junk)
  pure (h, out)

/-! ## Floyd-Steinberg dithering -/

/-- `init_error_limit` (jquant2.c:1097-1129), the part that walks `in`: the value `out` at each `in`. The second loop
adds one to `out` when the incremented `in` is even. -/
def limitOut (S : Nat) : Nat → Nat
  | 0 => 0
  | n + 1 =>
    if n < S then limitOut S n + 1
    else if n < S * 3 then limitOut S n + (if (n + 1) % 2 = 1 then 0 else 1)
    else limitOut S n

/-- The error-limiting table (jquant2.c:1103-1127): indexes -MAXJSAMPLE .. MAXJSAMPLE. -/
def limiter (k : Cfg) : PTab Int :=
  ⟨k.max, (List.range (2 * k.max + 1)).map fun j =>
    if j < k.max then -(limitOut ((k.max + 1) / 16) (k.max - j) : Int) else limitOut ((k.max + 1) / 16) (j - k.max)⟩

/-- A triple of errors. -/
abbrev E := Fin 3 → Int

/-- The variables of the column loop of `pass2_fs_dither`. -/
structure FsSt where
  cur : E
  below : E
  bprev : E
  ip : Int
  op : Int
  ep : Int
  err : List E
  out : List Nat
  hist : Hist

/-- One pixel of `pass2_fs_dither` (jquant2.c:984-1071). The error array is an array of triples here. -/
def fsPixel (k : Cfg) (cm : List V) (actual : Nat) (lim : PTab Int) (dir : Int) (inp : List Nat) (s : FsSt) :
    Option FsSt := do
  let e ← rd s.err (s.ep + dir)
  let cur ← seq3 fun i => lim.get? ((s.cur i + e i + 8) / 16)
  let p ← pixelAt inp s.ip
  let cur ← seq3 fun i => (rangeLimitTable k.c).get? (cur i + p i)
  let (h, pix) ← lookup k cm actual s.hist fun i => cur i / size k i
  let out ← wr s.out s.op (castSample k.c pix)
  let q ← rd cm pix
  let cur : E := fun i => (cur i : Int) - q i
  let bnext := cur
  let err ← wr s.err s.ep fun i => castErr k.c (s.bprev i + cur i * 3)
  let bprev : E := fun i => s.below i + cur i * 5
  let below := bnext
  let cur : E := fun i => cur i * 7
  pure ⟨cur, below, bprev, s.ip + 3 * dir, s.op + dir, s.ep + dir, err, out, h⟩

/-- One row of `pass2_fs_dither` (jquant2.c:961-1079) without the flip of `on_odd_row`: cache, errors, output. -/
def rowFs (k : Cfg) (cm : List V) (actual : Nat) (lim : PTab Int) (odd : Bool) (h : Hist) (err : List E)
    (inp : List Nat) : Option (Hist × List E × List Nat) := do
  let out := List.replicate k.width k.junk
  let z : E := fun _ => 0
  let dir : Int := if odd then -1 else 1
  let s0 : FsSt :=
    if odd then ⟨z, z, z, ((k.width : Int) - 1) * 3, (k.width : Int) - 1, (k.width : Int) + 1, err, out, h⟩
    else ⟨z, z, z, 0, 0, 0, err, out, h⟩
  let s ← forN (fun _ s => fsPixel k cm actual lim dir inp s) k.width s0
  let err ← wr s.err s.ep fun i => castErr k.c (s.bprev i)
  pure (s.hist, err, s.out)

/-! ## Passes -/

/-- `_color_quantize` and `finish_pass`, the function pointers set by `start_pass`. -/
inductive Fn
  | prescan | plain | fs
deriving DecidableEq, Repr

/-- The private object (jquant2.c:176-199) with `cinfo->colormap` and `cinfo->actual_number_of_colors`. Null pointers
are `none`. -/
structure Q where
  hist : Hist
  needsZeroed : Bool
  sv : Option (List V)
  fserrors : Option (List E)
  onOdd : Bool
  limiter : Option (PTab Int)
  fn : Option Fn
  colormap : Option (List V)
  actual : Int

/-- The error exits of the module. -/
inductive Err
  | notImpl | fewColors (n : Nat) | manyColors (n : Nat)
deriving DecidableEq, Repr

/-- `_jinit_2pass_quantizer` (jquant2.c:1239-1316). `plain` says `dither_mode == JDITHER_NONE`; any other mode is treated
as Floyd-Steinberg. `map` and `n` are `cinfo->colormap` and `cinfo->actual_number_of_colors` at this point. -/
def init (k : Cfg) (plain : Bool) (hist : Hist) (map : Option (List V)) (n : Int) : Except Err Q :=
  if k.components ≠ 3 ∨ k.rgb565 ∨ k.lossless then .error .notImpl
  else if k.enable2pass ∧ k.desired < 8 then .error (.fewColors 8)
  else if k.enable2pass ∧ k.desired > k.max + 1 then .error (.manyColors (k.max + 1))
  else .ok ⟨hist, true, if k.enable2pass then some (List.replicate k.desired.toNat fun _ => k.junk) else none,
    if plain then none else some (List.replicate (k.width + 2) fun _ => 0), false,
    if plain then none else some (limiter k), none, map, n⟩

/-- The end of `start_pass_2_quant` (jquant2.c:1207-1214). -/
def zeroIfNeeded (q : Q) : Q := if q.needsZeroed then { q with hist := fun _ => 0, needsZeroed := false } else q

/-- `start_pass_2_quant` (jquant2.c:1156-1215). -/
def startPass (k : Cfg) (plain prescan : Bool) (q : Q) : Except Err Q :=
  if prescan then .ok (zeroIfNeeded { q with fn := some .prescan, needsZeroed := true })
  else
    let q : Q := { q with fn := some (if plain then .plain else .fs) }
    if q.actual < 1 then .error (.fewColors 1)
    else if q.actual > k.max + 1 then .error (.manyColors (k.max + 1))
    else if plain then .ok (zeroIfNeeded q)
    else .ok (zeroIfNeeded { q with
      fserrors := some (List.replicate (k.width + 2) fun _ => 0), limiter := some (q.limiter.getD (limiter k)), onOdd := false })

/-- One iteration of the row loop of the installed function; the prescan writes no output. -/
def rowStep (k : Cfg) (q : Q) (inp : List Nat) : Option (Q × List Nat) := do
  match ← q.fn with
  | .prescan => pure ({ q with hist := ← prescanRow k q.hist inp }, [])
  | .plain => do
    let (h, out) ← rowPlain k (← q.colormap) q.actual.toNat q.hist inp
    pure ({ q with hist := h }, out)
  | .fs => do
    let (h, err, out) ← rowFs k (← q.colormap) q.actual.toNat (← q.limiter) q.onOdd q.hist (← q.fserrors) inp
    pure ({ q with hist := h, fserrors := some err, onOdd := !q.onOdd }, out)

/-- One call of `_color_quantize` with `num_rows` rows (jquant2.c:205-1080, the row loops). -/
def quantize (k : Cfg) : Q → List (List Nat) → Option (Q × List (List Nat))
  | q, [] => some (q, [])
  | q, r :: rs => do
    let (q, o) ← rowStep k q r
    let (q, os) ← quantize k q rs
    pure (q, o :: os)

/-- `finish_pass` (jquant2.c:1136-1153): `finish_pass1` after a prescan, nothing otherwise. -/
def finishPass (k : Cfg) (q : Q) : Option Q := do
  match ← q.fn with
  | .prescan => do
    let (sv, n) ← selectColors k q.hist (← q.sv)
    pure { q with sv := some sv, colormap := some sv, actual := n, needsZeroed := true }
  | _ => pure q

/-- The application sets `cinfo->colormap` and calls `jpeg_new_colormap`; `new_color_map_2_quant` (jquant2.c:1222-1229,
jdmaster.c:854-872). -/
def newColormap (q : Q) (map : List V) (n : Int) : Q := { q with colormap := some map, actual := n, needsZeroed := true }

end Verif.Quant2
