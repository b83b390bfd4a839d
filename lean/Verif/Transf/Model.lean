import Mathlib.Data.List.Basic
import Mathlib.Data.Int.Basic
/-
Model of the lossless transform routines of transupp.c: the loop nests that move and sign-change DCT blocks, with
bounds-checked array accesses, and the parts of jtransform_request_workspace / jtransform_adjust_parameters that fix
the geometry of the output.
-/
namespace Verif.Transf

/-- One 8x8 block of coefficients: row (vertical frequency), column (horizontal frequency). `JBLOCK` (jpeglib.h:97)
indexes it as `[row * 8 + col]`. -/
abbrev Block := Fin 8 → Fin 8 → Int

/-- A virtual block array (jmemmgr.c: `jvirt_barray_control`): its declared size and contents. The backing-store
window is not modelled here. -/
structure Arr where
  rows : Nat
  cols : Nat
  maxaccess : Nat
  at_ : Nat → Nat → Block

/-- `access_virt_barray` (jmemmgr.c:1008-1090): the range checks; `none` is the error exit. -/
def access (a : Arr) (start n : Nat) : Option Unit :=
  if start + n ≤ a.rows ∧ n ≤ a.maxaccess then some () else none

/-- Reading block `x` of row `y`; `none` if outside the allocation. -/
def rd (a : Arr) (y x : Nat) : Option Block := if y < a.rows ∧ x < a.cols then some (a.at_ y x) else none

/-- Writing block `x` of row `y`; `none` if outside the allocation. -/
def wr (a : Arr) (y x : Nat) (b : Block) : Option Arr :=
  if y < a.rows ∧ x < a.cols then
    some { a with at_ := fun y' x' => if y' = y ∧ x' = x then b else a.at_ y' x' }
  else none

/-- `for (i = 0; i < n; i += step) body`. -/
def forStep {σ : Type} (n step : Nat) (body : Nat → σ → Option σ) (s : σ) : Option σ :=
  ((List.range ((n + step - 1) / step)).map (· * step)).foldlM (fun s i => body i s) s

/-- Negation of a `JCOEF` (a 16-bit `short`): computed in `int`, stored back modulo 2^16. -/
def neg16 (x : Int) : Int := Int.bmod (-x) 65536

/-! Block copies. The C loops walk the 64 coefficients with incremented pointers or `[i * DCTSIZE + j]` subscripts;
each is written here as the function it computes, cell by cell. -/

/-- Odd columns negated (transupp.c:760-769, 836-840, 1222-1225). -/
def cpFlipH (b : Block) : Block := fun i j => if j.val % 2 = 1 then neg16 (b i j) else b i j
/-- Odd rows negated (transupp.c:908-915, 1204-1209). -/
def cpFlipV (b : Block) : Block := fun i j => if i.val % 2 = 1 then neg16 (b i j) else b i j
/-- `dst[j*8+i] = src[i*8+j]` (transupp.c:968-970). -/
def cpTranspose (b : Block) : Block := fun r c => b c r
/-- Transposed, odd source rows negated (transupp.c:1036-1042, 1350-1356). -/
def cpRot90 (b : Block) : Block := fun r c => if c.val % 2 = 1 then neg16 (b c r) else b c r
/-- Transposed, odd source columns negated (transupp.c:1111-1117, 1337-1343). -/
def cpRot270 (b : Block) : Block := fun r c => if r.val % 2 = 1 then neg16 (b c r) else b c r
/-- Even row: odd columns negated; odd row: even columns negated (transupp.c:1188-1199). -/
def cpRot180 (b : Block) : Block := fun i j =>
  if i.val % 2 = 0 then (if j.val % 2 = 1 then neg16 (b i j) else b i j)
  else (if j.val % 2 = 0 then neg16 (b i j) else b i j)
/-- Transposed; even source row: odd columns negated; odd source row: even columns negated (transupp.c:1318-1331). -/
def cpTransverse (b : Block) : Block := fun r c =>
  if c.val % 2 = 0 then (if r.val % 2 = 1 then neg16 (b c r) else b c r)
  else (if r.val % 2 = 0 then neg16 (b c r) else b c r)

/-- What the routines read from `srcinfo`, `dstinfo`, `compptr` and the crop offsets, for one component.
`dstinfo_min_DCT_*_scaled_size` is `DCTSIZE` = 8. -/
structure Par where
  /-- `srcinfo->output_width`, `srcinfo->output_height` -/
  srcW : Nat
  srcH : Nat
  /-- `dstinfo->max_h_samp_factor`, `dstinfo->max_v_samp_factor` -/
  maxH : Nat
  maxV : Nat
  /-- the destination component's sampling factors and size in blocks -/
  hs : Nat
  vs : Nat
  wb : Nat
  hb : Nat
  /-- crop offsets in iMCUs -/
  xo : Nat
  yo : Nat

/-- `jcopy_block_row(src row y + x0, dst row y', n)` (jutils.c:126-144). -/
def copyBlockRow (src : Arr) (sy sx : Nat) (dy dx n : Nat) (dst : Arr) : Option Arr :=
  forStep n 1 (fun k dst => do let b ← rd src sy (sx + k); wr dst dy (dx + k) b) dst

/-- `do_crop` (transupp.c:278-312), one component. -/
def doCrop (p : Par) (src dst : Arr) : Option Arr :=
  forStep p.hb p.vs (fun y dst => do
    access dst y p.vs
    access src (y + p.yo * p.vs) p.vs
    forStep p.vs 1 (fun oy dst =>
      copyBlockRow src (y + p.yo * p.vs + oy) (p.xo * p.hs) (y + oy) 0 p.wb dst) dst) dst

/-- `do_flip_h` (transupp.c:792-850), one component. -/
def doFlipH (p : Par) (src dst : Arr) : Option Arr :=
  let compW := p.srcW / (p.maxH * 8) * p.hs
  let xc := p.xo * p.hs
  let yc := p.yo * p.vs
  forStep p.hb p.vs (fun y dst => do
    access dst y p.vs
    access src (y + yc) p.vs
    forStep p.vs 1 (fun oy dst =>
      forStep p.wb 1 (fun x dst =>
        if xc + x < compW then do
          let b ← rd src (y + yc + oy) (compW - xc - x - 1)
          wr dst (y + oy) x (cpFlipH b)
        else copyBlockRow src (y + yc + oy) (x + xc) (y + oy) x 1 dst) dst) dst) dst

/-- `do_flip_v` (transupp.c:854-930), one component. -/
def doFlipV (p : Par) (src dst : Arr) : Option Arr :=
  let compH := p.srcH / (p.maxV * 8) * p.vs
  let xc := p.xo * p.hs
  let yc := p.yo * p.vs
  forStep p.hb p.vs (fun y dst => do
    access dst y p.vs
    let start := if yc + y < compH then compH - yc - y - p.vs else y + yc
    access src start p.vs
    forStep p.vs 1 (fun oy dst =>
      if yc + y < compH then
        forStep p.wb 1 (fun x dst => do
          let b ← rd src (start + (p.vs - oy - 1)) (xc + x)
          wr dst (y + oy) x (cpFlipV b)) dst
      else copyBlockRow src (start + oy) xc (y + oy) 0 p.wb dst) dst) dst

/-- `do_transpose` (transupp.c:933-979), one component. -/
def doTranspose (p : Par) (src dst : Arr) : Option Arr :=
  let xc := p.xo * p.hs
  let yc := p.yo * p.vs
  forStep p.hb p.vs (fun y dst => do
    access dst y p.vs
    forStep p.vs 1 (fun oy dst =>
      forStep p.wb p.hs (fun x dst => do
        access src (x + xc) p.hs
        forStep p.hs 1 (fun ox dst => do
          let b ← rd src (x + xc + ox) (y + oy + yc)
          wr dst (y + oy) (x + ox) (cpTranspose b)) dst) dst) dst) dst

/-- `do_rot_90` (transupp.c:982-1060), one component. -/
def doRot90 (p : Par) (src dst : Arr) : Option Arr :=
  let compW := p.srcH / (p.maxH * 8) * p.hs
  let xc := p.xo * p.hs
  let yc := p.yo * p.vs
  forStep p.hb p.vs (fun y dst => do
    access dst y p.vs
    forStep p.vs 1 (fun oy dst =>
      forStep p.wb p.hs (fun x dst => do
        let start := if xc + x < compW then compW - xc - x - p.hs else x + xc
        access src start p.hs
        forStep p.hs 1 (fun ox dst =>
          if xc + x < compW then do
            let b ← rd src (start + (p.hs - ox - 1)) (y + oy + yc)
            wr dst (y + oy) (x + ox) (cpRot90 b)
          else do
            let b ← rd src (start + ox) (y + oy + yc)
            wr dst (y + oy) (x + ox) (cpTranspose b)) dst) dst) dst) dst

/-- `do_rot_270` (transupp.c:1063-1131), one component. -/
def doRot270 (p : Par) (src dst : Arr) : Option Arr :=
  let compH := p.srcW / (p.maxV * 8) * p.vs
  let xc := p.xo * p.hs
  let yc := p.yo * p.vs
  forStep p.hb p.vs (fun y dst => do
    access dst y p.vs
    forStep p.vs 1 (fun oy dst =>
      forStep p.wb p.hs (fun x dst => do
        access src (x + xc) p.hs
        forStep p.hs 1 (fun ox dst =>
          if yc + y < compH then do
            let b ← rd src (x + xc + ox) (compH - yc - y - oy - 1)
            wr dst (y + oy) (x + ox) (cpRot270 b)
          else do
            let b ← rd src (x + xc + ox) (y + oy + yc)
            wr dst (y + oy) (x + ox) (cpTranspose b)) dst) dst) dst) dst

/-- `do_rot_180` (transupp.c:1134-1241), one component. -/
def doRot180 (p : Par) (src dst : Arr) : Option Arr :=
  let compW := p.srcW / (p.maxH * 8) * p.hs
  let compH := p.srcH / (p.maxV * 8) * p.vs
  let xc := p.xo * p.hs
  let yc := p.yo * p.vs
  forStep p.hb p.vs (fun y dst => do
    access dst y p.vs
    let start := if yc + y < compH then compH - yc - y - p.vs else y + yc
    access src start p.vs
    forStep p.vs 1 (fun oy dst =>
      if yc + y < compH then
        forStep p.wb 1 (fun x dst =>
          if xc + x < compW then do
            let b ← rd src (start + (p.vs - oy - 1)) (compW - xc - x - 1)
            wr dst (y + oy) x (cpRot180 b)
          else do
            let b ← rd src (start + (p.vs - oy - 1)) (xc + x)
            wr dst (y + oy) x (cpFlipV b)) dst
      else
        forStep p.wb 1 (fun x dst =>
          if xc + x < compW then do
            let b ← rd src (start + oy) (compW - xc - x - 1)
            wr dst (y + oy) x (cpFlipH b)
          else copyBlockRow src (start + oy) (x + xc) (y + oy) x 1 dst) dst) dst) dst

/-- `do_transverse` (transupp.c:1245-1376), one component. -/
def doTransverse (p : Par) (src dst : Arr) : Option Arr :=
  let compW := p.srcH / (p.maxH * 8) * p.hs
  let compH := p.srcW / (p.maxV * 8) * p.vs
  let xc := p.xo * p.hs
  let yc := p.yo * p.vs
  forStep p.hb p.vs (fun y dst => do
    access dst y p.vs
    forStep p.vs 1 (fun oy dst =>
      forStep p.wb p.hs (fun x dst => do
        let start := if xc + x < compW then compW - xc - x - p.hs else x + xc
        access src start p.hs
        forStep p.hs 1 (fun ox dst =>
          if yc + y < compH then
            if xc + x < compW then do
              let b ← rd src (start + (p.hs - ox - 1)) (compH - yc - y - oy - 1)
              wr dst (y + oy) (x + ox) (cpTransverse b)
            else do
              let b ← rd src (start + ox) (compH - yc - y - oy - 1)
              wr dst (y + oy) (x + ox) (cpRot270 b)
          else
            if xc + x < compW then do
              let b ← rd src (start + (p.hs - ox - 1)) (y + oy + yc)
              wr dst (y + oy) (x + ox) (cpRot90 b)
            else do
              let b ← rd src (start + ox) (y + oy + yc)
              wr dst (y + oy) (x + ox) (cpTranspose b)) dst) dst) dst) dst

/-- `do_flip_h_no_crop` (transupp.c:727-789), one component, in place: swap pairs, then left-justify. -/
def doFlipHNoCrop (p : Par) (a : Arr) : Option Arr :=
  let compW := p.srcW / (p.maxH * 8) * p.hs
  let xc := p.xo * p.hs
  forStep p.hb p.vs (fun y a => do
    access a y p.vs
    forStep p.vs 1 (fun oy a => do
      -- `for (blk_x = 0; blk_x * 2 < comp_width; blk_x++)`
      let a ← forStep ((compW + 1) / 2) 1 (fun x a => do
        let b1 ← rd a (y + oy) x
        let b2 ← rd a (y + oy) (compW - x - 1)
        let a ← wr a (y + oy) x (cpFlipH b2)
        wr a (y + oy) (compW - x - 1) (cpFlipH b1)) a
      if xc > 0 then
        forStep p.wb 1 (fun x a => do
          let b ← rd a (y + oy) (x + xc)
          wr a (y + oy) x b) a
      else pure a) a) a

/-- `JXFORM_CODE` (transupp.h:85-95), without wipe and drop. -/
inductive Xform where
  | none | flipH | flipV | transpose | transverse | rot90 | rot180 | rot270
deriving DecidableEq, Repr

/-- `jtransform_perfect_transform` (transupp.c:2273-2305). -/
def perfectTransform (w h mcuW mcuH : Nat) (t : Xform) : Bool :=
  match t with
  | .flipH | .rot270 => if w % mcuW ≠ 0 then false else true
  | .flipV | .rot90 => if h % mcuH ≠ 0 then false else true
  | .transverse | .rot180 =>
    let r := if w % mcuW ≠ 0 then false else true
    if h % mcuH ≠ 0 then false else r
  | _ => true

/-- `trim_right_edge` / `trim_bottom_edge` (transupp.c:1455-1475): new output dimension. -/
def trimEdge (out imcu off full : Nat) : Nat :=
  let m := out / imcu
  if m > 0 ∧ off + m = full / imcu then m * imcu else out

/-- The transposing transforms (transupp.c:1553-1556, 2093-2096). -/
def swaps : Xform → Bool
  | .transpose | .transverse | .rot90 | .rot270 => true
  | _ => false

/-- One component: sampling factors and coefficient array. -/
structure Comp where
  hs : Nat
  vs : Nat
  arr : Arr

/-- A JPEG image as the transform code sees it. -/
structure Img where
  w : Nat
  h : Nat
  comps : List Comp

/-- `max_h_samp_factor`, `max_v_samp_factor` (jdinput.c:92-107, jcmaster.c:212-227): the maxima over the components. -/
def maxOf (l : List Nat) : Nat := l.foldl max 1
def maxH (cs : List Comp) : Nat := maxOf (cs.map Comp.hs)
def maxV (cs : List Comp) : Nat := maxOf (cs.map Comp.vs)

/-- `jdiv_round_up` (jutils.c:72-80). -/
def divUp (a b : Nat) : Nat := (a + b - 1) / b

/-- Output geometry of `jtransform_request_workspace` without cropping (transupp.c:1550-1581 and the trim switch,
1722-1777). -/
structure Geo where
  outW : Nat
  outH : Nat
  imcuW : Nat
  imcuH : Nat

def geometry (t : Xform) (trim : Bool) (img : Img) : Geo :=
  let mh := if img.comps.length = 1 then 8 else maxH img.comps * 8
  let mv := if img.comps.length = 1 then 8 else maxV img.comps * 8
  let ow := if swaps t then img.h else img.w
  let oh := if swaps t then img.w else img.h
  let iw := if swaps t then mv else mh
  let ih := if swaps t then mh else mv
  let tw := match t with
    | .flipH | .rot90 | .rot180 | .transverse => if trim then trimEdge ow iw 0 ow else ow
    | _ => ow
  let th := match t with
    | .flipV | .rot270 | .rot180 | .transverse => if trim then trimEdge oh ih 0 oh else oh
    | _ => oh
  { outW := tw, outH := th, imcuW := iw, imcuH := ih }

/-- Destination sampling factors (transupp.c:2069-2076 for a single component; transpose_critical_parameters,
1838-1877). -/
def dstFactors (t : Xform) (n : Nat) (c : Comp) : Nat × Nat :=
  if n = 1 then (1, 1) else if swaps t then (c.vs, c.hs) else (c.hs, c.vs)

/-- Workspace array for a component (transupp.c:1784-1812): padded to whole iMCUs. Its initial contents are
unspecified; `init` stands for them. -/
def workspace (g : Geo) (f : Nat × Nat) (init : Nat → Nat → Block) : Arr :=
  { rows := divUp g.outH g.imcuH * f.2, cols := divUp g.outW g.imcuW * f.1, maxaccess := f.2, at_ := init }

/-- Parameters seen by the transform routine for a component of the destination: `max_h_samp_factor`,
`width_in_blocks` and so on as computed by `initial_setup` (jcmaster.c:212-241) for the destination. -/
def parOf (t : Xform) (img : Img) (g : Geo) (c : Comp) : Par :=
  let f := dstFactors t img.comps.length c
  let mh := maxOf (img.comps.map (fun c => (dstFactors t img.comps.length c).1))
  let mv := maxOf (img.comps.map (fun c => (dstFactors t img.comps.length c).2))
  { srcW := img.w, srcH := img.h, maxH := mh, maxV := mv, hs := f.1, vs := f.2,
    wb := divUp (g.outW * f.1) (mh * 8), hb := divUp (g.outH * f.2) (mv * 8), xo := 0, yo := 0 }

/-- `jtransform_execute_transform` (transupp.c:2161-2253) without cropping, for one component. `JXFORM_NONE` needs no
work, the horizontal flip is done in place, the others go to the workspace. -/
def execComp (t : Xform) (img : Img) (g : Geo) (init : Nat → Nat → Block) (c : Comp) : Option Comp :=
  let f := dstFactors t img.comps.length c
  let p := parOf t img g c
  let ws := workspace g f init
  let res := match t with
    | .none => some c.arr
    | .flipH => doFlipHNoCrop p c.arr
    | .flipV => doFlipV p c.arr ws
    | .transpose => doTranspose p c.arr ws
    | .transverse => doTransverse p c.arr ws
    | .rot90 => doRot90 p c.arr ws
    | .rot180 => doRot180 p c.arr ws
    | .rot270 => doRot270 p c.arr ws
  res.map (fun a => { hs := f.1, vs := f.2, arr := a })

/-- The whole transform of an image (no cropping). -/
def execute (t : Xform) (trim : Bool) (init : Nat → Nat → Block) (img : Img) : Option Img :=
  let g := geometry t trim img
  (img.comps.mapM (execComp t img g init)).map (fun cs => { w := g.outW, h := g.outH, comps := cs })

end Verif.Transf
