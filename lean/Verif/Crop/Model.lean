import Verif.Transf.Edges
/-
Model of the cropping side of transupp.c: parsing a crop specification, the geometry computed by
jtransform_request_workspace, and the routines for crop extension, wipe and drop. The routines for cropping with and without
a transform are those of `Verif.Transf`.

`none` is an error exit, an access outside an array, or a loop that does not end.
-/
namespace Verif.Crop
open Verif.Transf

/-! ## The crop specification -/

/-- `JCROP_CODE` (transupp.h:123-129). -/
inductive Kind where
  | unset | pos | neg | force | reflect
deriving DecidableEq, Repr

/-- The crop fields of `jpeg_transform_info` (transupp.h:155-162). -/
structure Req where
  w : Nat
  wk : Kind
  h : Nat
  hk : Kind
  x : Nat
  xk : Kind
  y : Nat
  yk : Kind
deriving DecidableEq, Repr

/-- `jt_read_integer` (transupp.c:1365-1379): the value is a 32-bit unsigned number. -/
def readInt (s : List Char) : Option (Nat × List Char) :=
  match s.takeWhile Char.isDigit with
  | [] => none
  | ds => some (ds.foldl (fun v c => (v * 10 + (c.toNat - 48)) % 2 ^ 32) 0, s.dropWhile Char.isDigit)

/-- The letter after a width or height (transupp.c:1409-1416, 1423-1430). -/
def suffix (s : List Char) : Kind × List Char :=
  match s with
  | 'f' :: s => (.force, s)
  | 'F' :: s => (.force, s)
  | 'r' :: s => (.reflect, s)
  | 'R' :: s => (.reflect, s)
  | s => (.pos, s)

/-- Width or height (transupp.c:1405-1417, 1421-1431), after the digit was seen or `x` was skipped. -/
def readSize (s : List Char) : Option (Nat × Kind × List Char) := do
  let (v, s) ← readInt s
  let (k, s) := suffix s
  pure (v, k, s)

/-- An offset (transupp.c:1432-1438, 1439-1445); `old` is the previous contents of the field. -/
def readOffset (old : Nat) (s : List Char) : Option (Nat × Kind × List Char) :=
  match s with
  | '+' :: s => do
    let (v, s) ← readInt s
    pure (v, .pos, s)
  | '-' :: s => do
    let (v, s) ← readInt s
    pure (v, .neg, s)
  | s => some (old, .unset, s)

/-- Whether a width comes first (transupp.c:1404). -/
def startsDigit (s : List Char) : Bool :=
  match s with
  | c :: _ => c.isDigit
  | [] => false

/-- The width part (transupp.c:1404-1417). -/
def readWidth (old : Nat) (s : List Char) : Option (Nat × Kind × List Char) :=
  if startsDigit s then readSize s else some (old, .unset, s)

/-- The height part (transupp.c:1418-1431). -/
def readHeight (old : Nat) (s : List Char) : Option (Nat × Kind × List Char) :=
  match s with
  | 'x' :: s => readSize s
  | 'X' :: s => readSize s
  | s => some (old, .unset, s)

/-- `jtransform_parse_crop_spec` (transupp.c:1395-1452): `none` is FALSE. The string ends where the list ends. Fields that
are not set keep what they had (`old`). -/
def parse (old : Req) (s : List Char) : Option Req := do
  let (w, wk, s) ← readWidth old.w s
  let (h, hk, s) ← readHeight old.h s
  let (x, xk, s) ← readOffset old.x s
  let (y, yk, s) ← readOffset old.y s
  if s = [] then pure ⟨w, wk, h, hk, x, xk, y, yk⟩ else none

/-! ## Geometry -/

/-- The operations: the transforms, and wipe and drop (transupp.h:104-115). -/
inductive Op where
  | xf (t : Xform)
  | wipe
  | drop
deriving DecidableEq

/-- Whether `info->transform` is JXFORM_NONE. -/
def Op.isNone : Op → Bool
  | .xf .none => true
  | _ => false

/-- Whether width and height are exchanged. -/
def Op.swaps : Op → Bool
  | .xf t => Transf.swaps t
  | _ => false

/-- One axis of the crop area: checks, default, and conversion of a negative offset (transupp.c:1585-1602 and 1620-1627 for x,
1603-1619 and 1628-1634 for y). The result is the length and the offset; `out` is the length of the whole image. -/
def axis (op : Op) (out len : Nat) (k : Kind) (off : Nat) (offk : Kind) : Option (Nat × Nat) := do
  let off := if offk = .unset then 0 else off
  let len ← (if k = .unset then
      if off ≥ out then none else some (out - off)
    else if len > out then
      if op.isNone = false ∨ off ≥ len ∨ off > len - out then none else some len
    else if off ≥ out ∨ len = 0 ∨ off > out - len then none else some len)
  pure (len, if offk ≠ .neg then off else if len > out then len - out - off else out - len - off)

/-- Drop region of one axis (transupp.c:1638-1647, 1648-1657): the adjusted offset and the length in iMCUs. -/
def dropAxis (imcu out len off : Nat) : Nat × Nat :=
  let d := imcu - 1 - ((off + imcu - 1) % imcu)
  let off := off + d
  (off, if len ≤ d then 0 else if off + len - d = out then (len - d + imcu - 1) / imcu else (len - d) / imcu)

/-- Output length of one axis when cropping (transupp.c:1690-1700). -/
def cropAxis (imcu out len : Nat) (k : Kind) (off : Nat) : Nat :=
  if k = .force ∨ len > out then len else len + off % imcu

/-- What `jtransform_request_workspace` computes. -/
structure Geo2 where
  outW : Nat
  outH : Nat
  imcuW : Nat
  imcuH : Nat
  xo : Nat
  yo : Nat
  dropW : Nat
  dropH : Nat

/-- Geometry without cropping, before trimming (transupp.c:1550-1581). -/
def baseGeo (op : Op) (img : Img) : Geo2 :=
  let mh := if img.comps.length = 1 then 8 else maxH img.comps * 8
  let mv := if img.comps.length = 1 then 8 else maxV img.comps * 8
  { outW := if op.swaps then img.h else img.w
    outH := if op.swaps then img.w else img.h
    imcuW := if op.swaps then mv else mh
    imcuH := if op.swaps then mh else mv
    xo := 0, yo := 0, dropW := 0, dropH := 0 }

/-- The crop area (transupp.c:1583-1709). The comparison of sampling factors for a drop is in `dropFactorsOk`. -/
def cropArea (op : Op) (img : Img) (r : Req) : Option Geo2 := do
  let g := baseGeo op img
  let (cw, xoff) ← axis op g.outW r.w r.wk r.x r.xk
  let (ch, yoff) ← axis op g.outH r.h r.hk r.y r.yk
  match op with
  | .drop =>
    let dx := dropAxis g.imcuW g.outW cw xoff
    let dy := dropAxis g.imcuH g.outH ch yoff
    pure { g with
      xo := dx.1 / g.imcuW, yo := dy.1 / g.imcuH, dropW := dx.2, dropH := dy.2 }
  | .wipe =>
    pure { g with
      xo := xoff / g.imcuW, yo := yoff / g.imcuH
      dropW := divUp (cw + xoff % g.imcuW) g.imcuW, dropH := divUp (ch + yoff % g.imcuH) g.imcuH }
  | .xf _ =>
    pure { g with
      outW := cropAxis g.imcuW g.outW cw r.wk xoff, outH := cropAxis g.imcuH g.outH ch r.hk yoff
      xo := xoff / g.imcuW, yo := yoff / g.imcuH }

/-- Trimming (transupp.c:1716-1777). -/
def trimGeo (op : Op) (img : Img) (trim : Bool) (g : Geo2) : Geo2 :=
  let fullW := if op.swaps then img.h else img.w
  let fullH := if op.swaps then img.w else img.h
  let right := match op with
    | .xf .flipH | .xf .rot90 | .xf .rot180 | .xf .transverse => trim
    | _ => false
  let bottom := match op with
    | .xf .flipV | .xf .rot270 | .xf .rot180 | .xf .transverse => trim
    | _ => false
  { g with
    outW := if right then trimEdge g.outW g.imcuW g.xo fullW else g.outW
    outH := if bottom then trimEdge g.outH g.imcuH g.yo fullH else g.outH }

/-- The geometry of an operation; the crop request is optional for transforms. -/
def geometry (op : Op) (trim : Bool) (img : Img) (r : Option Req) : Option Geo2 :=
  match r with
  | none => some (trimGeo op img trim (baseGeo op img))
  | some r => (cropArea op img r).map (trimGeo op img trim)

/-! ## Routines -/

/-- All zero. -/
def zeroBlock : Block := fun _ _ => 0
/-- All zero but the DC coefficient. -/
def dcBlock (dc : Int) : Block := fun i j => if i = 0 ∧ j = 0 then dc else 0

/-- `n` blocks of row `y` from `x` on are set to `b`: `memset`, and where `b` is a `dcBlock` the loop that stores the DC value
afterwards. -/
def fill (y x n : Nat) (b : Block) (a : Arr) : Option Arr := forStep n 1 (fun k a => wr a y (x + k) b) a

/-- Row of `do_crop_ext_zero` (transupp.c:363-383). -/
def extZeroRow (p : Par) (extW : Bool) (src : Arr) (sy y : Nat) (dst : Arr) : Option Arr :=
  let cw := p.srcW / (p.maxH * 8) * p.hs
  let xc := p.xo * p.hs
  if extW then do
    let dst ← fill y 0 xc zeroBlock dst
    let dst ← copyBlockRow src sy 0 y xc cw dst
    fill y (xc + cw) (p.wb - xc - cw) zeroBlock dst
  else copyBlockRow src sy xc y 0 p.wb dst

/-- Row of `do_crop_ext_flat` (transupp.c:437-462). -/
def extFlatRow (p : Par) (src : Arr) (sy y : Nat) (dst : Arr) : Option Arr := do
  let cw := p.srcW / (p.maxH * 8) * p.hs
  let xc := p.xo * p.hs
  let dst ← (if xc > 0 then do
      let b ← rd src sy 0
      fill y 0 xc (dcBlock (b 0 0)) dst
    else some dst)
  let dst ← copyBlockRow src sy 0 y xc cw dst
  if p.wb > xc + cw then do
    -- `src_buffer[offset_y][comp_width - 1]`; with `comp_width` 0 the index is 2^32 - 1
    let b ← rd src sy (if cw = 0 then 2 ^ 32 - 1 else cw - 1)
    fill y (xc + cw) (p.wb - xc - cw) (dcBlock (b 0 0)) dst
  else some dst

/-- "Reflect to the right" (transupp.c:545-563, 677-692): `n` blocks from `pos` on, mirrored at an axis which is reset every
`cw` blocks. `fuel` bounds the number of rounds of the outer loop. -/
def reflectRight (cw y : Nat) : Nat → Nat → Nat → Arr → Option Arr
  | _, 0, _, a => some a
  | 0, _ + 1, _, _ => none
  | fuel + 1, n + 1, pos, a => do
    let a ← forStep (min cw (n + 1)) 1 (fun i a => do
      let b ← (if i + 1 ≤ pos then rd a y (pos - 1 - i) else none)
      wr a y (pos + i) (cpFlipH b)) a
    reflectRight cw y fuel (n + 1 - min cw (n + 1)) (pos + min cw (n + 1)) a

/-- "Reflect to the left" (transupp.c:525-543, 693-710): `n` blocks before `pos`. -/
def reflectLeft (cw y : Nat) : Nat → Nat → Nat → Arr → Option Arr
  | _, 0, _, a => some a
  | 0, _ + 1, _, _ => none
  | fuel + 1, n + 1, pos, a => do
    let a ← forStep (min cw (n + 1)) 1 (fun i a => do
      let b ← rd a y (pos + i)
      if i + 1 ≤ pos then wr a y (pos - 1 - i) (cpFlipH b) else none) a
    reflectLeft cw y fuel (n + 1 - min cw (n + 1)) (pos - min cw (n + 1)) a

/-- Row of `do_crop_ext_reflect` (transupp.c:519-566). -/
def extReflectRow (fuel : Nat) (p : Par) (src : Arr) (sy y : Nat) (dst : Arr) : Option Arr := do
  let cw := p.srcW / (p.maxH * 8) * p.hs
  let xc := p.xo * p.hs
  let dst ← copyBlockRow src sy 0 y xc cw dst
  let dst ← reflectLeft cw y fuel xc xc dst
  reflectRight cw y fuel (p.wb - xc - cw) (xc + cw) dst

/-- Which of the three extensions. -/
inductive Ext where
  | zero | flat | reflect
deriving DecidableEq

/-- The row of whichever routine is used. -/
def extRow (fuel : Nat) (e : Ext) (p : Par) (extW : Bool) (src : Arr) (sy y : Nat) (dst : Arr) : Option Arr :=
  match e with
  | .zero => extZeroRow p extW src sy y dst
  | .flat => extFlatRow p src sy y dst
  | .reflect => extReflectRow fuel p src sy y dst

/-- `do_crop_ext_zero`, `do_crop_ext_flat`, `do_crop_ext_reflect` (transupp.c:314-387, 389-467, 469-569), one component.
`extW`, `extH`: the destination is wider, higher than the source. -/
def doCropExt (fuel : Nat) (e : Ext) (p : Par) (extW extH : Bool) (src dst : Arr) : Option Arr :=
  let ch := p.srcH / (p.maxV * 8) * p.vs
  let yc := p.yo * p.vs
  forStep p.hb p.vs (fun y dst => do
    access dst y p.vs
    if extH ∧ (y < yc ∨ y ≥ yc + ch) then
      forStep p.vs 1 (fun oy dst => fill (y + oy) 0 p.wb zeroBlock dst) dst
    else do
      let s := if extH then y - yc else y + yc
      access src s p.vs
      forStep p.vs 1 (fun oy dst => extRow fuel e p extW src (s + oy) (y + oy) dst) dst) dst

/-- `do_wipe` (transupp.c:571-603), one component. -/
def doWipe (p : Par) (dropW dropH : Nat) (a : Arr) : Option Arr :=
  forStep (dropH * p.vs) p.vs (fun y a => do
    access a (p.yo * p.vs + y) p.vs
    forStep p.vs 1 (fun oy a => fill (p.yo * p.vs + y + oy) (p.xo * p.hs) (dropW * p.hs) zeroBlock a) a) a

/-- A row of `do_flatten` (transupp.c:633-649). The blocks beside the region are read after the region is zeroed; they are
outside it. -/
def flattenRow (p : Par) (dropW y : Nat) (a : Arr) : Option Arr := do
  let xw := p.xo * p.hs
  let wr_ := dropW * p.hs + xw
  let a ← fill y xw (dropW * p.hs) zeroBlock a
  if xw > 0 then do
    let l ← rd a y (xw - 1)
    if wr_ < p.wb then do
      let r ← rd a y wr_
      fill y xw (dropW * p.hs) (dcBlock ((l 0 0 + r 0 0) / 2)) a
    else fill y xw (dropW * p.hs) (dcBlock (l 0 0)) a
  else if wr_ < p.wb then do
    let r ← rd a y wr_
    fill y xw (dropW * p.hs) (dcBlock (r 0 0)) a
  else some a

/-- `do_flatten` (transupp.c:606-653), one component. -/
def doFlatten (p : Par) (dropW dropH : Nat) (a : Arr) : Option Arr :=
  forStep (dropH * p.vs) p.vs (fun y a => do
    access a (p.yo * p.vs + y) p.vs
    forStep p.vs 1 (fun oy a => flattenRow p dropW (p.yo * p.vs + y + oy) a) a) a

/-- A row of `do_reflect` (transupp.c:676-716). -/
def reflectRow (fuel : Nat) (p : Par) (dropW y : Nat) (a : Arr) : Option Arr :=
  let xw := p.xo * p.hs
  let ww := dropW * p.hs
  if xw > 0 then reflectRight xw y fuel ww xw a
  else if p.wb > xw + ww then reflectLeft (p.wb - xw - ww) y fuel ww (xw + ww) a
  else fill y xw ww zeroBlock a

/-- `do_reflect` (transupp.c:656-719), one component. -/
def doReflect (fuel : Nat) (p : Par) (dropW dropH : Nat) (a : Arr) : Option Arr :=
  forStep (dropH * p.vs) p.vs (fun y a => do
    access a y p.vs
    forStep p.vs 1 (fun oy a => reflectRow fuel p dropW (y + oy) a) a) a

/-- `do_drop` (transupp.c:230-275), one component; `drop` is the array of the drop image, if it has this component. -/
def doDrop (p : Par) (dropW dropH : Nat) (drop : Option Arr) (a : Arr) : Option Arr :=
  forStep (dropH * p.vs) p.vs (fun y a => do
    access a (p.yo * p.vs + y) p.vs
    match drop with
    | some d => do
      access d y p.vs
      forStep p.vs 1 (fun oy a => copyBlockRow d (y + oy) 0 (p.yo * p.vs + y + oy) (p.xo * p.hs) (dropW * p.hs) a) a
    | none => forStep p.vs 1 (fun oy a => fill (p.yo * p.vs + y + oy) (p.xo * p.hs) (dropW * p.hs) zeroBlock a) a) a

/-! ## Execution -/

/-- Sampling factors of a component of the output. -/
def factors (op : Op) (n : Nat) (c : Comp) : Nat × Nat :=
  match op with
  | .xf t => dstFactors t n c
  | _ => dstFactors .none n c

/-- Parameters for one component (`Transf.parOf`, with the crop offsets). -/
def parOf2 (op : Op) (img : Img) (g : Geo2) (c : Comp) : Par :=
  let f := factors op img.comps.length c
  let mh := maxOf (img.comps.map (fun c => (factors op img.comps.length c).1))
  let mv := maxOf (img.comps.map (fun c => (factors op img.comps.length c).2))
  { srcW := img.w, srcH := img.h, maxH := mh, maxV := mv, hs := f.1, vs := f.2,
    wb := divUp (g.outW * f.1) (mh * 8), hb := divUp (g.outH * f.2) (mv * 8), xo := g.xo, yo := g.yo }

/-- The workspace (transupp.c:1784-1812). -/
def workspace2 (g : Geo2) (f : Nat × Nat) (init : Nat → Nat → Block) : Arr :=
  { rows := divUp g.outH g.imcuH * f.2, cols := divUp g.outW g.imcuW * f.1, maxaccess := f.2, at_ := init }

/-- `jtransform_execute_transform` (transupp.c:2161-2253), one component. `wk` is `crop_width_set`, `slow` is `slow_hflip`,
`drop` the component of the drop image. -/
def execComp2 (fuel : Nat) (op : Op) (slow : Bool) (wk : Kind) (img : Img) (g : Geo2) (init : Nat → Nat → Block) (drop : Option Arr)
    (c : Comp) : Option Arr :=
  let p := parOf2 op img g c
  let ws := workspace2 g (factors op img.comps.length c) init
  match op with
  | .xf .none =>
    if g.outW > img.w ∨ g.outH > img.h then
      let e := if g.outW > img.w ∧ wk = .reflect then Ext.reflect else if g.outW > img.w ∧ wk = .force then .flat else .zero
      doCropExt fuel e p (decide (g.outW > img.w)) (decide (g.outH > img.h)) c.arr ws
    else if g.xo ≠ 0 ∨ g.yo ≠ 0 then doCrop p c.arr ws
    else some c.arr
  | .xf .flipH => if g.yo ≠ 0 ∨ slow then doFlipH p c.arr ws else doFlipHNoCrop p c.arr
  | .xf .flipV => doFlipV p c.arr ws
  | .xf .transpose => doTranspose p c.arr ws
  | .xf .transverse => doTransverse p c.arr ws
  | .xf .rot90 => doRot90 p c.arr ws
  | .xf .rot180 => doRot180 p c.arr ws
  | .xf .rot270 => doRot270 p c.arr ws
  | .wipe =>
    if wk = .reflect ∧ g.yo = 0 ∧ g.dropH = divUp g.outH g.imcuH ∧ (g.xo = 0 ∨ g.xo + g.dropW = divUp g.outW g.imcuW) then
      doReflect fuel p g.dropW g.dropH c.arr
    else if wk = .force then doFlatten p g.dropW g.dropH c.arr
    else doWipe p g.dropW g.dropH c.arr
  | .drop => if g.dropW ≠ 0 ∧ g.dropH ≠ 0 then doDrop p g.dropW g.dropH drop c.arr else some c.arr

/-- The comparison of sampling factors before a drop (transupp.c:1658-1680): for the components that both images have. -/
def dropFactorsOk (img drop : Img) : Bool :=
  (img.comps.zip drop.comps).all fun (c, d) =>
    decide (d.hs * maxH img.comps = c.hs * maxH drop.comps) && decide (d.vs * maxV img.comps = c.vs * maxV drop.comps)

end Verif.Crop
