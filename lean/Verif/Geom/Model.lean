import Mathlib.Data.List.Basic
/-
Model of the image-geometry computations of encoder and decoder and of the walks over MCUs made by the coefficient
controllers: jcmaster.c:165-250 and 515-600, jdinput.c:46-245, jccoefct.c, jctrans.c, jdcoefct.c.
-/
namespace Verif.Geom

/-- `jdiv_round_up` (jutils.c:74-81) for nonnegative arguments. -/
def divRoundUp (a b : Nat) : Nat := (a + b - 1) / b

/-- `jround_up` (jutils.c:84-91). -/
def roundUp (a b : Nat) : Nat := let a := a + (b - 1); a - a % b

/-- The fatal errors of the setup code. -/
inductive GErr where
  | emptyImage | tooBig | widthOverflow | badPrecision | componentCount | badSampling | badMcuSize
deriving DecidableEq, Repr

/-- The fields of `jpeg_component_info` set by `initial_setup`. -/
structure CompGeo where
  h : Nat
  v : Nat
  widthInBlocks : Nat
  heightInBlocks : Nat
  downsampledWidth : Nat
  downsampledHeight : Nat
deriving DecidableEq, Repr, Inhabited

/-- The frame-level results of `initial_setup`. `unit` is `data_unit`: 8, or 1 in lossless mode. -/
structure Frame where
  width : Nat
  height : Nat
  unit : Nat
  maxH : Nat
  maxV : Nat
  totalRows : Nat
  comps : List CompGeo
deriving DecidableEq, Repr

/-- Compressor: the loop computing the maximum sampling factors and checking them (jcmaster.c:201-216). -/
def cFactors : List (Nat × Nat) → Nat × Nat → Except GErr (Nat × Nat)
  | [], m => .ok m
  | (h, v) :: r, m =>
    if h = 0 ∨ h > 4 ∨ v = 0 ∨ v > 4 then .error .badSampling
    else cFactors r (max m.1 h, max m.2 v)

/-- Compressor: dimensions of one component (jcmaster.c:229-245). -/
def cComp (w ht unit mh mv : Nat) (f : Nat × Nat) : CompGeo where
  h := f.1
  v := f.2
  widthInBlocks := divRoundUp (w * f.1) (mh * unit)
  heightInBlocks := divRoundUp (ht * f.2) (mv * unit)
  downsampledWidth := divRoundUp (w * f.1) mh
  downsampledHeight := divRoundUp (ht * f.2) mv

/-- `initial_setup` of the compressor (jcmaster.c:165-256). -/
def cInitialSetup (lossless : Bool) (w ht inputComponents prec : Nat) (fs : List (Nat × Nat)) : Except GErr Frame :=
  let unit := if lossless then 1 else 8
  if ht = 0 ∨ w = 0 ∨ fs.length = 0 ∨ inputComponents = 0 then .error .emptyImage
  else if ht > 65500 ∨ w > 65500 then .error .tooBig
  else if (w * inputComponents) % 2 ^ 32 ≠ w * inputComponents then .error .widthOverflow
  else if prec ≠ 8 ∧ prec ≠ 12 ∧ prec ≠ 16 then .error .badPrecision
  else if fs.length > 10 then .error .componentCount
  else match cFactors fs (1, 1) with
    | .error e => .error e
    | .ok (mh, mv) => .ok {
        width := w, height := ht, unit := unit, maxH := mh, maxV := mv,
        totalRows := divRoundUp ht (mv * unit), comps := fs.map (cComp w ht unit mh mv) }

/-- Decompressor: the factor loop (jdinput.c:72-86). -/
def dFactors : List (Nat × Nat) → Nat × Nat → Except GErr (Nat × Nat)
  | [], m => .ok m
  | (h, v) :: r, m =>
    if h = 0 ∨ h > 4 ∨ v = 0 ∨ v > 4 then .error .badSampling
    else dFactors r (max m.1 h, max m.2 v)

/-- Decompressor: dimensions of one component (jdinput.c:107-137). -/
def dComp (w ht unit mh mv : Nat) (f : Nat × Nat) : CompGeo where
  h := f.1
  v := f.2
  widthInBlocks := divRoundUp (w * f.1) (mh * unit)
  heightInBlocks := divRoundUp (ht * f.2) (mv * unit)
  downsampledWidth := divRoundUp (w * f.1) mh
  downsampledHeight := divRoundUp (ht * f.2) mv

/-- `initial_setup` of the decompressor (jdinput.c:46-147), with the empty-image check of get_sof
(jdmarker.c:274-276). -/
def dInitialSetup (lossless : Bool) (w ht prec : Nat) (fs : List (Nat × Nat)) : Except GErr Frame :=
  let unit := if lossless then 1 else 8
  if ht = 0 ∨ w = 0 ∨ fs.length = 0 then .error .emptyImage
  else if ht > 65500 ∨ w > 65500 then .error .tooBig
  else if prec ≠ 8 ∧ prec ≠ 12 ∧ prec ≠ 16 then .error .badPrecision
  else if fs.length > 10 then .error .componentCount
  else match dFactors fs (1, 1) with
    | .error e => .error e
    | .ok (mh, mv) => .ok {
        width := w, height := ht, unit := unit, maxH := mh, maxV := mv,
        totalRows := divRoundUp ht (mv * unit), comps := fs.map (dComp w ht unit mh mv) }

/-- The scan-dependent fields of a component. `ci` is `component_index`. -/
structure ScanComp where
  ci : Nat
  mcuWidth : Nat
  mcuHeight : Nat
  lastColWidth : Nat
  lastRowHeight : Nat
deriving DecidableEq, Repr

/-- The scan-level results of `per_scan_setup`. -/
structure Scan where
  mcusPerRow : Nat
  mcuRows : Nat
  comps : List ScanComp
  membership : List Nat
deriving DecidableEq, Repr

/-- `tmp = a % b; if (tmp == 0) tmp = b;` -/
def lastPart (a b : Nat) : Nat := if a % b = 0 then b else a % b

/-- Compressor: the component loop for interleaved scans (jcmaster.c:561-583). `k` is the loop variable `ci`. -/
def cScanLoop (f : Frame) : List Nat → Nat → List ScanComp → List Nat → Except GErr (List ScanComp × List Nat)
  | [], _, cs, mem => .ok (cs, mem)
  | i :: is, k, cs, mem =>
    let g := f.comps.getD i default
    let sc := ScanComp.mk i g.h g.v (lastPart g.widthInBlocks g.h) (lastPart g.heightInBlocks g.v)
    if mem.length + g.h * g.v > 10 then .error .badMcuSize
    else cScanLoop f is (k + 1) (cs ++ [sc]) (mem ++ List.replicate (g.h * g.v) k)

/-- `per_scan_setup` of the compressor (jcmaster.c:515-588); `idx` are the component indices in `cur_comp_info`. -/
def cPerScan (f : Frame) (idx : List Nat) : Except GErr Scan :=
  if idx.length = 1 then
    let i := idx.getD 0 0
    let g := f.comps.getD i default
    .ok { mcusPerRow := g.widthInBlocks, mcuRows := g.heightInBlocks,
          comps := [{ ci := i, mcuWidth := 1, mcuHeight := 1, lastColWidth := 1,
                      lastRowHeight := lastPart g.heightInBlocks g.v }],
          membership := [0] }
  else if idx.length = 0 ∨ idx.length > 4 then .error .componentCount
  else match cScanLoop f idx 0 [] [] with
    | .error e => .error e
    | .ok (cs, mem) => .ok { mcusPerRow := divRoundUp f.width (f.maxH * f.unit),
                             mcuRows := divRoundUp f.height (f.maxV * f.unit), comps := cs, membership := mem }

/-- Decompressor: the component loop for interleaved scans (jdinput.c:201-224). -/
def dScanLoop (f : Frame) : List Nat → Nat → List ScanComp → List Nat → Except GErr (List ScanComp × List Nat)
  | [], _, cs, mem => .ok (cs, mem)
  | i :: is, k, cs, mem =>
    let g := f.comps.getD i default
    let sc := ScanComp.mk i g.h g.v (lastPart g.widthInBlocks g.h) (lastPart g.heightInBlocks g.v)
    if mem.length + g.h * g.v > 10 then .error .badMcuSize
    else dScanLoop f is (k + 1) (cs ++ [sc]) (mem ++ List.replicate (g.h * g.v) k)

/-- `per_scan_setup` of the decompressor (jdinput.c:150-226). -/
def dPerScan (f : Frame) (idx : List Nat) : Except GErr Scan :=
  if idx.length = 1 then
    let i := idx.getD 0 0
    let g := f.comps.getD i default
    .ok { mcusPerRow := g.widthInBlocks, mcuRows := g.heightInBlocks,
          comps := [{ ci := i, mcuWidth := 1, mcuHeight := 1, lastColWidth := 1,
                      lastRowHeight := lastPart g.heightInBlocks g.v }],
          membership := [0] }
  else if idx.length = 0 ∨ idx.length > 4 then .error .componentCount
  else match dScanLoop f idx 0 [] [] with
    | .error e => .error e
    | .ok (cs, mem) => .ok { mcusPerRow := divRoundUp f.width (f.maxH * f.unit),
                             mcuRows := divRoundUp f.height (f.maxV * f.unit), comps := cs, membership := mem }

/-! ## Walks

A position is (component index, block row, block column) in that component's full-image array. Suspension inside a
row (saving and restoring MCU_ctr and MCU_vert_offset) is not modelled here. -/

abbrev Pos := Nat × Nat × Nat

/-- `start_iMCU_row` (jctrans.c:255-273, jccoefct.c:81-99, jdcoefct.h `start_iMCU_row`): MCU rows in iMCU row `i`. -/
def rowsPerIMCU (f : Frame) (s : Scan) (i : Nat) : Nat :=
  if s.comps.length > 1 then 1
  else if i < f.totalRows - 1 then (f.comps.getD (s.comps.map (·.ci)).head! default).v
  else (s.comps.map (·.lastRowHeight)).head!

/-- The walk common to all controllers: iMCU rows, MCU rows within them, MCUs within a row. -/
def walk {α : Type} (f : Frame) (s : Scan) (mcu : (i yoff m : Nat) → α) : List α :=
  (List.range f.totalRows).flatMap fun i => (List.range (rowsPerIMCU f s i)).flatMap fun yoff =>
    (List.range s.mcusPerRow).map fun m => mcu i yoff m

/-- What an entry of `MCU_buffer` is: a block of the image, or a made-up block. -/
inductive Slot where
  | real (p : Pos)
  | dummy
deriving DecidableEq, Repr

/-- The MCU built by `compress_output` of the transcoder (jctrans.c:331-361). -/
def cMcu (f : Frame) (s : Scan) (i yoff m : Nat) : List Slot :=
  s.comps.flatMap fun c =>
    let blockcnt := if m < s.mcusPerRow - 1 then c.mcuWidth else c.lastColWidth
    (List.range c.mcuHeight).flatMap fun y =>
      if i < f.totalRows - 1 ∨ y + yoff < c.lastRowHeight then
        (List.range blockcnt).map (fun x =>
          Slot.real (c.ci, i * (f.comps.getD c.ci default).v + (y + yoff), m * c.mcuWidth + x)) ++
        List.replicate (c.mcuWidth - blockcnt) Slot.dummy
      else List.replicate c.mcuWidth Slot.dummy

/-- The block positions that `consume_data` of the decompressor hands to the entropy decoder
(jdcoefct.c:221-233). -/
def dMcu (f : Frame) (s : Scan) (i yoff m : Nat) : List Pos :=
  s.comps.flatMap fun c => (List.range c.mcuHeight).flatMap fun y => (List.range c.mcuWidth).map fun x =>
    (c.ci, i * (f.comps.getD c.ci default).v + (y + yoff), m * c.mcuWidth + x)

/-- The blocks on which `decompress_onepass` runs the inverse DCT (jdcoefct.c:118-151), all columns and components
wanted: for each entry of `MCU_buffer` used, its index and the output position in units of blocks. The output
pointer is `yoffset * DCT_scaled_size` rows into the buffer of iMCU row `i`, then one block row per `yindex`. -/
def dOnepassMcu (f : Frame) (s : Scan) (i yoff m : Nat) : List (Nat × Pos) :=
  (s.comps.foldl (fun (acc : List (Nat × Pos) × Nat) c =>
    let useful := if m < s.mcusPerRow - 1 then c.mcuWidth else c.lastColWidth
    (List.range c.mcuHeight).foldl (fun (acc : List (Nat × Pos) × Nat) y =>
      (if i < f.totalRows - 1 ∨ yoff + y < c.lastRowHeight then
        acc.1 ++ (List.range useful).map (fun x =>
          (acc.2 + x, (c.ci, i * (f.comps.getD c.ci default).v + yoff + y, m * c.mcuWidth + x)))
       else acc.1, acc.2 + c.mcuWidth)) acc) ([], 0)).1

/-! ## Block contents -/

/-- A block is its 64 coefficients; entry 0 is the DC. -/
abbrev Blk := List Int

def dcOf (b : Blk) : Int := b.getD 0 0

/-- An all-zero block with a given DC value. -/
def dummyBlk (d : Int) : Blk := d :: List.replicate 63 0

/-- Filling the MCU buffer in order: a dummy block gets the DC of the block before it (jctrans.c:355-359);
`prev` is the DC of `MCU_buffer[blkn - 1]`. `none` would be reading `MCU_buffer[-1]`. -/
def fill (img : Pos → Blk) : (prev : Option Int) → List Slot → Option (List Blk)
  | _, [] => some []
  | _, .real p :: r => (fill img (some (dcOf (img p))) r).map (img p :: ·)
  | none, .dummy :: _ => none
  | some d, .dummy :: r => (fill img (some d) r).map (dummyBlk d :: ·)

/-- The MCUs of a scan written by jpeg_write_coefficients (jctrans.c:304-376). -/
def transcodeMcus (f : Frame) (s : Scan) (img : Pos → Blk) : Option (List (List Blk)) :=
  (walk f s (cMcu f s)).mapM (fill img none)

/-- One component's part of an MCU in the single-pass `compress_data` (jccoefct.c:182-215). `img` gives the quantized
DCT of the samples at (ypos, xpos), in blocks. `prev` is the part of `MCU_buffer` already filled. -/
def onepassComp (f : Frame) (s : Scan) (img : Pos → Blk) (i yoff m : Nat) (c : ScanComp) (buf : List Blk) :
    Option (List Blk) :=
  let blockcnt := if m < s.mcusPerRow - 1 then c.mcuWidth else c.lastColWidth
  (List.range c.mcuHeight).foldlM (fun buf y =>
    if i < f.totalRows - 1 ∨ yoff + y < c.lastRowHeight then
      let real := (List.range blockcnt).map (fun x =>
        img (c.ci, i * (f.comps.getD c.ci default).v + (yoff + y), m * c.mcuWidth + x))
      (List.range (c.mcuWidth - blockcnt)).foldlM (fun (b : List Blk) _ =>
        match b.getLast? with
        | none => none
        | some l => some (b ++ [dummyBlk (dcOf l)])) (buf ++ real)
    else if c.mcuWidth = 0 then some buf
    else match buf.getLast? with
      | none => none
      | some l => some (buf ++ List.replicate c.mcuWidth (dummyBlk (dcOf l)))) buf

/-- The MCUs of the single scan of `compress_data` (jccoefct.c:156-243). -/
def onepassMcus (f : Frame) (s : Scan) (img : Pos → Blk) : Option (List (List Blk)) :=
  (walk f s (fun i yoff m => s.comps.foldlM (fun buf c => onepassComp f s img i yoff m c buf) [])).mapM id

/-- One iMCU row `i` of one component in `compress_first_pass` (jccoefct.c:271-343): the rows of the virtual array
after the pass. Right-edge dummies copy the DC of the last real block; each dummy row copies, MCU by MCU, the DC of
the last block of the MCU in the row above. -/
def firstPassRow (g : CompGeo) (b : Nat → Blk) : List Blk :=
  let nd := if g.widthInBlocks % g.h > 0 then g.h - g.widthInBlocks % g.h else 0
  (List.range g.widthInBlocks).map b ++ List.replicate nd (dummyBlk (dcOf (b (g.widthInBlocks - 1))))

def firstPassDummy (g : CompGeo) (prev : List Blk) : List Blk :=
  let nd := if g.widthInBlocks % g.h > 0 then g.h - g.widthInBlocks % g.h else 0
  let mcusAcross := (g.widthInBlocks + nd) / g.h
  (List.range mcusAcross).flatMap fun m =>
    List.replicate g.h (dummyBlk (dcOf (prev.getD (m * g.h + (g.h - 1)) [])))

def firstPassRows (f : Frame) (g : CompGeo) (img : Nat → Nat → Blk) (i : Nat) : List (List Blk) :=
  let blockRows := if i < f.totalRows - 1 then g.v else lastPart g.heightInBlocks g.v
  let real := (List.range blockRows).map (fun y => firstPassRow g (img (i * g.v + y)))
  if i = f.totalRows - 1 then
    (List.range (g.v - blockRows)).foldl (fun rows _ => rows ++ [firstPassDummy g (rows.getLastD [])]) real
  else real

/-- The MCU taken from the virtual arrays by `compress_output` (jccoefct.c:526-538). -/
def twopassMcu (f : Frame) (s : Scan) (img : Pos → Blk) (i yoff m : Nat) : List Blk :=
  s.comps.flatMap fun c =>
    let rows := firstPassRows f (f.comps.getD c.ci default) (fun r x => img (c.ci, r, x)) i
    (List.range c.mcuHeight).flatMap fun y => (List.range c.mcuWidth).map fun x =>
      (rows.getD (y + yoff) []).getD (m * c.mcuWidth + x) []

/-- The MCUs of a scan written from full-image buffers (optimize_coding, multi-scan, progressive). -/
def twopassMcus (f : Frame) (s : Scan) (img : Pos → Blk) : List (List Blk) := walk f s (twopassMcu f s img)

/-- Storing a decoded MCU through the pointers set up by `consume_data`. -/
def storeMcu (a : Pos → Blk) (ps : List Pos) (bs : List Blk) : Pos → Blk :=
  (ps.zip bs).foldl (fun a pb => fun q => if q = pb.1 then pb.2 else a q) a

/-- The coefficient arrays after all the MCUs of a scan; they start zeroed. -/
def consumeMcus (f : Frame) (s : Scan) (mcus : List (List Blk)) : Pos → Blk :=
  ((walk f s (dMcu f s)).zip mcus).foldl (fun a pm => storeMcu a pm.1 pm.2) (fun _ => List.replicate 64 0)

end Verif.Geom
