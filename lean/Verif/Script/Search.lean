/-
Scan optimization (optimize_scans): the trial loop, select_scans and the copying of the chosen scans.

Code modelled: /repo/jcmaster.c:443-510 (select_scan_parameters, the optimize_scans part), :664-690
(output pass into a per-scan buffer), :773-965 (select_scans), :969-1035 (finish_pass_master, output
pass case), /repo/jcparam.c:734-852 (jpeg_search_progression, see Progression.lean).

Simplifications: a trial scan is abstracted to the number of bytes it takes, given by an arbitrary
function `size i Al` of the scan index and the Al value actually used; the copy of the i-th buffer to
the output is the index `i` appended to `out`; costs are natural numbers (unsigned long without
overflow); the optimization pass that precedes each output pass is represented by its pass number.
-/
import Verif.Script.Progression

namespace Verif.Script

/-- Parameters fixed during the search: colour (64 scans) or gray (23 scans), `dc_scan_opt_mode`,
passes per scan (2 with Huffman optimization, 1 without) and `pass_number_scan_opt_base`. -/
structure SearchCfg where
  color : Bool
  dcMode : Int
  pps : Nat
  base : Nat

/-- num_scans_luma (/repo/jcparam.c:778-780): 1 + (3*3+2) + (2*5+1). -/
def numScansLuma : Nat := 1 + (3 * 3 + 2) + (2 * 5 + 1)
/-- luma_freq_split_scan_start (/repo/jcmaster.c:779-780). -/
def lumaFS : Nat := 1 + 3 * 3 + 2
/-- Al_max_chroma (/repo/jcparam.c:814-820). -/
def SearchCfg.alMaxChroma (g : SearchCfg) : Nat := if g.color then 2 else 0
/-- num_scans_chroma_dc (/repo/jcparam.c:814-820). -/
def SearchCfg.chromaDc (g : SearchCfg) : Nat := if g.color then 3 else 0
/-- chroma_freq_split_scan_start (/repo/jcmaster.c:781-783). -/
def SearchCfg.chromaFS (g : SearchCfg) : Nat :=
  numScansLuma + g.chromaDc + (6 * g.alMaxChroma + 4)
/-- num_scans (/repo/jcparam.c:748-752). -/
def SearchCfg.numScans (g : SearchCfg) : Nat := if g.color then 64 else 23
/-- total_passes (/repo/jcmaster.c:1112-1135). -/
def SearchCfg.totalPasses (g : SearchCfg) : Nat := g.pps * g.numScans + g.base

/-- scan_info: the search script. -/
def SearchCfg.script (g : SearchCfg) : List Scan :=
  if g.color then searchLuma 3 g.dcMode ++ searchChroma else searchLuma 1 g.dcMode

/-- The fields of my_comp_master used by the search (/repo/jcmaster.h:33-44), with the list of scans
encoded so far and the list of buffers copied to the output. -/
structure SState where
  scan : Nat
  pass : Nat
  sizes : Nat → Nat
  actualAl : Nat → Int
  bestCost : Nat
  bestAlL : Nat
  bestAlC : Nat
  bestFL : Nat
  bestFC : Nat
  inter : Bool
  isLast : Bool
  encoded : List Nat
  out : List Nat

/-- Al used for scan `i` (/repo/jcmaster.c:482-494). -/
def SearchCfg.alFor (g : SearchCfg) (st : SState) (i : Nat) : Int :=
  if g.chromaFS ≤ i ∧ i < g.numScans then st.bestAlC
  else if lumaFS ≤ i ∧ i < numScansLuma then st.bestAlL
  else (g.script.getD i ⟨[], 0, 0, 0, 0⟩).Al

/-- Encoding the current scan into its own buffer (/repo/jcmaster.c:496, :671-690, :708). -/
def encodeScan (g : SearchCfg) (size : Nat → Int → Nat) (st : SState) : SState :=
  let al := g.alFor st st.scan
  { st with
    actualAl := fun i => if i = st.scan then al else st.actualAl i
    sizes := fun i => if i = st.scan then size st.scan al else st.sizes i
    isLast := st.pass == g.totalPasses - 1
    encoded := st.encoded ++ [st.scan] }

/-- Jump of the search to scan `k` (scan_number is incremented afterwards), with the matching pass
number (/repo/jcmaster.c:800-801, :826-827, :862-863, :890-891). -/
def jumpTo (g : SearchCfg) (k : Nat) (st : SState) : SState :=
  { st with scan := k, pass := g.pps * (k + 1) - 1 + g.base }

/-- Recomputing is_last_pass (/repo/jcmaster.c:828, :892). -/
def setLast (g : SearchCfg) (st : SState) : SState :=
  { st with isLast := st.pass == g.totalPasses - 1 }

/-- `for (i = 0; i < Al; i++) cost += scan_size[f i]`. -/
def sumTo (f : Nat → Nat) : Nat → Nat
  | 0 => 0
  | n + 1 => sumTo f n + f n

/-- Choice of the luma Al (/repo/jcmaster.c:786-803). -/
def lumaAlStep (g : SearchCfg) (next : Nat) (st : SState) : SState :=
  if (next - 1) % 3 = 2 then
    let al := (next - 1) / 3
    let cost := st.sizes (next - 2) + st.sizes (next - 1) + sumTo (fun i => st.sizes (3 + 3 * i)) al
    if al = 0 ∨ cost < st.bestCost then { st with bestCost := cost, bestAlL := al }
    else jumpTo g (lumaFS - 1) st
  else st

/-- Choice of the luma frequency split (/repo/jcmaster.c:805-831). -/
def lumaFsStep (g : SearchCfg) (next : Nat) (st : SState) : SState :=
  if next = lumaFS + 1 then { st with bestFL := 0, bestCost := st.sizes (next - 1) }
  else if (next - lumaFS) % 2 = 1 then
    let idx := (next - lumaFS) / 2
    let cost := st.sizes (next - 2) + st.sizes (next - 1)
    let st := if cost < st.bestCost then { st with bestCost := cost, bestFL := idx } else st
    if (idx = 2 ∧ st.bestFL = 0) ∨ (idx = 3 ∧ st.bestFL ≠ 2) ∨ (idx = 4 ∧ st.bestFL ≠ 4) then
      setLast g (jumpTo g (numScansLuma - 1) st)
    else st
  else st

/-- Choice of the chroma Al (/repo/jcmaster.c:840-865). -/
def chromaAlStep (g : SearchCfg) (next : Nat) (st : SState) : SState :=
  let b := numScansLuma + g.chromaDc
  if (next - b) % 6 = 4 then
    let al := (next - b) / 6
    let cost := st.sizes (next - 4) + st.sizes (next - 3) + st.sizes (next - 2) +
      st.sizes (next - 1) +
      sumTo (fun i => st.sizes (b + 4 + 6 * i) + st.sizes (b + 5 + 6 * i)) al
    if al = 0 ∨ cost < st.bestCost then { st with bestCost := cost, bestAlC := al }
    else jumpTo g (g.chromaFS - 1) st
  else st

/-- Choice of the chroma frequency split (/repo/jcmaster.c:867-895). -/
def chromaFsStep (g : SearchCfg) (next : Nat) (st : SState) : SState :=
  if next = g.chromaFS + 2 then
    { st with bestFC := 0, bestCost := st.sizes (next - 2) + st.sizes (next - 1) }
  else if (next - g.chromaFS) % 4 = 2 then
    let idx := (next - g.chromaFS) / 4
    let cost := st.sizes (next - 4) + st.sizes (next - 3) + st.sizes (next - 2) + st.sizes (next - 1)
    let st := if cost < st.bestCost then { st with bestCost := cost, bestFC := idx } else st
    if (idx = 2 ∧ st.bestFC = 0) ∨ (idx = 3 ∧ st.bestFC ≠ 2) ∨ (idx = 4 ∧ st.bestFC ≠ 4) then
      setLast g (jumpTo g (g.numScans - 1) st)
    else st
  else st

/-- The decision part of select_scans (/repo/jcmaster.c:786-896). -/
def decide1 (g : SearchCfg) (next : Nat) (st : SState) : SState :=
  if next > 1 ∧ next ≤ lumaFS then lumaAlStep g next st
  else if next > lumaFS ∧ next ≤ numScansLuma then lumaFsStep g next st
  else if g.numScans > numScansLuma then
    if next = numScansLuma + g.chromaDc then
      { st with inter := decide (st.sizes numScansLuma ≤
          st.sizes (numScansLuma + 1) + st.sizes (numScansLuma + 2)) }
    else if next > numScansLuma + g.chromaDc ∧ next ≤ g.chromaFS then chromaAlStep g next st
    else if next > g.chromaFS ∧ next ≤ g.numScans then chromaFsStep g next st
    else st
  else st

/-- `for (Al = hi-1; Al >= lo; Al--)` as the list of values of Al. -/
def downTo (hi lo : Nat) : List Nat := ((List.range hi).filter (fun i => decide (lo ≤ i))).reverse

/-- The order in which the kept buffers are copied (/repo/jcmaster.c:898-955). -/
def copyOrder (g : SearchCfg) (bestAlL bestAlC bestFL bestFC : Nat) (inter : Bool) : List Nat :=
  let minAl := min bestAlL bestAlC
  let multi := decide (g.numScans > numScansLuma)
  let b := if multi then numScansLuma + g.chromaDc else 0
  [0] ++
  (if multi ∧ g.dcMode ≠ 0 then
    (if inter ∧ g.dcMode ≠ 1 then [numScansLuma] else [numScansLuma + 1, numScansLuma + 2])
   else []) ++
  (if bestFL = 0 then [lumaFS]
   else [lumaFS + 2 * (bestFL - 1) + 1, lumaFS + 2 * (bestFL - 1) + 2]) ++
  (downTo bestAlL minAl).map (fun al => 3 + 3 * al) ++
  (if multi then
    (if bestFC = 0 then [g.chromaFS, g.chromaFS + 1]
     else [g.chromaFS + 4 * (bestFC - 1) + 2, g.chromaFS + 4 * (bestFC - 1) + 3,
       g.chromaFS + 4 * (bestFC - 1) + 4, g.chromaFS + 4 * (bestFC - 1) + 5]) ++
    (downTo bestAlC minAl).flatMap (fun al => [b + 6 * al + 4, b + 6 * al + 5])
   else []) ++
  (downTo minAl 0).flatMap (fun al =>
    [3 + 3 * al] ++ (if multi then [b + 6 * al + 4, b + 6 * al + 5] else []))

/-- The copying part of select_scans (/repo/jcmaster.c:898-961). -/
def copyOut (g : SearchCfg) (st : SState) : SState :=
  if st.scan = g.numScans - 1 then
    { st with out := st.out ++ copyOrder g st.bestAlL st.bestAlC st.bestFL st.bestFC st.inter }
  else st

/-- select_scans (/repo/jcmaster.c:773-965). -/
def selectScans (g : SearchCfg) (next : Nat) (st : SState) : SState :=
  copyOut g (decide1 g next st)

/-- `scan_number++`, `pass_number++` (/repo/jcmaster.c:1006, :1034); with two passes per scan the next
output pass is one pass further (the optimization pass of the next scan). -/
def incr (g : SearchCfg) (st : SState) : SState :=
  { st with scan := st.scan + 1, pass := st.pass + g.pps }

/-- One scan: encode it, select (/repo/jcmaster.c:996-1006), advance. -/
def searchStep (g : SearchCfg) (size : Nat → Int → Nat) (st : SState) : SState :=
  incr g (selectScans g (st.scan + 1) (encodeScan g size st))

/-- `while (!is_last_pass)` (/repo/jcapimin.c:190), with a step bound for the definition. -/
def searchRun (g : SearchCfg) (size : Nat → Int → Nat) : Nat → SState → SState
  | 0, st => st
  | fuel + 1, st => if st.isLast then st else searchRun g size fuel (searchStep g size st)

/-- State at the start: scan 0, output pass of scan 0; the other fields hold whatever an earlier image
left there. (jinit_c_master_control, /repo/jcmaster.c:1098-1146, resets best_Al_chroma.) -/
structure InitOK (g : SearchCfg) (st : SState) : Prop where
  scan : st.scan = 0
  pass : st.pass = g.pps - 1 + g.base
  isLast : st.isLast = false
  encoded : st.encoded = []
  out : st.out = []

end Verif.Script
