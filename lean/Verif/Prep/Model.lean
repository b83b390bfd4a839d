import Mathlib.Tactic.Ring
/-
The path of scanlines from jpeg_write_scanlines to the coefficient controller: jcapistd.c (jpeg_write_scanlines), jcmainct.c (process_data_simple_main) and jcprepct.c (pre_process_data, pre_process_context), for one
component (the components only share the counters).  Rows are abstract: `R` is a row of colour-converted pixels (color conversion of row i of the image is `img i`), `S` a row of downsampled samples; downsampling is an
arbitrary function from the list of rows it may read to its `v` output rows.  A store to or a read from a row that is not in the row pointer array makes the result `none`.
-/
namespace Verif.Prep

/-- Parameters of a compression: image height, max_v_samp_factor, the component's v_samp_factor, rows per data unit (8, or 1 in lossless mode), whether the downsampler needs context rows, and the downsampler. -/
structure Cfg (R S : Type) where
  height : Nat
  maxV : Nat
  v : Nat
  unit : Nat
  context : Bool
  down : List R → List S

variable {R S : Type}

/-- total_iMCU_rows (jcmaster.c:257-259). -/
def Cfg.total (k : Cfg R S) : Nat := (k.height + k.maxV * k.unit - 1) / (k.maxV * k.unit)

/-- The row pointers of the conversion buffer, as offsets in the allocated rows: plain (jcprepct.c:358-366), or with the wraparound pointers of create_context_buffer (jcprepct.c:310-323); color_buf[ci] points
`maxV` entries into the array then. -/
def Cfg.pointers (k : Cfg R S) : List Nat :=
  if k.context then (List.range k.maxV).map (fun i => 2 * k.maxV + i) ++ List.range (3 * k.maxV) ++ List.range k.maxV
  else List.range k.maxV

/-- color_buf[ci][i]. -/
def Cfg.ptr (k : Cfg R S) (i : Int) : Option Nat :=
  let j := if k.context then i + k.maxV else i
  if j < 0 then none else k.pointers[j.toNat]?

/-- The controllers' state: prep (jcprepct.c:60-77), main (jcmainct.c:26-41), next_scanline; `buf` holds the allocated conversion rows, `out` the component's rows of the main buffer. `trace` records the calls of
compress_data: iMCU row, the rows passed, result. -/
structure St (R S : Type) where
  rowsToGo : Nat
  nextBufRow : Nat
  thisRowGroup : Nat
  nextBufStop : Nat
  buf : Nat → R
  out : Nat → S
  rg : Nat
  cur : Nat
  suspended : Bool
  nextScanline : Nat
  trace : List (Nat × List S × Bool)

/-- start_pass_prep and start_pass_main (jcprepct.c:85-106, jcmainct.c:57-74); buffer contents are arbitrary. -/
def Cfg.start (k : Cfg R S) (buf0 : Nat → R) (out0 : Nat → S) : St R S :=
  { rowsToGo := k.height, nextBufRow := 0, thisRowGroup := 0, nextBufStop := 2 * k.maxV, buf := buf0, out := out0, rg := 0, cur := 0, suspended := false, nextScanline := 0, trace := [] }

/-- Function update. -/
def upd {A : Type} (f : Nat → A) (i : Nat) (a : A) : Nat → A := fun j => if j = i then a else f j

/-- Color conversion of `n` rows: input rows from index `i` on are stored in color_buf from index `row` on (jcprepct.c:152-155, 214-217). -/
def Cfg.convert (k : Cfg R S) (input : List R) : (n i : Nat) → (row : Int) → (Nat → R) → Option (Nat → R)
  | 0, _, _, buf => some buf
  | n + 1, i, row, buf => do
    let r ← input[i]?
    let p ← k.ptr row
    k.convert input n (i + 1) (row + 1) (upd buf p r)

/-- Copying row `src` of color_buf to row `dst` (jcopy_sample_rows with one row). -/
def Cfg.copyRow (k : Cfg R S) (src dst : Int) (buf : Nat → R) : Option (Nat → R) := do
  let p ← k.ptr src
  let q ← k.ptr dst
  pure (upd buf q (buf p))

/-- expand_bottom_edge on color_buf (jcprepct.c:114-125): `n` rows from index `row` on become copies of row `last`. -/
def Cfg.expandBuf (k : Cfg R S) (last : Int) : (n : Nat) → (row : Int) → (Nat → R) → Option (Nat → R)
  | 0, _, buf => some buf
  | n + 1, row, buf => do
    let buf ← k.copyRow last row buf
    k.expandBuf last n (row + 1) buf

/-- The rows of the conversion buffer the downsampler may read, from index `row` on. -/
def Cfg.readRows (k : Cfg R S) (buf : Nat → R) : (n : Nat) → (row : Int) → Option (List R)
  | 0, _ => some []
  | n + 1, row => do
    let p ← k.ptr row
    let rest ← k.readRows buf n (row + 1)
    pure (buf p :: rest)

/-- Storing rows in the main buffer, which has `unit * v` rows (jcmainct.c:148-152). -/
def Cfg.storeOut (k : Cfg R S) : List S → Nat → (Nat → S) → Option (Nat → S)
  | [], _, out => some out
  | s :: l, i, out => if i < k.unit * k.v then k.storeOut l (i + 1) (upd out i s) else none

/-- sep_downsample for the component (jcsample.c:124-139): the input row group starts at row index `first` of color_buf (with one row above and below if context rows are needed), the output at row group `rg`. -/
def Cfg.downsample (k : Cfg R S) (first : Nat) (s : St R S) : Option (St R S) := do
  let rows ← if k.context then k.readRows s.buf (k.maxV + 2) (first - 1) else k.readRows s.buf k.maxV first
  let out ← k.storeOut (k.down rows) (s.rg * k.v) s.out
  pure { s with out }

/-- expand_bottom_edge on the main buffer (jcprepct.c:114-125, 187-192): `n` rows from index `i` on become copies of row `last`. -/
def Cfg.expandOut (k : Cfg R S) (last : Nat) : (n i : Nat) → (Nat → S) → Option (Nat → S)
  | 0, _, out => some out
  | n + 1, i, out => if last < k.unit * k.v ∧ i < k.unit * k.v then k.expandOut last n (i + 1) (upd out i (out last)) else none

/-- Color conversion step of pre_process_data (jcprepct.c:149-158); the new in_row_ctr and state. -/
def Cfg.loadSimple (k : Cfg R S) (input : List R) (avail i : Nat) (s : St R S) : Option (Nat × St R S) := do
  let numrows := min (k.maxV - s.nextBufRow) (avail - i)
  let buf ← k.convert input numrows i s.nextBufRow s.buf
  pure (i + numrows, { s with buf, nextBufRow := s.nextBufRow + numrows, rowsToGo := s.rowsToGo - numrows })

/-- Padding the conversion buffer at the bottom of the image (jcprepct.c:159-167). -/
def Cfg.padSimple (k : Cfg R S) (s : St R S) : Option (St R S) :=
  if s.rowsToGo = 0 ∧ s.nextBufRow < k.maxV then do
    let buf ← k.expandBuf ((s.nextBufRow : Int) - 1) (k.maxV - s.nextBufRow) s.nextBufRow s.buf
    pure { s with buf, nextBufRow := k.maxV }
  else pure s

/-- Emptying a full conversion buffer (jcprepct.c:168-175). -/
def Cfg.emitSimple (k : Cfg R S) (s : St R S) : Option (St R S) :=
  if s.nextBufRow = k.maxV then do
    let s ← k.downsample 0 s
    pure { s with nextBufRow := 0, rg := s.rg + 1 }
  else pure s

/-- pre_process_data (jcprepct.c:138-198); `i` = *in_row_ctr, `avail` = in_rows_avail; the first argument bounds the iterations (each consumes input). -/
def Cfg.preSimple (k : Cfg R S) (input : List R) (avail : Nat) : Nat → Nat → St R S → Option (Nat × St R S)
  | 0, i, s => if i < avail ∧ s.rg < k.unit then none else some (i, s)
  | fuel + 1, i, s =>
    if i < avail ∧ s.rg < k.unit then do
      let (i, s) ← k.loadSimple input avail i s
      let s ← k.padSimple s
      let s ← k.emitSimple s
      if s.rowsToGo = 0 ∧ s.rg < k.unit then do
        let out ← k.expandOut (s.rg * k.v - 1) (k.unit * k.v - s.rg * k.v) (s.rg * k.v) s.out
        pure (i, { s with out, rg := k.unit })
      else k.preSimple input avail fuel i s
    else some (i, s)

/-- Padding above the first row (jcprepct.c:219-227): row 0 is copied to rows -1 .. -maxV. -/
def Cfg.padTop (k : Cfg R S) : (n row : Nat) → (Nat → R) → Option (Nat → R)
  | 0, _, buf => some buf
  | n + 1, row, buf => do
    let buf ← k.copyRow 0 (-(row : Int)) buf
    k.padTop n (row + 1) buf

/-- Color conversion step of pre_process_context (jcprepct.c:211-231). -/
def Cfg.loadContext (k : Cfg R S) (input : List R) (avail i : Nat) (s : St R S) : Option (Nat × St R S) := do
  let numrows := min (s.nextBufStop - s.nextBufRow) (avail - i)
  let buf ← k.convert input numrows i s.nextBufRow s.buf
  let buf ← if s.rowsToGo = k.height then k.padTop k.maxV 1 buf else pure buf
  pure (i + numrows, { s with buf, nextBufRow := s.nextBufRow + numrows, rowsToGo := s.rowsToGo - numrows })

/-- Padding the conversion buffer at the bottom of the image (jcprepct.c:236-244). -/
def Cfg.padContext (k : Cfg R S) (s : St R S) : Option (St R S) :=
  if s.nextBufRow < s.nextBufStop then do
    let buf ← k.expandBuf ((s.nextBufRow : Int) - 1) (s.nextBufStop - s.nextBufRow) s.nextBufRow s.buf
    pure { s with buf, nextBufRow := s.nextBufStop }
  else pure s

/-- Downsampling a row group when enough rows are there (jcprepct.c:247-260). -/
def Cfg.emitContext (k : Cfg R S) (s : St R S) : Option (St R S) :=
  if s.nextBufRow = s.nextBufStop then do
    let s ← k.downsample s.thisRowGroup s
    let thisRowGroup := if s.thisRowGroup + k.maxV ≥ 3 * k.maxV then 0 else s.thisRowGroup + k.maxV
    let nextBufRow := if s.nextBufRow ≥ 3 * k.maxV then 0 else s.nextBufRow
    pure { s with rg := s.rg + 1, thisRowGroup, nextBufRow, nextBufStop := nextBufRow + k.maxV }
  else pure s

/-- pre_process_context (jcprepct.c:207-267); the first argument bounds the iterations (each consumes input or completes a row group). -/
def Cfg.preContext (k : Cfg R S) (input : List R) (avail : Nat) : Nat → Nat → St R S → Option (Nat × St R S)
  | 0, i, s => if s.rg < k.unit then none else some (i, s)
  | fuel + 1, i, s =>
    if s.rg < k.unit then
      if i < avail then do
        let (i, s) ← k.loadContext input avail i s
        let s ← k.emitContext s
        k.preContext input avail fuel i s
      else if s.rowsToGo ≠ 0 then some (i, s)
      else do
        let s ← k.padContext s
        let s ← k.emitContext s
        k.preContext input avail fuel i s
    else some (i, s)

/-- The method chosen by jinit_c_prep_controller (jcprepct.c:345-366); the iteration bounds exceed what either loop can use. -/
def Cfg.preprocess (k : Cfg R S) (input : List R) (avail i : Nat) (s : St R S) : Option (Nat × St R S) :=
  if k.context then k.preContext input avail (avail + k.unit) i s else k.preSimple input avail avail i s

/-- Filling the main buffer if it is not full (jcmainct.c:91-95). -/
def Cfg.fill (k : Cfg R S) (input : List R) (avail i : Nat) (s : St R S) : Option (Nat × St R S) :=
  if s.rg < k.unit then k.preprocess input avail i s else some (i, s)

/-- process_data_simple_main (jcmainct.c:82-128).  `ok` gives the results of the successive compress_data calls; in_row_ctr is a 32-bit unsigned number.  The first argument bounds the iterations. -/
def Cfg.process (k : Cfg R S) (input : List R) (avail : Nat) : Nat → Nat → (Nat → Bool) → St R S → Option (Nat × St R S)
  | 0, i, _, s => if s.cur < k.total then none else some (i, s)
  | fuel + 1, i, ok, s =>
    if s.cur < k.total then do
      let (i, s) ← k.fill input avail i s
      if s.rg ≠ k.unit then some (i, s)
      else
        let data := (List.range (k.unit * k.v)).map s.out
        let s := { s with trace := s.trace ++ [(s.cur, data, ok 0)] }
        if ok 0 = false then
          if s.suspended = false then some ((i + (2 ^ 32 - 1)) % 2 ^ 32, { s with suspended := true })
          else some (i, s)
        else
          let i := if s.suspended then (i + 1) % 2 ^ 32 else i
          k.process input avail fuel i (fun n => ok (n + 1)) { s with suspended := false, rg := 0, cur := s.cur + 1 }
    else some (i, s)

/-- jpeg_write_scanlines (jcapistd.c:90-134), after the state checks; returns the number of scanlines accepted.  `img` gives the rows of the image: the application passes the rows from next_scanline on. -/
def Cfg.writeScanlines (k : Cfg R S) (img : Nat → R) (numLines : Nat) (ok : Nat → Bool) (s : St R S) : Option (Nat × St R S) := do
  let n := min numLines (k.height - s.nextScanline)
  let input := (List.range n).map (fun j => img (s.nextScanline + j))
  let (r, s) ← k.process input n (k.total + 1) 0 ok s
  pure (r, { s with nextScanline := (s.nextScanline + r) % 2 ^ 32 })

/-- A whole history of calls: number of lines offered, and the behaviour of the coefficient controller during the call. -/
def Cfg.history (k : Cfg R S) (img : Nat → R) : List (Nat × (Nat → Bool)) → St R S → Option (St R S)
  | [], s => some s
  | (n, ok) :: l, s => do
    let (_, s) ← k.writeScanlines img n ok s
    k.history img l s

end Verif.Prep
