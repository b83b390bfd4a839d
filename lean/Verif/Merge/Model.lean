import Verif.Post.Lemmas
import Verif.Merge.Row
/-
The output path with merged upsampling: control routines of jdmerge.c, main controller without context rows (jdmainct.c), jpeg_read_scanlines and jpeg_skip_scanlines (jdapistd.c); 8-bit or 12-bit samples, no colour quantization.  Input rows
(`R`) and output rows (`P`) are abstract; `src c r` is row r of component c as the coefficient controller delivers it (rows past the real ones are whatever is decoded there).  A write to an output row the caller did not provide, a read of a row that
does not exist, an unsigned subtraction below zero and a request for an iMCU row that does not exist are `none`.
-/
namespace Verif.Merge
open Verif.Post (divUp)

/-- Parameters: image_height, max_v_samp_factor (1 or 2), min_DCT_scaled_size, DCTSIZE, and upsampling and conversion of one row: `conv t y cb cr old` is what is written for scanline `t` over the old contents of the output row. -/
structure Cfg (R P : Type) where
  ih : Nat
  v : Nat
  M : Nat
  D : Nat
  conv : Nat → R → R → R → P → Option P

variable {R P : Type}

/-- output_height (jdmaster.c:107-236). -/
def Cfg.H (k : Cfg R P) : Nat := divUp (k.ih * k.M) k.D
/-- total_iMCU_rows (jdinput.c:143-145). -/
def Cfg.total (k : Cfg R P) : Nat := divUp k.ih (k.v * k.D)
/-- v_samp_factor of the components: 1 for the chroma components (jdmaster.c:64-71). -/
def Cfg.vs (k : Cfg R P) (c : Nat) : Nat := if c = 0 then k.v else 1

/-- State: main controller's buffer and counters (jdmainct.h:22-43), merged upsampler (jdmerge.h:21-45), output_scanline, the next iMCU row of the coefficient controller, and the lines the application got so far. -/
structure St (R P : Type) where
  buf : Nat → Nat → R
  bufferFull : Bool
  ctr : Nat
  spare : P
  spareFull : Bool
  rowsToGo : Nat
  outScan : Nat
  inRow : Nat
  out : List P

/-- Where an output row pointer points: the spare row, or row i of the application's array. -/
inductive Loc where
  | spare
  | app (i : Nat)
deriving DecidableEq

/-- Rows in memory: upsampler state and the rows of the application's array. -/
def getLoc (s : St R P) (app : Nat → P) : Loc → P
  | .spare => s.spare
  | .app i => app i

def setLoc (s : St R P) (app : Nat → P) (l : Loc) (p : P) : St R P × (Nat → P) :=
  match l with
  | .spare => ({ s with spare := p }, app)
  | .app i => (s, fun j => if j = i then p else app j)

/-- Row i of component c in the main controller's buffer, which has v_samp_factor * min_DCT_scaled_size rows (jdmainct.c:466-474). -/
def Cfg.row (k : Cfg R P) (s : St R P) (c i : Nat) : Option R := if i < k.vs c * k.M then some (s.buf c i) else none

/-- Upsampling and converting one row into output row `l`. -/
def Cfg.put (k : Cfg R P) (t : Nat) (y cb cr : R) (l : Loc) (x : St R P × (Nat → P)) : Option (St R P × (Nat → P)) := do
  let p ← k.conv t y cb cr (getLoc x.1 x.2 l)
  pure (setLoc x.1 x.2 l p)

/-- upmethod for 2:1 vertical sampling: which rows are read, and for which scanline numbers (jdmrgext.c:110-115, jdmrg565.c:183-188, 276-288).  The two output rows are written in step, first the one, then the other for each pair of columns: if they are the
same row, what remains is the second. -/
def Cfg.up2 (k : Cfg R P) (ctr : Nat) (w0 w1 : Loc) (x : St R P × (Nat → P)) : Option (St R P × (Nat → P)) := do
  let y0 ← k.row x.1 0 (ctr * 2)
  let y1 ← k.row x.1 0 (ctr * 2 + 1)
  let cb ← k.row x.1 1 ctr
  let cr ← k.row x.1 2 ctr
  let x' ← k.put x.1.outScan y0 cb cr w0 x
  k.put (x.1.outScan + 1) y1 cb cr w1 x'

/-- merged_2v_upsample (jdmerge.c:220-270): `outbuf` = output_buf, `max` = out_rows_avail, with *out_row_ctr = 0 (jdmainct.c:327-330, jdapistd.c:345-348); returns the new row group counter and the number of rows. -/
def Cfg.merged2 (k : Cfg R P) (outbuf : List Loc) (ctr max : Nat) (x : St R P × (Nat → P)) : Option (Nat × Nat × St R P × (Nat → P)) :=
  if x.1.spareFull then do
    let l ← outbuf[0]?
    let x := setLoc x.1 x.2 l x.1.spare
    if 1 ≤ x.1.rowsToGo then
      pure (ctr + 1, 1, { x.1 with spareFull := false, rowsToGo := x.1.rowsToGo - 1 }, x.2)
    else none
  else do
    let num := min (min 2 x.1.rowsToGo) max
    let w0 ← outbuf[0]?
    let w1 ← if num > 1 then outbuf[1]? else some Loc.spare
    let y ← k.up2 ctr w0 w1 x
    let full := decide (¬ num > 1)
    pure (if full then ctr else ctr + 1, num, { y.1 with spareFull := full, rowsToGo := y.1.rowsToGo - num }, y.2)

/-- merged_1v_upsample with h2v1_merged_upsample (jdmerge.c:273-289, jdmrgext.c:43-46); out_rows_avail is not looked at. -/
def Cfg.merged1 (k : Cfg R P) (outbuf : List Loc) (ctr : Nat) (x : St R P × (Nat → P)) : Option (Nat × Nat × St R P × (Nat → P)) := do
  let y ← k.row x.1 0 ctr
  let cb ← k.row x.1 1 ctr
  let cr ← k.row x.1 2 ctr
  let w ← outbuf[0]?
  let x ← k.put x.1.outScan y cb cr w x
  pure (ctr + 1, 1, x)

/-- The choice of the control routine (jdmerge.c:556-586). -/
def Cfg.merged (k : Cfg R P) (outbuf : List Loc) (ctr max : Nat) (x : St R P × (Nat → P)) : Option (Nat × Nat × St R P × (Nat → P)) :=
  if k.v = 2 then k.merged2 outbuf ctr max x else k.merged1 outbuf ctr x

/-- decompress_data, when it does not suspend: one iMCU row of every component. -/
def Cfg.load (k : Cfg R P) (src : Nat → Nat → R) (s : St R P) : Option (St R P) :=
  if s.inRow < k.total then
    some { s with buf := fun c i => if i < k.vs c * k.M then src c (s.inRow * (k.vs c * k.M) + i) else s.buf c i, bufferFull := true, inRow := s.inRow + 1 }
  else none

/-- process_data_simple_main after the buffer has been filled (jdmainct.c:322-340). -/
def Cfg.mainFull (k : Cfg R P) (outbuf : List Loc) (max : Nat) (x : St R P × (Nat → P)) : Option (Nat × St R P × (Nat → P)) := do
  let (ctr, o, s, app) ← k.merged outbuf x.1.ctr max x
  if ctr ≥ k.M then pure (o, { s with bufferFull := false, ctr := 0 }, app)
  else pure (o, { s with ctr := ctr }, app)

/-- process_data_simple_main (jdmainct.c:304-341); `ok` = decompress_data would not suspend. -/
def Cfg.main (k : Cfg R P) (src : Nat → Nat → R) (outbuf : List Loc) (max : Nat) (ok : Bool) (x : St R P × (Nat → P)) : Option (Nat × St R P × (Nat → P)) :=
  if x.1.bufferFull then k.mainFull outbuf max x
  else if ok then do
    let s ← k.load src x.1
    k.mainFull outbuf max (s, x.2)
  else some (0, x)

/-- jpeg_read_scanlines (jdapistd.c:318-353) after the state checks. -/
def Cfg.readTo (k : Cfg R P) (src : Nat → Nat → R) (outbuf : List Loc) (max : Nat) (ok : Bool) (x : St R P × (Nat → P)) : Option (Nat × St R P × (Nat → P)) :=
  if x.1.outScan ≥ k.H then some (0, x)
  else do
    let (o, s, app) ← k.main src outbuf max ok x
    pure (o, { s with outScan := s.outScan + o }, app)

/-- A call of jpeg_read_scanlines by the application, which provides `max` rows (old contents `app`): number of lines, new state, contents of the rows. -/
def Cfg.read (k : Cfg R P) (src : Nat → Nat → R) (max : Nat) (ok : Bool) (app : Nat → P) (s : St R P) : Option (Nat × St R P × (Nat → P)) := do
  let (o, s, app) ← k.readTo src ((List.range max).map Loc.app) max ok (s, app)
  pure (o, { s with out := s.out ++ (List.range o).map app }, app)

/-- read_and_discard_scanlines (jdapistd.c:380-432): for 2:1 vertical sampling the lines go to the spare row; otherwise it is only called for no lines. -/
def Cfg.discard (k : Cfg R P) (src : Nat → Nat → R) : Nat → St R P → Option (St R P)
  | 0, s => some s
  | n + 1, s => do
    let (_, s, _) ← k.readTo src (if k.v = 2 then [Loc.spare] else []) 1 true (s, fun _ => s.spare)
    k.discard src n s

/-- increment_simple_rowgroup_ctr (jdapistd.c:440-465). -/
def Cfg.incr (k : Cfg R P) (src : Nat → Nat → R) (rows : Nat) (s : St R P) : Option (St R P) :=
  if k.v = 2 then k.discard src rows s
  else k.discard src (rows % k.v) { s with ctr := s.ctr + rows / k.v, outScan := s.outScan + (rows - rows % k.v) }

/-- lines_per_iMCU_row (jdapistd.c:515). -/
def Cfg.lpi (k : Cfg R P) : Nat := k.M * k.v

/-- lines_left_in_iMCU_row (jdapistd.c:516-518). -/
def Cfg.linesLeft (k : Cfg R P) (p : Nat) : Nat := (k.lpi - p % k.lpi) % k.lpi

/-- Skipping `q` whole iMCU rows (jdapistd.c:603-606, 614-636); see `Verif.Post.Cfg.skipRows`. -/
def Cfg.skipRows (k : Cfg R P) (q : Nat) (s : St R P) : Option (St R P) :=
  if s.inRow + q ≤ k.total then some { s with inRow := s.inRow + q, outScan := s.outScan + q * k.lpi } else none

/-- jpeg_skip_scanlines (jdapistd.c:478-655) after the state checks, merged upsampling (never context rows): the spare row and rows_to_go are left alone (jdapistd.c:570-577, 607-610, 648-650). -/
def Cfg.skip (k : Cfg R P) (src : Nat → Nat → R) (n : Nat) (s : St R P) : Option (Nat × St R P) :=
  if s.outScan + n ≥ k.H then some (k.H - s.outScan, { s with outScan := k.H })
  else if n = 0 then some (0, s)
  else if n < k.linesLeft s.outScan then do
    let s ← k.incr src n s
    pure (n, s)
  else do
    let left := k.linesLeft s.outScan
    let after := n - left
    let s ← k.skipRows (after / k.lpi) { s with outScan := s.outScan + left, bufferFull := false, ctr := 0 }
    let s ← k.incr src (after - after / k.lpi * k.lpi) s
    pure (n, s)

/-- After jinit_merged_upsampler and the start_pass routines (jdmerge.c:201-211, jdmainct.c:259-291): buffers hold anything. -/
def Cfg.start (k : Cfg R P) (buf0 : Nat → Nat → R) (spare0 : P) : St R P :=
  { buf := buf0, bufferFull := false, ctr := 0, spare := spare0, spareFull := false, rowsToGo := k.H, outScan := 0, inRow := 0, out := [] }

end Verif.Merge
