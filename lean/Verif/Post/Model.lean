import Mathlib.Tactic.Ring
/-
The path of sample rows from the coefficient controller to jpeg_read_scanlines: jdapistd.c (jpeg_read_scanlines), jdmainct.c and jdmainct.h (main controller with and without context rows) and the driver of jdsample.c
(sep_upsample).  Rows are abstract (`R`); what the coefficient controller delivers for component c is `src c r`, r = row number in the component (rows past the component's real rows stand for whatever the buffer holds there);
upsampling a row group is an arbitrary function of the rows the method may read.  Every use of a row pointer that was not set, or of a pointer entry or row that does not exist, makes the result `none`.  Colour conversion gets the
upsampled rows of all components: an output scanline is modelled as that list.  The controller is modelled without colour quantization (jdpostct.c:105-112).
-/
namespace Verif.Post

/-- A component: v_samp_factor, DCT_scaled_size, and its upsampling method: `full` = fullsize_upsample (which only keeps the pointer), `ctx` = the method reads the row above and below the group, `up` = the output rows for the list of
rows it may read. -/
structure Comp (R : Type) where
  v : Nat
  ss : Nat
  full : Bool
  ctx : Bool
  up : List R → List R

/-- Parameters: image_height, max_v_samp_factor, min_DCT_scaled_size, rows per data unit (8, or 1 in lossless mode), need_context_rows, the components. -/
structure Cfg (R : Type) where
  ih : Nat
  maxV : Nat
  M : Nat
  D : Nat
  context : Bool
  n : Nat
  comp : Nat → Comp R

variable {R : Type}

/-- jdiv_round_up (jutils.c:125-132). -/
def divUp (a b : Nat) : Nat := (a + b - 1) / b

/-- output_height (jdmaster.c:107-236). -/
def Cfg.H (k : Cfg R) : Nat := divUp (k.ih * k.M) k.D
/-- total_iMCU_rows (jdinput.c:143-145). -/
def Cfg.total (k : Cfg R) : Nat := divUp k.ih (k.maxV * k.D)
/-- downsampled_height (jdmaster.c:315-318, jdinput.c:133-136). -/
def Cfg.dh (k : Cfg R) (c : Nat) : Nat := divUp (k.ih * ((k.comp c).v * (k.comp c).ss)) (k.maxV * k.D)
/-- Height of a row group of a component (jdmainct.c:154-155, jdsample.c:461-462). -/
def Cfg.g (k : Cfg R) (c : Nat) : Nat := (k.comp c).v * (k.comp c).ss / k.M
/-- Row groups of workspace (jdmainct.c:456-464). -/
def Cfg.ngroups (k : Cfg R) : Nat := if k.context then k.M + 2 else k.M

/-- color_buf[ci]: rows of the upsampler's own buffer, or a pointer into one of the row pointer lists (fullsize_upsample). -/
inductive Color (R : Type) where
  | own (rows : List R)
  | alias (list : Nat) (idx : Int)

/-- Per component: row pointer lists (0, 1 = xbuffer[0], xbuffer[1]; 2 = buffer), workspace rows, color_buf. -/
structure CSt (R : Type) where
  X : Nat → Int → Option Nat
  mem : Nat → R
  color : Color R

/-- State: main controller (jdmainct.h:22-43; context_state 0 = CTX_PREPARE_FOR_IMCU, 1 = CTX_PROCESS_IMCU, 2 = CTX_POSTPONED_ROW), upsampler (next_row_out, rows_to_go), output_scanline, the next iMCU row
the coefficient controller will deliver, and the rows given to the application so far, in order. -/
structure St (R : Type) where
  cs : Nat → CSt R
  bufferFull : Bool
  rowgroupCtr : Nat
  which : Nat
  ctxState : Nat
  avail : Nat
  imcuCtr : Nat
  nextRowOut : Nat
  rowsToGo : Nat
  outScan : Nat
  inRow : Nat
  out : List (List R)

/-- A counting loop. -/
def loop {A : Type} (f : Nat → A → Option A) : Nat → A → Option A
  | 0, a => some a
  | n + 1, a => do
    let a ← loop f n a
    f n a

/-- The loop over the components. -/
def Cfg.forC (k : Cfg R) (f : Nat → CSt R → Option (CSt R)) (cs : Nat → CSt R) : Option (Nat → CSt R) :=
  loop (fun c cs => do
    let y ← f c (cs c)
    pure (fun d => if d = c then y else cs d)) k.n cs

/-- Workspace row i (buffer[ci][i]). -/
def Cfg.phys (k : Cfg R) (c : Nat) (i : Int) : Option Nat := if 0 ≤ i ∧ i < (k.ngroups * k.g c : Nat) then some i.toNat else none

/-- Storing a row pointer in list `w` (0 or 1): the list has M+4 row groups, one of them at negative offsets (jdmainct.c:158-168). -/
def Cfg.setPtr (k : Cfg R) (c w : Nat) (i : Int) (p : Nat) (x : CSt R) : Option (CSt R) :=
  if -(k.g c : Int) ≤ i ∧ i < (k.g c : Int) * (k.M + 3) then some { x with X := fun w' j => if w' = w ∧ j = i then some p else x.X w' j } else none

/-- First part of make_funny_pointers (jdmainct.c:195-198). -/
def Cfg.funny1 (k : Cfg R) (c : Nat) : CSt R → Option (CSt R) :=
  loop (fun i x => do
    let b ← k.phys c i
    let x ← k.setPtr c 1 i b x
    k.setPtr c 0 i b x) (k.g c * (k.M + 2))

/-- Second part: the last four row groups of list 1 are swapped (jdmainct.c:200-203). -/
def Cfg.funny2 (k : Cfg R) (c : Nat) : CSt R → Option (CSt R) :=
  loop (fun i x => do
    let b ← k.phys c ((k.g c : Int) * k.M + i)
    let x ← k.setPtr c 1 ((k.g c : Int) * ((k.M : Int) - 2) + i) b x
    let b ← k.phys c ((k.g c : Int) * ((k.M : Int) - 2) + i)
    k.setPtr c 1 ((k.g c : Int) * k.M + i) b x) (k.g c * 2)

/-- Third part: the "above" pointers of list 0 duplicate the first row (jdmainct.c:209-211). -/
def Cfg.funny3 (k : Cfg R) (c : Nat) : CSt R → Option (CSt R) :=
  loop (fun i x => do
    let p ← x.X 0 0
    k.setPtr c 0 ((i : Int) - k.g c) p x) (k.g c)

/-- make_funny_pointers (jdmainct.c:174-213), one component. -/
def Cfg.makeFunny (k : Cfg R) (c : Nat) (x : CSt R) : Option (CSt R) := do
  let x ← k.funny1 c x
  let x ← k.funny2 c x
  k.funny3 c x

/-- set_wraparound_pointers (jdmainct.h:52-75), one component. -/
def Cfg.setWrap (k : Cfg R) (c : Nat) : CSt R → Option (CSt R) :=
  loop (fun i x => do
    let p ← x.X 0 ((k.g c : Int) * (k.M + 1) + i)
    let x ← k.setPtr c 0 ((i : Int) - k.g c) p x
    let p ← x.X 1 ((k.g c : Int) * (k.M + 1) + i)
    let x ← k.setPtr c 1 ((i : Int) - k.g c) p x
    let p ← x.X 0 i
    let x ← k.setPtr c 0 ((k.g c : Int) * (k.M + 2) + i) p x
    let p ← x.X 1 i
    k.setPtr c 1 ((k.g c : Int) * (k.M + 2) + i) p x) (k.g c)

/-- Rows of a component in one iMCU row (jdmainct.c:231). -/
def Cfg.imcuHeight (k : Cfg R) (c : Nat) : Nat := (k.comp c).v * (k.comp c).ss

/-- Nondummy rows in the last iMCU row (jdmainct.c:234-235). -/
def Cfg.rowsLeft (k : Cfg R) (c : Nat) : Nat := if k.dh c % k.imcuHeight c = 0 then k.imcuHeight c else k.dh c % k.imcuHeight c

/-- set_bottom_pointers (jdmainct.c:217-251), the pointer part for one component. -/
def Cfg.setBottom (k : Cfg R) (w c : Nat) : CSt R → Option (CSt R) :=
  loop (fun i x => do
    let p ← x.X w ((k.rowsLeft c : Int) - 1)
    k.setPtr c w ((k.rowsLeft c : Int) + i) p x) (k.imcuHeight c / k.M * 2)

/-- rowgroups_avail at the bottom of the image, computed from component 0 (jdmainct.c:239-241). -/
def Cfg.bottomAvail (k : Cfg R) : Nat := (k.rowsLeft 0 - 1) / (k.imcuHeight 0 / k.M) + 1

/-- What decompress_data stores for one component: one iMCU row, through row pointer list `w`. -/
def Cfg.store (k : Cfg R) (src : Nat → Nat → R) (w row c : Nat) : CSt R → Option (CSt R) :=
  loop (fun i x => do
    let p ← x.X w i
    if p < k.ngroups * k.g c then
      pure { x with mem := fun q => if q = p then src c (row * k.imcuHeight c + i) else x.mem q }
    else none) (k.imcuHeight c)

/-- decompress_data, when it does not suspend; calling it when no iMCU row is left is an error. -/
def Cfg.load (k : Cfg R) (src : Nat → Nat → R) (w : Nat) (s : St R) : Option (St R) :=
  if s.inRow < k.total then do
    let cs ← k.forC (k.store src w s.inRow) s.cs
    pure { s with cs, bufferFull := true, inRow := s.inRow + 1 }
  else none

/-- Reading rows through a row pointer list. -/
def readRows (x : CSt R) (w : Nat) : (n : Nat) → (i : Int) → Option (List R)
  | 0, _ => some []
  | n + 1, i => do
    let p ← x.X w i
    let rest ← readRows x w n (i + 1)
    pure (x.mem p :: rest)

/-- The rows a method (other than fullsize_upsample) may read, for the row group that starts at index `idx` of list `w`. -/
def Cfg.readGroup (k : Cfg R) (w c : Nat) (idx : Int) (x : CSt R) : Option (List R) :=
  if (k.comp c).ctx then readRows x w (k.g c + 2) (idx - 1) else readRows x w (k.g c) idx

/-- One component's upsampling method on the row group that starts at index `idx` of list `w` (jdsample.c:77-85, 127-132). -/
def Cfg.upComp (k : Cfg R) (w ctr c : Nat) (x : CSt R) : Option (CSt R) :=
  let idx : Int := (ctr * k.g c : Nat)
  if (k.comp c).full then some { x with color := .alias w idx }
  else do
    let rows ← k.readGroup w c idx x
    pure { x with color := .own ((k.comp c).up rows) }

/-- Row j of color_buf[ci]. -/
def CSt.colorRow (x : CSt R) (j : Nat) : Option R :=
  match x.color with
  | .own rows => rows[j]?
  | .alias w idx => do
    let p ← x.X w (idx + j)
    pure (x.mem p)

/-- Filling the conversion buffer if it is empty (jdsample.c:73-87). -/
def Cfg.fillColor (k : Cfg R) (w ctr : Nat) (s : St R) : Option (St R) :=
  if s.nextRowOut ≥ k.maxV then do
    let cs ← k.forC (k.upComp w ctr) s.cs
    pure { s with cs, nextRowOut := 0 }
  else some s

/-- Colour conversion of row j of the conversion buffer: the rows of the components. -/
def Cfg.emit (k : Cfg R) (s : St R) (j : Nat) : Option (List R) := (List.range k.n).mapM (fun c => (s.cs c).colorRow j)

/-- Rows emitted by one call of sep_upsample (jdsample.c:92-101). -/
def Cfg.numRows (k : Cfg R) (s : St R) (o max : Nat) : Nat := min (min (k.maxV - s.nextRowOut) s.rowsToGo) (max - o)

/-- sep_upsample (jdsample.c:60-115): `ctr` = *in_row_group_ctr, `o` = *out_row_ctr, `max` = out_rows_avail. -/
def Cfg.upsample (k : Cfg R) (w ctr o max : Nat) (s : St R) : Option (Nat × Nat × St R) := do
  let s ← k.fillColor w ctr s
  let num := k.numRows s o max
  let rows ← (List.range num).mapM (fun i => k.emit s (s.nextRowOut + i))
  let s := { s with out := s.out ++ rows, rowsToGo := s.rowsToGo - num, nextRowOut := s.nextRowOut + num }
  pure (if s.nextRowOut ≥ k.maxV then ctr + 1 else ctr, o + num, s)

/-- process_data_simple_main after the buffer has been filled (jdmainct.c:322-340). -/
def Cfg.simpleFull (k : Cfg R) (max : Nat) (s : St R) : Option (Nat × St R) := do
  let (ctr, o, s) ← k.upsample 2 s.rowgroupCtr 0 max s
  if ctr ≥ k.M then pure (o, { s with bufferFull := false, rowgroupCtr := 0 })
  else pure (o, { s with rowgroupCtr := ctr })

/-- process_data_simple_main (jdmainct.c:304-341); `ok` = decompress_data would not suspend. -/
def Cfg.simpleMain (k : Cfg R) (src : Nat → Nat → R) (max : Nat) (ok : Bool) (s : St R) : Option (Nat × St R) :=
  if s.bufferFull then k.simpleFull max s
  else if ok then do
    let s ← k.load src 2 s
    k.simpleFull max s
  else some (0, s)

/-- CTX_PREPARE_FOR_IMCU (jdmainct.c:384-394). -/
def Cfg.ctxPrepare (k : Cfg R) (s : St R) : Option (St R) :=
  if s.imcuCtr = k.total then do
    let cs ← k.forC (k.setBottom s.which) s.cs
    pure { s with cs, rowgroupCtr := 0, avail := k.bottomAvail, ctxState := 1 }
  else some { s with rowgroupCtr := 0, avail := k.M - 1, ctxState := 1 }

/-- Setting the wraparound pointers after the first iMCU row (jdmainct.c:404-405). -/
def Cfg.wrapIf (k : Cfg R) (s : St R) : Option (Nat → CSt R) := if s.imcuCtr = 1 then k.forC k.setWrap s.cs else some s.cs

/-- The end of CTX_PROCESS_IMCU: switching to the other list (jdmainct.c:406-415). -/
def Cfg.ctxSwitch (k : Cfg R) (s : St R) : Option (St R) := do
  let cs ← k.wrapIf s
  pure { s with cs, which := s.which ^^^ 1, bufferFull := false, rowgroupCtr := k.M + 1, avail := k.M + 2, ctxState := 2 }

/-- CTX_PROCESS_IMCU (jdmainct.c:396-416). -/
def Cfg.ctxProcess (k : Cfg R) (o max : Nat) (s : St R) : Option (Nat × St R) := do
  let (ctr, o, s) ← k.upsample s.which s.rowgroupCtr o max s
  let s := { s with rowgroupCtr := ctr }
  if ctr < s.avail then pure (o, s)
  else do
    let s ← k.ctxSwitch s
    pure (o, s)

/-- CTX_PREPARE_FOR_IMCU falling through to CTX_PROCESS_IMCU. -/
def Cfg.ctxFrom0 (k : Cfg R) (o max : Nat) (s : St R) : Option (Nat × St R) := do
  let s ← k.ctxPrepare s
  k.ctxProcess o max s

/-- CTX_POSTPONED_ROW (jdmainct.c:370-382) falling through. -/
def Cfg.ctxFrom2 (k : Cfg R) (max : Nat) (s : St R) : Option (Nat × St R) := do
  let (ctr, o, s) ← k.upsample s.which s.rowgroupCtr 0 max s
  let s := { s with rowgroupCtr := ctr }
  if ctr < s.avail then pure (o, s)
  else
    let s := { s with ctxState := 0 }
    if o ≥ max then pure (o, s) else k.ctxFrom0 o max s

/-- process_data_context_main after the buffer has been filled: the switch (jdmainct.c:369-417). -/
def Cfg.ctxFull (k : Cfg R) (max : Nat) (s : St R) : Option (Nat × St R) :=
  if s.ctxState = 2 then k.ctxFrom2 max s
  else if s.ctxState = 0 then k.ctxFrom0 0 max s
  else if s.ctxState = 1 then k.ctxProcess 0 max s
  else some (0, s)

/-- process_data_context_main (jdmainct.c:349-418). -/
def Cfg.contextMain (k : Cfg R) (src : Nat → Nat → R) (max : Nat) (ok : Bool) (s : St R) : Option (Nat × St R) :=
  if s.bufferFull then k.ctxFull max s
  else if ok then do
    let s ← k.load src s.which s
    k.ctxFull max { s with imcuCtr := s.imcuCtr + 1 }
  else some (0, s)

/-- main->process_data (jdmainct.c:265-276). -/
def Cfg.process (k : Cfg R) (src : Nat → Nat → R) (max : Nat) (ok : Bool) (s : St R) : Option (Nat × St R) :=
  if k.context then k.contextMain src max ok s else k.simpleMain src max ok s

/-- jpeg_read_scanlines (jdapistd.c:318-353) after the state checks: the number of scanlines returned. -/
def Cfg.read (k : Cfg R) (src : Nat → Nat → R) (max : Nat) (ok : Bool) (s : St R) : Option (Nat × St R) :=
  if s.outScan ≥ k.H then some (0, s)
  else do
    let (o, s) ← k.process src max ok s
    pure (o, { s with outScan := s.outScan + o })

/-- State before start_pass: the pointers of list 2 are the workspace rows, nothing else is set; memory contents are arbitrary. -/
def Cfg.blank (k : Cfg R) (mem0 : Nat → Nat → R) : St R :=
  { cs := fun c => { X := fun w i => if w = 2 then k.phys c i else none, mem := mem0 c, color := .own [] }, bufferFull := false, rowgroupCtr := 0, which := 0, ctxState := 0, avail := 0, imcuCtr := 0,
    nextRowOut := k.maxV, rowsToGo := k.H, outScan := 0, inRow := 0, out := [] }

/-- start_pass_main, start_pass_upsample (jdmainct.c:259-291, jdsample.c:40-50). -/
def Cfg.start (k : Cfg R) (mem0 : Nat → Nat → R) : Option (St R) :=
  if k.context then do
    let cs ← k.forC k.makeFunny (k.blank mem0).cs
    pure { k.blank mem0 with cs }
  else some (k.blank mem0)

/-- A history of calls: the size of the application's buffer, and whether the coefficient controller would suspend if called. -/
def Cfg.history (k : Cfg R) (src : Nat → Nat → R) : List (Nat × Bool) → St R → Option (St R)
  | [], s => some s
  | (max, ok) :: l, s => do
    let (_, s) ← k.read src max ok s
    k.history src l s

end Verif.Post
