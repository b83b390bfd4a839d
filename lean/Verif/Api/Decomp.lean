/-
C29, decompression side: the order of API calls.  jdapimin.c, jdapistd.c, jdtrans.c, jdmaster.c, jdinput.c, jcomapi.c.

What the input and the modules do is left open: every call carries what the input delivers during it and an arbitrary outcome of the work
it starts.
-/
namespace Verif.Api.D

/-- Outcome of a call: returned, JERR_BAD_STATE, an error raised by a test of the arguments before anything is done (JERR_BAD_PRECISION,
JERR_NOTIMPL, JERR_TOO_LITTLE_DATA, JERR_BUFFER_SIZE), another error exit, or use of freed memory. -/
inductive Res | ok (n : Nat) | badState | rejected | err | crash
  deriving DecidableEq, Repr

/-- From the header: has_multiple_scans (jdinput.c:147-151), data_precision, lossless. -/
structure Hdr where
  multi : Bool
  prec : Nat := 8
  lossless : Bool := false
  deriving DecidableEq, Repr

/-- What one call of the input controller's consume_input meets: not enough data, SOS, EOI, a row of data, an error. -/
inductive In | susp | sos (h : Hdr) | eoi | row | err
  deriving DecidableEq, Repr

/-- Return codes of consume_input: JPEG_SUSPENDED, JPEG_REACHED_SOS, JPEG_REACHED_EOI, JPEG_ROW_COMPLETED or JPEG_SCAN_COMPLETED; error exit. -/
inductive Got | susp | sos | eoi | row | err
  deriving DecidableEq, Repr

/-- Set by the application between jpeg_read_header and jpeg_start_decompress: buffered_image, raw_data_out; output_height follows from the
other parameters.  Simplification: not changed afterwards. -/
structure Cfg where
  buffered : Bool
  raw : Bool
  height : Nat
  deriving DecidableEq, Repr

/-- Outcome of output_pass_setup: ready, suspended in a dummy pass at a given output_scanline, error exit before the first assignment or in a
dummy pass. -/
inductive Setup | done | susp (line : Nat) | early | late (line : Nat)
  deriving DecidableEq, Repr

/-- The API calls.  The lists are what the input delivers. -/
inductive Call
  | create
  | destroy
  | abort
  | readHeader (require : Bool) (e : In)
  | consumeInput (e : In)
  | inputComplete
  | hasMultipleScans
  | calcDims (ok : Bool)
  | readIcc
  | startDecompress (c : Cfg) (ok : Bool) (es : List In) (w : Setup)
  | readScanlines (prec lines : Nat) (es : List In) (w : Option Nat)
  | skipScanlines (prec lines : Nat) (es : List In) (ok : Bool)
  | readRaw (prec lines : Nat) (perRow : Nat) (es : List In) (w : Option Bool)
  | cropScanline (prec : Nat) (ok : Bool)
  | startOutput (scan : Nat) (es : List In) (w : Setup)
  | finishOutput (es : List In)
  | newColormap (ok : Bool)
  | finishDecompress (es : List In)
  | readCoefs (ok : Bool) (es : List In)
  deriving DecidableEq, Repr

/-- The part of jpeg_decompress_struct that decides which calls are accepted.  global_state (jpegint.h:50-60): 0 destroyed, 200 START,
201 INHEADER, 202 READY, 203 PRELOAD, 204 PRESCAN, 205 SCANNING, 206 RAW_OK, 207 BUFIMAGE, 208 BUFPOST, 209 RDCOEFS, 210 STOPPING;
output_scanline, output_height, buffered_image, raw_data_out; inputctl: has_multiple_scans, eoi_reached, inheaders; input_scan_number,
output_scan_number; data_precision, master->lossless; mem != NULL. -/
structure Obj where
  gs : Nat
  line : Nat
  height : Nat
  buffered : Bool
  raw : Bool
  multi : Bool
  eoi : Bool
  hdr : Bool
  insc : Nat
  outsc : Nat
  prec : Nat
  lossless : Bool
  alive : Bool
  deriving DecidableEq, Repr

/-- jpeg_CreateDecompress (jdapimin.c:35-98). -/
def Obj.fresh : Obj := ⟨200, 0, 0, false, false, false, false, true, 0, 0, 8, false, true⟩

/-- jpeg_abort (jcomapi.c:31-61). -/
def Obj.abort (o : Obj) : Obj := if o.alive then { o with gs := 200 } else o

/-- jpeg_destroy (jcomapi.c:76-85). -/
def Obj.destroy (o : Obj) : Obj := { o with gs := 0, alive := false }

/-- One call of consume_input: consume_markers (jdinput.c:324-370), or consume_data of a coefficient controller, which returns no SOS or EOI
of its own.  read_markers counts the SOS markers (jdmarker.c:381). -/
def Obj.consume (o : Obj) (e : In) : Obj × Got :=
  if o.eoi then (o, .eoi)
  else match e with
    | .susp => (o, .susp)
    | .err => (o, .err)
    | .row => if o.hdr then (o, .susp) else (o, .row)
    | .sos h =>
      if o.hdr then ({ o with insc := o.insc + 1, hdr := false, multi := h.multi, prec := h.prec, lossless := h.lossless }, .sos)
      else if o.multi then ({ o with insc := o.insc + 1 }, .sos)
      else ({ o with insc := o.insc + 1 }, .err)
    | .eoi => ({ o with eoi := true, outsc := if o.hdr then o.outsc else min o.outsc o.insc }, .eoi)

/-- The loops that call consume_input until EOI, a suspension or an error (jdapistd.c:68-86, jdapimin.c:412-415, jdtrans.c:60-78); when the
list is used up the source suspends. -/
def Obj.absorb (o : Obj) : List In → Obj × Got
  | [] => (o, if o.eoi then .eoi else .susp)
  | e :: es =>
    match o.consume e with
    | (o, .susp) => (o, .susp)
    | (o, .eoi) => (o, .eoi)
    | (o, .err) => (o, .err)
    | (o, _) => o.absorb es

/-- The loop of jpeg_finish_output (jdapistd.c:752-757). -/
def Obj.absorbScan (o : Obj) : List In → Obj × Got
  | [] => (o, if o.insc ≤ o.outsc ∧ o.eoi = false then .susp else .eoi)
  | e :: es =>
    if o.insc ≤ o.outsc ∧ o.eoi = false then
      match o.consume e with
      | (o, .susp) => (o, .susp)
      | (o, .err) => (o, .err)
      | (o, _) => o.absorbScan es
    else (o, .eoi)

/-- Input consumed inside decompress_data, with any outcome. -/
def Obj.feed (o : Obj) (es : List In) : Obj := es.foldl (fun o e => (o.consume e).1) o

/-- output_pass_setup (jdapistd.c:110-165).  After the last dummy pass output_scanline is 0 again. -/
def Obj.passSetup (o : Obj) (es : List In) (w : Setup) : Obj × Res :=
  let o' := if o.gs ≠ 204 then { o with line := 0, gs := 204 } else o
  match w with
  | .early => (o, .err)
  | .late k => ({ o'.feed es with line := k }, .err)
  | .susp k => ({ o'.feed es with line := k }, .ok 0)
  | .done => let o' := o'.feed es; ({ o' with line := 0, gs := if o'.raw then 206 else 205 }, .ok 1)

/-- The return code as a C int (jpeglib.h:1155-1159; JPEG_ROW_COMPLETED and JPEG_SCAN_COMPLETED not distinguished). -/
def Got.code : Got → Res
  | .susp => .ok 0
  | .sos => .ok 1
  | .eoi => .ok 2
  | .row => .ok 3
  | .err => .err

/-- jpeg_consume_input (jdapimin.c:311-351), with the return code of the C function (0 SUSPENDED, 1 REACHED_SOS, 2 REACHED_EOI, 3 ROW). -/
def Obj.consumeInput (o : Obj) (e : In) : Obj × Res :=
  if o.gs = 200 ∨ o.gs = 201 then
    let o := if o.gs = 200 then { o with multi := false, eoi := false, hdr := true, insc := 0, gs := 201 } else o
    match o.consume e with
    | (o, .sos) => ({ o with gs := 202 }, .ok 1)
    | (o, g) => (o, g.code)
  else if o.gs = 202 then (o, .ok 1)
  else if o.gs = 203 ∨ o.gs = 204 ∨ o.gs = 205 ∨ o.gs = 206 ∨ o.gs = 207 ∨ o.gs = 208 ∨ o.gs = 210 then
    ((o.consume e).1, (o.consume e).2.code)
  else (o, .badState)

/-- One call.  Line references at the cases. -/
def step (o : Obj) : Call → Obj × Res
  | .create => (.fresh, .ok 0)
  | .destroy => (o.destroy, .ok 0)
  | .abort => (o.abort, .ok 0)
  | .readHeader req e => -- jdapimin.c:266-296: 0 SUSPENDED, 1 HEADER_OK, 2 TABLES_ONLY
    if o.gs ≠ 200 ∧ o.gs ≠ 201 then (o, .badState)
    else match o.consumeInput e with
      | (o, .ok 2) => if req then (o, .err) else (o.abort, .ok 2)
      | r => r
  | .consumeInput e => o.consumeInput e
  | .inputComplete => -- jdapimin.c:359-367
    if o.gs < 200 ∨ o.gs > 210 then (o, .badState) else (o, .ok o.eoi.toNat)
  | .hasMultipleScans => -- jdapimin.c:374-382
    if o.gs < 202 ∨ o.gs > 210 then (o, .badState) else (o, .ok o.multi.toNat)
  | .calcDims ok => -- jdmaster.c:264-274
    if o.gs ≠ 202 then (o, .badState) else (o, if ok then .ok 0 else .err)
  | .readIcc => -- jdicc.c:73-86
    if o.gs < 202 then (o, .badState) else (o, .ok 0)
  | .startDecompress c ok es w => -- jdapistd.c:50-97
    if o.gs = 202 then
      if ¬ ok then (o, .err)
      else
        let o := { o with buffered := c.buffered, raw := c.raw, height := c.height }
        if c.buffered then ({ o with gs := 207 }, .ok 1)
        else preload { o with gs := 203 } es w
    else if o.gs = 203 then preload o es w
    else if o.gs ≠ 204 then (o, .badState)
    else o.passSetup es w
  | .readScanlines prec n es w => -- jdapistd.c:325-360; process_data delivers no row beyond output_height (C41)
    if prec ≠ o.prec then (o, .rejected)
    else if o.gs ≠ 205 then (o, .badState)
    else if o.line ≥ o.height then (o, .ok 0)
    else
      let o := o.feed es
      match w with
      | none => (o, .err)
      | some k => ({ o with line := o.line + min k (min n (o.height - o.line)) }, .ok (min k (min n (o.height - o.line))))
  | .skipScanlines prec n es ok => -- jdapistd.c:470-652: the bottom of the image is reached, or n lines are skipped
    if prec ≠ o.prec then (o, .rejected)
    else if ¬ o.alive then (o, .crash)
    else if o.lossless then (o, .rejected)
    else if o.gs ≠ 205 then (o, .badState)
    else if o.line + n ≥ o.height then ({ o with line := o.height, eoi := true }, .ok (o.height - o.line))
    else if ok then let o := o.feed es; ({ o with line := o.line + n }, .ok n)
    else (o.feed es, .err)
  | .readRaw prec n per es w => -- jdapistd.c:659-702; `per` = max_v_samp_factor * min_DCT_scaled_size
    if prec ≠ o.prec then (o, .rejected)
    else if ¬ o.alive then (o, .crash)
    else if o.lossless then (o, .rejected)
    else if o.gs ≠ 206 then (o, .badState)
    else if o.line ≥ o.height then (o, .ok 0)
    else if n < per then (o, .rejected)
    else
      let o := o.feed es
      match w with
      | none => (o, .err)
      | some false => (o, .ok 0)
      | some true => ({ o with line := o.line + per }, .ok per)
  | .cropScanline prec ok => -- jdapistd.c:182-205
    if prec ≠ o.prec then (o, .rejected)
    else if ¬ o.alive then (o, .crash)
    else if o.lossless then (o, .rejected)
    else if (o.gs ≠ 205 ∧ o.gs ≠ 207) ∨ o.line ≠ 0 then (o, .badState)
    else (o, if ok then .ok 0 else .rejected)
  | .startOutput scan es w => -- jdapistd.c:716-729
    if o.gs ≠ 207 ∧ o.gs ≠ 204 then (o, .badState)
    else
      let s := if scan = 0 then 1 else scan
      let s := if o.eoi ∧ s > o.insc then o.insc else s
      ({ o with outsc := s }).passSetup es w
  | .finishOutput es => -- jdapistd.c:739-760
    if ((o.gs = 205 ∨ o.gs = 206) ∧ o.buffered) ∨ o.gs = 208 then
      match ({ o with gs := 208 } : Obj).absorbScan es with
      | (o, .susp) => (o, .ok 0)
      | (o, .err) => (o, .err)
      | (o, _) => ({ o with gs := 207 }, .ok 1)
    else (o, .badState)
  | .newColormap ok => -- jdmaster.c:853-872
    if o.gs ≠ 207 then (o, .badState) else (o, if ok then .ok 0 else .rejected)
  | .finishDecompress es => -- jdapimin.c:393-422
    if (o.gs = 205 ∨ o.gs = 206) ∧ o.buffered = false ∧ o.line < o.height then (o, .rejected)
    else if ((o.gs = 205 ∨ o.gs = 206) ∧ o.buffered = false) ∨ o.gs = 207 ∨ o.gs = 210 then
      match ({ o with gs := 210 } : Obj).absorb es with
      | (o, .eoi) => (o.abort, .ok 1)
      | (o, .err) => (o, .err)
      | (o, _) => (o, .ok 0)
    else (o, .badState)
  | .readCoefs ok es => -- jdtrans.c:47-99: master is used before the state is tested; 0 = NULL
    if ¬ o.alive then (o, .crash)
    else if o.lossless then (o, .rejected)
    else if o.gs = 202 ∧ ¬ ok then ({ o with buffered := true }, .err)
    else if o.gs = 202 ∨ o.gs = 209 then
      match ({ o with gs := 209, buffered := if o.gs = 202 then true else o.buffered } : Obj).absorb es with
      | (o, .eoi) => ({ o with gs := 210 }, if o.buffered then .ok 1 else .badState)
      | (o, .err) => (o, .err)
      | (o, _) => (o, .ok 0)
    else if (o.gs = 210 ∨ o.gs = 207) ∧ o.buffered then (o, .ok 1)
    else (o, .badState)
where
  /-- jdapistd.c:64-97 in state PRELOAD. -/
  preload (o : Obj) (es : List In) (w : Setup) : Obj × Res :=
    if o.multi then
      match o.absorb es with
      | (o, .eoi) => ({ o with outsc := o.insc }).passSetup [] w
      | (o, .err) => (o, .err)
      | (o, _) => (o, .ok 0)
    else ({ o with outsc := o.insc }).passSetup es w

/-- A call with its result. -/
abbrev Event := Call × Res

/-- A sequence of calls: the object and the history, the latest event first. -/
def run (o : Obj) (h : List Event) : List Call → Obj × List Event
  | [] => (o, h)
  | c :: cs => run (step o c).1 ((c, (step o c).2) :: h) cs

def history (cs : List Call) : Obj × List Event := run .fresh [] cs

/-! ### Specification: in terms of the calls made and what they returned -/

/-- Where the application is. -/
inductive Phase
  | idle
  /-- jpeg_read_header has suspended -/
  | header
  | ready
  /-- jpeg_start_decompress has suspended -/
  | starting (c : Cfg)
  /-- reading an image, so many rows have come -/
  | output (c : Cfg) (rows : Nat)
  /-- buffered-image mode, outside an output pass -/
  | buf (c : Cfg)
  /-- jpeg_start_output has suspended -/
  | bufStarting (c : Cfg)
  | bufOutput (c : Cfg) (rows : Nat)
  /-- jpeg_finish_output has suspended -/
  | bufPost (c : Cfg)
  /-- jpeg_read_coefficients has suspended -/
  | coefs
  /-- jpeg_finish_decompress has suspended, or jpeg_read_coefficients is done -/
  | done (buffered : Bool)
  /-- after an error exit inside a call: only abort, destroy (and create) are specified -/
  | broken
  | gone
  deriving DecidableEq, Repr

/-- `n` more rows have come. -/
def Phase.rows (p : Phase) (n : Nat) : Phase :=
  match p with
  | .output c r => .output c (r + n)
  | .bufOutput c r => .bufOutput c (r + n)
  | _ => p

/-- The phase after one more event. -/
def Phase.next (p : Phase) : Event → Phase
  | (.create, _) => .idle
  | (.destroy, _) => .gone
  | (.abort, _) => if p = .gone then .gone else .idle
  | (_, .badState) => p
  | (_, .rejected) => p
  | (_, .crash) => p
  | (_, .err) => if p = .gone then .gone else .broken
  | (.readHeader _ _, .ok n) => if n = 1 then .ready else if n = 2 then .idle else .header
  | (.consumeInput _, .ok n) =>
    match p with
    | .idle => if n = 1 then .ready else .header
    | .header => if n = 1 then .ready else .header
    | _ => p
  | (.startDecompress c _ _ _, .ok n) =>
    match p with
    | .ready => if c.buffered then .buf c else if n = 1 then .output c 0 else .starting c
    | .starting c => if n = 1 then .output c 0 else .starting c
    | _ => .broken
  | (.readScanlines _ _ _ _, .ok n) => p.rows n
  | (.skipScanlines _ _ _ _, .ok n) => p.rows n
  | (.readRaw _ _ _ _ _, .ok n) => p.rows n
  | (.startOutput _ _ _, .ok n) =>
    match p with
    | .buf c => if n = 1 then .bufOutput c 0 else .bufStarting c
    | .bufStarting c => if n = 1 then .bufOutput c 0 else .bufStarting c
    | _ => .broken
  | (.finishOutput _, .ok n) =>
    match p with
    | .bufOutput c _ => if n = 1 then .buf c else .bufPost c
    | .bufPost c => if n = 1 then .buf c else .bufPost c
    | _ => p
  | (.finishDecompress _, .ok n) => if n = 1 then .idle else
    match p with
    | .output _ _ => .done false
    | .done b => .done b
    | _ => .done true
  | (.readCoefs _ _, .ok n) =>
    match p with
    | .buf c => .buf c
    | .done b => .done b
    | _ => if n = 1 then .done true else .coefs
  | _ => p

def phase : List Event → Phase
  | [] => .idle
  | e :: h => if phase h = .broken then (match e with
      | (.create, _) => .idle
      | (.abort, _) => .idle
      | (.destroy, _) => .gone
      | _ => .broken) else (phase h).next e

inductive Perm | yes | no | free
  deriving DecidableEq

/-- The documented order (libjpeg.txt, comments of the functions). -/
def perm (p : Phase) : Call → Perm
  | .create => .yes
  | .destroy => .yes
  | .abort => .yes
  | .readHeader _ _ => match p with
    | .idle | .header => .yes
    | _ => .no
  | .consumeInput _ => match p with
    | .coefs => .free
    | .gone => .no
    | _ => .yes
  | .inputComplete => match p with
    | .gone => .no
    | _ => .yes
  | .hasMultipleScans => match p with
    | .gone | .idle | .header => .no
    | _ => .yes
  | .readIcc => match p with
    | .gone | .idle | .header => .no
    | _ => .yes
  | .calcDims _ => match p with
    | .ready => .yes
    | _ => .no
  | .startDecompress _ _ _ _ => match p with
    | .ready | .starting _ => .yes
    | .bufStarting _ => .free
    | _ => .no
  | .readScanlines _ _ _ _ => match p with
    | .output c _ | .bufOutput c _ => if c.raw then .no else .yes
    | _ => .no
  | .skipScanlines _ _ _ _ => match p with
    | .output c _ | .bufOutput c _ => if c.raw then .no else .yes
    | _ => .no
  | .readRaw _ _ _ _ _ => match p with
    | .output c _ | .bufOutput c _ => if c.raw then .yes else .no
    | _ => .no
  | .cropScanline _ _ => match p with
    | .output c r | .bufOutput c r => if c.raw = false ∧ r = 0 then .yes else .no
    | .buf _ => .free
    | _ => .no
  | .startOutput _ _ _ => match p with
    | .buf _ | .bufStarting _ => .yes
    | .starting _ => .free
    | _ => .no
  | .finishOutput _ => match p with
    | .bufOutput _ _ | .bufPost _ => .yes
    | _ => .no
  | .newColormap _ => match p with
    | .buf _ => .yes
    | _ => .no
  | .finishDecompress _ => match p with
    | .output _ _ | .buf _ | .done _ => .yes
    | _ => .no
  | .readCoefs _ _ => match p with
    | .ready | .coefs | .buf _ | .done true => .yes
    | _ => .no

/-- Sample precision and lossless mode are tested before the order, and these four calls read the object's memory before it, so it must
not have been destroyed. -/
def ArgsOk (o : Obj) : Call → Prop
  | .readScanlines p _ _ _ => p = o.prec
  | .skipScanlines p _ _ _ => p = o.prec ∧ o.alive = true ∧ o.lossless = false
  | .readRaw p _ _ _ _ => p = o.prec ∧ o.alive = true ∧ o.lossless = false
  | .cropScanline p _ => p = o.prec ∧ o.alive = true ∧ o.lossless = false
  | .readCoefs _ _ => o.alive = true ∧ o.lossless = false
  | _ => True

/-! ### What the input does to the object -/

/-- The fields that consuming input does not change. -/
structure Keep (o o' : Obj) : Prop where
  gs : o'.gs = o.gs
  line : o'.line = o.line
  height : o'.height = o.height
  buffered : o'.buffered = o.buffered
  raw : o'.raw = o.raw
  alive : o'.alive = o.alive

theorem Keep.refl (o : Obj) : Keep o o := ⟨rfl, rfl, rfl, rfl, rfl, rfl⟩

theorem Keep.trans {a b c : Obj} (h : Keep a b) (k : Keep b c) : Keep a c :=
  ⟨k.gs.trans h.gs, k.line.trans h.line, k.height.trans h.height, k.buffered.trans h.buffered, k.raw.trans h.raw, k.alive.trans h.alive⟩

theorem consume_keep (o : Obj) (e : In) : Keep o (o.consume e).1 := by
  unfold Obj.consume
  repeat' split
  all_goals exact ⟨rfl, rfl, rfl, rfl, rfl, rfl⟩

theorem absorb_keep (es : List In) : ∀ o : Obj, Keep o (o.absorb es).1 := by
  induction es with
  | nil => exact fun o => Keep.refl o
  | cons e es ih =>
    intro o
    have hk := consume_keep o e
    rw [Obj.absorb]
    split
    · rename_i h; rw [h] at hk; exact hk
    · rename_i h; rw [h] at hk; exact hk
    · rename_i h; rw [h] at hk; exact hk
    · rename_i o' g h1 h2 h3 h; rw [h] at hk; exact hk.trans (ih o')

theorem absorbScan_keep (es : List In) : ∀ o : Obj, Keep o (o.absorbScan es).1 := by
  induction es with
  | nil => exact fun o => Keep.refl o
  | cons e es ih =>
    intro o
    have hk := consume_keep o e
    rw [Obj.absorbScan]
    by_cases hc : o.insc ≤ o.outsc ∧ o.eoi = false
    · rw [if_pos hc]
      split
      · rename_i h; rw [h] at hk; exact hk
      · rename_i h; rw [h] at hk; exact hk
      · rename_i o' g h1 h2 h; rw [h] at hk; exact hk.trans (ih o')
    · rw [if_neg hc]; exact Keep.refl o

theorem feed_keep (es : List In) : ∀ o : Obj, Keep o (o.feed es) := by
  induction es with
  | nil => exact fun o => Keep.refl o
  | cons e es ih => intro o; exact (consume_keep o e).trans (ih _)

end Verif.Api.D
