import Verif.Mark.RoundTab
import Verif.Arith.Image
import Verif.Huff.OptRound
/-
C56: whole JPEG files.  The writer is the compressor from the coefficient arrays on (jpeg_write_coefficients, or the passes of the
compressor after quantization): script check, geometry, file header, application markers, frame header, then for every scan the
statistics pass with the making of the optimal tables, the scan header and the entropy-coded data, and the EOI marker.  The reader is
jpeg_read_header and jpeg_read_coefficients: the marker reader, the geometry, and scan by scan latching of the quantization tables,
the entropy decoder, and the marker reader again from where the entropy decoder left the input, until EOI.
Code modelled: jcmaster.c:442-487, 597-602, 1087-1104, jcapimin.c:155-205, jctrans.c:35-80, jcinit.c:40-140, jcphuff.c:1045-1090,
jchuff.c:1110-1150; jdapimin.c:248-345, jdtrans.c:47-110, jdinput.c:46-147, 255-320, 325-372, together with the functions of the modules
Mark (jcmarker.c, jdmarker.c), Geom, Script, Huff, Prog and Arith.
Not modelled here: the trellis passes and optimize_scans of mozjpeg (the coefficient arrays are those finally coded), lossless mode,
suspension (C06, C54), and the application's own output between scans.
-/
namespace Verif.File
open Verif Verif.Huff Verif.Mark
open Verif.Geom (Pos Blk Frame inImage walk dMcu cPerScan dPerScan cInitialSetup dInitialSetup storeMcu)
open Verif.Prog (compIdx scanPar DecSt encPScan gatherPScan)
open Verif.Arith (Way aPar tblsOk encAScan)

/-- What an application asks for: the compression parameters and tables `c`, scan_info, restart_in_rows, optimize_coding (after the rule
of jcmaster.c:1099-1103 for 12-bit data), jpeg_write_coefficients rather than jpeg_write_scanlines, input_components, the coefficient
arrays, the JFIF and Adobe markers, and the markers it writes with jpeg_write_marker.  A NULL scan_info is the script with all
components in one scan 0-63 (jcmaster.c:464-487), one for each component in order. -/
structure Job where
  c : CS
  script : List Script.Scan
  rir : Nat
  optimize : Bool
  trans : Bool
  ic : Nat
  img : Pos → Blk
  jfif : Option (Nat × Nat × Nat × Nat × Nat)
  adobe : Option Nat
  markers : List (Nat × List Nat)

/-- Sampling factors of the components. -/
def facs (c : CS) : List (Nat × Nat) := c.comps.map fun k => (k.h, k.v)

/-- jpeg_start_compress with write_all_tables, jpeg_write_coefficients: all tables are to be sent (jcapimin.c:155-175, jctrans.c:44-46);
progressive_mode as found by validate_script (jcmaster.c:377-383, 1062). -/
def start (c : CS) (prog : Bool) : CS :=
  { c with
    lossless := false
    prog := prog
    qSent := fun _ => false
    hSent := fun _ _ => false }

/-- optimize_coding as set by jinit_c_master_control (jcmaster.c:1087-1093). -/
def Job.opt (j : Job) (prog : Bool) : Bool := !j.c.arith && (j.optimize || prog)

/-- The coefficient controller (jcinit.c:114-117, jctrans.c:54). -/
def Job.way (j : Job) (prog : Bool) : Way :=
  if j.trans then .transcode else if j.script.length > 1 || j.opt prog then .twopass else .onepass

/-- The scan parameters (jcmaster.c:442-463). -/
def cscan (s : Script.Scan) : CScan := ⟨compIdx s, s.Ss.toNat, s.Se.toNat, s.Ah.toNat, s.Al.toNat⟩

/-- Component `i`. -/
def compOf (c : CS) (i : Nat) : CComp := c.comps.getD i comp0

/-- The Huffman coders' view of the compressor's tables and numbers.  A missing table is an error exit already in write_scan_header. -/
def eCfg (c : CS) : Prog.Cfg where
  ri := c.ri
  dcNo := fun i => (compOf c i).dc
  acNo := fun i => (compOf c i).ac
  dcT := fun n => (c.huff false n).getD ⟨[], []⟩
  acT := fun n => (c.huff true n).getD ⟨[], []⟩
  marker := 0
  tail := []

/-- The arithmetic coders' view. -/
def eACfg (c : CS) : Arith.ACfg where
  ri := c.ri
  dcNo := fun i => (compOf c i).dc
  acNo := fun i => (compOf c i).ac
  q := ⟨c.dcL, c.dcU, c.acK⟩
  marker := 0
  tail := []

/-- Block positions of an MCU of a sequential scan (jcmaster.c:584-591, jchuff.c:734-744; jdhuff.c:106-127). -/
def seqBs (g : Geom.Scan) (s : Script.Scan) (c : Prog.Cfg) : List BlkSpec :=
  g.membership.map fun k => ⟨k, c.dcNo ((compIdx s).getD k 0), c.acNo ((compIdx s).getD k 0)⟩

/-- restart_in_rows (jcmaster.c:597-602). -/
def setRi (rir : Nat) (g : Geom.Scan) (c : CS) : CS := if rir > 0 then { c with ri := min (rir * g.mcusPerRow) 65535 } else c

/-- The statistics pass of a scan (jcphuff.c:375-386, jchuff.c:798-912). -/
def gather (c : CS) (s : Script.Scan) (g : Geom.Scan) (ms : List (List Blk)) : Option (List SymEvent) :=
  if c.prog then gatherPScan c.prec (scanPar g s (eCfg c)) ms else gatherScan c.prec c.ri (seqBs g s (eCfg c)) ms

/-- The classes of tables that are made: in a progressive scan only the class it uses (jcphuff.c:1056-1075), in a sequential one both
(jchuff.c:1128-1148). -/
def makesDc (c : CS) (s : Script.Scan) : Bool := !c.prog || s.Ss.toNat == 0
def makesAc (c : CS) (s : Script.Scan) : Bool := !c.prog || s.Ss.toNat != 0

/-- Is the table made in the statistics pass of the scan? -/
def makes (c : CS) (s : Script.Scan) (ac : Bool) (n : Nat) : Bool :=
  (if ac then makesAc c s else makesDc c s) && (compIdx s).any fun i => (if ac then (compOf c i).ac else (compOf c i).dc) == n

/-- `jpeg_gen_optimal_table` does not stop with JERR_HUFF_CLEN_OVERFLOW. -/
def canMake (evs : List SymEvent) (ac : Bool) (n : Nat) : Bool := (Opt.genOptimal (Opt.optFreq evs (!ac) n)).isOk

/-- finish_pass_gather (jchuff.c:1110-1150, jcphuff.c:1045-1090): the tables of the scan replaced by optimal ones and marked as not sent
(jchuff.c:1104); a DC refinement scan has no statistics pass (jcmaster.c:657-664). -/
def retab (opt : Bool) (c : CS) (s : Script.Scan) (g : Geom.Scan) (ms : List (List Blk)) : Option CS :=
  if opt && !(c.prog && s.Ss.toNat == 0 && s.Ah.toNat != 0) then
    match gather c s g ms with
    | none => none
    | some evs =>
      if (compIdx s).all fun i => (!makesDc c s || canMake evs false (compOf c i).dc) && (!makesAc c s || canMake evs true (compOf c i).ac) then
        some { c with
          huff := fun ac n => if makes c s ac n then some (Opt.optTbl evs (!ac) n) else c.huff ac n
          hSent := fun ac n => !makes c s ac n && c.hSent ac n }
      else none
  else some c

/-- The entropy-coded data of a scan. -/
def encData (c : CS) (s : Script.Scan) (g : Geom.Scan) (ms : List (List Blk)) : Option (List Nat) :=
  if c.arith then
    if tblsOk false (aPar c.prog g s (eACfg c)) then some (encAScan (aPar c.prog g s (eACfg c)) ms) else none
  else if c.prog then encPScan c.prec (eCfg c).dcT (eCfg c).acT (scanPar g s (eCfg c)) ms
  else
    match (seqBs g s (eCfg c)).mapM (encBlk (eCfg c).dcT (eCfg c).acT) with
    | none => none
    | some es => encScan c.prec c.ri es ms

/-- One scan: statistics pass, scan header, data (prepare_for_pass, jcmaster.c:613-720). -/
def writeOne (j : Job) (f : Frame) (c : CS) (s : Script.Scan) : Option (List Nat × CS) :=
  match cPerScan f (compIdx s) with
  | .error _ => none
  | .ok g =>
    match (j.way c.prog).mcus f g j.img with
    | none => none
    | some ms =>
      match retab (j.opt c.prog) (setRi j.rir g c) s g ms with
      | none => none
      | some c2 =>
        match writeScan c2 (cscan s) with
        | none => none
        | some (b, c3) => (encData c2 s g ms).map fun d => (b ++ d, c3)

/-- All scans. -/
def writeScans (j : Job) (f : Frame) : List Script.Scan → CS → Option (List Nat × CS)
  | [], c => some ([], c)
  | s :: ss, c =>
    match writeOne j f c s with
    | none => none
    | some (b, c) => (writeScans j f ss c).map fun x => (b ++ x.1, x.2)

/-- The mode found by validate_script; lossless scripts are not covered here. -/
def Job.mode (j : Job) : Option Bool :=
  match Script.validate j.c.comps.length j.c.prec j.script with
  | .ok .sequential => some false
  | .ok .progressive => some true
  | _ => none

/-- The geometry of the image. -/
def Job.frame (j : Job) : Except Geom.GErr Frame := cInitialSetup false j.c.width j.c.height j.ic j.c.prec (facs j.c)

/-- A whole file; `none` = error exit. -/
def writeImage (j : Job) : Option (List Nat) :=
  match j.mode, j.frame with
  | some prog, .ok f =>
    match writeMarkers j.markers, writeFrame (writeFile (start j.c prog) j.jfif j.adobe).2 with
    | some mb, some (fb, c) =>
      (writeScans j f j.script c).map fun x => (writeFile (start j.c prog) j.jfif j.adobe).1 ++ mb ++ fb ++ x.1 ++ mark 0xD9
    | _, _ => none
  | _, _ => none

/-! ### Reader -/

/-- The scan parameters as get_sos left them (jdmarker.c:330-430). -/
def scanOf (m : Mem) : Script.Scan :=
  ⟨(List.range (m .nScan)).map fun j => ((m (.cur j) - 1 : Nat) : Int), m .Ss, m .Se, m .Ah, m .Al⟩

/-- A Huffman table as get_dht left it (jdmarker.c:487-552). -/
def tblOf (m : Mem) (ac : Bool) (n : Nat) : HuffTbl :=
  ⟨(List.range 16).map fun i => m (.hBits ac n (i + 1)), (List.range 256).map fun i => m (.hVal ac n i)⟩

/-- The Huffman decoders' view of the marker reader's results. -/
def dCfg (m : Mem) : Prog.Cfg := ⟨m .ri, fun i => m (.cDc i), fun i => m (.cAc i), tblOf m false, tblOf m true, 0, []⟩

/-- The arithmetic decoder's view. -/
def dACfg (m : Mem) : Arith.ACfg :=
  ⟨m .ri, fun i => m (.cDc i), fun i => m (.cAc i), ⟨fun n => m (.dcL n), fun n => m (.dcU n), fun n => m (.acK n)⟩, 0, []⟩

/-- JERR_NO_HUFF_TABLE in jpeg_make_d_derived_tbl (jdhuff.c:160-163) for the tables the scan needs (jdhuff.c:84-99, jdphuff.c:162-184).
Tables 4 and up are never defined. -/
def tblsDefined (prog : Bool) (m : Mem) : Bool :=
  (compIdx (scanOf m)).all fun i =>
    (if !prog || (m .Ss == 0 && m .Ah == 0) then m (.hDef false (m (.cDc i))) != 0 else true) &&
    (if !prog || m .Ss != 0 then m (.hDef true (m (.cAc i))) != 0 else true)

/-- start_pass_huff_decoder (jdhuff.c:66-137) and the MCUs of a sequential scan, stored in the arrays by consume_data
(jdcoefct.c:183-245). -/
def decodeSScan (f : Frame) (x : Script.Scan × Prog.Cfg) (bytes : List Nat) (st : DecSt) : Option (DecSt × Option (Nat × List Nat × Nat)) :=
  match dPerScan f (compIdx x.1) with
  | .error _ => none
  | .ok g =>
    match (seqBs g x.1 x.2).mapM (decBlk x.2.dcT x.2.acT) with
    | none => none
    | some ds =>
      match decMCUs x.2.ri ds (walk f g (dMcu f g)).length (decInit x.2.ri bytes) with
      | none => none
      | some (ms, s) =>
        let w := if x.1.Ss ≠ 0 ∨ x.1.Se ≠ 63 ∨ x.1.Ah ≠ 0 ∨ x.1.Al ≠ 0 then st.warns + 1 else st.warns
        some (⟨((walk f g (dMcu f g)).zip ms).foldl (fun a pm => storeMcu a pm.1 pm.2) st.img, st.bits, w + s.rd.warns⟩, endOfScan s)

/-- One scan, by the entropy decoder chosen in transdecode_master_selection (jdtrans.c:109-124).  Result: the decoder, the next marker
(the first next_marker of read_markers after the scan is taken with it), the input after it, and the number of warnings for data skipped
before it. -/
def decodeOne (f : Frame) (m : Mem) (bytes : List Nat) (st : DecSt) : Option (DecSt × Nat × List Nat × Nat) :=
  if m .arith ≠ 0 then
    match Arith.decodeAScan (m .prog != 0) f (scanOf m, dACfg m) bytes st with
    | some (st, some (mk, rest, w)) => some (st, mk, rest, w.length)
    | _ => none
  else if tblsDefined (m .prog != 0) m then
    match (if m .prog ≠ 0 then Prog.decodeScan f (scanOf m, dCfg m) bytes st else decodeSScan f (scanOf m, dCfg m) bytes st) with
    | some (st, some (mk, rest, disc)) => some (st, mk, rest, if disc ≠ 0 then 1 else 0)
    | _ => none
  else none

/-- latch_quant_tables (jdinput.c:255-280): quant_table of the components, by component. -/
def latch (m : Mem) (lat : Nat → Option (List Nat)) : Option (Nat → Option (List Nat)) :=
  if (compIdx (scanOf m)).all fun i => (lat i).isSome || (decide (m (.cTq i) < 4) && m (.qDef (m (.cTq i))) != 0) then
    some fun i =>
      if i ∈ compIdx (scanOf m) ∧ lat i = none then some ((List.range 64).map fun k => m (.q (m (.cTq i)) k)) else lat i
  else none

/-- The marker reader resumed after a scan: the marker is in unread_marker and discarded_bytes is 0 (jdmarker.c:870-916). -/
def resume (s : RS) (mk : Nat) (rest : List Nat) (w : Nat) : RS :=
  RS.mk (apply [(.warns, s.mem .warns + w)] (inMk s.mem mk)) rest s.skip s.saved s.curM

/-- What jpeg_read_coefficients leaves: geometry, the fields set by the marker reader, the saved markers, the coefficient arrays (with
coef_bits and the number of the entropy decoders' warnings), the quantization tables of the components, and the rest of the input. -/
structure Got where
  frame : Frame
  mem : Mem
  saved : List Saved
  st : DecSt
  quant : Nat → Option (List Nat)
  rest : List Nat

/-- consume_input until EOI (jdtrans.c:57-75, jdinput.c:301-372); `multi` = has_multiple_scans.  The first argument bounds the number of
scans; the input is finite. -/
def readScans (proc : Nat → Proc) (f : Frame) (multi : Bool) : Nat → RS → DecSt → (Nat → Option (List Nat)) → Option Got
  | 0, _, _, _ => none
  | k + 1, s, st, lat =>
    match latch s.mem lat with
    | none => none
    | some lat =>
      match decodeOne f s.mem s.src st with
      | none => none
      | some (st, mk, rest, w) =>
        match readMarkers proc (resume s mk rest w) with
        | .eoi s => some ⟨f, s.mem, s.saved, st, lat, s.src⟩
        | .sos s => if multi then readScans proc f multi k s st lat else none
        | _ => none

/-- jpeg_read_header and jpeg_read_coefficients; `none` = error exit or not enough input.  has_multiple_scans: jdinput.c:140-145. -/
def readImage (proc : Nat → Proc) (bytes : List Nat) : Option Got :=
  match readMarkers proc (RS.init bytes) with
  | .sos s =>
    let m := s.mem
    if m .lossless ≠ 0 then none
    else
      match dInitialSetup false (m .width) (m .height) (m .prec) ((List.range (m .ncomp)).map fun i => (m (.cH i), m (.cV i))) with
      | .error _ => none
      | .ok f => readScans proc f (decide (m .nScan < m .ncomp) || m .prog != 0) (bytes.length + 1) s DecSt.init fun _ => none
  | _ => none

end Verif.File
