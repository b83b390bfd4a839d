import Verif.Huff.Dec
/-
Marker reader (jdmarker.c).  The fields the routines assign are slots of a memory `Slot → Nat`; the body of a routine
is run as a parser that returns the list of its assignments in program order, so that what a routine has already stored
when it suspends is part of the model.  Bytes are `Nat`s; `return FALSE` for lack of input is `susp`.
Not modelled: trace messages, application-supplied marker processors, allocation of the table structures (the pointer
being non-NULL is a slot).
-/
namespace Verif.Mark
open Verif.Huff (natOrder)

/-- Fields of `jpeg_decompress_struct`, its component array, tables and marker reader assigned in jdmarker.c.
`hDef`, `hBits`, `hVal`: `ac` selects ac_huff_tbl_ptrs.  `cur i`: index of the component + 1, 0 = NULL. -/
inductive Slot where
  | qDef (n : Nat) | q (n i : Nat)
  | hDef (ac : Bool) (n : Nat) | hBits (ac : Bool) (n i : Nat) | hVal (ac : Bool) (n i : Nat)
  | dcL (n : Nat) | dcU (n : Nat) | acK (n : Nat) | ri
  | prog | lossless | arith | prec | height | width | ncomp
  | cId (i : Nat) | cH (i : Nat) | cV (i : Nat) | cTq (i : Nat) | cDc (i : Nat) | cAc (i : Nat)
  | nScan | cur (i : Nat) | Ss | Se | Ah | Al | rstNum | scanNo
  | sawSOI | sawSOF | jcs | ccir | sawJFIF | jMajor | jMinor | dUnit | xDen | yDen | sawAdobe | adobe
  | unread | disc | warns
deriving DecidableEq, Repr

abbrev Mem := Slot → Nat

/-- Array bounds (jpeglib.h: NUM_QUANT_TBLS 4, DCTSIZE2 64, NUM_HUFF_TBLS 4, bits[17], huffval[256], NUM_ARITH_TBLS 16,
MAX_COMPS_IN_SCAN 4; comp_info has as many entries as get_sof allocated, `nc`). -/
def Slot.InBounds (nc : Nat) : Slot → Prop
  | .qDef n => n < 4
  | .q n i => n < 4 ∧ i < 64
  | .hDef _ n => n < 4
  | .hBits _ n i => n < 4 ∧ i < 17
  | .hVal _ n i => n < 4 ∧ i < 256
  | .dcL n | .dcU n | .acK n => n < 16
  | .cId i | .cH i | .cV i | .cTq i | .cDc i | .cAc i => i < nc
  | .cur i => i < 4
  | _ => True

/-- The value fits the field or its documented range (UINT16 quantval, UINT8 bits/huffval/conditioning values, 4-bit
factors and table numbers, …). -/
def Slot.Fits : Slot → Nat → Prop
  | .q _ _, v | .ri, v | .height, v | .width, v | .xDen, v | .yDen, v => v < 65536
  | .hBits _ _ _, v | .hVal _ _ _, v | .dcU _, v | .acK _, v | .prec, v | .ncomp, v | .cId _, v | .cTq _, v | .Ss, v
  | .Se, v | .jMajor, v | .jMinor, v | .dUnit, v | .adobe, v => v < 256
  | .dcL _, v | .cH _, v | .cV _, v | .cDc _, v | .cAc _, v | .Ah, v | .Al, v => v < 16
  | .nScan, v | .cur _, v => v ≤ 4
  | .rstNum, v => v < 8
  | _, _ => True

/-- Error exits. -/
inductive Err where
  | soiDuplicate | sofDuplicate | emptyImage | badLength | sosNoSof | badComponentId | dacIndex | dacValue
  | badHuffTable | dhtIndex | dqtIndex | unknownMarker | noSoi | sofUnsupported
  /-- not an error of the code: an iteration bound of the model was reached (proved impossible) -/
  | bound
deriving DecidableEq, Repr

abbrev Writes := List (Slot × Nat)

/-- One assignment after the other. -/
def apply (w : Writes) (m : Mem) : Mem := w.foldl (fun m x => fun s => if s = x.1 then x.2 else m s) m

/-- Outcome of a piece of a routine. -/
inductive Out (α : Type) where
  | ok (a : α) (w : Writes) (rest : List Nat)
  | susp (w : Writes)
  | err (e : Err)

/-- Code that reads input with INPUT_BYTE/INPUT_2BYTES (jdmarker.c:124-166) and assigns fields. -/
abbrev P (α : Type) := List Nat → Out α

def P.bind {α β : Type} (p : P α) (f : α → P β) : P β := fun b =>
  match p b with
  | .ok a w r =>
    match f a r with
    | .ok x w' r' => .ok x (w ++ w') r'
    | .susp w' => .susp (w ++ w')
    | .err e => .err e
  | .susp w => .susp w
  | .err e => .err e

instance : Monad P where
  pure a := fun b => .ok a [] b
  bind := P.bind

/-- INPUT_BYTE (jdmarker.c:150-153). -/
def inByte : P Nat
  | [] => .susp []
  | c :: r => .ok c [] r

/-- INPUT_2BYTES (jdmarker.c:158-166). -/
def in2Bytes : P Nat := do
  let a ← inByte
  let b ← inByte
  pure (a * 256 + b)

/-- An assignment. -/
def put (s : Slot) (v : Nat) : P Unit := fun b => .ok () [(s, v)] b

/-- ERREXIT. -/
def fail {α : Type} (e : Err) : P α := fun _ => .err e

/-- A loop reading `n` bytes. -/
def inBytes : Nat → P (List Nat)
  | 0 => pure []
  | n + 1 => do
    let c ← inByte
    let cs ← inBytes n
    pure (c :: cs)

/-- Assignments in sequence. -/
def puts (w : Writes) : P Unit := fun b => .ok () w b

/-- get_soi (jdmarker.c:210-252). -/
def getSoi (m : Mem) : P Unit := do
  if m .sawSOI ≠ 0 then fail .soiDuplicate
  else
    puts ((List.range 16).flatMap (fun i => [(Slot.dcL i, 0), (.dcU i, 1), (.acK i, 5)]))
    puts [(.ri, 0), (.jcs, 0), (.ccir, 0), (.sawJFIF, 0), (.jMajor, 1), (.jMinor, 1), (.dUnit, 0), (.xDen, 1), (.yDen, 1),
      (.sawAdobe, 0), (.adobe, 0), (.sawSOI, 1)]

/-- The component loop of get_sof (jdmarker.c:288-301). -/
def sofComps : (n ci : Nat) → P Unit
  | 0, _ => pure ()
  | n + 1, ci => do
    let id ← inByte
    put (.cId ci) id
    let c ← inByte
    put (.cH ci) ((c >>> 4) &&& 15)
    put (.cV ci) (c &&& 15)
    let tq ← inByte
    put (.cTq ci) tq
    sofComps n (ci + 1)

/-- get_sof (jdmarker.c:255-305). -/
def getSof (m : Mem) (prog lossless arith : Nat) : P Unit := do
  if m .sawSOF ≠ 0 then fail .sofDuplicate
  else
    put .prog prog
    put .lossless lossless
    put .arith arith
    let length ← in2Bytes
    let prec ← inByte
    put .prec prec
    let h ← in2Bytes
    put .height h
    let w ← in2Bytes
    put .width w
    let n ← inByte
    put .ncomp n
    let length : Int := (length : Int) - 8
    if h = 0 ∨ w = 0 ∨ n = 0 then fail .emptyImage
    else if length ≠ (n : Int) * 3 then fail .badLength
    else
      sofComps n 0
      put .sawSOF 1

/-- The search for the component (jdmarker.c:342-350): `cur` is cur_comp_info so far, by scan position. -/
def findComp (m : Mem) (cc : Nat) (cur : List Nat) : Nat → Nat → Option Nat
  | 0, _ => none
  | n + 1, ci => if cc = m (.cId ci) ∧ cur.getD ci 0 = 0 then some ci else findComp m cc cur n (ci + 1)

/-- The component loop of get_sos (jdmarker.c:337-369); `n` more entries, `cur` = the entries so far (index + 1). -/
def sosComps (m : Mem) : (n : Nat) → (cur : List Nat) → P Unit
  | 0, _ => pure ()
  | n + 1, cur => do
    let cc ← inByte
    let c ← inByte
    match findComp m cc cur (min (m .ncomp) 4) 0 with
    | none => fail .badComponentId
    | some ci =>
      put (.cur cur.length) (ci + 1)
      put (.cDc ci) ((c >>> 4) &&& 15)
      put (.cAc ci) (c &&& 15)
      if ci + 1 ∈ cur then fail .badComponentId
      else sosComps m n (cur ++ [ci + 1])

/-- get_sos (jdmarker.c:308-391). -/
def getSos (m : Mem) : P Unit := do
  if m .sawSOF = 0 then fail .sosNoSof
  else
    let length ← in2Bytes
    let n ← inByte
    if length ≠ n * 2 + 6 ∨ n < 1 ∨ n > 4 then fail .badLength
    else
      put .nScan n
      puts [(.cur 0, 0), (.cur 1, 0), (.cur 2, 0), (.cur 3, 0)]
      sosComps m n []
      let c ← inByte
      put .Ss c
      let c ← inByte
      put .Se c
      let c ← inByte
      put .Ah ((c >>> 4) &&& 15)
      put .Al (c &&& 15)
      put .rstNum 0
      put .scanNo (m .scanNo + 1)

/-- The loop of get_dac (jdmarker.c:409-429); the second argument bounds the iterations. -/
def dacLoop : Nat → Int → P Unit
  | 0, _ => fail .bound
  | k + 1, length =>
    if length > 0 then do
      let index ← inByte
      let val ← inByte
      let length := length - 2
      if index ≥ 32 then fail .dacIndex
      else if index ≥ 16 then
        put (.acK (index - 16)) (val % 256)
        dacLoop k length
      else
        put (.dcL index) (val &&& 15)
        put (.dcU index) ((val >>> 4) % 256)
        if val &&& 15 > (val >>> 4) % 256 then fail .dacValue
        else dacLoop k length
    else if length ≠ 0 then fail .badLength
    else pure ()

/-- get_dac (jdmarker.c:396-436). -/
def getDac : P Unit := do
  let length ← in2Bytes
  dacLoop (length + 1) ((length : Int) - 2)

/-- The assignments that store a Huffman table (jdmarker.c:502-507). -/
def tblWrites (ac : Bool) (n : Nat) (bits vals : List Nat) : Writes :=
  (Slot.hDef ac n, 1) :: ((List.range 17).map (fun i => (Slot.hBits ac n i, bits.getD i 0)) ++
    (List.range 256).map (fun i => (Slot.hVal ac n i, vals.getD i 0)))

/-- The symbols of a table, read into `huffval[256]` (jdmarker.c:477-480): storing beyond the array is an error of the model. -/
def inHuffval (count : Nat) : P (List Nat) := if count ≤ 256 then inBytes count else fail .bound

/-- The loop of get_dht (jdmarker.c:459-508). -/
def dhtLoop : Nat → Int → P Unit
  | 0, _ => fail .bound
  | k + 1, length =>
    if length > 16 then do
      let index ← inByte
      let bits ← inBytes 16
      let count := bits.sum
      let length := length - (1 + 16)
      if count > 256 ∨ (count : Int) > length then fail .badHuffTable
      else
        let vals ← inHuffval count
        let length := length - count
        if index &&& 0x10 ≠ 0 then
          if (index : Int) - 0x10 < 0 ∨ index - 0x10 ≥ 4 then fail .dhtIndex
          else
            puts (tblWrites true (index - 0x10) (0 :: bits) vals)
            dhtLoop k length
        else if index ≥ 4 then fail .dhtIndex
        else
          puts (tblWrites false index (0 :: bits) vals)
          dhtLoop k length
    else if length ≠ 0 then fail .badLength
    else pure ()

/-- get_dht (jdmarker.c:445-515). -/
def getDht : P Unit := do
  let length ← in2Bytes
  dhtLoop (length + 1) ((length : Int) - 2)

/-- Reading one entry of a quantization table (jdmarker.c:548-551). -/
def dqtEntry (prec : Nat) : P Nat := if prec ≠ 0 then in2Bytes else inByte

/-- The value loop of get_dqt (jdmarker.c:547-554), from entry `i` on. -/
def dqtVals (n prec : Nat) : (k i : Nat) → P Unit
  | 0, _ => pure ()
  | k + 1, i => do
    let tmp ← dqtEntry prec
    put (.q n (natOrder.getD i 0)) (tmp % 65536)
    dqtVals n prec k (i + 1)

/-- The loop of get_dqt (jdmarker.c:532-568). -/
def dqtLoop : Nat → Int → P Unit
  | 0, _ => fail .bound
  | k + 1, length =>
    if length > 0 then do
      let n ← inByte
      let prec := n >>> 4
      let n := n &&& 0x0F
      if n ≥ 4 then fail .dqtIndex
      else
        put (.qDef n) 1
        dqtVals n prec 64 0
        let length := length - (64 + 1)
        dqtLoop k (if prec ≠ 0 then length - 64 else length)
    else if length ≠ 0 then fail .badLength
    else pure ()

/-- get_dqt (jdmarker.c:518-575). -/
def getDqt : P Unit := do
  let length ← in2Bytes
  dqtLoop (length + 1) ((length : Int) - 2)

/-- get_dri (jdmarker.c:578-602). -/
def getDri : P Unit := do
  let length ← in2Bytes
  if length ≠ 4 then fail .badLength
  else
    let tmp ← in2Bytes
    put .ri tmp

/-- examine_app0 (jdmarker.c:615-675): the assignments. -/
def examineApp0 (m : Mem) (data : List Nat) : Writes :=
  if data.length ≥ 14 ∧ data.take 5 = [0x4A, 0x46, 0x49, 0x46, 0] then
    [(.sawJFIF, 1), (.jMajor, data.getD 5 0), (.jMinor, data.getD 6 0), (.dUnit, data.getD 7 0),
     (.xDen, data.getD 8 0 * 256 + data.getD 9 0), (.yDen, data.getD 10 0 * 256 + data.getD 11 0)] ++
    (if data.getD 5 0 ≠ 1 then [(.warns, m .warns + 1)] else [])
  else []

/-- examine_app14 (jdmarker.c:678-705). -/
def examineApp14 (data : List Nat) : Writes :=
  if data.length ≥ 12 ∧ data.take 5 = [0x41, 0x64, 0x6F, 0x62, 0x65] then
    [(.sawAdobe, 1), (.adobe, data.getD 11 0)]
  else []

/-- Which examination a marker gets (jdmarker.c:731-742, 828-839). -/
def examine (m : Mem) (marker : Nat) (data : List Nat) : Writes :=
  if marker = 0xE0 then examineApp0 m data else if marker = 0xEE then examineApp14 data else []

/-- get_interesting_appn up to the skipping (jdmarker.c:708-744); returns the number of bytes still to skip. -/
def getAppn (m : Mem) (marker : Nat) : P Nat := do
  let length ← in2Bytes
  let length : Int := (length : Int) - 2
  let num := if length ≥ 14 then 14 else if length > 0 then length.toNat else 0
  let b ← inBytes num
  let length := length - num
  if marker = 0xE0 ∨ marker = 0xEE then
    puts (examine m marker b)
    pure length.toNat
  else fail .unknownMarker

/-- skip_variable up to the skipping (jdmarker.c:857-875). -/
def skipVariable : P Nat := do
  let length ← in2Bytes
  pure (length - 2)

/-! ### the reader as a whole -/

/-- What to do with an APPn or COM marker: process_COM, process_APPn and the length limits (jdmarker.c:100-105). -/
inductive Proc where
  | skip
  | appn
  | save (limit : Nat)
deriving DecidableEq, Repr

/-- An entry of marker_list. -/
structure Saved where
  code : Nat
  origLen : Nat
  data : List Nat
deriving DecidableEq, Repr

/-- Reader state: fields, bytes available at the restart point, bytes the source manager still has to skip, marker_list,
`cur_marker` with the data read so far and the length wanted. -/
structure RS where
  mem : Mem
  src : List Nat
  skip : Nat
  saved : List Saved
  curM : Option (Saved × Nat)

/-- skip_input_data on a source that may run dry (jdatasrc.c:193-211 and, for suspending sources, libjpeg.txt: bytes
not yet there are skipped when they come). -/
def RS.skipData (s : RS) (n : Nat) : RS :=
  if n ≤ s.src.length then { s with src := s.src.drop n } else { s with src := [], skip := n - s.src.length }

/-- More input arrives. -/
def RS.feed (s : RS) (c : List Nat) : RS :=
  { s with src := s.src ++ c.drop (min s.skip c.length), skip := s.skip - min s.skip c.length }

/-- Result of processing one marker: continue, suspended, error. -/
inductive Step where
  | cont (s : RS)
  | susp (s : RS)
  | err (e : Err)

/-- Running a routine from the restart point; on success INPUT_SYNC. -/
def RS.run {α : Type} (s : RS) (p : P α) (k : α → RS → Step) : Step :=
  match p s.src with
  | .ok a w r => k a { s with mem := apply w s.mem, src := r }
  | .susp w => .susp { s with mem := apply w s.mem }
  | .err e => .err e

/-- The end of save_marker (jdmarker.c:810-847). -/
def finishSave (s : RS) (marker : Nat) (cur : Saved) : Step :=
  let s' : RS := RS.mk (apply (examine s.mem marker cur.data) s.mem) s.src s.skip (s.saved ++ [cur]) none
  .cont (s'.skipData (cur.origLen - cur.data.length))

/-- The reading loop of save_marker (jdmarker.c:796-808): `need` = data_length. -/
def saveData (s : RS) (marker : Nat) (cur : Saved) (need : Nat) : Step :=
  let k := min (need - cur.data.length) s.src.length
  let cur := { cur with data := cur.data ++ s.src.take k }
  let s := { s with src := s.src.drop k }
  if cur.data.length < need then .susp { s with curM := some (cur, need) }
  else finishSave s marker cur

/-- save_marker (jdmarker.c:753-848). -/
def saveMarker (s : RS) (marker limit : Nat) : Step :=
  match s.curM with
  | some (cur, need) => saveData s marker cur need
  | none =>
    match in2Bytes s.src with
    | .err e => .err e
    | .susp _ => .susp s
    | .ok w _ r =>
      if 2 ≤ w then saveData { s with src := r } marker ⟨marker, w - 2, []⟩ (if w - 2 < limit then w - 2 else limit)
      else .cont { s with src := r }

/-- next_marker (jdmarker.c:889-937) with its restart points: every discarded byte and every discarded FF 00 moves the
restart point and counts.  `pend`: bytes of a pending run of FFs, which are re-read after a suspension. -/
def nextMk (disc : Nat) (pend : List Nat) : List Nat → Except (List Nat × Nat) (Nat × List Nat × Nat)
  | [] => .error (pend, disc)
  | c :: rest =>
    if pend = [] then
      if c = 0xFF then nextMk disc [c] rest else nextMk (disc + 1) [] rest
    else if c = 0xFF then nextMk disc (pend ++ [c]) rest
    else if c = 0 then nextMk (disc + 2) [] rest
    else .ok (c, rest, disc)

/-- next_marker on the state. -/
def RS.nextMarker (s : RS) : Step :=
  match nextMk (s.mem .disc) [] s.src with
  | .error (pend, disc) => .susp { s with src := pend, mem := apply [(.disc, disc)] s.mem }
  | .ok (c, rest, disc) =>
    .cont { s with src := rest, mem := apply ((if disc ≠ 0 then [(Slot.warns, s.mem .warns + 1), (.disc, 0)] else
      [(.disc, disc)]) ++ [(.unread, c)]) s.mem }

/-- first_marker (jdmarker.c:940-965). -/
def firstMarker : P Unit := do
  let c ← inByte
  let c2 ← inByte
  if c ≠ 0xFF ∨ c2 ≠ 0xD8 then fail .noSoi
  else put .unread c2

/-- Returns of read_markers. -/
inductive Ret where
  | sos (s : RS)
  | eoi (s : RS)
  | susp (s : RS)
  | err (e : Err)

/-- `cinfo->unread_marker = 0`. -/
def RS.clear (s : RS) : RS := RS.mk (apply [(.unread, 0)] s.mem) s.src s.skip s.saved s.curM

/-- One marker whose code is in unread_marker: the `switch` of read_markers (jdmarker.c:992-1117). -/
def process (proc : Nat → Proc) (s : RS) : Step :=
  let m := s.mem
  let mk := m .unread
  let done : Unit → RS → Step := fun _ s => .cont s
  let skipped : Nat → RS → Step := fun n s => .cont (s.skipData n)
  if mk = 0xD8 then s.run (getSoi m) done
  else if mk = 0xC0 ∨ mk = 0xC1 then s.run (getSof m 0 0 0) done
  else if mk = 0xC2 then s.run (getSof m 1 0 0) done
  else if mk = 0xC3 then s.run (getSof m 0 1 0) done
  else if mk = 0xC9 then s.run (getSof m 0 0 1) done
  else if mk = 0xCA then s.run (getSof m 1 0 1) done
  else if mk = 0xCB then s.run (getSof m 0 1 1) done
  else if mk ∈ [0xC5, 0xC6, 0xC7, 0xC8, 0xCD, 0xCE, 0xCF] then .err .sofUnsupported
  else if mk = 0xDA then s.run (getSos m) done
  else if mk = 0xCC then s.run getDac done
  else if mk = 0xC4 then s.run getDht done
  else if mk = 0xDB then s.run getDqt done
  else if mk = 0xDD then s.run getDri done
  else if (0xE0 ≤ mk ∧ mk ≤ 0xEF) ∨ mk = 0xFE then
    match proc mk with
    | .skip => s.run skipVariable skipped
    | .appn => s.run (getAppn m mk) skipped
    | .save limit => saveMarker s mk limit
  else if (0xD0 ≤ mk ∧ mk ≤ 0xD7) ∨ mk = 0x01 then .cont s
  else if mk = 0xDC then s.run skipVariable skipped
  else .err .unknownMarker

/-- read_markers (jdmarker.c:976-1122); the first argument bounds the iterations. -/
def readLoop (proc : Nat → Proc) : Nat → RS → Ret
  | 0, _ => .err .bound
  | k + 1, s =>
    let got : Step :=
      if s.mem .unread = 0 then
        if s.mem .sawSOI = 0 then s.run firstMarker (fun _ s => .cont s) else s.nextMarker
      else .cont s
    match got with
    | .err e => .err e
    | .susp s => .susp s
    | .cont s =>
      if s.mem .unread = 0xD9 then .eoi s.clear
      else match process proc s with
        | .err e => .err e
        | .susp s => .susp s
        | .cont s' => if s.mem .unread = 0xDA then .sos s'.clear else readLoop proc k s'.clear

/-- read_markers with a bound that is never reached. -/
def readMarkers (proc : Nat → Proc) (s : RS) : Ret := readLoop proc (s.src.length + 2) s

/-- jpeg_save_markers (jdmarker.c:1407-1447), `maxAlloc` = max_alloc_chunk - sizeof(struct jpeg_marker_struct);
`none` = error exit. -/
def saveMarkers (maxAlloc : Nat) (proc : Nat → Proc) (code limit : Nat) : Option (Nat → Proc) :=
  let limit := if limit > maxAlloc then maxAlloc else limit
  let p : Proc :=
    if limit ≠ 0 then
      .save (if code = 0xE0 ∧ limit < 14 then 14 else if code = 0xEE ∧ limit < 12 then 12 else limit)
    else if code = 0xE0 ∨ code = 0xEE then .appn else .skip
  if code = 0xFE ∨ (0xE0 ≤ code ∧ code ≤ 0xEF) then some (fun c => if c = code then p else proc c) else none

/-- The processors set by jinit_marker_reader (jdmarker.c:1378-1390). -/
def defaultProc : Nat → Proc := fun c => if c = 0xE0 ∨ c = 0xEE then .appn else .skip

/-- State after jpeg_create_decompress / reset_marker_reader (jdmarker.c:1340-1354) with no tables defined. -/
def RS.init (src : List Nat) : RS := { mem := fun _ => 0, src := src, skip := 0, saved := [], curM := none }

end Verif.Mark
