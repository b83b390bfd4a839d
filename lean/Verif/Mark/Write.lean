import Verif.Huff.Dec
import Verif.Huff.Table
/-
Marker writer (jcmarker.c).  Output is the list of emitted bytes; `none` = error exit.  Tables are identified by number
(two numbers never share a table structure).  Suspension while writing a marker is an error in the library
(emit_byte) and is not modelled.
-/
namespace Verif.Mark
open Verif.Huff (natOrder HuffTbl)

/-- Component parameters (jpeg_component_info). -/
structure CComp where
  id : Nat
  h : Nat
  v : Nat
  tq : Nat
  dc : Nat
  ac : Nat
deriving DecidableEq, Repr

/-- The fields of `jpeg_compress_struct` read by jcmarker.c.  `q n`: quantval in natural order; `huff ac n`: counts of
codes of length 1..16 (`bits[1..16]`) and huffval. -/
structure CS where
  fastest : Bool
  lossless : Bool
  arith : Bool
  prog : Bool
  prec : Nat
  width : Nat
  height : Nat
  comps : List CComp
  q : Nat → Option (List Nat)
  qSent : Nat → Bool
  huff : Bool → Nat → Option HuffTbl
  hSent : Bool → Nat → Bool
  dcL : Nat → Nat
  dcU : Nat → Nat
  acK : Nat → Nat
  ri : Nat
  lastRi : Nat

/-- Parameters of the current scan: component indexes, Ss, Se, Ah, Al. -/
structure CScan where
  idx : List Nat
  Ss : Nat
  Se : Nat
  Ah : Nat
  Al : Nat
deriving DecidableEq, Repr

/-- emit_2bytes (jcmarker.c:136-142). -/
def be2 (v : Nat) : List Nat := [v / 256 % 256, v % 256]

/-- emit_marker (jcmarker.c:127-133). -/
def mark (c : Nat) : List Nat := [0xFF, c]

def setB (f : Nat → Bool) (n : Nat) : Nat → Bool := fun i => if i = n then true else f i

/-- The precision of a table: 1 if some entry exceeds 255 (jcmarker.c:161-165, 207-209). -/
def dqtPrec (vals : List Nat) : Nat := if (List.range 64).any (fun i => vals.getD i 0 > 255) then 1 else 0

/-- Table number, precision and entries in zigzag order (jcmarker.c:172-180, 241-250). -/
def dqtBody (n : Nat) (vals : List Nat) : List Nat :=
  (n + dqtPrec vals * 16) % 256 ::
    (List.range 64).flatMap (fun i =>
      let v := vals.getD (natOrder.getD i 0) 0
      if dqtPrec vals ≠ 0 then [v / 256 % 256, v % 256] else [v % 256])

/-- emit_dqt (jcmarker.c:149-186): precision, bytes, new sent flags. -/
def emitDqt (q : Nat → Option (List Nat)) (sent : Nat → Bool) (n : Nat) : Option (Nat × List Nat × (Nat → Bool)) :=
  match q n with
  | none => none
  | some vals =>
    if sent n then some (dqtPrec vals, [], sent)
    else some (dqtPrec vals,
      mark 0xDB ++ be2 (if dqtPrec vals ≠ 0 then 64 * 2 + 1 + 2 else 64 + 1 + 2) ++ dqtBody n vals, setB sent n)

/-- The size computation of emit_multi_dqt (jcmarker.c:217-224). -/
def mdqtSize (q : Nat → Option (List Nat)) : List Nat → (seen : Nat → Bool) → Nat
  | [], _ => 0
  | n :: ns, seen =>
    (if seen n then 0 else 64 * (dqtPrec ((q n).getD []) + 1) + 1) + mdqtSize q ns (setB seen n)

/-- The output loop of emit_multi_dqt (jcmarker.c:229-254). -/
def mdqtEmit (q : Nat → Option (List Nat)) : List Nat → (sent : Nat → Bool) → List Nat × (Nat → Bool)
  | [], sent => ([], sent)
  | n :: ns, sent =>
    if sent n then mdqtEmit q ns sent
    else
      let r := mdqtEmit q ns (setB sent n)
      (dqtBody n ((q n).getD []) ++ r.1, r.2)

/-- emit_multi_dqt (jcmarker.c:188-257); `none` = returns -1.  `tqs`: the table numbers of the components. -/
def multiDqt (fastest : Bool) (q : Nat → Option (List Nat)) (sent : Nat → Bool) (tqs : List Nat) :
    Option (Nat × List Nat × (Nat → Bool)) :=
  if fastest then none
  else if tqs.any (fun n => (q n).isNone || sent n) then none
  else
    let e := mdqtEmit q tqs sent
    some ((tqs.map (fun n => dqtPrec ((q n).getD []))).sum,
      mark 0xDB ++ be2 (mdqtSize q tqs (fun _ => false) + 2) ++ e.1, e.2)

/-- The emit_dqt loop of write_frame_header (jcmarker.c:691-694). -/
def dqtEach (q : Nat → Option (List Nat)) : List Nat → (sent : Nat → Bool) → Option (Nat × List Nat × (Nat → Bool))
  | [], sent => some (0, [], sent)
  | n :: ns, sent =>
    match emitDqt q sent n with
    | none => none
    | some (p, b, sent) =>
      match dqtEach q ns sent with
      | none => none
      | some (p', b', sent) => some (p + p', b ++ b', sent)

/-- emit_sof (jcmarker.c:464-491). -/
def emitSof (c : CS) (code : Nat) : Option (List Nat) :=
  if c.height > 65535 ∨ c.width > 65535 then none
  else some (mark code ++ be2 (3 * c.comps.length + 2 + 5 + 1) ++ [c.prec % 256] ++ be2 c.height ++ be2 c.width ++
    [c.comps.length % 256] ++ c.comps.flatMap (fun k => [k.id % 256, (k.h * 16 + k.v) % 256, k.tq % 256]))

/-- The quantization tables of write_frame_header (jcmarker.c:684-697). -/
def frameDqt (c : CS) : Option (Nat × List Nat × (Nat → Bool)) :=
  match multiDqt c.fastest c.q c.qSent (c.comps.map (·.tq)) with
  | some r => some r
  | none => if c.lossless then some (0, [], c.qSent) else dqtEach c.q (c.comps.map (·.tq)) c.qSent

/-- The choice of the SOF marker (jcmarker.c:702-734). -/
def sofCode (c : CS) (prec : Nat) : Nat :=
  let baseline := !(c.arith || c.prog || c.lossless || c.prec ≠ 8) && !(c.comps.any (fun k => k.dc > 1 || k.ac > 1)) && prec = 0
  if c.arith then (if c.prog then 0xCA else 0xC9)
  else if c.prog then 0xC2 else if c.lossless then 0xC3 else if baseline then 0xC0 else 0xC1

/-- write_frame_header (jcmarker.c:674-735). -/
def writeFrame (c : CS) : Option (List Nat × CS) :=
  match frameDqt c with
  | none => none
  | some (prec, b, sent) =>
    match emitSof c (sofCode c prec) with
    | none => none
    | some s => some (b ++ s, { c with qSent := sent })

/-- Table class and number, counts, symbols (jcmarker.c:282-288). -/
def dhtBody (ac : Bool) (n : Nat) (t : HuffTbl) : List Nat :=
  (if ac then n + 0x10 else n) % 256 :: ((List.range 16).map (fun i => t.counts.getD i 0 % 256) ++
    (List.range t.counts.sum).map (fun i => t.vals.getD i 0 % 256))

def setH (f : Bool → Nat → Bool) (ac : Bool) (n : Nat) : Bool → Nat → Bool := fun a i => if a = ac ∧ i = n then true else f a i

/-- emit_dht (jcmarker.c:256-292). -/
def emitDht (huff : Bool → Nat → Option HuffTbl) (sent : Bool → Nat → Bool) (ac : Bool) (n : Nat) :
    Option (List Nat × (Bool → Nat → Bool)) :=
  match huff ac n with
  | none => none
  | some t =>
    if sent ac n then some ([], sent)
    else some (mark 0xC4 ++ be2 (t.counts.sum + 2 + 1 + 16) ++ dhtBody ac n t, setH sent ac n)

/-- The length loop of emit_multi_dht (jcmarker.c:310-356): `needDc`, `needAc` = `Ss == 0 && Ah == 0`, `Se`; the lists
are `dcseen`, `acseen`.  Result: total length and, per component, the lengths put in dclens[i], aclens[i].
Note the `continue` that skips the AC table when the DC table was sent or seen before. -/
def mdhtLens (huff : Bool → Nat → Option HuffTbl) (sent : Bool → Nat → Bool) (needDc needAc : Bool) :
    List CComp → (dcseen acseen : List Nat) → Option (Nat × List (Nat × Nat))
  | [], _, _ => some (0, [])
  | k :: ks, ds, as =>
    -- DC part: none = error; some none = continue; some (some len) = go on
    let dc : Option (Option Nat) :=
      if needDc then
        match huff false k.dc with
        | none => none
        | some t => if sent false k.dc || ds.contains k.dc then some none else some (some t.counts.sum)
      else some (some 0)
    match dc with
    | none => none
    | some none =>
      (mdhtLens huff sent needDc needAc ks ds as).map (fun r => (r.1, (0, 0) :: r.2))
    | some (some dlen) =>
      let ds := if needDc then k.dc :: ds else ds
      let dl := if needDc then dlen + 16 + 1 else 0
      if needAc then
        match huff true k.ac with
        | none => none
        | some t =>
          if sent true k.ac || as.contains k.ac then
            (mdhtLens huff sent needDc needAc ks ds as).map (fun r => (dl + r.1, (dlen, 0) :: r.2))
          else
            (mdhtLens huff sent needDc needAc ks ds (k.ac :: as)).map
              (fun r => (dl + (t.counts.sum + 16 + 1) + r.1, (dlen, t.counts.sum) :: r.2))
      else (mdhtLens huff sent needDc needAc ks ds as).map (fun r => (dl + r.1, (dlen, 0) :: r.2))

/-- As `dhtBody`, with the number of symbols that emit_multi_dht has in dclens / aclens. -/
def dhtBodyN (ac : Bool) (n : Nat) (t : HuffTbl) (len : Nat) : List Nat :=
  (if ac then n + 0x10 else n) % 256 :: ((List.range 16).map (fun i => t.counts.getD i 0 % 256) ++
    (List.range len).map (fun i => t.vals.getD i 0 % 256))

/-- The output loop of emit_multi_dht (jcmarker.c:365-402). -/
def mdhtEmit (huff : Bool → Nat → Option HuffTbl) (needDc needAc : Bool) :
    List (CComp × Nat × Nat) → (sent : Bool → Nat → Bool) → List Nat × (Bool → Nat → Bool)
  | [], sent => ([], sent)
  | (k, dlen, alen) :: ks, sent =>
    let d : List Nat × (Bool → Nat → Bool) :=
      if needDc && !sent false k.dc then
        (dhtBodyN false k.dc ((huff false k.dc).getD ⟨[], []⟩) dlen, setH sent false k.dc)
      else ([], sent)
    let a : List Nat × (Bool → Nat → Bool) :=
      if needAc && !d.2 true k.ac then
        (dhtBodyN true k.ac ((huff true k.ac).getD ⟨[], []⟩) alen, setH d.2 true k.ac)
      else ([], d.2)
    let r := mdhtEmit huff needDc needAc ks a.2
    (d.1 ++ a.1 ++ r.1, r.2)

/-- Result of emit_multi_dht: error exit, FALSE, or TRUE with the output. -/
inductive MD where
  | err
  | no
  | yes (b : List Nat) (sent : Bool → Nat → Bool)

/-- emit_multi_dht (jcmarker.c:294-405). -/
def multiDht (fastest : Bool) (huff : Bool → Nat → Option HuffTbl) (sent : Bool → Nat → Bool) (needDc needAc : Bool)
    (ks : List CComp) : MD :=
  if fastest then .no
  else
    match mdhtLens huff sent needDc needAc ks [] [] with
    | none => .err
    | some (len, lens) =>
      if len + 2 > 65535 then .no
      else
        let e := mdhtEmit huff needDc needAc (ks.zip lens) sent
        .yes (mark 0xC4 ++ be2 (len + 2) ++ e.1) e.2

/-- The emit_dht loop of write_scan_header (jcmarker.c:762-771). -/
def dhtEach (huff : Bool → Nat → Option HuffTbl) (dc ac : Bool) : List CComp → (sent : Bool → Nat → Bool) →
    Option (List Nat × (Bool → Nat → Bool))
  | [], sent => some ([], sent)
  | k :: ks, sent =>
    match (if dc then emitDht huff sent false k.dc else some ([], sent)) with
    | none => none
    | some (b1, sent) =>
      match (if ac then emitDht huff sent true k.ac else some ([], sent)) with
      | none => none
      | some (b2, sent) =>
        match dhtEach huff dc ac ks sent with
        | none => none
        | some (b3, sent) => some (b1 ++ b2 ++ b3, sent)

/-- Entries of one arithmetic table number in a DAC segment (jcmarker.c:437-446). -/
def dacEntry (c : CS) (dcUse acUse : Nat → Bool) (i : Nat) : List Nat :=
  (if dcUse i then [i % 256, (c.dcL i + c.dcU i * 16) % 256] else []) ++
  (if acUse i then [(i + 0x10) % 256, c.acK i % 256] else [])

/-- emit_dac (jcmarker.c:407-449); NUM_ARITH_TBLS = 16. -/
def emitDac (c : CS) (needDc needAc : Bool) (ks : List CComp) : List Nat :=
  let dcUse := fun i => needDc && ks.any (fun k => k.dc = i)
  let acUse := fun i => needAc && ks.any (fun k => k.ac = i)
  let length := ((List.range 16).map (fun i => (if dcUse i then 1 else 0) + (if acUse i then 1 else 0))).sum
  if length ≠ 0 then mark 0xCC ++ be2 (length * 2 + 2) ++ (List.range 16).flatMap (dacEntry c dcUse acUse) else []

/-- emit_dri (jcmarker.c:452-461). -/
def emitDri (c : CS) : List Nat := mark 0xDD ++ be2 4 ++ be2 c.ri

/-- emit_sos (jcmarker.c:494-525). -/
def emitSos (s : CScan) (ks : List CComp) : List Nat :=
  mark 0xDA ++ be2 (2 * ks.length + 2 + 1 + 3) ++ [ks.length % 256] ++
    ks.flatMap (fun k =>
      let td := if s.Ss = 0 ∧ s.Ah = 0 then k.dc else 0
      let ta := if s.Se ≠ 0 then k.ac else 0
      [k.id % 256, (td * 16 + ta) % 256]) ++
    [s.Ss % 256, s.Se % 256, (s.Ah * 16 + s.Al) % 256]

/-- The components of a scan. -/
def scanComps (c : CS) (s : CScan) : List CComp := s.idx.map (fun i => c.comps.getD i ⟨0, 0, 0, 0, 0, 0⟩)

/-- The entropy-coding tables of write_scan_header (jcmarker.c:751-773). -/
def scanTbl (c : CS) (s : CScan) : Option (List Nat × (Bool → Nat → Bool)) :=
  let needDc := s.Ss = 0 ∧ s.Ah = 0
  let needAc := s.Se ≠ 0
  if c.arith then some (emitDac c needDc needAc (scanComps c s), c.hSent)
  else match multiDht c.fastest c.huff c.hSent needDc needAc (scanComps c s) with
    | .err => none
    | .yes b sent => some (b, sent)
    | .no => dhtEach c.huff (needDc ∨ c.lossless = true) (needAc ∧ c.lossless = false) (scanComps c s) c.hSent

/-- write_scan_header (jcmarker.c:744-786). -/
def writeScan (c : CS) (s : CScan) : Option (List Nat × CS) :=
  match scanTbl c s with
  | none => none
  | some (b, sent) =>
    let d := if c.ri ≠ c.lastRi then emitDri c else []
    some (b ++ d ++ emitSos s (scanComps c s), { c with hSent := sent, lastRi := c.ri })

/-- emit_jfif_app0 (jcmarker.c:528-560). -/
def emitJfif (major minor unit x y : Nat) : List Nat :=
  mark 0xE0 ++ be2 16 ++ [0x4A, 0x46, 0x49, 0x46, 0, major % 256, minor % 256, unit % 256] ++ be2 x ++ be2 y ++ [0, 0]

/-- emit_adobe_app14 (jcmarker.c:563-607); `t` = 1 for YCbCr, 2 for YCCK, 0 otherwise. -/
def emitAdobe (t : Nat) : List Nat :=
  mark 0xEE ++ be2 14 ++ [0x41, 0x64, 0x6F, 0x62, 0x65] ++ be2 100 ++ be2 0 ++ be2 0 ++ [t]

/-- write_file_header (jcmarker.c:649-664); `jfif`, `adobe`: present when requested. -/
def writeFile (c : CS) (jfif : Option (Nat × Nat × Nat × Nat × Nat)) (adobe : Option Nat) : List Nat × CS :=
  (mark 0xD8 ++ (match jfif with | some (a, b, u, x, y) => emitJfif a b u x y | none => []) ++
    (match adobe with | some t => emitAdobe t | none => []), { c with lastRi := 0 })

/-- jpeg_write_marker (jcapimin.c:239-260): write_marker_header, then the bytes; `none` = error exit. -/
def writeMarker (code : Nat) (data : List Nat) : Option (List Nat) :=
  if data.length > 65533 then none else some (mark code ++ be2 (data.length + 2) ++ data.map (· % 256))

/-- The Huffman loop of write_tables_only (jcmarker.c:817-824). -/
def tblHuffs (huff : Bool → Nat → Option HuffTbl) : List Nat → (sent : Bool → Nat → Bool) → List Nat × (Bool → Nat → Bool)
  | [], sent => ([], sent)
  | n :: ns, sent =>
    let d := (emitDht huff sent false n).getD ([], sent)
    let a := (emitDht huff d.2 true n).getD ([], d.2)
    let r := tblHuffs huff ns a.2
    (d.1 ++ a.1 ++ r.1, r.2)

/-- The quantizer loop of write_tables_only (jcmarker.c:812-815). -/
def tblQuants (q : Nat → Option (List Nat)) : List Nat → (sent : Nat → Bool) → List Nat × (Nat → Bool)
  | [], sent => ([], sent)
  | n :: ns, sent =>
    let d := (emitDqt q sent n).getD (0, [], sent)
    let r := tblQuants q ns d.2.2
    (d.2.1 ++ r.1, r.2)

/-- write_tables_only (jcmarker.c:805-828). -/
def writeTables (c : CS) : List Nat × CS :=
  let a := tblQuants c.q [0, 1, 2, 3] c.qSent
  let b := if c.arith then ([], c.hSent) else tblHuffs c.huff [0, 1, 2, 3] c.hSent
  (mark 0xD8 ++ a.1 ++ b.1 ++ mark 0xD9, { c with qSent := a.2, hSent := b.2 })

end Verif.Mark
