import Verif.Arith.Model
import Verif.Prog.Scan
import Verif.Rst.Model
/-
MCU routines of the arithmetic coders: jcarith.c:328-820, 837-900 and jdarith.c:197-610, 625-735.
The statistics areas are a function from bins to bin values; a bin is a table number and an offset.  Pointers `st` are offsets.
-/
namespace Verif.Arith
open Verif Verif.Huff
open Verif.Geom (Pos Blk storeMcu)

/-- Statistics bins: dc_stats[tbl][off], ac_stats[tbl][off], fixed_bin[0] (jcarith.c:58-63, jdarith.c:52-60). -/
inductive Bin where
  | dc (tbl off : Nat)
  | ac (tbl off : Nat)
  | fixed
deriving DecidableEq, Repr

/-- Bin values at the start of a scan and after a restart (jcarith.c:344-354, 876-893, 943; jdarith.c:209-222, 717).  The model
resets all tables; the code those of the scan, which are all a scan uses. -/
def σ0 : Bin → Nat
  | .fixed => 113
  | _ => 0

/-- Conditioning parameters arith_dc_L, arith_dc_U, arith_ac_K (jpeglib.h), by table number. -/
structure Cond where
  L : Nat → Nat
  U : Nat → Nat
  K : Nat → Nat

/-- last_dc_val and dc_context (jcarith.c:46-47, jdarith.c:42-43), by component of the scan. -/
structure Pred where
  last : Nat → Int
  ctx : Nat → Nat

/-- (jcarith.c:349-350, jdarith.c:214-215). -/
def Pred.init : Pred := ⟨fun _ => 0, fun _ => 0⟩

/-- A block position of an MCU: MCU_membership and the component's table numbers. -/
structure ABlk where
  ci : Nat
  dcNo : Nat
  acNo : Nat
deriving Repr, DecidableEq

/-! ### Encoder: the decisions of an MCU -/

/-- `while (v2 >>= 1) { arith_encode(st, 1); m <<= 1; st += 1; }` (jcarith.c:430-434): decisions, m, st.  The first argument bounds the
number of turns; v2 is a 32-bit int. -/
def catLoop (mk : Nat → Bin) : Nat → Nat → Nat → Nat → List (Bin × Bool) × Nat × Nat
  | 0, _, m, st => ([], m, st)
  | n + 1, v2, m, st =>
    if v2 / 2 = 0 then ([], m, st)
    else
      let r := catLoop mk n (v2 / 2) (m * 2) (st + 1)
      ((mk st, true) :: r.1, r.2)

/-- `while (m >>= 1) arith_encode(st, (m & v) ? 1 : 0)` (jcarith.c:445-446). -/
def bitLoop (b : Bin) (v : Nat) : Nat → Nat → List (Bin × Bool)
  | 0, _ => []
  | n + 1, m => if m / 2 = 0 then [] else (b, decide (m / 2 &&& v ≠ 0)) :: bitLoop b v n (m / 2)

/-- Encode_DC_DIFF (jcarith.c:400-447): decisions and new dc_context. -/
def encDC (q : Cond) (tbl ctx : Nat) (v : Int) : List (Bin × Bool) × Nat :=
  if v = 0 then ([(.dc tbl ctx, false)], 0)
  else
    let neg := decide (v < 0)
    let st := if neg then ctx + 3 else ctx + 2
    let w := v.natAbs - 1
    let r := if w ≠ 0 then
        let r := catLoop (.dc tbl) 32 w 1 20
        ((.dc tbl st, true) :: r.1, r.2)
      else ([], 0, st)
    let m := r.2.1
    let st := r.2.2
    let ctx' := if neg then 8 else 4
    let ctx' := if m < 2 ^ q.L tbl / 2 then 0 else if m > 2 ^ q.U tbl / 2 then ctx' + 8 else ctx'
    ((.dc tbl ctx, true) :: (.dc tbl (ctx + 1), neg) :: r.1 ++ (.dc tbl st, false) :: bitLoop (.dc tbl (st + 14)) w 32 m, ctx')

/-- Magnitude of an AC coefficient, v ≥ 1 (jcarith.c:523-546). -/
def magAC (q : Cond) (tbl k v : Nat) : List (Bin × Bool) :=
  let st := 3 * (k - 1) + 2
  let w := v - 1
  let r :=
    if w ≠ 0 then
      if w / 2 ≠ 0 then
        let r := catLoop (.ac tbl) 32 (w / 2) 2 (if k ≤ q.K tbl then 189 else 217)
        ((.ac tbl st, true) :: (.ac tbl st, true) :: r.1, r.2)
      else ([(.ac tbl st, true)], 1, st)
    else ([], 0, st)
  r.1 ++ (.ac tbl r.2.2, false) :: bitLoop (.ac tbl (r.2.2 + 14)) w 32 r.2.1

/-- The coefficient at scan position k. -/
def coefAt (blk : Blk) (k : Nat) : Int := blk.getD (natOrder.getD k 0) 0

/-- Its absolute value after the point transform. -/
def absAt (blk : Blk) (Al k : Nat) : Nat := (coefAt blk k).natAbs >>> Al

/-- `for (ke = Se; ke > 0; ke--)` stop if the coefficient is not zero after the point transform (jcarith.c:489-499, 618-636). -/
def keIdx (blk : Blk) (Al : Nat) : Nat → Nat
  | 0 => 0
  | ke + 1 => if absAt blk Al (ke + 1) ≠ 0 then ke + 1 else keIdx blk Al ke

/-- The coefficient loops of Encode_AC_Coefficients (jcarith.c:502-547) from position k on, n = positions left up to ke; `eob` = at the
head of the outer loop. -/
def acGo (q : Cond) (tbl : Nat) (blk : Blk) (Al : Nat) : Nat → Nat → Bool → List (Bin × Bool)
  | 0, _, _ => []
  | n + 1, k, eob =>
    (if eob then [(.ac tbl (3 * (k - 1)), false)] else []) ++
      if absAt blk Al k ≠ 0 then
        (.ac tbl (3 * (k - 1) + 1), true) :: (.fixed, decide (coefAt blk k < 0)) :: magAC q tbl k (absAt blk Al k) ++
          acGo q tbl blk Al n (k + 1) true
      else (.ac tbl (3 * (k - 1) + 1), false) :: acGo q tbl blk Al n (k + 1) false

/-- The EOB decision at the end, if k ≤ Se (jcarith.c:549-552, 668-671). -/
def eobEnd (tbl Se k : Nat) : List (Bin × Bool) := if k ≤ Se then [(.ac tbl (3 * (k - 1)), true)] else []

/-- AC coefficients of a block: encode_mcu_AC_first (jcarith.c:482-552); encode_mcu does the same with Ss = 1, Se = 63, Al = 0
(jcarith.c:765-818). -/
def encAC (q : Cond) (tbl Ss Se Al : Nat) (blk : Blk) : List (Bin × Bool) :=
  let ke := keIdx blk Al Se
  acGo q tbl blk Al (ke + 1 - Ss) Ss true ++ eobEnd tbl Se (max Ss (ke + 1))

/-- The coefficient loops of encode_mcu_AC_refine (jcarith.c:638-666). -/
def refGo (tbl : Nat) (blk : Blk) (Al kex : Nat) : Nat → Nat → Bool → List (Bin × Bool)
  | 0, _, _ => []
  | n + 1, k, eob =>
    (if eob ∧ k > kex then [(.ac tbl (3 * (k - 1)), false)] else []) ++
      if absAt blk Al k ≠ 0 then
        (if absAt blk Al k / 2 ≠ 0 then [(.ac tbl (3 * (k - 1) + 2), decide (absAt blk Al k % 2 ≠ 0))]
          else [(.ac tbl (3 * (k - 1) + 1), true), (.fixed, decide (coefAt blk k < 0))]) ++ refGo tbl blk Al kex n (k + 1) true
      else (.ac tbl (3 * (k - 1) + 1), false) :: refGo tbl blk Al kex n (k + 1) false

/-- encode_mcu_AC_refine (jcarith.c:609-671). -/
def encACRef (tbl Ss Se Ah Al : Nat) (blk : Blk) : List (Bin × Bool) :=
  let ke := keIdx blk Al Se
  refGo tbl blk Al (keIdx blk Ah ke) (ke + 1 - Ss) Ss true ++ eobEnd tbl Se (max Ss (ke + 1))

/-- Parameters of a scan: progressive_mode, Ss, Se, Ah, Al, restart_interval, the blocks of an MCU, the conditioning. -/
structure APar where
  prog : Bool
  Ss : Nat
  Se : Nat
  Ah : Nat
  Al : Nat
  ri : Nat
  bs : List ABlk
  q : Cond

/-- The DC value of a block: encode_mcu and encode_mcu_DC_first differ in the point transform (jcarith.c:390-448, 727-763). -/
def encDCBlk (q : Cond) (Al : Nat) (b : ABlk) (blk : Blk) (s : Pred) : List (Bin × Bool) × Pred :=
  let m := (blk.getD 0 0 : Int) >>> Al
  let r := encDC q b.dcNo (s.ctx b.ci) (m - s.last b.ci)
  (r.1, ⟨upd s.last b.ci m, fun c => if c = b.ci then r.2 else s.ctx c⟩)

/-- Block loop of encode_mcu_DC_first (jcarith.c:388-449) and, with `ac`, of encode_mcu (jcarith.c:711-818). -/
def encBlks (ac : Bool) (q : Cond) (Al : Nat) : List ABlk → List Blk → Pred → List (Bin × Bool) × Pred
  | b :: bs, blk :: blks, s =>
    let r := encDCBlk q Al b blk s
    let r2 := encBlks ac q Al bs blks r.2
    (r.1 ++ (if ac then encAC q b.acNo 1 63 0 blk else []) ++ r2.1, r2.2)
  | _, _, s => ([], s)

/-- The MCU routine chosen in start_pass (jcarith.c:849-866): decisions and new predictions. -/
def encMcu (p : APar) (mcu : List Blk) (s : Pred) : List (Bin × Bool) × Pred :=
  if p.prog then
    if p.Ah = 0 then
      if p.Ss = 0 then encBlks false p.q p.Al p.bs mcu s
      else (encAC p.q (p.bs.headD ⟨0, 0, 0⟩).acNo p.Ss p.Se p.Al (mcu.headD []), s)
    else
      if p.Ss = 0 then (mcu.map fun blk => (.fixed, decide ((blk.getD 0 0 : Int) >>> p.Al % 2 ≠ 0)), s)
      else (encACRef (p.bs.headD ⟨0, 0, 0⟩).acNo p.Ss p.Se p.Ah p.Al (mcu.headD []), s)
  else encBlks true p.q 0 p.bs mcu s

/-! ### Encoder: a scan -/

/-- As `encodeAll`, with the bin values after it. -/
def encodeSt : Enc × (Bin → Nat) → List (Bin × Bool) → Enc × (Bin → Nat)
  | s, [] => s
  | s, (b, x) :: ds =>
    encodeSt ((encode1 s.1 (s.2 b) x).1, fun b' => if b' = b then (encode1 s.1 (s.2 b) x).2 else s.2 b') ds

/-- Entropy encoder state: registers and bins, predictions, restarts_to_go, next_restart_num. -/
structure ES where
  e : Enc × (Bin → Nat)
  pr : Pred
  togo : Nat
  rst : Nat

/-- start_pass (jcarith.c:867-917), after the bytes `out`. -/
def ES.init (ri : Nat) (out : List Nat) : ES := ⟨(Enc.init out, σ0), Pred.init, ri, 0⟩

/-- emit_restart and the counters (jcarith.c:328-363, 377-386). -/
def ES.restart (ri : Nat) (s : ES) : ES :=
  ⟨(Enc.init (finish s.e.1 ++ [0xFF, 0xD0 + s.rst]), σ0), Pred.init, ri, (s.rst + 1) % 8⟩

/-- One MCU. -/
def ES.mcu (p : APar) (s : ES) (m : List Blk) : ES :=
  let s := if p.ri ≠ 0 then
      let s := if s.togo = 0 then s.restart p.ri else s
      { s with togo := s.togo - 1 }
    else s
  let r := encMcu p m s.pr
  { s with e := encodeSt s.e r.1, pr := r.2 }

/-- All MCUs of a scan, then finish_pass: the bytes. -/
def encAScan (p : APar) (ms : List (List Blk)) : List Nat := finish (ms.foldl (ES.mcu p) (ES.init p.ri [])).e.1

/-! ### Decoder -/

/-- Sequencing. -/
def Rdr.bind {β α γ : Type} : Rdr β α → (α → Rdr β γ) → Rdr β γ
  | .ret x, f => f x
  | .ask b k, f => .ask b fun x => (k x).bind f

/-- `while (arith_decode(st)) { if ((m <<= 1) == 0x8000) overflow; st += 1; }` (jdarith.c:295-302): m, st; `none` on overflow.
16 turns are enough. -/
def rCat (mk : Nat → Bin) : Nat → Nat → Nat → Rdr Bin (Option (Nat × Nat))
  | 0, _, _ => .ret none
  | n + 1, m, st => .ask (mk st) fun x =>
    if x then (if m * 2 = 0x8000 then .ret none else rCat mk n (m * 2) (st + 1)) else .ret (some (m, st))

/-- `while (m >>= 1) if (arith_decode(st)) v |= m` (jdarith.c:314-315). -/
def rBits (b : Bin) : Nat → Nat → Nat → Rdr Bin Nat
  | 0, _, v => .ret v
  | n + 1, m, v => if m / 2 = 0 then .ret v else .ask b fun x => rBits b n (m / 2) (if x then v ||| m / 2 else v)

/-- Decode_DC_DIFF (jdarith.c:284-318): v and the new dc_context; `none` on overflow. -/
def rDC (q : Cond) (tbl ctx : Nat) : Rdr Bin (Option (Int × Nat)) :=
  .ask (.dc tbl ctx) fun nz =>
    if !nz then .ret (some (0, 0))
    else .ask (.dc tbl (ctx + 1)) fun sign =>
      let st := ctx + 2 + (if sign then 1 else 0)
      .ask (.dc tbl st) fun big =>
        (if big then rCat (.dc tbl) 16 1 20 else .ret (some (0, st))).bind fun r =>
          match r with
          | none => .ret none
          | some (m, st) =>
            let ctx' := if m < 2 ^ q.L tbl / 2 then 0
              else if m > 2 ^ q.U tbl / 2 then 12 + (if sign then 4 else 0) else 4 + (if sign then 4 else 0)
            (rBits (.dc tbl (st + 14)) 32 m m).bind fun v =>
              .ret (some (if sign then -((v : Int) + 1) else (v : Int) + 1, ctx'))

/-- Sign and magnitude of an AC coefficient (jdarith.c:377-404); `none` on overflow. -/
def rMag (q : Cond) (tbl k : Nat) : Rdr Bin (Option Int) :=
  .ask .fixed fun sign =>
    let st := 3 * (k - 1) + 2
    .ask (.ac tbl st) fun b1 =>
      Rdr.bind (if b1 then .ask (.ac tbl st) fun b2 =>
          if b2 then rCat (.ac tbl) 16 2 (if k ≤ q.K tbl then 189 else 217) else .ret (some (1, st))
        else .ret (some (0, st))) fun r =>
        match r with
        | none => .ret none
        | some (m, st) =>
          (rBits (.ac tbl (st + 14)) 32 m m).bind fun v => .ret (some (if sign then -((v : Int) + 1) else (v : Int) + 1))

/-- Decode_AC_coefficients (jdarith.c:365-407, 586-629) from position k on, n = positions left up to Se; `eob` = at the head of the outer
loop.  The block, and FALSE if a bad code ended it (spectral or magnitude overflow). -/
def rAC (q : Cond) (tbl Al : Nat) : Nat → Nat → Bool → Blk → Rdr Bin (Blk × Bool)
  | 0, _, eob, blk => .ret (blk, eob)
  | n + 1, k, eob, blk =>
    let rest : Rdr Bin (Blk × Bool) := .ask (.ac tbl (3 * (k - 1) + 1)) fun x =>
      if x then (rMag q tbl k).bind fun r =>
        match r with
        | none => .ret (blk, false)
        | some v => rAC q tbl Al n (k + 1) true (blk.set (natOrder.getD k 0) (toCoef (v * 2 ^ Al)))
      else rAC q tbl Al n (k + 1) false blk
    if eob then .ask (.ac tbl (3 * (k - 1))) fun x => if x then .ret (blk, true) else rest else rest

/-- `for (kex = Se; kex > 0; kex--)` stop at a nonzero coefficient (jdarith.c:469-470). -/
def kexIdx (blk : Blk) : Nat → Nat
  | 0 => 0
  | k + 1 => if coefAt blk (k + 1) ≠ 0 then k + 1 else kexIdx blk k

/-- The coefficient loops of decode_mcu_AC_refine (jdarith.c:472-504). -/
def rRef (tbl Al kex : Nat) : Nat → Nat → Bool → Blk → Rdr Bin (Blk × Bool)
  | 0, _, eob, blk => .ret (blk, eob)
  | n + 1, k, eob, blk =>
    let rest : Rdr Bin (Blk × Bool) :=
      let c := coefAt blk k
      if c ≠ 0 then .ask (.ac tbl (3 * (k - 1) + 2)) fun x =>
        rRef tbl Al kex n (k + 1) true
          (if x then blk.set (natOrder.getD k 0) (toCoef (c + toCoef (if c < 0 then -2 ^ Al else 2 ^ Al))) else blk)
      else .ask (.ac tbl (3 * (k - 1) + 1)) fun x =>
        if x then .ask .fixed fun sg =>
          rRef tbl Al kex n (k + 1) true (blk.set (natOrder.getD k 0) (toCoef (if sg then -2 ^ Al else 2 ^ Al)))
        else rRef tbl Al kex n (k + 1) false blk
    if eob ∧ k > kex then .ask (.ac tbl (3 * (k - 1))) fun x => if x then .ret (blk, true) else rest else rest

/-- Block loop of decode_mcu_DC_first (jdarith.c:275-323) and, with `ac`, of decode_mcu (jdarith.c:527-631): blocks, predictions, FALSE
if a bad code ended it. -/
def rBlks (ac : Bool) (q : Cond) (Al : Nat) : List ABlk → List Blk → Pred → Rdr Bin (List Blk × Pred × Bool)
  | b :: bs, blk :: blks, s =>
    (rDC q b.dcNo (s.ctx b.ci)).bind fun r =>
      match r with
      | none => .ret (blk :: blks, s, false)
      | some (v, ctx) =>
        let last := if v = 0 then s.last b.ci else (s.last b.ci + v) % 65536
        let s : Pred := ⟨upd s.last b.ci last, fun c => if c = b.ci then ctx else s.ctx c⟩
        let blk := blk.set 0 (toCoef (last * 2 ^ Al))
        (if ac then rAC q b.acNo 0 63 1 true blk else .ret (blk, true)).bind fun r =>
          if r.2 then (rBlks ac q Al bs blks s).bind fun t => .ret (r.1 :: t.1, t.2) else .ret (r.1 :: blks, s, false)
  | _, blks, s => .ret (blks, s, true)

/-- Block loop of decode_mcu_DC_refine (jdarith.c:434-438). -/
def rDCRef (Al : Nat) : List Blk → Rdr Bin (List Blk)
  | [] => .ret []
  | blk :: blks => .ask .fixed fun x =>
    (rDCRef Al blks).bind fun t => .ret ((if x then blk.set 0 (Prog.orBit Al (blk.getD 0 0)) else blk) :: t)

/-- The MCU routine chosen in start_pass (jdarith.c:680-700), without restarts. -/
def rMcu (p : APar) (cur : List Blk) (s : Pred) : Rdr Bin (List Blk × Pred × Bool) :=
  if p.prog then
    if p.Ah = 0 then
      if p.Ss = 0 then rBlks false p.q p.Al p.bs cur s
      else (rAC p.q (p.bs.headD ⟨0, 0, 0⟩).acNo p.Al (p.Se + 1 - p.Ss) p.Ss true (cur.headD [])).bind fun r =>
        .ret (r.1 :: cur.tail, s, r.2)
    else
      if p.Ss = 0 then (rDCRef p.Al cur).bind fun t => .ret (t, s, true)
      else (rRef (p.bs.headD ⟨0, 0, 0⟩).acNo p.Al (kexIdx (cur.headD []) p.Se) (p.Se + 1 - p.Ss) p.Ss true
        (cur.headD [])).bind fun r => .ret (r.1 :: cur.tail, s, r.2)
  else rBlks true p.q 0 p.bs cur s

/-- Entropy decoder state: registers, bins, predictions, restarts_to_go; the marker reader's discarded_bytes and next_restart_num, its
warnings; the number of JWRN_ARITH_BAD_CODE warnings. -/
structure DS where
  d : Dec
  σ : Bin → Nat
  pr : Pred
  togo : Nat
  disc : Nat
  num : Nat
  warns : List Rst.Warn
  bad : Nat

/-- start_pass (jdarith.c:625-746); the marker reader starts a scan with next_restart_num 0 (jdmarker.c:378). -/
def DS.init (ri : Nat) (bytes : List Nat) : DS := ⟨Dec.init bytes, σ0, Pred.init, ri, 0, 0, [], 0⟩

/-- process_restart (jdarith.c:197-235); `none` = error exit. -/
def DS.restart (ri : Nat) (s : DS) : Option DS :=
  match Rst.readRestart ⟨s.d.marker, s.disc, s.num, s.d.bytes, s.warns⟩ with
  | (false, _) => none
  | (true, r) => some { s with
      d := ⟨0, 0, -16, r.buf, r.unread⟩, σ := σ0, pr := Pred.init, togo := ri, disc := r.disc, num := r.num, warns := r.warns }

/-- One MCU (jdarith.c:258-268, 340-351, 415-429, 454-462, 510-524); a bad code sets `ct` to -1, then only decode_mcu_DC_refine goes on.
`none` = error exit. -/
def DS.mcu (p : APar) (s : DS) (cur : List Blk) : Option (List Blk × DS) :=
  match (if p.ri ≠ 0 then
      ((if s.togo = 0 then s.restart p.ri else some s).map fun s => { s with togo := s.togo - 1 })
    else some s) with
  | none => none
  | some s =>
    if s.d.ct = -1 ∧ ¬(p.prog ∧ p.Ah ≠ 0 ∧ p.Ss = 0) then some (cur, s)
    else
      match (rMcu p cur s.pr).run s.d s.σ with
      | none => none
      | some (r, d, σ) =>
        if r.2.2 then some (r.1, { s with d := d, σ := σ, pr := r.2.1 })
        else some (r.1, { s with d := { d with ct := -1 }, σ := σ, pr := r.2.1, bad := s.bad + 1 })

/-- All MCUs, in place: `W` gives the addresses of the blocks of each MCU.  decode_mcu gets zeroed blocks in the single-pass decoder,
and the zeroed coefficient arrays otherwise. -/
def decAImg (p : APar) : List (List Pos) → (Pos → Blk) → DS → Option ((Pos → Blk) × DS)
  | [], img, s => some (img, s)
  | ps :: W, img, s =>
    match s.mcu p (ps.map img) with
    | none => none
    | some (bs, s) => decAImg p W (storeMcu img ps bs) s

/-- Decoding a scan. -/
def decAScan (p : APar) (W : List (List Pos)) (bytes : List Nat) (img : Pos → Blk) : Option ((Pos → Blk) × DS) :=
  decAImg p W img (DS.init p.ri bytes)

end Verif.Arith
