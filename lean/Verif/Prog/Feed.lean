import Verif.Prog.Scan
import Verif.Huff.FeedProps
/-
C54.  The progressive Huffman decoder (jdphuff.c) with everything it does when the source suspends, every array access
and shift checked, driven by an application that hands over the compressed data in arbitrary pieces.
Arrays have their C sizes: jpeg_natural_order[80], newnz_pos[64], a block of 64 coefficients, and those of the checked
Huffman decoder (Huff/Check.lean).
-/
namespace Verif.Prog
open Verif Verif.Huff
open Verif.Geom (Pos Blk storeMcu)

/-- Outcome of (part of) an MCU routine: result; suspension, with what has been assigned so far; error exit; bad
access or shift. -/
inductive Run (β α : Type) where
  | ok (a : α)
  | suspend (b : β)
  | err
  | fault

/-- Continue after an operation on the bit reader; `b` is what a suspension leaves. -/
def onRes {α β γ : Type} (b : β) : Res α → (α → Run β γ) → Run β γ
  | .ok a, f => f a
  | .suspend, _ => .suspend b
  | .fault, _ => .fault

/-- Continue if `p` holds, fault otherwise. -/
def chk {α β : Type} (p : Prop) [Decidable p] (x : Run β α) : Run β α := if p then x else .fault

/-- A block position with its decoding table (jdphuff.c:331-334). -/
structure CkD where
  ci : Nat
  dc : CkTbl

/-- Forgetting the symbol count. -/
def CkD.plain (b : CkD) : DCD := ⟨b.ci, b.dc.d⟩

/-- Block loop of decode_mcu_DC_first (jdphuff.c:328-357); `err` = ERREXIT(JERR_BAD_DCT_COEF). -/
def dcFirstRun (Al : Nat) : List CkD → List Blk → (Nat → Int) → Rd → Run (List Blk) (List Blk × (Nat → Int) × Rd)
  | b :: bs, blk :: blks, last, r =>
    onRes (blk :: blks) (ckHuff b.dc r) fun y =>
      onRes (blk :: blks) (if y.1 ≠ 0 then (ckReadBits y.2 y.1).bind (fun x => .ok (extend2 x.1 y.1, x.2)) else .ok (0, y.2)) fun x =>
        let l := last b.ci
        if (l ≥ 0 ∧ x.1 > 2147483647 - l) ∨ (l < 0 ∧ x.1 < -2147483648 - l) then .err
        else
          let v := x.1 + l
          chk (0 < blk.length ∧ Al < 32) <|
            match dcFirstRun Al bs blks (upd last b.ci v) x.2 with
            | .ok z => .ok (blk.set 0 (toCoef (v * 2 ^ Al)) :: z.1, z.2)
            | .suspend z => .suspend (blk.set 0 (toCoef (v * 2 ^ Al)) :: z)
            | .err => .err
            | .fault => .fault
  | _, blks, last, r => .ok (blks, last, r)

/-- Block loop of decode_mcu_DC_refine (jdphuff.c:487-496). -/
def dcRefineRun (Al : Nat) : List Blk → Rd → Run (List Blk) (List Blk × Rd)
  | [], r => .ok ([], r)
  | blk :: blks, r =>
    onRes (blk :: blks) (ckReadBits r 1) fun x =>
      let blk' := if x.1 ≠ 0 then blk.set 0 (orBit Al (blk.getD 0 0)) else blk
      chk (0 < blk.length ∧ Al < 32) <|
        match dcRefineRun Al blks x.2 with
        | .ok z => .ok (blk' :: z.1, z.2)
        | .suspend z => .suspend (blk' :: z)
        | .err => .err
        | .fault => .fault

/-- `EOBRUN = 1 << r; if (r) EOBRUN += GET_BITS(r)` (jdphuff.c:425-430, 572-577). -/
def eobRun (rd : Rd) (r : Nat) : Res (Nat × Rd) :=
  need (r < 32) (if r ≠ 0 then (ckReadBits rd r).bind (fun x => .ok (2 ^ r + x.1, x.2)) else .ok (1, rd))

/-- Coefficient loop of decode_mcu_AC_first (jdphuff.c:409-436). -/
def acFirstRun (t : CkTbl) (Se Al : Nat) (k : Nat) (blk : Blk) (rd : Rd) : Run Blk (Blk × Nat × Rd) :=
  if k ≤ Se then
    onRes blk (ckHuff t rd) fun y =>
      let r := y.1 >>> 4
      let s := y.1 &&& 15
      if s ≠ 0 then
        onRes blk (ckReadBits y.2 s) fun x =>
          chk (k + r < natOrder.length ∧ natOrder.getD (k + r) 0 < blk.length ∧ Al < 32) <|
            acFirstRun t Se Al (k + r + 1) (blk.set (natOrder.getD (k + r) 0) (toCoef (extend2 x.1 s * 2 ^ Al))) x.2
      else if r = 15 then acFirstRun t Se Al (k + 15 + 1) blk y.2
      else onRes blk (eobRun y.2 r) fun x => .ok (blk, x.1 - 1, x.2)
  else .ok (blk, 0, rd)
termination_by Se + 1 - k

/-- The do-while loop of decode_mcu_AC_refine (jdphuff.c:585-603). -/
def advanceRun (Se Al : Nat) (k r : Nat) (blk : Blk) (rd : Rd) : Run Blk (Nat × Blk × Rd) :=
  if k ≤ Se then
    let p := natOrder.getD k 0
    chk (k < natOrder.length ∧ p < blk.length ∧ Al < 32) <|
      if blk.getD p 0 ≠ 0 then
        onRes blk (ckReadBits rd 1) fun x =>
          advanceRun Se Al (k + 1) r (if x.1 ≠ 0 then blk.set p (correct Al (blk.getD p 0)) else blk) x.2
      else if r = 0 then .ok (k, blk, rd)
      else advanceRun Se Al (k + 1) (r - 1) blk rd
  else .ok (k, blk, rd)
termination_by Se + 1 - k

theorem onRes_ok {α β γ : Type} {b : β} {x : Res α} {f : α → Run β γ} {c : γ} (h : onRes b x f = .ok c) :
    ∃ a, x = .ok a ∧ f a = .ok c := by
  cases x with
  | ok a => exact ⟨a, rfl, h⟩
  | suspend => cases h
  | fault => cases h

theorem chk_ok {α β : Type} {p : Prop} [Decidable p] {x : Run β α} {c : α} (h : chk p x = .ok c) : p ∧ x = .ok c := by
  unfold chk at h
  split at h
  · exact ⟨by assumption, h⟩
  · cases h

theorem advanceRun_ge {Se Al k r : Nat} {blk : Blk} {rd : Rd} {x : Nat × Blk × Rd}
    (h : advanceRun Se Al k r blk rd = .ok x) : k ≤ x.1 := by
  generalize hn : Se + 1 - k = n
  induction n generalizing k r blk rd with
  | zero =>
    rw [advanceRun, if_neg (by omega)] at h
    simp at h; subst h; exact Nat.le_refl _
  | succ n ih =>
    rw [advanceRun, if_pos (by omega)] at h
    obtain ⟨-, h⟩ := chk_ok h
    split at h
    · obtain ⟨a, -, h⟩ := onRes_ok h
      have := ih h (by omega); omega
    · split at h
      · simp at h; subst h; exact Nat.le_refl _
      · have := ih h (by omega); omega

/-- Main loop of decode_mcu_AC_refine (jdphuff.c:557-610); `nz` holds the first num_newnz entries of newnz_pos. -/
def refineRun (t : CkTbl) (Se Al : Nat) (k : Nat) (blk : Blk) (nz : List Nat) (rd : Rd) :
    Run (Blk × List Nat) (Nat × Blk × List Nat × Nat × Rd) :=
  if k ≤ Se then
    onRes (blk, nz) (ckHuff t rd) fun y =>
      let r := y.1 >>> 4
      let s := y.1 &&& 15
      if s = 0 ∧ r ≠ 15 then onRes (blk, nz) (eobRun y.2 r) fun x => .ok (k, blk, nz, x.1, x.2)
      else
        onRes (blk, nz) (if s ≠ 0 then
            (ckReadBits (if s ≠ 1 then { y.2 with warns := y.2.warns + 1 } else y.2) 1).bind
              (fun x => .ok ((if x.1 ≠ 0 then (2 : Int) ^ Al else -2 ^ Al), x.2))
          else .ok (0, y.2)) fun v =>
          match h : advanceRun Se Al k r blk v.2 with
          | .ok z =>
            chk (s ≠ 0 → z.1 < natOrder.length ∧ natOrder.getD z.1 0 < z.2.1.length ∧ nz.length < 64) <|
              refineRun t Se Al (z.1 + 1) (if s ≠ 0 then z.2.1.set (natOrder.getD z.1 0) (toCoef v.1) else z.2.1)
                (if s ≠ 0 then nz ++ [natOrder.getD z.1 0] else nz) z.2.2
          | .suspend b => .suspend (b, nz)
          | .err => .err
          | .fault => .fault
  else .ok (k, blk, nz, 0, rd)
termination_by Se + 1 - k
decreasing_by
  have := advanceRun_ge h
  omega

/-- The scan of the remaining coefficients in an EOB run (jdphuff.c:612-632). -/
def scanRun (Se Al : Nat) (k : Nat) (blk : Blk) (rd : Rd) : Run Blk (Blk × Rd) :=
  if k ≤ Se then
    let p := natOrder.getD k 0
    chk (k < natOrder.length ∧ p < blk.length ∧ Al < 32) <|
      if blk.getD p 0 ≠ 0 then
        onRes blk (ckReadBits rd 1) fun x =>
          scanRun Se Al (k + 1) (if x.1 ≠ 0 then blk.set p (correct Al (blk.getD p 0)) else blk) x.2
      else scanRun Se Al (k + 1) blk rd
  else .ok (blk, rd)
termination_by Se + 1 - k

/-- undoit (jdphuff.c:651-655): re-zero the newly nonzero coefficients, last one first. -/
def undo (blk : Blk) (nz : List Nat) : Blk := nz.foldr (fun p b => b.set p 0) blk

/-- One block of decode_mcu_AC_refine (jdphuff.c:540-655). -/
def acRefineRun (t : CkTbl) (Ss Se Al : Nat) (eobrun : Nat) (blk : Blk) (rd : Rd) : Run Blk (Blk × Nat × Rd) :=
  match (if eobrun = 0 then refineRun t Se Al Ss blk [] rd else .ok (Ss, blk, [], eobrun, rd)) with
  | .ok (k, blk, nz, eobrun, rd) =>
    if eobrun > 0 then
      match scanRun Se Al k blk rd with
      | .ok x => .ok (x.1, eobrun - 1, x.2)
      | .suspend b => .suspend (undo b nz)
      | .err => .err
      | .fault => .fault
    else .ok (blk, eobrun, rd)
  | .suspend b => .suspend (undo b.1 b.2)
  | .err => .err
  | .fault => .fault

/-! ### The MCU routines -/

/-- An MCU routine: initial saved state, whether an MCU is left alone once the data ran out, and the decoding. -/
structure PRun (σ : Type) where
  init : σ
  skip : Bool
  run : σ → List Blk → Rd → Run (List Blk) (List Blk × σ × Rd)

/-- The single block of an AC MCU. -/
def oneBlk {σ : Type} (f : Blk → Run Blk (Blk × σ × Rd)) : List Blk → Run (List Blk) (List Blk × σ × Rd)
  | [] => .fault
  | b :: bs =>
    match f b with
    | .ok x => .ok (x.1 :: bs, x.2)
    | .suspend b => .suspend (b :: bs)
    | .err => .err
    | .fault => .fault

/-- decode_mcu_DC_first (jdphuff.c:297-367). -/
def runDCFirst (Al : Nat) (bs : List CkD) : PRun (Nat → Int) :=
  ⟨fun _ => 0, true, fun last mcu r => if mcu.length = bs.length then dcFirstRun Al bs mcu last r else .fault⟩

/-- decode_mcu_DC_refine (jdphuff.c:461-507). -/
def runDCRefine (Al : Nat) : PRun Unit :=
  ⟨(), false, fun _ mcu r =>
    match dcRefineRun Al mcu r with
    | .ok x => .ok (x.1, (), x.2)
    | .suspend b => .suspend b
    | .err => .err
    | .fault => .fault⟩

/-- decode_mcu_AC_first (jdphuff.c:374-452). -/
def runACFirst (t : CkTbl) (Ss Se Al : Nat) : PRun Nat :=
  ⟨0, true, fun eobrun mcu r =>
    if eobrun > 0 then .ok (mcu, eobrun - 1, r) else oneBlk (fun b => acFirstRun t Se Al Ss b r) mcu⟩

/-- decode_mcu_AC_refine (jdphuff.c:514-656). -/
def runACRefine (t : CkTbl) (Ss Se Al : Nat) : PRun Nat :=
  ⟨0, true, fun eobrun mcu r => oneBlk (fun b => acRefineRun t Ss Se Al eobrun b r) mcu⟩

/-- Outcome of a call. -/
inductive Call (σ : Type) where
  | ok (blks : List Blk) (s : PSt σ)
  | suspend (blks : List Blk) (s : PSt σ)
  | err
  | fault

variable {σ : Type}

/-- A call of a decode_mcu routine (jdphuff.c:297-656): process_restart if due (jdphuff.c:236-271; it is the one of
jdhuff.c, `Huff.restartStep`, but for the saved state), the data unless it ran out, the restart count. -/
def callMcu (R : PRun σ) (ri : Nat) (blks : List Blk) (s : PSt σ) : Call σ :=
  let x : Bool × PSt σ := if ri ≠ 0 ∧ s.base.togo = 0 then
      let y := restartStep ri s.base
      (y.1, if y.1 then ⟨y.2, R.init⟩ else ⟨y.2, s.st⟩)
    else (true, s)
  if x.1 then
    let s := x.2
    let togo := if ri ≠ 0 then s.base.togo - 1 else s.base.togo
    if R.skip && s.base.rd.insuff then .ok blks ⟨{ s.base with togo := togo }, s.st⟩
    else
      match R.run s.st blks s.base.rd with
      | .ok (o, st, rd) => .ok o ⟨{ s.base with rd := rd, togo := togo }, st⟩
      | .suspend o => .suspend o s
      | .err => .err
      | .fault => .fault
  else .suspend blks x.2

/-- The source gets more bytes. -/
def PSt.more (s : PSt σ) (c : List Nat) : PSt σ := ⟨s.base.more c, s.st⟩

/-- Outcome of a run over a scan: complete, with the pieces of data not used; waiting for data with the given MCUs
missing; error exit; fault. -/
inductive Fin (σ : Type) where
  | done (img : Pos → Blk) (s : PSt σ) (es : List (List Nat))
  | waits (left : List (List Pos)) (img : Pos → Blk) (s : PSt σ)
  | err
  | fault

/-- consume_data (jdcoefct.c:212-272): the MCU routine works in place on the blocks of the coefficient arrays, at the
addresses `W`, and is called again for the same MCU after a suspension.  Before each call a piece of the compressed
data arrives (perhaps empty). -/
def feed (R : PRun σ) (ri : Nat) : List (List Pos) → List (List Nat) → (Pos → Blk) → PSt σ → Fin σ
  | [], es, img, s => .done img s es
  | ps :: W, [], img, s => .waits (ps :: W) img s
  | ps :: W, c :: es, img, s =>
    match callMcu R ri (ps.map img) (s.more c) with
    | .ok bs s => feed R ri W es (storeMcu img ps bs) s
    | .suspend bs s => feed R ri (ps :: W) es (storeMcu img ps bs) s
    | .err => .err
    | .fault => .fault

/-- Without `entropy->saved`. -/
def Fin.base : Fin σ → Fin Unit
  | .done img s es => .done img ⟨s.base, ()⟩ es
  | .waits left img s => .waits left img ⟨s.base, ()⟩
  | .err => .err
  | .fault => .fault

/-- start_pass_phuff_decoder (jdphuff.c:150-196) with nothing in the source's buffer. -/
def start (R : PRun σ) (ri : Nat) : PSt σ := ⟨decInit ri [], R.init⟩

/-- Decoding a scan, the data arriving in pieces; `none` = error exit for a bad table (jdphuff.c:163-176, the checks of
jdphuff.c:97-128 are `badScan`). -/
def feedPScan (dcT acT : Nat → HuffTbl) (p : SPar) (W : List (List Pos)) (es : List (List Nat)) (img : Pos → Blk) : Option (Fin Unit) :=
  match p.kind with
  | .dcFirst =>
    (p.bs.mapM fun b => (ckTbl (some 15) (dcT b.dcNo)).map (CkD.mk b.ci)).map fun ds =>
      (feed (runDCFirst p.Al ds) p.ri W es img (start (runDCFirst p.Al ds) p.ri)).base
  | .dcRefine => some (feed (runDCRefine p.Al) p.ri W es img (start (runDCRefine p.Al) p.ri)).base
  | .acFirst =>
    (ckTbl none (acT p.acNo)).map fun t =>
      (feed (runACFirst t p.Ss p.Se p.Al) p.ri W es img (start (runACFirst t p.Ss p.Se p.Al) p.ri)).base
  | .acRefine =>
    (ckTbl none (acT p.acNo)).map fun t =>
      (feed (runACRefine t p.Ss p.Se p.Al) p.ri W es img (start (runACRefine t p.Ss p.Se p.Al) p.ri)).base

end Verif.Prog
