import Verif.Huff.Enc
/-
Model of the statistics-gathering pass (optimize_coding), jchuff.c:798-912.
Counter increments are modelled as a list of events; a counter's value is the number of its events.
-/
namespace Verif.Huff

/-- Which Huffman tables a block position of the MCU uses: `MCU_membership`, `dc_tbl_no`, `ac_tbl_no`. -/
structure BlkSpec where
  ci : Nat
  dcNo : Nat
  acNo : Nat
deriving Repr, DecidableEq

/-- One counter increment: `dc_counts`/`ac_counts` of a table number, at a symbol. -/
structure SymEvent where
  isDC : Bool
  tbl : Nat
  sym : Nat
deriving Repr, DecidableEq

/-- `while (r > 15) { ac_counts[0xF0]++; r -= 16; }` (jchuff.c:849-853). -/
def gZrl (tbl r : Nat) (acc : List SymEvent) : Nat × List SymEvent :=
  if r > 15 then gZrl tbl (r - 16) (acc ++ [⟨false, tbl, 0xF0⟩]) else (r, acc)
termination_by r
decreasing_by omega

/-- AC loop of `htest_one_block` (jchuff.c:843-876). -/
def gAC (maxBits tbl : Nat) : List Int → Nat → List SymEvent → Option (List SymEvent)
  | [], r, acc => some (if r > 0 then acc ++ [⟨false, tbl, 0⟩] else acc)
  | t :: ts, r, acc =>
    if t = 0 then gAC maxBits tbl ts (r + 1) acc
    else
      let ra := gZrl tbl r acc
      let nb := nbitsOf t.natAbs
      if nb > maxBits then none
      else gAC maxBits tbl ts 0 (ra.2 ++ [⟨false, tbl, (ra.1 <<< 4) + nb⟩])

/-- `htest_one_block` (jchuff.c:812-876); coefficients are visited in `jpeg_natural_order`. -/
def gBlock (prec : Nat) (b : BlkSpec) (last : Int) (blk : List Int) (acc : List SymEvent) :
    Option (List SymEvent) :=
  let nb := nbitsOf (blk.getD 0 0 - last).natAbs
  if nb > prec + 2 + 1 then none
  else gAC (prec + 2) b.acNo ((List.range 63).map (fun k => blk.getD (natOrder.getD (k + 1) 0) 0)) 0
    (acc ++ [⟨true, b.dcNo, nb⟩])

/-- The block loop of `encode_mcu_gather` (jchuff.c:902-909). -/
def gBlocks (prec : Nat) : List BlkSpec → List (List Int) → (Nat → Int) → List SymEvent →
    Option ((Nat → Int) × List SymEvent)
  | b :: bs, blk :: blks, last, acc =>
    match gBlock prec b (last b.ci) blk acc with
    | none => none
    | some acc => gBlocks prec bs blks (upd last b.ci (blk.getD 0 0)) acc
  | _, _, last, acc => some (last, acc)

/-- `encode_mcu_gather` (jchuff.c:884-912) over all MCUs of the scan; state: `last_dc_val`, `restarts_to_go`. -/
def gMCUs (prec ri : Nat) (bs : List BlkSpec) : List (List (List Int)) → (Nat → Int) → Nat →
    List SymEvent → Option (List SymEvent)
  | [], _, _, acc => some acc
  | m :: ms, last, togo, acc =>
    let due := ri ≠ 0 ∧ togo = 0
    match gBlocks prec bs m (if due then (fun _ => 0) else last) acc with
    | none => none
    | some (last, acc) =>
      gMCUs prec ri bs ms last (if ri ≠ 0 then (if due then ri else togo) - 1 else togo) acc

/-- The whole statistics pass of a scan (`start_pass_huff` with gather_statistics, jchuff.c:180-222). -/
def gatherScan (prec ri : Nat) (bs : List BlkSpec) (ms : List (List (List Int))) :
    Option (List SymEvent) := gMCUs prec ri bs ms (fun _ => 0) ri []

end Verif.Huff
