import Mathlib.Data.Int.Basic
import Mathlib.Algebra.Order.Group.Unbundled.Int
import Mathlib.Algebra.Order.Ring.Int
import Mathlib.Data.Fin.VecNotation
import Mathlib.Logic.Function.Basic
/-
Model of block smoothing (jdcoefct.c smoothing_ok, decompress_smooth_data) and of the progression status it looks at
(jdphuff.c start_pass_phuff_decoder, jdarith.c start_pass; jdphuff.c jinit_phuff_decoder).

`none` is an access outside an array or outside the rows asked for, a division by zero, or an arithmetic overflow.
Not modelled: the loop that forces input to be consumed first, and the IDCT, which is given the blocks computed here.
-/
namespace Verif.Smooth

/-! ## Progression status -/

/-- What a progressive scan says: components, Ss, Se, Al. -/
structure Scan where
  comps : List Nat
  Ss : Nat
  Se : Nat
  Al : Int

/-- `coef_bits`: the first and the second half of the array (component, zigzag index). -/
structure Bits where
  cur : Nat → Nat → Int
  prev : Nat → Nat → Int

/-- The initial contents (jdphuff.c:669-679). Only the first half is initialised there; `junk` is in the other half. -/
def bits0 (junk : Nat → Nat → Int) : Bits := ⟨fun _ _ => -1, junk⟩

/-- The update at the start of scan `n` for one component (jdphuff.c:126-144, jdarith.c:664-684). -/
def startComp (n : Nat) (s : Scan) (b : Bits) (ci : Nat) : Bits :=
  { prev := fun c k => if c = ci ∧ min s.Ss 1 ≤ k ∧ k ≤ max s.Se 9 then (if n > 1 then b.cur c k else 0) else b.prev c k
    cur := fun c k => if c = ci ∧ s.Ss ≤ k ∧ k ≤ s.Se then s.Al else b.cur c k }

/-- The update at the start of scan number `n`. -/
def startScan (n : Nat) (s : Scan) (b : Bits) : Bits := s.comps.foldl (startComp n s) b

/-- Scans in a row, numbered from `n`. -/
def scans : Nat → List Scan → Bits → Bits
  | _, [], b => b
  | n, s :: ss, b => scans (n + 1) ss (startScan n s b)

/-! ## smoothing_ok -/

/-- Natural-order positions of zigzag indexes 0..9 (jdcoefct.c:341-349, with 0 for the DC coefficient). -/
def qPos : List Nat := [0, 1, 8, 16, 9, 2, 3, 10, 17, 24]

/-- What is latched for the output pass: for each component the entries 1..9 of both halves. -/
structure Latch where
  cur : Nat → Nat → Int
  prev : Nat → Nat → Int

/-- `smoothing_ok` (jdcoefct.c:359-421) and the choice made in `start_output_pass` (jdcoefct.c:63-69): `some` is a pass
with smoothing. `quant ci` is the latched quantization table of a component, if there is one. -/
def smoothingOk (progressive : Bool) (bits : Option Bits) (nc scanNo : Nat) (quant : Nat → Option (Nat → Nat)) : Option Latch :=
  match progressive, bits with
  | true, some b =>
    if (List.range nc).all (fun ci => match quant ci with
        | none => false
        | some q => qPos.all (fun p => decide (q p ≠ 0)) && decide (0 ≤ b.cur ci 0)) then
      if (List.range nc).any (fun ci => (List.range 9).any fun j => decide (b.cur ci (j + 1) ≠ 0)) then
        some ⟨b.cur, fun ci k => if scanNo > 1 then b.prev ci k else -1⟩
      else none
    else none
  | _, _ => none

/-! ## One component of one iMCU row -/

/-- What is read of a component: sampling factors, size in blocks, the columns to output, its coefficient array
(row, column, natural-order position) and its quantization table. -/
structure Comp where
  h : Nat
  v : Nat
  height : Nat
  width : Nat
  first : Nat
  last : Nat
  blk : Nat → Nat → Nat → Int
  q : Nat → Nat

/-- Rows of the virtual array (jdcoefct.c:854-855). -/
def Comp.rows (c : Comp) : Nat := (c.height + c.v - 1) / c.v * c.v

/-- Columns of the virtual array (jdcoefct.c:852-853). -/
def Comp.cols (c : Comp) : Nat := (c.width + c.h - 1) / c.h * c.h

/-- A window of rows obtained from `access_virt_barray` and the row that `buffer` points to. -/
structure Win where
  start : Nat
  n : Nat
  cur : Nat

/-- `block_rows` (jdcoefct.c:480-492). -/
def blockRows (c : Comp) (T t : Nat) : Nat :=
  if t < T - 1 then c.v else if c.height % c.v = 0 then c.v else c.height % c.v

/-- The rows asked for (jdcoefct.c:480-513); the memory manager refuses more than was announced (jdcoefct.c:846-856,
jmemmgr.c access_virt_barray). -/
def access (c : Comp) (T t : Nat) : Option Win :=
  let ar := if t + 1 < T - 1 then c.v * 3 else if t < T - 1 then c.v * 2 else blockRows c T t
  let w : Win :=
    if t > 1 then ⟨(t - 2) * c.v, ar + 2 * c.v, t * c.v⟩
    else if t > 0 then ⟨(t - 1) * c.v, ar + c.v, t * c.v⟩
    else ⟨0, ar, 0⟩
  if w.start + w.n ≤ c.rows ∧ w.n ≤ 5 * c.v then some w else none

/-- `buffer[i]`: the row of the array. -/
def Win.row (w : Win) (i : Int) : Option Nat :=
  if (w.start : Int) ≤ w.cur + i ∧ (w.cur : Int) + i < w.start + w.n then some (w.cur + i).toNat else none

/-- Five reads. -/
def seq5 {α : Type} (f : Fin 5 → Option α) : Option (Fin 5 → α) := do
  let a ← f 0
  let b ← f 1
  let c ← f 2
  let d ← f 3
  let e ← f 4
  pure ![a, b, c, d, e]

/-- The five block rows looked at (jdcoefct.c:550-578). -/
def fiveRows (c : Comp) (T t : Nat) (w : Win) (br : Nat) : Option (Fin 5 → Nat) := do
  let b := blockRows c T t
  let img : Int := (t : Int) * b + br
  let imgs : Int := (b : Int) * T
  let cur ← w.row br
  let prev ← (if img > 0 then w.row ((br : Int) - 1) else some cur)
  let pprev ← (if img > 1 then w.row ((br : Int) - 2) else some prev)
  let next ← (if img < imgs - 1 then w.row ((br : Int) + 1) else some cur)
  let nnext ← (if img < imgs - 2 then w.row ((br : Int) + 2) else some next)
  pure ![pprev, prev, cur, next, nnext]

/-- The DC value of the block in a column of a row. -/
def dcAt (c : Comp) (row col : Nat) : Option Int := if row < c.rows ∧ col < c.cols then some (c.blk row col 0) else none

/-- The registers DC01..DC25, five per block row. -/
abbrev Regs := Fin 5 → Fin 5 → Int

/-- Register `n` of the code, DC01 being number 1. -/
def Regs.dc (r : Regs) (n : Nat) : Int := if h : n - 1 < 25 then r ⟨(n - 1) / 5, by omega⟩ ⟨(n - 1) % 5, by omega⟩ else 0

/-- A C cast to JCOEF. -/
def toCoef (x : Int) : Int := (x + 32768) % 65536 - 32768

/-- The quotient and its limit (jdcoefct.c:622-640 and so on): `al` is `Al`, `sum` the weighted sum of DC values, an
`int`, `q0` and `q` the quantization values of the DC coefficient and of this one. `lm` is the largest `long`.
Of the `int` sum only the value is checked; a partial sum has at most the magnitude bounded in the proofs (`conv_le`). -/
def pred (lm : Nat) (al : Int) (q q0 : Nat) (sum : Int) : Option Int :=
  let num : Int := q0 * sum
  if q = 0 ∨ 2 ^ 31 ≤ |sum| ∨ lm < q * 256 ∨ (lm : Int) < q * 128 + |num| ∨ 31 ≤ al then none
  else
    let p : Int := (q * 128 + |num|) / (q * 256)
    if 2 ^ 31 ≤ p then none
    else
      let p := if al > 0 ∧ p ≥ 2 ^ al.toNat then 2 ^ al.toNat - 1 else p
      some (if num ≥ 0 then p else -p)

/-- One of the nine estimates (jdcoefct.c:622-641 and the eight others). -/
def est (lm : Nat) (bits : Nat → Int) (c : Comp) (k : Nat) (sum : Int) (ws : Nat → Int) : Option (Nat → Int) :=
  let pos := qPos.getD k 0
  if bits k ≠ 0 ∧ ws pos = 0 then do
    let p ← pred lm (bits k) (c.q pos) (c.q 0) sum
    pure (Function.update ws pos (toCoef p))
  else some ws

/-- The estimates of one block (jdcoefct.c:622-809). -/
def smoothBlock (lm : Nat) (bits : Nat → Int) (c : Comp) (r : Regs) (ws : Nat → Int) : Option (Nat → Int) := do
  let d := r.dc
  let changeDc : Bool := (List.range 9).all fun j => decide (bits (j + 1) = -1)
  let ws ← est lm bits c 1 (if changeDc then
      -d 1 - d 2 + d 4 + d 5 - 3 * d 6 + 13 * d 7 - 13 * d 9 + 3 * d 10 - 3 * d 11 + 38 * d 12 - 38 * d 14 + 3 * d 15 -
      3 * d 16 + 13 * d 17 - 13 * d 19 + 3 * d 20 - d 21 - d 22 + d 24 + d 25
    else -7 * d 11 + 50 * d 12 - 50 * d 14 + 7 * d 15) ws
  let ws ← est lm bits c 2 (if changeDc then
      -d 1 - 3 * d 2 - 3 * d 3 - 3 * d 4 - d 5 - d 6 + 13 * d 7 + 38 * d 8 + 13 * d 9 - d 10 + d 16 - 13 * d 17 -
      38 * d 18 - 13 * d 19 + d 20 + d 21 + 3 * d 22 + 3 * d 23 + 3 * d 24 + d 25
    else -7 * d 3 + 50 * d 8 - 50 * d 18 + 7 * d 23) ws
  let ws ← est lm bits c 3 (if changeDc then
      d 3 + 2 * d 7 + 7 * d 8 + 2 * d 9 - 5 * d 12 - 14 * d 13 - 5 * d 14 + 2 * d 17 + 7 * d 18 + 2 * d 19 + d 23
    else -d 3 + 13 * d 8 - 24 * d 13 + 13 * d 18 - d 23) ws
  let ws ← est lm bits c 4 (if changeDc then -d 1 + d 5 + 9 * d 7 - 9 * d 9 - 9 * d 17 + 9 * d 19 + d 21 - d 25
    else d 10 + d 16 - 10 * d 17 + 10 * d 19 - d 2 - d 20 + d 22 - d 24 + d 4 - d 6 + 10 * d 7 - 10 * d 9) ws
  let ws ← est lm bits c 5 (if changeDc then
      2 * d 7 - 5 * d 8 + 2 * d 9 + d 11 + 7 * d 12 - 14 * d 13 + 7 * d 14 + d 15 + 2 * d 17 - 5 * d 18 + 2 * d 19
    else -d 11 + 13 * d 12 - 24 * d 13 + 13 * d 14 - d 15) ws
  if changeDc then do
    let ws ← est lm bits c 6 (d 7 - d 9 + 2 * d 12 - 2 * d 14 + d 17 - d 19) ws
    let ws ← est lm bits c 7 (d 7 - 3 * d 8 + d 9 - d 17 + 3 * d 18 - d 19) ws
    let ws ← est lm bits c 8 (d 7 - d 9 - 3 * d 12 + 3 * d 14 + d 17 - d 19) ws
    let ws ← est lm bits c 9 (d 7 + 2 * d 8 + d 9 - d 17 - 2 * d 18 - d 19) ws
    let p ← pred lm 0 (c.q 0) (c.q 0)
      (-2 * d 1 - 6 * d 2 - 8 * d 3 - 6 * d 4 - 2 * d 5 - 6 * d 6 + 6 * d 7 + 42 * d 8 + 6 * d 9 - 6 * d 10 - 8 * d 11 +
       42 * d 12 + 152 * d 13 + 42 * d 14 - 8 * d 15 - 6 * d 16 + 6 * d 17 + 42 * d 18 + 6 * d 19 - 6 * d 20 -
       2 * d 21 - 6 * d 22 - 8 * d 23 - 6 * d 24 - 2 * d 25)
    pure (Function.update ws 0 (toCoef p))
  else pure ws

/-- The reads at one column (jdcoefct.c:596-612). -/
def fetch (c : Comp) (rows : Fin 5 → Nat) (x : Nat) (r : Regs) : Option Regs := do
  let r ← (if x = c.first ∧ x < c.width - 1 then do
      let n ← seq5 fun i => dcAt c (rows i) (x + 1)
      pure fun i => ![r i 0, r i 1, r i 2, n i, n i]
    else some r)
  if x + 1 < c.width - 1 then do
    let n ← seq5 fun i => dcAt c (rows i) (x + 2)
    pure fun i => ![r i 0, r i 1, r i 2, r i 3, n i]
  else some r

/-- "Advance for next column" (jdcoefct.c:815-819). -/
def shift (r : Regs) : Regs := fun i => ![r i 1, r i 2, r i 3, r i 4, r i 4]

/-- The column loop (jdcoefct.c:590-825): the blocks given to the IDCT, from column `x` on. -/
def smoothCols (lm : Nat) (bits : Nat → Int) (c : Comp) (rows : Fin 5 → Nat) : Nat → Nat → Regs → Option (List (Nat → Int))
  | 0, _, _ => some []
  | n + 1, x, r => do
    let r ← fetch c rows x r
    if rows 2 < c.rows ∧ x < c.cols then do
      let b ← smoothBlock lm bits c r (c.blk (rows 2) x)
      let bs ← smoothCols lm bits c rows n (x + 1) (shift r)
      pure (b :: bs)
    else none

/-- One block row (jdcoefct.c:548-826). -/
def smoothRow (lm : Nat) (bits : Nat → Int) (c : Comp) (T t : Nat) (w : Win) (br : Nat) : Option (List (Nat → Int)) := do
  let rows ← fiveRows c T t w br
  let d ← seq5 fun i => dcAt c (rows i) c.first
  smoothCols lm bits c rows (c.last + 1 - c.first) c.first fun i _ => d i

/-- One component of one iMCU row (jdcoefct.c:474-827): block rows of blocks. `lastGood` is `last_good_iMCU_row`. -/
def smoothComp (lm : Nat) (l : Latch) (lastGood : Nat) (ci : Nat) (c : Comp) (T t : Nat) : Option (List (List (Nat → Int))) := do
  let w ← access c T t
  let bits := if t > lastGood then l.prev ci else l.cur ci
  (List.range (blockRows c T t)).mapM fun br => smoothRow lm bits c T t w br

end Verif.Smooth
