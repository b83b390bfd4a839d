/-
Model of quantize_trellis (/repo/jcdctmgr.c:937-1330), Huffman version.

Simplifications:
 * Floating-point values are elements of a type `α` with unspecified operations (`Ops`): the structural theorems
   hold for any such operations, in particular IEEE single precision; the optimality theorems take exact
   rationals.
 * The weighted squared errors `x*x*lambda*lambda_tbl[z]`, `delta*delta*lambda*lambda_tbl[z]` are given by functions
   (`zd`, `cd`) of the position and the candidate value.
 * A block is indexed by zigzag position: `coef_blocks[bi][jpeg_natural_order[i]]` is `c i`
   (jpeg_natural_order is a permutation, so this only renames).
 * C `int`s that cannot be negative or overflow are `Nat`.
 * trellis_q_opt (norm_src/norm_coef) does not affect the coefficients and is not modelled.
-/
import Verif.Huff.Enc

namespace Verif.Trellis

open Verif.Huff (nbitsOf)

/-- The float operations used. `ofNat` is the conversion from int, `big` is 1e38. -/
structure Ops (α : Type) where
  add : α → α → α
  sub : α → α → α
  lt : α → α → Bool
  ofNat : Nat → α
  big : α

/-- What the AC part of one block reads: `x = abs(src)`, sign, `q = 8*quantval`, the weighted errors, and
`ehufsi[]` of the AC table (/repo/jcdctmgr.c:1117-1150). -/
structure Inp (α : Type) where
  x : Nat → Nat
  neg : Nat → Bool
  q : Nat → Nat
  zd : Nat → α
  cd : Nat → Nat → α
  eh : Nat → Nat
  maxBits : Nat

/-- `qval = (x + q/2) / q` (/repo/jcdctmgr.c:1130). -/
def roundQ (x q : Nat) : Nat := (x + q / 2) / q

/-- The clamp to max_coef_bits (/repo/jcdctmgr.c:1138-1139). -/
def clampQ (maxBits v : Nat) : Nat := if v ≥ 2 ^ maxBits then 2 ^ maxBits - 1 else v

/-- `candidate[k]` (/repo/jcdctmgr.c:1144), n = num_candidates. -/
def candidate (n qv k : Nat) : Nat := if k < n - 1 then 2 * 2 ^ k - 1 else qv

/-- Per-position results: coef_blocks, accumulated_cost, run_start. -/
structure Node (α : Type) where
  coef : Int
  cost : α
  start : Nat

/-- Loop over k (/repo/jcdctmgr.c:1166-1182) for a given j; `prev` is accumulated_zero_dist[i-1] -
accumulated_zero_dist[j] + accumulated_cost[j], with C's left-to-right evaluation. -/
def candStep {α : Type} (o : Ops α) (I : Inp α) (i j qv : Nat) (runBits zr : Nat) (prev : α)
    (nd : Node α) (k : Nat) : Node α :=
  let n := nbitsOf qv
  let coefBits := I.eh (16 * zr + (k + 1))
  if coefBits = 0 then nd
  else
    let rate := coefBits + (k + 1) + runBits
    let cost := o.add (o.add (o.ofNat rate) (I.cd i (candidate n qv k))) prev
    if o.lt cost nd.cost then
      ⟨if I.neg i then -(candidate n qv k : Int) else (candidate n qv k : Int), cost, j⟩
    else nd

/-- Body of the loop over j (/repo/jcdctmgr.c:1153-1183). `nodes` holds the results of the positions before i,
`zacc` is accumulated_zero_dist. -/
def startStep {α : Type} (o : Ops α) (I : Inp α) (Ss i qv : Nat) (zacc : Nat → α) (acost : Nat → α)
    (coef : Nat → Int) (nd : Node α) (j : Nat) : Node α :=
  if j ≠ Ss - 1 ∧ coef j = 0 then nd
  else
    let zr := i - 1 - j
    if zr / 16 ≠ 0 ∧ I.eh 0xf0 = 0 then nd
    else
      (List.range (nbitsOf qv)).foldl
        (candStep o I i j qv (zr / 16 * I.eh 0xf0) (zr % 16) (o.add (o.sub (zacc (i - 1)) (zacc j)) (acost j))) nd

/-- Arrays of the AC pass. -/
structure AC (α : Type) where
  coef : Nat → Int
  zacc : Nat → α
  cost : Nat → α
  start : Nat → Nat

def set {β : Type} (f : Nat → β) (i : Nat) (v : β) : Nat → β := fun l => if l = i then v else f l

/-- One position of the loop over i (/repo/jcdctmgr.c:1115-1184). -/
def acStep {α : Type} (o : Ops α) (I : Inp α) (Ss : Nat) (s : AC α) (i : Nat) : AC α :=
  let zacc := set s.zacc i (o.add (I.zd i) (s.zacc (i - 1)))
  let qval := roundQ (I.x i) (I.q i)
  if qval = 0 then ⟨set s.coef i 0, zacc, set s.cost i o.big, s.start⟩
  else
    let qv := clampQ I.maxBits qval
    let nd := (List.range' (Ss - 1) (i - (Ss - 1))).foldl
      (startStep o I Ss i qv zacc s.cost s.coef) ⟨s.coef i, o.big, s.start i⟩
    ⟨set s.coef i nd.coef, zacc, set s.cost i nd.cost, set s.start i nd.start⟩

/-- The whole loop, from the arrays as they are at the start of the block: accumulated_zero_dist[Ss-1] =
accumulated_cost[Ss-1] = 0 (/repo/jcdctmgr.c:1042-1043); the rest of the arrays is left from before (s0). -/
def acPass {α : Type} (o : Ops α) (I : Inp α) (Ss Se : Nat) (s0 : AC α) : AC α :=
  (List.range' Ss (Se + 1 - Ss)).foldl (acStep o I Ss)
    { s0 with zacc := set s0.zacc (Ss - 1) (o.ofNat 0), cost := set s0.cost (Ss - 1) (o.ofNat 0) }

/-- Choice of the last nonzero coefficient (/repo/jcdctmgr.c:1186-1209): last_coeff_idx, best_cost, best_cost_skip. -/
structure Last (α : Type) where
  idx : Nat
  best : α
  skip : α

def lastStep {α : Type} (o : Ops α) (I : Inp α) (Se : Nat) (s : AC α) (l : Last α) (i : Nat) : Last α :=
  if s.coef i ≠ 0 then
    let costWo := o.sub (o.add (s.cost i) (s.zacc Se)) (s.zacc i)
    let cost := if i < Se then o.add costWo (o.ofNat (I.eh 0)) else costWo
    if o.lt cost l.best then ⟨i, cost, costWo⟩ else l
  else l

def pickLast {α : Type} (o : Ops α) (I : Inp α) (Ss Se : Nat) (s : AC α) : Last α :=
  (List.range' Ss (Se + 1 - Ss)).foldl (lastStep o I Se s)
    ⟨Ss - 1, o.add (s.zacc Se) (o.ofNat (I.eh 0)), s.zacc Se⟩

/-- Zeroing of the coefficients between the chosen ones (/repo/jcdctmgr.c:1213-1224).  Both loops as one recursion
on i; `inner` says that control is in the inner loop, whose condition does not compare i with Ss.
At i = 0 the inner condition `i > last` is false, run_start[0] is read and the loop ends. -/
def zeroOut (Ss : Nat) (start : Nat → Nat) : Nat → Bool → Nat → (Nat → Int) → (Nat → Int)
  | 0, _, _, c => c
  | i + 1, inner, last, c =>
    if inner = false ∧ i + 1 < Ss then c
    else if i + 1 > last then zeroOut Ss start i true last (set c (i + 1) 0)
    else zeroOut Ss start i false (start (i + 1)) c

/-- Result of the AC part of one block. -/
structure BlkRes (α : Type) where
  coef : Nat → Int
  hasEob : Nat
  costAllZeros : α
  costSkip : α

/-- AC part of one block (/repo/jcdctmgr.c:1115-1224). -/
def acBlock {α : Type} (o : Ops α) (I : Inp α) (Ss Se : Nat) (s0 : AC α) : BlkRes α :=
  let s := acPass o I Ss Se s0
  let l := pickLast o I Ss Se s
  { coef := zeroOut Ss s.start Se false l.idx s.coef
    hasEob := (if l.idx < Se then 1 else 0) + (if l.idx = Ss - 1 then 1 else 0)
    costAllZeros := s.zacc Se
    costSkip := l.skip }

/-- trellis_eob_opt arrays (/repo/jcdctmgr.c:978-994). -/
structure Eob (α : Type) where
  zeroCost : Nat → α
  blkCost : Nat → α
  runStart : Nat → Nat
  req : Nat → Nat

/-- Body of the loop over i (/repo/jcdctmgr.c:1236-1258), with best_cost in the state. -/
def eobInner {α : Type} (o : Ops α) (eh : Nat → Nat) (bi : Nat) (r : BlkRes α) (req : Nat → Nat)
    (zeroCost : Nat → α) (s : α × Eob α) (i : Nat) : α × Eob α :=
  if req i = 2 then s
  else
    let cost := o.add (o.sub (o.add r.costSkip (zeroCost bi)) (zeroCost i)) (s.2.blkCost i)
    let run := bi - i + req i
    let nb := nbitsOf run
    let cost := o.add cost (o.ofNat (eh (16 * nb) + nb))
    if o.lt cost s.1 then
      (cost, { s.2 with runStart := set s.2.runStart bi i, blkCost := set s.2.blkCost (bi + 1) cost })
    else s

/-- End-of-block bookkeeping of block bi (/repo/jcdctmgr.c:1226-1260). -/
def eobStep {α : Type} (o : Ops α) (eh : Nat → Nat) (e : Eob α) (bi : Nat) (r : BlkRes α) : Eob α :=
  let zeroCost := set e.zeroCost (bi + 1) (o.add (e.zeroCost bi) r.costAllZeros)
  let req := set e.req (bi + 1) r.hasEob
  let e := { e with zeroCost := zeroCost, req := req }
  if r.hasEob ≠ 2 then
    ((List.range (bi + 1)).foldl (eobInner o eh bi r req zeroCost) (o.big, e)).2
  else e

/-- Choice of the last block that is kept (/repo/jcdctmgr.c:1263-1287): `last_block` before the decrement. -/
def eobLast {α : Type} (o : Ops α) (eh : Nat → Nat) (n : Nat) (e : Eob α) : Nat :=
  ((List.range (n + 1)).foldl (fun (s : α × Nat) i =>
    if e.req i = 2 then s
    else
      let cost := o.sub (o.add (o.ofNat 0) (e.zeroCost n)) (e.zeroCost i)
      let nb := nbitsOf (n - i + e.req i)
      let cost := o.add cost (o.ofNat (eh (16 * nb) + nb))
      if o.lt cost s.1 then (cost, i) else s) (o.big, n)).2

/-- Which blocks are zeroed (/repo/jcdctmgr.c:1288-1300).  b is bi + 1 and last is last_block + 1.  (When the
inner loop runs down to bi = -1, the source reads block_run_start[-1] and ignores the value.) -/
def eobKeep (runStart : Nat → Nat) : Nat → Nat → (Nat → Bool) → (Nat → Bool)
  | 0, _, keep => keep
  | b + 1, last, keep =>
    if b + 1 > last then eobKeep runStart b last (set keep b false)
    else eobKeep runStart b (runStart b) keep

/-- All blocks of a row, in order; the arrays of the AC pass are reused from block to block. -/
def acRow {α : Type} (o : Ops α) (Ss Se : Nat) (eh : Nat → Nat) :
    List (Inp α × (Nat → Int)) → Nat → AC α → Eob α → List (Nat → Int) × Eob α
  | [], _, _, e => ([], e)
  | (I, c) :: rest, bi, s, e =>
    let s := { s with coef := c }
    let r := acBlock o I Ss Se s
    let s' := acPass o I Ss Se s
    let (cs, e') := acRow o Ss Se eh rest (bi + 1) s' (eobStep o eh e bi r)
    (r.coef :: cs, e')

/-- AC coefficients of a row of blocks after quantize_trellis.  `blocks` gives for each block its inputs and the
coefficients it holds on entry. -/
def trellisRow {α : Type} (o : Ops α) (eobOpt : Bool) (Ss Se : Nat) (eh : Nat → Nat)
    (blocks : List (Inp α × (Nat → Int))) (s0 : AC α) (e0 : Eob α) : List (Nat → Int) :=
  let e0 : Eob α := { e0 with zeroCost := set e0.zeroCost 0 (o.ofNat 0), blkCost := set e0.blkCost 0 (o.ofNat 0),
                              req := set e0.req 0 0 }
  let (cs, e) := acRow o Ss Se eh blocks 0 s0 e0
  if eobOpt then
    let n := blocks.length
    let keep := eobKeep e.runStart n (eobLast o eh n e) (fun _ => true)
    (List.range n).map (fun bi l =>
      if keep bi = false ∧ Ss ≤ l ∧ l ≤ Se then 0 else (cs.getD bi (fun _ => 0)) l)
  else cs

/-! ### DC coefficients -/

/-- Inputs of the DC part for one block: abs(src[0]), sign, and dc_candidate_dist as a function of the (signed)
candidate and its unsigned form (/repo/jcdctmgr.c:1047-1082). -/
structure DCInp (α : Type) where
  x : Nat
  neg : Bool
  q : Nat
  dist : Int → α

/-- `get_num_dc_trellis_candidates` (/repo/jcdctmgr.c:931-934). -/
def numCand (quantval : Nat) : Nat := min 9 ((2 + 60 / quantval) ||| 1)

/-- `dc_candidate[k][bi]` (/repo/jcdctmgr.c:1055-1070). -/
def dcCand {α : Type} (maxBits nc : Nat) (I : DCInp α) (k : Nat) : Int :=
  let c : Int := (roundQ I.x I.q : Int) - (nc / 2 : Nat) + k
  let c : Int := if c ≥ 2 ^ maxBits then 2 ^ maxBits - 1 else c
  let c : Int := if c ≤ -(2 ^ maxBits) then -(2 ^ maxBits) + 1 else c
  if I.neg then -c else c

/-- `bits + dctbl->ehufsi[bits] + dc_candidate_dist` (/repo/jcdctmgr.c:1086-1096). -/
def dcCost {α : Type} (o : Ops α) (eh : Nat → Nat) (d : α) (delta : Int) : α :=
  let b := nbitsOf delta.natAbs
  o.add (o.ofNat (b + eh b)) d

/-- Column of the trellis: accumulated_dc_cost[k][bi] and dc_cost_backtrack[k][bi] for all k
(/repo/jcdctmgr.c:1084-1116).  `prev` is the previous block's candidates and costs. -/
def dcColumn {α : Type} (o : Ops α) (eh : Nat → Nat) (nc : Nat) (cand : Nat → Int) (dist : Int → α)
    (prevCand : Nat → Int) (prevCost : Nat → α) (k : Nat) : α × Nat :=
  (List.range' 1 (nc - 1)).foldl (fun s l =>
      let cost := o.add (dcCost o eh (dist (cand k)) (cand k - prevCand l)) (prevCost l)
      if o.lt cost s.1 then (cost, l) else s)
    (o.add (dcCost o eh (dist (cand k)) (cand k - prevCand 0)) (prevCost 0), 0)

/-- Columns of the blocks after the first, each with its candidates, costs and back pointers; newest first. -/
structure Col (α : Type) where
  cand : Nat → Int
  cost : Nat → α
  back : Nat → Nat

def dcColumns {α : Type} (o : Ops α) (eh : Nat → Nat) (maxBits nc : Nat) :
    List (DCInp α) → Col α → List (Col α) → List (Col α)
  | [], cur, acc => cur :: acc
  | I :: Is, cur, acc =>
    let cand := dcCand maxBits nc I
    let col := dcColumn o eh nc cand I.dist cur.cand cur.cost
    dcColumns o eh maxBits nc Is ⟨cand, fun k => (col k).1, fun k => (col k).2⟩ (cur :: acc)

/-- Cheapest final candidate (/repo/jcdctmgr.c:1312-1317). -/
def dcBest {α : Type} (o : Ops α) (nc : Nat) (cost : Nat → α) : Nat :=
  (List.range' 1 (nc - 1)).foldl (fun j i => if o.lt (cost i) (cost j) then i else j) 0

/-- Back-tracking (/repo/jcdctmgr.c:1318-1321), from the last block to the first. -/
def dcBack {α : Type} : List (Col α) → Nat → List Int → List Int
  | [], _, acc => acc
  | c :: cs, j, acc => dcBack cs (c.back j) (c.cand j :: acc)

/-- DC coefficients of a row of blocks (at least one); the new *last_dc_val is the last of them
(/repo/jcdctmgr.c:1047-1113, :1311-1325). -/
def dcRow {α : Type} (o : Ops α) (eh : Nat → Nat) (maxBits nc : Nat) (lastDc : Int) (I : DCInp α)
    (Is : List (DCInp α)) : List Int :=
  let cand := dcCand maxBits nc I
  let first : Col α := ⟨cand, fun k => dcCost o eh (I.dist (cand k)) (cand k - lastDc), fun _ => 0⟩
  let cols := dcColumns o eh maxBits nc Is first []
  match cols with
  | [] => []
  | c :: cs => dcBack (c :: cs) (dcBest o nc c.cost) []

end Verif.Trellis
