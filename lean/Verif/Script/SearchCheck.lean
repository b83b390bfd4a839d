/-
The scripts select_scans can copy out (Search.lean, `copyOrder`) are legal and complete:
the finite checks over the choices (Al, frequency split, DC mode) and coefficient positions.
-/
import Verif.Script.SearchLemmas

namespace Verif.Script

/-- Scan `i` of the search script as it is finally encoded, with luma Al `bL` and chroma Al `bC`. -/
def emitted (color : Bool) (dcMode : Int) (bL bC i : Nat) : Scan :=
  let g : SearchCfg := ⟨color, dcMode, 1, 0⟩
  let s := g.script.getD i ⟨[], 0, 0, 0, 0⟩
  { s with Al := if g.chromaFS ≤ i ∧ i < g.numScans then bC
                 else if lumaFS ≤ i ∧ i < numScansLuma then bL else s.Al }

/-- Does scan `i` contain component `c` (colour; `z` = the first scan is the interleaved DC scan). -/
def idxHas (z : Bool) (c i : Nat) : Bool :=
  match c with
  | 0 => decide (i < 23)
  | 1 => (z && i == 0) || i == 23 || i == 24 || [26, 27, 30, 32, 33, 36, 38, 39, 42].contains i ||
      (decide (44 ≤ i) && decide (i % 4 < 2))
  | _ => (z && i == 0) || i == 23 || i == 25 || [28, 29, 31, 34, 35, 37, 40, 41, 43].contains i ||
      (decide (44 ≤ i) && decide (2 ≤ i % 4))

/-- The scans of component `c` in the order copied. -/
def compOrder (dc : Nat) (c b f : Nat) (inter : Bool) : List Nat :=
  let dcs := if c = 0 then [0] else if dc = 0 then [0]
    else if inter && dc != 1 then [23] else [23 + c]
  match c with
  | 0 => dcs ++ (if f = 0 then [12] else [11 + 2 * f, 12 + 2 * f]) ++
      (List.range b).reverse.map (fun a => 3 + 3 * a)
  | _ => dcs ++ (if f = 0 then [41 + c] else [40 + 4 * f + 2 * (c - 1), 41 + 4 * f + 2 * (c - 1)]) ++
      (List.range b).reverse.map (fun a => 29 + c + 6 * a)

def orderCheck (dc bL bC fL fC : Nat) (inter : Bool) (o : List Nat) : Bool :=
  decide (o.filter (idxHas (dc == 0) 0) = compOrder dc 0 bL fL inter) &&
  decide (o.filter (idxHas (dc == 0) 1) = compOrder dc 1 bC fC inter) &&
  decide (o.filter (idxHas (dc == 0) 2) = compOrder dc 2 bC fC inter) &&
  decide o.Nodup && o.all (fun i => decide (i < 64))

theorem order_check : ∀ dc < 3, ∀ bL < 4, ∀ bC < 3, ∀ fL < 6, ∀ fC < 6, ∀ inter : Bool,
    orderCheck dc bL bC fL fC inter
      (copyOrder ⟨true, Int.ofNat dc, 1, 0⟩ bL bC fL fC inter) = true := by
  decide +kernel

def orderCheckGray (bL fL : Nat) (o : List Nat) : Bool :=
  decide (o = compOrder 1 0 bL fL false) && decide o.Nodup && o.all (fun i => decide (i < 23))

theorem order_check_gray : ∀ bL < 4, ∀ bC < 4, ∀ fL < 6,
    orderCheckGray bL fL (copyOrder ⟨false, 1, 1, 0⟩ bL bC fL 0 false) = true := by
  decide +kernel

/-! ## The bits of one coefficient -/

def bitsB : Option Int → List Scan → Bool
  | _, [] => true
  | none, s :: r => s.Ah == 0 && bitsB (some s.Al) r
  | some a, s :: r => s.Ah == a && s.Al == a - 1 && bitsB (some s.Al) r

theorem bitsB_iff : ∀ (l : List Scan) (p : Option Int), bitsB p l = true ↔ BitsInOrder p l
  | [], none => by simp [bitsB, BitsInOrder]
  | [], some a => by simp [bitsB, BitsInOrder]
  | s :: r, none => by simp [bitsB, BitsInOrder, bitsB_iff r]
  | s :: r, some a => by simp [bitsB, BitsInOrder, bitsB_iff r, and_assoc]

/-- Scans given as (Ss, Se, Ah, Al): those containing coefficient `k` are in bit order and the last has
Al = 0. -/
def coefOk (l : List Scan) (k : Nat) : Bool :=
  let m := l.filter (fun s => decide (s.Ss ≤ (k : Int) ∧ (k : Int) ≤ s.Se))
  bitsB none m && (match m.getLast? with | some s => s.Al == 0 | none => false)

theorem coef_color : ∀ dc < 3, ∀ c < 3, ∀ b < (if c = 0 then 4 else 3),
    ∀ f < 6, ∀ inter : Bool, ∀ k < 64,
    coefOk ((compOrder dc c b f inter).map (emitted true (Int.ofNat dc) b b)) k = true := by
  decide +kernel

theorem coef_gray : ∀ b < 4, ∀ f < 6, ∀ k < 64, ∀ z : Bool,
    coefOk ((compOrder 1 0 b f false).map (emitted false (if z then 0 else 1) b b)) k = true := by
  decide +kernel

/-- The scans taken one by one. -/
def scanOk (n : Nat) (s : Scan) : Bool :=
  decide (1 ≤ s.comps.length) && decide (s.comps.length ≤ 4) &&
  s.comps.all (fun c => decide (0 ≤ c) && decide (c < n)) && decide (s.comps.Pairwise (· < ·)) &&
  decide (0 ≤ s.Ss ∧ s.Ss ≤ s.Se ∧ s.Se < 64 ∧ 0 ≤ s.Ah ∧ s.Ah ≤ 10 ∧ 0 ≤ s.Al ∧ s.Al ≤ 10) &&
  decide ((s.Ss = 0 → s.Se = 0) ∧ (s.Ss ≠ 0 → s.comps.length = 1))

theorem scan_color : ∀ z : Bool, ∀ b < 4, ∀ i < 64,
    scanOk 3 (emitted true (if z then 0 else 1) b b i) = true ∧
    (∀ c < 3, (emitted true (if z then 0 else 1) b b i).has c = idxHas z c i) ∧
    ((emitted true (if z then 0 else 1) b b i).Ss = 0 ↔ i = 0 ∨ i = 23 ∨ i = 24 ∨ i = 25) := by
  decide +kernel

theorem scan_gray : ∀ z : Bool, ∀ b < 4, ∀ i < 23,
    scanOk 1 (emitted false (if z then 0 else 1) b b i) = true ∧
    (emitted false (if z then 0 else 1) b b i).has 0 = true ∧
    ((emitted false (if z then 0 else 1) b b i).Ss = 0 ↔ i = 0) := by
  decide +kernel

end Verif.Script
