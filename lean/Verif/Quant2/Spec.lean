import Verif.Quant2.Model
import Mathlib.Order.Interval.Finset.Nat
import Mathlib.Data.Pi.Interval
import Mathlib.Algebra.BigOperators.Fin
import Mathlib.Algebra.Order.BigOperators.Group.Finset
/-
Specification of the two-pass quantizer: cells of the colour space, median cut, weighted mean, nearest colour.
-/
namespace Verif.Quant2

/-- The cell of a pixel: 5, 6 and 5 leading bits of the components. -/
def cellOf (k : Cfg) (p : V) : V := fun i => p i * dims i / (2 * k.c)

/-- The centre of a cell. -/
def centre (k : Cfg) (c : V) : V := fun i => (2 * c i + 1) * (2 * k.c) / (2 * dims i)

/-- The cells that occur. -/
@[irreducible] def used (h : Hist) : Finset V := (Finset.Icc (fun _ => 0) fun i => dims i - 1).filter fun c => h c ≠ 0

/-- Squared distance with the components weighted by `sc`. -/
def dist (sc : V) (p q : V) : Int := ∑ i, (((p i : Int) - q i) * sc i) ^ 2

/-- A box of cells, both corners included. -/
structure Bx where
  lo : V
  hi : V

/-- The cells of a box. -/
def Bx.cells (b : Bx) : Finset V := Finset.Icc b.lo b.hi

/-- The number of cells of a box that occur. -/
def Bx.population (h : Hist) (b : Bx) : Nat := (b.cells.filter fun c => h c ≠ 0).card

/-- Weighted length of a box along an axis. -/
def Bx.length (k : Cfg) (sc : V) (b : Bx) (i : Fin 3) : Nat := (b.hi i - b.lo i) * size k i * sc i

/-- Squared weighted diagonal of a box. -/
def Bx.diagonal (k : Cfg) (sc : V) (b : Bx) : Nat := ∑ i, b.length k sc i ^ 2

/-- `b` is the smallest box around the cells of `S`, which is not empty. -/
structure Bounds (S : Finset V) (b : Bx) : Prop where
  sub : ∀ c ∈ S, b.lo ≤ c ∧ c ≤ b.hi
  lo : ∀ i, ∃ c ∈ S, c i = b.lo i
  hi : ∀ i, ∃ c ∈ S, c i = b.hi i

/-- Box `i` is the first among the boxes with property `P` for which `f` is largest. -/
def FirstMax (bs : List Bx) (P : Bx → Prop) (f : Bx → Nat) (i : Nat) (b : Bx) : Prop :=
  bs[i]? = some b ∧ P b ∧ (∀ b' ∈ bs, P b' → f b' ≤ f b) ∧ ∀ j < i, ∀ b', bs[j]? = some b' → P b' → f b' < f b

/-- Which box is split: the one with the most colours while no more than half the colours wanted are there, then the
one with the longest diagonal; only boxes of more than one cell count. -/
def Chosen (k : Cfg) (sc : V) (h : Hist) (bs : List Bx) (i : Nat) (b : Bx) : Prop :=
  FirstMax bs (fun b => b.lo ≠ b.hi)
    (if ((2 * bs.length : Nat) : Int) ≤ k.desired then Bx.population h else Bx.diagonal k sc) i b

/-- Which axis is split: the longest; green (always axis 1) before red before blue when equal. -/
def Longest (k : Cfg) (sc : V) (b : Bx) (a : Fin 3) : Prop :=
  (∀ i, b.length k sc i ≤ b.length k sc a) ∧
  (a ≠ 1 → b.length k sc 1 < b.length k sc a) ∧
  (sc a = 1 → ∀ i, sc i = 2 → b.length k sc i < b.length k sc a)

/-- Median cut: from the box around all cells that occur, a box is chosen again and again and cut at the middle of an
axis; both parts are shrunk to the cells that occur. -/
inductive Cuts (k : Cfg) (sc : V) (h : Hist) : List Bx → Prop
  | whole {b : Bx} (hb : Bounds (used h) b) : Cuts k sc h [b]
  | split {bs : List Bx} {i : Nat} {b b1 b2 : Bx} {a : Fin 3} (hc : Cuts k sc h bs) (hl : (bs.length : Int) < k.desired)
      (hi : Chosen k sc h bs i b) (ha : Longest k sc b a)
      (h1 : Bounds ((used h).filter fun c => c ∈ b.cells ∧ c a ≤ (b.lo a + b.hi a) / 2) b1)
      (h2 : Bounds ((used h).filter fun c => c ∈ b.cells ∧ (b.lo a + b.hi a) / 2 < c a) b2) :
      Cuts k sc h (bs.set i b1 ++ [b2])

/-- Number of pixels counted in a box. -/
def Bx.weight (h : Hist) (b : Bx) : Nat := ∑ c ∈ b.cells, h c

/-- The mean of the cell centres weighted with their counts, rounded to the nearest integer. -/
def Bx.mean (k : Cfg) (h : Hist) (b : Bx) : V := fun i =>
  (2 * (∑ c ∈ b.cells, centre k c i * h c) + b.weight h) / (2 * b.weight h)

/-- Entry `i` of the first `n` is the nearest to `p`, the first one if there are several. -/
def IsNearest (sc : V) (cm : List V) (n : Nat) (p : V) (i : Nat) : Prop :=
  ∃ q, i < n ∧ cm[i]? = some q ∧ ∀ j q', j < n → cm[j]? = some q' →
    dist sc q p ≤ dist sc q' p ∧ (j < i → dist sc q p < dist sc q' p)

/-- The histogram of a list of pixels: how many are in each cell, but at most 65535. -/
def histOf (k : Cfg) (ps : List V) : Hist := fun c => min 65535 (ps.countP fun p => cellOf k p = c)

/-- The pixels of a row. -/
def pixelsOf (k : Cfg) (inp : List Nat) : List V := (List.range k.width).map fun x i => inp.getD (3 * x + i) 0

end Verif.Quant2
