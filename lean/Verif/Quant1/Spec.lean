import Verif.Quant1.Model
/-
Specification of the one-pass quantizer: the levels of a component, which level a value is rounded to, the palette as a
mixed-radix product, and the three ways of choosing the value to be rounded.
-/
namespace Verif.Quant1

/-- The `j`-th of `n` equally spaced levels between 0 and `M`, to the nearest integer. -/
def level (M n j : Nat) : Nat := (2 * (j * M) + (n - 1)) / (2 * (n - 1))

/-- The level a value is rounded to: the levels are `M/(n-1)` apart, and the value is taken half a unit low. -/
def pick (M n v : Nat) : Nat := (2 * (n - 1) * v + M - 1 - (n - 1)) / (2 * M)

/-- Number of consecutive palette entries that share component `i`: the product of the later counts. -/
def blk (ns : List Nat) (i : Nat) : Nat := (ns.drop (i + 1)).prod

/-- Which level component `i` of palette entry `p` has: the palette is in row-major order. -/
def digit (ns : List Nat) (i p : Nat) : Nat := p / blk ns i % ns.getD i 1

/-- The palette is exactly the product of the levels of the components, in row-major order. -/
def PaletteIs (M : Nat) (ns : List Nat) (cm : List (List Nat)) : Prop :=
  cm.length = ns.length ∧
  ∀ i, i < ns.length → ∃ row, cm[i]? = some row ∧ row.length = ns.prod ∧
    ∀ p, p < ns.prod → row[p]? = some (level M (ns.getD i 1) (digit ns i p))

end Verif.Quant1
