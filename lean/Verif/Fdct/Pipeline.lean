import Verif.Fdct.Orth
import Verif.Fdct.DeringProps
import Verif.Quant.Recip
import Mathlib.Algebra.Order.Chebyshev
/-
C52 (coefficient range) and C53: from samples to coefficients and back to samples (8-bit, the accurate integer DCT).
-/
namespace Verif.Fdct

open Verif.Idct (A tb A_tb idct_A Build bits8 absSum block deq C47_idct_accuracy sample sample_plain)
open Verif.Quant (quantize1 computeReciprocal roundDiv reciprocal_quantization_exact)
open scoped BigOperators
open Real

/-! ### Model -/

/-- jcdctmgr.c:573-603 `convsamp`, one block of 8-bit samples. -/
def convsamp (s : List Nat) : List Int := s.map (fun v : Nat => (v : Int) - 128)

/-- jcdctmgr.c:755-767: limit to ±(2^max_coef_bits - 1), max_coef_bits = data_precision + 2 = 10. -/
def clampCoef (c : Int) : Int :=
  let c := if c < -1023 then -1023 else c
  if c > 1023 then 1023 else c

/-- jcdctmgr.c:690-769 `forward_DCT` on one block: 8-bit samples, JDCT_ISLOW, 16-bit DCTELEM.  `der` is the float arithmetic of
deringing if it is on.  The divisors are those of start_pass_fdctmgr (jcdctmgr.c:262-285, `quantval << 3` passed as
UINT16).  Saving the unquantized coefficients for trellis quantization is not modelled here. -/
def forwardDct (der : Option Rnd) (q s : List Nat) : Option (List Int) := do
  let d := convsamp s
  let d ← (match der with
    | none => some d
    | some R => deringing 32767 R (q.getD 0 0) d)
  let w ← fdctIslow types8 d
  let c := (List.range 64).map (fun i => quantize1 16 (computeReciprocal 16 (q.getD i 0 * 8 % 65536)) (w.getD i 0))
  some (if der.isSome then c.map clampCoef else c)

/-! ### Specification -/

/-- 64 samples of 8 bits. -/
def Samples8 (s : List Nat) : Prop := s.length = 64 ∧ ∀ v ∈ s, v ≤ 255

/-- A quantization table the compressor handles (see finding 5 for values of 8192 and more). -/
def QTable (q : List Nat) : Prop := ∀ i, i < 64 → 1 ≤ q.getD i 0 ∧ q.getD i 0 ≤ 8191

/-- The decoder's multipliers for the same table (jddctmgr.c start_pass, JDCT_ISLOW: the quantizer itself). -/
def qi (q : List Nat) : List Int := q.map Int.ofNat

/-- Value at pixel (r, k) of the exact inverse DCT of a unit coefficient at (v, u). -/
noncomputable def basis (r k v u : Fin 8) : ℝ :=
  1 / 4 * (Transf.nrm u * Transf.nrm v) * (cos ((2 * (k.val : ℝ) + 1) * (u.val : ℝ) * π / 16) *
    cos ((2 * (r.val : ℝ) + 1) * (v.val : ℝ) * π / 16))

theorem basis_A (r k v u : Fin 8) : basis r k v u = A r v * A k u / 8 := by
  unfold basis
  have e : 1 / 4 * (Transf.nrm u * Transf.nrm v) * (cos ((2 * (k.val : ℝ) + 1) * (u.val : ℝ) * π / 16) *
      cos ((2 * (r.val : ℝ) + 1) * (v.val : ℝ) * π / 16)) =
      1 / 4 * ((Transf.nrm u * cos ((2 * (k.val : ℝ) + 1) * (u.val : ℝ) * π / 16)) *
      (Transf.nrm v * cos ((2 * (r.val : ℝ) + 1) * (v.val : ℝ) * π / 16))) := by ring
  rw [e, Verif.Idct.A_nrm, Verif.Idct.A_nrm, div_mul_div_comm, Real.mul_self_sqrt (by norm_num)]
  ring

/-- Worst case of the reconstruction error at pixel (r, k): every coefficient off by half a quantization step plus 0.35, plus 1.2
for the decoder's arithmetic. -/
noncomputable def errBound (q : List Nat) (r k : Fin 8) : ℝ :=
  ∑ v : Fin 8, ∑ u : Fin 8, |basis r k v u| * ((q.getD (8 * v.val + u.val) 0 : ℝ) / 2 + 0.35) + 1.2

/-! ### Quantization as real numbers -/

theorem roundDiv_near (x : Int) (d : Nat) (hd : 0 < d) : |((roundDiv x d : Int) : ℝ) * d - x| ≤ d / 2 := by
  have key : ∀ n : Nat, |(((2 * n + d) / (2 * d) : Nat) : ℝ) * d - n| ≤ d / 2 := by
    intro n
    have h1 := Nat.div_add_mod (2 * n + d) (2 * d)
    have h2 := Nat.mod_lt (2 * n + d) (show 0 < 2 * d by omega)
    generalize (2 * n + d) / (2 * d) = a at *
    generalize (2 * n + d) % (2 * d) = b at *
    have r1 : 2 * (d : ℝ) * a + b = 2 * n + d := by exact_mod_cast h1
    have r2 : (b : ℝ) < 2 * d := by exact_mod_cast h2
    have r3 : (0 : ℝ) ≤ b := Nat.cast_nonneg _
    rw [abs_le]
    constructor <;> linarith
  unfold roundDiv
  have := key x.natAbs
  by_cases h : x < 0
  · rw [if_pos h]
    have hx : (x : ℝ) = -(x.natAbs : ℝ) := by
      have : x = -(x.natAbs : Int) := by omega
      have := congrArg (fun z : Int => (z : ℝ)) this
      simpa only [Int.cast_neg, Int.cast_natCast] using this
    rw [hx]
    generalize x.natAbs = n at *
    rw [Int.cast_neg, Int.cast_natCast, ← abs_neg]
    refine le_of_eq_of_le ?_ this
    congr 1; ring
  · rw [if_neg h]
    have hx : (x : ℝ) = (x.natAbs : ℝ) := by
      have : x = (x.natAbs : Int) := by omega
      have := congrArg (fun z : Int => (z : ℝ)) this
      simpa only [Int.cast_natCast] using this
    rw [hx]
    generalize x.natAbs = n at *
    rw [Int.cast_natCast]
    exact this

theorem roundDiv_twice (x : Int) (d : Nat) (hd : 0 < d) : |((roundDiv x d : Int) : ℝ) * d| ≤ 2 * |(x : ℝ)| := by
  have key : ∀ n : Nat, (2 * n + d) / (2 * d) * d ≤ 2 * n := by
    intro n
    by_cases h : 2 * n < d
    · rw [Nat.div_eq_of_lt (by omega)]; simp
    · have h1 := Nat.div_mul_le_self (2 * n + d) (2 * d)
      generalize (2 * n + d) / (2 * d) = a at *
      have : a * (2 * d) = 2 * (a * d) := by ring
      omega
  have hk : (((2 * x.natAbs + d) / (2 * d) : Nat) : ℝ) * d ≤ 2 * (x.natAbs : ℝ) := by exact_mod_cast key x.natAbs
  have e : |(x : ℝ)| = (x.natAbs : ℝ) := by rw [Nat.cast_natAbs]; push_cast; rfl
  rw [e]
  unfold roundDiv
  generalize x.natAbs = n at *
  split
  · rw [Int.cast_neg, Int.cast_natCast, neg_mul, abs_neg, abs_of_nonneg (by positivity)]
    exact hk
  · rw [Int.cast_natCast, abs_of_nonneg (by positivity)]
    exact hk

/-! ### Sums of absolute values -/

theorem sum64 (f : Fin 8 → Fin 8 → ℝ) (c : ℝ) (h : ∀ v u, f v u = c) : ∑ v : Fin 8, ∑ u : Fin 8, f v u = 64 * c := by
  simp only [h, Finset.sum_const, Finset.card_univ, Fintype.card_fin]
  norm_num; ring

/-- The coefficients' absolute sum is at most 8 times the block's root-sum-square. -/
theorem fdct_abs_sum (s : Fin 8 → Fin 8 → ℝ) {B : ℝ} (hB : 0 ≤ B) (h : ∀ y x, |s y x| ≤ B) :
    ∑ v : Fin 8, ∑ u : Fin 8, |fdct s v u| ≤ 64 * B := by
  have h1 : (∑ p : Fin 8 × Fin 8, |fdct s p.1 p.2|) ^ 2 ≤ 64 * ∑ p : Fin 8 × Fin 8, |fdct s p.1 p.2| ^ 2 := by
    have := sq_sum_le_card_mul_sum_sq (s := (Finset.univ : Finset (Fin 8 × Fin 8))) (f := fun p => |fdct s p.1 p.2|)
    refine this.trans (le_of_eq ?_)
    congr 1
  have h2 : ∑ p : Fin 8 × Fin 8, |fdct s p.1 p.2| ^ 2 ≤ 64 * B ^ 2 := by
    rw [Fintype.sum_prod_type]
    simp only [sq_abs]
    rw [fdct_sq]
    calc ∑ y : Fin 8, ∑ x : Fin 8, s y x ^ 2 ≤ ∑ y : Fin 8, ∑ x : Fin 8, B ^ 2 := by
          refine Finset.sum_le_sum (fun y _ => Finset.sum_le_sum (fun x _ => ?_))
          rw [← sq_abs]
          exact pow_le_pow_left₀ (abs_nonneg _) (h y x) 2
      _ = 64 * B ^ 2 := sum64 _ _ (fun _ _ => rfl)
  have h3 : (∑ p : Fin 8 × Fin 8, |fdct s p.1 p.2|) ^ 2 ≤ (64 * B) ^ 2 := by nlinarith
  rw [Fintype.sum_prod_type] at h3
  exact Verif.Idct.ge_of_sq' (by positivity) h3

/-! ### Coefficients to samples -/

/-- If the coefficients are those of a block up to `e`, the decoder reconstructs the block up to the bound. -/
theorem reconstruct {q : List Nat} {coef : List Int} {x : Fin 8 → Fin 8 → ℝ} {e : Fin 8 → Fin 8 → ℝ} {S : ℝ}
    (hc : ∀ v u : Fin 8, |((coef.getD (8 * v.val + u.val) 0 : Int) : ℝ) * (q.getD (8 * v.val + u.val) 0 : ℝ) - fdct x v u| ≤ e v u)
    (hq : q.length = 64) (hS : (absSum coef (qi q) : ℝ) ≤ S) (hS' : S ≤ 262144) :
    ∃ out, Idct.idct bits8 8 coef (qi q) = some out ∧ ∀ r k : Fin 8, ∃ R : Int,
      (out.getD r.val []).getD k.val 0 = sample bits8 R ∧
      |(R : ℝ) - x r k| ≤ ∑ v : Fin 8, ∑ u : Fin 8, |basis r k v u| * e v u +
        (0.6175 + S / 35000) := by
  have hS2 : absSum coef (qi q) ≤ 262144 := by
    have : (absSum coef (qi q) : ℝ) ≤ ((262144 : Int) : ℝ) := by push_cast; linarith
    exact_mod_cast this
  obtain ⟨out, ho, h⟩ := C47_idct_accuracy bits8 (Or.inl rfl) coef (qi q) hS2
  refine ⟨out, ho, fun r k => ?_⟩
  obtain ⟨R, eR, hn⟩ := h r k
  refine ⟨R, eR, ?_⟩
  have hb : ∀ v u : Fin 8, block coef (qi q) v u =
      ((coef.getD (8 * v.val + u.val) 0 : Int) : ℝ) * (q.getD (8 * v.val + u.val) 0 : ℝ) := by
    intro v u
    unfold block
    rw [show (qi q).getD (8 * v.val + u.val) 0 = ((q.getD (8 * v.val + u.val) 0 : Nat) : Int) by
      unfold qi
      rw [List.getD_eq_getElem?_getD, List.getD_eq_getElem?_getD, List.getElem?_map, List.getElem?_eq_getElem (by omega)]
      rfl]
    push_cast
    rfl
  have hd : |Transf.idct (block coef (qi q)) r k - x r k| ≤
      ∑ v : Fin 8, ∑ u : Fin 8, |basis r k v u| * e v u := by
    rw [← idct_fdct x r k, idct_A, idct_A, ← mul_sub, ← Finset.sum_sub_distrib, Finset.mul_sum]
    refine (Finset.abs_sum_le_sum_abs _ _).trans (Finset.sum_le_sum (fun v _ => ?_))
    rw [← Finset.sum_sub_distrib, Finset.mul_sum]
    refine (Finset.abs_sum_le_sum_abs _ _).trans (Finset.sum_le_sum (fun u _ => ?_))
    rw [hb v u, ← mul_sub, ← mul_assoc, abs_mul, basis_A]
    rw [show 1 / 8 * (A r v * A k u) = A r v * A k u / 8 by ring]
    exact mul_le_mul_of_nonneg_left (hc v u) (abs_nonneg _)
  have hp : (2 : ℝ) ^ (bits8.p1 + 3) = 32 := by show (2 : ℝ) ^ (2 + 3) = 32; norm_num
  rw [hp] at hn
  have hS3 : (absSum coef (qi q) : ℝ) / 35000 ≤ S / 35000 :=
    div_le_div_of_nonneg_right hS (by norm_num)
  rw [abs_le] at *
  norm_num at *
  constructor <;> linarith [hn.1, hn.2, hd.1, hd.2]

/-- Range limiting does not increase the distance to a sample in 0..255. -/
theorem sample_close {R : Int} {x : Int} {E : ℝ} (h : |(R : ℝ) - x| ≤ E) (hx : -128 ≤ x) (hx' : x ≤ 158) (hE : E < 353) :
    |((sample bits8 R : Nat) : ℝ) - ((max 0 (min 255 (x + 128)) : Int) : ℝ)| ≤ E := by
  have hxr : (-128 : ℝ) ≤ x ∧ (x : ℝ) ≤ 158 := ⟨by exact_mod_cast hx, by exact_mod_cast hx'⟩
  rw [abs_le] at h
  have h1 : (-512 : ℝ) < (R : ℝ) := by linarith [h.1, hxr.1]
  have h2 : (R : ℝ) < 512 := by linarith [h.2, hxr.2]
  have h1' : -512 < R := by exact_mod_cast h1
  have h2' : R < 512 := by exact_mod_cast h2
  rw [sample_plain bits8 (Or.inl rfl) R (by show -(4 * ((128 : Nat) : Int)) ≤ R; omega)
    (by show R < 4 * ((128 : Nat) : Int); omega)]
  have ev : (((min (max ((bits8.c : Int) + R) 0) (2 * bits8.c - 1)).toNat : Nat) : ℝ) =
      ((max 0 (min 255 (128 + R)) : Int) : ℝ) := by
    have e1 : (((min (max ((bits8.c : Int) + R) 0) (2 * bits8.c - 1)).toNat : Nat) : Int) =
        max 0 (min 255 (128 + R)) := by
      show (((min (max (((128 : Nat) : Int) + R) 0) (2 * ((128 : Nat) : Int) - 1)).toNat : Nat) : Int) = _
      omega
    have e2 := congrArg (fun z : Int => (z : ℝ)) e1
    rw [Int.cast_natCast] at e2
    exact e2
  rw [ev]
  have hz : |max 0 (min 255 (128 + R)) - max 0 (min 255 (x + 128))| ≤ |R - x| := by
    rw [abs_le]
    have := abs_le.1 (le_refl |R - x|)
    omega
  have hz' : |((max 0 (min 255 (128 + R)) : Int) : ℝ) - ((max 0 (min 255 (x + 128)) : Int) : ℝ)| ≤ |(R : ℝ) - x| := by
    have := (Int.cast_le (R := ℝ)).2 hz
    push_cast at this ⊢
    exact this
  exact hz'.trans (abs_le.2 h)

end Verif.Fdct
