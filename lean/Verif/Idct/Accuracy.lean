import Verif.Idct.Props
import Verif.Transf.Pixel
import Mathlib.Tactic.Linarith
import Mathlib.Tactic.Ring
import Mathlib.Tactic.FinCases
import Mathlib.Tactic.NormNum
import Mathlib.Algebra.BigOperators.Field
import Mathlib.Algebra.Order.BigOperators.Group.Finset
/-
C47: the 8x8 integer inverse DCT is an accurate approximation of the exact (real-number) inverse DCT.
-/
namespace Verif.Idct

open scoped BigOperators
open Real

/-! ### The kernel as an integer matrix -/

/-- The matrix of the 8-point kernel. -/
def mat : List (List Int) :=
  [[8192, 11363, 10703, 9633, 8192, 6437, 4433, 2260],
   [8192, 9633, 4433, -2259, -8192, -11362, -10704, -6436],
   [8192, 6437, -4433, -11362, -8192, 2261, 10704, 9633],
   [8192, 2260, -10703, -6436, 8192, 9633, -4433, -11363],
   [8192, -2260, -10703, 6436, 8192, -9633, -4433, 11363],
   [8192, -6437, -4433, 11362, -8192, -2261, 10704, -9633],
   [8192, -9633, 4433, 2259, -8192, 11362, -10704, 6436],
   [8192, -11363, 10703, -9633, 8192, -6437, 4433, -2260]]

/-- Entry of the matrix. -/
def M (k j : Fin 8) : Int := (mat.getD k.val []).getD j.val 0

theorem k8_mat (w : Nat → Int) (k : Fin 8) :
    (k8 (w 0) (w 1) (w 2) (w 3) (w 4) (w 5) (w 6) (w 7)).getD k.val 0 = ∑ j : Fin 8, M k j * w j.val := by
  fin_cases k <;>
    simp [Fin.sum_univ_eight, M, mat, k8, shl, cb] <;> ring

/-- Approximations of 2^20*sqrt(2)*cos(n*pi/16), n = 0..31. -/
def tab : List Int :=
  [1482910, 1454417, 1370031, 1232995, 1048576, 823861, 567485, 289301, 0, -289301, -567485, -823861, -1048576,
   -1232995, -1370031, -1454417, -1482910, -1454417, -1370031, -1232995, -1048576, -823861, -567485, -289301, 0,
   289301, 567485, 823861, 1048576, 1232995, 1370031, 1454417]

/-- sqrt(2)*cos(n*pi/16). -/
noncomputable def X (n : Nat) : ℝ := sqrt 2 * cos ((n : ℝ) * π / 16)

theorem le_of_sq' {a x : ℝ} (hx : 0 ≤ x) (h : a ^ 2 ≤ x ^ 2) : a ≤ x := by
  by_contra hc
  have : x < a := lt_of_not_ge hc
  nlinarith

theorem ge_of_sq' {a x : ℝ} (ha : 0 ≤ a) (h : x ^ 2 ≤ a ^ 2) : x ≤ a := by
  by_contra hc
  have : a < x := lt_of_not_ge hc
  nlinarith

theorem near_of_sq (x : ℝ) (t : ℝ) (hx : 0 ≤ x) (ht : 1 ≤ t) (h1 : ((t - 1) / 2 ^ 20) ^ 2 ≤ x ^ 2)
    (h2 : x ^ 2 ≤ ((t + 1) / 2 ^ 20) ^ 2) : |x - t / 2 ^ 20| ≤ 1 / 2 ^ 20 := by
  have a := le_of_sq' hx h1
  have b := ge_of_sq' (by positivity) h2
  rw [abs_le]
  constructor
  · have : (t - 1) / 2 ^ 20 = t / 2 ^ 20 - 1 / 2 ^ 20 := by ring
    linarith
  · have : (t + 1) / 2 ^ 20 = t / 2 ^ 20 + 1 / 2 ^ 20 := by ring
    linarith

theorem X_sq (n : Nat) : X n ^ 2 = 1 + cos ((n : ℝ) * π / 8) := by
  unfold X
  rw [mul_pow, Real.sq_sqrt (by norm_num), Real.cos_sq]
  have : 2 * ((n : ℝ) * π / 16) = (n : ℝ) * π / 8 := by ring
  rw [this]; ring

theorem X_nonneg (n : Nat) (h : n ≤ 8) : 0 ≤ X n := by
  unfold X
  apply mul_nonneg (Real.sqrt_nonneg _)
  apply Real.cos_nonneg_of_mem_Icc
  have hn : (n : ℝ) ≤ 8 := by exact_mod_cast h
  have hp := Real.pi_pos
  have h0 : (0 : ℝ) ≤ n := Nat.cast_nonneg n
  constructor
  · have : 0 ≤ (n : ℝ) * π / 16 := by positivity
    linarith
  · have : (n : ℝ) * π ≤ 8 * π := mul_le_mul_of_nonneg_right hn hp.le
    linarith

theorem sqrt2_bounds : (1.414213562 : ℝ) ≤ sqrt 2 ∧ sqrt 2 ≤ 1.414213563 := by
  have h := Real.sq_sqrt (show (0 : ℝ) ≤ 2 by norm_num)
  exact ⟨le_of_sq' (Real.sqrt_nonneg _) (by rw [h]; norm_num), ge_of_sq' (by norm_num) (by rw [h]; norm_num)⟩

theorem cos8_bounds : (0.92387953 : ℝ) ≤ cos (π / 8) ∧ cos (π / 8) ≤ 0.92387954 := by
  have h : cos (π / 8) ^ 2 = 1 / 2 + sqrt 2 / 4 := by
    rw [Real.cos_sq, show 2 * (π / 8) = π / 4 by ring, Real.cos_pi_div_four]; ring
  have hp := Real.pi_pos
  have h0 : 0 ≤ cos (π / 8) := Real.cos_nonneg_of_mem_Icc ⟨by linarith, by linarith⟩
  obtain ⟨a, b⟩ := sqrt2_bounds
  constructor
  · refine le_of_sq' h0 ?_
    rw [h]; norm_num at *; linarith
  · refine ge_of_sq' (by norm_num) ?_
    rw [h]; norm_num at *; linarith

theorem cos38_bounds : (0.38268343 : ℝ) ≤ cos (3 * π / 8) ∧ cos (3 * π / 8) ≤ 0.38268344 := by
  have h : cos (3 * π / 8) ^ 2 = 1 / 2 - sqrt 2 / 4 := by
    rw [Real.cos_sq, show 2 * (3 * π / 8) = π - π / 4 by ring, Real.cos_pi_sub, Real.cos_pi_div_four]; ring
  have hp := Real.pi_pos
  have h0 : 0 ≤ cos (3 * π / 8) := Real.cos_nonneg_of_mem_Icc ⟨by linarith, by linarith⟩
  obtain ⟨a, b⟩ := sqrt2_bounds
  constructor
  · refine le_of_sq' h0 ?_
    rw [h]; norm_num at *; linarith
  · refine ge_of_sq' (by norm_num) ?_
    rw [h]; norm_num at *; linarith

theorem X_low (n : Nat) (h : n ≤ 8) : |X n - ((tab.getD n 0 : Int) : ℝ) / 2 ^ 20| ≤ 1 / 2 ^ 20 := by
  obtain ⟨a2, b2⟩ := sqrt2_bounds
  obtain ⟨a8, b8⟩ := cos8_bounds
  obtain ⟨a38, b38⟩ := cos38_bounds
  have hn : n = 0 ∨ n = 1 ∨ n = 2 ∨ n = 3 ∨ n = 4 ∨ n = 5 ∨ n = 6 ∨ n = 7 ∨ n = 8 := by omega
  have e4 := Real.cos_pi_div_four
  rcases hn with rfl | rfl | rfl | rfl | rfl | rfl | rfl | rfl | rfl
  · refine near_of_sq _ _ (X_nonneg 0 (by omega)) ?_ ?_ ?_ <;> (try rw [X_sq]) <;> simp [tab] <;> norm_num
  · have e : cos (((1 : Nat) : ℝ) * π / 8) = cos (π / 8) := by congr 1; push_cast; ring
    refine near_of_sq _ _ (X_nonneg 1 (by omega)) ?_ ?_ ?_ <;> (try rw [X_sq, e]) <;> simp [tab] <;> norm_num at * <;>
      linarith
  · have e : cos (((2 : Nat) : ℝ) * π / 8) = sqrt 2 / 2 := by rw [← e4]; congr 1; push_cast; ring
    refine near_of_sq _ _ (X_nonneg 2 (by omega)) ?_ ?_ ?_ <;> (try rw [X_sq, e]) <;> simp [tab] <;> norm_num at * <;>
      linarith
  · have e : cos (((3 : Nat) : ℝ) * π / 8) = cos (3 * π / 8) := by congr 1
    refine near_of_sq _ _ (X_nonneg 3 (by omega)) ?_ ?_ ?_ <;> (try rw [X_sq, e]) <;> simp [tab] <;> norm_num at * <;>
      linarith
  · have e : cos (((4 : Nat) : ℝ) * π / 8) = 0 := by rw [← Real.cos_pi_div_two]; congr 1; push_cast; ring
    refine near_of_sq _ _ (X_nonneg 4 (by omega)) ?_ ?_ ?_ <;> (try rw [X_sq, e]) <;> simp [tab] <;> norm_num
  · have e : cos (((5 : Nat) : ℝ) * π / 8) = - cos (3 * π / 8) := by
      rw [← Real.cos_pi_sub]; congr 1; push_cast; ring
    refine near_of_sq _ _ (X_nonneg 5 (by omega)) ?_ ?_ ?_ <;> (try rw [X_sq, e]) <;> simp [tab] <;> norm_num at * <;>
      linarith
  · have e : cos (((6 : Nat) : ℝ) * π / 8) = - (sqrt 2 / 2) := by
      rw [← e4, ← Real.cos_pi_sub]; congr 1; push_cast; ring
    refine near_of_sq _ _ (X_nonneg 6 (by omega)) ?_ ?_ ?_ <;> (try rw [X_sq, e]) <;> simp [tab] <;> norm_num at * <;>
      linarith
  · have e : cos (((7 : Nat) : ℝ) * π / 8) = - cos (π / 8) := by
      rw [← Real.cos_pi_sub]; congr 1; push_cast; ring
    refine near_of_sq _ _ (X_nonneg 7 (by omega)) ?_ ?_ ?_ <;> (try rw [X_sq, e]) <;> simp [tab] <;> norm_num at * <;>
      linarith
  · have : X 8 = 0 := by
      unfold X
      rw [show ((8 : Nat) : ℝ) * π / 16 = π / 2 by push_cast; ring, Real.cos_pi_div_two]; simp
    rw [this]; simp [tab]

theorem X_add16 (n : Nat) : X (n + 16) = - X n := by
  unfold X
  rw [show (((n + 16 : Nat) : ℝ)) * π / 16 = (n : ℝ) * π / 16 + π by push_cast; ring, Real.cos_add_pi]; ring

theorem X_sub16 (n : Nat) (h : n ≤ 16) : X (16 - n) = - X n := by
  unfold X
  rw [show (((16 - n : Nat) : ℝ)) * π / 16 = π - (n : ℝ) * π / 16 by rw [Nat.cast_sub h]; push_cast; ring,
    Real.cos_pi_sub]; ring

theorem tab_sym : ∀ n : Nat, n ≤ 16 → tab.getD (16 - n) 0 = - tab.getD n 0 ∧
    (n < 16 → tab.getD (n + 16) 0 = - tab.getD n 0) := by decide

theorem X_tab16 (n : Nat) (h : n ≤ 16) : |X n - ((tab.getD n 0 : Int) : ℝ) / 2 ^ 20| ≤ 1 / 2 ^ 20 := by
  by_cases h8 : n ≤ 8
  · exact X_low n h8
  · have e1 := X_sub16 (16 - n) (by omega)
    have e2 := (tab_sym (16 - n) (by omega)).1
    rw [show 16 - (16 - n) = n by omega] at e1 e2
    have h := X_low (16 - n) (by omega)
    rw [e1, e2]
    push_cast
    rw [← abs_neg]
    refine le_of_eq_of_le ?_ h
    congr 1; ring

theorem X_tab (n : Nat) (h : n < 32) : |X n - ((tab.getD n 0 : Int) : ℝ) / 2 ^ 20| ≤ 1 / 2 ^ 20 := by
  by_cases h8 : n < 16
  · exact X_tab16 n (by omega)
  · obtain ⟨m, rfl⟩ : ∃ m, n = m + 16 := ⟨n - 16, by omega⟩
    have h := X_tab16 m (by omega)
    rw [X_add16, (tab_sym m (by omega)).2 (by omega)]
    push_cast
    rw [← abs_neg]
    refine le_of_eq_of_le ?_ h
    congr 1; ring

theorem X_mod (n : Nat) : X n = X (n % 32) := by
  have h : ∀ q r : Nat, X (32 * q + r) = X r := by
    intro q r
    induction q with
    | zero => simp
    | succ q ih => rw [show 32 * (q + 1) + r = (32 * q + r) + 16 + 16 by ring, X_add16, X_add16, ih]; ring
  conv_lhs => rw [← Nat.div_add_mod n 32]
  exact h _ _

/-! ### The exact inverse DCT in the same form -/

/-- Basis value of the exact transform, scaled so that the DC row is 1. -/
noncomputable def A (k j : Fin 8) : ℝ := if j = 0 then 1 else X ((2 * k.val + 1) * j.val)

/-- Its tabulated approximation, times 2^20. -/
def tb (k j : Fin 8) : Int := if j = 0 then 1048576 else tab.getD ((2 * k.val + 1) * j.val % 32) 0

theorem A_tb (k j : Fin 8) : |A k j - ((tb k j : Int) : ℝ) / 2 ^ 20| ≤ 1 / 2 ^ 20 := by
  unfold A tb
  split
  · norm_num
  · rw [X_mod]; exact X_tab _ (Nat.mod_lt _ (by decide))

theorem A_nrm (k j : Fin 8) :
    Transf.nrm j * cos ((2 * (k.val : ℝ) + 1) * (j.val : ℝ) * π / 16) = A k j / sqrt 2 := by
  unfold Transf.nrm A X
  split
  · rename_i h; subst h; simp
  · have h2 : sqrt 2 ≠ 0 := by positivity
    push_cast
    field_simp

theorem idct_A (F : Fin 8 → Fin 8 → ℝ) (y x : Fin 8) :
    Transf.idct F y x = 1 / 8 * ∑ v : Fin 8, ∑ u : Fin 8, A y v * A x u * F v u := by
  unfold Transf.idct
  rw [show (1 / 8 : ℝ) = 1 / 4 * (1 / 2) by norm_num, mul_assoc]
  congr 1
  rw [Finset.mul_sum]
  refine Finset.sum_congr rfl (fun v _ => ?_)
  rw [Finset.mul_sum]
  refine Finset.sum_congr rfl (fun u _ => ?_)
  have e : Transf.nrm u * Transf.nrm v * F v u * cos ((2 * (x.val : ℝ) + 1) * (u.val : ℝ) * π / 16) *
      cos ((2 * (y.val : ℝ) + 1) * (v.val : ℝ) * π / 16) =
      (Transf.nrm u * cos ((2 * (x.val : ℝ) + 1) * (u.val : ℝ) * π / 16)) *
      (Transf.nrm v * cos ((2 * (y.val : ℝ) + 1) * (v.val : ℝ) * π / 16)) * F v u := by ring
  rw [e, A_nrm, A_nrm, div_mul_div_comm, Real.mul_self_sqrt (by norm_num)]
  ring

theorem A_le (k j : Fin 8) : |A k j| ≤ 15 / 10 := by
  unfold A
  split
  · norm_num
  · unfold X
    rw [abs_mul, abs_of_nonneg (Real.sqrt_nonneg _)]
    have h1 := Real.abs_cos_le_one ((((2 * k.val + 1) * j.val : Nat) : ℝ) * π / 16)
    have h2 := sqrt2_bounds.2
    have h3 := Real.sqrt_nonneg 2
    calc sqrt 2 * |cos ((((2 * k.val + 1) * j.val : Nat) : ℝ) * π / 16)| ≤ sqrt 2 * 1 :=
          mul_le_mul_of_nonneg_left h1 h3
      _ ≤ 15 / 10 := by norm_num at *; linarith

theorem tb_le : ∀ k j : Fin 8, |tb k j| ≤ 1500000 := by decide +kernel

/-- The integer kernel's products against the tabulated cosines: a finite check over the 8^4 index combinations of
the fixed matrix. -/
theorem prod_tab : ∀ r v k u : Fin 8, |M r v * M k u * 16384 - tb r v * tb k u| ≤ 242000000 := by decide +kernel

theorem M_le : ∀ k j : Fin 8, |M k j| ≤ 11363 := by decide +kernel

theorem M_l1 : ∀ k : Fin 8, ∑ j : Fin 8, |M k j| ≤ 61440 := by decide +kernel

theorem prod_near (r v k u : Fin 8) :
    |((M r v * M k u : Int) : ℝ) / 2 ^ 29 - 1 / 8 * (A r v * A k u)| ≤ 1 / 35000 := by
  have h1 : |((M r v * M k u * 16384 - tb r v * tb k u : Int) : ℝ)| ≤ 242000000 := by
    have := prod_tab r v k u
    rw [← Int.cast_abs]
    exact_mod_cast this
  have hA := A_tb r v
  have hB := A_tb k u
  have ht : |((tb r v : Int) : ℝ)| ≤ 1500000 := by
    have := tb_le r v
    rw [← Int.cast_abs]
    exact_mod_cast this
  have hA' := A_le k u
  have e : ((M r v * M k u : Int) : ℝ) / 2 ^ 29 - 1 / 8 * (A r v * A k u) =
      ((M r v * M k u * 16384 - tb r v * tb k u : Int) : ℝ) / 2 ^ 43 -
      1 / 8 * (((tb r v : Int) : ℝ) / 2 ^ 20 * (A k u - ((tb k u : Int) : ℝ) / 2 ^ 20) +
        (A r v - ((tb r v : Int) : ℝ) / 2 ^ 20) * A k u) := by
    push_cast; ring
  rw [e]
  have b1 : |((M r v * M k u * 16384 - tb r v * tb k u : Int) : ℝ) / 2 ^ 43| ≤ 242000000 / 2 ^ 43 := by
    rw [abs_div, abs_of_pos (show (0 : ℝ) < 2 ^ 43 by positivity)]
    exact div_le_div_of_nonneg_right h1 (by positivity)
  have b2 : |((tb r v : Int) : ℝ) / 2 ^ 20 * (A k u - ((tb k u : Int) : ℝ) / 2 ^ 20)| ≤
      1500000 / 2 ^ 20 * (1 / 2 ^ 20) := by
    rw [abs_mul, abs_div, abs_of_pos (show (0 : ℝ) < 2 ^ 20 by positivity)]
    exact mul_le_mul (div_le_div_of_nonneg_right ht (by positivity)) hB (abs_nonneg _) (by positivity)
  have b3 : |(A r v - ((tb r v : Int) : ℝ) / 2 ^ 20) * A k u| ≤ 1 / 2 ^ 20 * (15 / 10) := by
    rw [abs_mul]
    exact mul_le_mul hA hA' (abs_nonneg _) (by positivity)
  rw [abs_le] at *
  constructor <;> norm_num at * <;> linarith

/-! ### Rounding -/

theorem descale_near (x : Int) (n : Nat) (hn : 1 ≤ n) : |((descale x n : Int) : ℝ) - (x : ℝ) / 2 ^ n| ≤ 1 / 2 := by
  unfold descale shr
  obtain ⟨m, rfl⟩ : ∃ m, n = m + 1 := ⟨n - 1, by omega⟩
  rw [Nat.add_sub_cancel]
  have hp : (0 : Int) < 2 ^ m := by positivity
  have h1 := Int.mul_ediv_add_emod (x + ((2 ^ m : Nat) : Int)) ((2 ^ (m + 1) : Nat) : Int)
  have h2 := Int.emod_nonneg (x + ((2 ^ m : Nat) : Int)) (show ((2 ^ (m + 1) : Nat) : Int) ≠ 0 by positivity)
  have h3 := Int.emod_lt_of_pos (x + ((2 ^ m : Nat) : Int)) (show (0 : Int) < ((2 ^ (m + 1) : Nat) : Int) by positivity)
  generalize (x + ((2 ^ m : Nat) : Int)) / ((2 ^ (m + 1) : Nat) : Int) = d at *
  generalize (x + ((2 ^ m : Nat) : Int)) % ((2 ^ (m + 1) : Nat) : Int) = e at *
  push_cast at h1 h3
  have r1 : (2 : ℝ) ^ (m + 1) * (d : ℝ) + (e : ℝ) = (x : ℝ) + 2 ^ m := by exact_mod_cast h1
  have r2 : (0 : ℝ) ≤ (e : ℝ) := by exact_mod_cast h2
  have r3 : (e : ℝ) < 2 ^ (m + 1) := by exact_mod_cast h3
  have hq : (0 : ℝ) < 2 ^ (m + 1) := by positivity
  have e1 : (d : ℝ) - (x : ℝ) / 2 ^ (m + 1) = (2 ^ m - e) / 2 ^ (m + 1) := by
    field_simp; linarith
  rw [e1, abs_div, abs_of_pos hq, div_le_iff₀ hq, abs_le]
  rw [pow_succ] at *
  constructor <;> linarith

/-- Sum of the absolute dequantized coefficients of the block. -/
def absSum (coef q : List Int) : Int := ∑ v : Fin 8, ∑ u : Fin 8, |deq coef q u.val v.val|

/-- The dequantized block as the input of the exact transform: row `v` vertical frequency, column `u` horizontal. -/
noncomputable def block (coef q : List Int) (v u : Fin 8) : ℝ :=
  ((coef.getD (8 * v.val + u.val) 0 * q.getD (8 * v.val + u.val) 0 : Int) : ℝ)

/-- Pass 1 sum of column `u`, row `r`. -/
def p1sum (coef q : List Int) (r u : Fin 8) : Int := ∑ v : Fin 8, M r v * deq coef q u.val v.val

/-- Work entry. -/
def wsv (b : Build) (coef q : List Int) (r u : Fin 8) : Int := descale (p1sum coef q r u) (cb - b.p1)

/-- The raw output before range limiting. -/
def rawv (b : Build) (coef q : List Int) (r k : Fin 8) : Int :=
  descale (∑ u : Fin 8, M k u * wsv b coef q r u) (cb + b.p1 + 3)

theorem p1sum_le (coef q : List Int) (r u : Fin 8) : |p1sum coef q r u| ≤ 11363 * absSum coef q := by
  unfold p1sum absSum
  calc |∑ v : Fin 8, M r v * deq coef q u.val v.val| ≤ ∑ v : Fin 8, |M r v * deq coef q u.val v.val| :=
        Finset.abs_sum_le_sum_abs _ _
    _ ≤ ∑ v : Fin 8, 11363 * |deq coef q u.val v.val| := by
        refine Finset.sum_le_sum (fun v _ => ?_)
        rw [abs_mul]
        exact mul_le_mul_of_nonneg_right (M_le r v) (abs_nonneg _)
    _ ≤ ∑ v : Fin 8, 11363 * ∑ u : Fin 8, |deq coef q u.val v.val| := by
        refine Finset.sum_le_sum (fun v _ => mul_le_mul_of_nonneg_left ?_ (by norm_num))
        exact Finset.single_le_sum (f := fun u : Fin 8 => |deq coef q u.val v.val|) (fun i _ => abs_nonneg _)
          (Finset.mem_univ u)
    _ = 11363 * ∑ v : Fin 8, ∑ u : Fin 8, |deq coef q u.val v.val| := by rw [Finset.mul_sum]

theorem toInt32_id (x : Int) (h1 : -2147483648 ≤ x) (h2 : x < 2147483648) : toInt32 x = x := by
  unfold toInt32; omega

theorem wsv_toInt32 (b : Build) (hb : IsBuild b) (coef q : List Int) (hS : absSum coef q ≤ 262144) (r u : Fin 8) :
    toInt32 (wsv b coef q r u) = wsv b coef q r u := by
  have h := p1sum_le coef q r u
  rw [abs_le] at h
  obtain ⟨h1, h2⟩ := h
  unfold wsv
  generalize p1sum coef q r u = p at *
  apply toInt32_id
  · rcases hb with rfl | rfl <;> simp only [descale, shr, cb, bits8, bits12] <;> omega
  · rcases hb with rfl | rfl <;> simp only [descale, shr, cb, bits8, bits12] <;> omega

theorem map_getD (l : List Int) (f : Int → Int) (i : Nat) (h : i < l.length) : (l.map f).getD i 0 = f (l.getD i 0) := by
  simp [h]

theorem map_getD' (l : List Int) (f : Int → Nat) (i : Nat) (h : i < l.length) : (l.map f).getD i 0 = f (l.getD i 0) := by
  simp [h]

theorem colFull8_get (b : Build) (coef q : List Int) (r : Fin 8) (u : Fin 8) :
    (colFull8 b (deq coef q u.val)).getD r.val 0 = toInt32 (wsv b coef q r u) := by
  unfold colFull8
  rw [map_getD _ _ _ (by simp [k8]), k8_mat]
  rfl

/-- Sample (r, k) of the 8x8 transform of a moderate block is the limited raw value. -/
theorem full8_get (b : Build) (hb : IsBuild b) (coef q : List Int) (hS : absSum coef q ≤ 262144) (r k : Fin 8) :
    ((full8 b coef q).getD r.val []).getD k.val 0 = sample b (rawv b coef q r k) := by
  unfold full8
  have e : ∀ g : Nat → List Nat, ((List.range 8).map g).getD r.val [] = g r.val := by
    intro g; simp
  rw [e]
  dsimp only
  rw [map_getD' _ _ _ (by simp [k8]), k8_mat (fun u => (colFull8 b (deq coef q u)).getD r.val 0) k]
  unfold rawv
  congr 2
  refine Finset.sum_congr rfl (fun u _ => ?_)
  rw [colFull8_get, wsv_toInt32 b hb coef q hS]

theorem raw_near (b : Build) (hb : IsBuild b) (coef q : List Int) (r k : Fin 8) :
    |((rawv b coef q r k : Int) : ℝ) - Transf.idct (block coef q) r k| ≤
      1 / 2 + (15 / 4) / 2 ^ (b.p1 + 3) + (absSum coef q : ℝ) / 35000 := by
  -- split off the two roundings
  have hp : 1 ≤ b.p1 ∧ b.p1 ≤ 2 := by rcases hb with rfl | rfl <;> decide
  have h2 := descale_near (∑ u : Fin 8, M k u * wsv b coef q r u) (cb + b.p1 + 3) (by omega)
  have h1 : ∀ u, |((wsv b coef q r u : Int) : ℝ) - (p1sum coef q r u : ℝ) / 2 ^ (cb - b.p1)| ≤ 1 / 2 :=
    fun u => descale_near _ _ (by have : cb = 13 := rfl; omega)
  set E : ℝ := ∑ u : Fin 8, (M k u : ℝ) * ((wsv b coef q r u : ℝ) - (p1sum coef q r u : ℝ) / 2 ^ (cb - b.p1)) with hE
  have hEle : |E| ≤ 30720 := by
    have hl := M_l1 k
    calc |E| ≤ ∑ u : Fin 8, |(M k u : ℝ) * ((wsv b coef q r u : ℝ) - (p1sum coef q r u : ℝ) / 2 ^ (cb - b.p1))| :=
          Finset.abs_sum_le_sum_abs _ _
      _ ≤ ∑ u : Fin 8, |(M k u : ℝ)| * (1 / 2) := by
          refine Finset.sum_le_sum (fun u _ => ?_)
          rw [abs_mul]
          exact mul_le_mul_of_nonneg_left (h1 u) (abs_nonneg _)
      _ = (∑ u : Fin 8, |(M k u : ℝ)|) * (1 / 2) := by rw [Finset.sum_mul]
      _ ≤ 61440 * (1 / 2) := by
          refine mul_le_mul_of_nonneg_right ?_ (by norm_num)
          have : ((∑ j : Fin 8, |M k j| : Int) : ℝ) ≤ 61440 := by exact_mod_cast hl
          push_cast at this
          exact this
      _ = 30720 := by norm_num
  have hsum : ((∑ u : Fin 8, M k u * wsv b coef q r u : Int) : ℝ) =
      E + ∑ u : Fin 8, (M k u : ℝ) * ((p1sum coef q r u : ℝ) / 2 ^ (cb - b.p1)) := by
    rw [hE, ← Finset.sum_add_distrib]
    push_cast
    refine Finset.sum_congr rfl (fun u _ => ?_)
    ring
  -- the linear part against the exact transform
  have hpow : (2 : ℝ) ^ (cb - b.p1) * 2 ^ (cb + b.p1 + 3) = 2 ^ 29 := by
    rw [← pow_add]; congr 1; have : cb = 13 := rfl; omega
  have hlin : |(∑ u : Fin 8, (M k u : ℝ) * ((p1sum coef q r u : ℝ) / 2 ^ (cb - b.p1))) / 2 ^ (cb + b.p1 + 3) -
      Transf.idct (block coef q) r k| ≤ (absSum coef q : ℝ) / 35000 := by
    have e1 : (∑ u : Fin 8, (M k u : ℝ) * ((p1sum coef q r u : ℝ) / 2 ^ (cb - b.p1))) / 2 ^ (cb + b.p1 + 3) =
        ∑ v : Fin 8, ∑ u : Fin 8, ((M r v * M k u : Int) : ℝ) / 2 ^ 29 * block coef q v u := by
      rw [Finset.sum_comm, Finset.sum_div]
      refine Finset.sum_congr rfl (fun u _ => ?_)
      unfold p1sum
      rw [mul_div_assoc', div_div, hpow]
      push_cast
      rw [Finset.mul_sum, Finset.sum_div]
      refine Finset.sum_congr rfl (fun v _ => ?_)
      unfold block deq
      push_cast
      ring
    rw [e1, idct_A, Finset.mul_sum, ← Finset.sum_sub_distrib]
    have e2 : (absSum coef q : ℝ) / 35000 = ∑ v : Fin 8, ∑ u : Fin 8, 1 / 35000 * |block coef q v u| := by
      unfold absSum
      push_cast
      rw [Finset.sum_div]
      refine Finset.sum_congr rfl (fun v _ => ?_)
      rw [Finset.sum_div]
      refine Finset.sum_congr rfl (fun u _ => ?_)
      unfold block deq
      push_cast
      ring
    rw [e2]
    refine le_trans (Finset.abs_sum_le_sum_abs _ _) (Finset.sum_le_sum (fun v _ => ?_))
    rw [Finset.mul_sum, ← Finset.sum_sub_distrib]
    refine le_trans (Finset.abs_sum_le_sum_abs _ _) (Finset.sum_le_sum (fun u _ => ?_))
    have e3 : ((M r v * M k u : Int) : ℝ) / 2 ^ 29 * block coef q v u - 1 / 8 * (A r v * A k u * block coef q v u) =
        (((M r v * M k u : Int) : ℝ) / 2 ^ 29 - 1 / 8 * (A r v * A k u)) * block coef q v u := by ring
    rw [e3, abs_mul]
    exact mul_le_mul_of_nonneg_right (prod_near r v k u) (abs_nonneg _)
  have hE2 : |E / 2 ^ (cb + b.p1 + 3)| ≤ (15 / 4) / 2 ^ (b.p1 + 3) := by
    have e : (2 : ℝ) ^ (cb + b.p1 + 3) = 8192 * 2 ^ (b.p1 + 3) := by
      rw [show cb + b.p1 + 3 = 13 + (b.p1 + 3) by have : cb = 13 := rfl; omega, pow_add]; norm_num
    have hq : (0 : ℝ) < 2 ^ (b.p1 + 3) := by positivity
    rw [e, abs_div, abs_of_pos (show (0 : ℝ) < 8192 * 2 ^ (b.p1 + 3) by positivity), ← div_div]
    refine div_le_div_of_nonneg_right ?_ hq.le
    rw [div_le_iff₀ (by norm_num)]
    linarith
  change |((rawv b coef q r k : Int) : ℝ) - ((∑ u : Fin 8, M k u * wsv b coef q r u : Int) : ℝ) /
    2 ^ (cb + b.p1 + 3)| ≤ 1 / 2 at h2
  rw [hsum, add_div] at h2
  rw [abs_le] at *
  constructor <;> linarith [h2.1, h2.2, hE2.1, hE2.2, hlin.1, hlin.2]

/-- **C47 (accuracy of the inverse DCT).** For both sample precisions and every block whose dequantized coefficients
have absolute sum at most 2^18, sample (r, k) of the 8x8 integer inverse DCT is the range-limited value of an integer
`R` that differs from the exact real-number inverse DCT of the same dequantized block by at most
1/2 + (15/4)/2^(PASS1_BITS+3) + (absolute sum)/35000. -/
theorem C47_idct_accuracy (b : Build) (hb : IsBuild b) (coef q : List Int) (hS : absSum coef q ≤ 262144) :
    ∃ out, idct b 8 coef q = some out ∧ ∀ r k : Fin 8, ∃ R : Int,
      (out.getD r.val []).getD k.val 0 = sample b R ∧
      |(R : ℝ) - Transf.idct (block coef q) r k| ≤
        1 / 2 + (15 / 4) / 2 ^ (b.p1 + 3) + (absSum coef q : ℝ) / 35000 :=
  ⟨full8 b coef q, C32_shortcuts_exact8 b hb coef q, fun r k =>
    ⟨rawv b coef q r k, full8_get b hb coef q hS r k, raw_near b hb coef q r k⟩⟩

/-- **C47 (8-bit samples within one).** For 8-bit samples, if the dequantized coefficients have absolute sum at most
8192 and the exact inverse DCT stays within ±510, every decoded sample is within 0.86 of the exact value
(exact inverse DCT plus 128, limited to 0..255). -/
theorem C47_sample_within_one (coef q : List Int) (hS : absSum coef q ≤ 8192)
    (hR : ∀ r k : Fin 8, |Transf.idct (block coef q) r k| ≤ 510) :
    ∃ out, idct bits8 8 coef q = some out ∧ ∀ r k : Fin 8,
      |(((out.getD r.val []).getD k.val 0 : Nat) : ℝ) -
        max 0 (min 255 (128 + Transf.idct (block coef q) r k))| ≤ 0.86 := by
  obtain ⟨out, ho, h⟩ := C47_idct_accuracy bits8 (Or.inl rfl) coef q (by omega)
  refine ⟨out, ho, fun r k => ?_⟩
  obtain ⟨R, e, hn⟩ := h r k
  have hx := hR r k
  have hSr : (absSum coef q : ℝ) ≤ 8192 := by exact_mod_cast hS
  have hn' : |(R : ℝ) - Transf.idct (block coef q) r k| ≤ 0.86 := by
    refine le_trans hn ?_
    show (1 : ℝ) / 2 + (15 / 4) / 2 ^ (2 + 3) + (absSum coef q : ℝ) / 35000 ≤ 0.86
    norm_num
    linarith
  generalize Transf.idct (block coef q) r k = x at *
  rw [abs_le] at hn' hx
  have h1 : (-512 : ℝ) < (R : ℝ) := by norm_num at *; linarith
  have h2 : (R : ℝ) < 512 := by norm_num at *; linarith
  have h1' : -512 < R := by exact_mod_cast h1
  have h2' : R < 512 := by exact_mod_cast h2
  rw [e, sample_plain bits8 (Or.inl rfl) R (by show -(4 * ((128 : Nat) : Int)) ≤ R; omega)
    (by show R < 4 * ((128 : Nat) : Int); omega)]
  have ev : (((min (max ((bits8.c : Int) + R) 0) (2 * bits8.c - 1)).toNat : Nat) : ℝ) =
      max 0 (min 255 (128 + (R : ℝ))) := by
    have e1 : (((min (max ((bits8.c : Int) + R) 0) (2 * bits8.c - 1)).toNat : Nat) : Int) =
        max 0 (min 255 (128 + R)) := by
      show (((min (max (((128 : Nat) : Int) + R) 0) (2 * ((128 : Nat) : Int) - 1)).toNat : Nat) : Int) = _
      omega
    have e2 := congrArg (fun z : Int => (z : ℝ)) e1
    push_cast at e2
    exact e2
  rw [ev]
  rw [max_comm 0, max_comm 0]
  refine le_trans (abs_max_sub_max_le_abs _ _ _) ?_
  refine le_trans (abs_min_sub_min_le_max _ _ _ _) ?_
  rw [sub_self, abs_zero]
  refine max_le (by norm_num) ?_
  rw [abs_le]
  constructor <;> linarith [hn'.1, hn'.2]

/-- The exact inverse DCT is bounded by the absolute sum of the coefficients. -/
theorem idct_le (coef q : List Int) (r k : Fin 8) :
    |Transf.idct (block coef q) r k| ≤ 9 / 32 * (absSum coef q : ℝ) := by
  rw [idct_A, abs_mul, abs_of_pos (show (0 : ℝ) < 1 / 8 by norm_num)]
  have h : |∑ v : Fin 8, ∑ u : Fin 8, A r v * A k u * block coef q v u| ≤ 9 / 4 * (absSum coef q : ℝ) := by
    have e2 : 9 / 4 * (absSum coef q : ℝ) = ∑ v : Fin 8, ∑ u : Fin 8, 9 / 4 * |block coef q v u| := by
      unfold absSum
      push_cast
      rw [Finset.mul_sum]
      refine Finset.sum_congr rfl (fun v _ => ?_)
      rw [Finset.mul_sum]
      refine Finset.sum_congr rfl (fun u _ => ?_)
      unfold block deq
      push_cast
      ring
    rw [e2]
    refine le_trans (Finset.abs_sum_le_sum_abs _ _) (Finset.sum_le_sum (fun v _ => ?_))
    refine le_trans (Finset.abs_sum_le_sum_abs _ _) (Finset.sum_le_sum (fun u _ => ?_))
    rw [abs_mul, abs_mul]
    refine mul_le_mul_of_nonneg_right ?_ (abs_nonneg _)
    calc |A r v| * |A k u| ≤ 15 / 10 * (15 / 10) :=
          mul_le_mul (A_le r v) (A_le k u) (abs_nonneg _) (by norm_num)
      _ = 9 / 4 := by norm_num
  linarith

/-- The hypotheses of the theorems above are met by the example block. -/
example : absSum exCoef exQ = 935 := by decide +kernel

example : ∀ r k : Fin 8, |Transf.idct (block exCoef exQ) r k| ≤ 510 := by
  intro r k
  have h := idct_le exCoef exQ r k
  have e : absSum exCoef exQ = 935 := by decide +kernel
  rw [e] at h
  norm_num at h
  linarith

end Verif.Idct
