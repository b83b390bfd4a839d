import Verif.Fdct.Accuracy
import Mathlib.LinearAlgebra.Matrix.NonsingularInverse
/-
The exact transforms are inverse to each other and keep the sum of squares.
-/
namespace Verif.Fdct

open Verif.Idct (A X idct_A)
open scoped BigOperators
open Real

/-- cos(n*pi/8). -/
noncomputable def C8 (n : Nat) : ℝ := cos ((n : ℝ) * π / 8)

theorem C8_add16 (n : Nat) : C8 (n + 16) = C8 n := by
  unfold C8
  rw [show (((n + 16 : Nat) : ℝ)) * π / 8 = (n : ℝ) * π / 8 + 2 * π by push_cast; ring, Real.cos_add_two_pi]

theorem C8_sub16 (n : Nat) (h : n ≤ 16) : C8 (16 - n) = C8 n := by
  unfold C8
  rw [show (((16 - n : Nat) : ℝ)) * π / 8 = 2 * π - (n : ℝ) * π / 8 by rw [Nat.cast_sub h]; push_cast; ring,
    Real.cos_two_pi_sub]

theorem C8_sub8 (n : Nat) (h : n ≤ 8) : C8 (8 - n) = -C8 n := by
  unfold C8
  rw [show (((8 - n : Nat) : ℝ)) * π / 8 = π - (n : ℝ) * π / 8 by rw [Nat.cast_sub h]; push_cast; ring,
    Real.cos_pi_sub]

theorem C8_0 : C8 0 = 1 := by simp [C8]

theorem C8_4 : C8 4 = 0 := by
  have := C8_sub8 4 (by omega)
  norm_num at this
  linarith

theorem C8_mod (n : Nat) : C8 n = C8 (n % 16) := by
  have h : ∀ q r : Nat, C8 (16 * q + r) = C8 r := by
    intro q r
    induction q with
    | zero => simp
    | succ q ih => rw [show 16 * (q + 1) + r = (16 * q + r) + 16 by ring, C8_add16, ih]
  conv_lhs => rw [← Nat.div_add_mod n 16]
  exact h _ _

/-- The sum over the seven AC frequencies. -/
noncomputable def S8 (m : Nat) : ℝ :=
  C8 m + C8 (2 * m) + C8 (3 * m) + C8 (4 * m) + C8 (5 * m) + C8 (6 * m) + C8 (7 * m)

theorem S8_eq (m : Nat) (h0 : 0 < m) (h : m < 16) : S8 m = if m % 2 = 1 then 0 else -1 := by
  have t0 := C8_0
  have t4 := C8_4
  have t5 : C8 5 = -C8 3 := C8_sub8 3 (by omega)
  have t6 : C8 6 = -C8 2 := C8_sub8 2 (by omega)
  have t7 : C8 7 = -C8 1 := C8_sub8 1 (by omega)
  have t8 : C8 8 = -C8 0 := C8_sub8 0 (by omega)
  have t9 : C8 9 = C8 7 := C8_sub16 7 (by omega)
  have t10 : C8 10 = C8 6 := C8_sub16 6 (by omega)
  have t11 : C8 11 = C8 5 := C8_sub16 5 (by omega)
  have t12 : C8 12 = C8 4 := C8_sub16 4 (by omega)
  have t13 : C8 13 = C8 3 := C8_sub16 3 (by omega)
  have t14 : C8 14 = C8 2 := C8_sub16 2 (by omega)
  have t15 : C8 15 = C8 1 := C8_sub16 1 (by omega)
  unfold S8
  rw [C8_mod (2 * m), C8_mod (3 * m), C8_mod (4 * m), C8_mod (5 * m), C8_mod (6 * m), C8_mod (7 * m)]
  interval_cases m <;> norm_num <;> linarith

theorem A_prod (k l j : Fin 8) (hj : j ≠ 0) :
    A k j * A l j = C8 ((k.val + l.val + 1) * j.val) + C8 ((if l.val ≤ k.val then k.val - l.val else l.val - k.val) * j.val) := by
  have hc : ∀ a b : ℝ, sqrt 2 * cos a * (sqrt 2 * cos b) = cos (a + b) + cos (a - b) := by
    intro a b
    rw [Real.cos_add, Real.cos_sub]
    have := Real.mul_self_sqrt (show (0 : ℝ) ≤ 2 by norm_num)
    linear_combination (cos a * cos b) * this
  unfold A
  rw [if_neg hj, if_neg hj]
  unfold X C8
  rw [hc]
  congr 1
  · congr 1; push_cast; ring
  · split
    · rename_i h
      congr 1; push_cast [Nat.cast_sub h]; ring
    · rename_i h
      rw [← Real.cos_neg]
      congr 1; push_cast [Nat.cast_sub (show k.val ≤ l.val by omega)]; ring

/-- The rows of the transform are orthogonal. -/
theorem A_orth (k l : Fin 8) : ∑ j : Fin 8, A k j * A l j = if k = l then 8 else 0 := by
  rw [Fin.sum_univ_eight]
  have h0 : A k 0 * A l 0 = 1 := by simp [A]
  rw [h0, A_prod k l 1 (by decide), A_prod k l 2 (by decide), A_prod k l 3 (by decide), A_prod k l 4 (by decide),
    A_prod k l 5 (by decide), A_prod k l 6 (by decide), A_prod k l 7 (by decide)]
  set m := k.val + l.val + 1 with hm
  set n := (if l.val ≤ k.val then k.val - l.val else l.val - k.val) with hn
  have e : ∀ a : Nat, S8 a = C8 (a * (1 : Fin 8).val) + C8 (a * (2 : Fin 8).val) + C8 (a * (3 : Fin 8).val) + C8 (a * (4 : Fin 8).val) +
      C8 (a * (5 : Fin 8).val) + C8 (a * (6 : Fin 8).val) + C8 (a * (7 : Fin 8).val) := by
    intro a
    unfold S8
    rw [mul_comm 2 a, mul_comm 3 a, mul_comm 4 a, mul_comm 5 a, mul_comm 6 a, mul_comm 7 a]
    conv_lhs => rw [← Nat.mul_one a]
    simp only [Nat.mul_one]
    simp
  have hS : S8 m + S8 n + 1 = if k = l then 8 else 0 := by
    by_cases hkl : k = l
    · subst hkl
      rw [if_pos rfl]
      have hn0 : n = 0 := by rw [hn]; simp
      rw [hn0, S8_eq m (by omega) (by omega), if_pos (by omega)]
      unfold S8
      simp [C8_0]
      norm_num
    · rw [if_neg hkl]
      have hv : k.val ≠ l.val := fun h => hkl (Fin.ext h)
      have hn1 : 0 < n ∧ n < 16 ∧ (m + n) % 2 = 1 := by
        rw [hn, hm]; split <;> omega
      rw [S8_eq m (by omega) (by omega), S8_eq n hn1.1 hn1.2.1]
      by_cases ho : m % 2 = 1
      · rw [if_pos ho, if_neg (by omega)]; norm_num
      · rw [if_neg ho, if_pos (by omega)]; norm_num
  rw [← hS, e m, e n]
  ring

/-- The columns too. -/
theorem A_orth' (u v : Fin 8) : ∑ k : Fin 8, A k u * A k v = if u = v then 8 else 0 := by
  let P : Matrix (Fin 8) (Fin 8) ℝ := fun k j => A k j
  have h1 : P * ((1 / 8 : ℝ) • P.transpose) = 1 := by
    ext k l
    rw [Matrix.mul_smul, Matrix.smul_apply, Matrix.mul_apply]
    have e : ∑ x, P k x * P.transpose x l = ∑ j : Fin 8, A k j * A l j := rfl
    rw [e, A_orth k l, Matrix.one_apply]
    split <;> simp
  have h2 := mul_eq_one_comm.1 h1
  have h3 := congrFun (congrFun h2 u) v
  rw [Matrix.smul_mul, Matrix.smul_apply, Matrix.mul_apply, Matrix.one_apply] at h3
  have e : ∑ x, P.transpose u x * P x v = ∑ k : Fin 8, A k u * A k v := rfl
  rw [e, smul_eq_mul] at h3
  split at h3
  · rename_i h; rw [if_pos h]; linarith
  · rename_i h; rw [if_neg h]; linarith

/-- The exact inverse DCT of the exact forward DCT is the block. -/
theorem idct_fdct (s : Fin 8 → Fin 8 → ℝ) (y x : Fin 8) : Transf.idct (fdct s) y x = s y x := by
  rw [idct_A]
  simp only [fdct_A]
  have e : ∀ v u : Fin 8, A y v * A x u * (1 / 8 * ∑ r : Fin 8, ∑ k : Fin 8, A r v * A k u * s r k) =
      1 / 8 * ∑ r : Fin 8, ∑ k : Fin 8, (A y v * A r v) * (A x u * A k u) * s r k := by
    intro v u
    rw [mul_left_comm, Finset.mul_sum]
    congr 1
    refine Finset.sum_congr rfl (fun r _ => ?_)
    rw [Finset.mul_sum]
    refine Finset.sum_congr rfl (fun k _ => ?_)
    ring
  simp only [e]
  simp only [← Finset.mul_sum]
  have e2 : ∑ v : Fin 8, ∑ u : Fin 8, ∑ r : Fin 8, ∑ k : Fin 8, (A y v * A r v) * (A x u * A k u) * s r k =
      ∑ r : Fin 8, ∑ k : Fin 8, (∑ v : Fin 8, A y v * A r v) * (∑ u : Fin 8, A x u * A k u) * s r k := by
    rw [Finset.sum_congr rfl (fun v _ => Finset.sum_comm), Finset.sum_comm]
    refine Finset.sum_congr rfl (fun r _ => ?_)
    rw [Finset.sum_congr rfl (fun v _ => Finset.sum_comm), Finset.sum_comm]
    refine Finset.sum_congr rfl (fun k _ => ?_)
    rw [Finset.sum_mul_sum, Finset.sum_mul]
    refine Finset.sum_congr rfl (fun v _ => ?_)
    rw [Finset.sum_mul]
  rw [e2]
  simp only [A_orth]
  rw [Finset.sum_eq_single y (by intro r _ hr; simp [Ne.symm hr]) (by simp),
    Finset.sum_eq_single x (by intro r _ hr; simp [Ne.symm hr]) (by simp)]
  simp
  ring

/-- The forward transform keeps the sum of squares. -/
theorem fdct_sq (s : Fin 8 → Fin 8 → ℝ) : ∑ v : Fin 8, ∑ u : Fin 8, fdct s v u ^ 2 = ∑ y : Fin 8, ∑ x : Fin 8, s y x ^ 2 := by
  have e1 : ∑ v : Fin 8, ∑ u : Fin 8, fdct s v u ^ 2 =
      ∑ v : Fin 8, ∑ u : Fin 8, ∑ y : Fin 8, ∑ x : Fin 8, 1 / 8 * (A y v * A x u * fdct s v u * s y x) := by
    refine Finset.sum_congr rfl (fun v _ => Finset.sum_congr rfl (fun u _ => ?_))
    rw [sq]
    nth_rewrite 2 [fdct_A]
    rw [mul_left_comm, Finset.mul_sum, Finset.mul_sum]
    refine Finset.sum_congr rfl (fun y _ => ?_)
    rw [Finset.mul_sum, Finset.mul_sum]
    refine Finset.sum_congr rfl (fun x _ => ?_)
    ring
  have e2 : ∑ y : Fin 8, ∑ x : Fin 8, s y x ^ 2 =
      ∑ y : Fin 8, ∑ x : Fin 8, ∑ v : Fin 8, ∑ u : Fin 8, 1 / 8 * (A y v * A x u * fdct s v u * s y x) := by
    refine Finset.sum_congr rfl (fun y _ => Finset.sum_congr rfl (fun x _ => ?_))
    rw [sq]
    nth_rewrite 1 [← idct_fdct s y x]
    rw [idct_A, Finset.mul_sum, Finset.sum_mul]
    refine Finset.sum_congr rfl (fun v _ => ?_)
    rw [Finset.mul_sum, Finset.sum_mul]
    refine Finset.sum_congr rfl (fun u _ => ?_)
    ring
  rw [e1, e2]
  rw [Finset.sum_congr rfl (fun v _ => Finset.sum_comm), Finset.sum_comm]
  refine Finset.sum_congr rfl (fun y _ => ?_)
  rw [Finset.sum_congr rfl (fun v _ => Finset.sum_comm), Finset.sum_comm]

end Verif.Fdct
