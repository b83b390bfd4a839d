import Verif.Fdct.IslowLemmas
/-
C52: the accurate integer forward DCT against the exact (real) forward DCT.
-/
namespace Verif.Fdct

open Verif.Idct (descale shl shr cb M M_le A tb A_tb A_le tb_le descale_near A_nrm)
open scoped BigOperators
open Real

/-- The exact two-dimensional forward DCT of ITU-T T.81 A.3.3: row `v` vertical frequency, column `u` horizontal. -/
noncomputable def fdct (s : Fin 8 → Fin 8 → ℝ) (v u : Fin 8) : ℝ :=
  (1 / 4) * (Transf.nrm u * Transf.nrm v) * ∑ y : Fin 8, ∑ x : Fin 8, s y x *
    cos ((2 * (x.val : ℝ) + 1) * (u.val : ℝ) * π / 16) * cos ((2 * (y.val : ℝ) + 1) * (v.val : ℝ) * π / 16)

theorem fdct_A (s : Fin 8 → Fin 8 → ℝ) (v u : Fin 8) :
    fdct s v u = 1 / 8 * ∑ y : Fin 8, ∑ x : Fin 8, A y v * A x u * s y x := by
  unfold fdct
  rw [mul_assoc, show (1 / 8 : ℝ) = 1 / 4 * (1 / 2) by norm_num, mul_assoc (1 / 4 : ℝ) (1 / 2)]
  congr 1
  rw [Finset.mul_sum, Finset.mul_sum]
  refine Finset.sum_congr rfl (fun y _ => ?_)
  rw [Finset.mul_sum, Finset.mul_sum]
  refine Finset.sum_congr rfl (fun x _ => ?_)
  have e : Transf.nrm u * Transf.nrm v * (s y x * cos ((2 * (x.val : ℝ) + 1) * (u.val : ℝ) * π / 16) *
      cos ((2 * (y.val : ℝ) + 1) * (v.val : ℝ) * π / 16)) =
      (Transf.nrm u * cos ((2 * (x.val : ℝ) + 1) * (u.val : ℝ) * π / 16)) *
      (Transf.nrm v * cos ((2 * (y.val : ℝ) + 1) * (v.val : ℝ) * π / 16)) * s y x := by ring
  rw [e, A_nrm, A_nrm, div_mul_div_comm, Real.mul_self_sqrt (by norm_num)]
  ring

/-! ### The constants -/

/-- A finite check over the fixed matrix: the summed error of the products of constants, times 2^40. -/
theorem prodsum_tab : ∀ v u : Fin 8, ∑ r : Fin 8, ∑ k : Fin 8, |M r v * M k u * 16384 - tb r v * tb k u| ≤ 8300000000 := by
  decide +kernel

theorem M_l1c : ∀ v : Fin 8, ∑ r : Fin 8, |M r v| ≤ 65536 := by decide +kernel

theorem prod_err (r v k u : Fin 8) :
    |((M r v * M k u : Int) : ℝ) / 2 ^ 26 - A r v * A k u| ≤
      ((|M r v * M k u * 16384 - tb r v * tb k u| : Int) : ℝ) / 2 ^ 40 + 3 / 2 ^ 20 := by
  have hA := A_tb r v
  have hB := A_tb k u
  have ht : |((tb r v : Int) : ℝ)| ≤ 1500000 := by
    have := tb_le r v
    rw [← Int.cast_abs]
    exact_mod_cast this
  have hA' := A_le k u
  have e : ((M r v * M k u : Int) : ℝ) / 2 ^ 26 - A r v * A k u =
      ((M r v * M k u * 16384 - tb r v * tb k u : Int) : ℝ) / 2 ^ 40 -
      (((tb r v : Int) : ℝ) / 2 ^ 20 * (A k u - ((tb k u : Int) : ℝ) / 2 ^ 20) +
        (A r v - ((tb r v : Int) : ℝ) / 2 ^ 20) * A k u) := by
    push_cast; ring
  rw [e]
  have b1 : |((M r v * M k u * 16384 - tb r v * tb k u : Int) : ℝ) / 2 ^ 40| =
      ((|M r v * M k u * 16384 - tb r v * tb k u| : Int) : ℝ) / 2 ^ 40 := by
    rw [abs_div, abs_of_pos (show (0 : ℝ) < 2 ^ 40 by positivity), Int.cast_abs]
  have b2 : |((tb r v : Int) : ℝ) / 2 ^ 20 * (A k u - ((tb k u : Int) : ℝ) / 2 ^ 20)| ≤
      1500000 / 2 ^ 20 * (1 / 2 ^ 20) := by
    rw [abs_mul, abs_div, abs_of_pos (show (0 : ℝ) < 2 ^ 20 by positivity)]
    exact mul_le_mul (div_le_div_of_nonneg_right ht (by positivity)) hB (abs_nonneg _) (by positivity)
  have b3 : |(A r v - ((tb r v : Int) : ℝ) / 2 ^ 20) * A k u| ≤ 1 / 2 ^ 20 * (15 / 10) := by
    rw [abs_mul]
    exact mul_le_mul hA hA' (abs_nonneg _) (by positivity)
  rw [← b1]
  have t1 := abs_sub (((M r v * M k u * 16384 - tb r v * tb k u : Int) : ℝ) / 2 ^ 40)
    (((tb r v : Int) : ℝ) / 2 ^ 20 * (A k u - ((tb k u : Int) : ℝ) / 2 ^ 20) +
        (A r v - ((tb r v : Int) : ℝ) / 2 ^ 20) * A k u)
  have t2 := abs_add_le (((tb r v : Int) : ℝ) / 2 ^ 20 * (A k u - ((tb k u : Int) : ℝ) / 2 ^ 20))
        ((A r v - ((tb r v : Int) : ℝ) / 2 ^ 20) * A k u)
  norm_num at *
  linarith

theorem prod_err_sum (v u : Fin 8) :
    ∑ r : Fin 8, ∑ k : Fin 8, |((M r v * M k u : Int) : ℝ) / 2 ^ 26 - A r v * A k u| ≤ 78 / 10000 := by
  have h := prodsum_tab v u
  have h' : ((∑ r : Fin 8, ∑ k : Fin 8, |M r v * M k u * 16384 - tb r v * tb k u| : Int) : ℝ) ≤ 8300000000 := by
    exact_mod_cast h
  calc ∑ r : Fin 8, ∑ k : Fin 8, |((M r v * M k u : Int) : ℝ) / 2 ^ 26 - A r v * A k u|
      ≤ ∑ r : Fin 8, ∑ k : Fin 8, (((|M r v * M k u * 16384 - tb r v * tb k u| : Int) : ℝ) / 2 ^ 40 + 3 / 2 ^ 20) :=
        Finset.sum_le_sum (fun r _ => Finset.sum_le_sum (fun k _ => prod_err r v k u))
    _ = ((∑ r : Fin 8, ∑ k : Fin 8, |M r v * M k u * 16384 - tb r v * tb k u| : Int) : ℝ) / 2 ^ 40 + 64 * (3 / 2 ^ 20) := by
        simp only [Finset.sum_add_distrib, Finset.sum_const, Finset.card_univ, Fintype.card_fin]
        push_cast
        rw [Finset.sum_div]
        simp only [Finset.sum_div]
        norm_num
    _ ≤ 78 / 10000 := by norm_num at *; linarith

/-! ### The transform -/

/-- The block as the input of the exact transform. -/
noncomputable def blockR (d : List Int) (r k : Fin 8) : ℝ := (ent d r.val k.val : ℝ)

theorem out2_near {p1 : Nat} (hp : p1 = 1 ∨ p1 = 2) {d : List Int} {B : Int}
    (hx : ∀ r k, r < 8 → k < 8 → -B ≤ ent d r k ∧ ent d r k ≤ B) (v u : Fin 8) :
    |((out2 p1 (ent d) v u : Int) : ℝ) - 8 * fdct (blockR d) v u| ≤ 1 / 2 + 4 / 2 ^ p1 + 78 / 10000 * B := by
  have h2 := descale_near (ksum (fun r => y1 p1 (ent d) r u) v) (cb + p1) (by have : cb = 13 := rfl; omega)
  have h1 : ∀ r : Fin 8, |((y1 p1 (ent d) r.val u : Int) : ℝ) - ((ksum (fun k => ent d r.val k) u : Int) : ℝ) / 2 ^ (cb - p1)| ≤ 1 / 2 :=
    fun r => descale_near _ _ (by have : cb = 13 := rfl; omega)
  set E : ℝ := ∑ r : Fin 8, (M r v : ℝ) * ((y1 p1 (ent d) r.val u : ℝ) - ((ksum (fun k => ent d r.val k) u : Int) : ℝ) / 2 ^ (cb - p1)) with hE
  have hEle : |E| ≤ 32768 := by
    have hl := M_l1c v
    calc |E| ≤ ∑ r : Fin 8, |(M r v : ℝ) * ((y1 p1 (ent d) r.val u : ℝ) - ((ksum (fun k => ent d r.val k) u : Int) : ℝ) / 2 ^ (cb - p1))| :=
          Finset.abs_sum_le_sum_abs _ _
      _ ≤ ∑ r : Fin 8, |(M r v : ℝ)| * (1 / 2) := by
          refine Finset.sum_le_sum (fun r _ => ?_)
          rw [abs_mul]
          exact mul_le_mul_of_nonneg_left (h1 r) (abs_nonneg _)
      _ = (∑ r : Fin 8, |(M r v : ℝ)|) * (1 / 2) := by rw [Finset.sum_mul]
      _ ≤ 65536 * (1 / 2) := by
          refine mul_le_mul_of_nonneg_right ?_ (by norm_num)
          have : ((∑ r : Fin 8, |M r v| : Int) : ℝ) ≤ 65536 := by exact_mod_cast hl
          push_cast at this
          exact this
      _ = 32768 := by norm_num
  have hsum : ((ksum (fun r => y1 p1 (ent d) r u) v : Int) : ℝ) =
      E + ∑ r : Fin 8, (M r v : ℝ) * (((ksum (fun k => ent d r.val k) u : Int) : ℝ) / 2 ^ (cb - p1)) := by
    rw [hE, ← Finset.sum_add_distrib]
    unfold ksum
    push_cast
    refine Finset.sum_congr rfl (fun r _ => ?_)
    ring
  have hpow : (2 : ℝ) ^ (cb - p1) * 2 ^ (cb + p1) = 2 ^ 26 := by
    rw [← pow_add]; congr 1; have : cb = 13 := rfl; omega
  have hlin : |(∑ r : Fin 8, (M r v : ℝ) * (((ksum (fun k => ent d r.val k) u : Int) : ℝ) / 2 ^ (cb - p1))) / 2 ^ (cb + p1) -
      8 * fdct (blockR d) v u| ≤ 78 / 10000 * B := by
    have e1 : (∑ r : Fin 8, (M r v : ℝ) * (((ksum (fun k => ent d r.val k) u : Int) : ℝ) / 2 ^ (cb - p1))) / 2 ^ (cb + p1) =
        ∑ r : Fin 8, ∑ k : Fin 8, ((M r v * M k u : Int) : ℝ) / 2 ^ 26 * blockR d r k := by
      rw [Finset.sum_div]
      refine Finset.sum_congr rfl (fun r _ => ?_)
      unfold ksum blockR
      push_cast
      rw [Finset.sum_div, Finset.mul_sum, Finset.sum_div]
      refine Finset.sum_congr rfl (fun k _ => ?_)
      rw [← hpow]
      field_simp
    have e2 : 8 * fdct (blockR d) v u = ∑ r : Fin 8, ∑ k : Fin 8, A r v * A k u * blockR d r k := by
      rw [fdct_A]; ring
    rw [e1, e2, ← Finset.sum_sub_distrib]
    have hB : ∀ r k : Fin 8, |blockR d r k| ≤ B := by
      intro r k
      have := hx r.val k.val r.isLt k.isLt
      unfold blockR
      rw [abs_le]
      constructor
      · exact_mod_cast this.1
      · exact_mod_cast this.2
    have hB0 : (0 : ℝ) ≤ B := le_trans (abs_nonneg _) (hB 0 0)
    calc |∑ r : Fin 8, (∑ k : Fin 8, ((M r v * M k u : Int) : ℝ) / 2 ^ 26 * blockR d r k - ∑ k : Fin 8, A r v * A k u * blockR d r k)|
        ≤ ∑ r : Fin 8, |∑ k : Fin 8, ((M r v * M k u : Int) : ℝ) / 2 ^ 26 * blockR d r k - ∑ k : Fin 8, A r v * A k u * blockR d r k| :=
          Finset.abs_sum_le_sum_abs _ _
      _ ≤ ∑ r : Fin 8, ∑ k : Fin 8, |((M r v * M k u : Int) : ℝ) / 2 ^ 26 - A r v * A k u| * (B : ℝ) := by
          refine Finset.sum_le_sum (fun r _ => ?_)
          rw [← Finset.sum_sub_distrib]
          refine (Finset.abs_sum_le_sum_abs _ _).trans (Finset.sum_le_sum (fun k _ => ?_))
          rw [← sub_mul, abs_mul]
          exact mul_le_mul_of_nonneg_left (hB r k) (abs_nonneg _)
      _ = (∑ r : Fin 8, ∑ k : Fin 8, |((M r v * M k u : Int) : ℝ) / 2 ^ 26 - A r v * A k u|) * B := by
          rw [Finset.sum_mul]; refine Finset.sum_congr rfl (fun r _ => ?_); rw [Finset.sum_mul]
      _ ≤ 78 / 10000 * B := mul_le_mul_of_nonneg_right (prod_err_sum v u) hB0
  have hEd : |E / 2 ^ (cb + p1)| ≤ 4 / 2 ^ p1 := by
    rw [abs_div, abs_of_pos (show (0 : ℝ) < 2 ^ (cb + p1) by positivity), pow_add, show ((2 : ℝ) ^ cb) = 8192 by
      unfold cb; norm_num]
    rw [div_le_div_iff₀ (by positivity) (by positivity)]
    have : (0 : ℝ) < 2 ^ p1 := by positivity
    nlinarith
  unfold out2
  rw [hsum, add_div] at h2
  set L := (∑ r : Fin 8, (M r v : ℝ) * (((ksum (fun k => ent d r.val k) u : Int) : ℝ) / 2 ^ (cb - p1))) / 2 ^ (cb + p1)
  rw [abs_le] at *
  constructor <;> linarith [h2.1, h2.2, hEd.1, hEd.2, hlin.1, hlin.2]

theorem out2_bound {p1 : Nat} (hp : p1 = 1 ∨ p1 = 2) {d : List Int} {B : Int} (hB : 0 ≤ B)
    (hx : ∀ r k, r < 8 → k < 8 → -B ≤ ent d r k ∧ ent d r k ≤ B) (v u : Fin 8) :
    -(64 * B) ≤ out2 p1 (ent d) v u ∧ out2 p1 (ent d) v u ≤ 64 * B := by
  have hy : ∀ r, r < 8 → -(8 * B * (2 ^ p1 : Nat)) ≤ y1 p1 (ent d) r u ∧ y1 p1 (ent d) r u ≤ 8 * B * (2 ^ p1 : Nat) := by
    intro r hr
    have hs := ksum_le (x := fun k => ent d r k) (fun k hk => hx r k hr hk) u
    exact descale_bound1 hp hB hs.1 hs.2
  have hs := ksum_le (x := fun r => y1 p1 (ent d) r u) hy v
  unfold out2
  generalize ksum (fun r => y1 p1 (ent d) r u) v = s at *
  rcases hp with rfl | rfl <;> simp only [descale, shr, cb] <;> constructor <;> omega

/-- **C52 (8-bit).**  For every block of samples from -128 to 158 (the range after deringing): no overflow even with 16-bit
DCTELEM and 32-bit JLONG, and every coefficient, divided by 8, is within 0.35 of the exact forward DCT. -/
theorem C52_fdct8 (d : List Int) (hd : d.length = 64) (hx : ∀ v ∈ d, -128 ≤ v ∧ v ≤ 158) :
    ∃ d', fdctIslow types8 d = some d' ∧ d'.length = 64 ∧ ∀ v u : Fin 8,
      |((d'.getD (8 * v.val + u.val) 0 : Int) : ℝ) / 8 - fdct (fun y x => ((d.getD (8 * y.val + x.val) 0 : Int) : ℝ)) v u| ≤ 0.35 := by
  have hb : ∀ r k, r < 8 → k < 8 → -158 ≤ ent d r k ∧ ent d r k ≤ 158 := by
    intro r k hr hk
    have := hx (ent d r k) (by
      unfold ent
      rw [List.getD_eq_getElem?_getD, List.getElem?_eq_getElem (by omega)]; simp)
    omega
  obtain ⟨d', h1, h2, h3⟩ := fdctIslow_ok (t := types8) (B := 158) (Or.inr rfl) (by norm_num) hd hb (by decide) (by decide)
    (fun v u => by
      have := out2_bound (p1 := types8.p1) (Or.inr rfl) (by norm_num) hb v u
      have e : types8.elem = 32767 := rfl
      omega)
  refine ⟨d', h1, h2, fun v u => ?_⟩
  rw [h3 v u]
  have h := out2_near (p1 := types8.p1) (Or.inr rfl) hb v u
  have e : (2 : ℝ) ^ types8.p1 = 4 := by show (2 : ℝ) ^ 2 = 4; norm_num
  rw [e] at h
  push_cast at h
  change |_ - 8 * fdct (fun y x => ((d.getD (8 * y.val + x.val) 0 : Int) : ℝ)) v u| ≤ _ at h
  rw [abs_le] at *
  norm_num at *
  constructor <;> linarith [h.1, h.2]

/-- **C52 (12-bit).**  For every block of 12-bit samples: no overflow with 64-bit JLONG, and every coefficient, divided by 8, is
within 2.4 of the exact forward DCT (coefficients reach ±16384). -/
theorem C52_fdct12 (d : List Int) (hd : d.length = 64) (hx : ∀ v ∈ d, -2048 ≤ v ∧ v ≤ 2047) :
    ∃ d', fdctIslow types12 d = some d' ∧ d'.length = 64 ∧ ∀ v u : Fin 8,
      |((d'.getD (8 * v.val + u.val) 0 : Int) : ℝ) / 8 - fdct (fun y x => ((d.getD (8 * y.val + x.val) 0 : Int) : ℝ)) v u| ≤ 2.4 := by
  have hb : ∀ r k, r < 8 → k < 8 → -2048 ≤ ent d r k ∧ ent d r k ≤ 2048 := by
    intro r k hr hk
    have := hx (ent d r k) (by
      unfold ent
      rw [List.getD_eq_getElem?_getD, List.getElem?_eq_getElem (by omega)]; simp)
    omega
  obtain ⟨d', h1, h2, h3⟩ := fdctIslow_ok (t := types12) (B := 2048) (Or.inl rfl) (by norm_num) hd hb (by decide) (by decide)
    (fun v u => by
      have := out2_bound (p1 := types12.p1) (Or.inl rfl) (by norm_num) hb v u
      have e : types12.elem = 9223372036854775807 := rfl
      omega)
  refine ⟨d', h1, h2, fun v u => ?_⟩
  rw [h3 v u]
  have h := out2_near (p1 := types12.p1) (Or.inl rfl) hb v u
  have e : (2 : ℝ) ^ types12.p1 = 2 := by show (2 : ℝ) ^ 1 = 2; norm_num
  rw [e] at h
  push_cast at h
  change |_ - 8 * fdct (fun y x => ((d.getD (8 * y.val + x.val) 0 : Int) : ℝ)) v u| ≤ _ at h
  rw [abs_le] at *
  norm_num at *
  constructor <;> linarith [h.1, h.2]

/-- **C52, counterexample.**  With a 32-bit `long` the 12-bit transform overflows JLONG (undefined behaviour in C): upper half
white, lower half black. -/
theorem C52_bug_overflow : fdctIslow types12w (List.replicate 32 2047 ++ List.replicate 32 (-2048)) = none := by
  decide +kernel

end Verif.Fdct
