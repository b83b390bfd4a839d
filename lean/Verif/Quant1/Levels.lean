import Verif.Quant1.Counts
import Mathlib.Algebra.Order.Ring.Abs
/-
The levels of a component, and the rounding to them.
-/
namespace Verif.Quant1
open Verif.Color (castSample)

theorem outputValue_eq (M j : Nat) {n : Nat} (hn : 2 ≤ n) : outputValue M j (n - 1) = level M n j := by
  unfold outputValue level
  obtain ⟨m, rfl⟩ : ∃ m, n = m + 1 := ⟨n - 1, by omega⟩
  rw [Nat.add_sub_cancel]
  generalize j * M = a
  have hm : 0 < m := by omega
  apply (Nat.div_eq_iff hm).2
  have h1 := Nat.div_add_mod (2 * a + m) (2 * m)
  have h2 := Nat.mod_lt (2 * a + m) (show 0 < 2 * m by omega)
  generalize (2 * a + m) % (2 * m) = r at *
  generalize (2 * a + m) / (2 * m) = q at *
  have h3 : 2 * m * q = 2 * (q * m) := by ring
  rw [h3] at h1
  generalize q * m = x at *
  omega

/-- A level, without division. -/
theorem level_bounds (M j : Nat) {n : Nat} (hn : 2 ≤ n) :
    2 * (n - 1) * level M n j ≤ 2 * (j * M) + (n - 1) ∧ 2 * (j * M) < 2 * (n - 1) * level M n j + (n - 1) := by
  unfold level
  have h1 := Nat.div_add_mod (2 * (j * M) + (n - 1)) (2 * (n - 1))
  have h2 := Nat.mod_lt (2 * (j * M) + (n - 1)) (show 0 < 2 * (n - 1) by omega)
  omega

theorem level_mono {M n a b : Nat} (h : a ≤ b) : level M n a ≤ level M n b := by
  unfold level
  apply Nat.div_le_div_right
  have := Nat.mul_le_mul_right M h
  omega

theorem level_zero (M : Nat) {n : Nat} (hn : 2 ≤ n) : level M n 0 = 0 := by
  unfold level; apply Nat.div_eq_of_lt; omega

theorem level_top (M : Nat) {n : Nat} (hn : 2 ≤ n) : level M n (n - 1) = M := by
  unfold level
  have : 2 * ((n - 1) * M) + (n - 1) = (n - 1) + 2 * (n - 1) * M := by ring
  rw [this, Nat.add_mul_div_left _ _ (by omega), Nat.div_eq_of_lt (by omega)]; omega

theorem level_le {M n j : Nat} (hn : 2 ≤ n) (hj : j < n) : level M n j ≤ M := by
  exact (level_mono (show j ≤ n - 1 by omega)).trans (level_top M hn).le

/-- Levels differ: the palette has no duplicates. -/
theorem level_strict {M n a b : Nat} (hn : 2 ≤ n) (hM : n ≤ M + 1) (h : a < b) : level M n a < level M n b := by
  have h1 := (level_bounds M a hn).1
  have h2 := (level_bounds M b hn).2
  have h3 : (a + 1) * M ≤ b * M := Nat.mul_le_mul_right M h
  have h4 : (a + 1) * M = a * M + M := by ring
  by_contra hc
  have h5 : 2 * (n - 1) * level M n b ≤ 2 * (n - 1) * level M n a := Nat.mul_le_mul_left _ (by omega)
  omega

/-- `pick` is the breakpoint test of `largest_input_value`. -/
theorem pick_le_iff {M n : Nat} (hn : 2 ≤ n) (hM : n ≤ M + 1) (v j : Nat) :
    pick M n v ≤ j ↔ v ≤ largestInput M j (n - 1) := by
  unfold pick largestInput
  rw [Nat.le_div_iff_mul_le (by omega : 0 < 2 * (n - 1)), ← Nat.lt_succ_iff, Nat.succ_eq_add_one,
    Nat.div_lt_iff_lt_mul (by omega : 0 < 2 * M)]
  obtain ⟨m, rfl⟩ : ∃ m, n = m + 1 := ⟨n - 1, by omega⟩
  rw [Nat.add_sub_cancel]
  have e1 : 2 * m * v = 2 * (m * v) := by ring
  have e2 : v * (2 * m) = 2 * (m * v) := by ring
  have e3 : (j + 1) * (2 * M) = 2 * (j * M) + 2 * M := by ring
  have e4 : (2 * j + 1) * M = 2 * (j * M) + M := by ring
  rw [e1, e2, e3, e4]
  rcases Nat.eq_zero_or_pos v with rfl | hv
  · simp only [Nat.mul_zero]; omega
  · have : m ≤ m * v := Nat.le_mul_of_pos_right m hv
    generalize m * v = x at *
    generalize j * M = y
    omega

theorem pick_mono {M n a b : Nat} (h : a ≤ b) : pick M n a ≤ pick M n b := by
  unfold pick
  apply Nat.div_le_div_right
  have := Nat.mul_le_mul_left (2 * (n - 1)) h
  omega

theorem pick_zero {M n : Nat} (hM : n ≤ M + 1) : pick M n 0 = 0 := by
  unfold pick
  rcases Nat.eq_zero_or_pos M with rfl | h
  · simp
  · apply Nat.div_eq_of_lt; simp only [Nat.mul_zero]; omega

theorem pick_lt {M n v : Nat} (hn : 2 ≤ n) (hM : n ≤ M + 1) (hv : v ≤ M) : pick M n v < n := by
  have : pick M n v ≤ n - 1 := by
    rw [pick_le_iff hn hM]
    refine le_trans hv ?_
    unfold largestInput
    rw [Nat.le_div_iff_mul_le (by omega)]
    have : (2 * (n - 1) + 1) * M = M * (2 * (n - 1)) + M := by ring
    omega
  omega

/-- The two breakpoints around a value, without division. -/
theorem pick_bounds {M n : Nat} (hn : 2 ≤ n) (hM : n ≤ M + 1) (v : Nat) :
    2 * ((n - 1) * v) ≤ 2 * (pick M n v * M) + M + (n - 1) ∧
    (pick M n v = 0 ∨ 2 * (pick M n v * M) + (n - 1) < 2 * ((n - 1) * v) + M) := by
  constructor
  · have h := (pick_le_iff hn hM v (pick M n v)).1 (le_refl _)
    unfold largestInput at h
    rw [Nat.le_div_iff_mul_le (by omega)] at h
    have e1 : v * (2 * (n - 1)) = 2 * ((n - 1) * v) := by ring
    have e2 : (2 * pick M n v + 1) * M = 2 * (pick M n v * M) + M := by ring
    omega
  · rcases Nat.eq_zero_or_pos (pick M n v) with h | h
    · exact Or.inl h
    · right
      have h' : ¬ pick M n v ≤ pick M n v - 1 := by omega
      rw [pick_le_iff hn hM] at h'
      unfold largestInput at h'
      rw [Nat.le_div_iff_mul_le (by omega)] at h'
      obtain ⟨j, hj⟩ : ∃ j, pick M n v = j + 1 := ⟨pick M n v - 1, by omega⟩
      rw [hj] at h' ⊢
      rw [Nat.add_sub_cancel] at h'
      have e1 : v * (2 * (n - 1)) = 2 * ((n - 1) * v) := by ring
      have e2 : (2 * j + 1) * M = 2 * (j * M) + M := by ring
      have e3 : (j + 1) * M = j * M + M := by ring
      omega

/-- No level is nearer by more than one. -/
theorem pick_near {M n : Nat} (hn : 2 ≤ n) (hM : n ≤ M + 1) (v k : Nat) :
    |(v : Int) - level M n (pick M n v)| ≤ |(v : Int) - level M n k| + 1 := by
  obtain ⟨h1, h2⟩ := pick_bounds hn hM v
  generalize hj : pick M n v = j at *
  have hl := level_bounds M j hn
  rcases Nat.lt_trichotomy k j with h | rfl | h
  · -- a lower level
    have h2 : 2 * (j * M) + (n - 1) < 2 * ((n - 1) * v) + M := by rcases h2 with h0 | h0 <;> [omega; exact h0]
    obtain ⟨i, rfl⟩ : ∃ i, j = i + 1 := ⟨j - 1, by omega⟩
    have hi := level_bounds M i hn
    have hm : level M n k ≤ level M n i := level_mono (by omega)
    have hm2 : level M n i ≤ level M n (i + 1) := level_mono (by omega)
    have e3 : (i + 1) * M = i * M + M := by ring
    have key : level M n (i + 1) + level M n i ≤ 2 * v := by
      by_contra hc
      have : (n - 1) * (2 * v + 1) ≤ (n - 1) * (level M n (i + 1) + level M n i) := Nat.mul_le_mul_left _ (by omega)
      have e4 : (n - 1) * (2 * v + 1) = 2 * ((n - 1) * v) + (n - 1) := by ring
      have e5 : 2 * (n - 1) * level M n (i + 1) + 2 * (n - 1) * level M n i =
        2 * ((n - 1) * (level M n (i + 1) + level M n i)) := by ring
      omega
    generalize level M n (i + 1) = a at *
    generalize level M n i = b at *
    generalize level M n k = d at *
    rw [abs_le]
    rcases abs_cases ((v : Int) - d) with ⟨e, _⟩ | ⟨e, _⟩ <;> rw [e] <;> omega
  · omega
  · have hi := level_bounds M (j + 1) hn
    have hm : level M n (j + 1) ≤ level M n k := level_mono (by omega)
    have hm2 : level M n j ≤ level M n (j + 1) := level_mono (by omega)
    have e3 : (j + 1) * M = j * M + M := by ring
    have key : 2 * v ≤ level M n j + level M n (j + 1) + 1 := by
      by_contra hc
      have : (n - 1) * (level M n j + level M n (j + 1) + 2) ≤ (n - 1) * (2 * v) := Nat.mul_le_mul_left _ (by omega)
      have e4 : (n - 1) * (2 * v) = 2 * ((n - 1) * v) := by ring
      have e5 : 2 * (n - 1) * level M n j + 2 * (n - 1) * level M n (j + 1) + 4 * (n - 1) =
        2 * ((n - 1) * (level M n j + level M n (j + 1) + 2)) := by ring
      omega
    generalize level M n (j + 1) = a at *
    generalize level M n j = b at *
    generalize level M n k = d at *
    rw [abs_le]
    rcases abs_cases ((v : Int) - d) with ⟨e, _⟩ | ⟨e, _⟩ <;> rw [e] <;> omega

/-- The rounding error: half the distance between levels, plus one. -/
theorem pick_err {M n : Nat} (hn : 2 ≤ n) (hM : n ≤ M + 1) (v : Nat) :
    2 * ((n : Int) - 1) * |(v : Int) - level M n (pick M n v)| ≤ M + 2 * ((n : Int) - 1) := by
  obtain ⟨h1, h2⟩ := pick_bounds hn hM v
  have h0 := level_zero M hn
  generalize hj : pick M n v = j at *
  obtain ⟨h3, h4⟩ := level_bounds M j hn
  have h5 : j = 0 → level M n j = 0 := by rintro rfl; exact h0
  generalize level M n j = a at *
  obtain ⟨m, rfl⟩ : ∃ m, n = m + 1 := ⟨n - 1, by omega⟩
  rw [Nat.add_sub_cancel] at *
  have e : ((m + 1 : Nat) : Int) - 1 = m := by omega
  rw [e]
  have e1 : 2 * (m : Int) * |(v : Int) - a| = |2 * (m * v : Int) - 2 * (m * a : Int)| := by
    rw [← mul_sub, ← mul_sub, abs_mul, abs_mul]; simp; ring
  rw [e1, abs_le]
  have e2 : 2 * m * a = 2 * (m * a) := by ring
  rw [e2] at h3 h4
  have c1 : (m : Int) * v = ((m * v : Nat) : Int) := by push_cast; ring
  have c2 : (m : Int) * a = ((m * a : Nat) : Int) := by push_cast; ring
  rw [c1, c2]
  rcases h2 with h2 | h2
  · have := h5 h2
    subst this; subst h2
    simp only [Nat.mul_zero, Nat.zero_mul] at *
    generalize m * v = x at *
    omega
  · generalize m * v = x at *
    generalize m * a = y at *
    generalize j * M = z at *
    omega

/-- Hence at most half of MAXJSAMPLE, plus one. -/
theorem pick_err' {M n : Nat} (hn : 2 ≤ n) (hM : n ≤ M + 1) (v : Nat) :
    2 * |(v : Int) - level M n (pick M n v)| ≤ M + 2 := by
  have h := pick_err hn hM v
  have h1 : (1 : Int) ≤ (n : Int) - 1 := by omega
  generalize (n : Int) - 1 = m at *
  generalize hx : |(v : Int) - level M n (pick M n v)| = x at *
  have hx0 : 0 ≤ x := hx ▸ abs_nonneg _
  by_contra hc
  have hM0 : (0 : Int) ≤ M := Int.natCast_nonneg M
  nlinarith

end Verif.Quant1
