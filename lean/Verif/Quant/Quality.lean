import Mathlib.Data.Rat.Floor
import Mathlib.Tactic.Linarith
import Mathlib.Tactic.Positivity
import Mathlib.Tactic.FieldSimp
import Mathlib.Tactic.Ring
import Mathlib.Tactic.NormNum
/-
Model of quantization-table scaling (jcparam.c:30-72, 264-330) and property C15.
-/
namespace Verif.Quant

/-! ## Model -/

/-- The per-entry computation of `jpeg_add_quant_table` (jcparam.c:57-66). `/` on `long` truncates (`tdiv`); the
product of an `unsigned int` and an `int` fits a 64-bit `long`. The final `(UINT16)` cast is the `% 65536`. -/
def addQuant (base : Nat) (scale : Int) (forceBaseline : Bool) : Nat :=
  let temp : Int := ((base : Int) * scale + 50).tdiv 100
  let temp := if temp ≤ 0 then 1 else temp
  let temp := if temp > 32767 then 32767 else temp
  let temp := if forceBaseline && decide (temp > 255) then 255 else temp
  (temp % 65536).toNat

/-- What is used about IEEE single-precision rounding of a real result: monotone, and exact on integers up to 2^24. -/
structure FloatRounding (rnd : ℚ → ℚ) : Prop where
  mono : ∀ x y, x ≤ y → rnd x ≤ rnd y
  exact : ∀ n : ℤ, |n| ≤ 2 ^ 24 → rnd n = n

/-- `jpeg_float_quality_scaling` (jcparam.c:300-323); every `float` operation is rounded by `rnd`. -/
def floatQualityScaling (rnd : ℚ → ℚ) (quality : ℚ) : ℚ :=
  let q := if quality ≤ 0 then 1 else quality
  let q := if q > 100 then 100 else q
  if q < 50 then rnd (5000 / q) else rnd (200 - rnd (q * 2))

/-- C conversion of `float` to `int`: truncation. -/
def truncQ (x : ℚ) : ℤ := if 0 ≤ x then ⌊x⌋ else ⌈x⌉

/-- `jpeg_quality_scaling` (jcparam.c:293-297): int → float → scaling → int. -/
def qualityScaling (rnd : ℚ → ℚ) (quality : ℤ) : ℤ := truncQ (floatQualityScaling rnd (rnd quality))

/-- `jpeg_set_quality` (jcparam.c:326-339), one entry of a base table. -/
def setQuality (rnd : ℚ → ℚ) (base : Nat) (quality : ℤ) (force : Bool) : Nat :=
  addQuant base (qualityScaling rnd quality) force

/-! ## C15 -/

theorem addQuant_range (base : Nat) (scale : Int) (force : Bool) :
    1 ≤ addQuant base scale force ∧ addQuant base scale force ≤ 32767 ∧
      (force = true → addQuant base scale force ≤ 255) := by
  unfold addQuant
  simp only
  generalize ((base : Int) * scale + 50).tdiv 100 = t
  cases force <;> simp <;> split_ifs <;> omega

theorem tdiv_mono {a b : Int} (h : a ≤ b) : a.tdiv 100 ≤ b.tdiv 100 :=
  Int.tdiv_le_tdiv (by omega) h

theorem addQuant_mono (base : Nat) {s1 s2 : Int} (h : s1 ≤ s2) (force : Bool) :
    addQuant base s1 force ≤ addQuant base s2 force := by
  have hm : (base : Int) * s1 + 50 ≤ (base : Int) * s2 + 50 := by
    have := Int.mul_le_mul_of_nonneg_left h (Int.natCast_nonneg base)
    omega
  have ht := tdiv_mono hm
  unfold addQuant
  simp only
  generalize ((base : Int) * s1 + 50).tdiv 100 = t1 at *
  generalize ((base : Int) * s2 + 50).tdiv 100 = t2 at *
  cases force <;> simp <;> split_ifs <;> omega

variable {rnd : ℚ → ℚ}

theorem rnd_nat (H : FloatRounding rnd) (n : ℕ) (h : n ≤ 2 ^ 24) : rnd (n : ℚ) = n := by
  have := H.exact n (by rw [abs_of_nonneg (by positivity)]; exact_mod_cast h)
  exact_mod_cast this

theorem scaling_antitone (H : FloatRounding rnd) {q1 q2 : ℚ} (h : q1 ≤ q2) (hq : q2 ≤ 0 ∨ 1 ≤ q2) :
    floatQualityScaling rnd q2 ≤ floatQualityScaling rnd q1 := by
  have e100 : rnd 100 = 100 := by have := rnd_nat H 100 (by norm_num); exact_mod_cast this
  have hclamp : ∀ a b : ℚ, 0 < a → a ≤ b →
      (if b < 50 then rnd (5000 / b) else rnd (200 - rnd (b * 2))) ≤
      (if a < 50 then rnd (5000 / a) else rnd (200 - rnd (a * 2))) := by
    intro a b ha hab
    by_cases h1 : b < 50
    · rw [if_pos h1, if_pos (by linarith)]
      exact H.mono _ _ (div_le_div_of_nonneg_left (by norm_num) ha hab)
    · rw [if_neg h1]
      have hb : rnd (200 - rnd (b * 2)) ≤ 100 := by
        rw [← e100]
        have : (100 : ℚ) ≤ rnd (b * 2) := by
          rw [← e100]; apply H.mono; linarith
        apply H.mono
        linarith
      by_cases h2 : a < 50
      · rw [if_pos h2]
        refine le_trans hb ?_
        rw [← e100]
        apply H.mono
        rw [le_div_iff₀ ha]; linarith
      · rw [if_neg h2]
        apply H.mono
        have := H.mono (a * 2) (b * 2) (by linarith)
        linarith
  unfold floatQualityScaling
  simp only
  apply hclamp
  · split_ifs <;> linarith
  · rcases hq with hq | hq <;> split_ifs <;> linarith

theorem truncQ_mono {x y : ℚ} (h : x ≤ y) : truncQ x ≤ truncQ y := by
  unfold truncQ
  split_ifs with h1 h2 h2
  · exact Int.floor_mono h
  · linarith
  · have a : ⌈x⌉ ≤ 0 := by rw [Int.ceil_le]; push_cast; linarith
    have b : 0 ≤ ⌊y⌋ := Int.floor_nonneg.2 h2
    omega
  · exact Int.ceil_mono h

/-- **C15.** For every quality value (any `int`), every base-table entry and either setting of force_baseline, the
quantizer is in 1..32767, in 1..255 if baseline is forced, and raising the quality never raises the quantizer; the
same for direct percentage scaling (jpeg_set_linear_quality / jpeg_add_quant_table) with any `int` factor. -/
theorem quality_tables_legal_and_monotone (H : FloatRounding rnd) (base : Nat) (force : Bool) :
    (∀ q : ℤ, 1 ≤ setQuality rnd base q force ∧ setQuality rnd base q force ≤ 32767 ∧
      (force = true → setQuality rnd base q force ≤ 255)) ∧
    (∀ q1 q2 : ℤ, q1 ≤ q2 → setQuality rnd base q2 force ≤ setQuality rnd base q1 force) ∧
    (∀ s : ℤ, 1 ≤ addQuant base s force ∧ addQuant base s force ≤ 32767 ∧
      (force = true → addQuant base s force ≤ 255)) ∧
    (∀ s1 s2 : ℤ, s1 ≤ s2 → addQuant base s1 force ≤ addQuant base s2 force) := by
  refine ⟨fun q => addQuant_range _ _ _, ?_, fun s => addQuant_range _ _ _, fun s1 s2 h => addQuant_mono _ h _⟩
  intro q1 q2 h
  apply addQuant_mono
  apply truncQ_mono
  apply scaling_antitone H
  · apply H.mono
    exact_mod_cast h
  · rcases le_or_gt q2 0 with h0 | h0
    · left
      have := H.mono (q2 : ℚ) 0 (by exact_mod_cast h0)
      rwa [show rnd 0 = 0 by simpa using H.exact 0 (by norm_num)] at this
    · right
      have := H.mono 1 (q2 : ℚ) (by exact_mod_cast h0)
      rwa [show rnd 1 = 1 by simpa using H.exact 1 (by norm_num)] at this

/-- Relative accuracy of IEEE single-precision rounding. -/
def FloatAccurate (rnd : ℚ → ℚ) : Prop := ∀ x, |rnd x - x| ≤ |x| / 2 ^ 24

/-- **C15, exact curve.** For integer quality the scale factor is exactly the documented integer curve:
5000/Q (integer division) below 50, 200-2Q from 50, quality clamped to 1..100; at 100 every quantizer is 1 and at
50 the base table is used as is (within the legal range). -/
theorem quality_scaling_curve (H : FloatRounding rnd) (A : FloatAccurate rnd) (q : ℤ) (hq : |q| ≤ 2 ^ 24) :
    qualityScaling rnd q =
      (let c := max 1 (min q 100); if c < 50 then 5000 / c else 200 - 2 * c) := by
  have hr := H.exact q hq
  have key : ∀ c : ℤ, 1 ≤ c → c ≤ 100 →
      truncQ (if (c : ℚ) < 50 then rnd (5000 / c) else rnd (200 - rnd (c * 2))) =
        (if c < 50 then 5000 / c else 200 - 2 * c) := by
    intro c h1 h2
    by_cases hc : c < 50
    · have hcq : (c : ℚ) < 50 := by exact_mod_cast hc
      rw [if_pos hcq, if_pos hc]
      have h1q : (1 : ℚ) ≤ c := by exact_mod_cast h1
      have hpos : (0 : ℚ) < c := by linarith
      have hdm := Int.mul_ediv_add_emod 5000 c
      have hm0 := Int.emod_nonneg 5000 (show c ≠ 0 by omega)
      have hml := Int.emod_lt_of_pos 5000 (show 0 < c by omega)
      have hd0 : 0 ≤ 5000 / c := Int.ediv_nonneg (by norm_num) (by omega)
      generalize 5000 / c = d at hdm hd0 ⊢
      generalize 5000 % c = m5 at hdm hm0 hml
      have hd5 : d ≤ 5000 := by
        have : c * d ≤ 5000 := by omega
        nlinarith
      have hlo : (d : ℚ) ≤ 5000 / c := by
        rw [le_div_iff₀ hpos]
        have : d * c ≤ 5000 := by rw [Int.mul_comm]; omega
        exact_mod_cast this
      have hhi : (5000 : ℚ) / c ≤ d + 1 - 1 / c := by
        rw [div_le_iff₀ hpos]
        have : (5000 : ℤ) ≤ (d + 1) * c - 1 := by
          rw [Int.add_mul, Int.mul_comm d c]; omega
        have h5 : (5000 : ℚ) ≤ (d + 1) * c - 1 := by exact_mod_cast this
        have e : (d + 1 - 1 / (c : ℚ)) * c = (d + 1) * c - 1 := by field_simp
        rw [e]; exact h5
      have hle5 : (5000 : ℚ) / c ≤ 5000 := by
        rw [div_le_iff₀ hpos]; nlinarith
      have ha := A (5000 / c)
      have hnn : (0 : ℚ) ≤ 5000 / c := by positivity
      rw [abs_of_nonneg hnn] at ha
      have hi : (1 : ℚ) / 50 < 1 / c := one_div_lt_one_div_of_lt hpos hcq
      have hlt : rnd (5000 / c) < d + 1 := by
        have := (abs_le.1 ha).2
        have : (5000 : ℚ) / c / 2 ^ 24 ≤ 5000 / 2 ^ 24 := by
          apply div_le_div_of_nonneg_right hle5; positivity
        have : (5000 : ℚ) / 2 ^ 24 < 1 / 50 := by norm_num
        linarith
      have hge : (d : ℚ) ≤ rnd (5000 / c) := by
        have h1 := H.exact d (by rw [abs_of_nonneg hd0]; omega)
        rw [← h1]; exact H.mono _ _ hlo
      unfold truncQ
      have hd0q : (0 : ℚ) ≤ d := by exact_mod_cast hd0
      rw [if_pos (by linarith), Int.floor_eq_iff]
      exact ⟨hge, hlt⟩
    · have hcq : ¬ (c : ℚ) < 50 := by
        intro h; exact hc (by exact_mod_cast h)
      rw [if_neg hcq, if_neg hc]
      have e1 : rnd ((c : ℚ) * 2) = c * 2 := by
        have := H.exact (c * 2) (by rw [abs_of_nonneg (by omega)]; omega)
        exact_mod_cast this
      have e2 : rnd (200 - (c : ℚ) * 2) = 200 - c * 2 := by
        have := H.exact (200 - c * 2) (by rw [abs_of_nonneg (by omega)]; omega)
        exact_mod_cast this
      rw [e1, e2]
      have : (200 - (c : ℚ) * 2) = ((200 - 2 * c : ℤ) : ℚ) := by push_cast; ring
      rw [this]
      unfold truncQ
      rw [if_pos (by exact_mod_cast (show (0:ℤ) ≤ 200 - 2 * c by omega)), Int.floor_intCast]
  unfold qualityScaling floatQualityScaling
  rw [hr]
  simp only
  have hk := key (max 1 (min q 100)) (by omega) (by omega)
  rw [← hk]
  congr 1
  have : (if (if (q : ℚ) ≤ 0 then (1:ℚ) else q) > 100 then (100:ℚ) else (if (q : ℚ) ≤ 0 then (1:ℚ) else q)) =
      ((max 1 (min q 100) : ℤ) : ℚ) := by
    by_cases h0 : q ≤ 0
    · have : (q : ℚ) ≤ 0 := by exact_mod_cast h0
      rw [if_pos this, if_neg (by norm_num), show max 1 (min q 100) = 1 by omega]; norm_num
    · have : ¬ (q : ℚ) ≤ 0 := by intro h; exact h0 (by exact_mod_cast h)
      rw [if_neg this]
      by_cases h1 : q > 100
      · have : (q : ℚ) > 100 := by exact_mod_cast h1
        rw [if_pos this, show max 1 (min q 100) = 100 by omega]; norm_num
      · have : ¬ (q : ℚ) > 100 := by intro h; exact h1 (by exact_mod_cast h)
        rw [if_neg this, show max 1 (min q 100) = q by omega]
  rw [this]

/-- Non-vacuity: exact arithmetic is such a rounding; Annex K's first entry at qualities 75 and 1. -/
example : FloatRounding id ∧ FloatAccurate id ∧ setQuality id 16 75 true = 8 ∧
    setQuality id 16 1 true = 255 ∧ setQuality id 16 1 false = 800 := by
  have A : FloatAccurate id := fun x => by simp only [id, sub_self, abs_zero]; positivity
  have H : FloatRounding id := ⟨fun x y h => h, fun n _ => rfl⟩
  refine ⟨H, A, ?_, ?_, ?_⟩
  · unfold setQuality; rw [quality_scaling_curve H A 75 (by decide)]; decide
  · unfold setQuality; rw [quality_scaling_curve H A 1 (by decide)]; decide
  · unfold setQuality; rw [quality_scaling_curve H A 1 (by decide)]; decide

end Verif.Quant
