import Verif.Prog.Model
/-
Arithmetic of the progressive coders: point transforms, sign extension, correction bits.
-/
namespace Verif.Prog
open Verif Verif.Huff

/-- What a decoder knows of a DC coefficient once all bits down to bit `Al` have been sent: the two's complement
value with the low `Al` bits cleared (T.81 G.1.2.1). -/
def apxDC (Al : Nat) (v : Int) : Int := v / 2 ^ Al * 2 ^ Al

/-- The same for an AC coefficient: the low `Al` bits of the magnitude cleared (T.81 G.1.2.2). -/
def apxAC (Al : Nat) (v : Int) : Int := Int.tdiv v (2 ^ Al) * 2 ^ Al

/-- Range of a 16-bit coefficient. -/
def Coef16 (v : Int) : Prop := -32768 ≤ v ∧ v < 32768

theorem two_pow_cast (n : Nat) : ((2 ^ n : Nat) : Int) = (2 : Int) ^ n := by push_cast; rfl

theorem apxAC_eq (Al : Nat) (v : Int) :
    apxAC Al v = if v < 0 then -((v.natAbs >>> Al * 2 ^ Al : Nat) : Int) else ((v.natAbs >>> Al * 2 ^ Al : Nat) : Int) := by
  unfold apxAC
  rw [Nat.shiftRight_eq_div_pow, ← two_pow_cast]
  split
  · rename_i h
    obtain ⟨n, rfl⟩ : ∃ n : Nat, v = -n := ⟨v.natAbs, by omega⟩
    rw [Int.neg_tdiv, Int.natAbs_neg, Int.natAbs_natCast]
    push_cast
    rw [Int.neg_mul]
    rfl
  · rename_i h
    obtain ⟨n, rfl⟩ : ∃ n : Nat, v = n := ⟨v.natAbs, by omega⟩
    rw [Int.natAbs_natCast]
    push_cast
    rfl

theorem apxAC_zero (v : Int) : apxAC 0 v = v := by simp [apxAC]
theorem apxDC_zero (v : Int) : apxDC 0 v = v := by simp [apxDC]

theorem apxAC_eq_zero {Al : Nat} {v : Int} : apxAC Al v = 0 ↔ v.natAbs >>> Al = 0 := by
  rw [apxAC_eq]
  have := Nat.two_pow_pos Al
  constructor
  · intro h
    have h2 : v.natAbs >>> Al * 2 ^ Al = 0 := by split at h <;> omega
    rcases Nat.mul_eq_zero.1 h2 with h | h <;> omega
  · intro h; rw [h]; simp

theorem mag_le (v : Int) (Al : Nat) : v.natAbs >>> Al * 2 ^ Al ≤ v.natAbs := by
  rw [Nat.shiftRight_eq_div_pow]
  exact Nat.div_mul_le_self _ _

theorem apxAC_coef {Al : Nat} {v : Int} (h : Coef16 v) : Coef16 (apxAC Al v) := by
  have := mag_le v Al
  rw [apxAC_eq]
  obtain ⟨h1, h2⟩ := h
  unfold Coef16
  split <;> omega

theorem apxDC_coef {Al : Nat} {v : Int} (h : Coef16 v) (hAl : Al ≤ 15) : Coef16 (apxDC Al v) := by
  have hp : (0 : Int) < 2 ^ Al := by rw [← two_pow_cast]; exact_mod_cast Nat.two_pow_pos Al
  unfold apxDC Coef16
  obtain ⟨h1, h2⟩ := h
  have hm := Int.ediv_mul_add_emod v (2 ^ Al)
  have hnn := Int.emod_nonneg v (Int.ne_of_gt hp)
  refine ⟨?_, by omega⟩
  have hdiv : (-32768 : Int) = -(2 ^ (15 - Al)) * 2 ^ Al := by
    rw [Int.neg_mul, ← Int.pow_add, show 15 - Al + Al = 15 by omega]; rfl
  rw [hdiv]
  apply Int.mul_le_mul_of_nonneg_right _ (Int.le_of_lt hp)
  rw [hdiv] at h1
  exact (Int.le_ediv_iff_mul_le hp).2 h1

theorem toCoef_coef {v : Int} (h : Coef16 v) : toCoef v = v := toCoef_id h.1 h.2

theorem extend2_eq {x s : Nat} (h1 : 1 ≤ s) (h16 : s ≤ 16) (hx : x < 2 ^ s) :
    extend2 x s = huffExtend x s := by
  rw [huffExtend_eq h1 h16 hx]
  unfold extend2
  split
  · rename_i hlt
    have hs : s = 1 ∨ s = 2 ∨ s = 3 ∨ s = 4 ∨ s = 5 ∨ s = 6 ∨ s = 7 ∨ s = 8 ∨ s = 9 ∨ s = 10 ∨
      s = 11 ∨ s = 12 ∨ s = 13 ∨ s = 14 ∨ s = 15 ∨ s = 16 := by omega
    dsimp only
    rcases hs with rfl|rfl|rfl|rfl|rfl|rfl|rfl|rfl|rfl|rfl|rfl|rfl|rfl|rfl|rfl|rfl <;>
      simp only [Nat.reduceSub, Nat.reducePow, Nat.reduceMul, Nat.reduceAdd, Nat.reduceMod] at * <;>
      (split <;> omega)
  · rfl

theorem magBits_asCode {t : Int} (h : nbitsOf t.natAbs ≤ 32) :
    toBits (nbitsOf t.natAbs) (asCode (onesc t)) = magBits t := by
  unfold magBits asCode
  rw [← toBits_mod _ _ _ (Nat.le_refl _)]
  congr 1
  have hd : (2 : Int) ^ nbitsOf t.natAbs ∣ 4294967296 := pow_dvd_pow 2 h
  have hp : (0 : Int) < 2 ^ nbitsOf t.natAbs := by rw [← two_pow_cast]; exact_mod_cast Nat.two_pow_pos _
  apply Int.natCast_inj.1
  push_cast
  rw [Int.toNat_of_nonneg (Int.emod_nonneg _ (by decide)), Int.toNat_of_nonneg (Int.emod_nonneg _ (Int.ne_of_gt hp)),
    Int.emod_emod_of_dvd _ hd]

/-- Reading a nonzero value with the sign extension of jdphuff.c. -/
theorem readMag2 {t : Int} (h0 : t ≠ 0) (h16 : nbitsOf t.natAbs ≤ 16) {r : Rd} {rest : List Bool}
    (hr : r.Ok) (ht : r.tail ≠ none) (hb : r.bits = magBits t ++ rest) :
    ∃ x r', readBits r (nbitsOf t.natAbs) = some (x, r') ∧ extend2 x (nbitsOf t.natAbs) = t ∧
      r.Same r' ∧ r'.bits = rest := by
  obtain ⟨x, r', e, hx, hs, hb'⟩ := readMag h0 h16 hr ht hb
  refine ⟨x, r', e, ?_, hs, hb'⟩
  have hlt : x < 2 ^ nbitsOf t.natAbs := by
    obtain ⟨r2, e2, -, -⟩ := readBits_spec hr ht (n := nbitsOf t.natAbs) (by rw [hb, magBits]; simp) (by omega)
    rw [e2] at e
    simp only [Option.some.injEq, Prod.mk.injEq] at e
    rw [← e.1]
    exact take_bits_lt
  rw [extend2_eq (nbitsOf_pos (by omega)) h16 hlt, hx]

/-- The signed point-transformed AC value. -/
def ptAC (Al : Nat) (v : Int) : Int := if v < 0 then -((v.natAbs >>> Al : Nat) : Int) else ((v.natAbs >>> Al : Nat) : Int)

theorem ptAC_mul (Al : Nat) (v : Int) : ptAC Al v * 2 ^ Al = apxAC Al v := by
  rw [apxAC_eq, ptAC, ← two_pow_cast]
  split
  · push_cast; rw [Int.neg_mul]
  · push_cast; rfl

theorem ptAC_natAbs (Al : Nat) (v : Int) : (ptAC Al v).natAbs = v.natAbs >>> Al := by
  unfold ptAC
  generalize v.natAbs >>> Al = m
  split <;> omega

theorem shr_lt {v : Int} (h : Coef16 v) (Al : Nat) : v.natAbs >>> Al ≤ 32768 := by
  rw [Nat.shiftRight_eq_div_pow]
  have := Nat.div_le_self v.natAbs (2 ^ Al)
  obtain ⟨h1, h2⟩ := h
  omega

/-- `values[k]` and the bits of `values[k + DCTSIZE2]` are the magnitude and the additional bits. -/
theorem prepFirst_spec {Al : Nat} {v : Int} (h : Coef16 v) :
    (prepFirst Al v).1 = v.natAbs >>> Al ∧ (v.natAbs >>> Al ≠ 0 → nbitsOf (v.natAbs >>> Al) ≤ 16 →
      toBits (nbitsOf (v.natAbs >>> Al)) (prepFirst Al v).2 = magBits (ptAC Al v)) := by
  have hlt := shr_lt h Al
  have hab := ptAC_natAbs Al v
  unfold prepFirst
  dsimp only
  generalize hm : v.natAbs >>> Al = m at *
  by_cases h0 : m = 0
  · rw [if_pos h0]; exact ⟨h0.symm, fun h => absurd h0 h⟩
  · rw [if_neg h0, Nat.mod_eq_of_lt (by omega)]
    refine ⟨rfl, fun _ h16 => ?_⟩
    unfold magBits
    rw [hab, ← toBits_mod _ _ _ (Nat.le_refl (nbitsOf m))]
    congr 1
    have hp : (0 : Int) < 2 ^ nbitsOf m := by rw [← two_pow_cast]; exact_mod_cast Nat.two_pow_pos _
    apply Int.natCast_inj.1
    rw [Int.toNat_of_nonneg (Int.emod_nonneg _ (Int.ne_of_gt hp)), onesc_eq _ (by omega) (by omega)]
    dsimp only
    push_cast
    by_cases hneg : v < 0
    · have hpt : ptAC Al v = -(m : Int) := by rw [ptAC, if_pos hneg, hm]
      rw [if_pos hneg, hpt, if_pos (by omega)]
      have hd : (2 : Int) ^ nbitsOf m ∣ 2 ^ 16 := pow_dvd_pow 2 h16
      obtain ⟨q, hq⟩ := hd
      have : ((65535 - m : Nat) : Int) = (-(m : Int) - 1) + 2 ^ nbitsOf m * q := by
        rw [← hq]; omega
      rw [this, Int.add_mul_emod_self_left]
    · have hpt : ptAC Al v = (m : Int) := by rw [ptAC, if_neg hneg, hm]
      rw [if_neg hneg, hpt, if_neg (by omega)]

/-- The value one refinement step further: bit `Al` of the magnitude is what is missing. -/
theorem apxAC_step (Al : Nat) (v : Int) :
    apxAC Al v = apxAC (Al + 1) v + (if v < 0 then -((v.natAbs >>> Al % 2 * 2 ^ Al : Nat) : Int)
      else ((v.natAbs >>> Al % 2 * 2 ^ Al : Nat) : Int)) := by
  rw [apxAC_eq, apxAC_eq]
  have : v.natAbs >>> Al * 2 ^ Al = v.natAbs >>> (Al + 1) * 2 ^ (Al + 1) + v.natAbs >>> Al % 2 * 2 ^ Al := by
    rw [Nat.shiftRight_succ, Nat.pow_succ, Nat.mul_comm (2 ^ Al) 2, ← Nat.mul_assoc, ← Nat.add_mul,
      Nat.mul_comm (_ / 2) 2, Nat.div_add_mod]
  rw [this]
  split <;> push_cast <;> omega

theorem low16_testBit {c : Int} {Al : Nat} (hAl : Al < 16) (a : Nat) (ha : c = a ∨ c = -(a : Int)) (hd : 2 ^ (Al + 1) ∣ a) :
    ((c % 65536).toNat &&& 2 ^ Al) = 0 := by
  have hdc : ((2 ^ (Al + 1) : Nat) : Int) ∣ c := by
    have : ((2 ^ (Al + 1) : Nat) : Int) ∣ (a : Int) := Int.natCast_dvd_natCast.2 hd
    rcases ha with rfl | rfl
    · exact this
    · exact Int.dvd_neg.2 this
  have h16 : ((2 ^ (Al + 1) : Nat) : Int) ∣ 65536 := by
    have : (2 ^ (Al + 1)) ∣ 2 ^ 16 := Nat.pow_dvd_pow 2 (by omega)
    exact_mod_cast this
  have hm : ((2 ^ (Al + 1) : Nat) : Int) ∣ c % 65536 := by
    rw [Int.emod_def]
    exact Int.dvd_sub hdc (Dvd.dvd.mul_right h16 _)
  have hmn : 2 ^ (Al + 1) ∣ (c % 65536).toNat := by
    have hnn := Int.emod_nonneg c (show (65536 : Int) ≠ 0 by decide)
    obtain ⟨n, hn⟩ : ∃ n : Nat, c % 65536 = n := ⟨(c % 65536).toNat, by omega⟩
    rw [hn] at hm ⊢
    exact_mod_cast hm
  obtain ⟨q, hq⟩ := hmn
  have : (c % 65536).toNat.testBit Al = false := by
    rw [hq, Nat.testBit_two_pow_mul]
    simp
  apply Nat.eq_of_testBit_eq
  intro i
  rw [Nat.testBit_and, Nat.testBit_two_pow]
  by_cases hi : Al = i
  · subst hi; rw [this]; simp
  · simp [hi]

/-- The correction step of decode_mcu_AC_refine computes the refined value. -/
theorem correct_spec {Al : Nat} {v : Int} (hv : Coef16 v) (hAl : Al < 15) (h2 : 2 ≤ v.natAbs >>> Al) :
    apxAC (Al + 1) v ≠ 0 ∧
    (if v.natAbs >>> Al % 2 ≠ 0 then correct Al (apxAC (Al + 1) v) else apxAC (Al + 1) v) = apxAC Al v := by
  have hne : apxAC (Al + 1) v ≠ 0 := by
    rw [ne_eq, apxAC_eq_zero, Nat.shiftRight_succ]
    omega
  refine ⟨hne, ?_⟩
  have hstep := apxAC_step Al v
  have hc := apxAC_coef (Al := Al) hv
  have hpl : 2 ^ Al < 32768 := Nat.pow_lt_pow_right (by omega) hAl
  split
  · rename_i hodd
    have h1 : v.natAbs >>> Al % 2 = 1 := by omega
    rw [h1] at hstep
    simp only [Nat.one_mul] at hstep
    have hand := low16_testBit (c := apxAC (Al + 1) v) (Al := Al) (by omega)
      (v.natAbs >>> (Al + 1) * 2 ^ (Al + 1)) (by rw [apxAC_eq]; split <;> simp) (Dvd.intro_left _ rfl)
    unfold correct
    rw [if_pos hand]
    have hp : toCoef (2 ^ Al) = 2 ^ Al := by
      rw [← two_pow_cast]; clear hstep; generalize 2 ^ Al = P at hpl; exact toCoef_id (by omega) (by omega)
    have hn : toCoef (-2 ^ Al) = -2 ^ Al := by
      rw [← two_pow_cast]; clear hstep; generalize 2 ^ Al = P at hpl; exact toCoef_id (by omega) (by omega)
    rw [hp, hn, ← two_pow_cast]
    by_cases hneg : v < 0
    · simp only [if_pos hneg] at hstep
      have : apxAC (Al + 1) v < 0 := by
        rw [apxAC_eq, if_pos hneg] at hne ⊢; omega
      rw [if_neg (by omega), ← Int.sub_eq_add_neg, show apxAC (Al + 1) v - ((2 ^ Al : Nat) : Int) = apxAC Al v by omega,
        toCoef_coef hc]
    · simp only [if_neg hneg] at hstep
      have : 0 ≤ apxAC (Al + 1) v := by
        rw [apxAC_eq, if_neg hneg]; omega
      rw [if_pos (by omega), show apxAC (Al + 1) v + ((2 ^ Al : Nat) : Int) = apxAC Al v by omega,
        toCoef_coef hc]
  · rename_i heven
    have h1 : v.natAbs >>> Al % 2 = 0 := by omega
    rw [h1] at hstep
    simp at hstep
    exact hstep.symm

/-- A newly nonzero coefficient. -/
theorem newnz_spec {Al : Nat} {v : Int} (h1 : v.natAbs >>> Al = 1) :
    apxAC Al v = (if v < 0 then -2 ^ Al else 2 ^ Al) ∧ apxAC (Al + 1) v = 0 := by
  constructor
  · rw [apxAC_eq, h1, ← two_pow_cast, Nat.one_mul]
  · rw [apxAC_eq_zero, Nat.shiftRight_succ, h1]

theorem zero_spec {Al : Nat} {v : Int} (h1 : v.natAbs >>> Al = 0) : apxAC Al v = 0 ∧ apxAC (Al + 1) v = 0 := by
  rw [apxAC_eq_zero, apxAC_eq_zero, Nat.shiftRight_succ, h1]
  exact ⟨rfl, rfl⟩

/-- The DC refinement step. -/
theorem apxDC_step (Al : Nat) (v : Int) :
    apxDC Al v = apxDC (Al + 1) v + (v / 2 ^ Al % 2) * 2 ^ Al := by
  unfold apxDC
  have hp : (0 : Int) < 2 ^ Al := by rw [← two_pow_cast]; exact_mod_cast Nat.two_pow_pos Al
  rw [Int.pow_succ, ← Int.ediv_ediv_of_nonneg (Int.le_of_lt hp), Int.mul_comm (2 ^ Al) 2, ← Int.mul_assoc,
    ← Int.add_mul, Int.ediv_mul_add_emod]

theorem orBit_spec {Al : Nat} {v : Int} (hv : Coef16 v) (hAl : Al < 15) :
    (if (asCode ((v : Int) >>> Al)) % 2 ≠ 0 then orBit Al (apxDC (Al + 1) v) else apxDC (Al + 1) v) = apxDC Al v := by
  have hstep := apxDC_step Al v
  have hpar : ((asCode ((v : Int) >>> Al)) % 2 : Nat) = (v / 2 ^ Al % 2).toNat := by
    unfold asCode
    rw [Int.shiftRight_eq_div_pow, two_pow_cast]
    omega
  rw [hpar]
  have hm2 := Int.emod_two_eq_zero_or_one (v / 2 ^ Al)
  split
  · rename_i h1
    have h1' : v / 2 ^ Al % 2 = 1 := by omega
    rw [h1', Int.one_mul] at hstep
    have hc := apxDC_coef (Al := Al) hv (by omega)
    have hc1 := apxDC_coef (Al := Al + 1) hv (by omega)
    unfold orBit
    generalize hcc : apxDC (Al + 1) v = c at *
    -- low bits of c are clear
    have hdc : ((2 ^ (Al + 1) : Nat) : Int) ∣ c := by
      rw [← hcc, apxDC, two_pow_cast]; exact Dvd.intro_left _ rfl
    have h16 : ((2 ^ (Al + 1) : Nat) : Int) ∣ 65536 := by
      have : (2 ^ (Al + 1)) ∣ 2 ^ 16 := Nat.pow_dvd_pow 2 (by omega)
      exact_mod_cast this
    have hm : ((2 ^ (Al + 1) : Nat) : Int) ∣ c % 65536 := by
      rw [Int.emod_def]
      exact Int.dvd_sub hdc (Dvd.dvd.mul_right h16 _)
    have hnn := Int.emod_nonneg c (show (65536 : Int) ≠ 0 by decide)
    obtain ⟨n, hn⟩ : ∃ n : Nat, c % 65536 = n := ⟨(c % 65536).toNat, by omega⟩
    rw [hn] at hm ⊢
    have hmn : 2 ^ (Al + 1) ∣ n := by exact_mod_cast hm
    obtain ⟨q, hq⟩ := hmn
    have hor : (n : Int).toNat ||| 2 ^ Al = n + 2 ^ Al := by
      have hlt : 2 ^ Al < 2 ^ (Al + 1) := Nat.pow_lt_pow_right (by omega) (by omega)
      have := shl_or_eq (pb := q) (s := Al + 1) (code := 2 ^ Al) hlt
      rw [Nat.shiftLeft_eq, Nat.mul_comm, ← hq] at this
      simpa using this
    rw [hor]
    have hpl : 2 ^ Al < 32768 := Nat.pow_lt_pow_right (by omega) hAl
    rw [← two_pow_cast] at hstep
    have : toCoef ((n + 2 ^ Al : Nat) : Int) = toCoef (c + ((2 ^ Al : Nat) : Int)) := by
      unfold toCoef
      push_cast at *
      omega
    rw [this, ← hstep, toCoef_coef hc]
  · rename_i h1
    have h1' : v / 2 ^ Al % 2 = 0 := by omega
    rw [h1'] at hstep
    simp at hstep
    exact hstep.symm

end Verif.Prog
