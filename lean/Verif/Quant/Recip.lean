import Mathlib.Data.Nat.Prime.Basic
import Mathlib.Tactic.Ring
import Mathlib.Tactic.Linarith
import Mathlib.Tactic.NormNum
/-
Model of the forward quantizer (jcdctmgr.c:86-220 flss/compute_reciprocal, 611-682 quantize) and property C16.
`w` is the width in bits of DCTELEM: 32 without SIMD, 16 with (jdct.h:35-44).
-/
namespace Verif.Quant

/-! ## Model -/

/-- `flss` (jcdctmgr.c:90-117): `val` is a UINT16, so the shifts drop bits above 16. -/
def flss (val : Nat) : Nat :=
  if val = 0 then 0 else
  let s (m k : Nat) (p : Nat × Nat) : Nat × Nat :=
    if p.2 &&& m = 0 then (p.1 - k, (p.2 <<< k) % 65536) else p
  (s 0x8000 1 (s 0xc000 2 (s 0xf000 4 (s 0xff00 8 (16, val))))).1

/-- The three divisor-table entries that the C quantizer reads. `shift` is the stored value plus `w` (the total
right shift `shift + sizeof(DCTELEM)*8`). -/
structure Recip where
  recip : Nat
  corr : Nat
  shift : Nat
deriving Repr, DecidableEq

/-- `compute_reciprocal` (jcdctmgr.c:171-218) for a nonzero divisor; entries are stored through `(DCTELEM)` and
read back as UDCTELEM, i.e. modulo 2^w. -/
def computeReciprocal (w divisor : Nat) : Recip :=
  if divisor = 1 then { recip := 1, corr := 0, shift := 0 }
  else
    let b := flss divisor - 1
    let r := w + b
    let fq := 2 ^ r / divisor
    let fr := 2 ^ r % divisor
    let c := divisor / 2
    if fr = 0 then { recip := fq / 2 % 2 ^ w, corr := c % 2 ^ w, shift := r - 1 }
    else if fr ≤ divisor / 2 then { recip := fq % 2 ^ w, corr := (c + 1) % 2 ^ w, shift := r }
    else { recip := (fq + 1) % 2 ^ w, corr := c % 2 ^ w, shift := r }

/-- One coefficient of `quantize` (jcdctmgr.c:624-642); UDCTELEM2 has `2*w` bits. The results stored are small
enough for the casts back to DCTELEM/JCOEF (they never exceed the magnitude of the input). -/
def quantize1 (w : Nat) (t : Recip) (temp : Int) : Int :=
  if temp < 0 then -(((((temp.natAbs + t.corr) * t.recip) % 2 ^ (2 * w)) >>> t.shift : Nat) : Int)
  else ((((temp.natAbs + t.corr) * t.recip) % 2 ^ (2 * w)) >>> t.shift : Nat)

/-- The 12-bit variant (jcdctmgr.c:644-678): rounded division with the DIVIDE_BY test. -/
def quantize12 (qval : Nat) (temp : Int) : Int :=
  let a := temp.natAbs + qval / 2
  let a := if a ≥ qval then a / qval else 0
  if temp < 0 then -(a : Int) else a

/-! ## Specification -/

/-- Division rounded to nearest, halves away from zero. -/
def roundDiv (x : Int) (d : Nat) : Int :=
  if x < 0 then -(((2 * x.natAbs + d) / (2 * d) : Nat) : Int) else ((2 * x.natAbs + d) / (2 * d) : Nat)

/-! ## Proof of C16 -/

theorem and_mask_eq_zero (val k : Nat) (hk : k ≤ 16) (hv : val < 65536) :
    val &&& (65536 - 2 ^ (16 - k)) = 0 ↔ val < 2 ^ (16 - k) := by
  constructor
  · intro h
    by_contra hcon
    rw [not_lt] at hcon
    -- the top bit of val is at position ≥ 16-k
    have hne : val ≠ 0 := by
      have := Nat.two_pow_pos (16 - k)
      omega
    have hlog := Nat.log2_self_le hne
    have hlog2 : val < 2 ^ (val.log2 + 1) := Nat.lt_log2_self
    have h1 : 16 - k ≤ val.log2 := (Nat.le_log2 hne).2 hcon
    have h2 : val.log2 < 16 := (Nat.log2_lt hne).2 (by simpa using hv)
    have hb : (val &&& (65536 - 2 ^ (16 - k))).testBit val.log2 = true := by
      rw [Nat.testBit_and]
      have e1 : val.testBit val.log2 = true := Nat.testBit_log2 hne
      have e2 : (65536 - 2 ^ (16 - k)).testBit val.log2 = true := by
        have : (65536 - 2 ^ (16 - k) : Nat) = 2 ^ 16 - (2 ^ (16 - k) - 1 + 1) := by
          have := Nat.two_pow_pos (16 - k)
          norm_num
          omega
        rw [this, Nat.testBit_two_pow_sub_succ]
        · rw [Nat.testBit_two_pow_sub_one]
          simp; omega
        · have : 2 ^ (16 - k) ≤ 2 ^ 16 := Nat.pow_le_pow_right (by omega) (by omega)
          have := Nat.two_pow_pos (16 - k)
          omega
      simp [e1, e2]
    rw [h] at hb
    simp at hb
  · intro h
    apply Nat.eq_of_testBit_eq
    intro i
    rw [Nat.testBit_and, Nat.zero_testBit]
    by_cases hi : i < 16 - k
    · have : (65536 - 2 ^ (16 - k)).testBit i = false := by
        have : (65536 - 2 ^ (16 - k) : Nat) = 2 ^ 16 - (2 ^ (16 - k) - 1 + 1) := by
          have := Nat.two_pow_pos (16 - k)
          norm_num
          omega
        rw [this, Nat.testBit_two_pow_sub_succ]
        · rw [Nat.testBit_two_pow_sub_one]
          simp; omega
        · have : 2 ^ (16 - k) ≤ 2 ^ 16 := Nat.pow_le_pow_right (by omega) (by omega)
          have := Nat.two_pow_pos (16 - k)
          omega
      simp [this]
    · have : val.testBit i = false := by
        apply Nat.testBit_lt_two_pow
        exact lt_of_lt_of_le h (Nat.pow_le_pow_right (by omega) (by omega))
      simp [this]

/-- flss is the position of the highest bit. -/
theorem flss_spec (d : Nat) (h1 : 1 ≤ d) (h2 : d < 65536) :
    1 ≤ flss d ∧ flss d ≤ 16 ∧ 2 ^ (flss d - 1) ≤ d ∧ d < 2 ^ flss d := by
  have m8 : ∀ v, v < 65536 → (v &&& 0xff00 = 0 ↔ v < 256) := fun v hv => by
    simpa using and_mask_eq_zero v 8 (by omega) hv
  have m4 : ∀ v, v < 65536 → (v &&& 0xf000 = 0 ↔ v < 4096) := fun v hv => by
    simpa using and_mask_eq_zero v 4 (by omega) hv
  have m2 : ∀ v, v < 65536 → (v &&& 0xc000 = 0 ↔ v < 16384) := fun v hv => by
    simpa using and_mask_eq_zero v 2 (by omega) hv
  have m1 : ∀ v, v < 65536 → (v &&& 0x8000 = 0 ↔ v < 32768) := fun v hv => by
    simpa using and_mask_eq_zero v 1 (by omega) hv
  -- invariant: d * 2^(16-bit) = v, v < 65536
  have step : ∀ (m k t : Nat) (p : Nat × Nat), (∀ v, v < 65536 → (v &&& m = 0 ↔ v < 2 ^ (16 - k))) →
      k ≤ p.1 → k ≤ 16 → p.1 ≤ 16 → d * 2 ^ (16 - p.1) = p.2 → p.2 < 65536 →
      2 ^ (16 - t) ≤ p.2 → (t ≤ 2 * k) →
      let p' := (if p.2 &&& m = 0 then (p.1 - k, (p.2 <<< k) % 65536) else p)
      p'.1 ≤ 16 ∧ p.1 - k ≤ p'.1 ∧ d * 2 ^ (16 - p'.1) = p'.2 ∧ p'.2 < 65536 ∧ 2 ^ (16 - k) ≤ p'.2 := by
    intro m k t p hm hk hk16 hp he hlt hge htk
    by_cases hz : p.2 &&& m = 0
    · have hv := (hm _ hlt).1 hz
      have hpow : p.2 * 2 ^ k < 65536 := by
        calc p.2 * 2 ^ k < 2 ^ (16 - k) * 2 ^ k := Nat.mul_lt_mul_of_pos_right hv (Nat.two_pow_pos _)
          _ = 65536 := by rw [← Nat.pow_add, Nat.sub_add_cancel hk16]
      simp only [if_pos hz]
      refine ⟨by omega, by omega, ?_, ?_, ?_⟩
      · rw [Nat.shiftLeft_eq, Nat.mod_eq_of_lt hpow, ← he, Nat.mul_assoc, ← Nat.pow_add]
        congr 2; omega
      · exact Nat.mod_lt _ (by norm_num)
      · rw [Nat.shiftLeft_eq, Nat.mod_eq_of_lt hpow]
        calc 2 ^ (16 - k) ≤ 2 ^ (16 - t + k) := Nat.pow_le_pow_right (by omega) (by omega)
          _ = 2 ^ (16 - t) * 2 ^ k := Nat.pow_add ..
          _ ≤ p.2 * 2 ^ k := Nat.mul_le_mul_right _ hge
    · simp only [if_neg hz]
      have := (not_congr (hm _ hlt)).1 hz
      exact ⟨hp, by omega, he, hlt, by omega⟩
  have s8 := step 0xff00 8 16 (16, d) (fun v hv => by simpa using m8 v hv) (by simp) (by simp) (by simp)
    (by simp) h2 (by simpa using h1) (by omega)
  simp only at s8
  set p8 := (if d &&& 0xff00 = 0 then (16 - 8, (d <<< 8) % 65536) else (16, d)) with hp8
  have s4 := step 0xf000 4 8 p8 (fun v hv => by simpa using m4 v hv) (by omega) (by omega) s8.1 s8.2.2.1
    s8.2.2.2.1 s8.2.2.2.2 (by omega)
  simp only at s4
  set p4 := (if p8.2 &&& 0xf000 = 0 then (p8.1 - 4, (p8.2 <<< 4) % 65536) else p8) with hp4
  have s2 := step 0xc000 2 4 p4 (fun v hv => by simpa using m2 v hv) (by omega) (by omega) s4.1 s4.2.2.1
    s4.2.2.2.1 s4.2.2.2.2 (by omega)
  simp only at s2
  set p2 := (if p4.2 &&& 0xc000 = 0 then (p4.1 - 2, (p4.2 <<< 2) % 65536) else p4) with hp2
  have s1 := step 0x8000 1 2 p2 (fun v hv => by simpa using m1 v hv) (by omega) (by omega) s2.1 s2.2.2.1
    s2.2.2.2.1 s2.2.2.2.2 (by omega)
  simp only at s1
  set p1 := (if p2.2 &&& 0x8000 = 0 then (p2.1 - 1, (p2.2 <<< 1) % 65536) else p2) with hp1
  have hf : flss d = p1.1 := by
    unfold flss
    rw [if_neg (by omega)]
  rw [hf]
  obtain ⟨a1, a2, a3, a4, a5⟩ := s1
  have a5' : 32768 ≤ p1.2 := by simpa using a5
  refine ⟨by omega, a1, ?_, ?_⟩
  · have : 2 ^ (p1.1 - 1) * 2 ^ (16 - p1.1) ≤ d * 2 ^ (16 - p1.1) := by
      rw [← Nat.pow_add, a3, show p1.1 - 1 + (16 - p1.1) = 15 by omega]; omega
    exact Nat.le_of_mul_le_mul_right this (Nat.two_pow_pos _)
  · have : d * 2 ^ (16 - p1.1) < 2 ^ p1.1 * 2 ^ (16 - p1.1) := by
      rw [← Nat.pow_add, a3, show p1.1 + (16 - p1.1) = 16 by omega]; omega
    exact Nat.lt_of_mul_lt_mul_right this

/-- Reciprocal with the quotient rounded down (fraction below one half). -/
theorem recip_down {n d r fq fr : Nat} (hd : 0 < d) (he : 2 ^ r = d * fq + fr) (h0 : 0 < fr)
    (hn : (n + 1) * fr ≤ 2 ^ r) : (n + 1) * fq / 2 ^ r = n / d := by
  have hdm := Nat.div_add_mod n d
  have hml := Nat.mod_lt n hd
  set q := n / d
  set s := n % d
  apply Nat.div_eq_of_lt_le
  · -- q * 2^r ≤ (n+1) * fq
    apply Nat.le_of_mul_le_mul_left _ hd
    have : d * ((n + 1) * fq) = (n + 1) * 2 ^ r - (n + 1) * fr := by
      rw [he, Nat.mul_add, Nat.add_sub_cancel]; ring
    rw [this]
    have h2 : (n + 1) * 2 ^ r = d * (q * 2 ^ r) + (s + 1) * 2 ^ r := by
      conv => lhs; rw [← hdm]
      ring
    have h3 : 2 ^ r ≤ (s + 1) * 2 ^ r := Nat.le_mul_of_pos_left _ (by omega)
    omega
  · -- (n+1)*fq < (q+1)*2^r
    apply Nat.lt_of_mul_lt_mul_left (a := d)
    have h1 : d * ((n + 1) * fq) + (n + 1) * fr = (n + 1) * 2 ^ r := by rw [he]; ring
    have h2 : (n + 1) * 2 ^ r ≤ d * ((q + 1) * 2 ^ r) := by
      have : n + 1 ≤ d * (q + 1) := by rw [Nat.mul_add]; omega
      calc (n + 1) * 2 ^ r ≤ d * (q + 1) * 2 ^ r := Nat.mul_le_mul_right _ this
        _ = _ := by ring
    have h3 : 0 < (n + 1) * fr := Nat.mul_pos (by omega) h0
    omega

/-- Reciprocal with the quotient rounded up. -/
theorem recip_up {n d r fq e : Nat} (hd : 0 < d) (he : d * fq = 2 ^ r + e)
    (hn : n * e < 2 ^ r) : n * fq / 2 ^ r = n / d := by
  have hdm := Nat.div_add_mod n d
  have hml := Nat.mod_lt n hd
  set q := n / d
  set s := n % d
  have h1 : d * (n * fq) = n * 2 ^ r + n * e := by
    calc d * (n * fq) = n * (d * fq) := by ring
      _ = _ := by rw [he]; ring
  have h2 : n * 2 ^ r = d * (q * 2 ^ r) + s * 2 ^ r := by
    conv => lhs; rw [← hdm]
    ring
  apply Nat.div_eq_of_lt_le
  · apply Nat.le_of_mul_le_mul_left _ hd
    omega
  · apply Nat.lt_of_mul_lt_mul_left (a := d)
    rw [h1, h2]
    have h3 : (s + 1) * 2 ^ r ≤ d * 2 ^ r := Nat.mul_le_mul_right _ hml
    have h4 : d * ((q + 1) * 2 ^ r) = d * (q * 2 ^ r) + d * 2 ^ r := by ring
    rw [h4]
    have h5 : (s + 1) * 2 ^ r = s * 2 ^ r + 2 ^ r := by ring
    omega

theorem half_round (x d : Nat) (hd : 0 < d) : (x + d / 2) / d = (2 * x + d) / (2 * d) := by
  rw [← Nat.div_div_eq_div_mul]
  congr 1
  omega

theorem quantMag (w : Nat) (hw : 16 ≤ w) (d x : Nat) (h1 : 1 ≤ d) (h2 : d < 65536)
    (hx : x + d / 2 + 1 ≤ 2 ^ w) :
    (((x + (computeReciprocal w d).corr) * (computeReciprocal w d).recip) % 2 ^ (2 * w)) >>>
      (computeReciprocal w d).shift = (2 * x + d) / (2 * d) := by
  rw [← half_round x d h1]
  have hwpos : 65536 ≤ 2 ^ w := by
    calc 65536 = 2 ^ 16 := by norm_num
      _ ≤ 2 ^ w := Nat.pow_le_pow_right (by omega) hw
  by_cases hd1 : d = 1
  · subst hd1
    simp only [computeReciprocal, if_true]
    have : x < 2 ^ (2 * w) := lt_of_lt_of_le (by omega) (Nat.pow_le_pow_right (by omega) (by omega : w ≤ 2 * w))
    simp [Nat.mod_eq_of_lt this]
  · obtain ⟨f1, f2, f3, f4⟩ := flss_spec d h1 h2
    simp only [computeReciprocal, if_neg hd1]
    set b := flss d - 1 with hb
    have f4' : d < 2 ^ (b + 1) := by rw [hb, Nat.sub_add_cancel f1]; exact f4
    have hpb : 2 ^ (b + 1) = 2 * 2 ^ b := by rw [Nat.pow_succ]; omega
    have hb1 : 1 ≤ b := by
      by_contra h
      have : b = 0 := by omega
      rw [this] at f4'
      omega
    have hdm := Nat.div_add_mod (2 ^ (w + b)) d
    have hml := Nat.mod_lt (2 ^ (w + b)) h1
    have hwb : 2 ^ (w + b) = 2 ^ w * 2 ^ b := Nat.pow_add ..
    have h2w : 2 ^ (2 * w) = 2 ^ w * 2 ^ w := by rw [← Nat.pow_add]; congr 1; omega
    have hcw : d / 2 + 1 < 2 ^ w := by omega
    split_ifs with hf0 hfh
    · -- power of two
      have hdb : d = 2 ^ b := by
        by_contra hne
        have hdvd : d ∣ 2 ^ (w + b) := Nat.dvd_of_mod_eq_zero hf0
        obtain ⟨k, hk, hk2⟩ := (Nat.dvd_prime_pow Nat.prime_two).1 hdvd
        have hk1 : b ≤ k := (Nat.pow_le_pow_iff_right (by omega)).1 (hk2 ▸ f3)
        have hk3 : k < b + 1 := (Nat.pow_lt_pow_iff_right (by omega)).1 (hk2 ▸ f4')
        exact hne (by rw [hk2]; congr 1; omega)
      have hfq : 2 ^ (w + b) / d = 2 ^ w := by
        rw [hdb, hwb, Nat.mul_div_cancel _ (Nat.two_pow_pos _)]
      simp only [hfq]
      have hw2 : 2 ^ w / 2 = 2 ^ (w - 1) := by
        conv => lhs; rw [show w = (w - 1) + 1 by omega, Nat.pow_succ]
        omega
      have hlt : 2 ^ (w - 1) < 2 ^ w := Nat.pow_lt_pow_right (by omega) (by omega)
      rw [hw2, Nat.mod_eq_of_lt hlt, Nat.mod_eq_of_lt (by omega : d / 2 < 2 ^ w)]
      have hp : (x + d / 2) * 2 ^ (w - 1) < 2 ^ (2 * w) := by
        rw [h2w]
        exact Nat.mul_lt_mul'' (by omega) hlt
      rw [Nat.mod_eq_of_lt hp, Nat.shiftRight_eq_div_pow, show w + b - 1 = w - 1 + b by omega, Nat.pow_add,
        ← Nat.div_div_eq_div_mul, Nat.mul_div_cancel _ (Nat.two_pow_pos _), hdb]
    · have hfq : 2 ^ (w + b) / d < 2 ^ w := by
        rw [Nat.div_lt_iff_lt_mul h1, hwb]
        apply Nat.mul_lt_mul_of_pos_left _ (Nat.two_pow_pos _)
        rcases Nat.lt_or_ge (2 ^ b) d with h | h
        · exact h
        · exfalso
          have : d = 2 ^ b := by omega
          apply hf0
          rw [this, hwb]
          exact Nat.mul_mod_left _ _
      simp only
      rw [Nat.mod_eq_of_lt hfq, Nat.mod_eq_of_lt (by omega : d / 2 + 1 < 2 ^ w)]
      have hp : (x + (d / 2 + 1)) * (2 ^ (w + b) / d) < 2 ^ (2 * w) := by
        rw [h2w]
        exact Nat.mul_lt_mul_of_le_of_lt (by omega) hfq (Nat.two_pow_pos _)
      rw [Nat.mod_eq_of_lt hp, Nat.shiftRight_eq_div_pow, ← Nat.add_assoc]
      apply recip_down (fr := 2 ^ (w + b) % d) h1 hdm.symm (by omega)
      generalize hm : 2 ^ (w + b) % d = m at *
      rw [hwb]
      exact Nat.mul_le_mul hx (by omega)
    · have hfq : 2 ^ (w + b) / d + 1 < 2 ^ w := by
        -- d * (fq+1) = 2^(w+b) + e with e < d, and d ≥ 2^b + 1
        have hgt : 2 ^ b < d := by
          rcases Nat.lt_or_ge (2 ^ b) d with h | h
          · exact h
          · exfalso
            have : d = 2 ^ b := by omega
            apply hf0
            rw [this, hwb]
            exact Nat.mul_mod_left _ _
        by_contra hcon
        rw [not_lt] at hcon
        have h3 : d * 2 ^ w ≤ d * (2 ^ (w + b) / d + 1) := Nat.mul_le_mul_left _ hcon
        have h4 : (2 ^ b + 1) * 2 ^ w ≤ d * 2 ^ w := Nat.mul_le_mul_right _ hgt
        have h5 : (2 ^ b + 1) * 2 ^ w = 2 ^ (w + b) + 2 ^ w := by rw [hwb]; ring
        have h6 : d * (2 ^ (w + b) / d + 1) = d * (2 ^ (w + b) / d) + d := by ring
        omega
      simp only
      rw [Nat.mod_eq_of_lt hfq, Nat.mod_eq_of_lt (by omega : d / 2 < 2 ^ w)]
      have hp : (x + d / 2) * (2 ^ (w + b) / d + 1) < 2 ^ (2 * w) := by
        rw [h2w]
        exact Nat.mul_lt_mul'' (by omega) hfq
      rw [Nat.mod_eq_of_lt hp, Nat.shiftRight_eq_div_pow]
      have h6 : d * (2 ^ (w + b) / d + 1) = d * (2 ^ (w + b) / d) + d := by ring
      apply recip_up h1 (e := d - 2 ^ (w + b) % d) (by omega)
      generalize hm : 2 ^ (w + b) % d = m at *
      rw [hwb]
      exact Nat.mul_lt_mul'' (by omega) (by omega)

/-- **C16.** For both widths of DCTELEM the library uses (and any width from 16 bits), every 16-bit divisor and
every DCT value whose magnitude leaves room for the rounding term, quantization through the precomputed
reciprocal is exactly division rounded to nearest, halves away from zero.  The 12-bit code path likewise. -/
theorem reciprocal_quantization_exact (w : Nat) (hw : 16 ≤ w) (d : Nat) (h1 : 1 ≤ d) (h2 : d < 65536) (x : Int)
    (hx : x.natAbs + d / 2 + 1 ≤ 2 ^ w) :
    quantize1 w (computeReciprocal w d) x = roundDiv x d := by
  unfold quantize1 roundDiv
  rw [quantMag w hw d x.natAbs h1 h2 hx]

theorem quantize12_exact (d : Nat) (h1 : 1 ≤ d) (x : Int) : quantize12 d x = roundDiv x d := by
  unfold quantize12 roundDiv
  simp only
  rw [← half_round x.natAbs d h1]
  by_cases h : x.natAbs + d / 2 ≥ d
  · rw [if_pos h]
  · rw [if_neg h, Nat.div_eq_of_lt (by omega)]

/-- Non-vacuity: the hypotheses cover, with 16-bit DCTELEM, every divisor and every value up to 32767, and with
32-bit DCTELEM every 16-bit divisor and every `int` value down to -2^31. -/
theorem range_ok16 (d : Nat) (h2 : d < 65536) (x : Int) (hx : x.natAbs ≤ 32767) :
    x.natAbs + d / 2 + 1 ≤ 2 ^ 16 := by norm_num; omega
theorem range_ok32 (d : Nat) (h2 : d < 65536) (x : Int) (hx : x.natAbs ≤ 2 ^ 31) :
    x.natAbs + d / 2 + 1 ≤ 2 ^ 32 := by norm_num at *; omega

example : quantize1 16 (computeReciprocal 16 88) (-132) = -2 ∧ quantize1 32 (computeReciprocal 32 88) 131 = 1 ∧
    roundDiv (-132) 88 = -2 := by decide

end Verif.Quant
