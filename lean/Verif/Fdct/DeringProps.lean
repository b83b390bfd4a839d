import Verif.Fdct.DeringLemmas
import Mathlib.Data.Int.Log
import Mathlib.Algebra.Order.Round
/-
C51: overshoot deringing changes nothing that is displayed.
-/
namespace Verif.Fdct

open Verif.Huff (natOrder natOrder_inj natOrder_lt natOrder_surj)

/-! ### IEEE single precision satisfies the hypothesis -/

/-- Rounding to IEEE binary32 (unbounded exponent upwards): 24 significant bits, to nearest, subnormals below 2^-126. -/
def float32 (x : ℚ) : ℚ :=
  let e : ℤ := max (Int.log 2 |x|) (-126) - 23
  (round (x / 2 ^ e) : ℚ) * 2 ^ e

theorem float32_ok : Rnd.Ok (fun _ => float32) := by
  intro _ x
  by_cases hx : x = 0
  · subst hx
    simp [float32]
  unfold float32
  dsimp only
  set e : ℤ := max (Int.log 2 |x|) (-126) - 23 with he
  have hp : (0 : ℚ) < 2 ^ e := zpow_pos (by norm_num) e
  have h1 := abs_sub_round (x / 2 ^ e)
  have e1 : (round (x / 2 ^ e) : ℚ) * 2 ^ e - x = -((x / 2 ^ e - round (x / 2 ^ e)) * 2 ^ e) := by
    field_simp; ring
  rw [e1, abs_neg, abs_mul, abs_of_pos hp]
  have h2 : |x / 2 ^ e - (round (x / 2 ^ e) : ℚ)| * 2 ^ e ≤ 1 / 2 * 2 ^ e := mul_le_mul_of_nonneg_right h1 hp.le
  refine h2.trans ?_
  by_cases hc : -126 ≤ Int.log 2 |x|
  · have h3 := Int.zpow_log_le_self (b := 2) (r := |x|) (by norm_num) (abs_pos.2 hx)
    have h4 : e = Int.log 2 |x| - 23 := by rw [he, max_eq_left hc]
    rw [h4, zpow_sub₀ (by norm_num)]
    push_cast at h3
    have : (0 : ℚ) ≤ 1 / 2 ^ 149 := by positivity
    have h5 : (1 : ℚ) / 2 * (2 ^ Int.log 2 |x| / 2 ^ (23 : ℤ)) = 2 ^ Int.log 2 |x| / 2 ^ 24 := by
      norm_num; ring
    rw [h5]
    have := div_le_div_of_nonneg_right h3 (show (0 : ℚ) ≤ 2 ^ 24 by positivity)
    linarith
  · have h4 : e = -149 := by rw [he, max_eq_right (by omega)]; norm_num
    rw [h4]
    have : 0 ≤ |x| / 2 ^ 24 := by positivity
    have : (1 : ℚ) / 2 * 2 ^ (-149 : ℤ) ≤ 1 / 2 ^ 149 := by
      rw [zpow_neg]; norm_num
    linarith

/-! ### The theorem -/

theorem sum_le_of_get : ∀ (l m : List Int), l.length = m.length →
    (∀ k, k < l.length → l.getD k 0 ≤ m.getD k 0) → l.sum ≤ m.sum
  | [], [], _, _ => by simp
  | [], _ :: _, h, _ => by simp at h
  | _ :: _, [], h, _ => by simp at h
  | a :: l, b :: m, h, hk => by
    have h0 := hk 0 (by simp)
    have := sum_le_of_get l m (by simpa using h) (fun k hk' => by simpa using hk (k + 1) (by simpa using hk'))
    simp only [List.sum_cons]
    simp at h0
    omega

theorem sum_cap (mo : Int) : ∀ l : List Int, (∀ v ∈ l, v ≤ 127) →
    (l.map (fun v => if v < maxSample then v else mo)).sum = l.sum + (maxCount l : Int) * (mo - 127)
  | [], _ => by simp [maxCount]
  | a :: l, h => by
    have ih := sum_cap mo l (fun v hv => h v (by simp [hv]))
    have ha := h a (by simp)
    simp only [List.map_cons, List.sum_cons]
    rw [ih]
    unfold maxCount
    rw [List.countP_cons]
    unfold maxSample at *
    by_cases hc : a < 127
    · rw [if_pos hc]
      have : decide ((127 : Int) ≤ a) = false := by simpa using hc
      rw [this]; simp; omega
    · rw [if_neg hc]
      have h1 : decide ((127 : Int) ≤ a) = true := by simpa using hc
      rw [h1]
      have h2 : a = 127 := by omega
      subst h2
      simp only [if_true]
      push_cast
      ring

theorem sum_le_const : ∀ (l : List Int), (∀ v ∈ l, v ≤ 127) → l.sum ≤ 127 * l.length
  | [], _ => by simp
  | a :: l, h => by
    have := sum_le_const l (fun v hv => h v (by simp [hv]))
    have := h a (by simp)
    simp only [List.sum_cons, List.length_cons]
    push_cast
    omega

theorem getD_mem {d : List Int} {k : Nat} (h : k < d.length) : d.getD k 0 ∈ d := by
  rw [List.getD_eq_getElem?_getD, List.getElem?_eq_getElem h]; simp

/-- An 8-bit block after the level shift (jcdctmgr.c:573-603 `convsamp`). -/
def Block8 (d : List Int) : Prop := d.length = 64 ∧ ∀ v ∈ d, -128 ≤ v ∧ v ≤ 127

theorem maxOvershoot_bounds {q0 : Nat} {d : List Int} (hd : Block8 d) (hc : maxCount d ≠ 0) :
    127 ≤ maxOvershoot q0 d ∧ maxOvershoot q0 d ≤ 127 + min 31 (2 * (q0 : Int)) ∧
    (maxCount d : Int) * (maxOvershoot q0 d - 127) ≤ 127 * 64 - d.sum := by
  have hs := sum_le_const d (fun v hv => (hd.2 v hv).2)
  rw [hd.1] at hs
  unfold maxOvershoot maxSample
  push_cast at hs
  rw [Int.tdiv_eq_ediv_of_nonneg (by omega)]
  have h1 : 0 ≤ (127 * 64 - d.sum) / (maxCount d : Int) := Int.ediv_nonneg (by omega) (by omega)
  have h2 := Int.ediv_mul_le (127 * 64 - d.sum) (show (maxCount d : Int) ≠ 0 by omega)
  generalize (127 * 64 - d.sum) / (maxCount d : Int) = r at *
  refine ⟨by omega, by omega, ?_⟩
  refine le_trans ?_ h2
  rw [mul_comm]
  exact mul_le_mul_of_nonneg_right (by omega) (by omega)

/-- **C51.**  For every 8-bit block, every quantization table and every float arithmetic with IEEE accuracy: deringing makes no
access outside its arrays and no undefined conversion; samples below the maximum keep their value; samples at the maximum
are raised by at most 31 and at most twice the DC quantizer; and the sum of the block (hence its DC coefficient) is not
lowered and stays at most that of an all-white block. -/
theorem C51_deringing {w : Int} (hw : 32767 ≤ w) {R : Rnd} (hR : R.Ok) (q0 : Nat) (d : List Int) (hd : Block8 d) :
    ∃ d', deringing w R q0 d = some d' ∧ d'.length = 64 ∧
      (∀ k, k < 64 → d.getD k 0 < 127 → d'.getD k 0 = d.getD k 0) ∧
      (∀ k, k < 64 → d.getD k 0 = 127 → 127 ≤ d'.getD k 0 ∧ d'.getD k 0 ≤ 127 + 31 ∧
        d'.getD k 0 ≤ 127 + 2 * (q0 : Int)) ∧
      d.sum ≤ d'.sum ∧ d'.sum ≤ 127 * 64 := by
  have hs := sum_le_const d (fun v hv => (hd.2 v hv).2)
  rw [hd.1] at hs
  push_cast at hs
  unfold deringing
  by_cases hc : maxCount d = 0 ∨ maxCount d = 64
  · rw [if_pos hc]
    exact ⟨d, rfl, hd.1, fun _ _ _ => rfl, fun k _ h => by omega, le_refl _, hs⟩
  · rw [if_neg hc]
    push Not at hc
    obtain ⟨m1, m2, m3⟩ := maxOvershoot_bounds (q0 := q0) hd hc.1
    have hz : ∀ k, k < 64 → -128 ≤ zz d k ∧ zz d k ≤ 127 := fun k hk =>
      hd.2 _ (getD_mem (by have := natOrder_lt k hk; have := hd.1; omega))
    -- some sample is below the maximum
    have hex : ∃ k, k < 64 ∧ zz d k < maxSample := by
      by_contra hno
      push Not at hno
      apply hc.2
      unfold maxCount
      rw [← hd.1, List.countP_eq_length]
      intro a ha
      obtain ⟨i, hi, rfl⟩ := List.getElem_of_mem ha
      rw [hd.1] at hi
      obtain ⟨s1, s2⟩ := natOrder_surj i hi
      have := hno _ s1
      unfold zz at this
      rw [s2, List.getD_eq_getElem?_getD, List.getElem?_eq_getElem (by omega)] at this
      simpa using this
    obtain ⟨d', n', e1, e2, e3⟩ := turns_ok (d0 := d) hw hR m1 (fun k hk => (hz k hk).1) hex 65 0 d (by omega) (by omega)
      ⟨hd.1, fun _ _ _ => rfl, fun k _ h => by omega, fun _ _ _ => rfl, fun h => by omega⟩
    have hlow : ∀ k, k < 64 → d.getD k 0 < 127 → d'.getD k 0 = d.getD k 0 := by
      intro k hk h
      obtain ⟨s1, s2⟩ := natOrder_surj k hk
      have := e3.low _ s1
      unfold zz at this
      rw [s2] at this
      exact this h
    have hhigh : ∀ k, k < 64 → 127 ≤ d.getD k 0 → 127 ≤ d'.getD k 0 ∧ d'.getD k 0 ≤ maxOvershoot q0 d := by
      intro k hk h
      obtain ⟨s1, s2⟩ := natOrder_surj k hk
      have := e3.high _ s1 (by omega)
      unfold zz at this
      rw [s2] at this
      exact this h
    have hb : ∀ k, k < 64 → d.getD k 0 ≤ 127 := fun k hk => (hd.2 _ (getD_mem (by have := hd.1; omega))).2
    refine ⟨d', e1, e3.len, hlow, ?_, ?_, ?_⟩
    · intro k hk h
      have := hhigh k hk (by omega)
      omega
    · refine sum_le_of_get d d' (by rw [e3.len, hd.1]) ?_
      intro k hk
      rw [hd.1] at hk
      by_cases h : d.getD k 0 < 127
      · rw [hlow k hk h]
      · have := hhigh k hk (by omega)
        have := hb k hk
        omega
    · have hcap := sum_cap (maxOvershoot q0 d) d (fun v hv => (hd.2 v hv).2)
      have hle : d'.sum ≤ (d.map (fun v => if v < maxSample then v else maxOvershoot q0 d)).sum := by
        refine sum_le_of_get _ _ (by rw [e3.len, List.length_map, hd.1]) ?_
        intro k hk
        rw [e3.len] at hk
        rw [show (d.map (fun v => if v < maxSample then v else maxOvershoot q0 d)).getD k 0 =
          (if d.getD k 0 < maxSample then d.getD k 0 else maxOvershoot q0 d) by
            rw [List.getD_eq_getElem?_getD, List.getD_eq_getElem?_getD, List.getElem?_map,
              List.getElem?_eq_getElem (by have := hd.1; omega)]
            rfl]
        unfold maxSample
        by_cases h : d.getD k 0 < 127
        · rw [if_pos h, hlow k hk h]
        · rw [if_neg h]
          exact (hhigh k hk (by omega)).2
      rw [hcap] at hle
      omega

/-- What a decoder shows: level shift back and clamp to 0..255. -/
def shown (v : Int) : Int := max 0 (min 255 (v + 128))

/-- **C51**, as seen by a viewer: before quantization the processed block displays exactly the original samples. -/
theorem C51_same_picture {w : Int} (hw : 32767 ≤ w) {R : Rnd} (hR : R.Ok) (q0 : Nat) (d : List Int) (hd : Block8 d) :
    ∃ d', deringing w R q0 d = some d' ∧ d'.map shown = d.map (fun v => v + 128) := by
  obtain ⟨d', h1, h2, h3, h4, _, _⟩ := C51_deringing hw hR q0 d hd
  refine ⟨d', h1, ?_⟩
  apply List.ext_getElem
  · simp [h2, hd.1]
  · intro k hk1 hk2
    simp only [List.getElem_map]
    simp only [List.length_map] at hk1 hk2
    rw [h2] at hk1
    have a := h3 k hk1
    have b := h4 k hk1
    have c := hd.2 _ (getD_mem hk2)
    rw [List.getD_eq_getElem?_getD, List.getElem?_eq_getElem hk2] at a b c
    rw [List.getD_eq_getElem?_getD, List.getElem?_eq_getElem (by omega : k < d'.length)] at a b
    simp only [Option.getD_some] at a b c
    unfold shown
    by_cases hc : d[k] < 127
    · rw [a hc]; omega
    · have := b (by omega); omega

/-- **C51**, the two cases in which nothing is done: no sample at the maximum, and a block all of whose samples are. -/
theorem C51_untouched (w : Int) (R : Rnd) (q0 : Nat) (d : List Int) (hd : Block8 d)
    (h : (∀ v ∈ d, v < 127) ∨ (∀ v ∈ d, v = 127)) : deringing w R q0 d = some d := by
  unfold deringing
  rw [if_pos]
  rcases h with h | h
  · left
    unfold maxCount
    rw [List.countP_eq_zero]
    intro a ha
    have := h a ha
    rw [decide_eq_true_eq]; unfold maxSample; omega
  · right
    unfold maxCount
    rw [← hd.1, List.countP_eq_length]
    intro a ha
    have := h a ha
    simp [maxSample, this]

/-! ### Examples -/

/-- A block with a black left half and a white right half. -/
def exEdge : List Int := (List.range 64).map (fun i => if i % 8 < 3 then -128 else if i % 8 = 3 then 60 else 127)

example : Block8 exEdge := by
  refine ⟨by decide, by decide⟩

/-- Real overshoot happens: the white samples are raised to 158. -/
example : (deringing 32767 (fun _ x => x) 16 exEdge).map (fun d => (d.take 8, d.sum, exEdge.sum)) =
    some ([-128, -128, -128, 60, 158, 158, 158, 158], 2464, 1472) := by decide +kernel

/-- A nearly white block: there is little room, the samples are raised by 2 only. -/
example : (deringing 32767 (fun _ x => x) 16 (0 :: List.replicate 63 127)).map (fun d => (d.take 4, d.sum)) =
    some ([0, 129, 129, 129], 8127) := by decide +kernel

/-! ### 12-bit samples

The 12-bit build compiles the same routine with `CENTERJSAMPLE` (128) instead of `_CENTERJSAMPLE` (2048), and
jinit_forward_dct (jcdctmgr.c:1745-1749) installs it whatever the precision. -/

/-- A 12-bit block with 63 white samples (2047 after the level shift) and a mid-grey one. -/
def exWhite12 : List Int := 126 :: List.replicate 63 2047

/-- **C51, counterexample at 12 bits**: the white samples become -1792 (256 of 4095, nearly black) before the DCT. -/
theorem C51_bug_12bit : deringing 2147483647 (fun _ x => x) 16 exWhite12 = some (126 :: List.replicate 63 (-1792)) := by
  decide +kernel

end Verif.Fdct
