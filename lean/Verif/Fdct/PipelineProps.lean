import Verif.Fdct.Pipeline
/-
C52 (range of the quantized coefficients) and C53 (compress and decompress one block).
-/
namespace Verif.Fdct

open Verif.Idct (A tb A_tb idct_A Build bits8 absSum block deq C47_idct_accuracy sample sample_plain)
open Verif.Quant (quantize1 computeReciprocal roundDiv reciprocal_quantization_exact)
open scoped BigOperators
open Real

/-! ### Size of the exact coefficients -/

theorem A_col_sum (u : Fin 8) : ∑ k : Fin 8, A k u = if u = 0 then 8 else 0 := by
  have h := A_orth' u 0
  have h0 : ∀ k : Fin 8, A k 0 = 1 := fun k => by simp [A]
  simpa only [h0, mul_one] using h

/-- Adding a constant to the samples changes only the DC coefficient. -/
theorem fdct_shift (s : Fin 8 → Fin 8 → ℝ) (c : ℝ) (v u : Fin 8) :
    fdct s v u = fdct (fun y x => s y x - c) v u + if v = 0 ∧ u = 0 then 8 * c else 0 := by
  have h : ∑ y : Fin 8, ∑ x : Fin 8, A y v * A x u * c = (if v = 0 ∧ u = 0 then 64 * c else 0) := by
    have e : ∀ y : Fin 8, ∑ x : Fin 8, A y v * A x u * c = A y v * ((if u = 0 then 8 else 0) * c) := by
      intro y
      rw [← A_col_sum u, Finset.sum_mul, Finset.mul_sum]
      exact Finset.sum_congr rfl (fun x _ => by ring)
    rw [Finset.sum_congr rfl (fun y _ => e y), ← Finset.sum_mul, A_col_sum v]
    by_cases hv : v = 0 <;> by_cases hu : u = 0 <;> simp [hv, hu]
    ring
  rw [fdct_A, fdct_A]
  have e2 : ∑ y : Fin 8, ∑ x : Fin 8, A y v * A x u * s y x =
      ∑ y : Fin 8, ∑ x : Fin 8, A y v * A x u * (s y x - c) + ∑ y : Fin 8, ∑ x : Fin 8, A y v * A x u * c := by
    rw [← Finset.sum_add_distrib]
    refine Finset.sum_congr rfl (fun y _ => ?_)
    rw [← Finset.sum_add_distrib]
    exact Finset.sum_congr rfl (fun x _ => by ring)
  rw [e2, h]
  split
  · ring
  · ring

/-- Any two coefficients together carry at most the energy of the block. -/
theorem fdct_two (s : Fin 8 → Fin 8 → ℝ) {B : ℝ} (h : ∀ y x, |s y x| ≤ B) (p p' : Fin 8 × Fin 8) (hp : p ≠ p') :
    fdct s p.1 p.2 ^ 2 + fdct s p'.1 p'.2 ^ 2 ≤ 64 * B ^ 2 := by
  have h1 : ∑ i ∈ ({p, p'} : Finset (Fin 8 × Fin 8)), fdct s i.1 i.2 ^ 2 ≤ ∑ i : Fin 8 × Fin 8, fdct s i.1 i.2 ^ 2 :=
    Finset.sum_le_sum_of_subset_of_nonneg (Finset.subset_univ _) (fun _ _ _ => sq_nonneg _)
  rw [Finset.sum_pair hp, Fintype.sum_prod_type, fdct_sq] at h1
  refine h1.trans ?_
  calc ∑ y : Fin 8, ∑ x : Fin 8, s y x ^ 2 ≤ ∑ y : Fin 8, ∑ x : Fin 8, B ^ 2 := by
        refine Finset.sum_le_sum (fun y _ => Finset.sum_le_sum (fun x _ => ?_))
        rw [← sq_abs]
        exact pow_le_pow_left₀ (abs_nonneg _) (h y x) 2
    _ = 64 * B ^ 2 := sum64 _ _ (fun _ _ => rfl)

theorem fdct_one (s : Fin 8 → Fin 8 → ℝ) {B : ℝ} (hB : 0 ≤ B) (h : ∀ y x, |s y x| ≤ B) (v u : Fin 8) :
    |fdct s v u| ≤ 8 * B := by
  obtain ⟨p', hp⟩ : ∃ p' : Fin 8 × Fin 8, (v, u) ≠ p' := by
    by_cases hv : v = 0
    · exact ⟨(1, 0), by rw [hv]; simp⟩
    · exact ⟨(0, 0), fun e => hv (congrArg Prod.fst e)⟩
  have h2 := fdct_two s h (v, u) p' hp
  have h3 := sq_nonneg (fdct s p'.1 p'.2)
  simp only at h2
  refine Verif.Idct.ge_of_sq' (by positivity) ?_
  rw [sq_abs]
  nlinarith

/-- For samples from -128 to 127+t: AC coefficients at most 1020+4t in size, DC from -1024 to 1016+8t; two AC coefficients cannot
both be over 1023 when t is at most 31. -/
theorem fdct_size {s : Fin 8 → Fin 8 → ℝ} {t : ℝ} (ht : 0 ≤ t) (h : ∀ y x, -128 ≤ s y x ∧ s y x ≤ 127 + t) :
    (∀ v u : Fin 8, ¬(v = 0 ∧ u = 0) → |fdct s v u| ≤ 1020 + 4 * t) ∧
    (-1024 ≤ fdct s 0 0 ∧ fdct s 0 0 ≤ 1016 + 8 * t) ∧
    (t ≤ 31 → ∀ p p' : Fin 8 × Fin 8, p ≠ p' → p ≠ (0, 0) → p' ≠ (0, 0) → 1023 ≤ |fdct s p.1 p.2| →
      |fdct s p'.1 p'.2| < 1023) := by
  set c : ℝ := (t - 1) / 2 with hc
  have hB : ∀ y x, |s y x - c| ≤ 127.5 + t / 2 := by
    intro y x
    have := h y x
    rw [abs_le]
    norm_num
    constructor <;> linarith [this.1, this.2]
  have hB0 : (0 : ℝ) ≤ 127.5 + t / 2 := by norm_num; linarith
  refine ⟨fun v u hvu => ?_, ?_, ?_⟩
  · rw [fdct_shift s c v u, if_neg hvu, add_zero]
    refine (fdct_one _ hB0 hB v u).trans ?_
    norm_num; linarith
  · have h1 := fdct_shift s c 0 0
    rw [if_pos ⟨rfl, rfl⟩] at h1
    have h2 := abs_le.1 (fdct_one _ hB0 hB 0 0)
    norm_num at h2
    constructor <;> linarith [h2.1, h2.2]
  · intro ht' p p' hpp hp hp' hbig
    by_contra hcon
    push Not at hcon
    have h1 := fdct_shift s c p.1 p.2
    rw [if_neg (fun e => hp (Prod.ext e.1 e.2)), add_zero] at h1
    have h2 := fdct_shift s c p'.1 p'.2
    rw [if_neg (fun e => hp' (Prod.ext e.1 e.2)), add_zero] at h2
    have h3 := fdct_two _ hB p p' hpp
    rw [← h1, ← h2] at h3
    have a1 : (1023 : ℝ) ^ 2 ≤ fdct s p.1 p.2 ^ 2 := by
      rw [← sq_abs (fdct s p.1 p.2)]; exact pow_le_pow_left₀ (by norm_num) hbig 2
    have a2 : (1023 : ℝ) ^ 2 ≤ fdct s p'.1 p'.2 ^ 2 := by
      rw [← sq_abs (fdct s p'.1 p'.2)]; exact pow_le_pow_left₀ (by norm_num) hcon 2
    have a3 : (127.5 + t / 2) ^ 2 ≤ (143 : ℝ) ^ 2 := pow_le_pow_left₀ hB0 (by norm_num; linarith) 2
    norm_num at a1 a2 a3 h3
    linarith

/-! ### The compressor's coefficients -/

/-- The block's samples as real numbers. -/
noncomputable def blk (d : List Int) (y x : Fin 8) : ℝ := ((d.getD (8 * y.val + x.val) 0 : Int) : ℝ)

theorem idx64 {i : Nat} (hi : i < 64) : ∃ v u : Fin 8, i = 8 * v.val + u.val :=
  ⟨⟨i / 8, by omega⟩, ⟨i % 8, by omega⟩, by simp only; omega⟩

/-- DCT and quantization of a block of level-shifted samples. -/
theorem coefs_near {q : List Nat} (hq : QTable q) {d : List Int} (hd : d.length = 64) (hx : ∀ v ∈ d, -128 ≤ v ∧ v ≤ 158) :
    ∃ w c, fdctIslow types8 d = some w ∧
      c = (List.range 64).map (fun i => quantize1 16 (computeReciprocal 16 (q.getD i 0 * 8 % 65536)) (w.getD i 0)) ∧
      c.length = 64 ∧ ∀ v u : Fin 8,
        |((c.getD (8 * v.val + u.val) 0 : Int) : ℝ) * (q.getD (8 * v.val + u.val) 0 : ℝ) - fdct (blk d) v u| ≤
          (q.getD (8 * v.val + u.val) 0 : ℝ) / 2 + 0.35 ∧
        |((c.getD (8 * v.val + u.val) 0 : Int) : ℝ) * (q.getD (8 * v.val + u.val) 0 : ℝ)| ≤ 2 * (|fdct (blk d) v u| + 0.35) := by
  obtain ⟨w, hw, hl, hn⟩ := C52_fdct8 d hd hx
  refine ⟨w, _, hw, rfl, by simp, fun v u => ?_⟩
  have hb : ∀ y x, |blk d y x| ≤ 158 := by
    intro y x
    have := hx (d.getD (8 * y.val + x.val) 0) (by
      rw [List.getD_eq_getElem?_getD, List.getElem?_eq_getElem (by omega)]; simp)
    unfold blk
    rw [abs_le]
    have a : (-128 : ℝ) ≤ ((d.getD (8 * y.val + x.val) 0 : Int) : ℝ) := by exact_mod_cast this.1
    have b : ((d.getD (8 * y.val + x.val) 0 : Int) : ℝ) ≤ 158 := by exact_mod_cast this.2
    constructor <;> linarith
  have hF := abs_le.1 (fdct_one (blk d) (by norm_num) hb v u)
  have hnn := hn v u
  change |_ - fdct (blk d) v u| ≤ _ at hnn
  have hi : 8 * v.val + u.val < 64 := by omega
  generalize 8 * v.val + u.val = i at *
  obtain ⟨q1, q2⟩ := hq i hi
  have ec : ((List.range 64).map (fun i => quantize1 16 (computeReciprocal 16 (q.getD i 0 * 8 % 65536)) (w.getD i 0))).getD i 0 =
      roundDiv (w.getD i 0) (q.getD i 0 * 8) := by
    rw [List.getD_eq_getElem?_getD, List.getElem?_eq_getElem (by simpa using hi)]
    simp only [Option.getD_some, List.getElem_map, List.getElem_range]
    rw [Nat.mod_eq_of_lt (by omega)]
    refine reciprocal_quantization_exact 16 (le_refl _) _ (by omega) (by omega) _ ?_
    have hwb : (w.getD i 0).natAbs ≤ 12000 := by
      generalize w.getD i 0 = w0 at *
      rw [abs_le] at hnn
      norm_num at hnn hF
      have a : ((w0 : Int) : ℝ) ≤ ((12000 : Int) : ℝ) := by push_cast; linarith [hnn.2, hF.2]
      have b : ((-12000 : Int) : ℝ) ≤ ((w0 : Int) : ℝ) := by push_cast; linarith [hnn.1, hF.1]
      have a' : w0 ≤ 12000 := by exact_mod_cast a
      have b' : -12000 ≤ w0 := by exact_mod_cast b
      omega
    show _ ≤ 65536
    omega
  rw [ec]
  have r1 := roundDiv_near (w.getD i 0) (q.getD i 0 * 8) (by omega)
  have r2 := roundDiv_twice (w.getD i 0) (q.getD i 0 * 8) (by omega)
  generalize roundDiv (w.getD i 0) (q.getD i 0 * 8) = c at *
  generalize w.getD i 0 = w0 at *
  generalize q.getD i 0 = q0 at *
  generalize fdct (blk d) v u = F at *
  push_cast at r1 r2
  have e1 : (c : ℝ) * ((q0 : ℝ) * 8) = 8 * ((c : ℝ) * q0) := by ring
  rw [e1] at r1 r2
  generalize (c : ℝ) * q0 = z at *
  have hw2 : |(w0 : ℝ)| ≤ 8 * (|F| + 0.35) := by
    have : (w0 : ℝ) = 8 * ((w0 : ℝ) / 8 - F) + 8 * F := by ring
    rw [this]
    refine (abs_add_le _ _).trans ?_
    rw [abs_mul, abs_mul, abs_of_pos (show (0 : ℝ) < 8 by norm_num)]
    linarith
  constructor
  · rw [abs_le] at *
    constructor <;> linarith [r1.1, r1.2, hnn.1, hnn.2]
  · rw [abs_mul, abs_of_pos (show (0 : ℝ) < 8 by norm_num)] at r2
    linarith

theorem clampCoef_spec (c : Int) : -1023 ≤ clampCoef c ∧ clampCoef c ≤ 1023 ∧ (-1023 ≤ c → c ≤ 1023 → clampCoef c = c) ∧
    (1023 < c → clampCoef c = 1023) ∧ (c < -1023 → clampCoef c = -1023) ∧ |clampCoef c| ≤ |c| := by
  unfold clampCoef
  refine ⟨?_, ?_, ?_, ?_, ?_, ?_⟩
  · dsimp only; split <;> split <;> omega
  · dsimp only; split <;> split <;> omega
  · dsimp only; split <;> split <;> omega
  · dsimp only; split <;> split <;> omega
  · dsimp only; split <;> split <;> omega
  · rw [abs_le]
    have := abs_le.1 (le_refl |c|)
    dsimp only; split <;> split <;> omega

/-- The block handed to the DCT. -/
theorem pre_spec {der : Option Rnd} (hR : ∀ R, der = some R → R.Ok) (q : List Nat) {s : List Nat} (hs : Samples8 s) :
    ∃ (d : List Int) (t : Nat), (match der with
        | none => some (convsamp s)
        | some R => deringing 32767 R (q.getD 0 0) (convsamp s)) = some d ∧ d.length = 64 ∧
      (∀ v ∈ d, -128 ≤ v ∧ v ≤ 127 + (t : Int)) ∧ t ≤ 31 ∧ (der = none → t = 0) ∧ t ≤ 2 * q.getD 0 0 ∧
      (∀ k, k < 64 → shown (d.getD k 0) = (s.getD k 0 : Int)) ∧ d.sum ≤ 127 * 64 := by
  have hB : Block8 (convsamp s) := by
    refine ⟨by unfold convsamp; rw [List.length_map]; exact hs.1, fun v hv => ?_⟩
    unfold convsamp at hv
    rw [List.mem_map] at hv
    obtain ⟨a, ha, rfl⟩ := hv
    have := hs.2 a ha
    omega
  have hg : ∀ k, k < 64 → (convsamp s).getD k 0 = (s.getD k 0 : Int) - 128 ∧ s.getD k 0 ≤ 255 := by
    intro k hk
    have hk' : k < s.length := by rw [hs.1]; exact hk
    unfold convsamp
    refine ⟨?_, ?_⟩
    · rw [List.getD_eq_getElem?_getD, List.getD_eq_getElem?_getD, List.getElem?_map, List.getElem?_eq_getElem hk']
      rfl
    · rw [List.getD_eq_getElem?_getD, List.getElem?_eq_getElem hk']
      exact hs.2 _ (by simp)
  cases der with
  | none =>
    refine ⟨convsamp s, 0, rfl, hB.1, fun v hv => ?_, by omega, fun _ => rfl, by omega, fun k hk => ?_, ?_⟩
    · have := hB.2 v hv; omega
    · obtain ⟨a, b⟩ := hg k hk
      unfold shown
      omega
    · have hsum := sum_le_const (convsamp s) (fun v hv => (hB.2 v hv).2)
      rw [hB.1] at hsum
      push_cast at hsum
      exact hsum
  | some R =>
    obtain ⟨d', h1, h2, h3, h4, _, hsum⟩ := C51_deringing (w := 32767) (le_refl _) (hR R rfl) (q.getD 0 0) _ hB
    refine ⟨d', min 31 (2 * q.getD 0 0), h1, h2, fun v hv => ?_, by omega, fun h => by simp at h, by omega, fun k hk => ?_, hsum⟩
    · obtain ⟨k, hk, rfl⟩ := List.mem_iff_getElem.1 hv
      have e : d'[k] = d'.getD k 0 := by rw [List.getD_eq_getElem?_getD, List.getElem?_eq_getElem hk]; rfl
      rw [e]
      have hk2 : k < 64 := by omega
      obtain ⟨a, b⟩ := hg k hk2
      have c3 := h3 k hk2
      have c4 := h4 k hk2
      by_cases hc : (convsamp s).getD k 0 < 127
      · have := c3 hc; omega
      · have := c4 (by omega); omega
    · obtain ⟨a, b⟩ := hg k hk
      have c3 := h3 k hk
      have c4 := h4 k hk
      unfold shown
      by_cases hc : (convsamp s).getD k 0 < 127
      · have := c3 hc; omega
      · have := c4 (by omega); omega

/-- What is lost when the clamp of jcdctmgr.c:755-767 can bite: only after deringing, and only where a quantizer is 1. -/
noncomputable def slack (der : Option Rnd) (q : List Nat) : ℝ :=
  open Classical in if der.isSome ∧ ∃ i, i < 64 ∧ q.getD i 0 = 1 then (min 31 (2 * q.getD 0 0) : Nat) else 0

theorem blk_range {d : List Int} {t : Nat} (hl : d.length = 64) (h : ∀ v ∈ d, -128 ≤ v ∧ v ≤ 127 + (t : Int)) (y x : Fin 8) :
    -128 ≤ blk d y x ∧ blk d y x ≤ 127 + (t : ℝ) := by
  have := h (d.getD (8 * y.val + x.val) 0) (by
      rw [List.getD_eq_getElem?_getD, List.getElem?_eq_getElem (by omega)]; simp)
  unfold blk
  constructor
  · exact_mod_cast this.1
  · exact_mod_cast this.2

/-- Size of a coefficient from its distance to the exact one. -/
theorem coef_size {c : Int} {q : Nat} (hq : 1 ≤ q) {F : ℝ} (h : |(c : ℝ) * q - F| ≤ (q : ℝ) / 2 + 0.35) {m : Nat}
    (hm : 1 ≤ m) : (F ≤ (m : ℝ) → c ≤ m) ∧ (-(m : ℝ) ≤ F → -(m : Int) ≤ c) := by
  rw [abs_le] at h
  norm_num at h
  have hq' : (1 : ℝ) ≤ q := by exact_mod_cast hq
  have hm' : (1 : ℝ) ≤ m := by exact_mod_cast hm
  constructor
  · intro hF
    by_contra hc
    have : (m : ℝ) + 1 ≤ c := by exact_mod_cast (show (m : Int) + 1 ≤ c by omega)
    nlinarith [h.2, mul_le_mul_of_nonneg_right this (by linarith : (0 : ℝ) ≤ q)]
  · intro hF
    by_contra hc
    have : (c : ℝ) ≤ -(m : ℝ) - 1 := by exact_mod_cast (show c ≤ -(m : Int) - 1 by omega)
    nlinarith [h.1, mul_le_mul_of_nonneg_right this (by linarith : (0 : ℝ) ≤ q)]

/-- **C52 (coefficient range).**  For every block of 8-bit samples and every table with quantizers up to 8191, with or without
deringing: the compressor's arithmetic does not overflow and yields coefficients that the entropy coder accepts: AC within 10
bits, DC within -1024..1023 (so every DC difference within 11 bits). -/
theorem C52_coef_range (der : Option Rnd) (hR : ∀ R, der = some R → R.Ok) (q : List Nat) (hq : QTable q) (s : List Nat)
    (hs : Samples8 s) :
    ∃ c, forwardDct der q s = some c ∧ c.length = 64 ∧ -1024 ≤ c.getD 0 0 ∧ c.getD 0 0 ≤ 1023 ∧
      ∀ i, 0 < i → i < 64 → -1023 ≤ c.getD i 0 ∧ c.getD i 0 ≤ 1023 := by
  obtain ⟨d, t, h1, h2, h3, h4, h5, _, _, _⟩ := pre_spec hR q hs
  obtain ⟨w, c, w1, w2, w3, w4⟩ := coefs_near hq h2 (fun v hv => by have := h3 v hv; omega)
  unfold forwardDct
  cases der with
  | some R =>
    refine ⟨c.map clampCoef, ?_, by rw [List.length_map, w3], ?_⟩
    · simp only at h1
      simp only [h1, Option.bind_eq_bind, Option.bind_some, w1, ← w2]
      rfl
    · have hg : ∀ i, i < 64 → -1023 ≤ (c.map clampCoef).getD i 0 ∧ (c.map clampCoef).getD i 0 ≤ 1023 := by
        intro i hi
        rw [List.getD_eq_getElem?_getD, List.getElem?_map, List.getElem?_eq_getElem (by omega)]
        exact ⟨(clampCoef_spec _).1, (clampCoef_spec _).2.1⟩
      have h0 := hg 0 (by omega)
      exact ⟨by omega, h0.2, fun i _ hi => hg i hi⟩
  | none =>
    refine ⟨c, ?_, w3, ?_⟩
    · simp only [Option.some.injEq] at h1
      subst h1
      simp only [Option.bind_eq_bind, Option.bind_some, w1, ← w2]
      rfl
    · have ht := h5 rfl
      subst ht
      obtain ⟨f1, ⟨f2, f3⟩, _⟩ := fdct_size (s := blk d) (t := 0) (le_refl _) (fun y x => by
        have := blk_range h2 h3 y x; push_cast at this; exact this)
      refine ⟨?_, ?_, fun i hi0 hi => ?_⟩
      · have := (coef_size (hq 0 (by omega)).1 (w4 0 0).1 (m := 1024) (by omega)).2 (by push_cast; linarith)
        exact_mod_cast this
      · have := (coef_size (hq 0 (by omega)).1 (w4 0 0).1 (m := 1023) (by omega)).1 (by push_cast; linarith)
        exact_mod_cast this
      · obtain ⟨v, u, rfl⟩ := idx64 hi
        have hvu : ¬(v = 0 ∧ u = 0) := by
          rintro ⟨rfl, rfl⟩
          simp at hi0
        have hF := abs_le.1 (f1 v u hvu)
        have hc := coef_size (hq _ hi).1 (w4 v u).1 (m := 1023) (by omega)
        exact ⟨by exact_mod_cast hc.2 (by push_cast; linarith [hF.1]), by exact_mod_cast hc.1 (by push_cast; linarith [hF.2])⟩

theorem A_prod_le (r v k u : Fin 8) : |basis r k v u| ≤ 1 / 4 := by
  have h : ∀ k j : Fin 8, |A k j| ≤ sqrt 2 := by
    intro k j
    unfold A
    split
    · rw [abs_one]; exact Real.one_le_sqrt.2 (by norm_num)
    · unfold Verif.Idct.X
      rw [abs_mul, abs_of_nonneg (Real.sqrt_nonneg _)]
      exact mul_le_of_le_one_right (Real.sqrt_nonneg _) (Real.abs_cos_le_one _)
  rw [basis_A, abs_div, abs_mul, abs_of_pos (show (0 : ℝ) < 8 by norm_num)]
  have h1 := h r v
  have h2 := h k u
  have h3 := Real.mul_self_sqrt (show (0 : ℝ) ≤ 2 by norm_num)
  have h4 := mul_le_mul h1 h2 (abs_nonneg _) (Real.sqrt_nonneg _)
  rw [h3] at h4
  linarith

theorem blk_sum {d : List Int} (hd : d.length = 64) : fdct (blk d) 0 0 = ((d.sum : Int) : ℝ) / 8 := by
  have h0 : ∀ k : Fin 8, A k 0 = 1 := fun k => by simp [A]
  have e : d.sum = ∑ i ∈ Finset.range 64, d.getD i 0 := by
    rw [← Fin.sum_univ_getElem d, Finset.sum_range, hd.symm]
    refine Finset.sum_congr rfl (fun i _ => ?_)
    rw [List.getD_eq_getElem?_getD, List.getElem?_eq_getElem i.isLt]; rfl
  have e2 : ((∑ i ∈ Finset.range 64, d.getD i 0 : Int) : ℝ) = ∑ y : Fin 8, ∑ x : Fin 8, blk d y x := by
    have e3 : ∑ i ∈ Finset.range 64, d.getD i 0 = ∑ y : Fin 8, ∑ x : Fin 8, d.getD (8 * y.val + x.val) 0 := by
      simp only [Fin.sum_univ_eight, Finset.sum_range_succ, Finset.range_zero, Finset.sum_empty]
      norm_num
      ring
    rw [e3]
    push_cast
    rfl
  rw [fdct_A, e, e2]
  simp only [h0]
  simp only [one_mul]
  ring

theorem absSum_real (c : List Int) (q : List Nat) (hq : q.length = 64) : (absSum c (qi q) : ℝ) = ∑ v : Fin 8, ∑ u : Fin 8,
    |((c.getD (8 * v.val + u.val) 0 : Int) : ℝ) * (q.getD (8 * v.val + u.val) 0 : ℝ)| := by
  unfold absSum deq
  push_cast
  refine Finset.sum_congr rfl (fun v _ => Finset.sum_congr rfl (fun u _ => ?_))
  rw [show (qi q).getD (8 * v.val + u.val) 0 = ((q.getD (8 * v.val + u.val) 0 : Nat) : Int) by
      unfold qi
      rw [List.getD_eq_getElem?_getD, List.getD_eq_getElem?_getD, List.getElem?_map, List.getElem?_eq_getElem (by omega)]
      rfl]
  push_cast
  rfl

/-- **C53.**  Compress a block of 8-bit samples and decompress it, both with the accurate integer DCT, with or without deringing: if
the worst-case bound is below 353 (so that the decoder's clamping cannot wrap around), each sample comes back within the bound:
half a quantization step per coefficient, weighted by the basis functions, plus a constant for the arithmetic. -/
theorem C53_block_roundtrip (der : Option Rnd) (hR : ∀ R, der = some R → R.Ok) (q : List Nat) (hq : QTable q)
    (hql : q.length = 64) (s : List Nat) (hs : Samples8 s) (hE : ∀ r k, errBound q r k + slack der q < 353) :
    ∃ c out, forwardDct der q s = some c ∧ Idct.idct bits8 8 c (qi q) = some out ∧ ∀ r k : Fin 8,
      |(((out.getD r.val []).getD k.val 0 : Nat) : ℝ) - ((s.getD (8 * r.val + k.val) 0 : Nat) : ℝ)| ≤
        errBound q r k + slack der q := by
  obtain ⟨d, t, h1, h2, h3, h4, h5, h6, h7, h8⟩ := pre_spec hR q hs
  obtain ⟨w, c, w1, w2, w3, w4⟩ := coefs_near hq h2 (fun v hv => by have := h3 v hv; omega)
  have ht31 : (t : ℝ) ≤ 31 := by exact_mod_cast h4
  obtain ⟨f1, ⟨f2, f3⟩, f4⟩ := fdct_size (s := blk d) (t := (t : ℝ)) (Nat.cast_nonneg _) (fun y x => blk_range h2 h3 y x)
  have hF : ∑ v : Fin 8, ∑ u : Fin 8, |fdct (blk d) v u| ≤ 64 * 158 := by
    refine fdct_abs_sum (blk d) (by norm_num) (fun y x => ?_)
    have := blk_range h2 h3 y x
    rw [abs_le]; constructor <;> linarith [this.1, this.2]
  have hS : ∀ c' : List Int, (∀ i, i < 64 → |c'.getD i 0| ≤ |c.getD i 0|) → (absSum c' (qi q) : ℝ) ≤ 20269 := by
    intro c' hc'
    rw [absSum_real c' q hql]
    calc _ ≤ ∑ v : Fin 8, ∑ u : Fin 8, 2 * (|fdct (blk d) v u| + 0.35) := by
          refine Finset.sum_le_sum (fun v _ => Finset.sum_le_sum (fun u _ => ?_))
          refine le_trans ?_ (w4 v u).2
          rw [abs_mul, abs_mul]
          refine mul_le_mul_of_nonneg_right ?_ (abs_nonneg _)
          exact_mod_cast hc' _ (by omega)
      _ = 2 * ∑ v : Fin 8, ∑ u : Fin 8, |fdct (blk d) v u| + 64 * 0.7 := by
          rw [← sum64 (fun _ _ => (0.7 : ℝ)) 0.7 (fun _ _ => rfl), Finset.mul_sum, ← Finset.sum_add_distrib]
          refine Finset.sum_congr rfl (fun v _ => ?_)
          rw [Finset.mul_sum, ← Finset.sum_add_distrib]
          refine Finset.sum_congr rfl (fun u _ => ?_)
          ring
      _ ≤ 20269 := by norm_num; linarith
  -- the last step, for any coefficient list
  have fin : ∀ (c' : List Int) (e : Fin 8 → Fin 8 → ℝ), (∀ i, i < 64 → |c'.getD i 0| ≤ |c.getD i 0|) →
      (∀ v u : Fin 8, |((c'.getD (8 * v.val + u.val) 0 : Int) : ℝ) * (q.getD (8 * v.val + u.val) 0 : ℝ) - fdct (blk d) v u| ≤ e v u) →
      (∀ r k, ∑ v : Fin 8, ∑ u : Fin 8, |basis r k v u| * e v u + 1.2 ≤ errBound q r k + slack der q) →
      ∃ out, Idct.idct bits8 8 c' (qi q) = some out ∧ ∀ r k : Fin 8,
        |(((out.getD r.val []).getD k.val 0 : Nat) : ℝ) - ((s.getD (8 * r.val + k.val) 0 : Nat) : ℝ)| ≤
          errBound q r k + slack der q := by
    intro c' e hc' he hsum
    obtain ⟨out, ho, hout⟩ := reconstruct he hql (hS c' hc') (by norm_num)
    refine ⟨out, ho, fun r k => ?_⟩
    obtain ⟨R, eR, hRk⟩ := hout r k
    rw [eR]
    have hle : |(R : ℝ) - ((d.getD (8 * r.val + k.val) 0 : Int) : ℝ)| ≤ errBound q r k + slack der q := by
      refine hRk.trans (le_trans ?_ (hsum r k))
      norm_num
    have hm := h3 (d.getD (8 * r.val + k.val) 0) (by
      rw [List.getD_eq_getElem?_getD, List.getElem?_eq_getElem (by omega)]; simp)
    have hcl := sample_close hle hm.1 (by omega) (hE r k)
    have hsh := h7 (8 * r.val + k.val) (by omega)
    unfold shown at hsh
    rw [hsh] at hcl
    rw [Int.cast_natCast] at hcl
    exact hcl
  cases der with
  | none =>
    refine ⟨c, ?_⟩
    obtain ⟨out, ho1, ho2⟩ := fin c (fun v u => (q.getD (8 * v.val + u.val) 0 : ℝ) / 2 + 0.35) (fun _ _ => le_refl _)
      (fun v u => (w4 v u).1) (fun r k => by unfold errBound slack; simp)
    refine ⟨out, ?_, ho1, ho2⟩
    unfold forwardDct
    simp only [Option.some.injEq] at h1
    subst h1
    simp only [Option.bind_eq_bind, Option.bind_some, w1, ← w2]
    rfl
  | some R =>
    refine ⟨c.map clampCoef, ?_⟩
    have hg : ∀ i, i < 64 → (c.map clampCoef).getD i 0 = clampCoef (c.getD i 0) := by
      intro i hi
      rw [List.getD_eq_getElem?_getD, List.getElem?_map, List.getD_eq_getElem?_getD, List.getElem?_eq_getElem (by omega)]
      rfl
    have hle : ∀ i, i < 64 → |(c.map clampCoef).getD i 0| ≤ |c.getD i 0| := by
      intro i hi
      rw [hg i hi]
      exact (clampCoef_spec _).2.2.2.2.2
    have key : ∃ out, Idct.idct bits8 8 (c.map clampCoef) (qi q) = some out ∧ ∀ r k : Fin 8,
        |(((out.getD r.val []).getD k.val 0 : Nat) : ℝ) - ((s.getD (8 * r.val + k.val) 0 : Nat) : ℝ)| ≤
          errBound q r k + slack (some R) q := by
      by_cases h1q : ∃ i, i < 64 ∧ q.getD i 0 = 1
      · set T : Nat := min 31 (2 * q.getD 0 0) with hT
        have hT2 : 2 ≤ T := by have := (hq 0 (by omega)).1; omega
        have htT : t ≤ T := by omega
        have hT2' : (2 : ℝ) ≤ T := by exact_mod_cast hT2
        have htT' : (t : ℝ) ≤ T := by exact_mod_cast htT
        have hsl : slack (some R) q = T := by
          unfold slack; rw [if_pos ⟨rfl, h1q⟩]
        -- the only AC coefficient that may be clamped
        obtain ⟨p, hp⟩ : ∃ p : Fin 8 × Fin 8, ∀ v u : Fin 8, ¬(v = 0 ∧ u = 0) → (v, u) ≠ p →
            |c.getD (8 * v.val + u.val) 0| ≤ 1023 := by
          by_cases hex : ∃ p : Fin 8 × Fin 8, p ≠ (0, 0) ∧ 1023 ≤ |fdct (blk d) p.1 p.2|
          · obtain ⟨p, hp0, hp1⟩ := hex
            refine ⟨p, fun v u hvu hne => ?_⟩
            have := abs_lt.1 (f4 ht31 p (v, u) (fun e => hne e.symm) hp0 (fun e => hvu ⟨congrArg Prod.fst e, congrArg Prod.snd e⟩) hp1)
            have hc := coef_size (hq (8 * v.val + u.val) (by omega)).1 (w4 v u).1 (m := 1023) (by omega)
            rw [abs_le]
            exact ⟨by exact_mod_cast hc.2 (by push_cast; linarith [this.1]),
              by exact_mod_cast hc.1 (by push_cast; linarith [this.2])⟩
          · push Not at hex
            refine ⟨(0, 0), fun v u hvu _ => ?_⟩
            have := abs_lt.1 (hex (v, u) (fun e => hvu ⟨congrArg Prod.fst e, congrArg Prod.snd e⟩))
            have hc := coef_size (hq (8 * v.val + u.val) (by omega)).1 (w4 v u).1 (m := 1023) (by omega)
            rw [abs_le]
            exact ⟨by exact_mod_cast hc.2 (by push_cast; linarith [this.1]),
              by exact_mod_cast hc.1 (by push_cast; linarith [this.2])⟩
        refine fin _ (fun v u => ((q.getD (8 * v.val + u.val) 0 : ℝ) / 2 + 0.35) +
          ((if (v, u) = (0, 0) then 1 else 0) + (if (v, u) = p then 4 * (T : ℝ) - 3 else 0))) hle (fun v u => ?_) (fun r k => ?_)
        · have hi : 8 * v.val + u.val < 64 := by omega
          rw [hg _ hi]
          have hw := (w4 v u).1
          have hq1 : (1 : ℝ) ≤ (q.getD (8 * v.val + u.val) 0 : ℝ) := by exact_mod_cast (hq _ hi).1
          have hn1 : (0 : ℝ) ≤ (if (v, u) = (0, 0) then 1 else 0) := by split <;> norm_num
          have hn2 : (0 : ℝ) ≤ (if (v, u) = p then 4 * (T : ℝ) - 3 else 0) := by split <;> linarith
          by_cases hcb : |c.getD (8 * v.val + u.val) 0| ≤ 1023
          · rw [abs_le] at hcb
            rw [(clampCoef_spec _).2.2.1 hcb.1 hcb.2]
            linarith
          · by_cases hvu : v = 0 ∧ u = 0
            · obtain ⟨rfl, rfl⟩ := hvu
              rw [if_pos rfl]
              generalize (if ((0 : Fin 8), (0 : Fin 8)) = p then 4 * (T : ℝ) - 3 else 0) = i2 at hn2 ⊢
              have hF0 : fdct (blk d) 0 0 ≤ 1016 := by
                rw [blk_sum h2]
                generalize d.sum = z at h8 ⊢
                have : (z : ℝ) ≤ ((127 * 64 : Int) : ℝ) := by exact_mod_cast h8
                push_cast at this
                linarith
              have hc1 := (coef_size (hq (8 * (0 : Fin 8).val + (0 : Fin 8).val) hi).1 hw (m := 1024) (by omega)).2 (by push_cast; linarith)
              have hc2 := (coef_size (hq (8 * (0 : Fin 8).val + (0 : Fin 8).val) hi).1 hw (m := 1023) (by omega)).1
                (by push_cast; linarith)
              generalize c.getD (8 * (0 : Fin 8).val + (0 : Fin 8).val) 0 = c0 at *
              generalize q.getD (8 * (0 : Fin 8).val + (0 : Fin 8).val) 0 = q0 at *
              have hc0 : c0 = -1024 := by rw [abs_le] at hcb; push_cast at hc1 hc2; omega
              subst hc0
              rw [(clampCoef_spec (-1024)).2.2.2.2.1 (by omega)]
              rw [abs_le] at hw ⊢
              push_cast at hw ⊢
              norm_num at hw ⊢
              have hq1' : (q0 : ℝ) = 1 := by
                have a : (q0 : ℝ) < 2 := by linarith [hw.1, hw.2]
                have a' : q0 < 2 := by exact_mod_cast a
                have b' : 1 ≤ q0 := by exact_mod_cast hq1
                have : q0 = 1 := by omega
                rw [this]; norm_num
              rw [hq1'] at hw ⊢
              constructor <;> linarith [hw.1, hw.2]
            · have hvp : (v, u) = p := by
                by_contra h
                exact hcb (hp v u hvu h)
              rw [if_pos hvp]
              generalize (if (v, u) = (0, 0) then (1 : ℝ) else 0) = i1 at hn1 ⊢
              have hFb := abs_le.1 (f1 v u hvu)
              generalize c.getD (8 * v.val + u.val) 0 = c0 at *
              generalize q.getD (8 * v.val + u.val) 0 = q0 at *
              generalize fdct (blk d) v u = F at *
              rw [abs_le] at hw ⊢
              norm_num at hw ⊢
              by_cases hc1 : 1023 < c0
              · rw [(clampCoef_spec c0).2.2.2.1 hc1]
                have hc1' : (1024 : ℝ) ≤ c0 := by exact_mod_cast hc1
                have hm := mul_le_mul_of_nonneg_right hc1' (by linarith : (0 : ℝ) ≤ q0)
                have hq2 : (q0 : ℝ) < 2 := by
                  by_contra h; push Not at h; nlinarith [hw.2]
                have hq3 : (q0 : ℝ) = 1 := by
                  have : q0 < 2 := by exact_mod_cast hq2
                  have h1' : 1 ≤ q0 := by exact_mod_cast hq1
                  have : q0 = 1 := by omega
                  rw [this]; norm_num
                rw [hq3] at hw hm ⊢
                push_cast
                constructor <;> linarith [hw.1, hw.2, hFb.1, hFb.2]
              · have hc2 : c0 < -1023 := by
                  by_contra h
                  exact hcb (abs_le.2 ⟨by omega, by omega⟩)
                rw [(clampCoef_spec c0).2.2.2.2.1 hc2]
                have hc1' : (c0 : ℝ) ≤ -1024 := by exact_mod_cast (show c0 ≤ -1024 by omega)
                have hm := mul_le_mul_of_nonneg_right hc1' (by linarith : (0 : ℝ) ≤ q0)
                have hq2 : (q0 : ℝ) < 2 := by
                  by_contra h; push Not at h; nlinarith [hw.1]
                have hq3 : (q0 : ℝ) = 1 := by
                  have : q0 < 2 := by exact_mod_cast hq2
                  have h1' : 1 ≤ q0 := by exact_mod_cast hq1
                  have : q0 = 1 := by omega
                  rw [this]; norm_num
                rw [hq3] at hw hm ⊢
                push_cast
                constructor <;> linarith [hw.1, hw.2, hFb.1, hFb.2]
        · rw [hsl]
          have hx : ∀ (p : Fin 8 × Fin 8) (a : ℝ), 0 ≤ a → ∑ v : Fin 8, ∑ u : Fin 8, |basis r k v u| * (if (v, u) = p then a else 0) ≤ a / 4 := by
            intro p a ha
            have e : ∑ v : Fin 8, ∑ u : Fin 8, |basis r k v u| * (if (v, u) = p then a else 0) =
                ∑ i : Fin 8 × Fin 8, |basis r k i.1 i.2| * (if i = p then a else 0) := by
              rw [Fintype.sum_prod_type]
            rw [e, Finset.sum_eq_single p (by intro i _ hi; rw [if_neg hi, mul_zero]) (by simp), if_pos rfl]
            have := mul_le_mul_of_nonneg_right (A_prod_le r p.1 k p.2) ha
            linarith
          have e1 : ∑ v : Fin 8, ∑ u : Fin 8, |basis r k v u| * (((q.getD (8 * v.val + u.val) 0 : ℝ) / 2 + 0.35) +
              ((if (v, u) = (0, 0) then 1 else 0) + (if (v, u) = p then 4 * (T : ℝ) - 3 else 0))) =
              ∑ v : Fin 8, ∑ u : Fin 8, |basis r k v u| * ((q.getD (8 * v.val + u.val) 0 : ℝ) / 2 + 0.35) +
              (∑ v : Fin 8, ∑ u : Fin 8, |basis r k v u| * (if (v, u) = (0, 0) then 1 else 0) +
              ∑ v : Fin 8, ∑ u : Fin 8, |basis r k v u| * (if (v, u) = p then 4 * (T : ℝ) - 3 else 0)) := by
            rw [← Finset.sum_add_distrib, ← Finset.sum_add_distrib]
            refine Finset.sum_congr rfl (fun v _ => ?_)
            rw [← Finset.sum_add_distrib, ← Finset.sum_add_distrib]
            refine Finset.sum_congr rfl (fun u _ => ?_)
            ring
          rw [e1]
          unfold errBound
          have a1 := hx (0, 0) 1 (by norm_num)
          have a2 := hx p (4 * (T : ℝ) - 3) (by linarith)
          linarith
      · refine fin _ (fun v u => (q.getD (8 * v.val + u.val) 0 : ℝ) / 2 + 0.35) hle (fun v u => ?_)
          (fun r k => by unfold errBound slack; rw [if_neg (fun h => h1q h.2), add_zero])
        have hi : 8 * v.val + u.val < 64 := by omega
        rw [hg _ hi]
        have hq2 : 2 ≤ q.getD (8 * v.val + u.val) 0 := by
          have a := (hq _ hi).1
          have b : q.getD (8 * v.val + u.val) 0 ≠ 1 := fun h => h1q ⟨_, hi, h⟩
          omega
        have hw := (w4 v u).1
        have hFb : |fdct (blk d) v u| ≤ 1264 := by
          refine (fdct_one (blk d) (B := 158) (by norm_num) (fun y x => ?_) v u).trans (by norm_num)
          have := blk_range h2 h3 y x
          rw [abs_le]; constructor <;> linarith [this.1, this.2]
        have hcb : -1023 ≤ c.getD (8 * v.val + u.val) 0 ∧ c.getD (8 * v.val + u.val) 0 ≤ 1023 := by
          have hq2' : (2 : ℝ) ≤ (q.getD (8 * v.val + u.val) 0 : ℝ) := by exact_mod_cast hq2
          generalize c.getD (8 * v.val + u.val) 0 = c0 at *
          generalize q.getD (8 * v.val + u.val) 0 = q0 at *
          generalize fdct (blk d) v u = F at *
          rw [abs_le] at hw hFb
          norm_num at hw
          constructor
          · by_contra hcon
            have : (c0 : ℝ) ≤ -1024 := by exact_mod_cast (show c0 ≤ -1024 by omega)
            nlinarith [hw.1, hFb.1, mul_le_mul_of_nonneg_right this (by linarith : (0 : ℝ) ≤ q0)]
          · by_contra hcon
            have : (1024 : ℝ) ≤ c0 := by exact_mod_cast (show 1024 ≤ c0 by omega)
            nlinarith [hw.2, hFb.2, mul_le_mul_of_nonneg_right this (by linarith : (0 : ℝ) ≤ q0)]
        rw [(clampCoef_spec _).2.2.1 hcb.1 hcb.2]
        exact hw
    obtain ⟨out, ho1, ho2⟩ := key
    refine ⟨out, ?_, ho1, ho2⟩
    unfold forwardDct
    simp only at h1
    simp only [h1, Option.bind_eq_bind, Option.bind_some, w1, ← w2]
    rfl

/-! ### Closed forms -/

/-- The absolute values of the basis functions at a pixel sum up to at most 8. -/
theorem basis_l1 (r k : Fin 8) : ∑ v : Fin 8, ∑ u : Fin 8, |basis r k v u| ≤ 8 := by
  have h : ∀ k : Fin 8, ∑ u : Fin 8, |A k u| ≤ 8 := by
    intro k
    have h1 := sq_sum_le_card_mul_sum_sq (s := (Finset.univ : Finset (Fin 8))) (f := fun u => |A k u|)
    have h2 : ∑ u : Fin 8, |A k u| ^ 2 = 8 := by
      have := A_orth k k
      rw [if_pos rfl] at this
      rw [← this]
      exact Finset.sum_congr rfl (fun u _ => by rw [sq_abs, sq])
    rw [h2] at h1
    refine (le_abs_self _).trans (Verif.Idct.ge_of_sq' (by norm_num) ?_)
    rw [sq_abs]
    simp at h1
    linarith
  have e : ∑ v : Fin 8, ∑ u : Fin 8, |basis r k v u| = (∑ v : Fin 8, |A r v|) * (∑ u : Fin 8, |A k u|) / 8 := by
    rw [Finset.sum_mul_sum, Finset.sum_div]
    refine Finset.sum_congr rfl (fun v _ => ?_)
    rw [Finset.sum_div]
    refine Finset.sum_congr rfl (fun u _ => ?_)
    rw [basis_A, abs_div, abs_mul, abs_of_pos (show (0 : ℝ) < 8 by norm_num)]
  rw [e]
  have a := h r
  have b := h k
  have c : 0 ≤ ∑ u : Fin 8, |A k u| := Finset.sum_nonneg (fun _ _ => abs_nonneg _)
  have := mul_le_mul a b c (by norm_num)
  linarith

theorem errBound_le {q : List Nat} {Q : Nat} (h : ∀ i, i < 64 → q.getD i 0 ≤ Q) (r k : Fin 8) : errBound q r k ≤ 4 * Q + 4 := by
  unfold errBound
  have h1 : ∑ v : Fin 8, ∑ u : Fin 8, |basis r k v u| * ((q.getD (8 * v.val + u.val) 0 : ℝ) / 2 + 0.35) ≤
      (∑ v : Fin 8, ∑ u : Fin 8, |basis r k v u|) * ((Q : ℝ) / 2 + 0.35) := by
    rw [Finset.sum_mul]
    refine Finset.sum_le_sum (fun v _ => ?_)
    rw [Finset.sum_mul]
    refine Finset.sum_le_sum (fun u _ => ?_)
    refine mul_le_mul_of_nonneg_left ?_ (abs_nonneg _)
    have : (q.getD (8 * v.val + u.val) 0 : ℝ) ≤ Q := by exact_mod_cast h _ (by omega)
    linarith
  have h2 := mul_le_mul_of_nonneg_right (basis_l1 r k) (show (0 : ℝ) ≤ (Q : ℝ) / 2 + 0.35 by positivity)
  norm_num at *
  linarith

theorem slack_le (der : Option Rnd) (q : List Nat) : slack der q ≤ 31 ∧ slack der q ≤ 2 * (q.getD 0 0 : ℝ) := by
  unfold slack
  split
  · constructor
    · exact_mod_cast Nat.min_le_left _ _
    · exact_mod_cast Nat.min_le_right _ _
  · exact ⟨by norm_num, by positivity⟩

/-- **C53, largest quantizer Q.**  If no quantizer exceeds Q ≤ 79, every sample comes back within 4Q + 4 (one quantizer is 1 and
deringing is on: within 4Q + 35). -/
theorem C53_max_quantizer (der : Option Rnd) (hR : ∀ R, der = some R → R.Ok) (q : List Nat) (hq : QTable q) (hql : q.length = 64)
    (Q : Nat) (hQ : ∀ i, i < 64 → q.getD i 0 ≤ Q) (hQ79 : Q ≤ 79) (s : List Nat) (hs : Samples8 s) :
    ∃ c out, forwardDct der q s = some c ∧ Idct.idct bits8 8 c (qi q) = some out ∧ ∀ r k : Fin 8,
      |(((out.getD r.val []).getD k.val 0 : Nat) : ℝ) - ((s.getD (8 * r.val + k.val) 0 : Nat) : ℝ)| ≤
        4 * Q + 4 + slack der q := by
  have hQ' : (Q : ℝ) ≤ 79 := by exact_mod_cast hQ79
  have hsl := (slack_le der q).1
  obtain ⟨c, out, h1, h2, h3⟩ := C53_block_roundtrip der hR q hq hql s hs (fun r k => by
    have := errBound_le hQ r k
    linarith)
  exact ⟨c, out, h1, h2, fun r k => (h3 r k).trans (by have := errBound_le hQ r k; linarith)⟩

/-- **C53, quality 100** (every quantizer 1): each sample comes back within 8, with deringing within 10. -/
theorem C53_quality100 (der : Option Rnd) (hR : ∀ R, der = some R → R.Ok) (s : List Nat) (hs : Samples8 s) :
    ∃ c out, forwardDct der (List.replicate 64 1) s = some c ∧ Idct.idct bits8 8 c (qi (List.replicate 64 1)) = some out ∧
      ∀ r k : Fin 8, |(((out.getD r.val []).getD k.val 0 : Nat) : Int) - (s.getD (8 * r.val + k.val) 0 : Nat)| ≤
        if der.isSome then 10 else 8 := by
  have hg : ∀ i, i < 64 → (List.replicate 64 1).getD i 0 = 1 := by decide
  obtain ⟨c, out, h1, h2, h3⟩ := C53_max_quantizer der hR (List.replicate 64 1) (fun i hi => by rw [hg i hi]; omega) (by simp) 1
    (fun i hi => by rw [hg i hi]) (by omega) s hs
  refine ⟨c, out, h1, h2, fun r k => ?_⟩
  have h := h3 r k
  have hsl : slack der (List.replicate 64 1) ≤ if der.isSome then 2 else 0 := by
    cases der with
    | none => unfold slack; simp
    | some R =>
      have := (slack_le (some R) (List.replicate 64 1)).2
      rw [hg 0 (by omega)] at this
      simpa using this
  have hz : (((|(((out.getD r.val []).getD k.val 0 : Nat) : Int) - (s.getD (8 * r.val + k.val) 0 : Nat)| : Int)) : ℝ) ≤
      (((if der.isSome then 10 else 8) : Int) : ℝ) := by
    generalize (out.getD r.val []).getD k.val 0 = a at *
    generalize s.getD (8 * r.val + k.val) 0 = b at *
    rw [Int.cast_abs, Int.cast_sub, Int.cast_natCast, Int.cast_natCast]
    refine h.trans ?_
    cases der with
    | none => simp at *; linarith
    | some R => simp at *; linarith
  exact_mod_cast hz

/-! ### Concrete cases -/

/-- A block with a white corner on a ramp. -/
def exSamples : List Nat := (List.range 64).map (fun i => if i < 20 then 255 else 3 * i)

/-- IEEE single precision. -/
def exRnd : Rnd := fun _ => float32

/-- The hypotheses of C53 hold for the example block and a flat table of 16 with deringing in IEEE single precision. -/
example : Samples8 exSamples ∧ QTable (List.replicate 64 16) ∧ (List.replicate 64 16).length = 64 ∧
    (∀ R, some exRnd = some R → R.Ok) ∧
    (∀ r k, errBound (List.replicate 64 16) r k + slack (some exRnd) (List.replicate 64 16) < 353) := by
  have hg : ∀ i, i < 64 → (List.replicate 64 16).getD i 0 = 16 := by decide
  refine ⟨⟨by decide, by decide⟩, fun i hi => by rw [hg i hi]; omega, by decide, fun R h => ?_, fun r k => ?_⟩
  · simp only [Option.some.injEq] at h; subst h; exact float32_ok
  · have a := errBound_le (q := List.replicate 64 16) (Q := 16) (fun i hi => by rw [hg i hi]) r k
    have b := (slack_le (some exRnd) (List.replicate 64 16)).1
    generalize List.replicate 64 16 = l at *
    push_cast at a
    linarith

/-- The example block, compressed and decompressed (first four coefficients, rows 2 and 3 before and after). -/
example : (do
    let c ← forwardDct none (List.replicate 64 16) exSamples
    let out ← Idct.idct bits8 8 c (qi (List.replicate 64 16))
    some (c.take 4, (out.drop 2).take 2, (exSamples.drop 16).take 16)) =
    some ([19, 3, 0, -2], [[255, 255, 255, 255, 63, 63, 68, 66], [64, 74, 72, 81, 81, 90, 88, 98]],
      [255, 255, 255, 255, 60, 63, 66, 69, 72, 75, 78, 81, 84, 87, 90, 93]) := by
  decide +kernel

/-! ### Beyond the bound

With coarse tables the decoder's range-limit table (jdmaster.c:387-399 and 414-, indexed modulo 1024) can wrap even on the output of this
compressor: jpeg_set_quality(1) makes every quantizer 255. -/

/-- A block whose sample in row 1, column 1 is white. -/
def exWrap : List Nat := [
  187, 74, 168, 129, 229, 169, 62, 253,
  81, 255, 117, 34, 244, 102, 0, 30,
  139, 52, 239, 58, 161, 192, 148, 175,
  190, 94, 95, 178, 170, 125, 19, 202,
  130, 255, 95, 82, 193, 42, 0, 37,
  124, 42, 218, 50, 88, 130, 161, 73,
  151, 117, 73, 178, 54, 111, 38, 94,
  145, 149, 132, 88, 113, 42, 71, 37]

/-- **C53, counterexample for coarse tables**: the white sample decodes to black. -/
theorem C53_bug_wrap : ∃ c out, forwardDct none (List.replicate 64 255) exWrap = some c ∧
    Idct.idct bits8 8 c (qi (List.replicate 64 255)) = some out ∧ Samples8 exWrap ∧ exWrap.getD 9 0 = 255 ∧
    (out.getD 1 []).getD 1 0 = 0 := by
  refine ⟨((forwardDct none (List.replicate 64 255) exWrap).getD []),
    ((Idct.idct bits8 8 ((forwardDct none (List.replicate 64 255) exWrap).getD []) (qi (List.replicate 64 255))).getD []),
    by decide +kernel, by decide +kernel, ⟨by decide +kernel, by decide +kernel⟩, by decide +kernel, by decide +kernel⟩

end Verif.Fdct
