import Verif.Fdct.Dering
import Verif.Huff.ScanLemmas
import Mathlib.Tactic.Linarith
import Mathlib.Tactic.Ring
import Mathlib.Tactic.NormNum
import Mathlib.Tactic.Positivity
/-
Lemmas for C51: the float evaluation of the curve, the two loops.
-/
namespace Verif.Fdct

open Verif.Huff (natOrder natOrder_inj natOrder_lt natOrder_surj)

/-! ### Rounding -/

theorem Rnd.Ok.le {R : Rnd} (h : R.Ok) (n : Nat) {x B : ℚ} (hB : 1 ≤ B) (hx : |x| ≤ B) :
    |R n x - x| ≤ B / 2 ^ 23 := by
  have := h n x
  have h2 : (1 : ℚ) / 2 ^ 149 ≤ B / 2 ^ 24 := by
    have : (1 : ℚ) / 2 ^ 149 ≤ 1 / 2 ^ 24 := by norm_num
    have : (1 : ℚ) / 2 ^ 24 ≤ B / 2 ^ 24 := div_le_div_of_nonneg_right hB (by positivity)
    linarith
  have h3 : |x| / 2 ^ 24 ≤ B / 2 ^ 24 := div_le_div_of_nonneg_right hx (by positivity)
  have : B / 2 ^ 24 + B / 2 ^ 24 = B / 2 ^ 23 := by ring
  linarith

/-- The same as two inequalities. -/
theorem Rnd.Ok.two {R : Rnd} (h : R.Ok) (n : Nat) (B : ℚ) {x : ℚ} (hB : 1 ≤ B) (h1 : -B ≤ x) (h2 : x ≤ B) :
    x - B / 2 ^ 23 ≤ R n x ∧ R n x ≤ x + B / 2 ^ 23 := by
  have := h.le n hB (abs_le.2 ⟨h1, h2⟩)
  rw [abs_le] at this
  constructor <;> linarith [this.1, this.2]

theorem mul_bounds {a b A L U : ℚ} (ha : 0 ≤ a) (hA : a ≤ A) (hL : 0 ≤ L) (hU : 0 ≤ U) (h1 : -L ≤ b) (h2 : b ≤ U) :
    -(A * L) ≤ a * b ∧ a * b ≤ A * U := by
  constructor
  · nlinarith [mul_le_mul_of_nonneg_right hA hL, mul_le_mul_of_nonneg_left h1 ha]
  · nlinarith [mul_le_mul_of_nonneg_right hA hU, mul_le_mul_of_nonneg_left h2 ha]

/-- The four basis functions as the float code computes them. -/
theorem basis_bounds {R : Rnd} (h : R.Ok) {p : ℚ} (hp : 0 ≤ p) (hp' : p ≤ 1) :
    let t2 := R 1 (p * p)
    let t3 := R 2 (t2 * p)
    let f1 := R 6 (R 5 (R 3 (2 * t3) - R 4 (3 * t2)) + 1)
    let f2 := R 9 (R 7 (-2 * t3) + R 8 (3 * t2))
    let f3 := R 12 (R 11 (t3 - R 10 (2 * t2)) + p)
    let f4 := R 13 (t3 - t2)
    (1 - 1 / 100000 ≤ f1 + f2 ∧ f1 + f2 ≤ 1 + 1 / 100000) ∧ (-8 ≤ f1 ∧ f1 ≤ 8) ∧ (-8 ≤ f2 ∧ f2 ≤ 8) ∧
    (-(1 / 200000) ≤ f3 ∧ f3 ≤ 1 + 1 / 1000) ∧ (-(1 / 200000) ≤ -f4 ∧ -f4 ≤ 1 + 1 / 1000) := by
  dsimp only
  have hp2 : 0 ≤ p * p := mul_nonneg hp hp
  have hp2' : p * p ≤ p := by nlinarith
  have hp3 : 0 ≤ p * p * p := mul_nonneg hp2 hp
  have hp3' : p * p * p ≤ p * p := by nlinarith
  -- p(1-p)^2 ≥ 0
  have hc : 0 ≤ p * p * p - 2 * (p * p) + p := by nlinarith [mul_nonneg hp (sq_nonneg (1 - p))]
  have e1 := h.two 1 1 (x := p * p) (by norm_num) (by linarith) (by linarith)
  generalize R 1 (p * p) = t2 at *
  have ht2p : p * p * p - 1 / 2 ^ 23 ≤ t2 * p ∧ t2 * p ≤ p * p * p + 1 / 2 ^ 23 := by
    constructor <;> nlinarith [e1.1, e1.2]
  norm_num at e1 ht2p
  have e2 := h.two 2 2 (x := t2 * p) (by norm_num) (by linarith) (by linarith)
  generalize R 2 (t2 * p) = t3 at *
  generalize t2 * p = t2p at *
  generalize p * p * p = p3 at *
  generalize p * p = p2 at *
  norm_num at e2
  have e3 := h.two 3 4 (x := 2 * t3) (by norm_num) (by linarith) (by linarith)
  generalize R 3 (2 * t3) = a3 at *
  norm_num at e3
  have e4 := h.two 4 4 (x := 3 * t2) (by norm_num) (by linarith) (by linarith)
  generalize R 4 (3 * t2) = a4 at *
  norm_num at e4
  have e5 := h.two 5 8 (x := a3 - a4) (by norm_num) (by linarith) (by linarith)
  generalize R 5 (a3 - a4) = a5 at *
  norm_num at e5
  have e6 := h.two 6 8 (x := a5 + 1) (by norm_num) (by linarith) (by linarith)
  generalize R 6 (a5 + 1) = f1 at *
  norm_num at e6
  have e7 := h.two 7 4 (x := -2 * t3) (by norm_num) (by linarith) (by linarith)
  generalize R 7 (-2 * t3) = a7 at *
  norm_num at e7
  have e8 := h.two 8 4 (x := 3 * t2) (by norm_num) (by linarith) (by linarith)
  generalize R 8 (3 * t2) = a8 at *
  norm_num at e8
  have e9 := h.two 9 8 (x := a7 + a8) (by norm_num) (by linarith) (by linarith)
  generalize R 9 (a7 + a8) = f2 at *
  norm_num at e9
  have e10 := h.two 10 4 (x := 2 * t2) (by norm_num) (by linarith) (by linarith)
  generalize R 10 (2 * t2) = a10 at *
  norm_num at e10
  have e11 := h.two 11 4 (x := t3 - a10) (by norm_num) (by linarith) (by linarith)
  generalize R 11 (t3 - a10) = a11 at *
  norm_num at e11
  have e12 := h.two 12 4 (x := a11 + p) (by norm_num) (by linarith) (by linarith)
  generalize R 12 (a11 + p) = f3 at *
  norm_num at e12
  have e13 := h.two 13 4 (x := t3 - t2) (by norm_num) (by linarith) (by linarith)
  generalize R 13 (t3 - t2) = f4 at *
  norm_num at e13
  clear h
  refine ⟨⟨?_, ?_⟩, ⟨?_, ?_⟩, ⟨?_, ?_⟩, ⟨?_, ?_⟩, ⟨?_, ?_⟩⟩ <;> linarith

/-- A slope term: integer tangent converted to float, times a basis function. -/
theorem slope_bounds {R : Rnd} (h : R.Ok) (i j : Nat) {A f : ℚ} (hA0 : 0 ≤ A) (hA1 : A ≤ 16065)
    (hf : -(1 / 200000) ≤ f ∧ f ≤ 1 + 1 / 1000) :
    -(1 / 8) ≤ R j (R i A * f) ∧ R j (R i A * f) ≤ 16100 := by
  obtain ⟨hf1, hf2⟩ := hf
  have e1 := h.two i 16384 (x := A) (by norm_num) (by linarith) (by linarith)
  generalize R i A = B at *
  norm_num at e1
  have m1 := mul_bounds (a := A) (b := f) (A := 16065) (L := 1 / 200000) (U := 1 + 1 / 1000) hA0 hA1 (by norm_num)
    (by norm_num) (by linarith) (by linarith)
  norm_num at m1
  have m2 : -(1 / 250) ≤ (B - A) * f ∧ (B - A) * f ≤ 1 / 250 := by
    have : |(B - A) * f| ≤ 1 / 512 * (1 + 1 / 1000) := by
      rw [abs_mul]
      exact mul_le_mul (abs_le.2 ⟨by linarith, by linarith⟩) (abs_le.2 ⟨by linarith, by linarith⟩) (abs_nonneg _)
        (by norm_num)
    rw [abs_le] at this
    norm_num at this
    constructor <;> linarith [this.1, this.2]
  have e : B * f = A * f + (B - A) * f := by ring
  have e2 := h.two j 16384 (x := B * f) (by norm_num) (by linarith) (by linarith)
  norm_num at e2
  constructor <;> linarith

theorem Rnd.Ok.neg {R : Rnd} (h : R.Ok) (i : Nat) : Rnd.Ok (fun n x => if n = i then -R n (-x) else R n x) := by
  intro n x
  dsimp only
  split
  · have := h n (-x)
    rw [abs_neg] at this
    rw [show -R n (-x) - x = -(R n (-x) - -x) by ring, abs_neg]
    exact this
  · exact h n x

/-- With a position in [0,1] and slopes up to 255 the float evaluation stays in a range in which it can be converted, and
rounded up it is at least the maximum sample. -/
theorem catmull_bounds {R : Rnd} (h : R.Ok) {fs ls : Int} {len : Nat} {p : ℚ} (hf : 0 ≤ fs) (hf' : fs ≤ 255)
    (hl : 0 ≤ ls) (hl' : ls ≤ 255) (hn : len ≤ 63) (hp : 0 ≤ p) (hp' : p ≤ 1) :
    126 < catmullRom R (maxSample - fs) maxSample maxSample (maxSample - ls) p len ∧
    catmullRom R (maxSample - fs) maxSample maxSample (maxSample - ls) p len ≤ 32767 := by
  unfold catmullRom maxSample
  dsimp only
  -- the tangents
  have ht1 : (((127 - (127 - fs)) * (len : Int) : Int) : ℚ) = (fs : ℚ) * len := by push_cast; ring
  have ht2 : (((127 - ls - 127) * (len : Int) : Int) : ℚ) = -((ls : ℚ) * len) := by push_cast; ring
  rw [ht1, ht2]
  have hlen : (0 : ℚ) ≤ len := Nat.cast_nonneg _
  have hlen' : (len : ℚ) ≤ 63 := by exact_mod_cast hn
  have hf0 : (0 : ℚ) ≤ fs := by exact_mod_cast hf
  have hf1 : (fs : ℚ) ≤ 255 := by exact_mod_cast hf'
  have hl0 : (0 : ℚ) ≤ ls := by exact_mod_cast hl
  have hl1 : (ls : ℚ) ≤ 255 := by exact_mod_cast hl'
  have hA0 : 0 ≤ (fs : ℚ) * len := mul_nonneg hf0 hlen
  have hA1 : (fs : ℚ) * len ≤ 16065 := by nlinarith
  have hB0 : 0 ≤ (ls : ℚ) * len := mul_nonneg hl0 hlen
  have hB1 : (ls : ℚ) * len ≤ 16065 := by nlinarith
  generalize (fs : ℚ) * len = A at *
  generalize (ls : ℚ) * len = B at *
  have hb := basis_bounds h hp hp'
  dsimp only at hb
  generalize R 6 _ = f1 at *
  generalize R 9 _ = f2 at *
  generalize R 12 _ = f3 at *
  generalize R 13 _ = f4 at *
  obtain ⟨b12, b1, b2, b3, b4⟩ := hb
  have s3 := slope_bounds h 21 15 hA0 hA1 b3
  have s4 := slope_bounds (h.neg 22) 22 17 hB0 hB1 b4
  rw [if_pos rfl, if_neg (by decide), show -R 22 (-B) * -f4 = R 22 (-B) * f4 by ring] at s4
  generalize R 15 _ = a15 at *
  generalize R 17 _ = a17 at *
  have e14 := h.two 14 2048 (x := ((127 : Int) : ℚ) * f1) (by norm_num) (by push_cast; linarith [b1.1])
    (by push_cast; linarith [b1.2])
  generalize R 14 _ = a14 at *
  have e16 := h.two 16 2048 (x := ((127 : Int) : ℚ) * f2) (by norm_num) (by push_cast; linarith [b2.1])
    (by push_cast; linarith [b2.2])
  generalize R 16 _ = a16 at *
  push_cast at e14 e16
  norm_num at e14 e16
  have e18 := h.two 18 32768 (x := a14 + a15) (by norm_num) (by linarith) (by linarith)
  generalize R 18 _ = a18 at *
  norm_num at e18
  have e19 := h.two 19 32768 (x := a18 + a16) (by norm_num) (by linarith) (by linarith)
  generalize R 19 _ = a19 at *
  norm_num at e19
  have e20 := h.two 20 65536 (x := a19 + a17) (by norm_num) (by linarith) (by linarith)
  generalize R 20 _ = a20 at *
  norm_num at e20
  constructor <;> linarith

/-! ### The loops -/

/-- The sample at zigzag position `k`. -/
def zz (d : List Int) (k : Nat) : Int := d.getD (natOrder.getD k 0) 0

theorem nat_get {i : Nat} (h : i < 64) : natOrder[i]? = some (natOrder.getD i 0) := by
  have hl : natOrder.length = 80 := by decide
  rw [List.getD_eq_getElem?_getD, List.getElem?_eq_getElem (by omega)]
  rfl

theorem at_eq {d : List Int} (hd : d.length = 64) {i : Nat} (h : i < 64) : at? d i = some (zz d i) := by
  unfold at? zz
  rw [nat_get h]
  have := natOrder_lt i h
  generalize natOrder.getD i 0 = k at *
  simp only [Option.bind_eq_bind, Option.bind_some]
  rw [List.getD_eq_getElem?_getD, List.getElem?_eq_getElem (by omega)]
  rfl

theorem zz_set_eq {d : List Int} (hd : d.length = 64) {i : Nat} (h : i < 64) (v : Int) :
    zz (d.set (natOrder.getD i 0) v) i = v := by
  unfold zz
  have := natOrder_lt i h
  rw [List.getD_eq_getElem?_getD, List.getElem?_set_self (by omega)]
  rfl

theorem zz_set_ne {d : List Int} {i k : Nat} (h : i < 64) (hk : k < 64) (hne : k ≠ i) (v : Int) :
    zz (d.set (natOrder.getD i 0) v) k = zz d k := by
  unfold zz
  rw [List.getD_eq_getElem?_getD, List.getElem?_set_ne, ← List.getD_eq_getElem?_getD]
  intro he
  exact hne (natOrder_inj hk h he.symm)

theorem runEnd_ok {d : List Int} (hd : d.length = 64) : ∀ (fuel n : Nat), n < 64 → 64 - n ≤ fuel →
    ∃ e, runEnd d fuel n = some e ∧ n < e ∧ e ≤ 64 ∧ (∀ k, n < k → k < e → maxSample ≤ zz d k) ∧
      (e < 64 → zz d e < maxSample) := by
  intro fuel
  induction fuel with
  | zero => intro n h1 h2; omega
  | succ fuel ih =>
    intro n h1 h2
    unfold runEnd
    by_cases hc : n + 1 < 64
    · rw [if_pos hc, at_eq hd hc]
      simp only [Option.bind_eq_bind, Option.bind_some]
      by_cases hv : maxSample ≤ zz d (n + 1)
      · rw [if_pos hv]
        obtain ⟨e, he, a, b, c, f⟩ := ih (n + 1) hc (by omega)
        refine ⟨e, he, by omega, b, ?_, f⟩
        intro k hk1 hk2
        by_cases hkn : k = n + 1
        · subst hkn; exact hv
        · exact c k (by omega) hk2
      · rw [if_neg hv]
        exact ⟨n + 1, rfl, by omega, by omega, by intro k _ _; omega, fun _ => by omega⟩
    · rw [if_neg hc]
      exact ⟨n + 1, rfl, by omega, by omega, by intro k _ _; omega, fun h => by omega⟩

/-- The accumulated float position stays close to j/(len+1). -/
def PosOk (len j : Nat) (pos : ℚ) : Prop := |pos - (j : ℚ) * (1 / ((len : ℚ) + 1))| ≤ (j : ℚ) / 2 ^ 21

theorem len_step {len : Nat} (hn : len ≤ 63) : (1 : ℚ) / 64 ≤ 1 / ((len : ℚ) + 1) ∧ 1 / ((len : ℚ) + 1) ≤ 1 ∧
    ((len : ℚ) + 1) * (1 / ((len : ℚ) + 1)) = 1 := by
  have h0 : (0 : ℚ) ≤ len := Nat.cast_nonneg _
  have h1 : (len : ℚ) ≤ 63 := by exact_mod_cast hn
  refine ⟨?_, ?_, ?_⟩
  · exact one_div_le_one_div_of_le (by linarith) (by linarith)
  · rw [div_le_one (by linarith)]; linarith
  · field_simp

theorem posOk_range {len j : Nat} {pos : ℚ} (hn : len ≤ 63) (hj : j ≤ len) (h : PosOk len j pos) :
    0 ≤ pos ∧ pos ≤ 1 := by
  unfold PosOk at h
  obtain ⟨a, b, c⟩ := len_step hn
  generalize 1 / ((len : ℚ) + 1) = s at *
  have h1 : (len : ℚ) ≤ 63 := by exact_mod_cast hn
  have h2 : (j : ℚ) ≤ len := by exact_mod_cast hj
  have h0 : (0 : ℚ) ≤ j := Nat.cast_nonneg _
  have h3 : (j : ℚ) * s ≤ len * s := mul_le_mul_of_nonneg_right h2 (by linarith)
  have h4 : (j : ℚ) * (1 / 64) ≤ j * s := mul_le_mul_of_nonneg_left a h0
  rw [abs_le] at h
  norm_num at *
  constructor <;> linarith

theorem posOk_step {R : Rnd} (h : R.Ok) {len : Nat} (hn : len ≤ 63) : PosOk len 1 (R 30 (1 / ((len : ℚ) + 1))) := by
  obtain ⟨a, b, c⟩ := len_step hn
  unfold PosOk
  generalize 1 / ((len : ℚ) + 1) = s at *
  have := h.two 30 1 (x := s) (by norm_num) (by linarith) (by linarith)
  norm_num at *
  rw [abs_le]
  constructor <;> linarith

theorem posOk_succ {R : Rnd} (h : R.Ok) {len j : Nat} {pos : ℚ} (hn : len ≤ 63) (hj : j ≤ len) (hp : PosOk len j pos) :
    PosOk len (j + 1) (R 0 (pos + R 30 (1 / ((len : ℚ) + 1)))) := by
  obtain ⟨p0, p1⟩ := posOk_range hn hj hp
  obtain ⟨a, b, c⟩ := len_step hn
  unfold PosOk at *
  generalize 1 / ((len : ℚ) + 1) = s at *
  have e1 := h.two 30 1 (x := s) (by norm_num) (by linarith) (by linarith)
  generalize R 30 s = st at *
  norm_num at e1
  have e2 := h.two 0 3 (x := pos + st) (by norm_num) (by linarith) (by linarith)
  generalize R 0 (pos + st) = p' at *
  rw [abs_le] at *
  push_cast
  have e3 : ((j : ℚ) + 1) * s = j * s + s := by ring
  rw [e3]
  generalize (j : ℚ) * s = js at *
  norm_num at *
  constructor <;> linarith

theorem fill_ok {w : Int} (hw : 32767 ≤ w) {R : Rnd} (h : R.Ok) {mo fs ls : Int} {len : Nat} (hm : 127 ≤ mo) (hf : 0 ≤ fs) (hf' : fs ≤ 255)
    (hl : 0 ≤ ls) (hl' : ls ≤ 255) (hn : len ≤ 63) :
    ∀ (c i j : Nat) (pos : ℚ) (d : List Int), d.length = 64 → i + c ≤ 64 → j + c = len + 1 → PosOk len j pos →
      ∃ d', fill w R mo fs ls len (R 30 (1 / ((len : ℚ) + 1))) c i pos d = some d' ∧ d'.length = 64 ∧
        ∀ k, k < 64 → if i ≤ k ∧ k < i + c then maxSample ≤ zz d' k ∧ zz d' k ≤ mo else zz d' k = zz d k := by
  intro c
  induction c with
  | zero =>
    intro i j pos d hd _ _ _
    exact ⟨d, rfl, hd, fun k hk => by rw [if_neg (by omega)]⟩
  | succ c ih =>
    intro i j pos d hd hi hj hp
    unfold fill
    obtain ⟨p0, p1⟩ := posOk_range hn (by omega) hp
    obtain ⟨c1, c2⟩ := catmull_bounds h hf hf' hl hl' hn p0 p1
    have hlo : 127 ≤ ⌈catmullRom R (maxSample - fs) maxSample maxSample (maxSample - ls) pos len⌉ := by
      have : (126 : Int) < ⌈catmullRom R (maxSample - fs) maxSample maxSample (maxSample - ls) pos len⌉ :=
        Int.lt_ceil.2 (by exact_mod_cast c1)
      omega
    have hhi : ⌈catmullRom R (maxSample - fs) maxSample maxSample (maxSample - ls) pos len⌉ ≤ 32767 :=
      Int.ceil_le.2 (by exact_mod_cast c2)
    dsimp only
    generalize ⌈catmullRom R (maxSample - fs) maxSample maxSample (maxSample - ls) pos len⌉ = tmp at *
    rw [if_neg (by omega), nat_get (by omega : i < 64)]
    have hlt := natOrder_lt i (by omega)
    simp only [Option.bind_eq_bind, Option.bind_some, pure]
    rw [if_pos (by omega)]
    obtain ⟨d', e1, e2, e3⟩ := ih (i + 1) (j + 1) (R 0 (pos + R 30 (1 / ((len : ℚ) + 1)))) (d.set (natOrder.getD i 0) (min tmp mo))
      (by simp [hd]) (by omega) (by omega) (posOk_succ h hn (by omega) hp)
    refine ⟨d', e1, e2, ?_⟩
    intro k hk
    have := e3 k hk
    by_cases hki : k = i
    · subst hki
      rw [if_neg (by omega), zz_set_eq hd (by omega)] at this
      rw [if_pos (by omega), this]
      unfold maxSample
      omega
    · rw [zz_set_ne (by omega) hk hki] at this
      by_cases hin : i + 1 ≤ k ∧ k < i + 1 + c
      · rw [if_pos hin] at this
        rw [if_pos (by omega)]
        exact this
      · rw [if_neg hin] at this
        rw [if_neg (by omega)]
        exact this

/-- What the loop keeps: the samples before `n` are final, those from `n` on are untouched. -/
structure Inv (mo : Int) (d0 d : List Int) (n : Nat) : Prop where
  len : d.length = 64
  low : ∀ k, k < 64 → zz d0 k < maxSample → zz d k = zz d0 k
  high : ∀ k, k < 64 → k < n → maxSample ≤ zz d0 k → maxSample ≤ zz d k ∧ zz d k ≤ mo
  rest : ∀ k, k < 64 → n ≤ k → zz d k = zz d0 k
  prev : 0 < n → n ≤ 64 → zz d0 (n - 1) < maxSample

theorem turn_ok {w : Int} (hw : 32767 ≤ w) {R : Rnd} (h : R.Ok) {mo : Int} (hm : 127 ≤ mo) {d0 d : List Int} {n : Nat} (hn : n < 64)
    (hlo : ∀ k, k < 64 → -128 ≤ zz d0 k) (hex : ∃ k, k < 64 ∧ zz d0 k < maxSample) (hi : Inv mo d0 d n) :
    ∃ d' n', turn w R mo d n = some (d', n') ∧ n < n' ∧ Inv mo d0 d' n' := by
  have hd := hi.len
  have hlo' : ∀ k, k < 64 → -128 ≤ zz d k := by
    intro k hk
    by_cases hc : zz d0 k < maxSample
    · rw [hi.low k hk hc]; exact hlo k hk
    · by_cases hkn : k < n
      · have := (hi.high k hk hkn (by omega)).1
        unfold maxSample at this; omega
      · rw [hi.rest k hk (by omega)]; exact hlo k hk
  unfold turn
  rw [at_eq hd hn]
  simp only [Option.bind_eq_bind, Option.bind_some]
  by_cases hv : zz d n < maxSample
  · rw [if_pos hv]
    refine ⟨d, n + 1, rfl, by omega, hd, hi.low, ?_, fun k hk hkn => hi.rest k hk (by omega), ?_⟩
    · intro k hk hkn hc
      by_cases hke : k = n
      · subst hke; rw [hi.rest k hk (by omega)] at hv; omega
      · exact hi.high k hk (by omega) hc
    · intro _ _
      rw [hi.rest n hn (by omega)] at hv
      simpa using hv
  · rw [if_neg hv]
    obtain ⟨e, he, e1, e2, e3, e4⟩ := runEnd_ok hd 64 n hn (by omega)
    rw [he]
    simp only [Option.bind_some]
    have hrun : ∀ k, n ≤ k → k < e → maxSample ≤ zz d k := by
      intro k h1 h2
      by_cases hk : k = n
      · subst hk; omega
      · exact e3 k (by omega) h2
    -- not the whole block
    have hnot : ¬ (n = 0 ∧ e = 64) := by
      rintro ⟨rfl, rfl⟩
      obtain ⟨k, hk, hkl⟩ := hex
      have := hrun k (by omega) hk
      rw [hi.low k hk hkl] at this
      omega
    have hlen : e - n ≤ 63 := by omega
    rw [at_eq hd (by split <;> omega : (if 1 ≤ n then n - 1 else 0) < 64),
      at_eq hd (by split <;> omega : (if 2 ≤ n then n - 2 else 0) < 64),
      at_eq hd (by split <;> omega : (if e < 63 then e else 63) < 64),
      at_eq hd (by split <;> omega : (if e < 62 then e + 1 else 63) < 64)]
    simp only [Option.bind_some]
    have b1 := hlo' (if 1 ≤ n then n - 1 else 0) (by split <;> omega)
    have b2 := hlo' (if 2 ≤ n then n - 2 else 0) (by split <;> omega)
    have b3 := hlo' (if e < 63 then e else 63) (by split <;> omega)
    have b4 := hlo' (if e < 62 then e + 1 else 63) (by split <;> omega)
    have hf1 : 0 < n → zz d (if 1 ≤ n then n - 1 else 0) < maxSample := by
      intro h0
      rw [if_pos (by omega), hi.low (n - 1) (by omega) (hi.prev h0 (by omega))]
      exact hi.prev h0 (by omega)
    have hl1 : e < 64 → zz d (if e < 63 then e else 63) < maxSample := by
      intro h0
      have : (if e < 63 then e else 63) = e := by split <;> omega
      rw [this]; exact e4 h0
    generalize zz d (if 1 ≤ n then n - 1 else 0) = f1 at *
    generalize zz d (if 2 ≤ n then n - 2 else 0) = f2 at *
    generalize zz d (if e < 63 then e else 63) = l1 at *
    generalize zz d (if e < 62 then e + 1 else 63) = l2 at *
    have hF : 0 < n → 0 ≤ max (f1 - f2) (maxSample - f1) ∧ max (f1 - f2) (maxSample - f1) ≤ 255 := by
      intro h0; have := hf1 h0; unfold maxSample at *; omega
    have hL : e < 64 → 0 ≤ max (l1 - l2) (maxSample - l1) ∧ max (l1 - l2) (maxSample - l1) ≤ 255 := by
      intro h0; have := hl1 h0; unfold maxSample at *; omega
    generalize max (f1 - f2) (maxSample - f1) = F at *
    generalize max (l1 - l2) (maxSample - l1) = L at *
    have hfs : 0 ≤ (if n = 0 then L else F) ∧ (if n = 0 then L else F) ≤ 255 := by
      split
      · exact hL (by omega)
      · exact hF (by omega)
    have hls : 0 ≤ (if e = 64 then (if n = 0 then L else F) else L) ∧
        (if e = 64 then (if n = 0 then L else F) else L) ≤ 255 := by
      by_cases hc : e = 64
      · rw [if_pos hc]; exact hfs
      · rw [if_neg hc]; exact hL (by omega)
    obtain ⟨d', g1, g2, g3⟩ := fill_ok hw h hm hfs.1 hfs.2 hls.1 hls.2 hlen (e - n) n 1 (R 30 (1 / (((e - n : Nat) : ℚ) + 1))) d hd
      (by omega) (by omega) (posOk_step h hlen)
    rw [g1]
    simp only [Option.bind_some]
    refine ⟨d', e + 1, rfl, by omega, g2, ?_, ?_, ?_, ?_⟩
    · intro k hk hc
      have := g3 k hk
      by_cases hin : n ≤ k ∧ k < n + (e - n)
      · exfalso
        have h5 := hrun k (by omega) (by omega)
        rw [hi.low k hk hc] at h5
        omega
      · rw [if_neg hin] at this
        rw [this, hi.low k hk hc]
    · intro k hk hke hc
      have := g3 k hk
      by_cases hin : n ≤ k ∧ k < n + (e - n)
      · rw [if_pos hin] at this; exact this
      · rw [if_neg hin] at this
        rw [this]
        by_cases hkn : k < n
        · exact hi.high k hk hkn hc
        · exfalso
          have hk' : k = e := by omega
          subst hk'
          have := e4 hk
          rw [hi.rest k hk (by omega)] at this
          omega
    · intro k hk hke
      have := g3 k hk
      rw [if_neg (by omega)] at this
      rw [this, hi.rest k hk (by omega)]
    · intro _ h64
      have := e4 (by omega)
      rw [hi.rest e (by omega) (by omega)] at this
      simpa using this

theorem turns_ok {w : Int} (hw : 32767 ≤ w) {R : Rnd} (h : R.Ok) {mo : Int} (hm : 127 ≤ mo) {d0 : List Int}
    (hlo : ∀ k, k < 64 → -128 ≤ zz d0 k) (hex : ∃ k, k < 64 ∧ zz d0 k < maxSample) :
    ∀ (fuel n : Nat) (d : List Int), n < 64 → 64 - n ≤ fuel → Inv mo d0 d n →
      ∃ d' n', turns w R mo fuel d n = some d' ∧ 64 ≤ n' ∧ Inv mo d0 d' n' := by
  intro fuel
  induction fuel with
  | zero => intro n d h1 h2; omega
  | succ fuel ih =>
    intro n d h1 h2 hi
    obtain ⟨d', n', e1, e2, e3⟩ := turn_ok hw h hm h1 hlo hex hi
    unfold turns
    rw [e1]
    simp only [Option.bind_eq_bind, Option.bind_some]
    by_cases hc : n' < 64
    · rw [if_pos hc]; exact ih n' d' hc (by omega) e3
    · rw [if_neg hc]; exact ⟨d', n', rfl, by omega, e3⟩

end Verif.Fdct
