/-
Huffman's procedure (OptForest.lean) minimizes the weighted length among all length assignments that satisfy
the Kraft inequality.
-/
import Verif.Huff.OptForest
import Mathlib.Tactic.Ring
import Mathlib.Tactic.Linarith

namespace Verif.Huff.Opt

theorem exists_max (L : Nat → Nat) : ∀ (R : List Nat), R ≠ [] → ∃ m ∈ R, ∀ x ∈ R, L x ≤ L m := by
  intro R
  induction R with
  | nil => intro h; exact absurd rfl h
  | cons y R ih =>
    intro _
    by_cases hR : R = []
    · subst hR; exact ⟨y, by simp, by simp⟩
    · obtain ⟨m, hm, hmax⟩ := ih hR
      by_cases h : L m ≤ L y
      · refine ⟨y, by simp, ?_⟩
        intro x hx
        rcases List.mem_cons.1 hx with rfl | hx
        · exact Nat.le_refl _
        · have := hmax x hx; omega
      · refine ⟨m, by simp [hm], ?_⟩
        intro x hx
        rcases List.mem_cons.1 hx with rfl | hx
        · omega
        · exact hmax x hx

theorem sum_two {R : List Nat} {x y : Nat} (hx : x ∈ R) (hy : y ∈ R) (hne : x ≠ y) (g : Nat → Nat) :
    (R.map g).sum = g x + g y + (((R.erase x).erase y).map g).sum := by
  have hy' : y ∈ R.erase x := (List.mem_erase_of_ne (Ne.symm hne)).2 hy
  rw [sum_erase hx, sum_erase hy']
  omega

/-- Exchange the values at x and y. -/
def swp (L : Nat → Nat) (x y : Nat) : Nat → Nat := fun z => if z = x then L y else if z = y then L x else L z

theorem swp_left (L : Nat → Nat) (x y : Nat) : swp L x y x = L y := by simp [swp]
theorem swp_right (L : Nat → Nat) (x y : Nat) : swp L x y y = L x := by
  unfold swp; by_cases h : y = x
  · simp [h]
  · simp [h]
theorem swp_other (L : Nat → Nat) {x y z : Nat} (h1 : z ≠ x) (h2 : z ≠ y) : swp L x y z = L z := by
  simp [swp, h1, h2]

theorem swp_sum {R : List Nat} {x y : Nat} (hnd : R.Nodup) (hx : x ∈ R) (hy : y ∈ R) (L g : Nat → Nat) :
    (R.map (fun z => g (swp L x y z))).sum = (R.map (fun z => g (L z))).sum := by
  by_cases e : x = y
  · subst e
    apply sum_congr
    intro z _
    by_cases h : z = x
    · subst h; rw [swp_left]
    · rw [swp_other L h h]
  · rw [sum_two hx hy e, sum_two hx hy e, swp_left, swp_right]
    have : (((R.erase x).erase y).map (fun z => g (swp L x y z))).sum =
        (((R.erase x).erase y).map (fun z => g (L z))).sum := by
      apply sum_congr
      intro z hz
      have h1 := (hnd.erase x).mem_erase_iff.1 hz
      have h2 := hnd.mem_erase_iff.1 h1.2
      rw [swp_other L h2.1 h1.1]
    rw [this]
    omega

theorem swp_cost {R : List Nat} {x y : Nat} (hnd : R.Nodup) (hx : x ∈ R) (hy : y ∈ R) (L f : Nat → Nat)
    (hf : f x ≤ f y) (hL : L x ≤ L y) :
    (R.map (fun z => f z * swp L x y z)).sum ≤ (R.map (fun z => f z * L z)).sum := by
  by_cases e : x = y
  · subst e
    apply Nat.le_of_eq
    apply sum_congr
    intro z _
    by_cases h : z = x
    · subst h; rw [swp_left]
    · rw [swp_other L h h]
  · rw [sum_two hx hy e, sum_two hx hy e, swp_left, swp_right]
    have : (((R.erase x).erase y).map (fun z => f z * swp L x y z)).sum =
        (((R.erase x).erase y).map (fun z => f z * L z)).sum := by
      apply sum_congr
      intro z hz
      have h1 := (hnd.erase x).mem_erase_iff.1 hz
      have h2 := hnd.mem_erase_iff.1 h1.2
      rw [swp_other L h2.1 h1.1]
    rw [this]
    obtain ⟨d, hd⟩ := Nat.exists_eq_add_of_le hf
    obtain ⟨k, hk⟩ := Nat.exists_eq_add_of_le hL
    have : f x * L y + f y * L x ≤ f x * L x + f y * L y := by
      rw [hd, hk]; nlinarith [Nat.zero_le (d * k)]
    omega

theorem sum_dvd' (d : Nat) (R : List Nat) (g : Nat → Nat) (h : ∀ x ∈ R, d ∣ g x) : d ∣ (R.map g).sum := by
  induction R with
  | nil => simp
  | cons x R ih =>
    rw [List.map_cons, List.sum_cons]
    exact Nat.dvd_add (h x (by simp)) (ih (fun y hy => h y (by simp [hy])))

theorem run_optimal {R : List Nat} {f D : Nat → Nat} (h : Run R f D) : R.Nodup → ∀ (B : Nat) (L : Nat → Nat),
    (∀ x ∈ R, L x ≤ B) → (R.map (fun x => 2 ^ (B - L x))).sum ≤ 2 ^ B →
    (R.map (fun x => f x * D x)).sum ≤ (R.map (fun x => f x * L x)).sum := by
  induction h with
  | done r f => intro _ B L _ _; simp
  | @step R f D a b hm h ih =>
    intro hnd B L0 hB0 hk0
    -- a gets the largest length
    obtain ⟨m1, hm1, hmax1⟩ := exists_max L0 R (List.ne_nil_of_mem hm.ha)
    have hfa : ∀ x ∈ R, f a ≤ f x := by
      intro x hx
      by_cases e : x = a
      · rw [e]
      · exact (hm.first x hx e).le
    have hfb : ∀ x ∈ R, x ≠ a → f b ≤ f x := by
      intro x hx e
      by_cases e2 : x = b
      · rw [e2]
      · exact (hm.second x hx e e2).le
    let L1 := swp L0 a m1
    have c1 := swp_cost hnd hm.ha hm1 L0 f (hfa m1 hm1) (hmax1 a hm.ha)
    have k1 := swp_sum hnd hm.ha hm1 L0 (fun l => 2 ^ (B - l))
    have hL1 : ∀ x ∈ R, L1 x ≤ L1 a := by
      intro x hx
      have ha1 : L1 a = L0 m1 := swp_left _ _ _
      rw [ha1]
      simp only [L1, swp]
      split
      · exact Nat.le_refl _
      · split
        · exact hmax1 a hm.ha
        · exact hmax1 x hx
    have hB1 : ∀ x ∈ R, L1 x ≤ B := by
      intro x hx
      have ha1 : L1 a = L0 m1 := swp_left _ _ _
      have := hL1 x hx
      have := hB0 m1 hm1
      omega
    -- b gets the second largest
    have hbE : b ∈ R.erase a := (List.mem_erase_of_ne hm.ne.symm).2 hm.hb
    obtain ⟨m2, hm2, hmax2⟩ := exists_max L1 (R.erase a) (List.ne_nil_of_mem hbE)
    have hm2' := hnd.mem_erase_iff.1 hm2
    let L2 := swp L1 b m2
    have c2 := swp_cost hnd hm.hb hm2'.2 L1 f (hfb m2 hm2'.2 hm2'.1) (hmax2 b hbE)
    have k2 := swp_sum hnd hm.hb hm2'.2 L1 (fun l => 2 ^ (B - l))
    have hL2a : L2 a = L1 a := swp_other _ hm.ne (Ne.symm hm2'.1)
    have hL2b : L2 b = L1 m2 := swp_left _ _ _
    have hL2 : ∀ x ∈ R, x ≠ a → L2 x ≤ L2 b := by
      intro x hx hxa
      rw [hL2b]
      simp only [L2, swp]
      split
      · exact Nat.le_refl _
      · split
        · exact hmax2 b hbE
        · exact hmax2 x (hnd.mem_erase_iff.2 ⟨hxa, hx⟩)
    have hL2ab : L2 b ≤ L2 a := by rw [hL2a, hL2b]; exact hL1 m2 hm2'.2
    have hBb : L2 b ≤ B := by rw [hL2b]; exact hB1 m2 hm2'.2
    have hk2 : (R.map (fun x => 2 ^ (B - L2 x))).sum ≤ 2 ^ B := by
      have e1 : (R.map (fun x => 2 ^ (B - L1 x))).sum = (R.map (fun x => 2 ^ (B - L0 x))).sum := k1
      have e2 : (R.map (fun x => 2 ^ (B - L2 x))).sum = (R.map (fun x => 2 ^ (B - L1 x))).sum := k2
      omega
    have hc2 : (R.map (fun x => f x * L2 x)).sum ≤ (R.map (fun x => f x * L0 x)).sum := Nat.le_trans c2 c1
    refine Nat.le_trans ?_ hc2
    clear_value L1 L2
    clear c1 c2 k1 k2 hc2 hk0 hB0 hmax1 hmax2 hL2a hL2b hL1 hB1
    -- a may be as short as b
    have ha : a ∈ R.erase b := (List.mem_erase_of_ne hm.ne).2 hm.ha
    have hrest : ∀ x ∈ (R.erase b).erase a, x ∈ R ∧ x ≠ a ∧ x ≠ b := by
      intro x hx
      have h1 := (hnd.erase b).mem_erase_iff.1 hx
      have h2 := hnd.mem_erase_iff.1 h1.2
      exact ⟨h2.2, h1.1, h2.1⟩
    rw [sum_two hm.hb hm.ha hm.ne.symm] at hk2
    have hdv : 2 ^ (B - L2 b) ∣ (((R.erase b).erase a).map (fun x => 2 ^ (B - L2 x))).sum := by
      apply sum_dvd'
      intro x hx
      have := hrest x hx
      exact Nat.pow_dvd_pow 2 (by have := hL2 x this.1 this.2.1; omega)
    have hdB : 2 ^ (B - L2 b) ∣ 2 ^ B := Nat.pow_dvd_pow 2 (by omega)
    have hk3 : 2 ^ (B - L2 b) + 2 ^ (B - L2 b) + (((R.erase b).erase a).map (fun x => 2 ^ (B - L2 x))).sum
        ≤ 2 ^ B := by
      obtain ⟨u, hu⟩ := hdv
      obtain ⟨v, hv⟩ := hdB
      rw [hu, hv] at hk2
      rw [hu, hv]
      have hp : 0 < 2 ^ (B - L2 a) := Nat.two_pow_pos _
      generalize 2 ^ (B - L2 b) = w at *
      have h1 : w * (1 + u) < w * v := by
        rw [Nat.mul_add, Nat.mul_one]; omega
      have h2 : 1 + u < v := Nat.lt_of_mul_lt_mul_left h1
      have h3 : w * (2 + u) ≤ w * v := Nat.mul_le_mul_left w (by omega)
      rw [Nat.mul_add] at h3
      omega
    have hb1 : 1 ≤ L2 b := by
      by_contra h0
      have : L2 b = 0 := by omega
      rw [this] at hk3
      have : 0 < 2 ^ B := Nat.two_pow_pos _
      simp only [Nat.sub_zero] at hk3
      omega
    -- the reduced problem
    have ih' := ih (hnd.erase b) B (fun x => if x = a then L2 b - 1 else L2 x) (by
      intro x hx
      by_cases e : x = a
      · rw [if_pos e]; omega
      · rw [if_neg e]
        have := hL2 x (hnd.mem_erase_iff.1 hx).2 e
        omega) (by
      rw [sum_erase ha]
      simp only [if_true]
      have e : (((R.erase b).erase a).map (fun x => 2 ^ (B - if x = a then L2 b - 1 else L2 x))).sum =
          (((R.erase b).erase a).map (fun x => 2 ^ (B - L2 x))).sum := by
        apply sum_congr
        intro x hx
        rw [if_neg (hrest x hx).2.1]
      rw [e, show B - (L2 b - 1) = (B - L2 b) + 1 by omega, Nat.pow_succ]
      omega)
    rw [sum_two hm.hb hm.ha hm.ne.symm, sum_two hm.hb hm.ha hm.ne.symm]
    rw [sum_erase ha, sum_erase ha] at ih'
    simp only [true_or, or_true, if_true, upd] at ih' ⊢
    have e1 : (((R.erase b).erase a).map (fun x => f x * if x = a ∨ x = b then 1 + D a else D x)).sum =
        (((R.erase b).erase a).map (fun x => (if x = a then f a + f b else f x) * D x)).sum := by
      apply sum_congr
      intro x hx
      have := hrest x hx
      rw [if_neg (by tauto), if_neg this.2.1]
    have e2 : (((R.erase b).erase a).map (fun x => (if x = a then f a + f b else f x) *
        (if x = a then L2 b - 1 else L2 x))).sum =
        (((R.erase b).erase a).map (fun x => f x * L2 x)).sum := by
      apply sum_congr
      intro x hx
      have := hrest x hx
      rw [if_neg this.2.1, if_neg this.2.1]
    rw [e1]
    rw [e2] at ih'
    have e3 : f b * (1 + D a) + f a * (1 + D a) = (f a + f b) * D a + (f a + f b) := by ring
    have e4 : f b * L2 b + f a * L2 b = (f a + f b) * (L2 b - 1) + (f a + f b) := by
      obtain ⟨t, ht⟩ := Nat.exists_eq_add_of_le hb1
      rw [ht, show 1 + t - 1 = t by omega]; ring
    have e5 : f a * L2 b ≤ f a * L2 a := Nat.mul_le_mul_left _ hL2ab
    omega

end Verif.Huff.Opt
