import Mathlib.Tactic.FinCases
import Verif.Smooth.BlockProof
namespace Verif.Smooth
open Spec

section
variable {c : Comp} {T D Q : Nat} (h : WF c T D Q)
include h

theorem T_facts : 1 ≤ T ∧ (T - 1) * c.v < c.height ∧ c.height ≤ T * c.v ∧ c.rows = T * c.v := by
  have hv := h.v
  have hh := h.height
  have hT := h.T
  have h1 : 1 ≤ T := by rw [hT]; exact (Nat.le_div_iff_mul_le hv).2 (by omega)
  have h2 : T * c.v ≤ c.height + c.v - 1 := by rw [hT]; exact Nat.div_mul_le_self _ _
  have h3 : c.height + c.v - 1 < (T + 1) * c.v := by rw [hT]; exact Nat.lt_succ_mul_of_div_lt' hv
  refine ⟨h1, ?_, ?_, ?_⟩
  · rw [Nat.sub_mul]; omega
  · rw [Nat.add_mul] at h3; omega
  · unfold Comp.rows; rw [← hT]
where
  Nat.lt_succ_mul_of_div_lt' {a b : Nat} (hb : 0 < b) : a < (a / b + 1) * b := by
    rw [Nat.add_mul, Nat.one_mul, Nat.mul_comm]
    exact Nat.lt_mul_div_succ_aux a b hb
  Nat.lt_mul_div_succ_aux (a b : Nat) (hb : 0 < b) : a < b * (a / b) + b := by
    have := Nat.div_add_mod a b
    have := Nat.mod_lt a hb
    omega

theorem blockRows_eq {t : Nat} (ht : t < T) : blockRows c T t = min c.v (c.height - t * c.v) ∧ 1 ≤ blockRows c T t := by
  obtain ⟨h1, h2, h3, -⟩ := T_facts h
  have hv := h.v
  unfold blockRows
  by_cases hl : t < T - 1
  · rw [if_pos hl]
    have : (t + 1) * c.v ≤ (T - 1) * c.v := Nat.mul_le_mul_right _ (by omega)
    rw [Nat.add_mul] at this
    omega
  · rw [if_neg hl]
    obtain rfl : t = T - 1 := by omega
    obtain ⟨m, rfl⟩ : ∃ m, T = m + 1 := ⟨T - 1, by omega⟩
    simp only [Nat.add_sub_cancel] at *
    rw [Nat.add_mul] at h3
    obtain ⟨r, hr⟩ : ∃ r, c.height = m * c.v + r := ⟨c.height - m * c.v, by omega⟩
    have : c.height % c.v = r % c.v := by rw [hr, Nat.add_comm, Nat.add_mul_mod_self_right]
    rw [this]
    by_cases hrv : r = c.v
    · subst hrv; simp; omega
    · rw [Nat.mod_eq_of_lt (by omega), if_neg (by omega)]; omega

/-- The window of rows. -/
theorem access_eq {t : Nat} (ht : t < T) : ∃ w, access c T t = some w ∧ w.cur = t * c.v ∧ w.start = (t - 2) * c.v ∧
    w.start + w.n = if t + 2 < T then (t + 3) * c.v else if t + 1 < T then (t + 2) * c.v else c.height := by
  obtain ⟨h1, h2, h3, h4⟩ := T_facts h
  have hv := h.v
  have hb := blockRows_eq h ht
  have e2 : (t + 1) * c.v = t * c.v + c.v := by ring
  have e3 : (t + 2) * c.v = t * c.v + 2 * c.v := by ring
  have e4 : (t + 3) * c.v = t * c.v + 3 * c.v := by ring
  have hle : ∀ a, a ≤ T → a * c.v ≤ T * c.v := fun a ha => Nat.mul_le_mul_right _ ha
  have hlast : t + 1 = T → (t * c.v < c.height ∧ c.height ≤ t * c.v + c.v) := by
    rintro rfl
    simp only [Nat.add_sub_cancel] at *
    omega
  unfold access
  simp only []
  rcases Nat.lt_or_ge 1 t with h5 | h5
  · obtain ⟨s, rfl⟩ : ∃ s, t = s + 2 := ⟨t - 2, by omega⟩
    have e5 : (s + 2) * c.v = s * c.v + 2 * c.v := by ring
    rw [if_pos h5, Nat.add_sub_cancel]
    by_cases ha : s + 2 + 2 < T
    · have := hle (s + 2 + 3) (by omega)
      rw [if_pos (show s + 2 + 1 < T - 1 by omega), if_pos (by refine ⟨?_, ?_⟩ <;> simp only [] <;> omega)]
      refine ⟨_, rfl, rfl, rfl, ?_⟩
      rw [if_pos ha]; simp only []; omega
    · rw [if_neg (show ¬ s + 2 + 1 < T - 1 by omega)]
      by_cases hb' : s + 2 + 1 < T
      · have := hle (s + 2 + 2) (by omega)
        rw [if_pos (show s + 2 < T - 1 by omega), if_pos (by refine ⟨?_, ?_⟩ <;> simp only [] <;> omega)]
        refine ⟨_, rfl, rfl, rfl, ?_⟩
        rw [if_neg ha, if_pos hb']; simp only []; omega
      · have hl := hlast (by omega)
        rw [if_neg (show ¬ s + 2 < T - 1 by omega), if_pos (by refine ⟨?_, ?_⟩ <;> simp only [] <;> omega)]
        refine ⟨_, rfl, rfl, rfl, ?_⟩
        rw [if_neg ha, if_neg hb']; simp only []; omega
  · rw [if_neg (show ¬ t > 1 by omega)]
    rcases Nat.lt_or_ge 0 t with h6 | h6
    · obtain rfl : t = 1 := by omega
      rw [if_pos (show 1 > 0 from h6)]
      by_cases ha : 1 + 2 < T
      · have := hle (1 + 3) (by omega)
        rw [if_pos (show 1 + 1 < T - 1 by omega), if_pos (by refine ⟨?_, ?_⟩ <;> simp only [] <;> omega)]
        refine ⟨_, rfl, rfl, by simp, ?_⟩
        rw [if_pos ha]; simp only []; omega
      · rw [if_neg (show ¬ 1 + 1 < T - 1 by omega)]
        by_cases hb' : 1 + 1 < T
        · have := hle (1 + 2) (by omega)
          rw [if_pos (show 1 < T - 1 by omega), if_pos (by refine ⟨?_, ?_⟩ <;> simp only [] <;> omega)]
          refine ⟨_, rfl, rfl, by simp, ?_⟩
          rw [if_neg ha, if_pos hb']; simp only []; omega
        · have hl := hlast (by omega)
          rw [if_neg (show ¬ 1 < T - 1 by omega), if_pos (by refine ⟨?_, ?_⟩ <;> simp only [] <;> omega)]
          refine ⟨_, rfl, rfl, by simp, ?_⟩
          rw [if_neg ha, if_neg hb']; simp only []; omega
    · obtain rfl : t = 0 := by omega
      rw [if_neg (show ¬ 0 > 0 by omega)]
      by_cases ha : 0 + 2 < T
      · have := hle (0 + 3) (by omega)
        rw [if_pos (show 0 + 1 < T - 1 by omega), if_pos (by refine ⟨?_, ?_⟩ <;> simp only [] <;> omega)]
        refine ⟨_, rfl, by simp, by simp, ?_⟩
        rw [if_pos ha]; simp only []; omega
      · rw [if_neg (show ¬ 0 + 1 < T - 1 by omega)]
        by_cases hb' : 0 + 1 < T
        · have := hle (0 + 2) (by omega)
          rw [if_pos (show 0 < T - 1 by omega), if_pos (by refine ⟨?_, ?_⟩ <;> simp only [] <;> omega)]
          refine ⟨_, rfl, by simp, by simp, ?_⟩
          rw [if_neg ha, if_pos hb']; simp only []; omega
        · have hl := hlast (by omega)
          rw [if_neg (show ¬ 0 < T - 1 by omega), if_pos (by refine ⟨?_, ?_⟩ <;> simp only [] <;> omega)]
          refine ⟨_, rfl, by simp, by simp, ?_⟩
          rw [if_neg ha, if_neg hb']; simp only []; omega

end

theorem row_eq (w : Win) (i : Int) (r : Nat) (h : (w.cur : Int) + i = r) (h1 : w.start ≤ r) (h2 : r < w.start + w.n) :
    w.row i = some r := by
  unfold Win.row
  rw [if_pos (by omega)]
  congr 1
  omega

theorem fiveRows_eq {c : Comp} {T D Q : Nat} (h : WF c T D Q) {t : Nat} (ht : t < T) (w : Win) (hw : w.cur = t * c.v)
    (hs : w.start = (t - 2) * c.v)
    (hn : w.start + w.n = if t + 2 < T then (t + 3) * c.v else if t + 1 < T then (t + 2) * c.v else c.height)
    (br : Nat) (hbr : br < blockRows c T t) : fiveRows c T t w br = some (winRow c T t (t * c.v + br)) := by
  obtain ⟨h1, h2, h3, h4⟩ := T_facts h
  have hv := h.v
  obtain ⟨hb, hb1⟩ := blockRows_eq h ht
  have hs2 : w.start = t * c.v - 2 * c.v := by rw [hs, Nat.sub_mul]
  -- the image row as the code computes it
  have e2 : (t + 1) * c.v = t * c.v + c.v := by ring
  have e3 : (t + 2) * c.v = t * c.v + 2 * c.v := by ring
  have e4 : (t + 3) * c.v = t * c.v + 3 * c.v := by ring
  have hend : t * c.v + br < w.start + w.n := by
    rw [hn]
    split
    · omega
    · split <;> omega
  have hcur : w.row br = some (t * c.v + br) := row_eq _ _ _ (by rw [hw]; push_cast; rfl) (by omega) hend
  have hprev : 0 < t * c.v + br → w.row ((br : Int) - 1) = some (t * c.v + br - 1) := fun hp => by
    refine row_eq _ _ _ (by rw [hw]; omega) ?_ (by omega)
    rcases Nat.eq_zero_or_pos t with rfl | h0
    · simp at hs2; omega
    · have : 1 * c.v ≤ t * c.v := Nat.mul_le_mul_right _ h0
      omega
  have hpprev : 1 < t * c.v + br → w.row ((br : Int) - 2) = some (t * c.v + br - 2) := fun hp => by
    refine row_eq _ _ _ (by rw [hw]; omega) ?_ (by omega)
    rcases Nat.eq_zero_or_pos t with rfl | h0
    · simp at hs2; omega
    · rcases Nat.eq_or_lt_of_le h0 with h0 | h0
      · subst h0; simp at hs2; omega
      · have : 2 * c.v ≤ t * c.v := Nat.mul_le_mul_right _ h0
        omega
  unfold fiveRows winRow
  simp only [hcur, Option.bind_eq_bind, Option.bind_some]
  by_cases hl : t + 1 < T
  · -- not the last iMCU row
    have hbv : blockRows c T t = c.v := by unfold blockRows; rw [if_pos (by omega)]
    rw [hbv] at hbr ⊢
    have hT1 : t + 1 + 1 ≤ T := hl
    have hT2 : (t + 2) * c.v ≤ T * c.v := Nat.mul_le_mul_right _ hl
    have ei : (t : Int) * c.v + br = ((t * c.v + br : Nat) : Int) := by push_cast; rfl
    have es : (c.v : Int) * T = ((T * c.v : Nat) : Int) := by push_cast; ring
    have ecT : c.v * T = T * c.v := Nat.mul_comm _ _
    rw [ei, es, if_pos (show t + 1 < T from hl), ecT]
    have hnx : w.row ((br : Int) + 1) = some (t * c.v + br + 1) := by
      refine row_eq _ _ _ (by rw [hw]; omega) (by omega) ?_
      rw [hn, if_pos hl]; split <;> omega
    have q1 : ¬ (T = 2 ∧ t = 1 ∧ c.height = c.v + 1) := by omega
    rw [if_neg q1]
    have Hp : (if ((t * c.v + br : Nat) : Int) > 0 then w.row ((br : Int) - 1) else some (t * c.v + br)) = some (t * c.v + br - 1) := by
      split
      · exact hprev (by omega)
      · congr 1; omega
    rw [Hp]
    simp only [Option.bind_some]
    have Hpp : (if ((t * c.v + br : Nat) : Int) > 1 then w.row ((br : Int) - 2) else some (t * c.v + br - 1)) = some (t * c.v + br - 2) := by
      split
      · exact hpprev (by omega)
      · congr 1; omega
    rw [Hpp]
    simp only [Option.bind_some]
    rw [if_pos (by omega), hnx]
    simp only [Option.bind_some]
    have Hnn : (if ((t * c.v + br : Nat) : Int) < ((T * c.v : Nat) : Int) - 2 then w.row ((br : Int) + 2) else some (t * c.v + br + 1))
        = some (min (t * c.v + br + 2) (T * c.v - 1)) := by
      split
      · have : min (t * c.v + br + 2) (T * c.v - 1) = t * c.v + br + 2 := by omega
        rw [this]
        refine row_eq _ _ _ (by rw [hw]; omega) (by omega) ?_
        rw [hn, if_pos hl]
        split
        · omega
        · have : T * c.v = (t + 2) * c.v := by congr 1; omega
          omega
      · congr 1; omega
    rw [Hnn]
    have : min (t * c.v + br + 1) (T * c.v - 1) = t * c.v + br + 1 := by omega
    rw [this]
    rfl
  · -- the last one
    obtain rfl : T = t + 1 := by omega
    rw [if_neg (by omega), if_neg (by omega)] at hn
    rw [if_neg hl]
    simp only [Nat.add_sub_cancel] at h2
    generalize hbe : blockRows c (t + 1) t = b at *
    have hbh : t * c.v + b = c.height := by omega
    have ei : (t : Int) * b + br = ((t * b + br : Nat) : Int) := by push_cast; rfl
    have es : (b : Int) * ((t + 1 : Nat) : Int) = ((t * b + b : Nat) : Int) := by push_cast; ring
    rw [ei, es]
    have hbv : b ≤ c.v := by omega
    have Hp : (if ((t * b + br : Nat) : Int) > 0 then w.row ((br : Int) - 1) else some (t * c.v + br)) = some (t * c.v + br - 1) := by
      rcases Nat.eq_zero_or_pos t with rfl | h0
      · split
        · exact hprev (by omega)
        · congr 1; omega
      · have : 1 * b ≤ t * b := Nat.mul_le_mul_right _ h0
        have : 1 * c.v ≤ t * c.v := Nat.mul_le_mul_right _ h0
        rw [if_pos (by omega)]
        exact hprev (by omega)
    rw [Hp]
    simp only [Option.bind_some]
    have Hpp : (if ((t * b + br : Nat) : Int) > 1 then w.row ((br : Int) - 2) else some (t * c.v + br - 1)) =
        some (if t + 1 = 2 ∧ t = 1 ∧ c.height = c.v + 1 then t * c.v + br - 1 else t * c.v + br - 2) := by
      rcases Nat.lt_or_ge t 2 with h0 | h0
      · rcases Nat.eq_zero_or_pos t with rfl | h00
        · rw [if_neg (show ¬ (0 + 1 = 2 ∧ 0 = 1 ∧ c.height = c.v + 1) by omega)]
          split
          · exact hpprev (by omega)
          · congr 1; omega
        · obtain rfl : t = 1 := by omega
          by_cases hb1' : b = 1
          · subst hb1'
            rw [if_neg (by omega), if_pos (by omega)]
          · rw [if_pos (by omega), if_neg (by omega)]
            exact hpprev (by omega)
      · have : 2 * b ≤ t * b := Nat.mul_le_mul_right _ h0
        have : 2 * c.v ≤ t * c.v := Nat.mul_le_mul_right _ h0
        rw [if_pos (by omega), if_neg (by omega)]
        exact hpprev (by omega)
    rw [Hpp]
    simp only [Option.bind_some]
    have Hn : (if ((t * b + br : Nat) : Int) < ((t * b + b : Nat) : Int) - 1 then w.row ((br : Int) + 1) else some (t * c.v + br)) =
        some (min (t * c.v + br + 1) (c.height - 1)) := by
      split
      · have : min (t * c.v + br + 1) (c.height - 1) = t * c.v + br + 1 := by omega
        rw [this]
        exact row_eq _ _ _ (by rw [hw]; omega) (by omega) (by omega)
      · congr 1; omega
    rw [Hn]
    simp only [Option.bind_some]
    have Hnn : (if ((t * b + br : Nat) : Int) < ((t * b + b : Nat) : Int) - 2 then w.row ((br : Int) + 2) else some (min (t * c.v + br + 1) (c.height - 1))) =
        some (min (t * c.v + br + 2) (c.height - 1)) := by
      split
      · have : min (t * c.v + br + 2) (c.height - 1) = t * c.v + br + 2 := by omega
        rw [this]
        exact row_eq _ _ _ (by rw [hw]; omega) (by omega) (by omega)
      · congr 1; omega
    rw [Hnn]
    rfl

/-! ## Columns -/

theorem winRow_lt {c : Comp} {T D Q : Nat} (h : WF c T D Q) {t : Nat} (ht : t < T) (br : Nat) (hbr : br < blockRows c T t) (i : Fin 5) :
    winRow c T t (t * c.v + br) i < c.rows := by
  obtain ⟨h1, h2, h3, h4⟩ := T_facts h
  obtain ⟨hb, -⟩ := blockRows_eq h ht
  have hv := h.v
  have hle : (t + 1) * c.v ≤ T * c.v := Nat.mul_le_mul_right _ (by omega)
  have e2 : (t + 1) * c.v = t * c.v + c.v := by ring
  have ecT : c.v * T = T * c.v := Nat.mul_comm _ _
  rw [h4]
  unfold winRow
  rw [ecT]
  fin_cases i <;> simp <;> (try split) <;> omega

theorem cols_le {c : Comp} {T D Q : Nat} (h : WF c T D Q) : c.width ≤ c.cols := by
  unfold Comp.cols
  have hh := h.h
  have := Nat.div_add_mod (c.width + c.h - 1) c.h
  have := Nat.mod_lt (c.width + c.h - 1) hh
  rw [Nat.mul_comm]
  omega

theorem seq5_some {α : Type} (f : Fin 5 → Option α) (g : Fin 5 → α) (h : ∀ i, f i = some (g i)) : seq5 f = some g := by
  unfold seq5
  simp only [h, Option.bind_eq_bind, Option.bind_some, Option.pure_def]
  congr 1
  funext i
  fin_cases i <;> rfl

section
variable {c : Comp} {T D Q : Nat} (h : WF c T D Q) (rows : Fin 5 → Nat) (hr : ∀ i, rows i < c.rows)
include h hr

theorem dcAt_eq (i : Fin 5) (x : Nat) (hx : x < c.width) : dcAt c (rows i) x = some (c.blk (rows i) x 0) := by
  unfold dcAt
  rw [if_pos ⟨hr i, by have := cols_le h; omega⟩]

/-- The registers when column `x` begins. -/
def Inv (c : Comp) (rows : Fin 5 → Nat) (x : Nat) (r : Regs) : Prop :=
  ∀ i j, r i j = c.blk (rows i) (if x = c.first then c.first else winCol c x (if j = 4 then 3 else j)) 0

theorem fetch_eq (x : Nat) (r : Regs) (h1 : c.first ≤ x) (h2 : x ≤ c.last) (hI : Inv c rows x r) :
    fetch c rows x r = some fun i j => c.blk (rows i) (winCol c x j) 0 := by
  have hd := dcAt_eq h rows hr
  have hl := h.last
  unfold fetch
  by_cases hx : x = c.first
  · by_cases hx1 : x < c.width - 1
    · rw [if_pos ⟨hx, hx1⟩, seq5_some _ _ fun i => hd i (x + 1) (by omega)]
      simp only [Option.bind_eq_bind, Option.bind_some, Option.pure_def]
      by_cases hx2 : x + 1 < c.width - 1
      · rw [if_pos hx2, seq5_some _ _ fun i => hd i (x + 2) (by omega)]
        simp only [Option.bind_some]
        congr 1
        funext i j
        unfold winCol
        have := hI i
        fin_cases j <;> simp [this, hx] <;> congr 1 <;> omega
      · rw [if_neg hx2]
        congr 1
        funext i j
        unfold winCol
        have := hI i
        fin_cases j <;> simp [this, hx] <;> congr 1 <;> omega
    · rw [if_neg (by omega)]
      simp only [Option.bind_eq_bind, Option.bind_some]
      rw [if_neg (by omega)]
      congr 1
      funext i j
      unfold winCol
      have := hI i
      fin_cases j <;> simp [this, hx] <;> congr 1 <;> omega
  · rw [if_neg (by omega)]
    simp only [Option.bind_eq_bind, Option.bind_some]
    by_cases hx2 : x + 1 < c.width - 1
    · rw [if_pos hx2, seq5_some _ _ fun i => hd i (x + 2) (by omega)]
      simp only [Option.bind_some, Option.pure_def]
      congr 1
      funext i j
      have := hI i
      fin_cases j <;> simp [this, hx, winCol] <;> congr 1 <;> omega
    · rw [if_neg hx2]
      congr 1
      funext i j
      have := hI i
      fin_cases j <;> simp [this, hx, winCol] <;> congr 1 <;> omega

theorem shift_inv (x : Nat) (h1 : c.first ≤ x) :
    Inv c rows (x + 1) (shift fun i j => c.blk (rows i) (winCol c x j) 0) := by
  intro i j
  rw [if_neg (by omega)]
  have e : ∀ a, x + 1 + (a + 1) - 2 = x + (a + 2) - 2 := by intro a; omega
  fin_cases j <;> simp [shift, winCol] <;> congr 1 <;> omega

theorem smoothCols_eq (lm : Nat) (hb : Bd lm D Q) (bits : Nat → Int) (hbits : ∀ k, 1 ≤ k → k ≤ 9 → bits k < 31) (n : Nat) :
    ∀ (x : Nat) (r : Regs), c.first ≤ x → x + n ≤ c.last + 1 → Inv c rows x r →
    smoothCols lm bits c rows n x r =
      some ((List.range n).map fun k => block bits c.q (fun i j => c.blk (rows i) (winCol c (x + k) j) 0) (c.blk (rows 2) (x + k))) := by
  induction n with
  | zero => intro x r _ _ _; rfl
  | succ n ih =>
    intro x r h1 h2 hI
    have := h.last
    have := cols_le h
    unfold smoothCols
    rw [fetch_eq h rows hr x r h1 (by omega) hI]
    simp only [Option.bind_eq_bind, Option.bind_some]
    rw [if_pos ⟨hr 2, by omega⟩, smoothBlock_eq lm D Q hb bits hbits c h.q _ (fun i j => h.dc _ _)]
    simp only [Option.bind_some]
    rw [ih (x + 1) _ (by omega) (by omega) (shift_inv h rows hr x h1)]
    simp only [Option.bind_some, Option.pure_def, List.range_succ_eq_map, List.map_cons, List.map_map, Nat.add_zero]
    congr 2
    apply List.map_congr_left
    intro k _
    simp only [Function.comp, Nat.succ_eq_add_one, show x + 1 + k = x + (k + 1) by omega]

end

theorem mapM_some {α β : Type} (f : α → Option β) (g : α → β) (l : List α) (h : ∀ a ∈ l, f a = some (g a)) :
    l.mapM f = some (l.map g) := by
  induction l with
  | nil => rfl
  | cons a l ih =>
    rw [List.mapM_cons, h a (by simp), ih fun b hb => h b (by simp [hb])]
    rfl

theorem smoothComp_eq {c : Comp} {T D Q : Nat} (h : WF c T D Q) (lm : Nat) (hb : Bd lm D Q) (l : Latch) (lastGood ci t : Nat)
    (ht : t < T) (hbits : ∀ k, 1 ≤ k → k ≤ 9 → l.cur ci k < 31 ∧ l.prev ci k < 31) :
    smoothComp lm l lastGood ci c T t = some (Spec.comp (if t > lastGood then l.prev ci else l.cur ci) c T t) := by
  obtain ⟨w, hw, h1, h2, h3⟩ := access_eq h ht
  unfold smoothComp
  rw [hw]
  simp only [Option.bind_eq_bind, Option.bind_some]
  have hB : ∀ k, 1 ≤ k → k ≤ 9 → (if t > lastGood then l.prev ci else l.cur ci) k < 31 := by
    intro k a b
    split
    · exact (hbits k a b).2
    · exact (hbits k a b).1
  generalize (if t > lastGood then l.prev ci else l.cur ci) = bits at *
  unfold Spec.comp
  rw [← (blockRows_eq h ht).1]
  apply mapM_some
  intro br hbr
  rw [List.mem_range] at hbr
  unfold smoothRow
  have hr := winRow_lt h ht br hbr
  have hf := h.first
  have hl := h.last
  rw [fiveRows_eq h ht w h1 h2 h3 br hbr]
  simp only [Option.bind_eq_bind, Option.bind_some]
  rw [seq5_some _ _ fun i => dcAt_eq h _ hr i c.first (by omega)]
  simp only [Option.bind_some]
  rw [smoothCols_eq h _ hr lm hb bits hB _ _ _ (le_refl _) (by omega) (by intro i j; simp)]
  rfl

end Verif.Smooth
