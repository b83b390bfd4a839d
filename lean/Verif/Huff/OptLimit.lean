/-
Length limiting of jpeg_gen_optimal_table (Optimal.lean): the number of codes and the Kraft sum survive.
-/
import Verif.Huff.Optimal
import Mathlib.Tactic.Ring

namespace Verif.Huff.Opt

/-- Weighted sum of the counts of lengths 0..32. -/
def W (w b : Nat → Nat) : Nat := ((List.range 33).map (fun l => b l * w l)).sum

theorem sum_upd_range (m : Nat) (w b : Nat → Nat) (i v : Nat) (hi : i < m) :
    ((List.range m).map (fun l => (if l = i then v else b l) * w l)).sum + b i * w i
      = ((List.range m).map (fun l => b l * w l)).sum + v * w i := by
  induction m with
  | zero => omega
  | succ m ih =>
    rw [List.range_succ]
    simp only [List.map_append, List.map_cons, List.map_nil, List.sum_append, List.sum_cons, List.sum_nil]
    by_cases e : i = m
    · subst e
      have : (List.range i).map (fun l => (if l = i then v else b l) * w l)
          = (List.range i).map (fun l => b l * w l) := by
        apply List.map_congr_left
        intro l hl
        rw [List.mem_range] at hl
        rw [if_neg (by omega)]
      rw [this]; simp; omega
    · have := ih (by omega)
      rw [if_neg (by omega : ¬ m = i)]
      omega

theorem W_upd (w b : Nat → Nat) (i v : Nat) (hi : i < 33) :
    W w (fun l => if l = i then v else b l) + b i * w i = W w b + v * w i :=
  sum_upd_range 33 w b i v hi

def one : Nat → Nat := fun _ => 1
def kr : Nat → Nat := fun l => 2 ^ (32 - l)

structure LI (n i : Nat) (b : Nat → Nat) : Prop where
  tot : W one b = n
  kraft : W kr b = 2 ^ 32
  high : ∀ l, i < l → b l = 0

theorem le_sum_of_mem_nat {x : Nat} {L : List Nat} (h : x ∈ L) : x ≤ L.sum := by
  induction L with
  | nil => simp at h
  | cons y L ih =>
    rw [List.sum_cons]
    rcases List.mem_cons.1 h with rfl | h
    · omega
    · have := ih h; omega

theorem term_le (w b : Nat → Nat) (m l : Nat) (hl : l < m) :
    b l * w l ≤ ((List.range m).map (fun l => b l * w l)).sum :=
  le_sum_of_mem_nat (List.mem_map.2 ⟨l, List.mem_range.2 hl, rfl⟩)

theorem sum_dvd (w b : Nat → Nat) (d : Nat) (L : List Nat) (h : ∀ l ∈ L, d ∣ b l * w l) :
    d ∣ (L.map (fun l => b l * w l)).sum := by
  induction L with
  | nil => simp
  | cons l L ih =>
    simp only [List.map_cons, List.sum_cons]
    exact Nat.dvd_add (h l (by simp)) (ih (fun x hx => h x (by simp [hx])))

theorem range_mid (m i : Nat) (hi : i < m) : ∃ r, List.range m = List.range i ++ i :: r ∧ ∀ x ∈ r, i < x := by
  refine ⟨(List.range (m - i - 1)).map (fun x => i + 1 + x), ?_, ?_⟩
  · apply List.ext_getElem
    · simp; omega
    · intro k h1 h2
      simp only [List.getElem_range, List.getElem_append, List.length_range]
      split
      · rfl
      · rename_i h
        rw [List.getElem_cons]
        split
        · omega
        · simp; omega
  · intro x hx
    simp only [List.mem_map, List.mem_range] at hx
    omega

theorem tail_zero {i : Nat} {b w : Nat → Nat} {r : List Nat} (hr : ∀ x ∈ r, i < x)
    (h : ∀ l, i < l → b l = 0) : (r.map (fun l => b l * w l)).sum = 0 := by
  induction r with
  | nil => rfl
  | cons x r ih =>
    simp only [List.map_cons, List.sum_cons]
    rw [h x (hr x (by simp)), ih (fun y hy => hr y (by simp [hy]))]
    simp

theorem LI.split {n i : Nat} {b : Nat → Nat} (h : ∀ l, i < l → b l = 0) (hi : i < 33) (w : Nat → Nat) :
    W w b = ((List.range i).map (fun l => b l * w l)).sum + b i * w i := by
  obtain ⟨r, hr, hr2⟩ := range_mid 33 i hi
  unfold W
  rw [hr]
  simp only [List.map_append, List.map_cons, List.sum_append, List.sum_cons]
  rw [tail_zero hr2 h]
  omega

theorem LI.even {n i : Nat} {b : Nat → Nat} (h : LI n i b) (h1 : 1 ≤ i) (hi : i ≤ 32) : 2 ∣ b i := by
  have hk := h.kraft
  rw [LI.split (n := n) h.high (by omega)] at hk
  have hd : 2 ^ (33 - i) ∣ ((List.range i).map (fun l => b l * kr l)).sum := by
    apply sum_dvd
    intro l hl
    rw [List.mem_range] at hl
    exact Dvd.dvd.mul_left (Nat.pow_dvd_pow 2 (by omega)) _
  have h2 : 2 ^ (33 - i) ∣ 2 ^ 32 := Nat.pow_dvd_pow 2 (by omega)
  have h3 : 2 ^ (33 - i) ∣ b i * kr i := by
    rw [← hk] at h2
    exact (Nat.dvd_add_right hd).1 h2
  have : (2 : Nat) ^ (33 - i) = 2 * kr i := by
    unfold kr
    rw [show 33 - i = (32 - i) + 1 by omega, Nat.pow_succ]; omega
  rw [this] at h3
  exact Nat.dvd_of_mul_dvd_mul_right (Nat.pow_pos (by omega) : 0 < kr i) h3

theorem findDown_some {b : Nat → Nat} : ∀ {k j : Nat}, findDown b k = some j →
    j ≤ k ∧ 0 < b j ∧ ∀ l, j < l → l ≤ k → b l = 0 := by
  intro k
  induction k with
  | zero =>
    intro j h
    unfold findDown at h
    by_cases e : b 0 = 0
    · simp [e] at h
    · simp only [e, if_false, Option.some.injEq] at h
      subst h
      exact ⟨by omega, by omega, by intro l h1 h2; omega⟩
  | succ k ih =>
    intro j h
    unfold findDown at h
    by_cases e : b (k + 1) = 0
    · simp only [e, if_true] at h
      obtain ⟨i1, i2, i3⟩ := ih h
      refine ⟨by omega, i2, ?_⟩
      intro l h1 h2
      by_cases e2 : l = k + 1
      · rw [e2]; exact e
      · exact i3 l h1 (by omega)
    · simp only [e, if_false, Option.some.injEq] at h
      subst h
      exact ⟨by omega, by omega, by intro l h1 h2; omega⟩

theorem findDown_none {b : Nat → Nat} : ∀ {k : Nat}, findDown b k = none → ∀ l ≤ k, b l = 0 := by
  intro k
  induction k with
  | zero =>
    intro h l hl
    unfold findDown at h
    by_cases e : b 0 = 0
    · rw [show l = 0 by omega]; exact e
    · simp [e] at h
  | succ k ih =>
    intro h l hl
    unfold findDown at h
    by_cases e : b (k + 1) = 0
    · simp only [e, if_true] at h
      by_cases e2 : l = k + 1
      · rw [e2]; exact e
      · exact ih h l (by omega)
    · simp [e] at h

theorem head_zero {i : Nat} {b w : Nat → Nat} (h : ∀ l < i, b l = 0) :
    ((List.range i).map (fun l => b l * w l)).sum = 0 := by
  have : (List.range i).map (fun l => b l * w l) = (List.range i).map (fun _ => 0) := by
    apply List.map_congr_left
    intro l hl
    rw [h l (List.mem_range.1 hl), Nat.zero_mul]
  rw [this]
  clear this
  induction i with
  | zero => rfl
  | succ i ih => rw [List.range_succ]; simp [ih (fun l hl => h l (by omega))]

theorem LI.find {n i : Nat} {b : Nat → Nat} (h : LI n i b) (hn : n ≤ 255) (h17 : 17 ≤ i) (hi : i ≤ 32) :
    ∃ j, findDown b (i - 2) = some j := by
  cases hf : findDown b (i - 2) with
  | some j => exact ⟨j, rfl⟩
  | none =>
    exfalso
    have hz := findDown_none hf
    have hk := h.kraft
    have ht := h.tot
    rw [LI.split (n := n) h.high (by omega)] at hk ht
    rw [show i = (i - 1) + 1 by omega, List.range_succ] at hk ht
    simp only [List.map_append, List.map_cons, List.map_nil, List.sum_append, List.sum_cons, List.sum_nil] at hk ht
    rw [head_zero (fun l hl => hz l (by omega))] at hk ht
    rw [show i - 1 + 1 = i by omega] at hk ht
    simp only [one, kr] at hk ht
    have e1 : (2 : Nat) ^ (32 - (i - 1)) ≤ 2 ^ 16 := Nat.pow_le_pow_right (by omega) (by omega)
    have e2 : (2 : Nat) ^ (32 - i) ≤ 2 ^ 16 := Nat.pow_le_pow_right (by omega) (by omega)
    have m1 := Nat.mul_le_mul_left (b (i - 1)) e1
    have m2 := Nat.mul_le_mul_left (b i) e2
    omega

theorem LI.le {n i : Nat} {b : Nat → Nat} (h : LI n i b) {l : Nat} (hl : l < 33) : b l ≤ n := by
  have := term_le one b 33 l hl
  have ht := h.tot
  unfold W at ht
  simp only [one] at *
  omega

theorem limitStep_LI {n i j : Nat} {b : Nat → Nat} (h : LI n i b) (hn : n ≤ 255) (h17 : 17 ≤ i) (hi : i ≤ 32)
    (hb : 2 ≤ b i) (hj : j ≤ i - 2) (hbj : 0 < b j) :
    LI n i (limitStep b i j) ∧ limitStep b i j i + 2 = b i := by
  -- sums of the three counts involved
  let b1 := fun l => if l = i then b i - 2 else b l
  let b2 := fun l => if l = i - 1 then b1 (i - 1) + 1 else b1 l
  let b3 := fun l => if l = j + 1 then b2 (j + 1) + 2 else b2 l
  let b4 := fun l => if l = j then b3 j - 1 else b3 l
  have x1 : b1 (i - 1) = b (i - 1) := by simp only [b1]; rw [if_neg (by omega)]
  have x3 : b3 j = b j := by
    simp only [b3, b2, b1]
    rw [if_neg (by omega), if_neg (by omega), if_neg (by omega)]
  have w1 := fun w => W_upd w b i (b i - 2) (by omega)
  have w2 := fun w => W_upd w b1 (i - 1) (b1 (i - 1) + 1) (by omega)
  have w3 := fun w => W_upd w b2 (j + 1) (b2 (j + 1) + 2) (by omega)
  have w4 := fun w => W_upd w b3 j (b3 j - 1) (by omega)
  have key : ∀ w, W w b4 + 2 * w i + w j = W w b + w (i - 1) + 2 * w (j + 1) := by
    intro w
    have k1 := w1 w
    have k2 := w2 w
    have k3 := w3 w
    have k4 := w4 w
    rw [x3] at k4
    change W w b1 + _ = _ at k1
    change W w b2 + _ = _ at k2
    change W w b3 + _ = _ at k3
    have k4' : W w b4 + b j * w j = W w b3 + (b j - 1) * w j := by
      have := k4
      simp only [b4]
      rw [x3]
      exact this
    have e1 : b i * w i = (b i - 2) * w i + 2 * w i := by
      obtain ⟨t, ht⟩ := Nat.exists_eq_add_of_le hb
      rw [ht]; rw [show 2 + t - 2 = t by omega]; ring
    have e4 : b j * w j = (b j - 1) * w j + w j := by
      obtain ⟨t, ht⟩ := Nat.exists_eq_add_of_le hbj
      rw [ht]; rw [show 0 + 1 + t - 1 = t by omega]; ring
    rw [Nat.add_mul] at k2 k3
    omega
  have le1 : b (i - 1) + 3 ≤ 255 ∧ ∀ l < 33, l ≠ i → l ≠ j → b l + 3 ≤ 255 := by
    have t0 : ∀ l, l < 33 → l ≠ i → l ≠ j → b l + 3 ≤ 255 := by
      intro l hl h1 h2
      have s1 := W_upd one b i 0 (by omega)
      have s2 := W_upd one (fun l => if l = i then 0 else b l) j 0 (by omega)
      have s3 := term_le one (fun l => if l = j then 0 else (if l = i then 0 else b l)) 33 l hl
      have ht := h.tot
      simp only [if_neg h1, if_neg h2, if_neg (by omega : ¬ j = i)] at s2 s3
      simp only [W, one] at *
      omega
    exact ⟨t0 (i - 1) (by omega) (by omega) (by omega), t0⟩
  have heq : limitStep b i j = b4 := by
    have lei := h.le (l := i) (by omega)
    have lej := h.le (l := j) (by omega)
    have lem := le1.1
    have lej1 : b (j + 1) + 3 ≤ 255 := le1.2 (j + 1) (by omega) (by omega) (by omega)
    funext l
    simp only [limitStep, b4, b3, b2, b1]
    by_cases c1 : l = j
    · subst c1
      simp only [if_true]
      rw [if_neg (by omega : ¬ l = l + 1), if_neg (by omega : ¬ l = i - 1), if_neg (by omega : ¬ l = i)]
      simp only [if_neg (by omega : ¬ l = l + 1), if_neg (by omega : ¬ l = i - 1), if_neg (by omega : ¬ l = i)]
      omega
    · simp only [if_neg c1]
      by_cases c2 : l = j + 1
      · subst c2
        simp only [if_true]
        by_cases c3 : j + 1 = i - 1
        · simp only [if_pos c3]
          rw [if_neg (by omega : ¬ j + 1 = i), if_neg (by omega : ¬ i - 1 = i)]
          rw [c3] at *
          omega
        · simp only [if_neg c3]
          simp only [if_neg (by omega : ¬ j + 1 = i)]
          omega
      · simp only [if_neg c2]
        by_cases c3 : l = i - 1
        · subst c3
          simp only [if_true]
          simp only [if_neg (by omega : ¬ i - 1 = i)]
          omega
        · simp only [if_neg c3]
          by_cases c4 : l = i
          · subst c4; simp only [if_true]; omega
          · simp only [if_neg c4]
  rw [heq]
  refine ⟨⟨?_, ?_, ?_⟩, ?_⟩
  · have := key one
    rw [h.tot] at this
    simp only [one] at this
    omega
  · have := key kr
    rw [h.kraft] at this
    have p1 : kr (i - 1) = 2 * kr i := by
      unfold kr
      rw [show 32 - (i - 1) = (32 - i) + 1 by omega, Nat.pow_succ]; omega
    have p2 : kr j = 2 * kr (j + 1) := by
      unfold kr
      rw [show 32 - j = (32 - (j + 1)) + 1 by omega, Nat.pow_succ]; omega
    omega
  · intro l hl
    simp only [b4, b3, b2, b1]
    rw [if_neg (by omega), if_neg (by omega), if_neg (by omega), if_neg (by omega)]
    exact h.high l hl
  · simp only [b4, b3, b2, b1]
    rw [if_neg (by omega), if_neg (by omega), if_neg (by omega)]
    simp only [if_true]
    omega

theorem limitAt_LI {n i : Nat} (hn : n ≤ 255) (h17 : 17 ≤ i) (hi : i ≤ 32) : ∀ (k : Nat) (b : Nat → Nat),
    LI n i b → b i < k → ∃ b', limitAt i k b = some b' ∧ LI n (i - 1) b' := by
  intro k
  induction k with
  | zero => intro b h hk; omega
  | succ k ih =>
    intro b h hk
    unfold limitAt
    by_cases hp : b i > 0
    · rw [if_pos hp]
      obtain ⟨j, hj⟩ := h.find hn h17 hi
      rw [hj]
      obtain ⟨j1, j2, -⟩ := findDown_some hj
      have he := h.even (by omega) hi
      obtain ⟨s1, s2⟩ := limitStep_LI h hn h17 hi (by omega) j1 j2
      exact ih _ s1 (by omega)
    · rw [if_neg hp]
      refine ⟨b, rfl, h.tot, h.kraft, ?_⟩
      intro l hl
      by_cases e : l = i
      · rw [e]; omega
      · exact h.high l (by omega)

theorem limit_LI {n : Nat} (hn : n ≤ 255) : ∀ (m : Nat), m ≤ 16 → ∀ b, LI n (16 + m) b →
    ∃ b', limit ((List.range' 17 m).reverse) b = some b' ∧ LI n 16 b' := by
  intro m
  induction m with
  | zero => intro _ b h; exact ⟨b, rfl, h⟩
  | succ m ih =>
    intro hm b h
    rw [List.range'_concat, List.reverse_append]
    simp only [List.reverse_cons, List.reverse_nil, List.nil_append, List.cons_append, limit]
    obtain ⟨b', e1, l1⟩ := limitAt_LI hn (i := 17 + 1 * m) (by omega) (by omega) 256 b
      (by rw [show 17 + 1 * m = 16 + (m + 1) by omega]; exact h)
      (by have := h.le (l := 17 + 1 * m) (by omega); omega)
    rw [e1]
    exact ih (by omega) b' (by rw [show 16 + m = 17 + 1 * m - 1 by omega]; exact l1)

/-- If no length exceeds 16 the limiting does nothing. -/
theorem limit_id (m : Nat) (b : Nat → Nat) (h : ∀ l, 16 < l → b l = 0) :
    limit ((List.range' 17 m).reverse) b = some b := by
  induction m with
  | zero => rfl
  | succ m ih =>
    rw [List.range'_concat, List.reverse_append]
    simp only [List.reverse_cons, List.reverse_nil, List.nil_append, List.cons_append, limit]
    have : limitAt (17 + 1 * m) 256 b = some b := by
      unfold limitAt
      rw [if_neg (by have := h (17 + 1 * m) (by omega); omega)]
    rw [this]
    exact ih

end Verif.Huff.Opt
