import Mathlib.Tactic.Ring
/-
Upsampling of one component (jdsample.c).  A row is the list of its samples, reads are checked: a read outside the row makes the result
`none`.  Outputs are the samples written, in order.
-/
namespace Verif.Samp

/-- The inner loop of int_upsample for one row (jdsample.c:175-180): `o` = outptr - start of row; the first argument bounds the iterations. -/
def boxLoop (h ow : Nat) (row : List Nat) : Nat → (i o : Nat) → Option (List Nat)
  | 0, _, _ => some []
  | k + 1, i, o =>
    if o < ow then do
      let v ← row[i]?
      let rest ← boxLoop h ow row k (i + 1) (o + h)
      pure (List.replicate h v ++ rest)
    else some []

/-- One row of int_upsample. -/
def boxRow (h ow : Nat) (row : List Nat) : Option (List Nat) := boxLoop h ow row ow 0 0

/-- The inner loop of h2v1_upsample and h2v2_upsample (jdsample.c:214-218, 245-249). -/
def pairLoop (ow : Nat) (row : List Nat) : Nat → (i o : Nat) → Option (List Nat)
  | 0, _, _ => some []
  | k + 1, i, o =>
    if o < ow then do
      let v ← row[i]?
      let rest ← pairLoop ow row k (i + 1) (o + 2)
      pure (v :: v :: rest)
    else some []

/-- One row of h2v1_upsample. -/
def pairRow (ow : Nat) (row : List Nat) : Option (List Nat) := pairLoop ow row ow 0 0

/-- The outer loop of int_upsample (jdsample.c:171-188): `maxV` output rows; further rows of a group are copies of the `ow` samples of the
first. -/
def boxGroup (h v ow maxV : Nat) (rows : List (List Nat)) : Nat → (inrow outrow : Nat) → Option (List (List Nat))
  | 0, _, _ => some []
  | k + 1, inrow, outrow =>
    if outrow < maxV then do
      let r ← rows[inrow]?
      let out ← boxRow h ow r
      let rest ← boxGroup h v ow maxV rows k (inrow + 1) (outrow + v)
      pure (out :: List.replicate (v - 1) (out.take ow) ++ rest)
    else some []

/-- int_upsample (jdsample.c:155-189). -/
def intUpsample (h v ow maxV : Nat) (rows : List (List Nat)) : Option (List (List Nat)) := boxGroup h v ow maxV rows maxV 0 0

/-- h2v1_upsample (jdsample.c:197-220): rows one to one. -/
def h2v1Upsample (ow maxV : Nat) (rows : List (List Nat)) : Option (List (List Nat)) :=
  (List.range maxV).mapM (fun r => do let row ← rows[r]?; pairRow ow row)

/-- The outer loop of h2v2_upsample (jdsample.c:241-254). -/
def h2v2Group (ow maxV : Nat) (rows : List (List Nat)) : Nat → (inrow outrow : Nat) → Option (List (List Nat))
  | 0, _, _ => some []
  | k + 1, inrow, outrow =>
    if outrow < maxV then do
      let r ← rows[inrow]?
      let out ← pairRow ow r
      let rest ← h2v2Group ow maxV rows k (inrow + 1) (outrow + 2)
      pure (out :: out.take ow :: rest)
    else some []

/-- h2v2_upsample (jdsample.c:228-255). -/
def h2v2Upsample (ow maxV : Nat) (rows : List (List Nat)) : Option (List (List Nat)) := h2v2Group ow maxV rows maxV 0 0

/-- The general case of h2v1_fancy_upsample (jdsample.c:290-295): the first argument is colctr, `p` = inptr at the start of the iteration. -/
def fancyMid (row : List Nat) : Nat → Nat → Option (List Nat × Nat)
  | 0, p => some ([], p)
  | k + 1, p => do
    let v ← row[p]?
    let a ← row[p - 1]?
    let b ← row[p + 1]?
    let (rest, q) ← fancyMid row k (p + 1)
    pure ((v * 3 + a + 1) / 4 :: (v * 3 + b + 2) / 4 :: rest, q)

/-- JDIMENSION subtraction `dw - 2`. -/
def dimSub2 (dw : Nat) : Nat := (dw + (2 ^ 32 - 2)) % 2 ^ 32

/-- One row of h2v1_fancy_upsample (jdsample.c:283-300). -/
def fancyRow (dw : Nat) (row : List Nat) : Option (List Nat) := do
  let v ← row[0]?
  let n ← row[1]?
  let (mid, p) ← fancyMid row (dimSub2 dw) 1
  let w ← row[p]?
  let m ← row[p - 1]?
  pure (v :: (v * 3 + n + 2) / 4 :: (mid ++ [(w * 3 + m + 1) / 4, w]))

/-- h2v1_fancy_upsample (jdsample.c:273-301). -/
def h2v1Fancy (dw maxV : Nat) (rows : List (List Nat)) : Option (List (List Nat)) :=
  (List.range maxV).mapM (fun r => do let row ← rows[r]?; fancyRow dw row)

/-- The column loop of h1v2_fancy_upsample (jdsample.c:337-340). -/
def h1v2Cols (near far : List Nat) (bias : Nat) : Nat → Nat → Option (List Nat)
  | 0, _ => some []
  | k + 1, p => do
    let a ← near[p]?
    let b ← far[p]?
    let rest ← h1v2Cols near far bias k (p + 1)
    pure ((a * 3 + b + bias) / 4 :: rest)

/-- Sums of a column: three times the nearer row plus the farther row (jdsample.c:373-374). -/
def colsum (near far : List Nat) (p : Nat) : Option Nat := do
  let a ← near[p]?
  let b ← far[p]?
  pure (a * 3 + b)

/-- The general case of h2v2_fancy_upsample (jdsample.c:379-386). -/
def h2v2Mid (near far : List Nat) : Nat → (p last this : Nat) → Option (List Nat × Nat × Nat)
  | 0, _, last, this => some ([], last, this)
  | k + 1, p, last, this => do
    let next ← colsum near far p
    let (rest, r) ← h2v2Mid near far k (p + 1) this next
    pure ((this * 3 + last + 8) / 16 :: (this * 3 + next + 7) / 16 :: rest, r)

/-- One row of h2v2_fancy_upsample (jdsample.c:372-390). -/
def h2v2Row (dw : Nat) (near far : List Nat) : Option (List Nat) := do
  let this ← colsum near far 0
  let next ← colsum near far 1
  let (mid, last, this') ← h2v2Mid near far (dimSub2 dw) 2 this next
  pure ((this * 4 + 8) / 16 :: (this * 3 + next + 7) / 16 :: (mid ++ [(this' * 3 + last + 8) / 16, (this' * 4 + 7) / 16]))

/-- The row loops of h1v2_fancy_upsample and h2v2_fancy_upsample (jdsample.c:322-343, 361-393): `rows r` is the input row at index `r` relative to the row
group (index -1 is the row above); `one near far v` makes output row v of the pair. -/
def vLoop (rows : Int → List Nat) (one : List Nat → List Nat → Nat → Option (List Nat)) (maxV : Nat) : Nat → (inrow outrow : Nat) → Option (List (List Nat))
  | 0, _, _ => some []
  | k + 1, inrow, outrow =>
    if outrow < maxV then do
      let a ← one (rows inrow) (rows (inrow - 1)) 0
      let b ← one (rows inrow) (rows (inrow + 1)) 1
      let rest ← vLoop rows one maxV k (inrow + 1) (outrow + 2)
      pure (a :: b :: rest)
    else some []

/-- h1v2_fancy_upsample (jdsample.c:310-344). -/
def h1v2Fancy (dw maxV : Nat) (rows : Int → List Nat) : Option (List (List Nat)) :=
  vLoop rows (fun near far v => h1v2Cols near far (if v = 0 then 1 else 2) dw 0) maxV maxV 0 0

/-- h2v2_fancy_upsample (jdsample.c:347-394). -/
def h2v2Fancy (dw maxV : Nat) (rows : Int → List Nat) : Option (List (List Nat)) :=
  vLoop rows (fun near far _ => h2v2Row dw near far) maxV maxV 0 0

/-! ### closed forms -/

theorem divUp_step {h ow o i : Nat} (hh : 0 < h) (ho : o = i * h) (hlt : o < ow) : i < (ow + h - 1) / h := by
  rw [Nat.lt_div_iff_mul_lt hh]
  rw [ho] at hlt
  omega

theorem divUp_stop {h ow o i : Nat} (hh : 0 < h) (ho : o = i * h) (hge : ¬ o < ow) : (ow + h - 1) / h ≤ i := by
  rw [← Nat.lt_succ_iff, Nat.div_lt_iff_lt_mul hh, Nat.succ_mul]
  omega

/-- The samples produced by the replication loop. -/
theorem boxLoop_spec {h ow : Nat} (hh : 0 < h) {row : List Nat} (hr : (ow + h - 1) / h ≤ row.length) : ∀ (k i o : Nat), o = i * h → ow ≤ o + k →
    ∃ out, boxLoop h ow row k i o = some out ∧ out.length = ((ow + h - 1) / h - i) * h ∧ ∀ j, j < out.length → out[j]? = row[i + j / h]? := by
  intro k
  induction k with
  | zero =>
    intro i o ho hk
    have := divUp_stop hh ho (show ¬ o < ow by omega)
    exact ⟨[], rfl, by simp [show (ow + h - 1) / h - i = 0 by omega], by simp⟩
  | succ k ih =>
    intro i o ho hk
    unfold boxLoop
    by_cases hlt : o < ow
    · rw [if_pos hlt]
      have hi := divUp_step hh ho hlt
      have hil : i < row.length := by omega
      obtain ⟨out, e1, e2, e3⟩ := ih (i + 1) (o + h) (by rw [ho, Nat.succ_mul]) (by omega)
      refine ⟨List.replicate h row[i] ++ out, by simp [hil, e1], ?_, ?_⟩
      · simp only [List.length_append, List.length_replicate, e2]
        have : (ow + h - 1) / h - i = (ow + h - 1) / h - (i + 1) + 1 := by omega
        rw [this, Nat.succ_mul]; omega
      · intro j hj
        by_cases hjh : j < h
        · rw [List.getElem?_append_left (by simpa using hjh), Nat.div_eq_of_lt hjh]
          simp [hjh, hil]
        · rw [List.getElem?_append_right (by simpa using hjh)]
          simp only [List.length_replicate]
          simp only [List.length_append, List.length_replicate] at hj
          rw [e3 _ (by omega)]
          have : j / h = (j - h) / h + 1 := by
            conv => lhs; rw [show j = (j - h) + h by omega, Nat.add_div_right _ hh]
          rw [this]
          congr 1; omega
    · rw [if_neg hlt]
      have := divUp_stop hh ho hlt
      exact ⟨[], rfl, by simp [show (ow + h - 1) / h - i = 0 by omega], by simp⟩

theorem pairLoop_eq (ow : Nat) (row : List Nat) : ∀ (k i o : Nat), pairLoop ow row k i o = boxLoop 2 ow row k i o := by
  intro k
  induction k with
  | zero => intro i o; rfl
  | succ k ih =>
    intro i o
    unfold pairLoop boxLoop
    by_cases hlt : o < ow
    · rw [if_pos hlt, if_pos hlt, ih]; rfl
    · rw [if_neg hlt, if_neg hlt]

theorem fancyMid_spec (row : List Nat) : ∀ (k p : Nat), 0 < p → p + k < row.length →
    ∃ mid, fancyMid row k p = some (mid, p + k) ∧ mid.length = 2 * k ∧ ∀ i, i < k →
      mid[2 * i]? = some ((row.getD (p + i) 0 * 3 + row.getD (p + i - 1) 0 + 1) / 4) ∧
      mid[2 * i + 1]? = some ((row.getD (p + i) 0 * 3 + row.getD (p + i + 1) 0 + 2) / 4) := by
  intro k
  induction k with
  | zero => intro p _ _; exact ⟨[], rfl, rfl, by intro i hi; omega⟩
  | succ k ih =>
    intro p hp hl
    obtain ⟨mid, e1, e2, e3⟩ := ih (p + 1) (by omega) (by omega)
    have g : ∀ q, q < row.length → row[q]? = some (row.getD q 0) := by
      intro q hq; rw [List.getD_eq_getElem?_getD, List.getElem?_eq_getElem hq]; rfl
    refine ⟨(row.getD p 0 * 3 + row.getD (p - 1) 0 + 1) / 4 :: (row.getD p 0 * 3 + row.getD (p + 1) 0 + 2) / 4 :: mid, ?_, by simp [e2]; omega, ?_⟩
    · unfold fancyMid
      rw [g p (by omega), g (p - 1) (by omega), g (p + 1) (by omega)]
      simp only [Option.bind_eq_bind, Option.bind_some, e1, Option.pure_def]
      rw [show p + 1 + k = p + (k + 1) by omega]
    · intro i hi
      cases i with
      | zero => exact ⟨rfl, rfl⟩
      | succ i =>
        obtain ⟨a, b⟩ := e3 i (by omega)
        rw [show 2 * (i + 1) = 2 * i + 1 + 1 by omega, List.getElem?_cons_succ, List.getElem?_cons_succ, List.getElem?_cons_succ, List.getElem?_cons_succ, a, b]
        rw [show p + 1 + i = p + (i + 1) by omega]
        exact ⟨rfl, rfl⟩

/-- Nearest sample of a row that exists: column `c` of the infinite row obtained by repeating the first and last of the `dw` samples. -/
def clampCol (dw : Nat) (row : List Nat) (c : Int) : Nat := row.getD (min c.toNat (dw - 1)) 0

/-- **Triangle filter.**  Output 2i is 3/4 of sample i and 1/4 of its left neighbour, output 2i+1 3/4 of sample i and 1/4 of its right neighbour, rounded; the first and last sample are repeated
beyond the edges. -/
theorem fancyRow_spec {dw : Nat} (h2 : 2 ≤ dw) (h3 : dw < 2 ^ 32) {row : List Nat} (hr : dw ≤ row.length) :
    ∃ out, fancyRow dw row = some out ∧ out.length = 2 * dw ∧ ∀ i, i < dw →
      out[2 * i]? = some ((3 * clampCol dw row i + clampCol dw row (i - 1) + 1) / 4) ∧
      out[2 * i + 1]? = some ((3 * clampCol dw row i + clampCol dw row (i + 1) + 2) / 4) := by
  have g : ∀ q, q < row.length → row[q]? = some (row.getD q 0) := by
    intro q hq; rw [List.getD_eq_getElem?_getD, List.getElem?_eq_getElem hq]; rfl
  have hd : dimSub2 dw = dw - 2 := by unfold dimSub2; omega
  obtain ⟨mid, e1, e2, e3⟩ := fancyMid_spec row (dw - 2) 1 (by omega) (by omega)
  unfold fancyRow
  rw [g 0 (by omega), g 1 (by omega), hd, e1]
  simp only [Option.bind_eq_bind, Option.bind_some, Option.pure_def]
  rw [show 1 + (dw - 2) = dw - 1 by omega, g (dw - 1) (by omega), g (dw - 1 - 1) (by omega)]
  simp only [Option.bind_some]
  refine ⟨_, rfl, by simp [e2]; omega, ?_⟩
  intro i hi
  have hc : ∀ c : Nat, c < dw → clampCol dw row c = row.getD c 0 := by
    intro c hc; unfold clampCol; rw [Int.toNat_natCast, Nat.min_eq_left (by omega)]
  rcases Nat.eq_zero_or_pos i with rfl | hpos
  · have h1 : clampCol dw row ((0 : Nat) - 1 : Int) = row.getD 0 0 := by unfold clampCol; rw [Nat.min_eq_left (by omega)]; rfl
    have h2' : clampCol dw row ((0 : Nat) + 1 : Int) = row.getD 1 0 := hc 1 (by omega)
    rw [h1, h2', hc 0 (by omega)]
    constructor
    · simp only [Nat.mul_zero, List.getElem?_cons_zero, Option.some.injEq]; omega
    · simp only [Nat.mul_zero, Nat.zero_add, List.getElem?_cons_succ, List.getElem?_cons_zero, Option.some.injEq]; omega
  · have ha : clampCol dw row ((i : Nat) - 1 : Int) = row.getD (i - 1) 0 := by
      rw [show ((i : Nat) - 1 : Int) = ((i - 1 : Nat) : Int) by omega]; exact hc _ (by omega)
    rw [ha, hc i hi]
    obtain ⟨t, rfl⟩ : ∃ t, i = t + 1 := ⟨i - 1, by omega⟩
    rw [show 2 * (t + 1) = 2 * t + 1 + 1 by omega, List.getElem?_cons_succ, List.getElem?_cons_succ, List.getElem?_cons_succ, List.getElem?_cons_succ]
    by_cases hlast : t + 1 = dw - 1
    · have hb : clampCol dw row (((t + 1 : Nat) : Int) + 1) = row.getD (t + 1) 0 := by
        unfold clampCol
        rw [show (((t + 1 : Nat) : Int) + 1).toNat = t + 2 by omega, Nat.min_eq_right (by omega), hlast]
      rw [hb]
      rw [List.getElem?_append_right (by omega), List.getElem?_append_right (by omega)]
      rw [e2, show 2 * t - 2 * (dw - 2) = 0 by omega, show 2 * t + 1 - 2 * (dw - 2) = 1 by omega]
      simp only [List.getElem?_cons_zero, List.getElem?_cons_succ, Option.some.injEq]
      rw [hlast]
      constructor
      · omega
      · omega
    · have hb : clampCol dw row (((t + 1 : Nat) : Int) + 1) = row.getD (t + 2) 0 := hc (t + 2) (by omega)
      rw [hb]
      rw [List.getElem?_append_left (by omega), List.getElem?_append_left (by omega)]
      obtain ⟨a, b⟩ := e3 t (by omega)
      rw [a, b, show 1 + t = t + 1 by omega, show t + 1 + 1 = t + 2 from rfl]
      constructor
      · simp only [Option.some.injEq]; omega
      · simp only [Option.some.injEq]; omega

theorem h1v2Cols_spec (near far : List Nat) (bias : Nat) : ∀ (k p : Nat), p + k ≤ near.length → p + k ≤ far.length →
    ∃ out, h1v2Cols near far bias k p = some out ∧ out.length = k ∧ ∀ i, i < k → out[i]? = some ((3 * near.getD (p + i) 0 + far.getD (p + i) 0 + bias) / 4) := by
  intro k
  induction k with
  | zero => intro p _ _; exact ⟨[], rfl, rfl, by intro i hi; omega⟩
  | succ k ih =>
    intro p h1 h2
    obtain ⟨out, e1, e2, e3⟩ := ih (p + 1) (by omega) (by omega)
    have g : ∀ (l : List Nat) q, q < l.length → l[q]? = some (l.getD q 0) := by
      intro l q hq; rw [List.getD_eq_getElem?_getD, List.getElem?_eq_getElem hq]; rfl
    refine ⟨(near.getD p 0 * 3 + far.getD p 0 + bias) / 4 :: out, ?_, by simp [e2], ?_⟩
    · unfold h1v2Cols
      rw [g near p (by omega), g far p (by omega)]
      simp [e1]
    · intro i hi
      cases i with
      | zero => simp only [List.getElem?_cons_zero, Nat.add_zero, Option.some.injEq]; omega
      | succ i => rw [List.getElem?_cons_succ, e3 i (by omega), show p + 1 + i = p + (i + 1) by omega]

/-- Column sum with the edge columns repeated. -/
def clampSum (dw : Nat) (near far : List Nat) (c : Int) : Nat := 3 * clampCol dw near c + clampCol dw far c

theorem h2v2Mid_spec (near far : List Nat) : ∀ (k p last this : Nat), 2 ≤ p → p + k ≤ near.length → p + k ≤ far.length →
    last = near.getD (p - 2) 0 * 3 + far.getD (p - 2) 0 → this = near.getD (p - 1) 0 * 3 + far.getD (p - 1) 0 →
    ∃ mid, h2v2Mid near far k p last this = some (mid, near.getD (p + k - 2) 0 * 3 + far.getD (p + k - 2) 0, near.getD (p + k - 1) 0 * 3 + far.getD (p + k - 1) 0) ∧ mid.length = 2 * k ∧ ∀ i, i < k →
      mid[2 * i]? = some (((near.getD (p + i - 1) 0 * 3 + far.getD (p + i - 1) 0) * 3 + (near.getD (p + i - 2) 0 * 3 + far.getD (p + i - 2) 0) + 8) / 16) ∧
      mid[2 * i + 1]? = some (((near.getD (p + i - 1) 0 * 3 + far.getD (p + i - 1) 0) * 3 + (near.getD (p + i) 0 * 3 + far.getD (p + i) 0) + 7) / 16) := by
  intro k
  induction k with
  | zero => intro p last this _ _ _ hl ht; exact ⟨[], by simp [h2v2Mid, hl, ht], rfl, by intro i hi; omega⟩
  | succ k ih =>
    intro p last this hp h1 h2 hl ht
    have g : ∀ (l : List Nat) q, q < l.length → l[q]? = some (l.getD q 0) := by
      intro l q hq; rw [List.getD_eq_getElem?_getD, List.getElem?_eq_getElem hq]; rfl
    have hcs : colsum near far p = some (near.getD p 0 * 3 + far.getD p 0) := by
      unfold colsum; rw [g near p (by omega), g far p (by omega)]; rfl
    obtain ⟨mid, e1, e2, e3⟩ := ih (p + 1) this (near.getD p 0 * 3 + far.getD p 0) (by omega) (by omega) (by omega) (by rw [ht]; rfl) (by rfl)
    refine ⟨(this * 3 + last + 8) / 16 :: (this * 3 + (near.getD p 0 * 3 + far.getD p 0) + 7) / 16 :: mid, ?_, by simp [e2]; omega, ?_⟩
    · unfold h2v2Mid
      rw [hcs]
      simp only [Option.bind_eq_bind, Option.bind_some, e1, Option.pure_def]
      rw [show p + 1 + k = p + (k + 1) by omega]
    · intro i hi
      cases i with
      | zero => rw [hl, ht]; exact ⟨rfl, rfl⟩
      | succ i =>
        obtain ⟨a, b⟩ := e3 i (by omega)
        rw [show 2 * (i + 1) = 2 * i + 1 + 1 by omega, List.getElem?_cons_succ, List.getElem?_cons_succ, List.getElem?_cons_succ, List.getElem?_cons_succ, a, b]
        rw [show p + 1 + i = p + (i + 1) by omega]
        exact ⟨rfl, rfl⟩

/-- **Triangle filter in both directions.** -/
theorem h2v2Row_spec {dw : Nat} (h2 : 2 ≤ dw) (h3 : dw < 2 ^ 32) {near far : List Nat} (hn : dw ≤ near.length) (hf : dw ≤ far.length) :
    ∃ out, h2v2Row dw near far = some out ∧ out.length = 2 * dw ∧ ∀ i, i < dw →
      out[2 * i]? = some ((3 * clampSum dw near far i + clampSum dw near far (i - 1) + 8) / 16) ∧
      out[2 * i + 1]? = some ((3 * clampSum dw near far i + clampSum dw near far (i + 1) + 7) / 16) := by
  have g : ∀ (l : List Nat) q, q < l.length → l[q]? = some (l.getD q 0) := by
    intro l q hq; rw [List.getD_eq_getElem?_getD, List.getElem?_eq_getElem hq]; rfl
  have hcs : ∀ p, p < dw → colsum near far p = some (near.getD p 0 * 3 + far.getD p 0) := by
    intro p hp; unfold colsum; rw [g near p (by omega), g far p (by omega)]; rfl
  have hd : dimSub2 dw = dw - 2 := by unfold dimSub2; omega
  obtain ⟨mid, e1, e2, e3⟩ := h2v2Mid_spec near far (dw - 2) 2 (near.getD 0 0 * 3 + far.getD 0 0) (near.getD 1 0 * 3 + far.getD 1 0) (by omega) (by omega) (by omega) rfl rfl
  unfold h2v2Row
  rw [hcs 0 (by omega), hcs 1 (by omega), hd]
  simp only [Option.bind_eq_bind, Option.bind_some, Option.pure_def, e1]
  refine ⟨_, rfl, by simp [e2]; omega, ?_⟩
  intro i hi
  have hc : ∀ c : Nat, c < dw → clampSum dw near far c = near.getD c 0 * 3 + far.getD c 0 := by
    intro c hc; unfold clampSum clampCol; rw [Int.toNat_natCast, Nat.min_eq_left (by omega)]; omega
  rcases Nat.eq_zero_or_pos i with rfl | hpos
  · have h1 : clampSum dw near far ((0 : Nat) - 1 : Int) = near.getD 0 0 * 3 + far.getD 0 0 := by
      unfold clampSum clampCol; rw [show ((0 : Nat) - 1 : Int).toNat = 0 by omega, Nat.min_eq_left (by omega)]; omega
    have h2' : clampSum dw near far ((0 : Nat) + 1 : Int) = near.getD 1 0 * 3 + far.getD 1 0 := hc 1 (by omega)
    rw [h1, h2', hc 0 (by omega)]
    constructor
    · simp only [Nat.mul_zero, List.getElem?_cons_zero, Option.some.injEq]; omega
    · simp only [Nat.mul_zero, Nat.zero_add, List.getElem?_cons_succ, List.getElem?_cons_zero, Option.some.injEq]; omega
  · have ha : clampSum dw near far ((i : Nat) - 1 : Int) = near.getD (i - 1) 0 * 3 + far.getD (i - 1) 0 := by
      rw [show ((i : Nat) - 1 : Int) = ((i - 1 : Nat) : Int) by omega]; exact hc _ (by omega)
    rw [ha, hc i hi]
    obtain ⟨t, rfl⟩ : ∃ t, i = t + 1 := ⟨i - 1, by omega⟩
    rw [show 2 * (t + 1) = 2 * t + 1 + 1 by omega, List.getElem?_cons_succ, List.getElem?_cons_succ, List.getElem?_cons_succ, List.getElem?_cons_succ]
    by_cases hlast : t + 1 = dw - 1
    · have hb : clampSum dw near far (((t + 1 : Nat) : Int) + 1) = near.getD (t + 1) 0 * 3 + far.getD (t + 1) 0 := by
        unfold clampSum clampCol
        rw [show (((t + 1 : Nat) : Int) + 1).toNat = t + 2 by omega, Nat.min_eq_right (by omega), hlast]
        omega
      rw [hb]
      rw [List.getElem?_append_right (by omega), List.getElem?_append_right (by omega)]
      rw [e2, show 2 * t - 2 * (dw - 2) = 0 by omega, show 2 * t + 1 - 2 * (dw - 2) = 1 by omega]
      simp only [List.getElem?_cons_zero, List.getElem?_cons_succ, Option.some.injEq]
      rw [show 2 + (dw - 2) - 1 = t + 1 by omega, show 2 + (dw - 2) - 2 = t + 1 - 1 by omega]
      constructor
      · omega
      · omega
    · have hb : clampSum dw near far (((t + 1 : Nat) : Int) + 1) = near.getD (t + 2) 0 * 3 + far.getD (t + 2) 0 := hc (t + 2) (by omega)
      rw [hb]
      rw [List.getElem?_append_left (by omega), List.getElem?_append_left (by omega)]
      obtain ⟨a, b⟩ := e3 t (by omega)
      rw [a, b, show 2 + t - 1 = t + 1 by omega, show 2 + t - 2 = t + 1 - 1 by omega, show 2 + t = t + 2 by omega]
      constructor
      · simp only [Option.some.injEq]; omega
      · simp only [Option.some.injEq]; omega

end Verif.Samp
