import Verif.Samp.UpProps
/-
Downsampling of one component (jcsample.c).  A row is the list of the samples of a buffer row (only the first image_width are meaningful at first); reads and writes are checked: one outside the row makes the
result `none`.  `rows r` is the row at index r relative to the first row of the row group.
-/
namespace Verif.Samp

/-- Storing `count` copies of `pix` from position `pos` on (jcsample.c:111-112). -/
def setRun (pix : Nat) : (count pos : Nat) → List Nat → Option (List Nat)
  | 0, _, row => some row
  | k + 1, pos, row => if pos < row.length then setRun pix k (pos + 1) (row.set pos pix) else none

/-- expand_right_edge (jcsample.c:96-115), one row. -/
def expandRight (row : List Nat) (ic oc : Nat) : Option (List Nat) :=
  if (oc : Int) - ic > 0 then do
    let pix ← row[ic - 1]?
    setRun pix (oc - ic) ic row
  else some row

/-- expand_right_edge (jcsample.c:96-115): `n` rows from index `lo` on; the rows of a component are distinct memory. -/
def expandRows (ic oc : Nat) : (n : Nat) → (lo : Int) → (Int → List Nat) → Option (Int → List Nat)
  | 0, _, rows => some rows
  | k + 1, lo, rows => do
    let r ← expandRight (rows lo) ic oc
    expandRows ic oc k (lo + 1) (fun i => if i = lo then r else rows i)

/-- The shape of the column loops: `p` is the input pointer, `bias` the alternating bias. -/
def colLoop (step : Nat) (next : Nat → Nat) (f : Nat → Nat → Option Nat) : (k p bias : Nat) → Option (List Nat)
  | 0, _, _ => some []
  | k + 1, p, bias => do
    let v ← f p bias
    let rest ← colLoop step next f k (p + step) (next bias)
    pure (v :: rest)

/-- Sum of `n` samples of a row from position `p` on (jcsample.c:181-184). -/
def sumRun (row : List Nat) : (n p : Nat) → Option Nat
  | 0, _ => some 0
  | k + 1, p => do
    let a ← row[p]?
    let s ← sumRun row k (p + 1)
    pure (a + s)

/-- Sum over `n` rows (jcsample.c:179-185). -/
def sumRows (rows : Int → List Nat) (he p : Nat) : (n : Nat) → (r : Int) → Option Nat
  | 0, _ => some 0
  | k + 1, r => do
    let a ← sumRun (rows r) he p
    let s ← sumRows rows he p k (r + 1)
    pure (a + s)

/-- int_downsample (jcsample.c:150-191); `w` = image_width, `oc` = output_cols, `vs` = v_samp_factor. -/
def intDown (w oc he ve vs maxV : Nat) (rows : Int → List Nat) : Option (List (List Nat)) := do
  let rows ← expandRows w (oc * he) maxV 0 rows
  let numpix := he * ve
  (List.range vs).mapM (fun outrow =>
    colLoop he id (fun p _ => do
      let s ← sumRows rows he p ve ((outrow * ve : Nat) : Int)
      pure ((s + numpix / 2) / numpix)) oc 0 0)

/-- fullsize_downsample (jcsample.c:200-213): the copied samples are followed by whatever the output row held (`stale`). -/
def fullDown (w oc maxV stale : Nat) (rows : Int → List Nat) : Option (List (List Nat)) :=
  (List.range maxV).mapM (fun r : Nat =>
    if w ≤ (rows r).length then expandRight ((rows r).take w ++ List.replicate (oc - w) stale) w oc else none)

/-- h2v1_downsample (jcsample.c:228-258). -/
def h2v1Down (w oc vs maxV : Nat) (rows : Int → List Nat) : Option (List (List Nat)) := do
  let rows ← expandRows w (oc * 2) maxV 0 rows
  (List.range vs).mapM (fun outrow =>
    let row := rows (outrow : Nat)
    colLoop 2 (fun b => b ^^^ 1) (fun p bias => do
      let a ← row[p]?
      let b ← row[p + 1]?
      pure ((a + b + bias) >>> 1)) oc 0 0)

/-- h2v2_downsample (jcsample.c:267-302). -/
def h2v2Down (w oc vs maxV : Nat) (rows : Int → List Nat) : Option (List (List Nat)) := do
  let rows ← expandRows w (oc * 2) maxV 0 rows
  (List.range vs).mapM (fun outrow =>
    let row0 := rows ((outrow * 2 : Nat) : Int)
    let row1 := rows ((outrow * 2 : Nat) + 1 : Int)
    colLoop 2 (fun b => b ^^^ 3) (fun p bias => do
      let a ← row0[p]?
      let b ← row0[p + 1]?
      let c ← row1[p]?
      let d ← row1[p + 1]?
      pure ((a + b + c + d + bias) >>> 2)) oc 0 1)

/-- Weighted sum, rounded and descaled (jcsample.c:361-362, 447-448). -/
def weigh (ms ns : Int) (m n : Int) : Nat := ((m * ms + n * ns + 32768) / 65536).toNat

/-- One output sample of h2v2_smooth_downsample (jcsample.c:355-392): `p` = column of the pointers, `l` and `r` the columns taken as left and right neighbours. -/
def smooth22 (ms ns : Int) (in0 in1 above below : List Nat) (p l r : Nat) : Option Nat := do
  let a0 ← in0[p]?
  let a1 ← in0[p + 1]?
  let b0 ← in1[p]?
  let b1 ← in1[p + 1]?
  let u0 ← above[p]?
  let u1 ← above[p + 1]?
  let d0 ← below[p]?
  let d1 ← below[p + 1]?
  let al ← in0[l]?
  let ar ← in0[r]?
  let bl ← in1[l]?
  let br ← in1[r]?
  let ul ← above[l]?
  let ur ← above[r]?
  let dl ← below[l]?
  let dr ← below[r]?
  let member : Int := a0 + a1 + b0 + b1
  let neigh : Int := u0 + u1 + d0 + d1 + al + ar + bl + br
  let neigh := neigh + neigh
  let neigh := neigh + (ul + ur + dl + dr)
  pure (weigh ms ns member neigh)

/-- h2v2_smooth_downsample (jcsample.c:313-398). -/
def h2v2Smooth (w oc vs maxV sf : Nat) (rows : Int → List Nat) : Option (List (List Nat)) := do
  let rows ← expandRows w (oc * 2) (maxV + 2) (-1) rows
  let ms : Int := 16384 - sf * 80
  let ns : Int := sf * 16
  (List.range vs).mapM (fun outrow => do
    let in0 := rows ((outrow * 2 : Nat) : Int)
    let in1 := rows ((outrow * 2 : Nat) + 1 : Int)
    let above := rows ((outrow * 2 : Nat) - 1 : Int)
    let below := rows ((outrow * 2 : Nat) + 2 : Int)
    let first ← smooth22 ms ns in0 in1 above below 0 0 2
    let mid ← colLoop 2 id (fun p _ => smooth22 ms ns in0 in1 above below p (p - 1) (p + 2)) (dimSub2 oc) 2 0
    let q := 2 + 2 * dimSub2 oc
    let last ← smooth22 ms ns in0 in1 above below q (q - 1) (q + 1)
    pure (first :: mid ++ [last]))

/-- Sum of a column of three rows (jcsample.c:430, 441). -/
def col3 (row above below : List Nat) (p : Nat) : Option Int := do
  let a ← above[p]?
  let b ← below[p]?
  let c ← row[p]?
  pure ((a : Int) + b + c)

/-- The general case of fullsize_smooth_downsample (jcsample.c:438-447), ending with the last column (jcsample.c:449-453). -/
def smooth11 (ms ns : Int) (row above below : List Nat) : (k p : Nat) → (last col : Int) → Option (List Nat)
  | 0, p, last, col => do
    let m ← row[p]?
    pure [weigh ms ns m (last + (col - m) + col)]
  | k + 1, p, last, col => do
    let m ← row[p]?
    let next ← col3 row above below (p + 1)
    let rest ← smooth11 ms ns row above below k (p + 1) col next
    pure (weigh ms ns m (last + (col - m) + next) :: rest)

/-- fullsize_smooth_downsample (jcsample.c:407-456). -/
def fullSmooth (w oc vs maxV sf : Nat) (rows : Int → List Nat) : Option (List (List Nat)) := do
  let rows ← expandRows w oc (maxV + 2) (-1) rows
  let ms : Int := 65536 - sf * 512
  let ns : Int := sf * 64
  (List.range vs).mapM (fun outrow => do
    let row := rows (outrow : Nat)
    let above := rows ((outrow : Nat) - 1 : Int)
    let below := rows ((outrow : Nat) + 1 : Int)
    let col ← col3 row above below 0
    let m ← row[(0 : Nat)]?
    let next ← col3 row above below 1
    let rest ← smooth11 ms ns row above below (dimSub2 oc) 1 col next
    pure (weigh ms ns m (col + (col - m) + next) :: rest))

/-- The per-component methods. -/
inductive DMethod where
  | full | fullSmooth | h2v1 | h2v2 | h2v2Smooth | int
deriving DecidableEq, Repr

/-- Method selection in jinit_downsampler (jcsample.c:491-540); `none` is JERR_FRACT_SAMPLE_NOTIMPL. -/
def selectDown (h v maxH maxV sf : Nat) : Option DMethod :=
  if h = maxH ∧ v = maxV then some (if sf ≠ 0 then .fullSmooth else .full)
  else if h * 2 = maxH ∧ v = maxV then some .h2v1
  else if h * 2 = maxH ∧ v * 2 = maxV then some (if sf ≠ 0 then .h2v2Smooth else .h2v2)
  else if maxH % h = 0 ∧ maxV % v = 0 then some .int
  else none

/-- pub.need_context_rows (jcsample.c:498, 521). -/
def DMethod.context : DMethod → Bool
  | .fullSmooth | .h2v2Smooth => true
  | _ => false

/-- Running a method on a row group; `oc` = width_in_blocks * data_unit. -/
def DMethod.run (m : DMethod) (w oc h v maxH maxV sf stale : Nat) (rows : Int → List Nat) : Option (List (List Nat)) :=
  match m with
  | .full => fullDown w oc maxV stale rows
  | .fullSmooth => Samp.fullSmooth w oc v maxV sf rows
  | .h2v1 => h2v1Down w oc v maxV rows
  | .h2v2 => h2v2Down w oc v maxV rows
  | .h2v2Smooth => Samp.h2v2Smooth w oc v maxV sf rows
  | .int => intDown w oc (maxH / h) (maxV / v) v maxV rows

/-! ### edge expansion -/

theorem setRun_spec (pix : Nat) : ∀ (k pos : Nat) (row : List Nat), pos + k ≤ row.length →
    ∃ e, setRun pix k pos row = some e ∧ e.length = row.length ∧ ∀ c, c < row.length → e[c]? = if pos ≤ c ∧ c < pos + k then some pix else row[c]? := by
  intro k
  induction k with
  | zero => intro pos row _; exact ⟨row, rfl, rfl, fun c _ => by rw [if_neg (by omega)]⟩
  | succ k ih =>
    intro pos row h
    unfold setRun
    rw [if_pos (by omega)]
    obtain ⟨e, e1, e2, e3⟩ := ih (pos + 1) (row.set pos pix) (by simp; omega)
    refine ⟨e, e1, by simpa using e2, ?_⟩
    intro c hc
    rw [e3 c (by simpa using hc)]
    by_cases h1 : pos + 1 ≤ c ∧ c < pos + 1 + k
    · rw [if_pos h1, if_pos (by omega)]
    · rw [if_neg h1]
      by_cases h2 : c = pos
      · subst h2
        rw [if_pos (by omega), List.getElem?_set_self hc]
      · rw [if_neg (by omega), List.getElem?_set_ne (by omega)]

/-- A row after edge expansion: the real samples are kept, the rest up to `oc` is the last real sample. -/
theorem expandRight_spec {row : List Nat} {ic oc : Nat} (h0 : 0 < ic) (h1 : ic ≤ row.length) (h2 : oc ≤ row.length) :
    ∃ e, expandRight row ic oc = some e ∧ e.length = row.length ∧ ∀ c, c < max ic oc → e[c]? = some (clampCol ic row c) := by
  have g : ∀ q, q < row.length → row[q]? = some (row.getD q 0) := by
    intro q hq; rw [List.getD_eq_getElem?_getD, List.getElem?_eq_getElem hq]; rfl
  unfold expandRight
  by_cases hc : (oc : Int) - ic > 0
  · rw [if_pos hc, g (ic - 1) (by omega)]
    obtain ⟨e, e1, e2, e3⟩ := setRun_spec (row.getD (ic - 1) 0) (oc - ic) ic row (by omega)
    refine ⟨e, by simpa using e1, e2, ?_⟩
    intro c hc'
    rw [e3 c (by omega)]
    unfold clampCol
    rw [Int.toNat_natCast]
    by_cases h : c < ic
    · rw [if_neg (by omega), Nat.min_eq_left (by omega), g c (by omega)]
    · rw [if_pos (by omega), Nat.min_eq_right (by omega)]
  · rw [if_neg hc]
    refine ⟨row, rfl, rfl, ?_⟩
    intro c hc'
    unfold clampCol
    rw [Int.toNat_natCast, Nat.min_eq_left (by omega), g c (by omega)]

theorem expandRows_spec {ic oc : Nat} (h0 : 0 < ic) (hle : ic ≤ oc) : ∀ (n : Nat) (lo : Int) (rows : Int → List Nat), (∀ r, lo ≤ r → r < lo + n → oc ≤ (rows r).length) →
    ∃ rows', expandRows ic oc n lo rows = some rows' ∧ (∀ r, r < lo → rows' r = rows r) ∧
      ∀ r, lo ≤ r → r < lo + n → ∀ c, c < oc → (rows' r)[c]? = some (px ic rows r c) := by
  intro n
  induction n with
  | zero => intro lo rows _; exact ⟨rows, rfl, fun _ _ => rfl, fun r h1 h2 => by omega⟩
  | succ n ih =>
    intro lo rows h
    obtain ⟨e, e1, e2, e3⟩ := expandRight_spec (row := rows lo) h0 (by have := h lo (by omega) (by omega); omega) (h lo (by omega) (by omega))
    obtain ⟨rows', f1, f2, f3⟩ := ih (lo + 1) (fun i => if i = lo then e else rows i) (by
      intro r hr1 hr2
      rw [if_neg (by omega)]
      exact h r (by omega) (by omega))
    refine ⟨rows', by simp [expandRows, e1, f1], ?_, ?_⟩
    · intro r hr
      rw [f2 r (by omega), if_neg (by omega)]
    · intro r hr1 hr2 c hc
      by_cases hr : r = lo
      · subst hr
        rw [f2 r (by omega), if_pos rfl]
        exact e3 c (by omega)
      · rw [f3 r (by omega) (by omega) c hc]
        show some (clampCol ic (if r = lo then e else rows r) c) = _
        rw [if_neg hr]
        rfl

/-! ### column loops -/

theorem colLoop_spec (step : Nat) (next : Nat → Nat) (f : Nat → Nat → Option Nat) (b : Nat → Nat) (hb : ∀ i, b (i + 1) = next (b i)) (val : Nat → Nat) :
    ∀ (k j : Nat) (p : Nat), (∀ i, i < k → f (p + i * step) (b (j + i)) = some (val (j + i))) →
    ∃ out, colLoop step next f k p (b j) = some out ∧ out.length = k ∧ ∀ i, i < k → out[i]? = some (val (j + i)) := by
  intro k
  induction k with
  | zero => intro j p _; exact ⟨[], rfl, rfl, by intro i hi; omega⟩
  | succ k ih =>
    intro j p h
    obtain ⟨out, e1, e2, e3⟩ := ih (j + 1) (p + step) (by
      intro i hi
      have := h (i + 1) (by omega)
      rw [Nat.succ_mul] at this
      rw [show p + step + i * step = p + (i * step + step) by omega, show j + 1 + i = j + (i + 1) by omega]
      exact this)
    have h0 := h 0 (by omega)
    rw [Nat.zero_mul, Nat.add_zero, Nat.add_zero] at h0
    rw [hb] at e1
    refine ⟨val j :: out, by simp [colLoop, h0, e1], by simp [e2], ?_⟩
    intro i hi
    cases i with
    | zero => rfl
    | succ i => rw [List.getElem?_cons_succ, e3 i (by omega), show j + 1 + i = j + (i + 1) by omega]

theorem sumRun_spec {row : List Nat} {g : Nat → Nat} : ∀ (n p : Nat), (∀ i, i < n → row[p + i]? = some (g (p + i))) →
    sumRun row n p = some (((List.range n).map (fun i => g (p + i))).sum) := by
  intro n
  induction n with
  | zero => intro p _; rfl
  | succ n ih =>
    intro p h
    have h0 := h 0 (by omega)
    rw [Nat.add_zero] at h0
    unfold sumRun
    rw [h0, ih (p + 1) (by intro i hi; rw [show p + 1 + i = p + (i + 1) by omega]; exact h (i + 1) (by omega))]
    simp only [Option.bind_eq_bind, Option.bind_some, Option.pure_def, Option.some.injEq]
    rw [List.range_succ_eq_map, List.map_cons, List.map_map, List.sum_cons, Nat.add_zero]
    congr 3
    funext i
    simp only [Function.comp]
    congr 1; omega

theorem sumRows_spec {rows : Int → List Nat} {he p : Nat} {g : Int → Nat → Nat} : ∀ (n : Nat) (r : Int),
    (∀ v : Nat, v < n → ∀ i, i < he → (rows (r + v))[p + i]? = some (g (r + v) (p + i))) →
    sumRows rows he p n r = some (((List.range n).map (fun v : Nat => ((List.range he).map (fun i => g (r + v) (p + i))).sum)).sum) := by
  intro n
  induction n with
  | zero => intro r _; rfl
  | succ n ih =>
    intro r h
    unfold sumRows
    rw [sumRun_spec (g := g r) he p (by have := h 0 (by omega); simpa using this)]
    rw [ih (r + 1) (by intro v hv; have := h (v + 1) (by omega); rw [show r + 1 + (v : Int) = r + ((v + 1 : Nat) : Int) by omega]; exact this)]
    simp only [Option.bind_eq_bind, Option.bind_some, Option.pure_def, Option.some.injEq]
    rw [List.range_succ_eq_map, List.map_cons, List.map_map, List.sum_cons]
    congr 3
    · funext i; congr 2; simp
    · funext v
      simp only [Function.comp]
      congr 3
      funext i
      congr 1; omega

end Verif.Samp
