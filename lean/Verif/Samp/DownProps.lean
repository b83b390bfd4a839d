import Verif.Samp.Down
import Mathlib.Tactic.Linarith
/-
C23: downsampling.
-/
namespace Verif.Samp

/-- Sum of `f` over the `he` by `ve` input samples that map to output sample (y, x). -/
def boxSum (he ve : Nat) (f : Int → Int → Nat) (y x : Nat) : Nat :=
  ((List.range ve).map (fun v => ((List.range he).map (fun i => f ((y * ve + v : Nat) : Int) ((x * he + i : Nat) : Int))).sum)).sum

/-- What output sample (y, x) of the row group must be, where `f r c` is the input sample at row r and column c (columns beyond the image edges repeating the edge sample).  Without smoothing: the mean of the input
samples mapped to it, rounded (in the 2:1 cases with alternating rounding).  With smoothing: a weighted mean of those samples and the samples around them, with weights in units of 1/65536. -/
def DMethod.value (m : DMethod) (he ve sf : Nat) (f : Int → Int → Nat) (y x : Nat) : Nat :=
  match m with
  | .full => f y x
  | .h2v1 => (f y (2 * x) + f y (2 * x + 1) + x % 2) / 2
  | .h2v2 => (f (2 * y) (2 * x) + f (2 * y) (2 * x + 1) + f (2 * y + 1) (2 * x) + f (2 * y + 1) (2 * x + 1) + (1 + x % 2)) / 4
  | .int => (boxSum he ve f y x + he * ve / 2) / (he * ve)
  | .fullSmooth =>
    (((f y x : Int) * (65536 - sf * 512) +
      ((f (y - 1) (x - 1) : Int) + f (y - 1) x + f (y - 1) (x + 1) + f y (x - 1) + f y (x + 1) + f (y + 1) (x - 1) + f (y + 1) x + f (y + 1) (x + 1)) * (sf * 64) + 32768) / 65536).toNat
  | .h2v2Smooth =>
    (((((f (2 * y) (2 * x) : Int) + f (2 * y) (2 * x + 1) + f (2 * y + 1) (2 * x) + f (2 * y + 1) (2 * x + 1)) * (16384 - sf * 80) +
      (2 * ((f (2 * y - 1) (2 * x) : Int) + f (2 * y - 1) (2 * x + 1) + f (2 * y + 2) (2 * x) + f (2 * y + 2) (2 * x + 1) +
        f (2 * y) (2 * x - 1) + f (2 * y) (2 * x + 2) + f (2 * y + 1) (2 * x - 1) + f (2 * y + 1) (2 * x + 2)) +
        (f (2 * y - 1) (2 * x - 1) + f (2 * y - 1) (2 * x + 2) + f (2 * y + 2) (2 * x - 1) + f (2 * y + 2) (2 * x + 2))) * (sf * 16)) + 32768) / 65536).toNat

/-- What is known of a component when its downsampling method runs: the output is wide enough to cover the image, and the buffer rows (with one row above and one below if the method asks for them) hold the input samples for
all output columns. -/
structure DReady (m : DMethod) (w oc h v maxH maxV sf : Nat) (rows : Int → List Nat) : Prop where
  hPos : 0 < h
  vPos : 0 < v
  maxHPos : 0 < maxH
  maxVPos : 0 < maxV
  wPos : 0 < w
  ocMin : 8 ≤ oc ∨ m.context = false
  ocSmall : oc < 2 ^ 32
  cover : w ≤ oc * (maxH / h)
  factor : sf ≤ 100
  rowsOk : ∀ r : Int, (if m.context then -1 else 0) ≤ r → r < maxV + (if m.context then 1 else 0) → oc * (maxH / h) ≤ (rows r).length

/-- What a run must produce: v_samp_factor rows of output_cols samples. -/
def DMethod.Produces (m : DMethod) (he ve sf w oc v : Nat) (rows : Int → List Nat) (res : Option (List (List Nat))) : Prop :=
  ∃ out, res = some out ∧ out.length = v ∧ ∀ y, y < v → ∃ row, out[y]? = some row ∧ row.length = oc ∧
    ∀ x, x < oc → row[x]? = some (m.value he ve sf (px w rows) y x)

theorem smooth22_some {ms ns : Int} {in0 in1 above below : List Nat} {g0 g1 ga gb : Nat → Nat} {n p l r : Nat} (h0 : ∀ c, c < n → in0[c]? = some (g0 c)) (h1 : ∀ c, c < n → in1[c]? = some (g1 c))
    (ha : ∀ c, c < n → above[c]? = some (ga c)) (hb : ∀ c, c < n → below[c]? = some (gb c)) (hp : p + 1 < n) (hl : l < n) (hr : r < n) :
    smooth22 ms ns in0 in1 above below p l r = some (weigh ms ns ((g0 p : Int) + g0 (p + 1) + g1 p + g1 (p + 1))
      (2 * ((ga p : Int) + ga (p + 1) + gb p + gb (p + 1) + g0 l + g0 r + g1 l + g1 r) + (ga l + ga r + gb l + gb r))) := by
  unfold smooth22
  rw [h0 p (by omega), h0 (p + 1) hp, h1 p (by omega), h1 (p + 1) hp, ha p (by omega), ha (p + 1) hp, hb p (by omega), hb (p + 1) hp, h0 l hl, h0 r hr, h1 l hl, h1 r hr, ha l hl, ha r hr, hb l hl, hb r hr]
  simp only [Option.bind_eq_bind, Option.bind_some, Option.pure_def, Option.some.injEq]
  congr 1
  ring

theorem weigh_congr {ms ns m m' n n' : Int} (h1 : m = m') (h2 : n = n') : some (weigh ms ns m n) = some (weigh ms ns m' n') := by rw [h1, h2]

theorem px_congr {w : Nat} {rows : Int → List Nat} {r a b : Int} (h : a = b) : px w rows r a = px w rows r b := by rw [h]

theorem smooth11_spec {ms ns : Int} {row above below : List Nat} {g ga gb : Nat → Nat} {n : Nat} (h0 : ∀ c, c < n → row[c]? = some (g c)) (ha : ∀ c, c < n → above[c]? = some (ga c))
    (hb : ∀ c, c < n → below[c]? = some (gb c)) : ∀ (k p : Nat) (last col : Int), 0 < p → p + k + 1 = n → last = (ga (p - 1) : Int) + gb (p - 1) + g (p - 1) → col = (ga p : Int) + gb p + g p →
    ∃ out, smooth11 ms ns row above below k p last col = some out ∧ out.length = k + 1 ∧ ∀ i, i < k + 1 →
      out[i]? = some (weigh ms ns (g (p + i)) (((ga (p + i - 1) : Int) + gb (p + i - 1) + g (p + i - 1)) + (ga (p + i) + gb (p + i)) +
        ((ga (min (p + i + 1) (n - 1)) : Int) + gb (min (p + i + 1) (n - 1)) + g (min (p + i + 1) (n - 1))))) := by
  intro k
  induction k with
  | zero =>
    intro p last col hp hn hlast hcol
    unfold smooth11
    rw [h0 p (by omega)]
    refine ⟨_, rfl, rfl, ?_⟩
    intro i hi
    have : i = 0 := by omega
    subst this
    rw [List.getElem?_cons_zero, Nat.add_zero, show min (p + 1) (n - 1) = p by omega, hlast, hcol]
    congr 2
    ring
  | succ k ih =>
    intro p last col hp hn hlast hcol
    unfold smooth11
    have hc : col3 row above below (p + 1) = some ((ga (p + 1) : Int) + gb (p + 1) + g (p + 1)) := by
      unfold col3; rw [ha (p + 1) (by omega), hb (p + 1) (by omega), h0 (p + 1) (by omega)]; rfl
    obtain ⟨out, e1, e2, e3⟩ := ih (p + 1) col ((ga (p + 1) : Int) + gb (p + 1) + g (p + 1)) (by omega) (by omega) hcol rfl
    rw [h0 p (by omega), hc]
    simp only [Option.bind_eq_bind, Option.bind_some, Option.pure_def, e1]
    refine ⟨_, rfl, by simp [e2], ?_⟩
    intro i hi
    cases i with
    | zero =>
      rw [List.getElem?_cons_zero, Nat.add_zero, show min (p + 1) (n - 1) = p + 1 by omega, hlast, hcol]
      congr 2
      ring
    | succ i =>
      rw [List.getElem?_cons_succ, e3 i (by omega), show p + 1 + i = p + (i + 1) by omega]

theorem bias1 (i : Nat) : (i + 1) % 2 = i % 2 ^^^ 1 := by
  rcases Nat.mod_two_eq_zero_or_one i with h | h
  · rw [h, show (i + 1) % 2 = 1 by omega]; rfl
  · rw [h, show (i + 1) % 2 = 0 by omega]; rfl

theorem bias3 (i : Nat) : 1 + (i + 1) % 2 = (1 + i % 2) ^^^ 3 := by
  rcases Nat.mod_two_eq_zero_or_one i with h | h
  · rw [h, show (i + 1) % 2 = 1 by omega]; rfl
  · rw [h, show (i + 1) % 2 = 0 by omega]; rfl

theorem clamp_right {w : Nat} {row : List Nat} {c : Int} {n : Nat} (h : (w : Int) ≤ n) (hc : (n : Int) ≤ c) (hw : 0 < w) : clampCol w row c = clampCol w row (n - 1) := by
  unfold clampCol
  rw [Nat.min_eq_right (by omega), Nat.min_eq_right (by omega)]

theorem clamp_left {w : Nat} {row : List Nat} : clampCol w row (-1) = clampCol w row 0 := by
  unfold clampCol; rfl

/-- **C23: downsampling.**  For every component whose sampling factors are supported the chosen method turns a row group into exactly v_samp_factor rows of output_cols samples, without touching memory outside the
buffer rows, and every sample has the value given by the averaging or smoothing formula; the right edge is extended by repeating the last image column only. -/
theorem C23_downsample {w oc h v maxH maxV sf stale : Nat} {rows : Int → List Nat} {m : DMethod} (hm : selectDown h v maxH maxV sf = some m) (hR : DReady m w oc h v maxH maxV sf rows) :
    m.Produces (maxH / h) (maxV / v) sf w oc v rows (m.run w oc h v maxH maxV sf stale rows) := by
  obtain ⟨h0, v0, mh0, mv0, w0, hoc, hos, hcov, hsf, hrows⟩ := hR
  have hself : ∀ {a : Nat}, 0 < a → a / a = 1 := fun h => Nat.div_self h
  have hdbl : ∀ {a : Nat}, 0 < a → a * 2 / a = 2 := fun h => Nat.mul_div_cancel_left 2 h
  unfold selectDown at hm
  by_cases c1 : h = maxH ∧ v = maxV
  · rw [if_pos c1, Option.some.injEq] at hm
    obtain ⟨rfl, rfl⟩ := c1
    rw [hself h0, Nat.mul_one] at hcov hrows
    by_cases hs : sf ≠ 0
    · rw [if_pos hs] at hm
      subst hm
      simp only [DMethod.context, if_true] at hrows
      have hoc8 : 8 ≤ oc := by rcases hoc with h | h; exact h; cases h
      have hd : dimSub2 oc = oc - 2 := by unfold dimSub2; omega
      clear hos
      obtain ⟨rows', f1, _, f3⟩ := expandRows_spec (ic := w) (oc := oc) w0 hcov (v + 2) (-1) rows (fun r hr1 hr2 => hrows r hr1 (by omega))
      simp only [DMethod.run, Samp.fullSmooth, f1, hd]
      refine mapM_range _ _ (fun (y : Nat) (row : List Nat) => row.length = oc ∧ ∀ x, x < oc → row[x]? = some (DMethod.fullSmooth.value (h / h) (v / v) sf (px w rows) y x)) ?_
      intro y hy
      have g0 : ∀ c, c < oc → (rows' (y : Int))[c]? = some (px w rows (y : Int) c) := f3 y (by omega) (by omega)
      have g1 : ∀ c, c < oc → (rows' ((y : Int) - 1))[c]? = some (px w rows ((y : Int) - 1) c) := f3 (y - 1) (by omega) (by omega)
      have g2 : ∀ c, c < oc → (rows' ((y : Int) + 1))[c]? = some (px w rows ((y : Int) + 1) c) := f3 (y + 1) (by omega) (by omega)
      have hc : ∀ c, c < oc → col3 (rows' (y : Int)) (rows' ((y : Int) - 1)) (rows' ((y : Int) + 1)) c = some ((px w rows ((y : Int) - 1) c : Int) + px w rows ((y : Int) + 1) c + px w rows (y : Int) c) := by
        intro c hc; unfold col3; rw [g1 c hc, g2 c hc, g0 c hc]; rfl
      obtain ⟨out, e1, e2, e3⟩ := smooth11_spec (ms := 65536 - sf * 512) (ns := sf * 64) (g := fun c => px w rows (y : Int) c) (ga := fun c => px w rows ((y : Int) - 1) c)
        (gb := fun c => px w rows ((y : Int) + 1) c) g0 g1 g2 (oc - 2) 1 _ _ (by omega) (by omega) rfl rfl
      have hc1 := hc 1 (by omega)
      have g00 := g0 0 (by omega)
      rw [hc 0 (by omega), hc1, g00, Option.bind_eq_bind, Option.bind_some, Option.bind_eq_bind, Option.bind_some, Option.bind_eq_bind, Option.bind_some]
      simp only [Nat.sub_self] at e1
      rw [e1]
      refine ⟨_, rfl, by simp [e2]; omega, ?_⟩
      intro x hx
      cases x with
      | zero =>
        rw [List.getElem?_cons_zero]
        have hl : ∀ r, px w rows r (((0 : Nat) : Int) - 1) = px w rows r ((0 : Nat) : Int) := fun r => clamp_left
        refine weigh_congr rfl ?_
        rw [hl, hl, hl]
        simp only [Nat.cast_zero, zero_add, Nat.cast_one]
        ring
      | succ x =>
        rw [List.getElem?_cons_succ, e3 x (by omega), show 1 + x = x + 1 by omega]
        have hl : ∀ r, px w rows r (((x + 1 : Nat) : Int) - 1) = px w rows r ((x + 1 - 1 : Nat) : Int) := by
          intro r; exact px_congr (by omega)
        have hr : ∀ r, px w rows r (((x + 1 : Nat) : Int) + 1) = px w rows r ((min (x + 1 + 1) (oc - 1) : Nat) : Int) := by
          intro r
          by_cases hx' : x + 1 + 1 ≤ oc - 1
          · rw [Nat.min_eq_left hx']; rfl
          · rw [Nat.min_eq_right (by omega)]
            unfold px
            rw [clamp_right (n := oc) (by omega) (by omega) w0]
            exact congrArg _ (by omega)
        refine weigh_congr rfl ?_
        rw [hl, hl, hl, hr, hr, hr]
        ring
    · rw [if_neg hs] at hm
      subst hm
      simp only [DMethod.context] at hrows
      simp only [DMethod.run, fullDown]
      refine mapM_range _ _ (fun (y : Nat) (row : List Nat) => row.length = oc ∧ ∀ x, x < oc → row[x]? = some (DMethod.full.value (h / h) (v / v) sf (px w rows) y x)) ?_
      intro y hy
      have hl := hrows y (by simp) (by simp; omega)
      rw [if_pos (by omega)]
      obtain ⟨e, e1, e2, e3⟩ := expandRight_spec (row := (rows (y : Int)).take w ++ List.replicate (oc - w) stale) (ic := w) (oc := oc) w0 (by simp; omega) (by simp; omega)
      refine ⟨e, e1, by rw [e2]; simp; omega, ?_⟩
      intro x hx
      rw [e3 x (by omega)]
      simp only [DMethod.value, px, clampCol, Option.some.injEq]
      rw [List.getD_eq_getElem?_getD, List.getElem?_append_left (by simp; omega), List.getElem?_take, if_pos (by omega), ← List.getD_eq_getElem?_getD]
  rw [if_neg c1] at hm
  by_cases c2 : h * 2 = maxH ∧ v = maxV
  · rw [if_pos c2, Option.some.injEq] at hm
    obtain ⟨rfl, rfl⟩ := c2
    subst hm
    rw [hdbl h0] at hcov hrows
    simp only [DMethod.context] at hrows
    obtain ⟨rows', f1, _, f3⟩ := expandRows_spec (ic := w) (oc := oc * 2) w0 hcov v 0 rows (fun r hr1 hr2 => hrows r (by simpa using hr1) (by simpa using hr2))
    simp only [DMethod.run, h2v1Down, f1]
    refine mapM_range _ _ (fun (y : Nat) (row : List Nat) => row.length = oc ∧ ∀ x, x < oc → row[x]? = some (DMethod.h2v1.value (h * 2 / h) (v / v) sf (px w rows) y x)) ?_
    intro y hy
    have g0 : ∀ c, c < oc * 2 → (rows' (y : Int))[c]? = some (px w rows (y : Int) c) := f3 y (by omega) (by omega)
    obtain ⟨out, e1, e2, e3⟩ := colLoop_spec 2 (fun b => b ^^^ 1) (fun p bias => do
      let a ← (rows' (y : Int))[p]?
      let b ← (rows' (y : Int))[p + 1]?
      pure ((a + b + bias) >>> 1)) (fun i => i % 2) bias1 (fun x => DMethod.h2v1.value (h * 2 / h) (v / v) sf (px w rows) y x) oc 0 0 (by
        intro i hi
        simp only [g0 (0 + i * 2) (by omega), g0 (0 + i * 2 + 1) (by omega), Option.bind_eq_bind, Option.bind_some, Option.pure_def, Option.some.injEq, DMethod.value, Nat.shiftRight_eq_div_pow, pow_one]
        rw [show ((0 + i * 2 : Nat) : Int) = 2 * ((0 + i : Nat) : Int) by omega, show ((0 + i * 2 + 1 : Nat) : Int) = 2 * ((0 + i : Nat) : Int) + 1 by omega])
    exact ⟨out, e1, e2, fun x hx => by have := e3 x hx; rwa [Nat.zero_add] at this⟩
  rw [if_neg c2] at hm
  by_cases c3 : h * 2 = maxH ∧ v * 2 = maxV
  · rw [if_pos c3, Option.some.injEq] at hm
    obtain ⟨rfl, rfl⟩ := c3
    rw [hdbl h0] at hcov hrows
    by_cases hs : sf ≠ 0
    · rw [if_pos hs] at hm
      subst hm
      simp only [DMethod.context, if_true] at hrows
      have hoc8 : 8 ≤ oc := by rcases hoc with h | h; exact h; cases h
      have hd : dimSub2 oc = oc - 2 := by unfold dimSub2; omega
      clear hos
      obtain ⟨rows', f1, _, f3⟩ := expandRows_spec (ic := w) (oc := oc * 2) w0 hcov (v * 2 + 2) (-1) rows (fun r hr1 hr2 => hrows r hr1 (by omega))
      simp only [DMethod.run, Samp.h2v2Smooth, f1, hd]
      refine mapM_range _ _ (fun (y : Nat) (row : List Nat) => row.length = oc ∧ ∀ x, x < oc → row[x]? = some (DMethod.h2v2Smooth.value (h * 2 / h) (v * 2 / v) sf (px w rows) y x)) ?_
      intro y hy
      have g0 : ∀ c, c < oc * 2 → (rows' ((y * 2 : Nat) : Int))[c]? = some (px w rows (2 * y) c) := by
        rw [show ((y * 2 : Nat) : Int) = 2 * (y : Int) by omega]; exact f3 _ (by omega) (by omega)
      have g1 : ∀ c, c < oc * 2 → (rows' ((y * 2 : Nat) + 1 : Int))[c]? = some (px w rows (2 * y + 1) c) := by
        rw [show ((y * 2 : Nat) : Int) = 2 * (y : Int) by omega]; exact f3 _ (by omega) (by omega)
      have ga : ∀ c, c < oc * 2 → (rows' ((y * 2 : Nat) - 1 : Int))[c]? = some (px w rows (2 * y - 1) c) := by
        rw [show ((y * 2 : Nat) : Int) = 2 * (y : Int) by omega]; exact f3 _ (by omega) (by omega)
      have gb : ∀ c, c < oc * 2 → (rows' ((y * 2 : Nat) + 2 : Int))[c]? = some (px w rows (2 * y + 2) c) := by
        rw [show ((y * 2 : Nat) : Int) = 2 * (y : Int) by omega]; exact f3 _ (by omega) (by omega)
      have one : ∀ (x : Nat) (p l r : Nat), x < oc → p = 2 * x → (∀ q, px w rows q (l : Nat) = px w rows q (2 * x - 1)) → (∀ q, px w rows q (r : Nat) = px w rows q (2 * x + 2)) → l < oc * 2 → r < oc * 2 →
          smooth22 (16384 - sf * 80) (sf * 16) (rows' ((y * 2 : Nat) : Int)) (rows' ((y * 2 : Nat) + 1 : Int)) (rows' ((y * 2 : Nat) - 1 : Int)) (rows' ((y * 2 : Nat) + 2 : Int)) p l r =
            some (DMethod.h2v2Smooth.value (h * 2 / h) (v * 2 / v) sf (px w rows) y x) := by
        intro x p l r hx hp hl hr hl' hr'
        rw [smooth22_some g0 g1 ga gb (show p + 1 < oc * 2 by omega) hl' hr']
        subst hp
        simp only [hl, hr]
        rfl
      rw [one 0 0 0 2 (by omega) rfl (fun q => (clamp_left (row := rows q)).symm) (fun q => rfl) (by omega) (by omega)]
      obtain ⟨out, e1, e2, e3⟩ := colLoop_spec 2 id (fun p _ => smooth22 (16384 - sf * 80) (sf * 16) (rows' ((y * 2 : Nat) : Int)) (rows' ((y * 2 : Nat) + 1 : Int)) (rows' ((y * 2 : Nat) - 1 : Int)) (rows' ((y * 2 : Nat) + 2 : Int)) p (p - 1) (p + 2))
        (fun _ => 0) (fun _ => rfl) (fun x => DMethod.h2v2Smooth.value (h * 2 / h) (v * 2 / v) sf (px w rows) y x) (oc - 2) 1 2 (by
          intro i hi
          refine one (1 + i) _ _ _ (by omega) (by omega) ?_ ?_ (by omega) (by omega)
          · intro q; exact px_congr (by omega)
          · intro q; exact px_congr (by omega))
      rw [Option.bind_eq_bind, Option.bind_some, e1, Option.bind_eq_bind, Option.bind_some]
      rw [one (oc - 1) (2 + 2 * (oc - 2)) _ _ (by omega) (by omega) (fun q => px_congr (by omega)) (by
        intro q
        unfold px
        rw [clamp_right (c := 2 * ((oc - 1 : Nat) : Int) + 2) (n := oc * 2) (by omega) (by omega) w0]
        exact congrArg _ (by omega)) (by omega) (by omega)]
      refine ⟨_, rfl, by simp [e2]; omega, ?_⟩
      intro x hx
      cases x with
      | zero => rfl
      | succ x =>
        rw [List.cons_append, List.getElem?_cons_succ]
        by_cases hl : x < oc - 2
        · rw [List.getElem?_append_left (by omega), e3 x hl, show 1 + x = x + 1 by omega]
        · rw [List.getElem?_append_right (by omega), e2, show x - (oc - 2) = 0 by omega, show oc - 1 = x + 1 by omega]
          rfl
    · rw [if_neg hs] at hm
      subst hm
      simp only [DMethod.context] at hrows
      obtain ⟨rows', f1, _, f3⟩ := expandRows_spec (ic := w) (oc := oc * 2) w0 hcov (v * 2) 0 rows (fun r hr1 hr2 => hrows r (by simpa using hr1) (by simpa using hr2))
      simp only [DMethod.run, h2v2Down, f1]
      refine mapM_range _ _ (fun (y : Nat) (row : List Nat) => row.length = oc ∧ ∀ x, x < oc → row[x]? = some (DMethod.h2v2.value (h * 2 / h) (v * 2 / v) sf (px w rows) y x)) ?_
      intro y hy
      have g0 : ∀ c, c < oc * 2 → (rows' ((y * 2 : Nat) : Int))[c]? = some (px w rows (2 * y) c) := by
        rw [show ((y * 2 : Nat) : Int) = 2 * (y : Int) by omega]; exact f3 _ (by omega) (by omega)
      have g1 : ∀ c, c < oc * 2 → (rows' ((y * 2 : Nat) + 1 : Int))[c]? = some (px w rows (2 * y + 1) c) := by
        rw [show ((y * 2 : Nat) : Int) = 2 * (y : Int) by omega]; exact f3 _ (by omega) (by omega)
      obtain ⟨out, e1, e2, e3⟩ := colLoop_spec 2 (fun b => b ^^^ 3) (fun p bias => do
        let a ← (rows' ((y * 2 : Nat) : Int))[p]?
        let b ← (rows' ((y * 2 : Nat) : Int))[p + 1]?
        let c ← (rows' ((y * 2 : Nat) + 1 : Int))[p]?
        let d ← (rows' ((y * 2 : Nat) + 1 : Int))[p + 1]?
        pure ((a + b + c + d + bias) >>> 2)) (fun i => 1 + i % 2) bias3 (fun x => DMethod.h2v2.value (h * 2 / h) (v * 2 / v) sf (px w rows) y x) oc 0 0 (by
          intro i hi
          simp only [g0 (0 + i * 2) (by omega), g0 (0 + i * 2 + 1) (by omega), g1 (0 + i * 2) (by omega), g1 (0 + i * 2 + 1) (by omega), Option.bind_eq_bind, Option.bind_some, Option.pure_def, Option.some.injEq, DMethod.value, Nat.shiftRight_eq_div_pow]
          rw [show ((0 + i * 2 : Nat) : Int) = 2 * ((0 + i : Nat) : Int) by omega, show ((0 + i * 2 + 1 : Nat) : Int) = 2 * ((0 + i : Nat) : Int) + 1 by omega])
      exact ⟨out, e1, e2, fun x hx => by have := e3 x hx; rwa [Nat.zero_add] at this⟩
  rw [if_neg c3] at hm
  split at hm
  · rename_i c5
    rw [Option.some.injEq] at hm
    subst hm
    have hd2 := Nat.mul_div_cancel' (Nat.dvd_of_mod_eq_zero c5.2)
    simp only [DMethod.context] at hrows
    obtain ⟨rows', f1, _, f3⟩ := expandRows_spec (ic := w) (oc := oc * (maxH / h)) w0 hcov maxV 0 rows (fun r hr1 hr2 => hrows r (by simpa using hr1) (by simpa using hr2))
    simp only [DMethod.run, intDown, f1]
    refine mapM_range _ _ (fun (y : Nat) (row : List Nat) => row.length = oc ∧ ∀ x, x < oc → row[x]? = some (DMethod.int.value (maxH / h) (maxV / v) sf (px w rows) y x)) ?_
    intro y hy
    obtain ⟨out, e1, e2, e3⟩ := colLoop_spec (maxH / h) id (fun p _ => do
      let s ← sumRows rows' (maxH / h) p (maxV / v) ((y * (maxV / v) : Nat) : Int)
      pure ((s + (maxH / h) * (maxV / v) / 2) / ((maxH / h) * (maxV / v)))) (fun _ => 0) (fun _ => rfl) (fun x => DMethod.int.value (maxH / h) (maxV / v) sf (px w rows) y x) oc 0 0 (by
        intro i hi
        rw [sumRows_spec (g := fun r c => px w rows r c) _ _ (by
          intro v' hv' j hj
          refine f3 _ (by omega) ?_ _ ?_
          · have : (y + 1) * (maxV / v) ≤ v * (maxV / v) := Nat.mul_le_mul_right _ hy
            rw [hd2, Nat.succ_mul] at this
            omega
          · have : (i + 1) * (maxH / h) ≤ oc * (maxH / h) := Nat.mul_le_mul_right _ hi
            rw [Nat.succ_mul] at this
            omega)]
        simp only [Option.bind_eq_bind, Option.bind_some, Option.pure_def, Option.some.injEq, DMethod.value, boxSum, Nat.zero_add, Nat.cast_add])
    exact ⟨out, e1, e2, fun x hx => by have := e3 x hx; rwa [Nat.zero_add] at this⟩
  · cases hm

theorem sum_between {l : List Nat} {lo hi : Nat} (h : ∀ x ∈ l, lo ≤ x ∧ x ≤ hi) : l.length * lo ≤ l.sum ∧ l.sum ≤ l.length * hi := by
  induction l with
  | nil => simp
  | cons a l ih =>
    have h1 := h a (by simp)
    have h2 := ih (fun x hx => h x (by simp [hx]))
    simp only [List.length_cons, List.sum_cons, Nat.succ_mul]
    omega

/-- The input samples (rows relative to the group) a method may use for output sample (y, x): the samples mapped to it, and one sample further on each side when smoothing. -/
def DMethod.near (m : DMethod) (he ve y x : Nat) (r c : Int) : Prop :=
  if m.context then ((y * ve : Nat) : Int) - 1 ≤ r ∧ r ≤ ((y + 1) * ve : Nat) ∧ ((x * he : Nat) : Int) - 1 ≤ c ∧ c ≤ ((x + 1) * he : Nat)
  else ((y * ve : Nat) : Int) ≤ r ∧ r < ((y + 1) * ve : Nat) ∧ ((x * he : Nat) : Int) ≤ c ∧ c < ((x + 1) * he : Nat)

/-- **C23: no new extremes.**  An output sample lies between the smallest and the largest of the input samples it is made of; a constant area is reproduced. -/
theorem C23_between {h v maxH maxV sf : Nat} {m : DMethod} (hm : selectDown h v maxH maxV sf = some m) (h0 : 0 < h) (v0 : 0 < v) (mh0 : 0 < maxH) (mv0 : 0 < maxV) (hsf : sf ≤ 100) (f : Int → Int → Nat) (y x lo hi : Nat)
    (hf : ∀ r c, m.near (maxH / h) (maxV / v) y x r c → lo ≤ f r c ∧ f r c ≤ hi) :
    lo ≤ m.value (maxH / h) (maxV / v) sf f y x ∧ m.value (maxH / h) (maxV / v) sf f y x ≤ hi := by
  have hself : ∀ {a : Nat}, 0 < a → a / a = 1 := fun h => Nat.div_self h
  have hdbl : ∀ {a : Nat}, 0 < a → a * 2 / a = 2 := fun h => Nat.mul_div_cancel_left 2 h
  unfold selectDown at hm
  by_cases c1 : h = maxH ∧ v = maxV
  · rw [if_pos c1, Option.some.injEq] at hm
    obtain ⟨rfl, rfl⟩ := c1
    by_cases hs : sf ≠ 0
    · rw [if_pos hs] at hm
      subst hm
      simp only [DMethod.near, DMethod.context, if_true, hself h0, hself v0, Nat.mul_one] at hf
      have k := fun (r c : Int) (h1 : (y : Int) - 1 ≤ r ∧ r ≤ y + 1 ∧ (x : Int) - 1 ≤ c ∧ c ≤ x + 1) => hf r c (by omega)
      simp only [DMethod.value]
      have a0 := k y x (by omega)
      have a1 := k (y - 1) (x - 1) (by omega)
      have a2 := k (y - 1) x (by omega)
      have a3 := k (y - 1) (x + 1) (by omega)
      have a4 := k y (x - 1) (by omega)
      have a5 := k y (x + 1) (by omega)
      have a6 := k (y + 1) (x - 1) (by omega)
      have a7 := k (y + 1) x (by omega)
      have a8 := k (y + 1) (x + 1) (by omega)
      generalize hN : ((f (y - 1) (x - 1) : Int) + f (y - 1) x + f (y - 1) (x + 1) + f y (x - 1) + f y (x + 1) + f (y + 1) (x - 1) + f (y + 1) x + f (y + 1) (x + 1)) = N
      generalize f y x = M at *
      have n1 : 8 * (lo : Int) ≤ N := by omega
      have n2 : N ≤ 8 * (hi : Int) := by omega
      have l1 := Int.mul_le_mul_of_nonneg_right (show (lo : Int) ≤ M by omega) (show (0 : Int) ≤ 65536 - sf * 512 by omega)
      have l2 := Int.mul_le_mul_of_nonneg_right n1 (show (0 : Int) ≤ sf * 64 by omega)
      have u1 := Int.mul_le_mul_of_nonneg_right (show (M : Int) ≤ hi by omega) (show (0 : Int) ≤ 65536 - sf * 512 by omega)
      have u2 := Int.mul_le_mul_of_nonneg_right n2 (show (0 : Int) ≤ sf * 64 by omega)
      have el : (lo : Int) * (65536 - sf * 512) + 8 * (lo : Int) * (sf * 64) = 65536 * lo := by ring
      have eh : (hi : Int) * (65536 - sf * 512) + 8 * (hi : Int) * (sf * 64) = 65536 * hi := by ring
      omega
    · rw [if_neg hs] at hm
      subst hm
      simp only [DMethod.near, DMethod.context, hself h0, hself v0, Nat.mul_one] at hf
      exact hf y x (by simp)
  rw [if_neg c1] at hm
  by_cases c2 : h * 2 = maxH ∧ v = maxV
  · rw [if_pos c2, Option.some.injEq] at hm
    obtain ⟨rfl, rfl⟩ := c2
    subst hm
    simp only [DMethod.near, DMethod.context, hdbl h0, hself v0, Nat.mul_one] at hf
    have k := fun (r c : Int) (h1 : r = y ∧ 2 * (x : Int) ≤ c ∧ c ≤ 2 * x + 1) => hf r c (by simp; omega)
    have a0 := k y (2 * x) (by omega)
    have a1 := k y (2 * x + 1) (by omega)
    simp only [DMethod.value]
    omega
  rw [if_neg c2] at hm
  by_cases c3 : h * 2 = maxH ∧ v * 2 = maxV
  · rw [if_pos c3, Option.some.injEq] at hm
    obtain ⟨rfl, rfl⟩ := c3
    by_cases hs : sf ≠ 0
    · rw [if_pos hs] at hm
      subst hm
      simp only [DMethod.near, DMethod.context, if_true, hdbl h0, hdbl v0] at hf
      have k := fun (r c : Int) (h1 : 2 * (y : Int) - 1 ≤ r ∧ r ≤ 2 * y + 2 ∧ 2 * (x : Int) - 1 ≤ c ∧ c ≤ 2 * x + 2) => hf r c (by omega)
      simp only [DMethod.value]
      have m1 := k (2 * y) (2 * x) (by omega)
      have m2 := k (2 * y) (2 * x + 1) (by omega)
      have m3 := k (2 * y + 1) (2 * x) (by omega)
      have m4 := k (2 * y + 1) (2 * x + 1) (by omega)
      have a1 := k (2 * y - 1) (2 * x) (by omega)
      have a2 := k (2 * y - 1) (2 * x + 1) (by omega)
      have a3 := k (2 * y + 2) (2 * x) (by omega)
      have a4 := k (2 * y + 2) (2 * x + 1) (by omega)
      have a5 := k (2 * y) (2 * x - 1) (by omega)
      have a6 := k (2 * y) (2 * x + 2) (by omega)
      have a7 := k (2 * y + 1) (2 * x - 1) (by omega)
      have a8 := k (2 * y + 1) (2 * x + 2) (by omega)
      have b1 := k (2 * y - 1) (2 * x - 1) (by omega)
      have b2 := k (2 * y - 1) (2 * x + 2) (by omega)
      have b3 := k (2 * y + 2) (2 * x - 1) (by omega)
      have b4 := k (2 * y + 2) (2 * x + 2) (by omega)
      generalize hM : ((f (2 * y) (2 * x) : Int) + f (2 * y) (2 * x + 1) + f (2 * y + 1) (2 * x) + f (2 * y + 1) (2 * x + 1)) = M
      generalize hN : (2 * ((f (2 * y - 1) (2 * x) : Int) + f (2 * y - 1) (2 * x + 1) + f (2 * y + 2) (2 * x) + f (2 * y + 2) (2 * x + 1) +
        f (2 * y) (2 * x - 1) + f (2 * y) (2 * x + 2) + f (2 * y + 1) (2 * x - 1) + f (2 * y + 1) (2 * x + 2)) +
        (f (2 * y - 1) (2 * x - 1) + f (2 * y - 1) (2 * x + 2) + f (2 * y + 2) (2 * x - 1) + f (2 * y + 2) (2 * x + 2))) = N
      have n1 : 20 * (lo : Int) ≤ N := by omega
      have n2 : N ≤ 20 * (hi : Int) := by omega
      have p1 : 4 * (lo : Int) ≤ M := by omega
      have p2 : M ≤ 4 * (hi : Int) := by omega
      clear hM hN m1 m2 m3 m4 a1 a2 a3 a4 a5 a6 a7 a8 b1 b2 b3 b4 k hf
      have l1 := Int.mul_le_mul_of_nonneg_right p1 (show (0 : Int) ≤ 16384 - sf * 80 by omega)
      have l2 := Int.mul_le_mul_of_nonneg_right n1 (show (0 : Int) ≤ sf * 16 by omega)
      have u1 := Int.mul_le_mul_of_nonneg_right p2 (show (0 : Int) ≤ 16384 - sf * 80 by omega)
      have u2 := Int.mul_le_mul_of_nonneg_right n2 (show (0 : Int) ≤ sf * 16 by omega)
      have el : 4 * (lo : Int) * (16384 - sf * 80) + 20 * (lo : Int) * (sf * 16) = 65536 * lo := by ring
      have eh : 4 * (hi : Int) * (16384 - sf * 80) + 20 * (hi : Int) * (sf * 16) = 65536 * hi := by ring
      omega
    · rw [if_neg hs] at hm
      subst hm
      simp only [DMethod.near, DMethod.context, hdbl h0, hdbl v0] at hf
      have k := fun (r c : Int) (h1 : 2 * (y : Int) ≤ r ∧ r ≤ 2 * y + 1 ∧ 2 * (x : Int) ≤ c ∧ c ≤ 2 * x + 1) => hf r c (by simp; omega)
      have m1 := k (2 * y) (2 * x) (by omega)
      have m2 := k (2 * y) (2 * x + 1) (by omega)
      have m3 := k (2 * y + 1) (2 * x) (by omega)
      have m4 := k (2 * y + 1) (2 * x + 1) (by omega)
      simp only [DMethod.value]
      omega
  rw [if_neg c3] at hm
  split at hm
  · rename_i c5
    rw [Option.some.injEq] at hm
    subst hm
    have hd1 := Nat.mul_div_cancel' (Nat.dvd_of_mod_eq_zero c5.1)
    have hd2 := Nat.mul_div_cancel' (Nat.dvd_of_mod_eq_zero c5.2)
    have p1 : 0 < maxH / h := by
      rcases Nat.eq_zero_or_pos (maxH / h) with h' | h'
      · rw [h'] at hd1; omega
      · exact h'
    have p2 : 0 < maxV / v := by
      rcases Nat.eq_zero_or_pos (maxV / v) with h' | h'
      · rw [h'] at hd2; omega
      · exact h'
    generalize maxH / h = he at *
    generalize maxV / v = ve at *
    simp only [DMethod.near, DMethod.context] at hf
    have hb : he * ve * lo ≤ boxSum he ve f y x ∧ boxSum he ve f y x ≤ he * ve * hi := by
      have := sum_between (l := (List.range ve).map (fun v => ((List.range he).map (fun i => f ((y * ve + v : Nat) : Int) ((x * he + i : Nat) : Int))).sum)) (lo := he * lo) (hi := he * hi) (by
        intro s hs
        obtain ⟨v', hv', rfl⟩ := List.mem_map.1 hs
        have := sum_between (l := (List.range he).map (fun i => f ((y * ve + v' : Nat) : Int) ((x * he + i : Nat) : Int))) (lo := lo) (hi := hi) (by
          intro s hs
          obtain ⟨i, hi', rfl⟩ := List.mem_map.1 hs
          have hv := List.mem_range.1 hv'
          have hi := List.mem_range.1 hi'
          refine hf _ _ ?_
          simp only [Bool.false_eq_true, if_false, Nat.succ_mul]
          omega)
        simpa using this)
      simp only [List.length_map, List.length_range] at this
      rw [show he * ve * lo = ve * (he * lo) by ring, show he * ve * hi = ve * (he * hi) by ring]
      exact this
    have np : 0 < he * ve := Nat.mul_pos p1 p2
    simp only [DMethod.value]
    generalize he * ve = n at *
    constructor
    · rw [Nat.le_div_iff_mul_le np, Nat.mul_comm]; omega
    · rw [← Nat.lt_succ_iff, Nat.div_lt_iff_lt_mul np, Nat.succ_mul, Nat.mul_comm hi]; omega
  · cases hm

/-- A constant area is reproduced exactly. -/
theorem C23_constant {h v maxH maxV sf : Nat} {m : DMethod} (hm : selectDown h v maxH maxV sf = some m) (h0 : 0 < h) (v0 : 0 < v) (mh0 : 0 < maxH) (mv0 : 0 < maxV) (hsf : sf ≤ 100) (f : Int → Int → Nat) (y x k : Nat)
    (hf : ∀ r c, m.near (maxH / h) (maxV / v) y x r c → f r c = k) : m.value (maxH / h) (maxV / v) sf f y x = k := by
  have := C23_between hm h0 v0 mh0 mv0 hsf f y x k k (fun r c hn => by rw [hf r c hn]; omega)
  omega

/-! Concrete cases. -/

example : selectDown 1 1 2 2 0 = some .h2v2 := by decide
example : selectDown 1 1 2 2 50 = some .h2v2Smooth := by decide
example : selectDown 1 2 3 2 50 = some .int := by decide

/-- Rows of an image 5 pixels wide in a buffer of 16 samples (the rest is stale). -/
def exRows (r : Int) : List Nat := [10 * (r.toNat + 1), 20, 30, 40, 250] ++ List.replicate 11 77

example : DReady .h2v2Smooth 5 8 1 1 2 2 50 exRows where
  hPos := by decide
  vPos := by decide
  maxHPos := by decide
  maxVPos := by decide
  wPos := by decide
  ocMin := by decide
  ocSmall := by decide
  cover := by decide
  factor := by decide
  rowsOk := by intro r _ _; simp [exRows]

example : DMethod.run .h2v2 5 8 1 1 2 2 0 0 exRows = some [[17, 35, 250, 250, 250, 250, 250, 250]] := by decide +kernel
example : DMethod.run .h2v2Smooth 5 8 1 1 2 2 50 0 exRows = some [[19, 50, 235, 250, 250, 250, 250, 250]] := by decide +kernel

end Verif.Samp
