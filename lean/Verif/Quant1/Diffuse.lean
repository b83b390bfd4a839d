import Verif.Quant1.Ordered
/-
Floyd-Steinberg dithering: the single error array and the three running variables compute the textbook
two-dimensional diffusion.
-/
namespace Verif.Quant1
open Verif.Color (castSample)

/-! ## Specification -/

/-- The error carried into column `x` of a row worked on in direction `d` (1 or -1), in sixteenths: 7 parts from the
pixel before it in this row; from the row above (which was worked on in the opposite direction), 3 parts from the column
before, 5 from the column itself and 1 from the column after. `prev` and `e` are the errors of the row above and of this
row. -/
def carried (d : Int) (prev e : Int → Int) (x : Int) : Int :=
  7 * e (x - d) + (3 * prev (x - d) + 5 * prev x + prev (x + d))

/-- A row of one component diffused: the value rounded is the sample plus the carried error (rounded to an integer),
limited to the sample range; the error left is its distance to the level shown; nothing comes from outside the image. -/
structure RowDiffused (k : Cfg) (n : Nat) (d : Int) (v : Nat → Nat) (prev e : Int → Int) (want : Nat → Nat) : Prop where
  outside : ∀ x : Int, x < 0 ∨ (k.width : Int) ≤ x → e x = 0
  want_eq : ∀ x, x < k.width → want x = clampTo k.max ((v x : Int) + (carried d prev e x + 8) / 16)
  left : ∀ x, x < k.width → e (x : Nat) = (want x : Int) - level k.max n (pick k.max n (want x))

/-! ## The column loop, in processing order -/

/-- The value rounded, given the previous pixel's error. -/
def wantAt (M : Nat) (v : Nat → Nat) (a : Nat → Int) (t : Nat) (p : Int) : Nat :=
  clampTo M ((v t : Int) + (7 * p + a t + 8) / 16)

/-- The error left by a value. -/
def errOf (M n w : Nat) : Int := (w : Int) - level M n (pick M n w)

/-- The error left at the `t`-th pixel, shifted by two: `G 0 = G 1 = 0`. -/
def gSeq (M n : Nat) (v : Nat → Nat) (a : Nat → Int) : Nat → Int
  | 0 => 0
  | 1 => 0
  | t + 2 => errOf M n (wantAt M v a t (gSeq M n v a (t + 1)))

/-- The value rounded at the `t`-th pixel. -/
def wSeq (M n : Nat) (v : Nat → Nat) (a : Nat → Int) (t : Nat) : Nat := wantAt M v a t (gSeq M n v a (t + 1))

/-- Everything is bounded by half of MAXJSAMPLE, plus one. -/
theorem errOf_bound {M n : Nat} (hn : 2 ≤ n) (hM : n ≤ M + 1) (w : Nat) :
    -(M + 2 : Int) ≤ 2 * errOf M n w ∧ 2 * errOf M n w ≤ M + 2 := by
  have h := pick_err' hn hM w
  unfold errOf
  rcases abs_cases ((w : Int) - level M n (pick M n w)) with ⟨e, _⟩ | ⟨e, _⟩ <;> rw [e] at h <;> omega

theorem gSeq_bound {M n : Nat} (hn : 2 ≤ n) (hM : n ≤ M + 1) (v : Nat → Nat) (a : Nat → Int) (t : Nat) :
    -(M + 2 : Int) ≤ 2 * gSeq M n v a t ∧ 2 * gSeq M n v a t ≤ M + 2 := by
  match t with
  | 0 => simp [gSeq]; omega
  | 1 => simp [gSeq]; omega
  | t + 2 => rw [gSeq]; exact errOf_bound hn hM _

theorem castErr_of {c : Nat} (hc : c = 128 ∨ c = 2048) {x : Int} (h : -(18 * c : Int) ≤ x ∧ x ≤ 18 * c) :
    castErr c x = x := by
  unfold castErr
  rcases hc with rfl | rfl
  · rw [if_pos (by omega)]; omega
  · rw [if_neg (by omega)]

/-- Where the loop runs: columns and array positions in processing order. -/
structure Path (k : Cfg) (dir : Int) (col pos : Nat → Nat) : Prop where
  col_lt : ∀ t, t < k.width → col t < k.width
  col_next : ∀ t, t + 1 < k.width → (col t : Int) + dir = col (t + 1)
  col_inj : ∀ s t, s < k.width → t < k.width → col s = col t → s = t
  pos_lt : ∀ t, t ≤ k.width + 1 → pos t < k.width + 2
  pos_next : ∀ t, t ≤ k.width → (pos t : Int) + dir = pos (t + 1)
  pos_inj : ∀ s t, s ≤ k.width + 1 → t ≤ k.width + 1 → pos s = pos t → s = t

theorem fsLoop {k : Cfg} {q : Q} (h : Static k q) {ci : Nat} (hci : ci < k.nc) {inp : List Nat} (hr : RowOk k inp)
    {dir : Int} {col pos : Nat → Nat} (hp : Path k dir col pos)
    {t : PTab Nat} (ht : ∀ v : Nat, v ≤ k.max → t.get? (v : Int) =
      some (pick k.max (q.ncolors.getD ci 1) v * blk q.ncolors ci))
    {cm : List Nat} (hcm : q.colormap[ci]? = some cm)
    {err : List Int} (hel : err.length = k.width + 2) {a : Nat → Int}
    (hea : ∀ s, s < k.width → err[pos (s + 1)]? = some (a s))
    (hab : ∀ s, s < k.width → -(9 * (k.max + 2) : Int) ≤ 2 * a s ∧ 2 * a s ≤ 9 * (k.max + 2))
    {out : List Nat} {P : Nat → Nat} (hol : out.length = k.width) (ho : ∀ x, x < k.width → out[x]? = some (P x))
    (hfit : ∀ x w, x < k.width → w ≤ k.max →
      P x + pick k.max (q.ncolors.getD ci 1) w * blk q.ncolors ci ≤ k.max)
    {s0 : FsSt} (hs0 : s0.cur = 0 ∧ s0.below = 0 ∧ s0.bprev = 0 ∧
      (0 < k.width → s0.ip = ((col 0 * k.nc + ci : Nat) : Int) ∧ s0.op = col 0) ∧ s0.ep = pos 0 ∧
      s0.err = err ∧ s0.out = out) :
    ∃ s, forN (fun _ s => fsPixel k t cm dir inp s) k.width s0 = some s ∧
      let n := q.ncolors.getD ci 1
      let v := fun t => samp k inp (col t) ci
      let G := gSeq k.max n v a
      s.bprev = G k.width + 5 * G (k.width + 1) ∧ s.ep = pos k.width ∧ s.err.length = k.width + 2 ∧
      (∀ j, j < k.width → s.err[pos j]? = some (G j + 5 * G (j + 1) + 3 * G (j + 2))) ∧
      s.out.length = k.width ∧
      (∀ j, j < k.width → s.out[col j]? = some (P (col j) + pick k.max n (wSeq k.max n v a j) * blk q.ncolors ci)) := by
  obtain ⟨n, hn⟩ : ∃ n, n = q.ncolors.getD ci 1 := ⟨_, rfl⟩
  obtain ⟨v, hv⟩ : ∃ v : Nat → Nat, v = fun t => samp k inp (col t) ci := ⟨_, rfl⟩
  obtain ⟨G, hG⟩ : ∃ G, G = gSeq k.max n v a := ⟨_, rfl⟩
  obtain ⟨hn2, hnM⟩ := h.n_bound hci
  rw [← hn] at hn2 hnM ht hfit
  dsimp only
  rw [← hn, ← hv, ← hG]
  have hmx : (k.max : Int) + 1 = 2 * k.c := by unfold Cfg.max; rcases h.c with hc | hc <;> omega
  have hGb : ∀ t, -(k.max + 2 : Int) ≤ 2 * G t ∧ 2 * G t ≤ k.max + 2 := by
    intro t; rw [hG]; exact gSeq_bound hn2 hnM v a t
  have hG0 : G 0 = 0 := by rw [hG]; rfl
  have hG1 : G 1 = 0 := by rw [hG]; rfl
  obtain ⟨y, e1, e2, e3, e4, e5, e6, e7, e8, e9, e10, e11⟩ := forN_inv (f := fun _ s => fsPixel k t cm dir inp s)
    (fun i (s : FsSt) => s.cur = 7 * G (i + 1) ∧ s.below = G (i + 1) ∧ s.bprev = G i + 5 * G (i + 1) ∧
      (i < k.width → s.ip = ((col i * k.nc + ci : Nat) : Int) ∧ s.op = col i) ∧ s.ep = pos i ∧
      s.err.length = k.width + 2 ∧
      (∀ j, j < i → s.err[pos j]? = some (G j + 5 * G (j + 1) + 3 * G (j + 2))) ∧
      (∀ j, i ≤ j → j < k.width → s.err[pos (j + 1)]? = some (a j)) ∧
      s.out.length = k.width ∧
      (∀ j, j < i → s.out[col j]? = some (P (col j) + pick k.max n (wSeq k.max n v a j) * blk q.ncolors ci)) ∧
      (∀ j, i ≤ j → j < k.width → s.out[col j]? = some (P (col j)))) k.width s0 (by
      obtain ⟨c1, c2, c3, c4, c5, c6, c7⟩ := hs0
      refine ⟨by rw [c1, hG1]; rfl, by rw [c2, hG1], by rw [c3, hG0, hG1]; rfl, c4, c5, by rw [c6]; exact hel,
        fun j hj => by omega, fun j _ hj => by rw [c6]; exact hea j hj, by rw [c7]; exact hol,
        fun j hj => by omega, fun j _ hj => by rw [c7]; exact ho _ (hp.col_lt j hj)⟩) (by
      rintro i s hi ⟨c1, c2, c3, c4, c5, c6, c7, c8, c9, c10, c11⟩
      obtain ⟨c4a, c4b⟩ := c4 hi
      have hcol := hp.col_lt i hi
      obtain ⟨v1, v2⟩ := hr.get hcol hci
      have hvi : v i = samp k inp (col i) ci := by rw [hv]
      rw [← hvi] at v1 v2
      have g1 := hGb i
      have g2 := hGb (i + 1)
      have g3 := hGb (i + 2)
      have ga := hab i hi
      -- the value rounded
      obtain ⟨w, hw⟩ : ∃ w, w = wSeq k.max n v a i := ⟨_, rfl⟩
      have hwle : w ≤ k.max := by rw [hw]; exact clampTo_le _ _
      have hGi : G (i + 2) = (w : Int) - level k.max n (pick k.max n w) := by rw [hw, hG]; rfl
      obtain ⟨row, p1, p2, p3⟩ := h.palette.2 ci (by rw [h.len]; exact hci)
      rw [hcm] at p1; injection p1 with p1; subst p1
      -- the index used to look the level up
      have hpl := pick_lt hn2 hnM hwle
      have hpixlt : pick k.max n w * blk q.ncolors ci < q.ncolors.prod := by
        have b1 := blk_le h.two (show ci < q.ncolors.length by rw [h.len]; exact hci)
        rw [← getD_eq (show ci < q.ncolors.length by rw [h.len]; exact hci), ← hn] at b1
        have b2 : (pick k.max n w + 1) * blk q.ncolors ci ≤ n * blk q.ncolors ci := Nat.mul_le_mul_right _ hpl
        have b3 : (pick k.max n w + 1) * blk q.ncolors ci = pick k.max n w * blk q.ncolors ci + blk q.ncolors ci := by ring
        have b4 := blk_pos h.two ci
        omega
      have hcmr : cm[pick k.max n w * blk q.ncolors ci]? = some (level k.max n (pick k.max n w)) := by
        rw [p3 _ hpixlt]
        unfold digit
        rw [Nat.mul_div_cancel _ (blk_pos h.two ci), ← hn, Nat.mod_eq_of_lt hpl]
      have hposi := hp.pos_lt i (by omega)
      have hop : col i < s.out.length := by omega
      have hep : pos i < s.err.length := by omega
      refine ⟨⟨7 * G (i + 2), G (i + 2), G (i + 1) + 5 * G (i + 2), s.ip + dir * k.nc, s.op + dir, s.ep + dir,
        s.err.set (pos i) (G i + 5 * G (i + 1) + 3 * G (i + 2)),
        s.out.set (col i) (P (col i) + pick k.max n w * blk q.ncolors ci)⟩, ?_, rfl, rfl, rfl, ?_, ?_, ?_, ?_, ?_, ?_, ?_, ?_⟩
      · unfold fsPixel
        rw [c5, hp.pos_next i (by omega), rd_nat, c8 i (le_refl _) hi, c4a, rd_nat, v1]
        simp only [Option.bind_eq_bind, Option.bind_some]
        rw [c1, rangeLimit_simple k.c _ (by omega) (by omega)]
        simp only [Option.bind_some]
        have hclamp : clampTo (2 * k.c - 1) ((7 * G (i + 1) + a i + 8) / 16 + (v i : Int)) = w := by
          rw [hw]; unfold wSeq wantAt
          rw [← hG]
          show clampTo k.max _ = _
          congr 1; ring
        rw [hclamp, ht w hwle]
        simp only [Option.bind_some]
        rw [c4b, rd_nat, c11 i (le_refl _) hi]
        simp only [Option.bind_some]
        rw [castSample_of_lt h.c (hfit (col i) w hcol hwle), wr_nat hop]
        simp only [Option.bind_some]
        rw [hcmr]
        simp only [Option.bind_some]
        rw [c3, ← hGi]
        have hce : castErr k.c (G i + 5 * G (i + 1) + (G (i + 2) + G (i + 2) * 2)) = G i + 5 * G (i + 1) + 3 * G (i + 2) := by
          rw [castErr_of h.c (by omega)]; ring
        rw [hce, wr_nat hep]
        simp only [Option.bind_some]
        rw [c2]
        show some _ = some _
        congr 2 <;> ring
      · intro hlt
        have hnx := hp.col_next i hlt
        dsimp only
        refine ⟨?_, ?_⟩
        · rw [c4a]; push_cast; rw [← hnx]; ring
        · rw [c4b]; exact hnx
      · dsimp only; rw [c5]; exact hp.pos_next i (by omega)
      · dsimp only; rw [List.length_set]; exact c6
      · intro j hj
        dsimp only
        rw [get_set hep]
        by_cases he : j = i
        · subst he; rw [if_pos rfl]
        · rw [if_neg (fun e => he (hp.pos_inj j i (by omega) (by omega) e))]; exact c7 j (by omega)
      · intro j h1 h2
        dsimp only
        rw [get_set hep, if_neg (fun e => by have := hp.pos_inj (j + 1) i (by omega) (by omega) e; omega)]
        exact c8 j (by omega) h2
      · dsimp only; rw [List.length_set]; exact c9
      · intro j hj
        dsimp only
        rw [get_set hop]
        by_cases he : j = i
        · subst he; rw [if_pos rfl, hw]
        · rw [if_neg (fun e => he (hp.col_inj j i (by omega) hi e))]; exact c10 j (by omega)
      · intro j h1 h2
        dsimp only
        rw [get_set hop, if_neg (fun e => by have := hp.col_inj j i h2 hi e; omega)]
        exact c11 j (by omega) h2)
  exact ⟨y, e1, e4, e6, e7, e8, e10, e11.1⟩

/-! ## One component of one row, in column order -/

/-- Direction of a row. -/
def dirOf (odd : Bool) : Int := if odd then -1 else 1

/-- What the error array holds before a row in direction `d`: for every column, what it gets from the row above. -/
def Holds (k : Cfg) (d : Int) (prev : Int → Int) (err : List Int) : Prop :=
  err.length = k.width + 2 ∧
  ∀ x, x < k.width → err[x + 1]? = some (3 * prev ((x : Int) - d) + 5 * prev x + prev ((x : Int) + d))

/-- Errors are at most half of MAXJSAMPLE, plus one. -/
def Small (k : Cfg) (e : Int → Int) : Prop := ∀ x, -(k.max + 2 : Int) ≤ 2 * e x ∧ 2 * e x ≤ k.max + 2

theorem path_even (k : Cfg) : Path k 1 (fun t => t) (fun t => t) :=
  ⟨fun _ h => h, fun t _ => by push_cast; rfl, fun _ _ _ _ h => h, fun t h => by omega,
    fun t _ => by push_cast; rfl, fun _ _ _ _ h => h⟩

theorem path_odd (k : Cfg) : Path k (-1) (fun t => k.width - 1 - t) (fun t => k.width + 1 - t) :=
  ⟨fun t h => by omega, fun t h => by omega, fun s t h1 h2 h => by omega,
    fun t h => by omega, fun t h => by omega, fun s t h1 h2 h => by omega⟩

/-- The loop result read in columns, given the column of each step. -/
theorem fsComp_aux {k : Cfg} {n : Nat} (hn2 : 2 ≤ n) (hnM : n ≤ k.max + 1) {odd : Bool} {smp : Nat → Nat} {prev : Int → Int}
    (step : Nat → Nat) (hstep : step = if odd then (fun x => k.width - 1 - x) else (fun x => x))
    {v : Nat → Nat} (hv : ∀ x, x < k.width → v (step x) = smp x)
    {a : Nat → Int} (ha : ∀ x, x < k.width → a (step x) =
      3 * prev ((x : Int) - dirOf odd) + 5 * prev x + prev ((x : Int) + dirOf odd)) :
    ∃ e : Int → Int, Small k e ∧
      RowDiffused k n (dirOf odd) smp prev e (fun x => wSeq k.max n v a (step x)) ∧
      ∀ x, x < k.width → 3 * e ((x : Int) + dirOf odd) + 5 * e x + e ((x : Int) - dirOf odd) =
        gSeq k.max n v a (step x + 1) + 5 * gSeq k.max n v a (step x + 2) +
          (if step x + 1 < k.width then 3 * gSeq k.max n v a (step x + 3) else 0) := by
  have hG := fun t => gSeq_bound hn2 hnM v a t
  obtain ⟨e, he⟩ : ∃ e : Int → Int, e = fun x : Int => if 0 ≤ x ∧ x < k.width then gSeq k.max n v a (step x.toNat + 2) else 0 :=
    ⟨_, rfl⟩
  have hin : ∀ x, x < k.width → e (x : Nat) = gSeq k.max n v a (step x + 2) := by
    intro x hx; rw [he]; dsimp only; rw [if_pos (by omega), Int.toNat_natCast]
  have hout : ∀ x : Int, x < 0 ∨ (k.width : Int) ≤ x → e x = 0 := by
    intro x hx; rw [he]; dsimp only; rw [if_neg (by omega)]
  have hG1 : gSeq k.max n v a 1 = 0 := rfl
  have hbefore : ∀ x, x < k.width → e ((x : Int) - dirOf odd) = gSeq k.max n v a (step x + 1) := by
    intro x hx
    cases odd with
    | false =>
      simp only [dirOf, Bool.false_eq_true, if_false] at hstep ⊢
      subst hstep
      dsimp only at *
      rcases Nat.eq_zero_or_pos x with rfl | h0
      · rw [hout _ (by omega)]; exact hG1.symm
      · have e1 : (x : Int) - 1 = ((x - 1 : Nat) : Int) := by omega
        rw [e1, hin _ (by omega)]
        congr 1; omega
    | true =>
      simp only [dirOf, if_true] at hstep ⊢
      subst hstep
      dsimp only at *
      by_cases h0 : x + 1 = k.width
      · rw [hout _ (by omega)]
        have : k.width - 1 - x + 1 = 1 := by omega
        rw [this]; exact hG1.symm
      · have e1 : (x : Int) - (-1) = ((x + 1 : Nat) : Int) := by omega
        rw [e1, hin _ (by omega)]
        congr 1; omega
  have hafter : ∀ x, x < k.width → e ((x : Int) + dirOf odd) =
      if step x + 1 < k.width then gSeq k.max n v a (step x + 3) else 0 := by
    intro x hx
    cases odd with
    | false =>
      simp only [dirOf, Bool.false_eq_true, if_false] at hstep ⊢
      subst hstep
      dsimp only at *
      by_cases h0 : x + 1 < k.width
      · have e1 : (x : Int) + 1 = ((x + 1 : Nat) : Int) := by omega
        rw [e1, hin _ (by omega), if_pos h0]
      · rw [hout _ (by omega), if_neg h0]
    | true =>
      simp only [dirOf, if_true] at hstep ⊢
      subst hstep
      dsimp only at *
      rcases Nat.eq_zero_or_pos x with rfl | h0
      · rw [hout _ (by omega), if_neg (by omega)]
      · have e1 : (x : Int) + (-1) = ((x - 1 : Nat) : Int) := by omega
        rw [e1, hin _ (by omega), if_pos (by omega)]
        congr 1; omega
  refine ⟨e, ?_, ⟨hout, ?_, ?_⟩, ?_⟩
  · intro x
    rw [he]; dsimp only
    split
    · exact hG _
    · omega
  · intro x hx
    unfold carried
    rw [hbefore x hx]
    unfold wSeq wantAt
    rw [hv x hx, ha x hx]
  · intro x hx
    rw [hin x hx, gSeq]
    rfl
  · intro x hx
    rw [hbefore x hx, hafter x hx, hin x hx]
    split <;> ring

theorem fsComp_spec {k : Cfg} {q : Q} (h : Static k q) {ci : Nat} (hci : ci < k.nc) {inp : List Nat} (hr : RowOk k inp)
    {prev : Int → Int} (hps : Small k prev) {err : List Int} (he : Holds k (dirOf q.onOdd) prev err)
    {out : List Nat} {P : Nat → Nat} (hol : out.length = k.width) (ho : ∀ x, x < k.width → out[x]? = some (P x))
    (hfit : ∀ x w, x < k.width → w ≤ k.max →
      P x + pick k.max (q.ncolors.getD ci 1) w * blk q.ncolors ci ≤ k.max) :
    ∃ err' out' e want, fsComp k q ci inp err out = some (err', out') ∧ Small k e ∧
      RowDiffused k (q.ncolors.getD ci 1) (dirOf q.onOdd) (fun x => samp k inp x ci) prev e want ∧
      (∀ x, x < k.width → want x ≤ k.max) ∧
      Holds k (dirOf (!q.onOdd)) e err' ∧ out'.length = k.width ∧
      ∀ x, x < k.width → out'[x]? =
        some (P x + pick k.max (q.ncolors.getD ci 1) (want x) * blk q.ncolors ci) := by
  obtain ⟨t, t1, t2, _⟩ := h.read hci
  obtain ⟨cm, p1, _, _⟩ := h.palette.2 ci (by rw [h.len]; exact hci)
  obtain ⟨hn2, hnM⟩ := h.n_bound hci
  obtain ⟨hel, hea⟩ := he
  -- the shape of the loop in both directions
  have main : ∀ (col pos : Nat → Nat) (s0 : FsSt), Path k (dirOf q.onOdd) col pos →
      (∀ t, t < k.width → pos (t + 1) = col t + 1) →
      (∀ x, x < k.width → (if q.onOdd then (fun x => k.width - 1 - x) else (fun x => x)) x < k.width ∧
        col ((if q.onOdd then (fun x => k.width - 1 - x) else (fun x => x)) x) = x) →
      (s0.cur = 0 ∧ s0.below = 0 ∧ s0.bprev = 0 ∧
        (0 < k.width → s0.ip = ((col 0 * k.nc + ci : Nat) : Int) ∧ s0.op = col 0) ∧ s0.ep = pos 0 ∧
        s0.err = err ∧ s0.out = out) →
      ∃ s err' e want, forN (fun _ s => fsPixel k t cm (dirOf q.onOdd) inp s) k.width s0 = some s ∧
        wr s.err s.ep (castErr k.c s.bprev) = some err' ∧ Small k e ∧
        RowDiffused k (q.ncolors.getD ci 1) (dirOf q.onOdd) (fun x => samp k inp x ci) prev e want ∧
        (∀ x, x < k.width → want x ≤ k.max) ∧
        Holds k (dirOf (!q.onOdd)) e err' ∧ s.out.length = k.width ∧
        ∀ x, x < k.width → s.out[x]? =
          some (P x + pick k.max (q.ncolors.getD ci 1) (want x) * blk q.ncolors ci) := by
    intro col pos s0 hp hpc hst hs0
    obtain ⟨step, hstep⟩ : ∃ step : Nat → Nat, step = if q.onOdd then (fun x => k.width - 1 - x) else (fun x => x) :=
      ⟨_, rfl⟩
    rw [← hstep] at hst
    obtain ⟨a, hadef⟩ : ∃ a : Nat → Int, a = fun t => 3 * prev ((col t : Int) - dirOf q.onOdd) + 5 * prev (col t) +
      prev ((col t : Int) + dirOf q.onOdd) := ⟨_, rfl⟩
    obtain ⟨s, s1, s2, s3, s4, s5, s6, s7⟩ := fsLoop h hci hr hp t2 p1 hel (a := a)
      (fun t ht => by rw [hpc t ht, hea _ (hp.col_lt t ht), hadef])
      (fun t ht => by
        rw [hadef]; dsimp only
        have b1 := hps ((col t : Int) - dirOf q.onOdd)
        have b2 := hps (col t)
        have b3 := hps ((col t : Int) + dirOf q.onOdd)
        omega) hol ho hfit hs0
    obtain ⟨n, hn⟩ : ∃ n, n = q.ncolors.getD ci 1 := ⟨_, rfl⟩
    obtain ⟨v, hv⟩ : ∃ v : Nat → Nat, v = fun t => samp k inp (col t) ci := ⟨_, rfl⟩
    rw [← hn] at s2 s5 s7 hn2 hnM
    rw [← hv] at s2 s5 s7
    rw [← hn]
    obtain ⟨e, e1, e2, e3⟩ := fsComp_aux hn2 hnM (odd := q.onOdd) (smp := fun x => samp k inp x ci) (prev := prev)
      step hstep (v := v) (fun x hx => by rw [hv]; dsimp only; rw [(hst x hx).2])
      (a := a) (fun x hx => by rw [hadef]; dsimp only; rw [(hst x hx).2])
    have hGb := fun t => gSeq_bound hn2 hnM v a t
    have hlen : pos k.width < s.err.length := by rw [s4]; exact hp.pos_lt _ (by omega)
    have hmx : (k.max : Int) + 1 = 2 * k.c := by unfold Cfg.max; rcases h.c with hc | hc <;> omega
    refine ⟨s, s.err.set (pos k.width) s.bprev, e, _, s1, ?_, e1, e2, fun x _ => clampTo_le _ _, ⟨?_, ?_⟩, s6, ?_⟩
    · rw [s3, castErr_of h.c, wr_nat hlen]
      rw [s2]
      have b1 := hGb k.width
      have b2 := hGb (k.width + 1)
      rcases h.c with hc | hc <;> omega
    · rw [List.length_set]; exact s4
    · intro x hx
      obtain ⟨h1, h2⟩ := hst x hx
      have hd : dirOf (!q.onOdd) = -dirOf q.onOdd := by cases q.onOdd <;> rfl
      have e4 := e3 x hx
      have hx1 : x + 1 = pos (step x + 1) := by rw [hpc _ h1, h2]
      have hgoal : 3 * e ((x : Int) - dirOf (!q.onOdd)) + 5 * e x + e ((x : Int) + dirOf (!q.onOdd)) =
          3 * e ((x : Int) + dirOf q.onOdd) + 5 * e x + e ((x : Int) - dirOf q.onOdd) := by
        rw [hd]; simp only [sub_neg_eq_add]; rfl
      rw [hgoal, e4, get_set hlen, hx1]
      by_cases hl : step x + 1 < k.width
      · rw [if_neg (fun he => by have := hp.pos_inj _ _ (by omega) (by omega) he; omega), if_pos hl, s5 _ hl]
      · have : step x + 1 = k.width := by omega
        rw [if_neg hl, if_pos (by rw [this]), s2, ← this]
        congr 1; ring
    · intro x hx
      obtain ⟨h1, h2⟩ := hst x hx
      have := s7 (step x) h1
      rw [h2] at this
      exact this
  unfold fsComp
  rw [t1, p1]
  simp only [Option.bind_eq_bind, Option.bind_some]
  cases hodd : q.onOdd with
  | false =>
    rw [hodd] at main
    obtain ⟨s, err', e, want, f1, f2, f3, f4, f5, f6, f7, f8⟩ := main (fun t => t) (fun t => t)
      ⟨0, 0, 0, ci, 0, 0, err, out⟩ (path_even k) (fun t _ => rfl) (fun x hx => ⟨by simpa using hx, by simp⟩)
      ⟨rfl, rfl, rfl, fun _ => ⟨by simp, rfl⟩, rfl, rfl, rfl⟩
    refine ⟨err', s.out, e, want, ?_, f3, f4, f5, f6, f7, f8⟩
    simp only [Bool.false_eq_true, if_false]
    simp only [dirOf, Bool.false_eq_true, if_false] at f1
    rw [f1]
    simp only [Option.bind_some]
    rw [f2]; rfl
  | true =>
    rw [hodd] at main
    obtain ⟨s, err', e, want, f1, f2, f3, f4, f5, f6, f7, f8⟩ := main (fun t => k.width - 1 - t) (fun t => k.width + 1 - t)
      ⟨0, 0, 0, ci + ((k.width : Int) - 1) * k.nc, (k.width : Int) - 1, (k.width : Int) + 1, err, out⟩ (path_odd k)
      (fun t ht => by omega) (fun x hx => by simp only [if_true]; omega)
      ⟨rfl, rfl, rfl, fun hw => ⟨by
        dsimp only
        rw [Nat.sub_zero]
        push_cast
        rw [Nat.cast_sub (by omega)]; push_cast; ring, by dsimp only; omega⟩, by dsimp only; omega, rfl, rfl⟩
    refine ⟨err', s.out, e, want, ?_, f3, f4, f5, f6, f7, f8⟩
    simp only [if_true]
    simp only [dirOf, if_true] at f1
    rw [f1]
    simp only [Option.bind_some]
    rw [f2]; rfl

end Verif.Quant1
