import Verif.Quant1.Pass
/-
C55: the one-pass colour quantizer.
-/
namespace Verif.Quant1

/-- What the rest of the library guarantees when the module is set up: 8- or 12-bit samples, at least one component, and
three of them in JCS_RGB (jdmaster.c:335-361). -/
structure Cfg.Ok (k : Cfg) : Prop where
  c : k.c = 128 ∨ k.c = 2048
  nc : 1 ≤ k.nc
  order : k.OrderOk

/-- The quantizer is usable: what `jpeg_start_decompress` checks. -/
def Cfg.Accepted (k : Cfg) : Prop :=
  k.lossless = false ∧ k.nc ≤ 4 ∧ ((2 ^ k.nc : Nat) : Int) ≤ k.desired ∧ k.desired ≤ 2 * k.c

/-- The number of levels of each component is a fair share: every component gets the integer root of the number of
colours asked for, the palette is no larger than asked, and the component tried first (green in JCS_RGB) could not have
another level. -/
structure FairCounts (k : Cfg) (ns : List Nat) : Prop where
  len : ns.length = k.nc
  two : ∀ n ∈ ns, 2 ≤ n
  root : ∃ r : Nat, ((r ^ k.nc : Nat) : Int) ≤ k.desired ∧ k.desired < (((r + 1) ^ k.nc : Nat) : Int) ∧ ∀ n ∈ ns, r ≤ n
  fits : (ns.prod : Int) ≤ k.desired
  full : ∀ n, ns[if k.rgb then 1 else 0]? = some n → k.desired < ((ns.prod / n * (n + 1) : Nat) : Int)

theorem init_ok {k : Cfg} (hk : k.Ok) (ha : k.Accepted) (d : Dither) : ∃ q, init k d = some (.ok q) ∧ Static k q ∧
    FairCounts k q.ncolors := by
  obtain ⟨a1, a2, a3, a4⟩ := ha
  rcases select_spec hk.order hk.nc with ⟨h, _⟩ | ⟨_, r, ns, tot, s1, s2, s3, s4, s5, s6⟩
  · omega
  · have h2 : ∀ n ∈ ns, 2 ≤ n := fun n hn => le_trans s2 (s5.ge n hn)
    have hp := s5.prod
    have hf := s5.fits
    obtain ⟨cm, c1, c2⟩ := createColormap_spec (k := k) hk.c s5.len h2
    obtain ⟨ts, t1, t2⟩ := createColorindex_spec (k := k) hk.c s5.len h2 (by omega) (decide (d = .ordered))
    rw [hp] at c1 t1
    refine ⟨⟨ns, tot, cm, ts, decide (d = .ordered), none, 0, none, false, none⟩, ?_,
      ⟨hk.c, hk.nc, s5.len, h2, hp, by dsimp only; omega, c2, t2, fun od h => by simp at h⟩,
      ⟨s5.len, h2, ⟨r, s3, s4, s5.ge⟩, by dsimp only; omega, ?_⟩⟩
    · unfold init
      rw [a1]
      simp only [Bool.false_eq_true, if_false, Option.bind_eq_bind, pure]
      rw [if_neg (by omega), if_neg (by omega), s1]
      simp only [Option.bind_some]
      rw [c1]
      simp only [Option.bind_some]
      rw [t1]
      rfl
    · dsimp only
      intro n hn
      rw [hp]
      apply s6 n
      unfold order
      by_cases hr : k.rgb = true
      · simp only [hr, if_true] at hn ⊢; exact hn
      · simp only [hr, if_false, Bool.false_eq_true] at hn ⊢; exact hn

theorem init_error {k : Cfg} (hk : k.Ok) (ha : ¬ k.Accepted) (d : Dither) : ∃ e, init k d = some (.error e) := by
  unfold init
  by_cases h1 : k.lossless = true
  · exact ⟨_, by rw [if_pos h1]; rfl⟩
  rw [if_neg h1]
  by_cases h2 : k.nc > 4
  · exact ⟨_, by simp only [Option.bind_eq_bind, pure]; rw [if_pos h2]⟩
  by_cases h3 : k.desired > 2 * k.c
  · exact ⟨_, by simp only [Option.bind_eq_bind, pure]; rw [if_neg h2, if_pos h3]⟩
  rcases select_spec hk.order hk.nc with ⟨_, h⟩ | ⟨h, _⟩
  · refine ⟨.fewColors (2 ^ k.nc), ?_⟩
    simp only [Option.bind_eq_bind, pure]
    rw [if_neg h2, if_neg h3, h]
    rfl
  · exact (ha ⟨by simpa using h1, by omega, h, by omega⟩).elim

/-- `start_pass` succeeds in every reachable state, keeps the palette, and puts the object at row 0 of the pass. -/
theorem startPass_ok {k : Cfg} {q : Q} (hs : Static k q) {d : Dither} (hd : d ≠ .other) :
    ∃ q', startPass k d q = some (.ok q') ∧ Static k q' ∧ q'.ncolors = q.ncolors ∧ q'.actual = q.actual ∧
      q'.colormap = q.colormap ∧ InPass k d 0 (fun _ _ => 0) q' := by
  cases d with
  | none =>
    refine ⟨_, rfl, ⟨hs.c, hs.nc, hs.len, hs.two, hs.prod, hs.fits, hs.palette, hs.index, hs.dith⟩, rfl, rfl, rfl, rfl⟩
  | ordered =>
    obtain ⟨ts, t1, t2⟩ := createColorindex_spec (k := k) hs.c hs.len hs.two (by rw [hs.prod]; exact hs.fits) true
    rw [hs.prod] at t1
    obtain ⟨od, o1, o2⟩ := createOdither_spec (k := k) hs.len hs.two
    cases hp : q.padded <;> cases ho : q.odither
    · refine ⟨{ q with
          fn := some (if k.nc = 3 then .ord3 else .ord), rowIndex := 0, colorindex := ts, padded := true,
          odither := some od }, ?_, ⟨hs.c, hs.nc, hs.len, hs.two, hs.prod, hs.fits, hs.palette, t2,
          fun od' h => by injection h with h; subst h; exact o2⟩, rfl, rfl, rfl, rfl, rfl, ⟨od, rfl⟩, rfl⟩
      simp [startPass, hp, ho, t1, o1]
    · refine ⟨{ q with fn := some (if k.nc = 3 then .ord3 else .ord), rowIndex := 0, colorindex := ts, padded := true },
        ?_, ⟨hs.c, hs.nc, hs.len, hs.two, hs.prod, hs.fits, hs.palette, t2, hs.dith⟩, rfl, rfl, rfl, rfl, rfl,
          ⟨_, ho⟩, rfl⟩
      simp [startPass, hp, ho, t1]
    · refine ⟨{ q with fn := some (if k.nc = 3 then .ord3 else .ord), rowIndex := 0, odither := some od }, ?_,
        ⟨hs.c, hs.nc, hs.len, hs.two, hs.prod, hs.fits, hs.palette, hs.index,
          fun od' h => by injection h with h; subst h; exact o2⟩, rfl, rfl, rfl, rfl, hp, ⟨od, rfl⟩, rfl⟩
      simp [startPass, hp, ho, o1]
    · refine ⟨{ q with fn := some (if k.nc = 3 then .ord3 else .ord), rowIndex := 0 }, ?_,
        ⟨hs.c, hs.nc, hs.len, hs.two, hs.prod, hs.fits, hs.palette, hs.index, hs.dith⟩, rfl, rfl, rfl, rfl, hp,
          ⟨_, ho⟩, rfl⟩
      simp [startPass, hp, ho]
  | fs =>
    refine ⟨_, rfl, ⟨hs.c, hs.nc, hs.len, hs.two, hs.prod, hs.fits, hs.palette, hs.index, hs.dith⟩, rfl, rfl, rfl, rfl,
      rfl, _, rfl, by simp, fun i hi => ⟨fun x => by dsimp only; omega, List.replicate (k.width + 2) 0, by simp [hi], by simp,
        fun x hx => ?_⟩⟩
    rw [List.getElem?_replicate, if_pos (by omega)]
    simp
  | other => exact (hd rfl).elim

/-- Every state an application can bring the quantizer into: started with any dither mode, then any passes with any
(possibly changed) dither modes, each fed any rows. -/
inductive Reach (k : Cfg) : Q → Prop
  | start {d : Dither} {q : Q} (h : init k d = some (.ok q)) : Reach k q
  | pass {d : Dither} {q q' : Q} (hr : Reach k q) (h : startPass k d q = some (.ok q')) : Reach k q'
  | rows {q q' : Q} {rows outs : List (List Nat)} (hr : Reach k q) (h : quantize k q rows = some (q', outs)) : Reach k q'

theorem Reach.static {k : Cfg} (hk : k.Ok) {q : Q} (h : Reach k q) : k.Accepted ∧ Static k q ∧ FairCounts k q.ncolors := by
  induction h with
  | @start d q h =>
    by_cases ha : k.Accepted
    · obtain ⟨q', e, hs⟩ := init_ok hk ha d
      rw [e] at h; injection h with h; injection h with h; subst h; exact ⟨ha, hs⟩
    · obtain ⟨e, he⟩ := init_error hk ha d
      rw [he] at h; injection h with h; injection h
  | @pass d q q' _ h ih =>
    refine ⟨ih.1, ?_⟩
    by_cases hd : d = .other
    · subst hd; simp [startPass] at h
    · obtain ⟨q2, e, hs, hn, _⟩ := startPass_ok ih.2.1 hd
      rw [e] at h; injection h with h; injection h with h; subst h
      exact ⟨hs, by rw [hn]; exact ih.2.2⟩
  | @rows q q' rows outs _ h ih =>
    have := quantize_same rows h
    exact ⟨ih.1, this.static ih.2.1, by rw [this.1]; exact ih.2.2⟩

/-! ## The theorems -/

/-- **C55, acceptance.** Colour quantization starts exactly when the image is not lossless, has at most four components,
and the number of colours asked for is at least two per component and representable in a sample. The palette then has at
most that many colours, fairly shared between the components, and is exactly the product of the equally spaced levels
of the components (which include 0 and MAXJSAMPLE), in row-major order. -/
theorem C55_palette {k : Cfg} (hk : k.Ok) (d : Dither) :
    (k.Accepted → ∃ q, init k d = some (.ok q) ∧ FairCounts k q.ncolors ∧ q.ncolors.prod = q.actual ∧
      PaletteIs k.max q.ncolors q.colormap) ∧
    (¬ k.Accepted → ∃ e, init k d = some (.error e)) := by
  refine ⟨fun ha => ?_, fun ha => init_error hk ha d⟩
  obtain ⟨q, e, hs, hf⟩ := init_ok hk ha d
  exact ⟨q, e, hf, hs.prod, hs.palette⟩

theorem code_of_digits {ns : List Nat} {p : Nat} (hp : p < ns.prod) :
    ∀ t, t ≤ ns.length → codeOf ns (fun i => digit ns i p) t = p / (ns.drop t).prod * (ns.drop t).prod := by
  intro t
  induction t with
  | zero => intro _; simp [codeOf, Nat.div_eq_of_lt hp]
  | succ t ih =>
    intro ht
    have hi : t < ns.length := by omega
    simp only [codeOf]
    rw [ih (by omega), drop_prod hi]
    show _ = p / blk ns t * blk ns t
    unfold digit
    rw [getD_eq hi]
    have hd := Nat.div_add_mod (p / blk ns t) ns[t]
    have e1 : p / (ns[t] * blk ns t) = p / blk ns t / ns[t] := by rw [Nat.div_div_eq_div_mul, Nat.mul_comm]
    rw [e1]
    generalize p / blk ns t = a at *
    generalize a / ns[t] = b at *
    calc b * (ns[t] * blk ns t) + a % ns[t] * blk ns t = (ns[t] * b + a % ns[t]) * blk ns t := by ring
      _ = a * blk ns t := by rw [hd]

/-- **C55, no duplicates.** Two different palette entries differ in some component. -/
theorem C55_distinct {k : Cfg} (hk : k.Ok) {q : Q} (h : Reach k q) {p p' : Nat} (h1 : p < q.actual) (h2 : p' < q.actual)
    (hne : p ≠ p') : ∃ (i : Nat) (row : List Nat), q.colormap[i]? = some row ∧ row[p]? ≠ row[p']? := by
  obtain ⟨_, hs, _⟩ := h.static hk
  rw [← hs.prod] at h1 h2
  by_contra hc
  push Not at hc
  apply hne
  have key : ∀ i, i < q.ncolors.length → digit q.ncolors i p = digit q.ncolors i p' := by
    intro i hi
    obtain ⟨row, r1, _, r3⟩ := hs.palette.2 i hi
    have := hc i row r1
    rw [r3 p h1, r3 p' h2] at this
    injection this with this
    have hn := hs.n_bound (i := i) (by rw [← hs.len]; exact hi)
    rcases Nat.lt_trichotomy (digit q.ncolors i p) (digit q.ncolors i p') with hl | hl | hl
    · have := level_strict (M := k.max) hn.1 hn.2 hl; omega
    · exact hl
    · have := level_strict (M := k.max) hn.1 hn.2 hl; omega
  have c1 := code_of_digits h1 q.ncolors.length (le_refl _)
  have c2 := code_of_digits h2 q.ncolors.length (le_refl _)
  simp only [List.drop_length, List.prod_nil, Nat.div_one, Nat.mul_one] at c1 c2
  rw [← c1, ← c2]
  have : ∀ t, t ≤ q.ncolors.length → codeOf q.ncolors (fun i => digit q.ncolors i p) t =
      codeOf q.ncolors (fun i => digit q.ncolors i p') t := by
    intro t
    induction t with
    | zero => intro _; rfl
    | succ t ih => intro ht; simp only [codeOf]; rw [ih (by omega), key t (by omega)]
  exact this _ (le_refl _)

/-- The values rounded during a whole pass: `want r x i` for component `i` of the pixel in column `x` of row `r`. -/
def Wants (k : Cfg) (ns : List Nat) (d : Dither) (rows : List (List Nat)) (want : Nat → Nat → Nat → Nat)
    (e : Nat → Nat → Int → Int) : Prop :=
  ∀ r, (hr : r < rows.length) → RowWants k ns d r rows[r] (above (fun _ _ => 0) e r) (e r) (want r)

/-- The colour the application sees: component `i` of palette entry `code` is `v`. -/
def ShowsColor (q : Q) (code i v : Nat) : Prop := ∃ row, q.colormap[i]? = some row ∧ row[code]? = some v

/-- **C55, main theorem.** Whatever passes and dither modes came before, a pass in any dither mode runs without an access
outside an array, for any rows split in any way over the calls; as many rows come out as go in, every output sample is an
index into the palette, and the colour it stands for has, in each component, the level the specification rounds to: of
the sample itself without dithering, of the sample plus its matrix offset with ordered dithering, and of the sample plus
the diffused error with Floyd-Steinberg dithering. -/
theorem C55_pass {k : Cfg} (hk : k.Ok) {q : Q} (h : Reach k q) {d : Dither} (hd : d ≠ .other)
    (batches : List (List (List Nat))) (hrows : ∀ b ∈ batches, ∀ inp ∈ b, RowOk k inp) :
    ∃ q1, startPass k d q = some (.ok q1) ∧ q1.colormap = q.colormap ∧ ∃ q2 outs want e,
      calls k q1 batches = some (q2, outs) ∧ outs.map List.length = batches.map List.length ∧
      Wants k q.ncolors d batches.flatten want e ∧
      (∀ r, r < batches.flatten.length → ∃ out, outs.flatten[r]? = some out ∧ out.length = k.width ∧
        ∀ x, x < k.width → ∃ code, out[x]? = some code ∧ code < q.actual ∧ ∀ i, i < k.nc →
          want r x i ≤ k.max ∧
          ShowsColor q code i (level k.max (q.ncolors.getD i 1) (pick k.max (q.ncolors.getD i 1) (want r x i)))) := by
  obtain ⟨_, hs, _⟩ := h.static hk
  obtain ⟨q1, s1, s2, s3, s4, s5, s6⟩ := startPass_ok hs hd
  refine ⟨q1, s1, s5, ?_⟩
  have hall : ∀ inp ∈ batches.flatten, RowOk k inp := by
    intro inp hi
    obtain ⟨b, hb, hib⟩ := List.mem_flatten.1 hi
    exact hrows b hb inp hib
  obtain ⟨q2, os, e, want, a1, a2, a3⟩ := quantize_spec batches.flatten s2 s6 hall
  obtain ⟨outs, b1, b2, b3⟩ := calls_eq batches q1 q2 os a1
  refine ⟨q2, outs, want, e, b1, b3, ?_, ?_⟩
  · intro r hr
    have := (a3 r hr).1
    rw [Nat.zero_add, s3] at this
    exact this
  · intro r hr
    obtain ⟨_, w1, out, o1, o2, o3⟩ := a3 r hr
    refine ⟨out, by rw [b2]; exact o1, o2, fun x hx => ?_⟩
    refine ⟨_, o3 x hx, ?_⟩
    rw [s3]
    obtain ⟨c1, c2⟩ := hs.shows (want := want r x) (fun i hi => w1 x i hx hi)
    exact ⟨c1, fun i hi => ⟨w1 x i hx hi, c2 i hi⟩⟩

/-- **C55, rounding.** The level a value is rounded to is one of the component's levels; no palette entry has that
component nearer to the value by more than one; and it is off by at most half the distance between levels plus one. -/
theorem C55_nearest {k : Cfg} (hk : k.Ok) {q : Q} (h : Reach k q) {i : Nat} (hi : i < k.nc) {w : Nat} (hw : w ≤ k.max) :
    let n := q.ncolors.getD i 1
    let shown := level k.max n (pick k.max n w)
    pick k.max n w < n ∧
    (∀ code v, ShowsColor q code i v → |(w : Int) - shown| ≤ |(w : Int) - v| + 1) ∧
    2 * ((n : Int) - 1) * |(w : Int) - shown| ≤ k.max + 2 * ((n : Int) - 1) := by
  obtain ⟨_, hs, _⟩ := h.static hk
  obtain ⟨h1, h2⟩ := hs.n_bound hi
  refine ⟨pick_lt h1 h2 hw, ?_, pick_err h1 h2 w⟩
  rintro code v ⟨row, r1, r2⟩
  obtain ⟨row', p1, p2, p3⟩ := hs.palette.2 i (by rw [hs.len]; exact hi)
  rw [p1] at r1; injection r1 with r1; subst r1
  have hlt : code < row'.length := (List.getElem?_eq_some_iff.1 r2).1
  rw [p3 code (by omega)] at r2
  injection r2 with r2; subst r2
  exact pick_near h1 h2 w _

theorem clampTo_near {M : Nat} {v : Nat} (hv : v ≤ M) (d : Int) : |(clampTo M ((v : Int) + d) : Int) - v| ≤ |d| := by
  unfold clampTo
  rcases abs_cases d with ⟨e, _⟩ | ⟨e, _⟩ <;> rw [e, abs_le] <;> omega

/-- **C55, ordered dithering stays close.** The colour shown differs from the sample by at most the distance between
two levels, plus one. -/
theorem C55_ordered_close {k : Cfg} (hk : k.Ok) {q : Q} (h : Reach k q) {inp : List Nat} (hr : RowOk k inp) (r : Nat)
    {x i : Nat} (hx : x < k.width) (hi : i < k.nc) :
    let n := q.ncolors.getD i 1
    let shown := level k.max n (pick k.max n (ordWant k q.ncolors r inp x i))
    ((n : Int) - 1) * |(samp k inp x i : Int) - shown| ≤ k.max + ((n : Int) - 1) := by
  obtain ⟨_, hs, _⟩ := h.static hk
  obtain ⟨h1, h2⟩ := hs.n_bound hi
  dsimp only
  generalize hn : q.ncolors.getD i 1 = n at *
  have a1 := pick_err h1 h2 (ordWant k q.ncolors r inp x i)
  have a2 := offset_bound k.max r x h1
  have a3 : |(ordWant k q.ncolors r inp x i : Int) - samp k inp x i| ≤ |offset k.max n r x| := by
    unfold ordWant; rw [hn]; exact clampTo_near (hr.get hx hi).2 _
  generalize (ordWant k q.ncolors r inp x i) = w at *
  generalize (level k.max n (pick k.max n w) : Int) = s at *
  generalize (samp k inp x i : Int) = v at *
  generalize |offset k.max n r x| = o at *
  have hm : (1 : Int) ≤ (n : Int) - 1 := by omega
  generalize (n : Int) - 1 = m at *
  have a4 : |v - s| ≤ |(w : Int) - v| + |(w : Int) - s| := by
    have := abs_sub_le v (w : Int) s
    rw [abs_sub_comm v (w : Int)] at this
    exact this
  have a5 : m * |v - s| ≤ m * (|(w : Int) - v| + |(w : Int) - s|) := mul_le_mul_of_nonneg_left a4 (by omega)
  have a6 : m * |(w : Int) - v| ≤ m * o := mul_le_mul_of_nonneg_left a3 (by omega)
  have e1 : m * (|(w : Int) - v| + |(w : Int) - s|) = m * |(w : Int) - v| + m * |(w : Int) - s| := by ring
  have e2 : 2 * m * o = 2 * (m * o) := by ring
  have e3 : 2 * m * |(w : Int) - s| = 2 * (m * |(w : Int) - s|) := by ring
  omega

/-- **C55, Floyd-Steinberg dithering stays close.** The colour shown differs from the sample by at most the distance
between two levels, plus two: errors do not build up, however large the image. -/
theorem C55_fs_close {k : Cfg} (hk : k.Ok) {q : Q} (h : Reach k q) {rows : List (List Nat)}
    (hrows : ∀ inp ∈ rows, RowOk k inp) {want : Nat → Nat → Nat → Nat} {e : Nat → Nat → Int → Int}
    (hw : Wants k q.ncolors .fs rows want e) {r x i : Nat} (hrl : r < rows.length) (hx : x < k.width) (hi : i < k.nc) :
    let n := q.ncolors.getD i 1
    let shown := level k.max n (pick k.max n (want r x i))
    ((n : Int) - 1) * |(samp k rows[r] x i : Int) - shown| ≤ k.max + 2 * ((n : Int) - 1) := by
  obtain ⟨_, hs, _⟩ := h.static hk
  obtain ⟨h1, h2⟩ := hs.n_bound hi
  dsimp only
  generalize hn : q.ncolors.getD i 1 = n at *
  -- every error is at most half the distance between levels plus one
  have hbound : ∀ r, r < rows.length → ∀ y : Int, 2 * ((n : Int) - 1) * |e r i y| ≤ k.max + 2 * ((n : Int) - 1) := by
    intro r hr y
    have hd := hw r hr i hi
    rw [hn] at hd
    by_cases hy : y < 0 ∨ (k.width : Int) ≤ y
    · rw [hd.outside y hy]; simp; omega
    · obtain ⟨z, rfl⟩ : ∃ z : Nat, y = z := ⟨y.toNat, by omega⟩
      rw [hd.left z (by omega)]
      exact pick_err h1 h2 _
  have habove : ∀ y : Int, 2 * ((n : Int) - 1) * |above (fun _ _ => 0) e r i y| ≤ k.max + 2 * ((n : Int) - 1) := by
    intro y
    cases r with
    | zero => simp [above]; omega
    | succ r => exact hbound r (by omega) y
  have hd := hw r hrl i hi
  rw [hn] at hd
  have hwe := hd.want_eq x hx
  have hsm := ((hrows _ (List.getElem_mem hrl)).get hx hi).2
  have hm : (1 : Int) ≤ (n : Int) - 1 := by omega
  have hM : (0 : Int) ≤ k.max := Int.natCast_nonneg _
  -- an integer bound on the errors
  obtain ⟨E, hE⟩ : ∃ E : Int, E = (k.max + 2 * ((n : Int) - 1)) / (2 * ((n : Int) - 1)) := ⟨_, rfl⟩
  have hle : ∀ z : Int, 2 * ((n : Int) - 1) * |z| ≤ k.max + 2 * ((n : Int) - 1) → -E ≤ z ∧ z ≤ E := by
    intro z hz
    have : |z| ≤ E := by
      rw [hE, Int.le_ediv_iff_mul_le (by omega)]
      calc |z| * (2 * ((n : Int) - 1)) = 2 * ((n : Int) - 1) * |z| := by ring
        _ ≤ _ := hz
    exact abs_le.1 this
  have hEb : 2 * (((n : Int) - 1) * E) ≤ k.max + 2 * ((n : Int) - 1) := by
    have := Int.mul_ediv_self_le (x := (k.max : Int) + 2 * ((n : Int) - 1)) (k := 2 * ((n : Int) - 1)) (by omega)
    rw [← hE] at this
    calc 2 * (((n : Int) - 1) * E) = 2 * ((n : Int) - 1) * E := by ring
      _ ≤ _ := this
  have hc : |(carried (dirOf (decide (r % 2 = 1))) (above (fun _ _ => 0) e r i) (e r i) x + 8) / 16| ≤ E := by
    unfold carried
    have c1 := hle _ (hbound r hrl ((x : Int) - dirOf (decide (r % 2 = 1))))
    have c2 := hle _ (habove ((x : Int) - dirOf (decide (r % 2 = 1))))
    have c3 := hle _ (habove (x : Int))
    have c4 := hle _ (habove ((x : Int) + dirOf (decide (r % 2 = 1))))
    rw [abs_le]
    omega
  have a1 := pick_err h1 h2 (want r x i)
  have a3 : |(want r x i : Int) - samp k rows[r] x i| ≤ E := by
    rw [hwe]; exact (clampTo_near hsm _).trans hc
  generalize want r x i = w at *
  generalize (level k.max n (pick k.max n w) : Int) = s at *
  generalize (samp k rows[r] x i : Int) = v at *
  generalize (n : Int) - 1 = m at *
  have a4 : |v - s| ≤ |(w : Int) - v| + |(w : Int) - s| := by
    have := abs_sub_le v (w : Int) s
    rw [abs_sub_comm v (w : Int)] at this
    exact this
  have a5 : m * |v - s| ≤ m * (|(w : Int) - v| + |(w : Int) - s|) := mul_le_mul_of_nonneg_left a4 (by omega)
  have a6 : m * |(w : Int) - v| ≤ m * E := mul_le_mul_of_nonneg_left a3 (by omega)
  have e1 : m * (|(w : Int) - v| + |(w : Int) - s|) = m * |(w : Int) - v| + m * |(w : Int) - s| := by ring
  have e3 : 2 * m * |(w : Int) - s| = 2 * (m * |(w : Int) - s|) := by ring
  omega

/-- The dither matrix has every value 0..255 exactly once. -/
theorem C55_matrix : (List.range 256).map (fun f => (baseDither.flatten.filter (· == f)).length) = List.replicate 256 1 ∧
    baseDither.length = 16 ∧ ∀ r ∈ baseDither, r.length = 16 := by decide +kernel

/-- The rounding is *not* to the nearest level: with as many levels as sample values (one component, 256 colours), every
sample above 0 is shown one too dark, although its exact value is in the palette. -/
theorem C55_darkened {M v : Nat} (hM : 1 ≤ M) (hv : v ≤ M) : level M (M + 1) (pick M (M + 1) v) = v - 1 := by
  have hl : ∀ j, level M (M + 1) j = j := by
    intro j
    unfold level
    rw [Nat.add_sub_cancel]
    have : 2 * (j * M) + M = M + 2 * M * j := by ring
    rw [this, Nat.add_mul_div_left _ _ (by omega), Nat.div_eq_of_lt (by omega)]; omega
  rw [hl]
  unfold pick
  rw [Nat.add_sub_cancel]
  rcases Nat.eq_zero_or_pos v with rfl | h0
  · apply Nat.div_eq_of_lt; simp; omega
  · obtain ⟨u, rfl⟩ : ∃ u, v = u + 1 := ⟨v - 1, by omega⟩
    have : 2 * M * (u + 1) + M - 1 - M = (2 * M - 1) + 2 * M * u := by
      have e : 2 * M * (u + 1) = 2 * M * u + 2 * M := by ring
      omega
    rw [this, Nat.add_mul_div_left _ _ (by omega), Nat.div_eq_of_lt (by omega)]; omega

/-! ## The hypotheses are met -/

/-- An RGB image 3 pixels wide, 27 colours. -/
def exCfg : Cfg := ⟨128, 3, 27, true, 3, 7, false⟩

theorem exCfg_ok : exCfg.Ok := ⟨Or.inl rfl, by decide, fun _ => rfl⟩

theorem exCfg_accepted : exCfg.Accepted := by unfold Cfg.Accepted; decide

/-- There are reachable states, also after a pass in another mode. -/
example : ∃ q, Reach exCfg q ∧ q.fn = some .fs := by
  obtain ⟨q, e, hs, _⟩ := init_ok exCfg_ok exCfg_accepted .none
  obtain ⟨q1, e1, s1, _⟩ := startPass_ok hs (d := .ordered) (by decide)
  obtain ⟨q2, e2, _, _, _, _, i2⟩ := startPass_ok s1 (d := .fs) (by decide)
  exact ⟨q2, .pass (.pass (.start e) e1) e2, i2.1⟩

def exRows : List (List Nat) := [[1, 2, 3, 200, 100, 50, 255, 0, 77], [100, 100, 100, 90, 90, 90, 128, 128, 128]]

theorem exRows_ok : ∀ inp ∈ exRows, RowOk exCfg inp := by unfold RowOk; decide

/-- Such rows, in two calls, run through a Floyd-Steinberg pass that follows a pass in another mode. -/
example : ∃ q q1, Reach exCfg q ∧ startPass exCfg .fs q = some (.ok q1) ∧
    ∃ q2 outs, calls exCfg q1 [exRows, exRows] = some (q2, outs) ∧ outs.flatten.length = 4 := by
  obtain ⟨q, e, hs, _⟩ := init_ok exCfg_ok exCfg_accepted .none
  obtain ⟨q1, e1, s1, _⟩ := startPass_ok hs (d := .ordered) (by decide)
  have hr : Reach exCfg q1 := .pass (.start e) e1
  obtain ⟨q2, p1, _, q3, outs, want, er, p2, p3, _⟩ := C55_pass exCfg_ok hr (d := .fs) (by decide) [exRows, exRows]
    (by intro b hb inp hi; simp at hb; subst hb; exact exRows_ok inp hi)
  refine ⟨q1, q2, hr, p1, q3, outs, p2, ?_⟩
  rw [List.length_flatten, p3]; rfl

/-- What is shown with three levels: 0, 128 and 255 (the middle level is rounded up). -/
example : (List.range 3).map (level 255 3) = [0, 128, 255] := by decide
example : [0, 64, 65, 191, 192, 255].map (pick 255 3) = [0, 0, 1, 1, 2, 2] := by decide
example : level 255 2 (pick 255 2 128) = 0 := by decide

/-- The first cells of the dither matrix for two levels. -/
example : (List.range 4).map (offset 255 2 0) = [127, -64, 79, -112] := by decide

/-- Asking for 16 colours in RGB gives green four levels. -/
example : selectNcolors ⟨128, 3, 16, true, 1, 0, false⟩ = some (.ok ([2, 4, 2], 16)) := by decide +kernel
example : selectNcolors ⟨128, 3, 7, true, 1, 0, false⟩ = some (.error (.fewColors 8)) := by decide +kernel
example : selectNcolors ⟨128, 1, 256, false, 1, 0, false⟩ = some (.ok ([256], 256)) := by decide +kernel

end Verif.Quant1
