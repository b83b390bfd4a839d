import Verif.Quant1.Tables
/-
The row functions without error diffusion: every output sample is the palette index made of the rounded components.
-/
namespace Verif.Quant1
open Verif.Color (castSample)

/-! ## Palette indices -/

/-- The palette index made of the levels `f 0, f 1, ...` of the first `t` components. -/
def codeOf (ns : List Nat) (f : Nat → Nat) : Nat → Nat
  | 0 => 0
  | t + 1 => codeOf ns f t + f t * blk ns t

theorem codeOf_le {ns : List Nat} {f : Nat → Nat} (hf : ∀ i, i < ns.length → f i < ns.getD i 1) :
    ∀ t, t ≤ ns.length → codeOf ns f t + (ns.drop t).prod ≤ ns.prod := by
  intro t
  induction t with
  | zero => intro _; simp [codeOf]
  | succ t ih =>
    intro ht
    have h1 := ih (by omega)
    have h2 := hf t (by omega)
    rw [getD_eq (by omega : t < ns.length)] at h2
    rw [drop_prod (by omega : t < ns.length)] at h1
    simp only [codeOf]
    have h3 : (f t + 1) * blk ns t ≤ ns[t] * blk ns t := Nat.mul_le_mul_right _ h2
    have h4 : (f t + 1) * blk ns t = f t * blk ns t + blk ns t := by ring
    have h5 : (ns.drop (t + 1)).prod = blk ns t := rfl
    omega

theorem codeOf_lt {ns : List Nat} (h2 : ∀ n ∈ ns, 2 ≤ n) {f : Nat → Nat} (hf : ∀ i, i < ns.length → f i < ns.getD i 1)
    {t : Nat} (ht : t ≤ ns.length) : codeOf ns f t < ns.prod := by
  have h := codeOf_le hf t ht
  have : 0 < (ns.drop t).prod := prod_pos fun n hn => by have := h2 n (List.mem_of_mem_drop hn); omega
  omega

theorem codeOf_mono (ns : List Nat) (f : Nat → Nat) (t : Nat) : codeOf ns f t ≤ codeOf ns f (t + 1) := by
  simp only [codeOf]; omega

/-- Earlier components contribute multiples of the later product. -/
theorem codeOf_dvd (ns : List Nat) (f : Nat → Nat) : ∀ t, t ≤ ns.length → (ns.drop t).prod ∣ codeOf ns f t := by
  intro t
  induction t with
  | zero => intro _; simp [codeOf]
  | succ t ih =>
    intro ht
    have h1 := ih (by omega)
    rw [drop_prod (by omega : t < ns.length)] at h1
    simp only [codeOf]
    refine Dvd.dvd.add ?_ (Dvd.intro_left _ rfl)
    exact Dvd.dvd.trans (Dvd.intro_left _ rfl) h1

/-- Later components stay below one unit of component `i`. -/
theorem codeOf_rest {ns : List Nat} {f : Nat → Nat} (hf : ∀ i, i < ns.length → f i < ns.getD i 1) {i : Nat} :
    ∀ t, i < t → t ≤ ns.length → ∃ r, codeOf ns f t = codeOf ns f (i + 1) + r ∧ r + (ns.drop t).prod ≤ blk ns i := by
  intro t
  induction t with
  | zero => intro h; omega
  | succ t ih =>
    intro h1 ht
    by_cases he : i = t
    · subst he
      exact ⟨0, by simp, by rw [Nat.zero_add]; exact le_refl _⟩
    · obtain ⟨r, e1, e2⟩ := ih (by omega) (by omega)
      refine ⟨r + f t * blk ns t, by simp only [codeOf] at e1 ⊢; omega, ?_⟩
      have h2 := hf t (by omega)
      rw [getD_eq (by omega : t < ns.length)] at h2
      rw [drop_prod (by omega : t < ns.length)] at e2
      have h3 : (f t + 1) * blk ns t ≤ ns[t] * blk ns t := Nat.mul_le_mul_right _ h2
      have h4 : (f t + 1) * blk ns t = f t * blk ns t + blk ns t := by ring
      have h5 : (ns.drop (t + 1)).prod = blk ns t := rfl
      omega

/-- Each component can be read back from the palette index. -/
theorem digit_codeOf {ns : List Nat} (h2 : ∀ n ∈ ns, 2 ≤ n) {f : Nat → Nat}
    (hf : ∀ i, i < ns.length → f i < ns.getD i 1) {i : Nat} (hi : i < ns.length) :
    digit ns i (codeOf ns f ns.length) = f i := by
  obtain ⟨r, e1, e2⟩ := codeOf_rest hf ns.length hi (le_refl _)
  have hb := blk_pos h2 i
  simp only [List.drop_length, List.prod_nil] at e2
  obtain ⟨q, hq⟩ := codeOf_dvd ns f i (by omega)
  rw [drop_prod hi] at hq
  have hfi := hf i hi
  unfold digit
  rw [getD_eq hi] at hfi ⊢
  rw [e1]
  simp only [codeOf]
  rw [hq]
  have e3 : ns[i] * blk ns i * q + f i * blk ns i + r = blk ns i * (ns[i] * q + f i) + r := by ring
  rw [e3, Nat.mul_add_div hb, Nat.div_eq_of_lt (by omega), Nat.add_zero, Nat.mul_add_mod, Nat.mod_eq_of_lt hfi]

/-! ## The private object between calls -/

/-- What holds of the tables from `jpeg_start_decompress` on. -/
structure Static (k : Cfg) (q : Q) : Prop where
  c : k.c = 128 ∨ k.c = 2048
  nc : 1 ≤ k.nc
  len : q.ncolors.length = k.nc
  two : ∀ n ∈ q.ncolors, 2 ≤ n
  prod : q.ncolors.prod = q.actual
  fits : q.actual ≤ 2 * k.c
  palette : PaletteIs k.max q.ncolors q.colormap
  index : IndexOk k q.ncolors q.padded q.colorindex
  dith : ∀ od, q.odither = some od → DitherOk k q.ncolors od

/-- An input row: `width` pixels of `nc` samples, in range. -/
def RowOk (k : Cfg) (inp : List Nat) : Prop := inp.length = k.width * k.nc ∧ ∀ v ∈ inp, v ≤ k.max

/-- Sample `i` of pixel `x`. -/
def samp (k : Cfg) (inp : List Nat) (x i : Nat) : Nat := inp.getD (x * k.nc + i) 0

/-- The levels chosen for the components of a pixel. -/
def levels (k : Cfg) (ns : List Nat) (want : Nat → Nat) (i : Nat) : Nat := pick k.max (ns.getD i 1) (want i)

/-- An output row holds the palette index of the rounded `want x i`. -/
def Coded (k : Cfg) (ns : List Nat) (t : Nat) (want : Nat → Nat → Nat) (out : List Nat) : Prop :=
  out.length = k.width ∧ ∀ x, x < k.width → out[x]? = some (codeOf ns (levels k ns (want x)) t)

theorem pos_of_row {k : Cfg} {x i : Nat} (hx : x < k.width) (hi : i < k.nc) : x * k.nc + i < k.width * k.nc := by
  have h : (x + 1) * k.nc ≤ k.width * k.nc := Nat.mul_le_mul_right _ hx
  have e : (x + 1) * k.nc = x * k.nc + k.nc := by ring
  omega

theorem RowOk.get {k : Cfg} {inp : List Nat} (h : RowOk k inp) {x i : Nat} (hx : x < k.width) (hi : i < k.nc) :
    inp[x * k.nc + i]? = some (samp k inp x i) ∧ samp k inp x i ≤ k.max := by
  have hlt : x * k.nc + i < inp.length := by rw [h.1]; exact pos_of_row hx hi
  have e : samp k inp x i = inp[x * k.nc + i] := by simp [samp, List.getD_eq_getElem?_getD, hlt]
  rw [e]
  exact ⟨List.getElem?_eq_getElem hlt, h.2 _ (List.getElem_mem hlt)⟩

theorem Static.n_bound {k : Cfg} {q : Q} (h : Static k q) {i : Nat} (hi : i < k.nc) :
    2 ≤ q.ncolors.getD i 1 ∧ q.ncolors.getD i 1 ≤ k.max + 1 := by
  have hi' : i < q.ncolors.length := by rw [h.len]; exact hi
  rw [getD_eq hi']
  refine ⟨h.two _ (List.getElem_mem hi'), ?_⟩
  have h1 := blk_le h.two hi'
  have h2 := blk_pos h.two i
  have h3 : q.ncolors[i] * 1 ≤ q.ncolors[i] * blk q.ncolors i := Nat.mul_le_mul_left _ h2
  have h4 := h.fits
  rw [h.prod] at h1
  unfold Cfg.max
  rcases h.c with hc | hc <;> omega

theorem Static.lt {k : Cfg} {q : Q} (h : Static k q) {want : Nat → Nat} (hw : ∀ i, i < k.nc → want i ≤ k.max) :
    ∀ i, i < q.ncolors.length → levels k q.ncolors want i < q.ncolors.getD i 1 := by
  intro i hi
  rw [h.len] at hi
  obtain ⟨h1, h2⟩ := h.n_bound hi
  exact pick_lt h1 h2 (hw i hi)

theorem Static.cast {k : Cfg} {q : Q} (h : Static k q) {want : Nat → Nat} (hw : ∀ i, i < k.nc → want i ≤ k.max)
    {t : Nat} (ht : t ≤ k.nc) :
    castSample k.c ((codeOf q.ncolors (levels k q.ncolors want) t : Nat) : Int) =
      codeOf q.ncolors (levels k q.ncolors want) t := by
  apply castSample_of_lt h.c
  have := codeOf_lt h.two (h.lt hw) (t := t) (by rw [h.len]; exact ht)
  have h2 := h.fits
  rw [h.prod] at this
  omega

/-- The pixel a palette index stands for. -/
theorem Static.shows {k : Cfg} {q : Q} (h : Static k q) {want : Nat → Nat} (hw : ∀ i, i < k.nc → want i ≤ k.max) :
    codeOf q.ncolors (levels k q.ncolors want) k.nc < q.actual ∧
    ∀ i, i < k.nc → ∃ row, q.colormap[i]? = some row ∧
      row[codeOf q.ncolors (levels k q.ncolors want) k.nc]? =
        some (level k.max (q.ncolors.getD i 1) (pick k.max (q.ncolors.getD i 1) (want i))) := by
  have hlt := codeOf_lt h.two (h.lt hw) (t := k.nc) (by rw [h.len])
  refine ⟨by rw [← h.prod]; exact hlt, fun i hi => ?_⟩
  have hi' : i < q.ncolors.length := by rw [h.len]; exact hi
  obtain ⟨row, r1, r2, r3⟩ := h.palette.2 i hi'
  refine ⟨row, r1, ?_⟩
  rw [r3 _ hlt]
  have := digit_codeOf h.two (h.lt hw) hi'
  rw [h.len] at this
  rw [this]
  rfl

theorem Static.read {k : Cfg} {q : Q} (h : Static k q) {i : Nat} (hi : i < k.nc) : ∃ t, q.colorindex[i]? = some t ∧
    (∀ v : Nat, v ≤ k.max → t.get? (v : Int) = some (pick k.max (q.ncolors.getD i 1) v * blk q.ncolors i)) ∧
    (q.padded = true → ∀ x : Int, -(k.max : Int) ≤ x → x ≤ 2 * k.max →
      t.get? x = some (pick k.max (q.ncolors.getD i 1) (clampTo k.max x) * blk q.ncolors i)) := by
  obtain ⟨t, t1, t2⟩ := h.index i hi
  refine ⟨t, t1, fun v hv => ?_, fun hp x h1 h2 => ?_⟩
  · rw [t2 _ (by split <;> omega)]
    unfold clampTo
    rw [Int.toNat_natCast, Nat.min_eq_left hv]
  · apply t2; rw [hp]; exact ⟨h1, h2⟩

/-! ## No dithering -/

theorem rowGen_spec {k : Cfg} {q : Q} (h : Static k q) {inp : List Nat} (hr : RowOk k inp) :
    ∃ out, rowGen k q inp = some out ∧ Coded k q.ncolors k.nc (samp k inp) out := by
  unfold rowGen
  obtain ⟨y, e1, e2, e3, e4⟩ := forN_inv (f := fun col (s : Int × List Nat) => do
      let (pix, p) ← forN (fun ci (s : Nat × Int) => do
        let t ← q.colorindex[ci]?
        let v ← rd inp s.2
        let e ← t.get? v
        pure (s.1 + e, s.2 + 1)) k.nc (0, s.1)
      let out ← wr s.2 col (castSample k.c (pix : Int))
      pure (p, out))
    (fun col (s : Int × List Nat) => s.1 = ((col * k.nc : Nat) : Int) ∧ s.2.length = k.width ∧
      ∀ x, x < col → s.2[x]? = some (codeOf q.ncolors (levels k q.ncolors (samp k inp x)) k.nc))
    k.width (0, List.replicate k.width k.junk) ⟨by simp, by simp, fun x hx => by omega⟩ (by
      rintro col ⟨p, out⟩ hcol ⟨h1, h2, h3⟩
      dsimp only at h1 h2 h3 ⊢
      obtain ⟨z, g1, g2, g3⟩ := forN_inv (f := fun ci (s : Nat × Int) => do
          let t ← q.colorindex[ci]?
          let v ← rd inp s.2
          let e ← t.get? v
          pure (s.1 + e, s.2 + 1))
        (fun ci (s : Nat × Int) => s.1 = codeOf q.ncolors (levels k q.ncolors (samp k inp col)) ci ∧
          s.2 = ((col * k.nc + ci : Nat) : Int)) k.nc (0, p) ⟨rfl, by rw [h1]; simp⟩ (by
          rintro ci ⟨a, b⟩ hci ⟨f1, f2⟩
          dsimp only at f1 f2 ⊢
          obtain ⟨t, t1, t2, _⟩ := h.read hci
          obtain ⟨v1, v2⟩ := hr.get hcol hci
          refine ⟨(codeOf q.ncolors (levels k q.ncolors (samp k inp col)) (ci + 1), ((col * k.nc + (ci + 1) : Nat) : Int)),
            ?_, rfl, rfl⟩
          rw [t1]
          simp only [Option.bind_eq_bind, Option.bind_some]
          rw [f2, rd_nat, v1]
          simp only [Option.bind_some]
          rw [t2 _ v2, f1]
          rfl)
      have hlt : col < out.length := by omega
      refine ⟨(((col + 1) * k.nc : Nat), out.set col (codeOf q.ncolors (levels k q.ncolors (samp k inp col)) k.nc)),
        ?_, rfl, by simp [h2], ?_⟩
      · rw [g1]
        simp only [Option.bind_eq_bind, Option.bind_some]
        rw [g2, h.cast (fun i hi => (hr.get hcol hi).2) (le_refl _), wr_nat hlt, g3]
        simp only [Option.bind_some]
        congr 2
        push_cast; ring
      · intro x hx
        dsimp only
        rw [get_set hlt]
        by_cases he : x = col
        · rw [if_pos he, he]
        · rw [if_neg he]; exact h3 x (by omega))
  obtain ⟨p, out⟩ := y
  exact ⟨out, by rw [e1]; rfl, e3, e4⟩

theorem codeOf_three (ns : List Nat) (f : Nat → Nat) :
    codeOf ns f 3 = f 0 * blk ns 0 + f 1 * blk ns 1 + f 2 * blk ns 2 := by
  simp [codeOf]

theorem rowGen3_spec {k : Cfg} {q : Q} (h : Static k q) (h3 : k.nc = 3) {inp : List Nat} (hr : RowOk k inp) :
    ∃ out, rowGen3 k q inp = some out ∧ Coded k q.ncolors k.nc (samp k inp) out := by
  obtain ⟨t0, a1, a2, _⟩ := h.read (i := 0) (by omega)
  obtain ⟨t1, b1, b2, _⟩ := h.read (i := 1) (by omega)
  obtain ⟨t2, d1, d2, _⟩ := h.read (i := 2) (by omega)
  unfold rowGen3
  rw [a1, b1, d1]
  simp only [Option.bind_eq_bind, Option.bind_some]
  obtain ⟨y, e1, e2, e3, e4⟩ := forN_inv (f := fun col (s : Int × List Nat) =>
      (rd inp s.1).bind fun v0 => (t0.get? v0).bind fun a => (rd inp (s.1 + 1)).bind fun v1 =>
      (t1.get? v1).bind fun b => (rd inp (s.1 + 2)).bind fun v2 => (t2.get? v2).bind fun d =>
      (wr s.2 col (castSample k.c ((a + b + d : Nat) : Int))).bind fun out =>
      (pure (s.1 + 3, out) : Option (Int × List Nat)))
    (fun col (s : Int × List Nat) => s.1 = ((col * k.nc : Nat) : Int) ∧ s.2.length = k.width ∧
      ∀ x, x < col → s.2[x]? = some (codeOf q.ncolors (levels k q.ncolors (samp k inp x)) k.nc))
    k.width (0, List.replicate k.width k.junk) ⟨by simp, by simp, fun x hx => by omega⟩ (by
      rintro col ⟨p, out⟩ hcol ⟨h1, h2, h4⟩
      dsimp only at h1 h2 h4 ⊢
      have hlt : col < out.length := by omega
      obtain ⟨v0, w0⟩ := hr.get hcol (i := 0) (by omega)
      obtain ⟨v1, w1⟩ := hr.get hcol (i := 1) (by omega)
      obtain ⟨v2, w2⟩ := hr.get hcol (i := 2) (by omega)
      refine ⟨(((col + 1) * k.nc : Nat), out.set col (codeOf q.ncolors (levels k q.ncolors (samp k inp col)) k.nc)),
        ?_, rfl, by simp [h2], ?_⟩
      · have p1 : ((col * k.nc : Nat) : Int) + 1 = ((col * k.nc + 1 : Nat) : Int) := by push_cast; ring
        have p2 : ((col * k.nc : Nat) : Int) + 2 = ((col * k.nc + 2 : Nat) : Int) := by push_cast; ring
        rw [h1, p1, p2, rd_nat, rd_nat, rd_nat, v1, v2]
        rw [Nat.add_zero] at v0
        rw [v0]
        simp only [Option.bind_some]
        rw [a2 _ w0]
        simp only [Option.bind_some]
        rw [b2 _ w1]
        simp only [Option.bind_some]
        rw [d2 _ w2]
        simp only [Option.bind_some]
        have hcast := h.cast (fun i hi => (hr.get hcol hi).2) (le_refl k.nc)
        have hcode : codeOf q.ncolors (levels k q.ncolors (samp k inp col)) k.nc =
            pick k.max (q.ncolors.getD 0 1) (samp k inp col 0) * blk q.ncolors 0 +
            pick k.max (q.ncolors.getD 1 1) (samp k inp col 1) * blk q.ncolors 1 +
            pick k.max (q.ncolors.getD 2 1) (samp k inp col 2) * blk q.ncolors 2 := by
          rw [h3, codeOf_three]; rfl
        rw [← hcode, hcast, wr_nat hlt]
        simp only [Option.bind_some]
        congr 2
        rw [h3]; push_cast; ring
      · intro x hx
        dsimp only
        rw [get_set hlt]
        by_cases he : x = col
        · rw [if_pos he, he]
        · rw [if_neg he]; exact h4 x (by omega))
  obtain ⟨p, out⟩ := y
  exact ⟨out, by rw [e1]; rfl, e3, e4⟩

end Verif.Quant1
