import Verif.Merge.RowLemmas
import Verif.Merge.CtlSkip
import Verif.Samp.UpProps
/-
C43: merged upsampling and colour conversion gives the pixels of separate (box) upsampling and conversion, RGB565 output has the documented bytes, and every way of calling jpeg_read_scanlines and jpeg_skip_scanlines (within the limits stated) delivers
the lines of the image in order.
-/
namespace Verif.Merge
open Verif.Color

/-! ### Rows -/

/-- Specification: one output row by separate routines: h2v1_upsample (jdsample.c:202-220) for each chroma component, then ycc_rgb_convert (jdcolext.c:31-79) pixel by pixel. -/
def sepRow (c : Nat) (fmt : PixFmt) (w : Nat) (y cb cr : List Nat) (old : List (List Nat)) : Option (List Nat) := do
  let cb' ← Samp.pairRow w cb
  let cr' ← Samp.pairRow w cr
  let px ← (List.range w).mapM fun x => do
    let v ← y[x]?
    let b ← cb'[x]?
    let r ← cr'[x]?
    yccRgb c (v : Nat) (b : Nat) (r : Nat)
  pure (rowOut fmt (2 * c - 1) old px)

theorem mapM_all {α β : Type} {f : α → Option β} {g : α → β} : ∀ (l : List α), (∀ a, a ∈ l → f a = some (g a)) → l.mapM f = some (l.map g) := by
  intro l
  induction l with
  | nil => intro _; rfl
  | cons a l ih =>
    intro h
    simp only [List.mapM_cons, h a (List.mem_cons_self ..), ih fun b hb => h b (List.mem_cons_of_mem _ hb), Option.bind_eq_bind, Option.bind_some, Option.pure_def, List.map_cons]

theorem zipWith_mapIdx {α β γ : Type} (g : α → β → γ) (f : Nat → β) (old : List α) : List.zipWith g old ((List.range old.length).map f) = old.mapIdx fun x o => g o (f x) := by
  apply List.ext_getElem?
  intro i
  rw [List.getElem?_zipWith, List.getElem?_mapIdx, List.getElem?_map]
  by_cases hi : i < old.length
  · rw [List.getElem?_eq_getElem hi, List.getElem?_range hi]; rfl
  · rw [List.getElem?_eq_none (by omega)]; rfl

section
variable {c w : Nat} {fmt : PixFmt} {y y1 cb cr : List Nat} {old old1 : List (List Nat)}

theorem sepRow_eq (hy : Samples c w y) (hcb : Samples c ((w + 1) / 2) cb) (hcr : Samples c ((w + 1) / 2) cr) (hl : old.length = w) : sepRow c fmt w y cb cr old = some (old.mapIdx (pixF c fmt y cb cr)).flatten := by
  obtain ⟨cb', b1, b2, b3⟩ := Samp.pairRow_spec (ow := w) hcb.1
  obtain ⟨cr', r1, r2, r3⟩ := Samp.pairRow_spec (ow := w) hcr.1
  have hm : ((List.range w).mapM fun x => do
      let v ← y[x]?
      let b ← cb'[x]?
      let r ← cr'[x]?
      yccRgb c (v : Nat) (b : Nat) (r : Nat)) = some ((List.range w).map fun x => rgb c (y.getD x 0) (cb.getD (x / 2) 0) (cr.getD (x / 2) 0)) := by
    apply mapM_all
    intro x hx
    have hx := List.mem_range.1 hx
    obtain ⟨y1, y2⟩ := hy.get hx
    have hb := (hcb.get (show x / 2 < (w + 1) / 2 by omega)).2
    have hr := (hcr.get (show x / 2 < (w + 1) / 2 by omega)).2
    rw [y1, b3 x (by omega), r3 x (by omega)]
    simp only [Option.bind_eq_bind, Option.bind_some]
    exact (rgb_eq y2 hb hr).1
  unfold sepRow
  simp only [Option.bind_eq_bind] at hm
  simp only [b1, r1, hm, Option.bind_eq_bind, Option.bind_some, Option.pure_def]
  unfold rowOut
  rw [← hl, zipWith_mapIdx]
  rfl

/-- **C43.** h2v1 merged upsampling: for every width and pixel format, and every sample value (8 or 12 bits), the row written is the one that separate upsampling and colour conversion write; nothing is read or written outside the rows and tables. -/
theorem C43_row (hy : Samples c w y) (hcb : Samples c ((w + 1) / 2) cb) (hcr : Samples c ((w + 1) / 2) cr) (hl : old.length = w) :
    ∃ out, h2v1 c fmt w y cb cr old = some out ∧ sepRow c fmt w y cb cr old = some out.flatten := ⟨_, h2v1_ok hy hcb hcr hl, sepRow_eq hy hcb hcr hl⟩

/-- **C43.** h2v2 merged upsampling: both rows are the ones that separate upsampling and colour conversion write, and those h2v1 merged upsampling writes for the luma row in question. -/
theorem C43_row2 (hy : Samples c w y) (hy1 : Samples c w y1) (hcb : Samples c ((w + 1) / 2) cb) (hcr : Samples c ((w + 1) / 2) cr) (hl : old.length = w) (hl1 : old1.length = w) :
    ∃ out out1, h2v2 c fmt w y y1 cb cr old old1 = some (out, out1) ∧ h2v1 c fmt w y cb cr old = some out ∧ h2v1 c fmt w y1 cb cr old1 = some out1 ∧ sepRow c fmt w y cb cr old = some out.flatten ∧ sepRow c fmt w y1 cb cr old1 = some out1.flatten :=
  ⟨_, _, h2v2_ok hy hy1 hcb hcr hl hl1, h2v1_ok hy hcb hcr hl, h2v1_ok hy1 hcb hcr hl1, sepRow_eq hy hcb hcr hl, sepRow_eq hy1 hcb hcr hl1⟩

end

/-! ### RGB565 -/

/-- The 4x4 ordered dither matrix, row by row. -/
def dmat : List (List Nat) := [[10, 2, 8, 0], [6, 14, 4, 12], [9, 1, 11, 3], [5, 13, 7, 15]]

/-- What dithering adds at line t, column x: nothing without dithering. -/
def ditherAt (dith : Bool) (t x : Nat) : Nat := if dith then (dmat.getD (t % 4) []).getD (x % 4) 0 else 0

/-- The RGB565 pixel: 5 bits of red, 6 of green, 5 of blue as a 16-bit number, low byte first; `e` is added to red and blue and half of it to green before clamping to 0..255 (the colour before clamping is that of `yccRgb`). -/
def spec565 (y cb cr e : Nat) : List Nat :=
  let r := clampTo 255 (y + (91881 * ((cr : Int) - 128) + 32768) / 65536 + e)
  let g := clampTo 255 (y + (-22554 * ((cb : Int) - 128) + 32768 - 46802 * ((cr : Int) - 128)) / 65536 + (e / 2 : Nat))
  let b := clampTo 255 (y + (116130 * ((cb : Int) - 128) + 32768) / 65536 + e)
  let v := r / 8 * 2048 + g / 4 * 32 + b / 8
  [v % 256, v / 256]

theorem spec_pixD (y cb cr e : Nat) : pixD y cb cr e = spec565 y cb cr e := by
  have : (-22554 * ((cb : Int) - 128) + 32768 - 46802 * ((cr : Int) - 128)) = (-22554 * ((cb : Int) - (128 : Nat)) + 32768 + -46802 * ((cr : Int) - (128 : Nat))) := by push_cast; ring
  unfold spec565 pixD offs val565
  rw [this]
  rfl

/-- **C43.** Without dithering the RGB565 pixel is that of the converted colour. -/
theorem C43_565_colour {y cb cr : Nat} (hy : y < 256) (hcb : cb < 256) (hcr : cr < 256) : ∃ r g b, yccRgb 128 y cb cr = some (r, g, b) ∧ spec565 y cb cr 0 = [(r / 8 * 2048 + g / 4 * 32 + b / 8) % 256, (r / 8 * 2048 + g / 4 * 32 + b / 8) / 256] := by
  obtain ⟨h1, h2⟩ := rgb_eq (c := 128) hy hcb hcr
  refine ⟨(rgb 128 y cb cr).1, (rgb 128 y cb cr).2.1, (rgb 128 y cb cr).2.2, h1, ?_⟩
  rw [← spec_pixD, h2]
  unfold pixD val565
  simp

theorem dval_at (dith : Bool) (t x : Nat) : dval (if dith then some (ditherRow t) else none) x = ditherAt dith t x := by
  cases dith with
  | false => rfl
  | true =>
    have : ∀ t, t < 4 → ∀ x, x < 4 → dval (some (ditherRow t)) x = (dmat.getD t []).getD x 0 := by decide +kernel
    unfold ditherAt
    simp only [if_true]
    rw [dval_mod, ditherRow_mod]
    exact this _ (Nat.mod_lt _ (by omega)) _ (Nat.mod_lt _ (by omega))

theorem wordOk (dith : Bool) (t : Nat) : WordOk (if dith then some (ditherRow t) else none) := by
  intro v hv
  cases dith <;> simp at hv
  exact ⟨t, hv.symm⟩

/-- Specification of a row: pixel by pixel. -/
def row565 (dith : Bool) (t w : Nat) (y cb cr : List Nat) : List (List Nat) := (List.range w).map fun x => spec565 (y.getD x 0) (cb.getD (x / 2) 0) (cr.getD (x / 2) 0) (ditherAt dith t x)

theorem mapIdx_range {α β : Type} (f : Nat → β) (old : List α) : old.mapIdx (fun x _ => f x) = (List.range old.length).map f := by
  apply List.ext_getElem?
  intro i
  rw [List.getElem?_mapIdx, List.getElem?_map]
  by_cases hi : i < old.length
  · rw [List.getElem?_eq_getElem hi, List.getElem?_range hi]; rfl
  · rw [List.getElem?_eq_none (by omega), List.getElem?_eq_none (by simp; omega)]; rfl

theorem row565_eq {dith : Bool} {t w : Nat} {y cb cr : List Nat} {old : List (List Nat)} (hl : old.length = w) : old.mapIdx (pixF565 (if dith then some (ditherRow t) else none) y cb cr) = row565 dith t w y cb cr := by
  have : pixF565 (if dith then some (ditherRow t) else none) y cb cr = fun x _ => spec565 (y.getD x 0) (cb.getD (x / 2) 0) (cr.getD (x / 2) 0) (ditherAt dith t x) := by
    funext x o
    unfold pixF565
    rw [dval_at, spec_pixD]
  rw [this, mapIdx_range, hl]
  rfl

section
variable {w : Nat} {dith be : Bool} {y y1 cb cr : List Nat} {old old1 : List (List Nat)}

/-- **C43.** h2v1 merged upsampling to RGB565, with or without dithering, on a machine of either byte order. -/
theorem C43_565_row (t : Nat) (hy : Samples 128 w y) (hcb : Samples 128 ((w + 1) / 2) cb) (hcr : Samples 128 ((w + 1) / 2) cr) (hl : old.length = w) :
    h2v1_565 be (if dith then some (ditherRow t) else none) w y cb cr old = some (row565 dith t w y cb cr) := by
  rw [h2v1_565_ok (wordOk dith t) hy hcb hcr hl, row565_eq hl]

/-- **C43.** h2v2 merged upsampling to RGB565: lines t and t + 1. -/
theorem C43_565_row2 (t : Nat) (hy : Samples 128 w y) (hy1 : Samples 128 w y1) (hcb : Samples 128 ((w + 1) / 2) cb) (hcr : Samples 128 ((w + 1) / 2) cr) (hl : old.length = w) (hl1 : old1.length = w) :
    h2v2_565 be (if dith then some (ditherRow t) else none) (if dith then some (ditherRow (t + 1)) else none) w y y1 cb cr old old1 = some (row565 dith t w y cb cr, row565 dith (t + 1) w y1 cb cr) := by
  rw [h2v2_565_ok (wordOk dith t) (wordOk dith (t + 1)) hy hy1 hcb hcr hl hl1, row565_eq hl, row565_eq hl1]

end

/-! ### RGB565 after separate upsampling, one row per call -/

/-- Pixel x of a row converted separately; `s` = 1 if the row is not aligned. -/
def pixS (s : Nat) (d : Option Nat) (y cb cr : List Nat) (x : Nat) (_ : List Nat) : List Nat := pixD (y.getD x 0) (cb.getD x 0) (cr.getD x 0) (dval d (x - s))

section
variable {w : Nat} {be : Bool} {d : Option Nat} {y cb cr : List Nat} {old : List (List Nat)}

theorem one565S_ok (hd : WordOk d) (hy : Samples 128 w y) (hcb : Samples 128 w cb) (hcr : Samples 128 w cr) (hl : old.length = w) {s x : Nat} (hx : x < w) {out : List (List Nat)} (h : Part (pixS s d y cb cr) old x out) :
    ∃ out', one565S be y cb cr x (rotN d (x - s)) out = some out' ∧ Part (pixS s d y cb cr) old (x + 1) out' := by
  obtain ⟨a1, a2⟩ := hy.get hx
  obtain ⟨p, e1, e2, e3⟩ := pix565_ok (be := be) hd (x := x - s) a2 (hcb.get hx).2 (hcr.get hx).2
  have ho : old[x]? = some (old[x]'(by omega)) := List.getElem?_eq_getElem _
  refine ⟨_, ?_, h.step ho⟩
  unfold one565S
  rw [a1, chromaS_eq hcb hcr hx]
  simp only [Option.bind_eq_bind, Option.bind_some, e1]
  rw [if_pos (by rw [h.1]; omega), e3]
  rfl

theorem pairs565S_ok (hd : WordOk d) (hy : Samples 128 w y) (hcb : Samples 128 w cb) (hcr : Samples 128 w cr) (hl : old.length = w) {s : Nat} : ∀ (n i : Nat) (out : List (List Nat)), s ≤ i → i + 2 * n ≤ w → Part (pixS s d y cb cr) old i out →
    ∃ out', pairs565S be y cb cr n i (rotN d (i - s)) out = some (i + 2 * n, rotN d (i + 2 * n - s), out') ∧ Part (pixS s d y cb cr) old (i + 2 * n) out' := by
  intro n
  induction n with
  | zero => intro i out _ _ h; exact ⟨out, rfl, h⟩
  | succ n ih =>
    intro i out hs hi h
    obtain ⟨a1, a2⟩ := hy.get (show i < w by omega)
    obtain ⟨b1, b2⟩ := hy.get (show i + 1 < w by omega)
    obtain ⟨p, e1, e2, e3⟩ := pix565_ok (be := be) hd (x := i - s) a2 (hcb.get (show i < w by omega)).2 (hcr.get (show i < w by omega)).2
    obtain ⟨q, f1, f2, f3⟩ := pix565_ok (be := be) hd (x := i + 1 - s) b2 (hcb.get (show i + 1 < w by omega)).2 (hcr.get (show i + 1 < w by omega)).2
    have ho : old[i]? = some (old[i]'(by omega)) := List.getElem?_eq_getElem _
    have ho1 : old[i + 1]? = some (old[i + 1]'(by omega)) := List.getElem?_eq_getElem _
    have s2 := (h.step ho).step ho1
    obtain ⟨o3, g1, g2⟩ := ih (i + 2) _ (by omega) (by omega) s2
    refine ⟨o3, ?_, by rw [show i + 2 * (n + 1) = i + 2 + 2 * n by omega]; exact g2⟩
    unfold pairs565S
    have r1 : (rotN d (i - s)).map ditherRotate = rotN d (i + 1 - s) := by rw [show i + 1 - s = (i - s) + 1 by omega]; rfl
    have r2 : (rotN d (i + 1 - s)).map ditherRotate = rotN d (i + 2 - s) := by rw [show i + 2 - s = (i + 1 - s) + 1 by omega]; rfl
    rw [a1, b1, chromaS_eq hcb hcr (show i < w by omega), chromaS_eq hcb hcr (show i + 1 < w by omega)]
    simp only [Option.bind_eq_bind, Option.bind_some, e1, r1, f1, r2, write_pack e2 f2]
    rw [if_pos (by rw [h.1]; omega), e3, f3, show i + 2 * (n + 1) = i + 2 + 2 * n by omega]
    exact g1

/-- One row: exactly the first `nc` pixels are written. -/
theorem row565S_ok (hd : WordOk d) (hy : Samples 128 w y) (hcb : Samples 128 w cb) (hcr : Samples 128 w cr) (hl : old.length = w) (aligned : Bool) {nc : Nat} (h0 : 0 < nc) (hn : nc ≤ w) :
    ∃ nc' d' out, row565S be aligned y cb cr nc d old = some (nc', d', out) ∧ Part (pixS (if aligned then 0 else 1) d y cb cr) old nc out := by
  unfold row565S
  cases aligned with
  | true =>
    obtain ⟨o1, e1, p1⟩ := pairs565S_ok (be := be) hd hy hcb hcr hl (s := 0) (nc / 2) 0 old (Nat.zero_le _) (by omega) (Part.zero _ _)
    simp only [Nat.zero_add, Nat.sub_zero, show rotN d 0 = d from rfl] at e1 p1
    simp only [if_true, Option.pure_def, Option.bind_eq_bind, Option.bind_some, e1]
    by_cases ho : nc % 2 = 1
    · rw [if_pos ho]
      obtain ⟨o2, e2, p2⟩ := one565S_ok (be := be) hd hy hcb hcr hl (s := 0) (x := 2 * (nc / 2)) (by omega) p1
      rw [Nat.sub_zero] at e2
      simp only [e2, Option.bind_some]
      exact ⟨_, _, _, rfl, by rw [show 2 * (nc / 2) + 1 = nc by omega] at p2; exact p2⟩
    · rw [if_neg ho]
      exact ⟨_, _, _, rfl, by rw [show 2 * (nc / 2) = nc by omega] at p1; exact p1⟩
  | false =>
    obtain ⟨o0, e0, p0⟩ := one565S_ok (be := be) hd hy hcb hcr hl (s := 1) (x := 0) (by omega) (Part.zero _ _)
    rw [show rotN d (0 - 1) = d from rfl] at e0
    obtain ⟨o1, e1, p1⟩ := pairs565S_ok (be := be) hd hy hcb hcr hl (s := 1) ((nc - 1) / 2) 1 o0 (Nat.le_refl _) (by omega) p0
    rw [show rotN d (1 - 1) = d from rfl] at e1
    simp only [Bool.false_eq_true, if_false, Option.pure_def, Option.bind_eq_bind, Option.bind_some, e0, e1]
    by_cases ho : (nc - 1) % 2 = 1
    · rw [if_pos ho]
      obtain ⟨o2, e2, p2⟩ := one565S_ok (be := be) hd hy hcb hcr hl (s := 1) (x := 1 + 2 * ((nc - 1) / 2)) (by omega) p1
      simp only [e2, Option.bind_some]
      exact ⟨_, _, _, rfl, by rw [show 1 + 2 * ((nc - 1) / 2) + 1 = nc by omega] at p2; exact p2⟩
    · rw [if_neg ho]
      exact ⟨_, _, _, rfl, by rw [show 1 + 2 * ((nc - 1) / 2) = nc by omega] at p1; exact p1⟩

/-- Specification of a row converted separately: like `row565`, with chroma rows of full width; `s` = 1 shifts the dither matrix by one column (except for column 0). -/
def sep565 (dith : Bool) (t w s : Nat) (y cb cr : List Nat) : List (List Nat) := (List.range w).map fun x => spec565 (y.getD x 0) (cb.getD x 0) (cr.getD x 0) (ditherAt dith t (x - s))

/-- **C43.** Separate conversion to RGB565, one row per call: the pixels of the colours; for a row that is not aligned to 4 bytes the dither matrix is shifted by one column. -/
theorem C43_565_separate (dith : Bool) (t : Nat) (hw : 0 < w) (hy : Samples 128 w y) (hcb : Samples 128 w cb) (hcr : Samples 128 w cr) (hl : old.length = w) (aligned : Bool) :
    convert565S be w (if dith then some t else none) [(aligned, y, cb, cr, old)] = some [sep565 dith t w (if aligned then 0 else 1) y cb cr] := by
  have hd : Option.map ditherRow (if dith then some t else none) = if dith then some (ditherRow t) else none := by cases dith <;> rfl
  obtain ⟨nc', d', out, e1, p1⟩ := row565S_ok (be := be) (wordOk dith t) hy hcb hcr hl aligned hw (Nat.le_refl w)
  unfold convert565S rows565S
  rw [hd]
  simp only [e1, Option.bind_eq_bind, Option.bind_some]
  unfold rows565S
  simp only [Option.bind_some, Option.pure_def, Option.some.injEq, List.cons.injEq, and_true]
  rw [← hl] at p1
  rw [p1.done]
  have : pixS (if aligned then 0 else 1) (if dith then some (ditherRow t) else none) y cb cr = fun x _ => spec565 (y.getD x 0) (cb.getD x 0) (cr.getD x 0) (ditherAt dith t (x - if aligned then 0 else 1)) := by
    funext x o
    unfold pixS
    rw [dval_at, spec_pixD]
  rw [this, mapIdx_range, hl]
  rfl

end

/-! ### Lines delivered to the application -/

section
variable {R P : Type} {k : Cfg R P} (hk : k.Ok) {src : Nat → Nat → R} {wf : P → Prop} {line : Nat → R → R → R → P} (hl : Lines k src wf line)
include hk hl

/-- **C43.** jpeg_read_scanlines, in every state the application can reach: it never fails, delivers at least one line if the data is there and the image is not complete, at most `max`, never goes past the end of the image, and the rows delivered are the
next lines of the image; rows beyond those are not touched. -/
theorem C43_read {buf0 : Nat → Nat → R} {spare0 : P} (hs : wf spare0) {g a : Bool} {s : St R P} (h : Reach k src wf buf0 spare0 g a s) {max : Nat} (hroom : RoomOk k g s.outScan max) {app : Nat → P} (hwf : ∀ i, i < max → wf (app i)) (ok : Bool) :
    ∃ o s' app', k.read src max ok app s = some (o, s', app') ∧ s'.outScan = s.outScan + o ∧ s'.outScan ≤ k.H ∧ o ≤ max ∧ (ok = true → s.outScan < k.H → 0 < o) ∧
      (∀ i, i < o → app' i = k.scan src line (s.outScan + i)) ∧ (∀ i, o ≤ i → app' i = app i) ∧ s'.out = s.out ++ (List.range o).map (fun i => k.scan src line (s.outScan + i)) := by
  obtain ⟨o, s', app', e1, e2, e3, e4, e5, e6, e7, e8⟩ := read_ok hk hl ok (reach_inv hk hl hs h).1 hroom hwf
  exact ⟨o, s', app', e1, e3, e2.le, e4, e5, e6, e7, e8⟩

/-- **C43.** jpeg_skip_scanlines returns the number of lines asked for, or what is left of the image, moves output_scanline by it and delivers nothing. -/
theorem C43_skip {buf0 : Nat → Nat → R} {spare0 : P} (hs : wf spare0) {g a : Bool} {s : St R P} (h : Reach k src wf buf0 spare0 g a s) {n : Nat} (hok : SkipOk k s.outScan a n) :
    ∃ s', k.skip src n s = some (min n (k.H - s.outScan), s') ∧ s'.outScan = s.outScan + min n (k.H - s.outScan) ∧ s'.out = s.out := by
  obtain ⟨e1, e2⟩ := reach_inv hk hl hs h
  obtain ⟨s', f1, _, _, f4, f5⟩ := skip_ok hk hl e1 e2 hok
  exact ⟨s', f1, f4, f5⟩

/-- **C43.** An application that only reads has at any time the lines up to output_scanline, in order; so when output_scanline reaches the height it has the image. -/
theorem C43_complete {buf0 : Nat → Nat → R} {spare0 : P} (hs : wf spare0) {a : Bool} {s : St R P} (h : Reach k src wf buf0 spare0 false a s) : s.out = (List.range s.outScan).map (k.scan src line) := by
  generalize hg : false = g at h
  induction h with
  | start => rfl
  | read h hroom hwf h' ih =>
    rename_i ok
    obtain ⟨o, s', app', e1, e2, _, _, _, _, _, e8⟩ := C43_read hk hl hs h hroom hwf ok
    rw [h'] at e1
    simp only [Option.some.injEq, Prod.mk.injEq] at e1
    obtain ⟨rfl, rfl, rfl⟩ := e1
    rw [e8, ih hg, e2, List.range_add, List.map_append, List.map_map]
    rfl
  | skip h hok h' ih => simp at hg

end

/-- **C43.** Limits: an application that never skips may always ask for any number of lines but zero. -/
theorem C43_room_reading {R P : Type} (k : Cfg R P) (p : Nat) {max : Nat} (h : 1 ≤ max) : RoomOk k false p max := ⟨h, fun e => by simp at e⟩
/-- One line at a time is always allowed before the end of the image. -/
theorem C43_room_one {R P : Type} (k : Cfg R P) (g : Bool) {p : Nat} (h : p < k.H) : RoomOk k g p 1 := ⟨Nat.le_refl _, fun _ _ => Or.inr h⟩
/-- With 2:1 vertical sampling every skip from an even line is allowed. -/
theorem C43_skip_even {R P : Type} {k : Cfg R P} (hv : k.v = 2) {p : Nat} (hp : p % 2 = 0) (a : Bool) (n : Nat) : SkipOk k p a n := Or.inr (Or.inr (by rw [if_pos hv]; exact hp))

/-! ### The concrete conversions -/

/-- The decompressor with merged upsampling to an RGB pixel format (jdmerge.c:556-596). -/
def rgbCfg (ih v M D c : Nat) (fmt : PixFmt) (w : Nat) : Cfg (List Nat) (List (List Nat)) := { ih, v, M, D, conv := fun _ y cb cr old => h2v1 c fmt w y cb cr old }

/-- The decompressor with merged upsampling to RGB565 (jdmerge.c:556-596). -/
def cfg565 (ih v M D : Nat) (be dith : Bool) (w : Nat) : Cfg (List Nat) (List (List Nat)) := { ih, v, M, D, conv := fun t y cb cr old => h2v1_565 be (if dith then some (ditherRow t) else none) w y cb cr old }

/-- The rows delivered by the coefficient controller: samples of the precision, chroma rows of half the width. -/
def SrcOk (c w : Nat) (src : Nat → Nat → List Nat) : Prop := ∀ r, Samples c w (src 0 r) ∧ Samples c ((w + 1) / 2) (src 1 r) ∧ Samples c ((w + 1) / 2) (src 2 r)

/-- An output row: w pixels of the size of the format. -/
def RowOk (size w : Nat) (row : List (List Nat)) : Prop := row.length = w ∧ ∀ p, p ∈ row → p.length = size

/-- The row written, whatever was there before. -/
def lineRgb (c : Nat) (fmt : PixFmt) (w : Nat) (y cb cr : List Nat) : List (List Nat) := (List.range w).map fun x => pixF c fmt y cb cr x (List.replicate fmt.size 0)

theorem putPixel_old {fmt : PixFmt} (hf : fmt ∈ formats) (maxv : Nat) {o o' : List Nat} (h : o.length = fmt.size) (h' : o'.length = fmt.size) (r g b : Nat) : putPixel fmt maxv o r g b = putPixel fmt maxv o' r g b := by
  obtain ⟨⟨a1, a2, a3, a4⟩, a5⟩ := output_pixel_format_exact fmt hf maxv o r g b h
  obtain ⟨⟨b1, b2, b3, b4⟩, b5⟩ := output_pixel_format_exact fmt hf maxv o' r g b h'
  apply List.ext_getElem?
  intro i
  by_cases hi : i < fmt.size
  · by_cases h1 : i = fmt.red
    · rw [h1, a2, b2]
    by_cases h2 : i = fmt.green
    · rw [h2, a3, b3]
    by_cases h3 : i = fmt.blue
    · rw [h3, a4, b4]
    rw [a5 i hi h1 h2 h3, b5 i hi h1 h2 h3]
  · rw [List.getElem?_eq_none (by omega), List.getElem?_eq_none (by omega)]

theorem lineRgb_eq {c w : Nat} {fmt : PixFmt} (hf : fmt ∈ formats) {y cb cr : List Nat} {old : List (List Nat)} (ho : RowOk fmt.size w old) : old.mapIdx (pixF c fmt y cb cr) = lineRgb c fmt w y cb cr := by
  apply List.ext_getElem?
  intro i
  unfold lineRgb
  rw [List.getElem?_mapIdx, List.getElem?_map]
  by_cases hi : i < old.length
  · rw [List.getElem?_eq_getElem hi, List.getElem?_range (by rw [← ho.1]; exact hi)]
    simp only [Option.map_some, Option.some.injEq]
    unfold pixF
    exact putPixel_old hf _ (ho.2 _ (List.getElem_mem hi)) (List.length_replicate ..) _ _ _
  · rw [List.getElem?_eq_none (by omega), List.getElem?_eq_none (by have := ho.1; simp; omega)]; rfl

theorem rgb_lines {ih v M D c w : Nat} {fmt : PixFmt} (hf : fmt ∈ formats) {src : Nat → Nat → List Nat} (hs : SrcOk c w src) : Lines (rgbCfg ih v M D c fmt w) src (RowOk fmt.size w) (fun _ => lineRgb c fmt w) := by
  refine ⟨fun t r q old ho => ?_, fun t r q => ⟨by simp [lineRgb], fun p hp => ?_⟩⟩
  · show h2v1 c fmt w _ _ _ old = _
    rw [h2v1_ok (hs r).1 (hs q).2.1 (hs q).2.2 ho.1, lineRgb_eq hf ho]
  · unfold lineRgb at hp
    obtain ⟨x, _, rfl⟩ := List.mem_map.1 hp
    exact (output_pixel_format_exact fmt hf _ _ _ _ _ (List.length_replicate ..)).1.1

theorem lines565 {ih v M D w : Nat} {be dith : Bool} {src : Nat → Nat → List Nat} (hs : SrcOk 128 w src) : Lines (cfg565 ih v M D be dith w) src (RowOk 2 w) (fun t => row565 dith t w) := by
  refine ⟨fun t r q old ho => C43_565_row t (hs r).1 (hs q).2.1 (hs q).2.2 ho.1, fun t r q => ⟨by simp [row565], fun p hp => ?_⟩⟩
  unfold row565 at hp
  obtain ⟨x, _, rfl⟩ := List.mem_map.1 hp
  rfl

/-- **C43.** The lines an application reads with merged upsampling (any RGB pixel format, any buffer size, after any skips within the limits) are those that separate box upsampling and conversion produce from the same decoded samples: luma row t, chroma rows
t / v, whatever the buffers held before. -/
theorem C43_rgb {ih v M D c w : Nat} {fmt : PixFmt} (hf : fmt ∈ formats) (hk : (rgbCfg ih v M D c fmt w).Ok) {src : Nat → Nat → List Nat} (hs : SrcOk c w src) {buf0 : Nat → Nat → List Nat} {spare0 : List (List Nat)} (hsp : RowOk fmt.size w spare0) {g a : Bool}
    {s : St (List Nat) (List (List Nat))} (h : Reach (rgbCfg ih v M D c fmt w) src (RowOk fmt.size w) buf0 spare0 g a s) {max : Nat} (hroom : RoomOk (rgbCfg ih v M D c fmt w) g s.outScan max) {app : Nat → List (List Nat)} (hwf : ∀ i, i < max → RowOk fmt.size w (app i)) (ok : Bool) :
    ∃ o s' app', (rgbCfg ih v M D c fmt w).read src max ok app s = some (o, s', app') ∧ s'.outScan = s.outScan + o ∧ o ≤ max ∧ (ok = true → s.outScan < (rgbCfg ih v M D c fmt w).H → 0 < o) ∧ (∀ i, o ≤ i → app' i = app i) ∧
      ∀ i, i < o → ∀ old, RowOk fmt.size w old → sepRow c fmt w (src 0 (s.outScan + i)) (src 1 ((s.outScan + i) / v)) (src 2 ((s.outScan + i) / v)) old = some (app' i).flatten := by
  obtain ⟨o, s', app', e1, e2, _, e4, e5, e6, e7, _⟩ := C43_read hk (rgb_lines hf hs) hsp h hroom hwf ok
  refine ⟨o, s', app', e1, e2, e4, e5, e7, fun i hi old ho => ?_⟩
  rw [e6 i hi, sepRow_eq (hs _).1 (hs _).2.1 (hs _).2.2 ho.1, lineRgb_eq hf ho]
  rfl

/-- **C43.** The same for RGB565, on a machine of either byte order: the dither matrix is positioned by line and column of the image, however the lines are read. -/
theorem C43_565 {ih v M D w : Nat} {be dith : Bool} (hk : (cfg565 ih v M D be dith w).Ok) {src : Nat → Nat → List Nat} (hs : SrcOk 128 w src) {buf0 : Nat → Nat → List Nat} {spare0 : List (List Nat)} (hsp : RowOk 2 w spare0) {g a : Bool}
    {s : St (List Nat) (List (List Nat))} (h : Reach (cfg565 ih v M D be dith w) src (RowOk 2 w) buf0 spare0 g a s) {max : Nat} (hroom : RoomOk (cfg565 ih v M D be dith w) g s.outScan max) {app : Nat → List (List Nat)} (hwf : ∀ i, i < max → RowOk 2 w (app i)) (ok : Bool) :
    ∃ o s' app', (cfg565 ih v M D be dith w).read src max ok app s = some (o, s', app') ∧ s'.outScan = s.outScan + o ∧ o ≤ max ∧ (ok = true → s.outScan < (cfg565 ih v M D be dith w).H → 0 < o) ∧ (∀ i, o ≤ i → app' i = app i) ∧
      ∀ i, i < o → app' i = row565 dith (s.outScan + i) w (src 0 (s.outScan + i)) (src 1 ((s.outScan + i) / v)) (src 2 ((s.outScan + i) / v)) := by
  obtain ⟨o, s', app', e1, e2, _, e4, e5, e6, e7, _⟩ := C43_read hk (lines565 hs) hsp h hroom hwf ok
  exact ⟨o, s', app', e1, e2, e4, e5, e7, e6⟩

/-! ### Examples -/

/-- Operations of an application. -/
inductive Op where
  | read (max : Nat) (ok : Bool)
  | skip (n : Nat)

/-- What the application gets: numbers of lines returned by each call, output_scanline and the lines (the rows it provides are all `blank`). -/
def runOps {R P : Type} (k : Cfg R P) (src : Nat → Nat → R) (blank : P) : List Op → St R P → Option (List Nat × St R P)
  | [], s => some ([], s)
  | .read max ok :: l, s => do
    let (o, s, _) ← k.read src max ok (fun _ => blank) s
    let (os, s) ← runOps k src blank l s
    pure (o :: os, s)
  | .skip n :: l, s => do
    let (o, s) ← k.skip src n s
    let (os, s) ← runOps k src blank l s
    pure (o :: os, s)

/-- Rows as labels (component, row): the row converted is the line number with the labels of its inputs. -/
def lab (ih v : Nat) : Cfg (Nat × Nat) (List (Nat × Nat)) := { ih, v, M := 8, D := 8, conv := fun _ y cb cr _ => some [y, cb, cr] }

def got {ih v : Nat} (ops : List Op) : Option (List Nat × Nat × List (List (Nat × Nat))) :=
  (runOps (lab ih v) (fun c r => (c, r)) [] ops ((lab ih v).start (fun _ _ => (9, 9)) [])).map fun x => (x.1, x.2.outScan, x.2.out)

theorem lab_lines (ih v : Nat) : Lines (lab ih v) (fun c r => (c, r)) (fun _ => True) (fun _ y cb cr => [y, cb, cr]) := ⟨fun _ _ _ _ _ => rfl, fun _ _ _ => trivial⟩
theorem lab_ok {ih v : Nat} (h : 0 < ih) (hv : v = 1 ∨ v = 2) : (lab ih v).Ok := ⟨h, hv, Nat.succ_pos 7, Nat.succ_pos 7⟩

/-- Expected line t. -/
def ln (v t : Nat) : List (Nat × Nat) := [(0, t), (1, t / v), (2, t / v)]

-- 4:2:0, 40 lines: reads of 1, 2, 3 lines, a skip within an iMCU row, a read that would suspend if data were needed, a skip over the next iMCU row, two more reads
example : got (ih := 40) (v := 2) [.read 1 true, .read 2 true, .read 3 true, .skip 2, .read 5 false, .skip 13, .read 2 true, .read 1 true] =
    some ([1, 1, 2, 2, 2, 13, 1, 1], 23, [ln 2 0, ln 2 1, ln 2 2, ln 2 3, ln 2 6, ln 2 7, ln 2 21, ln 2 22]) := by decide +kernel
example : got (ih := 40) (v := 2) [.read 2 false, .read 1 true] = some ([0, 1], 1, [ln 2 0]) := by decide +kernel
-- 4:2:2
example : got (ih := 20) (v := 1) [.read 3 true, .skip 9, .read 2 true] = some ([1, 9, 1], 11, [ln 1 0, ln 1 10]) := by decide +kernel
-- the hypotheses of C43_read and C43_skip hold along such a history
example : ∃ s, Reach (lab 40 2) (fun c r => (c, r)) (fun _ => True) (fun _ _ => (9, 9)) [] true false s ∧ s.outScan = 21 ∧ SkipOk (lab 40 2) 1 true 3 ∧ RoomOk (lab 40 2) true s.outScan 5 := by
  have hk := lab_ok (ih := 40) (v := 2) (by decide) (Or.inr rfl)
  have hl := lab_lines 40 2
  have h0 : Reach (lab 40 2) (fun c r => (c, r)) (fun _ => True) (fun _ _ => (9, 9)) [] false false ((lab 40 2).start (fun _ _ => (9, 9)) []) := .start
  obtain ⟨s', e1, e2, _⟩ := C43_skip (line := fun _ y cb cr => [y, cb, cr]) hk hl trivial h0 (n := 21) (C43_skip_even rfl rfl false 21)
  exact ⟨s', .skip h0 (C43_skip_even rfl rfl false 21) e1, e2, Or.inr (Or.inl (by decide)), by decide, fun _ _ => Or.inl (by decide)⟩

-- RGB and RGB565 rows of width 3
example : h2v1 128 extBGRX 3 [76, 76, 29] [85, 255] [255, 107] [[7, 7, 7, 7], [7, 7, 7, 7], [7, 7, 7, 7]] = some [[0, 0, 254, 255], [0, 0, 254, 255], [254, 0, 0, 255]] := by decide +kernel
example : Samples 128 3 [76, 76, 29] ∧ Samples 128 ((3 + 1) / 2) [85, 255] ∧ Samples 128 ((3 + 1) / 2) [255, 107] := by unfold Samples; decide
example : h2v1_565 true (some (ditherRow 0)) 3 [76, 76, 29] [85, 255] [255, 107] [[], [], []] = some [[33, 248], [0, 248], [63, 8]] := by decide +kernel
example : row565 true 0 3 [100, 100, 100] [128, 128] [128, 128] = [[77, 107], [44, 99], [77, 107]] := by decide +kernel
example : (rgbCfg 40 2 8 8 128 extRGB 3).Ok := ⟨by decide, Or.inr rfl, by decide, by decide⟩
example : SrcOk 128 3 (fun c _ => if c = 0 then [76, 76, 29] else [85, 255]) := fun _ => by dsimp only; unfold Samples; decide
example : RowOk 3 2 [[0, 0, 0], [1, 2, 3]] := ⟨rfl, by decide⟩

/-! ### What happens outside `SkipOk` and `RoomOk`, and with several rows per call in jdcol565.c -/

-- 2:1 vertical sampling: a skip past the current iMCU row from an odd line; the spare row is still marked full: line 16 is given as line 1 and from there on chroma and luma are those of other lines
theorem C43_bug_odd_skip : got (ih := 48) (v := 2) [.read 1 true, .skip 15, .read 1 true, .read 1 true, .read 1 true] = some ([1, 15, 1, 1, 1], 19, [ln 2 0, ln 2 1, ln 2 18, ln 2 19]) := by decide +kernel
example : ¬ SkipOk (lab 48 2) 1 true 15 := by unfold SkipOk; decide
-- odd height, after a skip, room for two lines at the last line: two lines are returned, output_scanline is one more than output_height
theorem C43_bug_too_many : got (ih := 19) (v := 2) [.skip 18, .read 2 true] = some ([18, 2], 20, [ln 2 18, ln 2 19]) := by decide +kernel
example : ¬ RoomOk (lab 19 2) true 18 2 := by unfold RoomOk; decide
-- room for no line: with 2:1 vertical sampling a row pointer that is not there is used, without a line is written although there is no room
theorem C43_bug_no_room : got (ih := 19) (v := 2) [.read 0 true] = none ∧ got (ih := 19) (v := 1) [.read 0 true] = none := by decide +kernel
-- without vertical upsampling: a skip that leaves an iMCU row of which no line was read
theorem C43_bug_two_skips : got (ih := 48) (v := 1) [.skip 3, .skip 5, .read 1 true] = some ([3, 5, 1], 9, [ln 1 0]) := by decide +kernel
-- jdcol565.c: two rows per call, not aligned: the last pixel of the second row is not written
theorem C43_bug_last_pixel : convert565S false 2 none [(false, [100, 100], [128, 128], [128, 128], [[1, 1], [1, 1]]), (false, [100, 100], [128, 128], [128, 128], [[1, 1], [1, 1]])] = some [[[44, 99], [44, 99]], [[44, 99], [1, 1]]] := by decide +kernel
-- and with dithering the second row of a call has the first row's line of the matrix, shifted by the width
theorem C43_bug_dither_rows : convert565S false 2 (some 0) [(true, [100, 100], [128, 128], [128, 128], [[], []]), (true, [100, 100], [128, 128], [128, 128], [[], []])] = some [sep565 true 0 2 0 [100, 100] [128, 128] [128, 128], [[77, 107], [44, 99]]] ∧
    sep565 true 1 2 0 [100, 100] [128, 128] [128, 128] ≠ [[77, 107], [44, 99]] := by decide +kernel

end Verif.Merge
