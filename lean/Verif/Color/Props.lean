import Verif.Color.Model
import Mathlib.Data.List.Forall2
import Mathlib.Tactic.Ring
import Mathlib.Tactic.Linarith
/-
C20, C21: accuracy and range of the colour conversions, and pixel-format independence.
-/
namespace Verif.Color

/-! ## Lemmas -/

theorem flatten_get? {α : Type} (n : Nat) : ∀ (L : List (List α)) (k i : Nat), (∀ l ∈ L, l.length = n) → i < n →
    L.flatten[k * n + i]? = (L[k]?).bind (fun l => l[i]?)
  | [], k, i, _, _ => by simp
  | l :: L, 0, i, h, hi => by
    have : l.length = n := h l (by simp)
    simp [List.getElem?_append_left (show i < l.length by omega)]
  | l :: L, k + 1, i, h, hi => by
    have hl : l.length = n := h l (by simp)
    rw [List.flatten_cons, List.getElem?_append_right (by rw [hl, Nat.add_mul]; omega)]
    rw [show (k + 1) * n + i - l.length = k * n + i by rw [hl, Nat.add_mul]; omega]
    rw [flatten_get? n L k i (fun l hl => h l (by simp [hl])) hi]
    simp

theorem mapM_congr' {α β : Type} (f g : α → Option β) : ∀ l : List α, (∀ a ∈ l, f a = g a) →
    l.mapM f = l.mapM g
  | [], _ => rfl
  | a :: l, h => by
    simp only [List.mapM_cons]
    rw [h a (by simp), mapM_congr' f g l (fun x hx => h x (by simp [hx]))]

theorem sect_get (c : Nat) (fs : List (Int → Int)) (k : Nat) (i : Int) (h0 : 0 ≤ i) (h1 : i < 2 * c) :
    (PTab.mk 0 (fs.map fun f => (List.range (2 * c)).map (fun (j : Nat) => f j)).flatten).get? (i + off c k) =
      (fs[k]?).map (fun f => f i) := by
  obtain ⟨n, rfl⟩ : ∃ n : Nat, i = n := ⟨i.toNat, by omega⟩
  unfold PTab.get?
  have hoff : off c k = ((k * (2 * c) : Nat) : Int) := by unfold off; push_cast; ring
  simp only
  rw [hoff, if_neg (by omega)]
  rw [show ((n : Int) + ((k * (2 * c) : Nat) : Int) + ((0 : Nat) : Int)).toNat = k * (2 * c) + n by omega]
  rw [flatten_get? (2 * c) _ k n (by simp) (by omega), List.getElem?_map]
  cases fs[k]? with
  | none => rfl
  | some f =>
    simp only [Option.map_some, Option.bind_some, List.getElem?_map, List.getElem?_range (show n < 2 * c by omega)]

theorem rgbYccTab_eq (c : Nat) : rgbYccTab c = PTab.mk 0
    (([fun i => fix 29900 * i, fun i => fix 58700 * i, fun i => fix 11400 * i + oneHalf, fun i => -(fix 16874) * i,
        fun i => -(fix 33126) * i, fun i => fix 50000 * i + (c : Int) * 65536 + oneHalf - 1,
        fun i => -(fix 41869) * i, fun i => -(fix 8131) * i] : List (Int → Int)).map
      fun f => (List.range (2 * c)).map (fun (j : Nat) => f j)).flatten := by
  simp only [rgbYccTab, List.map_cons, List.map_nil, List.flatten_cons, List.flatten_nil, List.append_nil,
    List.append_assoc]

theorem tab_get (c k : Nat) (i : Int) (h0 : 0 ≤ i) (h1 : i < 2 * c) :
    (rgbYccTab c).get? (i + off c k) =
      (([fun i => fix 29900 * i, fun i => fix 58700 * i, fun i => fix 11400 * i + oneHalf, fun i => -(fix 16874) * i,
        fun i => -(fix 33126) * i, fun i => fix 50000 * i + (c : Int) * 65536 + oneHalf - 1,
        fun i => -(fix 41869) * i, fun i => -(fix 8131) * i] : List (Int → Int))[k]?).map (fun f => f i) := by
  rw [rgbYccTab_eq, sect_get c _ k i h0 h1]

theorem map_get (c : Nat) (f : Nat → Int) (i : Int) (h0 : 0 ≤ i) (h1 : i < 2 * c) :
    (PTab.mk 0 ((List.range (2 * c)).map f)).get? i = some (f i.toNat) := by
  unfold PTab.get?
  simp only
  rw [if_neg (by omega), List.getElem?_map, List.getElem?_range (by omega)]
  simp

theorem fixes : fix 29900 = 19595 ∧ fix 58700 = 38470 ∧ fix 11400 = 7471 ∧ fix 16874 = 11059 ∧ fix 33126 = 21709 ∧
    fix 50000 = 32768 ∧ fix 41869 = 27439 ∧ fix 8131 = 5329 ∧ fix 140200 = 91881 ∧ fix 177200 = 116130 ∧
    fix 71414 = 46802 ∧ fix 34414 = 22554 := by decide

/-- Closed form of the forward conversion. -/
theorem rgbYcc_eq (c : Nat) (r g b : Int) (hr : 0 ≤ r ∧ r < 2 * c) (hg : 0 ≤ g ∧ g < 2 * c)
    (hb : 0 ≤ b ∧ b < 2 * c) :
    rgbYcc c r g b = some (castSample c ((19595 * r + 38470 * g + 7471 * b + 32768) / 65536),
      castSample c ((-11059 * r - 21709 * g + 32768 * b + c * 65536 + 32767) / 65536),
      castSample c ((32768 * r - 27439 * g - 5329 * b + c * 65536 + 32767) / 65536)) := by
  obtain ⟨f1, f2, f3, f4, f5, f6, f7, f8, -⟩ := fixes
  unfold rgbYcc
  simp only [rYOff, gYOff, bYOff, rCbOff, gCbOff, bCbOff, rCrOff, gCrOff, bCrOff,
    tab_get c _ r hr.1 hr.2, tab_get c _ g hg.1 hg.2, tab_get c _ b hb.1 hb.2, f1, f2, f3, f4, f5, f6, f7, f8,
    oneHalf, Option.map_some, List.getElem?_cons_zero, List.getElem?_cons_succ, Option.bind_eq_bind, Option.bind_some,
    Option.pure_def]
  have e1 : (19595 * r + 38470 * g + (7471 * b + 32768) : Int) = 19595 * r + 38470 * g + 7471 * b + 32768 := by
    omega
  have e2 : (-11059 * r + -21709 * g + (32768 * b + (c : Int) * 65536 + 32768 - 1) : Int) =
    -11059 * r - 21709 * g + 32768 * b + c * 65536 + 32767 := by omega
  have e3 : (32768 * r + (c : Int) * 65536 + 32768 - 1 + -27439 * g + -5329 * b : Int) =
    32768 * r - 27439 * g - 5329 * b + c * 65536 + 32767 := by omega
  rw [e1, e2, e3]

theorem cast_id {c : Nat} {x : Int} (hc : c = 128 ∨ c = 2048) (h0 : 0 ≤ x) (h1 : x < 2 * c) :
    (castSample c x : Int) = x := by
  unfold castSample
  rcases hc with rfl | rfl
  · rw [if_pos (by omega)]; omega
  · rw [if_neg (by omega)]; omega

/-- Closed form of the inverse conversion. -/
theorem yccRgb_eq (c : Nat) (hc : 0 < c) (y cb cr : Int) (hy : 0 ≤ y ∧ y < 2 * c) (hcb : 0 ≤ cb ∧ cb < 2 * c)
    (hcr : 0 ≤ cr ∧ cr < 2 * c) :
    yccRgb c y cb cr = some (
      clampTo (2 * c - 1) (y + (91881 * (cr - c) + 32768) / 65536),
      clampTo (2 * c - 1) (y + (-22554 * (cb - c) + 32768 + -46802 * (cr - c)) / 65536),
      clampTo (2 * c - 1) (y + (116130 * (cb - c) + 32768) / 65536)) := by
  obtain ⟨-, -, -, -, -, -, -, -, f1, f2, f3, f4⟩ := fixes
  unfold yccRgb
  simp only [crRTab, cbBTab, crGTab, cbGTab, map_get c _ cr hcr.1 hcr.2, map_get c _ cb hcb.1 hcb.2, f1, f2, f3, f4,
    oneHalf, Option.bind_eq_bind, Option.bind_some, Option.pure_def, Int.toNat_of_nonneg hcb.1,
    Int.toNat_of_nonneg hcr.1]
  rw [rangeLimit_simple c _ (by omega) (by omega), rangeLimit_simple c _ (by omega) (by omega),
    rangeLimit_simple c _ (by omega) (by omega)]
  rfl

/-! ## C20 -/

/-- **C20.** For 8-bit (`c = 128`) and 12-bit (`c = 2048`) samples and every RGB triple in range, the conversion
reads its tables in bounds, each output is in 0..MAXJSAMPLE although nothing is clamped, and is within 0.55 of the
exact JFIF value; gray input gives exactly (v, CENTER, CENTER). RGB→grayscale gives the same Y. -/
theorem rgb_to_ycc_in_range_and_accurate (c : Nat) (hc : c = 128 ∨ c = 2048) (r g b : Int)
    (hr : 0 ≤ r ∧ r < 2 * c) (hg : 0 ≤ g ∧ g < 2 * c) (hb : 0 ≤ b ∧ b < 2 * c) :
    ∃ y cb cr : Nat, rgbYcc c r g b = some (y, cb, cr) ∧ rgbGray c r g b = some y ∧
      y < 2 * c ∧ cb < 2 * c ∧ cr < 2 * c ∧
      (100000 * (y : Int) - (29900 * r + 58700 * g + 11400 * b)).natAbs ≤ 55000 ∧
      (100000 * ((cb : Int) - c) - (-16874 * r - 33126 * g + 50000 * b)).natAbs ≤ 55000 ∧
      (100000 * ((cr : Int) - c) - (50000 * r - 41869 * g - 8131 * b)).natAbs ≤ 55000 ∧
      (r = g → g = b → (y : Int) = r ∧ cb = c ∧ cr = c) := by
  have hy : 0 ≤ (19595 * r + 38470 * g + 7471 * b + 32768) / 65536 ∧
      (19595 * r + 38470 * g + 7471 * b + 32768) / 65536 < 2 * c := by
    rcases hc with rfl | rfl <;> omega
  have hcb : 0 ≤ (-11059 * r - 21709 * g + 32768 * b + c * 65536 + 32767) / 65536 ∧
      (-11059 * r - 21709 * g + 32768 * b + c * 65536 + 32767) / 65536 < 2 * c := by
    rcases hc with rfl | rfl <;> omega
  have hcr : 0 ≤ (32768 * r - 27439 * g - 5329 * b + c * 65536 + 32767) / 65536 ∧
      (32768 * r - 27439 * g - 5329 * b + c * 65536 + 32767) / 65536 < 2 * c := by
    rcases hc with rfl | rfl <;> omega
  refine ⟨_, _, _, rgbYcc_eq c r g b hr hg hb, ?_, ?_⟩
  · obtain ⟨f1, f2, f3, -⟩ := fixes
    unfold rgbGray
    simp only [rYOff, gYOff, bYOff, tab_get c _ r hr.1 hr.2, tab_get c _ g hg.1 hg.2, tab_get c _ b hb.1 hb.2,
      f1, f2, f3, oneHalf, Option.map_some, List.getElem?_cons_zero, List.getElem?_cons_succ, Option.bind_eq_bind, Option.bind_some,
      Option.pure_def]
    rw [← Int.add_assoc]
  · have ey := cast_id hc hy.1 hy.2
    have eb := cast_id hc hcb.1 hcb.2
    have er := cast_id hc hcr.1 hcr.2
    generalize castSample c ((19595 * r + 38470 * g + 7471 * b + 32768) / 65536) = y at *
    generalize castSample c ((-11059 * r - 21709 * g + 32768 * b + c * 65536 + 32767) / 65536) = cb at *
    generalize castSample c ((32768 * r - 27439 * g - 5329 * b + c * 65536 + 32767) / 65536) = cr at *
    refine ⟨by omega, by omega, by omega, ?_, ?_, ?_, ?_⟩
    · clear hcb hcr eb er; rcases hc with rfl | rfl <;> omega
    · clear hy hcr ey er; rcases hc with rfl | rfl <;> omega
    · clear hy hcb ey eb; rcases hc with rfl | rfl <;> omega
    · rintro rfl rfl
      refine ⟨by omega, by omega, by omega⟩

example : rgbYcc 128 255 0 0 = some (76, 85, 255) ∧ rgbYcc 128 0 0 255 = some (29, 255, 107) := by
  decide +kernel

/-! ## C21 -/

/-- **C21.** For every YCbCr triple in range, the range-limit table and the four conversion tables are read in
bounds, each output is the clamp to 0..MAXJSAMPLE of an integer within 0.6 of the exact value, and neutral
chrominance gives exactly (y, y, y). -/
theorem ycc_to_rgb_clamped_and_accurate (c : Nat) (hc : c = 128 ∨ c = 2048) (y cb cr : Int)
    (hy : 0 ≤ y ∧ y < 2 * c) (hcb : 0 ≤ cb ∧ cb < 2 * c) (hcr : 0 ≤ cr ∧ cr < 2 * c) :
    ∃ r g b : Int, yccRgb c y cb cr =
        some (clampTo (2 * c - 1) r, clampTo (2 * c - 1) g, clampTo (2 * c - 1) b) ∧
      (100000 * r - (100000 * y + 140200 * (cr - c))).natAbs ≤ 60000 ∧
      (100000 * g - (100000 * y - 34414 * (cb - c) - 71414 * (cr - c))).natAbs ≤ 60000 ∧
      (100000 * b - (100000 * y + 177200 * (cb - c))).natAbs ≤ 60000 ∧
      (cb = c → cr = c → r = y ∧ g = y ∧ b = y) := by
  refine ⟨_, _, _, yccRgb_eq c (by omega) y cb cr hy hcb hcr, ?_, ?_, ?_, ?_⟩
  · rcases hc with rfl | rfl <;> omega
  · rcases hc with rfl | rfl <;> omega
  · rcases hc with rfl | rfl <;> omega
  · rintro rfl rfl; omega

theorem clamp_near {m : Nat} {x r : Int} (h0 : 0 ≤ r) (h1 : r ≤ m) (h : (x - r).natAbs ≤ 1) :
    ((clampTo m x : Int) - r).natAbs ≤ 1 := by unfold clampTo; omega

theorem roundtrip_core (c : Nat) (hc : c = 128 ∨ c = 2048) (r g b : Int)
    (hr : 0 ≤ r ∧ r < 2 * c) (hg : 0 ≤ g ∧ g < 2 * c) (hb : 0 ≤ b ∧ b < 2 * c) :
    ∃ y cb cr : Nat, rgbYcc c r g b = some (y, cb, cr) ∧ y < 2 * c ∧ cb < 2 * c ∧ cr < 2 * c ∧
      ((y : Int) + (91881 * ((cr : Int) - c) + 32768) / 65536 - r).natAbs ≤ 1 ∧
      ((y : Int) + (-22554 * ((cb : Int) - c) + 32768 + -46802 * ((cr : Int) - c)) / 65536 - g).natAbs ≤ 1 ∧
      ((y : Int) + (116130 * ((cb : Int) - c) + 32768) / 65536 - b).natAbs ≤ 1 := by
  have hy : 0 ≤ (19595 * r + 38470 * g + 7471 * b + 32768) / 65536 ∧
      (19595 * r + 38470 * g + 7471 * b + 32768) / 65536 < 2 * c := by
    rcases hc with rfl | rfl <;> omega
  have hcb : 0 ≤ (-11059 * r - 21709 * g + 32768 * b + c * 65536 + 32767) / 65536 ∧
      (-11059 * r - 21709 * g + 32768 * b + c * 65536 + 32767) / 65536 < 2 * c := by
    rcases hc with rfl | rfl <;> omega
  have hcr : 0 ≤ (32768 * r - 27439 * g - 5329 * b + c * 65536 + 32767) / 65536 ∧
      (32768 * r - 27439 * g - 5329 * b + c * 65536 + 32767) / 65536 < 2 * c := by
    rcases hc with rfl | rfl <;> omega
  refine ⟨_, _, _, rgbYcc_eq c r g b hr hg hb, ?_, ?_, ?_, ?_⟩
  · have := cast_id hc hy.1 hy.2; omega
  · have := cast_id hc hcb.1 hcb.2; omega
  · have := cast_id hc hcr.1 hcr.2; omega
  rw [cast_id hc hy.1 hy.2, cast_id hc hcb.1 hcb.2, cast_id hc hcr.1 hcr.2]
  obtain ⟨y, ey⟩ : ∃ y, y = (19595 * r + 38470 * g + 7471 * b + 32768) / 65536 := ⟨_, rfl⟩
  obtain ⟨cb, eb⟩ : ∃ y, y = (-11059 * r - 21709 * g + 32768 * b + c * 65536 + 32767) / 65536 := ⟨_, rfl⟩
  obtain ⟨cr, er⟩ : ∃ y, y = (32768 * r - 27439 * g - 5329 * b + c * 65536 + 32767) / 65536 := ⟨_, rfl⟩
  rw [← ey, ← eb, ← er]
  have y1 : 65536 * y ≤ 19595 * r + 38470 * g + 7471 * b + 32768 := by omega
  have y2 : 19595 * r + 38470 * g + 7471 * b + 32768 < 65536 * y + 65536 := by omega
  have b1 : 65536 * cb ≤ -11059 * r - 21709 * g + 32768 * b + c * 65536 + 32767 := by omega
  have b2 : -11059 * r - 21709 * g + 32768 * b + c * 65536 + 32767 < 65536 * cb + 65536 := by omega
  have r1 : 65536 * cr ≤ 32768 * r - 27439 * g - 5329 * b + c * 65536 + 32767 := by omega
  have r2 : 32768 * r - 27439 * g - 5329 * b + c * 65536 + 32767 < 65536 * cr + 65536 := by omega
  clear ey eb er hy hcb hcr
  obtain ⟨hr0, hr1⟩ := hr
  obtain ⟨hg0, hg1⟩ := hg
  obtain ⟨hb0, hb1⟩ := hb
  have key : ∀ x v : Int, x - v < 2 → -2 < x - v → 0 ≤ v → v < 2 * c → (x - v).natAbs ≤ 1 :=
    fun x v h1 h2 h3 h4 => by omega
  refine ⟨?_, ?_, ?_⟩
  · obtain ⟨t, ht⟩ : ∃ t, t = (91881 * (cr - c) + 32768) / 65536 := ⟨_, rfl⟩
    rw [← ht]
    have t1 : 65536 * t ≤ 91881 * (cr - c) + 32768 := by omega
    have t2 : 91881 * (cr - c) + 32768 < 65536 * t + 65536 := by omega
    clear ht
    apply key _ _ _ _ hr0 hr1 <;> rcases hc with rfl | rfl <;> push_cast at * <;> linarith
  · obtain ⟨t, ht⟩ : ∃ t, t = (-22554 * (cb - c) + 32768 + -46802 * (cr - c)) / 65536 := ⟨_, rfl⟩
    rw [← ht]
    have t1 : 65536 * t ≤ -22554 * (cb - c) + 32768 + -46802 * (cr - c) := by omega
    have t2 : -22554 * (cb - c) + 32768 + -46802 * (cr - c) < 65536 * t + 65536 := by omega
    clear ht
    apply key _ _ _ _ hg0 hg1 <;> rcases hc with rfl | rfl <;> push_cast at * <;> linarith
  · obtain ⟨t, ht⟩ : ∃ t, t = (116130 * (cb - c) + 32768) / 65536 := ⟨_, rfl⟩
    rw [← ht]
    have t1 : 65536 * t ≤ 116130 * (cb - c) + 32768 := by omega
    have t2 : 116130 * (cb - c) + 32768 < 65536 * t + 65536 := by omega
    clear ht
    apply key _ _ _ _ hb0 hb1 <;> rcases hc with rfl | rfl <;> push_cast at * <;> linarith

/-- **C21, round trip.** Converting RGB to YCbCr and back changes each channel by at most 1, for 8 and 12 bits. -/
theorem rgb_ycc_rgb_within_one (c : Nat) (hc : c = 128 ∨ c = 2048) (r g b : Int)
    (hr : 0 ≤ r ∧ r < 2 * c) (hg : 0 ≤ g ∧ g < 2 * c) (hb : 0 ≤ b ∧ b < 2 * c) :
    ∃ y cb cr r' g' b' : Nat, rgbYcc c r g b = some (y, cb, cr) ∧ yccRgb c y cb cr = some (r', g', b') ∧
      ((r' : Int) - r).natAbs ≤ 1 ∧ ((g' : Int) - g).natAbs ≤ 1 ∧ ((b' : Int) - b).natAbs ≤ 1 := by
  obtain ⟨y, cb, cr, he, h1, h2, h3, e1, e2, e3⟩ := roundtrip_core c hc r g b hr hg hb
  exact ⟨y, cb, cr, _, _, _, he, yccRgb_eq c (by omega) y cb cr (by omega) (by omega) (by omega),
    clamp_near hr.1 (by omega) e1, clamp_near hg.1 (by omega) e2, clamp_near hb.1 (by omega) e3⟩

example : rgbYcc 128 12 200 77 = some (130, 98, 44) ∧ yccRgb 128 130 98 44 = some (12, 200, 77) := by
  decide +kernel

/-- **C20/C21 for CMYK.** CMYK → YCCK → CMYK changes C, M, Y by at most 1 and passes K unchanged. -/
theorem cmyk_ycck_cmyk_within_one (c : Nat) (hc : c = 128 ∨ c = 2048) (p : Int × Int × Int × Int)
    (h0 : 0 ≤ p.1 ∧ p.1 < 2 * c) (h1 : 0 ≤ p.2.1 ∧ p.2.1 < 2 * c) (h2 : 0 ≤ p.2.2.1 ∧ p.2.2.1 < 2 * c) :
    ∃ (y cb cr c' m' y' : Nat), cmykYcck c p = some (y, cb, cr, p.2.2.2) ∧
      y < 2 * c ∧ cb < 2 * c ∧ cr < 2 * c ∧
      ycckCmyk c (y, cb, cr, p.2.2.2) = some (c', m', y', p.2.2.2) ∧
      ((c' : Int) - p.1).natAbs ≤ 1 ∧ ((m' : Int) - p.2.1).natAbs ≤ 1 ∧ ((y' : Int) - p.2.2.1).natAbs ≤ 1 := by
  obtain ⟨C, M, Y, K⟩ := p
  simp only at *
  have hm : ∀ v : Int, 0 ≤ v ∧ v < 2 * c → maskIn c v = v := fun v hv => by
    unfold maskIn
    rcases hc with rfl | rfl
    · rw [if_pos (by omega)]
    · rw [if_neg (by omega)]; omega
  obtain ⟨y, cb, cr, he, b1, b2, b3, e1, e2, e3⟩ := roundtrip_core c hc (2 * c - 1 - C) (2 * c - 1 - M)
    (2 * c - 1 - Y) (by omega) (by omega) (by omega)
  refine ⟨y, cb, cr, clampTo (2 * c - 1) (2 * c - 1 - (y + (91881 * ((cr : Int) - c) + 32768) / 65536)),
    clampTo (2 * c - 1) (2 * c - 1 - (y + (-22554 * ((cb : Int) - c) + 32768 + -46802 * ((cr : Int) - c)) / 65536)),
    clampTo (2 * c - 1) (2 * c - 1 - (y + (116130 * ((cb : Int) - c) + 32768) / 65536)), ?_, b1, b2, b3, ?_, ?_⟩
  · unfold cmykYcck
    simp only [hm C h0, hm M h1, hm Y h2, he, Option.bind_eq_bind, Option.bind_some, Option.pure_def]
  · obtain ⟨-, -, -, -, -, -, -, -, f1, f2, f3, f4⟩ := fixes
    unfold ycckCmyk
    simp only [crRTab, cbBTab, crGTab, cbGTab, map_get c _ (cr : Int) (by omega) (by omega),
      map_get c _ (cb : Int) (by omega) (by omega), f1, f2, f3, f4,
      oneHalf, Option.bind_eq_bind, Option.bind_some, Option.pure_def, Int.toNat_natCast]
    rw [rangeLimit_simple c _ (by omega) (by omega), rangeLimit_simple c _ (by omega) (by omega),
      rangeLimit_simple c _ (by omega) (by omega)]
    rfl
  · exact ⟨clamp_near h0.1 (by omega) (by omega), clamp_near h1.1 (by omega) (by omega),
      clamp_near h2.1 (by omega) (by omega)⟩

/-! ## Pixel formats -/

/-- `l` holds one pixel of format `fmt` with the given colour; other positions are arbitrary. -/
def Packs {α : Type} (fmt : PixFmt) (l : List α) (r g b : α) : Prop :=
  l.length = fmt.size ∧ l[fmt.red]? = some r ∧ l[fmt.green]? = some g ∧ l[fmt.blue]? = some b

theorem formats_wf : ∀ f ∈ formats, f.red < f.size ∧ f.green < f.size ∧ f.blue < f.size ∧
    f.red ≠ f.green ∧ f.red ≠ f.blue ∧ f.green ≠ f.blue ∧
    (∀ a ∈ f.alpha, a < f.size ∧ a ≠ f.red ∧ a ≠ f.green ∧ a ≠ f.blue) ∧ (f.alpha = none → f.size = 3) ∧
    (f.alpha ≠ none → f.size = 4) := by decide

/-- **C20, pixel formats.** In every pixel format the converter applied to a row sees exactly the colours packed in
it, whatever is in the padding byte: the result is that of converting the pixels one by one, in order. -/
theorem input_pixel_format_independent {α : Type} (fmt : PixFmt) (hf : fmt ∈ formats)
    (f : Int → Int → Int → Option α) (chunks : List (List Int)) (px : List (Int × Int × Int))
    (h : List.Forall₂ (fun l p => Packs fmt l p.1 p.2.1 p.2.2) chunks px) :
    rowIn fmt f chunks.flatten px.length = px.mapM (fun p => f p.1 p.2.1 p.2.2) := by
  obtain ⟨w1, w2, w3, -⟩ := formats_wf fmt hf
  have hlen : ∀ l ∈ chunks, l.length = fmt.size := by
    intro l hl
    obtain ⟨i, hi, rfl⟩ := List.getElem_of_mem hl
    exact (List.Forall₂.get h hi (by rw [← h.length_eq]; exact hi)).1
  have hpx : px = (List.range px.length).map (fun i => px.getD i (0, 0, 0)) := by
    apply List.ext_getElem (by simp)
    intro i h1 h2; simp [List.getD_eq_getElem?_getD, List.getElem?_eq_getElem h1]
  conv => rhs; rw [hpx]
  unfold rowIn
  rw [List.mapM_map]
  apply mapM_congr'
  intro i hi
  have hi' : i < px.length := by simpa using hi
  have hc : i < chunks.length := by rw [h.length_eq]; exact hi'
  obtain ⟨-, p1, p2, p3⟩ := List.Forall₂.get h hc hi'
  simp only [List.get_eq_getElem] at p1 p2 p3
  rw [flatten_get? _ _ _ _ hlen w1, flatten_get? _ _ _ _ hlen w2, flatten_get? _ _ _ _ hlen w3,
    List.getElem?_eq_getElem hc]
  simp only [Option.bind_some, p1, p2, p3, Option.bind_eq_bind]
  simp [List.getD_eq_getElem?_getD, List.getElem?_eq_getElem hi']

/-- **C21, pixel formats.** In every output pixel format each pixel holds its three colours at the format's
positions and MAXJSAMPLE (opaque) in the remaining byte, whatever the buffer held before; the row has exactly
`size` samples per pixel. -/
theorem output_pixel_format_exact (fmt : PixFmt) (hf : fmt ∈ formats) (maxv : Nat) (old : List Nat) (r g b : Nat)
    (ho : old.length = fmt.size) :
    Packs fmt (putPixel fmt maxv old r g b) r g b ∧
      ∀ i < fmt.size, i ≠ fmt.red → i ≠ fmt.green → i ≠ fmt.blue →
        (putPixel fmt maxv old r g b)[i]? = some maxv := by
  simp only [formats, List.mem_cons, List.not_mem_nil, or_false] at hf
  rcases hf with rfl | rfl | rfl | rfl | rfl | rfl <;>
    (simp only [extRGB, extRGBX, extBGR, extBGRX, extXBGR, extXRGB] at ho
     rcases old with _ | ⟨a, _ | ⟨b, _ | ⟨c, _ | ⟨d, _ | ⟨e, old⟩⟩⟩⟩⟩ <;> simp at ho
     refine ⟨by simp [Packs, putPixel, extRGB, extRGBX, extBGR, extBGRX, extXBGR, extXRGB], ?_⟩
     intro i hi h1 h2 h3
     simp only [extRGB, extRGBX, extBGR, extBGRX, extXBGR, extXRGB] at hi h1 h2 h3
     rcases i with _ | _ | _ | _ | i <;>
       first
       | omega
       | simp [putPixel, extRGB, extRGBX, extBGR, extBGRX, extXBGR, extXRGB])

/-- Non-vacuity: two BGRX pixels. -/
example : rowIn extBGRX (rgbYcc 128) [3, 2, 1, 99, 0, 0, 255, 7] 2 = some [(2, 129, 127), (76, 85, 255)] ∧
    rowOut extBGRX 255 [[9, 9, 9, 9], [8, 8, 8, 8]] [(1, 2, 3), (4, 5, 6)] = [3, 2, 1, 255, 6, 5, 4, 255] := by
  decide +kernel

end Verif.Color
