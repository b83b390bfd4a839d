import Verif.Merge.Row
import Verif.Color.Props
/-
C43: what the row routines of the merged upsamplers write.
-/
namespace Verif.Merge
open Verif.Color

/-- Pixels 0 .. x-1 of the row `old` have been replaced according to `F`. -/
def Part (F : Nat → List Nat → List Nat) (old : List (List Nat)) (x : Nat) (out : List (List Nat)) : Prop :=
  out.length = old.length ∧ ∀ j, j < old.length → out[j]? = if j < x then (old[j]?).map (F j) else old[j]?

theorem Part.zero (F : Nat → List Nat → List Nat) (old : List (List Nat)) : Part F old 0 old := ⟨rfl, fun j _ => by simp⟩

theorem Part.step {F : Nat → List Nat → List Nat} {old out : List (List Nat)} {x : Nat} (h : Part F old x out) {o : List Nat} (ho : old[x]? = some o) : Part F old (x + 1) (out.set x (F x o)) := by
  refine ⟨by simp [h.1], ?_⟩
  intro j hj
  by_cases hjx : j = x
  · subst hjx
    rw [List.getElem?_set_self (by rw [h.1]; exact hj), if_pos (Nat.lt_succ_self _), ho]; rfl
  · rw [List.getElem?_set_ne (Ne.symm hjx), h.2 j hj]
    by_cases hlt : j < x
    · rw [if_pos hlt, if_pos (by omega)]
    · rw [if_neg hlt, if_neg (by omega)]

theorem Part.get {F : Nat → List Nat → List Nat} {old out : List (List Nat)} {x : Nat} (h : Part F old x out) (hx : x < old.length) : out[x]? = old[x]? := by
  rw [h.2 x hx, if_neg (Nat.lt_irrefl _)]

theorem Part.done {F : Nat → List Nat → List Nat} {old out : List (List Nat)} (h : Part F old old.length out) : out = old.mapIdx F := by
  apply List.ext_getElem? 
  intro i
  by_cases hi : i < old.length
  · rw [h.2 i hi, if_pos hi, List.getElem?_mapIdx]
  · rw [List.getElem?_eq_none (by rw [h.1]; omega), List.getElem?_eq_none (by simp; omega)]

/-- A row of at least `n` samples below `2 * c`. -/
def Samples (c n : Nat) (row : List Nat) : Prop := n ≤ row.length ∧ ∀ v, v ∈ row → v < 2 * c

theorem Samples.get {c n : Nat} {row : List Nat} (h : Samples c n row) {i : Nat} (hi : i < n) : row[i]? = some (row.getD i 0) ∧ row.getD i 0 < 2 * c := by
  have hl : i < row.length := by have := h.1; omega
  rw [List.getD_eq_getElem?_getD, List.getElem?_eq_getElem hl]
  exact ⟨rfl, h.2 _ (List.getElem_mem hl)⟩

/-- The three colour offsets of a chroma pair. -/
def offs (c cb cr : Nat) : Int × Int × Int :=
  ((91881 * ((cr : Int) - c) + 32768) / 65536, (-22554 * ((cb : Int) - c) + 32768 + -46802 * ((cr : Int) - c)) / 65536, (116130 * ((cb : Int) - c) + 32768) / 65536)

theorem tables_eq (c : Nat) : mCrR c = crRTab c ∧ mCbB c = cbBTab c ∧ mCrG c = crGTab c ∧ mCbG c = cbGTab c := ⟨rfl, rfl, rfl, rfl⟩

theorem chroma_eq {c : Nat} {cb cr : List Nat} {n i : Nat} (hcb : Samples c n cb) (hcr : Samples c n cr) (hi : i < n) : chroma c cb cr i = some (offs c (cb.getD i 0) (cr.getD i 0)) := by
  obtain ⟨a1, a2⟩ := hcb.get hi
  obtain ⟨b1, b2⟩ := hcr.get hi
  obtain ⟨-, -, -, -, -, -, -, -, f1, f2, f3, f4⟩ := fixes
  unfold chroma
  rw [a1, b1]
  obtain ⟨t1, t2, t3, t4⟩ := tables_eq c
  generalize cb.getD i 0 = u at *
  generalize cr.getD i 0 = v at *
  simp only [t1, t2, t3, t4, crRTab, cbBTab, crGTab, cbGTab, map_get c _ (v : Int) (by omega) (by omega), map_get c _ (u : Int) (by omega) (by omega), f1, f2, f3, f4, oneHalf, Option.bind_eq_bind, Option.bind_some, Option.pure_def, Int.toNat_natCast]
  rfl

theorem chromaS_eq {cb cr : List Nat} {n i : Nat} (hcb : Samples 128 n cb) (hcr : Samples 128 n cr) (hi : i < n) : chromaS cb cr i = some (offs 128 (cb.getD i 0) (cr.getD i 0)) := chroma_eq hcb hcr hi

/-- The colour of a pixel, as `Color.yccRgb` defines it. -/
def rgb (c y cb cr : Nat) : Nat × Nat × Nat := (yccRgb c y cb cr).getD (0, 0, 0)

theorem offs_bounds {c cb cr : Nat} (hcb : cb < 2 * c) (hcr : cr < 2 * c) : (-(2 * c : Int) ≤ (offs c cb cr).1 ∧ (offs c cb cr).1 < 2 * c) ∧ (-(2 * c : Int) ≤ (offs c cb cr).2.1 ∧ (offs c cb cr).2.1 < 2 * c) ∧
    (-(2 * c : Int) ≤ (offs c cb cr).2.2 ∧ (offs c cb cr).2.2 < 2 * c) := by
  unfold offs
  simp only
  omega

theorem rgb_eq {c y cb cr : Nat} (hy : y < 2 * c) (hcb : cb < 2 * c) (hcr : cr < 2 * c) : yccRgb c y cb cr = some (rgb c y cb cr) ∧
    rgb c y cb cr = (clampTo (2 * c - 1) (y + (offs c cb cr).1), clampTo (2 * c - 1) (y + (offs c cb cr).2.1), clampTo (2 * c - 1) (y + (offs c cb cr).2.2)) := by
  have := yccRgb_eq c (by omega) y cb cr ⟨by omega, by omega⟩ ⟨by omega, by omega⟩ ⟨by omega, by omega⟩
  unfold rgb
  rw [this]
  exact ⟨rfl, rfl⟩

/-- Pixel x of a merged row. -/
def pixF (c : Nat) (fmt : PixFmt) (y cb cr : List Nat) (x : Nat) (old : List Nat) : List Nat :=
  let p := rgb c (y.getD x 0) (cb.getD (x / 2) 0) (cr.getD (x / 2) 0)
  putPixel fmt (2 * c - 1) old p.1 p.2.1 p.2.2

section
variable {c w : Nat} {fmt : PixFmt} {y y1 cb cr : List Nat} {old old1 : List (List Nat)}

theorem px1_ok (hy : Samples c w y) (hcb : Samples c ((w + 1) / 2) cb) (hcr : Samples c ((w + 1) / 2) cr) {x : Nat} (hx : x < w) (hl : old.length = w) {out : List (List Nat)} (h : Part (pixF c fmt y cb cr) old x out) :
    ∃ out', px1 c fmt y x (offs c (cb.getD (x / 2) 0) (cr.getD (x / 2) 0)) x out = some out' ∧ Part (pixF c fmt y cb cr) old (x + 1) out' := by
  obtain ⟨a1, a2⟩ := hy.get hx
  have hx2 : x / 2 < (w + 1) / 2 := by omega
  have b2 := (hcb.get hx2).2
  have c2 := (hcr.get hx2).2
  have ho : old[x]? = some (old[x]'(by omega)) := List.getElem?_eq_getElem _
  have hg := h.get (by omega : x < old.length)
  rw [ho] at hg
  have hr := (rgb_eq a2 b2 c2).2
  have hb := offs_bounds b2 c2
  refine ⟨_, ?_, h.step ho⟩
  unfold px1
  rw [a1, hg]
  unfold pixF
  rw [hr]
  generalize offs c (cb.getD (x / 2) 0) (cr.getD (x / 2) 0) = e at *
  generalize y.getD x 0 = v at *
  simp only [Option.bind_eq_bind, Option.bind_some]
  rw [rangeLimit_simple c _ (by omega) (by omega), rangeLimit_simple c _ (by omega) (by omega), rangeLimit_simple c _ (by omega) (by omega)]
  rfl

theorem h2v1Loop_ok (hy : Samples c w y) (hcb : Samples c ((w + 1) / 2) cb) (hcr : Samples c ((w + 1) / 2) cr) (hl : old.length = w) : ∀ (n k : Nat) (out : List (List Nat)), 2 * (k + n) ≤ w → Part (pixF c fmt y cb cr) old (2 * k) out →
    ∃ out', h2v1Loop c fmt y cb cr n (2 * k) k (2 * k) out = some (2 * (k + n), k + n, 2 * (k + n), out') ∧ Part (pixF c fmt y cb cr) old (2 * (k + n)) out' := by
  intro n
  induction n with
  | zero => intro k out _ h; exact ⟨out, rfl, h⟩
  | succ n ih =>
    intro k out hk h
    obtain ⟨o1, e1, p1⟩ := px1_ok hy hcb hcr (x := 2 * k) (by omega) hl h
    obtain ⟨o2, e2, p2⟩ := px1_ok hy hcb hcr (x := 2 * k + 1) (by omega) hl p1
    rw [show 2 * k / 2 = k by omega] at e1
    rw [show (2 * k + 1) / 2 = k by omega] at e2
    obtain ⟨o3, e3, p3⟩ := ih (k + 1) o2 (by omega) p2
    refine ⟨o3, ?_, by rw [show k + (n + 1) = k + 1 + n by omega]; exact p3⟩
    unfold h2v1Loop
    rw [chroma_eq hcb hcr (by omega : k < (w + 1) / 2)]
    simp only [Option.bind_eq_bind, Option.bind_some, e1, e2]
    rw [show k + (n + 1) = k + 1 + n by omega]
    exact e3

theorem h2v1_ok (hy : Samples c w y) (hcb : Samples c ((w + 1) / 2) cb) (hcr : Samples c ((w + 1) / 2) cr) (hl : old.length = w) : h2v1 c fmt w y cb cr old = some (old.mapIdx (pixF c fmt y cb cr)) := by
  obtain ⟨out, e1, p1⟩ := h2v1Loop_ok (fmt := fmt) hy hcb hcr hl (w / 2) 0 old (by omega) (Part.zero _ _)
  simp only [Nat.mul_zero, Nat.zero_add] at e1 p1
  unfold h2v1
  rw [e1]
  simp only [Option.bind_eq_bind, Option.bind_some]
  by_cases hw : w % 2 = 1
  · rw [if_pos hw, chroma_eq hcb hcr (by omega : w / 2 < (w + 1) / 2)]
    obtain ⟨o1, e2, p2⟩ := px1_ok hy hcb hcr (x := 2 * (w / 2)) (by omega) hl p1
    rw [show 2 * (w / 2) / 2 = w / 2 by omega] at e2
    simp only [Option.bind_some, e2]
    rw [show 2 * (w / 2) + 1 = old.length by omega] at p2
    rw [p2.done]
  · rw [if_neg hw]
    rw [show 2 * (w / 2) = old.length by omega] at p1
    rw [p1.done]; rfl

theorem h2v2Loop_ok (hy : Samples c w y) (hy1 : Samples c w y1) (hcb : Samples c ((w + 1) / 2) cb) (hcr : Samples c ((w + 1) / 2) cr) (hl : old.length = w) (hl1 : old1.length = w) : ∀ (n k : Nat) (out out1 : List (List Nat)), 2 * (k + n) ≤ w →
    Part (pixF c fmt y cb cr) old (2 * k) out → Part (pixF c fmt y1 cb cr) old1 (2 * k) out1 →
    ∃ out' out1', h2v2Loop c fmt y y1 cb cr n (2 * k) k (2 * k) out out1 = some (2 * (k + n), k + n, 2 * (k + n), out', out1') ∧ Part (pixF c fmt y cb cr) old (2 * (k + n)) out' ∧ Part (pixF c fmt y1 cb cr) old1 (2 * (k + n)) out1' := by
  intro n
  induction n with
  | zero => intro k out out1 _ h h1; exact ⟨out, out1, rfl, h, h1⟩
  | succ n ih =>
    intro k out out1 hk h h1
    obtain ⟨o1, e1, p1⟩ := px1_ok hy hcb hcr (x := 2 * k) (by omega) hl h
    obtain ⟨o2, e2, p2⟩ := px1_ok hy hcb hcr (x := 2 * k + 1) (by omega) hl p1
    obtain ⟨q1, f1, g1⟩ := px1_ok hy1 hcb hcr (x := 2 * k) (by omega) hl1 h1
    obtain ⟨q2, f2, g2⟩ := px1_ok hy1 hcb hcr (x := 2 * k + 1) (by omega) hl1 g1
    rw [show 2 * k / 2 = k by omega] at e1 f1
    rw [show (2 * k + 1) / 2 = k by omega] at e2 f2
    obtain ⟨o3, q3, e3, p3, g3⟩ := ih (k + 1) o2 q2 (by omega) p2 g2
    refine ⟨o3, q3, ?_, by rw [show k + (n + 1) = k + 1 + n by omega]; exact p3, by rw [show k + (n + 1) = k + 1 + n by omega]; exact g3⟩
    unfold h2v2Loop
    rw [chroma_eq hcb hcr (by omega : k < (w + 1) / 2)]
    simp only [Option.bind_eq_bind, Option.bind_some, e1, e2, f1, f2]
    rw [show k + (n + 1) = k + 1 + n by omega]
    exact e3

theorem h2v2_ok (hy : Samples c w y) (hy1 : Samples c w y1) (hcb : Samples c ((w + 1) / 2) cb) (hcr : Samples c ((w + 1) / 2) cr) (hl : old.length = w) (hl1 : old1.length = w) :
    h2v2 c fmt w y y1 cb cr old old1 = some (old.mapIdx (pixF c fmt y cb cr), old1.mapIdx (pixF c fmt y1 cb cr)) := by
  obtain ⟨out, out1, e1, p1, g1⟩ := h2v2Loop_ok (fmt := fmt) hy hy1 hcb hcr hl hl1 (w / 2) 0 old old1 (by omega) (Part.zero _ _) (Part.zero _ _)
  simp only [Nat.mul_zero, Nat.zero_add] at e1 p1 g1
  unfold h2v2
  rw [e1]
  simp only [Option.bind_eq_bind, Option.bind_some]
  by_cases hw : w % 2 = 1
  · rw [if_pos hw, chroma_eq hcb hcr (by omega : w / 2 < (w + 1) / 2)]
    obtain ⟨o1, e2, p2⟩ := px1_ok hy hcb hcr (x := 2 * (w / 2)) (by omega) hl p1
    obtain ⟨o3, e3, p3⟩ := px1_ok hy1 hcb hcr (x := 2 * (w / 2)) (by omega) hl1 g1
    rw [show 2 * (w / 2) / 2 = w / 2 by omega] at e2 e3
    simp only [Option.bind_some, e2, e3]
    rw [show 2 * (w / 2) + 1 = old.length by omega] at p2
    rw [show 2 * (w / 2) + 1 = old1.length by omega] at p3
    rw [p2.done, p3.done]; rfl
  · rw [if_neg hw]
    rw [show 2 * (w / 2) = old.length by omega] at p1
    rw [show 2 * (w / 2) = old1.length by omega] at g1
    rw [p1.done, g1.done]; rfl

end

/-! ### RGB565 -/

/-- The 16-bit value of an RGB565 pixel. -/
def val565 (r g b : Nat) : Nat := r / 8 * 2048 + g / 4 * 32 + b / 8

theorem or_add {a b i : Nat} (hb : b < 2 ^ i) : a * 2 ^ i ||| b = a * 2 ^ i + b := by
  rw [← Nat.shiftLeft_eq, Nat.shiftLeft_add_eq_or_of_lt hb]

theorem byte_facts : (∀ r, r < 256 → (r <<< 8) &&& 0xF800 = r / 8 * 2 ^ 11) ∧ (∀ g, g < 256 → (g <<< 3) &&& 0x7E0 = g / 4 * 2 ^ 5) ∧ (∀ b, b < 256 → b >>> 3 = b / 8) ∧
    (∀ r, r < 256 → r &&& 0xF8 = r / 8 * 2 ^ 3) ∧ (∀ g, g < 256 → g >>> 5 = g / 32) ∧ (∀ g, g < 256 → (g <<< 11) &&& 0xE000 = g / 4 % 8 * 2 ^ 13) ∧ (∀ b, b < 256 → (b <<< 5) &&& 0x1F00 = b / 8 * 2 ^ 8) := by decide +kernel

theorem pack_le {r g b : Nat} (hr : r < 256) (hg : g < 256) (hb : b < 256) : pack565 false r g b = val565 r g b := by
  obtain ⟨h1, h2, h3, -⟩ := byte_facts
  unfold pack565 val565
  rw [if_neg (by simp), h1 r hr, h2 g hg, h3 b hb, Nat.or_assoc, or_add (a := g / 4) (by omega), or_add (by omega)]
  omega

theorem pack_be {r g b : Nat} (hr : r < 256) (hg : g < 256) (hb : b < 256) : pack565 true r g b = (val565 r g b % 256) * 256 + val565 r g b / 256 := by
  obtain ⟨-, -, -, h1, h2, h3, h4⟩ := byte_facts
  unfold pack565 val565
  rw [if_pos rfl, h1 r hr, h2 g hg, h3 g hg, h4 b hb]
  have e1 : r / 8 * 2 ^ 3 ||| g / 32 = r / 8 * 8 + g / 32 := or_add (by omega)
  rw [e1, Nat.or_assoc, Nat.or_comm]
  have e2 : (g / 4 % 8 * 2 ^ 13 ||| b / 8 * 2 ^ 8) = (g / 4 % 8 * 32 + b / 8) * 2 ^ 8 := by rw [or_add (by omega)]; omega
  rw [e2, or_add (by omega)]
  omega

theorem pack_lt {be : Bool} {r g b : Nat} (hr : r < 256) (hg : g < 256) (hb : b < 256) : pack565 be r g b < 65536 := by
  cases be
  · rw [pack_le hr hg hb]; unfold val565; omega
  · rw [pack_be hr hg hb]; unfold val565; omega

/-- Both byte orders give the same bytes in memory: low byte of the 16-bit value first. -/
theorem bytes_pack {be : Bool} {r g b : Nat} (hr : r < 256) (hg : g < 256) (hb : b < 256) : bytes16 be (pack565 be r g b) = [val565 r g b % 256, val565 r g b / 256] := by
  have hv : val565 r g b < 65536 := by unfold val565; omega
  cases be
  · rw [pack_le hr hg hb]; unfold bytes16; simp; omega
  · rw [pack_be hr hg hb]; unfold bytes16; generalize val565 r g b = v at *
    rw [if_pos rfl, show (v % 256 * 256 + v / 256) / 256 = v % 256 by omega]
    simp only [List.cons.injEq, and_true]
    omega

theorem write_pack {be : Bool} {p q : Nat} (hp : p < 65536) (hq : q < 65536) : writeTwo be (packTwo be p q) = (bytes16 be p, bytes16 be q) := by
  unfold writeTwo packTwo bytes16
  cases be <;> simp only [if_true, if_false, Bool.false_eq_true]
  · rw [Nat.shiftLeft_eq, or_add (by omega), Nat.shiftRight_eq_div_pow]
    simp only [Prod.mk.injEq, List.cons.injEq, and_true]
    omega
  · rw [Nat.shiftLeft_eq, or_add (by omega), Nat.shiftRight_eq_div_pow]
    simp only [Prod.mk.injEq, List.cons.injEq, and_true]
    omega

/-- Dither value added at column x, given the dither word of the row: its bytes in turn, from the low one. -/
def dval (d : Option Nat) (x : Nat) : Nat := match d with | none => 0 | some d => (d / 256 ^ (x % 4)) % 256

/-- The dither word after x rotations. -/
def rotN (d : Option Nat) : Nat → Option Nat
  | 0 => d
  | x + 1 => (rotN d x).map ditherRotate

/-- The bytes of the pixel. -/
def pixD (y cb cr e : Nat) : List Nat :=
  let r := clampTo 255 (y + (offs 128 cb cr).1 + e)
  let g := clampTo 255 (y + (offs 128 cb cr).2.1 + (e / 2 : Nat))
  let b := clampTo 255 (y + (offs 128 cb cr).2.2 + e)
  [val565 r g b % 256, val565 r g b / 256]

/-- A dither word whose bytes are at most 15. -/
def WordOk (d : Option Nat) : Prop := ∀ v, d = some v → ∃ t, v = ditherRow t

theorem ditherRow_mod (t : Nat) : ditherRow t = ditherRow (t % 4) := by
  unfold ditherRow
  rw [show (3:Nat) = 2 ^ 2 - 1 by rfl, Nat.and_two_pow_sub_one_eq_mod, Nat.and_two_pow_sub_one_eq_mod]
  simp

theorem rot_facts : ∀ t, t < 4 → ∀ j, j < 4 → (rotN (some (ditherRow t)) j).map (· &&& 0xFF) = some (dval (some (ditherRow t)) j) ∧ dval (some (ditherRow t)) j ≤ 15 ∧ rotN (some (ditherRow t)) 4 = some (ditherRow t) := by decide +kernel

theorem rot_add {d : Option Nat} (h : rotN d 4 = d) (x : Nat) : rotN d (x + 4) = rotN d x := by
  induction x with
  | zero => exact h
  | succ x ih => show (rotN d (x + 4)).map ditherRotate = (rotN d x).map ditherRotate; rw [ih]

theorem rot_mod {d : Option Nat} (h : rotN d 4 = d) (x : Nat) : rotN d x = rotN d (x % 4) := by
  induction x using Nat.strongRecOn with
  | _ x ih =>
    by_cases hx : x < 4
    · rw [Nat.mod_eq_of_lt hx]
    · obtain ⟨k, rfl⟩ : ∃ k, x = k + 4 := ⟨x - 4, by omega⟩
      rw [rot_add h, ih k (by omega), Nat.add_mod_right]

theorem dval_mod (d : Option Nat) (x : Nat) : dval d x = dval d (x % 4) := by unfold dval; rw [Nat.mod_mod]

theorem rot_val {d : Option Nat} (hd : WordOk d) (x : Nat) : dByte (rotN d x) = dval d x ∧ dval d x ≤ 15 := by
  cases d with
  | none =>
    have : rotN none x = none := by
      induction x with
      | zero => rfl
      | succ x ih => show (rotN none x).map ditherRotate = none; rw [ih]; rfl
    rw [this]; exact ⟨rfl, Nat.zero_le _⟩
  | some v =>
    obtain ⟨t, rfl⟩ := hd v rfl
    rw [ditherRow_mod]
    have h := rot_facts (t % 4) (Nat.mod_lt _ (by omega)) (x % 4) (Nat.mod_lt _ (by omega))
    rw [rot_mod h.2.2 x, dval_mod]
    refine ⟨?_, h.2.1⟩
    have h1 := h.1
    cases hr : rotN (some (ditherRow (t % 4))) (x % 4) with
    | none => rw [hr] at h1; simp at h1
    | some u => rw [hr] at h1; simpa [dByte] using h1

theorem clamp255 (x : Int) : clampTo 255 x < 256 := by unfold clampTo; omega

theorem pix565_ok {be : Bool} {d : Option Nat} (hd : WordOk d) {x y cb cr : Nat} (hy : y < 256) (hcb : cb < 256) (hcr : cr < 256) :
    ∃ p, pix565 be (rotN d x) y (offs 128 cb cr) = some p ∧ p < 65536 ∧ bytes16 be p = pixD y cb cr (dval d x) := by
  have hb := offs_bounds (c := 128) (cb := cb) (cr := cr) (by omega) (by omega)
  obtain ⟨h1, h2⟩ := rot_val hd x
  have h3 : dHalf (rotN d x) = dval d x / 2 := by
    rw [← h1]
    cases rotN d x with
    | none => rfl
    | some v => show (v &&& 0xFF) >>> 1 = (v &&& 0xFF) / 2; rw [Nat.shiftRight_eq_div_pow]
  refine ⟨pack565 be (clampTo 255 (y + (offs 128 cb cr).1 + (dval d x : Nat))) (clampTo 255 (y + (offs 128 cb cr).2.1 + (dval d x / 2 : Nat))) (clampTo 255 (y + (offs 128 cb cr).2.2 + (dval d x : Nat))), ?_,
    pack_lt (clamp255 _) (clamp255 _) (clamp255 _), bytes_pack (clamp255 _) (clamp255 _) (clamp255 _)⟩
  unfold pix565
  simp only [h1, h3]
  generalize offs 128 cb cr = e at *
  generalize dval d x = u at *
  rw [rangeLimit_simple 128 _ (by omega) (by omega), rangeLimit_simple 128 _ (by omega) (by omega), rangeLimit_simple 128 _ (by omega) (by omega)]
  rfl

/-- Pixel x of a merged RGB565 row. -/
def pixF565 (d : Option Nat) (y cb cr : List Nat) (x : Nat) (_ : List Nat) : List Nat := pixD (y.getD x 0) (cb.getD (x / 2) 0) (cr.getD (x / 2) 0) (dval d x)

section
variable {w : Nat} {be : Bool} {d d1 : Option Nat} {y y1 cb cr : List Nat} {old old1 : List (List Nat)}

theorem pair565_ok (hd : WordOk d) (hy : Samples 128 w y) (hcb : Samples 128 ((w + 1) / 2) cb) (hcr : Samples 128 ((w + 1) / 2) cr) {k : Nat} (hx : 2 * k + 1 < w) (hl : old.length = w) {out : List (List Nat)} (h : Part (pixF565 d y cb cr) old (2 * k) out) :
    ∃ out', pair565 be y (2 * k) (offs 128 (cb.getD k 0) (cr.getD k 0)) (2 * k) (rotN d (2 * k)) out = some (rotN d (2 * (k + 1)), out') ∧ Part (pixF565 d y cb cr) old (2 * (k + 1)) out' := by
  obtain ⟨a1, a2⟩ := hy.get (show 2 * k < w by omega)
  obtain ⟨b1, b2⟩ := hy.get hx
  have cb2 := (hcb.get (show k < (w + 1) / 2 by omega)).2
  have cr2 := (hcr.get (show k < (w + 1) / 2 by omega)).2
  obtain ⟨p, e1, e2, e3⟩ := pix565_ok (be := be) hd (x := 2 * k) a2 cb2 cr2
  obtain ⟨q, f1, f2, f3⟩ := pix565_ok (be := be) hd (x := 2 * k + 1) b2 cb2 cr2
  have ho : old[2 * k]? = some (old[2 * k]'(by omega)) := List.getElem?_eq_getElem _
  have ho1 : old[2 * k + 1]? = some (old[2 * k + 1]'(by omega)) := List.getElem?_eq_getElem _
  have s1 := h.step ho
  have s2 := s1.step ho1
  refine ⟨_, ?_, s2⟩
  unfold pair565
  rw [a1, b1]
  simp only [Option.bind_eq_bind, Option.bind_some, e1, show (rotN d (2 * k)).map ditherRotate = rotN d (2 * k + 1) from rfl, f1, write_pack e2 f2, show (rotN d (2 * k + 1)).map ditherRotate = rotN d (2 * (k + 1)) from rfl]
  rw [if_pos (by rw [h.1]; omega), e3, f3]
  unfold pixF565
  rw [show 2 * k / 2 = k by omega, show (2 * k + 1) / 2 = k by omega]
  rfl

theorem last565_ok (hd : WordOk d) (hy : Samples 128 w y) (hcb : Samples 128 ((w + 1) / 2) cb) (hcr : Samples 128 ((w + 1) / 2) cr) {k : Nat} (hx : 2 * k < w) (hl : old.length = w) {out : List (List Nat)} (h : Part (pixF565 d y cb cr) old (2 * k) out) :
    ∃ out', last565 be y (2 * k) (offs 128 (cb.getD k 0) (cr.getD k 0)) (2 * k) (rotN d (2 * k)) out = some out' ∧ Part (pixF565 d y cb cr) old (2 * k + 1) out' := by
  obtain ⟨a1, a2⟩ := hy.get hx
  have cb2 := (hcb.get (show k < (w + 1) / 2 by omega)).2
  have cr2 := (hcr.get (show k < (w + 1) / 2 by omega)).2
  obtain ⟨p, e1, e2, e3⟩ := pix565_ok (be := be) hd (x := 2 * k) a2 cb2 cr2
  have ho : old[2 * k]? = some (old[2 * k]'(by omega)) := List.getElem?_eq_getElem _
  refine ⟨_, ?_, h.step ho⟩
  unfold last565
  rw [a1]
  simp only [Option.bind_eq_bind, Option.bind_some, e1]
  rw [if_pos (by rw [h.1]; omega), e3]
  unfold pixF565
  rw [show 2 * k / 2 = k by omega]
  rfl

theorem h2v1Loop565_ok (hd : WordOk d) (hy : Samples 128 w y) (hcb : Samples 128 ((w + 1) / 2) cb) (hcr : Samples 128 ((w + 1) / 2) cr) (hl : old.length = w) : ∀ (n k : Nat) (out : List (List Nat)), 2 * (k + n) ≤ w → Part (pixF565 d y cb cr) old (2 * k) out →
    ∃ out', h2v1Loop565 be y cb cr n (2 * k) k (2 * k) (rotN d (2 * k)) out = some (2 * (k + n), k + n, 2 * (k + n), rotN d (2 * (k + n)), out') ∧ Part (pixF565 d y cb cr) old (2 * (k + n)) out' := by
  intro n
  induction n with
  | zero => intro k out _ h; exact ⟨out, rfl, h⟩
  | succ n ih =>
    intro k out hk h
    obtain ⟨o1, e1, p1⟩ := pair565_ok (be := be) hd hy hcb hcr (k := k) (by omega) hl h
    obtain ⟨o3, e3, p3⟩ := ih (k + 1) o1 (by omega) p1
    refine ⟨o3, ?_, by rw [show k + (n + 1) = k + 1 + n by omega]; exact p3⟩
    unfold h2v1Loop565
    rw [chroma_eq hcb hcr (by omega : k < (w + 1) / 2)]
    simp only [Option.bind_eq_bind, Option.bind_some, e1]
    rw [show k + (n + 1) = k + 1 + n by omega]
    exact e3

theorem h2v1_565_ok (hd : WordOk d) (hy : Samples 128 w y) (hcb : Samples 128 ((w + 1) / 2) cb) (hcr : Samples 128 ((w + 1) / 2) cr) (hl : old.length = w) : h2v1_565 be d w y cb cr old = some (old.mapIdx (pixF565 d y cb cr)) := by
  obtain ⟨out, e1, p1⟩ := h2v1Loop565_ok (be := be) hd hy hcb hcr hl (w / 2) 0 old (by omega) (Part.zero _ _)
  simp only [Nat.mul_zero, Nat.zero_add, show rotN d 0 = d from rfl] at e1 p1
  unfold h2v1_565
  rw [e1]
  simp only [Option.bind_eq_bind, Option.bind_some]
  by_cases hw : w % 2 = 1
  · rw [if_pos hw, chroma_eq hcb hcr (by omega : w / 2 < (w + 1) / 2)]
    obtain ⟨o1, e2, p2⟩ := last565_ok (be := be) hd hy hcb hcr (k := w / 2) (by omega) hl p1
    simp only [Option.bind_some, e2]
    rw [show 2 * (w / 2) + 1 = old.length by omega] at p2
    rw [p2.done]
  · rw [if_neg hw]
    rw [show 2 * (w / 2) = old.length by omega] at p1
    rw [p1.done]; rfl

theorem h2v2Loop565_ok (hd : WordOk d) (hd1 : WordOk d1) (hy : Samples 128 w y) (hy1 : Samples 128 w y1) (hcb : Samples 128 ((w + 1) / 2) cb) (hcr : Samples 128 ((w + 1) / 2) cr) (hl : old.length = w) (hl1 : old1.length = w) :
    ∀ (n k : Nat) (out out1 : List (List Nat)), 2 * (k + n) ≤ w → Part (pixF565 d y cb cr) old (2 * k) out → Part (pixF565 d1 y1 cb cr) old1 (2 * k) out1 →
    ∃ out' out1', h2v2Loop565 be y y1 cb cr n (2 * k) k (2 * k) (rotN d (2 * k)) (rotN d1 (2 * k)) out out1 = some (2 * (k + n), k + n, 2 * (k + n), rotN d (2 * (k + n)), rotN d1 (2 * (k + n)), out', out1') ∧
      Part (pixF565 d y cb cr) old (2 * (k + n)) out' ∧ Part (pixF565 d1 y1 cb cr) old1 (2 * (k + n)) out1' := by
  intro n
  induction n with
  | zero => intro k out out1 _ h h1; exact ⟨out, out1, rfl, h, h1⟩
  | succ n ih =>
    intro k out out1 hk h h1
    obtain ⟨o1, e1, p1⟩ := pair565_ok (be := be) hd hy hcb hcr (k := k) (by omega) hl h
    obtain ⟨o2, e2, p2⟩ := pair565_ok (be := be) hd1 hy1 hcb hcr (k := k) (by omega) hl1 h1
    obtain ⟨o3, q3, e3, p3, g3⟩ := ih (k + 1) o1 o2 (by omega) p1 p2
    refine ⟨o3, q3, ?_, by rw [show k + (n + 1) = k + 1 + n by omega]; exact p3, by rw [show k + (n + 1) = k + 1 + n by omega]; exact g3⟩
    unfold h2v2Loop565
    rw [chroma_eq hcb hcr (by omega : k < (w + 1) / 2)]
    simp only [Option.bind_eq_bind, Option.bind_some, e1, e2]
    rw [show k + (n + 1) = k + 1 + n by omega]
    exact e3

theorem h2v2_565_ok (hd : WordOk d) (hd1 : WordOk d1) (hy : Samples 128 w y) (hy1 : Samples 128 w y1) (hcb : Samples 128 ((w + 1) / 2) cb) (hcr : Samples 128 ((w + 1) / 2) cr) (hl : old.length = w) (hl1 : old1.length = w) :
    h2v2_565 be d d1 w y y1 cb cr old old1 = some (old.mapIdx (pixF565 d y cb cr), old1.mapIdx (pixF565 d1 y1 cb cr)) := by
  obtain ⟨out, out1, e1, p1, g1⟩ := h2v2Loop565_ok (be := be) hd hd1 hy hy1 hcb hcr hl hl1 (w / 2) 0 old old1 (by omega) (Part.zero _ _) (Part.zero _ _)
  simp only [Nat.mul_zero, Nat.zero_add, show rotN d 0 = d from rfl, show rotN d1 0 = d1 from rfl] at e1 p1 g1
  unfold h2v2_565
  rw [e1]
  simp only [Option.bind_eq_bind, Option.bind_some]
  by_cases hw : w % 2 = 1
  · rw [if_pos hw, chroma_eq hcb hcr (by omega : w / 2 < (w + 1) / 2)]
    obtain ⟨o1, e2, p2⟩ := last565_ok (be := be) hd hy hcb hcr (k := w / 2) (by omega) hl p1
    obtain ⟨o3, e3, p3⟩ := last565_ok (be := be) hd1 hy1 hcb hcr (k := w / 2) (by omega) hl1 g1
    simp only [Option.bind_some, e2, e3]
    rw [show 2 * (w / 2) + 1 = old.length by omega] at p2
    rw [show 2 * (w / 2) + 1 = old1.length by omega] at p3
    rw [p2.done, p3.done]; rfl
  · rw [if_neg hw]
    rw [show 2 * (w / 2) = old.length by omega] at p1
    rw [show 2 * (w / 2) = old1.length by omega] at g1
    rw [p1.done, g1.done]; rfl

end
end Verif.Merge
