import Verif.Crop.Props
import Mathlib.Algebra.Order.Ring.Abs
/-
Quantization when a drop image has other tables than the image (transupp.c: dequant_comp, requant_comp, largest_common_denominator,
adjust_quant).

`none` is a division by zero, an error exit or an access outside an array.
-/
namespace Verif.Crop
open Verif.Transf

/-- A quantization table, indexed as blocks are. `JQUANT_TBL.quantval` is in natural order too (jpeglib.h:121-133). -/
abbrev Tbl := Fin 8 → Fin 8 → Nat

/-- Storing into a `JCOEF` (16-bit `short`). -/
def s16 (x : Int) : Int := Int.bmod x 65536

/-- The loop of `largest_common_denominator` (transupp.c:176-188); `b` is not 0. -/
def lcdGo (a b : Int) (hb : b ≠ 0) : Int :=
  if h : a.tmod b = 0 then b else lcdGo b (a.tmod b) h
termination_by b.natAbs
decreasing_by
  rw [Int.natAbs_tmod]
  exact Nat.mod_lt _ (by omega)

/-- `largest_common_denominator` (transupp.c:176-188): the arguments are converted to `JCOEF`; the first step divides by `b`. -/
def lcd (a b : Nat) : Option Int := if h : s16 b = 0 then none else some (lcdGo (s16 a) (s16 b) h)

/-- A coefficient in `dequant_comp` (transupp.c:111-113): old table entry `q`, new one `q1`. -/
def dequantCoef (q q1 : Nat) (c : Int) : Option Int :=
  if q ≠ q1 then if q1 = 0 then none else some (s16 (c * (q / q1 : Nat))) else some c

/-- `DIVIDE_BY` (transupp.c:148-152), without FAST_DIVIDE; `b > 0` or the result of C's division. -/
def divideBy (a b : Int) : Int := if a ≥ b then a.tdiv b else 0

/-- A coefficient in `requant_comp` (transupp.c:141-165). All variables are 16 bits wide. -/
def requantCoef (q q1 : Nat) (c : Int) : Int :=
  let temp := s16 q
  let qval := s16 q1
  if temp ≠ qval ∧ qval ≠ 0 then
    let temp := s16 (temp * c)
    if temp < 0 then
      let temp := s16 (-temp)
      let temp := s16 (temp + qval / 2)
      s16 (-(s16 (divideBy temp qval)))
    else
      let temp := s16 (temp + qval / 2)
      s16 (divideBy temp qval)
  else c

/-- All coefficients of a block (`none` if one fails). -/
def mapBlock (f : Fin 8 → Fin 8 → Int → Option Int) (b : Block) : Option Block :=
  if ∀ i j, (f i j (b i j)).isSome then some (fun i j => (f i j (b i j)).getD 0) else none

/-- The loops of `dequant_comp` and `requant_comp` (transupp.c:102-117, 133-169) over the blocks of a component that has `hb` rows of
`wb` blocks, in groups of `vs` rows. -/
def mapComp (f : Fin 8 → Fin 8 → Int → Option Int) (hb wb vs : Nat) (a : Arr) : Option Arr :=
  forStep hb vs (fun y a => do
    access a y vs
    forStep vs 1 (fun oy a => forStep wb 1 (fun x a => do
      let b ← rd a (y + oy) x
      let b ← mapBlock f b
      wr a (y + oy) x b) a) a) a

/-- A component as `adjust_quant` sees it: number of its table slot, its table, array and size in blocks. -/
structure QComp where
  slot : Nat
  q : Tbl
  hb : Nat
  wb : Nat
  vs : Nat
  arr : Arr

/-- The new entries of the destination's table (transupp.c:216-219). -/
def lcdTable (q1 q2 q3 : Tbl) : Option Tbl :=
  if ∀ i j, q1 i j ≠ q2 i j → (lcd (q1 i j) (q2 i j)).isSome then
    some (fun i j => if q1 i j ≠ q2 i j then ((lcd (q1 i j) (q2 i j)).getD 0 % 65536).toNat else q3 i j)
  else none

/-- One round of `adjust_quant` (transupp.c:199-227): component of the image, of the drop image, table of the destination's slot. -/
def adjustComp (trim : Bool) (s d : QComp) (q3 : Tbl) : Option (Tbl × QComp × QComp) :=
  if ∀ i j, s.q i j = d.q i j then some (q3, s, d)
  else if trim then do
    let a ← mapComp (fun i j c => some (requantCoef (d.q i j) (s.q i j) c)) d.hb d.wb d.vs d.arr
    pure (q3, s, { d with arr := a })
  else do
    let q3 ← lcdTable s.q d.q q3
    let a ← mapComp (fun i j c => dequantCoef (s.q i j) (q3 i j) c) s.hb s.wb s.vs s.arr
    let b ← mapComp (fun i j c => dequantCoef (d.q i j) (q3 i j) c) d.hb d.wb d.vs d.arr
    pure (q3, { s with arr := a }, { d with arr := b })

/-- `adjust_quant` (transupp.c:190-228): the destination's tables, the image's components, the drop image's components. -/
def adjust (trim : Bool) : (Nat → Tbl) → List QComp → List QComp → Option ((Nat → Tbl) × List QComp × List QComp)
  | t, s :: ss, d :: ds => do
    let (q3, s', d') ← adjustComp trim s d (t s.slot)
    let (t, ss, ds) ← adjust trim (fun n => if n = s.slot then q3 else t n) ss ds
    pure (t, s' :: ss, d' :: ds)
  | t, ss, ds => some (t, ss, ds)

/-! ## Coefficients -/

theorem s16_id (x : Int) (h1 : -32768 ≤ x) (h2 : x ≤ 32767) : s16 x = x := by
  unfold s16
  rw [Int.bmod_def]
  omega

theorem lcdGo_eq : ∀ (b a : Nat) (hb : (b : Int) ≠ 0), lcdGo a b hb = Nat.gcd a b := by
  intro b
  induction b using Nat.strongRecOn with
  | _ b ih =>
    intro a hb
    have hb' : 0 < b := by omega
    unfold lcdGo
    have e : (a : Int).tmod b = (a % b : Nat) := by
      rw [Int.tmod_eq_emod_of_nonneg (by omega)]; simp
    by_cases h : (a : Int).tmod b = 0
    · rw [dif_pos h]
      rw [e] at h
      have h' : a % b = 0 := by exact_mod_cast h
      rw [Nat.gcd_comm, Nat.gcd_rec, h']; simp
    · rw [dif_neg h]
      have h' : ((a % b : Nat) : Int) ≠ 0 := by rwa [e] at h
      have := ih (a % b) (Nat.mod_lt _ hb') b h'
      simp only [e]
      rw [this, Nat.gcd_comm a b, Nat.gcd_rec b a, Nat.gcd_comm]

/-- Entries that fit a positive 16-bit number. -/
def ValidTbl (q : Tbl) : Prop := ∀ i j, 1 ≤ q i j ∧ q i j ≤ 32767

theorem lcd_gcd (a b : Nat) (ha : a ≤ 32767) (hb : 1 ≤ b ∧ b ≤ 32767) : lcd a b = some (Nat.gcd a b : Int) := by
  unfold lcd
  have e1 : s16 a = a := s16_id _ (by omega) (by omega)
  have e2 : s16 b = b := s16_id _ (by omega) (by omega)
  simp only [e1, e2]
  rw [dif_neg (by omega), lcdGo_eq]

theorem dequantCoef_exact (q q1 : Nat) (c : Int) (h0 : 0 < q1) (hd : q1 ∣ q) (hc : |c * q| ≤ 32767) :
    ∃ c', dequantCoef q q1 c = some c' ∧ c' * q1 = c * q := by
  unfold dequantCoef
  by_cases h : q = q1
  · subst h; exact ⟨c, by simp, rfl⟩
  · rw [if_pos h, if_neg (by omega)]
    refine ⟨_, rfl, ?_⟩
    obtain ⟨k, rfl⟩ := hd
    rw [Nat.mul_div_cancel_left _ h0]
    have hb : |c * (k : Int)| ≤ 32767 := by
      have : c * ((q1 * k : Nat) : Int) = (q1 : Int) * (c * k) := by push_cast; ring
      rw [this, abs_mul] at hc
      have h1 : (1 : Int) ≤ |(q1 : Int)| := by rw [abs_of_nonneg (by omega)]; omega
      nlinarith [abs_nonneg (c * (k : Int))]
    rw [abs_le] at hb
    rw [s16_id _ (by omega) (by omega)]
    push_cast; ring

/-- The product `c * q` divided by `q1` and rounded to the nearest whole number, halves away from zero. -/
theorem requantCoef_eq (q q1 : Nat) (c : Int) (hq : q ≤ 32767) (hq1 : 1 ≤ q1 ∧ q1 ≤ 32767)
    (hc : |c * q| + (q1 / 2 : Nat) ≤ 32767) :
    requantCoef q q1 c = (c * q).sign * ((|c * q| + (q1 / 2 : Nat)) / q1) := by
  unfold requantCoef
  have e1 : s16 q = q := s16_id _ (by omega) (by omega)
  have e2 : s16 q1 = q1 := s16_id _ (by omega) (by omega)
  have e3 : ((q1 : Int) / 2) = ((q1 / 2 : Nat) : Int) := by simp
  simp only [e1, e2, e3]
  have hdiv : ∀ a : Int, 0 ≤ a → divideBy a q1 = a / q1 := by
    intro a ha
    unfold divideBy
    by_cases h : a ≥ q1
    · rw [if_pos h, Int.tdiv_eq_ediv_of_nonneg ha]
    · rw [if_neg h, Int.ediv_eq_zero_of_lt ha (by omega)]
  have hdle : ∀ a : Int, 0 ≤ a → 0 ≤ a / (q1 : Int) ∧ a / (q1 : Int) ≤ a := by
    intro a ha
    exact ⟨Int.ediv_nonneg ha (by omega), Int.ediv_le_self _ ha⟩
  rw [Int.mul_comm (q : Int) c]
  have habs := abs_le.1 (show |c * (q : Int)| ≤ 32767 by omega)
  by_cases h : (q : Int) ≠ q1 ∧ (q1 : Int) ≠ 0
  · rw [if_pos h, s16_id (c * q) (by omega) (by omega)]
    by_cases hn : c * (q : Int) < 0
    · rw [if_pos hn]
      rw [abs_of_neg hn] at hc ⊢
      generalize c * (q : Int) = p at *
      have h2 := hdle (-p + (q1 / 2 : Nat)) (by omega)
      rw [s16_id (-p) (by omega) (by omega), s16_id (-p + _) (by omega) (by omega), hdiv _ (by omega),
        s16_id (_ / _) (by omega) (by omega), s16_id (-(_ / _)) (by omega) (by omega), Int.sign_eq_neg_one_of_neg hn]
      ring
    · rw [if_neg hn]
      rw [abs_of_nonneg (by omega)] at hc ⊢
      generalize c * (q : Int) = p at *
      have h2 := hdle (p + (q1 / 2 : Nat)) (by omega)
      rw [s16_id (p + _) (by omega) (by omega), hdiv _ (by omega), s16_id (_ / _) (by omega) (by omega)]
      rcases eq_or_ne p 0 with h0 | h0
      · subst h0
        simp only [Int.sign_zero, zero_mul, zero_add]
        exact Int.ediv_eq_zero_of_lt (by omega) (by omega)
      · rw [Int.sign_eq_one_of_pos (by omega)]; ring
  · rw [if_neg h]
    have hqq : q = q1 := by omega
    subst hqq
    have : |c * (q : Int)| = |c| * q := by rw [abs_mul, abs_of_nonneg (show (0 : Int) ≤ q by omega)]
    rw [this, Int.add_comm, Int.add_mul_ediv_right _ _ (by omega), Int.ediv_eq_zero_of_lt (by omega) (by omega), zero_add,
      Int.sign_mul, Int.sign_eq_one_of_pos (show (0 : Int) < q by omega), mul_one, Int.sign_mul_abs]

theorem requantCoef_nearest (q q1 : Nat) (c : Int) (hq : q ≤ 32767) (hq1 : 1 ≤ q1 ∧ q1 ≤ 32767)
    (hc : |c * q| + (q1 / 2 : Nat) ≤ 32767) : 2 * |requantCoef q q1 c * q1 - c * q| ≤ q1 := by
  rw [requantCoef_eq q q1 c hq hq1 hc]
  generalize c * (q : Int) = p at *
  have key : ∀ a : Int, 0 ≤ a → 2 * |(a + (q1 / 2 : Nat)) / q1 * q1 - a| ≤ q1 := by
    intro a ha
    have h1 := Int.emod_add_mul_ediv (a + (q1 / 2 : Nat)) q1
    have h2 := Int.emod_nonneg (a + (q1 / 2 : Nat)) (show (q1 : Int) ≠ 0 by omega)
    have h3 := Int.emod_lt_of_pos (a + (q1 / 2 : Nat)) (show (0 : Int) < q1 by omega)
    rw [Int.mul_comm] at h1
    generalize (a + (q1 / 2 : Nat)) / q1 * (q1 : Int) = z at *
    have : |z - a| ≤ (q1 / 2 : Nat) := by rw [abs_le]; omega
    omega
  rcases lt_trichotomy p 0 with h | h | h
  · rw [Int.sign_eq_neg_one_of_neg h]
    have := key (-p) (by omega)
    rw [abs_of_neg h]
    generalize (-p + (q1 / 2 : Nat)) / (q1 : Int) = z at *
    rw [show -1 * z * (q1 : Int) - p = -(z * q1 - -p) by ring, abs_neg]
    exact this
  · subst h; simp
  · rw [Int.sign_eq_one_of_pos h, abs_of_pos h, one_mul]
    exact key p (by omega)

/-! ## Arrays -/

/-- The array `a` has room for whole groups of `vs` rows. -/
def Room (c : QComp) : Prop := 0 < c.vs ∧ divUp c.hb c.vs * c.vs ≤ c.arr.rows ∧ c.wb ≤ c.arr.cols ∧ c.vs ≤ c.arr.maxaccess

/-- The blocks that are rescaled. -/
def Inside (c : QComp) (y x : Nat) : Prop := y < divUp c.hb c.vs * c.vs ∧ x < c.wb

theorem mapBlock_some (f : Fin 8 → Fin 8 → Int → Option Int) (b : Block) (h : ∀ i j, (f i j (b i j)).isSome) :
    mapBlock f b = some (fun i j => (f i j (b i j)).getD 0) := by unfold mapBlock; rw [if_pos h]

theorem mapComp_set (f : Fin 8 → Fin 8 → Int → Option Int) (c : QComp) (hr : Room c)
    (hf : ∀ y x, Inside c y x → ∀ i j, (f i j (c.arr.at_ y x i j)).isSome) :
    ∃ a, mapComp f c.hb c.wb c.vs c.arr = some a ∧
      SetOn (Inside c) (fun y x i j => (f i j (c.arr.at_ y x i j)).getD 0) c.arr a := by
  obtain ⟨hv, h1, h2, h3⟩ := hr
  have hrow : ∀ k, k * c.vs < c.hb → ∀ o, o < c.vs → k * c.vs + o < divUp c.hb c.vs * c.vs := fun k hk o ho => lt_roundup hk ho
  obtain ⟨a, e, p⟩ := rows_nest (T := fun y x i j => (f i j (c.arr.at_ y x i j)).getD 0) (fun x => x < c.wb) 0 c.hb c.vs hv c.arr
    (fun y a => do
      access a y c.vs
      forStep c.vs 1 (fun oy a => forStep c.wb 1 (fun x a => do
        let b ← rd a (y + oy) x
        let b ← mapBlock f b
        wr a (y + oy) x b) a) a)
    (fun y oy a => forStep c.wb 1 (fun x a => do
        let b ← rd a (y + oy) x
        let b ← mapBlock f b
        wr a (y + oy) x b) a)
    (by
      intro k hk s hs
      have : access s (k * c.vs) c.vs = some () := by
        apply access_some
        · have := hrow k hk (c.vs - 1) (by omega); rw [hs.1]; omega
        · rw [hs.2.2]; exact h3
      simp [this])
    (by
      intro k hk o ho s hs hrowEq
      have hy := hrow k hk o ho
      obtain ⟨s', e, p⟩ := forStep1_inv (fun x s' => SetOn (fun y' x' => y' = 0 + (k * c.vs + o) ∧ x' < x)
          (fun y x i j => (f i j (c.arr.at_ y x i j)).getD 0) s s') c.wb (fun x a => do
        let b ← rd a (k * c.vs + o) x
        let b ← mapBlock f b
        wr a (k * c.vs + o) x b) s (SetOn.empty _ s (by intro y x; omega)) (by
          intro x hx s2 hs2
          have hd2 := hs2.dims hs
          have ev : s2.at_ (k * c.vs + o) x = c.arr.at_ (k * c.vs + o) x := by
            rw [hs2.outside _ _ (by omega)]
            have := hrowEq x
            simpa using this
          obtain ⟨s3, e3, p3⟩ := wr_set (T := fun y x i j => (f i j (c.arr.at_ y x i j)).getD 0) (k * c.vs + o) x
            (fun i j => (f i j (c.arr.at_ (k * c.vs + o) x i j)).getD 0) s2 hd2 (by omega) (by omega) rfl
          refine ⟨s3, ?_, (hs2.trans p3).congr ?_⟩
          · have hrd : rd s2 (k * c.vs + o) x = some (s2.at_ (k * c.vs + o) x) :=
              rd_some _ _ _ (by rw [hd2.1]; omega) (by rw [hd2.2.1]; omega)
            rw [hrd, ev]
            simp only [Option.bind_eq_bind, Option.bind_some]
            rw [mapBlock_some f _ (hf _ _ ⟨hy, hx⟩)]
            exact e3
          · intro y' x'
            omega)
      exact ⟨s', e, p⟩)
  refine ⟨a, e, p.congr ?_⟩
  intro y x
  unfold Inside
  omega

/-! ## The specification -/

/-- The table both images can be written with: for each coefficient the greatest common divisor of the two steps. -/
def common (s : QComp) (d : Option QComp) : Tbl := match d with
  | none => s.q
  | some d => fun i j => Nat.gcd (s.q i j) (d.q i j)

/-- `c'` is `c` written with table `T` instead of its own: every coefficient stands for the same number as before. Padding blocks to the
right of the component are as they were. -/
structure SameValues (T : Tbl) (c c' : QComp) : Prop where
  slot : c'.slot = c.slot
  rows : c'.arr.rows = c.arr.rows
  cols : c'.arr.cols = c.arr.cols
  acc : c'.arr.maxaccess = c.arr.maxaccess
  inside : ∀ y x, Inside c y x → ∀ i j, c'.arr.at_ y x i j * T i j = c.arr.at_ y x i j * c.q i j
  outside : ∀ y x, ¬ Inside c y x → c'.arr.at_ y x = c.arr.at_ y x

/-- `c'` is `c` rounded to multiples of the steps in `T`: no coefficient is more than half a step off. -/
structure Rounded (T : Tbl) (c c' : QComp) : Prop where
  rows : c'.arr.rows = c.arr.rows
  cols : c'.arr.cols = c.arr.cols
  acc : c'.arr.maxaccess = c.arr.maxaccess
  inside : ∀ y x, Inside c y x → ∀ i j, 2 * |c'.arr.at_ y x i j * T i j - c.arr.at_ y x i j * c.q i j| ≤ T i j
  outside : ∀ y x, ¬ Inside c y x → c'.arr.at_ y x = c.arr.at_ y x

/-- The numbers that the coefficients stand for fit 16 bits. -/
def Small (c : QComp) : Prop := ∀ y x, Inside c y x → ∀ i j, |c.arr.at_ y x i j * c.q i j| ≤ 32767

theorem SameValues.refl (c : QComp) : SameValues c.q c c := ⟨rfl, rfl, rfl, rfl, fun _ _ _ _ _ => rfl, fun _ _ _ => rfl⟩

theorem dequant_comp_ok (c : QComp) (hr : Room c) (hs : Small c) (T : Tbl) (hT : ∀ i j, 0 < T i j ∧ T i j ∣ c.q i j) :
    ∃ a, mapComp (fun i j x => dequantCoef (c.q i j) (T i j) x) c.hb c.wb c.vs c.arr = some a ∧ SameValues T c { c with arr := a } := by
  have key := fun y x (h : Inside c y x) i j => dequantCoef_exact (c.q i j) (T i j) (c.arr.at_ y x i j) (hT i j).1 (hT i j).2 (hs y x h i j)
  obtain ⟨a, e, p⟩ := mapComp_set (fun i j x => dequantCoef (c.q i j) (T i j) x) c hr (by
    intro y x h i j
    obtain ⟨c', e, -⟩ := key y x h i j
    rw [e]; rfl)
  refine ⟨a, e, rfl, p.rows, p.cols, p.acc, ?_, p.outside⟩
  intro y x h i j
  obtain ⟨c', e', k⟩ := key y x h i j
  show a.at_ y x i j * _ = _
  rw [p.inside y x h]
  simp only [e']
  exact k

theorem lcdTable_ok (s d : QComp) (hs : ValidTbl s.q) (hd : ValidTbl d.q) (q3 : Tbl) (h3 : q3 = s.q ∨ q3 = common s (some d)) :
    lcdTable s.q d.q q3 = some (common s (some d)) := by
  have key : ∀ i j, lcd (s.q i j) (d.q i j) = some (Nat.gcd (s.q i j) (d.q i j) : Int) :=
    fun i j => lcd_gcd _ _ (hs i j).2 (hd i j)
  unfold lcdTable
  rw [if_pos (by intro i j _; rw [key]; rfl)]
  congr 1
  funext i j
  rw [key]
  by_cases h : s.q i j = d.q i j
  · rw [if_neg (by simpa using h)]
    rcases h3 with h3 | h3
    · rw [h3]; unfold common; simp [h]
    · rw [h3]
  · rw [if_pos h]
    have : Nat.gcd (s.q i j) (d.q i j) ≤ 32767 := le_trans (Nat.gcd_le_left _ (hs i j).1) (hs i j).2
    unfold common
    simp only [Option.getD_some]
    omega

theorem adjustComp_exact (s d : QComp) (hs : ValidTbl s.q) (hd : ValidTbl d.q) (rs : Room s) (rd : Room d) (ss : Small s) (sd : Small d)
    (q3 : Tbl) (h3 : q3 = s.q ∨ q3 = common s (some d)) :
    ∃ s' d', adjustComp false s d q3 = some (common s (some d), s', d') ∧ SameValues (common s (some d)) s s' ∧
      SameValues (common s (some d)) d d' := by
  unfold adjustComp
  by_cases h : ∀ i j, s.q i j = d.q i j
  · rw [if_pos h]
    have hq : s.q = d.q := by funext i j; exact h i j
    have hc : common s (some d) = s.q := by
      unfold common; funext i j; simp [hq]
    refine ⟨s, d, ?_, ?_, ?_⟩
    · rcases h3 with h3 | h3 <;> rw [h3] <;> simp [hc]
    · rw [hc]; exact .refl s
    · rw [hc, hq]; exact .refl d
  · rw [if_neg h]
    have hpos : ∀ i j, 0 < common s (some d) i j := fun i j => Nat.gcd_pos_of_pos_left _ (hs i j).1
    obtain ⟨a, ea, pa⟩ := dequant_comp_ok s rs ss (common s (some d)) (fun i j => ⟨hpos i j, Nat.gcd_dvd_left _ _⟩)
    obtain ⟨b, eb, pb⟩ := dequant_comp_ok d rd sd (common s (some d)) (fun i j => ⟨hpos i j, Nat.gcd_dvd_right _ _⟩)
    refine ⟨_, _, ?_, pa, pb⟩
    simp [lcdTable_ok s d hs hd q3 h3, ea, eb]

theorem mapComp_total (g : Fin 8 → Fin 8 → Int → Int) (c : QComp) (hr : Room c) :
    ∃ a, mapComp (fun i j x => some (g i j x)) c.hb c.wb c.vs c.arr = some a ∧
      SetOn (Inside c) (fun y x i j => g i j (c.arr.at_ y x i j)) c.arr a := by
  obtain ⟨a, e, p⟩ := mapComp_set (fun i j x => some (g i j x)) c hr (by intros; rfl)
  exact ⟨a, e, SetOn.of_eq p (fun y x _ => by funext i j; rfl)⟩

theorem rounded_of (T : Tbl) (g : Fin 8 → Fin 8 → Int → Int) (d : QComp) (a : Arr)
    (p : SetOn (Inside d) (fun y x i j => g i j (d.arr.at_ y x i j)) d.arr a)
    (h : ∀ y x, Inside d y x → ∀ i j, 2 * |g i j (d.arr.at_ y x i j) * T i j - d.arr.at_ y x i j * d.q i j| ≤ T i j) :
    Rounded T d { d with arr := a } := by
  refine ⟨p.rows, p.cols, p.acc, ?_, p.outside⟩
  intro y x hi i j
  show 2 * |a.at_ y x i j * _ - _| ≤ _
  rw [p.inside y x hi]
  exact h y x hi i j

theorem adjustComp_trim (s d : QComp) (hs : ValidTbl s.q) (hd : ValidTbl d.q) (rd : Room d)
    (sd : ∀ y x, Inside d y x → ∀ i j, |d.arr.at_ y x i j * d.q i j| + (s.q i j / 2 : Nat) ≤ 32767) (q3 : Tbl) :
    ∃ d', adjustComp true s d q3 = some (q3, s, d') ∧ Rounded s.q d d' := by
  unfold adjustComp
  by_cases h : ∀ i j, s.q i j = d.q i j
  · rw [if_pos h]
    refine ⟨d, rfl, rfl, rfl, rfl, ?_, fun _ _ _ => rfl⟩
    intro y x hi i j
    rw [h i j, sub_self, abs_zero]; omega
  · rw [if_neg h, if_pos rfl]
    obtain ⟨a, e, p⟩ := mapComp_total (fun i j x => requantCoef (d.q i j) (s.q i j) x) d rd
    refine ⟨{ d with arr := a }, by rw [e]; rfl, rounded_of s.q _ d a p ?_⟩
    intro y x hi i j
    exact requantCoef_nearest (d.q i j) (s.q i j) (d.arr.at_ y x i j) (hd i j).2 (hs i j) (sd y x hi i j)

/-- All components of the image that use a slot get the same new table: two components with the same slot have the same steps in common
with the drop image. -/
def Agree (ss ds : List QComp) : Prop := ∀ (i j : Nat) (s s' : QComp), ss[i]? = some s → ss[j]? = some s' → s.slot = s'.slot →
  common s ds[i]? = common s' ds[j]?

theorem adjust_gen : ∀ (ss ds : List QComp) (t : Nat → Tbl),
    (∀ c ∈ ss, ValidTbl c.q ∧ Room c ∧ Small c) → (∀ c ∈ ds, ValidTbl c.q ∧ Room c ∧ Small c) →
    (∀ (i : Nat) (s : QComp), ss[i]? = some s → t s.slot = s.q ∨ t s.slot = common s ds[i]?) → Agree ss ds →
    ∃ t' ss' ds', adjust false t ss ds = some (t', ss', ds') ∧ ss'.length = ss.length ∧ ds'.length = ds.length ∧
      (∀ n, (∀ s ∈ ss, s.slot ≠ n) → t' n = t n) ∧
      (∀ (i : Nat) (s : QComp), ss[i]? = some s → t' s.slot = common s ds[i]? ∧
        ∃ s', ss'[i]? = some s' ∧ SameValues (t' s.slot) s s') ∧
      (∀ (i : Nat) (s d : QComp), ss[i]? = some s → ds[i]? = some d → ∃ d', ds'[i]? = some d' ∧ SameValues (t' s.slot) d d') := by
  intro ss
  induction ss with
  | nil =>
    intro ds t _ _ _ _
    refine ⟨t, [], ds, by unfold adjust; rfl, rfl, rfl, fun _ _ => rfl, ?_, ?_⟩
    · intro i s h; simp at h
    · intro i s d h; simp at h
  | cons s ss ih =>
    intro ds t hs hd ht ha
    cases ds with
    | nil =>
      refine ⟨t, s :: ss, [], by unfold adjust; rfl, rfl, rfl, fun _ _ => rfl, ?_, ?_⟩
      · intro i c h
        have h1 : t c.slot = c.q := by
          rcases ht i c h with e | e
          · exact e
          · rw [e]; simp [common]
        refine ⟨by rw [h1]; simp [common], c, h, ?_⟩
        rw [h1]; exact .refl c
      · intro i s d _ h; simp at h
    | cons d ds =>
      obtain ⟨hs1, hs2, hs3⟩ := hs s (by simp)
      obtain ⟨hd1, hd2, hd3⟩ := hd d (by simp)
      have h0 := ht 0 s (by simp)
      simp only [List.getElem?_cons_zero] at h0
      obtain ⟨s', d', e, ps, pd⟩ := adjustComp_exact s d hs1 hd1 hs2 hd2 hs3 hd3 (t s.slot) h0
      have ha' : ∀ (j : Nat) (c : QComp), ss[j]? = some c → s.slot = c.slot → common s (some d) = common c ds[j]? := by
        intro j c hj hsl
        have := ha 0 (j + 1) s c (by simp) (by simpa using hj) hsl
        simpa using this
      obtain ⟨t', ss', ds', e', l1, l2, keep, p1, p2⟩ := ih ds (fun n => if n = s.slot then common s (some d) else t n)
        (fun c hc => hs c (by simp [hc])) (fun c hc => hd c (by simp [hc])) (by
          intro i c hc
          by_cases hsl : c.slot = s.slot
          · right
            simp only [hsl, if_true]
            exact ha' i c hc hsl.symm
          · simp only [if_neg hsl]
            have := ht (i + 1) c (by simpa using hc)
            simpa using this) (by
          intro i j c c' h1 h2 h3
          have := ha (i + 1) (j + 1) c c' (by simpa using h1) (by simpa using h2) h3
          simpa using this)
      have hhead : t' s.slot = common s (some d) := by
        by_cases hex : ∃ c ∈ ss, c.slot = s.slot
        · obtain ⟨c, hc, hsl⟩ := hex
          obtain ⟨j, hj⟩ := List.getElem?_of_mem hc
          rw [← hsl, (p1 j c hj).1, ha' j c hj hsl.symm]
        · have := keep s.slot (by
            intro c hc hsl; exact hex ⟨c, hc, hsl⟩)
          rw [this]; simp
      refine ⟨t', s' :: ss', d' :: ds', ?_, by simp [l1], by simp [l2], ?_, ?_, ?_⟩
      · rw [adjust]
        simp [e, e']
      · intro n hn
        rw [keep n (fun c hc => hn c (by simp [hc]))]
        have := hn s (by simp)
        simp only [if_neg (Ne.symm this)]
      · intro i c hc
        cases i with
        | zero =>
          simp only [List.getElem?_cons_zero, Option.some.injEq] at hc ⊢
          subst hc
          exact ⟨hhead, s', rfl, by rw [hhead]; exact ps⟩
        | succ i =>
          simp only [List.getElem?_cons_succ] at hc ⊢
          exact p1 i c hc
      · intro i c b hc hb
        cases i with
        | zero =>
          simp only [List.getElem?_cons_zero, Option.some.injEq] at hc hb ⊢
          subst hc; subst hb
          exact ⟨d', rfl, by rw [hhead]; exact pd⟩
        | succ i =>
          simp only [List.getElem?_cons_succ] at hc hb ⊢
          exact p2 i c b hc hb

/-- C60: without `trim`, the image and the drop image are rewritten so that both fit one table per component, and every coefficient of
either still stands for exactly the same number. That table is what the destination gets, and it holds the greatest common divisors. -/
theorem adjust_exact (ss ds : List QComp) (t : Nat → Tbl)
    (hs : ∀ c ∈ ss, ValidTbl c.q ∧ Room c ∧ Small c) (hd : ∀ c ∈ ds, ValidTbl c.q ∧ Room c ∧ Small c)
    (ht : ∀ c ∈ ss, t c.slot = c.q) (ha : Agree ss ds) :
    ∃ t' ss' ds', adjust false t ss ds = some (t', ss', ds') ∧ ss'.length = ss.length ∧ ds'.length = ds.length ∧
      (∀ n, (∀ s ∈ ss, s.slot ≠ n) → t' n = t n) ∧
      (∀ (i : Nat) (s : QComp), ss[i]? = some s → t' s.slot = common s ds[i]? ∧
        ∃ s', ss'[i]? = some s' ∧ SameValues (t' s.slot) s s') ∧
      (∀ (i : Nat) (s d : QComp), ss[i]? = some s → ds[i]? = some d → ∃ d', ds'[i]? = some d' ∧ SameValues (t' s.slot) d d') :=
  adjust_gen ss ds t hs hd (fun i s h => Or.inl (ht s (List.mem_of_getElem? h))) ha

/-- C60: with `trim`, the destination's tables and the image's coefficients stay; the drop image's coefficients are rounded to multiples
of the image's steps. -/
theorem adjust_trim : ∀ (ss ds : List QComp) (t : Nat → Tbl),
    (∀ c ∈ ss, ValidTbl c.q) → (∀ c ∈ ds, ValidTbl c.q ∧ Room c) →
    (∀ (k : Nat) (s d : QComp), ss[k]? = some s → ds[k]? = some d →
      ∀ y x, Inside d y x → ∀ i j, |d.arr.at_ y x i j * d.q i j| + (s.q i j / 2 : Nat) ≤ 32767) →
    ∃ ds', adjust true t ss ds = some (t, ss, ds') ∧ ds'.length = ds.length ∧
      (∀ (k : Nat) (s d : QComp), ss[k]? = some s → ds[k]? = some d → ∃ d', ds'[k]? = some d' ∧ Rounded s.q d d') := by
  intro ss
  induction ss with
  | nil =>
    intro ds t _ _ _
    refine ⟨ds, by unfold adjust; rfl, rfl, ?_⟩
    intro i s d h; simp at h
  | cons s ss ih =>
    intro ds t hs hd hr
    cases ds with
    | nil =>
      refine ⟨[], by unfold adjust; rfl, rfl, ?_⟩
      intro i s d _ h; simp at h
    | cons d ds =>
      obtain ⟨hd1, hd2⟩ := hd d (by simp)
      obtain ⟨d', e, pd⟩ := adjustComp_trim s d (hs s (by simp)) hd1 hd2 (hr 0 s d (by simp) (by simp)) (t s.slot)
      obtain ⟨ds', e', l2, p2⟩ := ih ds t (fun c hc => hs c (by simp [hc])) (fun c hc => hd c (by simp [hc])) (by
          intro k c b h1 h2
          exact hr (k + 1) c b (by simpa using h1) (by simpa using h2))
      have et : (fun n => if n = s.slot then t s.slot else t n) = t := by
        funext n
        by_cases h : n = s.slot
        · rw [if_pos h, h]
        · rw [if_neg h]
      refine ⟨d' :: ds', ?_, by simp [l2], ?_⟩
      · rw [adjust]
        simp [e, et, e']
      · intro i c b hc hb
        cases i with
        | zero =>
          simp only [List.getElem?_cons_zero, Option.some.injEq] at hc hb ⊢
          subst hc; subst hb
          exact ⟨d', rfl, pd⟩
        | succ i =>
          simp only [List.getElem?_cons_succ] at hc hb ⊢
          exact p2 i c b hc hb

/-- C60, drop as a whole: let the image's component `s0` and the drop image's `d0` have been rewritten to table `T` (`s`, `d`, as by
`adjust_exact`), and let the drop then be done on the rewritten arrays. Each block of the result stands, with table `T`, for the numbers
of the original drop image inside the dropped rectangle and of the original image elsewhere. -/
theorem drop_values (fuel : Nat) (trim slow : Bool) (init : Nat → Nat → Block) (img dimg : Img) (h : Padded img)
    (r : Req) (hwk : r.wk ≠ .unset) (hhk : r.hk ≠ .unset) (hrw : r.w = dimg.w) (hrh : r.h = dimg.h) (g : Geo2)
    (hg : geometry .drop trim img (some r) = some g)
    (c : Comp) (hc : c ∈ img.comps) (b : Comp) (hd : SameGrid img c dimg b)
    (T : Tbl) (s0 s d0 d : QComp) (hs : SameValues T s0 s) (hsd : SameValues T d0 d) (ec : c.arr = s.arr) (eb : b.arr = d.arr) :
    ∃ a, execComp2 fuel .drop slow r.wk img g init (some b.arr) c = some a ∧
      (∀ y x, g.dropW ≠ 0 ∧ g.dropH ≠ 0 ∧ Region (effV img c) (effH img c) g.yo g.dropH g.xo g.dropW y x →
        Inside d0 (y - g.yo * effV img c) (x - g.xo * effH img c) → ∀ i j,
        a.at_ y x i j * T i j = d0.arr.at_ (y - g.yo * effV img c) (x - g.xo * effH img c) i j * d0.q i j) ∧
      (∀ y x, ¬ (g.dropW ≠ 0 ∧ g.dropH ≠ 0 ∧ Region (effV img c) (effH img c) g.yo g.dropH g.xo g.dropW y x) →
        Inside s0 y x → ∀ i j, a.at_ y x i j * T i j = s0.arr.at_ y x i j * s0.q i j) := by
  obtain ⟨a, e, p⟩ := drop_content fuel trim slow init img dimg h r hwk hhk hrw hrh g hg c hc (some b) (by
    intro d' hd'
    cases hd'
    exact hd)
  refine ⟨a, e, ?_, ?_⟩
  · intro y x hr hi i j
    rw [p.inside y x hr]
    simp only [eb]
    exact hsd.inside _ _ hi i j
  · intro y x hr hi i j
    rw [p.outside y x hr, ec]
    exact hs.inside _ _ hi i j

/-! ## Examples -/

/-- A component with one block of 5s and table entries `q`. -/
def oneBlock (slot q : Nat) : QComp :=
  ⟨slot, fun _ _ => q, 1, 1, 1, { rows := 1, cols := 1, maxaccess := 1, at_ := fun _ _ _ _ => 5 }⟩

theorem oneBlock_ok (slot q : Nat) (h : 1 ≤ q ∧ q ≤ 100) : ValidTbl (oneBlock slot q).q ∧ Room (oneBlock slot q) ∧ Small (oneBlock slot q) := by
  refine ⟨fun i j => ⟨h.1, by show q ≤ _; omega⟩, ⟨Nat.one_pos, (by show divUp 1 1 * 1 ≤ 1; decide), Nat.le_refl 1, Nat.le_refl 1⟩, ?_⟩
  intro y x _ i j
  show |(5 : Int) * (q : Nat)| ≤ 32767
  rw [abs_of_nonneg (by omega)]; omega

theorem gcd_12_8 : common (oneBlock 0 12) (some (oneBlock 0 8)) = fun _ _ => 4 := by
  funext i j
  show Nat.gcd 12 8 = 4
  decide +kernel

/-- The hypotheses of `adjust_exact` are met: steps 12, 12, 6 against 8, 8; the third component is not in the drop image. -/
example : ∃ t' ss' ds', adjust false (fun n => if n = 0 then fun _ _ => 12 else fun _ _ => 6)
      [oneBlock 0 12, oneBlock 0 12, oneBlock 1 6] [oneBlock 0 8, oneBlock 1 8] = some (t', ss', ds') ∧ t' 0 = (fun _ _ => 4) ∧
      t' 1 = (fun _ _ => 6) := by
  have key := adjust_exact [oneBlock 0 12, oneBlock 0 12, oneBlock 1 6] [oneBlock 0 8, oneBlock 1 8]
    (fun n => if n = 0 then fun _ _ => 12 else fun _ _ => 6)
    (by
      intro c hc
      simp only [List.mem_cons, List.not_mem_nil, or_false] at hc
      rcases hc with rfl | rfl | rfl <;> exact oneBlock_ok _ _ (by decide))
    (by
      intro c hc
      simp only [List.mem_cons, List.not_mem_nil, or_false] at hc
      rcases hc with rfl | rfl <;> exact oneBlock_ok _ _ (by decide))
    (by
      intro c hc
      simp only [List.mem_cons, List.not_mem_nil, or_false] at hc
      rcases hc with rfl | rfl | rfl <;> rfl)
    (by
      intro i j s s' h1 h2 h3
      match i, j with
      | 0, 0 => simp at h1 h2; subst h1; subst h2; rfl
      | 0, 1 => simp at h1 h2; subst h1; subst h2; rfl
      | 1, 0 => simp at h1 h2; subst h1; subst h2; rfl
      | 1, 1 => simp at h1 h2; subst h1; subst h2; rfl
      | 2, 2 => simp at h1 h2; subst h1; subst h2; rfl
      | 2, 0 => simp at h1 h2; subst h1; subst h2; simp [oneBlock] at h3
      | 2, 1 => simp at h1 h2; subst h1; subst h2; simp [oneBlock] at h3
      | 0, 2 => simp at h1 h2; subst h1; subst h2; simp [oneBlock] at h3
      | 1, 2 => simp at h1 h2; subst h1; subst h2; simp [oneBlock] at h3
      | 0, j + 3 => simp at h2
      | 1, j + 3 => simp at h2
      | 2, j + 3 => simp at h2
      | i + 3, _ => simp at h1)
  obtain ⟨t', ss', ds', e, -, -, -, p, -⟩ := key
  refine ⟨t', ss', ds', e, ?_, ?_⟩
  · have := (p 0 (oneBlock 0 12) rfl).1
    rw [show t' 0 = t' (oneBlock 0 12).slot from rfl, this]
    exact gcd_12_8
  · have := (p 2 (oneBlock 1 6) rfl).1
    rw [show t' 1 = t' (oneBlock 1 6).slot from rfl, this]
    funext i j; rfl

/-- Of `adjust_trim`: 5 steps of 8 become 3 steps of 12. -/
example : ∃ ds', adjust true (fun _ _ _ => 12) [oneBlock 0 12] [oneBlock 0 8] = some (fun _ _ _ => 12, [oneBlock 0 12], ds') ∧
    ds'.length = 1 ∧ requantCoef 8 12 5 = 3 ∧ requantCoef 8 12 (-5) = -3 := by
  obtain ⟨ds', e, l, -⟩ := adjust_trim [oneBlock 0 12] [oneBlock 0 8] (fun _ _ _ => 12)
    (by intro c hc; simp at hc; subst hc; exact (oneBlock_ok _ _ (by decide)).1)
    (by intro c hc; simp at hc; subst hc; exact ⟨(oneBlock_ok _ _ (by decide)).1, (oneBlock_ok _ _ (by decide)).2.1⟩)
    (by
      intro k s d h1 h2 y x _ i j
      match k with
      | 0 =>
        simp at h1 h2; subst h1; subst h2
        show |(5 : Int) * ((8 : Nat) : Int)| + ((12 / 2 : Nat) : Int) ≤ 32767
        decide
      | k + 1 => simp at h1)
  exact ⟨ds', e, l, by decide +kernel, by decide +kernel⟩

/-! ## Where it goes wrong -/

/-- A drop image whose table has an entry 0 where the image's has none: division by zero. -/
theorem zero_entry_divides_by_zero : adjust false (fun _ _ _ => 12) [oneBlock 0 12] [oneBlock 0 0] = none := by
  have h1 : ¬ ∀ i j : Fin 8, (oneBlock 0 12).q i j = (oneBlock 0 0).q i j := by
    intro h; exact absurd (h 0 0) (by decide)
  have h2 : lcdTable (oneBlock 0 12).q (oneBlock 0 0).q (fun _ _ => 12) = none := by
    unfold lcdTable
    rw [if_neg]
    intro h
    exact absurd (h 0 0 (by decide)) (by decide +kernel)
  have h3 : adjustComp false (oneBlock 0 12) (oneBlock 0 0) (fun _ _ => 12) = none := by
    unfold adjustComp
    rw [if_neg h1]
    simp [h2]
  rw [adjust]
  simp [h3]

theorem lcdGo_last (a b : Int) (hb : b ≠ 0) (h : a.tmod b = 0) : lcdGo a b hb = b := by
  rw [lcdGo, dif_pos h]

theorem lcdGo_next (a b r : Int) (hb : b ≠ 0) (h : a.tmod b = r) (hr : r ≠ 0) : lcdGo a b hb = lcdGo b r hr := by
  subst h
  rw [lcdGo, dif_neg hr]

/-- With entries above 32767 (allowed in 16-bit tables) the divisor found can be a negative number, stored as a large one, and the
coefficients become 0: for steps 40000 and 50000 it is -16, that is 65520, instead of 10000. -/
theorem large_entries : lcd 40000 50000 = some (-16) ∧ ((-16 : Int) % 65536).toNat = 65520 ∧
    dequantCoef 40000 65520 1 = some 0 ∧ Nat.gcd 40000 50000 = 10000 := by
  refine ⟨?_, by decide +kernel, by decide +kernel, by decide +kernel⟩
  have e1 : s16 (40000 : Nat) = -25536 := by decide +kernel
  have e2 : s16 (50000 : Nat) = -15536 := by decide +kernel
  unfold lcd
  simp only [e1, e2]
  rw [dif_neg (by decide), lcdGo_next _ _ (-10000) _ (by decide +kernel) (by decide), lcdGo_next _ _ (-5536) _ (by decide +kernel) (by decide),
    lcdGo_next _ _ (-4464) _ (by decide +kernel) (by decide), lcdGo_next _ _ (-1072) _ (by decide +kernel) (by decide),
    lcdGo_next _ _ (-176) _ (by decide +kernel) (by decide), lcdGo_next _ _ (-16) _ (by decide +kernel) (by decide),
    lcdGo_last _ _ _ (by decide +kernel)]

/-- `requant_comp` computes `q * c` in 16 bits: coefficient 300 with step 120 stands for 36000; with steps of 100 it becomes -295
instead of 360. -/
theorem requant_wraps : requantCoef 120 100 300 = -295 := by decide +kernel

/-- A gray drop image on a colour image whose components share one table: the second component's coefficients stay, but its table
changes, so they stand for other numbers (5 * 4 instead of 5 * 12). -/
theorem shared_slot_corrupts : ¬ Agree [oneBlock 0 12, oneBlock 0 12] [oneBlock 0 8] ∧
    ∃ t' ss' ds', adjust false (fun _ _ _ => 12) [oneBlock 0 12, oneBlock 0 12] [oneBlock 0 8] = some (t', ss', ds') ∧
      (∀ s', ss'[1]? = some s' → s'.arr = (oneBlock 0 12).arr) ∧ t' 0 = (fun _ _ => 4) := by
  constructor
  · intro h
    have := h 0 1 _ _ rfl rfl rfl
    have := congrFun (congrFun this 0) 0
    exact absurd this (by decide)
  · obtain ⟨s', d', e, -, -⟩ := adjustComp_exact (oneBlock 0 12) (oneBlock 0 8) (oneBlock_ok _ _ (by decide)).1 (oneBlock_ok _ _ (by decide)).1
      (oneBlock_ok _ _ (by decide)).2.1 (oneBlock_ok _ _ (by decide)).2.1 (oneBlock_ok _ _ (by decide)).2.2 (oneBlock_ok _ _ (by decide)).2.2
      (fun _ _ => 12) (Or.inl rfl)
    refine ⟨fun n => if n = 0 then common (oneBlock 0 12) (some (oneBlock 0 8)) else fun _ _ => 12, [s', oneBlock 0 12], [d'], ?_, ?_, ?_⟩
    · rw [adjust]
      simp only [e]
      simp only [Option.bind_eq_bind, Option.bind_some, adjust]
      rfl
    · intro s h; simp at h; subst h; rfl
    · exact gcd_12_8

end Verif.Crop
