import Verif.Crop.Geom
/-
The loop nests of crop extension, wipe and drop, row by row.
-/
namespace Verif.Crop
open Verif.Transf

theorem SetOn.of_eq {R : Nat → Nat → Prop} {T T' : Nat → Nat → Block} {s s' : Arr} (h : SetOn R T s s')
    (e : ∀ y x, R y x → T y x = T' y x) : SetOn R T' s s' :=
  ⟨h.rows, h.cols, h.acc, fun y x hr => (h.inside y x hr).trans (e y x hr), h.outside⟩

theorem SetOn.empty {R : Nat → Nat → Prop} (T : Nat → Nat → Block) (s : Arr) (h : ∀ y x, ¬ R y x) : SetOn R T s s :=
  ⟨rfl, rfl, rfl, fun y x hr => absurd hr (h y x), fun _ _ _ => rfl⟩

/-- A loop over groups of `vs` rows that changes some columns of the rows from `base` on, each row depending on what it held. -/
theorem rows_nest {T : Nat → Nat → Block} (C : Nat → Prop) (base n vs : Nat) (hv : 0 < vs) (a : Arr)
    (body : Nat → Arr → Option Arr) (row : Nat → Nat → Arr → Option Arr)
    (h1 : ∀ k, k * vs < n → ∀ s, Dims a.rows a.cols a.maxaccess s → body (k * vs) s = forStep vs 1 (row (k * vs)) s)
    (h2 : ∀ k, k * vs < n → ∀ o, o < vs → ∀ s, Dims a.rows a.cols a.maxaccess s →
      (∀ x, s.at_ (base + (k * vs + o)) x = a.at_ (base + (k * vs + o)) x) →
      ∃ s', row (k * vs) o s = some s' ∧ SetOn (fun y x => y = base + (k * vs + o) ∧ C x) T s s') :
    ∃ a', forStep n vs body a = some a' ∧
      SetOn (fun y x => base ≤ y ∧ y < base + divUp n vs * vs ∧ C x) T a a' := by
  have dims : ∀ {R s}, SetOn R T a s → Dims a.rows a.cols a.maxaccess s := fun h => h.dims ⟨rfl, rfl, rfl⟩
  refine forStep_inv (fun k s => SetOn (fun y x => base ≤ y ∧ y < base + k * vs ∧ C x) T a s) n vs hv body a
    (SetOn.empty T a (by intro y x; omega)) ?_
  intro k hk s hs
  rw [h1 k hk s (dims hs)]
  obtain ⟨s', e, p⟩ := forStep1_inv (fun o s => SetOn (fun y x => base ≤ y ∧ y < base + (k * vs + o) ∧ C x) T a s) vs
    (row (k * vs)) s hs (by
      intro o ho s hs
      obtain ⟨s', e, p⟩ := h2 k hk o ho s (dims hs) (fun x => hs.outside _ _ (by omega))
      refine ⟨s', e, (hs.trans p).congr ?_⟩
      intro y x
      by_cases hc : C x
      · simp only [hc, and_true]; omega
      · simp [hc])
  refine ⟨s', e, ?_⟩
  rw [Nat.add_mul, Nat.one_mul]
  exact p

theorem divUp_mul' (n v : Nat) (h : 0 < v) : divUp (n * v) v = n := divUp_mul n v h

theorem fill_set {T : Nat → Nat → Block} {r c m : Nat} (y x n : Nat) (b : Block) (s : Arr) (hd : Dims r c m s) (hy : y < r)
    (hx : x + n ≤ c) (hb : ∀ x', x ≤ x' → x' < x + n → b = T y x') :
    ∃ s', fill y x n b s = some s' ∧ SetOn (fun y' x' => y' = y ∧ x ≤ x' ∧ x' < x + n) T s s' := by
  unfold fill
  obtain ⟨s', e, p⟩ := forStep1_set (R := fun k y' x' => y' = y ∧ x' = x + k) (T := T) (r := r) (c := c) (m := m) n
    (fun k a => wr a y (x + k) b) (by
      intro k hk s hd
      exact wr_set y (x + k) b s hd hy (by omega) (hb _ (by omega) (by omega))) s hd
  refine ⟨s', e, p.congr ?_⟩
  intro y' x'
  constructor
  · rintro ⟨k, hk, h1, h2⟩; omega
  · rintro ⟨h1, h2, h3⟩; exact ⟨x' - x, by omega, h1, by omega⟩

theorem copy_set {T : Nat → Nat → Block} {r c m : Nat} (src : Arr) (sy sx dy dx n : Nat) (s : Arr)
    (hd : Dims r c m s) (hsy : sy < src.rows) (hsx : sx + n ≤ src.cols) (hy : dy < r) (hx : dx + n ≤ c)
    (hb : ∀ x', dx ≤ x' → x' < dx + n → src.at_ sy (sx + (x' - dx)) = T dy x') :
    ∃ s', copyBlockRow src sy sx dy dx n s = some s' ∧ SetOn (fun y' x' => y' = dy ∧ dx ≤ x' ∧ x' < dx + n) T s s' := by
  apply copyBlockRow_set' src sy sx dy dx n s hd hsy hsx hy hx
  · intro k hk
    have := hb (dx + k) (by omega) (by omega)
    rwa [Nat.add_sub_cancel_left] at this
  · intro y' x'
    constructor
    · rintro ⟨k, hk, h1, h2⟩; omega
    · rintro ⟨h1, h2, h3⟩; exact ⟨x' - dx, by omega, h1, by omega⟩

/-! ## Reflection -/

/-- The row `row 0 .. row (cw-1)` continued in both directions by reflecting it at its ends, again and again; a reflected block
has its odd columns negated. -/
def reflAt (row : Nat → Block) (cw : Nat) (j : Int) : Block :=
  let q := (j % (2 * cw : Nat)).toNat
  if q < cw then row q else cpFlipH (row (2 * cw - 1 - q))

theorem cpFlipH_invol (b : Block) (h : ∀ i j, InRange (b i j)) : cpFlipH (cpFlipH b) = b := by
  funext i j
  unfold cpFlipH
  by_cases hj : j.val % 2 = 1
  · simp [hj, neg16_neg16 _ (h i j)]
  · simp [hj]

theorem reflAt_inside (row : Nat → Block) (cw j : Nat) (h : j < cw) : reflAt row cw j = row j := by
  unfold reflAt
  simp only
  have : ((j : Int) % (2 * cw : Nat)).toNat = j := by
    rw [Int.emod_eq_of_lt (by omega) (by omega)]; simp
  rw [this, if_pos h]

theorem refl_mod (j t : Int) (w : Nat) (hw : 0 < w) : (((w : Int) * t - 1 - j) % w) = w - 1 - j % w := by
  have e : (w : Int) * t - 1 - j = (w - 1 - j % w) + w * (t - 1 - j / w) := by
    have := Int.emod_add_mul_ediv j w
    have h2 : (w : Int) * (t - 1 - j / w) = w * t - w - w * (j / w) := by ring
    rw [h2]; omega
  rw [e, Int.add_mul_emod_self_left]
  have h1 := Int.emod_nonneg j (show (w : Int) ≠ 0 by omega)
  have h2 := Int.emod_lt_of_pos j (show (0 : Int) < w by omega)
  exact Int.emod_eq_of_lt (by omega) (by omega)

theorem reflAt_mirror (row : Nat → Block) (cw : Nat) (hw : 0 < cw) (hr : ∀ k, k < cw → ∀ i j, InRange (row k i j)) (t j : Int) :
    reflAt row cw (2 * cw * t - 1 - j) = cpFlipH (reflAt row cw j) := by
  unfold reflAt
  have e : (2 * (cw : Int) * t - 1 - j) % (2 * cw : Nat) = (2 * cw : Nat) - 1 - j % (2 * cw : Nat) := by
    have := refl_mod j t (2 * cw) (by omega)
    rw [← this]; push_cast; rfl
  simp only
  rw [e]
  have h1 := Int.emod_nonneg j (show ((2 * cw : Nat) : Int) ≠ 0 by omega)
  have h2 := Int.emod_lt_of_pos j (show (0 : Int) < (2 * cw : Nat) by omega)
  generalize j % (2 * cw : Nat) = q at *
  obtain ⟨q, rfl⟩ := Int.eq_ofNat_of_zero_le h1
  have e1 : (((2 * cw : Nat) : Int) - 1 - (q : Int)).toNat = 2 * cw - 1 - q := by omega
  rw [e1]
  simp only [Int.toNat_natCast]
  by_cases hq : q < cw
  · rw [if_neg (by omega), if_pos hq]
    congr 2; omega
  · rw [if_pos (by omega), if_neg hq, cpFlipH_invol]
    exact hr _ (by omega)

theorem reflectRight_set {T : Nat → Nat → Block} {r c m : Nat} (cw y : Nat) (hw : 0 < cw) (hy : y < r) (base : Nat)
    (hm : ∀ t x x' : Nat, x + x' + 1 = 2 * (base + cw * t) → base ≤ x' → x' < x → T y x = cpFlipH (T y x')) :
    ∀ fuel n pos t s, n ≤ fuel → Dims r c m s → pos = base + cw * t → 0 < t → pos + n ≤ c →
      (∀ x, pos - cw ≤ x → x < pos → s.at_ y x = T y x) →
      ∃ s', reflectRight cw y fuel n pos s = some s' ∧ SetOn (fun y' x' => y' = y ∧ pos ≤ x' ∧ x' < pos + n) T s s' := by
  intro fuel
  induction fuel with
  | zero =>
    intro n pos t s hf hd hp ht hc hk
    have : n = 0 := by omega
    subst this
    exact ⟨s, by unfold reflectRight; rfl, (SetOn.empty T s (by intro y x; omega))⟩
  | succ fuel ih =>
    intro n pos t s hf hd hp ht hc hk
    cases n with
    | zero => exact ⟨s, by unfold reflectRight; rfl, (SetOn.empty T s (by intro y x; omega))⟩
    | succ n =>
      have hpos : cw ≤ pos := by
        have : cw * 1 ≤ cw * t := Nat.mul_le_mul_left _ ht
        omega
      have hbase : base + cw ≤ pos := by
        have : cw * 1 ≤ cw * t := Nat.mul_le_mul_left _ ht
        omega
      obtain ⟨s1, e1, p1⟩ := forStep1_inv (fun i s' => SetOn (fun y' x' => y' = y ∧ pos ≤ x' ∧ x' < pos + i) T s s')
        (min cw (n + 1)) (fun i a => do
          let b ← (if i + 1 ≤ pos then rd a y (pos - 1 - i) else none)
          wr a y (pos + i) (cpFlipH b)) s
        (SetOn.empty T s (by intro y x; omega)) (by
          intro i hi a ha
          have da := ha.dims hd
          rw [if_pos (show i + 1 ≤ pos by omega), rd_some a y _ (by rw [da.1]; exact hy) (by rw [da.2.1]; omega)]
          obtain ⟨a', e, p⟩ := wr_set (T := T) y (pos + i) (cpFlipH (a.at_ y (pos - 1 - i))) a da hy (by omega) (by
            rw [ha.outside _ _ (by omega), hk _ (by omega) (by omega)]
            exact (hm t (pos + i) (pos - 1 - i) (by omega) (by omega) (by omega)).symm)
          refine ⟨a', e, (ha.trans p).congr ?_⟩
          intro y' x'; constructor <;> intro h <;> omega)
      unfold reflectRight
      simp only [Option.bind_eq_bind] at e1 ⊢
      rw [e1]
      simp only [Option.bind_some]
      by_cases hlt : n + 1 ≤ cw
      · rw [Nat.min_eq_right hlt] at p1 ⊢
        rw [Nat.sub_self]
        exact ⟨s1, by unfold reflectRight; rfl, p1⟩
      · rw [Nat.min_eq_left (by omega)] at p1 ⊢
        obtain ⟨s2, e2, p2⟩ := ih (n + 1 - cw) (pos + cw) (t + 1) s1 (by omega) (p1.dims hd) (by rw [Nat.mul_add]; omega) (by omega)
          (by omega) (fun x h1 h2 => p1.inside _ _ (by omega))
        refine ⟨s2, e2, (p1.trans p2).congr ?_⟩
        intro y' x'; constructor <;> intro h <;> omega

theorem reflectLeft_set {T : Nat → Nat → Block} {r c m : Nat} (cw y : Nat) (hw : 0 < cw) (hy : y < r) (base : Nat)
    (hm : ∀ t x x' : Nat, x + x' + 1 + 2 * (cw * t) = 2 * base → x < x' → x' < base + cw → T y x = cpFlipH (T y x')) :
    ∀ fuel n pos t s, n ≤ fuel → Dims r c m s → pos + cw * t = base → n ≤ pos → base + cw ≤ c →
      (∀ x, pos ≤ x → x < pos + cw → s.at_ y x = T y x) →
      ∃ s', reflectLeft cw y fuel n pos s = some s' ∧ SetOn (fun y' x' => y' = y ∧ pos - n ≤ x' ∧ x' < pos) T s s' := by
  intro fuel
  induction fuel with
  | zero =>
    intro n pos t s hf hd hp ht hc hk
    have : n = 0 := by omega
    subst this
    exact ⟨s, by unfold reflectLeft; rfl, (SetOn.empty T s (by intro y x; omega))⟩
  | succ fuel ih =>
    intro n pos t s hf hd hp ht hc hk
    cases n with
    | zero => exact ⟨s, by unfold reflectLeft; rfl, (SetOn.empty T s (by intro y x; omega))⟩
    | succ n =>
      obtain ⟨s1, e1, p1⟩ := forStep1_inv (fun i s' => SetOn (fun y' x' => y' = y ∧ pos - i ≤ x' ∧ x' < pos) T s s')
        (min cw (n + 1)) (fun i a => do
          let b ← rd a y (pos + i)
          if i + 1 ≤ pos then wr a y (pos - 1 - i) (cpFlipH b) else none) s
        (SetOn.empty T s (by intro y x; omega)) (by
          intro i hi a ha
          have da := ha.dims hd
          rw [rd_some a y _ (by rw [da.1]; exact hy) (by rw [da.2.1]; omega)]
          simp only [Option.bind_eq_bind, Option.bind_some, if_pos (show i + 1 ≤ pos by omega)]
          obtain ⟨a', e, p⟩ := wr_set (T := T) y (pos - 1 - i) (cpFlipH (a.at_ y (pos + i))) a da hy (by omega) (by
            rw [ha.outside _ _ (by omega), hk _ (by omega) (by omega)]
            exact (hm t (pos - 1 - i) (pos + i) (by omega) (by omega) (by omega)).symm)
          refine ⟨a', e, (ha.trans p).congr ?_⟩
          intro y' x'; constructor <;> intro h <;> omega)
      unfold reflectLeft
      simp only [Option.bind_eq_bind] at e1 ⊢
      rw [e1]
      simp only [Option.bind_some]
      by_cases hlt : n + 1 ≤ cw
      · rw [Nat.min_eq_right hlt] at p1 ⊢
        rw [Nat.sub_self]
        exact ⟨s1, by unfold reflectLeft; rfl, p1⟩
      · rw [Nat.min_eq_left (by omega)] at p1 ⊢
        obtain ⟨s2, e2, p2⟩ := ih (n + 1 - cw) (pos - cw) (t + 1) s1 (by omega) (p1.dims hd) (by rw [Nat.mul_add]; omega) (by omega)
          (by omega) (fun x h1 h2 => p1.inside _ _ (by omega))
        refine ⟨s2, e2, (p1.trans p2).congr ?_⟩
        intro y' x'; constructor <;> intro h <;> omega

/-- Without a whole iMCU to reflect, the loop never ends. -/
theorem reflectRight_zero (y fuel n pos : Nat) (a : Arr) : reflectRight 0 y fuel (n + 1) pos a = none := by
  induction fuel with
  | zero => unfold reflectRight; rfl
  | succ fuel ih =>
    unfold reflectRight
    simpa [forStep] using ih

theorem reflectLeft_zero (y fuel n pos : Nat) (a : Arr) : reflectLeft 0 y fuel (n + 1) pos a = none := by
  induction fuel with
  | zero => unfold reflectLeft; rfl
  | succ fuel ih =>
    unfold reflectLeft
    simpa [forStep] using ih

end Verif.Crop
