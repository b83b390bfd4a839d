import Verif.Transf.Model
import Mathlib.Tactic.Linarith
import Mathlib.Tactic.Ring
/-
What the loop nests of the transform routines compute: every one sets a rectangle of the destination to a fixed target.
-/
namespace Verif.Transf

/-- `s'` is `s` with the cells of `R` set to `T`. -/
structure SetOn (R : Nat → Nat → Prop) (T : Nat → Nat → Block) (s s' : Arr) : Prop where
  rows : s'.rows = s.rows
  cols : s'.cols = s.cols
  acc : s'.maxaccess = s.maxaccess
  inside : ∀ y x, R y x → s'.at_ y x = T y x
  outside : ∀ y x, ¬ R y x → s'.at_ y x = s.at_ y x

/-- Same declared size. -/
def Dims (r c m : Nat) (a : Arr) : Prop := a.rows = r ∧ a.cols = c ∧ a.maxaccess = m

theorem SetOn.dims {R T s s' r c m} (h : SetOn R T s s') (hd : Dims r c m s) : Dims r c m s' :=
  ⟨h.rows.trans hd.1, h.cols.trans hd.2.1, h.acc.trans hd.2.2⟩

theorem SetOn.congr {R R' T s s'} (h : SetOn R T s s') (e : ∀ y x, R y x ↔ R' y x) : SetOn R' T s s' :=
  ⟨h.rows, h.cols, h.acc, fun y x hr => h.inside y x ((e y x).2 hr), fun y x hr => h.outside y x (fun h' => hr ((e y x).1 h'))⟩

theorem SetOn.nil (T : Nat → Nat → Block) (s : Arr) : SetOn (fun _ _ => False) T s s :=
  ⟨rfl, rfl, rfl, fun _ _ h => h.elim, fun _ _ _ => rfl⟩

theorem SetOn.trans {R R' T s s' s''} (h : SetOn R T s s') (h' : SetOn R' T s' s'') :
    SetOn (fun y x => R y x ∨ R' y x) T s s'' := by
  refine ⟨h'.rows.trans h.rows, h'.cols.trans h.cols, h'.acc.trans h.acc, ?_, ?_⟩
  · intro y x hr
    by_cases h2 : R' y x
    · exact h'.inside y x h2
    · rw [h'.outside y x h2]
      exact h.inside y x (hr.resolve_right h2)
  · intro y x hr
    rw [h'.outside y x (fun h => hr (Or.inr h)), h.outside y x (fun h => hr (Or.inl h))]

theorem foldlM_set {R : Nat → Nat → Nat → Prop} {T : Nat → Nat → Block} {r c m : Nat} (body : Nat → Arr → Option Arr) :
    ∀ (l : List Nat), (∀ i ∈ l, ∀ s, Dims r c m s → ∃ s', body i s = some s' ∧ SetOn (R i) T s s') →
    ∀ s, Dims r c m s → ∃ s', l.foldlM (fun s i => body i s) s = some s' ∧
      SetOn (fun y x => ∃ i ∈ l, R i y x) T s s' := by
  intro l
  induction l with
  | nil =>
    intro _ s _
    exact ⟨s, rfl, (SetOn.nil T s).congr (by simp)⟩
  | cons i l ih =>
    intro h s hd
    obtain ⟨s1, e1, p1⟩ := h i (by simp) s hd
    obtain ⟨s2, e2, p2⟩ := ih (fun j hj => h j (by simp [hj])) s1 (p1.dims hd)
    refine ⟨s2, ?_, (p1.trans p2).congr ?_⟩
    · rw [List.foldlM_cons, e1]; exact e2
    · intro y x; simp

theorem mem_steps (n step i : Nat) (hs : 0 < step) :
    i ∈ (List.range ((n + step - 1) / step)).map (· * step) ↔ i < n ∧ ∃ k, i = k * step := by
  rw [List.mem_map]
  constructor
  · rintro ⟨k, hk, rfl⟩
    refine ⟨?_, k, rfl⟩
    rw [List.mem_range] at hk
    have := (Nat.lt_div_iff_mul_lt hs).1 hk
    omega
  · rintro ⟨h, k, rfl⟩
    refine ⟨k, ?_, rfl⟩
    rw [List.mem_range, Nat.lt_div_iff_mul_lt hs]
    omega

theorem forStep_set {R : Nat → Nat → Nat → Prop} {T : Nat → Nat → Block} {r c m : Nat} (n step : Nat) (hs : 0 < step)
    (body : Nat → Arr → Option Arr)
    (h : ∀ k, k * step < n → ∀ s, Dims r c m s → ∃ s', body (k * step) s = some s' ∧ SetOn (R (k * step)) T s s') :
    ∀ s, Dims r c m s → ∃ s', forStep n step body s = some s' ∧
      SetOn (fun y x => ∃ k, k * step < n ∧ R (k * step) y x) T s s' := by
  intro s hd
  obtain ⟨s', e, p⟩ := foldlM_set (R := R) (T := T) (r := r) (c := c) (m := m) body
    ((List.range ((n + step - 1) / step)).map (· * step))
    (by
      intro i hi s hd
      obtain ⟨h1, k, rfl⟩ := (mem_steps n step i hs).1 hi
      exact h k h1 s hd) s hd
  refine ⟨s', e, p.congr ?_⟩
  intro y x
  constructor
  · rintro ⟨i, hi, hr⟩
    obtain ⟨h1, k, rfl⟩ := (mem_steps n step i hs).1 hi
    exact ⟨k, h1, hr⟩
  · rintro ⟨k, hk, hr⟩
    exact ⟨_, (mem_steps n step _ hs).2 ⟨hk, k, rfl⟩, hr⟩

theorem forStep1_set {R : Nat → Nat → Nat → Prop} {T : Nat → Nat → Block} {r c m : Nat} (n : Nat)
    (body : Nat → Arr → Option Arr)
    (h : ∀ k, k < n → ∀ s, Dims r c m s → ∃ s', body k s = some s' ∧ SetOn (R k) T s s') :
    ∀ s, Dims r c m s → ∃ s', forStep n 1 body s = some s' ∧
      SetOn (fun y x => ∃ k, k < n ∧ R k y x) T s s' := by
  have := forStep_set (R := R) (T := T) (r := r) (c := c) (m := m) n 1 (by omega) body
    (by intro k hk; rw [Nat.mul_one] at *; exact h k hk)
  simpa using this

theorem wr_set {T : Nat → Nat → Block} {r c m : Nat} (y x : Nat) (b : Block) (s : Arr) (hd : Dims r c m s)
    (hy : y < r) (hx : x < c) (hb : b = T y x) :
    ∃ s', wr s y x b = some s' ∧ SetOn (fun y' x' => y' = y ∧ x' = x) T s s' := by
  refine ⟨{ s with at_ := fun y' x' => if y' = y ∧ x' = x then b else s.at_ y' x' }, ?_, rfl, rfl, rfl, ?_, ?_⟩
  · unfold wr; rw [if_pos ⟨by rw [hd.1]; exact hy, by rw [hd.2.1]; exact hx⟩]
  · rintro y' x' ⟨rfl, rfl⟩
    simp [hb]
  · intro y' x' h
    simp only
    rw [if_neg h]

theorem rd_some (a : Arr) (y x : Nat) (hy : y < a.rows) (hx : x < a.cols) : rd a y x = some (a.at_ y x) := by
  unfold rd; rw [if_pos ⟨hy, hx⟩]

theorem rdwr_set {T : Nat → Nat → Block} {r c m : Nat} (src : Arr) (sy sx y x : Nat) (f : Block → Block) (s : Arr)
    (hd : Dims r c m s) (hsy : sy < src.rows) (hsx : sx < src.cols) (hy : y < r) (hx : x < c)
    (hb : f (src.at_ sy sx) = T y x) :
    ∃ s', (do let b ← rd src sy sx; wr s y x (f b)) = some s' ∧ SetOn (fun y' x' => y' = y ∧ x' = x) T s s' := by
  rw [rd_some _ _ _ hsy hsx]
  exact wr_set y x _ s hd hy hx hb

theorem copyBlockRow_set {T : Nat → Nat → Block} {r c m : Nat} (src : Arr) (sy sx dy dx n : Nat) (s : Arr)
    (hd : Dims r c m s) (hsy : sy < src.rows) (hsx : sx + n ≤ src.cols) (hy : dy < r) (hx : dx + n ≤ c)
    (hb : ∀ k < n, src.at_ sy (sx + k) = T dy (dx + k)) :
    ∃ s', copyBlockRow src sy sx dy dx n s = some s' ∧
      SetOn (fun y' x' => ∃ k, k < n ∧ y' = dy ∧ x' = dx + k) T s s' := by
  unfold copyBlockRow
  apply forStep1_set (R := fun k y' x' => y' = dy ∧ x' = dx + k) (T := T) (r := r) (c := c) (m := m)
  · intro k hk s hd
    exact rdwr_set src sy (sx + k) dy (dx + k) id s hd hsy (by omega) hy (by omega) (hb k hk)
  · exact hd

theorem copyBlockRow_set' {T : Nat → Nat → Block} {R : Nat → Nat → Prop} {r c m : Nat} (src : Arr)
    (sy sx dy dx n : Nat) (s : Arr)
    (hd : Dims r c m s) (hsy : sy < src.rows) (hsx : sx + n ≤ src.cols) (hy : dy < r) (hx : dx + n ≤ c)
    (hb : ∀ k < n, src.at_ sy (sx + k) = T dy (dx + k))
    (hR : ∀ y' x', (∃ k, k < n ∧ y' = dy ∧ x' = dx + k) ↔ R y' x') :
    ∃ s', copyBlockRow src sy sx dy dx n s = some s' ∧ SetOn R T s s' := by
  obtain ⟨s', e, q⟩ := copyBlockRow_set (T := T) src sy sx dy dx n s hd hsy hsx hy hx hb
  exact ⟨s', e, q.congr hR⟩

theorem access_some (a : Arr) (y n : Nat) (h : y + n ≤ a.rows) (h2 : n ≤ a.maxaccess) : access a y n = some () := by
  unfold access; rw [if_pos ⟨h, h2⟩]

/-- `k * v < n` and `o < v` put `k * v + o` below the rounded-up bound. -/
theorem lt_roundup {k v n o : Nat} (h : k * v < n) (ho : o < v) : k * v + o < divUp n v * v := by
  unfold divUp
  have hk : k < (n + v - 1) / v := by
    rw [Nat.lt_div_iff_mul_lt (by omega)]; omega
  have : (k + 1) * v ≤ (n + v - 1) / v * v := Nat.mul_le_mul_right _ hk
  rw [Nat.add_mul, Nat.one_mul] at this
  omega

theorem mul_add_le_roundup {k v n : Nat} (h : k * v < n) (hv : 0 < v) : k * v + v ≤ divUp n v * v := by
  have := lt_roundup (o := v - 1) h (by omega)
  omega

/-- The rows visited by the nested loops are exactly those below the rounded-up height. -/
theorem region_rows (n v y : Nat) (hv : 0 < v) : (∃ k, k * v < n ∧ ∃ o, o < v ∧ y = k * v + o) ↔ y < divUp n v * v := by
  constructor
  · rintro ⟨k, hk, o, ho, rfl⟩
    exact lt_roundup hk ho
  · intro h
    have hd := Nat.div_add_mod y v
    rw [Nat.mul_comm] at hd
    refine ⟨y / v, ?_, y % v, Nat.mod_lt _ hv, hd.symm⟩
    unfold divUp at h
    have h1 : y / v < (n + v - 1) / v := by
      rw [Nat.div_lt_iff_lt_mul hv]; exact h
    rw [Nat.lt_div_iff_mul_lt hv] at h1
    omega

/-- `a*v + o < b*v` is decided by the quotients. -/
theorem block_lt {a b v o : Nat} (ho : o < v) : a * v + o < b * v ↔ a * v < b * v := by
  constructor
  · intro h; omega
  · intro h
    have : a < b := Nat.lt_of_mul_lt_mul_right h
    have : (a + 1) * v ≤ b * v := Nat.mul_le_mul_right _ this
    rw [Nat.add_mul, Nat.one_mul] at this
    omega

theorem block_le {a b v : Nat} (h : a * v < b * v) : a * v + v ≤ b * v := by
  have : a < b := Nat.lt_of_mul_lt_mul_right h
  have : (a + 1) * v ≤ b * v := Nat.mul_le_mul_right _ this
  rw [Nat.add_mul, Nat.one_mul] at this
  exact this

end Verif.Transf
