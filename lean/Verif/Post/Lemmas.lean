import Verif.Post.Model
/-
C44: specification, arithmetic of heights, loops.
-/
namespace Verif.Post
variable {R : Type}

/-! ### specification -/

/-- The rows of the components, and the row taken to be above the first. -/
structure Src (R : Type) where
  row : Nat → Nat → R
  top : Nat → R

instance : CoeFun (Src R) (fun _ => Nat → Nat → R) := ⟨Src.row⟩
instance : Coe (Src R) (Nat → Nat → R) := ⟨Src.row⟩

/-- As it should be: the first row is repeated above the image. -/
def Src.plain (src : Nat → Nat → R) : Src R := ⟨src, fun c => src c 0⟩

/-- Row r of component c: past the real rows 0 .. downsampled_height - 1 the last one, above them `top`. -/
def Cfg.clampRow (k : Cfg R) (src : Src R) (c : Nat) (r : Int) : R := if r < 0 then src.top c else src.row c (min r ((k.dh c : Int) - 1)).toNat

/-- Row number j of row group G of component c, as the upsampler should see it: with context rows, rows outside the component are copies of its first and last row. -/
def Cfg.rowAt (k : Cfg R) (src : Src R) (c G : Nat) (j : Int) : R :=
  if k.context then k.clampRow src c ((G * k.g c : Nat) + j) else src.row c ((G * k.g c : Nat) + j).toNat

/-- Upsampled row j of row group G of component c. -/
def Cfg.upRow (k : Cfg R) (src : Src R) (c G j : Nat) : Option R :=
  if (k.comp c).full then some (k.rowAt src c G j)
  else if (k.comp c).ctx then ((k.comp c).up ((List.range (k.g c + 2)).map (fun i : Nat => k.rowAt src c G ((i : Int) - 1))))[j]?
  else ((k.comp c).up ((List.range (k.g c)).map (fun i : Nat => k.rowAt src c G (i : Int))))[j]?

/-- Output scanline t: upsampled row t mod max_v_samp_factor of row group t div max_v_samp_factor, for every component. -/
def Cfg.scanline (k : Cfg R) (src : Src R) (t : Nat) : Option (List R) := (List.range k.n).mapM (fun c => k.upRow src c (t / k.maxV) (t % k.maxV))

/-- What the master control and jinit_d_main_controller guarantee. -/
structure Cfg.Ok (k : Cfg R) : Prop where
  ih : 0 < k.ih
  mv : 0 < k.maxV
  d : 0 < k.D
  m : 0 < k.M
  n : 0 < k.n
  ctx : k.context = true → 2 ≤ k.M
  g : ∀ c, c < k.n → 0 < k.g c ∧ k.g c * k.M = (k.comp c).v * (k.comp c).ss
  full : ∀ c, c < k.n → (k.comp c).full = true → k.g c = k.maxV
  method : ∀ c, c < k.n → (k.comp c).ctx = true → k.context = true
  up : ∀ c, c < k.n → (k.comp c).full = false → ∀ l, ((k.comp c).up l).length = k.maxV

/-! ### heights -/

theorem divUp_le {a b x : Nat} (hb : 0 < b) : divUp a b ≤ x ↔ a ≤ x * b := by
  unfold divUp
  rw [← Nat.lt_succ_iff, Nat.div_lt_iff_lt_mul hb, Nat.succ_mul]
  omega

theorem lt_divUp {a b x : Nat} (hb : 0 < b) : x < divUp a b ↔ x * b < a := by
  rw [← Nat.not_le, divUp_le hb, Nat.not_le]

theorem divUp_divUp {a b c : Nat} (hb : 0 < b) (hc : 0 < c) : divUp (divUp a b) c = divUp a (c * b) := by
  apply Nat.le_antisymm
  · rw [divUp_le hc, divUp_le hb, Nat.mul_assoc, ← divUp_le (Nat.mul_pos hc hb)]
  · rw [divUp_le (Nat.mul_pos hc hb), ← Nat.mul_assoc, ← divUp_le hb, ← divUp_le hc]

theorem divUp_mul {a b c : Nat} (hb : 0 < b) (hc : 0 < c) : divUp (a * c) (b * c) = divUp a b := by
  apply Nat.le_antisymm
  · rw [divUp_le (Nat.mul_pos hb hc), ← Nat.mul_assoc]
    exact Nat.mul_le_mul_right _ ((divUp_le hb).1 (Nat.le_refl _))
  · rw [divUp_le hb]
    have := (divUp_le (Nat.mul_pos hb hc)).1 (Nat.le_refl (divUp (a * c) (b * c)))
    rw [← Nat.mul_assoc] at this
    exact Nat.le_of_mul_le_mul_right this hc

/-- Number of row groups with real rows. -/
def Cfg.NG (k : Cfg R) : Nat := divUp k.H k.maxV

theorem imcu_eq {k : Cfg R} (hk : k.Ok) {c : Nat} (hc : c < k.n) : k.imcuHeight c = k.g c * k.M := (hk.g c hc).2.symm

theorem NG_eq {k : Cfg R} (hk : k.Ok) {c : Nat} (hc : c < k.n) : k.NG = divUp (k.dh c) (k.g c) := by
  unfold Cfg.NG Cfg.H Cfg.dh
  have hg := (hk.g c hc).1
  rw [divUp_divUp hk.d hk.mv, divUp_divUp (Nat.mul_pos hk.mv hk.d) hg, ← (hk.g c hc).2, show k.ih * (k.g c * k.M) = k.ih * k.M * k.g c by ring, Nat.mul_comm (k.g c) (k.maxV * k.D), divUp_mul (Nat.mul_pos hk.mv hk.d) hg]

theorem lt_total {k : Cfg R} (hk : k.Ok) {c x : Nat} (hc : c < k.n) : x < k.total ↔ x * (k.g c * k.M) < k.dh c := by
  have hp : 0 < k.g c * k.M := Nat.mul_pos (hk.g c hc).1 hk.m
  unfold Cfg.total Cfg.dh
  rw [lt_divUp (Nat.mul_pos hk.mv hk.d), lt_divUp (Nat.mul_pos hk.mv hk.d), ← (hk.g c hc).2]
  rw [show x * (k.g c * k.M) * (k.maxV * k.D) = x * (k.maxV * k.D) * (k.g c * k.M) by ring]
  exact (Nat.mul_lt_mul_right hp).symm

theorem total_pos {k : Cfg R} (hk : k.Ok) : 0 < k.total := by
  unfold Cfg.total
  rw [lt_divUp (Nat.mul_pos hk.mv hk.d)]
  simpa using hk.ih

theorem H_le {k : Cfg R} (hk : k.Ok) : k.H ≤ k.NG * k.maxV := (divUp_le hk.mv).1 (Nat.le_refl _)

theorem lt_NG {k : Cfg R} (hk : k.Ok) {t : Nat} (h : t < k.H) : t / k.maxV < k.NG := by
  unfold Cfg.NG
  rw [lt_divUp hk.mv]
  exact Nat.lt_of_le_of_lt (Nat.div_mul_le_self _ _) h

theorem rowsLeft_eq {k : Cfg R} (hk : k.Ok) {c : Nat} (hc : c < k.n) : (k.total - 1) * (k.g c * k.M) + k.rowsLeft c = k.dh c ∧ 0 < k.rowsLeft c ∧ k.rowsLeft c ≤ k.g c * k.M := by
  have hp : 0 < k.g c * k.M := Nat.mul_pos (hk.g c hc).1 hk.m
  have ht := total_pos hk
  have h1 := (lt_total hk (x := k.total - 1) hc).1 (by omega)
  have h2 : ¬ k.total * (k.g c * k.M) < k.dh c := by rw [← lt_total hk hc]; omega
  have h3 : k.total * (k.g c * k.M) = (k.total - 1) * (k.g c * k.M) + k.g c * k.M := by
    rw [← Nat.succ_mul, Nat.succ_eq_add_one, Nat.sub_add_cancel ht]
  unfold Cfg.rowsLeft
  rw [imcu_eq hk hc]
  generalize hP : k.g c * k.M = P at *
  generalize hT : k.total - 1 = T at *
  obtain ⟨e, he⟩ : ∃ e, k.dh c = T * P + e := ⟨k.dh c - T * P, by omega⟩
  rw [he]
  rw [show (T * P + e) % P = e % P by rw [Nat.mul_comm, Nat.mul_add_mod]]
  by_cases hee : e = P
  · subst hee; simp; omega
  · rw [Nat.mod_eq_of_lt (by omega : e < P)]
    rw [if_neg (by omega)]; omega

/-- rowgroups_avail at the bottom, the same for every component. -/
theorem bottomAvail_eq {k : Cfg R} (hk : k.Ok) {c : Nat} (hc : c < k.n) :
    (k.total - 1) * k.M + k.bottomAvail = k.NG ∧ k.bottomAvail * k.g c < k.rowsLeft c + k.g c ∧ k.rowsLeft c ≤ k.bottomAvail * k.g c ∧ 0 < k.bottomAvail ∧ k.bottomAvail ≤ k.M := by
  have key : ∀ d, d < k.n → (k.total - 1) * k.M + ((k.rowsLeft d - 1) / k.g d + 1) = k.NG := by
    intro d hd
    obtain ⟨h1, h2, h3⟩ := rowsLeft_eq hk hd
    have hg := (hk.g d hd).1
    rw [NG_eq hk hd, ← h1]
    unfold divUp
    rw [show (k.total - 1) * (k.g d * k.M) = (k.total - 1) * k.M * k.g d by ring]
    rw [show (k.total - 1) * k.M * k.g d + k.rowsLeft d + k.g d - 1 = (k.rowsLeft d - 1) + ((k.total - 1) * k.M + 1) * k.g d by rw [Nat.succ_mul]; omega]
    rw [Nat.add_mul_div_right _ _ hg]
    omega
  have hb : k.bottomAvail = (k.rowsLeft 0 - 1) / k.g 0 + 1 := by
    unfold Cfg.bottomAvail Cfg.g
    rfl
  have h0 := key 0 hk.n
  have hcc := key c hc
  obtain ⟨h1, h2, h3⟩ := rowsLeft_eq hk hc
  have hg := (hk.g c hc).1
  have hbc : k.bottomAvail = (k.rowsLeft c - 1) / k.g c + 1 := by omega
  have e1 := Nat.div_mul_le_self (k.rowsLeft c - 1) (k.g c)
  have e2 := Nat.lt_div_mul_add hg (a := k.rowsLeft c - 1)
  refine ⟨by rw [hb]; exact h0, ?_, ?_, by rw [hbc]; exact Nat.succ_pos _, ?_⟩
  · rw [hbc, Nat.succ_mul]; omega
  · rw [hbc, Nat.succ_mul]; omega
  · rw [hbc, Nat.succ_le_iff, Nat.div_lt_iff_lt_mul hg, Nat.mul_comm]
    omega

/-! ### loops -/

theorem loop_inv {A : Type} {f : Nat → A → Option A} (P : Nat → A → Prop) : ∀ (n : Nat) (a : A), P 0 a → (∀ i x, i < n → P i x → ∃ y, f i x = some y ∧ P (i + 1) y) → ∃ y, loop f n a = some y ∧ P n y := by
  intro n
  induction n with
  | zero => intro a h _; exact ⟨a, rfl, h⟩
  | succ n ih =>
    intro a h hs
    obtain ⟨y, e1, e2⟩ := ih a h (fun i x hi => hs i x (by omega))
    obtain ⟨z, e3, e4⟩ := hs n y (by omega) e2
    exact ⟨z, by simp [loop, e1, e3], e4⟩

theorem forC_spec {k : Cfg R} {f : Nat → CSt R → Option (CSt R)} (Q : Nat → CSt R → Prop) (cs : Nat → CSt R) (h : ∀ c, c < k.n → ∃ y, f c (cs c) = some y ∧ Q c y) :
    ∃ cs', k.forC f cs = some cs' ∧ ∀ c, c < k.n → Q c (cs' c) := by
  obtain ⟨cs', e1, e2⟩ := loop_inv (f := fun c cs => do let y ← f c (cs c); pure (fun d => if d = c then y else cs d)) (fun i cs' => (∀ c, c < i → Q c (cs' c)) ∧ ∀ c, i ≤ c → cs' c = cs c) k.n cs
    ⟨fun c hc => by omega, fun c _ => rfl⟩ (by
      intro i x hi hx
      obtain ⟨y, e1, e2⟩ := h i hi
      refine ⟨fun d => if d = i then y else x d, by simp [hx.2 i (Nat.le_refl _), e1], ?_, ?_⟩
      · intro c hc
        by_cases hci : c = i
        · simp only [hci, if_true]; exact e2
        · simp only [hci, if_false]; exact hx.1 c (by omega)
      · intro c hc
        simp only [show c ≠ i by omega, if_false]
        exact hx.2 c (by omega))
  exact ⟨cs', e1, e2.1⟩

theorem mapM_some {A B : Type} {f : A → Option B} : ∀ (l : List A), (∀ a, a ∈ l → ∃ b, f a = some b) → ∃ m, l.mapM f = some m ∧ m.map some = l.map f := by
  intro l
  induction l with
  | nil => intro _; exact ⟨[], rfl, rfl⟩
  | cons a l ih =>
    intro h
    obtain ⟨b, e1⟩ := h a (by simp)
    obtain ⟨m, e2, e3⟩ := ih (fun x hx => h x (by simp [hx]))
    exact ⟨b :: m, by simp [List.mapM_cons, e1, e2], by simp [e1, e3]⟩

theorem mapM_congr {A B : Type} {f g : A → Option B} : ∀ (l : List A), (∀ a, a ∈ l → f a = g a) → l.mapM f = l.mapM g := by
  intro l
  induction l with
  | nil => intro _; rfl
  | cons a l ih =>
    intro h
    rw [List.mapM_cons, List.mapM_cons, h a (by simp), ih (fun x hx => h x (by simp [hx]))]

theorem readRows_spec {x : CSt R} {w : Nat} {f : Int → R} : ∀ (n : Nat) (i : Int), (∀ j : Nat, j < n → ∃ p, x.X w (i + j) = some p ∧ x.mem p = f (i + j)) → readRows x w n i = some ((List.range n).map (fun j : Nat => f (i + j))) := by
  intro n
  induction n with
  | zero => intro i _; rfl
  | succ n ih =>
    intro i h
    obtain ⟨p, e1, e2⟩ := h 0 (by omega)
    have := ih (i + 1) (fun j hj => by
      obtain ⟨p, e1, e2⟩ := h (j + 1) (by omega)
      have e : i + ((j + 1 : Nat) : Int) = i + 1 + j := by push_cast; ring
      rw [e] at e1 e2
      exact ⟨p, e1, e2⟩)
    rw [readRows]
    simp only [Int.natCast_zero, Int.add_zero, Nat.cast_zero] at e1 e2
    simp only [e1, this, Option.bind_eq_bind, Option.bind_some, List.range_succ_eq_map, List.map_cons, List.map_map, e2]
    congr 2
    · simp
    · apply List.map_congr_left
      intro j _
      simp only [Function.comp]
      congr 1; push_cast; ring

end Verif.Post
