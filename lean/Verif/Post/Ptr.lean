import Verif.Post.Up
/-
C44: the row pointer lists of the main controller.
-/
namespace Verif.Post
variable {R : Type}

/-- The workspace row at index j of list w in the normal state; P = rows in an iMCU row, g = rows in a group. -/
def pt (g P w : Nat) (j : Int) : Nat :=
  let r : Nat := (if j < 0 then j + (P + 2 * g : Nat) else if j < (P + 2 * g : Nat) then j else j - (P + 2 * g : Nat)).toNat
  if w = 0 then r else if r < P - 2 * g then r else if r < P then r + 2 * g else r - 2 * g

/-- The lists between the ends. -/
def Base (g P : Nat) (x : CSt R) : Prop := ∀ w, w < 2 → ∀ j : Int, 0 ≤ j → j < (P + 2 * g : Nat) → x.X w j = some (pt g P w j)
/-- The lists at the top of the image. -/
def Top (g P : Nat) (x : CSt R) : Prop := Base g P x ∧ ∀ j : Int, -(g : Int) ≤ j → j < 0 → x.X 0 j = some 0
/-- The lists in the normal state. -/
def Norm (g P : Nat) (x : CSt R) : Prop := ∀ w, w < 2 → ∀ j : Int, -(g : Int) ≤ j → j < (P + 3 * g : Nat) → x.X w j = some (pt g P w j)

theorem pt_lt {g P w : Nat} (h2 : 2 * g ≤ P) {j : Int} (h0 : -(g : Int) ≤ j) (h1 : j < (P + 3 * g : Nat)) : pt g P w j < P + 2 * g := by
  unfold pt
  simp only
  split_ifs <;> omega

theorem pt_inj {g P w : Nat} (h2 : 2 * g ≤ P) {i j : Int} (hi : 0 ≤ i) (hi' : i < (P + 2 * g : Nat)) (hj : 0 ≤ j) (hj' : j < (P + 2 * g : Nat)) (h : pt g P w i = pt g P w j) : i = j := by
  unfold pt at h
  simp only [if_neg (show ¬ i < 0 by omega), if_pos hi', if_neg (show ¬ j < 0 by omega), if_pos hj'] at h
  split_ifs at h <;> omega

/-- The last two groups of the first P entries of one list are the last two groups of the other. -/
theorem pt_swap {g P w : Nat} (hw : w < 2) (h2 : 2 * g ≤ P) {j : Int} (h0 : (P : Int) ≤ j) (h1 : j < (P + 2 * g : Nat)) : pt g P w j = pt g P (w ^^^ 1) (j - 2 * g) := by
  have : w = 0 ∨ w = 1 := by omega
  unfold pt
  simp only [if_neg (show ¬ j < 0 by omega), if_pos h1, if_neg (show ¬ j - 2 * (g : Int) < 0 by omega), if_pos (show j - 2 * (g : Int) < (P + 2 * g : Nat) by omega)]
  rcases this with rfl | rfl
  · simp only [show (0 ^^^ 1 : Nat) = 1 by rfl, if_true, show ¬ (1 : Nat) = 0 by omega, if_false]
    rw [if_neg (by omega), if_pos (by omega)]
    omega
  · simp only [show (1 ^^^ 1 : Nat) = 0 by rfl, if_true, show ¬ (1 : Nat) = 0 by omega, if_false]
    rw [if_neg (by omega), if_neg (by omega)]
    omega

theorem pt_neg {g P w : Nat} {j : Int} (h1 : j < 0) (h0 : -(g : Int) ≤ j) : pt g P w j = pt g P w (j + (P + 2 * g : Nat)) := by
  unfold pt
  simp only [if_pos h1, if_neg (show ¬ j + (P + 2 * g : Nat) < 0 by omega), if_pos (show j + (P + 2 * g : Nat) < (P + 2 * g : Nat) by omega)]

theorem pt_over {g P w : Nat} {j : Int} (h0 : ((P + 2 * g : Nat) : Int) ≤ j) (h1 : j < (P + 3 * g : Nat)) : pt g P w j = pt g P w (j - (P + 2 * g : Nat)) := by
  unfold pt
  simp only [if_neg (show ¬ j < 0 by omega), if_neg (show ¬ j < (P + 2 * g : Nat) by omega), if_neg (show ¬ j - (P + 2 * g : Nat) < 0 by omega), if_pos (show j - (P + 2 * g : Nat) < (P + 2 * g : Nat) by omega)]

theorem Norm.base {g P : Nat} {x : CSt R} (h : Norm g P x) : Base g P x := fun w hw j h0 h1 => h w hw j (by omega) (by omega)

theorem setPtr_ok {k : Cfg R} {c w : Nat} {i : Int} {p : Nat} {x : CSt R} (h0 : -(k.g c : Int) ≤ i) (h1 : i < (k.g c : Int) * (k.M + 3)) :
    k.setPtr c w i p x = some { x with X := fun w' j => if w' = w ∧ j = i then some p else x.X w' j } := if_pos ⟨h0, h1⟩

theorem phys_ok {k : Cfg R} {c : Nat} {i : Int} (h0 : 0 ≤ i) (h1 : i < (k.ngroups * k.g c : Nat)) : k.phys c i = some i.toNat := if_pos ⟨h0, h1⟩

section
variable {k : Cfg R} (hk : k.Ok) (hctx : k.context = true) {c : Nat} (hc : c < k.n)
include hk hctx hc

theorem sizes : 2 * k.g c ≤ k.g c * k.M ∧ (k.ngroups * k.g c : Nat) = k.g c * k.M + 2 * k.g c ∧ k.g c * (k.M + 2) = k.g c * k.M + 2 * k.g c := by
  refine ⟨?_, ?_, by ring⟩
  · rw [Nat.mul_comm]; exact Nat.mul_le_mul_left _ (hk.ctx hctx)
  · unfold Cfg.ngroups; rw [if_pos hctx]; ring

theorem funny1_ok (x : CSt R) : ∃ y, k.funny1 c x = some y ∧ y.mem = x.mem ∧ y.color = x.color ∧ ∀ w, w < 2 → ∀ j : Int, 0 ≤ j → j < (k.g c * k.M + 2 * k.g c : Nat) → y.X w j = some j.toNat := by
  obtain ⟨h2, hn, hm⟩ := sizes hk hctx hc
  have hb : (k.g c : Int) * (k.M + 3) = (k.g c * k.M + 3 * k.g c : Nat) := by push_cast; ring
  obtain ⟨y, e1, e2⟩ := loop_inv (f := fun i x => do
      let b ← k.phys c i
      let x ← k.setPtr c 1 i b x
      k.setPtr c 0 i b x) (fun i y => y.mem = x.mem ∧ y.color = x.color ∧ ∀ w, w < 2 → ∀ j : Int, 0 ≤ j → j < i → y.X w j = some j.toNat) (k.g c * (k.M + 2)) x ⟨rfl, rfl, fun w _ j h0 h1 => by omega⟩ (by
    intro i z hi hz
    have hi' : (i : Int) < (k.g c : Int) * (k.M + 3) := by rw [hb]; omega
    refine Exists.intro ?y (And.intro ?a ?b)
    case a =>
      simp only [phys_ok (k := k) (c := c) (i := (i : Int)) (by omega) (by rw [hn]; omega), Option.bind_eq_bind, Option.bind_some]
      rw [setPtr_ok (by omega) hi']
      simp only [Option.bind_some]
      rw [setPtr_ok (by omega) hi']
    case b =>
    refine ⟨hz.1, hz.2.1, ?_⟩
    intro w hw j h0 h1
    simp only
    by_cases hji : j = i
    · rcases (show w = 0 ∨ w = 1 by omega) with rfl | rfl <;> simp [hji]
    · simp only [hji, and_false, if_false]
      exact hz.2.2 w hw j h0 (by omega))
  refine ⟨y, e1, e2.1, e2.2.1, ?_⟩
  intro w hw j h0 h1
  exact e2.2.2 w hw j h0 (by rw [hm]; omega)

theorem funny2_ok (x : CSt R) (hx : ∀ w, w < 2 → ∀ j : Int, 0 ≤ j → j < (k.g c * k.M + 2 * k.g c : Nat) → x.X w j = some j.toNat) :
    ∃ y, k.funny2 c x = some y ∧ y.mem = x.mem ∧ y.color = x.color ∧ Base (k.g c) (k.g c * k.M) y := by
  obtain ⟨h2, hn, hm⟩ := sizes hk hctx hc
  have hb : (k.g c : Int) * (k.M + 3) = (k.g c * k.M + 3 * k.g c : Nat) := by push_cast; ring
  have hb2 : (k.g c : Int) * ((k.M : Int) - 2) = ((k.g c * k.M : Nat) : Int) - 2 * k.g c := by push_cast; ring
  have hb3 : (k.g c : Int) * k.M = ((k.g c * k.M : Nat) : Int) := by push_cast; ring
  generalize hP : k.g c * k.M = P at *
  obtain ⟨y, e1, e2⟩ := loop_inv (f := fun i x => do
      let b ← k.phys c ((k.g c : Int) * k.M + i)
      let x ← k.setPtr c 1 ((k.g c : Int) * ((k.M : Int) - 2) + i) b x
      let b ← k.phys c ((k.g c : Int) * ((k.M : Int) - 2) + i)
      k.setPtr c 1 ((k.g c : Int) * k.M + i) b x) (fun i y => y.mem = x.mem ∧ y.color = x.color ∧ (∀ j, y.X 0 j = x.X 0 j) ∧
        ∀ j : Int, 0 ≤ j → j < (P + 2 * k.g c : Nat) → y.X 1 j = if j < P - 2 * k.g c then some j.toNat else if j < P - 2 * k.g c + i then some (j + 2 * k.g c).toNat else if j < P then some j.toNat else if j < P + i then some (j - 2 * k.g c).toNat else some j.toNat)
      (k.g c * 2) x ⟨rfl, rfl, fun _ => rfl, fun j h0 h1 => by
        rw [hx 1 (by omega) j h0 h1]; split_ifs <;> first | rfl | omega⟩ (by
    intro i z hi hz
    obtain ⟨z1, z2, z3, z4⟩ := hz
    rw [hb2, hb3]
    refine Exists.intro ?y (And.intro ?a ?b)
    case a =>
      rw [phys_ok (k := k) (c := c) (i := (P : Int) + i) (by omega) (by rw [hn]; omega)]
      simp only [Option.bind_eq_bind, Option.bind_some]
      rw [setPtr_ok (by omega) (by rw [hb]; omega)]
      simp only [Option.bind_some]
      rw [phys_ok (k := k) (c := c) (i := (P : Int) - 2 * k.g c + i) (by omega) (by rw [hn]; omega)]
      simp only [Option.bind_some]
      rw [setPtr_ok (by omega) (by rw [hb]; omega)]
    case b =>
    refine ⟨z1, z2, ?_, ?_⟩
    · intro j
      simp only [show ¬ (0 : Nat) = 1 by omega, false_and, if_false]
      exact z3 j
    · intro j h0 h1
      simp only [true_and]
      rw [z4 j h0 h1]
      split_ifs <;> first | rfl | omega | (congr 1; omega))
  refine ⟨y, e1, e2.1, e2.2.1, ?_⟩
  intro w hw j h0 h1
  obtain ⟨_, _, e3, e4⟩ := e2
  unfold pt
  simp only [if_neg (show ¬ j < 0 by omega), if_pos h1]
  rcases (show w = 0 ∨ w = 1 by omega) with rfl | rfl
  · rw [e3, hx 0 (by omega) j h0 h1]; simp
  · rw [e4 j h0 h1]
    simp only [show ¬ (1 : Nat) = 0 by omega, if_false]
    split_ifs <;> first | rfl | omega | (congr 1; omega)

theorem funny3_ok (x : CSt R) (hx : Base (k.g c) (k.g c * k.M) x) : ∃ y, k.funny3 c x = some y ∧ y.mem = x.mem ∧ y.color = x.color ∧ Top (k.g c) (k.g c * k.M) y := by
  obtain ⟨h2, hn, hm⟩ := sizes hk hctx hc
  have hg := (hk.g c hc).1
  have hb : (k.g c : Int) * (k.M + 3) = (k.g c * k.M + 3 * k.g c : Nat) := by push_cast; ring
  generalize hP : k.g c * k.M = P at *
  obtain ⟨y, e1, e2⟩ := loop_inv (f := fun i x => do
      let p ← x.X 0 0
      k.setPtr c 0 ((i : Int) - k.g c) p x) (fun i y => y.mem = x.mem ∧ y.color = x.color ∧ (∀ w, w < 2 → ∀ j : Int, 0 ≤ j → j < (P + 2 * k.g c : Nat) → y.X w j = some (pt (k.g c) P w j)) ∧
        ∀ j : Int, -(k.g c : Int) ≤ j → j < i - k.g c → y.X 0 j = some 0) (k.g c) x ⟨rfl, rfl, hx, fun j h0 h1 => by omega⟩ (by
    intro i z hi hz
    obtain ⟨z1, z2, z3, z4⟩ := hz
    have hz0 : z.X 0 0 = some 0 := by
      rw [z3 0 (by omega) 0 (by omega) (by omega)]
      unfold pt
      simp
      split <;> omega
    refine Exists.intro ?y (And.intro ?a ?b)
    case a =>
      simp only [hz0, Option.bind_eq_bind, Option.bind_some]
      rw [setPtr_ok (by omega) (by rw [hb]; omega)]
    case b =>
    refine ⟨z1, z2, ?_, ?_⟩
    · intro w hw j h0 h1
      simp only [show ¬ (j = (i : Int) - k.g c) by omega, and_false, if_false]
      exact z3 w hw j h0 h1
    · intro j h0 h1
      simp only [true_and]
      split_ifs
      · rfl
      · exact z4 j h0 (by omega))
  exact ⟨y, e1, e2.1, e2.2.1, e2.2.2.1, fun j h0 h1 => e2.2.2.2 j h0 (by omega)⟩

theorem makeFunny_ok (x : CSt R) : ∃ y, k.makeFunny c x = some y ∧ y.mem = x.mem ∧ y.color = x.color ∧ Top (k.g c) (k.g c * k.M) y := by
  obtain ⟨y1, e1, m1, c1, p1⟩ := funny1_ok hk hctx hc x
  obtain ⟨y2, e2, m2, c2, p2⟩ := funny2_ok hk hctx hc y1 p1
  obtain ⟨y3, e3, m3, c3, p3⟩ := funny3_ok hk hctx hc y2 p2
  exact ⟨y3, by unfold Cfg.makeFunny; simp only [e1, e2, e3, Option.bind_eq_bind, Option.bind_some], by rw [m3, m2, m1], by rw [c3, c2, c1], p3⟩

theorem setWrap_ok (x : CSt R) (hx : Base (k.g c) (k.g c * k.M) x) : ∃ y, k.setWrap c x = some y ∧ y.mem = x.mem ∧ y.color = x.color ∧ Norm (k.g c) (k.g c * k.M) y := by
  obtain ⟨h2, hn, hm⟩ := sizes hk hctx hc
  have hg := (hk.g c hc).1
  have hb : (k.g c : Int) * (k.M + 3) = (k.g c * k.M + 3 * k.g c : Nat) := by push_cast; ring
  have hb1 : (k.g c : Int) * (k.M + 1) = (k.g c * k.M + k.g c : Nat) := by push_cast; ring
  have hb2 : (k.g c : Int) * (k.M + 2) = (k.g c * k.M + 2 * k.g c : Nat) := by push_cast; ring
  generalize hP : k.g c * k.M = P at *
  obtain ⟨y, e1, e2⟩ := loop_inv (f := fun i x => do
      let p ← x.X 0 ((k.g c : Int) * (k.M + 1) + i)
      let x ← k.setPtr c 0 ((i : Int) - k.g c) p x
      let p ← x.X 1 ((k.g c : Int) * (k.M + 1) + i)
      let x ← k.setPtr c 1 ((i : Int) - k.g c) p x
      let p ← x.X 0 i
      let x ← k.setPtr c 0 ((k.g c : Int) * (k.M + 2) + i) p x
      let p ← x.X 1 i
      k.setPtr c 1 ((k.g c : Int) * (k.M + 2) + i) p x) (fun i y => y.mem = x.mem ∧ y.color = x.color ∧ (∀ w, w < 2 → ∀ j : Int, 0 ≤ j → j < (P + 2 * k.g c : Nat) → y.X w j = some (pt (k.g c) P w j)) ∧
        (∀ w, w < 2 → ∀ j : Int, -(k.g c : Int) ≤ j → j < i - k.g c → y.X w j = some (pt (k.g c) P w j)) ∧
        ∀ w, w < 2 → ∀ j : Int, ((P + 2 * k.g c : Nat) : Int) ≤ j → j < (P + 2 * k.g c : Nat) + i → y.X w j = some (pt (k.g c) P w j)) (k.g c) x
      ⟨rfl, rfl, hx, fun w _ j h0 h1 => by omega, fun w _ j h0 h1 => by omega⟩ (by
    intro i z hi hz
    obtain ⟨z1, z2, z3, z4, z5⟩ := hz
    rw [hb1, hb2]
    refine Exists.intro ?y (And.intro ?a ?b)
    case a =>
      rw [z3 0 (by omega) (((P + k.g c : Nat) : Int) + i) (by omega) (by omega)]
      simp only [Option.bind_eq_bind, Option.bind_some]
      rw [setPtr_ok (by omega) (by rw [hb]; omega)]
      simp only [Option.bind_some, show ¬ (1 : Nat) = 0 by omega, false_and, if_false]
      rw [z3 1 (by omega) (((P + k.g c : Nat) : Int) + i) (by omega) (by omega)]
      simp only [Option.bind_some]
      rw [setPtr_ok (by omega) (by rw [hb]; omega)]
      simp only [Option.bind_some, show ¬ (0 : Nat) = 1 by omega, show ¬ ((i : Int) = i - k.g c) by omega, and_false, false_and, if_false]
      rw [z3 0 (by omega) (i : Int) (by omega) (by omega)]
      simp only [Option.bind_some]
      rw [setPtr_ok (by omega) (by rw [hb]; omega)]
      simp only [Option.bind_some, show ¬ (1 : Nat) = 0 by omega, show ¬ ((i : Int) = i - k.g c) by omega, and_false, false_and, if_false]
      rw [z3 1 (by omega) (i : Int) (by omega) (by omega)]
      simp only [Option.bind_some]
      rw [setPtr_ok (by omega) (by rw [hb]; omega)]
    case b =>
    refine ⟨z1, z2, ?_, ?_, ?_⟩
    · intro w hw j h0 h1
      simp only [show ¬ (j = (i : Int) - k.g c) by omega, show ¬ (j = ((P + 2 * k.g c : Nat) : Int) + i) by omega, and_false, if_false]
      exact z3 w hw j h0 h1
    · intro w hw j h0 h1
      simp only [show ¬ (j = ((P + 2 * k.g c : Nat) : Int) + i) by omega, and_false, if_false]
      by_cases hj : j = (i : Int) - k.g c
      · have hp : ∀ w, pt (k.g c) P w ((i : Int) - k.g c) = pt (k.g c) P w (((P + k.g c : Nat) : Int) + i) := by
          intro w
          rw [pt_neg (by omega) (by omega)]
          congr 1; omega
        rcases (show w = 0 ∨ w = 1 by omega) with rfl | rfl
        · simp [hj, hp]
        · simp [hj, hp]
      · simp only [hj, and_false, if_false]
        exact z4 w hw j h0 (by omega)
    · intro w hw j h0 h1
      by_cases hj : j = ((P + 2 * k.g c : Nat) : Int) + i
      · have hp : ∀ w, pt (k.g c) P w (((P + 2 * k.g c : Nat) : Int) + i) = pt (k.g c) P w i := by
          intro w
          rw [pt_over (by omega) (by omega)]
          congr 1; omega
        rcases (show w = 0 ∨ w = 1 by omega) with rfl | rfl
        · simp only [hj, hp, show ¬ (0 : Nat) = 1 by omega, false_and, if_false, true_and, and_self, if_true]
        · simp only [hj, hp, and_self, if_true]
      · simp only [hj, show ¬ (j = (i : Int) - k.g c) by omega, and_false, if_false]
        exact z5 w hw j h0 (by omega))
  obtain ⟨e3, e4, a, b, d⟩ := e2
  refine ⟨y, e1, e3, e4, ?_⟩
  intro w hw j h0 h1
  by_cases hj0 : j < 0
  · exact b w hw j h0 (by omega)
  · by_cases hj1 : j < (P + 2 * k.g c : Nat)
    · exact a w hw j (by omega) hj1
    · exact d w hw j (by omega) (by omega)

theorem setBottom_ok {w : Nat} (x : CSt R) (hx : ∃ p, x.X w ((k.rowsLeft c : Int) - 1) = some p) :
    ∃ y, k.setBottom w c x = some y ∧ y.mem = x.mem ∧ y.color = x.color ∧
      ∀ j : Int, y.X w j = if (k.rowsLeft c : Int) ≤ j ∧ j < (k.rowsLeft c + 2 * k.g c : Nat) then x.X w ((k.rowsLeft c : Int) - 1) else x.X w j := by
  obtain ⟨h2, hn, hm⟩ := sizes hk hctx hc
  obtain ⟨_, hr1, hr2⟩ := rowsLeft_eq hk hc
  have hb : (k.g c : Int) * (k.M + 3) = (k.g c * k.M + 3 * k.g c : Nat) := by push_cast; ring
  have hgM : k.imcuHeight c / k.M = k.g c := rfl
  generalize hP : k.g c * k.M = P at *
  obtain ⟨p, hp⟩ := hx
  obtain ⟨y, e1, e2⟩ := loop_inv (f := fun i x => do
      let p ← x.X w ((k.rowsLeft c : Int) - 1)
      k.setPtr c w ((k.rowsLeft c : Int) + i) p x) (fun i y => y.mem = x.mem ∧ y.color = x.color ∧
        ∀ j : Int, y.X w j = if (k.rowsLeft c : Int) ≤ j ∧ j < (k.rowsLeft c + i : Nat) then some p else x.X w j) (k.imcuHeight c / k.M * 2) x
      ⟨rfl, rfl, fun j => by rw [if_neg (by omega)]⟩ (by
    intro i z hi hz
    obtain ⟨z1, z2, z3⟩ := hz
    rw [hgM] at hi
    have hz0 : z.X w ((k.rowsLeft c : Int) - 1) = some p := by rw [z3, if_neg (by omega)]; exact hp
    refine Exists.intro ?y (And.intro ?a ?b)
    case a =>
      simp only [hz0, Option.bind_eq_bind, Option.bind_some]
      rw [setPtr_ok (by omega) (by rw [hb]; omega)]
    case b =>
    refine ⟨z1, z2, ?_⟩
    intro j
    simp only [true_and]
    rw [z3 j]
    split_ifs <;> first | rfl | omega)
  refine ⟨y, e1, e2.1, e2.2.1, ?_⟩
  intro j
  rw [e2.2.2 j, hp, hgM, Nat.mul_comm]

/-- Storing an iMCU row through list w. -/
theorem store_ok {src : Nat → Nat → R} {w row : Nat} (hw : w < 2) (x : CSt R) (hx : ∀ j : Int, 0 ≤ j → j < (k.g c * k.M : Nat) → x.X w j = some (pt (k.g c) (k.g c * k.M) w j)) :
    ∃ y, k.store src w row c x = some y ∧ y.X = x.X ∧ y.color = x.color ∧ (∀ j : Nat, j < k.g c * k.M → y.mem (pt (k.g c) (k.g c * k.M) w j) = src c (row * (k.g c * k.M) + j)) ∧
      ∀ j : Int, ((k.g c * k.M : Nat) : Int) ≤ j → j < (k.g c * k.M + 2 * k.g c : Nat) → y.mem (pt (k.g c) (k.g c * k.M) w j) = x.mem (pt (k.g c) (k.g c * k.M) w j) := by
  obtain ⟨h2, hn, hm⟩ := sizes hk hctx hc
  have hi := imcu_eq hk hc
  generalize hP : k.g c * k.M = P at *
  obtain ⟨y, e1, e2⟩ := loop_inv (f := fun i x => do
      let p ← x.X w i
      if p < k.ngroups * k.g c then
        pure { x with mem := fun q => if q = p then src c (row * k.imcuHeight c + i) else x.mem q }
      else none) (fun i y => y.X = x.X ∧ y.color = x.color ∧ (∀ j : Nat, j < i → y.mem (pt (k.g c) P w j) = src c (row * P + j)) ∧
        ∀ j : Int, (P : Int) ≤ j → j < (P + 2 * k.g c : Nat) → y.mem (pt (k.g c) P w j) = x.mem (pt (k.g c) P w j)) (k.imcuHeight c) x
      ⟨rfl, rfl, fun j h => by omega, fun j _ _ => rfl⟩ (by
    intro i z hi' hz
    obtain ⟨z1, z2, z3, z4⟩ := hz
    have hpt : pt (k.g c) P w i < k.ngroups * k.g c := by rw [hn]; exact pt_lt h2 (by omega) (by omega)
    refine ⟨{ z with mem := fun q => if q = pt (k.g c) P w i then src c (row * k.imcuHeight c + i) else z.mem q }, by
      rw [z1, hx i (by omega) (by omega)]
      simp only [Option.bind_eq_bind, Option.bind_some, if_pos hpt]
      rfl, z1, z2, ?_, ?_⟩
    · intro j hj
      simp only
      by_cases hji : j = i
      · subst hji; rw [if_pos rfl, hi]
      · rw [if_neg (fun h => by have := pt_inj h2 (by omega) (by omega) (by omega) (by omega) h; omega)]
        exact z3 j (by omega)
    · intro j h0 h1
      simp only
      rw [if_neg (fun h => by have := pt_inj h2 (by omega) (by omega) (by omega) (by omega) h; omega)]
      exact z4 j h0 h1)
  refine ⟨y, e1, e2.1, e2.2.1, ?_, e2.2.2.2⟩
  intro j hj
  exact e2.2.2.1 j (by rw [hi]; exact hj)

end
end Verif.Post
