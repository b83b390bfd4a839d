import Verif.Quant1.Rows
/-
The row functions with ordered dithering.
-/
namespace Verif.Quant1
open Verif.Color (castSample)

/-- Ordered dithering: the sample plus the offset of its place in the 16x16 matrix, limited to the sample range. -/
def ordWant (k : Cfg) (ns : List Nat) (row : Nat) (inp : List Nat) (x i : Nat) : Nat :=
  clampTo k.max ((samp k inp x i : Int) + offset k.max (ns.getD i 1) row x)

theorem ordWant_le (k : Cfg) (ns : List Nat) (row : Nat) (inp : List Nat) (x i : Nat) :
    ordWant k ns row inp x i ≤ k.max := clampTo_le _ _

theorem offset_le {M y x n : Nat} (hn : 2 ≤ n) : -(M : Int) ≤ offset M n y x ∧ offset M n y x ≤ M := by
  have h := offset_bound M y x hn
  have h1 : (1 : Int) ≤ (n : Int) - 1 := by omega
  generalize (n : Int) - 1 = m at *
  have h0 := abs_nonneg (offset M n y x)
  have : |offset M n y x| ≤ M := by nlinarith
  exact abs_le.1 this

theorem offset_mod (M n y x : Nat) : offset M n y x = offset M n (y % 16) (x % 16) := by
  unfold offset; simp

theorem ord_read {k : Cfg} {q : Q} (h : Static k q) (hp : q.padded = true) {od : List (List (List Int))}
    (ho : q.odither = some od) (hri : q.rowIndex < 16) {inp : List Nat} (hr : RowOk k inp) {i : Nat} (hi : i < k.nc) :
    ∃ t m r, q.colorindex[i]? = some t ∧ od[i]? = some m ∧ m[q.rowIndex]? = some r ∧
      ∀ x, x < k.width → ∃ d, r[x % 16]? = some d ∧
        t.get? ((samp k inp x i : Int) + d) = some (pick k.max (q.ncolors.getD i 1)
          (ordWant k q.ncolors q.rowIndex inp x i) * blk q.ncolors i) := by
  obtain ⟨t, t1, _, t3⟩ := h.read hi
  obtain ⟨m, m1, m2⟩ := h.dith od ho i hi
  obtain ⟨r, r1, r2⟩ := m2 q.rowIndex hri
  refine ⟨t, m, r, t1, m1, r1, fun x hx => ?_⟩
  refine ⟨_, r2 (x % 16) (Nat.mod_lt _ (by omega)), ?_⟩
  have e : offset k.max (q.ncolors.getD i 1) q.rowIndex (x % 16) = offset k.max (q.ncolors.getD i 1) q.rowIndex x := by
    rw [offset_mod k.max _ _ x, offset_mod k.max _ _ (x % 16)]; simp
  rw [e]
  have hs := (hr.get hx hi).2
  obtain ⟨o1, o2⟩ := offset_le (M := k.max) (y := q.rowIndex) (x := x) (h.n_bound hi).1
  rw [t3 hp _ (by omega) (by omega)]
  rfl

theorem rowOrd_spec {k : Cfg} {q : Q} (h : Static k q) (hp : q.padded = true) {od : List (List (List Int))}
    (ho : q.odither = some od) (hri : q.rowIndex < 16) {inp : List Nat} (hr : RowOk k inp) :
    ∃ out, rowOrd k q inp = some out ∧ Coded k q.ncolors k.nc (ordWant k q.ncolors q.rowIndex inp) out := by
  unfold rowOrd
  rw [ho]
  simp only [Option.bind_eq_bind, Option.bind_some]
  refine forN_inv (fun ci out => Coded k q.ncolors ci (ordWant k q.ncolors q.rowIndex inp) out) k.nc
    (List.replicate k.width 0) ⟨by simp, fun x hx => by simp [hx, codeOf]⟩ ?_
  rintro ci out hci ⟨h1, h2⟩
  obtain ⟨t, m, r, t1, m1, r1, hx⟩ := ord_read h hp ho hri hr hci
  rw [t1, m1]
  simp only [Option.bind_some]
  rw [r1]
  simp only [Option.bind_some]
  obtain ⟨y, e1, e2, e3, e4, e5⟩ := forN_inv (f := fun col (s : Int × Nat × List Nat) =>
      (rd inp s.1).bind fun v => (r[s.2.1]?).bind fun d => (t.get? ((v : Int) + d)).bind fun e =>
      (rd s.2.2 (col : Int)).bind fun o =>
      (wr s.2.2 (col : Int) (castSample k.c ((o + e : Nat) : Int))).bind fun out =>
      (pure (s.1 + (k.nc : Int), (s.2.1 + 1) % 16, out) : Option (Int × Nat × List Nat)))
    (fun col (s : Int × Nat × List Nat) => s.1 = ((col * k.nc + ci : Nat) : Int) ∧ s.2.1 = col % 16 ∧
      s.2.2.length = k.width ∧
      ∀ x, x < k.width → s.2.2[x]? = some (codeOf q.ncolors
        (levels k q.ncolors (ordWant k q.ncolors q.rowIndex inp x)) (if x < col then ci + 1 else ci)))
    k.width ((ci : Int), 0, out) ⟨by simp, rfl, h1, fun x hx => by rw [if_neg (by omega)]; exact h2 x hx⟩ (by
      rintro col ⟨p, ix, o⟩ hcol ⟨g1, g2, g3, g4⟩
      dsimp only at g1 g2 g3 g4 ⊢
      have hlt : col < o.length := by omega
      obtain ⟨v1, v2⟩ := hr.get hcol hci
      obtain ⟨d, d1, d2⟩ := hx col hcol
      refine ⟨(((col + 1) * k.nc + ci : Nat), (col + 1) % 16, o.set col (codeOf q.ncolors
        (levels k q.ncolors (ordWant k q.ncolors q.rowIndex inp col)) (ci + 1))), ?_, rfl, rfl, by simp [g3], ?_⟩
      · rw [g1, rd_nat, v1]
        simp only [Option.bind_some]
        rw [g2, d1]
        simp only [Option.bind_some]
        rw [d2]
        simp only [Option.bind_some]
        rw [rd_nat, g4 col hcol, if_neg (by omega)]
        simp only [Option.bind_some]
        have hc := h.cast (want := ordWant k q.ncolors q.rowIndex inp col) (fun i _ => ordWant_le _ _ _ _ _ _)
          (show ci + 1 ≤ k.nc by omega)
        have hcode : codeOf q.ncolors (levels k q.ncolors (ordWant k q.ncolors q.rowIndex inp col)) ci +
            pick k.max (q.ncolors.getD ci 1) (ordWant k q.ncolors q.rowIndex inp col ci) * blk q.ncolors ci =
            codeOf q.ncolors (levels k q.ncolors (ordWant k q.ncolors q.rowIndex inp col)) (ci + 1) := rfl
        rw [hcode, hc, wr_nat hlt]
        simp only [Option.bind_some]
        congr 2
        · push_cast; ring
        · congr 1; omega
      · intro x hx'
        dsimp only
        rw [get_set hlt]
        by_cases he : x = col
        · rw [if_pos he, he, if_pos (by omega)]
        · rw [if_neg he, g4 x hx']
          by_cases hl : x < col
          · rw [if_pos hl, if_pos (by omega)]
          · rw [if_neg hl, if_neg (by omega)])
  obtain ⟨p, ix, o⟩ := y
  refine ⟨o, by rw [e1]; rfl, e4, fun x hx' => ?_⟩
  have := e5 x hx'
  rw [if_pos hx'] at this
  exact this

theorem rowOrd3_spec {k : Cfg} {q : Q} (h : Static k q) (h3 : k.nc = 3) (hp : q.padded = true)
    {od : List (List (List Int))} (ho : q.odither = some od) (hri : q.rowIndex < 16) {inp : List Nat}
    (hr : RowOk k inp) :
    ∃ out, rowOrd3 k q inp = some out ∧ Coded k q.ncolors k.nc (ordWant k q.ncolors q.rowIndex inp) out := by
  obtain ⟨t0, m0, r0, a1, a2, a3, a4⟩ := ord_read h hp ho hri hr (i := 0) (by omega)
  obtain ⟨t1, m1, r1, b1, b2, b3, b4⟩ := ord_read h hp ho hri hr (i := 1) (by omega)
  obtain ⟨t2, m2, r2, d1, d2, d3, d4⟩ := ord_read h hp ho hri hr (i := 2) (by omega)
  obtain ⟨y, e1, e2, e3, e4, e5⟩ := forN_inv (f := ord3Pixel k t0 t1 t2 r0 r1 r2 inp)
    (fun col (s : Int × Nat × List Nat) => s.1 = ((col * k.nc : Nat) : Int) ∧ s.2.1 = col % 16 ∧
      s.2.2.length = k.width ∧
      ∀ x, x < col → s.2.2[x]? = some (codeOf q.ncolors
        (levels k q.ncolors (ordWant k q.ncolors q.rowIndex inp x)) k.nc))
    k.width (0, 0, List.replicate k.width k.junk) ⟨by simp, rfl, by simp, fun x hx => by omega⟩ (by
      rintro col ⟨p, ix, out⟩ hcol ⟨h1, h2, h4, h5⟩
      dsimp only at h1 h2 h4 h5 ⊢
      have hlt : col < out.length := by omega
      obtain ⟨v0, _⟩ := hr.get hcol (i := 0) (by omega)
      obtain ⟨v1, _⟩ := hr.get hcol (i := 1) (by omega)
      obtain ⟨v2, _⟩ := hr.get hcol (i := 2) (by omega)
      obtain ⟨x0, p0, q0⟩ := a4 col hcol
      obtain ⟨x1, p1, q1⟩ := b4 col hcol
      obtain ⟨x2, p2, q2⟩ := d4 col hcol
      refine ⟨(((col + 1) * k.nc : Nat), (col + 1) % 16, out.set col (codeOf q.ncolors (levels k q.ncolors
        (ordWant k q.ncolors q.rowIndex inp col)) k.nc)), ?_, rfl, rfl, by simp [h4], ?_⟩
      · have z1 : ((col * k.nc : Nat) : Int) + 1 = ((col * k.nc + 1 : Nat) : Int) := by push_cast; ring
        have z2 : ((col * k.nc : Nat) : Int) + 2 = ((col * k.nc + 2 : Nat) : Int) := by push_cast; ring
        rw [Nat.add_zero] at v0
        subst h1; subst h2
        unfold ord3Pixel
        dsimp only
        rw [z1, z2, rd_nat, rd_nat, rd_nat, v0, v1, v2, p0, p1, p2]
        simp only [Option.bind_eq_bind, Option.bind_some]
        rw [q0]
        simp only [Option.bind_some]
        rw [q1]
        simp only [Option.bind_some]
        rw [q2]
        simp only [Option.bind_some]
        have hcast := h.cast (want := ordWant k q.ncolors q.rowIndex inp col) (fun i _ => ordWant_le _ _ _ _ _ _)
          (le_refl k.nc)
        have hcode : codeOf q.ncolors (levels k q.ncolors (ordWant k q.ncolors q.rowIndex inp col)) k.nc =
            pick k.max (q.ncolors.getD 0 1) (ordWant k q.ncolors q.rowIndex inp col 0) * blk q.ncolors 0 +
            pick k.max (q.ncolors.getD 1 1) (ordWant k q.ncolors q.rowIndex inp col 1) * blk q.ncolors 1 +
            pick k.max (q.ncolors.getD 2 1) (ordWant k q.ncolors q.rowIndex inp col 2) * blk q.ncolors 2 := by
          rw [h3, codeOf_three]; rfl
        rw [← hcode, hcast, wr_nat hlt]
        simp only [Option.bind_some]
        congr 2
        · rw [h3]; push_cast; ring
        · congr 1; omega
      · intro x hx
        dsimp only
        rw [get_set hlt]
        by_cases he : x = col
        · rw [if_pos he, he]
        · rw [if_neg he]; exact h5 x (by omega))
  obtain ⟨p, ix, out⟩ := y
  refine ⟨out, ?_, e4, e5⟩
  simp [rowOrd3, ho, a1, a2, a3, b1, b2, b3, d1, d2, d3, e1]

end Verif.Quant1
