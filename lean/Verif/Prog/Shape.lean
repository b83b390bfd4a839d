import Verif.Prog.ACRefine2
/-
The calls made by the progressive encoder: the encoder never fails on coefficients in range, and which symbols and
bit counts it uses.
-/
namespace Verif.Prog
open Verif Verif.Huff

variable {σ ι : Type}

/-- Bit counts 1..16; symbols of a table among `tbls` that meet `Q`. -/
def TokShape (tbls : List Nat) (Q : Nat → Prop) : Tok → Prop
  | .sym t s => t ∈ tbls ∧ Q s
  | .bits _ n => 1 ≤ n ∧ n ≤ 16
  | .rst _ => True

/-- Symbols of AC scans: run 0..15 in the high nibble, at most 14 in the low one. -/
def ACSym (s : Nat) : Prop := s < 256 ∧ s % 16 ≤ 14

theorem acSym_mk {r n : Nat} (hr : r ≤ 15) (hn : n ≤ 14) : ACSym ((r <<< 4) + n) := by
  unfold ACSym
  rw [Nat.shiftLeft_eq]
  omega

theorem acSym_eob {n : Nat} (hn : n ≤ 15) : ACSym (n <<< 4) := by
  have := acSym_mk (r := n) (n := 0) hn (by omega)
  simpa using this

/-- A scan whose steps all succeed within an invariant succeeds. -/
theorem encGo_total (E : PEnc σ ι) (P : σ → Prop) (h0 : P E.init) (hfin : ∀ s, P s → ∃ t, E.fin s = some t)
    (ri : Nat) (ms : List ι) (hstep : ∀ m ∈ ms, ∀ s, P s → ∃ t s', E.step s m = some (t, s') ∧ P s')
    {s : σ} (hs : P s) (togo rst : Nat) : ∃ ts, encGo E ri ms s togo rst = some ts := by
  induction ms generalizing s togo rst with
  | nil => exact hfin s hs
  | cons m ms ih =>
    have ih := @ih (fun m hm => hstep m (by simp [hm]))
    simp only [encGo]
    split
    · obtain ⟨t0, e0⟩ := hfin s hs
      obtain ⟨t1, s1, e1, h1⟩ := hstep m (by simp) _ h0
      obtain ⟨t2, e2⟩ := ih h1 (ri - 1) ((rst + 1) &&& 7)
      rw [e0, e1]
      dsimp only
      rw [e2]
      exact ⟨_, rfl⟩
    · obtain ⟨t1, s1, e1, h1⟩ := hstep m (by simp) _ hs
      obtain ⟨t2, e2⟩ := ih h1 (if ri ≠ 0 then togo - 1 else togo) rst
      rw [e1]
      dsimp only
      rw [e2]
      exact ⟨_, rfl⟩

/-- A property of the calls of every step holds of all the calls of the scan. -/
theorem encGo_all (E : PEnc σ ι) (R : Tok → Prop) (hr : ∀ n, R (.rst n))
    (hfin : ∀ s t, E.fin s = some t → ∀ y ∈ t, R y)
    (ri : Nat) (ms : List ι) (hstep : ∀ m ∈ ms, ∀ s t s', E.step s m = some (t, s') → ∀ y ∈ t, R y)
    {s : σ} {togo rst : Nat} {ts : List Tok} (h : encGo E ri ms s togo rst = some ts) : ∀ y ∈ ts, R y := by
  induction ms generalizing s togo rst ts with
  | nil => exact hfin s ts h
  | cons m ms ih =>
    have ih := @ih (fun m hm => hstep m (by simp [hm]))
    simp only [encGo] at h
    split at h
    · split at h
      · simp at h
      rename_i t0 e0
      split at h
      · simp at h
      rename_i t1 s1 e1
      split at h
      · simp at h
      rename_i t2 e2
      simp only [Option.some.injEq] at h
      subst h
      intro y hy
      simp only [List.mem_append, List.mem_singleton] at hy
      rcases hy with ((hy | rfl) | hy) | hy
      · exact hfin _ _ e0 y hy
      · exact hr _
      · exact hstep m (by simp) _ _ _ e1 y hy
      · exact ih e2 y hy
    · split at h
      · simp at h
      rename_i t1 s1 e1
      split at h
      · simp at h
      rename_i t2 e2
      simp only [Option.some.injEq] at h
      subst h
      intro y hy
      rcases List.mem_append.1 hy with hy | hy
      · exact hstep m (by simp) _ _ _ e1 y hy
      · exact ih e2 y hy

/-! ### DC scans -/

theorem shiftR_range {v b : Int} (Al : Nat) (hb : 0 < b) (h : -b ≤ v ∧ v < b) : -b ≤ v >>> Al ∧ v >>> Al < b := by
  rw [Int.shiftRight_eq_div_pow, two_pow_cast]
  have hp : (0 : Int) < 2 ^ Al := by rw [← two_pow_cast]; exact_mod_cast Nat.two_pow_pos Al
  have h1 : (1 : Int) ≤ 2 ^ Al := hp
  constructor
  · rw [Int.le_ediv_iff_mul_le hp]
    have : b * 1 ≤ b * 2 ^ Al := Int.mul_le_mul_of_nonneg_left h1 (Int.le_of_lt hb)
    rw [Int.neg_mul]
    omega
  · apply Int.ediv_lt_of_lt_mul hp
    have : b * 1 ≤ b * 2 ^ Al := Int.mul_le_mul_of_nonneg_left h1 (Int.le_of_lt hb)
    omega

def LastOk (prec : Nat) (last : Nat → Int) : Prop :=
  ∀ i, -(2 ^ (prec + 2) : Int) ≤ last i ∧ last i < (2 ^ (prec + 2) : Int)

theorem dcFirst_total {prec Al : Nat} (bs : List DCB) (mcu : List (List Int)) {last : Nat → Int}
    (hr : ∀ blk ∈ mcu, InRange prec blk) (hl : LastOk prec last) :
    ∃ t last', dcFirstBlks prec Al bs mcu last = some (t, last') ∧ LastOk prec last' := by
  induction bs generalizing mcu last with
  | nil => exact ⟨[], last, by simp [dcFirstBlks], hl⟩
  | cons b bs ih =>
    cases mcu with
    | nil => exact ⟨[], last, by simp [dcFirstBlks], hl⟩
    | cons blk mcu =>
      have hv := (hr blk (by simp)).2.2
      have hz : (0 : Int) < 2 ^ (prec + 2) := by exact_mod_cast Nat.two_pow_pos _
      have h2 := shiftR_range Al hz hv
      have hlb := hl b.ci
      have hnb : nbitsOf ((blk.getD 0 0 : Int) >>> Al - last b.ci).natAbs ≤ prec + 2 + 1 := by
        apply nbitsOf_le
        have e : (2 ^ (prec + 2 + 1) : Nat) = 2 * 2 ^ (prec + 2) := by rw [Nat.pow_succ]; omega
        have e2 : ((2 ^ (prec + 2) : Nat) : Int) = (2 ^ (prec + 2) : Int) := by push_cast; rfl
        rw [e]
        generalize (blk.getD 0 0 : Int) >>> Al = x at *
        omega
      obtain ⟨t, l', e, h⟩ := ih mcu (last := upd last b.ci ((blk.getD 0 0 : Int) >>> Al))
        (fun x hx => hr x (by simp [hx])) (by
          intro i
          unfold upd
          split
          · exact h2
          · exact hl i)
      simp only [dcFirstBlks]
      rw [if_neg (by omega), e]
      exact ⟨_, _, rfl, h⟩

theorem dcFirst_shape {prec Al : Nat} (hp : prec ≤ 12) (bs : List DCB) (mcu : List (List Int)) {last last' : Nat → Int}
    {t : List Tok} (h : dcFirstBlks prec Al bs mcu last = some (t, last')) :
    ∀ y ∈ t, TokShape (bs.map (·.dcNo)) (· ≤ 15) y := by
  induction bs generalizing mcu last t last' with
  | nil => simp only [dcFirstBlks, Option.some.injEq, Prod.mk.injEq] at h; rw [← h.1]; simp
  | cons b bs ih =>
    cases mcu with
    | nil => simp only [dcFirstBlks, Option.some.injEq, Prod.mk.injEq] at h; rw [← h.1]; simp
    | cons blk mcu =>
      simp only [dcFirstBlks] at h
      split at h
      · simp at h
      rename_i hnb
      split at h
      · simp at h
      rename_i ts l2 e
      simp only [Option.some.injEq, Prod.mk.injEq] at h
      rw [← h.1]
      intro y hy
      simp only [List.mem_cons, List.mem_append] at hy
      rcases hy with rfl | hy | hy
      · exact ⟨by simp, by omega⟩
      · split at hy
        · simp only [List.mem_singleton] at hy
          subst hy
          exact ⟨by omega, by omega⟩
        · simp at hy
      · have := ih mcu e y hy
        cases y with
        | sym t s => exact ⟨by have := this.1; simp at this ⊢; right; exact this, this.2⟩
        | bits c n => exact this
        | rst n => trivial

/-! ### AC scans -/

theorem emitEob_shape {tbl : Nat} {s s' : ACSt} {t : List Tok} (h : emitEob tbl s = some (t, s')) :
    ∀ y ∈ t, TokShape [tbl] ACSym y := by
  unfold emitEob at h
  split at h
  · dsimp only at h
    split at h
    · simp at h
    rename_i hnb
    simp only [Option.some.injEq, Prod.mk.injEq] at h
    rw [← h.1]
    intro y hy
    simp only [List.mem_cons, List.mem_append, bufToks, List.mem_map] at hy
    rcases hy with rfl | hy | ⟨b, -, rfl⟩
    · exact ⟨by simp, acSym_eob (by omega)⟩
    · split at hy
      · simp only [List.mem_singleton] at hy
        subst hy
        exact ⟨by omega, by omega⟩
      · simp at hy
    · exact ⟨by omega, by omega⟩
  · simp only [Option.some.injEq, Prod.mk.injEq] at h
    rw [← h.1]; simp

theorem bufToks_shape (tbls : List Nat) (Q : Nat → Prop) (l : List Nat) : ∀ y ∈ bufToks l, TokShape tbls Q y := by
  intro y hy
  simp only [bufToks, List.mem_map] at hy
  obtain ⟨b, -, rfl⟩ := hy
  exact ⟨by omega, by omega⟩

theorem zrlToks_shape (tbl r : Nat) : (∀ y ∈ (zrlToks tbl r).1, TokShape [tbl] ACSym y) ∧ (zrlToks tbl r).2 ≤ 15 := by
  induction r using Nat.strongRecOn with
  | ind r ih =>
    rw [zrlToks]
    split
    · obtain ⟨h1, h2⟩ := ih (r - 16) (by omega)
      refine ⟨?_, h2⟩
      intro y hy
      rcases List.mem_cons.1 hy with rfl | hy
      · exact ⟨by simp, by unfold ACSym; omega⟩
      · exact h1 y hy
    · exact ⟨by simp, by dsimp only; omega⟩

theorem acFirstGo_shape {maxBits tbl : Nat} (hm : maxBits ≤ 14) (vs : List (Nat × Nat)) {r tr : Nat} {t : List Tok}
    (h : acFirstGo maxBits tbl vs r = some (t, tr)) : ∀ y ∈ t, TokShape [tbl] ACSym y := by
  induction vs generalizing r t tr with
  | nil => simp only [acFirstGo, Option.some.injEq, Prod.mk.injEq] at h; rw [← h.1]; simp
  | cons v vs ih =>
    obtain ⟨a, b⟩ := v
    simp only [acFirstGo] at h
    split at h
    · exact ih h
    rename_i h0
    split at h
    · simp at h
    rename_i hnb
    split at h
    · simp at h
    rename_i ts tr' e
    simp only [Option.some.injEq, Prod.mk.injEq] at h
    rw [← h.1]
    have hz := zrlToks_shape tbl r
    have := nbitsOf_pos (n := a) h0
    intro y hy
    simp only [List.mem_append, List.mem_cons, List.not_mem_nil, or_false] at hy
    rcases hy with (hy | rfl | rfl) | hy
    · exact hz.1 y hy
    · exact ⟨by simp, acSym_mk hz.2 (by omega)⟩
    · exact ⟨by omega, by omega⟩
    · exact ih e y hy

theorem acFirstGo_total {maxBits tbl : Nat} (vs : List (Nat × Nat)) (h : ∀ v ∈ vs, nbitsOf v.1 ≤ maxBits) (r : Nat) :
    ∃ t tr, acFirstGo maxBits tbl vs r = some (t, tr) := by
  induction vs generalizing r with
  | nil => exact ⟨_, _, rfl⟩
  | cons v vs ih =>
    obtain ⟨a, b⟩ := v
    have ih := ih (fun v hv => h v (by simp [hv]))
    simp only [acFirstGo]
    split
    · exact ih _
    · have := h (a, b) (by simp)
      simp only at this
      rw [if_neg (by omega)]
      obtain ⟨t, tr, e⟩ := ih 0
      rw [e]
      exact ⟨_, _, rfl⟩

def RunOk (s : ACSt) : Prop := s.eobrun < 0x7FFF

theorem acFirstStep_total {prec tbl Ss Se Al : Nat} (hp : prec ≤ 12) {s : ACSt} (hs : RunOk s) (hSs : 1 ≤ Ss) (hSe : Se < 64)
    (mcu : List (List Int)) (hr : InRange prec (mcu.getD 0 [])) :
    ∃ t s', acFirstStep prec tbl Ss Se Al s mcu = some (t, s') ∧ RunOk s' := by
  unfold acFirstStep
  dsimp only
  obtain ⟨t0, s0, e0, h0⟩ : ∃ t0 s0, (if ((((band Ss Se (mcu.getD 0 [])).map (prepFirst Al)).any (fun v => v.1 != 0)) &&
      decide (s.eobrun > 0)) = true then emitEob tbl s else some ([], s)) = some (t0, s0) ∧ RunOk s0 := by
    split
    · obtain ⟨t, s', e, h⟩ := emitEob_total (tbl := tbl) (s := s) (by unfold RunOk at hs; omega)
      refine ⟨t, s', e, ?_⟩
      rcases h with ⟨-, rfl⟩ | rfl
      · exact hs
      · simp [RunOk]
    · exact ⟨_, _, rfl, hs⟩
  rw [e0]
  dsimp only
  obtain ⟨t1, tr, e1⟩ := acFirstGo_total (maxBits := prec + 2) (tbl := tbl)
    ((band Ss Se (mcu.getD 0 [])).map (prepFirst Al)) (by
      intro v hv
      obtain ⟨x, hx, rfl⟩ := List.mem_map.1 hv
      simp only [band, List.mem_map, List.mem_range] at hx
      obtain ⟨k, hk, rfl⟩ := hx
      have hk0 : natOrder.getD (Ss + k) 0 < 64 := natOrder_lt _ (by omega)
      have hk1 : 1 ≤ natOrder.getD (Ss + k) 0 := by
        have : ∀ j, j < 64 → 1 ≤ j → 1 ≤ natOrder.getD j 0 := by decide +kernel
        exact this _ (by omega) (by omega)
      have hb := hr.2.1 _ hk1 hk0
      generalize (mcu.getD 0 []).getD (natOrder.getD (Ss + k) 0) 0 = x at *
      unfold prepFirst
      dsimp only
      split
      · simp [nbitsOf]
      · dsimp only
        apply nbitsOf_le
        rw [Nat.shiftRight_eq_div_pow]
        have := Nat.div_le_self x.natAbs (2 ^ Al)
        have := Nat.mod_le (x.natAbs / 2 ^ Al) 65536
        omega) 0
  rw [e1]
  dsimp only
  split
  · split
    · rename_i h1 h2
      obtain ⟨t, s', e, h⟩ := emitEob_total (tbl := tbl) (s := { s0 with eobrun := s0.eobrun + 1 })
        (by unfold RunOk at h0; simp only; omega)
      exfalso
      split at h2
      · rw [e] at h2; simp at h2
      · simp at h2
    · rename_i t2 s2 e2
      refine ⟨_, _, rfl, ?_⟩
      split at e2
      · obtain ⟨t, s', e, h⟩ := emitEob_total (tbl := tbl) (s := { s0 with eobrun := s0.eobrun + 1 })
          (by unfold RunOk at h0; simp only; omega)
        rw [e] at e2
        simp only [Option.some.injEq, Prod.mk.injEq] at e2
        rw [← e2.2]
        rcases h with ⟨h, -⟩ | rfl
        · simp at h
        · simp [RunOk]
      · rename_i hne
        simp only [Option.some.injEq, Prod.mk.injEq] at e2
        rw [← e2.2]
        unfold RunOk at h0 ⊢
        simp only at hne ⊢
        omega
  · exact ⟨_, _, rfl, h0⟩

theorem acFirstStep_shape {prec tbl Ss Se Al : Nat} (hp : prec ≤ 12) {s s' : ACSt} {mcu : List (List Int)} {t : List Tok}
    (h : acFirstStep prec tbl Ss Se Al s mcu = some (t, s')) : ∀ y ∈ t, TokShape [tbl] ACSym y := by
  unfold acFirstStep at h
  dsimp only at h
  split at h
  · simp at h
  rename_i t0 s1 e0
  have h0 : ∀ y ∈ t0, TokShape [tbl] ACSym y := by
    split at e0
    · exact emitEob_shape e0
    · simp only [Option.some.injEq, Prod.mk.injEq] at e0; rw [← e0.1]; simp
  split at h
  · simp at h
  rename_i t1 tr e1
  have h1 := acFirstGo_shape (by omega) _ e1
  split at h
  · split at h
    · simp at h
    rename_i t2 s2 e2
    simp only [Option.some.injEq, Prod.mk.injEq] at h
    rw [← h.1]
    have h2 : ∀ y ∈ t2, TokShape [tbl] ACSym y := by
      split at e2
      · exact emitEob_shape e2
      · simp only [Option.some.injEq, Prod.mk.injEq] at e2; rw [← e2.1]; simp
    intro y hy
    simp only [List.mem_append] at hy
    rcases hy with (hy | hy) | hy
    · exact h0 y hy
    · exact h1 y hy
    · exact h2 y hy
  · simp only [Option.some.injEq, Prod.mk.injEq] at h
    rw [← h.1]
    intro y hy
    rcases List.mem_append.1 hy with hy | hy
    · exact h0 y hy
    · exact h1 y hy

theorem zrlRefine_shape {tbl : Nat} {le : Bool} {n : Nat} {s s' : ACSt} {br br' : List Nat} {t : List Tok} {r' : Nat}
    (h : zrlRefine tbl le n s br = some (t, r', s', br')) :
    (∀ y ∈ t, TokShape [tbl] ACSym y) ∧ (le = true → r' ≤ 15) := by
  induction n using Nat.strongRecOn generalizing s br t with
  | ind n ih =>
    rw [zrlRefine] at h
    split at h
    · split at h
      · simp at h
      rename_i t0 s1 e0
      split at h
      · simp at h
      rename_i t1 x e1
      simp only [Option.some.injEq, Prod.mk.injEq] at h
      obtain ⟨rfl, rfl⟩ := h
      obtain ⟨h1, h2⟩ := ih (n - 16) (by omega) e1
      refine ⟨?_, h2⟩
      intro y hy
      simp only [List.mem_append, List.mem_singleton] at hy
      rcases hy with ((hy | rfl) | hy) | hy
      · exact emitEob_shape e0 y hy
      · exact ⟨by simp, by unfold ACSym; omega⟩
      · exact bufToks_shape _ _ _ y hy
      · exact h1 y hy
    · rename_i hc
      simp only [Option.some.injEq, Prod.mk.injEq] at h
      obtain ⟨rfl, rfl, -⟩ := h
      refine ⟨by simp, ?_⟩
      intro hl
      by_contra hgt
      exact hc ⟨by omega, hl⟩

theorem refineGo_shape {tbl eob : Nat} (vs : List (Nat × Nat)) {j r r' : Nat} {s s' : ACSt} {br br' : List Nat}
    {t : List Tok} (hone : ∀ i, (vs.getD i (0, 0)).1 = 1 → j + i ≤ eob)
    (h : refineGo tbl eob vs j r s br = some (t, r', s', br')) : ∀ y ∈ t, TokShape [tbl] ACSym y := by
  induction vs generalizing j r s br t with
  | nil => simp only [refineGo, Option.some.injEq, Prod.mk.injEq] at h; rw [← h.1]; simp
  | cons v vs ih =>
    obtain ⟨a, b⟩ := v
    have hone' : ∀ i, (vs.getD i (0, 0)).1 = 1 → j + 1 + i ≤ eob := by
      intro i hi
      have := hone (i + 1) (by simpa using hi)
      omega
    simp only [refineGo] at h
    split at h
    · exact ih hone' h
    rename_i ha0
    split at h
    · simp at h
    rename_i t0 r1 s1 br1 e0
    obtain ⟨hz, hr⟩ := zrlRefine_shape e0
    split at h
    · split at h
      · simp at h
      split at h
      · simp at h
      rename_i ts x e1
      simp only [Option.some.injEq, Prod.mk.injEq] at h
      obtain ⟨rfl, rfl⟩ := h
      intro y hy
      rcases List.mem_append.1 hy with hy | hy
      · exact hz y hy
      · exact ih hone' e1 y hy
    · split at h
      · simp at h
      rename_i t1 s2 e1
      split at h
      · simp at h
      rename_i ts x e2
      simp only [Option.some.injEq, Prod.mk.injEq] at h
      obtain ⟨rfl, rfl⟩ := h
      have ha1 : a = 1 := by omega
      have hle := hone 0 (by simpa using ha1)
      have hr := hr (by simpa using hle)
      intro y hy
      simp only [List.mem_append, List.mem_cons, List.not_mem_nil, or_false] at hy
      rcases hy with (((hy | hy) | rfl | rfl) | hy) | hy
      · exact hz y hy
      · exact emitEob_shape e1 y hy
      · exact ⟨by simp, acSym_mk hr (by omega)⟩
      · exact ⟨by omega, by omega⟩
      · exact bufToks_shape _ _ _ y hy
      · exact ih hone' e2 y hy

theorem acRefineStep_shape {tbl Ss Se Al : Nat} {s s' : ACSt} {mcu : List (List Int)} {t : List Tok}
    (h : acRefineStep tbl Ss Se Al s mcu = some (t, s')) : ∀ y ∈ t, TokShape [tbl] ACSym y := by
  unfold acRefineStep at h
  dsimp only at h
  split at h
  · simp at h
  rename_i t0 r s1 br e0
  have h0 := refineGo_shape _ (by
    intro i hi
    exact (eobIdx_spec ((band Ss Se (mcu.getD 0 [])).map (prepRefine Al)) (k := 0) (e := 0) (Nat.le_refl _)).2 i hi) e0
  split at h
  · split at h
    · simp at h
    rename_i t1 s2 e1
    simp only [Option.some.injEq, Prod.mk.injEq] at h
    rw [← h.1]
    intro y hy
    rcases List.mem_append.1 hy with hy | hy
    · exact h0 y hy
    · split at e1
      · exact emitEob_shape e1 y hy
      · simp only [Option.some.injEq, Prod.mk.injEq] at e1; rw [← e1.1] at hy; simp at hy
  · simp only [Option.some.injEq, Prod.mk.injEq] at h
    rw [← h.1]; exact h0

end Verif.Prog
