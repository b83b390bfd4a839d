import Verif.Post.SkipLemmas
/-
C46: after lines have been skipped, the path is in a state it could have reached, with another source, by reading every line.
-/
namespace Verif.Post
variable {R : Type}

/-- `s` is, up to what was output and an excess `d` of rows_to_go, a state reached by reading every line of `src'`; that source agrees with `src` on the rows still to be decoded, and on the scanlines from `L` on. -/
structure Sim (k : Cfg R) (src : Nat → Nat → R) (src' : Src R) (b : St R) (lv : List (List R)) (d L : Nat) (s : St R) : Prop where
  out : b.out = []
  eq : s = b.put s.out d
  inv : Inv k src' (b.put lv 0)
  agree : AgreeFrom k s.inRow src src'.row
  line : ∀ t, L ≤ t → k.scanline src' t = k.scanline (Src.plain src) t

section
variable {k : Cfg R} {src : Nat → Nat → R} {src' : Src R} {b s : St R} {lv : List (List R)} {d L : Nat}

theorem Sim.scan (h : Sim k src src' b lv d L s) : s.outScan = lv.length := by
  rw [h.eq]
  have := h.inv.scan
  simp only [St.put, h.out, List.append_nil] at this ⊢
  exact this

theorem Sim.le (h : Sim k src src' b lv d L s) : s.outScan ≤ k.H := by
  rw [h.scan]
  have := h.inv.common.le
  simp only [St.put, h.out, List.append_nil] at this
  exact this

theorem Sim.togo (h : Sim k src src' b lv d L s) : b.rowsToGo = k.H - s.outScan ∧ s.rowsToGo = k.H - s.outScan + d := by
  have e : s.rowsToGo = b.rowsToGo + d := by rw [h.eq]; rfl
  have := h.inv.common.togo
  simp only [St.put, h.out, List.append_nil, Nat.add_zero] at this
  rw [h.scan, e, this]
  exact ⟨rfl, rfl⟩

theorem Sim.putOut (h : Sim k src src' b lv d L s) (x : List (List R)) : Sim k src src' b lv d L { s with out := x } where
  out := h.out
  eq := by
    have := h.eq
    conv => lhs; rw [this]
    simp only [St.put, h.out, List.append_nil]
  inv := h.inv
  agree := h.agree
  line := h.line

theorem Sim.next (h : Sim k src src' b lv d L s) : s.nextRowOut = b.nextRowOut ∧ s.inRow = b.inRow ∧ s.bufferFull = b.bufferFull ∧ s.rowgroupCtr = b.rowgroupCtr ∧ s.cs = b.cs ∧ s.imcuCtr = b.imcuCtr ∧ s.which = b.which ∧ s.ctxState = b.ctxState ∧ s.outScan = b.outScan ∧ s.avail = b.avail := by
  have := h.eq
  refine ⟨?_, ?_, ?_, ?_, ?_, ?_, ?_, ?_, ?_, ?_⟩ <;> (rw [this]; rfl)

/-- Settling rows_to_go. -/
theorem Sim.settle (h : Sim k src src' b lv d L s) : Sim k src src' b lv 0 L (k.skipEnd s) := by
  have ht := h.togo
  refine ⟨h.out, ?_, h.inv, h.agree, h.line⟩
  unfold Cfg.skipEnd
  rw [← ht.1]
  conv => lhs; rw [h.eq]
  simp only [St.put, Nat.add_zero]

variable (hk : k.Ok)
include hk

theorem sim_read (h : Sim k src src' b lv d L s) (max : Nat) (ok : Bool) (hr : s.outScan < k.H → d = 0 ∨ max ≤ k.H - s.outScan ∨ (k.context = false ∧ min (k.maxV - (if s.nextRowOut ≥ k.maxV then 0 else s.nextRowOut)) max ≤ k.H - s.outScan)) :
    ∃ o s' b' lv' rows, k.read src max ok s = some (o, s') ∧ Sim k src src' b' lv' d L s' ∧ s'.outScan = s.outScan + o ∧ o ≤ max ∧ (ok = true → 0 < max → s.outScan < k.H → 0 < o) ∧ (0 < max → s'.outScan < k.H → 0 < s'.nextRowOut) ∧
      s'.out = s.out ++ rows ∧ (L ≤ s.outScan → rows.map some = (List.range o).map (fun i => k.scanline (Src.plain src) (s.outScan + i))) ∧ s.inRow ≤ s'.inRow := by
  obtain ⟨o, v', e1, e2, e3, e4, e5, e6⟩ := read_inv hk h.inv max ok
  have hn := h.next
  by_cases hge : s.outScan ≥ k.H
  · have : k.read src max ok s = some (0, s) := by unfold Cfg.read; rw [if_pos hge]
    exact ⟨0, s, b, lv, [], this, h, rfl, Nat.zero_le _, fun _ _ h => by omega, fun _ h => by omega, by simp, fun _ => rfl, Nat.le_refl _⟩
  · have hlt : s.outScan < k.H := by omega
    have hd : d = 0 ∨ max ≤ b.rowsToGo ∨ (k.context = false ∧ min (k.maxV - (if b.nextRowOut ≥ k.maxV then 0 else b.nextRowOut)) max ≤ b.rowsToGo) := by
      rw [h.togo.1, ← hn.1]
      exact hr hlt
    have f1 : k.read src max ok s = (k.read src max ok b).map (put2 s.out d) := by
      rw [← read_put k src s.out d max ok b hd]
      exact congrArg _ h.eq
    have f2 : k.read src'.row max ok (b.put lv 0) = (k.read src'.row max ok b).map (put2 lv 0) := read_put k src'.row lv 0 max ok b (Or.inl rfl)
    have f3 : k.read src max ok b = k.read src'.row max ok b := read_src (by rw [← hn.2.1]; exact h.agree)
    rw [e1] at f2
    obtain ⟨x, hx, f4⟩ := Option.map_eq_some_iff.1 f2.symm
    obtain ⟨o', b'⟩ := x
    simp only [put2, Prod.mk.injEq] at f4
    obtain ⟨rfl, f5⟩ := f4
    rw [f3, hx] at f1
    have hscan : (b.put lv 0).outScan = s.outScan := by rw [h.eq]; rfl
    rw [hscan] at e3 e5
    have hin : s.inRow ≤ b'.inRow := by rw [hn.2.1]; exact read_inRow hx
    refine ⟨o', b'.put s.out d, { b' with out := [] }, lv ++ b'.out, b'.out, f1, ⟨rfl, ?_, ?_, ?_, h.line⟩, ?_, e4, e5, ?_, rfl, ?_, hin⟩
    · simp only [St.put, List.append_nil]
    · have : (St.put (lv ++ b'.out) 0 { b' with out := [] }) = v' := by rw [← f5]; simp only [St.put, List.append_nil]
      rw [this]; exact e2
    · intro c r hc hr
      exact h.agree c r hc (Nat.le_trans (Nat.mul_le_mul_right _ hin) hr)
    · rw [← f5] at e3; exact e3
    · rw [← f5] at e6; exact e6
    · intro hL
      have hout := e2.common.out
      have hsc := e2.scan
      rw [e3] at hsc
      have hl := h.scan
      rw [← f5] at hout hsc
      simp only [St.put, List.length_append, List.map_append] at hout hsc
      have hlen : b'.out.length = o' := by omega
      rw [hlen, List.range_add, List.map_append] at hout
      have h2 := List.append_inj_right hout (by simp)
      rw [h2, List.map_map]
      apply List.map_congr_left
      intro i hi
      simp only [Function.comp]
      rw [h.line _ (by omega), hl]

theorem sim_discardN : ∀ (n : Nat) {b s : St R} {lv : List (List R)}, Sim k src src' b lv d L s → s.outScan + n ≤ k.H →
    ∃ s' b' lv', k.discardN src n s = some s' ∧ Sim k src src' b' lv' d L s' ∧ s'.outScan = s.outScan + n ∧ (0 < n → s'.outScan < k.H → 0 < s'.nextRowOut) ∧ s.inRow ≤ s'.inRow ∧ (n = 0 → s' = s) := by
  intro n
  induction n with
  | zero => intro b s lv h _; exact ⟨s, b, lv, rfl, h, rfl, fun h => by omega, Nat.le_refl _, fun _ => rfl⟩
  | succ n ih =>
    intro b s lv h hle
    obtain ⟨o, s1, b1, lv1, rows, e1, e2, e3, e4, e5, e6, e7, e8, e9⟩ := sim_read hk h 1 true (fun _ => Or.inr (Or.inl (by omega)))
    have ho := e5 rfl (by omega) (by omega)
    obtain ⟨s2, b2, lv2, f1, f2, f3, f4, f5, f6⟩ := ih e2 (by omega)
    refine ⟨s2, b2, lv2, by unfold Cfg.discardN; rw [e1]; exact f1, f2, by omega, ?_, by omega, fun h => by omega⟩
    intro _ hlt
    by_cases hn : n = 0
    · rw [f6 hn] at hlt ⊢; exact e6 (by omega) hlt
    · exact f4 (by omega) hlt

theorem sim_discard (n : Nat) (h : Sim k src src' b lv d L s) (hle : s.outScan + n ≤ k.H) :
    ∃ s' b' lv', k.discard src n s = some s' ∧ Sim k src src' b' lv' d L s' ∧ s'.outScan = s.outScan + n ∧ (0 < n → s'.outScan < k.H → 0 < s'.nextRowOut) ∧ s.inRow ≤ s'.inRow ∧ s'.out = s.out ∧ (n = 0 → s' = s) := by
  obtain ⟨s1, b1, lv1, e1, e2, e3, e4, e5, e6⟩ := sim_discardN hk n h hle
  refine ⟨{ s1 with out := s.out }, b1, lv1, by unfold Cfg.discard; rw [e1]; rfl, e2.putOut _, e3, e4, e5, rfl, fun hn => by rw [e6 hn]⟩

end

/-! ### positions -/

section
variable {k : Cfg R} (hk : k.Ok)
include hk

theorem lpi_pos : 0 < k.lpi := Nat.mul_pos hk.m hk.mv

theorem lt_total_iff {K : Nat} : K < k.total ↔ K * k.lpi < k.H := by
  unfold Cfg.total Cfg.H Cfg.lpi
  rw [lt_divUp (Nat.mul_pos hk.mv hk.d), lt_divUp hk.d]
  rw [show K * (k.M * k.maxV) * k.D = K * (k.maxV * k.D) * k.M by ring]
  exact (Nat.mul_lt_mul_right hk.m).symm

theorem linesLeft_eq {p K r : Nat} (hp : p = K * k.lpi + r) (hr : r < k.lpi) : k.linesLeft p = if r = 0 then 0 else k.lpi - r := by
  unfold Cfg.linesLeft
  have : p % k.lpi = r := by rw [hp, Nat.mul_comm, Nat.mul_add_mod, Nat.mod_eq_of_lt hr]
  rw [this]
  split
  · rename_i h; rw [h, Nat.sub_zero, Nat.mod_self]
  · rw [Nat.mod_eq_of_lt (by omega)]

theorem mod_lpi {p K r : Nat} (hp : p = K * k.lpi + r) (hr : r < k.lpi) : p % k.lpi = r ∧ p / k.lpi = K := by
  constructor
  · rw [hp, Nat.mul_comm, Nat.mul_add_mod, Nat.mod_eq_of_lt hr]
  · rw [hp, Nat.mul_comm, Nat.mul_add_div (lpi_pos hk), Nat.div_eq_of_lt hr, Nat.add_zero]

/-- A list of scanlines, as if they had been output. -/
theorem lines_list (src : Src R) (p : Nat) : ∃ l : List (List R), l.length = p ∧ l.map some = (List.range p).map (k.scanline src) := by
  obtain ⟨m, e1, e2⟩ := mapM_some (f := fun t => k.scanline src t) (List.range p) (fun t _ => scanline_some hk src t)
  exact ⟨m, by simpa using congrArg List.length e2, e2⟩

end
end Verif.Post
