import Verif.Merge.Ctl
/-
C43: jpeg_skip_scanlines with merged upsampling.
-/
namespace Verif.Merge
open Verif.Post (divUp divUp_le lt_divUp)
variable {R P : Type}

/-- When the application may call jpeg_skip_scanlines at line `p` for `n` lines; `a` = a line of the current iMCU row has been read. -/
def SkipOk (k : Cfg R P) (p : Nat) (a : Bool) (n : Nat) : Prop :=
  k.H ≤ p + n ∨ n < k.linesLeft p ∨ (if k.v = 2 then p % 2 = 0 else a = true ∨ p % k.lpi = 0)

/-- A line of the current iMCU row has still been read after skipping `n` lines from line `p`. -/
def stillRead (k : Cfg R P) (p : Nat) (a : Bool) (n : Nat) : Bool := a && (n == 0 || decide (n < k.linesLeft p))

/-- Without vertical upsampling: the buffer is full if a line of the iMCU row has been read. -/
def Kept (k : Cfg R P) (a : Bool) (s : St R P) : Prop := k.v = 1 → a = true → s.outScan < k.H → s.outScan % k.lpi ≠ 0 → s.bufferFull = true

section
variable {k : Cfg R P} (hk : k.Ok) {src : Nat → Nat → R} {wf : P → Prop} {line : Nat → R → R → R → P} (hl : Lines k src wf line)
include hk

theorem lpi_pos : 0 < k.lpi := Nat.mul_pos hk.m (by have := hk.v; omega)

/-- The position within the iMCU row. -/
theorem live_mod {g : Bool} {s : St R P} (h : Live k src line g s) : s.outScan % k.lpi = s.ctr * k.v + (if s.spareFull then 1 else 0) ∧ s.ctr * k.v + (if s.spareFull then 1 else 0) < k.lpi := by
  have hpos := h.pos
  have hc := h.ctr
  have hlt : s.ctr * k.v + (if s.spareFull then 1 else 0) < k.lpi := by
    have h1 := Nat.mul_le_mul_right k.v (show s.ctr + 1 ≤ k.M from hc)
    rw [Nat.succ_mul] at h1
    unfold Cfg.lpi
    have hv := hk.v
    by_cases hs : s.spareFull = true
    · have := (h.spare hs).1
      rw [if_pos hs]; omega
    · rw [if_neg hs]; omega
  refine ⟨?_, hlt⟩
  rw [Nat.add_assoc] at hpos
  generalize s.ctr * k.v + (if s.spareFull then 1 else 0) = r at *
  have h2 : (s.inRow * k.lpi + r) % k.lpi = r := by rw [Nat.mul_comm, Nat.mul_add_mod, Nat.mod_eq_of_lt hlt]
  rw [← hpos] at h2
  split at h2
  · rwa [Nat.add_mod_right] at h2
  · exact h2

theorem left_eq {p r : Nat} (h : p % k.lpi = r) : k.linesLeft p = if r = 0 then 0 else k.lpi - r := by
  have hp := lpi_pos hk
  have := Nat.mod_lt p hp
  unfold Cfg.linesLeft
  rw [h]
  split
  · rename_i h0; rw [h0, Nat.sub_zero, Nat.mod_self]
  · rw [Nat.mod_eq_of_lt (by omega)]

include hl

/-- Moving the row group counter without vertical upsampling. -/
theorem incr1_ok (hv : k.v = 1) {g : Bool} {s : St R P} {n : Nat} (hs : Inv k src wf line g s) (hp : s.outScan + n < k.H) (hn : s.ctr + n < k.M) :
    ∃ s', k.incr src n s = some s' ∧ Inv k src wf line true s' ∧ s'.outScan = s.outScan + n ∧ s'.out = s.out ∧ s'.bufferFull = s.bufferFull := by
  have h := hs.live (by omega)
  unfold Cfg.incr
  rw [if_neg (by omega), hv, Nat.mod_one, Nat.div_one, Nat.sub_zero]
  have hsf : s.spareFull = false := by
    cases hx : s.spareFull with
    | false => rfl
    | true => have := (h.spare hx).1; omega
  refine ⟨_, rfl, ⟨hs.wf, by simp only; omega, fun _ => ?_⟩, rfl, rfl, rfl⟩
  have hpos := h.pos
  refine ⟨hn, ?_, h.loaded, fun e => ⟨(h.ge e).1, ?_⟩, fun e => ?_, fun _ e => ?_, fun e => ?_⟩
  · simp only [hv] at hpos ⊢
    cases hx : s.bufferFull <;> simp only [hx, if_true, Bool.false_eq_true, if_false] at hpos ⊢ <;> omega
  · have := (h.ge e).2
    rw [hsf] at this
    simp only [Bool.false_eq_true, or_false] at this
    exact Or.inl (by simp only; omega)
  · simp only [hsf] at e; simp at e
  · omega
  · omega

omit hk hl in
theorem inv_skipped {g : Bool} {s : St R P} (h : Inv k src wf line g s) : Inv k src wf line true s :=
  ⟨h.wf, h.le, fun hp => let hL := h.live hp; ⟨hL.ctr, hL.pos, hL.loaded, hL.ge, hL.spare, hL.empty, fun e => ⟨(hL.togo e).1, fun hx => by simp at hx⟩⟩⟩

/-- jpeg_skip_scanlines. -/
theorem skip_ok {g a : Bool} {s : St R P} {n : Nat} (h : Inv k src wf line g s) (ha : Kept k a s) (hok : SkipOk k s.outScan a n) :
    ∃ s', k.skip src n s = some (min n (k.H - s.outScan), s') ∧ Inv k src wf line true s' ∧ Kept k (stillRead k s.outScan a n) s' ∧ s'.outScan = s.outScan + min n (k.H - s.outScan) ∧ s'.out = s.out := by
  have hle := h.le
  have hlp := lpi_pos hk
  unfold Cfg.skip
  by_cases hend : s.outScan + n ≥ k.H
  · rw [if_pos hend, show min n (k.H - s.outScan) = k.H - s.outScan by omega]
    refine ⟨_, rfl, ⟨h.wf, Nat.le_refl _, fun hx => absurd hx (Nat.lt_irrefl _)⟩, fun _ _ hx => absurd hx (Nat.lt_irrefl _), by simp only; omega, rfl⟩
  rw [if_neg hend, show min n (k.H - s.outScan) = n by omega]
  by_cases hn0 : n = 0
  · subst hn0
    rw [if_pos rfl]
    refine ⟨s, rfl, inv_skipped h, ?_, rfl, rfl⟩
    simpa [stillRead] using ha
  rw [if_neg hn0]
  have hL := h.live (by omega)
  obtain ⟨hmod, hr⟩ := live_mod hk hL
  have hleft := left_eq hk hmod
  by_cases hin : n < k.linesLeft s.outScan
  · rw [if_pos hin]
    rcases hk.v with hv | hv
    · have hsf : s.spareFull = false := by
        cases hx : s.spareFull with
        | false => rfl
        | true => have := (hL.spare hx).1; omega
      have hcn : s.ctr + n < k.M := by
        rw [hleft, hsf, hv] at hin
        unfold Cfg.lpi at hin
        rw [hv] at hin
        simp only [Bool.false_eq_true, if_false] at hin
        split at hin <;> omega
      obtain ⟨s', e1, e2, e3, e4, e5⟩ := incr1_ok hk hl hv (n := n) h (by omega) hcn
      simp only [e1, Option.bind_eq_bind, Option.bind_some]
      refine ⟨s', rfl, e2, fun _ h1 h2 h3 => ?_, e3, e4⟩
      rw [e5]
      have : a = true := by
        simp only [stillRead, Bool.and_eq_true] at h1; exact h1.1
      refine ha hv this (by omega) (fun h0 => ?_)
      rw [hleft, ← hmod, if_pos h0] at hin
      omega
    · unfold Cfg.incr
      rw [if_pos hv]
      obtain ⟨s', e1, e2, e3, e4⟩ := discard_ok hk hl hv n h (by omega)
      simp only [e1, Option.bind_eq_bind, Option.bind_some]
      exact ⟨s', rfl, inv_skipped e2, fun e => by omega, e3, e4⟩
  · rw [if_neg hin]
    have hst : stillRead k s.outScan a n = false := by
      unfold stillRead
      have : (n == 0) = false := by simp [hn0]
      rw [this, decide_eq_false hin]; simp
    rw [hst]
    -- the rest of the iMCU row
    have hfacts : s.outScan + k.linesLeft s.outScan = s.inRow * k.lpi ∧ s.spareFull = false := by
      rcases hok with hok | hok | hok
      · omega
      · omega
      · have hpos := hL.pos
        have hsf : s.spareFull = false := by
          cases hx : s.spareFull with
          | false => rfl
          | true =>
            have hv := (hL.spare hx).1
            rw [if_pos hv] at hok
            have hpos := (ready_of_full hk hl hL (hL.spare hx).2.1).pos
            rw [hx, hv] at hpos
            simp only [if_true] at hpos
            have : (s.inRow - 1) * k.lpi = 2 * ((s.inRow - 1) * k.M) := by unfold Cfg.lpi; rw [hv]; ring
            omega
        refine ⟨?_, hsf⟩
        rw [hsf] at hpos hmod hr hleft
        simp only [Bool.false_eq_true, if_false, Nat.add_zero] at hpos hmod hr hleft
        rw [hleft]
        by_cases hf : s.bufferFull = true
        · rw [if_pos hf] at hpos
          have h0 : s.ctr * k.v ≠ 0 := by
            have := (hL.ge hf).2
            rw [hsf] at this
            simp only [Bool.false_eq_true, or_false] at this
            exact Nat.mul_ne_zero (by omega) (by have := hk.v; omega)
          rw [if_neg h0]
          omega
        · rw [if_neg hf] at hpos
          have hf' : s.bufferFull = false := by simpa using hf
          have h0 : s.ctr * k.v = 0 := by
            rcases hk.v with hv | hv
            · rw [if_neg (by omega)] at hok
              by_contra hne
              rcases hok with h1 | h1
              · have := ha hv h1 (by omega) (by rw [hmod]; exact hne)
                exact hf this
              · rw [hmod] at h1; exact hne h1
            · rw [hL.empty hf' hv, Nat.zero_mul]
          rw [if_pos h0]
          omega
    obtain ⟨hedge, hsf⟩ := hfacts
    generalize hleft' : k.linesLeft s.outScan = left at *
    obtain ⟨q, hq⟩ : ∃ q, q = (n - left) / k.lpi := ⟨_, rfl⟩
    have hdiv := Nat.div_add_mod (n - left) k.lpi
    have hmodlt := Nat.mod_lt (n - left) hlp
    dsimp only
    rw [← hq] at hdiv ⊢
    have hqc : k.lpi * q = q * k.lpi := Nat.mul_comm _ _
    have hrem : n - left - q * k.lpi = (n - left) % k.lpi := by omega
    rw [hrem]
    have hH := H_le hk
    have hfit : s.inRow + q ≤ k.total := by
      apply Nat.le_of_mul_le_mul_right (c := k.lpi) _ hlp
      rw [Nat.add_mul]
      omega
    unfold Cfg.skipRows
    simp only [if_pos hfit, Option.bind_eq_bind, Option.bind_some]
    have hadd : (s.inRow + q) * k.lpi = s.inRow * k.lpi + q * k.lpi := Nat.add_mul _ _ _
    have hinv : Inv k src wf line true { s with outScan := s.outScan + left + q * k.lpi, bufferFull := false, ctr := 0, inRow := s.inRow + q } := by
      refine ⟨h.wf, by simp only; omega, fun _ => ⟨hk.m, ?_, fun e => by simp at e, fun e => by simp at e, fun e => ?_, fun _ _ => rfl, fun e => ⟨?_, fun hx => by simp at hx⟩⟩⟩
      · simp only [hsf, Bool.false_eq_true, if_false]
        omega
      · simp only [hsf] at e; simp at e
      · have := (hL.togo e).1
        simp only
        omega
    rcases hk.v with hv | hv
    · obtain ⟨s', e1, e2, e3, e4, e5⟩ := incr1_ok hk hl hv (n := (n - left) % k.lpi) hinv (by simp only; omega) (by
        simp only; unfold Cfg.lpi at hmodlt ⊢; rw [hv, Nat.mul_one] at hmodlt ⊢; omega)
      rw [e1]
      exact ⟨s', rfl, e2, fun _ e => by simp at e, by rw [e3]; simp only; omega, e4⟩
    · unfold Cfg.incr
      rw [if_pos hv]
      obtain ⟨s', e1, e2, e3, e4⟩ := discard_ok hk hl hv ((n - left) % k.lpi) hinv (by simp only; omega)
      simp only [e1, Option.bind_some]
      exact ⟨s', rfl, e2, fun _ e => by simp at e, by rw [e3]; simp only; omega, e4⟩

omit hk hl in
/-- After a line has been read, without vertical upsampling. -/
theorem read_kept (hv : k.v = 1) {max o : Nat} {ok : Bool} {app app' : Nat → P} {s s' : St R P} (h : k.read src max ok app s = some (o, s', app')) : (0 < o ∧ (s'.bufferFull = true ∨ s'.ctr = 0)) ∨ s' = s := by
  have core : ∀ {ob : List Loc} {x : St R P × (Nat → P)} {o s' app'}, x.1.bufferFull = true → k.mainFull ob max x = some (o, s', app') → 0 < o ∧ (s'.bufferFull = true ∨ s'.ctr = 0) := by
    intro ob x o s' app' hx h
    unfold Cfg.mainFull Cfg.merged at h
    rw [if_neg (by omega)] at h
    unfold Cfg.merged1 Cfg.put at h
    simp only [Option.bind_eq_bind, Option.pure_def, Option.bind_eq_some_iff] at h
    obtain ⟨⟨c, o1, s1, app1⟩, ⟨y, -, cb, -, cr, -, w, -, z, ⟨p, -, hz⟩, hr⟩, h⟩ := h
    simp only [Option.some.injEq, Prod.mk.injEq] at hr hz
    have hs1 : s1.bufferFull = true := by
      have : s1 = z.1 := by rw [hr.2.2]
      rw [this, ← hz]
      cases w <;> exact hx
    dsimp only at h
    split at h
    · simp only [Option.some.injEq, Prod.mk.injEq] at h
      rw [← h.2.1, ← h.1, ← hr.2.1]; exact ⟨by omega, Or.inr rfl⟩
    · simp only [Option.some.injEq, Prod.mk.injEq] at h
      rw [← h.2.1, ← h.1, ← hr.2.1]; exact ⟨by omega, Or.inl hs1⟩
  unfold Cfg.read Cfg.readTo at h
  simp only [Option.bind_eq_bind, Option.pure_def, Option.bind_eq_some_iff] at h
  obtain ⟨⟨o1, s1, app1⟩, h1, h2⟩ := h
  simp only [Option.some.injEq, Prod.mk.injEq] at h2
  split at h1
  · simp only [Option.some.injEq, Prod.mk.injEq] at h1
    obtain ⟨rfl, rfl, rfl⟩ := h1
    right
    rw [← h2.2.1]; simp
  · simp only [Option.bind_eq_some_iff] at h1
    obtain ⟨⟨o2, s2, app2⟩, h3, h4⟩ := h1
    simp only [Option.some.injEq, Prod.mk.injEq] at h4
    have : (0 < o2 ∧ (s2.bufferFull = true ∨ s2.ctr = 0)) ∨ (o2 = 0 ∧ s2 = s) := by
      unfold Cfg.main at h3
      split at h3
      · rename_i hf
        exact Or.inl (core hf h3)
      · split at h3
        · simp only [Option.bind_eq_bind, Option.bind_eq_some_iff] at h3
          obtain ⟨s3, h5, h6⟩ := h3
          refine Or.inl (core ?_ h6)
          unfold Cfg.load at h5
          split at h5
          · simp only [Option.some.injEq] at h5
            rw [← h5]
          · simp at h5
        · simp only [Option.some.injEq, Prod.mk.injEq] at h3
          exact Or.inr ⟨h3.1.symm, h3.2.1.symm⟩
    obtain ⟨rfl, rfl, rfl⟩ := h4
    obtain ⟨rfl, h2, -⟩ := h2
    rcases this with h | ⟨rfl, rfl⟩
    · left
      rw [← h2]; exact h
    · right
      rw [← h2]; simp

theorem kept_read {g a : Bool} {s s' : St R P} {app app' : Nat → P} {max o : Nat} {ok : Bool} (hk' : Kept k a s) (h : k.read src max ok app s = some (o, s', app')) (hinv : Inv k src wf line g s') (ho : s'.outScan = s.outScan + o) :
    Kept k (a || decide (0 < o)) s' := by
  intro hv ha hp hm
  rcases read_kept hv h with ⟨_, h1 | h1⟩ | e
  · exact h1
  · have hL := hinv.live hp
    have hmod := (live_mod hk hL).1
    have hsf : s'.spareFull = false := by
      cases hx : s'.spareFull with
      | false => rfl
      | true => have := (hL.spare hx).1; omega
    rw [h1, hsf] at hmod
    simp at hmod
    exact absurd hmod hm
  · subst e
    have : a = true := by simpa [show o = 0 by omega] using ha
    exact hk' hv this hp hm

/-- The states an application can reach: `g` = it has skipped lines, `a` = a line of the current iMCU row has been read.  With every read the application provides rows `app` of the right shape. -/
inductive Reach (k : Cfg R P) (src : Nat → Nat → R) (wf : P → Prop) (buf0 : Nat → Nat → R) (spare0 : P) : Bool → Bool → St R P → Prop where
  | start : Reach k src wf buf0 spare0 false false (k.start buf0 spare0)
  | read {g a : Bool} {s s' : St R P} {app app' : Nat → P} {max o : Nat} {ok : Bool} (h : Reach k src wf buf0 spare0 g a s) (hroom : RoomOk k g s.outScan max) (hwf : ∀ i, i < max → wf (app i)) (h' : k.read src max ok app s = some (o, s', app')) :
      Reach k src wf buf0 spare0 g (a || decide (0 < o)) s'
  | skip {g a : Bool} {s s' : St R P} {n o : Nat} (h : Reach k src wf buf0 spare0 g a s) (hok : SkipOk k s.outScan a n) (h' : k.skip src n s = some (o, s')) : Reach k src wf buf0 spare0 true (stillRead k s.outScan a n) s'

theorem start_inv {buf0 : Nat → Nat → R} {spare0 : P} (hs : wf spare0) : Inv k src wf line false (k.start buf0 spare0) :=
  ⟨hs, Nat.zero_le _, fun _ => ⟨hk.m, by simp [Cfg.start], fun e => by simp [Cfg.start] at e, fun e => by simp [Cfg.start] at e, fun e => by simp [Cfg.start] at e, fun _ _ => rfl, fun _ => ⟨by simp [Cfg.start], fun _ => by simp [Cfg.start]⟩⟩⟩

theorem reach_inv {buf0 : Nat → Nat → R} {spare0 : P} (hs : wf spare0) {g a : Bool} {s : St R P} (h : Reach k src wf buf0 spare0 g a s) : Inv k src wf line g s ∧ Kept k a s := by
  induction h with
  | start => exact ⟨start_inv hk hl hs, fun _ e => by simp at e⟩
  | read h hroom hwf h' ih =>
    rename_i ok
    obtain ⟨o', s2, app2, e1, e2, e3, e4, e5, e6, e7, e8⟩ := read_ok hk hl ok ih.1 hroom hwf
    rw [h'] at e1
    simp only [Option.some.injEq, Prod.mk.injEq] at e1
    obtain ⟨rfl, rfl, rfl⟩ := e1
    exact ⟨e2, kept_read hk hl ih.2 h' e2 e3⟩
  | skip h hok h' ih =>
    obtain ⟨s2, e1, e2, e3, e4, e5⟩ := skip_ok hk hl ih.1 ih.2 hok
    rw [h'] at e1
    simp only [Option.some.injEq, Prod.mk.injEq] at e1
    obtain ⟨rfl, rfl⟩ := e1
    exact ⟨e2, e3⟩

end
end Verif.Merge
