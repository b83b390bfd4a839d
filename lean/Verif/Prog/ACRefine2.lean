import Verif.Prog.ACRefine
/-
AC refinement scans: one MCU (encoder state with a pending run), and the correction-bit buffer bound.
-/
namespace Verif.Prog
open Verif Verif.Huff

theorem eobIdx_spec (vs : List (Nat × Nat)) {k e : Nat} (he : e ≤ k) :
    e ≤ eobIdx vs k e ∧ ∀ i, (vs.getD i (0, 0)).1 = 1 → k + i ≤ eobIdx vs k e := by
  induction vs generalizing k e with
  | nil => refine ⟨Nat.le_refl _, fun i h => ?_⟩; simp at h
  | cons v vs ih =>
    obtain ⟨a, b⟩ := v
    simp only [eobIdx]
    by_cases ha : a = 1
    · rw [if_pos ha]
      obtain ⟨h1, h2⟩ := ih (k := k + 1) (e := k) (by omega)
      refine ⟨by omega, fun i hi => ?_⟩
      cases i with
      | zero => simpa using h1
      | succ i => have := h2 i (by simpa using hi); omega
    · rw [if_neg ha]
      obtain ⟨h1, h2⟩ := ih (k := k + 1) (e := e) (by omega)
      refine ⟨h1, fun i hi => ?_⟩
      cases i with
      | zero => simp at hi; exact absurd hi ha
      | succ i => have := h2 i (by simpa using hi); omega

theorem zrlRefine_flush {tbl : Nat} {le : Bool} {n : Nat} {s : ACSt} (hw : s.Wf) {br : List Nat} {t : List Tok}
    {x : Nat × ACSt × List Nat} (h : zrlRefine tbl le n s br = some (t, x)) :
    (¬(n > 15 ∧ le = true) ∧ t = [] ∧ x = (n, s, br)) ∨
    ∃ t0 t', emitEob tbl s = some (t0, ⟨0, []⟩) ∧ t = t0 ++ t' ∧ zrlRefine tbl le n ⟨0, []⟩ br = some (t', x) := by
  rw [zrlRefine] at h
  split at h
  · rename_i hc
    right
    split at h
    · simp at h
    rename_i t0 s1 e0
    have := emitEob_wf hw e0
    subst this
    split at h
    · simp at h
    rename_i t1 y e1
    simp only [Option.some.injEq, Prod.mk.injEq] at h
    obtain ⟨rfl, rfl⟩ := h
    refine ⟨t0, _, e0, by rw [List.append_assoc, List.append_assoc], ?_⟩
    rw [zrlRefine, if_pos hc, emitEob_zero rfl]
    dsimp only
    rw [e1]
    simp
  · rename_i hc
    left
    simp only [Option.some.injEq, Prod.mk.injEq] at h
    exact ⟨hc, h.1.symm, h.2.symm⟩

/-- Either nothing is put out for the block, or the pending run comes first and the rest does not depend on it. -/
theorem refineGo_flush {tbl eob : Nat} {Al : Nat} (vs : List Int) (hv : ∀ v ∈ vs, Coef16 v) {j r : Nat} {s : ACSt}
    (hw : s.Wf) {br : List Nat} {ts : List Tok} {rF : Nat} {sF : ACSt} {brF : List Nat}
    (h : refineGo tbl eob (vs.map (prepRefine Al)) j r s br = some (ts, rF, sF, brF)) :
    (ts = [] ∧ sF = s ∧ rF = r + zc Al vs ∧ brF = br ++ cb Al vs ∧ NoOne Al vs) ∨
    ∃ t0 ts', emitEob tbl s = some (t0, ⟨0, []⟩) ∧ ts = t0 ++ ts' ∧
      refineGo tbl eob (vs.map (prepRefine Al)) j r ⟨0, []⟩ br = some (ts', rF, sF, brF) := by
  induction vs generalizing j r br ts with
  | nil =>
    left
    simp only [List.map_nil, refineGo, Option.some.injEq, Prod.mk.injEq] at h
    obtain ⟨rfl, rfl, rfl, rfl⟩ := h
    exact ⟨rfl, rfl, by simp [zc], by simp [cb], by intro v hv; simp at hv⟩
  | cons v vs ih =>
    have hv0 := hv v (by simp)
    have hmag : (prepRefine Al v).1 = mag Al v := by
      have := shr_lt hv0 Al
      simp only [prepRefine, mag]
      exact Nat.mod_eq_of_lt (by omega)
    have ih := @ih (fun w hw => hv w (by simp [hw]))
    simp only [List.map_cons, refineGo] at h ⊢
    rw [hmag] at h ⊢
    by_cases h0 : mag Al v = 0
    · rw [if_pos h0] at h ⊢
      rcases ih h with ⟨a1, a2, a3, a4, a5⟩ | ⟨t0, ts', a1, a2, a3⟩
      · left
        refine ⟨a1, a2, ?_, ?_, ?_⟩
        · rw [a3]; simp only [zc, if_pos h0]; omega
        · rw [a4]; simp only [cb, if_pos h0, List.nil_append]
        · intro w hw
          rcases List.mem_cons.1 hw with rfl | hw
          · omega
          · exact a5 w hw
      · right; exact ⟨t0, ts', a1, a2, a3⟩
    · rw [if_neg h0] at h ⊢
      split at h
      · simp at h
      rename_i t0 r1 s1 br1 e0
      rcases zrlRefine_flush hw e0 with ⟨hc, rfl, hx⟩ | ⟨t0', t', b1, rfl, b3⟩
      · -- no ZRL
        simp only [Prod.mk.injEq] at hx
        obtain ⟨rfl, rfl, rfl⟩ := hx
        rw [zrlRefine, if_neg hc]
        dsimp only
        by_cases h1 : mag Al v > 1
        · rw [if_pos h1] at h ⊢
          split at h
          · simp at h
          rename_i hfull
          split at h
          · simp at h
          rename_i ts' x e1
          simp only [Option.some.injEq, Prod.mk.injEq, List.nil_append] at h
          obtain ⟨rfl, rfl⟩ := h
          rcases ih e1 with ⟨a1, a2, a3, a4, a5⟩ | ⟨t0, ts2, a1, a2, a3⟩
          · left
            refine ⟨a1, a2, ?_, ?_, ?_⟩
            · rw [a3]; simp only [zc, if_neg h0]; omega
            · rw [a4]; simp only [cb, if_neg h0, List.append_assoc]
            · intro w hw
              rcases List.mem_cons.1 hw with rfl | hw
              · omega
              · exact a5 w hw
          · right
            refine ⟨t0, ts2, a1, a2, ?_⟩
            rw [if_neg (by simp; omega), a3]
            simp
        · rw [if_neg h1] at h ⊢
          right
          split at h
          · simp at h
          rename_i t1 s2 e1
          have := emitEob_wf hw e1
          subst this
          split at h
          · simp at h
          rename_i ts' x e2
          simp only [Option.some.injEq, Prod.mk.injEq] at h
          obtain ⟨rfl, rfl⟩ := h
          refine ⟨t1, [Tok.sym tbl ((r1 <<< 4) + 1), Tok.bits (prepRefine Al v).2 1] ++ bufToks br1 ++ ts', e1,
            by simp, ?_⟩
          rw [emitEob_zero rfl]
          dsimp only
          rw [e2]
          simp
      · -- ZRL put out
        right
        rw [b3]
        dsimp only
        by_cases h1 : mag Al v > 1
        · rw [if_pos h1] at h ⊢
          split at h
          · simp at h
          rename_i hfull
          split at h
          · simp at h
          rename_i ts' x e1
          simp only [Option.some.injEq, Prod.mk.injEq] at h
          obtain ⟨rfl, rfl⟩ := h
          refine ⟨t0', t' ++ ts', b1, by simp, ?_⟩
          rw [if_neg hfull]
        · rw [if_neg h1] at h ⊢
          split at h
          · simp at h
          rename_i t1 s2 e1
          split at h
          · simp at h
          rename_i ts' x e2
          simp only [Option.some.injEq, Prod.mk.injEq] at h
          obtain ⟨rfl, rfl⟩ := h
          refine ⟨t0', t' ++ t1 ++ [Tok.sym tbl ((r1 <<< 4) + 1), Tok.bits (prepRefine Al v).2 1] ++ bufToks br1 ++ ts',
            b1, by simp, rfl⟩

theorem zc_cb_ne {Al : Nat} {l : List Int} : (zc Al l > 0 ∨ (cb Al l).length > 0) ↔ l ≠ [] := by
  cases l with
  | nil => simp [zc, cb]
  | cons v l =>
    simp only [zc, cb, ne_eq, reduceCtorEq, not_false_eq_true, iff_true]
    split
    · left; omega
    · right; simp

theorem refineGo_noRst {tbl eob : Nat} (vs : List (Nat × Nat)) {j r : Nat} {s : ACSt} {br : List Nat}
    {ts : List Tok} {x : Nat × ACSt × List Nat} (h : refineGo tbl eob vs j r s br = some (ts, x)) : NoRst ts := by
  induction vs generalizing j r s br ts x with
  | nil => simp only [refineGo, Option.some.injEq, Prod.mk.injEq] at h; rw [← h.1]; intro n; simp
  | cons v vs ih =>
    obtain ⟨a, b⟩ := v
    simp only [refineGo] at h
    split at h
    · exact ih h
    split at h
    · simp at h
    rename_i t0 r1 s1 br1 e0
    have h0 := zrlRefine_noRst e0
    split at h
    · split at h
      · simp at h
      split at h
      · simp at h
      rename_i e1
      simp only [Option.some.injEq, Prod.mk.injEq] at h
      rw [← h.1]
      exact noRst_append h0 (ih e1)
    · split at h
      · simp at h
      rename_i e1
      split at h
      · simp at h
      rename_i e2
      simp only [Option.some.injEq, Prod.mk.injEq] at h
      rw [← h.1]
      exact noRst_append (noRst_append (noRst_append (noRst_append h0 (emitEob_noRst e1)) (by intro n; simp))
        (noRst_buf _)) (ih e2)

theorem encACRefine_noRst (tbl Ss Se Al : Nat) : (encACRefine tbl Ss Se Al).NoRst := by
  constructor
  · intro s t h
    simp only [encACRefine, Option.map_eq_some_iff] at h
    obtain ⟨⟨t', s'⟩, he, rfl⟩ := h
    exact emitEob_noRst he
  · intro s i t s' h
    simp only [encACRefine, acRefineStep] at h
    split at h
    · simp at h
    rename_i t0 r1 s1 br1 e0
    have h0 := refineGo_noRst _ e0
    split at h
    · split at h
      · simp at h
      rename_i t2 s2 e2
      simp only [Option.some.injEq, Prod.mk.injEq] at h
      rw [← h.1]
      refine noRst_append h0 ?_
      split at e2
      · exact emitEob_noRst e2
      · simp only [Option.some.injEq, Prod.mk.injEq] at e2; rw [← e2.1]; intro n; simp
    · simp only [Option.some.injEq, Prod.mk.injEq] at h
      rw [← h.1]
      exact h0

theorem zrlRefine_state {tbl : Nat} {le : Bool} {n : Nat} {br : List Nat} {t : List Tok}
    {r' : Nat} {s' : ACSt} {br' : List Nat} (h : zrlRefine tbl le n ⟨0, []⟩ br = some (t, r', s', br')) :
    s' = ⟨0, []⟩ := by
  induction n using Nat.strongRecOn generalizing br t with
  | ind n ih =>
    rw [zrlRefine] at h
    split at h
    · rw [emitEob_zero rfl] at h
      dsimp only at h
      split at h
      · simp at h
      rename_i t1 y e1
      simp only [Option.some.injEq, Prod.mk.injEq] at h
      obtain ⟨-, rfl⟩ := h
      exact ih (n - 16) (by omega) e1
    · simp only [Option.some.injEq, Prod.mk.injEq] at h
      exact h.2.2.1.symm

theorem refineGo_state {tbl eob : Nat} {vs : List (Nat × Nat)} {j r : Nat} {br : List Nat}
    {ts : List Tok} {rF : Nat} {sF : ACSt} {brF : List Nat}
    (h : refineGo tbl eob vs j r ⟨0, []⟩ br = some (ts, rF, sF, brF)) : sF = ⟨0, []⟩ := by
  induction vs generalizing j r br ts with
  | nil => simp only [refineGo, Option.some.injEq, Prod.mk.injEq] at h; exact h.2.2.1.symm
  | cons v vs ih =>
    obtain ⟨a, b⟩ := v
    simp only [refineGo] at h
    split at h
    · exact ih h
    split at h
    · simp at h
    rename_i t0 r1 s1 br1 e0
    have h0 := zrlRefine_state e0
    subst h0
    split at h
    · split at h
      · simp at h
      split at h
      · simp at h
      rename_i e1
      simp only [Option.some.injEq, Prod.mk.injEq] at h
      obtain ⟨-, rfl⟩ := h
      exact ih e1
    · rw [emitEob_zero rfl] at h
      dsimp only at h
      split at h
      · simp at h
      rename_i e2
      simp only [Option.some.injEq, Prod.mk.injEq] at h
      obtain ⟨-, rfl⟩ := h
      exact ih e2

/-! ### the encoder never runs out of room -/

/-- States between two MCUs: the run is below the forced flush at 0x7FFF and at most 937 bits are buffered. -/
def ACSt.Room (s : ACSt) : Prop := s.eobrun < 0x7FFF ∧ s.be.length ≤ 1000 - 64 + 1

theorem emitEob_total {tbl : Nat} {s : ACSt} (h : s.eobrun ≤ 0x7FFF) :
    ∃ t s', emitEob tbl s = some (t, s') ∧ (s.eobrun = 0 ∧ s' = s ∨ s' = ⟨0, []⟩) := by
  unfold emitEob
  split
  · rename_i hp
    dsimp only
    have := nbitsOf_le (n := s.eobrun) (k := 15) (by omega)
    rw [if_neg (by omega)]
    exact ⟨_, _, rfl, .inr rfl⟩
  · exact ⟨_, _, rfl, .inl ⟨by omega, rfl⟩⟩

theorem zrlRefine_total {tbl : Nat} {le : Bool} {n : Nat} {s : ACSt} (hs : s.Room) {br : List Nat} :
    ∃ t r' s' br', zrlRefine tbl le n s br = some (t, r', s', br') ∧ s'.Room ∧ br'.length ≤ br.length := by
  induction n using Nat.strongRecOn generalizing s br with
  | ind n ih =>
    rw [zrlRefine]
    split
    · obtain ⟨t, s1, e, h1⟩ := emitEob_total (tbl := tbl) (s := s) (by have := hs.1; omega)
      have hs1 : s1.Room := by
        rcases h1 with ⟨-, rfl⟩ | rfl
        · exact hs
        · simp [ACSt.Room]
      rw [e]
      dsimp only
      obtain ⟨t2, r', s', br', e2, a, b⟩ := ih (n - 16) (by omega) hs1 (br := [])
      rw [e2]
      exact ⟨_, _, _, _, rfl, a, by simp at b; simp [b]⟩
    · exact ⟨_, _, _, _, rfl, hs, Nat.le_refl _⟩

theorem refineGo_total {tbl eob : Nat} (vs : List (Nat × Nat)) {j r : Nat} {s : ACSt} (hs : s.Room) {br : List Nat}
    (hb : br.length + vs.length ≤ 63) :
    ∃ t r' s' br', refineGo tbl eob vs j r s br = some (t, r', s', br') ∧ s'.Room ∧ br'.length ≤ 63 := by
  induction vs generalizing j r s br with
  | nil => exact ⟨_, _, _, _, rfl, hs, by simpa using hb⟩
  | cons v vs ih =>
    obtain ⟨a, b⟩ := v
    simp only [List.length_cons] at hb
    simp only [refineGo]
    split
    · exact ih hs (by omega)
    obtain ⟨t0, r1, s1, br1, e0, hs1, hb1⟩ := zrlRefine_total (tbl := tbl) (le := decide (j ≤ eob)) (n := r) hs (br := br)
    rw [e0]
    dsimp only
    split
    · have := hs1.2
      rw [if_neg (by omega)]
      obtain ⟨t, r', s', br', e1, h1, h2⟩ := ih (j := j + 1) (r := r1) hs1 (br := br1 ++ [a &&& 1]) (by simp; omega)
      rw [e1]
      exact ⟨_, _, _, _, rfl, h1, h2⟩
    · obtain ⟨t1, s2, e1, h1⟩ := emitEob_total (tbl := tbl) (s := s1) (by have := hs1.1; omega)
      have hs2 : s2.Room := by
        rcases h1 with ⟨-, rfl⟩ | rfl
        · exact hs1
        · simp [ACSt.Room]
      rw [e1]
      dsimp only
      obtain ⟨t, r', s', br', e2, h1, h2⟩ := ih (j := j + 1) (r := 0) hs2 (br := []) (by simp; omega)
      rw [e2]
      exact ⟨_, _, _, _, rfl, h1, h2⟩

/-- One MCU of a refinement scan never fails: in particular bit_buffer is never overrun. -/
theorem acRefineStep_total {tbl Ss Se Al : Nat} (hSs : 1 ≤ Ss) (hSe : Se < 64) {s : ACSt} (hs : s.Room)
    (mcu : List (List Int)) : ∃ t s', acRefineStep tbl Ss Se Al s mcu = some (t, s') ∧ s'.Room := by
  unfold acRefineStep
  dsimp only
  obtain ⟨t, r', s', br', e, h1, h2⟩ := refineGo_total (tbl := tbl)
    (eob := eobIdx ((band Ss Se (mcu.getD 0 [])).map (prepRefine Al)) 0 0)
    ((band Ss Se (mcu.getD 0 [])).map (prepRefine Al)) (j := 0) (r := 0) hs (br := [])
    (by simp [band_length]; omega)
  rw [e]
  dsimp only
  split
  · split
    · rename_i hf e1
      split at e1
      · obtain ⟨t2, s2, e2, -⟩ := emitEob_total (tbl := tbl) (s := ⟨s'.eobrun + 1, s'.be ++ br'⟩)
          (by have := h1.1; simp only; omega)
        rw [e2] at e1; simp at e1
      · simp at e1
    · rename_i hf t1 s1 e1
      refine ⟨_, _, rfl, ?_⟩
      split at e1
      · obtain ⟨t2, s2, e2, h3⟩ := emitEob_total (tbl := tbl) (s := ⟨s'.eobrun + 1, s'.be ++ br'⟩)
          (by have := h1.1; simp only; omega)
        rw [e2] at e1
        simp only [Option.some.injEq, Prod.mk.injEq] at e1
        obtain ⟨-, rfl⟩ := e1
        rcases h3 with ⟨h3, -⟩ | rfl
        · simp at h3
        · simp [ACSt.Room]
      · rename_i hforce
        simp only [Option.some.injEq, Prod.mk.injEq] at e1
        rw [← e1.2]
        have := h1.1
        constructor
        · simp only; omega
        · simp only at hforce ⊢; omega
  · exact ⟨_, _, rfl, h1⟩

theorem cur_band {Al Ss Se : Nat} {orig cur : List Int}
    (h : ∀ k, Ss ≤ k → k ≤ Se → cur.getD (natOrder.getD k 0) 0 = apxAC (Al + 1) (orig.getD (natOrder.getD k 0) 0)) :
    Cur Al Ss (band Ss Se orig) cur := by
  unfold band
  generalize hn : Se + 1 - Ss = n
  have : ∀ (m : Nat), m ≤ n → ∀ k, k + m = n →
      Cur Al (Ss + k) ((List.range' k m).map (fun k => orig.getD (natOrder.getD (Ss + k) 0) 0)) cur := by
    intro m
    induction m with
    | zero => intros; trivial
    | succ m ih =>
      intro hm k hk
      simp only [List.range'_succ, List.map_cons]
      refine ⟨h (Ss + k) (by omega) (by omega), ?_⟩
      exact ih (by omega) (k + 1) (by omega)
  have := this n (Nat.le_refl _) 0 (by omega)
  rw [List.range_eq_range']
  exact this

section
variable {c : CTbl} {d : DTbl} (L : Linked c d) {Se Al : Nat} (hAl : Al < 15) (hSe : Se < 64)
include L hAl hSe

/-- One MCU of an AC refinement scan. -/
theorem acRefine_mcu {T : Nat → CTbl} {tbl : Nat} (hT : T tbl = c) {Ss : Nat}
    (hSs : Ss ≤ Se) (mcu cur : List (List Int)) (hv : ∀ v ∈ mcu.getD 0 [], Coef16 v)
    (hcur : ∀ k, Ss ≤ k → k ≤ Se → (cur.getD 0 []).getD (natOrder.getD k 0) 0 =
      apxAC (Al + 1) ((mcu.getD 0 []).getD (natOrder.getD k 0) 0))
    {s s' : ACSt} {t : List Tok} (hw : s.Wf) (h : acRefineStep tbl Ss Se Al s mcu = some (t, s')) :
    MCUSpec T tbl (decACRefine d Ss Se Al) cur (cur.set 0 (setAC Ss Se Al (mcu.getD 0 []) (cur.getD 0 []))) s t s' := by
  unfold acRefineStep at h
  dsimp only at h
  have hbl := band_length Ss Se (mcu.getD 0 [])
  have hbc := band_coef hv Ss Se
  have hcb := cur_band hcur
  unfold setAC
  generalize hvs : band Ss Se (mcu.getD 0 []) = vs at *
  have hne : vs ≠ [] := by rw [← List.length_pos_iff]; omega
  generalize hres : setBand Ss (vs.map (apxAC Al)) (cur.getD 0 []) = out at *
  have hlift : ∀ l (e : Nat), RR d Se Al Ss (cur.getD 0 []) l (out, e) →
      Step (decACRefine d Ss Se Al) 0 cur (cur.set 0 out) e l := by
    intro l e hR r rest hr ht hb
    obtain ⟨r', e1, s1, b1⟩ := hR r rest hr ht hb
    refine ⟨r', ?_, s1, b1⟩
    simp only [decACRefine]
    rw [e1]
    rfl
  split at h
  · simp at h
  rename_i t0 rF sF brF e0
  rcases refineGo_flush vs hbc hw e0 with ⟨rfl, rfl, rfl, rfl, hno⟩ | ⟨tf, ts', h1, rfl, h3⟩
  · -- the block only has correction bits
    rw [if_pos (by simpa using zc_cb_ne.2 hne)] at h
    rw [List.nil_append] at h
    refine .absorb (cb Al vs) ?_ ?_ ?_
    · split at h
      · simp at h
      rename_i t1 s1 e1
      simp only [List.nil_append, Option.some.injEq, Prod.mk.injEq] at h
      obtain ⟨rfl, rfl⟩ := h
      split at e1
      · right; exact e1
      · left
        simp only [Option.some.injEq, Prod.mk.injEq] at e1
        exact ⟨e1.1.symm, e1.2.symm⟩
    · intro e he r rest hr ht hb
      obtain ⟨r1, e1, s1, b1⟩ := eobScan_spec hAl hSe vs hbc hno (k := Ss) (by omega) hcb hr ht hb
      refine ⟨r1, ?_, s1, b1⟩
      simp only [decACRefine, acRefineDec]
      rw [if_neg (by omega)]
      dsimp only
      rw [if_pos he, e1, hres]
      rfl
    · intro N hN
      apply hlift
      rw [← hres, hT]
      exact RR_eob L hAl hSe hbc hno (by omega) hne hcb (hT ▸ hN)
  · -- the block has a body
    have hone : ∀ i, mag Al (vs.getD i 0) = 1 → 0 + i ≤ eobIdx (vs.map (prepRefine Al)) 0 0 := by
      intro i hi
      apply (eobIdx_spec (vs.map (prepRefine Al)) (k := 0) (e := 0) (Nat.le_refl _)).2
      rw [List.getD_eq_getElem?_getD, List.getElem?_map]
      rw [List.getD_eq_getElem?_getD] at hi
      cases e : vs[i]? with
      | none => rw [e] at hi; simp [mag] at hi
      | some v =>
        rw [e] at hi
        simp only [Option.getD_some, Option.map_some] at hi ⊢
        simp only [prepRefine, mag] at hi ⊢
        rw [hi]
    have hspec := fun hok => refineGo_spec L hAl hSe hT vs (mid := []) (by simp) hbc (by intro v hv; simp at hv)
      (j := 0) (k := Ss) (blk := cur.getD 0 []) (by simp; omega) hcb (fun _ => ⟨[], [], rfl, by simp, by simp [zc]⟩)
      hone h3 hok
    have hnr := refineGo_noRst _ h3
    -- the encoder side of the result, independent of the tables
    obtain ⟨hsF, hrb⟩ : sF = ⟨0, []⟩ ∧ True := ⟨refineGo_state h3, trivial⟩
    subst hsF
    by_cases hpend : rF > 0 ∨ brF.length > 0
    · rw [if_pos hpend] at h
      split at h
      · simp at h
      rename_i t2 s2 e2
      simp only [Option.some.injEq, Prod.mk.injEq] at h
      obtain ⟨rfl, rfl⟩ := h
      refine .bodyRun tf ts' t2 _ brF rfl h1 hnr ?_ ?_
      · simp only [List.nil_append, Nat.zero_add] at e2
        split at e2
        · right; exact e2
        · left
          simp only [Option.some.injEq, Prod.mk.injEq] at e2
          exact ⟨e2.1.symm, e2.2.symm⟩
      · intro hok N hN
        obtain ⟨-, midF, kF, blkF, g1, g2, g3, g4, g5, g6, g7, g8⟩ := hspec hok
        subst g1 g2
        rw [zc_cb_ne] at hpend
        apply hlift
        apply g8
        rw [hT]
        rw [List.nil_append, hres] at g7
        rw [← g7]
        exact RR_eob L hAl hSe g4 g3 g5 hpend g6 (hT ▸ hN)
    · rw [if_neg hpend] at h
      simp only [Option.some.injEq, Prod.mk.injEq] at h
      obtain ⟨rfl, rfl⟩ := h
      refine .bodyEnd tf ts' _ rfl h1 hnr rfl ?_
      intro hok
      obtain ⟨-, midF, kF, blkF, g1, g2, g3, g4, g5, g6, g7, g8⟩ := hspec hok
      subst g1 g2
      rw [zc_cb_ne, not_not] at hpend
      subst hpend
      apply hlift
      rw [← List.append_nil (tokTail T ts').1]
      apply g8
      rw [List.nil_append, hres] at g7
      rw [← g7]
      simp only [List.length_nil, Nat.add_zero] at g5
      subst g5
      exact RR_end

end
end Verif.Prog
