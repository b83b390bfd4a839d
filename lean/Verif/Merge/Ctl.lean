import Verif.Merge.Model
/-
C43: the control routines deliver the right lines.
-/
namespace Verif.Merge
open Verif.Post (divUp divUp_le lt_divUp)
variable {R P : Type}

/-- What use_merged_upsample (jdmaster.c:34-83) and the master control guarantee. -/
structure Cfg.Ok (k : Cfg R P) : Prop where
  ih : 0 < k.ih
  v : k.v = 1 ∨ k.v = 2
  m : 0 < k.M
  d : 0 < k.D

/-- Conversion of a row does not depend on what the output row held before (among the rows that can occur, `wf`), and its result is `line`. -/
structure Lines (k : Cfg R P) (src : Nat → Nat → R) (wf : P → Prop) (line : Nat → R → R → R → P) : Prop where
  conv : ∀ t r q old, wf old → k.conv t (src 0 r) (src 1 q) (src 2 q) old = some (line t (src 0 r) (src 1 q) (src 2 q))
  wf : ∀ t r q, wf (line t (src 0 r) (src 1 q) (src 2 q))

/-- Line t of the image: luma row t with chroma row t / v. -/
def Cfg.scan (k : Cfg R P) (src : Nat → Nat → R) (line : Nat → R → R → R → P) (t : Nat) : P := line t (src 0 t) (src 1 (t / k.v)) (src 2 (t / k.v))

/-- The state while lines are left; `g` = lines may have been skipped. -/
structure Live (k : Cfg R P) (src : Nat → Nat → R) (line : Nat → R → R → R → P) (g : Bool) (s : St R P) : Prop where
  ctr : s.ctr < k.M
  pos : (if s.bufferFull then s.outScan + k.lpi else s.outScan) = s.inRow * k.lpi + s.ctr * k.v + (if s.spareFull then 1 else 0)
  loaded : s.bufferFull = true → ∀ c i, i < k.vs c * k.M → s.buf c i = src c ((s.inRow - 1) * (k.vs c * k.M) + i)
  ge : s.bufferFull = true → 0 < s.inRow ∧ (0 < s.ctr ∨ s.spareFull = true)
  spare : s.spareFull = true → k.v = 2 ∧ s.bufferFull = true ∧ s.spare = k.scan src line s.outScan
  empty : s.bufferFull = false → k.v = 2 → s.ctr = 0
  togo : k.v = 2 → k.H - s.outScan ≤ s.rowsToGo ∧ (g = false → s.rowsToGo = k.H - s.outScan)

/-- Invariant. -/
structure Inv (k : Cfg R P) (src : Nat → Nat → R) (wf : P → Prop) (line : Nat → R → R → R → P) (g : Bool) (s : St R P) : Prop where
  wf : wf s.spare
  le : s.outScan ≤ k.H
  live : s.outScan < k.H → Live k src line g s

section
variable {k : Cfg R P} (hk : k.Ok) {src : Nat → Nat → R} {wf : P → Prop} {line : Nat → R → R → R → P} (hl : Lines k src wf line)
include hk

theorem H_le : k.H ≤ k.total * k.lpi := by
  unfold Cfg.H Cfg.total Cfg.lpi
  rw [divUp_le hk.d]
  have hv : 0 < k.v := by have := hk.v; omega
  have h := (divUp_le (Nat.mul_pos hv hk.d)).1 (Nat.le_refl (divUp k.ih (k.v * k.D)))
  have := Nat.mul_le_mul_right k.M h
  calc k.ih * k.M ≤ _ := this
    _ = _ := by ring

include hl

/-- The rows of row group `ctr`. -/
theorem rows_ok {s : St R P} {K : Nat} (hloaded : ∀ c i, i < k.vs c * k.M → s.buf c i = src c (K * (k.vs c * k.M) + i)) {ctr : Nat} (hc : ctr < k.M) :
    (∀ j, j < k.v → k.row s 0 (ctr * k.v + j) = some (src 0 (K * k.lpi + ctr * k.v + j))) ∧ k.row s 1 ctr = some (src 1 (K * k.M + ctr)) ∧ k.row s 2 ctr = some (src 2 (K * k.M + ctr)) := by
  have hv0 : k.vs 0 = k.v := rfl
  have hv1 : k.vs 1 = 1 := rfl
  have hv2 : k.vs 2 = 1 := rfl
  refine ⟨?_, ?_, ?_⟩
  · intro j hj
    have hlt : ctr * k.v + j < k.vs 0 * k.M := by
      rw [hv0]
      have := Nat.mul_le_mul_right k.v (show ctr + 1 ≤ k.M from hc)
      rw [Nat.succ_mul] at this
      rw [Nat.mul_comm k.v]; omega
    unfold Cfg.row
    rw [if_pos hlt, hloaded 0 _ hlt, hv0, Nat.mul_comm k.v, Nat.add_assoc]; rfl
  · unfold Cfg.row
    rw [hv1, Nat.one_mul, if_pos hc, hloaded 1 _ (by rw [hv1]; omega), hv1, Nat.one_mul]
  · unfold Cfg.row
    rw [hv2, Nat.one_mul, if_pos hc, hloaded 2 _ (by rw [hv2]; omega), hv2, Nat.one_mul]

omit hk hl in
theorem setLoc_facts (s : St R P) (app : Nat → P) (l : Loc) (p : P) : getLoc (setLoc s app l p).1 (setLoc s app l p).2 l = p ∧ (∀ i, Loc.app i ≠ l → (setLoc s app l p).2 i = app i) ∧ (l ≠ .spare → (setLoc s app l p).1.spare = s.spare) ∧
    (setLoc s app l p).1 = { s with spare := (setLoc s app l p).1.spare } := by
  cases l with
  | spare => exact ⟨rfl, fun _ _ => rfl, fun h => absurd rfl h, rfl⟩
  | app i =>
    refine ⟨by simp [setLoc, getLoc], ?_, fun _ => rfl, rfl⟩
    intro j hj
    have : j ≠ i := fun e => hj (by rw [e])
    simp [setLoc, this]

omit hk in
theorem put_ok {t r q : Nat} {l : Loc} {s : St R P} {app : Nat → P} (hw : wf (getLoc s app l)) : k.put t (src 0 r) (src 1 q) (src 2 q) l (s, app) = some (setLoc s app l (line t (src 0 r) (src 1 q) (src 2 q))) := by
  unfold Cfg.put
  simp only [hl.conv t r q _ hw, Option.bind_eq_bind, Option.bind_some, Option.pure_def]


/-- The buffer is full: row group `ctr` of iMCU row inRow - 1 is next. -/
structure Ready (k : Cfg R P) (src : Nat → Nat → R) (line : Nat → R → R → R → P) (g : Bool) (s : St R P) : Prop where
  full : s.bufferFull = true
  inRow : 0 < s.inRow
  ctr : s.ctr < k.M
  pos : s.outScan = (s.inRow - 1) * k.lpi + s.ctr * k.v + (if s.spareFull then 1 else 0)
  loaded : ∀ c i, i < k.vs c * k.M → s.buf c i = src c ((s.inRow - 1) * (k.vs c * k.M) + i)
  spare : s.spareFull = true → k.v = 2 ∧ s.spare = k.scan src line s.outScan
  togo : k.v = 2 → k.H - s.outScan ≤ s.rowsToGo ∧ (g = false → s.rowsToGo = k.H - s.outScan)

omit hk hl in
/-- The end of mainFull: what follows from the state the upsampler leaves. -/
theorem finish_live {g : Bool} {s s' : St R P} {o ctr' : Nat} (h : Ready k src line g s)
    (hs : s' = { s with spare := s'.spare, spareFull := s'.spareFull, rowsToGo := s'.rowsToGo })
    (hpos : s.outScan + o = (s.inRow - 1) * k.lpi + ctr' * k.v + (if s'.spareFull then 1 else 0)) (hc : ctr' ≤ k.M) (hnz : 0 < ctr' ∨ s'.spareFull = true)
    (hspare : s'.spareFull = true → k.v = 2 ∧ ctr' < k.M ∧ s'.spare = k.scan src line (s.outScan + o))
    (htogo : k.v = 2 → k.H - (s.outScan + o) ≤ s'.rowsToGo ∧ (g = false → s'.rowsToGo = k.H - (s.outScan + o))) (hm : 0 < k.M) :
    Live k src line g { (if ctr' ≥ k.M then { s' with bufferFull := false, ctr := 0 } else { s' with ctr := ctr' } : St R P) with outScan := s.outScan + o } := by
  have hin : s'.inRow = s.inRow := by rw [hs]
  have hbuf : s'.buf = s.buf := by rw [hs]
  have hfull : s'.bufferFull = true := by rw [hs]; exact h.full
  have hin0 := h.inRow
  have hlpi : s.inRow * k.lpi = (s.inRow - 1) * k.lpi + k.lpi := by
    rw [← Nat.succ_mul, Nat.succ_eq_add_one, Nat.sub_add_cancel hin0]
  by_cases hge : ctr' ≥ k.M
  · rw [if_pos hge]
    have hcm : ctr' = k.M := by omega
    have hsf : s'.spareFull = false := by
      cases hx : s'.spareFull with
      | false => rfl
      | true => have := hspare hx; omega
    refine { ctr := hm, pos := ?_, loaded := fun hf => ?_, ge := fun hf => ?_, spare := fun hf => ?_, empty := fun _ _ => rfl, togo := htogo }
    · simp only [hsf, hin] at hpos ⊢
      rw [hcm] at hpos
      unfold Cfg.lpi at hpos hlpi ⊢
      simp only [Bool.false_eq_true, if_false] at hpos ⊢
      omega
    · simp at hf
    · simp at hf
    · simp only [hsf] at hf; simp at hf
  · rw [if_neg hge]
    refine { ctr := by simp only; omega, pos := ?_, loaded := fun hf c i hi => ?_, ge := fun _ => ⟨by simp only [hin]; exact hin0, hnz⟩, spare := fun hf => ?_, empty := fun hf => ?_, togo := htogo }
    · simp only [hfull, if_true, hin]
      omega
    · simp only [hbuf, hin]; exact h.loaded c i hi
    · exact ⟨(hspare hf).1, hfull, (hspare hf).2.2⟩
    · simp only [hfull] at hf; simp at hf

theorem scan2 {s : St R P} {g : Bool} (h : Ready k src line g s) (hs : s.spareFull = false) (hv : k.v = 2) :
    line s.outScan (src 0 ((s.inRow - 1) * k.lpi + s.ctr * 2)) (src 1 ((s.inRow - 1) * k.M + s.ctr)) (src 2 ((s.inRow - 1) * k.M + s.ctr)) = k.scan src line s.outScan ∧
    line (s.outScan + 1) (src 0 ((s.inRow - 1) * k.lpi + s.ctr * 2 + 1)) (src 1 ((s.inRow - 1) * k.M + s.ctr)) (src 2 ((s.inRow - 1) * k.M + s.ctr)) = k.scan src line (s.outScan + 1) := by
  have hpos := h.pos
  rw [hs, hv] at hpos
  simp only [Bool.false_eq_true, if_false, Nat.add_zero] at hpos
  have hl2 : (s.inRow - 1) * k.lpi = 2 * ((s.inRow - 1) * k.M) := by unfold Cfg.lpi; rw [hv]; ring
  unfold Cfg.scan
  rw [hv, hpos]
  rw [hl2]
  rw [show (2 * ((s.inRow - 1) * k.M) + s.ctr * 2) / 2 = (s.inRow - 1) * k.M + s.ctr by omega, show (2 * ((s.inRow - 1) * k.M) + s.ctr * 2 + 1) / 2 = (s.inRow - 1) * k.M + s.ctr by omega]
  exact ⟨rfl, rfl⟩

/-- merged_2v_upsample with a spare row or room for one line only. -/
theorem merged2_one {g : Bool} {s : St R P} {app : Nat → P} {outbuf : List Loc} {w0 : Loc} {max : Nat} (h : Ready k src line g s) (hv : k.v = 2) (hp : s.outScan < k.H) (hw0 : outbuf[0]? = some w0) (hmax : 0 < max)
    (hone : s.spareFull = true ∨ max = 1 ∨ s.rowsToGo = 1) (hwf : wf (getLoc s app w0)) (hsp : wf s.spare) :
    ∃ s' app' ctr', k.merged2 outbuf s.ctr max (s, app) = some (ctr', 1, s', app') ∧ wf s'.spare ∧ s'.outScan = s.outScan ∧ s'.out = s.out ∧
      (w0 ≠ .spare → getLoc s' app' w0 = k.scan src line s.outScan) ∧ (∀ i, Loc.app i ≠ w0 → app' i = app i) ∧
      Live k src line g { (if ctr' ≥ k.M then { s' with bufferFull := false, ctr := 0 } else { s' with ctr := ctr' } : St R P) with outScan := s.outScan + 1 } := by
  have ht := h.togo hv
  have hpos := h.pos
  unfold Cfg.merged2
  by_cases hsf : s.spareFull = true
  · rw [if_pos hsf]
    simp only [hw0, Option.bind_eq_bind, Option.bind_some]
    obtain ⟨f1, f2, f3, f4⟩ := setLoc_facts s app w0 s.spare
    have hsp' : (setLoc s app w0 s.spare).1.spare = s.spare := by
      cases w0 <;> rfl
    generalize setLoc s app w0 s.spare = x at *
    have hr : x.1.rowsToGo = s.rowsToGo := by rw [f4]
    rw [if_pos (by rw [hr]; omega)]
    refine ⟨_, _, _, rfl, ?_, ?_, ?_, ?_, f2, ?_⟩
    · simp only [hsp']; exact hsp
    · simp only; rw [f4]
    · simp only; rw [f4]
    · intro hne
      have : getLoc x.1 x.2 w0 = s.spare := f1
      cases w0 with
      | spare => exact absurd rfl hne
      | app i => exact this.trans (h.spare hsf).2
    · refine finish_live (o := 1) (ctr' := s.ctr + 1) h (by rw [f4]) ?_ (by have := h.ctr; omega) (Or.inl (by omega)) (fun hf => by simp at hf) (fun _ => ?_) hk.m
      · rw [hsf, hv] at hpos
        simp only [if_true] at hpos
        simp only [Bool.false_eq_true, if_false, hv]
        omega
      · simp only [hr]
        exact ⟨by omega, fun e => by have := ht.2 e; omega⟩
  · have hsf' : s.spareFull = false := by simpa using hsf
    rw [if_neg hsf]
    have hnum : min (min 2 s.rowsToGo) max = 1 := by rcases hone with e | e | e <;> [exact absurd e hsf; omega; omega]
    obtain ⟨r1, r2, r3⟩ := rows_ok hk hl h.loaded h.ctr
    rw [hv] at r1
    have ry0 := r1 0 (by omega)
    have ry1 := r1 1 (by omega)
    rw [Nat.add_zero, Nat.add_zero] at ry0
    obtain ⟨c1, c2⟩ := scan2 hk hl h hsf' hv
    simp only [hw0, Option.bind_eq_bind, Option.bind_some, hnum]
    rw [if_neg (by omega)]
    unfold Cfg.up2
    simp only [ry0, ry1, r2, r3, Option.bind_eq_bind, Option.bind_some, put_ok hl hwf, c1]
    obtain ⟨f1, f2, f3, f4⟩ := setLoc_facts s app w0 (k.scan src line s.outScan)
    have hwx : wf (getLoc (setLoc s app w0 (k.scan src line s.outScan)).1 (setLoc s app w0 (k.scan src line s.outScan)).2 .spare) := by
      cases w0 with
      | spare => rw [f1, ← c1]; exact hl.wf _ _ _
      | app i => exact hsp
    generalize setLoc s app w0 (k.scan src line s.outScan) = x at *
    have e2 : k.put (s.outScan + 1) (src 0 ((s.inRow - 1) * k.lpi + s.ctr * 2 + 1)) (src 1 ((s.inRow - 1) * k.M + s.ctr)) (src 2 ((s.inRow - 1) * k.M + s.ctr)) .spare x = some ({ x.1 with spare := k.scan src line (s.outScan + 1) }, x.2) := by
      have := put_ok hl (t := s.outScan + 1) (r := (s.inRow - 1) * k.lpi + s.ctr * 2 + 1) (q := (s.inRow - 1) * k.M + s.ctr) (l := .spare) (s := x.1) (app := x.2) hwx
      rw [c2] at this
      exact this
    rw [e2]
    simp only [Option.bind_some]
    rw [if_pos (by simp)]
    have hr : x.1.rowsToGo = s.rowsToGo := by rw [f4]
    refine ⟨_, _, _, rfl, ?_, ?_, ?_, ?_, f2, ?_⟩
    · simp only; rw [← c2]; exact hl.wf _ _ _
    · simp only; rw [f4]
    · simp only; rw [f4]
    · intro hne
      cases w0 with
      | spare => exact absurd rfl hne
      | app i => exact f1
    · refine finish_live (o := 1) (ctr' := s.ctr) h (by simp only; rw [f4]) ?_ (by have := h.ctr; omega) (Or.inr (by simp)) (fun _ => ⟨hv, h.ctr, rfl⟩) (fun _ => ?_) hk.m
      · rw [hsf', hv] at hpos
        simp only [Bool.false_eq_true, if_false] at hpos
        simp only [hv]
        simp
        omega
      · simp only [hr]
        exact ⟨by omega, fun e => by have := ht.2 e; omega⟩

/-- merged_2v_upsample with room for two lines. -/
theorem merged2_two {g : Bool} {s : St R P} {app : Nat → P} {outbuf : List Loc} {max : Nat} (h : Ready k src line g s) (hv : k.v = 2) (hp : s.outScan + 2 ≤ k.H) (hw0 : outbuf[0]? = some (.app 0)) (hw1 : outbuf[1]? = some (.app 1))
    (hmax : 2 ≤ max) (hsf' : s.spareFull = false) (hrt : 2 ≤ s.rowsToGo) (hwf0 : wf (app 0)) (hwf1 : wf (app 1)) (hsp : wf s.spare) :
    ∃ s' app' ctr', k.merged2 outbuf s.ctr max (s, app) = some (ctr', 2, s', app') ∧ wf s'.spare ∧ s'.outScan = s.outScan ∧ s'.out = s.out ∧
      app' 0 = k.scan src line s.outScan ∧ app' 1 = k.scan src line (s.outScan + 1) ∧ (∀ i, 2 ≤ i → app' i = app i) ∧
      Live k src line g { (if ctr' ≥ k.M then { s' with bufferFull := false, ctr := 0 } else { s' with ctr := ctr' } : St R P) with outScan := s.outScan + 2 } := by
  have ht := h.togo hv
  have hpos := h.pos
  unfold Cfg.merged2
  rw [if_neg (by rw [hsf']; simp)]
  have hnum : min (min 2 s.rowsToGo) max = 2 := by omega
  obtain ⟨r1, r2, r3⟩ := rows_ok hk hl h.loaded h.ctr
  rw [hv] at r1
  have ry0 := r1 0 (by omega)
  have ry1 := r1 1 (by omega)
  rw [Nat.add_zero, Nat.add_zero] at ry0
  obtain ⟨c1, c2⟩ := scan2 hk hl h hsf' hv
  simp only [hw0, Option.bind_eq_bind, Option.bind_some, hnum]
  rw [if_pos (by omega)]
  simp only [hw1, Option.bind_some]
  unfold Cfg.up2
  have e1 := put_ok hl (t := s.outScan) (r := (s.inRow - 1) * k.lpi + s.ctr * 2) (q := (s.inRow - 1) * k.M + s.ctr) (l := .app 0) (s := s) (app := app) hwf0
  rw [c1] at e1
  have e2 := put_ok hl (t := s.outScan + 1) (r := (s.inRow - 1) * k.lpi + s.ctr * 2 + 1) (q := (s.inRow - 1) * k.M + s.ctr) (l := .app 1) (s := s) (app := fun j => if j = 0 then k.scan src line s.outScan else app j) (by simpa [getLoc] using hwf1)
  rw [c2] at e2
  simp only [ry0, ry1, r2, r3, Option.bind_eq_bind, Option.bind_some, e1]
  simp only [setLoc, e2, Option.bind_some]
  rw [if_neg (by simp)]
  refine ⟨_, _, _, rfl, hsp, rfl, rfl, by simp, by simp, ?_, ?_⟩
  · intro i hi
    rw [if_neg (by omega), if_neg (by omega)]
  · refine finish_live (o := 2) (ctr' := s.ctr + 1) h rfl ?_ (by have := h.ctr; omega) (Or.inl (by omega)) (fun hf => by simp at hf) (fun _ => ?_) hk.m
    · rw [hsf', hv] at hpos
      simp only [Bool.false_eq_true, if_false] at hpos
      simp only [hv]
      simp
      omega
    · simp only
      exact ⟨by omega, fun e => by have := ht.2 e; omega⟩

/-- merged_1v_upsample. -/
theorem merged1_ok {g : Bool} {s : St R P} {app : Nat → P} {outbuf : List Loc} {i0 : Nat} (h : Ready k src line g s) (hv : k.v = 1) (hw0 : outbuf[0]? = some (.app i0)) (hwf : wf (app i0)) (hsp : wf s.spare) :
    ∃ s' app' ctr', k.merged1 outbuf s.ctr (s, app) = some (ctr', 1, s', app') ∧ wf s'.spare ∧ s'.outScan = s.outScan ∧ s'.out = s.out ∧
      app' i0 = k.scan src line s.outScan ∧ (∀ i, i ≠ i0 → app' i = app i) ∧
      Live k src line g { (if ctr' ≥ k.M then { s' with bufferFull := false, ctr := 0 } else { s' with ctr := ctr' } : St R P) with outScan := s.outScan + 1 } := by
  have hsf' : s.spareFull = false := by
    cases hx : s.spareFull with
    | false => rfl
    | true => have := (h.spare hx).1; omega
  have hpos := h.pos
  obtain ⟨r1, r2, r3⟩ := rows_ok hk hl h.loaded h.ctr
  have ry0 := r1 0 (by omega)
  rw [hv, Nat.mul_one, Nat.add_zero, Nat.add_zero] at ry0
  have hscan : line s.outScan (src 0 ((s.inRow - 1) * k.lpi + s.ctr)) (src 1 ((s.inRow - 1) * k.M + s.ctr)) (src 2 ((s.inRow - 1) * k.M + s.ctr)) = k.scan src line s.outScan := by
    unfold Cfg.scan
    rw [hsf', hv] at hpos
    simp only [Bool.false_eq_true, if_false, Nat.add_zero, Nat.mul_one] at hpos
    rw [hv, Nat.div_one, hpos]
    unfold Cfg.lpi
    rw [hv, Nat.mul_one]
  unfold Cfg.merged1
  have e1 := put_ok hl (t := s.outScan) (r := (s.inRow - 1) * k.lpi + s.ctr) (q := (s.inRow - 1) * k.M + s.ctr) (l := .app i0) (s := s) (app := app) hwf
  rw [hscan] at e1
  simp only [ry0, r2, r3, hw0, Option.bind_eq_bind, Option.bind_some, e1]
  refine ⟨_, _, _, rfl, hsp, rfl, rfl, by simp [setLoc], fun i hi => by simp [setLoc, hi], ?_⟩
  refine finish_live (o := 1) (ctr' := s.ctr + 1) h rfl ?_ (by have := h.ctr; omega) (Or.inl (by omega)) (fun hf => ?_) (fun e => by omega) hk.m
  · rw [hsf', hv] at hpos ⊢
    simp only [Bool.false_eq_true, if_false] at hpos ⊢
    omega
  · simp only [setLoc, hsf'] at hf; simp at hf


/-- Before the upsampler is called the buffer is full. -/
theorem ready_of_full {g : Bool} {s : St R P} (h : Live k src line g s) (hf : s.bufferFull = true) : Ready k src line g s := by
  have hpos := h.pos
  rw [if_pos hf] at hpos
  have h0 := (h.ge hf).1
  refine ⟨hf, h0, h.ctr, ?_, h.loaded hf, fun e => ⟨(h.spare e).1, (h.spare e).2.2⟩, h.togo⟩
  have : s.inRow * k.lpi = (s.inRow - 1) * k.lpi + k.lpi := by
    rw [← Nat.succ_mul, Nat.succ_eq_add_one, Nat.sub_add_cancel h0]
  omega

theorem load_ready {g : Bool} {s : St R P} (h : Live k src line g s) (hf : s.bufferFull = false) (hp : s.outScan < k.H) :
    ∃ s', k.load src s = some s' ∧ Ready k src line g s' ∧ s'.outScan = s.outScan ∧ s'.out = s.out ∧ s'.spare = s.spare := by
  have hpos := h.pos
  rw [if_neg (by rw [hf]; simp)] at hpos
  have hH := H_le hk
  have hin : s.inRow < k.total := by
    apply Nat.lt_of_mul_lt_mul_right (a := k.lpi)
    omega
  have hsf : s.spareFull = false := by
    cases hx : s.spareFull with
    | false => rfl
    | true => have := (h.spare hx).2.1; rw [hf] at this; simp at this
  unfold Cfg.load
  rw [if_pos hin]
  refine ⟨_, rfl, ⟨rfl, Nat.succ_pos _, h.ctr, by simpa using hpos, ?_, ?_, h.togo⟩, rfl, rfl, rfl⟩
  · intro c i hi
    simp only [Nat.add_sub_cancel]
    rw [if_pos hi]
  · intro e
    simp only [hsf] at e
    simp at e

/-- When the upsampler may be called with `max` rows. -/
def RoomOk (k : Cfg R P) (g : Bool) (p max : Nat) : Prop := 1 ≤ max ∧ (g = true → k.v = 2 → 2 ∣ k.H ∨ p + max ≤ k.H)

theorem mainFull_ok {g : Bool} {s : St R P} {app : Nat → P} {max : Nat} (h : Ready k src line g s) (hp : s.outScan < k.H) (hroom : RoomOk k g s.outScan max) (hwf : ∀ i, i < max → wf (app i)) (hsp : wf s.spare) :
    ∃ o s' app', k.mainFull ((List.range max).map Loc.app) max (s, app) = some (o, s', app') ∧ 0 < o ∧ o ≤ max ∧ s.outScan + o ≤ k.H ∧ wf s'.spare ∧ s'.outScan = s.outScan ∧ s'.out = s.out ∧
      (∀ i, i < o → app' i = k.scan src line (s.outScan + i)) ∧ (∀ i, o ≤ i → app' i = app i) ∧ Live k src line g { s' with outScan := s.outScan + o } := by
  have hmax := hroom.1
  have hw0 : ((List.range max).map Loc.app)[0]? = some (.app 0) := by rw [List.getElem?_map, List.getElem?_range (by omega)]; rfl
  unfold Cfg.mainFull
  rcases hk.v with hv | hv
  · obtain ⟨s', app', ctr', e1, e2, e3, e4, e5, e6, e7⟩ := merged1_ok hk hl (i0 := 0) h hv hw0 (hwf 0 (by omega)) hsp
    have : k.merged ((List.range max).map Loc.app) s.ctr max (s, app) = some (ctr', 1, s', app') := by unfold Cfg.merged; rw [if_neg (by omega)]; exact e1
    simp only [this, Option.bind_eq_bind, Option.bind_some]
    refine ⟨1, if ctr' ≥ k.M then { s' with bufferFull := false, ctr := 0 } else { s' with ctr := ctr' }, app', by split <;> rfl, by omega, hmax, by omega, by split <;> exact e2, by split <;> exact e3, by split <;> exact e4, ?_, ?_, e7⟩
    · intro i hi
      rw [show i = 0 by omega]; exact e5
    · intro i hi
      exact e6 i (by omega)
  · by_cases hone : s.spareFull = true ∨ max = 1 ∨ s.rowsToGo = 1
    · obtain ⟨s', app', ctr', e1, e2, e3, e4, e5, e6, e7⟩ := merged2_one hk hl h hv hp hw0 hmax hone (hwf 0 (by omega)) hsp
      have : k.merged ((List.range max).map Loc.app) s.ctr max (s, app) = some (ctr', 1, s', app') := by unfold Cfg.merged; rw [if_pos hv]; exact e1
      simp only [this, Option.bind_eq_bind, Option.bind_some]
      refine ⟨1, if ctr' ≥ k.M then { s' with bufferFull := false, ctr := 0 } else { s' with ctr := ctr' }, app', by split <;> rfl, by omega, hmax, by omega, by split <;> exact e2, by split <;> exact e3, by split <;> exact e4, ?_, ?_, e7⟩
      · intro i hi
        rw [show i = 0 by omega]; exact e5 (by simp)
      · intro i hi
        exact e6 i (by simp; omega)
    · have ht := h.togo hv
      have hsf : s.spareFull = false := by
        cases hx : s.spareFull with
        | false => rfl
        | true => exact absurd (Or.inl hx) hone
      have hm2 : 2 ≤ max := by have : max ≠ 1 := fun e => hone (Or.inr (Or.inl e)); omega
      have hr2 : 2 ≤ s.rowsToGo := by have : s.rowsToGo ≠ 1 := fun e => hone (Or.inr (Or.inr e)); omega
      have hp2 : s.outScan + 2 ≤ k.H := by
        cases hg : g with
        | false => have := ht.2 hg; omega
        | true =>
          rcases hroom.2 hg hv with e | e
          · have hpos := h.pos
            rw [hsf, hv] at hpos
            simp only [Bool.false_eq_true, if_false, Nat.add_zero] at hpos
            have : (s.inRow - 1) * k.lpi = 2 * ((s.inRow - 1) * k.M) := by unfold Cfg.lpi; rw [hv]; ring
            omega
          · omega
      have hw1 : ((List.range max).map Loc.app)[1]? = some (.app 1) := by rw [List.getElem?_map, List.getElem?_range (by omega)]; rfl
      obtain ⟨s', app', ctr', e1, e2, e3, e4, e5, e6, e6', e7⟩ := merged2_two hk hl h hv hp2 hw0 hw1 hm2 hsf hr2 (hwf 0 (by omega)) (hwf 1 (by omega)) hsp
      have : k.merged ((List.range max).map Loc.app) s.ctr max (s, app) = some (ctr', 2, s', app') := by unfold Cfg.merged; rw [if_pos hv]; exact e1
      simp only [this, Option.bind_eq_bind, Option.bind_some]
      refine ⟨2, if ctr' ≥ k.M then { s' with bufferFull := false, ctr := 0 } else { s' with ctr := ctr' }, app', by split <;> rfl, by omega, hm2, hp2, by split <;> exact e2, by split <;> exact e3, by split <;> exact e4, ?_, e6', e7⟩
      intro i hi
      rcases (show i = 0 ∨ i = 1 by omega) with rfl | rfl
      · exact e5
      · exact e6

/-- jpeg_read_scanlines. -/
theorem read_ok {g : Bool} {s : St R P} {app : Nat → P} {max : Nat} (ok : Bool) (h : Inv k src wf line g s) (hroom : RoomOk k g s.outScan max) (hwf : ∀ i, i < max → wf (app i)) :
    ∃ o s' app', k.read src max ok app s = some (o, s', app') ∧ Inv k src wf line g s' ∧ s'.outScan = s.outScan + o ∧ o ≤ max ∧ (ok = true → s.outScan < k.H → 0 < o) ∧
      (∀ i, i < o → app' i = k.scan src line (s.outScan + i)) ∧ (∀ i, o ≤ i → app' i = app i) ∧ s'.out = s.out ++ (List.range o).map (fun i => k.scan src line (s.outScan + i)) := by
  unfold Cfg.read Cfg.readTo
  by_cases hge : s.outScan ≥ k.H
  · simp only [if_pos hge, Option.bind_eq_bind, Option.bind_some]
    refine ⟨0, s, app, by simp, h, rfl, Nat.zero_le _, fun _ hh => by omega, fun i hi => by omega, fun _ _ => rfl, by simp⟩
  · have hp : s.outScan < k.H := by omega
    have hL := h.live hp
    simp only [if_neg hge]
    have core : ∀ s1 : St R P, Ready k src line g s1 → s1.outScan = s.outScan → s1.out = s.out → s1.spare = s.spare →
        ∃ o s' app', k.mainFull ((List.range max).map Loc.app) max (s1, app) = some (o, s', app') ∧ Inv k src wf line g { s' with outScan := s'.outScan + o, out := s'.out ++ (List.range o).map app' } ∧ s'.outScan = s.outScan ∧ o ≤ max ∧ 0 < o ∧
          (∀ i, i < o → app' i = k.scan src line (s.outScan + i)) ∧ (∀ i, o ≤ i → app' i = app i) ∧ s'.out = s.out := by
      intro s1 h1 h2 h3 h4
      obtain ⟨o, s', app', e1, e2, e3, e4, e5, e6, e7, e8, e9, e10⟩ := mainFull_ok hk hl h1 (by rw [h2]; exact hp) (by rw [h2]; exact hroom) hwf (by rw [h4]; exact h.wf)
      rw [h2] at e4 e6 e8 e10
      refine ⟨o, s', app', e1, ⟨e5, by simp only; omega, fun _ => ?_⟩, e6, e3, e2, e8, e9, by rw [e7, h3]⟩
      simp only [e6]
      exact ⟨e10.ctr, e10.pos, e10.loaded, e10.ge, e10.spare, e10.empty, e10.togo⟩
    unfold Cfg.main
    cases hf : s.bufferFull with
    | true =>
      obtain ⟨o, s', app', e1, e2, e3, e4, e5, e6, e7, e8⟩ := core s (ready_of_full hk hl hL hf) rfl rfl rfl
      simp only [if_pos, e1, Option.bind_eq_bind, Option.bind_some]
      refine ⟨o, _, app', rfl, e2, by simp only [e3], e4, fun _ _ => e5, e6, e7, ?_⟩
      simp only [e8]
      congr 1
      apply List.map_congr_left
      intro i hi
      exact e6 i (List.mem_range.1 hi)
    | false =>
      simp only [Bool.false_eq_true, if_false]
      cases ok with
      | false =>
        simp only [Bool.false_eq_true, if_false, Option.bind_eq_bind, Option.bind_some]
        refine ⟨0, s, app, by simp, h, rfl, Nat.zero_le _, fun e => by simp at e, fun i hi => by omega, fun _ _ => rfl, by simp⟩
      | true =>
        obtain ⟨s1, l1, l2, l3, l4, l5⟩ := load_ready hk hl hL hf hp
        obtain ⟨o, s', app', e1, e2, e3, e4, e5, e6, e7, e8⟩ := core s1 l2 l3 l4 l5
        simp only [if_true, l1, e1, Option.bind_eq_bind, Option.bind_some]
        refine ⟨o, _, app', rfl, e2, by simp only [e3], e4, fun _ _ => e5, e6, e7, ?_⟩
        simp only [e8]
        congr 1
        apply List.map_congr_left
        intro i hi
        exact e6 i (List.mem_range.1 hi)

/-- read_and_discard_scanlines. -/
theorem discard_ok {g : Bool} (hv : k.v = 2) : ∀ (n : Nat) {s : St R P}, Inv k src wf line g s → s.outScan + n ≤ k.H →
    ∃ s', k.discard src n s = some s' ∧ Inv k src wf line g s' ∧ s'.outScan = s.outScan + n ∧ s'.out = s.out := by
  intro n
  induction n with
  | zero => intro s h _; exact ⟨s, rfl, h, rfl, rfl⟩
  | succ n ih =>
    intro s h hn
    have hp : s.outScan < k.H := by omega
    have hL := h.live hp
    have core : ∀ s1 : St R P, Ready k src line g s1 → s1.outScan = s.outScan → s1.out = s.out → s1.spare = s.spare →
        ∃ s' app', k.mainFull [Loc.spare] 1 (s1, fun _ => s.spare) = some (1, s', app') ∧ Inv k src wf line g { s' with outScan := s'.outScan + 1 } ∧ s'.outScan = s.outScan ∧ s'.out = s.out := by
      intro s1 h1 h2 h3 h4
      obtain ⟨s', app', ctr', e1, e2, e3, e4, e5, e6, e7⟩ := merged2_one hk hl (max := 1) (app := fun _ => s.spare) (outbuf := [Loc.spare]) h1 hv (by rw [h2]; exact hp) rfl (by omega) (Or.inr (Or.inl rfl)) (by simp only [getLoc, h4]; exact h.wf) (by rw [h4]; exact h.wf)
      have : k.merged [Loc.spare] s1.ctr 1 (s1, fun _ => s.spare) = some (ctr', 1, s', app') := by unfold Cfg.merged; rw [if_pos hv]; exact e1
      unfold Cfg.mainFull
      simp only [this, Option.bind_eq_bind, Option.bind_some]
      have hsc : (if ctr' ≥ k.M then { s' with bufferFull := false, ctr := 0 } else { s' with ctr := ctr' } : St R P).outScan = s.outScan := by split <;> (simp only [e3, h2])
      refine ⟨if ctr' ≥ k.M then { s' with bufferFull := false, ctr := 0 } else { s' with ctr := ctr' }, app', by split <;> rfl, ⟨?_, ?_, fun _ => ?_⟩, hsc, ?_⟩
      · simp only
        split <;> exact e2
      · simp only [hsc]; omega
      · simp only [hsc]
        rw [h2] at e7
        exact e7
      · split <;> (simp only [e4, h3])
    unfold Cfg.discard Cfg.readTo
    rw [if_pos hv]
    simp only [if_neg (show ¬ s.outScan ≥ k.H by omega)]
    unfold Cfg.main
    cases hf : s.bufferFull with
    | true =>
      obtain ⟨s', app', e1, e2, e3, e4⟩ := core s (ready_of_full hk hl hL hf) rfl rfl rfl
      simp only [if_pos, e1, Option.bind_eq_bind, Option.bind_some]
      obtain ⟨s2, f1, f2, f3, f4⟩ := ih e2 (by simp only [e3]; omega)
      exact ⟨s2, f1, f2, by rw [f3]; simp only [e3]; omega, by rw [f4]; exact e4⟩
    | false =>
      obtain ⟨s1, l1, l2, l3, l4, l5⟩ := load_ready hk hl hL hf hp
      obtain ⟨s', app', e1, e2, e3, e4⟩ := core s1 l2 l3 l4 l5
      simp only [Bool.false_eq_true, if_false, if_true, l1, e1, Option.bind_eq_bind, Option.bind_some]
      obtain ⟨s2, f1, f2, f3, f4⟩ := ih e2 (by simp only [e3]; omega)
      exact ⟨s2, f1, f2, by rw [f3]; simp only [e3]; omega, by rw [f4]; exact e4⟩


end
end Verif.Merge
