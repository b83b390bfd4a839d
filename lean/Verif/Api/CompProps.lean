import Verif.Api.Comp
/-
C29, compression side: theorems.
-/
namespace Verif.Api.C

theorem mHeader_bad {o : Obj} {h : List Event} (i : Inv o h) (ok : Bool) :
    (o.mHeader ok).2 = .badState ↔ ¬∃ x, session h = some x ∧ x.rows = 0 := by
  unfold Obj.mHeader
  by_cases hc : o.next ≠ 0 ∨ (o.gs ≠ 101 ∧ o.gs ≠ 102 ∧ o.gs ≠ 103)
  · rw [if_pos hc]
    refine ⟨fun _ => ?_, fun _ => rfl⟩
    rintro ⟨x, hx, hr⟩
    obtain ⟨-, h4, h5, -⟩ := i.busy x hx
    rcases hc with hc | hc
    · exact hc (h5.trans hr)
    · rw [h4] at hc
      cases hk : x.kind <;> rw [hk] at hc <;> simp [kindGs] at hc
  · rw [if_neg hc]
    have hn : o.next = 0 := by
      apply Decidable.byContradiction; intro h; exact hc (Or.inl h)
    have hg : ∃ k, o.gs = kindGs k := by
      by_cases h1 : o.gs = 101
      · exact ⟨.scanlines, h1⟩
      · by_cases h2 : o.gs = 102
        · exact ⟨.raw, h2⟩
        · by_cases h3 : o.gs = 103
          · exact ⟨.coefs, h3⟩
          · exact absurd (Or.inr ⟨h1, h2, h3⟩) hc
    obtain ⟨k, hk⟩ := hg
    obtain ⟨s, hs, -⟩ := busy_of_gs i k hk
    obtain ⟨-, -, h5, -, h7, -⟩ := i.busy s hs
    rw [if_neg (by simp [h7])]
    constructor
    · intro h; cases ok <;> simp at h
    · intro h; exact absurd ⟨s, hs, by rw [← h5]; exact hn⟩ h

theorem alive_of {o : Obj} {h : List Event} (i : Inv o h) (hg : gone h = false) : o.alive = true := by rw [i.alive, hg]; rfl

theorem gs_start_iff {o : Obj} {h : List Event} (i : Inv o h) (hg : gone h = false) : o.gs = 100 ↔ session h = none :=
  ⟨i.start_none, i.idle (alive_of i hg)⟩

theorem gs_kind_iff {o : Obj} {h : List Event} (i : Inv o h) (k : Kind) : o.gs = kindGs k ↔ ∃ x, session h = some x ∧ x.kind = k := by
  constructor
  · exact busy_of_gs i k
  · rintro ⟨x, hx, rfl⟩; exact (i.busy x hx).2.1

/-- **C29**: on an existing object, after any calls, a call is refused with JERR_BAD_STATE exactly when the documented order does not permit it
(all calls but jpeg_write_m_byte, which is not checked at all). -/
theorem C29_comp_order (cs : List Call) (hg : gone (history cs).2 = false) (c : Call) (ha : ArgsOk (history cs).1.cfg c) (hm : c ≠ .writeMByte) :
    (step (history cs).1 c).2 = .badState ↔ ¬ Permitted (session (history cs).2) c := by
  have i := history_inv cs
  generalize (history cs).1 = o at *
  generalize (history cs).2 = h at *
  have hal := alive_of i hg
  have hst := gs_start_iff i hg
  cases c with
  | create => simp [step, Permitted]
  | destroy => simp [step, Permitted]
  | abort => simp [step, Permitted]
  | suppressTables => simp [step, Permitted, hal]
  | param ok =>
    simp only [step, Permitted, ← hst]
    by_cases hs : o.gs = 100
    · simp only [hs, ne_eq, not_true_eq_false, if_false, iff_false]; cases ok <;> simp
    · simp [hs]
  | start c w =>
    simp only [step, Permitted, ← hst]
    by_cases hs : o.gs = 100
    · simp only [hs, ne_eq, not_true_eq_false, if_false, iff_false]; cases w <;> simp
    · simp [hs]
  | writeCoefs c w =>
    have hl : c.lossless = false := ha
    simp only [step, Permitted, ← hst, hal, hl]
    by_cases hs : o.gs = 100
    · simp only [hs, ne_eq, not_true_eq_false, if_false, iff_false]; cases w <;> simp
    · simp [hs]
  | writeTables ok =>
    simp only [step, Permitted, ← hst]
    by_cases hs : o.gs = 100
    · simp only [hs, ne_eq, not_true_eq_false, if_false, iff_false]; cases ok <;> simp
    · simp [hs]
  | writeScanlines p n w =>
    have hp : p = o.cfg.prec := ha
    simp only [step, Permitted, hp]
    rw [← gs_kind_iff i .scanlines]
    by_cases hs : o.gs = 101
    · simp only [hs, kindGs, ne_eq, not_true_eq_false, if_false, iff_false]; cases w <;> simp
    · simp [hs, kindGs]
  | writeRaw p n w =>
    obtain ⟨hp, hl⟩ : p = o.cfg.prec ∧ o.cfg.lossless = false := ha
    simp only [step, Permitted, hp, hal, hl]
    rw [← gs_kind_iff i .raw]
    by_cases hs : o.gs = 102
    · simp only [hs, kindGs, ne_eq, not_true_eq_false, if_false, iff_false, Bool.false_eq_true]
      by_cases h1 : o.next ≥ o.cfg.height
      · simp [h1]
      · simp only [h1, if_false]
        by_cases h2 : n < o.cfg.maxV * 8
        · simp [h2]
        · simp only [h2, if_false]
          cases w with
          | none => simp
          | some b => cases b <;> simp
    · simp [hs, kindGs]
  | writeMarker ok => exact mHeader_bad i ok
  | writeMHeader ok => exact mHeader_bad i ok
  | writeMByte => exact absurd rfl hm
  | writeIcc len ok =>
    have hl : len ≠ 0 := ha
    simp only [step, if_neg hl, Permitted]
    by_cases hs : o.gs < 101
    · rw [if_pos hs]
      refine ⟨fun _ => ?_, fun _ => rfl⟩
      rintro ⟨x, hx, -⟩
      have := (i.busy x hx).2.1
      cases hk : x.kind <;> rw [hk] at this <;> simp only [kindGs] at this <;> omega
    · rw [if_neg hs]; exact mHeader_bad i ok
  | finish ok =>
    simp only [step, Permitted]
    have hiff : (o.gs = 101 ∨ o.gs = 102) ∨ o.gs = 103 ↔ session h ≠ none := by
      constructor
      · intro hh hn
        have := i.idle hal hn
        omega
      · intro hh
        cases e : session h with
        | none => exact absurd e hh
        | some s =>
          have := (i.busy s e).2.1
          cases hk : s.kind <;> rw [hk] at this <;> simp only [kindGs] at this <;> omega
    rw [← hiff]
    by_cases h1 : o.gs = 101 ∨ o.gs = 102
    · rw [if_pos h1]
      constructor
      · intro hh
        by_cases h2 : o.next < o.cfg.height
        · rw [if_pos h2] at hh; simp at hh
        · rw [if_neg h2] at hh; cases ok <;> simp at hh
      · intro hh; exact absurd (Or.inl h1) hh
    · rw [if_neg h1]
      by_cases h2 : o.gs = 103
      · rw [if_neg (by simp [h2])]
        constructor
        · intro hh; cases ok <;> simp at hh
        · intro hh; exact absurd (Or.inr h2) hh
      · rw [if_pos h2]
        exact ⟨fun _ => by simp [h1, h2], fun _ => rfl⟩

/-- A refused call has no effect. -/
theorem C29_comp_refused (o : Obj) (c : Call) (h : (step o c).2 = .badState) : (step o c).1 = o := by
  cases c with
  | create => simp [step] at h
  | destroy => simp [step] at h
  | abort => simp [step] at h
  | writeMarker ok => exact mHeader_same o ok
  | writeMHeader ok => exact mHeader_same o ok
  | writeIcc len ok =>
    simp only [step] at h ⊢
    by_cases h1 : len = 0
    · rw [if_pos h1]
    · rw [if_neg h1]
      by_cases h2 : o.gs < 101
      · rw [if_pos h2]
      · rw [if_neg h2]; exact mHeader_same o ok
  | _ =>
    simp only [step] at h ⊢
    repeat' split at h
    all_goals first
      | (simp only [Res.badState, reduceCtorEq] at h; done)
      | simp_all

/-- On an existing object no call uses a null or freed pointer, except jpeg_write_m_byte outside an image. -/
theorem C29_comp_no_crash (cs : List Call) (hg : gone (history cs).2 = false) (c : Call) (hm : c = .writeMByte → session (history cs).2 ≠ none) :
    (step (history cs).1 c).2 ≠ .crash := by
  have i := history_inv cs
  generalize (history cs).1 = o at *
  generalize (history cs).2 = h at *
  have hal := alive_of i hg
  have hmh : ∀ ok, (o.mHeader ok).2 ≠ .crash := by
    intro ok
    unfold Obj.mHeader
    by_cases hc : o.next ≠ 0 ∨ (o.gs ≠ 101 ∧ o.gs ≠ 102 ∧ o.gs ≠ 103)
    · rw [if_pos hc]; simp
    · rw [if_neg hc]
      have : session h ≠ none := fun hn => hc (Or.inr (by have := i.idle hal hn; omega))
      cases e : session h with
      | none => exact absurd e this
      | some s =>
        rw [if_neg (by simp [(i.busy s e).2.2.2.2.1])]
        cases ok <;> simp
  cases c with
  | create => simp [step]
  | destroy => simp [step]
  | abort => simp [step]
  | writeMarker ok => exact hmh ok
  | writeMHeader ok => exact hmh ok
  | writeIcc len ok =>
    simp only [step]
    by_cases h1 : len = 0
    · rw [if_pos h1]; simp
    · rw [if_neg h1]
      by_cases h2 : o.gs < 101
      · rw [if_pos h2]; simp
      · rw [if_neg h2]; exact hmh ok
  | writeMByte =>
    cases e : session h with
    | none => exact absurd e (hm rfl)
    | some s => simp [step, (i.busy s e).2.2.2.2.1]
  | _ =>
    simp only [step]
    repeat' split
    all_goals simp_all

/-- jpeg_finish_compress succeeds only on an open image all of whose rows have been taken, or whose coefficients were given; it does
succeed then if the remaining work does, and closes the image. -/
theorem C29_comp_finish (cs : List Call) (hg : gone (history cs).2 = false) (ok : Bool) :
    (∃ n, (step (history cs).1 (.finish ok)).2 = .ok n) ↔
      ok = true ∧ ∃ s, session (history cs).2 = some s ∧ (s.kind = .coefs ∨ s.height ≤ s.rows) := by
  have i := history_inv cs
  generalize (history cs).1 = o at *
  generalize (history cs).2 = h at *
  have hal := alive_of i hg
  simp only [step]
  cases e : session h with
  | none =>
    have := i.idle hal e
    rw [if_neg (by omega), if_pos (by omega)]
    simp
  | some s =>
    obtain ⟨-, h4, h5, h6, -⟩ := i.busy s e
    cases hk : s.kind with
    | coefs =>
      rw [hk] at h4
      simp only [kindGs] at h4
      rw [if_neg (by omega), if_neg (by omega)]
      cases ok <;> simp [hk]
    | scanlines =>
      rw [hk] at h4
      simp only [kindGs] at h4
      rw [if_pos (by omega), h5, h6]
      by_cases hn : s.rows < s.height
      · rw [if_pos hn]; simp [hk]; intro _; exact hn
      · rw [if_neg hn]; cases ok <;> simp [hk]; omega
    | raw =>
      rw [hk] at h4
      simp only [kindGs] at h4
      rw [if_pos (by omega), h5, h6]
      by_cases hn : s.rows < s.height
      · rw [if_pos hn]; simp [hk]; intro _; exact hn
      · rw [if_neg hn]; cases ok <;> simp [hk]; omega

/-- jpeg_write_scanlines never takes more than image_height rows of an image, over any sequence of calls. -/
theorem C29_comp_rows (cs : List Call) (s : Sess) (hs : session (history cs).2 = some s) (hk : s.kind = .scanlines) : s.rows ≤ s.height :=
  ((history_inv cs).busy s hs).2.2.2.2.2.2.1 hk

/-- A marker is accepted before the first row-writing call only if the headers have not been written. -/
theorem C29_comp_marker_before_sos (cs : List Call) (s : Sess) (hs : session (history cs).2 = some s) (ht : s.tried = false) :
    (history cs).1.sos = false := by
  have := ((history_inv cs).busy s hs).2.2.2.2.2.1
  cases h : (history cs).1.sos with
  | false => rfl
  | true => rw [this h] at ht; simp at ht

/-! ### Reuse -/

/-- Objects that cannot be told apart by calls. -/
def Same (o o' : Obj) : Prop :=
  o = o' ∨ (o.cfg = o'.cfg ∧ o.alive = o'.alive ∧ o.gs = o'.gs ∧ (o.marker = .live ↔ o'.marker = .live) ∧
    (o.gs = 100 ∧ o.alive = true ∨ o.gs = 0 ∧ o.alive = false))

theorem Same.step {o o' : Obj} (h : Same o o') (c : Call) : (step o c).2 = (step o' c).2 ∧ Same (step o c).1 (step o' c).1 := by
  rcases h with rfl | ⟨h1, h2, h3, h4, h5⟩
  · exact ⟨rfl, Or.inl rfl⟩
  obtain ⟨gs, nx, cfg, mk, al, so⟩ := o
  obtain ⟨gs', nx', cfg', mk', al', so'⟩ := o'
  dsimp only at h1 h2 h3 h4 h5
  subst h1 h2 h3
  have hS : Same ⟨gs, nx, cfg, mk, al, so⟩ ⟨gs, nx', cfg, mk', al, so'⟩ := Or.inr ⟨rfl, rfl, rfl, h4, h5⟩
  have hgs : gs = 100 ∨ gs = 0 := by rcases h5 with h | h <;> omega
  have hd : ∀ m : Ptr, ¬ (if m = .live then .dangling else m) = Ptr.live := by
    intro m; cases m <;> decide
  have hmh : ∀ (o : Obj) ok, o.gs = gs → o.mHeader ok = (o, .badState) := by
    intro o ok hh
    unfold Obj.mHeader
    rw [if_pos (Or.inr (by omega))]
  have hab : Same (Obj.abort ⟨gs, nx, cfg, mk, al, so⟩) (Obj.abort ⟨gs, nx', cfg, mk', al, so'⟩) := by
    unfold Obj.abort
    by_cases ha : al = true
    · subst ha
      exact Or.inr ⟨rfl, rfl, rfl, iff_of_false (hd _) (hd _), Or.inl ⟨rfl, rfl⟩⟩
    · rw [if_neg ha, if_neg ha]; exact hS
  cases c with
  | create => exact ⟨rfl, Or.inl rfl⟩
  | destroy => exact ⟨rfl, Or.inr ⟨rfl, rfl, rfl, iff_of_false (hd _) (hd _), Or.inr ⟨rfl, rfl⟩⟩⟩
  | abort => exact ⟨rfl, hab⟩
  | writeMarker ok =>
    simp only [C.step]
    rw [hmh ⟨gs, nx, cfg, mk, al, so⟩ ok rfl, hmh ⟨gs, nx', cfg, mk', al, so'⟩ ok rfl]; exact ⟨rfl, hS⟩
  | writeMHeader ok =>
    simp only [C.step]
    rw [hmh ⟨gs, nx, cfg, mk, al, so⟩ ok rfl, hmh ⟨gs, nx', cfg, mk', al, so'⟩ ok rfl]; exact ⟨rfl, hS⟩
  | writeMByte =>
    simp only [C.step]
    by_cases hm : mk = .live
    · rw [if_neg (by simp [hm]), if_neg (by simp [h4.mp hm])]; exact ⟨rfl, hS⟩
    · rw [if_pos hm, if_pos (fun h => hm (h4.mpr h))]; exact ⟨rfl, hS⟩
  | _ =>
    rcases h5 with ⟨rfl, rfl⟩ | ⟨rfl, rfl⟩
    all_goals
      simp only [C.step]
      repeat' split
      all_goals first
        | exact ⟨rfl, hS⟩
        | exact ⟨rfl, Or.inl rfl⟩
        | exact ⟨rfl, Or.inr ⟨rfl, rfl, rfl, h4, Or.inl ⟨rfl, rfl⟩⟩⟩
        | exact ⟨rfl, Or.inr ⟨rfl, rfl, rfl, Iff.rfl, Or.inl ⟨rfl, rfl⟩⟩⟩
        | omega
        | simp_all

/-- Results of a sequence of calls. -/
def results (o : Obj) : List Call → List Res
  | [] => []
  | c :: cs => (step o c).2 :: results (step o c).1 cs

theorem Same.results {o o' : Obj} (h : Same o o') (cs : List Call) : results o cs = results o' cs := by
  induction cs generalizing o o' with
  | nil => rfl
  | cons c cs ih =>
    obtain ⟨h1, h2⟩ := h.step c
    simp only [C.results]
    rw [h1, ih h2]

/-- After any calls on an existing object, aborting it, or finishing an image successfully, gives an object on which every further sequence of
calls has the same results as on a newly created object with the same parameter fields. -/
theorem C29_comp_reuse (cs : List Call) (hg : gone (history cs).2 = false) (c : Call)
    (hc : c = .abort ∨ ∃ ok n, c = .finish ok ∧ (step (history cs).1 c).2 = .ok n) (ds : List Call) :
    results (step (history cs).1 c).1 ds = results { Obj.fresh with cfg := (history cs).1.cfg } ds := by
  have i := history_inv cs
  generalize (history cs).1 = o at *
  generalize (history cs).2 = h at *
  have hal := alive_of i hg
  have hab : results o.abort ds = results { Obj.fresh with cfg := o.cfg } ds := by
    apply Same.results
    unfold Obj.abort
    rw [if_pos hal]
    refine Or.inr ⟨rfl, hal, rfl, ?_, Or.inl ⟨rfl, hal⟩⟩
    dsimp only
    constructor
    · intro h; split at h
      · simp at h
      · contradiction
    · intro h; simp [Obj.fresh] at h
  rcases hc with rfl | ⟨ok, n, rfl, hr⟩
  · exact hab
  · have : (step o (.finish ok)).1 = o.abort := by
      simp only [step] at hr ⊢
      by_cases h1 : o.gs = 101 ∨ o.gs = 102
      · rw [if_pos h1] at hr ⊢
        by_cases h2 : o.next < o.cfg.height
        · rw [if_pos h2] at hr; simp at hr
        · rw [if_neg h2] at hr ⊢; cases ok <;> simp at hr ⊢
      · rw [if_neg h1] at hr ⊢
        by_cases h2 : o.gs ≠ 103
        · rw [if_pos h2] at hr; simp at hr
        · rw [if_neg h2] at hr ⊢; cases ok <;> simp at hr ⊢
    rw [this]; exact hab

/-! ### Where the order is not enforced -/

/-- jpeg_write_m_byte on a new object, and on one whose image is finished, uses a null and a freed pointer. -/
theorem C29_m_byte_unchecked : results .fresh [.writeMByte] = [.crash] ∧
    results .fresh [.start ⟨1, false, 8, false, 1, false⟩ .done, .writeScanlines 8 1 (some 1), .finish true, .writeMByte] =
      [.ok 0, .ok 1, .ok 0, .crash] := by decide

/-- jpeg_write_m_byte after rows have been taken is accepted: the byte goes into the compressed data. -/
theorem C29_m_byte_in_data : results .fresh [.start ⟨2, false, 8, false, 1, false⟩ .done, .writeScanlines 8 1 (some 1), .writeMByte] =
    [.ok 0, .ok 1, .ok 0] := by decide

/-- A row-writing call that takes no row (zero rows passed, or suspension) still writes the headers; a marker is then accepted and lands
after the start of the scan. -/
theorem C29_marker_after_sos : let cs := [.start ⟨2, false, 8, false, 1, false⟩ .done, .writeScanlines 8 0 (some 0)]
    (history cs).1.sos = true ∧ (step (history cs).1 (.writeMarker true)).2 = .ok 0 := by decide

/-- On a destroyed object some calls use freed memory instead of raising JERR_BAD_STATE. -/
theorem C29_destroyed_unchecked : results .fresh [.destroy, .writeCoefs ⟨1, false, 8, false, 1, false⟩ .done, .writeRaw 8 8 none, .suppressTables,
    .writeMByte, .start ⟨1, false, 8, false, 1, false⟩ .done, .finish true, .abort, .destroy] =
    [.ok 0, .crash, .crash, .crash, .crash, .badState, .badState, .ok 0, .ok 0] := by decide

/-! ### Examples -/

/-- An image of three rows, a wrong call in between, an abort, and the same again. -/
example : results .fresh [.param true, .start ⟨3, false, 8, false, 1, false⟩ .done, .writeMarker true, .start ⟨3, false, 8, false, 1, false⟩ .done,
    .writeScanlines 8 2 (some 2), .writeMarker true, .finish true, .writeScanlines 8 5 (some 5), .finish true, .finish true,
    .start ⟨3, true, 8, false, 2, false⟩ .done, .writeScanlines 8 1 (some 1), .writeRaw 8 16 (some true), .abort, .writeRaw 8 16 (some true),
    .writeCoefs ⟨3, true, 8, false, 2, false⟩ .done, .writeIcc 100 true, .finish true] =
    [.ok 0, .ok 0, .ok 0, .badState, .ok 2, .badState, .err, .ok 1, .ok 0, .badState, .ok 0, .badState, .ok 16, .ok 0, .badState, .ok 0, .ok 0,
      .ok 0] := by decide

/-- Hypotheses of `C29_comp_order`, `_rows`, `_marker_before_sos`. -/
example : let cs := [.start ⟨3, false, 8, false, 1, false⟩ .done, .writeScanlines 8 2 (some 2)]
    gone (history cs).2 = false ∧ session (history cs).2 = some ⟨.scanlines, 3, 2, true⟩ ∧ (history cs).1.cfg.prec = 8 := by decide

end Verif.Api.C
