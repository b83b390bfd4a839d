import Verif.File.Scans
/-
C56: the reader goes over all scans of the file.
-/
namespace Verif.File
open Verif Verif.Huff Verif.Mark
open Verif.Geom (Pos Blk Frame inImage pad walk dMcu cPerScan cInitialSetup)
open Verif.Prog (compIdx scanPar DecSt)
open Verif.Arith (idx_facts SInv mcus_way)

/-- The marker reader resumed at a marker found by the entropy decoder behaves like one that finds the marker itself. -/
theorem resume_loop {proc : Nat → Proc} {m : Mem} (hr : Ready m) {mk : Nat} (h0 : mk ≠ 0) (hff : mk ≠ 0xFF) (src rest : List Nat)
    (saved : List Saved) (k : Nat) :
    readLoop proc (k + 1) (resume (at_ m src saved) mk rest 0) = readLoop proc (k + 1) (at_ m (0xFF :: mk :: rest) saved) := by
  rw [readLoop_succ, readLoop_succ, got_mark hr h0 hff]
  have e : resume (at_ m src saved) mk rest 0 = at_ (inMk m mk) rest saved := by
    unfold resume at_
    simp only
    congr 1
    funext x
    by_cases hx : x = .warns
    · subst hx
      rfl
    · rw [apply_notin (by simp; exact fun e => hx e.symm)]
  have g : (at_ (inMk m mk) rest saved).got = .cont (at_ (inMk m mk) rest saved) := by
    unfold RS.got
    have : (at_ (inMk m mk) rest saved).mem .unread = mk := rfl
    rw [if_neg (by rw [this]; exact h0)]
  rw [e, g]

/-- The same for read_markers. -/
theorem resume_read {proc : Nat → Proc} {m : Mem} (hr : Ready m) {mk : Nat} (h0 : mk ≠ 0) (hff : mk ≠ 0xFF) (src rest : List Nat)
    (saved : List Saved) :
    readMarkers proc (resume (at_ m src saved) mk rest 0) = readLoop proc ((0xFF :: mk :: rest).length) (at_ m (0xFF :: mk :: rest) saved) := by
  unfold readMarkers
  rw [show (resume (at_ m src saved) mk rest 0).src.length + 2 = (rest.length + 1) + 1 from rfl,
    show (0xFF :: mk :: rest).length = (rest.length + 1) + 1 from rfl]
  exact resume_loop hr h0 hff src rest saved _

/-- The quantization tables the decoder has latched after the scans `pre`. -/
def LatInv (c : CS) (pre : List Script.Scan) (lat : Nat → Option (List Nat)) : Prop :=
  ∀ i, ((∃ s ∈ pre, i ∈ compIdx s) → lat i = c.q (compOf c i).tq) ∧ ((¬ ∃ s ∈ pre, i ∈ compIdx s) → lat i = none)

theorem range_getD {v : List Nat} (h : v.length = 64) : (List.range 64).map (fun k => v.getD k 0) = v := by
  apply List.ext_getElem?
  intro i
  by_cases hi : i < 64
  · rw [List.getElem?_map, List.getElem?_range hi]
    rw [List.getElem?_eq_getElem (by omega)]
    simp [List.getD_eq_getElem?_getD, List.getElem?_eq_getElem (show i < v.length by omega)]
  · rw [List.getElem?_eq_none (by simp; omega), List.getElem?_eq_none (by omega)]

theorem latch_ok {j : Job} {prog : Bool} {f : Frame} (J : LegalJob j prog f) {c : CS} (W : WInv j prog c) {m : Mem} (A : Agree c m)
    {s : Script.Scan} (hs : scanOf m = s) (hidx : ∀ i ∈ compIdx s, i < j.c.comps.length) {pre : List Script.Scan}
    {lat : Nat → Option (List Nat)} (hl : LatInv j.c pre lat) :
    ∃ lat', latch m lat = some lat' ∧ LatInv j.c (pre ++ [s]) lat' := by
  have e0 := W.same
  have f4 : c.comps = j.c.comps := by rw [e0]; rfl
  have f5 : c.lossless = false := by rw [e0]; rfl
  have fq : c.q = j.c.q := by rw [e0]; rfl
  have Q : ∀ i ∈ compIdx s, m (.cTq i) < 4 ∧ m (.qDef (m (.cTq i))) = 1 ∧
      some ((List.range 64).map fun k => m (.q (m (.cTq i)) k)) = j.c.q (compOf j.c i).tq := by
    intro i hi
    have hi' := hidx i hi
    obtain ⟨v, v1, v2⟩ := A.quant f5 i (by rw [f4]; exact hi')
    have hc := (A.frame.comps i (by rw [f4]; exact hi')).2.2.2
    have ek : c.comps[i]'(by rw [f4]; exact hi') = compOf j.c i := by
      unfold compOf
      rw [List.getD_eq_getElem?_getD, List.getElem?_eq_getElem hi']
      simp only [f4, Option.getD_some]
    rw [ek] at v1 hc
    rw [fq] at v1
    have hfit := (J.fits _ (compOf_mem hi')).2.2.2
    refine ⟨by rw [hc]; exact hfit, v2.1, ?_⟩
    rw [v1, ← range_getD (J.qLegal _ _ v1).1]
    congr 1
    apply List.map_congr_left
    intro k hk
    exact v2.2 k (List.mem_range.1 hk)
  unfold latch
  rw [hs, if_pos]
  · refine ⟨_, rfl, ?_⟩
    intro i
    obtain ⟨l1, l2⟩ := hl i
    by_cases hp : ∃ t ∈ pre, i ∈ compIdx t
    · constructor
      · intro _
        have e := l1 hp
        by_cases hn : lat i = none
        · by_cases hi : i ∈ compIdx s
          · simp only
            rw [if_pos ⟨hi, hn⟩]
            exact (Q i hi).2.2
          · simp only
            rw [if_neg (fun h => hi h.1)]
            exact e
        · simp only
          rw [if_neg (fun h => hn h.2)]
          exact e
      · intro h
        exfalso
        apply h
        obtain ⟨t, ht, hi⟩ := hp
        exact ⟨t, by simp [ht], hi⟩
    · have hn := l2 hp
      by_cases hi : i ∈ compIdx s
      · constructor
        · intro _
          simp only
          rw [if_pos ⟨hi, hn⟩]
          exact (Q i hi).2.2
        · intro h
          exfalso
          exact h ⟨s, by simp, hi⟩
      · constructor
        · rintro ⟨t, ht, hti⟩
          exfalso
          rcases List.mem_append.1 ht with ht | ht
          · exact hp ⟨t, ht, hti⟩
          · simp at ht
            subst ht
            exact hi hti
        · intro _
          simp only
          rw [if_neg (fun h => hi h.1)]
          exact hn
  · rw [List.all_eq_true]
    intro i hi
    obtain ⟨a1, a2, -⟩ := Q i hi
    rw [a2]
    simp [a1]

/-- Slots a scan header may change. -/
def scanSlot (x : Slot) : Prop := x.anyH ∨ x.cond ∨ x = .ri ∨ x.scan

/-- What the reader has after the last scan. -/
structure Final (j : Job) (prog : Bool) (f : Frame) (m1 : Mem) (saved : List Saved) (junk : List Nat) (got : Got) : Prop where
  frame : got.frame = f
  saved : got.saved = saved
  rest : got.rest = junk
  st : DInv prog f j.img j.script got.st
  lat : LatInv j.c j.script got.quant
  off : Off scanSlot m1 got.mem
  agree : ∃ c3, WInv j prog c3 ∧ Agree c3 got.mem

theorem starts_eoi {B : List Nat} (h : Starts B) (junk : List Nat) :
    ∃ mk t, B ++ mark 0xD9 ++ junk = 0xFF :: mk :: t ∧ 0 < mk ∧ mk < 0xFF := by
  rcases h with rfl | ⟨mk, t, rfl, h⟩
  · exact ⟨0xD9, junk, rfl, by omega, by omega⟩
  · exact ⟨mk, t ++ mark 0xD9 ++ junk, by simp, h⟩

theorem writeOne_some {j : Job} {f : Frame} {c c2 c3 : CS} {s : Script.Scan} {g : Geom.Scan} {ms : List (List Blk)} {b d : List Nat}
    (hg : cPerScan f (compIdx s) = .ok g) (hm : (j.way c.prog).mcus f g j.img = some ms)
    (r1 : retab (j.opt c.prog) (setRi j.rir g c) s g ms = some c2) (w1 : writeScan c2 (cscan s) = some (b, c3))
    (d1 : encData c2 s g ms = some d) : writeOne j f c s = some (b ++ d, c3) := by
  unfold writeOne
  simp only [hg, hm, r1, w1, d1, Option.map_some]

theorem scans_step {j : Job} {prog : Bool} {f : Frame} (J : LegalJob j prog f) (proc : Nat → Proc) :
    ∀ (post pre : List Script.Scan) (s : Script.Scan) (c : CS) (m : Mem) (st : DecSt) (lat : Nat → Option (List Nat)),
      j.script = pre ++ s :: post → WInv j prog c → Agree c m → DInv prog f j.img pre st → LatInv j.c pre lat →
    ∃ b d B c' m1 c3, writeScans j f (s :: post) c = some ((b ++ d) ++ B, c') ∧
      (∃ mk t, b = 0xFF :: mk :: t ∧ 0 < mk ∧ mk < 0xFF) ∧
      (j.c.arith = false → IsBytes b ∧ IsBytes d ∧ IsBytes B) ∧ post.length ≤ B.length ∧
      WInv j prog c3 ∧ Agree c3 m1 ∧ Off scanSlot m m1 ∧ scanOf m1 = s ∧
      (∃ dd, dd ≤ b.length ∧ ∀ rest saved k, readLoop proc (k + 1 + dd) (at_ m (b ++ rest) saved) = .sos (at_ m1 rest saved)) ∧
      ∀ junk saved k multi, post.length + 1 ≤ k → (post ≠ [] → multi = true) → (j.c.arith = false → IsBytes junk) →
        ∃ got, readScans proc f multi k (at_ m1 (d ++ (B ++ mark 0xD9 ++ junk)) saved) st lat = some got ∧
          Final j prog f m1 saved junk got := by
  intro post
  induction post with
  | nil =>
    intro pre s c m st lat hsc W A D hlat
    obtain ⟨L, hn1, hnl⟩ := legal_of J
    have hs : s ∈ j.script := by rw [hsc]; simp
    obtain ⟨g, hg⟩ := J.blocks s hs
    obtain ⟨c2, b, c3, m1, r1, w1, W3, k1, k2, k3, k4, hU, hb, hbb, S, H, dd, hdd, hread⟩ := one_header J hsc W A D hg proc
    have L' := L
    rw [hsc] at L'
    obtain ⟨hC, hN, -⟩ := scan_par L' (s := s) (by simp)
    have hf := J.frame
    unfold Job.frame at hf
    have G := (Geom.good_of_setup hf).1
    have hidx := (idx_facts hnl hC).1
    have hlt : ∀ i ∈ compIdx s, (compOf c2 i).dc < 16 ∧ (compOf c2 i).ac < 16 := by
      intro i hi
      have := compOf_mem (c := c2) (i := i) (by rw [k4, hnl]; exact hidx i hi)
      rw [k4] at this
      by_cases ha : j.c.arith = true
      · exact (J.arith ha).2 _ this
      · have := J.huff (by simpa using ha) _ this
        omega
    obtain ⟨d, d1, d2, d3⟩ := data_step J.prec hf J.coefs hnl hg k2 H L' D k1 hlt hU
    rw [k3] at d2 d3
    have hprog : c.prog = prog := by rw [W.same]; rfl
    have hw : writeScans j f [s] c = some ((b ++ d) ++ [], c3) := by
      have h := writeOne_some hg (by rw [hprog]; exact mcus_way G hidx hg j.img (j.way prog)) (by rw [hprog]; exact r1) w1 d1
      rw [writeScans, h]
      rfl
    refine ⟨b, d, [], c3, m1, c3, hw, hb, ?_, by simp, W3, S.agree, S.off, H.scan, ⟨dd, hdd, hread⟩, ?_⟩
    · intro ha
      exact ⟨hbb ha, d2 ha, by intro x hx; cases hx⟩
    · intro junk saved k multi hk _ hjunk
      obtain ⟨k, rfl⟩ : ∃ k', k = k' + 1 := ⟨k - 1, by simp at hk; omega⟩
      obtain ⟨lat', t1, t2⟩ := latch_ok J W3 S.agree H.scan (fun i hi => by rw [hnl]; exact hidx i hi) hlat
      obtain ⟨st', I', e⟩ := d3 0xD9 junk (by omega) (by omega) hjunk
      refine ⟨⟨f, m1, saved, st', lat', junk⟩, ?_, rfl, rfl, rfl, by rw [hsc]; exact I', by rw [hsc]; exact t2, Off.refl _, c3, W3, S.agree⟩
      unfold readScans
      rw [show (at_ m1 (d ++ ([] ++ mark 0xD9 ++ junk)) saved).mem = m1 from rfl, t1]
      rw [show (at_ m1 (d ++ ([] ++ mark 0xD9 ++ junk)) saved).src = d ++ 0xFF :: 0xD9 :: junk from rfl, e]
      simp only
      rw [resume_read S.agree.ready (by omega) (by omega)]
      have := eoi_stop (proc := proc) S.agree.ready junk saved (junk.length + 1)
      rw [show (0xFF :: 0xD9 :: junk).length = (junk.length + 1) + 1 from rfl,
        show at_ m1 (0xFF :: 0xD9 :: junk) saved = at_ m1 (mark 0xD9 ++ junk) saved from rfl, this]
      rfl
  | cons s' post ih =>
    intro pre s c m st lat hsc W A D hlat
    obtain ⟨L, hn1, hnl⟩ := legal_of J
    have hs : s ∈ j.script := by rw [hsc]; simp
    obtain ⟨g, hg⟩ := J.blocks s hs
    obtain ⟨c2, b, c3, m1, r1, w1, W3, k1, k2, k3, k4, hU, hb, hbb, S, H, dd, hdd, hread⟩ := one_header J hsc W A D hg proc
    have L' := L
    rw [hsc] at L'
    obtain ⟨hC, hN, -⟩ := scan_par L' (s := s) (by simp)
    have hf := J.frame
    unfold Job.frame at hf
    have G := (Geom.good_of_setup hf).1
    have hidx := (idx_facts hnl hC).1
    have hlt : ∀ i ∈ compIdx s, (compOf c2 i).dc < 16 ∧ (compOf c2 i).ac < 16 := by
      intro i hi
      have := compOf_mem (c := c2) (i := i) (by rw [k4, hnl]; exact hidx i hi)
      rw [k4] at this
      by_cases ha : j.c.arith = true
      · exact (J.arith ha).2 _ this
      · have := J.huff (by simpa using ha) _ this
        omega
    obtain ⟨d, d1, d2, d3⟩ := data_step J.prec hf J.coefs hnl hg k2 H L' D k1 hlt hU
    rw [k3] at d2 d3
    have hprog : c.prog = prog := by rw [W.same]; rfl
    obtain ⟨lat', t1, t2⟩ := latch_ok J W3 S.agree H.scan (fun i hi => by rw [hnl]; exact hidx i hi) hlat
    have hsc' : j.script = (pre ++ [s]) ++ s' :: post := by rw [hsc]; simp
    -- the bytes do not depend on what the reader does
    obtain ⟨st0, I0, -⟩ := d3 0xD9 [] (by omega) (by omega) (fun _ => by intro x hx; cases hx)
    obtain ⟨b0, d0, B0, c0, m0, c30, h1, h2, h3, h4, -⟩ := ih (pre ++ [s]) s' c3 m1 st0 lat' hsc' W3 S.agree I0 t2
    have hw : writeScans j f (s :: s' :: post) c = some ((b ++ d) ++ ((b0 ++ d0) ++ B0), c0) := by
      have h := writeOne_some hg (by rw [hprog]; exact mcus_way G hidx hg j.img (j.way prog)) (by rw [hprog]; exact r1) w1 d1
      rw [writeScans, h]
      simp only [h1, Option.map_some]
    refine ⟨b, d, (b0 ++ d0) ++ B0, c0, m1, c3, hw, hb, ?_, ?_, W3, S.agree, S.off, H.scan, ⟨dd, hdd, hread⟩, ?_⟩
    · intro ha
      obtain ⟨x1, x2, x3⟩ := h3 ha
      exact ⟨hbb ha, d2 ha, isBytes_append (isBytes_append x1 x2) x3⟩
    · obtain ⟨mk, t, rfl, -⟩ := h2
      simp only [List.length_append, List.length_cons] at h4 ⊢
      omega
    · intro junk saved k multi hk hmulti hjunk
      obtain ⟨k, rfl⟩ : ∃ k', k = k' + 1 := ⟨k - 1, by simp at hk; omega⟩
      have hmul := hmulti (by simp)
      obtain ⟨mk, t, hX, hmk⟩ : ∃ mk t, (b0 ++ d0 ++ B0) ++ mark 0xD9 ++ junk = 0xFF :: mk :: t ∧ 0 < mk ∧ mk < 0xFF := by
        apply starts_eoi
        obtain ⟨mk, t, rfl, h⟩ := h2
        exact Or.inr ⟨mk, t ++ d0 ++ B0, by simp, h⟩
      have hbt : j.c.arith = false → IsBytes t := by
        intro ha
        obtain ⟨x1, x2, x3⟩ := h3 ha
        have := isBytes_append (isBytes_append (isBytes_append (isBytes_append x1 x2) x3) (isBytes_mark (mk := 0xD9) (by omega))) (hjunk ha)
        rw [hX] at this
        intro x hx
        exact this x (by simp [hx])
      obtain ⟨st', I', e⟩ := d3 mk t hmk.1 hmk.2 hbt
      obtain ⟨b1, e1, B1, c1, m2, c31, y1, y2, y3, y4, W4, A4, o4, sc4, ⟨dd', hdd', hread'⟩, y5⟩ :=
        ih (pre ++ [s]) s' c3 m1 st' lat' hsc' W3 S.agree I' t2
      have heq : b1 ++ e1 ++ B1 = b0 ++ d0 ++ B0 := by
        rw [h1] at y1
        simp only [Option.some.injEq, Prod.mk.injEq] at y1
        exact y1.1.symm
      obtain ⟨got, z1, z2⟩ := y5 junk saved k multi (by simp at hk ⊢; omega) (fun _ => hmul) hjunk
      refine ⟨got, ?_, z2.frame, z2.saved, z2.rest, z2.st, z2.lat, ?_, z2.agree⟩
      · rw [readScans]
        rw [show (at_ m1 (d ++ ((b0 ++ d0 ++ B0) ++ mark 0xD9 ++ junk)) saved).mem = m1 from rfl, t1]
        rw [show (at_ m1 (d ++ ((b0 ++ d0 ++ B0) ++ mark 0xD9 ++ junk)) saved).src = d ++ ((b0 ++ d0 ++ B0) ++ mark 0xD9 ++ junk) from rfl, hX, e]
        simp only
        rw [resume_read S.agree.ready (by omega) (by omega)]
        have hY : 0xFF :: mk :: t = b1 ++ (e1 ++ (B1 ++ mark 0xD9 ++ junk)) := by
          rw [← hX, ← heq]
          simp
        rw [hY]
        have hlen : (b1 ++ (e1 ++ (B1 ++ mark 0xD9 ++ junk))).length = ((b1 ++ (e1 ++ (B1 ++ mark 0xD9 ++ junk))).length - 1 - dd') + 1 + dd' := by
          obtain ⟨mk', t', rfl, -⟩ := y2
          simp only [List.length_append, List.length_cons] at hdd' ⊢
          simp [mark]
          omega
        rw [hlen, hread']
        simp only
        rw [hmul, if_pos rfl, ← hmul]
        exact z1
      · intro x hx
        rw [z2.off x hx, o4 x hx]

end Verif.File
