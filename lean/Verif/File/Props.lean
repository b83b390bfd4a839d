import Verif.File.Loop
/-
C56: a file written from coefficient arrays is read back with the same coefficient arrays, geometry, quantization tables and markers, and
the reader stops exactly at its end.
-/
namespace Verif.File
open Verif Verif.Huff Verif.Mark
open Verif.Geom (Pos Blk Frame inImage pad walk dMcu cPerScan cInitialSetup dInitialSetup)
open Verif.Prog (compIdx scanPar DecSt sentValue Complete)
open Verif.Arith (idx_facts SInv)
open Verif.Script (LegalProg LegalSeq)

/-! ### the headers are written -/

theorem dqtEach_some {q : Nat → Option (List Nat)} : ∀ (ns : List Nat) (sent : Nat → Bool), (∀ n ∈ ns, (q n).isSome = true) →
    ∃ r, dqtEach q ns sent = some r := by
  intro ns
  induction ns with
  | nil => intro sent _; exact ⟨_, rfl⟩
  | cons n ns ih =>
    intro sent h
    obtain ⟨v, hv⟩ := Option.isSome_iff_exists.1 (h n (by simp))
    obtain ⟨⟨p, b, s1⟩, hp⟩ : ∃ r, emitDqt q sent n = some r := by
      unfold emitDqt
      rw [hv]
      simp only
      split <;> exact ⟨_, rfl⟩
    obtain ⟨⟨p', b', s2⟩, hr⟩ := ih s1 (fun x hx => h x (by simp [hx]))
    unfold dqtEach
    rw [hp]
    simp only
    rw [hr]
    exact ⟨_, rfl⟩

theorem writeFrame_some {c : CS} (hq : ∀ k ∈ c.comps, (c.q k.tq).isSome = true) (hh : c.height ≤ 65535) (hw : c.width ≤ 65535)
    (hl : c.lossless = false) : ∃ b c', writeFrame c = some (b, c') := by
  obtain ⟨⟨p, b, s⟩, hd⟩ : ∃ r, frameDqt c = some r := by
    unfold frameDqt
    cases multiDqt c.fastest c.q c.qSent (c.comps.map (·.tq)) with
    | some r => exact ⟨r, rfl⟩
    | none =>
      simp only [hl, Bool.false_eq_true, if_false]
      apply dqtEach_some
      intro n hn
      obtain ⟨k, hk, rfl⟩ := List.mem_map.1 hn
      exact hq k hk
  obtain ⟨x, hx⟩ : ∃ x, emitSof c (sofCode c p) = some x := by
    unfold emitSof
    rw [if_neg (by omega)]
    exact ⟨_, rfl⟩
  unfold writeFrame
  rw [hd]
  simp only [hx]
  exact ⟨_, _, rfl⟩

theorem writeMarkers_some : ∀ (ms : List (Nat × List Nat)), (∀ x ∈ ms, x.2.length ≤ 65533) → ∃ b, writeMarkers ms = some b := by
  intro ms
  induction ms with
  | nil => intro _; exact ⟨_, rfl⟩
  | cons x ms ih =>
    intro h
    obtain ⟨c, d⟩ := x
    obtain ⟨b, hb⟩ := ih (fun x hx => h x (by simp [hx]))
    have hd : d.length ≤ 65533 := h (c, d) (by simp)
    unfold writeMarkers
    rw [hb]
    unfold writeMarker
    rw [if_neg (by omega)]
    exact ⟨_, rfl⟩

/-! ### scripts -/

theorem script_facts {prog : Bool} {n prec : Nat} (hn : 1 ≤ n) {script : List Script.Scan} (L : LegalFor prog n prec script) :
    (∃ s post, script = s :: post) ∧ (∀ i < n, ∃ s ∈ script, s.has i = true) := by
  have h2 : ∀ i < n, ∃ s ∈ script, s.has i = true := by
    intro i hi
    unfold LegalFor at L
    by_cases hp : prog = true
    · rw [if_pos hp] at L
      obtain ⟨s, hs, h⟩ := L.dcSent i hi
      unfold Script.Scan.covers at h
      rw [Bool.and_eq_true] at h
      exact ⟨s, hs, h.1⟩
    · rw [if_neg hp] at L
      have := L.once i hi
      obtain ⟨s, hs⟩ := List.exists_mem_of_length_pos (l := script.filter (·.has i)) (by omega)
      rw [List.mem_filter] at hs
      exact ⟨s, hs.1, hs.2⟩
  refine ⟨?_, h2⟩
  obtain ⟨s, hs, -⟩ := h2 0 hn
  cases script with
  | nil => cases hs
  | cons s post => exact ⟨s, post, rfl⟩

/-- has_multiple_scans is set when a sequential file has more than one. -/
theorem seq_multi {n : Nat} {s : Script.Scan} {post : List Script.Scan} (L : LegalSeq n (s :: post)) (hp : post ≠ []) :
    s.comps.length < n := by
  obtain ⟨t, post', rfl⟩ := List.exists_cons_of_ne_nil hp
  have hC := L.comps s (by simp)
  obtain ⟨-, -, h3, h4⟩ := hC
  by_contra hlt
  have hnd : (compIdx s).Nodup := by
    have := compIdx_incr (L.comps s (by simp))
    exact this.imp (fun h => Nat.ne_of_lt h)
  have hsub : compIdx s ⊆ List.range n := by
    intro i hi
    obtain ⟨c, hc, rfl⟩ := List.mem_map.1 hi
    have := h3 c hc
    rw [List.mem_range]
    omega
  have hperm : (compIdx s).Perm (List.range n) := by
    apply (List.subperm_of_subset hnd hsub).perm_of_length_le
    simp [compIdx]
    omega
  obtain ⟨ct, hct⟩ := List.exists_mem_of_length_pos (l := t.comps) (by have := (L.comps t (by simp)).1; omega)
  have hr := (L.comps t (by simp)).2.2.1 ct hct
  have hmem : ct.toNat ∈ compIdx s := hperm.mem_iff.2 (List.mem_range.2 (by omega))
  have hc0 : ((ct.toNat : Nat) : Int) = ct := by omega
  have e1 : t.has ct.toNat = true := by
    unfold Script.Scan.has
    rw [hc0]
    simpa using hct
  have e2 : s.has ct.toNat = true := by
    obtain ⟨c, hc, e⟩ := List.mem_map.1 hmem
    have := h3 c hc
    unfold Script.Scan.has
    rw [show ((ct.toNat : Nat) : Int) = c by omega]
    simpa using hc
  have := L.once ct.toNat (by omega)
  simp [e1, e2] at this

/-! ### C56 -/

/-- The reader has what the writer was given.  `st` is what jpeg_read_coefficients returns. -/
structure Reproduced (proc : Nat → Proc) (j : Job) (prog : Bool) (got : Got) : Prop where
  /-- dimensions, precision, components (identifiers, sampling factors, quantization table numbers) -/
  dims : got.mem .width = j.c.width ∧ got.mem .height = j.c.height ∧ got.mem .prec = j.c.prec ∧ got.mem .ncomp = j.c.comps.length
  comps : ∀ i (h : i < j.c.comps.length), got.mem (.cId i) = j.c.comps[i].id ∧ got.mem (.cH i) = j.c.comps[i].h ∧
    got.mem (.cV i) = j.c.comps[i].v ∧ got.mem (.cTq i) = j.c.comps[i].tq
  mode : (got.mem .prog = if prog then 1 else 0) ∧ (got.mem .arith = if j.c.arith then 1 else 0)
  /-- the quantization table of every component -/
  quant : ∀ i (h : i < j.c.comps.length), ∃ v, j.c.q j.c.comps[i].tq = some v ∧ got.quant i = some v
  jfif : JfifIs j.jfif got.mem
  adobe : AdobeIs j.adobe got.mem
  saved : got.saved = savedHead proc j.jfif j.adobe ++ j.markers.flatMap fun x => savedOf proc x.1 x.2
  /-- no warning of an entropy decoder -/
  warns : got.st.warns = 0
  /-- every coefficient block of the image, as far as the script sends it -/
  coefs : ∀ p : Pos, inImage got.frame p = true →
    (prog = false → got.st.img p = j.img p) ∧
    (prog = true → ∀ k < 64, (got.st.img p).getD (natOrder.getD k 0) 0 = sentValue j.script p.1 k ((j.img p).getD (natOrder.getD k 0) 0)) ∧
    (prog = true → Complete j.c.comps.length j.script → got.st.img p = j.img p)

/-- **C56.**  Every legal job, sequential or progressive, Huffman or arithmetic coding, with given or optimized tables, any restart
interval, is written without error; and the marker reader and entropy decoders, given the file followed by anything, read it scan after
scan to its end: the same geometry, quantization tables and markers, the coefficient arrays coefficient for coefficient, no warnings,
and the input left exactly behind the EOI marker. -/
theorem file_roundtrip (proc : Nat → Proc) (hproc : ProcStd proc) (j : Job) (prog : Bool) (f : Frame) (J : LegalJob j prog f) :
    ∃ bytes, writeImage j = some bytes ∧ ∀ junk, (j.c.arith = false → IsBytes junk) →
      ∃ got, readImage proc (bytes ++ junk) = some got ∧ got.frame = f ∧ Reproduced proc j prog got ∧ got.rest = junk := by
  obtain ⟨L, hn1, hnl⟩ := legal_of J
  have hf := J.frame
  unfold Job.frame at hf
  obtain ⟨hsize, hprec256⟩ : (1 ≤ j.c.width ∧ 1 ≤ j.c.height ∧ j.c.width ≤ 65500 ∧ j.c.height ≤ 65500) ∧ j.c.prec < 256 := by
    have := J.prec
    unfold cInitialSetup at hf
    simp only at hf
    split at hf
    · cases hf
    split at hf
    · cases hf
    omega
  obtain ⟨⟨s, post, hscript⟩, hall⟩ := script_facts hn1 L
  -- file header, markers, frame header
  have hOk : (start j.c prog).Ok := ⟨⟨hn1, by show j.c.comps.length ≤ 10; have := J.ncomp; omega⟩, hsize.2.1, hsize.1, hprec256, J.fits,
    (by intro h; cases h), J.qLegal, J.hLegal⟩
  obtain ⟨mb, hmb⟩ := writeMarkers_some j.markers (fun x hx => (J.markers x hx).2)
  obtain ⟨fb, c1, hfb⟩ := writeFrame_some (c := (writeFile (start j.c prog) j.jfif j.adobe).2) J.quant
    (by show j.c.height ≤ 65535; omega) (by show j.c.width ≤ 65535; omega) rfl
  have hm : Fresh (fun _ => 0) := ⟨rfl, rfl, rfl, rfl⟩
  obtain ⟨m1, s1, r1, j1, a1, ri1, o1⟩ := C10_file_header proc hproc (start j.c prog) (fun _ => 0) hm j.jfif J.jfif j.adobe J.adobe
  obtain ⟨m2, s2, r2, o2, e2⟩ := C41_saved_markers proc hproc j.markers m1 r1 (fun x hx => (J.markers x hx).1.1) mb hmb
  have e2 := e2 (fun x hx => (J.markers x hx).1.2)
  subst e2
  have hsync : Synced (writeFile (start j.c prog) j.jfif j.adobe).2 m2 := by
    refine ⟨?_, ?_, ri1⟩
    · intro n h; cases h
    · intro a n h; cases h
  have hc1 : (writeFile (start j.c prog) j.jfif j.adobe).2.Ok :=
    ⟨hOk.comps, hOk.height, hOk.width, hOk.prec, hOk.fits, hOk.mode, hOk.q, hOk.h⟩
  have hsof : m2 .sawSOF = 0 := by rw [o1 _ (by simp [Slot.soi, Slot.app])]
  obtain ⟨m3, s3, r3, f3, y3, q3, ec, o3⟩ := frame_step (proc := proc) hc1 r2 hsof hsync hfb
  have hA : Agree c1 m3 := by
    refine ⟨?_, r3, f3, y3, ?_⟩
    · rw [ec]; exact ⟨hOk.comps, hOk.height, hOk.width, hOk.prec, hOk.fits, hOk.mode, hOk.q, hOk.h⟩
    · intro hl
      exact q3 (by rw [ec] at hl; exact hl)
  have hW : WInv j prog c1 := by
    refine ⟨?_, ?_, ?_, ?_⟩
    · rw [ec]; rfl
    · intro _; rw [ec]; rfl
    · intro _; rw [ec]; rfl
    · intro _ _ _ k _ h; rw [ec] at h; cases h
  have hD : DInv prog f j.img [] DecSt.init := by
    unfold DInv
    split
    · exact Prog.inv_init f j.img
    · refine ⟨rfl, ?_, fun _ _ => rfl⟩
      rintro p ⟨s, hs, -⟩ _
      cases hs
  have hlat : LatInv j.c [] (fun _ => none) := by
    intro i
    refine ⟨?_, fun _ => rfl⟩
    rintro ⟨s, hs, -⟩
    cases hs
  obtain ⟨b, d, B, c', m4, c3, w1, w2, w3, w4, W3, A3, o4, sc, ⟨dd, hdd, hread⟩, hscans⟩ :=
    scans_step J proc post [] s c1 m3 DecSt.init (fun _ => none) hscript hW hA hD hlat
  generalize hhead : (writeFile (start j.c prog) j.jfif j.adobe).1 ++ mb ++ fb = head at *
  have hwr : writeImage j = some (head ++ ((b ++ d) ++ B) ++ mark 0xD9) := by
    unfold writeImage
    rw [J.mode, J.frame]
    simp only [hmb, hfb, hscript, w1, Option.map_some]
    rw [hhead]
  refine ⟨_, hwr, ?_⟩
  intro junk hjunk
  have hp3 : c3.prog = prog := by rw [W3.same]; rfl
  have hmulti : post ≠ [] → (decide (m4 .nScan < m4 .ncomp) || m4 .prog != 0) = true := by
    intro hpost
    have hnc : m4 .ncomp = j.c.comps.length := by rw [A3.frame.ncomp, W3.same]; rfl
    unfold LegalFor at L
    by_cases hp : prog = true
    · have := A3.frame.prog
      rw [hp3, hp, if_pos rfl] at this
      rw [this]
      simp
    · rw [if_neg hp, hscript] at L
      have h1 := seq_multi L hpost
      have h2 : m4 .nScan = s.comps.length := by
        have := congrArg (fun x => x.comps.length) sc
        simpa [scanOf] using this
      simp [hnc, h2, h1]
  obtain ⟨got, hgot, F⟩ := hscans junk (savedHead proc j.jfif j.adobe ++ j.markers.flatMap fun x => savedOf proc x.1 x.2)
    ((head ++ ((b ++ d) ++ B) ++ mark 0xD9 ++ junk).length + 1) _ (by simp; omega) hmulti hjunk
  refine ⟨got, ?_, F.frame, ?_, F.rest⟩
  · -- reading
    have hsos : readMarkers proc (RS.init (head ++ ((b ++ d) ++ B) ++ mark 0xD9 ++ junk)) =
        .sos (at_ m4 (d ++ (B ++ mark 0xD9 ++ junk)) (savedHead proc j.jfif j.adobe ++ j.markers.flatMap fun x => savedOf proc x.1 x.2)) := by
      have hsplit : head ++ ((b ++ d) ++ B) ++ mark 0xD9 ++ junk = head ++ (b ++ (d ++ (B ++ mark 0xD9 ++ junk))) := by simp
      have hs := (s1.trans s2).trans s3.s
      rw [hhead] at hs
      obtain ⟨jj, hj', e⟩ := hs (b ++ (d ++ (B ++ mark 0xD9 ++ junk))) []
      rw [hsplit]
      unfold readMarkers
      rw [show (RS.init (head ++ (b ++ (d ++ (B ++ mark 0xD9 ++ junk))))).src.length = (head ++ (b ++ (d ++ (B ++ mark 0xD9 ++ junk)))).length from rfl,
        show RS.init (head ++ (b ++ (d ++ (B ++ mark 0xD9 ++ junk)))) = at_ (fun _ => 0) (head ++ (b ++ (d ++ (B ++ mark 0xD9 ++ junk)))) [] from rfl]
      have hfuel : (head ++ (b ++ (d ++ (B ++ mark 0xD9 ++ junk)))).length + 2 =
          ((head.length - jj) + (b.length - dd) + (d ++ (B ++ mark 0xD9 ++ junk)).length + 1 + 1 + dd) + jj := by
        rw [List.length_append, List.length_append]
        omega
      rw [hfuel, e, List.nil_append, List.append_nil, hread]
    unfold readImage
    rw [hsos]
    simp only
    have FR := A3.frame
    have g1 : m4 .width = j.c.width := by rw [FR.width, W3.same]; rfl
    have g2 : m4 .height = j.c.height := by rw [FR.height, W3.same]; rfl
    have g3 : m4 .prec = j.c.prec := by rw [FR.prec, W3.same]; rfl
    have g4 : m4 .ncomp = j.c.comps.length := by rw [FR.ncomp, W3.same]; rfl
    have g5 : m4 .lossless = 0 := by rw [FR.lossless, W3.same]; rfl
    have g6 : c3.comps = j.c.comps := by rw [W3.same]; rfl
    have hfac : (List.range (m4 .ncomp)).map (fun i => (m4 (.cH i), m4 (.cV i))) = facs j.c := by
      rw [g4]
      unfold facs
      apply List.ext_getElem (by simp)
      intro i h1 h2
      simp only [List.length_map, List.length_range] at h1
      have := FR.comps i (by rw [g6]; exact h1)
      simp only [List.getElem_map, List.getElem_range]
      rw [this.2.1, this.2.2.1]
      simp only [g6]
    rw [show (at_ m4 (d ++ (B ++ mark 0xD9 ++ junk)) (savedHead proc j.jfif j.adobe ++ j.markers.flatMap fun x => savedOf proc x.1 x.2)).mem = m4 from rfl]
    rw [if_neg (by rw [g5]; simp), g1, g2, g3, hfac]
    rw [(Geom.geometry_agrees _ _ _ _ _ _ _ hf).1]
    simp only
    exact hgot
  · -- what was read
    obtain ⟨c9, W9, A9⟩ := F.agree
    have FR := A9.frame
    have g6 : c9.comps = j.c.comps := by rw [W9.same]; rfl
    have gq : c9.q = j.c.q := by rw [W9.same]; rfl
    have happ : ∀ x : Slot, x.app → got.mem x = m2 x := by
      intro x hx
      have hns : ¬ scanSlot x := by
        rintro (⟨a, n, h⟩ | h | rfl | h)
        · cases x <;> simp [Slot.app] at hx <;> simp [Slot.isH] at h
        · cases x <;> simp [Slot.app] at hx <;> simp [Slot.cond] at h
        · exact hx
        · cases x <;> simp [Slot.app] at hx <;> simp [Slot.scan] at h
      rw [F.off x hns, o4 x hns, o3 x (by
        rintro (⟨n, h⟩ | h)
        · cases x <;> simp [Slot.app] at hx <;> simp [Slot.isQ] at h
        · cases x <;> simp [Slot.app] at hx <;> simp [Slot.frame] at h)]
    refine ⟨⟨by rw [FR.width, W9.same]; rfl, by rw [FR.height, W9.same]; rfl, by rw [FR.prec, W9.same]; rfl, by rw [FR.ncomp, g6]⟩, ?_,
      ⟨by rw [FR.prog, W9.same]; rfl, by rw [FR.arith, W9.same]; rfl⟩, ?_, ?_, ?_, F.saved, ?_, ?_⟩
    · intro i hi
      have := FR.comps i (by rw [g6]; exact hi)
      simp only [g6] at this
      exact this
    · intro i hi
      obtain ⟨v, hv⟩ := Option.isSome_iff_exists.1 (J.quant _ (List.getElem_mem hi))
      refine ⟨v, hv, ?_⟩
      obtain ⟨t, ht, hti⟩ := hall i hi
      have hidx := (idx_facts hnl (scan_par L ht).1).2.2 i
      rw [(F.lat i).1 ⟨t, ht, hidx.2 hti⟩]
      unfold compOf
      rw [List.getD_eq_getElem?_getD, List.getElem?_eq_getElem hi]
      exact hv
    · unfold JfifIs at j1 ⊢
      cases hj : j.jfif with
      | none => rw [hj] at j1; simp only at j1 ⊢; rw [happ .sawJFIF trivial]; exact j1
      | some v =>
        rw [hj] at j1
        obtain ⟨a, b, u, x, y⟩ := v
        simp only at j1 ⊢
        rw [happ .sawJFIF trivial, happ .jMajor trivial, happ .jMinor trivial, happ .dUnit trivial, happ .xDen trivial, happ .yDen trivial]
        exact j1
    · unfold AdobeIs at a1 ⊢
      cases hj : j.adobe with
      | none => rw [hj] at a1; simp only at a1 ⊢; rw [happ .sawAdobe trivial]; exact a1
      | some t =>
        rw [hj] at a1
        simp only at a1 ⊢
        rw [happ .sawAdobe trivial, happ .adobe trivial]
        exact a1
    · have := F.st
      unfold DInv at this
      split at this
      · exact this.warns
      · exact this.warns
    · intro p hp
      rw [F.frame] at hp
      have hp1 : p.1 < j.c.comps.length := by
        rw [hnl]
        unfold inImage at hp
        simp only [Bool.and_eq_true, decide_eq_true_eq] at hp
        exact hp.1.1
      have I := F.st
      unfold DInv at I
      unfold LegalFor at L
      refine ⟨?_, ?_, ?_⟩
      · intro hprog
        rw [if_neg (by simp [hprog])] at I
        obtain ⟨t, ht, hti⟩ := hall p.1 hp1
        exact I.sent p ⟨t, ht, hti⟩ hp
      · intro hprog
        rw [if_pos hprog] at I
        exact I.val p hp
      · intro hprog hcomp
        rw [if_pos hprog] at I L
        exact Prog.exact_of_complete L hcomp hp1 (J.coefs p hp).1 (I.len p) (I.val p hp)

/-- **C56**, transcoding: the coefficient arrays read from one file and written with any other legal choice of script, entropy coder,
tables and restart interval are read back the same: a chain of lossless transcodings ends with the coefficients it began with. -/
theorem file_transcode (proc : Nat → Proc) (hproc : ProcStd proc) (j : Job) (prog : Bool) (f : Frame) (J : LegalJob j prog f)
    (hall : prog = true → Complete j.c.comps.length j.script) :
    ∃ bytes got, writeImage j = some bytes ∧ readImage proc bytes = some got ∧
      ∀ (j' : Job) (prog' : Bool), LegalJob j' prog' f → (prog' = true → Complete j'.c.comps.length j'.script) → j'.img = got.st.img →
        ∃ bytes' got', writeImage j' = some bytes' ∧ readImage proc bytes' = some got' ∧ got'.st.warns = 0 ∧
          ∀ p : Pos, inImage f p = true → got'.st.img p = j.img p := by
  obtain ⟨bytes, h1, h2⟩ := file_roundtrip proc hproc j prog f J
  obtain ⟨got, g1, g2, g3, -⟩ := h2 [] (fun _ => by intro x hx; cases hx)
  rw [List.append_nil] at g1
  refine ⟨bytes, got, h1, g1, ?_⟩
  intro j' prog' J' hall' himg
  obtain ⟨bytes', h1', h2'⟩ := file_roundtrip proc hproc j' prog' f J'
  obtain ⟨got', g1', g2', g3', -⟩ := h2' [] (fun _ => by intro x hx; cases hx)
  rw [List.append_nil] at g1'
  refine ⟨bytes', got', h1', g1', g3'.warns, ?_⟩
  intro p hp
  have a := g3.coefs p (by rw [g2]; exact hp)
  have b := g3'.coefs p (by rw [g2']; exact hp)
  have a' : got.st.img p = j.img p := by
    cases prog with
    | false => exact a.1 rfl
    | true => exact a.2.2 rfl (hall rfl)
  have b' : got'.st.img p = j'.img p := by
    cases prog' with
    | false => exact b.1 rfl
    | true => exact b.2.2 rfl (hall' rfl)
  rw [b', himg, a']

end Verif.File
