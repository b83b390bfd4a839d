import Verif.Prog.Image
import Verif.Huff.OptRound
/-
C02 with the tables the library itself makes (jcmaster.c:1079-1085: progressive mode implies optimize_coding), and
concrete cases.
-/
namespace Verif.Prog
open Verif Verif.Huff
open Verif.Geom (Pos Blk Frame inImage pad walk dMcu cPerScan cInitialSetup twopassMcus)

/-- finish_pass_gather_phuff (jcphuff.c:1085-1118): the tables of a scan, from the counters of its statistics pass.
The counters preset for trellis passes (jcphuff.c:271-280) are not modelled. -/
def optCfg (prec : Nat) (f : Frame) (img : Pos → Blk) (x : Script.Scan × Cfg) : Script.Scan × Cfg :=
  match cPerScan f (compIdx x.1) with
  | .error _ => x
  | .ok g =>
    let evs := (gatherPScan prec (scanPar g x.1 x.2) (twopassMcus f g img)).getD []
    (x.1, { x.2 with dcT := Opt.optTbl evs true, acT := Opt.optTbl evs false })

theorem tokEvents_shape {p : SPar} {ts : List Tok} {Q : Nat → Prop} (h : ∀ y ∈ ts, TokShape p.tbls Q y)
    {e : SymEvent} (he : e ∈ tokEvents (p.Ss == 0) ts) : e.isDC = (p.Ss == 0) ∧ Q e.sym := by
  unfold tokEvents at he
  obtain ⟨y, hy, e'⟩ := List.mem_filterMap.1 he
  cases y with
  | sym t s =>
    simp only [Option.some.injEq] at e'
    subst e'
    exact ⟨rfl, (h _ hy).2⟩
  | bits c n => simp at e'
  | rst n => simp at e'

theorem tabs_opt {prec : Nat} (hprec : prec ≤ 12) (p : SPar) (hband : p.Ss ≠ 0 → p.Se < 64) (W : List (List Pos))
    (hfit : p.Fits W) (E : Pos → Blk) (hE : ∀ q ∈ W.flatten, InRange prec (E q)) :
    ∃ evs, gatherPScan prec p (W.map (fun ps => ps.map E)) = some evs ∧
      ((∀ d n, Opt.total (Opt.optFreq evs d n) < 9227464) →
        TabsOk prec (Opt.optTbl evs true) (Opt.optTbl evs false) p (W.map (fun ps => ps.map E))) := by
  obtain ⟨ts, e, hsh⟩ := scan_toks hprec p hband W hfit E hE
  refine ⟨tokEvents (p.Ss == 0) ts, by unfold gatherPScan; rw [e]; rfl, ?_⟩
  intro hT
  generalize hev : tokEvents (p.Ss == 0) ts = evs at hT
  have hsh' : ∀ x ∈ evs, x.isDC = (p.Ss == 0) ∧ (if p.Ss = 0 then (· ≤ 15) else ACSym) x.sym := by
    intro x hx
    rw [← hev] at hx
    exact tokEvents_shape hsh hx
  have hDC : p.Ss = 0 → ∀ n, _ := fun h0 n => Opt.optTbl_ok (evs := evs) (d := true) (n := n) (maxsym := 15) (k := 16)
    (fun s => decide (s ≤ 15)) (by decide +kernel) (by omega) (by intro s _ h; simpa using h)
    (by
      intro s _ hm
      have := (hsh' _ hm).2
      rw [if_pos h0] at this
      simpa using this) (hT true n)
  have hAC : p.Ss ≠ 0 → ∀ n, _ := fun h0 n => Opt.optTbl_ok (evs := evs) (d := false) (n := n) (maxsym := 255) (k := 240)
    (fun s => decide (s % 16 ≤ 14)) (by decide +kernel) (by omega) (by intro s h _; omega)
    (by
      intro s _ hm
      have := (hsh' _ hm).2
      rw [if_neg h0] at this
      simpa using this.2) (hT false n)
  refine ⟨?_, ?_, ?_⟩
  · intro t _
    unfold SPar.tab
    by_cases h0 : p.Ss = 0
    · rw [if_pos h0]; exact ⟨(hDC h0 t).2.1, (hDC h0 t).2.2.1⟩
    · rw [if_neg h0]; exact ⟨(hAC h0 t).2.1, (hAC h0 t).2.2.1⟩
  · intro t _
    unfold SPar.mkC SPar.tab
    by_cases h0 : p.Ss = 0
    · rw [if_pos h0, if_pos h0]
      obtain ⟨c, hc, -⟩ := (hDC h0 t).2.2.2
      exact ⟨c, hc⟩
    · rw [if_neg h0, if_neg h0]
      obtain ⟨c, hc, -⟩ := (hAC h0 t).2.2.2
      exact ⟨c, hc⟩
  · intro evs' he
    rw [gatherPScan, e] at he
    simp only [Option.map_some, Option.some.injEq] at he
    rw [hev] at he
    subst he
    intro x hx
    obtain ⟨h1, h2⟩ := hsh' x hx
    obtain ⟨d, t, s⟩ := x
    simp only at h1 h2 ⊢
    by_cases h0 : p.Ss = 0
    · have hd : d = true := by rw [h1, h0]; rfl
      subst hd
      rw [if_pos h0] at h2
      obtain ⟨c, hc, hcs⟩ := (hDC h0 t).2.2.2
      simp only [if_true]
      exact ⟨c, hc, hcs s (by omega) hx⟩
    · have hd : d = false := by rw [h1]; simpa using h0
      subst hd
      rw [if_neg h0] at h2
      obtain ⟨c, hc, hcs⟩ := (hAC h0 t).2.2.2
      simp only [Bool.false_eq_true, if_false]
      exact ⟨c, hc, hcs s h2.1 hx⟩


/-- The walk of a legal scan fits its parameters. -/
theorem scan_layout {w ht ic prec : Nat} {fs : List (Nat × Nat)} {f : Frame}
    (h : cInitialSetup false w ht ic prec fs = .ok f) {img : Pos → Blk}
    (himg : ∀ p : Pos, inImage f p = true → InRange prec (img p)) {n : Nat} (hn : n = f.comps.length)
    {s : Script.Scan} (hC : Script.CompsOK n s) (hP : Script.ProgParamsOK prec s) (cf : Cfg) {g : Geom.Scan}
    (hg : cPerScan f (compIdx s) = .ok g) :
    (scanPar g s cf).Fits (walk f g (dMcu f g)) ∧ (scanPar g s cf).Se < 64 ∧
      (∀ q ∈ (walk f g (dMcu f g)).flatten, InRange prec (pad f img q)) ∧
      twopassMcus f g img = (walk f g (dMcu f g)).map (List.map (pad f img)) := by
  obtain ⟨G, hlen, -⟩ := Geom.good_of_setup h
  unfold Script.ProgParamsOK at hP
  unfold Script.CompsOK at hC
  dsimp only at hP
  generalize (if prec = 12 then (13 : Int) else 10) = mx at hP
  obtain ⟨hC1, hC2, hC3, hC4⟩ := hC
  have hi : ∀ i ∈ compIdx s, i < f.comps.length := by
    intro i hi
    obtain ⟨c, hc, rfl⟩ := List.mem_map.1 hi
    have := hC3 c hc
    omega
  have hne := Geom.idx_ne hg
  have ew := Geom.dWalk_eq_spec G hi hg
  obtain ⟨l1, l2⟩ := Geom.spec_lengths hg
  obtain ⟨-, -, e3⟩ := Geom.mcus_eq G hi hg img
  refine ⟨?_, ?_, ?_, e3⟩
  · unfold SPar.Fits
    rw [ew]
    split
    · intro ps hps
      simp only [scanPar, List.length_map]
      exact (l2 ps hps).2
    · rename_i h0
      have h1 : (compIdx s).length = 1 := by
        unfold compIdx
        rw [List.length_map]
        refine hP.2.2.2.2.2.2.2.2 ?_
        simp only [scanPar] at h0
        omega
      match hx : compIdx s, h1 with
      | [i], _ =>
        intro ps hps
        simp only [Geom.specWalk, List.mem_flatMap, List.mem_map] at hps
        obtain ⟨r, -, c, -, rfl⟩ := hps
        rfl
  · simp only [scanPar]; omega
  · intro q hq
    rw [ew] at hq
    exact pad_inRange G hi (fun p _ h => himg p h) q (Geom.spec_padded G hi hne q hq).1

/-- C02 as the library runs it: with the tables made from the statistics of each scan, nothing has to be assumed
about tables except that no table counts 9227464 symbols or more (where code lengths could exceed 32). -/
theorem prog_roundtrip_opt (w ht ic prec : Nat) (hprec : prec ≤ 12) (fs : List (Nat × Nat)) (f : Frame)
    (h : cInitialSetup false w ht ic prec fs = .ok f) (hfs : fs ≠ []) (img : Pos → Blk)
    (himg : ∀ p : Pos, inImage f p = true → InRange prec (img p)) (trans : Bool)
    (scans : List (Script.Scan × Cfg)) (hv : Script.validate fs.length prec (scans.map Prod.fst) = .ok .progressive)
    (hs : ∀ x ∈ scans, ∃ g, cPerScan f (compIdx x.1) = .ok g ∧
      ∀ evs, gatherPScan prec (scanPar g x.1 x.2) (twopassMcus f g img) = some evs →
        ∀ d n, Opt.total (Opt.optFreq evs d n) < 9227464)
    (hm : ∀ x ∈ scans, 0 < x.2.marker ∧ x.2.marker < 0xFF ∧ IsBytes x.2.tail) :
    ∃ bytess st, (scans.map (optCfg prec f img)).mapM (encodeScan trans prec f img) = some bytess ∧
      decodeScans f ((scans.map (optCfg prec f img)).zip bytess) DecSt.init =
        some (st, scans.map (fun x => some (x.2.marker, x.2.tail, 0))) ∧
      st.warns = 0 ∧
      ∀ p : Pos, inImage f p = true → (st.img p).length = 64 ∧ ∀ k < 64,
        (st.img p).getD (natOrder.getD k 0) 0 =
          sentValue (scans.map Prod.fst) p.1 k ((img p).getD (natOrder.getD k 0) 0) := by
  obtain ⟨G, hlen, -⟩ := Geom.good_of_setup h
  have L := (Script.validate_progressive_iff fs.length prec (by
    have := List.length_pos_iff.2 hfs
    omega) _).1 hv
  have hfst : ∀ x, (optCfg prec f img x).1 = x.1 := by
    intro x; unfold optCfg; split <;> rfl
  have hmk : ∀ x, (optCfg prec f img x).2.marker = x.2.marker ∧ (optCfg prec f img x).2.tail = x.2.tail := by
    intro x; unfold optCfg; split <;> exact ⟨rfl, rfl⟩
  have e1 : (scans.map (optCfg prec f img)).map Prod.fst = scans.map Prod.fst := by
    rw [List.map_map]
    exact List.map_congr_left (fun x _ => hfst x)
  have e2 : (scans.map (optCfg prec f img)).map (fun x => some (x.2.marker, x.2.tail, 0)) =
      scans.map (fun x => some (x.2.marker, x.2.tail, 0)) := by
    rw [List.map_map]
    refine List.map_congr_left (fun x _ => ?_)
    simp only [Function.comp_apply, (hmk x).1, (hmk x).2]
  have := prog_roundtrip w ht ic prec hprec fs f h hfs img himg trans (scans.map (optCfg prec f img))
    (by rw [e1]; exact hv) (by
      intro y hy
      obtain ⟨x, hx, rfl⟩ := List.mem_map.1 hy
      obtain ⟨g, hg, hc⟩ := hs x hx
      refine ⟨g, by rw [hfst]; exact hg, ?_⟩
      obtain ⟨q1, q2, q3, q4⟩ := scan_layout h himg hlen.symm (L.comps x.1 (List.mem_map_of_mem hx))
        (L.params x.1 (List.mem_map_of_mem hx)) x.2 hg
      obtain ⟨evs, he, ht⟩ := tabs_opt hprec (scanPar g x.1 x.2) (fun _ => q2) _ q1 (pad f img) q3
      have q4' : twopassMcus f g img = (walk f g (dMcu f g)).map (fun ps => ps.map (pad f img)) := q4
      rw [← q4'] at he ht
      have := ht (hc evs he)
      unfold optCfg
      simp only [hg, he, Option.getD_some]
      exact this) (by
      intro y hy
      obtain ⟨x, hx, rfl⟩ := List.mem_map.1 hy
      rw [(hmk x).1, (hmk x).2]
      exact hm x hx)
  rw [e1, e2] at this
  exact this


/-! ### a concrete case -/

/-- 17x9 image, first component 2x1-sampled: blocks with a DC and AC values of several magnitudes. -/
def exImg (p : Pos) : Blk :=
  (100 * (p.1 : Int) + 3 * p.2.1 - 7 * p.2.2) :: -5 :: 3 :: (List.replicate 50 0 ++ [1, 0, -2, 0, 0, 6] ++
    [(p.2.2 : Int) - 1, 0, 0, 0, 2])

/-- A script with all four kinds of scans: DC of both components with one bit left, spectral selection and successive
approximation for the first component, all AC bits of the second at once. -/
def exScript : List Script.Scan :=
  [⟨[0, 1], 0, 0, 0, 1⟩, ⟨[0], 1, 5, 0, 2⟩, ⟨[1], 1, 63, 0, 0⟩, ⟨[0], 6, 63, 0, 2⟩, ⟨[0], 1, 63, 2, 1⟩,
   ⟨[0, 1], 0, 0, 1, 0⟩, ⟨[0], 1, 63, 1, 0⟩]

def exCfg : Cfg := ⟨1, id, id, fun _ => ⟨[], []⟩, fun _ => ⟨[], []⟩, 0xDA, [0, 8]⟩

def exFrame : Frame := ⟨17, 9, 8, 2, 1, 2, [⟨2, 1, 3, 2, 17, 9⟩, ⟨1, 1, 2, 2, 9, 9⟩]⟩

instance (n : Nat) (script : List Script.Scan) : Decidable (Complete n script) := by unfold Complete; infer_instance

theorem exImg_range : ∀ p : Pos, inImage exFrame p = true → InRange 8 (exImg p) := by
  intro p hin
  obtain ⟨j, r, c⟩ := p
  have hj : j < 2 := by
    unfold inImage at hin
    simp only [Bool.and_eq_true, decide_eq_true_eq] at hin
    exact hin.1.1
  have : j = 0 ∨ j = 1 := by omega
  rcases this with rfl | rfl
  · rw [Geom.inImage_iff (by decide)] at hin
    obtain ⟨a, b⟩ := hin
    exact (by decide +kernel : ∀ r < 2, ∀ c < 3, InRange 8 (exImg (0, r, c))) r a c b
  · rw [Geom.inImage_iff (by decide)] at hin
    obtain ⟨a, b⟩ := hin
    exact (by decide +kernel : ∀ r < 2, ∀ c < 2, InRange 8 (exImg (1, r, c))) r a c b

/-- All hypotheses of the theorems hold together, and here the image comes back exactly. -/
example : ∃ bytess st ends,
    ((exScript.map (·, exCfg)).map (optCfg 8 exFrame exImg)).mapM (encodeScan false 8 exFrame exImg) = some bytess ∧
    bytess.length = 7 ∧
    decodeScans exFrame (((exScript.map (·, exCfg)).map (optCfg 8 exFrame exImg)).zip bytess) DecSt.init =
      some (st, ends) ∧ st.warns = 0 ∧ ∀ p : Pos, inImage exFrame p = true → st.img p = exImg p := by
  have hf : cInitialSetup false 17 9 2 8 [(2, 1), (1, 1)] = .ok exFrame := rfl
  have himg := exImg_range
  have hv : Script.validate 2 8 ((exScript.map (·, exCfg)).map Prod.fst) = .ok .progressive := by rfl
  have hall : Complete 2 ((exScript.map (·, exCfg)).map Prod.fst) := by decide +kernel
  have hchk : ∀ x ∈ exScript.map (·, exCfg), (match cPerScan exFrame (compIdx x.1) with
      | .error _ => false
      | .ok g => (gatherPScan 8 (scanPar g x.1 x.2) (twopassMcus exFrame g exImg)).all (fun e => e.length < 1000)) =
        true := by decide +kernel
  obtain ⟨bytess, st, q1, q2, q3, q4⟩ := prog_roundtrip_opt 17 9 2 8 (by omega) _ _ hf (by simp) exImg himg false
    (exScript.map (·, exCfg)) hv (by
      intro x hx
      have := hchk x hx
      cases e : cPerScan exFrame (compIdx x.1) with
      | error _ => rw [e] at this; simp at this
      | ok g =>
        rw [e] at this
        refine ⟨g, rfl, ?_⟩
        intro evs he d n
        dsimp only at this
        rw [he] at this
        simp at this
        have := Opt.total_le evs d n
        omega) (by
      intro x hx
      obtain ⟨s, -, rfl⟩ := List.mem_map.1 hx
      have h3 : IsBytes exCfg.tail := by unfold IsBytes; decide
      exact ⟨(by decide : 0 < exCfg.marker), (by decide : exCfg.marker < 0xFF), h3⟩)
  refine ⟨bytess, st, _, q1, ?_, q2, q3, ?_⟩
  · have := Huff.mapM_forall₂ q1
    rw [← this.length_eq]
    rfl
  · intro p hp
    have L := (Script.validate_progressive_iff 2 8 (by omega) _).1 hv
    have hp1 : p.1 < 2 := by
      unfold inImage at hp
      simp only [Bool.and_eq_true, decide_eq_true_eq] at hp
      exact hp.1.1
    exact exact_of_complete L hall hp1 (himg p hp).1 (q4 p hp).1 (q4 p hp).2

end Verif.Prog
