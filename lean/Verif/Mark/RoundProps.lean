import Verif.Mark.RoundSos
/-
C10, C41: the headers written by the compressor are read back.
-/
namespace Verif.Mark
open Verif
open Verif.Huff (natOrder HuffTbl)

/-! ### segments that may be saved -/

/-- As `Seg`, with the entries added to marker_list. -/
def SegS (proc : Nat → Proc) (m : Mem) (bs : List Nat) (m' : Mem) (add : List Saved) : Prop :=
  ∀ rest saved, ∃ j, j ≤ bs.length ∧ ∀ k, readLoop proc (k + j) (at_ m (bs ++ rest) saved) = readLoop proc k (at_ m' rest (saved ++ add))

theorem Seg.s {proc : Nat → Proc} {m m' : Mem} {b : List Nat} (h : Seg proc m b m') : SegS proc m b m' [] := by
  intro rest saved
  rw [List.append_nil]
  exact h rest saved

theorem SegS.nil {proc : Nat → Proc} {m : Mem} : SegS proc m [] m [] := Seg.nil.s

theorem SegS.trans {proc : Nat → Proc} {m m' m'' : Mem} {b b' : List Nat} {a a' : List Saved} (h : SegS proc m b m' a)
    (h' : SegS proc m' b' m'' a') : SegS proc m (b ++ b') m'' (a ++ a') := by
  intro rest saved
  obtain ⟨j, hj, e⟩ := h (b' ++ rest) saved
  obtain ⟨j', hj', e'⟩ := h' rest (saved ++ a)
  refine ⟨j' + j, by simp; omega, fun k => ?_⟩
  rw [List.append_assoc, ← Nat.add_assoc, e, e', List.append_assoc]

/-- The processors are as jpeg_save_markers and jinit_marker_reader leave them: get_interesting_appn only for APP0 and
APP14, and these are never skipped or saved without their heads. -/
structure ProcStd (proc : Nat → Proc) : Prop where
  appn : ∀ c, proc c = .appn → c = 0xE0 ∨ c = 0xEE
  app0 : proc 0xE0 = .appn ∨ ∃ l, proc 0xE0 = .save l ∧ 14 ≤ l
  app14 : proc 0xEE = .appn ∨ ∃ l, proc 0xEE = .save l ∧ 12 ≤ l

theorem procStd_default : ProcStd defaultProc := by
  refine ⟨?_, Or.inl rfl, Or.inl rfl⟩
  intro c h
  unfold defaultProc at h
  split at h
  · assumption
  · cases h

theorem procStd_save {maxAlloc : Nat} {proc proc' : Nat → Proc} {code limit : Nat} (h : ProcStd proc)
    (hs : saveMarkers maxAlloc proc code limit = some proc') : ProcStd proc' := by
  unfold saveMarkers at hs
  simp only at hs
  generalize (if limit > maxAlloc then maxAlloc else limit) = lim at hs
  split at hs
  · cases hs
    constructor
    · intro c hc
      split at hc
      · rename_i e
        subst e
        by_cases hl : lim ≠ 0
        · rw [if_pos hl] at hc; cases hc
        · rw [if_neg hl] at hc
          split at hc
          · assumption
          · cases hc
      · exact h.appn c hc
    · by_cases e : 0xE0 = code
      · subst e
        rw [if_pos rfl]
        by_cases hl : lim ≠ 0
        · rw [if_pos hl]
          right
          by_cases h14 : lim < 14
          · exact ⟨14, by simp [h14], by omega⟩
          · exact ⟨lim, by simp [h14], by omega⟩
        · rw [if_neg hl]; left; simp
      · rw [if_neg e]; exact h.app0
    · by_cases e : 0xEE = code
      · subst e
        rw [if_pos rfl]
        by_cases hl : lim ≠ 0
        · rw [if_pos hl]
          right
          by_cases h14 : lim < 12
          · exact ⟨12, by simp [h14], by omega⟩
          · exact ⟨lim, by simp [h14], by omega⟩
        · rw [if_neg hl]; left; simp
      · rw [if_neg e]; exact h.app14
  · cases hs

/-- What the application finds in marker_list for a marker it wrote. -/
def savedOf (proc : Nat → Proc) (code : Nat) (data : List Nat) : List Saved :=
  match proc code with
  | .save l => [⟨code, data.length, data.take l⟩]
  | _ => []

/-- What the reader examines of a marker. -/
def lookAt (proc : Nat → Proc) (code : Nat) (data : List Nat) : List Nat :=
  match proc code with
  | .save l => data.take l
  | .appn => data.take 14
  | .skip => []

/-- APPn or COM. -/
def IsApp (code : Nat) : Prop := (0xE0 ≤ code ∧ code ≤ 0xEF) ∨ code = 0xFE

theorem branch_app {proc : Nat → Proc} {code : Nat} (h : IsApp code) (s : RS) : branch proc code s =
    (match proc code with
    | .skip => s.run skipVariable (fun n s => .cont (s.skipData n))
    | .appn => s.run (getAppn s.mem code) (fun n s => .cont (s.skipData n))
    | .save limit => saveMarker s code limit) := by
  unfold branch
  have h' : 0xE0 ≤ code := by rcases h with h | h <;> omega
  have h2 : (0xE0 ≤ code ∧ code ≤ 0xEF) ∨ code = 0xFE := h
  rw [if_neg (by omega), if_neg (by omega), if_neg (by omega), if_neg (by omega), if_neg (by omega), if_neg (by omega), if_neg (by omega),
    if_neg (by simp; omega), if_neg (by omega), if_neg (by omega), if_neg (by omega), if_neg (by omega), if_neg (by omega), if_pos h2]
  cases proc code <;> rfl

theorem examine_slots (m : Mem) (code : Nat) (data : List Nat) : ∀ x ∈ examine m code data,
    x.1 ∈ [Slot.sawJFIF, .jMajor, .jMinor, .dUnit, .xDen, .yDen, .warns, .sawAdobe, .adobe] := by
  intro x hx
  unfold examine at hx
  split at hx
  · unfold examineApp0 at hx
    split at hx
    · rcases List.mem_append.1 hx with hx | hx
      · simp only [List.mem_cons, List.not_mem_nil, or_false] at hx
        rcases hx with rfl | rfl | rfl | rfl | rfl | rfl <;> simp
      · split at hx
        · simp only [List.mem_cons, List.not_mem_nil, or_false] at hx; subst hx; simp
        · simp at hx
    · simp at hx
  · split at hx
    · unfold examineApp14 at hx
      split at hx
      · simp only [List.mem_cons, List.not_mem_nil, or_false] at hx
        rcases hx with rfl | rfl <;> simp
      · simp at hx
    · simp at hx

theorem examine_inMk (m : Mem) (code : Nat) (data : List Nat) : examine (inMk m code) code data = examine m code data := by
  unfold examine examineApp0
  rw [inMk_eq (by simp) (by simp)]

theorem examine_nil (m : Mem) (code : Nat) : examine m code [] = [] := by
  unfold examine examineApp0 examineApp14
  simp

theorem examine_other {m : Mem} {code : Nat} (h : code ≠ 0xE0) (h' : code ≠ 0xEE) (data : List Nat) : examine m code data = [] := by
  unfold examine
  rw [if_neg h, if_neg h']

/-- One APPn or COM marker: skipped, examined or saved. -/
theorem segS_app {proc : Nat → Proc} (hp : ProcStd proc) {m : Mem} (hr : Ready m) {code : Nat} (hc : IsApp code) {data : List Nat}
    (hd : IsBytes data) {b : List Nat} (h : writeMarker code data = some b) :
    SegS proc m b (apply (examine m code (lookAt proc code data)) m) (savedOf proc code data) := by
  unfold writeMarker at h
  by_cases hl : data.length > 65533
  · rw [if_pos hl] at h; cases h
  rw [if_neg hl] at h
  cases h
  have hmap : data.map (· % 256) = data := by
    have : data.map (· % 256) = data.map id := List.map_congr_left (fun x hx => Nat.mod_eq_of_lt (hd x hx))
    rw [this, List.map_id]
  rw [hmap]
  have hc' : 0xE0 ≤ code := by rcases hc with h | h <;> omega
  have hcff : code ≠ 0xFF := by rcases hc with h | h <;> omega
  intro rest saved
  refine ⟨1, by simp [mark], fun k => ?_⟩
  rw [readLoop_succ]
  have e : mark code ++ be2 (data.length + 2) ++ data ++ rest = 0xFF :: code :: (be2 (data.length + 2) ++ (data ++ rest)) := by
    simp [mark]
  rw [e, got_mark hr (by omega) hcff]
  generalize hsrc : be2 (data.length + 2) ++ (data ++ rest) = src
  have hun : (at_ (inMk m code) src saved).mem .unread = code := rfl
  simp only [hun, if_neg (show ¬ code = 0xD9 by omega), if_neg (show ¬ code = 0xDA by omega)]
  have hw : ∀ x ∈ examine m code (lookAt proc code data), x.1 ≠ .unread ∧ x.1 ≠ .disc := by
    intro x hx
    have := examine_slots _ _ _ x hx
    constructor
    · intro e; rw [e] at this; simp at this
    · intro e; rw [e] at this; simp at this
  have hword : in2Bytes src = .ok (data.length + 2) [] (data ++ rest) := by
    rw [← hsrc]
    have := Reads.lenB (f := fun l => (Pure.pure l : P Nat)) (l := data.length + 2) (bs := []) (w := []) (x := data.length + 2) (by omega) (Reads.pure _)
    have h2 := this (data ++ rest)
    rw [List.append_nil] at h2
    have h3 : (in2Bytes >>= fun l => (Pure.pure l : P Nat)) = in2Bytes := by
      funext b
      rw [bind_eq, P.bind]
      cases in2Bytes b with
      | ok a w r => show Out.ok a (w ++ []) r = _; rw [List.append_nil]
      | susp w => rfl
      | err e => rfl
    rw [h3] at h2
    exact h2
  have hproc : process proc (at_ (inMk m code) src saved) =
      .cont (at_ (apply (examine m code (lookAt proc code data)) (inMk m code)) rest (saved ++ savedOf proc code data)) := by
    rw [process_branch, hun, branch_app hc]
    unfold lookAt savedOf
    cases hpc : proc code with
    | skip =>
      simp only
      rw [examine_nil]
      have : skipVariable src = .ok data.length [] (data ++ rest) := by
        unfold skipVariable
        rw [bind_eq, P.bind, hword]
        rfl
      unfold RS.run at_
      simp only
      rw [this]
      simp only [apply_nil, List.append_nil]
      unfold RS.skipData
      simp
    | appn =>
      simp only
      have hc2 := hp.appn code hpc
      have hn : (if ((data.length + 2 : Nat) : Int) - 2 ≥ 14 then 14 else if ((data.length + 2 : Nat) : Int) - 2 > 0 then
          (((data.length + 2 : Nat) : Int) - 2).toNat else 0) = (data.take 14).length := by
        rw [List.length_take]
        split
        · omega
        · split <;> omega
      have : getAppn (inMk m code) code src = .ok (data.length - (data.take 14).length) (examine m code (data.take 14)) (data.drop 14 ++ rest) := by
        unfold getAppn
        rw [bind_eq, P.bind, hword]
        simp only
        rw [hn]
        have hb := Reads.bytes (data.take 14) (data.drop 14 ++ rest)
        rw [← List.append_assoc, List.take_append_drop] at hb
        rw [bind_eq, P.bind, hb]
        simp only [List.nil_append]
        rw [if_pos hc2, bind_eq, P.bind, examine_inMk]
        simp only [puts]
        show Out.ok _ (examine m code (data.take 14) ++ []) _ = _
        rw [List.append_nil]
        congr 1
        omega
      unfold RS.run at_
      simp only
      rw [this]
      simp only [List.append_nil]
      unfold RS.skipData
      have hdl : data.length - (data.take 14).length = (data.drop 14).length := by simp; omega
      simp only [hdl]
      rw [if_pos (by simp), List.drop_left]
    | save lim =>
      simp only
      have hs2 : ∃ hi lo, src = hi :: lo :: (data ++ rest) ∧ hi * 256 + lo = data.length + 2 := by
        refine ⟨_, _, hsrc.symm, ?_⟩
        omega
      unfold saveMarker at_
      simp only
      rw [hword]
      simp only
      rw [if_pos (by omega), Nat.add_sub_cancel]
      have hneed : (if data.length < lim then data.length else lim) = (data.take lim).length := by
        rw [List.length_take]; split <;> omega
      rw [hneed]
      unfold saveData
      simp only [List.length_nil, Nat.sub_zero, List.nil_append]
      have hmin : min (data.take lim).length (data ++ rest).length = (data.take lim).length := by simp
      rw [hmin]
      have hsplit : data ++ rest = data.take lim ++ (data.drop lim ++ rest) := by rw [← List.append_assoc, List.take_append_drop]
      have htake : (data ++ rest).take (data.take lim).length = data.take lim := by
        rw [hsplit, List.take_left]
      have hdrop : (data ++ rest).drop (data.take lim).length = data.drop lim ++ rest := by
        rw [hsplit, List.drop_left]
      rw [htake, hdrop, if_neg (by omega)]
      unfold finishSave
      simp only
      rw [examine_inMk]
      unfold RS.skipData
      have hdl : data.length - (data.take lim).length = (data.drop lim).length := by simp; omega
      simp only [hdl]
      rw [if_pos (by simp), List.drop_left]
  rw [hproc]
  simp only
  have : ∀ sv, (at_ (apply (examine m code (lookAt proc code data)) (inMk m code)) rest sv).clear =
      at_ (apply (examine m code (lookAt proc code data)) m) rest sv := by
    intro sv
    unfold RS.clear at_
    simp only
    rw [apply_clear hr hw]
  rw [this]

/-! ### SOI -/

/-- The assignments of get_soi. -/
def soiW : Writes := (List.range 16).flatMap (fun i => [(Slot.dcL i, 0), (.dcU i, 1), (.acK i, 5)]) ++
  [(.ri, 0), (.jcs, 0), (.ccir, 0), (.sawJFIF, 0), (.jMajor, 1), (.jMinor, 1), (.dUnit, 0), (.xDen, 1), (.yDen, 1),
      (.sawAdobe, 0), (.adobe, 0), (.sawSOI, 1)]

/-- Fields assigned by get_soi. -/
def Slot.soi : Slot → Prop
  | .dcL _ | .dcU _ | .acK _ | .ri | .jcs | .ccir | .sawJFIF | .jMajor | .jMinor | .dUnit | .xDen | .yDen | .sawAdobe | .adobe | .sawSOI => True
  | _ => False

theorem soiW_slots : ∀ x ∈ soiW, x.1.soi := by
  intro x hx
  rcases List.mem_append.1 hx with hx | hx
  · obtain ⟨i, -, hx⟩ := List.mem_flatMap.1 hx
    simp only [List.mem_cons, List.not_mem_nil, or_false] at hx
    rcases hx with rfl | rfl | rfl <;> trivial
  · simp only [List.mem_cons, List.not_mem_nil, or_false] at hx
    rcases hx with rfl | rfl | rfl | rfl | rfl | rfl | rfl | rfl | rfl | rfl | rfl | rfl <;> trivial

/-- Before the first marker of a datastream (jpeg_create_decompress, or reset_marker_reader after the last one). -/
structure Fresh (m : Mem) : Prop where
  unread : m .unread = 0
  disc : m .disc = 0
  soi : m .sawSOI = 0
  sof : m .sawSOF = 0

theorem seg_soi {proc : Nat → Proc} {m : Mem} (h : Fresh m) : Seg proc m (mark 0xD8) (apply soiW m) := by
  intro rest saved
  refine ⟨1, by simp [mark], fun k => ?_⟩
  rw [readLoop_succ]
  have hg : (at_ m (mark 0xD8 ++ rest) saved).got = .cont (at_ (apply [(.unread, 0xD8)] m) rest saved) := by
    unfold RS.got at_
    rw [if_pos h.unread, if_pos h.soi]
    rfl
  rw [hg]
  have hun : (at_ (apply [(.unread, 0xD8)] m) rest saved).mem .unread = 0xD8 := rfl
  simp only [hun]
  rw [if_neg (by decide), process_branch, hun]
  have hb : branch proc 0xD8 (at_ (apply [(.unread, 0xD8)] m) rest saved) = .cont (at_ (apply soiW (apply [(.unread, 0xD8)] m)) rest saved) := by
    unfold branch
    rw [if_pos rfl]
    have hgs : getSoi (apply [(.unread, 0xD8)] m) rest = .ok () soiW rest := by
      unfold getSoi
      have : apply [(.unread, 0xD8)] m .sawSOI = 0 := by rw [apply_notin (by simp)]; exact h.soi
      rw [if_neg (by simp [this])]
      rfl
    unfold RS.run at_
    simp only
    rw [hgs]
  rw [hb]
  simp only
  rw [if_neg (by decide)]
  congr 1
  unfold RS.clear at_
  simp only
  congr 1
  funext s
  by_cases h1 : s = .unread
  · subst h1
    rw [apply_notin (w := soiW) (m := m) (fun x hx e => by have := soiW_slots x hx; rw [e] at this; exact this), h.unread]
    rfl
  · rw [apply_notin (w := [(.unread, 0)]) (by simp; exact fun e => h1 e.symm)]
    by_cases hs : ∃ x ∈ soiW, x.1 = s
    · exact apply_mem_indep hs _ _
    · have h' : ∀ x ∈ soiW, x.1 ≠ s := fun x hx e => hs ⟨x, hx, e⟩
      rw [apply_notin h', apply_notin h', apply_notin (by simp; exact fun e => h1 e.symm)]

/-! ### the whole -/

/-- Compressor and decompressor agree: every table marked as sent is known to the decoder, and so is the restart
interval written last. -/
structure Synced (c : CS) (m : Mem) : Prop where
  q : SyncQ c.q c.qSent m
  h : SyncH c.huff c.hSent m
  ri : m .ri = c.lastRi

/-- The quantization tables of all components are known to the decoder under the numbers it has for them. -/
def HasQuant (c : CS) (m : Mem) : Prop :=
  ∀ i (h : i < c.comps.length), ∃ v, c.q c.comps[i].tq = some v ∧ HasQ m (m (.cTq i)) v

theorem anyQ_frame {s : Slot} (h : s.anyQ) : ¬ s.frame := by
  obtain ⟨n, h⟩ := h
  cases s <;> simp [Slot.isQ] at h <;> simp [Slot.frame]
theorem anyH_frame {s : Slot} (h : s.anyH) : ¬ s.frame := by
  obtain ⟨a, n, h⟩ := h
  cases s <;> simp [Slot.isH] at h <;> simp [Slot.frame]
theorem frame_notQ {s : Slot} (n : Nat) (h : s.frame) : ¬ s.isQ n := fun h' => anyQ_frame ⟨n, h'⟩ h
theorem frame_notH {s : Slot} (a : Bool) (n : Nat) (h : s.frame) : ¬ s.isH a n := fun h' => anyH_frame ⟨a, n, h'⟩ h

/-- write_frame_header is read back. -/
theorem frame_step {proc : Nat → Proc} {c c' : CS} (hc : c.Ok) {m : Mem} (hr : Ready m) (hs0 : m .sawSOF = 0) (hs : Synced c m)
    {b : List Nat} (h : writeFrame c = some (b, c')) :
    ∃ m', Seg proc m b m' ∧ Ready m' ∧ FrameIs c' m' ∧ Synced c' m' ∧ (c.lossless = false → HasQuant c' m') ∧
      c' = { c with qSent := c'.qSent } ∧ Off (fun s => s.anyQ ∨ s.frame) m m' := by
  unfold writeFrame at h
  cases hdq : frameDqt c with
  | none => rw [hdq] at h; cases h
  | some r =>
  obtain ⟨prec, b1, sent⟩ := r
  rw [hdq] at h
  simp only at h
  unfold frameDqt at hdq
  have htq : ∀ n ∈ c.comps.map (·.tq), n < 4 := by
    intro n hn
    obtain ⟨k, hk, rfl⟩ := List.mem_map.1 hn
    exact (hc.fits k hk).2.2.2
  have hq : ∃ m1, QDone proc c.q m b1 sent (if c.lossless then [] else c.comps.map (·.tq)) m1 := by
    cases hm : multiDqt c.fastest c.q c.qSent (c.comps.map (·.tq)) with
    | some r =>
      rw [hm] at hdq
      obtain ⟨p', b', s'⟩ := r
      simp only [Option.some.injEq, Prod.mk.injEq] at hdq
      obtain ⟨rfl, rfl, rfl⟩ := hdq
      obtain ⟨⟨m1, d⟩, -⟩ := multiDqt_done (proc := proc) hc.q hr hs.q htq (by simpa using hc.comps.2) hm
      exact ⟨m1, d.seg, d.off, d.sync, fun n hn => d.all n (by split at hn; · simp at hn
                                                               · exact hn)⟩
    | none =>
      rw [hm] at hdq
      by_cases hl : c.lossless = true
      · simp only [hl, if_true, Option.some.injEq, Prod.mk.injEq] at hdq
        obtain ⟨-, rfl, rfl⟩ := hdq
        exact ⟨m, Seg.nil, Off.refl _, hs.q, by simp [hl]⟩
      · simp only [hl, Bool.false_eq_true, if_false] at hdq
        obtain ⟨⟨m1, d⟩, -⟩ := dqtEach_done (proc := proc) hc.q _ _ m hr hs.q htq hdq
        refine ⟨m1, ?_⟩
        rw [if_neg hl]
        exact d
  obtain ⟨m1, d⟩ := hq
  have hr1 := qDone_ready d hr
  cases hsof : emitSof c (sofCode c prec) with
  | none => rw [hsof] at h; cases h
  | some sb =>
    rw [hsof] at h
    simp only [Option.some.injEq, Prod.mk.injEq] at h
    obtain ⟨rfl, rfl⟩ := h
    have hs1 : m1 .sawSOF = 0 := by
      rw [d.off _ (by rintro ⟨n, h⟩; exact h)]; exact hs0
    obtain ⟨m2, g1, g2, g3⟩ := seg_sof (proc := proc) hc hr1 hs1 hsof (by
      unfold sofCode
      cases c.arith <;> cases c.prog <;> cases c.lossless <;> simp) (by
      intro h1 h2 h3
      unfold sofCode
      rw [h1, h2, h3]
      simp only [Bool.false_eq_true, if_false]
      split <;> simp)
    have hr2 := g3.ready id id id hr1
    refine ⟨m2, d.seg.trans g1, hr2, ?_, ⟨?_, ?_, ?_⟩, ?_, rfl, ?_⟩
    · exact ⟨g2.seen, g2.prog, g2.lossless, g2.arith, g2.prec, g2.height, g2.width, g2.ncomp, g2.comps⟩
    · exact d.sync.off g3 (fun s n h => frame_notQ n h)
    · have : SyncH c.huff c.hSent m1 := hs.h.off d.off (fun s ac n h h' => (anyQ_not h).1 ⟨ac, n, h'⟩)
      exact this.off g3 (fun s a n h => frame_notH a n h)
    · rw [g3 _ id, d.off _ (by rintro ⟨n, h⟩; exact h)]; exact hs.ri
    · intro hl i hi
      have h1 : sent c.comps[i].tq = true := by
        apply d.all
        simp only [hl, Bool.false_eq_true, if_false]
        exact List.mem_map.2 ⟨_, List.getElem_mem hi, rfl⟩
      obtain ⟨v, e1, e2⟩ := d.sync _ h1
      refine ⟨v, e1, ?_⟩
      rw [(g2.comps i hi).2.2.2]
      exact e2.off g3 (fun s h => frame_notQ _ h)
    · intro s hs
      rw [g3 s (fun h => hs (Or.inr h)), d.off s (fun h => hs (Or.inl h))]

/-- Conditions on the tables of a scan: emit_multi_dht is right (`DhtGood`), restart interval fits 16 bits, legal
conditioning, and in lossless mode JCP_FASTEST and table 0 (see `C10_lossless_no_tables`). -/
structure TblFits (c : CS) (s : CScan) : Prop where
  ri : c.ri < 65536
  arith : c.arith = true → c.ArithOk
  num : c.arith = false → ∀ i ∈ s.idx, (c.comps.getD i comp0).dc < 4 ∧ (c.comps.getD i comp0).ac < 4
  dht : c.arith = false → c.fastest = false → s.Ss = 0 → s.Ah = 0 → s.Se ≠ 0 → DhtGood c.hSent (scanComps c s) [] []
  ls : c.lossless = true → c.fastest = true ∧ ∀ i ∈ s.idx, (c.comps.getD i comp0).dc = 0

/-- The tables the decoder selects for the components of the scan are the compressor's. -/
def ScanTables (c : CS) (s : CScan) (m : Mem) : Prop :=
  ∀ i ∈ s.idx,
    (((s.Ss = 0 ∧ s.Ah = 0) ∨ c.lossless = true) →
      if c.arith then m (.dcL (m (.cDc i))) = c.dcL (c.comps.getD i comp0).dc ∧ m (.dcU (m (.cDc i))) = c.dcU (c.comps.getD i comp0).dc
      else ∃ t, c.huff false (c.comps.getD i comp0).dc = some t ∧ HasH m false (m (.cDc i)) t) ∧
    (s.Se ≠ 0 → c.lossless = false →
      if c.arith then m (.acK (m (.cAc i))) = c.acK (c.comps.getD i comp0).ac
      else ∃ t, c.huff true (c.comps.getD i comp0).ac = some t ∧ HasH m true (m (.cAc i)) t)

theorem scan_notH {s : Slot} (a : Bool) (n : Nat) (h : s.scan) : ¬ s.isH a n := by
  cases s <;> simp [Slot.scan, Slot.isH] at h ⊢
theorem scan_notQ {s : Slot} (n : Nat) (h : s.scan) : ¬ s.isQ n := by
  cases s <;> simp [Slot.scan, Slot.isQ] at h ⊢
theorem scan_frame {s : Slot} (h : s.scan) : ¬ s.frame := by
  cases s <;> simp [Slot.scan, Slot.frame] at h ⊢

/-- The tables part of write_scan_header. -/
theorem tables_step {proc : Nat → Proc} {c : CS} (hc : c.Ok) {s : CScan} (hk : ScanFits c s) (ht : TblFits c s) {m : Mem} (hr : Ready m)
    (hs : Synced c m) {b : List Nat} {sent : Bool → Nat → Bool}
    (h : scanTbl c s = some (b, sent)) :
    ∃ m', Seg proc m b m' ∧ Ready m' ∧ SyncH c.huff sent m' ∧ Off (fun s => s.anyH ∨ s.cond) m m' ∧
      ∀ k ∈ scanComps c s,
        (((s.Ss = 0 ∧ s.Ah = 0) ∨ c.lossless = true) →
          if c.arith then m' (.dcL k.dc) = c.dcL k.dc ∧ m' (.dcU k.dc) = c.dcU k.dc
          else ∃ t, c.huff false k.dc = some t ∧ HasH m' false k.dc t) ∧
        (s.Se ≠ 0 → c.lossless = false →
          if c.arith then m' (.acK k.ac) = c.acK k.ac else ∃ t, c.huff true k.ac = some t ∧ HasH m' true k.ac t) := by
  have hmem : ∀ k ∈ scanComps c s, ∃ i ∈ s.idx, k = c.comps.getD i comp0 := by
    intro k hk
    obtain ⟨i, hi, rfl⟩ := List.mem_map.1 hk
    exact ⟨i, hi, rfl⟩
  unfold scanTbl at h
  cases ha : c.arith with
  | true =>
    simp only [ha, if_true, Option.some.injEq, Prod.mk.injEq] at h
    obtain ⟨rfl, rfl⟩ := h
    obtain ⟨m', g1, g2, g3⟩ := seg_dac (proc := proc) (ht.arith ha) hr (decide (s.Ss = 0 ∧ s.Ah = 0)) (decide (s.Se ≠ 0)) (scanComps c s) (by
      intro k hk'
      obtain ⟨i, hi, rfl⟩ := hmem k hk'
      exact hk.tbl i hi)
    have hll : c.lossless = false := by
      cases hl : c.lossless with
      | false => rfl
      | true => have := (hc.mode hl).1; rw [ha] at this; cases this
    refine ⟨m', g1, g2.ready id id id hr, hs.h.off g2 ?_, ?_, ?_⟩
    · intro s a n h
      cases s <;> simp [Slot.cond, Slot.isH] at h ⊢
    · intro s hs; exact g2 s (fun h => hs (Or.inr h))
    · intro k hk'
      simp only [if_true]
      refine ⟨fun h => (g3 k hk').1 ?_, fun h _ => (g3 k hk').2 (by simpa using h)⟩
      rcases h with h | h
      · simpa using h
      · rw [hll] at h; cases h
  | false =>
    simp only [ha, Bool.false_eq_true, if_false] at h
    have hnum : ∀ k ∈ scanComps c s, k.dc < 4 ∧ k.ac < 4 := by
      intro k hk'
      obtain ⟨i, hi, rfl⟩ := hmem k hk'
      exact ht.num ha i hi
    have hdone : ∃ m', HDone proc c.huff m b sent
        (wants (decide ((s.Ss = 0 ∧ s.Ah = 0) ∨ c.lossless = true)) (decide (s.Se ≠ 0 ∧ c.lossless = false)) (scanComps c s)) m' := by
      cases hm : multiDht c.fastest c.huff c.hSent (decide (s.Ss = 0 ∧ s.Ah = 0)) (decide (s.Se ≠ 0)) (scanComps c s) with
      | err => rw [hm] at h; cases h
      | no =>
        rw [hm] at h
        exact (dhtEach_done (proc := proc) hc.h _ _ m hr hs.h (fun k hk' => ⟨fun _ => (hnum k hk').1, fun _ => (hnum k hk').2⟩) h).1
      | yes b' sent' =>
        rw [hm] at h
        simp only [Option.some.injEq, Prod.mk.injEq] at h
        obtain ⟨rfl, rfl⟩ := h
        have hf : c.fastest = false := by
          cases hf : c.fastest with
          | false => rfl
          | true => unfold multiDht at hm; rw [hf] at hm; simp at hm
        have hll : c.lossless = false := by
          cases hl : c.lossless with
          | false => rfl
          | true => have := (ht.ls hl).1; rw [hf] at this; cases this
        have := multiDht_done (proc := proc) hc.h hr hs.h (fun k hk' => ⟨fun _ => (hnum k hk').1, fun _ => (hnum k hk').2⟩) (by
          intro h1 h2
          simp only [decide_eq_true_eq] at h1 h2
          exact ht.dht ha hf h1.1 h1.2 h2) hm
        simpa [hll] using this
    obtain ⟨m', d⟩ := hdone
    refine ⟨m', d.seg, hDone_ready d hr, d.sync, fun s hs => d.off s (fun h => hs (Or.inl h)), ?_⟩
    intro k hk'
    simp only [Bool.false_eq_true, if_false]
    constructor
    · intro hn
      exact d.sync false k.dc (d.all (false, k.dc) (List.mem_flatMap.2 ⟨k, hk', by simp [hn]⟩))
    · intro hn hl
      exact d.sync true k.ac (d.all (true, k.ac) (List.mem_flatMap.2 ⟨k, hk', by simp [hn, hl]⟩))

/-- write_scan_header is read back: read_markers stops at the scan header with everything in place. -/
theorem scan_step {proc : Nat → Proc} {c c' : CS} (hc : c.Ok) {s : CScan} (hk : ScanFits c s) (ht : TblFits c s) {m : Mem} (hr : Ready m)
    (hf : FrameIs c m) (hs : Synced c m) {b : List Nat} (h : writeScan c s = some (b, c')) :
    ∃ m', Ready m' ∧ FrameIs c' m' ∧ Synced c' m' ∧ ScanIs c s m m' ∧ ScanTables c s m' ∧ m' .ri = c.ri ∧
      Off (fun s => s.anyH ∨ s.cond ∨ s = .ri ∨ s.scan) m m' ∧ c' = { c with hSent := c'.hSent, lastRi := c.ri } ∧
      ∃ d, d ≤ b.length ∧ ∀ rest saved, ∀ k, readLoop proc (k + 1 + d) (at_ m (b ++ rest) saved) = .sos (at_ m' rest saved) := by
  unfold writeScan at h
  cases hd : scanTbl c s with
  | none => rw [hd] at h; cases h
  | some r =>
    rw [hd] at h
    obtain ⟨b1, sent⟩ := r
    simp only [Option.some.injEq, Prod.mk.injEq] at h
    obtain ⟨rfl, rfl⟩ := h
    obtain ⟨m1, s1, r1, y1, o1, t1⟩ := tables_step (proc := proc) hc hk ht hr hs hd
    have hf1 : FrameIs c m1 := hf.off o1 (by
      rintro s (h | h)
      · exact anyH_frame h
      · cases s <;> simp [Slot.cond, Slot.frame] at h ⊢)
    have hri1 : m1 .ri = c.lastRi := by
      rw [o1 _ (by rintro (⟨a, n, h⟩ | h) <;> exact h)]; exact hs.ri
    -- restart interval
    obtain ⟨m2, s2, r2, e2, o2⟩ : ∃ m2, Seg proc m1 (if c.ri ≠ c.lastRi then emitDri c else []) m2 ∧ Ready m2 ∧ m2 .ri = c.ri ∧
        Off (fun s => s = .ri) m1 m2 := by
      by_cases hr : c.ri ≠ c.lastRi
      · rw [if_pos hr]
        have ho : Off (fun s => s = Slot.ri) m1 (apply [(.ri, c.ri)] m1) := Off.apply (by simp)
        exact ⟨_, seg_dri r1 ht.ri, ho.ready (by simp) (by simp) (by simp) r1, by simp [apply], ho⟩
      · rw [if_neg hr]
        exact ⟨m1, Seg.nil, r1, by rw [hri1]; exact (not_not.1 hr).symm, Off.refl _⟩
    have hf2 : FrameIs c m2 := hf1.off o2 (by rintro s rfl; exact id)
    obtain ⟨m3, g1, g2, g3⟩ := sos_stop (proc := proc) hc hk r2 hf2
    have r3 : Ready m3 := g2.ready id id id r2
    have y2 : SyncH c.huff sent m2 := y1.off o2 (by rintro s a n rfl; exact id)
    refine ⟨m3, r3, ?_, ⟨?_, ?_, ?_⟩, ?_, ?_, ?_, ?_, rfl, ?_⟩
    · have := hf2.off g2 (fun s h => scan_frame h)
      exact ⟨this.seen, this.prog, this.lossless, this.arith, this.prec, this.height, this.width, this.ncomp, this.comps⟩
    · have h1 : SyncQ c.q c.qSent m1 := hs.q.off o1 (by
        rintro s n (h | h) h'
        · exact (anyH_not h).1 ⟨n, h'⟩
        · cases s <;> simp [Slot.cond, Slot.isQ] at h h')
      have h2 : SyncQ c.q c.qSent m2 := h1.off o2 (by rintro s n rfl; exact id)
      exact h2.off g2 (fun s n h => scan_notQ n h)
    · exact y2.off g2 (fun s a n h => scan_notH a n h)
    · rw [g2 _ id]; exact e2
    · refine ⟨g1.n, g1.cur, g1.rest, g1.dc, g1.ac, g1.Ss, g1.Se, g1.Ah, g1.Al, g1.rst, ?_⟩
      rw [g1.no, o2 _ (by simp), o1 _ (by rintro (⟨a, n, h⟩ | h) <;> exact h)]
    · intro i hi
      have hmem : c.comps.getD i comp0 ∈ scanComps c s := List.mem_map.2 ⟨i, hi, rfl⟩
      obtain ⟨d1, d2⟩ := t1 _ hmem
      have keepC : ∀ x : Slot, x.cond → m3 x = m1 x := by
        intro x hx
        rw [g2 x (by cases x <;> simp [Slot.cond, Slot.scan] at hx ⊢), o2 x (by rintro rfl; exact hx)]
      have keepH : ∀ a n t, HasH m1 a n t → HasH m3 a n t := fun a n t h =>
        (h.off o2 (by rintro s rfl; exact id)).off g2 (fun s h => scan_notH a n h)
      rw [g1.dc i hi, g1.ac i hi]
      constructor
      · intro hn
        have htd : tdOf s (c.comps.getD i comp0) = (c.comps.getD i comp0).dc := by
          unfold tdOf
          rcases hn with hn | hn
          · rw [if_pos hn]
          · rw [(ht.ls hn).2 i hi]; split <;> rfl
        rw [htd]
        have := d1 hn
        cases ha : c.arith with
        | true =>
          simp only [ha, if_true] at this ⊢
          rw [keepC (.dcL _) trivial, keepC (.dcU _) trivial]
          exact this
        | false =>
          simp only [ha, Bool.false_eq_true, if_false] at this ⊢
          obtain ⟨t, e1, e2⟩ := this
          exact ⟨t, e1, keepH _ _ _ e2⟩
      · intro hn hl
        have hta : taOf s (c.comps.getD i comp0) = (c.comps.getD i comp0).ac := by
          unfold taOf
          rw [if_pos hn]
        rw [hta]
        have := d2 hn hl
        cases ha : c.arith with
        | true =>
          simp only [ha, if_true] at this ⊢
          rw [keepC (.acK _) trivial]
          exact this
        | false =>
          simp only [ha, Bool.false_eq_true, if_false] at this ⊢
          obtain ⟨t, e1, e2⟩ := this
          exact ⟨t, e1, keepH _ _ _ e2⟩
    · rw [g2 _ id]; exact e2
    · intro s hs
      rw [g2 s (fun h => hs (by simp [h])), o2 s (fun h => hs (by simp [h])), o1 s (fun h => hs (by rcases h with h | h <;> simp [h]))]
    · -- the number of segments does not depend on what follows
      have hseg := s1.trans s2
      refine ⟨(b1 ++ if c.ri ≠ c.lastRi then emitDri c else []).length, by simp, ?_⟩
      intro rest saved k
      obtain ⟨j, hj, e⟩ := hseg (emitSos s (scanComps c s) ++ rest) saved
      rw [List.append_assoc]
      have : k + 1 + (b1 ++ if c.ri ≠ c.lastRi then emitDri c else []).length =
          (k + ((b1 ++ if c.ri ≠ c.lastRi then emitDri c else []).length - j) + 1) + j := by omega
      rw [this, e, g3]

/-! ## C10 -/

/-- What holds between two scans: the decoder knows the frame, the quantization tables and every table marked as sent. -/
structure Agree (c : CS) (m : Mem) : Prop where
  ok : c.Ok
  ready : Ready m
  frame : FrameIs c m
  sync : Synced c m
  quant : c.lossless = false → HasQuant c m

/-- Between two headers the compressor may replace entropy-coding tables (which clears their sent_table flags, e.g.
jchuff.c:1104, jcparam.c), conditioning values and the restart interval. -/
structure Retable (c c2 : CS) : Prop where
  same : c2 = { c with huff := c2.huff, hSent := c2.hSent, dcL := c2.dcL, dcU := c2.dcU, acK := c2.acK, ri := c2.ri }
  keep : ∀ a n, c2.hSent a n = true → c.hSent a n = true ∧ c2.huff a n = c.huff a n
  legal : HAll c2.huff

theorem Agree.retable {c c2 : CS} {m : Mem} (h : Agree c m) (hr : Retable c c2) : Agree c2 m := by
  have e := hr.same
  have e1 : c2.comps = c.comps := by rw [e]
  have e2 : c2.lossless = c.lossless := by rw [e]
  have e3 : c2.q = c.q := by rw [e]
  have e4 : c2.arith = c.arith := by rw [e]
  have e5 : c2.prog = c.prog := by rw [e]
  have e6 : c2.prec = c.prec := by rw [e]
  have e7 : c2.height = c.height := by rw [e]
  have e8 : c2.width = c.width := by rw [e]
  have e9 : c2.qSent = c.qSent := by rw [e]
  have e10 : c2.lastRi = c.lastRi := by rw [e]
  constructor
  · refine ⟨by rw [e1]; exact h.ok.comps, by rw [e7]; exact h.ok.height, by rw [e8]; exact h.ok.width, by rw [e6]; exact h.ok.prec,
      by rw [e1]; exact h.ok.fits, by rw [e2, e4, e5]; exact h.ok.mode, by rw [e3]; exact h.ok.q, hr.legal⟩
  · exact h.ready
  · have f := h.frame
    refine ⟨f.seen, by rw [e5]; exact f.prog, by rw [e2]; exact f.lossless, by rw [e4]; exact f.arith, by rw [e6]; exact f.prec,
      by rw [e7]; exact f.height, by rw [e8]; exact f.width, by rw [e1]; exact f.ncomp, ?_⟩
    intro i hi
    have : c2.comps[i] = c.comps[i]'(by rw [← e1]; exact hi) := by simp only [e1]
    rw [this]
    exact f.comps i (by rw [← e1]; exact hi)
  · refine ⟨by rw [e3, e9]; exact h.sync.q, ?_, by rw [e10]; exact h.sync.ri⟩
    intro a n hn
    obtain ⟨h1, h2⟩ := hr.keep a n hn
    obtain ⟨t, t1, t2⟩ := h.sync.h a n h1
    exact ⟨t, by rw [h2]; exact t1, t2⟩
  · intro hl i hi
    have : c2.comps[i] = c.comps[i]'(by rw [← e1]; exact hi) := by simp only [e1]
    rw [this, e3]
    exact h.quant (by rw [← e2]; exact hl) i (by rw [← e1]; exact hi)

/-- Everything the decoder has after the header of scan `s`. -/
structure ScanRead (c c' : CS) (s : CScan) (m m' : Mem) : Prop where
  scan : ScanIs c s m m'
  tables : ScanTables c s m'
  ri : m' .ri = c.ri
  agree : Agree c' m'
  off : Off (fun s => s.anyH ∨ s.cond ∨ s = .ri ∨ s.scan) m m'

theorem scan_read {proc : Nat → Proc} {c c' : CS} {m : Mem} (ha : Agree c m) {s : CScan} (hk : ScanFits c s) (ht : TblFits c s)
    {b : List Nat} (h : writeScan c s = some (b, c')) :
    ∃ m', ScanRead c c' s m m' ∧ ∃ d, d ≤ b.length ∧ ∀ rest saved, ∀ k,
      readLoop proc (k + 1 + d) (at_ m (b ++ rest) saved) = .sos (at_ m' rest saved) := by
  obtain ⟨m', h1, h2, h3, h4, h5, h6, h7, h8, h9⟩ := scan_step (proc := proc) ha.ok hk ht ha.ready ha.frame ha.sync h
  refine ⟨m', ⟨h4, h5, h6, ⟨?_, h1, h2, h3, ?_⟩, h7⟩, h9⟩
  · rw [h8]
    exact ⟨ha.ok.comps, ha.ok.height, ha.ok.width, ha.ok.prec, ha.ok.fits, ha.ok.mode, ha.ok.q, ha.ok.h⟩
  · rw [h8]
    intro hl i hi
    obtain ⟨v, e1, e2⟩ := ha.quant hl i hi
    refine ⟨v, e1, ?_⟩
    have ek : m' (.cTq i) = m (.cTq i) := h7 _ (by
      rintro (⟨a, n, h⟩ | h | h | h)
      · exact h
      · exact h
      · cases h
      · exact h)
    rw [ek]
    apply e2.off h7
    rintro s (h | h | rfl | h) h'
    · exact (anyH_not h).1 ⟨_, h'⟩
    · cases s <;> simp [Slot.cond, Slot.isQ] at h h'
    · exact h'
    · exact scan_notQ _ h h'

/-- Every later scan of the image: whatever follows its header, read_markers returns at the scan header, having stored
what `ScanRead` says, and so on for the scans after it. -/
def AllScans (proc : Nat → Proc) : CS → Mem → List (CS × CScan) → Prop
  | _, _, [] => True
  | c, m, (c2, s) :: l => Retable c c2 → ScanFits c2 s → TblFits c2 s → ∀ b c3, writeScan c2 s = some (b, c3) →
      ∃ m', (∀ rest saved, readMarkers proc (at_ m (b ++ rest) saved) = .sos (at_ m' rest saved)) ∧ ScanRead c2 c3 s m m' ∧ AllScans proc c3 m' l

/-- **C10**, scans: from any point where compressor and decompressor agree, every sequence of scan headers is read back. -/
theorem C10_scans (proc : Nat → Proc) : ∀ (l : List (CS × CScan)) (c : CS) (m : Mem), Agree c m → AllScans proc c m l := by
  intro l
  induction l with
  | nil => intros; trivial
  | cons x l ih =>
    obtain ⟨c2, s⟩ := x
    intro c m ha hr hk ht b c3 h
    obtain ⟨m', g1, d, g2, g3⟩ := scan_read (proc := proc) (ha.retable hr) hk ht h
    refine ⟨m', ?_, g1, ih c3 m' g1.agree⟩
    intro rest saved
    unfold readMarkers
    have : (at_ m (b ++ rest) saved).src.length + 2 = (b.length - d + rest.length + 1) + 1 + d := by
      show (b ++ rest).length + 2 = _
      simp; omega
    rw [this, g3]

/-- Markers written one after the other. -/
def writeMarkers : List (Nat × List Nat) → Option (List Nat)
  | [] => some []
  | (c, d) :: l =>
    match writeMarker c d, writeMarkers l with
    | some a, some b => some (a ++ b)
    | _, _ => none

/-- Fields assigned when APPn and COM markers are examined. -/
def Slot.app : Slot → Prop
  | .sawJFIF | .jMajor | .jMinor | .dUnit | .xDen | .yDen | .warns | .sawAdobe | .adobe => True
  | _ => False

theorem examine_app (m : Mem) (code : Nat) (data : List Nat) : ∀ x ∈ examine m code data, x.1.app := by
  intro x hx
  have := examine_slots m code data x hx
  simp only [List.mem_cons, List.not_mem_nil, or_false] at this
  rcases this with h | h | h | h | h | h | h | h | h <;> rw [h] <;> trivial

/-- **C41**: markers written with jpeg_write_marker are read back; those asked for with jpeg_save_markers are found in
marker_list in order, with their original lengths and their data up to the limit; the others leave no trace (unless they
are APP0 or APP14, which are examined for JFIF and Adobe data). -/
theorem C41_saved_markers (proc : Nat → Proc) (hp : ProcStd proc) : ∀ (ms : List (Nat × List Nat)) (m : Mem), Ready m →
    (∀ x ∈ ms, IsApp x.1 ∧ IsBytes x.2) → ∀ b, writeMarkers ms = some b →
    ∃ m', SegS proc m b m' (ms.flatMap (fun x => savedOf proc x.1 x.2)) ∧ Ready m' ∧ Off Slot.app m m' ∧
      ((∀ x ∈ ms, x.1 ≠ 0xE0 ∧ x.1 ≠ 0xEE) → m' = m) := by
  intro ms
  induction ms with
  | nil =>
    intro m hr _ b h
    simp only [writeMarkers, Option.some.injEq] at h
    subst h
    exact ⟨m, SegS.nil, hr, Off.refl _, fun _ => rfl⟩
  | cons x ms ih =>
    obtain ⟨code, data⟩ := x
    intro m hr hx b h
    unfold writeMarkers at h
    cases e1 : writeMarker code data with
    | none => rw [e1] at h; cases h
    | some a =>
      cases e2 : writeMarkers ms with
      | none => rw [e1, e2] at h; cases h
      | some b' =>
        rw [e1, e2] at h
        simp only [Option.some.injEq] at h
        subst h
        obtain ⟨x1, x2⟩ := hx (code, data) (by simp)
        have s1 := segS_app hp hr x1 x2 e1
        have o1 : Off Slot.app m (apply (examine m code (lookAt proc code data)) m) := Off.apply (examine_app _ _ _)
        obtain ⟨m', s2, r2, o2, q2⟩ := ih _ (o1.ready id id id hr) (fun y hy => hx y (by simp [hy])) b' e2
        refine ⟨m', ?_, r2, o1.trans o2, ?_⟩
        · rw [List.flatMap_cons]; exact s1.trans s2
        · intro hne
          rw [q2 (fun y hy => hne y (by simp [hy]))]
          have := hne (code, data) (by simp)
          rw [examine_other this.1 this.2]
          rfl

/-- JFIF and Adobe data in the decoder. -/
def JfifIs (jfif : Option (Nat × Nat × Nat × Nat × Nat)) (m : Mem) : Prop :=
  match jfif with
  | none => m .sawJFIF = 0
  | some (a, b, u, x, y) => m .sawJFIF = 1 ∧ m .jMajor = a ∧ m .jMinor = b ∧ m .dUnit = u ∧ m .xDen = x ∧ m .yDen = y
def AdobeIs (adobe : Option Nat) (m : Mem) : Prop :=
  match adobe with
  | none => m .sawAdobe = 0
  | some t => m .sawAdobe = 1 ∧ m .adobe = t

/-- The optional marker parameters fit. -/
def JfifFits (jfif : Option (Nat × Nat × Nat × Nat × Nat)) : Prop :=
  ∀ a b u x y, jfif = some (a, b, u, x, y) → a < 256 ∧ b < 256 ∧ u < 256 ∧ x < 65536 ∧ y < 65536

/-- What is saved of the file header. -/
def savedHead (proc : Nat → Proc) (jfif : Option (Nat × Nat × Nat × Nat × Nat)) (adobe : Option Nat) : List Saved :=
  (match jfif with
   | some (a, b, u, x, y) => savedOf proc 0xE0 ([0x4A, 0x46, 0x49, 0x46, 0, a, b, u] ++ be2 x ++ be2 y ++ [0, 0])
   | none => []) ++
  (match adobe with
   | some t => savedOf proc 0xEE ([0x41, 0x64, 0x6F, 0x62, 0x65] ++ be2 100 ++ be2 0 ++ be2 0 ++ [t])
   | none => [])

/-- The JFIF part of `savedHead`, and the bytes written. -/
def savedJfif (proc : Nat → Proc) (jfif : Option (Nat × Nat × Nat × Nat × Nat)) : List Saved :=
  match jfif with
  | some (a, b, u, x, y) => savedOf proc 0xE0 ([0x4A, 0x46, 0x49, 0x46, 0, a, b, u] ++ be2 x ++ be2 y ++ [0, 0])
  | none => []
def jfifBytes (jfif : Option (Nat × Nat × Nat × Nat × Nat)) : List Nat :=
  match jfif with
  | some (a, b, u, x, y) => emitJfif a b u x y
  | none => []
/-- The Adobe part of `savedHead`, and the bytes written. -/
def savedAdobe (proc : Nat → Proc) (adobe : Option Nat) : List Saved :=
  match adobe with
  | some t => savedOf proc 0xEE ([0x41, 0x64, 0x6F, 0x62, 0x65] ++ be2 100 ++ be2 0 ++ be2 0 ++ [t])
  | none => []
def adobeBytes (adobe : Option Nat) : List Nat :=
  match adobe with
  | some t => emitAdobe t
  | none => []

theorem be2_val {x : Nat} (h : x < 65536) : x / 256 % 256 * 256 + x % 256 = x := by omega

theorem soi_val {m : Mem} {x : Slot} {v : Nat} (h : (x, v) ∈ soiW) (hn : ∀ i, x ≠ .dcL i ∧ x ≠ .dcU i ∧ x ≠ .acK i)
    (hu : ∀ y ∈ [(Slot.ri, 0), (.jcs, 0), (.ccir, 0), (.sawJFIF, 0), (.jMajor, 1), (.jMinor, 1), (.dUnit, 0), (.xDen, 1), (.yDen, 1),
      (.sawAdobe, 0), (.adobe, 0), (.sawSOI, 1)], y.1 = x → y.2 = v) : apply soiW m x = v := by
  apply apply_const h
  intro y hy e
  rcases List.mem_append.1 hy with hy | hy
  · obtain ⟨i, -, hy⟩ := List.mem_flatMap.1 hy
    simp only [List.mem_cons, List.not_mem_nil, or_false] at hy
    rcases hy with rfl | rfl | rfl
    · exact absurd e.symm (hn i).1
    · exact absurd e.symm (hn i).2.1
    · exact absurd e.symm (hn i).2.2
  · exact hu y hy e

theorem lookAt_app0 {proc : Nat → Proc} (hp : ProcStd proc) {data : List Nat} (hl : data.length = 14) : lookAt proc 0xE0 data = data := by
  unfold lookAt
  rcases hp.app0 with h | ⟨l, h, h14⟩
  · rw [h]; simp only; exact List.take_of_length_le (by omega)
  · rw [h]; simp only; exact List.take_of_length_le (by omega)

theorem lookAt_app14 {proc : Nat → Proc} (hp : ProcStd proc) {data : List Nat} (hl : data.length = 12) : lookAt proc 0xEE data = data := by
  unfold lookAt
  rcases hp.app14 with h | ⟨l, h, h14⟩
  · rw [h]; simp only; exact List.take_of_length_le (by omega)
  · rw [h]; simp only; exact List.take_of_length_le (by omega)

/-- **C10**, file header: SOI and the optional JFIF and Adobe markers. -/
theorem C10_file_header (proc : Nat → Proc) (hp : ProcStd proc) (c : CS) (m : Mem) (hm : Fresh m)
    (jfif : Option (Nat × Nat × Nat × Nat × Nat)) (hj : JfifFits jfif) (adobe : Option Nat) (ha : ∀ t, adobe = some t → t < 256) :
    ∃ m', SegS proc m (writeFile c jfif adobe).1 m' (savedHead proc jfif adobe) ∧ Ready m' ∧ JfifIs jfif m' ∧ AdobeIs adobe m' ∧
      m' .ri = 0 ∧ Off (fun s => s.soi ∨ s.app) m m' := by
  have s1 := seg_soi (proc := proc) hm
  have o1 : Off Slot.soi m (apply soiW m) := Off.apply soiW_slots
  have r1 : Ready (apply soiW m) := by
    refine ⟨by rw [o1 _ id]; exact hm.unread, by rw [o1 _ id]; exact hm.disc, ?_⟩
    rw [soi_val (v := 1) (by simp [soiW]) (by simp) (by simp)]
    omega
  have hri : apply soiW m .ri = 0 := soi_val (by simp [soiW]) (by simp) (by simp)
  have hj0 : apply soiW m .sawJFIF = 0 := soi_val (by simp [soiW]) (by simp) (by simp)
  have ha0 : apply soiW m .sawAdobe = 0 := soi_val (by simp [soiW]) (by simp) (by simp)
  generalize apply soiW m = m1 at s1 o1 r1 hri hj0 ha0
  -- JFIF
  obtain ⟨m2, s2, r2, j2, o2⟩ : ∃ m2, SegS proc m1 (jfifBytes jfif) m2 (savedJfif proc jfif) ∧ Ready m2 ∧ JfifIs jfif m2 ∧
      Off (fun s => s.app ∧ s ≠ .sawAdobe ∧ s ≠ .adobe) m1 m2 := by
    cases jfif with
    | none => exact ⟨m1, SegS.nil, r1, hj0, Off.refl _⟩
    | some v =>
      obtain ⟨a, b, u, x, y⟩ := v
      obtain ⟨h1, h2, h3, h4, h5⟩ := hj a b u x y rfl
      simp only [jfifBytes, savedJfif]
      generalize hd : [0x4A, 0x46, 0x49, 0x46, 0, a, b, u] ++ be2 x ++ be2 y ++ [0, 0] = data
      have hdl : data.length = 14 := by rw [← hd]; rfl
      have hdb : IsBytes data := by
        intro z hz
        rw [← hd] at hz
        simp [be2] at hz
        omega
      have hw : writeMarker 0xE0 data = some (emitJfif a b u x y) := by
        unfold writeMarker
        rw [if_neg (by omega), hdl, ← hd]
        unfold emitJfif
        simp only [be2, List.map_append, List.map_cons, List.map_nil, List.append_assoc]
        simp
      have hs := segS_app hp r1 (Or.inl ⟨by omega, by omega⟩) hdb hw
      rw [lookAt_app0 hp hdl] at hs
      have hex : examine m1 0xE0 data = [(.sawJFIF, 1), (.jMajor, a), (.jMinor, b), (.dUnit, u), (.xDen, x), (.yDen, y)] ++
          (if a ≠ 1 then [(.warns, m1 .warns + 1)] else []) := by
        unfold examine examineApp0
        rw [if_pos rfl, if_pos ⟨by omega, by rw [← hd]; rfl⟩, ← hd]
        simp only [be2, List.cons_append, List.nil_append, List.getD_cons_succ, List.getD_cons_zero]
        rw [be2_val h4, be2_val h5]
      have ho : Off (fun s => s.app ∧ s ≠ .sawAdobe ∧ s ≠ .adobe) m1 (apply (examine m1 0xE0 data) m1) := by
        apply Off.apply
        intro z hz
        refine ⟨examine_app _ _ _ z hz, ?_⟩
        rw [hex] at hz
        rcases List.mem_append.1 hz with hz | hz
        · simp only [List.mem_cons, List.not_mem_nil, or_false] at hz
          rcases hz with rfl | rfl | rfl | rfl | rfl | rfl <;> simp
        · split at hz
          · simp at hz; subst hz; simp
          · simp at hz
      refine ⟨_, hs, ho.ready (by simp [Slot.app]) (by simp [Slot.app]) (by simp [Slot.app]) r1, ?_, ho⟩
      rw [hex, apply_append]
      have hk : ∀ z m', z ≠ Slot.warns → apply (if a ≠ 1 then [(Slot.warns, m1 .warns + 1)] else []) m' z = m' z := by
        intro z m' hz
        apply apply_notin
        intro q hq
        split at hq
        · simp at hq; subst hq; exact fun e => hz e.symm
        · simp at hq
      unfold JfifIs
      simp only
      rw [hk _ _ (by simp), hk _ _ (by simp), hk _ _ (by simp), hk _ _ (by simp), hk _ _ (by simp), hk _ _ (by simp)]
      simp [apply]
  -- Adobe
  obtain ⟨m3, s3, r3, a3, o3⟩ : ∃ m3, SegS proc m2 (adobeBytes adobe) m3 (savedAdobe proc adobe) ∧ Ready m3 ∧ AdobeIs adobe m3 ∧
      Off (fun s => s = .sawAdobe ∨ s = .adobe) m2 m3 := by
    cases adobe with
    | none =>
      refine ⟨m2, SegS.nil, r2, ?_, Off.refl _⟩
      show m2 .sawAdobe = 0
      rw [o2 _ (by simp)]
      exact ha0
    | some t =>
      have ht := ha t rfl
      simp only [adobeBytes, savedAdobe]
      generalize hd : [0x41, 0x64, 0x6F, 0x62, 0x65] ++ be2 100 ++ be2 0 ++ be2 0 ++ [t] = data
      have hdl : data.length = 12 := by rw [← hd]; rfl
      have hdb : IsBytes data := by
        intro z hz
        rw [← hd] at hz
        simp [be2] at hz
        omega
      have hw : writeMarker 0xEE data = some (emitAdobe t) := by
        unfold writeMarker
        rw [if_neg (by omega), hdl, ← hd]
        unfold emitAdobe
        simp [be2, Nat.mod_eq_of_lt ht]
      have hs := segS_app hp r2 (Or.inl ⟨by omega, by omega⟩) hdb hw
      rw [lookAt_app14 hp hdl] at hs
      have hex : examine m2 0xEE data = [(.sawAdobe, 1), (.adobe, t)] := by
        unfold examine examineApp14
        rw [if_neg (by decide), if_pos rfl, if_pos ⟨by omega, by rw [← hd]; rfl⟩, ← hd]
        rfl
      rw [hex] at hs
      have ho : Off (fun s => s = .sawAdobe ∨ s = .adobe) m2 (apply [(.sawAdobe, 1), (.adobe, t)] m2) := Off.apply (by simp)
      exact ⟨_, hs, ho.ready (by simp) (by simp) (by simp) r2, ⟨by simp [apply], by simp [apply]⟩, ho⟩
  refine ⟨m3, ?_, r3, ?_, a3, ?_, ?_⟩
  · have := (s1.s.trans s2).trans s3
    rw [List.nil_append] at this
    exact this
  · unfold JfifIs at j2 ⊢
    cases jfif with
    | none => simp only at j2 ⊢; rw [o3 _ (by simp)]; exact j2
    | some v =>
      obtain ⟨a, b, u, x, y⟩ := v
      simp only at j2 ⊢
      rw [o3 _ (by simp), o3 _ (by simp), o3 _ (by simp), o3 _ (by simp), o3 _ (by simp), o3 _ (by simp)]
      exact j2
  · rw [o3 _ (by simp), o2 _ (by simp [Slot.app])]; exact hri
  · intro z hz
    rw [o3 z (by rintro (rfl | rfl) <;> exact hz (Or.inr trivial)), o2 z (fun h => hz (Or.inr h.1)), o1 z (fun h => hz (Or.inl h))]

/-- **C10**, whole headers: reading the file header, the application's markers, the frame header and the header of the
first scan stops at the scan header with frame, tables and scan parameters as written, the JFIF and Adobe data, and the
requested markers saved; all later scan headers are read back too.  Tables already known to the decoder (flags
sent_table set, abbreviated datastreams) are included in `SyncQ`, `SyncH`. -/
theorem C10_image (proc : Nat → Proc) (hp : ProcStd proc) (c : CS) (m : Mem) (hm : Fresh m) (hc : c.Ok)
    (hq : SyncQ c.q c.qSent m) (hh : SyncH c.huff c.hSent m)
    (jfif : Option (Nat × Nat × Nat × Nat × Nat)) (hj : JfifFits jfif) (adobe : Option Nat) (ha : ∀ t, adobe = some t → t < 256)
    (ms : List (Nat × List Nat)) (hms : ∀ x ∈ ms, (IsApp x.1 ∧ IsBytes x.2) ∧ x.1 ≠ 0xE0 ∧ x.1 ≠ 0xEE)
    (bm : List Nat) (hbm : writeMarkers ms = some bm)
    (b1 : List Nat) (c1 : CS) (hb1 : writeFrame (writeFile c jfif adobe).2 = some (b1, c1))
    (c2 : CS) (hr : Retable c1 c2) (s : CScan) (hs : ScanFits c2 s) (ht : TblFits c2 s)
    (b2 : List Nat) (c3 : CS) (hb2 : writeScan c2 s = some (b2, c3)) :
    ∃ m', (∀ rest saved, readMarkers proc (at_ m ((writeFile c jfif adobe).1 ++ bm ++ b1 ++ b2 ++ rest) saved) =
        .sos (at_ m' rest (saved ++ (savedHead proc jfif adobe ++ ms.flatMap (fun x => savedOf proc x.1 x.2))))) ∧
      FrameIs c m' ∧ (c.lossless = false → HasQuant c m') ∧ JfifIs jfif m' ∧ AdobeIs adobe m' ∧
      ScanTables c2 s m' ∧ m' .ri = c2.ri ∧ ScanIs c2 s m m' ∧ ∀ l, AllScans proc c3 m' l := by
  obtain ⟨m1, s1, r1, j1, a1, ri1, o1⟩ := C10_file_header proc hp c m hm jfif hj adobe ha
  obtain ⟨m2, s2, r2, o2, e2⟩ := C41_saved_markers proc hp ms m1 r1 (fun x hx => (hms x hx).1) bm hbm
  have e2 := e2 (fun x hx => (hms x hx).2)
  subst e2
  have hoff : ∀ (x : Slot), x.anyQ ∨ x.anyH → ¬ (x.soi ∨ x.app) := by
    rintro x (⟨n, h⟩ | ⟨a, n, h⟩)
    · cases x <;> simp [Slot.isQ] at h <;> simp [Slot.soi, Slot.app]
    · cases x <;> simp [Slot.isH] at h <;> simp [Slot.soi, Slot.app]
  have hsync : Synced (writeFile c jfif adobe).2 m2 := by
    refine ⟨?_, ?_, ri1⟩
    · exact hq.off o1 (fun s n h h' => hoff s (Or.inl ⟨n, h'⟩) h)
    · exact hh.off o1 (fun s a n h h' => hoff s (Or.inr ⟨a, n, h'⟩) h)
  have hc1 : (writeFile c jfif adobe).2.Ok := ⟨hc.comps, hc.height, hc.width, hc.prec, hc.fits, hc.mode, hc.q, hc.h⟩
  have hsof : m2 .sawSOF = 0 := by rw [o1 _ (by simp [Slot.soi, Slot.app])]; exact hm.sof
  obtain ⟨m3, s3, r3, f3, y3, q3, ec, o3⟩ := frame_step (proc := proc) hc1 r2 hsof hsync hb1
  have hA : Agree c1 m3 := by
    refine ⟨?_, r3, f3, y3, ?_⟩
    · rw [ec]; exact ⟨hc.comps, hc.height, hc.width, hc.prec, hc.fits, hc.mode, hc.q, hc.h⟩
    · intro hl
      exact q3 (by rw [ec] at hl; exact hl)
  obtain ⟨m4, g1, d, g2, g3⟩ := scan_read (proc := proc) (hA.retable hr) hs ht hb2
  have hsame : c3.comps = c.comps ∧ c3.prog = c.prog ∧ c3.lossless = c.lossless ∧ c3.arith = c.arith ∧ c3.prec = c.prec ∧
      c3.height = c.height ∧ c3.width = c.width ∧ c3.q = c.q := by
    have h1 := hr.same
    unfold writeScan at hb2
    cases hd : scanTbl c2 s with
    | none => rw [hd] at hb2; cases hb2
    | some r =>
      rw [hd] at hb2
      simp only [Option.some.injEq, Prod.mk.injEq] at hb2
      rw [← hb2.2, h1, ec]
      exact ⟨rfl, rfl, rfl, rfl, rfl, rfl, rfl, rfl⟩
  obtain ⟨k1, k2, k3, k4, k5, k6, k7, k8⟩ := hsame
  have hkeep : ∀ x : Slot, x.app → m4 x = m2 x := by
    intro x hx
    rw [g1.off x (by
      rintro (⟨a, n, h⟩ | h | rfl | h)
      · cases x <;> simp [Slot.app] at hx <;> simp [Slot.isH] at h
      · cases x <;> simp [Slot.app] at hx <;> simp [Slot.cond] at h
      · exact hx
      · cases x <;> simp [Slot.app] at hx <;> simp [Slot.scan] at h), o3 x (by
      rintro (⟨n, h⟩ | h)
      · cases x <;> simp [Slot.app] at hx <;> simp [Slot.isQ] at h
      · cases x <;> simp [Slot.app] at hx <;> simp [Slot.frame] at h)]
  refine ⟨m4, ?_, ?_, ?_, ?_, ?_, g1.tables, g1.ri, ?_, fun l => C10_scans proc l c3 m4 g1.agree⟩
  · intro rest saved
    obtain ⟨j, hj', e⟩ := ((s1.trans s2).trans s3.s) (b2 ++ rest) saved
    unfold readMarkers
    have hlen : (at_ m ((writeFile c jfif adobe).1 ++ bm ++ b1 ++ b2 ++ rest) saved).src.length =
        ((writeFile c jfif adobe).1 ++ bm ++ b1).length + b2.length + rest.length := by
      show ((writeFile c jfif adobe).1 ++ bm ++ b1 ++ b2 ++ rest).length = _
      simp; omega
    rw [hlen]
    have hfuel : ((writeFile c jfif adobe).1 ++ bm ++ b1).length + b2.length + rest.length + 2 =
        ((((writeFile c jfif adobe).1 ++ bm ++ b1).length - j) + (b2.length - d) + rest.length + 1 + 1 + d) + j := by omega
    rw [hfuel, List.append_assoc _ b2 rest, e, g3, List.append_nil]
  · have f := g1.agree.frame
    refine ⟨f.seen, by rw [← k2]; exact f.prog, by rw [← k3]; exact f.lossless, by rw [← k4]; exact f.arith, by rw [← k5]; exact f.prec,
      by rw [← k6]; exact f.height, by rw [← k7]; exact f.width, by rw [← k1]; exact f.ncomp, ?_⟩
    intro i hi
    have := f.comps i (by rw [k1]; exact hi)
    simp only [k1] at this
    exact this
  · intro hl i hi
    have := g1.agree.quant (by rw [k3]; exact hl) i (by rw [k1]; exact hi)
    simp only [k1, k8] at this
    exact this
  · unfold JfifIs at j1 ⊢
    cases jfif with
    | none => simp only at j1 ⊢; rw [hkeep .sawJFIF trivial]; exact j1
    | some v =>
      obtain ⟨a, b, u, x, y⟩ := v
      simp only at j1 ⊢
      rw [hkeep .sawJFIF trivial, hkeep .jMajor trivial, hkeep .jMinor trivial, hkeep .dUnit trivial, hkeep .xDen trivial, hkeep .yDen trivial]
      exact j1
  · unfold AdobeIs at a1 ⊢
    cases adobe with
    | none => simp only at a1 ⊢; rw [hkeep .sawAdobe trivial]; exact a1
    | some t =>
      simp only at a1 ⊢
      rw [hkeep .sawAdobe trivial, hkeep .adobe trivial]
      exact a1
  · have g := g1.scan
    refine ⟨g.n, g.cur, g.rest, g.dc, g.ac, g.Ss, g.Se, g.Ah, g.Al, g.rst, ?_⟩
    rw [g.no, o3 _ (by rintro (⟨n, h⟩ | h) <;> exact h), o1 _ (by simp [Slot.soi, Slot.app])]

end Verif.Mark
