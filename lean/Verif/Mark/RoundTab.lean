import Verif.Mark.RoundProps
/-
Abbreviated table datastreams (write_tables_only / jpeg_read_header with require_image = FALSE), the choice of the frame
marker, and what goes wrong in emit_multi_dht and get_sos.
-/
namespace Verif.Mark
open Verif.Huff (natOrder HuffTbl)

theorem tblQuants_done {proc : Nat → Proc} {q : Nat → Option (List Nat)} (hq : QAll q) : ∀ (ns : List Nat) (sent : Nat → Bool) (m : Mem),
    Ready m → SyncQ q sent m → (∀ n ∈ ns, n < 4) →
    ∃ m', QDone proc q m (tblQuants q ns sent).1 (tblQuants q ns sent).2 (ns.filter (fun n => (q n).isSome)) m' ∧
      ∀ k, sent k = true → (tblQuants q ns sent).2 k = true := by
  intro ns
  induction ns with
  | nil => intro sent m _ hs _; exact ⟨m, ⟨Seg.nil, Off.refl _, hs, by simp⟩, fun _ h => h⟩
  | cons n ns ih =>
    intro sent m hr hs hn
    simp only [tblQuants]
    cases e : emitDqt q sent n with
    | none =>
      have hqn : q n = none := by
        unfold emitDqt at e
        cases h : q n with
        | none => rfl
        | some v => rw [h] at e; simp only at e; split at e <;> cases e
      obtain ⟨m', d, k⟩ := ih sent m hr hs (fun x hx => hn x (by simp [hx]))
      refine ⟨m', ⟨?_, d.off, d.sync, ?_⟩, k⟩
      · simpa using d.seg
      · intro x hx
        have : x ∈ ns.filter (fun n => (q n).isSome) := by
          simp only [List.mem_filter, List.mem_cons] at hx ⊢
          rcases hx.1 with rfl | h
          · rw [hqn] at hx; simp at hx
          · exact ⟨h, hx.2⟩
        exact d.all x this
    | some r =>
      obtain ⟨p, b, sent'⟩ := r
      obtain ⟨⟨m1, d1⟩, k1⟩ := emitDqt_done (proc := proc) hr hq hs (hn n (by simp)) e
      obtain ⟨m', d, k⟩ := ih sent' m1 (qDone_ready d1 hr) d1.sync (fun x hx => hn x (by simp [hx]))
      refine ⟨m', ⟨d1.seg.trans d.seg, d1.off.trans d.off, d.sync, ?_⟩, fun j hj => k j (k1 j hj)⟩
      intro x hx
      simp only [List.mem_filter, List.mem_cons] at hx
      rcases hx.1 with rfl | h
      · exact k _ (d1.all _ (by simp))
      · exact d.all x (by simp [h, hx.2])

theorem emitDht_opt {proc : Nat → Proc} {q : Bool → Nat → Option HuffTbl} (hq : HAll q) {sent : Bool → Nat → Bool} {m : Mem} (hr : Ready m)
    (hs : SyncH q sent m) {ac : Bool} {n : Nat} (hn : n < 4) :
    ∃ m', HDone proc q m ((emitDht q sent ac n).getD ([], sent)).1 ((emitDht q sent ac n).getD ([], sent)).2
      (if (q ac n).isSome then [(ac, n)] else []) m' ∧ ∀ a k, sent a k = true → ((emitDht q sent ac n).getD ([], sent)).2 a k = true := by
  cases e : emitDht q sent ac n with
  | none =>
    have hqn : q ac n = none := by
      unfold emitDht at e
      cases h : q ac n with
      | none => rfl
      | some v => rw [h] at e; simp only at e; split at e <;> cases e
    exact ⟨m, ⟨Seg.nil, Off.refl _, hs, by simp [hqn]⟩, fun _ _ h => h⟩
  | some r =>
    obtain ⟨b, sent'⟩ := r
    obtain ⟨⟨m1, d1⟩, k1⟩ := emitDht_done (proc := proc) hr hq hs hn e
    refine ⟨m1, ⟨d1.seg, d1.off, d1.sync, ?_⟩, k1⟩
    intro x hx
    split at hx
    · exact d1.all x hx
    · simp at hx

theorem tblHuffs_done {proc : Nat → Proc} {q : Bool → Nat → Option HuffTbl} (hq : HAll q) : ∀ (ns : List Nat) (sent : Bool → Nat → Bool) (m : Mem),
    Ready m → SyncH q sent m → (∀ n ∈ ns, n < 4) →
    ∃ m', HDone proc q m (tblHuffs q ns sent).1 (tblHuffs q ns sent).2
        (ns.flatMap (fun n => (if (q false n).isSome then [(false, n)] else []) ++ (if (q true n).isSome then [(true, n)] else []))) m' ∧
      ∀ a k, sent a k = true → (tblHuffs q ns sent).2 a k = true := by
  intro ns
  induction ns with
  | nil => intro sent m _ hs _; exact ⟨m, ⟨Seg.nil, Off.refl _, hs, by simp⟩, fun _ _ h => h⟩
  | cons n ns ih =>
    intro sent m hr hs hn
    simp only [tblHuffs]
    obtain ⟨m1, d1, k1⟩ := emitDht_opt (proc := proc) hq hr hs (ac := false) (hn n (by simp))
    obtain ⟨m2, d2, k2⟩ := emitDht_opt (proc := proc) hq (hDone_ready d1 hr) d1.sync (ac := true) (hn n (by simp))
    obtain ⟨m3, d3, k3⟩ := ih _ m2 (hDone_ready d2 (hDone_ready d1 hr)) d2.sync (fun x hx => hn x (by simp [hx]))
    refine ⟨m3, ⟨(d1.seg.trans d2.seg).trans d3.seg, (d1.off.trans d2.off).trans d3.off, d3.sync, ?_⟩,
      fun a j hj => k3 a j (k2 a j (k1 a j hj))⟩
    intro x hx
    rw [List.flatMap_cons] at hx
    rcases List.mem_append.1 hx with hx | hx
    · rcases List.mem_append.1 hx with hx | hx
      · exact k3 _ _ (k2 _ _ (d1.all x hx))
      · exact k3 _ _ (d2.all x hx)
    · exact d3.all x hx

/-- The trailer: read_markers reports the end of the image (write_file_trailer, jcmarker.c:791-795). -/
theorem eoi_stop {proc : Nat → Proc} {m : Mem} (hr : Ready m) (rest : List Nat) (saved : List Saved) (k : Nat) :
    readLoop proc (k + 1) (at_ m (mark 0xD9 ++ rest) saved) = .eoi (at_ m rest saved) := by
  rw [readLoop_succ]
  have e : mark 0xD9 ++ rest = 0xFF :: 0xD9 :: rest := rfl
  rw [e, got_mark hr (by decide) (by decide)]
  have hun : (at_ (inMk m 0xD9) rest saved).mem .unread = 0xD9 := rfl
  simp only [hun, if_true]
  unfold RS.clear at_
  simp only
  have := apply_clear (m := m) hr (code := 0xD9) (w := []) (by simp)
  have e : apply [(.unread, 0)] (apply [] (inMk m 0xD9)) = apply [] m := this
  rw [show apply [] (inMk m 0xD9) = inMk m 0xD9 from rfl] at e
  rw [e]
  rfl

/-- **C10**, table datastreams (jpeg_write_tables): reading one back ends at EOI, and from then on the decoder knows every
defined quantization table and (unless arithmetic coding is selected) every defined Huffman table, so that an
abbreviated image datastream can follow: the hypotheses `hq`, `hh` of `C10_image` hold of the compressor `(writeTables c).2`
and the decoder. -/
theorem C10_tables_only (proc : Nat → Proc) (c : CS) (m : Mem) (hm : Fresh m) (hqa : QAll c.q) (hha : HAll c.huff)
    (hq : SyncQ c.q c.qSent m) (hh : SyncH c.huff c.hSent m) :
    ∃ m', (∀ rest saved, readMarkers proc (at_ m ((writeTables c).1 ++ rest) saved) = .eoi (at_ m' rest saved)) ∧
      (∀ n < 4, ∀ v, c.q n = some v → HasQ m' n v ∧ (writeTables c).2.qSent n = true) ∧
      (c.arith = false → ∀ n < 4, ∀ ac t, c.huff ac n = some t → HasH m' ac n t ∧ (writeTables c).2.hSent ac n = true) ∧
      SyncQ (writeTables c).2.q (writeTables c).2.qSent m' ∧ SyncH (writeTables c).2.huff (writeTables c).2.hSent m' ∧
      m' .sawSOF = 0 := by
  have s1 := seg_soi (proc := proc) hm
  have o1 : Off Slot.soi m (apply soiW m) := Off.apply soiW_slots
  have r1 : Ready (apply soiW m) := by
    refine ⟨by rw [o1 _ id]; exact hm.unread, by rw [o1 _ id]; exact hm.disc, ?_⟩
    rw [soi_val (v := 1) (by simp [soiW]) (by simp) (by simp)]
    omega
  have q1 : SyncQ c.q c.qSent (apply soiW m) := hq.off o1 (fun s n h h' => by cases s <;> simp [Slot.soi, Slot.isQ] at h h')
  have h1 : SyncH c.huff c.hSent (apply soiW m) := hh.off o1 (fun s a n h h' => by cases s <;> simp [Slot.soi, Slot.isH] at h h')
  have f1 : apply soiW m .sawSOF = 0 := by rw [o1 _ id]; exact hm.sof
  generalize apply soiW m = m1 at s1 o1 r1 q1 h1 f1
  obtain ⟨m2, d2, k2⟩ := tblQuants_done (proc := proc) hqa [0, 1, 2, 3] c.qSent m1 r1 q1 (by simp)
  have r2 := qDone_ready d2 r1
  have h2 : SyncH c.huff c.hSent m2 := h1.off d2.off (fun s a n h h' => (anyQ_not h).1 ⟨_, _, h'⟩)
  have f2 : m2 .sawSOF = 0 := by rw [d2.off _ (by rintro ⟨n, h⟩; exact h)]; exact f1
  obtain ⟨m3, d3⟩ : ∃ m3, HDone proc c.huff m2 (if c.arith then ([], c.hSent) else tblHuffs c.huff [0, 1, 2, 3] c.hSent).1
      (if c.arith then ([], c.hSent) else tblHuffs c.huff [0, 1, 2, 3] c.hSent).2
      (if c.arith then [] else [0, 1, 2, 3].flatMap (fun n => (if (c.huff false n).isSome then [(false, n)] else []) ++
        (if (c.huff true n).isSome then [(true, n)] else []))) m3 := by
    cases c.arith with
    | true => exact ⟨m2, Seg.nil, Off.refl _, h2, by simp⟩
    | false =>
      obtain ⟨m3, d, -⟩ := tblHuffs_done (proc := proc) hha [0, 1, 2, 3] c.hSent m2 r2 h2 (by simp)
      exact ⟨m3, d⟩
  have r3 := hDone_ready d3 r2
  have f3 : m3 .sawSOF = 0 := by rw [d3.off _ (by rintro ⟨a, n, h⟩; exact h)]; exact f2
  have q3 : SyncQ c.q (tblQuants c.q [0, 1, 2, 3] c.qSent).2 m3 := d2.sync.off d3.off (fun s n h h' => (anyH_not h).1 ⟨_, h'⟩)
  refine ⟨m3, ?_, ?_, ?_, q3, d3.sync, f3⟩
  · intro rest saved
    obtain ⟨j, hj, e⟩ := ((s1.trans d2.seg).trans d3.seg) (mark 0xD9 ++ rest) saved
    unfold readMarkers
    have hb : (writeTables c).1 ++ rest = (mark 0xD8 ++ (tblQuants c.q [0, 1, 2, 3] c.qSent).1 ++
        (if c.arith then ([], c.hSent) else tblHuffs c.huff [0, 1, 2, 3] c.hSent).1) ++ (mark 0xD9 ++ rest) := by
      simp only [writeTables, List.append_assoc]
    rw [hb]
    generalize hB : (mark 0xD8 ++ (tblQuants c.q [0, 1, 2, 3] c.qSent).1 ++
        (if c.arith then ([], c.hSent) else tblHuffs c.huff [0, 1, 2, 3] c.hSent).1) = B at e hj
    have hf : (at_ m (B ++ (mark 0xD9 ++ rest)) saved).src.length + 2 = ((B.length - j) + (mark 0xD9 ++ rest).length + 1 + 1) + j := by
      show (B ++ (mark 0xD9 ++ rest)).length + 2 = _
      rw [List.length_append]; omega
    rw [hf, e, eoi_stop r3]
  · intro n hn v hv
    have hs : (writeTables c).2.qSent n = true := d2.all n (by
      simp only [List.mem_filter, List.mem_cons, List.not_mem_nil, or_false]
      exact ⟨by omega, by simp [hv]⟩)
    obtain ⟨v', e1, e2⟩ := q3 n hs
    rw [hv, Option.some.injEq] at e1
    exact ⟨e1 ▸ e2, hs⟩
  · intro ha n hn ac t ht
    have hs : (writeTables c).2.hSent ac n = true := by
      refine d3.all (ac, n) ?_
      rw [ha]
      simp only [Bool.false_eq_true, if_false, List.mem_flatMap]
      refine ⟨n, by simp only [List.mem_cons, List.not_mem_nil, or_false]; omega, ?_⟩
      cases ac <;> simp [ht]
    obtain ⟨v', e1, e2⟩ := d3.sync ac n hs
    rw [ht, Option.some.injEq] at e1
    exact ⟨e1 ▸ e2, hs⟩

/-! ### the frame marker -/

theorem dqtEach_prec (q : Nat → Option (List Nat)) : ∀ (tqs : List Nat) (sent sent' : Nat → Bool) (p : Nat) (b : List Nat),
    dqtEach q tqs sent = some (p, b, sent') → p = (tqs.map (fun n => dqtPrec ((q n).getD []))).sum ∧ ∀ n ∈ tqs, (q n).isSome = true := by
  intro tqs
  induction tqs with
  | nil => intro sent sent' p b h; simp only [dqtEach, Option.some.injEq, Prod.mk.injEq] at h; simp [← h.1]
  | cons n ns ih =>
    intro sent sent' p b h
    unfold dqtEach at h
    cases e : emitDqt q sent n with
    | none => rw [e] at h; cases h
    | some r =>
      obtain ⟨p1, b1, s1⟩ := r
      rw [e] at h
      simp only at h
      cases e2 : dqtEach q ns s1 with
      | none => rw [e2] at h; cases h
      | some r2 =>
        obtain ⟨p2, b2, s2⟩ := r2
        rw [e2] at h
        simp only [Option.some.injEq, Prod.mk.injEq] at h
        obtain ⟨i1, i2⟩ := ih _ _ _ _ e2
        unfold emitDqt at e
        cases hq : q n with
        | none => rw [hq] at e; cases e
        | some v =>
          rw [hq] at e
          have hp : p1 = dqtPrec v := by
            simp only at e
            split at e <;> cases e <;> rfl
          refine ⟨?_, ?_⟩
          · rw [← h.1, i1, hp]; simp [hq]
          · intro k hk
            rcases List.mem_cons.1 hk with rfl | hk
            · simp [hq]
            · exact i2 k hk

theorem dqtPrec_zero {v : List Nat} (hl : v.length = 64) : dqtPrec v = 0 ↔ ∀ x ∈ v, x ≤ 255 := by
  unfold dqtPrec
  constructor
  · intro h x hx
    obtain ⟨i, hi, rfl⟩ := List.getElem_of_mem hx
    split at h
    · cases h
    · rename_i hn
      simp only [List.any_eq_true, List.mem_range, decide_eq_true_eq, not_exists, not_and, Nat.not_lt] at hn
      have := hn i (by omega)
      rw [List.getD_eq_getElem?_getD, List.getElem?_eq_getElem hi] at this
      exact this
  · intro h
    rw [if_neg]
    simp only [List.any_eq_true, List.mem_range, decide_eq_true_eq, not_exists, not_and, Nat.not_lt]
    intro i hi
    rw [List.getD_eq_getElem?_getD, List.getElem?_eq_getElem (by omega)]
    exact h _ (List.getElem_mem _)

theorem sof_cases (a p l y e z : Bool) (hm : l = true → a = false ∧ p = false) (code : Nat)
    (hc : code = if a then (if p then 0xCA else 0xC9) else if p then 0xC2 else if l then 0xC3 else
      if !(a || p || l || !e) && !y && z then 0xC0 else 0xC1) :
    let B := p = false ∧ a = false ∧ l = false ∧ e = true ∧ y = false ∧ z = true
    (code = 0xC0 ↔ B) ∧ (code = 0xC1 ↔ (p = false ∧ a = false ∧ l = false ∧ ¬ B)) ∧
      (code = 0xC2 ↔ (p = true ∧ a = false)) ∧ (code = 0xC3 ↔ l = true) ∧
      (code = 0xC9 ↔ (p = false ∧ a = true)) ∧ (code = 0xCA ↔ (p = true ∧ a = true)) := by
  subst hc
  cases a <;> cases p <;> cases l <;> simp at hm ⊢ <;> cases y <;> cases e <;> cases z <;> simp

theorem sum_zero_iff {l : List Nat} : l.sum = 0 ↔ ∀ x ∈ l, x = 0 := by
  induction l with
  | nil => simp
  | cons a l ih => simp [ih]

/-- The conditions for a baseline frame (T.81 table B.2 and section F.1: 8-bit sequential Huffman, table numbers 0 and 1,
8-bit quantizers). -/
structure Baseline (c : CS) : Prop where
  seq : c.prog = false
  huffman : c.arith = false
  lossy : c.lossless = false
  prec : c.prec = 8
  tables : ∀ k ∈ c.comps, k.dc ≤ 1 ∧ k.ac ≤ 1
  quant : ∀ k ∈ c.comps, ∀ v, c.q k.tq = some v → ∀ x ∈ v, x ≤ 255

/-- **C10**, frame marker: the frame header is labelled SOF0 exactly when the image is baseline; otherwise the label is the
one of the process used. -/
theorem C10_frame_marker (c c1 : CS) (hc : c.Ok) (b : List Nat) (h : writeFrame c = some (b, c1)) :
    ∃ pre code rest, b = pre ++ 0xFF :: code :: rest ∧ emitSof c code = some (0xFF :: code :: rest) ∧ (code = 0xC0 ↔ Baseline c) ∧
      (code = 0xC1 ↔ (c.prog = false ∧ c.arith = false ∧ c.lossless = false ∧ ¬ Baseline c)) ∧
      (code = 0xC2 ↔ (c.prog = true ∧ c.arith = false)) ∧ (code = 0xC3 ↔ c.lossless = true) ∧
      (code = 0xC9 ↔ (c.prog = false ∧ c.arith = true)) ∧ (code = 0xCA ↔ (c.prog = true ∧ c.arith = true)) := by
  unfold writeFrame at h
  cases e : frameDqt c with
  | none => rw [e] at h; cases h
  | some r =>
    obtain ⟨prec, b1, sent⟩ := r
    rw [e] at h
    simp only at h
    cases es : emitSof c (sofCode c prec) with
    | none => rw [es] at h; cases h
    | some sb =>
      rw [es] at h
      simp only [Option.some.injEq, Prod.mk.injEq] at h
      obtain ⟨rest, hrest⟩ : ∃ rest, sb = 0xFF :: sofCode c prec :: rest := by
        unfold emitSof at es
        split at es
        · cases es
        · cases es
          exact ⟨_, by simp only [mark, List.cons_append, List.nil_append, List.append_assoc]; rfl⟩
      refine ⟨b1, sofCode c prec, rest, by rw [← h.1, hrest], by rw [es, hrest], ?_⟩
      have hprec : c.lossless = false → prec = (c.comps.map (fun k => dqtPrec ((c.q k.tq).getD []))).sum ∧ ∀ k ∈ c.comps, (c.q k.tq).isSome = true := by
        intro hl
        unfold frameDqt at e
        cases em : multiDqt c.fastest c.q c.qSent (c.comps.map (·.tq)) with
        | some r =>
          rw [em] at e
          simp only [Option.some.injEq] at e
          unfold multiDqt at em
          split at em
          · cases em
          · split at em
            · cases em
            · rename_i hn
              cases em
              simp only [Prod.mk.injEq] at e
              refine ⟨by rw [← e.1, List.map_map]; rfl, ?_⟩
              intro k hk
              simp only [List.any_eq_true, List.mem_map, not_exists, not_and, Bool.not_eq_true] at hn
              have := hn k.tq ⟨k, hk, rfl⟩
              simp only [Bool.or_eq_false_iff] at this
              have := this.1
              cases hq : c.q k.tq
              · rw [hq] at this; cases this
              · rfl
        | none =>
          rw [em] at e
          simp only [hl, Bool.false_eq_true, if_false] at e
          obtain ⟨h1, h2⟩ := dqtEach_prec _ _ _ _ _ _ e
          refine ⟨by rw [h1, List.map_map]; rfl, ?_⟩
          intro k hk
          exact h2 _ (List.mem_map.2 ⟨k, hk, rfl⟩)
      have hq0 : c.lossless = false → (prec = 0 ↔ ∀ k ∈ c.comps, ∀ v, c.q k.tq = some v → ∀ x ∈ v, x ≤ 255) := by
        intro hl
        obtain ⟨h1, h2⟩ := hprec hl
        rw [h1, sum_zero_iff]
        constructor
        · intro hz k hk v hv
          have := hz _ (List.mem_map.2 ⟨k, hk, rfl⟩)
          rw [hv] at this
          exact (dqtPrec_zero (hc.q _ _ hv).1).1 this
        · intro hz x hx
          obtain ⟨k, hk, rfl⟩ := List.mem_map.1 hx
          obtain ⟨v, hv⟩ := Option.isSome_iff_exists.1 (h2 k hk)
          rw [hv]
          exact (dqtPrec_zero (hc.q _ _ hv).1).2 (hz k hk v hv)
      have hB : Baseline c ↔ (c.prog = false ∧ c.arith = false ∧ c.lossless = false ∧ c.prec = 8 ∧
          (c.comps.any (fun k => k.dc > 1 || k.ac > 1)) = false ∧ prec = 0) := by
        constructor
        · intro hb
          refine ⟨hb.seq, hb.huffman, hb.lossy, hb.prec, ?_, (hq0 hb.lossy).2 hb.quant⟩
          rw [List.any_eq_false]
          intro k hk
          have := hb.tables k hk
          simp; omega
        · rintro ⟨h1, h2, h3, h4, h5, h6⟩
          refine ⟨h1, h2, h3, h4, ?_, (hq0 h3).1 h6⟩
          intro k hk
          rw [List.any_eq_false] at h5
          have := h5 k hk
          simp at this; omega
      have := sof_cases c.arith c.prog c.lossless (c.comps.any (fun k => k.dc > 1 || k.ac > 1)) (decide (c.prec = 8)) (decide (prec = 0))
        hc.mode (sofCode c prec) (by unfold sofCode; simp)
      simp only [decide_eq_true_eq] at this
      rw [hB]
      exact this

/-! ### limits and defects -/

/-- In lossless mode with any profile other than JCP_FASTEST the Huffman tables are never written: emit_multi_dht tests
Ss and Ah (which hold the predictor and 0) as in a DCT scan, and reports success after writing an empty DHT segment.
Hence the condition `TblFits.ls` of `C10_scans`. -/
theorem C10_lossless_no_tables (c c' : CS) (s : CScan) (hl : c.arith = false) (hf : c.fastest = false) (hs : s.Ss ≠ 0) (he : s.Se = 0)
    (b : List Nat) (h : writeScan c s = some (b, c')) :
    b = [0xFF, 0xC4, 0, 2] ++ (if c.ri ≠ c.lastRi then emitDri c else []) ++ emitSos s (scanComps c s) ∧ c'.hSent = c.hSent := by
  have hlen : ∀ (ks : List CComp) (ds as : List Nat), ∃ l, mdhtLens c.huff c.hSent false false ks ds as = some (0, l) := by
    intro ks
    induction ks with
    | nil => intro ds as; exact ⟨[], rfl⟩
    | cons k ks ih =>
      intro ds as
      obtain ⟨l, h⟩ := ih ds as
      exact ⟨(0, 0) :: l, by simp [mdhtLens, h]⟩
  have hemit : ∀ (l : List (CComp × Nat × Nat)), mdhtEmit c.huff false false l c.hSent = ([], c.hSent) := by
    intro l
    induction l with
    | nil => rfl
    | cons x l ih => obtain ⟨k, d, a⟩ := x; simp [mdhtEmit, ih]
  have ht : scanTbl c s = some ([0xFF, 0xC4, 0, 2], c.hSent) := by
    unfold scanTbl
    simp only [hl, Bool.false_eq_true, if_false]
    have e1 : decide (s.Ss = 0 ∧ s.Ah = 0) = false := by simp [hs]
    have e2 : decide (s.Se ≠ 0) = false := by simp [he]
    rw [e1, e2]
    unfold multiDht
    rw [hf]
    simp only [Bool.false_eq_true, if_false]
    obtain ⟨l, hl⟩ := hlen (scanComps c s) [] []
    rw [hl]
    simp only
    rw [if_neg (by omega), hemit]
    rfl
  unfold writeScan at h
  rw [ht] at h
  simp only [Option.some.injEq, Prod.mk.injEq] at h
  rw [← h.1, ← h.2]
  exact ⟨rfl, rfl⟩

theorem bind_ok_err {α β : Type} {p : P α} {f : α → P β} {b r : List Nat} {a : α} {w : Writes} {e : Err} (h : p b = .ok a w r)
    (h' : f a r = .err e) : (p >>= f) b = .err e := by
  show P.bind p f b = _
  unfold P.bind
  rw [h]
  simp only
  rw [h']

theorem bind_err {α β : Type} {p : P α} {f : α → P β} {b : List Nat} {e : Err} (h : p b = .err e) : (p >>= f) b = .err e := by
  show P.bind p f b = _
  unfold P.bind
  rw [h]

theorem findComp_none {m : Mem} {cc : Nat} : ∀ (n ci : Nat), (∀ j, ci ≤ j → j < ci + n → cc ≠ m (.cId j)) → findComp m cc [] n ci = none := by
  intro n
  induction n with
  | zero => intros; rfl
  | succ n ih =>
    intro ci h
    unfold findComp
    rw [if_neg (fun e => h ci (by omega) (by omega) e.1)]
    exact ih _ (fun j h1 h2 => h j (by omega) (by omega))

/-- get_sos looks only at the first MAX_COMPS_IN_SCAN = 4 components of the frame: the header of a single-component scan of
a later component is refused, whatever the image.  Hence the condition on indexes in `ScanFits`. -/
theorem C10_component_limit (proc : Nat → Proc) (c : CS) (m : Mem) (ha : Agree c m) (i : Nat) (h4 : 4 ≤ i) (hi : i < c.comps.length)
    (hid : (c.comps.map (·.id)).Nodup) (Ss Se Ah Al : Nat) (rest : List Nat) (saved : List Saved) (k : Nat) :
    readLoop proc (k + 1) (at_ m (emitSos ⟨[i], Ss, Se, Ah, Al⟩ (scanComps c ⟨[i], Ss, Se, Ah, Al⟩) ++ rest) saved) = .err .badComponentId := by
  have hk : (c.comps.getD i ⟨0, 0, 0, 0, 0, 0⟩) = c.comps[i] := by
    rw [List.getD_eq_getElem?_getD, List.getElem?_eq_getElem hi]; rfl
  have hidlt : c.comps[i].id < 256 := (ha.ok.fits _ (List.getElem_mem hi)).1
  unfold emitSos scanComps
  simp only [List.map_cons, List.map_nil, hk, List.flatMap_cons, List.flatMap_nil, List.length_cons, List.length_nil, mark,
    List.cons_append, List.nil_append, List.append_assoc, List.append_nil, be2]
  rw [readLoop_succ, got_mark ha.ready (by decide) (by decide)]
  generalize hb : (2 * (0 + 1) + 2 + 1 + 3) / 256 % 256 :: (2 * (0 + 1) + 2 + 1 + 3) % 256 :: _ = body
  have hun : (at_ (inMk m 0xDA) body saved).mem .unread = 0xDA := rfl
  simp only [hun]
  rw [if_neg (by decide), process_branch, hun]
  have hbr : branch proc 0xDA (at_ (inMk m 0xDA) body saved) = .err .badComponentId := by
    have : branch proc 0xDA (at_ (inMk m 0xDA) body saved) =
      (at_ (inMk m 0xDA) body saved).run (getSos (inMk m 0xDA)) (fun _ s => .cont s) := by unfold branch; simp; rfl
    rw [this]
    have hf : findComp (inMk m 0xDA) c.comps[i].id [] (min (inMk m 0xDA .ncomp) 4) 0 = none := by
      apply findComp_none
      intro j _ hj
      have hj4 : j < 4 := by omega
      have hjl : j < c.comps.length := by omega
      rw [inMk_eq (by simp) (by simp), (ha.frame.comps j hjl).1]
      intro e
      have := (List.pairwise_iff_getElem.1 hid) j i (by simpa using hjl) (by simpa using hi) (by omega)
      simp only [List.getElem_map] at this
      exact this e.symm
    have hsof : inMk m 0xDA .sawSOF ≠ 0 := by rw [inMk_eq (by simp) (by simp)]; exact ha.frame.seen
    unfold RS.run at_
    simp only
    have hr : getSos (inMk m 0xDA) body = .err .badComponentId := by
      rw [← hb]
      have e8 : (2 * (0 + 1) + 2 + 1 + 3) / 256 % 256 = 0 := rfl
      have e9 : (2 * (0 + 1) + 2 + 1 + 3) % 256 = 8 := rfl
      have e10 : (0 + 1) % 256 = 1 := rfl
      rw [e8, e9, e10, Nat.mod_eq_of_lt hidlt]
      unfold getSos
      rw [if_neg hsof]
      refine bind_ok_err (a := 8) (w := []) rfl ?_
      refine bind_ok_err (a := 1) (w := []) rfl ?_
      rw [if_neg (by decide)]
      refine bind_ok_err (a := ()) rfl ?_
      refine bind_ok_err (a := ()) rfl ?_
      refine bind_err ?_
      unfold sosComps
      refine bind_ok_err (a := c.comps[i].id) (w := []) rfl ?_
      refine bind_ok_err (w := []) rfl ?_
      rw [hf]
      rfl
    rw [hr]
  rw [hbr]

end Verif.Mark
