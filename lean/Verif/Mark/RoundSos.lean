import Verif.Mark.RoundHdr
/-
C10: SOS; frame headers, scan headers, file headers and abbreviated datastreams as wholes.
-/
namespace Verif.Mark
open Verif
open Verif.Huff (natOrder HuffTbl)

/-- No component. -/
abbrev comp0 : CComp := ⟨0, 0, 0, 0, 0, 0⟩

/-- Table numbers transmitted in a scan header (jcmarker.c:508-516). -/
def tdOf (s : CScan) (k : CComp) : Nat := if s.Ss = 0 ∧ s.Ah = 0 then k.dc else 0
def taOf (s : CScan) (k : CComp) : Nat := if s.Se ≠ 0 then k.ac else 0

/-- Assignments of the component loop of get_sos. -/
def sosW (c : CS) (s : CScan) : (p : Nat) → List Nat → Writes
  | _, [] => []
  | p, i :: is => (Slot.cur p, i + 1) :: (.cDc i, tdOf s (c.comps.getD i comp0)) :: (.cAc i, taOf s (c.comps.getD i comp0)) ::
      sosW c s (p + 1) is

/-- A scan the reader can follow: strictly increasing component indexes below MAX_COMPS_IN_SCAN, distinct identifiers,
at most four components, and parameters that fit. -/
structure ScanFits (c : CS) (s : CScan) : Prop where
  len : 1 ≤ s.idx.length ∧ s.idx.length ≤ 4
  incr : s.idx.Pairwise (· < ·)
  lt : ∀ i ∈ s.idx, i < c.comps.length ∧ i < 4
  ids : (c.comps.map (·.id)).Nodup
  tbl : ∀ i ∈ s.idx, (c.comps.getD i comp0).dc < 16 ∧ (c.comps.getD i comp0).ac < 16
  par : s.Ss < 256 ∧ s.Se < 256 ∧ s.Ah < 16 ∧ s.Al < 16

theorem findComp_at {c : CS} {m : Mem} (hf : FrameIs c m) (hid : (c.comps.map (·.id)).Nodup) {i : Nat} (hi : i < c.comps.length)
    {cur : List Nat} (hcur : cur.length ≤ i) : ∀ (n ci : Nat), ci ≤ i → i < ci + n →
    findComp m (c.comps.getD i comp0).id cur n ci = some i := by
  intro n
  induction n with
  | zero => intro ci h1 h2; omega
  | succ n ih =>
    intro ci h1 h2
    unfold findComp
    have gi : c.comps.getD i comp0 = c.comps[i] := by rw [List.getD_eq_getElem?_getD, List.getElem?_eq_getElem hi]; rfl
    by_cases e : ci = i
    · subst e
      rw [if_pos]
      refine ⟨?_, ?_⟩
      · rw [(hf.comps ci hi).1, gi]
      · rw [List.getD_eq_getElem?_getD, List.getElem?_eq_none hcur]; rfl
    · have hci : ci < c.comps.length := by omega
      rw [if_neg]
      · exact ih (ci + 1) (by omega) (by omega)
      · rintro ⟨h, -⟩
        rw [(hf.comps ci hci).1, gi] at h
        have := (List.pairwise_iff_getElem.1 hid) ci i (by simpa using hci) (by simpa using hi) (by omega)
        simp only [List.getElem_map] at this
        exact this h.symm

theorem reads_sosComps {c : CS} {s : CScan} (hf : ∀ k ∈ c.comps, k.Fits) (hid : (c.comps.map (·.id)).Nodup) {m : Mem}
    (hm : FrameIs c m) : ∀ (idx dn : List Nat), (dn ++ idx).Pairwise (· < ·) →
    (∀ i ∈ idx, i < c.comps.length ∧ i < 4) → (∀ i ∈ idx, (c.comps.getD i comp0).dc < 16 ∧ (c.comps.getD i comp0).ac < 16) →
    (∀ i ∈ idx, dn.length ≤ i) →
    Reads (sosComps m idx.length (dn.map (· + 1)))
      ((idx.map (fun i => c.comps.getD i comp0)).flatMap (fun k => [k.id % 256, (tdOf s k * 16 + taOf s k) % 256])) () (sosW c s dn.length idx) := by
  intro idx
  induction idx with
  | nil => intro dn _ _ _ _; exact Reads.pure _
  | cons i idx ih =>
    intro dn hp hl ht hd
    obtain ⟨h1, h2⟩ := hl i (by simp)
    obtain ⟨t1, t2⟩ := ht i (by simp)
    have hd0 := hd i (by simp)
    rw [List.map_cons, List.flatMap_cons, List.length_cons]
    unfold sosComps
    have hk : (c.comps.getD i comp0).Fits := by
      rw [List.getD_eq_getElem?_getD, List.getElem?_eq_getElem h1]
      exact hf _ (List.getElem_mem h1)
    have td : tdOf s (c.comps.getD i comp0) < 16 := by unfold tdOf; split <;> omega
    have ta : taOf s (c.comps.getD i comp0) < 16 := by unfold taOf; split <;> omega
    obtain ⟨n1, n2⟩ := nib _ _ td ta
    show Reads _ ((c.comps.getD i comp0).id % 256 :: _ :: _) () _
    rw [Nat.mod_eq_of_lt hk.1]
    apply Reads.byteB
    apply Reads.byteB
    rw [findComp_at hm hid h1 (by simpa using hd0) _ 0 (by omega) (by rw [hm.ncomp]; omega)]
    dsimp only
    rw [n1, n2]
    have e : (dn.map (· + 1)).length = dn.length := by simp
    rw [e]
    apply Reads.putB
    apply Reads.putB
    apply Reads.putB
    have hnot : ¬ (i + 1 ∈ dn.map (· + 1)) := by
      simp only [List.mem_map, Nat.add_right_cancel_iff, exists_eq_right]
      intro hmem
      have := (List.pairwise_append.1 hp).2.2 i hmem i (by simp)
      omega
    rw [if_neg hnot]
    have := ih (dn ++ [i]) (by simpa using hp) (fun j hj => hl j (by simp [hj])) (fun j hj => ht j (by simp [hj])) (by
      intro j hj
      have h3 := (List.pairwise_append.1 hp).2.1
      have := (List.pairwise_cons.1 h3).1 j hj
      simp; omega)
    rw [List.map_append] at this
    simp only [List.length_append, List.length_cons, List.length_nil, Nat.zero_add] at this
    exact this

/-- Fields assigned by get_sos. -/
def Slot.scan : Slot → Prop
  | .nScan | .cur _ | .cDc _ | .cAc _ | .Ss | .Se | .Ah | .Al | .rstNum | .scanNo => True
  | _ => False

theorem sosW_slots (c : CS) (s : CScan) : ∀ (idx : List Nat) (p : Nat), ∀ x ∈ sosW c s p idx,
    (∃ j, p ≤ j ∧ ∃ h : j - p < idx.length, x = (Slot.cur j, idx[j - p] + 1)) ∨
    (∃ i ∈ idx, x = (Slot.cDc i, tdOf s (c.comps.getD i comp0)) ∨ x = (Slot.cAc i, taOf s (c.comps.getD i comp0))) := by
  intro idx
  induction idx with
  | nil => intro p x hx; simp [sosW] at hx
  | cons i idx ih =>
    intro p x hx
    simp only [sosW, List.mem_cons] at hx
    rcases hx with rfl | rfl | rfl | hx
    · exact Or.inl ⟨p, Nat.le_refl _, by simp, by simp⟩
    · exact Or.inr ⟨i, by simp, Or.inl rfl⟩
    · exact Or.inr ⟨i, by simp, Or.inr rfl⟩
    · rcases ih (p + 1) x hx with ⟨j, h1, h2, rfl⟩ | ⟨k, hk, h⟩
      · refine Or.inl ⟨j, by omega, by simp; omega, ?_⟩
        have : j - p = (j - (p + 1)) + 1 := by omega
        simp only [this, List.getElem_cons_succ]
      · exact Or.inr ⟨k, by simp [hk], h⟩

theorem sosW_mem (c : CS) (s : CScan) : ∀ (idx : List Nat) (p : Nat) (j : Nat) (h : j < idx.length),
    (Slot.cur (p + j), idx[j] + 1) ∈ sosW c s p idx ∧ (Slot.cDc idx[j], tdOf s (c.comps.getD idx[j] comp0)) ∈ sosW c s p idx ∧
    (Slot.cAc idx[j], taOf s (c.comps.getD idx[j] comp0)) ∈ sosW c s p idx := by
  intro idx
  induction idx with
  | nil => intro p j h; simp at h
  | cons i idx ih =>
    intro p j h
    cases j with
    | zero => simp [sosW]
    | succ j =>
      obtain ⟨h1, h2, h3⟩ := ih (p + 1) j (by simpa using h)
      rw [show p + 1 + j = p + (j + 1) by omega] at h1
      simp only [List.getElem_cons_succ]
      unfold sosW
      have go : ∀ {x : Slot × Nat} {a b d : Slot × Nat} {l : Writes}, x ∈ l → x ∈ a :: b :: d :: l :=
        fun h => List.mem_cons_of_mem _ (List.mem_cons_of_mem _ (List.mem_cons_of_mem _ h))
      exact ⟨go h1, go h2, go h3⟩

/-- What the decoder knows of the scan. -/
structure ScanIs (c : CS) (s : CScan) (m0 m : Mem) : Prop where
  n : m .nScan = s.idx.length
  cur : ∀ j (h : j < s.idx.length), m (.cur j) = s.idx[j] + 1
  rest : ∀ j, s.idx.length ≤ j → j < 4 → m (.cur j) = 0
  dc : ∀ i ∈ s.idx, m (.cDc i) = tdOf s (c.comps.getD i comp0)
  ac : ∀ i ∈ s.idx, m (.cAc i) = taOf s (c.comps.getD i comp0)
  Ss : m .Ss = s.Ss
  Se : m .Se = s.Se
  Ah : m .Ah = s.Ah
  Al : m .Al = s.Al
  rst : m .rstNum = 0
  no : m .scanNo = m0 .scanNo + 1

/-- All assignments of get_sos. -/
def sosAll (c : CS) (s : CScan) (m : Mem) : Writes :=
  (Slot.nScan, s.idx.length) :: ([(.cur 0, 0), (.cur 1, 0), (.cur 2, 0), (.cur 3, 0)] ++ (sosW c s 0 s.idx ++
    [(.Ss, s.Ss), (.Se, s.Se), (.Ah, s.Ah), (.Al, s.Al), (.rstNum, 0), (.scanNo, m .scanNo + 1)]))

theorem sosAll_slots (c : CS) (s : CScan) (m : Mem) : ∀ x ∈ sosAll c s m, x.1.scan := by
  intro x hx
  simp only [sosAll, List.mem_cons, List.mem_append, List.not_mem_nil, or_false] at hx
  rcases hx with rfl | (rfl | rfl | rfl | rfl) | hx | (rfl | rfl | rfl | rfl | rfl | rfl) <;> try trivial
  rcases sosW_slots c s _ _ x hx with ⟨j, -, _, rfl⟩ | ⟨i, -, rfl | rfl⟩ <;> trivial

theorem apply_sosAll {c : CS} {s : CScan} (m m0 : Mem) (h0 : m0 .scanNo = m .scanNo) : ScanIs c s m0 (apply (sosAll c s m) m) := by
  have e : sosAll c s m = [(Slot.nScan, s.idx.length), (.cur 0, 0), (.cur 1, 0), (.cur 2, 0), (.cur 3, 0)] ++ (sosW c s 0 s.idx ++
    [(.Ss, s.Ss), (.Se, s.Se), (.Ah, s.Ah), (.Al, s.Al), (.rstNum, 0), (.scanNo, m .scanNo + 1)]) := rfl
  rw [e, apply_append, apply_append]
  generalize hm1 : apply [(Slot.nScan, s.idx.length), (.cur 0, 0), (.cur 1, 0), (.cur 2, 0), (.cur 3, 0)] m = m1
  have htail : ∀ (x : Slot) (m' : Mem), (∀ y ∈ [Slot.Ss, .Se, .Ah, .Al, .rstNum, .scanNo], y ≠ x) →
      apply [(.Ss, s.Ss), (.Se, s.Se), (.Ah, s.Ah), (.Al, s.Al), (.rstNum, 0), (.scanNo, m .scanNo + 1)] m' x = m' x := by
    intro x m' h
    apply apply_notin
    intro y hy
    apply h
    simp only [List.mem_cons, List.not_mem_nil, or_false] at hy
    rcases hy with rfl | rfl | rfl | rfl | rfl | rfl <;> simp
  refine ⟨?_, ?_, ?_, ?_, ?_, by simp [apply], by simp [apply], by simp [apply], by simp [apply], by simp [apply], by simp [apply, h0]⟩
  · rw [htail _ _ (by simp), apply_notin, ← hm1]
    · simp [apply]
    · intro x hx ex
      rcases sosW_slots c s _ _ x hx with ⟨j, -, _, rfl⟩ | ⟨i, -, rfl | rfl⟩ <;> simp at ex
  · intro j hj
    rw [htail _ _ (by simp)]
    have := (sosW_mem c s s.idx 0 j hj).1
    rw [Nat.zero_add] at this
    apply apply_const this
    intro x hx ex
    rcases sosW_slots c s _ _ x hx with ⟨k, -, _, rfl⟩ | ⟨i, -, rfl | rfl⟩
    · simp only [Slot.cur.injEq] at ex; subst ex; rfl
    · simp at ex
    · simp at ex
  · intro j h1 h2
    rw [htail _ _ (by simp), apply_notin, ← hm1]
    · rcases (show j = 0 ∨ j = 1 ∨ j = 2 ∨ j = 3 by omega) with rfl | rfl | rfl | rfl <;> simp [apply]
    · intro x hx ex
      rcases sosW_slots c s _ _ x hx with ⟨k, -, h, rfl⟩ | ⟨i, -, rfl | rfl⟩
      · simp only [Slot.cur.injEq] at ex; subst ex; omega
      · simp at ex
      · simp at ex
  · intro i hi
    rw [htail _ _ (by simp)]
    obtain ⟨j, hj, rfl⟩ := List.getElem_of_mem hi
    apply apply_const (sosW_mem c s s.idx 0 j hj).2.1
    intro x hx ex
    rcases sosW_slots c s _ _ x hx with ⟨k, -, _, rfl⟩ | ⟨i, -, rfl | rfl⟩
    · simp at ex
    · simp only [Slot.cDc.injEq] at ex; subst ex; rfl
    · simp at ex
  · intro i hi
    rw [htail _ _ (by simp)]
    obtain ⟨j, hj, rfl⟩ := List.getElem_of_mem hi
    apply apply_const (sosW_mem c s s.idx 0 j hj).2.2
    intro x hx ex
    rcases sosW_slots c s _ _ x hx with ⟨k, -, _, rfl⟩ | ⟨i, -, rfl | rfl⟩
    · simp at ex
    · simp at ex
    · simp only [Slot.cAc.injEq] at ex; subst ex; rfl

theorem reads_sos {c : CS} (hc : c.Ok) {s : CScan} (hs : ScanFits c s) {m : Mem} (hm : FrameIs c m) :
    Reads (getSos m) (be2 (2 * (scanComps c s).length + 2 + 1 + 3) ++ [(scanComps c s).length % 256] ++
      (scanComps c s).flatMap (fun k => [k.id % 256, (tdOf s k * 16 + taOf s k) % 256]) ++
      [s.Ss % 256, s.Se % 256, (s.Ah * 16 + s.Al) % 256]) () (sosAll c s m) := by
  obtain ⟨l1, l2⟩ := hs.len
  have hlen : (scanComps c s).length = s.idx.length := by simp [scanComps]
  obtain ⟨p1, p2, p3, p4⟩ := hs.par
  obtain ⟨n1, n2⟩ := nib s.Ah s.Al p3 p4
  rw [hlen]
  simp only [List.append_assoc]
  unfold getSos sosAll
  rw [if_neg hm.seen]
  apply Reads.lenB (by omega)
  rw [Nat.mod_eq_of_lt (show s.idx.length < 256 by omega)]
  apply Reads.byteB
  rw [if_neg (by omega)]
  apply Reads.putB
  apply Reads.putsB
  have hcomps := reads_sosComps (s := s) hc.fits hs.ids hm s.idx [] (by simpa using hs.incr) hs.lt hs.tbl (by simp)
  rw [Nat.mod_eq_of_lt p1, Nat.mod_eq_of_lt p2]
  refine Reads.bind (b1 := (scanComps c s).flatMap (fun k => [k.id % 256, (tdOf s k * 16 + taOf s k) % 256])) (f := fun _ => _) hcomps ?_
  apply Reads.byteB
  apply Reads.putB
  apply Reads.byteB
  apply Reads.putB
  apply Reads.byteB
  rw [n1, n2]
  apply Reads.putB
  apply Reads.putB
  apply Reads.putB
  exact Reads.put _ _

/-- read_markers stops at the scan header. -/
theorem sos_stop {proc : Nat → Proc} {c : CS} (hc : c.Ok) {s : CScan} (hs : ScanFits c s) {m : Mem} (hr : Ready m) (hm : FrameIs c m) :
    ∃ m', ScanIs c s m m' ∧ Off Slot.scan m m' ∧ ∀ rest saved k,
      readLoop proc (k + 1) (at_ m (emitSos s (scanComps c s) ++ rest) saved) = .sos (at_ m' rest saved) := by
  refine ⟨apply (sosAll c s m) m, apply_sosAll m m rfl, Off.apply (sosAll_slots c s m), ?_⟩
  intro rest saved k
  have e : emitSos s (scanComps c s) ++ rest = 0xFF :: 0xDA :: ((be2 (2 * (scanComps c s).length + 2 + 1 + 3) ++ [(scanComps c s).length % 256] ++
      (scanComps c s).flatMap (fun k => [k.id % 256, (tdOf s k * 16 + taOf s k) % 256]) ++
      [s.Ss % 256, s.Se % 256, (s.Ah * 16 + s.Al) % 256]) ++ rest) := by
    unfold emitSos mark tdOf taOf
    simp only [List.append_assoc, List.cons_append, List.nil_append]
  rw [e, readLoop_succ, got_mark hr (by decide) (by decide)]
  have hm' : FrameIs c (inMk m 0xDA) := by
    refine hm.off (A := fun s => s = .disc ∨ s = .unread) ?_ (by rintro s (rfl | rfl) <;> exact id)
    intro s hs
    exact inMk_eq (fun e => hs (Or.inl e)) (fun e => hs (Or.inr e))
  generalize hbody : (be2 (2 * (scanComps c s).length + 2 + 1 + 3) ++ [(scanComps c s).length % 256] ++
      (scanComps c s).flatMap (fun k => [k.id % 256, (tdOf s k * 16 + taOf s k) % 256]) ++
      [s.Ss % 256, s.Se % 256, (s.Ah * 16 + s.Al) % 256]) = body
  have hread := reads_sos hc hs hm'
  rw [hbody] at hread
  have hun : (at_ (inMk m 0xDA) (body ++ rest) saved).mem .unread = 0xDA := rfl
  have hsame : sosAll c s (inMk m 0xDA) = sosAll c s m := by
    unfold sosAll
    rw [inMk_eq (by simp) (by simp)]
  have hp : process proc (at_ (inMk m 0xDA) (body ++ rest) saved) = .cont (at_ (apply (sosAll c s m) (inMk m 0xDA)) rest saved) := by
    rw [process_branch, hun]
    have : branch proc 0xDA (at_ (inMk m 0xDA) (body ++ rest) saved) =
      (at_ (inMk m 0xDA) (body ++ rest) saved).run (getSos (inMk m 0xDA)) (fun _ s => .cont s) := by unfold branch; simp; rfl
    rw [this]
    unfold RS.run at_
    simp only
    rw [hread rest, hsame]
  simp only [hun]
  rw [if_neg (by decide), hp]
  simp only [if_true]
  unfold RS.clear at_
  simp only
  rw [apply_clear hr]
  intro x hx
  have := sosAll_slots c s m x hx
  constructor
  · intro e; rw [e] at this; exact this
  · intro e; rw [e] at this; exact this

end Verif.Mark
