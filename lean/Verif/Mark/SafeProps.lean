import Verif.Mark.SafeRead
import Verif.Geom.Model
/-
C11: read_markers on arbitrary bytes, in every history of calls.
-/
namespace Verif.Mark
open Verif

theorem nextMk_spec : ∀ (b : List Nat) (disc : Nat) (pend : List Nat), (∀ x ∈ pend, x = 0xFF) →
    match nextMk disc pend b with
    | .error (p, _) => p <:+ pend ++ b
    | .ok (c, rest, _) => c ≠ 0 ∧ c ≠ 0xFF ∧ ∃ t, pend ++ b = t ++ 0xFF :: c :: rest := by
  intro b
  induction b with
  | nil => intro disc pend _; simp [nextMk]
  | cons c b ih =>
    intro disc pend hp
    unfold nextMk
    by_cases h0 : pend = []
    · subst h0
      rw [if_pos rfl]
      by_cases hc : c = 0xFF
      · rw [if_pos hc]
        have := ih disc [c] (by simp [hc])
        simpa using this
      · rw [if_neg hc]
        have := ih (disc + 1) [] (by simp)
        revert this
        cases nextMk (disc + 1) [] b with
        | error p => exact fun h => h.trans (List.suffix_cons _ _)
        | ok x =>
          rintro ⟨h1, h2, t, h3⟩
          refine ⟨h1, h2, c :: t, ?_⟩
          simp only [List.nil_append] at h3
          rw [h3]; rfl
    · rw [if_neg h0]
      by_cases hc : c = 0xFF
      · rw [if_pos hc]
        have := ih disc (pend ++ [c]) (by
          intro x hx
          rcases List.mem_append.1 hx with h | h
          · exact hp x h
          · simp only [List.mem_singleton] at h; rw [h, hc])
        simpa using this
      · rw [if_neg hc]
        by_cases hz : c = 0
        · rw [if_pos hz]
          have := ih (disc + 2) [] (by simp)
          revert this
          cases nextMk (disc + 2) [] b with
          | error p =>
            intro h
            simp only [List.nil_append] at h
            exact (h.trans (List.suffix_cons _ _)).trans (List.suffix_append _ _)
          | ok x =>
            rintro ⟨h1, h2, t, h3⟩
            refine ⟨h1, h2, pend ++ c :: t, ?_⟩
            simp only [List.nil_append] at h3
            rw [h3]; simp
        · rw [if_neg hz]
          refine ⟨hz, hc, ?_⟩
          obtain ⟨l, a, rfl⟩ : ∃ l a, pend = l ++ [a] := ⟨_, _, (List.dropLast_append_getLast h0).symm⟩
          have : a = 0xFF := hp a (by simp)
          subst this
          exact ⟨l, by simp⟩

theorem Inv.curM_none {proc : Nat → Proc} {s : RS} (hI : Inv proc s) (h : ¬ AppCode (s.mem .unread)) : s.curM = none := by
  cases h' : s.curM with
  | none => rfl
  | some x =>
    obtain ⟨c, n⟩ := x
    have := hI.cur c n h'
    rw [this.1] at this
    exact absurd this.2.1 h

/-- Changes of the fields the reader keeps for itself. -/
theorem MemOk.book {m : Mem} (h : MemOk m) {w : Writes} (hw : ∀ x ∈ w, x.1 = .unread ∨ x.1 = .disc ∨ x.1 = .warns) :
    MemOk (apply w m) := by
  have k : ∀ s : Slot, s ≠ .unread → s ≠ .disc → s ≠ .warns → apply w m s = m s := by
    intro s h1 h2 h3
    apply apply_notin
    intro x hx e
    rcases hw x hx with h' | h' | h' <;> rw [e] at h'
    · exact h1 h'
    · exact h2 h'
    · exact h3 h'
  refine h.ok ?_ ?_
  · intro x hx
    obtain ⟨x, v⟩ := x
    have := hw _ hx
    simp only at this
    rcases this with rfl | rfl | rfl <;> exact ⟨Or.inl trivial, trivial⟩
  · rw [k .sawSOF (by simp) (by simp) (by simp), k .height (by simp) (by simp) (by simp), k .width (by simp) (by simp) (by simp),
      k .ncomp (by simp) (by simp) (by simp)]
    exact h.frame

/-- Finding the next marker. -/
def GotOk (proc : Nat → Proc) (s : RS) : Step → Prop
  | .err e => e ≠ .bound
  | .susp s' => Inv proc s'
  | .cont s' => Inv proc s' ∧ s'.mem .unread ≠ 0 ∧ s'.src.length + 2 ≤ s.src.length

theorem nextMarker_ok {proc : Nat → Proc} {s : RS} (hI : Inv proc s) (h0 : s.mem .unread = 0) : GotOk proc s s.nextMarker := by
  have hcur := hI.curM_none (by rw [h0]; unfold AppCode; omega)
  unfold RS.nextMarker
  have := nextMk_spec s.src (s.mem .disc) [] (by simp)
  cases hn : nextMk (s.mem .disc) [] s.src with
  | error x =>
    obtain ⟨p, d⟩ := x
    rw [hn] at this
    simp only [List.nil_append] at this
    refine ⟨fun x hx => hI.bytes x (this.subset hx), hI.mem.book (by simp), ?_, by simp [hcur], hI.saved⟩
    rcases hI.skip with h | h
    · exact Or.inl h
    · right
      rw [h] at this
      exact List.suffix_nil.1 this
  | ok x =>
    obtain ⟨c, rest, d⟩ := x
    rw [hn] at this
    obtain ⟨h1, h2, t, h3⟩ := this
    simp only [List.nil_append] at h3
    have hb : IsBytes rest := fun x hx => hI.bytes x (by rw [h3]; simp [hx])
    refine ⟨⟨hb, hI.mem.book ?_, ?_, by simp [hcur], hI.saved⟩, ?_, ?_⟩
    · intro x hx
      rcases List.mem_append.1 hx with h | h
      · split at h
        · simp only [List.mem_cons, List.not_mem_nil, or_false] at h
          rcases h with rfl | rfl <;> simp
        · simp only [List.mem_cons, List.not_mem_nil, or_false] at h
          subst h; simp
      · simp only [List.mem_singleton] at h
        subst h; simp
    · rcases hI.skip with h | h
      · exact Or.inl h
      · rw [h] at h3; simp at h3
    · simp only
      rw [apply_append]
      exact h1
    · simp only
      rw [h3]; simp

theorem firstMarker_tri : Tri firstMarker (fun _ w n => w = [(Slot.unread, 0xD8)] ∧ n = 2) (fun w => w = []) := by
  unfold firstMarker
  apply Tri.bind (Q1 := fun _ w n => w = [] ∧ n = 1)
  · exact Tri.byte (fun c hc => ⟨rfl, rfl⟩) rfl
  rintro c _ _ ⟨rfl, rfl⟩
  apply Tri.bind (Q1 := fun _ w n => w = [] ∧ n = 1)
  · exact Tri.byte (fun c hc => ⟨rfl, rfl⟩) rfl
  rintro c2 _ _ ⟨rfl, rfl⟩
  apply Tri.ite
  · intro _; exact Tri.fail (by decide)
  intro h
  have : c2 = 0xD8 := by omega
  subst this
  exact Tri.put ⟨rfl, rfl⟩

theorem firstMarker_ok {proc : Nat → Proc} {s : RS} (hI : Inv proc s) (h0 : s.mem .unread = 0) :
    GotOk proc s (s.run firstMarker (fun _ s => .cont s)) := by
  have hcur := hI.curM_none (by rw [h0]; unfold AppCode; omega)
  unfold RS.run
  have := firstMarker_tri s.src hI.bytes
  cases hp : firstMarker s.src with
  | ok a w r =>
    rw [hp] at this
    obtain ⟨u, hu, rfl, hn⟩ := this
    have hb : IsBytes r := fun x hx => hI.bytes x (by rw [hu]; simp [hx])
    refine ⟨⟨hb, hI.mem.book (by simp), ?_, by simp [hcur], hI.saved⟩, by simp [apply], by rw [hu]; simp; omega⟩
    rcases hI.skip with h | h
    · exact Or.inl h
    · rw [h] at hu
      have := congrArg List.length hu
      simp at this; omega
  | susp w =>
    rw [hp] at this
    subst this
    exact ⟨hI.bytes, hI.mem, hI.skip, by simp [hcur], hI.saved⟩
  | err e => rw [hp] at this; exact this

theorem clear_ok {proc : Nat → Proc} {s : RS} (hI : Inv proc s) (hc : s.curM = none) : Inv proc s.clear :=
  ⟨hI.bytes, hI.mem.book (by simp), hI.skip, by simp [RS.clear, hc], hI.saved⟩

/-- What read_markers may return. -/
def RetOk (proc : Nat → Proc) : Ret → Prop
  | .err e => e ≠ .bound
  | .susp s' => Inv proc s'
  | .eoi s' => Inv proc s' ∧ s'.curM = none
  | .sos s' => Inv proc s' ∧ s'.curM = none ∧ ScanOk s'.mem

theorem readLoop_ok {proc : Nat → Proc} : ∀ (k : Nat) (s : RS), Inv proc s →
    s.src.length + (if s.mem .unread ≠ 0 then 1 else 0) < k → RetOk proc (readLoop proc k s) := by
  intro k
  induction k with
  | zero => intro s _ h; omega
  | succ k ih =>
    intro s hI hk
    unfold readLoop
    dsimp only
    generalize hg : (if s.mem .unread = 0 then
        if s.mem .sawSOI = 0 then s.run firstMarker (fun _ s => .cont s) else s.nextMarker
      else .cont s : Step) = got
    have hgot : match (generalizing := false) got with
        | .err e => e ≠ .bound
        | .susp s' => Inv proc s'
        | .cont s' => Inv proc s' ∧ s'.mem .unread ≠ 0 ∧ s'.src.length < k := by
      by_cases h0 : s.mem .unread = 0
      · rw [if_pos h0] at hg
        have : GotOk proc s got := by
          rw [← hg]
          split
          · exact firstMarker_ok hI h0
          · exact nextMarker_ok hI h0
        rw [if_neg (by simp [h0])] at hk
        revert this
        cases got with
        | err e => exact fun h => h
        | susp s' => exact fun h => h
        | cont s' => exact fun h => ⟨h.1, h.2.1, by have := h.2.2; omega⟩
      · rw [if_neg h0] at hg
        rw [if_pos h0] at hk
        subst hg
        exact ⟨hI, h0, by omega⟩
    clear hg
    cases got with
    | err e => exact hgot
    | susp s' => exact hgot
    | cont s1 =>
      obtain ⟨hI1, hu, hlen⟩ := hgot
      simp only
      by_cases hd9 : s1.mem .unread = 0xD9
      · rw [if_pos hd9]
        have hc := hI1.curM_none (by rw [hd9]; unfold AppCode; omega)
        exact ⟨clear_ok hI1 hc, hc⟩
      · rw [if_neg hd9]
        have := process_ok hI1
        cases hpr : process proc s1 with
        | err e => rw [hpr] at this; exact this
        | susp s' => rw [hpr] at this; exact this.1
        | cont s' =>
          rw [hpr] at this
          obtain ⟨g1, g2, g3, g4, ⟨n, -, g5⟩, g6⟩ := this
          simp only
          by_cases hda : s1.mem .unread = 0xDA
          · rw [if_pos hda]
            refine ⟨clear_ok g1 g4, g4, ?_⟩
            have := g6 hda
            unfold ScanOk at this ⊢
            have e : ∀ x : Slot, x ≠ .unread → s'.clear.mem x = s'.mem x := by
              intro x hx
              exact apply_notin (by simp; exact fun h => hx h.symm)
            simp only [e .sawSOF (by simp), e .nScan (by simp), e .ncomp (by simp), e (.cur _) (by simp)]
            exact this
          · rw [if_neg hda]
            apply ih _ (clear_ok g1 g4)
            have e : s'.clear.mem .unread = 0 := by simp [RS.clear, apply]
            rw [if_neg (by simp [e])]
            show s'.src.length + 0 < k
            rw [g5.1, List.length_drop]
            omega

theorem readMarkers_ok {proc : Nat → Proc} {s : RS} (hI : Inv proc s) : RetOk proc (readMarkers proc s) := by
  apply readLoop_ok _ _ hI
  split <;> omega

/-! ### histories -/

/-- The reader states that can occur: a fresh object, more input, calls of read_markers that suspend or return a header,
and after a header any use of the following bytes by the entropy decoder, which may leave a marker code behind. -/
inductive Reach (proc : Nat → Proc) : RS → Prop
  | init (src : List Nat) : IsBytes src → Reach proc (RS.init src)
  | feed {s : RS} (c : List Nat) : Reach proc s → IsBytes c → Reach proc (s.feed c)
  | susp {s s' : RS} : Reach proc s → readMarkers proc s = .susp s' → Reach proc s'
  | sos {s s' : RS} (n c : Nat) : Reach proc s → readMarkers proc s = .sos s' → c < 256 →
      Reach proc { s' with src := s'.src.drop n, mem := apply [(.unread, c)] s'.mem }

theorem init_ok {proc : Nat → Proc} {src : List Nat} (h : IsBytes src) : Inv proc (RS.init src) := by
  refine ⟨h, ⟨?_, fun _ _ => rfl, fun h => absurd rfl h⟩, Or.inl rfl, by simp [RS.init], by simp [RS.init]⟩
  intro x
  cases x <;> simp only [RS.init, Slot.Fits] <;> omega

theorem feed_ok {proc : Nat → Proc} {s : RS} (hI : Inv proc s) {c : List Nat} (hc : IsBytes c) : Inv proc (s.feed c) := by
  unfold RS.feed
  refine ⟨?_, hI.mem, ?_, hI.cur, hI.saved⟩
  · intro x hx
    rcases List.mem_append.1 hx with h | h
    · exact hI.bytes x h
    · exact hc x (List.mem_of_mem_drop h)
  · rcases hI.skip with h | h
    · left; simp only; omega
    · simp only
      by_cases hl : s.skip ≤ c.length
      · left; omega
      · right; rw [h, List.nil_append]; exact List.drop_of_length_le (by omega)

theorem reach_inv {proc : Nat → Proc} {s : RS} (h : Reach proc s) : Inv proc s := by
  induction h with
  | init src h => exact init_ok h
  | feed c _ hc ih => exact feed_ok ih hc
  | susp _ e ih => have := readMarkers_ok ih; rw [e] at this; exact this
  | @sos s s' n c _ e hc ih =>
    have := readMarkers_ok ih
    rw [e] at this
    obtain ⟨h1, h2, h3⟩ := this
    refine ⟨isBytes_drop h1.bytes _, h1.mem.book (by simp), ?_, by simp [h2], h1.saved⟩
    rcases h1.skip with h | h
    · exact Or.inl h
    · right; simp [h]

/-! ### C11 -/

/-- The frame header in memory describes a non-empty image of at most 65535 × 65535 and at most 255 components; the scan
header names 1 to 4 distinct components of the frame; table selectors, factors and spectral parameters are in the range
of their bit fields. -/
structure HeaderOk (m : Mem) : Prop where
  dims : 1 ≤ m .height ∧ m .height ≤ 65535 ∧ 1 ≤ m .width ∧ m .width ≤ 65535
  comps : 1 ≤ m .ncomp ∧ m .ncomp ≤ 255
  factors : ∀ i, m (.cH i) ≤ 15 ∧ m (.cV i) ≤ 15 ∧ m (.cTq i) ≤ 255 ∧ m (.cDc i) ≤ 15 ∧ m (.cAc i) ≤ 15
  scan : 1 ≤ m .nScan ∧ m .nScan ≤ 4
  scanComps : ∀ i < m .nScan, 1 ≤ m (.cur i) ∧ m (.cur i) ≤ m .ncomp
  scanDistinct : ∀ i j, i < j → j < m .nScan → m (.cur i) ≠ m (.cur j)
  spectral : m .Ss ≤ 255 ∧ m .Se ≤ 255 ∧ m .Ah ≤ 15 ∧ m .Al ≤ 15 ∧ m .ri ≤ 65535

/-- Nothing outside the arrays has been written, and every stored value fits its field. -/
def StoreOk (m : Mem) : Prop := (∀ x : Slot, ¬ x.InBounds 255 → m x = 0) ∧ ∀ x : Slot, x.Fits (m x)

/-- **C11**, the reader: in every history of feeding bytes and reading headers, whatever the bytes are, read_markers ends
with a header, with the end of the image, with a request for more data or with one of the library's errors; the
iteration never goes on for ever; nothing outside the arrays is written and all values fit; a header is a legal one. -/
theorem C11_reader_safe (proc : Nat → Proc) (s : RS) (h : Reach proc s) :
    match readMarkers proc s with
    | .err e => e ≠ .bound
    | .susp s' => StoreOk s'.mem
    | .eoi s' => StoreOk s'.mem
    | .sos s' => StoreOk s'.mem ∧ HeaderOk s'.mem := by
  have := readMarkers_ok (reach_inv h)
  cases hr : readMarkers proc s with
  | err e => rw [hr] at this; exact this
  | susp s' => rw [hr] at this; exact ⟨this.mem.oob, this.mem.fits⟩
  | eoi s' => rw [hr] at this; exact ⟨this.1.mem.oob, this.1.mem.fits⟩
  | sos s' =>
    rw [hr] at this
    obtain ⟨h1, h2, h3, h4, h5, h6, h7⟩ := this
    have f := h1.mem.fits
    have g := h1.mem.frame h3
    refine ⟨⟨h1.mem.oob, f⟩, ?_, ?_, ?_, ⟨h4, h5⟩, h6, h7, ?_⟩
    · have a : s'.mem .height < 65536 := f .height
      have b : s'.mem .width < 65536 := f .width
      omega
    · have a : s'.mem .ncomp < 256 := f .ncomp
      omega
    · intro i
      have a1 : s'.mem (.cH i) < 16 := f (.cH i)
      have a2 : s'.mem (.cV i) < 16 := f (.cV i)
      have a3 : s'.mem (.cTq i) < 256 := f (.cTq i)
      have a4 : s'.mem (.cDc i) < 16 := f (.cDc i)
      have a5 : s'.mem (.cAc i) < 16 := f (.cAc i)
      omega
    · have a1 : s'.mem .Ss < 256 := f .Ss
      have a2 : s'.mem .Se < 256 := f .Se
      have a3 : s'.mem .Ah < 16 := f .Ah
      have a4 : s'.mem .Al < 16 := f .Al
      have a5 : s'.mem .ri < 65536 := f .ri
      omega

/-- **C11**, one segment: processing the marker whose code is in unread_marker.  On success the position has moved by
exactly the length of the segment, every assignment was inside its array – a component array having as many entries as the
frame header says – and of a value that fits. -/
theorem C11_segment_exact (proc : Nat → Proc) (s : RS) (h : Inv proc s) :
    match process proc s with
    | .err e => e ≠ .bound
    | .susp s' => Assigns s s'
    | .cont s' => Assigns s s' ∧ ∃ n, segLen s (s.mem .unread) n ∧ Advanced s n s' := by
  have := process_ok h
  cases hr : process proc s with
  | err e => rw [hr] at this; exact this
  | susp s' => rw [hr] at this; exact this.2.1
  | cont s' => rw [hr] at this; exact ⟨this.2.1, this.2.2.2.2.1⟩

/-- **C11**, saved markers: no marker is saved with more data than it has or than was asked for. -/
theorem C11_saved_limits (proc : Nat → Proc) (s : RS) (h : Reach proc s) :
    ∀ c ∈ s.saved, c.data.length ≤ c.origLen ∧ ∃ l, proc c.code = .save l ∧ c.data.length ≤ l :=
  fun c hc => ⟨((reach_inv h).saved c hc).2.1, ((reach_inv h).saved c hc).2.2.1⟩

/-- The sampling factors of the frame header. -/
def factorsOf (m : Mem) : List (Nat × Nat) := (List.range (m .ncomp)).map (fun i => (m (.cH i), m (.cV i)))

theorem dFactors_le : ∀ (fs : List (Nat × Nat)) (m r : Nat × Nat), Geom.dFactors fs m = .ok r →
    ∀ p ∈ fs, (1 ≤ p.1 ∧ p.1 ≤ 4) ∧ (1 ≤ p.2 ∧ p.2 ≤ 4) := by
  intro fs
  induction fs with
  | nil => intro m r _ p hp; simp at hp
  | cons q fs ih =>
    obtain ⟨a, b⟩ := q
    intro m r h p hp
    unfold Geom.dFactors at h
    split at h
    · simp at h
    · rename_i hc
      rcases List.mem_cons.1 hp with rfl | hp
      · simp only; omega
      · exact ih _ _ h p hp

/-- **C11**, limits: if the decompressor accepts the header that was read (initial_setup), there are 1 to 10 components,
all sampling factors are 1..4 and the image is at most 65500 × 65500. -/
theorem C11_limits (proc : Nat → Proc) (s s' : RS) (h : Reach proc s) (hr : readMarkers proc s = .sos s') (f : Geom.Frame)
    (hs : Geom.dInitialSetup (s'.mem .lossless ≠ 0) (s'.mem .width) (s'.mem .height) (s'.mem .prec) (factorsOf s'.mem) = .ok f) :
    (1 ≤ s'.mem .ncomp ∧ s'.mem .ncomp ≤ 10) ∧ (1 ≤ s'.mem .width ∧ s'.mem .width ≤ 65500) ∧
    (1 ≤ s'.mem .height ∧ s'.mem .height ≤ 65500) ∧
    ∀ i < s'.mem .ncomp, (1 ≤ s'.mem (.cH i) ∧ s'.mem (.cH i) ≤ 4) ∧ (1 ≤ s'.mem (.cV i) ∧ s'.mem (.cV i) ≤ 4) := by
  have hh := C11_reader_safe proc s h
  rw [hr] at hh
  obtain ⟨-, hh⟩ := hh
  have hd := hh.dims
  have hc := hh.comps
  have hl : (factorsOf s'.mem).length = s'.mem .ncomp := by simp [factorsOf]
  unfold Geom.dInitialSetup at hs
  simp only [hl] at hs
  split at hs
  · simp at hs
  split at hs
  · simp at hs
  split at hs
  · simp at hs
  split at hs
  · simp at hs
  rename_i h1 h2 h3 h4
  refine ⟨by omega, by omega, by omega, ?_⟩
  intro i hi
  cases hf : Geom.dFactors (factorsOf s'.mem) (1, 1) with
  | error e => rw [hf] at hs; simp at hs
  | ok r => exact dFactors_le _ _ _ hf (s'.mem (.cH i), s'.mem (.cV i)) (List.mem_map.2 ⟨i, List.mem_range.2 hi, rfl⟩)

/-- The size test of initial_setup can only fail because of too large, never because of an empty image. -/
theorem C11_not_empty (proc : Nat → Proc) (s s' : RS) (h : Reach proc s) (hr : readMarkers proc s = .sos s') :
    Geom.dInitialSetup (s'.mem .lossless ≠ 0) (s'.mem .width) (s'.mem .height) (s'.mem .prec) (factorsOf s'.mem) ≠
      .error .emptyImage := by
  have hh := C11_reader_safe proc s h
  rw [hr] at hh
  obtain ⟨-, hh⟩ := hh
  have hd := hh.dims
  have hc := hh.comps
  have hl : (factorsOf s'.mem).length = s'.mem .ncomp := by simp [factorsOf]
  unfold Geom.dInitialSetup
  simp only [hl]
  rw [if_neg (by omega)]
  split
  · simp
  split
  · simp
  split
  · simp
  · have : ∀ (fs : List (Nat × Nat)) (m : Nat × Nat), Geom.dFactors fs m ≠ .error .emptyImage := by
      intro fs
      induction fs with
      | nil => intro m; simp [Geom.dFactors]
      | cons q fs ih =>
        obtain ⟨a, b⟩ := q
        intro m
        unfold Geom.dFactors
        split
        · simp
        · exact ih _
    cases hf : Geom.dFactors (factorsOf s'.mem) (1, 1) with
    | error e =>
      simp only
      intro he
      simp only [Except.error.injEq] at he
      rw [he] at hf
      exact this _ _ hf
    | ok r => simp

/-! Examples: a header with a comment, a frame of two components, and a scan. -/

def exHeader : List Nat :=
  [0xFF, 0xD8, 0xFF, 0xFE, 0, 5, 1, 2, 3, 0xFF, 0xC0, 0, 14, 8, 0, 16, 0, 8, 2, 1, 0x21, 0, 2, 0x11, 1,
   0xFF, 0xDA, 0, 10, 2, 1, 0x11, 2, 0x00, 0, 63, 0, 0xAB]

example : Reach defaultProc (RS.init exHeader) := .init _ (by unfold IsBytes; decide +kernel)
example : (match readMarkers defaultProc (RS.init exHeader) with
    | .sos s => (s.src, s.mem .height, s.mem .width, s.mem .nScan, s.mem (.cur 0), s.mem (.cur 1)) == ([0xAB], 16, 8, 2, 1, 2)
    | _ => false) = true := by decide +kernel
/-- cut inside the frame header: suspended, the position is after the marker code -/
example : (match readMarkers defaultProc (RS.init (exHeader.take 20)) with
    | .susp s => s.src == (exHeader.take 20).drop 11
    | _ => false) = true := by decide +kernel
/-- a scan naming a component twice -/
example : (match readMarkers defaultProc (RS.init (exHeader.set 32 1)) with
    | .err e => e == .badComponentId
    | _ => false) = true := by decide +kernel
/-- a quantization table number out of range -/
example : (match readMarkers defaultProc (RS.init [0xFF, 0xD8, 0xFF, 0xDB, 0, 67, 4]) with
    | .err e => e == .dqtIndex
    | _ => false) = true := by decide +kernel
example : Geom.dInitialSetup false 8 16 8 [(2, 1), (1, 1)] ≠ .error .emptyImage := by decide +kernel

end Verif.Mark
