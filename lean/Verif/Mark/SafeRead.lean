import Verif.Mark.SafeAll
/-
C11, third part: processing one marker and read_markers as a whole, on arbitrary bytes.
-/
namespace Verif.Mark
open Verif

/-- What the applicable scan header promises: 1 to 4 distinct components, all of them in the frame. -/
def ScanOk (m : Mem) : Prop :=
  m .sawSOF ≠ 0 ∧ 1 ≤ m .nScan ∧ m .nScan ≤ 4 ∧
  (∀ i < m .nScan, 1 ≤ m (.cur i) ∧ m (.cur i) ≤ m .ncomp) ∧
  ∀ i j, i < j → j < m .nScan → m (.cur i) ≠ m (.cur j)

/-- Code of an APPn or COM marker. -/
def AppCode (c : Nat) : Prop := (0xE0 ≤ c ∧ c ≤ 0xEF) ∨ c = 0xFE

/-- Markers without parameters: SOI, RSTn, TEM. -/
def NoParam (mk : Nat) : Prop := mk = 0xD8 ∨ (0xD0 ≤ mk ∧ mk ≤ 0xD7) ∨ mk = 0x01

/-- State invariant of the reader. -/
structure Inv (proc : Nat → Proc) (s : RS) : Prop where
  bytes : IsBytes s.src
  mem : MemOk s.mem
  skip : s.skip = 0 ∨ s.src = []
  /-- a marker being saved is the current one; its data so far are shorter than wanted, which is at most the length -/
  cur : ∀ c n, s.curM = some (c, n) → c.code = s.mem .unread ∧ AppCode c.code ∧ (∃ l, proc c.code = .save l ∧ n ≤ l) ∧
    c.data.length < n ∧ n ≤ c.origLen ∧ IsBytes c.data
  /-- saved markers do not exceed their length and the requested limit -/
  saved : ∀ c ∈ s.saved, AppCode c.code ∧ c.data.length ≤ c.origLen ∧ (∃ l, proc c.code = .save l ∧ c.data.length ≤ l) ∧
    IsBytes c.data

/-- Length of the segment of the current marker, from the current position: nothing for markers without parameters;
what is left of a marker being saved; otherwise the length word, a value below 2 (accepted for APPn, COM and DNL only)
counting as 2. -/
def segLen (s : RS) (mk n : Nat) : Prop :=
  (NoParam mk ∧ n = 0) ∨
  (¬ NoParam mk ∧
    match s.curM with
    | some (c, _) => n = c.origLen - c.data.length
    | none => ∃ hi lo r, s.src = hi :: lo :: r ∧ n = max 2 (hi * 256 + lo) ∧
        (n = hi * 256 + lo ∨ AppCode mk ∨ mk = 0xDC))

/-- `s'` is `n` bytes further in the stream than `s`; bytes that have not arrived yet are to be skipped. -/
def Advanced (s : RS) (n : Nat) (s' : RS) : Prop :=
  s'.src = s.src.drop n ∧ s'.skip = s.skip + (n - s.src.length)

/-- The assignments between two states. -/
def Assigns (s s' : RS) : Prop := ∃ w, s'.mem = apply w s.mem ∧ WritesOk s.mem w

theorem skipData_advanced {s : RS} (h : s.skip = 0 ∨ s.src = []) {n : Nat} (hn : s.src = [] → n = 0) :
    Advanced s n (s.skipData n) := by
  unfold RS.skipData Advanced
  split
  · rename_i h1; exact ⟨rfl, by simp; omega⟩
  · rename_i h1
    have h0 : s.skip = 0 := by
      rcases h with h | h
      · exact h
      · have := hn h; omega
    refine ⟨?_, by simp [h0]⟩
    simp only
    rw [List.drop_of_length_le (by omega)]

theorem Advanced.trans {a b c : RS} {n k : Nat} (h1 : Advanced a n b) (h2 : Advanced b k c) : Advanced a (n + k) c := by
  obtain ⟨e1, e2⟩ := h1
  obtain ⟨e3, e4⟩ := h2
  refine ⟨by rw [e3, e1, List.drop_drop], ?_⟩
  rw [e4, e2, e1, List.length_drop]
  omega

/-- Result of processing a marker in state `s`. -/
def StepOk (proc : Nat → Proc) (s : RS) : Step → Prop
  | .err e => e ≠ .bound
  | .susp s' => Inv proc s' ∧ Assigns s s' ∧ s'.mem .unread = s.mem .unread
  | .cont s' => Inv proc s' ∧ Assigns s s' ∧ s'.mem .unread = s.mem .unread ∧ s'.curM = none ∧
      (∃ n, segLen s (s.mem .unread) n ∧ Advanced s n s') ∧ (s.mem .unread = 0xDA → ScanOk s'.mem)

theorem isBytes_drop {l : List Nat} (h : IsBytes l) (n : Nat) : IsBytes (l.drop n) := fun x hx => h x (List.mem_of_mem_drop hx)

/-- A routine that consumes its segment. -/
theorem run_ok {proc : Nat → Proc} {s : RS} (hI : Inv proc s) {p : P Unit} {Q S : Writes → Prop} (hp : RoutineOk p Q S)
    (hnp : ¬ NoParam (s.mem .unread)) (happ : ¬ AppCode (s.mem .unread))
    (hQ : ∀ w, (∃ b r, p b = .ok () w r) → Q w →
      WritesOk s.mem w ∧ MemOk (apply w s.mem) ∧ apply w s.mem .unread = s.mem .unread ∧
      (s.mem .unread = 0xDA → ScanOk (apply w s.mem)))
    (hS : ∀ w, (∃ b, p b = .susp w) → S w →
      WritesOk s.mem w ∧ MemOk (apply w s.mem) ∧ apply w s.mem .unread = s.mem .unread) :
    StepOk proc s (s.run p (fun _ s => .cont s)) := by
  have hcur : s.curM = none := by
    cases h : s.curM with
    | none => rfl
    | some x =>
      obtain ⟨c, n⟩ := x
      have := hI.cur c n h
      rw [this.1] at this
      exact absurd this.2.1 happ
  have := hp s.src hI.bytes
  unfold RS.run
  cases hr : p s.src with
  | ok a w r =>
    rw [hr] at this
    obtain ⟨⟨hi, lo, body, hsrc, hlen⟩, hq⟩ := this
    obtain ⟨h1, h2, h3, h4⟩ := hQ w ⟨_, _, hr⟩ hq
    have hskip : s.skip = 0 := by
      rcases hI.skip with h | h
      · exact h
      · rw [h] at hsrc; simp at hsrc
    have hd : s.src.drop (hi * 256 + lo) = r := by
      rw [hsrc, hlen]
      show List.drop (body.length + 2) ([hi, lo] ++ (body ++ r)) = r
      rw [← List.append_assoc]
      apply List.drop_left'
      simp
    refine ⟨⟨?_, h2, Or.inl hskip, ?_, hI.saved⟩, ⟨w, rfl, h1⟩, h3, hcur, ⟨hi * 256 + lo, ?_, ?_⟩, h4⟩
    · rw [← hd]; exact isBytes_drop hI.bytes _
    · intro c n h; rw [hcur] at h; simp at h
    · right
      refine ⟨hnp, ?_⟩
      rw [hcur]
      exact ⟨hi, lo, _, hsrc, by omega, Or.inl rfl⟩
    · refine ⟨hd.symm, ?_⟩
      simp only [hskip]
      rw [hsrc]
      simp; omega
  | susp w =>
    rw [hr] at this
    obtain ⟨h1, h2, h3⟩ := hS w ⟨_, hr⟩ this
    refine ⟨⟨hI.bytes, h2, hI.skip, ?_, hI.saved⟩, ⟨w, rfl, h1⟩, h3⟩
    intro c n h; rw [hcur] at h; simp at h
  | err e => rw [hr] at this; exact this

/-- A routine with plain assignments only. -/
theorem run_plain {proc : Nat → Proc} {s : RS} (hI : Inv proc s) {p : P Unit} (hp : RoutineOk p (AllIn 0) (AllIn 0))
    (hnp : ¬ NoParam (s.mem .unread)) (happ : ¬ AppCode (s.mem .unread)) (hda : s.mem .unread ≠ 0xDA) :
    StepOk proc s (s.run p (fun _ s => .cont s)) :=
  run_ok hI hp hnp happ
    (fun w _ hw => ⟨hw.ok0, hI.mem.plain (hw.mono (Nat.zero_le _)), hw.keep _ (fun h => h), fun h => absurd h hda⟩)
    (fun w _ hw => ⟨hw.ok0, hI.mem.plain (hw.mono (Nat.zero_le _)), hw.keep _ (fun h => h)⟩)

theorem run_sof {proc : Nat → Proc} {s : RS} (hI : Inv proc s) (p l a : Nat)
    (hnp : ¬ NoParam (s.mem .unread)) (happ : ¬ AppCode (s.mem .unread)) (hda : s.mem .unread ≠ 0xDA) :
    StepOk proc s (s.run (getSof s.mem p l a) (fun _ s => .cont s)) := by
  refine run_ok hI (getSof_ok s.mem p l a) hnp happ ?_ ?_
  · intro w _ hw
    refine ⟨hw.ok, hI.mem.ok hw.ok ?_, ?_, fun h => absurd h hda⟩
    · intro _
      obtain ⟨prec, ht, wd, n, wc, rfl, h1, h2, h3, h4, h5⟩ := hw
      have hk : ∀ (sl : Slot), ¬ sl.Plain → sl ≠ .sawSOF →
          apply (sofHead p l a prec ht wd n ++ wc ++ [(Slot.sawSOF, 1)]) s.mem sl =
            apply (sofHead p l a prec ht wd n) s.mem sl := by
        intro sl hsl hne
        rw [apply_append, apply_append, apply_notin, h5.keep _ hsl]
        intro x hx
        simp only [List.mem_singleton] at hx
        subst hx; exact fun e => hne e.symm
      rw [hk .height (fun h => h) (by simp), hk .width (fun h => h) (by simp), hk .ncomp (fun h => h) (by simp)]
      refine ⟨?_, ?_, ?_⟩
      · show 1 ≤ ht; omega
      · show 1 ≤ wd; omega
      · show 1 ≤ n; omega
    · obtain ⟨prec, ht, wd, n, wc, rfl, h1, h2, h3, h4, h5⟩ := hw
      apply apply_notin
      intro x hx
      simp only [List.mem_append, List.mem_singleton] at hx
      rcases hx with (hx | hx) | rfl
      · exact (sofHead_in h1 h2.2 h3.2 h4.2 x hx).2.2.2
      · intro e; have := (h5 x hx).2.2; rw [e] at this; exact this
      · simp
  · rintro w ⟨b, hb⟩ hw
    have hz : s.mem .sawSOF = 0 := by
      by_contra h
      unfold getSof at hb
      rw [if_pos h] at hb
      simp [fail] at hb
    refine ⟨hw.ok, hI.mem.ok hw.ok ?_, ?_⟩
    · rw [apply_notin (fun x hx => (hw x hx).2.2.1)]
      intro h; exact absurd hz h
    · exact apply_notin (fun x hx => (hw x hx).2.2.2)

theorem run_sos {proc : Nat → Proc} {s : RS} (hI : Inv proc s)
    (hnp : ¬ NoParam (s.mem .unread)) (happ : ¬ AppCode (s.mem .unread)) :
    StepOk proc s (s.run (getSos s.mem) (fun _ s => .cont s)) := by
  refine run_ok hI (getSos_ok s.mem) hnp happ ?_ ?_
  · rintro w ⟨b, r, hb⟩ hw
    have hz : s.mem .sawSOF ≠ 0 := by
      intro h
      unfold getSos at hb
      rw [if_pos h] at hb
      simp [fail] at hb
    refine ⟨hw.inb.ok, hI.mem.plain hw.inb, hw.inb.keep _ (fun h => h), fun _ => ?_⟩
    obtain ⟨l, h1, h2, h3, h4, h5⟩ := hw.scan
    obtain ⟨h6, h7⟩ := h5 s.mem
    refine ⟨by rw [hw.inb.keep _ (s := .sawSOF) (fun h => h)]; exact hz, by omega, by omega, ?_, ?_⟩
    · intro i hi
      rw [h6] at hi
      rw [h7 i hi, hw.inb.keep _ (s := .ncomp) (fun h => h)]
      have := h3 _ (List.getElem_mem hi)
      omega
    · intro i j hij hj
      rw [h6] at hj
      rw [h7 i (by omega), h7 j hj]
      exact List.pairwise_iff_getElem.1 h4 i j (by omega) hj hij
  · intro w _ hw
    exact ⟨hw.ok, hI.mem.plain hw, hw.keep _ (fun h => h)⟩

/-- A routine that leaves part of its segment to be skipped. -/
theorem run_skip {proc : Nat → Proc} {s : RS} (hI : Inv proc s) {p : P Nat} (hp : SkipOk p)
    (happ : AppCode (s.mem .unread) ∨ s.mem .unread = 0xDC) (hns : ∀ l, proc (s.mem .unread) ≠ .save l ∨ s.mem .unread = 0xDC) :
    StepOk proc s (s.run p (fun n s => .cont (s.skipData n))) := by
  have hcur : s.curM = none := by
    cases h : s.curM with
    | none => rfl
    | some x =>
      obtain ⟨c, n⟩ := x
      obtain ⟨h1, h2, ⟨l, h3, -⟩, -⟩ := hI.cur c n h
      rw [h1] at h3 h2
      rcases hns l with h | h
      · exact absurd h3 h
      · rw [h] at h2; unfold AppCode at h2; omega
  have hda : s.mem .unread ≠ 0xDA := by unfold AppCode at happ; omega
  have hnp : ¬ NoParam (s.mem .unread) := by unfold AppCode at happ; unfold NoParam; omega
  have := hp s.src hI.bytes
  unfold RS.run
  cases hr : p s.src with
  | ok k w r =>
    rw [hr] at this
    obtain ⟨hi, lo, u, hsrc, hlen, hw⟩ := this
    have hskip : s.skip = 0 := by
      rcases hI.skip with h | h
      · exact h
      · rw [h] at hsrc; simp at hsrc
    have hd : s.src.drop (u.length + 2) = r := by
      rw [hsrc]
      show List.drop (u.length + 2) ([hi, lo] ++ (u ++ r)) = r
      rw [← List.append_assoc]
      apply List.drop_left'
      simp
    have hadv : Advanced s (u.length + 2) { s with mem := apply w s.mem, src := r } := by
      refine ⟨hd.symm, ?_⟩
      rw [hsrc]; simp
    have hsk : ∀ t : RS, t.skip = 0 → (t.skipData k).src = t.src.drop k ∧ (t.skipData k).skip = k - t.src.length ∧
        (t.skipData k).mem = t.mem ∧ (t.skipData k).curM = t.curM ∧ (t.skipData k).saved = t.saved := by
      intro t ht
      unfold RS.skipData
      split
      · refine ⟨rfl, ?_, rfl, rfl, rfl⟩
        simp [ht]; omega
      · refine ⟨?_, rfl, rfl, rfl, rfl⟩
        simp only
        rw [List.drop_of_length_le (by omega)]
    obtain ⟨g1, g2, g3, g4, g5⟩ := hsk { s with mem := apply w s.mem, src := r } hskip
    simp only at g1 g2 g3 g4 g5
    refine ⟨⟨?_, ?_, ?_, ?_, ?_⟩, ⟨w, g3, hw.ok0⟩, ?_, by rw [g4]; exact hcur, ⟨max 2 (hi * 256 + lo), ?_, ?_⟩, fun h => absurd h hda⟩
    · rw [g1, ← hd]; exact isBytes_drop (isBytes_drop hI.bytes _) _
    · rw [g3]; exact hI.mem.plain (hw.mono (Nat.zero_le _))
    · rw [g1, g2]
      by_cases h : k ≤ r.length
      · left; omega
      · right; exact List.drop_of_length_le (by omega)
    · intro c n h; rw [g4, hcur] at h; simp at h
    · rw [g5]; exact hI.saved
    · rw [g3]; exact hw.keep _ (fun h => h)
    · right
      refine ⟨hnp, ?_⟩
      rw [hcur]
      exact ⟨hi, lo, _, hsrc, rfl, Or.inr happ⟩
    · have e : max 2 (hi * 256 + lo) = (u.length + 2) + k := by omega
      rw [e]
      refine hadv.trans ⟨g1, ?_⟩
      rw [g2]; simp [hskip]
  | susp w =>
    rw [hr] at this
    refine ⟨⟨hI.bytes, hI.mem.plain (this.mono (Nat.zero_le _)), hI.skip, ?_, hI.saved⟩, ⟨w, rfl, this.ok0⟩, this.keep _ (fun h => h)⟩
    intro c n h; rw [hcur] at h; simp at h
  | err e => rw [hr] at this; exact this

theorem finishSave_ok {proc : Nat → Proc} {s : RS} (hb : IsBytes s.src) (hm : MemOk s.mem) (hsk : s.skip = 0)
    (hsaved : ∀ c ∈ s.saved, AppCode c.code ∧ c.data.length ≤ c.origLen ∧ (∃ l, proc c.code = .save l ∧ c.data.length ≤ l) ∧
      IsBytes c.data) (cur : Saved) (hc : AppCode cur.code) (hl : ∃ l, proc cur.code = .save l ∧ cur.data.length ≤ l)
    (hd : cur.data.length ≤ cur.origLen) (hdb : IsBytes cur.data) (mk : Nat) :
    ∃ s', finishSave s mk cur = .cont s' ∧ Inv proc s' ∧ Assigns s s' ∧ s'.mem .unread = s.mem .unread ∧ s'.curM = none ∧
      Advanced s (cur.origLen - cur.data.length) s' := by
  have hw := examine_in s.mem mk hdb
  unfold finishSave
  simp only
  refine ⟨_, rfl, ?_⟩
  generalize cur.origLen - cur.data.length = k
  unfold RS.skipData
  have hI : MemOk (apply (examine s.mem mk cur.data) s.mem) := hm.plain (hw.mono (Nat.zero_le _))
  have hsv : ∀ c ∈ s.saved ++ [cur], AppCode c.code ∧ c.data.length ≤ c.origLen ∧
      (∃ l, proc c.code = .save l ∧ c.data.length ≤ l) ∧ IsBytes c.data := by
    intro c hc'
    rcases List.mem_append.1 hc' with h | h
    · exact hsaved c h
    · simp only [List.mem_singleton] at h
      subst h; exact ⟨hc, hd, hl, hdb⟩
  split
  · rename_i h
    simp only at h
    refine ⟨⟨isBytes_drop hb _, hI, Or.inl hsk, by simp, hsv⟩, ⟨_, rfl, hw.ok0⟩, hw.keep _ (fun h => h), rfl, rfl, ?_⟩
    simp [hsk]; omega
  · rename_i h
    simp only at h
    refine ⟨⟨by simp [IsBytes], hI, Or.inr rfl, by simp, hsv⟩, ⟨_, rfl, hw.ok0⟩, hw.keep _ (fun h => h), rfl, ?_, ?_⟩
    · simp only
      rw [List.drop_of_length_le (by omega)]
    · simp [hsk]

/-- Reading the data of a marker being saved. -/
theorem saveData_ok {proc : Nat → Proc} {s : RS} (hb : IsBytes s.src) (hm : MemOk s.mem) (hsk : s.skip = 0 ∨ s.src = [])
    (hsaved : ∀ c ∈ s.saved, AppCode c.code ∧ c.data.length ≤ c.origLen ∧ (∃ l, proc c.code = .save l ∧ c.data.length ≤ l) ∧
      IsBytes c.data) (cur : Saved) (need : Nat) (hcode : cur.code = s.mem .unread) (hc : AppCode cur.code)
    (hl : ∃ l, proc cur.code = .save l ∧ need ≤ l) (hd : cur.data.length ≤ need) (hn : need ≤ cur.origLen)
    (hdb : IsBytes cur.data) (hpos : cur.data.length < need ∨ s.skip = 0) :
    match saveData s (s.mem .unread) cur need with
    | .err e => e ≠ .bound
    | .susp s' => Inv proc s' ∧ s'.mem = s.mem
    | .cont s' => Inv proc s' ∧ Assigns s s' ∧ s'.mem .unread = s.mem .unread ∧ s'.curM = none ∧
        Advanced s (cur.origLen - cur.data.length) s' := by
  unfold saveData
  simp only
  generalize hk : min (need - cur.data.length) s.src.length = k
  have hlen : (cur.data ++ s.src.take k).length = cur.data.length + k := by
    rw [List.length_append, List.length_take]; omega
  have hdb' : IsBytes (cur.data ++ s.src.take k) := by
    intro x hx
    rcases List.mem_append.1 hx with h | h
    · exact hdb x h
    · exact hb x (List.mem_of_mem_take h)
  by_cases h : (cur.data ++ s.src.take k).length < need
  · rw [if_pos h]
    rw [hlen] at h
    refine ⟨⟨isBytes_drop hb _, hm, Or.inr (List.drop_of_length_le (by omega)), ?_, hsaved⟩, rfl⟩
    intro c n e
    simp only [Option.some.injEq, Prod.mk.injEq] at e
    obtain ⟨rfl, rfl⟩ := e
    exact ⟨hcode, hc, hl, by rw [hlen]; omega, hn, hdb'⟩
  · rw [if_neg h]
    rw [hlen] at h
    have hs0 : s.skip = 0 := by
      rcases hpos with hp | hp
      · rcases hsk with h' | h'
        · exact h'
        · rw [h'] at hk; simp at hk; omega
      · exact hp
    obtain ⟨l, hl1, hl2⟩ := hl
    obtain ⟨s', e, g1, g2, g3, g4, g5⟩ := finishSave_ok (proc := proc) (s := { s with src := s.src.drop k }) (isBytes_drop hb k) hm hs0
      hsaved { cur with data := cur.data ++ s.src.take k } hc ⟨l, hl1, by rw [hlen]; omega⟩ (by rw [hlen]; simp only; omega) hdb'
      (s.mem .unread)
    rw [e]
    refine ⟨g1, g2, g3, g4, ?_⟩
    have hkl : k ≤ s.src.length := by omega
    have a1 : Advanced s k { s with src := s.src.drop k } := ⟨rfl, by simp; omega⟩
    have := a1.trans g5
    rw [hlen] at this
    have e2 : k + (cur.origLen - (cur.data.length + k)) = cur.origLen - cur.data.length := by omega
    simp only at this
    rw [e2] at this
    exact this

theorem saveMarker_ok {proc : Nat → Proc} {s : RS} (hI : Inv proc s) {limit : Nat} (happ : AppCode (s.mem .unread))
    (hp : proc (s.mem .unread) = .save limit) : StepOk proc s (saveMarker s (s.mem .unread) limit) := by
  have hda : s.mem .unread ≠ 0xDA := by unfold AppCode at happ; omega
  have hnp : ¬ NoParam (s.mem .unread) := by unfold AppCode at happ; unfold NoParam; omega
  unfold saveMarker
  cases hcur : s.curM with
  | some x =>
    obtain ⟨c, n⟩ := x
    obtain ⟨h1, h2, h3, h4, h5, h6⟩ := hI.cur c n hcur
    simp only
    have := saveData_ok hI.bytes hI.mem hI.skip hI.saved c n h1 h2 h3 (by omega) h5 h6 (Or.inl h4)
    cases hs : saveData s (s.mem .unread) c n with
    | err e => rw [hs] at this; exact this
    | susp s' =>
      rw [hs] at this
      exact ⟨this.1, ⟨[], by rw [this.2]; rfl, by intro x hx; simp at hx⟩, by rw [this.2]⟩
    | cont s' =>
      rw [hs] at this
      obtain ⟨g1, g2, g3, g4, g5⟩ := this
      refine ⟨g1, g2, g3, g4, ⟨_, Or.inr ⟨hnp, ?_⟩, g5⟩, fun h => absurd h hda⟩
      rw [hcur]
  | none =>
    simp only
    match hsrc : s.src with
    | [] => exact ⟨hI, ⟨[], rfl, by intro x hx; simp at hx⟩, rfl⟩
    | [x] => exact ⟨hI, ⟨[], rfl, by intro x hx; simp at hx⟩, rfl⟩
    | hi :: lo :: r =>
      have e : in2Bytes (hi :: lo :: r) = .ok (hi * 256 + lo) [] r := rfl
      rw [e]
      simp only
      have hb : IsBytes r := fun x hx => hI.bytes x (by rw [hsrc]; simp [hx])
      have hs0 : s.skip = 0 := by
        rcases hI.skip with h | h
        · exact h
        · rw [h] at hsrc; simp at hsrc
      generalize hL : hi * 256 + lo = L
      have adv2 : Advanced s 2 (RS.mk s.mem r s.skip s.saved none) := by
        refine ⟨by rw [hsrc]; rfl, ?_⟩
        rw [hsrc]; simp
      split
      · rename_i h2
        have := saveData_ok (proc := proc) (s := (RS.mk s.mem r s.skip s.saved none)) hb hI.mem (Or.inl hs0) hI.saved ⟨s.mem .unread, L - 2, []⟩
          (if L - 2 < limit then L - 2 else limit) rfl happ ⟨limit, hp, by split <;> omega⟩ (Nat.zero_le _)
          (by simp only; split <;> omega) (by simp [IsBytes]) (Or.inr hs0)
        revert this
        simp only
        cases hs : saveData (RS.mk s.mem r s.skip s.saved none) (s.mem .unread) ⟨s.mem .unread, L - 2, []⟩ (if L - 2 < limit then L - 2 else limit) with
        | err e => exact fun h => h
        | susp s' =>
          rintro ⟨g1, g2⟩
          exact ⟨g1, ⟨[], by rw [g2]; rfl, by intro x hx; simp at hx⟩, by rw [g2]⟩
        | cont s' =>
          rintro ⟨g1, g2, g3, g4, g5⟩
          refine ⟨g1, g2, g3, g4, ⟨L, Or.inr ⟨hnp, ?_⟩, ?_⟩, fun h => absurd h hda⟩
          · rw [hcur]
            exact ⟨hi, lo, r, hsrc, by omega, Or.inl (by omega)⟩
          · have := adv2.trans g5
            have e2 : 2 + (L - 2 - ([] : List Nat).length) = L := by simp; omega
            rw [e2] at this
            exact this
      · rename_i h2
        refine ⟨⟨hb, hI.mem, Or.inl hs0, ?_, hI.saved⟩, ⟨[], rfl, by intro x hx; simp at hx⟩, rfl, rfl, ⟨2, Or.inr ⟨hnp, ?_⟩, adv2⟩,
          fun h => absurd h hda⟩
        · intro c n h; simp at h
        · rw [hcur]
          exact ⟨hi, lo, r, hsrc, by omega, Or.inr (Or.inl happ)⟩

/-- Nothing consumed, nothing stored. -/
theorem cont_self {proc : Nat → Proc} {s : RS} (hI : Inv proc s) (hnp : NoParam (s.mem .unread)) :
    StepOk proc s (.cont s) := by
  have hcur : s.curM = none := by
    cases h : s.curM with
    | none => rfl
    | some x =>
      obtain ⟨c, n⟩ := x
      have := hI.cur c n h
      rw [this.1] at this
      have := this.2.1
      unfold AppCode at this; unfold NoParam at hnp; omega
  refine ⟨hI, ⟨[], rfl, by intro x hx; simp at hx⟩, rfl, hcur, ⟨0, Or.inl ⟨hnp, rfl⟩, by simp [Advanced]⟩, ?_⟩
  intro h; unfold NoParam at hnp; omega

theorem ite_ok {proc : Nat → Proc} {s : RS} {c : Prop} [Decidable c] {a b : Step} (h1 : c → StepOk proc s a)
    (h2 : ¬ c → StepOk proc s b) : StepOk proc s (if c then a else b) := by
  split
  · exact h1 (by assumption)
  · exact h2 (by assumption)

theorem process_ok {proc : Nat → Proc} {s : RS} (hI : Inv proc s) : StepOk proc s (process proc s) := by
  unfold process
  simp only
  generalize hmk : s.mem .unread = mk
  have plain : ∀ {p : P Unit}, RoutineOk p (AllIn 0) (AllIn 0) → ¬ NoParam mk → ¬ AppCode mk → mk ≠ 0xDA →
      StepOk proc s (s.run p (fun _ s => .cont s)) := by
    intro p hp h1 h2 h3
    exact run_plain hI hp (by rw [hmk]; exact h1) (by rw [hmk]; exact h2) (by rw [hmk]; exact h3)
  have sof : ∀ p l a, ¬ NoParam mk → ¬ AppCode mk → mk ≠ 0xDA → StepOk proc s (s.run (getSof s.mem p l a) (fun _ s => .cont s)) := by
    intro p l a h1 h2 h3
    exact run_sof hI p l a (by rw [hmk]; exact h1) (by rw [hmk]; exact h2) (by rw [hmk]; exact h3)
  refine ite_ok (fun h => ?_) (fun h0 => ?_)
  · have hcur : s.curM = none := by
      cases h' : s.curM with
      | none => rfl
      | some x =>
        obtain ⟨c, n⟩ := x
        have := hI.cur c n h'
        rw [this.1] at this
        have := this.2.1
        rw [hmk, h] at this
        unfold AppCode at this; omega
    have := getSoi_writes s.mem s.src
    unfold RS.run
    cases hr : getSoi s.mem s.src with
    | ok a w r =>
      rw [hr] at this
      obtain ⟨rfl, hw⟩ := this
      refine ⟨⟨hI.bytes, hI.mem.plain (hw.mono (Nat.zero_le _)), hI.skip, ?_, hI.saved⟩, ⟨w, rfl, hw.ok0⟩, hw.keep _ (fun h => h), hcur,
        ⟨0, Or.inl ⟨Or.inl (by rw [hmk]; exact h), rfl⟩, by simp [Advanced]⟩, ?_⟩
      · intro c n h; simp only at h; rw [hcur] at h; simp at h
      · rw [hmk]; intro h'; omega
    | susp w => rw [hr] at this; exact this.elim
    | err e => rw [hr] at this; exact this
  unfold NoParam AppCode at *
  refine ite_ok (fun h => ?_) (fun h1 => ?_)
  · apply sof <;> omega
  refine ite_ok (fun h => ?_) (fun h2 => ?_)
  · apply sof <;> omega
  refine ite_ok (fun h => ?_) (fun h3 => ?_)
  · apply sof <;> omega
  refine ite_ok (fun h => ?_) (fun h4 => ?_)
  · apply sof <;> omega
  refine ite_ok (fun h => ?_) (fun h5 => ?_)
  · apply sof <;> omega
  refine ite_ok (fun h => ?_) (fun h6 => ?_)
  · apply sof <;> omega
  refine ite_ok (fun h => ?_) (fun h7 => ?_)
  · simp [StepOk]
  refine ite_ok (fun h => ?_) (fun h8 => ?_)
  · apply run_sos hI <;> (try unfold NoParam) <;> (try unfold AppCode) <;> omega
  refine ite_ok (fun h => ?_) (fun h9 => ?_)
  · apply plain getDac_ok <;> omega
  refine ite_ok (fun h => ?_) (fun h10 => ?_)
  · apply plain getDht_ok <;> omega
  refine ite_ok (fun h => ?_) (fun h11 => ?_)
  · apply plain getDqt_ok <;> omega
  refine ite_ok (fun h => ?_) (fun h12 => ?_)
  · apply plain getDri_ok <;> omega
  refine ite_ok (fun h => ?_) (fun h13 => ?_)
  · have happ := h
    split
    · rename_i hp
      refine run_skip hI skipVariable_ok (Or.inl (by rw [hmk]; exact happ)) (fun l => Or.inl ?_)
      rw [hmk, hp]; simp
    · rename_i hp
      refine run_skip hI (getAppn_ok _ _) (Or.inl (by rw [hmk]; exact happ)) (fun l => Or.inl ?_)
      rw [hmk, hp]; simp
    · rename_i limit hp
      subst hmk
      exact saveMarker_ok hI happ hp
  refine ite_ok (fun h => ?_) (fun h14 => ?_)
  · apply cont_self hI
    unfold NoParam
    omega
  refine ite_ok (fun h => ?_) (fun h15 => ?_)
  · refine run_skip hI skipVariable_ok (Or.inr (by rw [hmk]; exact h)) (fun l => Or.inr (by rw [hmk]; exact h))
  · simp [StepOk]

end Verif.Mark
