import Verif.Huff.ChunkProps
import Verif.Huff.Safe
import Verif.Rst.Chunk
/-
C09, the sequential Huffman decoder: decode_mcu with everything it does when the source suspends, driven by an
application that hands over the compressed data in arbitrary pieces.
-/
namespace Verif.Huff

/-- The restart reader's view of the decoder: unread_marker, discarded_bytes (jdhuff.c:519 has added the whole bytes
of the bit buffer), next_restart_num, source buffer. -/
def toRst (s : DSt) : Rst.St := ⟨s.rd.marker, s.disc + s.rd.left / 8, s.rst, s.rd.bytes, []⟩

/-- process_restart (jdhuff.c:511-542), on top of read_restart_marker (`Rst.readRestart`, jdmarker.c:1136-1264);
the flag is FALSE on suspension, and then the bit buffer is empty already, some bytes may have been skipped and
a marker may have been read. -/
def restartStep (ri : Nat) (s : DSt) : Bool × DSt :=
  let t := Rst.readRestart (toRst s)
  let rd : Rd := { s.rd with left := 0, marker := t.2.unread, bytes := t.2.buf, warns := s.rd.warns + t.2.warns.length }
  if t.1 then
    (true, { rd := if rd.marker = 0 then { rd with insuff := false } else rd, last := fun _ => 0, togo := ri,
             rst := t.2.num, disc := t.2.disc })
  else (false, { s with rd := rd, rst := t.2.num, disc := t.2.disc })

/-- Outcome of a call of decode_mcu. -/
inductive FRes where
  | ok (blks : List (List Int)) (s : DSt)
  | suspend (blks : List (List Int)) (s : DSt)
  | fault

/-- decode_mcu (jdhuff.c:770-815) on the blocks `pend`. -/
def attempt (ri : Nat) (bs : List DBlk) (pend : List (List Int)) (s : DSt) : FRes :=
  let x := if ri ≠ 0 ∧ s.togo = 0 then restartStep ri s else (true, s)
  if x.1 then
    match mcuBody ri bs pend x.2.last x.2.rd with
    | .fault => .fault
    | .suspend pend => .suspend pend x.2
    | .ok blks last rd => .ok blks { x.2 with rd := rd, last := last, togo := if ri ≠ 0 then x.2.togo - 1 else x.2.togo }
  else .suspend pend x.2

/-- The source gets more bytes. -/
def DSt.more (s : DSt) (c : List Nat) : DSt := { s with rd := s.rd.more c }

/-- The controllers' side: `n` MCUs are wanted.  Before each call of decode_mcu some bytes arrive (perhaps none);
after a suspension the same MCU is asked for again, on blocks zeroed again (`true`: jdcoefct.c:190-194, and jdtrans)
or on the blocks as they were left (`false`: jdcoefct.c:336-342, where the virtual array was zeroed beforehand).
Result: the MCUs, how many are missing, the state, the events not used; `none` if a call faults. -/
def drive (ri : Nat) (bs : List DBlk) : Nat → List (List Nat × Bool) → List (List Int) → DSt →
    Option (List (List (List Int)) × Nat × DSt × List (List Nat × Bool))
  | 0, es, _, s => some ([], 0, s, es)
  | n + 1, [], _, s => some ([], n + 1, s, [])
  | n + 1, (c, z) :: es, pend, s =>
    match attempt ri bs (if z then zeroBlks bs else pend) (s.more c) with
    | .ok blks s => (drive ri bs n es (zeroBlks bs) s).map fun y => (blks :: y.1, y.2)
    | .suspend pend s => drive ri bs (n + 1) es pend s
    | .fault => none

/-- The bytes of the events. -/
def evBytes (es : List (List Nat × Bool)) : List Nat := (es.map Prod.fst).flatten

/-! ### Restart markers -/

open Rst (codes verdict Verdict)

/-- Markers ahead, with what follows each. -/
def cands (m : Nat) (bytes : List Nat) : List (Nat × List Nat) :=
  if m = 0 then codes bytes else (m, bytes) :: codes bytes

theorem codes_seg (l : List Nat) :
    codes l = (match segTail false l with | none => [] | some (m, r) => (m, r) :: codes r) ∧
    codes (0xFF :: l) = (match segTail true l with | none => [] | some (m, r) => (m, r) :: codes r) := by
  induction l with
  | nil => exact ⟨by simp [codes, segTail], by simp [codes, segTail]⟩
  | cons c l ih =>
    have h2 : codes (0xFF :: c :: l) = (match segTail true (c :: l) with | none => [] | some (m, r) => (m, r) :: codes r) := by
      simp only [codes, segTail]
      by_cases hc : c = 0xFF
      · subst hc
        rw [if_neg (by simp), if_pos rfl, ih.2]
      · by_cases h0 : c = 0
        · subst h0
          rw [if_neg (by simp), if_neg (by simp), if_pos rfl, Rst.codes_skip (by decide), ih.1]
        · rw [if_pos ⟨trivial, h0, hc⟩, if_neg hc, if_neg h0]
    refine ⟨?_, h2⟩
    by_cases hc : c = 0xFF
    · subst hc
      rw [segTail, if_pos rfl, ih.2]
    · rw [segTail, if_neg hc, Rst.codes_skip hc, ih.1]

/-- The markers ahead follow from the marker that ends the segment. -/
theorem cands_tail (r : Rd) :
    cands r.marker r.bytes = match r.tail with | none => [] | some (m, rest) => (m, rest) :: codes rest := by
  unfold cands Rd.tail
  split
  · exact (codes_seg _).1
  · rfl

/-- The first marker that read_restart_marker does not skip. -/
def pick (num m : Nat) (bytes : List Nat) : Option (Nat × List Nat) :=
  (cands m bytes).find? fun x => verdict num x.1 ≠ .advance

theorem handle_core {t : Rst.St} (hd : t.num < 8) :
    match ((t.unread, t.buf) :: codes t.buf).find? (fun x => verdict t.num x.1 ≠ .advance) with
    | none => (Rst.handle t).1 = false
    | some (m, rest) => (Rst.handle t).1 = true ∧ (Rst.handle t).2.buf = rest ∧
        (Rst.handle t).2.unread = (if verdict t.num m = .discard then 0 else m) := by
  unfold Rst.handle
  by_cases he : t.unread = 0xD0 + t.num
  · rw [if_pos he, he]
    have := Rst.verdict_expected hd
    simp [List.find?, this]
  · rw [if_neg he]
    obtain ⟨-, -, h3⟩ := Rst.C30_resync hd t
    revert h3
    cases ((t.unread, t.buf) :: codes t.buf).find? (fun x => verdict t.num x.1 ≠ .advance) with
    | none =>
      intro h3
      dsimp only at h3 ⊢
      split
      · rfl
      · rename_i h; rw [h] at h3; simp at h3
    | some v =>
      intro h3
      dsimp only at h3 ⊢
      split
      · rename_i h; rw [h] at h3; simp at h3
      · rename_i h; rw [h] at h3; exact ⟨rfl, h3.2⟩

/-- What read_restart_marker does depends on the markers ahead only. -/
theorem readRestart_core {t : Rst.St} (hd : t.num < 8) :
    match pick t.num t.unread t.buf with
    | none => (Rst.readRestart t).1 = false
    | some (m, rest) => (Rst.readRestart t).1 = true ∧ (Rst.readRestart t).2.buf = rest ∧
        (Rst.readRestart t).2.unread = (if verdict t.num m = .discard then 0 else m) := by
  unfold Rst.readRestart pick cands
  by_cases h0 : t.unread = 0
  · rw [if_pos h0, if_pos h0]
    rcases Rst.nextMarker_spec t with ⟨c, q, g1, g2, g3⟩ | ⟨g1, d, sync, g2, g3⟩
    · rw [g3, g1]
      exact handle_core (t := { t with disc := 0, unread := c, buf := q, warns := _ }) hd
    · rw [g2, g1]; rfl
  · rw [if_neg h0, if_neg h0]
    exact handle_core hd

theorem decNext (l : List Nat) : ∀ (ff : Bool) (d : Nat),
    (segTail ff l = none → nextMarker ff d l = none) ∧
    (∀ m r, segTail ff l = some (m, r) → ∃ d', nextMarker ff d l = some (m, r, d')) := by
  induction l with
  | nil => intro ff d; exact ⟨fun _ => rfl, fun m r h => by simp [segTail] at h⟩
  | cons c l ih =>
    intro ff d
    cases ff with
    | false =>
      simp only [segTail, nextMarker]
      split
      · exact ih true d
      · exact ih false _
    | true =>
      simp only [segTail, nextMarker]
      split
      · exact ih true d
      · split
        · exact ih false _
        · exact ⟨fun h => by simp at h, fun m r h => ⟨d, by simp at h; rw [h.1, h.2]⟩⟩

theorem resync_action {desired m : Nat} (hd : desired < 8) :
    (if m < 0xC0 then 2
    else if m < 0xD0 ∨ m > 0xD7 then 3
    else if m = 0xD0 + ((desired + 1) &&& 7) ∨ m = 0xD0 + ((desired + 2) &&& 7) then 3
    else if m = 0xD0 + ((desired + 7) &&& 7) ∨ m = 0xD0 + ((desired + 6) &&& 7) then 2
    else 1 : Nat) = match verdict desired m with | .discard => 1 | .advance => 2 | .leave => 3 := by
  unfold verdict
  by_cases h1 : m < 0xC0
  · simp [h1]
  by_cases h2 : m < 0xD0 ∨ m > 0xD7
  · simp [h1, h2]
  simp only [h1, h2, if_false]
  obtain ⟨k, hk, rfl⟩ : ∃ k, k < 8 ∧ m = 0xD0 + k := ⟨m - 0xD0, by omega, by omega⟩
  have key : ∀ d : Nat, d < 8 → ∀ k : Nat, k < 8 →
      (if 0xD0 + k = 0xD0 + ((d + 1) &&& 7) ∨ 0xD0 + k = 0xD0 + ((d + 2) &&& 7) then 3
      else if 0xD0 + k = 0xD0 + ((d + 7) &&& 7) ∨ 0xD0 + k = 0xD0 + ((d + 6) &&& 7) then 2
      else 1 : Nat) = match (match (0xD0 + k - 0xD0 + 8 - d) % 8 with
        | 1 => Verdict.leave
        | 2 => .leave
        | 6 => .advance
        | 7 => .advance
        | _ => .discard) with | .discard => 1 | .advance => 2 | .leave => 3 := by decide
  exact key desired hd k hk

theorem resync_adv {desired m m' d d' : Nat} {l r : List Nat} (hd : desired < 8) (w : Nat) (hv : verdict desired m = .advance)
    (e : nextMarker false d l = some (m', r, d')) :
    resync desired m l w d = resync desired m' r (if d' ≠ 0 then w + 1 else w) 0 := by
  rw [resync]
  simp only [resync_action hd, hv]
  rw [if_neg (by decide), if_neg (by decide)]
  split
  · rename_i h; rw [e] at h; simp at h
  · rename_i h
    rw [e] at h
    simp only [Option.some.injEq, Prod.mk.injEq] at h
    obtain ⟨rfl, rfl, rfl⟩ := h
    rfl

theorem resync_end {desired m d : Nat} {l : List Nat} (hd : desired < 8) (w : Nat) (hv : verdict desired m = .advance)
    (e : nextMarker false d l = none) : resync desired m l w d = none := by
  rw [resync]
  simp only [resync_action hd, hv]
  rw [if_neg (by decide), if_neg (by decide)]
  split
  · rfl
  · rename_i h; rw [e] at h; simp at h

theorem resync_core {desired : Nat} (hd : desired < 8) (n : Nat) {m : Nat} {l : List Nat} (hl : l.length < n) (w d : Nat) :
    match ((m, l) :: codes l).find? (fun x => verdict desired x.1 ≠ .advance) with
    | none => resync desired m l w d = none
    | some (m', rest) => ∃ w' d', resync desired m l w d = some (if verdict desired m' = .discard then 0 else m', rest, w', d') := by
  induction n generalizing m l w d with
  | zero => omega
  | succ n ih =>
    cases hv : verdict desired m with
    | discard =>
      rw [resync]
      simp only [resync_action hd]
      simp [List.find?, hv]
    | leave =>
      rw [resync]
      simp only [resync_action hd]
      simp [List.find?, hv]
    | advance =>
      rw [show ((m, l) :: codes l).find? (fun x => verdict desired x.1 ≠ .advance) =
        (codes l).find? (fun x => verdict desired x.1 ≠ .advance) by simp [List.find?, hv]]
      obtain ⟨n1, n2⟩ := decNext l false d
      rw [(codes_seg l).1]
      cases hs : segTail false l with
      | none => exact resync_end hd w hv (n1 hs)
      | some y =>
        obtain ⟨m', r⟩ := y
        obtain ⟨d', e⟩ := n2 m' r hs
        have hlt := nextMarker_length e
        have := ih (m := m') (l := r) (by omega) (if d' ≠ 0 then w + 1 else w) 0
        rw [resync_adv hd w hv e]
        exact this

/-- The second half of `processRestart`. -/
def stage2 (rst : Nat) (rd : Rd) (disc : Nat) : Option (Rd × Nat) :=
  if rd.marker = 0xD0 + rst then some ({ rd with marker := 0 }, disc)
  else (resync rst rd.marker rd.bytes (rd.warns + 1) disc).map fun x =>
    ({ rd with marker := x.1, bytes := x.2.1, warns := x.2.2.1 }, x.2.2.2)

/-- The end of `processRestart`. -/
def stage3 (ri : Nat) (s : DSt) (x : Rd × Nat) : DSt :=
  { rd := if x.1.marker = 0 then { x.1 with insuff := false } else x.1,
    last := fun _ => 0, togo := ri, rst := (s.rst + 1) &&& 7, disc := x.2 }

theorem processRestart_eq0 {ri : Nat} {s : DSt} (h0 : s.rd.marker = 0)
    (hn : nextMarker false (s.disc + s.rd.left / 8) s.rd.bytes = none) : processRestart ri s = none := by
  unfold processRestart
  dsimp only
  rw [if_pos h0, hn]

theorem processRestart_eq1 {ri : Nat} {s : DSt} {m d : Nat} {r : List Nat} (h0 : s.rd.marker = 0)
    (hn : nextMarker false (s.disc + s.rd.left / 8) s.rd.bytes = some (m, r, d)) :
    processRestart ri s = (stage2 s.rst { s.rd with left := 0, marker := m, bytes := r, warns := if d ≠ 0 then s.rd.warns + 1 else s.rd.warns } 0).map (stage3 ri s) := by
  unfold processRestart stage2
  dsimp only
  rw [if_pos h0, hn]
  dsimp only
  by_cases he : m = 0xD0 + s.rst
  · rw [if_pos he, if_pos he]; rfl
  · rw [if_neg he, if_neg he]
    cases resync s.rst m r ((if d ≠ 0 then s.rd.warns + 1 else s.rd.warns) + 1) 0 <;> rfl

theorem processRestart_eq2 {ri : Nat} {s : DSt} (h0 : s.rd.marker ≠ 0) :
    processRestart ri s = (stage2 s.rst { s.rd with left := 0 } (s.disc + s.rd.left / 8)).map (stage3 ri s) := by
  unfold processRestart stage2
  dsimp only
  rw [if_neg h0]
  dsimp only
  by_cases he : s.rd.marker = 0xD0 + s.rst
  · rw [if_pos he, if_pos he]; rfl
  · rw [if_neg he, if_neg he]
    cases resync s.rst s.rd.marker s.rd.bytes (s.rd.warns + 1) (s.disc + s.rd.left / 8) <;> rfl

theorem stage2_core {rst : Nat} (hd : rst < 8) (rd : Rd) (disc : Nat) :
    match ((rd.marker, rd.bytes) :: codes rd.bytes).find? (fun x => verdict rst x.1 ≠ .advance) with
    | none => stage2 rst rd disc = none
    | some (m, rest) => ∃ rd' d', stage2 rst rd disc = some (rd', d') ∧ rd'.left = rd.left ∧ rd'.bytes = rest ∧
        rd'.marker = (if verdict rst m = .discard then 0 else m) ∧ rd'.insuff = rd.insuff ∧ rd'.hits = rd.hits := by
  unfold stage2
  by_cases he : rd.marker = 0xD0 + rst
  · rw [if_pos he, he]
    have := Rst.verdict_expected hd
    rw [List.find?_cons_of_pos (by simp [this])]
    exact ⟨_, _, rfl, rfl, rfl, by rw [this]; rfl, rfl, rfl⟩
  · rw [if_neg he]
    have := resync_core hd _ (m := rd.marker) (l := rd.bytes) (Nat.lt_succ_self _) (rd.warns + 1) disc
    revert this
    cases ((rd.marker, rd.bytes) :: codes rd.bytes).find? (fun x => verdict rst x.1 ≠ .advance) with
    | none => intro h; dsimp only at h ⊢; rw [h]; rfl
    | some v =>
      intro h
      dsimp only at h ⊢
      obtain ⟨w', d', h⟩ := h
      rw [h]
      exact ⟨_, _, rfl, rfl, rfl, rfl, rfl, rfl⟩

/-- The restart processing of `Dec.lean` in the same terms. -/
theorem processRestart_core {ri : Nat} {s : DSt} (hd : s.rst < 8) :
    match pick s.rst s.rd.marker s.rd.bytes with
    | none => processRestart ri s = none
    | some (m, rest) => ∃ s', processRestart ri s = some s' ∧ s'.rd.left = 0 ∧ s'.rd.bytes = rest ∧
        s'.rd.marker = (if verdict s.rst m = .discard then 0 else m) ∧
        s'.rd.insuff = (if s'.rd.marker = 0 then false else s.rd.insuff) ∧ s'.rd.hits = s.rd.hits ∧
        s'.last = (fun _ => 0) ∧ s'.togo = ri ∧ s'.rst = (s.rst + 1) % 8 := by
  have and7' : (s.rst + 1) &&& 7 = (s.rst + 1) % 8 := by
    have := Nat.and_two_pow_sub_one_eq_mod (s.rst + 1) 3
    simpa using this
  have fin : ∀ rd' : Rd, ∀ d' m rest, rd'.left = 0 → rd'.bytes = rest →
      rd'.marker = (if verdict s.rst m = .discard then 0 else m) → rd'.insuff = s.rd.insuff → rd'.hits = s.rd.hits →
      ∃ s', (some (rd', d')).map (stage3 ri s) = some s' ∧ s'.rd.left = 0 ∧ s'.rd.bytes = rest ∧
        s'.rd.marker = (if verdict s.rst m = .discard then 0 else m) ∧
        s'.rd.insuff = (if s'.rd.marker = 0 then false else s.rd.insuff) ∧ s'.rd.hits = s.rd.hits ∧
        s'.last = (fun _ => 0) ∧ s'.togo = ri ∧ s'.rst = (s.rst + 1) % 8 := by
    intro rd' d' m rest k1 k2 k3 k4 k5
    refine ⟨_, rfl, ?_⟩
    simp only [stage3, and7']
    by_cases hm : rd'.marker = 0
    · simp only [if_pos hm]; exact ⟨k1, k2, k3, trivial, k5, trivial, trivial, trivial⟩
    · simp only [if_neg hm]; exact ⟨k1, k2, k3, k4, k5, trivial, trivial, trivial⟩
  unfold pick cands
  by_cases h0 : s.rd.marker = 0
  · rw [if_pos h0]
    obtain ⟨n1, n2⟩ := decNext s.rd.bytes false (s.disc + s.rd.left / 8)
    rw [(codes_seg _).1]
    cases hs : segTail false s.rd.bytes with
    | none => exact processRestart_eq0 h0 (n1 hs)
    | some y =>
      obtain ⟨m, r⟩ := y
      obtain ⟨d', e⟩ := n2 m r hs
      dsimp only
      rw [processRestart_eq1 h0 e]
      have := stage2_core hd { s.rd with left := 0, marker := m, bytes := r, warns := if d' ≠ 0 then s.rd.warns + 1 else s.rd.warns } 0
      dsimp only at this
      revert this
      cases ((m, r) :: codes r).find? (fun x => verdict s.rst x.1 ≠ .advance) with
      | none => intro h; dsimp only at h ⊢; rw [h]; rfl
      | some v =>
        intro h
        dsimp only at h ⊢
        obtain ⟨rd', d2, e2, k1, k2, k3, k4, k5⟩ := h
        rw [e2]
        exact fin rd' d2 _ _ k1 k2 k3 k4 k5
  · rw [if_neg h0, processRestart_eq2 h0]
    have := stage2_core hd { s.rd with left := 0 } (s.disc + s.rd.left / 8)
    dsimp only at this
    revert this
    cases ((s.rd.marker, s.rd.bytes) :: codes s.rd.bytes).find? (fun x => verdict s.rst x.1 ≠ .advance) with
    | none => intro h; dsimp only at h ⊢; rw [h]; rfl
    | some v =>
      intro h
      dsimp only at h ⊢
      obtain ⟨rd', d2, e2, k1, k2, k3, k4, k5⟩ := h
      rw [e2]
      exact fin rd' d2 _ _ k1 k2 k3 k4 k5

end Verif.Huff
