import Verif.Huff.Enc
/-
Model of the sequential Huffman decoder: jdhuff.c:510-815 (process_restart, decode_mcu_slow, decode_mcu) with the
restart part of the marker reader, jdmarker.c:889-935 and 1136-1280.
-/
namespace Verif.Huff

/-- Conversion to a 16-bit `JCOEF`. -/
def toCoef (x : Int) : Int := (x + 32768) % 65536 - 32768

/-- The AC loop of `decode_mcu_slow`, jdhuff.c:602-660.  `need = false` is the discarding copy of the loop.
`none` = suspension. -/
def decAC (d : DTbl) (need : Bool) (k : Nat) (blk : List Int) (r : Rd) : Option (List Int × Rd) :=
  if k < 64 then
    match huffDecode d r with
    | none => none
    | some (sym, r) =>
      let run := sym >>> 4
      let s := sym &&& 15
      if s ≠ 0 then
        match readBits r s with
        | none => none
        | some (x, r) =>
          decAC d need (k + run + 1)
            (if need then blk.set (natOrder.getD (k + run) 0) (toCoef (huffExtend x s)) else blk) r
      else if run ≠ 15 then some (blk, r)
      else decAC d need (k + 15 + 1) blk r
  else some (blk, r)
termination_by 64 - k

/-- Per-block decoding info (jdhuff.c:60-70, set up in start_pass_huff_decoder 107-127). -/
structure DBlk where
  ci : Nat
  dc : DTbl
  ac : DTbl
  dcNeeded : Bool := true
  acNeeded : Bool := true

/-- One block of `decode_mcu_slow` (jdhuff.c:561-662); `blk` is the zeroed output block.
`last_dc_val` is an unbounded `Int` here; in C it may wrap modulo 2^32, which does not change the 16-bit value
stored in the block. -/
def decBlock (b : DBlk) (last : Nat → Int) (r : Rd) : Option (List Int × (Nat → Int) × Rd) :=
  match huffDecode b.dc r with
  | none => none
  | some (s, r) =>
    match (if s ≠ 0 then (readBits r s).map (fun xr => (huffExtend xr.1 s, xr.2)) else some (0, r)) with
    | none => none
    | some (diff, r) =>
      let blk := List.replicate 64 (0 : Int)
      let v := diff + last b.ci
      let last := if b.dcNeeded then upd last b.ci v else last
      let blk := if b.dcNeeded then blk.set 0 (toCoef v) else blk
      match decAC b.ac b.acNeeded 1 blk r with
      | none => none
      | some (blk, r) => some (blk, last, r)

/-- The block loop of `decode_mcu_slow`. -/
def decBlocks : List DBlk → (Nat → Int) → Rd → Option (List (List Int) × (Nat → Int) × Rd)
  | [], last, r => some ([], last, r)
  | b :: bs, last, r =>
    match decBlock b last r with
    | none => none
    | some (blk, last, r) =>
      match decBlocks bs last r with
      | none => none
      | some (blks, last, r) => some (blk :: blks, last, r)

/-- `next_marker` (jdmarker.c:889-935): skip to the next FF xx with xx ∉ {00, FF}; counts discarded bytes.
`none` = suspension. -/
def nextMarker (ff : Bool) (disc : Nat) : List Nat → Option (Nat × List Nat × Nat)
  | [] => none
  | c :: rest =>
    match ff with
    | false => if c = 0xFF then nextMarker true disc rest else nextMarker false (disc + 1) rest
    | true =>
      if c = 0xFF then nextMarker true disc rest
      else if c = 0 then nextMarker false (disc + 2) rest
      else some (c, rest, disc)

theorem nextMarker_length {ff : Bool} {disc : Nat} {bs : List Nat} {c : Nat} {rest : List Nat} {d : Nat}
    (h : nextMarker ff disc bs = some (c, rest, d)) : rest.length < bs.length := by
  induction bs generalizing ff disc with
  | nil => simp [nextMarker] at h
  | cons b bs ih =>
    cases ff <;> simp only [nextMarker] at h <;> split at h
    · have := ih h; simp; omega
    · have := ih h; simp; omega
    · have := ih h; simp; omega
    · split at h
      · have := ih h; simp; omega
      · simp at h; obtain ⟨-, rfl, -⟩ := h; simp

/-- `jpeg_resync_to_restart` (jdmarker.c:1215-1262) after the initial warning: the recovery loop.
`marker` is the marker found, `disc` the pending count of discarded bytes; result: new `unread_marker`, remaining
bytes, number of warnings, pending count. -/
def resync (desired : Nat) (marker : Nat) (bytes : List Nat) (warns disc : Nat) :
    Option (Nat × List Nat × Nat × Nat) :=
  let action : Nat :=
    if marker < 0xC0 then 2
    else if marker < 0xD0 ∨ marker > 0xD7 then 3
    else if marker = 0xD0 + ((desired + 1) &&& 7) ∨ marker = 0xD0 + ((desired + 2) &&& 7) then 3
    else if marker = 0xD0 + ((desired + 7) &&& 7) ∨ marker = 0xD0 + ((desired + 6) &&& 7) then 2
    else 1
  if action = 1 then some (0, bytes, warns, disc)
  else if action = 3 then some (marker, bytes, warns, disc)
  else
    match h : nextMarker false disc bytes with
    | none => none
    | some (m, rest, d) => resync desired m rest (if d ≠ 0 then warns + 1 else warns) 0
termination_by bytes.length
decreasing_by exact nextMarker_length h

/-- Decoder state between MCUs. `disc` is `cinfo->marker->discarded_bytes`. -/
structure DSt where
  rd : Rd
  last : Nat → Int
  togo : Nat
  rst : Nat
  disc : Nat := 0

/-- `process_restart` (jdhuff.c:511-542) with `read_restart_marker` (jdmarker.c:1136-1163). -/
def processRestart (ri : Nat) (s : DSt) : Option DSt :=
  let disc := s.disc + s.rd.left / 8
  let rd := { s.rd with left := 0 }
  match (if rd.marker = 0 then
      match nextMarker false disc rd.bytes with
      | none => none
      | some (m, rest, d) =>
        some ({ rd with marker := m, bytes := rest, warns := if d ≠ 0 then rd.warns + 1 else rd.warns }, 0)
    else some (rd, disc)) with
  | none => none
  | some (rd, disc) =>
    match (if rd.marker = 0xD0 + s.rst then some ({ rd with marker := 0 }, disc)
      else match resync s.rst rd.marker rd.bytes (rd.warns + 1) disc with
        | none => none
        | some (m, bytes, warns, d) => some ({ rd with marker := m, bytes := bytes, warns := warns }, d)) with
    | none => none
    | some (rd, disc) =>
      some { rd := if rd.marker = 0 then { rd with insuff := false } else rd,
             last := fun _ => 0, togo := ri, rst := (s.rst + 1) &&& 7, disc := disc }

/-- `decode_mcu` (jdhuff.c:775-815), always taking the slow path; `Verif/Huff/Fast.lean` relates the fast path. -/
def decMCU (ri : Nat) (bs : List DBlk) (s : DSt) : Option (List (List Int) × DSt) :=
  match (if ri ≠ 0 ∧ s.togo = 0 then processRestart ri s else some s) with
  | none => none
  | some s =>
    match (if s.rd.insuff then some (bs.map (fun _ => List.replicate 64 (0 : Int)), s.last, s.rd)
      else decBlocks bs s.last s.rd) with
    | none => none
    | some (blks, last, rd) =>
      some (blks, { s with rd := rd, last := last, togo := if ri ≠ 0 then s.togo - 1 else s.togo })

/-- Decode `n` MCUs. -/
def decMCUs (ri : Nat) (bs : List DBlk) : Nat → DSt → Option (List (List (List Int)) × DSt)
  | 0, s => some ([], s)
  | n + 1, s =>
    match decMCU ri bs s with
    | none => none
    | some (m, s) =>
      match decMCUs ri bs n s with
      | none => none
      | some (ms, s) => some (m :: ms, s)

/-- `start_pass_huff_decoder` state (jdhuff.c:101-104, 129-135), reading from `bytes`. -/
def decInit (ri : Nat) (bytes : List Nat) : DSt :=
  { rd := { gb := 0, left := 0, bytes := bytes }, last := fun _ => 0, togo := ri, rst := 0 }

end Verif.Huff
