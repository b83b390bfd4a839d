import Mathlib.Data.Nat.Init
import Mathlib.Data.List.Basic
/-
Model of the GIF reader of cjpeg (rdgif.c).

A file is the list of its bytes. `Err.exit` is ERREXIT; `Err.fault` is an access outside an array, use of a colour map entry that was
never set, a negative bit index, or a loop that does not end.
-/
namespace Verif.Gif

/-- `exit`: ERREXIT. `fault`: undefined behaviour or no termination. -/
inductive Err where
  | exit | fault
deriving DecidableEq, Repr

abbrev R := Except Err

/-- `ReadByte` (rdgif.c:142-152). -/
def byte : List Nat → R (Nat × List Nat)
  | [] => .error .exit
  | c :: s => .ok (c, s)

/-- `ReadOK` (rdgif.c:50-51). -/
def bytes (n : Nat) (s : List Nat) : R (List Nat × List Nat) := if s.length < n then .error .exit else .ok (s.take n, s.drop n)

/-- `GetDataBlock` (rdgif.c:155-168). -/
def block : List Nat → R (List Nat × List Nat)
  | [] => .error .exit
  | n :: s => bytes n s

theorem block_lt {s b t : List Nat} (h : block s = .ok (b, t)) : t.length < s.length := by
  cases s with
  | nil => cases h
  | cons n s =>
    simp only [block, bytes] at h
    split at h
    · cases h
    · cases h
      simp only [List.length_drop, List.length_cons]; omega

/-- `SkipDataBlocks` (rdgif.c:171-179). -/
def skipBlocks (s : List Nat) : R (List Nat) :=
  match h : block s with
  | .error e => .error e
  | .ok (b, t) =>
    have := block_lt h
    if b.length > 0 then skipBlocks t else .ok t
termination_by s.length

/-- State of `GetCode` (rdgif.c:95-101) and the rest of the file. -/
structure Bits where
  /-- `code_buf[256 + 4]` -/
  buf : List Nat
  lastByte : Nat
  lastBit : Nat
  cur : Nat
  first : Bool
  out : Bool
  file : List Nat

/-- `a[i]`. -/
def at? (a : List Nat) (i : Nat) : R Nat := match a[i]? with
  | some x => .ok x
  | none => .error .fault

/-- One round of the loop in `GetCode` that ends in `GetDataBlock` (rdgif.c:233-245): the block just read, if not empty, follows the last two bytes. -/
def reload (st : Bits) : R (Option Bits × Bits) := do
  if st.lastByte < 2 then .error .fault else do
    let a ← at? st.buf (st.lastByte - 2)
    let b ← at? st.buf (st.lastByte - 1)
    let (blk, f) ← block st.file
    if blk.length = 0 then
      pure (none, { st with buf := a :: b :: st.buf.drop 2, file := f, out := true })
    else if 2 + blk.length > st.buf.length then .error .fault
    else if st.cur + 16 < st.lastBit then .error .fault
    else
      let st' := { st with buf := a :: b :: blk ++ st.buf.drop (2 + blk.length), file := f, cur := st.cur + 16 - st.lastBit,
                           lastByte := 2 + blk.length, lastBit := (2 + blk.length) * 8 }
      pure (some st', st')

theorem reload_lt {st st' st'' : Bits} (h : reload st = .ok (some st', st'')) : st'.file.length < st.file.length := by
  unfold reload at h
  split at h
  · cases h
  · simp only [bind, Except.bind] at h
    split at h
    · cases h
    · split at h
      · cases h
      · split at h
        · cases h
        · rename_i p e
          split at h
          · cases h
          · split at h
            · cases h
            · split at h
              · cases h
              · cases h
                exact block_lt e

/-- `GetCode` (rdgif.c:214-260). -/
def getCode (size clear : Nat) (st : Bits) : R (Nat × Bits) :=
  if st.cur + size > st.lastBit then
    if st.first then .ok (clear, { st with first := false })
    else if st.out then .ok (clear + 1, st)
    else match h : reload st with
      | .error e => .error e
      | .ok (none, st') => .ok (clear + 1, st')
      | .ok (some st', _) =>
        have := reload_lt h
        getCode size clear st'
  else do
    let offs := st.cur / 8
    let c ← at? st.buf (offs + 2)
    let b ← at? st.buf (offs + 1)
    let a ← at? st.buf offs
    let accum := c * 65536 + b * 256 + a
    pure (accum / 2 ^ (st.cur % 8) % 2 ^ size, { st with cur := st.cur + size })
termination_by st.file.length

/-- State of `LZWReadByte` (rdgif.c:103-119). -/
structure Lzw where
  bits : Bits
  /-- `input_code_size` -/
  ics : Nat
  size : Nat
  limit : Nat
  maxCode : Nat
  old : Nat
  firstc : Nat
  /-- `symbol_head`, `symbol_tail` -/
  head : List Nat
  tail : List Nat
  /-- `symbol_stack`, the top first -/
  stack : List Nat

/-- `clear_code` (rdgif.c:208). `end_code` is `clear + 1`. -/
def Lzw.clear (st : Lzw) : Nat := 2 ^ st.ics

/-- `ReInitLZW` (rdgif.c:182-190). -/
def Lzw.reinit (st : Lzw) : Lzw := { st with size := st.ics + 1, limit := st.clear * 2, maxCode := st.clear + 2, stack := [] }

/-- `*(sinfo->sp++) = v`. -/
def push (v : Nat) (s : List Nat) : R (List Nat) := if s.length < 4096 then .ok (v % 256 :: s) else .error .fault

/-- `a[i] = v`. -/
def put (i v : Nat) (a : List Nat) : R (List Nat) := if i < a.length then .ok (a.set i v) else .error .fault

/-- "Swallow any extra Clear codes" (rdgif.c:281-283): the next code that is not Clear. `fuel` bounds the rounds. -/
def swallow (size clear : Nat) : Nat → Bits → R (Nat × Bits)
  | 0, _ => .error .fault
  | fuel + 1, b => do
    let (code, b) ← getCode size clear b
    if code = clear then swallow size clear fuel b else pure (code, b)

/-- "Expand it into the stack" (rdgif.c:319-323); a full stack stops it. `room` bounds the rounds. -/
def expand (clear : Nat) (head tail : List Nat) : Nat → Nat → List Nat → R (Nat × List Nat)
  | 0, code, stack => if code ≥ clear then .error .fault else .ok (code, stack)
  | room + 1, code, stack =>
    if code ≥ clear then do
      let t ← at? tail code
      let stack ← push t stack
      let h ← at? head code
      expand clear head tail room h stack
    else .ok (code, stack)

/-- The part of `LZWReadByte` after "Got normal raw byte or LZW symbol" (rdgif.c:305-342). -/
def symbol (st : Lzw) (code : Nat) : R (Nat × Lzw) := do
  let incode := if code > st.maxCode then 0 else code
  let (code, stack) ← (if code ≥ st.maxCode then do
      let stack ← push st.firstc st.stack
      pure (st.old, stack)
    else pure (code, st.stack))
  let (code, stack) ← expand st.clear st.head st.tail 4097 code stack
  let st := { st with firstc := code, stack := stack }
  if st.maxCode < 4096 then do
    let head ← put st.maxCode (st.old % 65536) st.head
    let tail ← put st.maxCode (st.firstc % 256) st.tail
    let m := st.maxCode + 1
    let grow := decide (m ≥ st.limit) && decide (st.size < 12)
    pure (code, { st with head := head, tail := tail, maxCode := m, size := if grow then st.size + 1 else st.size,
                          limit := if grow then st.limit * 2 else st.limit, old := incode })
  else pure (code, { st with old := incode })

/-- `LZWReadByte` (rdgif.c:263-343). -/
def readByte (st : Lzw) : R (Nat × Lzw) :=
  match st.stack with
  | v :: s => .ok (v, { st with stack := s })
  | [] => do
    let (code, b) ← getCode st.size st.clear st.bits
    if code = st.clear then do
      let st := { st with bits := b }.reinit
      let (code, b) ← swallow st.size st.clear (8 * b.file.length + b.lastBit + 3) b
      let code := if code > st.clear then 0 else code
      pure (code, { st with bits := b, old := code, firstc := code })
    else if code = st.clear + 1 then
      if b.out then pure (0, { st with bits := b }) else do
        let f ← skipBlocks b.file
        pure (0, { st with bits := { b with file := f, out := true } })
    else symbol { st with bits := b } code

/-! ## The file -/

/-- An entry of the colour map: red, green, blue; `none` if it was never set. -/
abbrev Cmap := List (Option (Nat × Nat × Nat))

/-- `ReadColorMap` (rdgif.c:346-371): `n` entries from index `i` on. `up` is 2^(BITS_IN_JSAMPLE - 8). The last result tells whether
all are gray. -/
def readMap (up : Nat) : Nat → Nat → List Nat → Cmap → R (List Nat × Cmap × Bool)
  | 0, _, s, m => .ok (s, m, true)
  | n + 1, i, s, m => do
    let (r, s) ← byte s
    let (g, s) ← byte s
    let (b, s) ← byte s
    if i < m.length then do
      let (s, m, gray) ← readMap up n (i + 1) s (m.set i (some (r * up, g * up, b * up)))
      pure (s, m, gray && decide (r = g ∧ g = b))
    else .error .fault

/-- `LM_to_uint` (rdgif.c:64-66). -/
def word (a : List Nat) (i : Nat) : Nat := a.getD i 0 + a.getD (i + 1) 0 * 256

/-- The loop that looks for an image (rdgif.c:441-489): extensions and stray bytes are skipped. -/
def findImage (s : List Nat) : R (List Nat) :=
  match s with
  | [] => .error .exit
  | c :: s =>
    if c = 59 then .error .exit
    else if c = 33 then
      match s with
      | [] => .error .exit
      | _ :: s => match h : skipBlocks s with
        | .error e => .error e
        | .ok t => if hl : t.length ≤ s.length then findImage t else .error .fault
    else if c ≠ 44 then findImage s
    else .ok s
termination_by s.length

/-- What `start_input_gif` sets up. -/
structure Src where
  w : Nat
  h : Nat
  gray : Bool
  interlaced : Bool
  map : Cmap
  lzw : Lzw

/-- `start_input_gif` (rdgif.c:392-549), `in_color_space` being JCS_RGB before. `junk` is what allocated memory holds. -/
def start (up maxPixels : Nat) (junk : Nat → Nat) (s : List Nat) : R Src := do
  let (h6, s) ← bytes 6 s
  if h6.take 3 ≠ [71, 73, 70] then .error .exit else do
  let (h7, s) ← bytes 7 s
  let w := word h7 0
  let h := word h7 2
  if w = 0 ∨ h = 0 then .error .exit
  else if maxPixels ≠ 0 ∧ w * h > maxPixels then .error .exit
  else do
  let map0 : Cmap := List.replicate 256 none
  let f := h7.getD 4 0
  let (s, map, len, gray) ← (if f / 128 % 2 = 1 then do
      let (s, m, g) ← readMap up (2 * 2 ^ (f % 8)) 0 s map0
      pure (s, m, 2 * 2 ^ (f % 8), g)
    else pure (s, map0, 0, false))
  let s ← findImage s
  let (h9, s) ← bytes 9 s
  let w := word h9 4
  let h := word h9 6
  if w = 0 ∨ h = 0 then .error .exit
  else if maxPixels ≠ 0 ∧ w * h > maxPixels then .error .exit
  else do
  let f := h9.getD 8 0
  let (s, map, len, gray) ← (if f / 128 % 2 = 1 then do
      let (s, m, g) ← readMap up (2 * 2 ^ (f % 8)) 0 s map
      pure (s, m, 2 * 2 ^ (f % 8), gray || g)
    else pure (s, map, len, gray))
  let (ics, s) ← byte s
  if ics < 2 ∨ ics > 8 then .error .exit
  else
    let bits : Bits := { buf := 0 :: 0 :: (List.range 258).map junk, lastByte := 2, lastBit := 0, cur := 0, first := true, out := false, file := s }
    let lzw : Lzw := { bits := bits, ics := ics, size := ics + 1, limit := 2 ^ ics * 2, maxCode := 2 ^ ics + 2, old := junk 0, firstc := junk 1,
                       head := (List.range 4096).map junk, tail := (List.range 4096).map junk, stack := [] }
    let pad := map.mapIdx fun c e => if len ≤ c ∧ c < 2 ^ ics then some (128 * up, 128 * up, 128 * up) else e
    pure { w := w, h := h, gray := gray, interlaced := decide (f / 64 % 2 = 1), map := pad, lzw := lzw }

/-- `n` calls of `LZWReadByte`. -/
def readN : Nat → Lzw → R (List Nat × Lzw)
  | 0, st => .ok ([], st)
  | n + 1, st => do
    let (v, st) ← readByte st
    let (l, st) ← readN n st
    pure (v :: l, st)

/-- All rows in the order of the file (rdgif.c:558-582, 591-627). -/
def readRows (w : Nat) : Nat → Lzw → R (List (List Nat) × Lzw)
  | 0, st => .ok ([], st)
  | n + 1, st => do
    let (r, st) ← readN w st
    let (l, st) ← readRows w n st
    pure (r :: l, st)

/-- Where row `r` of an interlaced image of `h` rows is in the file (rdgif.c:621-623, 645-659). -/
def place (h r : Nat) : Nat :=
  let p2 := (h + 7) / 8
  let p3 := p2 + (h + 3) / 8
  let p4 := p3 + (h + 1) / 4
  if r % 8 = 0 then r / 8 else if r % 8 = 4 then r / 8 + p2 else if r % 8 = 2 ∨ r % 8 = 6 then r / 4 + p3 else r / 2 + p4

/-- The colour of a pixel. -/
def lookup (map : Cmap) (c : Nat) : R (Nat × Nat × Nat) := match map[c]? with
  | some (some x) => .ok x
  | _ => .error .fault

/-- A row of samples (rdgif.c:568-580, 663-677). -/
def colours (gray : Bool) (map : Cmap) : List Nat → R (List Nat)
  | [] => .ok []
  | c :: l => do
    let x ← lookup map c
    let r ← colours gray map l
    pure (if gray then x.1 :: r else x.1 :: x.2.1 :: x.2.2 :: r)

/-- The rows `order 0`, `order 1`, ... of the image. -/
def pick (gray : Bool) (map : Cmap) (rows : List (List Nat)) (order : Nat → Nat) : Nat → Nat → R (List (List Nat))
  | 0, _ => .ok []
  | n + 1, i => do
    let row ← (match rows[order i]? with
      | some x => .ok x
      | none => .error .fault : R (List Nat))
    let x ← colours gray map row
    let l ← pick gray map rows order n (i + 1)
    pure (x :: l)

/-- A whole file: the source and the rows of samples. -/
def load (up maxPixels : Nat) (junk : Nat → Nat) (s : List Nat) : R (Src × List (List Nat)) := do
  let src ← start up maxPixels junk s
  let (rows, _) ← readRows src.w src.h src.lzw
  let l ← pick src.gray src.map rows (if src.interlaced then place src.h else fun i => i) src.h 0
  pure (src, l)

end Verif.Gif
