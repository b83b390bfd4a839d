import Verif.Huff.Enc
/-
C13: the sequential Huffman encoder with its output buffer as memory: EMIT_BYTE and FLUSH store through a pointer, LOAD_BUFFER and STORE_BUFFER
move data between the block's local buffer and the destination's, dump_buffer asks the destination manager (jchuff.c:324-793).
-/
namespace Verif.Out
open Verif.Huff

/-- What empty_output_buffer does at a call: TRUE, the whole buffer has been taken and there is a new one (with arbitrary old contents); FALSE, and
after the return to the application that takes the data up to dest->next_output_byte and supplies a new buffer (libjpeg.txt "Compression suspension"). -/
inductive Ev | take (b : List Nat) | full (b : List Nat)

/-- The destination and the working state's pointer into it.  `sent`: bytes the application has taken; `mem`: the current buffer;
`dnext` = dest->next_output_byte, `next` = state->next_output_byte, as offsets; free_in_buffer = size - offset; `k` counts the calls of
empty_output_buffer. -/
structure Work where
  sent : List Nat
  mem : List Nat
  next : Nat
  dnext : Nat
  k : Nat

/-- Result of a routine: done, FALSE (with the new buffer the application will supply), ERREXIT, store outside a buffer. -/
inductive Ans (α : Type) | ok (a : α) | susp (x : Work) (b : List Nat) | bad | fault

def Ans.bind {α β : Type} : Ans α → (α → Ans β) → Ans β
  | .ok a, f => f a
  | .susp x b, _ => .susp x b
  | .bad, _ => .bad
  | .fault, _ => .fault

/-- dump_buffer (jchuff.c:332-345). -/
def dump (S : Nat → Ev) (x : Work) : Ans Work :=
  match S x.k with
  | .take b => .ok { sent := x.sent ++ x.mem, mem := b, next := 0, dnext := 0, k := x.k + 1 }
  | .full b => .susp { x with k := x.k + 1 } b

/-- emit_byte (jchuff.c:324-329). -/
def emit (S : Nat → Ev) (x : Work) (v : Nat) : Ans Work :=
  if x.next < x.mem.length then
    let x := { x with mem := x.mem.set x.next v, next := x.next + 1 }
    if x.next = x.mem.length then dump S x else .ok x
  else .fault

/-! ### Inside a block: stores through `buffer` -/

/-- The bit buffer in registers, the memory `buffer` points into, and the offset. -/
structure MW where
  pb : Nat
  free : Nat
  m : List Nat
  pos : Nat

/-- EMIT_BYTE (jchuff.c:354-358), with its speculative zero. -/
def emitByteM (w : MW) (b : Nat) : Option MW :=
  if w.pos + 1 < w.m.length then
    some { w with m := (w.m.set w.pos (b % 256)).set (w.pos + 1) 0, pos := if b % 256 < 0xFF then w.pos + 1 else w.pos + 2 }
  else none

/-- EMIT_BYTE for each. -/
def emitAllM (w : MW) : List Nat → Option MW
  | [] => some w
  | b :: bs => (emitByteM w b).bind fun w => emitAllM w bs

/-- `buffer[0] = ...; buffer[1] = ...; ...; buffer += n`. -/
def storeM (w : MW) : List Nat → Option MW
  | [] => some w
  | b :: bs => if w.pos < w.m.length then storeM { w with m := w.m.set w.pos b, pos := w.pos + 1 } bs else none

/-- FLUSH (jchuff.c:366-387). -/
def flushM (w : MW) (pb : Nat) : Option MW :=
  if hasFF pb then emitAllM w [pb >>> 56, pb >>> 48, pb >>> 40, pb >>> 32, pb >>> 24, pb >>> 16, pb >>> 8, pb]
  else storeM w [(pb >>> 56) % 256, (pb >>> 48) % 256, (pb >>> 40) % 256, (pb >>> 32) % 256,
     (pb >>> 24) % 256, (pb >>> 16) % 256, (pb >>> 8) % 256, pb % 256]

/-- PUT_BITS, PUT_AND_FLUSH (jchuff.c:411-428). -/
def putBitsM (w : MW) (code size : Nat) : Option MW :=
  if size > w.free then
    (flushM w ((w.pb <<< w.free) % W64 ||| code >>> (size - w.free))).bind fun w =>
      some { w with pb := code, free := 64 - (size - w.free) }
  else some { w with pb := (w.pb <<< size) % W64 ||| code, free := w.free - size }

/-- PUT_CODE (jchuff.c:430-435). -/
def putCodeM (w : MW) (temp : Int) (nbits : Nat) (cs : Nat × Nat) : Option MW :=
  putBitsM w ((temp % 2 ^ nbits).toNat ||| cs.1 <<< nbits) (nbits + cs.2)

/-- jchuff.c:626-629. -/
def zrlM (ac : CTbl) (r : Nat) (w : MW) : Option (Nat × MW) :=
  if r ≥ 256 then (putBitsM w (ac 0xF0).1 (ac 0xF0).2).bind fun w => zrlM ac (r - 256) w else some (r, w)
termination_by r
decreasing_by omega

/-- The AC coefficients (jchuff.c:607-654). -/
def encACM (maxBits : Nat) (ac : CTbl) : List Int → Nat → MW → Ans MW
  | [], r, w => if r > 0 then match putBitsM w (ac 0).1 (ac 0).2 with | none => .fault | some w => .ok w else .ok w
  | t :: ts, r, w =>
    if t = 0 then encACM maxBits ac ts (r + 16) w
    else if nbitsOf t.natAbs > maxBits then .bad
    else match zrlM ac r w with
      | none => .fault
      | some (r, w) =>
        match putCodeM w (onesc t) (nbitsOf t.natAbs) (ac (r + nbitsOf t.natAbs)) with
        | none => .fault
        | some w => encACM maxBits ac ts 0 w

/-- encode_one_block (jchuff.c:563-661) between LOAD_BUFFER and STORE_BUFFER. -/
def encBlockM (prec : Nat) (dc ac : CTbl) (last : Int) (blk : List Int) (w : MW) : Ans MW :=
  let t := blk.getD 0 0 - last
  let nb := nbitsOf t.natAbs
  if nb > prec + 2 + 1 then .bad
  else match putCodeM w (onesc t) nb (dc nb) with
    | none => .fault
    | some w => encACM (prec + 2) ac (kloopOrder.map (fun k => blk.getD k 0)) 0 w

/-- The loop of flush_bits (jchuff.c:505-514). -/
def flushLoopM (w : MW) (n : Nat) : Option MW :=
  if n ≥ 8 then (emitByteM w (w.pb >>> (n - 8))).bind fun w => flushLoopM w (n - 8)
  else if n > 0 then emitByteM w (w.pb <<< (8 - n) ||| 0xFF >>> n)
  else some w
termination_by n

/-! ### Local buffer -/

/-- BUFSIZE (jchuff.c:447). -/
def bufSize : Nat := 512

/-- The copying loop of STORE_BUFFER (jchuff.c:459-471); `src` is what is left of the local buffer's `bytes`. -/
def copyOut (S : Nat → Ev) : Nat → Work → List Nat → Ans Work
  | 0, _, _ => .fault
  | fuel + 1, x, src =>
    if src = [] then .ok x
    else
      let n := min src.length (x.mem.length - x.next)
      let x := { x with mem := x.mem.take x.next ++ src.take n ++ x.mem.drop (x.next + n), next := x.next + n }
      (if x.next = x.mem.length then dump S x else .ok x).bind fun x => copyOut S fuel x (src.drop n)

/-- LOAD_BUFFER, a routine that stores through `buffer`, STORE_BUFFER (jchuff.c:449-476).  `junk` is the uninitialised local array.  The copying
loop ends after at most `bytes` rounds if no new buffer is empty; the fuel allows for that. -/
def withBuffer (S : Nat → Ev) (junk : List Nat) (pb free : Nat) (x : Work) (f : MW → Ans MW) : Ans (Nat × Nat × Work) :=
  if x.mem.length - x.next < bufSize then
    (f ⟨pb, free, junk, 0⟩).bind fun w => (copyOut S (w.pos + 1) x (w.m.take w.pos)).bind fun x => .ok (w.pb, w.free, x)
  else
    (f ⟨pb, free, x.mem, x.next⟩).bind fun w => .ok (w.pb, w.free, { x with mem := w.m, next := w.pos })

/-- savable_state (jchuff.c:74-86) with restarts_to_go and next_restart_num. -/
structure Sav where
  pb : Nat
  free : Nat
  last : Nat → Int
  togo : Nat
  rst : Nat

/-- flush_bits (jchuff.c:479-533). -/
def flushBitsM (S : Nat → Ev) (junk : List Nat) (pb free : Nat) (x : Work) : Ans Work :=
  (withBuffer S junk pb free x fun w => match flushLoopM w (64 - w.free) with | none => .fault | some w => .ok w).bind fun r => .ok r.2.2

/-- The block loop of encode_mcu_huff (jchuff.c:734-745). -/
def encBlocksM (S : Nat → Ev) (junk : List Nat) (prec : Nat) : List EBlk → List (List Int) → (Nat → Int) → Nat → Nat → Work →
    Ans ((Nat → Int) × Nat × Nat × Work)
  | b :: bs, blk :: blks, last, pb, free, x =>
    (withBuffer S junk pb free x (encBlockM prec b.dc b.ac (last b.ci) blk)).bind fun r =>
      encBlocksM S junk prec bs blks (upd last b.ci (blk.getD 0 0)) r.1 r.2.1 r.2.2
  | _, _, last, pb, free, x => .ok (last, pb, free, x)

/-- emit_restart (jchuff.c:668-686). -/
def emitRestartM (S : Nat → Ev) (junk : List Nat) (pb free rst : Nat) (x : Work) : Ans Work :=
  (flushBitsM S junk pb free x).bind fun x => (emit S x 0xFF).bind fun x => emit S x (0xD0 + rst)

/-- encode_mcu_huff (jchuff.c:693-763). -/
def encMcuM (S : Nat → Ev) (junk : List Nat) (prec ri : Nat) (bs : List EBlk) (s : Sav) (x : Work) (mcu : List (List Int)) : Ans (Sav × Work) :=
  let due := ri ≠ 0 ∧ s.togo = 0
  (if due then (emitRestartM S junk s.pb s.free s.rst x).bind fun x => .ok (0, 64, (fun _ => (0 : Int)), x) else
    .ok (s.pb, s.free, s.last, x) : Ans (Nat × Nat × (Nat → Int) × Work)).bind fun r =>
  (encBlocksM S junk prec bs mcu r.2.2.1 r.1 r.2.1 r.2.2.2).bind fun r =>
    let togo := if due then ri else s.togo
    let rst := if due then (s.rst + 1) &&& 7 else s.rst
    .ok ({ pb := r.2.1, free := r.2.2.1, last := r.1, togo := if ri ≠ 0 then togo - 1 else togo, rst := rst },
      { r.2.2.2 with dnext := r.2.2.2.next })

/-- The application after a suspension (libjpeg.txt): takes the bytes up to next_output_byte, supplies a new buffer. -/
def resume (x : Work) (b : List Nat) : Work := { sent := x.sent ++ x.mem.take x.dnext, mem := b, next := 0, dnext := 0, k := x.k }

/-- The MCUs of a scan, `n` attempts: an MCU at which the destination suspended is given again with the same coefficients (jccoefct.c:176-228
computes them again from the same rows), the working state is loaded from the saved one and from dest (jchuff.c:702-705). -/
def drive (S : Nat → Ev) (junk : List Nat) (prec ri : Nat) (bs : List EBlk) :
    Nat → Sav → Work → List (List (List Int)) → Ans (Sav × Work × List (List (List Int)))
  | 0, s, x, ms => .ok (s, x, ms)
  | _ + 1, s, x, [] => .ok (s, x, [])
  | n + 1, s, x, m :: ms =>
    match encMcuM S junk prec ri bs s { x with next := x.dnext } m with
    | .ok (s, x) => drive S junk prec ri bs n s x ms
    | .susp x b => drive S junk prec ri bs n s (resume x b) (m :: ms)
    | .bad => .bad
    | .fault => .fault

/-- start_pass_huff (jchuff.c:197-223). -/
def savInit (ri : Nat) : Sav := ⟨0, 64, fun _ => 0, ri, 0⟩

/-- finish_pass_huff (jchuff.c:770-793): a suspension is an error here. -/
def finishM (S : Nat → Ev) (junk : List Nat) (s : Sav) (x : Work) : Ans Work :=
  match flushBitsM S junk s.pb s.free { x with next := x.dnext } with
  | .ok x => .ok { x with dnext := x.next }
  | .susp _ _ => .bad
  | .bad => .bad
  | .fault => .fault

/-- Everything the application has received or will find in the buffer. -/
def Work.stream (x : Work) : List Nat := x.sent ++ x.mem.take x.dnext

end Verif.Out
