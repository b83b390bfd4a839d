import Verif.Gif.Model
/-
Model of the GIF writer of djpeg (wrgif.c): the data of an image.

`hash_code` and `hash_value` are lists; `Err.fault` is an access outside them or a search that does not end. The packet buffer is the list of the
bytes in it (`packetbuf[1 .. bytesinpkt]`); writing to the file always succeeds.
-/
namespace Verif.Gif

/-- `gif_dest_struct` (wrgif.c:72-102) and the file written. -/
structure Enc where
  nBits : Nat
  maxcode : Nat
  initBits : Nat
  accum : Nat
  curBits : Nat
  waiting : Nat
  first : Bool
  free : Nat
  counter : Nat
  hcode : List Nat
  hval : List Nat
  pkt : List Nat
  out : List Nat

/-- `ClearCode` (wrgif.c:196). -/
def Enc.clear (e : Enc) : Nat := 2 ^ (e.initBits - 1)

/-- `flush_packet` (wrgif.c:112-123). -/
def Enc.flush (e : Enc) : Enc := if e.pkt.length > 0 then { e with out := e.out ++ e.pkt.length :: e.pkt, pkt := [] } else e

/-- `CHAR_OUT` (wrgif.c:127-131). -/
def Enc.charOut (e : Enc) (c : Nat) : Enc :=
  let e := { e with pkt := e.pkt ++ [c] }
  if e.pkt.length ≥ 255 then e.flush else e

/-- `k` rounds of the loop in `output` (wrgif.c:144-148). -/
def Enc.drain : Nat → Enc → Enc
  | 0, e => e
  | k + 1, e =>
    let f := e.charOut (e.accum % 256)
    Enc.drain k { f with accum := f.accum / 256, curBits := f.curBits - 8 }

/-- `output` (wrgif.c:136-162). -/
def Enc.output (e : Enc) (code : Nat) : Enc :=
  let f := Enc.drain ((e.curBits + e.nBits) / 8) { e with accum := e.accum ||| code <<< e.curBits, curBits := e.curBits + e.nBits }
  if f.free > f.maxcode then
    { f with nBits := f.nBits + 1, maxcode := if f.nBits + 1 = 12 then 4096 else 2 ^ (f.nBits + 1) - 1 }
  else f

/-- `clear_block` (wrgif.c:177-186), `clear_hash` (wrgif.c:168-174). -/
def Enc.clearBlock (e : Enc) : Enc :=
  let f := ({ e with hcode := List.replicate 5003 0, free := e.clear + 2 } : Enc).output e.clear
  { f with nBits := f.initBits, maxcode := 2 ^ f.initBits - 1 }

/-- `compress_init` (wrgif.c:189-209). `hval` is what memory holds. -/
def Enc.init (bits : Nat) (hval : List Nat) : Enc :=
  let clear := 2 ^ (bits - 1)
  ({ nBits := bits, maxcode := 2 ^ bits - 1, initBits := bits, accum := 0, curBits := 0, waiting := 0, first := true, free := clear + 2,
     counter := clear + 2, hcode := List.replicate 5003 0, hval := hval, pkt := [], out := [] } : Enc).output clear

/-- `compress_term` (wrgif.c:212-227). -/
def Enc.term (e : Enc) : Enc :=
  let e := if e.first then e else e.output e.waiting
  let e := e.output (e.clear + 1)
  let e := if e.curBits > 0 then e.charOut (e.accum % 256) else e
  e.flush

/-- The search in the hash table from slot `i` on (wrgif.c:387-431): the slot where it ends and whether the string is there. -/
def probe (hcode hval : List Nat) (value disp : Nat) : Nat → Nat → R (Nat × Bool)
  | 0, _ => .error .fault
  | fuel + 1, i => do
    let c ← at? hcode i
    if c = 0 then pure (i, false)
    else do
      let v ← at? hval i
      if v = value then pure (i, true)
      else probe hcode hval value disp fuel (if i < disp then i + 5003 - disp else i - disp)

/-- One pixel in `put_LZW_pixel_rows` (wrgif.c:371-432). -/
def Enc.pixel (e : Enc) (c : Nat) : R Enc :=
  if e.first then .ok { e with waiting := c, first := false }
  else do
    let i := c * 16 + e.waiting
    let i := if i ≥ 5003 then i - 5003 else i
    let value := e.waiting * 256 + c
    let (j, hit) ← probe e.hcode e.hval value (if i = 0 then 1 else 5003 - i) 5003 i
    if hit then do
      let w ← at? e.hcode j
      pure { e with waiting := w }
    else
      let f := e.output e.waiting
      if f.free < 4096 then do
        let hc ← put j f.free f.hcode
        let hv ← put j value f.hval
        pure { f with hcode := hc, hval := hv, free := f.free + 1, waiting := c }
      else pure { f.clearBlock with waiting := c }

/-- One pixel in `put_raw_pixel_rows` (wrgif.c:469-486). -/
def Enc.rawPixel (e : Enc) (c : Nat) : Enc :=
  let f := e.output c
  if f.counter < f.maxcode then { f with counter := f.counter + 1 }
  else { (f.output f.clear) with counter := f.clear + 2 }

/-- All pixels. -/
def Enc.pixels : List Nat → Enc → R Enc
  | [], e => .ok e
  | c :: l, e => do
    let e ← e.pixel c
    Enc.pixels l e

/-- The data of an image as sub-blocks, compressed, with the empty block at the end (wrgif.c:494-503). `ics` is `InitCodeSize`. -/
def lzwData (ics : Nat) (hval px : List Nat) : R (List Nat) := do
  let e ← Enc.pixels px (Enc.init (ics + 1) hval)
  pure (e.term.out ++ [0])

/-- The data of an image as sub-blocks, not compressed. -/
def rawData (ics : Nat) (px : List Nat) : List Nat := ((px.foldl Enc.rawPixel (Enc.init (ics + 1) [])).term).out ++ [0]

end Verif.Gif
