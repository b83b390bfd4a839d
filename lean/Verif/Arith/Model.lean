import Verif.Huff.Stream
/-
The arithmetic coder: jaricom.c, jcarith.c:122-325 (emit_byte, finish_pass, arith_encode), jdarith.c:71-205
(get_byte, arith_decode).  Masks of registers are written with `/` and `%`; registers are unbounded here, their
bounds are proved (`Verif/Arith/Props.lean`).  emit_byte outside of trellis passes; bytes go to a list.
-/
namespace Verif.Arith

/-- jaricom.c:35-36, macro V (without the index): Qe, next LPS index, next MPS index, switch MPS. -/
def V (a b c d : Nat) : Nat := a * 2 ^ 16 + c * 2 ^ 8 + d * 2 ^ 7 + b

/-- jpeg_aritab (jaricom.c:38-157). -/
def aritab : List Nat :=
  [V 0x5a1d 1 1 1, V 0x2586 14 2 0, V 0x1114 16 3 0, V 0x080b 18 4 0, V 0x03d8 20 5 0, V 0x01da 23 6 0,
   V 0x00e5 25 7 0, V 0x006f 28 8 0, V 0x0036 30 9 0, V 0x001a 33 10 0, V 0x000d 35 11 0, V 0x0006 9 12 0,
   V 0x0003 10 13 0, V 0x0001 12 13 0, V 0x5a7f 15 15 1, V 0x3f25 36 16 0, V 0x2cf2 38 17 0, V 0x207c 39 18 0,
   V 0x17b9 40 19 0, V 0x1182 42 20 0, V 0x0cef 43 21 0, V 0x09a1 45 22 0, V 0x072f 46 23 0, V 0x055c 48 24 0,
   V 0x0406 49 25 0, V 0x0303 51 26 0, V 0x0240 52 27 0, V 0x01b1 54 28 0, V 0x0144 56 29 0, V 0x00f5 57 30 0,
   V 0x00b7 59 31 0, V 0x008a 60 32 0, V 0x0068 62 33 0, V 0x004e 63 34 0, V 0x003b 32 35 0, V 0x002c 33 9 0,
   V 0x5ae1 37 37 1, V 0x484c 64 38 0, V 0x3a0d 65 39 0, V 0x2ef1 67 40 0, V 0x261f 68 41 0, V 0x1f33 69 42 0,
   V 0x19a8 70 43 0, V 0x1518 72 44 0, V 0x1177 73 45 0, V 0x0e74 74 46 0, V 0x0bfb 75 47 0, V 0x09f8 77 48 0,
   V 0x0861 78 49 0, V 0x0706 79 50 0, V 0x05cd 48 51 0, V 0x04de 50 52 0, V 0x040f 50 53 0, V 0x0363 51 54 0,
   V 0x02d4 52 55 0, V 0x025c 53 56 0, V 0x01f8 54 57 0, V 0x01a4 55 58 0, V 0x0160 56 59 0, V 0x0125 57 60 0,
   V 0x00f6 58 61 0, V 0x00cb 59 62 0, V 0x00ab 61 63 0, V 0x008f 61 32 0, V 0x5b12 65 65 1, V 0x4d04 80 66 0,
   V 0x412c 81 67 0, V 0x37d8 82 68 0, V 0x2fe8 83 69 0, V 0x293c 84 70 0, V 0x2379 86 71 0, V 0x1edf 87 72 0,
   V 0x1aa9 87 73 0, V 0x174e 72 74 0, V 0x1424 72 75 0, V 0x119c 74 76 0, V 0x0f6b 74 77 0, V 0x0d51 75 78 0,
   V 0x0bb6 77 79 0, V 0x0a40 77 48 0, V 0x5832 80 81 1, V 0x4d1c 88 82 0, V 0x438e 89 83 0, V 0x3bdd 90 84 0,
   V 0x34ee 91 85 0, V 0x2eae 92 86 0, V 0x299a 93 87 0, V 0x2516 86 71 0, V 0x5570 88 89 1, V 0x4ca9 95 90 0,
   V 0x44d9 96 91 0, V 0x3e22 97 92 0, V 0x3824 99 93 0, V 0x32b4 99 94 0, V 0x2e17 93 86 0, V 0x56a8 95 96 1,
   V 0x4f46 101 97 0, V 0x47e5 102 98 0, V 0x41cf 103 99 0, V 0x3c3d 104 100 0, V 0x375e 99 93 0, V 0x5231 105 102 0,
   V 0x4c0f 106 103 0, V 0x4639 107 104 0, V 0x415e 103 99 0, V 0x5627 105 106 1, V 0x50e7 108 107 0, V 0x4b85 109 103 0,
   V 0x5597 110 109 0, V 0x504f 111 107 0, V 0x5a10 110 111 1, V 0x5522 112 109 0, V 0x59eb 112 111 1, V 0x5a1d 113 113 0]

/-- Qe of a statistics bin's value `sv` (jcarith.c:233-236). -/
def qeOf (sv : Nat) : Nat := aritab.getD (sv % 128) 0 / 2 ^ 16

/-- The bin after a less probable symbol: `(sv & 0x80) ^ nl` (jcarith.c:250). -/
def lpsOf (sv : Nat) : Nat := (sv &&& 0x80) ^^^ (aritab.getD (sv % 128) 0 % 256)

/-- The bin after a more probable symbol: `(sv & 0x80) ^ nm` (jcarith.c:262). -/
def mpsOf (sv : Nat) : Nat := (sv &&& 0x80) ^^^ (aritab.getD (sv % 128) 0 / 2 ^ 8 % 256)

/-- The more probable symbol, `sv >> 7`. -/
def mps (sv : Nat) : Bool := sv / 128 ≠ 0

/-! ### Encoder -/

/-- Encoder registers (jcarith.c:34-48): base of the interval, its size, stacked FF bytes, pending zero bytes, shift
counter, last byte held back (-1 is `none`); and the bytes written. -/
structure Enc where
  c : Nat
  a : Nat
  sc : Nat
  zc : Nat
  ct : Nat
  buffer : Option Nat
  out : List Nat
deriving Repr, DecidableEq

/-- start_pass / emit_restart initialisation (jcarith.c:903-909, 356-362). -/
def Enc.init (out : List Nat) : Enc := ⟨0, 0x10000, 0, 0, 11, none, out⟩

/-- A byte with a zero after FF; used for `buffer + 1` (jcarith.c:281-283, 162-164). -/
def stuffed (b : Nat) : List Nat := if b = 0xFF then [0xFF, 0] else [b]

/-- The carry goes over the stacked FF bytes (jcarith.c:276-286; finish_pass 157-167). -/
def carry (e : Enc) : Enc :=
  match e.buffer with
  | some b => { e with out := e.out ++ List.replicate e.zc 0 ++ stuffed (b + 1), zc := e.sc, sc := 0 }
  | none => { e with zc := e.zc + e.sc, sc := 0 }

/-- The byte held back and the stacked FF bytes are final (jcarith.c:295-312; finish_pass 169-185). -/
def settle (e : Enc) : Enc :=
  let e := match e.buffer with
    | some 0 => { e with zc := e.zc + 1 }
    | some b => { e with out := e.out ++ List.replicate e.zc 0 ++ [b], zc := 0 }
    | none => e
  if e.sc ≠ 0 then
    { e with out := e.out ++ List.replicate e.zc 0 ++ (List.replicate e.sc [0xFF, 0]).flatten, zc := 0, sc := 0 }
  else e

/-- "Another byte is ready for output" (jcarith.c:272-317). -/
def byteOut (e : Enc) : Enc :=
  let temp := e.c / 2 ^ 19
  let e := if temp > 0xFF then { carry e with buffer := some (temp % 256) }
    else if temp = 0xFF then { e with sc := e.sc + 1 }
    else { settle e with buffer := some (temp % 256) }
  { e with c := e.c % 2 ^ 19, ct := e.ct + 8 }

/-- One turn of the renormalisation loop (jcarith.c:268-318). -/
def shiftE (e : Enc) : Enc :=
  let e := { e with a := e.a * 2, c := e.c * 2, ct := e.ct - 1 }
  if e.ct = 0 then byteOut e else e

/-- The renormalisation loop, `do .. while (a < 0x8000)` (jcarith.c:267-320); 16 turns are enough as a > 0. -/
def renormE : Nat → Enc → Enc
  | 0, e => e
  | n + 1, e => if (shiftE e).a < 0x8000 then renormE n (shiftE e) else shiftE e

/-- arith_encode (jcarith.c:222-321): decision `val` with the bin value `sv`; new state and bin value. -/
def encode1 (e : Enc) (sv : Nat) (val : Bool) : Enc × Nat :=
  let qe := qeOf sv
  let e := { e with a := e.a - qe }
  if val ≠ mps sv then
    let e := if e.a ≥ qe then { e with c := e.c + e.a, a := qe } else e
    (renormE 16 e, lpsOf sv)
  else if e.a ≥ 0x8000 then (e, sv)
  else
    let e := if e.a < qe then { e with c := e.c + e.a, a := qe } else e
    (renormE 16 e, mpsOf sv)

/-- finish_pass (jcarith.c:142-199): the bytes written in the end. -/
def finish (e : Enc) : List Nat :=
  let top := e.a - 1 + e.c
  let temp := top - top % 2 ^ 16
  let c := (if temp < e.c then temp + 0x8000 else temp) * 2 ^ e.ct
  let e := if c / 2 ^ 27 % 32 ≠ 0 then carry e else settle e
  if c / 2 ^ 11 % 2 ^ 16 ≠ 0 then
    e.out ++ List.replicate e.zc 0 ++ stuffed (c / 2 ^ 19 % 256) ++
      (if c / 2 ^ 11 % 256 ≠ 0 then stuffed (c / 2 ^ 11 % 256) else [])
  else e.out

/-- Bins and their values: the statistics areas.  Encoding a list of decisions, each with its bin. -/
def encodeAll {β : Type} [DecidableEq β] : Enc → (β → Nat) → List (β × Bool) → Enc
  | e, _, [] => e
  | e, σ, (b, x) :: ds =>
    encodeAll (encode1 e (σ b) x).1 (fun b' => if b' = b then (encode1 e (σ b) x).2 else σ b') ds

/-! ### Decoder -/

/-- Decoder registers (jdarith.c:32-40), the unread bytes of the source, unread_marker. -/
structure Dec where
  c : Nat
  a : Nat
  ct : Int
  bytes : List Nat
  marker : Nat
deriving Repr, DecidableEq

/-- start_pass / process_restart (jdarith.c:231-234, 741-744). -/
def Dec.init (bytes : List Nat) : Dec := ⟨0, 0, -16, bytes, 0⟩

/-- After an FF: more FF are swallowed; FF 00 is data, FF xx a marker (jdarith.c:134-151).  `none`: out of data (the
module does not support suspension). -/
def afterFF : List Nat → Option (Nat × List Nat × Nat)
  | [] => none
  | c :: rest => if c = 0xFF then afterFF rest else if c = 0 then some (0xFF, rest, 0) else some (0, rest, c)

/-- The next data byte (jdarith.c:129-153): byte, unread bytes, unread_marker. -/
def fetch (bytes : List Nat) (marker : Nat) : Option (Nat × List Nat × Nat) :=
  if marker ≠ 0 then some (0, bytes, marker)
  else
    match bytes with
    | [] => none
    | c :: rest => if c = 0xFF then afterFF rest else some (c, rest, 0)

/-- One turn of the loop of arith_decode (jdarith.c:126-162). -/
def shiftD (d : Dec) : Option Dec :=
  if d.ct - 1 < 0 then
    match fetch d.bytes d.marker with
    | none => none
    | some (x, bytes, marker) =>
      let d : Dec := { d with c := d.c * 2 ^ 8 + x, ct := d.ct - 1 + 8, bytes := bytes, marker := marker }
      let d : Dec := if d.ct < 0 then { d with ct := d.ct + 1, a := if d.ct + 1 = 0 then 0x8000 else d.a } else d
      some { d with a := d.a * 2 }
  else some { d with ct := d.ct - 1, a := d.a * 2 }

/-- The loop, `while (a < 0x8000)` (jdarith.c:126-162); 16 turns are enough. -/
def renormD : Nat → Dec → Option Dec
  | 0, d => some d
  | n + 1, d => if d.a < 0x8000 then (shiftD d).bind (renormD n) else some d

/-- The decision (jdarith.c:166-202): value, new state, new bin value. -/
def decide1 (d : Dec) (sv : Nat) : Bool × Dec × Nat :=
  let qe := qeOf sv
  let a := d.a - qe
  let temp := a * 2 ^ d.ct.toNat
  if d.c ≥ temp then
    if a < qe then (mps sv, { d with c := d.c - temp, a := qe }, mpsOf sv)
    else (!mps sv, { d with c := d.c - temp, a := qe }, lpsOf sv)
  else if a < 0x8000 then
    if a < qe then (!mps sv, { d with a := a }, lpsOf sv)
    else (mps sv, { d with a := a }, mpsOf sv)
  else (mps sv, { d with a := a }, sv)

/-- arith_decode (jdarith.c:113-205). -/
def decode1 (d : Dec) (sv : Nat) : Option (Bool × Dec × Nat) := (renormD 16 d).map fun d => decide1 d sv

/-- A decoding procedure: it asks for decisions, each with a bin that may depend on the decisions before. -/
inductive Rdr (β α : Type) where
  | ret (x : α)
  | ask (bin : β) (k : Bool → Rdr β α)

/-- Running a decoding procedure on the arithmetic decoder. -/
def Rdr.run {β α : Type} [DecidableEq β] : Rdr β α → Dec → (β → Nat) → Option (α × Dec × (β → Nat))
  | .ret x, d, σ => some (x, d, σ)
  | .ask b k, d, σ =>
    match decode1 d (σ b) with
    | none => none
    | some (x, d, sv) => (k x).run d (fun b' => if b' = b then sv else σ b')

/-- The procedure on a given list of decisions: its result if it asks for exactly these, with the same bins. -/
def Rdr.replay {β α : Type} [DecidableEq β] : Rdr β α → List (β × Bool) → Option α
  | .ret x, [] => some x
  | .ret _, _ :: _ => none
  | .ask _ _, [] => none
  | .ask b k, (b', x) :: ds => if b = b' then (k x).replay ds else none

end Verif.Arith
