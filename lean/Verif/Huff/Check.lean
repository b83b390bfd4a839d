import Verif.Huff.Ideal
import Verif.Huff.BlockLemmas
/-
The sequential Huffman decoder again, with every array access and every shift and buffer operation of the C code
checked: a run that would index an array out of bounds, read a table entry never written, shift by a negative
amount or by the word size or more, lose bits of the bit buffer, or overflow `code` is `fault`.
Arrays have their C sizes: lookup[256], maxcode[18], valoffset[18], huffval[256] of which the first `nsym` are
symbols, jpeg_natural_order[80], and a block of 64 coefficients.
-/
namespace Verif.Huff

/-- Outcome of a checked computation. -/
inductive Res (α : Type) where
  | ok (a : α)
  | suspend
  | fault

/-- Sequencing. -/
def Res.bind {α β : Type} : Res α → (α → Res β) → Res β
  | .ok a, f => f a
  | .suspend, _ => .suspend
  | .fault, _ => .fault

/-- The outcome of the unchecked model. -/
def Res.of {α : Type} : Option α → Res α
  | some a => .ok a
  | none => .suspend

/-- Continue if `p` holds, fault otherwise. -/
def need {α : Type} (p : Prop) [Decidable p] (x : Res α) : Res α := if p then x else .fault

/-- The derived table with the number of symbols of the table it comes from. -/
structure CkTbl where
  d : DTbl
  nsym : Nat

/-- jdhuff.c:302-356: `get_buffer` is shifted left by 8 only with room for 8 more bits. -/
def ckFillLoop (inFF : Bool) (gb left : Nat) : List Nat → Res (Nat × Nat × List Nat × Nat)
  | [] => if inFF = false ∧ left ≥ minGetBits then .ok (gb, left, [], 0) else .suspend
  | c :: rest =>
    match inFF with
    | false =>
      if left ≥ minGetBits then .ok (gb, left, c :: rest, 0)
      else if c = 0xFF then ckFillLoop true gb left rest
      else need (left + 8 ≤ 64) (ckFillLoop false ((gb <<< 8) % W64 ||| c) (left + 8) rest)
    | true =>
      if c = 0xFF then ckFillLoop true gb left rest
      else if c = 0 then need (left + 8 ≤ 64) (ckFillLoop false ((gb <<< 8) % W64 ||| 0xFF) (left + 8) rest)
      else .ok (gb, left, rest, c)

/-- jdhuff.c:357-382: the shift count `MIN_GET_BITS - bits_left` is between 0 and 63. -/
def ckNoMore (r : Rd) (nbits : Nat) : Res Rd :=
  if nbits > r.left then need (r.left ≤ minGetBits) (.ok (noMore r nbits)) else .ok r

/-- jdhuff.c:286-389. -/
def ckFill (r : Rd) (nbits : Nat) : Res Rd :=
  if r.marker = 0 then
    (ckFillLoop false r.gb r.left r.bytes).bind fun x =>
      let r' := { r with gb := x.1, left := x.2.1, bytes := x.2.2.1, marker := x.2.2.2 }
      if x.2.2.2 = 0 then .ok r' else ckNoMore r' nbits
  else ckNoMore r nbits

/-- jdhuff.h:160-175: GET_BITS(n) needs `n ≤ bits_left` and a shift count below 64. -/
def ckReadBits (r : Rd) (n : Nat) : Res (Nat × Rd) :=
  (if r.left < n then ckFill r n else .ok r).bind fun r =>
    need (n ≤ r.left ∧ r.left - n < 64 ∧ n < 32) (.ok (peekBits r n, dropBits r n))

/-- jdhuff.c:455-463 with `maxcode[18]` (index 0 is unused); `fuel` bounds the number of turns: running out of it
is a fault. `code` is an `int` that must not overflow. -/
def ckSlow (t : CkTbl) : (fuel : Nat) → Rd → (code l : Nat) → Res (Nat × Nat × Rd)
  | 0, _, _, _ => .fault
  | fuel + 1, r, code, l =>
    need (1 ≤ l ∧ l < 18) <|
      if (code : Int) > t.d.maxcode.getD (l - 1) 0 then
        (ckReadBits r 1).bind fun x =>
          need (2 * code + 1 < 2 ^ 31) (ckSlow t fuel x.2 ((code <<< 1) ||| x.1) (l + 1))
      else .ok (code, l, r)

/-- jdhuff.c:435-472. -/
def ckHuffSlow (t : CkTbl) (r : Rd) (minBits : Nat) : Res (Nat × Rd) :=
  (ckReadBits r minBits).bind fun x =>
    (ckSlow t 18 x.2 x.1 minBits).bind fun y =>
      if y.2.1 > 16 then .ok (0, { y.2.2 with warns := y.2.2.warns + 1 })
      else
        let i := (y.1 : Int) + t.d.valoffset.getD (y.2.1 - 1) 0
        need (0 ≤ i ∧ i < t.nsym ∧ i < 256) (.ok (t.d.vals.getD i.toNat 0, y.2.2))

/-- jdhuff.h:200-221. -/
def ckHuff (t : CkTbl) (r : Rd) : Res (Nat × Rd) :=
  (if r.left < 8 then ckFill r 0 else .ok r).bind fun r =>
    if r.left < 8 then ckHuffSlow t r 1
    else
      need (r.left - 8 < 64 ∧ peekBits r 8 < 256) <|
        let e := t.d.lookup.getD (peekBits r 8) 0
        if e >>> 8 ≤ 8 then need (e >>> 8 ≤ r.left) (.ok (e &&& 255, dropBits r (e >>> 8)))
        else ckHuffSlow t r (e >>> 8)

/-- jdhuff.c:602-660: `jpeg_natural_order[k]` with k < 80, and a coefficient index below 64; the value stored fits
in a `JCOEF`. -/
def ckAC (t : CkTbl) (nd : Bool) (k : Nat) (blk : List Int) (r : Rd) : Res (List Int × Rd) :=
  if k < 64 then
    (ckHuff t r).bind fun y =>
      let run := y.1 >>> 4
      let s := y.1 &&& 15
      if s ≠ 0 then
        (ckReadBits y.2 s).bind fun x =>
          need (k + run < natOrder.length ∧ natOrder.getD (k + run) 0 < blk.length ∧
              -32768 ≤ huffExtend x.1 s ∧ huffExtend x.1 s ≤ 32767) <|
            ckAC t nd (k + run + 1)
              (if nd then blk.set (natOrder.getD (k + run) 0) (huffExtend x.1 s) else blk) x.2
      else if run ≠ 15 then .ok (blk, y.2)
      else ckAC t nd (k + 15 + 1) blk y.2
  else .ok (blk, r)
termination_by 64 - k

/-- Tables of one block, as in `DBlk`, with their symbol counts. -/
structure CkBlk where
  ci : Nat
  dc : CkTbl
  ac : CkTbl
  dcNeeded : Bool := true
  acNeeded : Bool := true

/-- jdhuff.c:561-662. -/
def ckBlock (b : CkBlk) (last : Nat → Int) (r : Rd) : Res (List Int × (Nat → Int) × Rd) :=
  (ckHuff b.dc r).bind fun y =>
    (if y.1 ≠ 0 then (ckReadBits y.2 y.1).bind (fun x => Res.ok (huffExtend x.1 y.1, x.2)) else .ok (0, y.2)).bind
      fun x =>
        let v := x.1 + last b.ci
        (ckAC b.ac b.acNeeded 1 (if b.dcNeeded then (List.replicate 64 (0 : Int)).set 0 (toCoef v)
            else List.replicate 64 (0 : Int)) x.2).bind fun z =>
          .ok (z.1, if b.dcNeeded then upd last b.ci v else last, z.2)

/-- All blocks of an MCU. -/
def ckBlocks : List CkBlk → (Nat → Int) → Rd → Res (List (List Int) × (Nat → Int) × Rd)
  | [], last, r => .ok ([], last, r)
  | b :: bs, last, r =>
    (ckBlock b last r).bind fun x =>
      (ckBlocks bs x.2.1 x.2.2).bind fun y => .ok (x.1 :: y.1, y.2.1, y.2.2)

/-- Forgetting the symbol counts. -/
def CkBlk.plain (b : CkBlk) : DBlk := ⟨b.ci, b.dc.d, b.ac.d, b.dcNeeded, b.acNeeded⟩

/-- The table is what `jpeg_make_d_derived_tbl` builds from a HuffTbl of byte symbols; `m` bounds the symbols. -/
structure CkTbl.Ok (t : CkTbl) (m : Nat) : Prop where
  facts : ∃ sizes codes vals, IsBytes vals ∧ DFacts sizes codes vals t.d ∧ t.nsym = sizes.length ∧
    sizes.length ≤ 256 ∧ ∀ q < sizes.length, vals.getD q 0 ≤ m
  tok : TOk t.d m

theorem ckFillLoop_eq {ff : Bool} {gb left : Nat} {bytes : List Nat} (hl : ff = true → left < minGetBits) :
    ckFillLoop ff gb left bytes = Res.of (fillLoop ff gb left bytes) := by
  induction bytes generalizing ff gb left with
  | nil => simp only [ckFillLoop, fillLoop]; split <;> rfl
  | cons c rest ih =>
    cases ff with
    | false =>
      simp only [ckFillLoop, fillLoop]
      split
      · rfl
      · rename_i h
        split
        · exact ih (fun _ => by omega)
        · simp only [minGetBits] at h
          rw [need, if_pos (show left + 8 ≤ 64 by omega)]
          exact ih (by simp)
    | true =>
      have := hl rfl
      simp only [minGetBits] at this
      simp only [ckFillLoop, fillLoop]
      split
      · exact ih hl
      · split
        · rw [need, if_pos (show left + 8 ≤ 64 by omega)]
          exact ih (by simp)
        · rfl

theorem ckNoMore_eq {r : Rd} {n : Nat} (hn : n ≤ 57) : ckNoMore r n = .ok (noMore r n) := by
  unfold ckNoMore
  split
  · rw [need, if_pos (by simp only [minGetBits]; omega)]
  · rename_i h; rw [noMore, if_neg h]

theorem ckFill_eq {r : Rd} {n : Nat} (hn : n ≤ 57) : ckFill r n = Res.of (fill r n) := by
  unfold ckFill fill
  split
  · rw [ckFillLoop_eq (by simp)]
    cases fillLoop false r.gb r.left r.bytes with
    | none => rfl
    | some x =>
      obtain ⟨a, b, c, m⟩ := x
      simp only [Res.of, Res.bind]
      split
      · rfl
      · rw [ckNoMore_eq hn]
  · rw [ckNoMore_eq hn]; rfl

theorem ckReadBits_eq {r : Rd} {n : Nat} (hr : r.Ok) (h1 : 1 ≤ n) (hn : n < 32) :
    ckReadBits r n = Res.of (readBits r n) := by
  unfold ckReadBits readBits checkBits
  split
  · rw [ckFill_eq (by omega)]
    cases hf : fill r n with
    | none => rfl
    | some r1 =>
      obtain ⟨a1, -, a3, -⟩ := fill_abs hr (by omega) hf
      have := a1.left64
      simp only [Res.of, Res.bind]
      rw [need, if_pos (by omega)]
  · have := hr.left64
    simp only [Res.of, Res.bind]
    rw [need, if_pos (by omega)]

variable {t : CkTbl}

theorem ckSlow_eq {sizes codes vals : List Nat} (F : DFacts sizes codes vals t.d) (fuel : Nat) {r : Rd}
    (hr : r.Ok) {code l : Nat} (h1 : 1 ≤ l) (hl : l ≤ 17) (hc : code < 2 ^ l) (hfuel : 18 - l ≤ fuel) :
    ckSlow t fuel r code l = Res.of (slowLoop t.d (17 - l) r code l) := by
  induction fuel generalizing r code l with
  | zero => omega
  | succ fuel ih =>
    simp only [ckSlow]
    rw [need, if_pos (show 1 ≤ l ∧ l < 18 by omega)]
    rcases Nat.lt_or_ge l 17 with h | h
    · rw [show 17 - l = (17 - (l + 1)) + 1 by omega]
      simp only [slowLoop]
      split
      · rw [ckReadBits_eq hr (by omega) (by omega)]
        cases hb : readBits r 1 with
        | none => rfl
        | some x =>
          obtain ⟨b, r1⟩ := x
          obtain ⟨a1, -, a3⟩ := readBits_abs hr (by omega) hb
          have hbit : b < 2 := by have := lread_lt r.abs 1; rw [a3] at this; exact this
          have hp : 2 ^ l ≤ 2 ^ 16 := Nat.pow_le_pow_right (by omega) (by omega)
          simp only [Res.of, Res.bind]
          rw [need, if_pos (show 2 * code + 1 < 2 ^ 31 by omega)]
          refine ih a1 (by omega) (by omega) ?_ (by omega)
          rw [shl_or_eq (show b < 2 ^ 1 by omega), Nat.pow_succ]; omega
      · rfl
    · have e : l = 17 := by omega
      subst e
      have := F.sentinel
      rw [if_neg (by rw [show 17 - 1 = 16 by rfl, this]; omega)]
      rfl

theorem ckHuffSlow_eq {m : Nat} (ht : t.Ok m) {r : Rd} (hr : r.Ok) {l : Nat} (h1 : 1 ≤ l) (hl : l ≤ 17)
    (ha : ∀ sizes codes vals, DFacts sizes codes vals t.d → Above sizes codes l (lread r.abs l).1) :
    ckHuffSlow t r l = Res.of (huffSlow t.d r l) := by
  obtain ⟨sizes, codes, vals, hb, F, hn, h256, hm⟩ := ht.facts
  unfold ckHuffSlow huffSlow
  rw [ckReadBits_eq hr h1 (by omega)]
  cases hrb : readBits r l with
  | none => rfl
  | some x =>
    obtain ⟨c, r1⟩ := x
    obtain ⟨a1, -, a3⟩ := readBits_abs hr (by omega) hrb
    have hc : c < 2 ^ l := by have := lread_lt r.abs l; rw [a3] at this; exact this
    simp only [Res.of, Res.bind]
    rw [ckSlow_eq F 18 a1 h1 hl hc (by omega)]
    cases hs : slowLoop t.d (17 - l) r1 c l with
    | none => rfl
    | some y =>
      obtain ⟨c', l', r2⟩ := y
      simp only [Res.of]
      split
      · rfl
      · rename_i h16
        obtain ⟨-, -, b3⟩ := slowLoop_abs a1 hs
        have ha' := ha _ _ _ F
        rw [a3] at ha'
        obtain ⟨-, -, e3⟩ := lslow_stop F (17 - l) r1.abs h1 (by omega) ha'
        rw [b3] at e3
        obtain ⟨q, q1, -, -, q4⟩ := e3 (by dsimp only; omega)
        dsimp only at q4
        rw [need, if_pos (by rw [q4, hn]; omega)]

theorem ckHuff_eq {m : Nat} (ht : t.Ok m) {r : Rd} (hr : r.Ok) : ckHuff t r = Res.of (huffDecode t.d r) := by
  obtain ⟨sizes, codes, vals, hb, F, hn, h256, hm⟩ := ht.facts
  unfold ckHuff huffDecode
  have key : ∀ r1 : Rd, r1.Ok →
      (if r1.left < 8 then ckHuffSlow t r1 1
       else need (r1.left - 8 < 64 ∧ peekBits r1 8 < 256) <|
        let e := t.d.lookup.getD (peekBits r1 8) 0
        if e >>> 8 ≤ 8 then need (e >>> 8 ≤ r1.left) (.ok (e &&& 255, dropBits r1 (e >>> 8)))
        else ckHuffSlow t r1 (e >>> 8)) =
      Res.of (if r1.left < 8 then huffSlow t.d r1 1
       else
        let e := t.d.lookup.getD (peekBits r1 8) 0
        if e >>> 8 ≤ 8 then some (e &&& 255, dropBits r1 (e >>> 8))
        else huffSlow t.d r1 (e >>> 8)) := by
    intro r1 h1
    split
    · exact ckHuffSlow_eq ht h1 (by omega) (by omega) (fun _ _ _ F => above_one F _)
    · rename_i h8
      have hv : peekBits r1 8 < 256 := by
        rw [(peekBits_eq (show 8 ≤ r1.left by omega) (by omega)).2]
        have := take_bits_lt (r := r1) (n := 8); omega
      have := h1.left64
      rw [need, if_pos (by omega)]
      dsimp only
      split
      · rw [need, if_pos (by omega)]; rfl
      · rename_i h9
        have hp := (peekBits_eq (show 8 ≤ r1.left by omega) (by omega)).2
        have hlen : 8 ≤ r1.abs.bits.length := by simp [Rd.abs, Rd.bits]; omega
        have h9' := ht.tok.ok.look _ hv
        refine ckHuffSlow_eq ht h1 (by omega) (by omega) (fun _ _ _ F' => ?_)
        rw [show t.d.lookup.getD (peekBits r1 8) 0 >>> 8 = 9 by omega]
        refine above_nine F' hlen (fun p hp' hp8 hcon => ?_)
        have hv' : vals = t.d.vals := F.vals_eq.symm
        rename_i sizes' codes' vals'
        have hv2 : IsBytes vals' := by rw [← F'.vals_eq, F.vals_eq]; exact hb
        have := F'.look_hit _ p hv hp' hp8 (by rw [hp]; exact hcon)
        rw [this, (or_hi_lo (isBytes_getD hv2 p)).1] at h9
        omega
  split
  · rw [ckFill_eq (by omega)]
    cases hf : fill r 0 with
    | none => rfl
    | some r1 =>
      obtain ⟨a1, -, -⟩ := fill_abs hr (by omega) hf
      exact key r1 a1
  · exact key r hr

theorem huffExtend_range {x s : Nat} (hs : 1 ≤ s) (h15 : s ≤ 15) (hx : x < 2 ^ s) :
    -32768 ≤ huffExtend x s ∧ huffExtend x s ≤ 32767 := by
  rw [huffExtend_eq hs (by omega) hx]
  have h2 : 2 ^ s ≤ 2 ^ 15 := Nat.pow_le_pow_right (by omega) h15
  have h3 : ((2 : Int) ^ s) = ((2 ^ s : Nat) : Int) := by simp
  rw [h3]
  split <;> omega

theorem ckAC_eq {nd : Bool} (ht : t.Ok 255) (k : Nat) {blk : List Int} (hlen : blk.length = 64) {r : Rd} (hr : r.Ok) :
    ckAC t nd k blk r = Res.of (decAC t.d nd k blk r) := by
  have hd : DOk t.d 255 := ht.tok.ok
  fun_induction decAC t.d nd k blk r with
  | case1 k blk r hk hn => rw [ckAC, if_pos hk, ckHuff_eq ht hr, hn]; rfl
  | case2 k blk r hk sym r1 hs s hs0 hx =>
    obtain ⟨a1, a2, a3⟩ := huffDecode_abs hd.look hr hs
    have h15 : sym &&& 15 ≤ 15 := Nat.and_le_right
    rw [ckAC, if_pos hk, ckHuff_eq ht hr, hs]
    simp only [Res.of, Res.bind]
    rw [if_pos hs0, ckReadBits_eq a1 (by omega) (by omega), hx]
    rfl
  | case3 k blk r hk sym r1 hs run s hs0 x r2 hx ih =>
    obtain ⟨a1, a2, a3⟩ := huffDecode_abs hd.look hr hs
    have h15 : sym &&& 15 ≤ 15 := Nat.and_le_right
    obtain ⟨b1, b2, b3⟩ := readBits_abs a1 (by omega) hx
    have hsym : sym ≤ 255 := by have := hd.sym r.abs; rw [a3] at this; exact this
    have hrun : sym >>> 4 ≤ 15 := by rw [Nat.shiftRight_eq_div_pow]; omega
    have hxl : x < 2 ^ (sym &&& 15) := by
      have := lread_lt r1.abs (sym &&& 15); rw [b3] at this; exact this
    have hr := huffExtend_range (by omega) h15 hxl
    have hnat : natOrder.getD (k + sym >>> 4) 0 < 64 := by
      have : ∀ i : Nat, i < 79 → natOrder.getD i 0 < 64 := by decide +kernel
      exact this _ (by omega)
    rw [ckAC, if_pos hk, ckHuff_eq ht (by assumption), hs]
    simp only [Res.of, Res.bind]
    rw [if_pos hs0, ckReadBits_eq a1 (by omega) (by omega), hx]
    simp only [Res.of]
    rw [need, if_pos ⟨by rw [show natOrder.length = 80 by decide]; omega, by rw [hlen]; exact hnat, hr⟩]
    have hco : toCoef (huffExtend x (sym &&& 15)) = huffExtend x (sym &&& 15) := by
      simp only [toCoef]; omega
    have ih' := ih (by split <;> simp [hlen]) b1
    simp only [run, s, hco, dite_eq_ite] at ih' ⊢
    exact ih'
  | case4 k blk r hk sym r1 hs run s hs0 hrun =>
    rw [ckAC, if_pos hk, ckHuff_eq ht hr, hs]
    simp only [Res.of, Res.bind]
    rw [if_neg hs0, if_pos hrun]
  | case5 k blk r hk sym r1 hs run s hs0 hrun ih =>
    obtain ⟨a1, a2, a3⟩ := huffDecode_abs hd.look hr hs
    rw [ckAC, if_pos hk, ckHuff_eq ht hr, hs]
    simp only [Res.of, Res.bind]
    rw [if_neg hs0, if_neg hrun]
    exact ih hlen a1
  | case6 k blk r hk => rw [ckAC, if_neg hk]; rfl

/-- The tables of a block of the scan. -/
structure CkBlk.Ok (b : CkBlk) : Prop where
  dc : b.dc.Ok 15
  ac : b.ac.Ok 255

theorem CkBlk.Ok.plain {b : CkBlk} (h : b.Ok) : b.plain.TOk := ⟨h.dc.tok, h.ac.tok⟩

theorem ckBlock_eq {b : CkBlk} (hb : b.Ok) {last : Nat → Int} {r : Rd} (hr : r.Ok) :
    ckBlock b last r = Res.of (decBlock b.plain last r) := by
  unfold ckBlock decBlock
  rw [ckHuff_eq hb.dc hr]
  show _ = Res.of (match huffDecode b.dc.d r with | none => none | some (s, r) => _)
  cases hs : huffDecode b.dc.d r with
  | none => rfl
  | some y =>
    obtain ⟨s, r1⟩ := y
    obtain ⟨a1, a2, a3⟩ := huffDecode_abs hb.dc.tok.ok.look hr hs
    have hs15 : s ≤ 15 := by have := hb.dc.tok.ok.sym r.abs; rw [a3] at this; exact this
    simp only [Res.of, Res.bind]
    have fin : ∀ (x : Int × Rd), x.2.Ok →
        ((ckAC b.ac b.acNeeded 1 (if b.dcNeeded then (List.replicate 64 (0 : Int)).set 0 (toCoef (x.1 + last b.ci))
            else List.replicate 64 (0 : Int)) x.2).bind fun z =>
          .ok (z.1, if b.dcNeeded then upd last b.ci (x.1 + last b.ci) else last, z.2)) =
        Res.of (match decAC b.ac.d b.acNeeded 1 (if b.dcNeeded then (List.replicate 64 (0 : Int)).set 0
            (toCoef (x.1 + last b.ci)) else List.replicate 64 (0 : Int)) x.2 with
          | none => none
          | some (blk, r) => some (blk, if b.dcNeeded then upd last b.ci (x.1 + last b.ci) else last, r)) := by
      intro x hx
      rw [ckAC_eq hb.ac 1 (by split <;> simp) hx]
      cases decAC b.ac.d b.acNeeded 1 (if b.dcNeeded then (List.replicate 64 (0 : Int)).set 0
            (toCoef (x.1 + last b.ci)) else List.replicate 64 (0 : Int)) x.2 with
      | none => rfl
      | some z => rfl
    by_cases h0 : s ≠ 0
    · rw [if_pos h0, if_pos h0, ckReadBits_eq a1 (by omega) (by omega)]
      cases hx : readBits r1 s with
      | none => rfl
      | some z =>
        obtain ⟨x, r2⟩ := z
        obtain ⟨b1, -, -⟩ := readBits_abs a1 (by omega) hx
        simp only [Res.of, Res.bind, Option.map_some]
        exact fin (huffExtend x s, r2) b1
    · rw [if_neg h0, if_neg h0]
      exact fin (0, r1) a1

theorem ckBlocks_eq {bs : List CkBlk} (hb : ∀ b ∈ bs, b.Ok) {last : Nat → Int} {r : Rd} (hr : r.Ok) :
    ckBlocks bs last r = Res.of (decBlocks (bs.map CkBlk.plain) last r) := by
  induction bs generalizing last r with
  | nil => rfl
  | cons b bs ih =>
    simp only [ckBlocks, List.map_cons, decBlocks]
    rw [ckBlock_eq (hb b (by simp)) hr]
    cases h1 : decBlock b.plain last r with
    | none => rfl
    | some y =>
      obtain ⟨blk, last1, r1⟩ := y
      obtain ⟨a1, -, -⟩ := decBlock_abs (hb b (by simp)).plain.toOk hr h1
      simp only [Res.of, Res.bind]
      rw [ih (fun b hb' => hb b (by simp [hb'])) a1]
      cases decBlocks (bs.map CkBlk.plain) last1 r1 with
      | none => rfl
      | some z => rfl

end Verif.Huff
