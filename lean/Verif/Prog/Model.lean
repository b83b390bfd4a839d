import Verif.Prog.Frame
/-
Model of the progressive Huffman MCU coders: jcphuff.c:410-1060 and jdphuff.c:197-640 (portable C, 64-bit size_t).
The AC "prepare" routines build bit masks over the band (bit k set iff the point-transformed coefficient is nonzero)
and the main loops skip zeros with count_zeroes; the model walks the list of band values instead, with the same
order of tests and calls.
-/
namespace Verif.Prog
open Verif Verif.Huff

/-! ### encoder -/

/-- A block position of an interleaved DC MCU: `MCU_membership` and the component's `dc_tbl_no`. -/
structure DCB where
  ci : Nat
  dcNo : Nat
deriving Repr, DecidableEq

/-- An `int` passed as `unsigned int code`. -/
def asCode (x : Int) : Nat := (x % 2 ^ 32).toNat

/-- Block loop of encode_mcu_DC_first (jcphuff.c:494-541); `none` = ERREXIT(JERR_BAD_DCT_COEF). -/
def dcFirstBlks (prec Al : Nat) : List DCB → List (List Int) → (Nat → Int) → Option (List Tok × (Nat → Int))
  | b :: bs, blk :: blks, last =>
    let t2 := (blk.getD 0 0 : Int) >>> Al
    let t := t2 - last b.ci
    let nb := nbitsOf t.natAbs
    if nb > prec + 2 + 1 then none
    else
      match dcFirstBlks prec Al bs blks (upd last b.ci t2) with
      | none => none
      | some (ts, last) =>
        some (Tok.sym b.dcNo nb :: ((if nb ≠ 0 then [Tok.bits (asCode (onesc t)) nb] else []) ++ ts), last)
  | _, _, last => some ([], last)

/-- encode_mcu_DC_first (jcphuff.c:471-556). -/
def encDCFirst (prec Al : Nat) (bs : List DCB) : PEnc (Nat → Int) (List (List Int)) :=
  { init := fun _ => 0
    step := fun last mcu => dcFirstBlks prec Al bs mcu last
    fin := fun _ => some [] }

/-- encode_mcu_DC_refine (jcphuff.c:734-780): one bit per block. -/
def encDCRefine (Al : Nat) : PEnc Unit (List (List Int)) :=
  { init := ()
    step := fun _ mcu => some (mcu.map (fun blk => Tok.bits (asCode ((blk.getD 0 0 : Int) >>> Al)) 1), ())
    fin := fun _ => some [] }

/-- AC coding status (jcphuff.c:83-86): EOBRUN and the first BE entries of bit_buffer. -/
structure ACSt where
  eobrun : Nat
  be : List Nat
deriving Repr, DecidableEq

/-- emit_buffered_bits (jcphuff.c:393-407). -/
def bufToks (l : List Nat) : List Tok := l.map (fun b => Tok.bits b 1)

/-- emit_eobrun (jcphuff.c:414-437); `none` = ERREXIT(JERR_HUFF_MISSING_CODE). -/
def emitEob (tbl : Nat) (s : ACSt) : Option (List Tok × ACSt) :=
  if s.eobrun > 0 then
    let nb := nbitsOf s.eobrun - 1
    if nb > 14 then none
    else some (Tok.sym tbl (nb <<< 4) :: ((if nb ≠ 0 then [Tok.bits s.eobrun nb] else []) ++ bufToks s.be),
      { eobrun := 0, be := [] })
  else some ([], s)

/-- The band of a block in scan order: block[jpeg_natural_order[Ss + k]], k < Sl. -/
def band (Ss Se : Nat) (blk : List Int) : List Int :=
  (List.range (Se + 1 - Ss)).map (fun k => blk.getD (natOrder.getD (Ss + k) 0) 0)

/-- COMPUTE_ABSVALUES_AC_FIRST (jcphuff.c:563-588): `values[k]` and `values[k + DCTSIZE2]` as 16-bit UJCOEF; (0, 0)
stands for a clear bit in `zerobits`. -/
def prepFirst (Al : Nat) (v : Int) : Nat × Nat :=
  let t := v.natAbs >>> Al
  if t = 0 then (0, 0) else (t % 65536, if v < 0 then (65535 - t % 65536) else t % 65536)

/-- `while (r > 15)` emit ZRL (jcphuff.c:636-639). -/
def zrlToks (tbl r : Nat) : List Tok × Nat :=
  if r > 15 then
    let x := zrlToks tbl (r - 16)
    (Tok.sym tbl 0xF0 :: x.1, x.2)
  else ([], r)
termination_by r
decreasing_by omega

/-- ENCODE_COEFS_AC_FIRST (jcphuff.c:627-659): the calls made and the number of trailing zeros.
`none` = ERREXIT(JERR_BAD_DCT_COEF). -/
def acFirstGo (maxBits tbl : Nat) : List (Nat × Nat) → Nat → Option (List Tok × Nat)
  | [], r => some ([], r)
  | (t, t2) :: vs, r =>
    if t = 0 then acFirstGo maxBits tbl vs (r + 1)
    else
      let z := zrlToks tbl r
      let nb := nbitsOf t
      if nb > maxBits then none
      else
        match acFirstGo maxBits tbl vs 0 with
        | none => none
        | some (ts, tr) => some (z.1 ++ [Tok.sym tbl ((z.2 <<< 4) + nb), Tok.bits t2 nb] ++ ts, tr)

/-- encode_mcu_AC_first (jcphuff.c:661-727) without the restart part. -/
def acFirstStep (prec tbl Ss Se Al : Nat) (s : ACSt) (mcu : List (List Int)) : Option (List Tok × ACSt) :=
  let vs := (band Ss Se (mcu.getD 0 [])).map (prepFirst Al)
  match (if vs.any (fun v => v.1 != 0) && s.eobrun > 0 then emitEob tbl s else some ([], s)) with
  | none => none
  | some (t0, s) =>
    match acFirstGo (prec + 2) tbl vs 0 with
    | none => none
    | some (t1, tr) =>
      if tr > 0 then
        let s := { s with eobrun := s.eobrun + 1 }
        match (if s.eobrun = 0x7FFF then emitEob tbl s else some ([], s)) with
        | none => none
        | some (t2, s) => some (t0 ++ t1 ++ t2, s)
      else some (t0 ++ t1, s)

def encACFirst (prec tbl Ss Se Al : Nat) : PEnc ACSt (List (List Int)) :=
  { init := ⟨0, []⟩
    step := acFirstStep prec tbl Ss Se Al
    fin := fun s => (emitEob tbl s).map Prod.fst }

/-- COMPUTE_ABSVALUES_AC_REFINE (jcphuff.c:788-809): absolute value and sign bit (1 = not negative). -/
def prepRefine (Al : Nat) (v : Int) : Nat × Nat := ((v.natAbs >>> Al) % 65536, if v < 0 then 0 else 1)

/-- `EOB = index of last newly-nonzero coef`, 0 if there is none (jcphuff.c:806-807, 818). -/
def eobIdx : List (Nat × Nat) → (k eob : Nat) → Nat
  | [], _, eob => eob
  | (a, _) :: vs, k, eob => eobIdx vs (k + 1) (if a = 1 then k else eob)

/-- The ZRL loop of ENCODE_COEFS_AC_REFINE (jcphuff.c:866-877); `le` is `cabsvalue <= EOBPTR`. -/
def zrlRefine (tbl : Nat) (le : Bool) (r : Nat) (s : ACSt) (br : List Nat) :
    Option (List Tok × Nat × ACSt × List Nat) :=
  if r > 15 ∧ le = true then
    match emitEob tbl s with
    | none => none
    | some (t0, s) =>
      match zrlRefine tbl le (r - 16) s [] with
      | none => none
      | some (t1, x) => some (t0 ++ [Tok.sym tbl 0xF0] ++ bufToks br ++ t1, x)
  else some ([], r, s, br)
termination_by r
decreasing_by omega

/-- ENCODE_COEFS_AC_REFINE (jcphuff.c:857-915).  `br` = the BR bits appended after the BE ones; a store beyond the
MAX_CORR_BITS = 1000 entries of bit_buffer is `none`. -/
def refineGo (tbl eob : Nat) : List (Nat × Nat) → (k r : Nat) → ACSt → List Nat →
    Option (List Tok × Nat × ACSt × List Nat)
  | [], _, r, s, br => some ([], r, s, br)
  | (a, sg) :: vs, k, r, s, br =>
    if a = 0 then refineGo tbl eob vs (k + 1) (r + 1) s br
    else
      match zrlRefine tbl (decide (k ≤ eob)) r s br with
      | none => none
      | some (t0, r, s, br) =>
        if a > 1 then
          if s.be.length + br.length ≥ 1000 then none
          else
            match refineGo tbl eob vs (k + 1) r s (br ++ [a &&& 1]) with
            | none => none
            | some (ts, x) => some (t0 ++ ts, x)
        else
          match emitEob tbl s with
          | none => none
          | some (t1, s) =>
            match refineGo tbl eob vs (k + 1) 0 s [] with
            | none => none
            | some (ts, x) =>
              some (t0 ++ t1 ++ [Tok.sym tbl ((r <<< 4) + 1), Tok.bits sg 1] ++ bufToks br ++ ts, x)

/-- encode_mcu_AC_refine (jcphuff.c:917-1012) without the restart part.  The C code ORs the trailing zero count into
`r` and only tests `r > 0`; the model's `r` is the sum. -/
def acRefineStep (tbl Ss Se Al : Nat) (s : ACSt) (mcu : List (List Int)) : Option (List Tok × ACSt) :=
  let vs := (band Ss Se (mcu.getD 0 [])).map (prepRefine Al)
  match refineGo tbl (eobIdx vs 0 0) vs 0 0 s [] with
  | none => none
  | some (t0, r, s, br) =>
    if r > 0 ∨ br.length > 0 then
      let s : ACSt := { eobrun := s.eobrun + 1, be := s.be ++ br }
      match (if s.eobrun = 0x7FFF ∨ s.be.length > 1000 - 64 + 1 then emitEob tbl s else some ([], s)) with
      | none => none
      | some (t1, s) => some (t0 ++ t1, s)
    else some (t0, s)

def encACRefine (tbl Ss Se Al : Nat) : PEnc ACSt (List (List Int)) :=
  { init := ⟨0, []⟩
    step := acRefineStep tbl Ss Se Al
    fin := fun s => (emitEob tbl s).map Prod.fst }

/-! ### decoder -/

/-- HUFF_EXTEND of jdphuff.c:205-207: unsigned 32-bit arithmetic, result stored in an int. -/
def extend2 (x s : Nat) : Int :=
  if x < 2 ^ (s - 1) then
    let u : Nat := (x + (((2 ^ 32 - 1) * 2 ^ s) % 2 ^ 32 + 1)) % 2 ^ 32
    if u < 2 ^ 31 then (u : Int) else (u : Int) - 2 ^ 32
  else x

/-- A block position with its decoding table (jdphuff.c:331-334). -/
structure DCD where
  ci : Nat
  dc : DTbl

/-- Block loop of decode_mcu_DC_first (jdphuff.c:328-357). `none` = suspension, or the overflow error exit. -/
def dcFirstDec (Al : Nat) : List DCD → List (List Int) → (Nat → Int) → Rd →
    Option (List (List Int) × (Nat → Int) × Rd)
  | b :: bs, blk :: blks, last, r =>
    match huffDecode b.dc r with
    | none => none
    | some (s, r) =>
      match (if s ≠ 0 then (readBits r s).map (fun xr => (extend2 xr.1 s, xr.2)) else some (0, r)) with
      | none => none
      | some (s, r) =>
        let l := last b.ci
        if (l ≥ 0 ∧ s > 2147483647 - l) ∨ (l < 0 ∧ s < -2147483648 - l) then none
        else
          let s := s + l
          match dcFirstDec Al bs blks (upd last b.ci s) r with
          | none => none
          | some (out, x) => some (blk.set 0 (toCoef (s * 2 ^ Al)) :: out, x)
  | _, blks, last, r => some (blks, last, r)

/-- decode_mcu_DC_first (jdphuff.c:297-367). -/
def decDCFirst (Al : Nat) (bs : List DCD) : PDec (Nat → Int) (List (List Int)) (List (List Int)) :=
  { init := fun _ => 0
    step := fun last mcu r => dcFirstDec Al bs mcu last r
    skip := some id }

/-- Setting bit `Al` of a 16-bit coefficient: `(*block)[0] |= p1`. -/
def orBit (Al : Nat) (v : Int) : Int := toCoef (((v % 65536).toNat ||| 2 ^ Al : Nat) : Int)

/-- Block loop of decode_mcu_DC_refine (jdphuff.c:487-496). -/
def dcRefineDec (Al : Nat) : List (List Int) → Rd → Option (List (List Int) × Rd)
  | [], r => some ([], r)
  | blk :: blks, r =>
    match readBits r 1 with
    | none => none
    | some (b, r) =>
      match dcRefineDec Al blks r with
      | none => none
      | some (out, r) => some ((if b ≠ 0 then blk.set 0 (orBit Al (blk.getD 0 0)) else blk) :: out, r)

/-- decode_mcu_DC_refine (jdphuff.c:461-507); insufficient_data is not looked at. -/
def decDCRefine (Al : Nat) : PDec Unit (List (List Int)) (List (List Int)) :=
  { init := ()
    step := fun _ mcu r => (dcRefineDec Al mcu r).map (fun x => (x.1, (), x.2))
    skip := none }

/-- `EOBRUN = 1 << r; if (r) EOBRUN += GET_BITS(r)` (jdphuff.c:425-430, 572-577). -/
def readEob (rd : Rd) (r : Nat) : Option (Nat × Rd) :=
  if r ≠ 0 then (readBits rd r).map (fun x => (2 ^ r + x.1, x.2)) else some (1, rd)

/-- Coefficient loop of decode_mcu_AC_first (jdphuff.c:409-436): new block, EOBRUN, reader. -/
def acFirstDec (d : DTbl) (Se Al : Nat) (k : Nat) (blk : List Int) (rd : Rd) : Option (List Int × Nat × Rd) :=
  if k ≤ Se then
    match huffDecode d rd with
    | none => none
    | some (sym, rd) =>
      let r := sym >>> 4
      let s := sym &&& 15
      if s ≠ 0 then
        match readBits rd s with
        | none => none
        | some (x, rd) =>
          acFirstDec d Se Al (k + r + 1)
            (blk.set (natOrder.getD (k + r) 0) (toCoef (extend2 x s * 2 ^ Al))) rd
      else if r = 15 then acFirstDec d Se Al (k + 15 + 1) blk rd
      else (readEob rd r).map (fun x => (blk, x.1 - 1, x.2))
  else some (blk, 0, rd)
termination_by Se + 1 - k

/-- decode_mcu_AC_first (jdphuff.c:374-452): there is one block per MCU. -/
def decACFirst (d : DTbl) (Ss Se Al : Nat) : PDec Nat (List (List Int)) (List (List Int)) :=
  { init := 0
    step := fun eobrun mcu r =>
      if eobrun > 0 then some (mcu, eobrun - 1, r)
      else (acFirstDec d Se Al Ss (mcu.getD 0 []) r).map (fun x => (mcu.set 0 x.1, x.2.1, x.2.2))
    skip := some id }

/-- Appending a correction bit to an already nonzero coefficient (jdphuff.c:588-596, 620-627). -/
def correct (Al : Nat) (c : Int) : Int :=
  if (c % 65536).toNat &&& 2 ^ Al = 0 then
    if c ≥ 0 then toCoef (c + toCoef (2 ^ Al)) else toCoef (c + toCoef (-2 ^ Al))
  else c

/-- The do-while loop of decode_mcu_AC_refine (jdphuff.c:585-603): skip `r` still-zero coefficients, reading
correction bits. Entered with k ≤ Se. -/
def advance (Se Al : Nat) (k r : Nat) (blk : List Int) (rd : Rd) : Option (Nat × List Int × Rd) :=
  if k ≤ Se then
    let p := natOrder.getD k 0
    if blk.getD p 0 ≠ 0 then
      match readBits rd 1 with
      | none => none
      | some (b, rd) => advance Se Al (k + 1) r (if b ≠ 0 then blk.set p (correct Al (blk.getD p 0)) else blk) rd
    else if r = 0 then some (k, blk, rd)
    else advance Se Al (k + 1) (r - 1) blk rd
  else some (k, blk, rd)
termination_by Se + 1 - k

theorem advance_ge {Se Al k r : Nat} {blk : List Int} {rd : Rd} {x : Nat × List Int × Rd}
    (h : advance Se Al k r blk rd = some x) : k ≤ x.1 := by
  generalize hn : Se + 1 - k = n
  induction n generalizing k r blk rd with
  | zero =>
    rw [advance, if_neg (by omega)] at h
    simp at h; subst h; exact Nat.le_refl _
  | succ n ih =>
    rw [advance, if_pos (by omega)] at h
    dsimp only at h
    split at h
    · split at h
      · simp at h
      · have := ih h (by omega); omega
    · split at h
      · simp at h; subst h; exact Nat.le_refl _
      · have := ih h (by omega); omega

/-- Main loop of decode_mcu_AC_refine (jdphuff.c:557-610): position reached, block, EOBRUN, reader. -/
def refineDec (d : DTbl) (Se Al : Nat) (k : Nat) (blk : List Int) (rd : Rd) :
    Option (Nat × List Int × Nat × Rd) :=
  if k ≤ Se then
    match huffDecode d rd with
    | none => none
    | some (sym, rd) =>
      let r := sym >>> 4
      let s := sym &&& 15
      if s = 0 ∧ r ≠ 15 then (readEob rd r).map (fun x => (k, blk, x.1, x.2))
      else
        match (if s ≠ 0 then
            (readBits (if s ≠ 1 then { rd with warns := rd.warns + 1 } else rd) 1).map
              (fun x => ((if x.1 ≠ 0 then (2 : Int) ^ Al else -2 ^ Al), x.2))
          else some (0, rd)) with
        | none => none
        | some (v, rd) =>
          match h : advance Se Al k r blk rd with
          | none => none
          | some (k', blk, rd) =>
            refineDec d Se Al (k' + 1) (if s ≠ 0 then blk.set (natOrder.getD k' 0) (toCoef v) else blk) rd
  else some (k, blk, 0, rd)
termination_by Se + 1 - k
decreasing_by
  have := advance_ge h
  simp only at this
  omega

/-- The scan of the remaining coefficients in an EOB run (jdphuff.c:612-632). -/
def eobScan (Se Al : Nat) (k : Nat) (blk : List Int) (rd : Rd) : Option (List Int × Rd) :=
  if k ≤ Se then
    let p := natOrder.getD k 0
    if blk.getD p 0 ≠ 0 then
      match readBits rd 1 with
      | none => none
      | some (b, rd) => eobScan Se Al (k + 1) (if b ≠ 0 then blk.set p (correct Al (blk.getD p 0)) else blk) rd
    else eobScan Se Al (k + 1) blk rd
  else some (blk, rd)
termination_by Se + 1 - k

/-- One block of decode_mcu_AC_refine (jdphuff.c:540-640).  On suspension (`none`) the C code zeroes the newly
nonzero coefficients again; the model's block is unchanged in that case. -/
def acRefineDec (d : DTbl) (Ss Se Al : Nat) (eobrun : Nat) (blk : List Int) (rd : Rd) :
    Option (List Int × Nat × Rd) :=
  match (if eobrun = 0 then refineDec d Se Al Ss blk rd else some (Ss, blk, eobrun, rd)) with
  | none => none
  | some (k, blk, eobrun, rd) =>
    if eobrun > 0 then (eobScan Se Al k blk rd).map (fun x => (x.1, eobrun - 1, x.2))
    else some (blk, eobrun, rd)

def decACRefine (d : DTbl) (Ss Se Al : Nat) : PDec Nat (List (List Int)) (List (List Int)) :=
  { init := 0
    step := fun eobrun mcu r =>
      (acRefineDec d Ss Se Al eobrun (mcu.getD 0 []) r).map (fun x => (mcu.set 0 x.1, x.2.1, x.2.2))
    skip := some id }

end Verif.Prog
