import Verif.Huff.Ideal
import Mathlib.Tactic.Linarith
/-
Model of the fast path of the sequential Huffman decoder: jdhuff.c:390-430 (GET_BYTE, FILL_BIT_BUFFER_FAST),
jdhuff.h:223-244 (HUFF_DECODE_FAST), jdhuff.c:662-741 (decode_mcu_fast) and decode_mcu's choice (775-815).
64-bit configuration.  `none` in this file is a read outside the source buffer.
-/
namespace Verif.Huff

/-- Working state of decode_mcu_fast: get_buffer, bits_left, the bytes from `buffer` to the end of the source's
buffer, cinfo->unread_marker. -/
structure FSt where
  gb : Nat
  left : Nat
  buf : List Nat
  hit : Nat := 0
deriving Repr, DecidableEq

/-- GET_BYTE (jdhuff.c:394-411): reads two bytes; at FF followed by a nonzero byte it stays there and loads a zero
byte. -/
def getByte (f : FSt) : Option FSt :=
  match f.buf with
  | c0 :: c1 :: rest =>
    if c0 = 0xFF then
      if c1 ≠ 0 then some { f with gb := (f.gb <<< 8) % W64, left := f.left + 8, hit := c1 }
      else some { f with gb := (f.gb <<< 8) % W64 ||| c0, left := f.left + 8, buf := rest }
    else some { f with gb := (f.gb <<< 8) % W64 ||| c0, left := f.left + 8, buf := c1 :: rest }
  | _ => none

/-- `n` times GET_BYTE. -/
def getBytes : Nat → FSt → Option FSt
  | 0, f => some f
  | n + 1, f =>
    match getByte f with
    | none => none
    | some f => getBytes n f

/-- FILL_BIT_BUFFER_FAST (jdhuff.c:416-419): six bytes if at most 16 bits are left. -/
def fillFast (f : FSt) : Option FSt := if f.left ≤ 16 then getBytes 6 f else some f

/-- PEEK_BITS on the working registers (jdhuff.h:171-172). -/
def peek (gb left n : Nat) : Nat := ((gb >>> (left - n)) % 2 ^ 32) &&& (2 ^ n - 1)

/-- The loop of HUFF_DECODE_FAST (jdhuff.h:236-240): code, length, bits_left. -/
def fastLoop (d : DTbl) (gb : Nat) : (fuel : Nat) → (left code nb : Nat) → Nat × Nat × Nat
  | 0, left, code, nb => (code, nb, left)
  | fuel + 1, left, code, nb =>
    if (code : Int) > d.maxcode.getD (nb - 1) 0 then
      fastLoop d gb fuel (left - 1) ((code <<< 1) ||| peek gb left 1) (nb + 1)
    else (code, nb, left)

/-- HUFF_DECODE_FAST after the fill (jdhuff.h:225-244): symbol and bits_left.  `fuel`: maxcode[17] stops the
loop. -/
def fastSym (d : DTbl) (gb left : Nat) : Nat × Nat :=
  let e := d.lookup.getD (peek gb left 8) 0
  let nb := e >>> 8
  let left := left - nb
  if nb > 8 then
    let x := fastLoop d gb (17 - nb) left ((gb >>> left) &&& (2 ^ nb - 1)) nb
    (if x.2.1 > 16 then 0
     else d.vals.getD (((x.1 : Int) + d.valoffset.getD (x.2.1 - 1) 0) % 256).toNat 0, x.2.2)
  else (e &&& 255, left)

/-- HUFF_DECODE_FAST (jdhuff.h:223-244). -/
def huffFast (d : DTbl) (f : FSt) : Option (Nat × FSt) :=
  (fillFast f).map fun f => ((fastSym d f.gb f.left).1, { f with left := (fastSym d f.gb f.left).2 })

/-- FILL_BIT_BUFFER_FAST and GET_BITS(n). -/
def readFast (f : FSt) (n : Nat) : Option (Nat × FSt) :=
  (fillFast f).map fun f => (peek f.gb f.left n, { f with left := f.left - n })

/-- The AC loops of decode_mcu_fast (jdhuff.c:700-735); `nd = false` is the discarding copy. -/
def acFast (d : DTbl) (nd : Bool) (k : Nat) (blk : List Int) (f : FSt) : Option (List Int × FSt) :=
  if k < 64 then
    match huffFast d f with
    | none => none
    | some (sym, f) =>
      if sym &&& 15 ≠ 0 then
        match readFast f (sym &&& 15) with
        | none => none
        | some (x, f) =>
          acFast d nd (k + (sym >>> 4) + 1)
            (if nd then blk.set (natOrder.getD (k + (sym >>> 4)) 0) (toCoef (huffExtend x (sym &&& 15))) else blk) f
      else if sym >>> 4 ≠ 15 then some (blk, f)
      else acFast d nd (k + 15 + 1) blk f
  else some (blk, f)
termination_by 64 - k

/-- One block of decode_mcu_fast (jdhuff.c:676-736), written into `blk`. -/
def blockFast (b : DBlk) (last : Nat → Int) (blk : List Int) (f : FSt) : Option (List Int × (Nat → Int) × FSt) :=
  match huffFast b.dc f with
  | none => none
  | some (s, f) =>
    match (if s ≠ 0 then (readFast f s).map (fun x => (huffExtend x.1 s, x.2)) else some (0, f)) with
    | none => none
    | some (diff, f) =>
      let v := diff + last b.ci
      match acFast b.ac b.acNeeded 1 (if b.dcNeeded then blk.set 0 (toCoef v) else blk) f with
      | none => none
      | some (blk, f) => some (blk, if b.dcNeeded then upd last b.ci v else last, f)

/-- The block loop of decode_mcu_fast. -/
def blocksFast : List (DBlk × List Int) → (Nat → Int) → FSt → Option (List (List Int) × (Nat → Int) × FSt)
  | [], last, f => some ([], last, f)
  | (b, blk) :: bs, last, f =>
    match blockFast b last blk f with
    | none => none
    | some (blk, last, f) =>
      match blocksFast bs last f with
      | none => none
      | some (blks, last, f) => some (blk :: blks, last, f)

/-! ### Semantics of the fast reader, for two notions of the bits ahead -/

/-- A way to read the bits ahead of the fast reader, valid while `P` holds of `unread_marker`; `Q f f' n`: from `f`
to `f'`, `n` bits were consumed. -/
structure Sem where
  P : Nat → Prop
  fb : FSt → List Bool
  Q : FSt → FSt → Nat → Prop
  str : ∀ {f f' n}, Q f f' n → ∀ i, zeroExt (fb f') i = zeroExt (fb f) (n + i)
  top : ∀ f : FSt, ∀ i, i < f.left → zeroExt (fb f) i = zeroExt (toBits f.left f.gb) i
  get : ∀ {f f' : FSt}, IsBytes f.buf → f.left + 8 ≤ 64 → getByte f = some f' → P f'.hit → P f.hit ∧ Q f f' 0
  drop : ∀ (f : FSt) (n : Nat), n ≤ f.left → Q f { f with left := f.left - n } n
  trans : ∀ {a b c n m}, Q a b n → Q b c m → Q a c (n + m)
  refl : ∀ f, Q f f 0

/-- Well-formed working state. -/
structure FSt.Ok (f : FSt) : Prop where
  left64 : f.left ≤ 64
  bytes : IsBytes f.buf

/-- Bits that can still be loaded, counting two source bytes for 8 bits, plus those loaded. -/
def FSt.pot (f : FSt) : Nat := 4 * f.buf.length + f.left

theorem getByte_ok {f : FSt} (hf : f.Ok) (hl : f.left + 8 ≤ 64) (h2 : 2 ≤ f.buf.length) :
    ∃ f', getByte f = some f' ∧ f'.Ok ∧ f'.left = f.left + 8 ∧ f.pot ≤ f'.pot := by
  unfold getByte
  match hb : f.buf, h2 with
  | c0 :: c1 :: rest, _ =>
    have hbs := hf.bytes
    rw [hb, isBytes_cons] at hbs
    dsimp only
    split
    · split
      · refine ⟨_, rfl, ⟨hl, by rw [← hb]; exact hf.bytes⟩, rfl, ?_⟩
        simp only [FSt.pot, hb]; omega
      · refine ⟨_, rfl, ⟨hl, (isBytes_cons.1 hbs.2).2⟩, rfl, ?_⟩
        simp only [FSt.pot, hb, List.length_cons]; omega
    · refine ⟨_, rfl, ⟨hl, hbs.2⟩, rfl, ?_⟩
      simp only [FSt.pot, hb, List.length_cons]; omega

variable (S : Sem)

theorem getBytes_ok (n : Nat) {f : FSt} (hf : f.Ok) (hl : f.left + 8 * n ≤ 64) (hp : 64 ≤ f.pot) :
    ∃ f', getBytes n f = some f' ∧ f'.Ok ∧ f'.left = f.left + 8 * n ∧ f.pot ≤ f'.pot ∧
      (S.P f'.hit → S.P f.hit ∧ S.Q f f' 0) := by
  induction n generalizing f with
  | zero => exact ⟨f, rfl, hf, rfl, Nat.le_refl _, fun h => ⟨h, S.refl f⟩⟩
  | succ n ih =>
    obtain ⟨f1, e1, a1, a2, a3⟩ := getByte_ok hf (by omega) (by simp only [FSt.pot] at hp; omega)
    obtain ⟨f2, e2, b1, b2, b3, b4⟩ := ih a1 (by omega) (by omega)
    simp only [getBytes, e1]
    refine ⟨f2, e2, b1, by omega, by omega, fun h => ?_⟩
    obtain ⟨c1, c2⟩ := b4 h
    obtain ⟨d1, d2⟩ := S.get hf.bytes (by omega) e1 c1
    exact ⟨d1, S.trans d2 c2⟩

theorem fillFast_ok {f : FSt} (hf : f.Ok) (hp : 64 ≤ f.pot) :
    ∃ f', fillFast f = some f' ∧ f'.Ok ∧ 17 ≤ f'.left ∧ f.pot ≤ f'.pot ∧
      (S.P f'.hit → S.P f.hit ∧ S.Q f f' 0) := by
  unfold fillFast
  split
  · obtain ⟨f', e, a1, a2, a3, a4⟩ := getBytes_ok S 6 hf (by omega) hp
    exact ⟨f', e, a1, by omega, a3, a4⟩
  · exact ⟨f, rfl, hf, by omega, Nat.le_refl _, fun h => ⟨h, S.refl f⟩⟩

theorem peek_win {gb left p n : Nat} (h : p + n ≤ left) (hn : n ≤ 32) :
    peek gb (left - p) n = win (zeroExt (toBits left gb)) p n := by
  have e := (peekBits_eq (r := ⟨gb, left - p, [], 1, false, 0, 0⟩) (n := n) (by dsimp only; omega) hn).2
  have hb : (⟨gb, left - p, [], 1, false, 0, 0⟩ : Rd).bits = toBits (left - p) gb := by simp [Rd.bits]
  rw [hb] at e
  have e1 : peek gb (left - p) n = ofBits ((toBits (left - p) gb).take n) := e
  rw [e1]
  refine take_win (fun i => ?_) (by simp; omega)
  have : toBits left gb = toBits p (gb >>> (left - p)) ++ toBits (left - p) gb := by
    rw [← toBits_add]; congr 1; omega
  rw [zeroExt, this]
  simp only [List.getD_eq_getElem?_getD]
  rw [List.getElem?_append_right (by simp)]
  simp

theorem shr_win {gb left n : Nat} (h : n ≤ left) :
    (gb >>> (left - n)) &&& (2 ^ n - 1) = win (zeroExt (toBits left gb)) 0 n := by
  have e1 : (gb >>> (left - n)) &&& (2 ^ n - 1) = ofBits ((toBits left gb).take n) := by
    rw [Nat.and_two_pow_sub_one_eq_mod]
    have : toBits left gb = toBits n (gb >>> (left - n)) ++ toBits (left - n) gb := by
      rw [← toBits_add]; congr 1; omega
    rw [this, List.take_append_of_le_length (by simp), List.take_of_length_le (by simp), ofBits_toBits]
  rw [e1]
  exact take_win (fun i => by simp [zeroExt]) (by simpa using h)

theorem fastLoop_eq (d : DTbl) {gb left0 : Nat} (fuel : Nat) {nb : Nat} (h : nb + fuel ≤ left0) (h17 : nb + fuel ≤ 17) :
    fastLoop d gb fuel (left0 - nb) (win (zeroExt (toBits left0 gb)) 0 nb) nb =
      (win (zeroExt (toBits left0 gb)) 0 (codeLen d (zeroExt (toBits left0 gb)) 0 fuel nb),
       codeLen d (zeroExt (toBits left0 gb)) 0 fuel nb, left0 - codeLen d (zeroExt (toBits left0 gb)) 0 fuel nb) := by
  induction fuel generalizing nb with
  | zero => rfl
  | succ fuel ih =>
    simp only [fastLoop, codeLen]
    split
    · rw [peek_win (by omega) (by omega), show (nb : Nat) = 0 + nb by omega, ← Nat.zero_add nb]
      have := win_succ (zeroExt (toBits left0 gb)) 0 nb
      simp only [Nat.zero_add] at this ⊢
      rw [this, show left0 - nb - 1 = left0 - (nb + 1) by omega]
      exact ih (by omega) (by omega)
    · rfl

/-- With 17 bits in the buffer, the fast symbol decoder is the specification on those bits. -/
theorem fastSym_eq {d : DTbl} {m : Nat} (hd : TOk d m) {gb left : Nat} (h17 : 17 ≤ left) :
    fastSym d gb left = ((symAt d (zeroExt (toBits left gb)) 0).1, left - (symAt d (zeroExt (toBits left gb)) 0).2) := by
  obtain ⟨sizes, codes, vals, hb, F, h256, -⟩ := hd.facts
  obtain ⟨e1, e2⟩ := symAt_look F hb (zeroExt (toBits left gb)) 0
  have hp : peek gb left 8 = win (zeroExt (toBits left gb)) 0 8 := by
    have := peek_win (gb := gb) (left := left) (p := 0) (n := 8) (by omega) (by omega)
    simpa using this
  unfold fastSym
  dsimp only
  rw [hp]
  by_cases hle : d.lookup.getD (win (zeroExt (toBits left gb)) 0 8) 0 >>> 8 ≤ 8
  · rw [if_neg (by omega), e1 hle]
    simp
  · obtain ⟨c1, c2⟩ := e2 hle
    rw [c1, if_pos (by omega), shr_win (by omega), fastLoop_eq d (17 - 9) (by omega) (by omega)]
    dsimp only
    rw [← c2]
    unfold symAt
    dsimp only
    rw [Nat.zero_add]
    obtain ⟨s1, s2, s3, s4⟩ := codeLen_stop F (zeroExt (toBits left gb)) 0 16 (l := 1) (by omega) (by omega) (above_one F _)
    split
    · rfl
    · obtain ⟨q, q1, q2, q3, q4⟩ := s4 (by omega)
      rw [q4, Int.emod_eq_of_lt (by omega) (by omega)]

theorem win_congr {z z' : Nat → Bool} {p p' n : Nat} (h : ∀ i, i < n → z (p + i) = z' (p' + i)) :
    win z p n = win z' p' n := by
  unfold win
  congr 1
  apply List.map_congr_left
  intro i hi
  exact h i (List.mem_range.1 hi)

theorem codeLen_congr (d : DTbl) {z z' : Nat → Bool} {p p' : Nat} (h : ∀ i, i < 17 → z (p + i) = z' (p' + i))
    (fuel : Nat) {l : Nat} (hl : l + fuel ≤ 17) : codeLen d z p fuel l = codeLen d z' p' fuel l ∧
      codeLen d z p fuel l ≤ l + fuel := by
  induction fuel generalizing l with
  | zero => exact ⟨rfl, Nat.le_refl _⟩
  | succ fuel ih =>
    obtain ⟨i1, i2⟩ := ih (l := l + 1) (by omega)
    simp only [codeLen]
    rw [win_congr (n := l) (fun i hi => h i (by omega)), i1]
    rw [i1] at i2
    split <;> exact ⟨rfl, by omega⟩

/-- A symbol depends on 17 bits only. -/
theorem symAt_congr (d : DTbl) {z z' : Nat → Bool} {p p' : Nat} (h : ∀ i, i < 17 → z (p + i) = z' (p' + i)) :
    (symAt d z p).1 = (symAt d z' p').1 ∧ (symAt d z p).2 + p' = (symAt d z' p').2 + p := by
  obtain ⟨c1, c2⟩ := codeLen_congr d h 16 (l := 1) (by omega)
  unfold symAt
  dsimp only
  rw [c1] at c2 ⊢
  rw [win_congr (n := codeLen d z' p' 16 1) (fun i hi => h i (by omega))]
  exact ⟨rfl, by omega⟩

theorem huffFast_ok {d : DTbl} {m : Nat} (hd : TOk d m) {f : FSt} (hf : f.Ok) (hp : 64 ≤ f.pot) :
    ∃ sym f' n, huffFast d f = some (sym, f') ∧ f'.Ok ∧ n ≤ 17 ∧ (sym = 0 ∨ n ≤ 16) ∧ sym ≤ m ∧
      f.pot ≤ f'.pot + n ∧
      (S.P f'.hit → S.P f.hit ∧ ∀ f0 p, S.Q f0 f p → S.Q f0 f' (p + n) ∧
        symAt d (zeroExt (S.fb f0)) p = (sym, p + n)) := by
  obtain ⟨f1, e, a1, a2, a3, a4⟩ := fillFast_ok S hf hp
  have hp0 := hd.pos (zeroExt (toBits f1.left f1.gb)) 0
  have hm := hd.sym_le (zeroExt (toBits f1.left f1.gb)) 0
  unfold huffFast
  rw [e]
  simp only [Option.map_some, fastSym_eq hd a2]
  generalize hs : symAt d (zeroExt (toBits f1.left f1.gb)) 0 = sn at *
  refine ⟨sn.1, _, sn.2, rfl, ⟨by dsimp only; have := a1.left64; omega, a1.bytes⟩, by omega, by omega, hm, ?_, ?_⟩
  · simp only [FSt.pot] at *; omega
  · intro hP
    obtain ⟨b1, b2⟩ := a4 hP
    refine ⟨b1, fun f0 p hq => ?_⟩
    have q1 := S.trans hq b2
    refine ⟨S.trans q1 (S.drop f1 sn.2 (by omega)), ?_⟩
    have hz : ∀ i, i < 17 → zeroExt (S.fb f0) (p + i) = zeroExt (toBits f1.left f1.gb) (0 + i) := by
      intro i hi
      have h1 := S.str q1 i
      rw [S.top f1 i (by omega)] at h1
      simp only [Nat.add_zero, Nat.zero_add] at h1 ⊢
      exact h1.symm
    obtain ⟨c1, c2⟩ := symAt_congr d hz
    rw [hs] at c1 c2
    exact Prod.ext c1 (by dsimp only; omega)

theorem readFast_ok {f : FSt} (hf : f.Ok) (hp : 64 ≤ f.pot) {n : Nat} (hn : n ≤ 16) :
    ∃ x f', readFast f n = some (x, f') ∧ f'.Ok ∧ f.pot ≤ f'.pot + n ∧
      (S.P f'.hit → S.P f.hit ∧ ∀ f0 p, S.Q f0 f p → S.Q f0 f' (p + n) ∧ x = win (zeroExt (S.fb f0)) p n) := by
  obtain ⟨f1, e, a1, a2, a3, a4⟩ := fillFast_ok S hf hp
  unfold readFast
  rw [e]
  refine ⟨_, _, rfl, ⟨by dsimp only; have := a1.left64; omega, a1.bytes⟩, ?_, ?_⟩
  · simp only [FSt.pot] at *; omega
  · intro hP
    obtain ⟨b1, b2⟩ := a4 hP
    refine ⟨b1, fun f0 p hq => ?_⟩
    have q1 := S.trans hq b2
    refine ⟨S.trans q1 (S.drop f1 n (by omega)), ?_⟩
    have := peek_win (gb := f1.gb) (left := f1.left) (p := 0) (n := n) (by omega) (by omega)
    rw [Nat.sub_zero] at this
    rw [this]
    refine win_congr fun i hi => ?_
    have h1 := S.str q1 i
    rw [S.top f1 i (by omega)] at h1
    simp only [Nat.add_zero, Nat.zero_add] at h1 ⊢
    exact h1

theorem acFast_ok {d : DTbl} {m : Nat} (hd : TOk d m) (nd : Bool) {k : Nat} {blk : List Int} {f : FSt} (hf : f.Ok)
    (hp : 64 + 31 * (64 - k) ≤ f.pot) :
    ∃ blk' f' n, acFast d nd k blk f = some (blk', f') ∧ f'.Ok ∧ n ≤ 31 * (64 - k) ∧ f.pot ≤ f'.pot + n ∧
      (S.P f'.hit → S.P f.hit ∧ ∀ f0 p, S.Q f0 f p → S.Q f0 f' (p + n) ∧
        iAC d nd (zeroExt (S.fb f0)) k blk p = (blk', p + n)) := by
  induction hj : 64 - k using Nat.strong_induction_on generalizing k blk f with
  | _ j ih =>
  subst hj
  rw [acFast]
  by_cases hk : k < 64
  · rw [if_pos hk]
    obtain ⟨sym, f1, n1, e1, a1, a2, a3, a4, a5, a6⟩ := huffFast_ok S hd hf (by omega)
    rw [e1]
    dsimp only
    by_cases hs : sym &&& 15 ≠ 0
    · rw [if_pos hs]
      have hs' : sym &&& 15 ≤ 15 := Nat.and_le_right
      obtain ⟨x, f2, e2, b1, b2, b3⟩ := readFast_ok S a1 (n := sym &&& 15) (by omega) (by omega)
      have hne : sym ≠ 0 := by rintro rfl; simp at hs
      rw [e2]
      dsimp only
      obtain ⟨blk', f3, n3, e3, c1, c2, c3, c4⟩ := ih (64 - (k + (sym >>> 4) + 1)) (by omega)
        (blk := if nd then blk.set (natOrder.getD (k + (sym >>> 4)) 0) (toCoef (huffExtend x (sym &&& 15))) else blk)
        b1 (by omega) rfl
      refine ⟨blk', f3, n1 + (sym &&& 15) + n3, e3, c1, by omega, by omega, fun hP => ?_⟩
      obtain ⟨p3, q3⟩ := c4 hP
      obtain ⟨p2, q2⟩ := b3 p3
      obtain ⟨p1, q1⟩ := a6 p2
      refine ⟨p1, fun f0 p hq => ?_⟩
      obtain ⟨r1, w1⟩ := q1 f0 p hq
      obtain ⟨r2, w2⟩ := q2 f0 _ r1
      obtain ⟨r3, w3⟩ := q3 f0 _ r2
      refine ⟨by rw [show p + (n1 + (sym &&& 15) + n3) = p + n1 + (sym &&& 15) + n3 by omega]; exact r3, ?_⟩
      rw [iAC, if_pos hk]
      simp only [w1]
      rw [if_pos hs, ← w2, w3]
      exact Prod.ext rfl (by dsimp only; omega)
    · rw [if_neg hs]
      by_cases hr : sym >>> 4 ≠ 15
      · rw [if_pos hr]
        refine ⟨blk, f1, n1, rfl, a1, by omega, a5, fun hP => ?_⟩
        obtain ⟨p1, q1⟩ := a6 hP
        refine ⟨p1, fun f0 p hq => ?_⟩
        obtain ⟨r1, w1⟩ := q1 f0 p hq
        refine ⟨r1, ?_⟩
        rw [iAC, if_pos hk]
        simp only [w1]
        rw [if_neg hs, if_pos hr]
      · rw [if_neg hr]
        obtain ⟨blk', f3, n3, e3, c1, c2, c3, c4⟩ := ih (64 - (k + 15 + 1)) (by omega) (blk := blk) a1 (by omega) rfl
        refine ⟨blk', f3, n1 + n3, e3, c1, by omega, by omega, fun hP => ?_⟩
        obtain ⟨p3, q3⟩ := c4 hP
        obtain ⟨p1, q1⟩ := a6 p3
        refine ⟨p1, fun f0 p hq => ?_⟩
        obtain ⟨r1, w1⟩ := q1 f0 p hq
        obtain ⟨r3, w3⟩ := q3 f0 _ r1
        refine ⟨by rw [← Nat.add_assoc]; exact r3, ?_⟩
        rw [iAC, if_pos hk]
        simp only [w1]
        rw [if_neg hs, if_neg hr, w3, Nat.add_assoc]
  · rw [if_neg hk]
    refine ⟨blk, f, 0, rfl, hf, by omega, by omega, fun hP => ⟨hP, fun f0 p hq => ⟨hq, ?_⟩⟩⟩
    rw [iAC, if_neg hk]
    rfl

theorem blockFast_ok {b : DBlk} (hb : b.TOk) (last : Nat → Int) (blk : List Int) {f : FSt} (hf : f.Ok)
    (hp : 2048 ≤ f.pot) :
    ∃ blk' last' f' n, blockFast b last blk f = some (blk', last', f') ∧ f'.Ok ∧ n ≤ 1984 ∧ f.pot ≤ f'.pot + n ∧
      (S.P f'.hit → S.P f.hit ∧ ∀ f0 p, S.Q f0 f p → S.Q f0 f' (p + n) ∧
        iBlock b (zeroExt (S.fb f0)) last blk p = (blk', last', p + n)) := by
  unfold blockFast
  obtain ⟨s, f1, n1, e1, a1, a2, a3, a4, a5, a6⟩ := huffFast_ok S hb.dc hf (by omega)
  rw [e1]
  dsimp only
  have key : ∃ diff f2, (if s ≠ 0 then (readFast f1 s).map (fun x => (huffExtend x.1 s, x.2)) else some (0, f1)) =
      some (diff, f2) ∧ f2.Ok ∧ f1.pot ≤ f2.pot + s ∧ (S.P f2.hit → S.P f1.hit ∧ ∀ f0 p, S.Q f0 f1 p →
        S.Q f0 f2 (p + s) ∧ diff = if s ≠ 0 then huffExtend (win (zeroExt (S.fb f0)) p s) s else 0) := by
    split
    · obtain ⟨x, f2, e2, b1, b2, b3⟩ := readFast_ok S a1 (n := s) (by omega) (by omega)
      rw [e2]
      refine ⟨_, _, rfl, b1, b2, fun h => ⟨(b3 h).1, fun f0 p hq => ?_⟩⟩
      obtain ⟨r1, w1⟩ := (b3 h).2 f0 p hq
      exact ⟨r1, by rw [w1]⟩
    · rename_i h0
      simp only [not_not] at h0
      subst h0
      exact ⟨0, f1, rfl, a1, by omega, fun h => ⟨h, fun f0 p hq => ⟨hq, rfl⟩⟩⟩
  obtain ⟨diff, f2, e2, b1, b2, b3⟩ := key
  rw [e2]
  dsimp only
  obtain ⟨blk', f3, n3, e3, c1, c2, c3, c4⟩ := acFast_ok S hb.ac b.acNeeded (k := 1)
    (blk := if b.dcNeeded then blk.set 0 (toCoef (diff + last b.ci)) else blk) b1 (by omega)
  rw [e3]
  refine ⟨_, _, f3, n1 + s + n3, rfl, c1, by omega, by omega, fun hP => ?_⟩
  obtain ⟨p3, q3⟩ := c4 hP
  obtain ⟨p2, q2⟩ := b3 p3
  obtain ⟨p1, q1⟩ := a6 p2
  refine ⟨p1, fun f0 p hq => ?_⟩
  obtain ⟨r1, w1⟩ := q1 f0 p hq
  obtain ⟨r2, w2⟩ := q2 f0 _ r1
  obtain ⟨r3, w3⟩ := q3 f0 _ r2
  refine ⟨by rw [show p + (n1 + s + n3) = p + n1 + s + n3 by omega]; exact r3, ?_⟩
  unfold iBlock
  simp only [w1]
  rw [← w2, w3]
  refine Prod.ext rfl (Prod.ext rfl ?_)
  dsimp only
  omega

/-- The blocks of one MCU from position `p`, written into the blocks given. -/
def iBlocksOn (z : Nat → Bool) : List (DBlk × List Int) → (Nat → Int) → Nat → List (List Int) × (Nat → Int) × Nat
  | [], last, p => ([], last, p)
  | (b, blk) :: bs, last, p =>
    let x := iBlock b z last blk p
    let y := iBlocksOn z bs x.2.1 x.2.2
    (x.1 :: y.1, y.2.1, y.2.2)

theorem blocksFast_ok {bs : List (DBlk × List Int)} (hb : ∀ b ∈ bs, b.1.TOk) (last : Nat → Int) {f : FSt} (hf : f.Ok)
    (hp : bs = [] ∨ 64 + 1984 * bs.length ≤ f.pot) :
    ∃ blks last' f' n, blocksFast bs last f = some (blks, last', f') ∧ f'.Ok ∧
      (S.P f'.hit → S.P f.hit ∧ ∀ f0 p, S.Q f0 f p → S.Q f0 f' (p + n) ∧
        iBlocksOn (zeroExt (S.fb f0)) bs last p = (blks, last', p + n)) := by
  induction bs generalizing last f with
  | nil => exact ⟨[], last, f, 0, rfl, hf, fun h => ⟨h, fun f0 p hq => ⟨hq, rfl⟩⟩⟩
  | cons x bs ih =>
    obtain ⟨b, blk⟩ := x
    have hp : 64 + 1984 * (bs.length + 1) ≤ f.pot := by simpa using hp
    have hp0 : 2048 ≤ f.pot := by linarith [Nat.zero_le bs.length]
    obtain ⟨blk', last1, f1, n1, e1, a1, a2, a3, a4⟩ := blockFast_ok S (hb (b, blk) (by simp)) last blk hf hp0
    obtain ⟨blks, last2, f2, n2, e2, b1, b2⟩ := ih (fun b h => hb b (by simp [h])) last1 a1 (by right; omega)
    simp only [blocksFast, e1, e2]
    refine ⟨_, _, _, n1 + n2, rfl, b1, fun hP => ?_⟩
    obtain ⟨p2, q2⟩ := b2 hP
    obtain ⟨p1, q1⟩ := a4 p2
    refine ⟨p1, fun f0 p hq => ?_⟩
    obtain ⟨r1, w1⟩ := q1 f0 p hq
    obtain ⟨r2, w2⟩ := q2 f0 _ r1
    refine ⟨by rw [← Nat.add_assoc]; exact r2, ?_⟩
    simp only [iBlocksOn, w1, w2, Nat.add_assoc]

/-! ### First instance: the fast path met no marker -/

/-- The bits ahead, as the slow reader defines them. -/
def FSt.bits (f : FSt) : List Bool := toBits f.left f.gb ++ bitsOfBytes (unstuff false f.buf)

theorem zeroExt_top {left gb : Nat} {l : List Bool} (i : Nat) (hi : i < left) :
    zeroExt (toBits left gb ++ l) i = zeroExt (toBits left gb) i := by
  simp only [zeroExt, List.getD_eq_getElem?_getD]
  rw [List.getElem?_append_left (by simpa using hi)]

theorem toBits_drop {left gb n : Nat} (h : n ≤ left) (l : List Bool) :
    toBits (left - n) gb ++ l = (toBits left gb ++ l).drop n := by
  have : toBits left gb = toBits n (gb >>> (left - n)) ++ toBits (left - n) gb := by
    rw [← toBits_add]; congr 1; omega
  rw [this, List.append_assoc, List.drop_append_of_le_length (by simp)]
  simp

theorem zeroExt_drop (l : List Bool) (n i : Nat) : zeroExt (l.drop n) i = zeroExt l (n + i) := by
  simp [zeroExt, List.getD_eq_getElem?_getD]

/-- Exact consumption, no marker met. -/
def semOk : Sem where
  P h := h = 0
  fb := FSt.bits
  Q f f' n := n ≤ f.bits.length ∧ f'.bits = f.bits.drop n ∧ segTail false f'.buf = segTail false f.buf
  str h i := by rw [h.2.1, zeroExt_drop]
  top f i hi := zeroExt_top i hi
  get := by
    intro f f' hb hl h hP
    unfold getByte at h
    match hbuf : f.buf with
    | [] => rw [hbuf] at h; simp at h
    | [_] => rw [hbuf] at h; simp at h
    | c0 :: c1 :: rest =>
      rw [hbuf, isBytes_cons] at hb
      rw [hbuf] at h
      dsimp only at h
      split at h
      · rename_i hc
        split at h
        · rename_i hc1
          simp only [Option.some.injEq] at h
          subst h
          exact absurd hP hc1
        · rename_i hc1
          simp only [Option.some.injEq] at h
          subst h
          simp only [not_not] at hc1
          subst hc1 hc
          refine ⟨hP, Nat.zero_le _, ?_, ?_⟩
          · simp only [FSt.bits, hbuf, List.drop_zero]
            rw [toBits_load _ _ _ (by omega) (by omega)]
            simp [unstuff]
          · simp [hbuf, segTail]
      · rename_i hc
        simp only [Option.some.injEq] at h
        subst h
        refine ⟨hP, Nat.zero_le _, ?_, ?_⟩
        · simp only [FSt.bits, hbuf, List.drop_zero]
          rw [toBits_load _ _ _ (by omega) hb.1]
          simp [unstuff, hc]
        · simp [hbuf, segTail, hc]
  drop f n hn := by
    refine ⟨by simp [FSt.bits]; omega, ?_, rfl⟩
    simp only [FSt.bits]
    exact toBits_drop hn _
  trans := by
    rintro a b c n m ⟨h1, h2, h3⟩ ⟨g1, g2, g3⟩
    rw [h2, List.length_drop] at g1
    exact ⟨by omega, by rw [g2, h2, List.drop_drop], g3.trans h3⟩
  refl f := ⟨Nat.zero_le _, by simp, rfl⟩

/-! ### Second instance: whatever it met -/

/-- Data bytes as GET_BYTE sees them: the first FF that is not followed by 0 ends them. -/
def unstuffF : List Nat → List Nat
  | [] => []
  | [c0] => if c0 = 0xFF then [] else [c0]
  | c0 :: c1 :: rest =>
    if c0 = 0xFF then if c1 = 0 then 0xFF :: unstuffF rest else [] else c0 :: unstuffF (c1 :: rest)

/-- Zero bits after the first FF that is not followed by 0. -/
def semAny : Sem where
  P _ := True
  fb f := toBits f.left f.gb ++ bitsOfBytes (unstuffF f.buf)
  Q f f' n := ∀ i, zeroExt (toBits f'.left f'.gb ++ bitsOfBytes (unstuffF f'.buf)) i =
    zeroExt (toBits f.left f.gb ++ bitsOfBytes (unstuffF f.buf)) (n + i)
  str h i := h i
  top f i hi := zeroExt_top i hi
  get := by
    intro f f' hb hl h _
    refine ⟨trivial, ?_⟩
    unfold getByte at h
    match hbuf : f.buf with
    | [] => rw [hbuf] at h; simp at h
    | [_] => rw [hbuf] at h; simp at h
    | c0 :: c1 :: rest =>
      rw [hbuf, isBytes_cons] at hb
      rw [hbuf] at h
      dsimp only at h
      split at h
      · rename_i hc
        split at h
        · rename_i hc1
          simp only [Option.some.injEq] at h
          subst h
          intro i
          simp only [hbuf, unstuffF, hc, if_true, hc1, if_false]
          rw [toBits_shl _ _ _ hl]
          simp only [zeroExt, List.getD_eq_getElem?_getD, bitsOfBytes, List.flatMap_nil, List.append_nil, Nat.zero_add]
          by_cases hi : i < (toBits f.left f.gb).length
          · rw [List.getElem?_append_left hi]
          · rw [List.getElem?_append_right (by omega), List.getElem?_eq_none (l := toBits f.left f.gb) (by omega),
              List.getElem?_replicate]
            split <;> rfl
        · rename_i hc1
          simp only [Option.some.injEq] at h
          subst h
          simp only [not_not] at hc1
          subst hc1 hc
          intro i
          dsimp only
          rw [toBits_load _ _ _ (by omega) (by omega)]
          simp [hbuf, unstuffF, bitsOfBytes_cons]
      · rename_i hc
        simp only [Option.some.injEq] at h
        subst h
        intro i
        dsimp only
        rw [toBits_load _ _ _ (by omega) hb.1]
        simp [hbuf, unstuffF, hc, bitsOfBytes_cons]
  drop f n hn i := by
    dsimp only
    rw [toBits_drop hn, zeroExt_drop]
  trans := by
    intro a b c n m h g i
    rw [g i, h (m + i), Nat.add_assoc]
  refl f i := by rw [Nat.zero_add]

/-- No fill byte before a stuffed zero. -/
def NoFill (bytes : List Nat) : Prop := ¬ [0xFF, 0xFF, 0] <:+: bytes

theorem NoFill.tail {c : Nat} {l : List Nat} (h : NoFill (c :: l)) : NoFill l :=
  fun hh => h (hh.trans (List.suffix_cons c l).isInfix)

theorem unstuff_ff {l : List Nat} (h : NoFill (0xFF :: l)) (h1 : ∀ r, l ≠ 0 :: r) : unstuff true l = [] := by
  induction l with
  | nil => rfl
  | cons c l ih =>
    simp only [unstuff]
    split
    · rename_i hc
      subst hc
      refine ih h.tail fun r hr => ?_
      subst hr
      exact h ⟨[], r, rfl⟩
    · split
      · rename_i hc0
        subst hc0
        exact absurd rfl (h1 l)
      · rfl

/-- Without fill bytes before stuffed zeros the fast path sees the same data bytes as the slow one. -/
theorem unstuffF_eq {l : List Nat} (h : NoFill l) : unstuffF l = unstuff false l := by
  fun_induction unstuffF l with
  | case1 => rfl
  | case2 => simp [unstuff]
  | case3 c0 hc => simp [unstuff, hc]
  | case4 rest ih =>
    simp [unstuff, ih h.tail.tail]
  | case5 c1 rest hc1 =>
    simp only [unstuff, if_true]
    exact (unstuff_ff h fun r hr => by simp at hr; exact hc1 hr.1).symm
  | case6 c0 c1 rest hc ih =>
    rw [ih h.tail]
    conv => rhs; rw [unstuff]
    rw [if_neg hc]

end Verif.Huff
