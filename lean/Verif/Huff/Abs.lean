import Verif.Huff.Dec
import Verif.Huff.DecodeLemmas
/-
The decoder over an ideal bit reader: a list of the bits left in the segment, with no bit buffer, no source buffer,
no prefetching and no suspension.  Every run of the byte-level decoder that does not suspend is a run of this one
(`*_abs`), and the byte-level decoder suspends only while the marker that ends the segment has not arrived.
-/
namespace Verif.Huff

/-- Ideal reader: the bits before the next marker, the flag `insufficient_data`, the number of JWRN_HIT_MARKER
warnings issued. -/
structure LR where
  bits : List Bool
  insuff : Bool
  hits : Nat
deriving Repr, DecidableEq

/-- What jpeg_fill_bit_buffer does at the end of a segment (jdhuff.c:357-382): zero bits are appended up to
MIN_GET_BITS = 57, with one warning if `insufficient_data` was not set yet. -/
def lpad (a : LR) : LR :=
  ⟨a.bits ++ List.replicate (57 - a.bits.length) false, true, if a.insuff then a.hits else a.hits + 1⟩

/-- CHECK_BIT_BUFFER and GET_BITS (jdhuff.h:160-169) over the ideal reader. -/
def lread (a : LR) (n : Nat) : Nat × LR :=
  let a := if n ≤ a.bits.length then a else lpad a
  (ofBits (a.bits.take n), { a with bits := a.bits.drop n })

/-- jdhuff.c:455-463 over the ideal reader. -/
def lslow (d : DTbl) : (fuel : Nat) → LR → (code l : Nat) → Nat × Nat × LR
  | 0, a, code, l => (code, l, a)
  | fuel + 1, a, code, l =>
    if (code : Int) > d.maxcode.getD (l - 1) 0 then
      lslow d fuel (lread a 1).2 ((code <<< 1) ||| (lread a 1).1) (l + 1)
    else (code, l, a)

/-- jdhuff.c:435-472 over the ideal reader. -/
def lhuffSlow (d : DTbl) (a : LR) (minBits : Nat) : Nat × LR :=
  let c := lread a minBits
  let x := lslow d (17 - minBits) c.2 c.1 minBits
  if x.2.1 > 16 then (0, x.2.2)
  else (d.vals.getD ((x.1 : Int) + d.valoffset.getD (x.2.1 - 1) 0).toNat 0, x.2.2)

/-- HUFF_DECODE (jdhuff.h:200-221) over the ideal reader. -/
def lhuff (d : DTbl) (a : LR) : Nat × LR :=
  if a.bits.length < 8 then lhuffSlow d a 1
  else
    let e := d.lookup.getD (ofBits (a.bits.take 8)) 0
    if e >>> 8 ≤ 8 then (e &&& 255, { a with bits := a.bits.drop (e >>> 8) })
    else lhuffSlow d a (e >>> 8)

/-- The AC loop (jdhuff.c:602-660) over the ideal reader. -/
def lAC (d : DTbl) (need : Bool) (k : Nat) (blk : List Int) (a : LR) : List Int × LR :=
  if k < 64 then
    let h := lhuff d a
    if h.1 &&& 15 ≠ 0 then
      let x := lread h.2 (h.1 &&& 15)
      lAC d need (k + (h.1 >>> 4) + 1)
        (if need then blk.set (natOrder.getD (k + (h.1 >>> 4)) 0) (toCoef (huffExtend x.1 (h.1 &&& 15))) else blk)
        x.2
    else if h.1 >>> 4 ≠ 15 then (blk, h.2)
    else lAC d need (k + 15 + 1) blk h.2
  else (blk, a)
termination_by 64 - k

/-- One block (jdhuff.c:561-662) over the ideal reader. -/
def lBlock (b : DBlk) (last : Nat → Int) (a : LR) : List Int × (Nat → Int) × LR :=
  let h := lhuff b.dc a
  let x := if h.1 ≠ 0 then (huffExtend (lread h.2 h.1).1 h.1, (lread h.2 h.1).2) else (0, h.2)
  let v := x.1 + last b.ci
  let y := lAC b.ac b.acNeeded 1
    (if b.dcNeeded then (List.replicate 64 (0 : Int)).set 0 (toCoef v) else List.replicate 64 (0 : Int)) x.2
  (y.1, if b.dcNeeded then upd last b.ci v else last, y.2)

/-- The blocks of one MCU over the ideal reader. -/
def lBlocks : List DBlk → (Nat → Int) → LR → List (List Int) × (Nat → Int) × LR
  | [], last, a => ([], last, a)
  | b :: bs, last, a =>
    let x := lBlock b last a
    let y := lBlocks bs x.2.1 x.2.2
    (x.1 :: y.1, y.2.1, y.2.2)

/-- The ideal reader a byte-level reader stands for. -/
def Rd.abs (r : Rd) : LR := ⟨r.bits, r.insuff, r.hits⟩

theorem toBits_shl (gb left k : Nat) (h : left + k ≤ 64) :
    toBits (left + k) ((gb <<< k) % W64) = toBits left gb ++ List.replicate k false := by
  have e : toBits (left + k) ((gb <<< k) % W64) = toBits (left + k) (gb * 2 ^ k + 0) := by
    apply toBits_congr
    intro i hi
    rw [W64, Nat.testBit_mod_two_pow, Nat.shiftLeft_eq]
    simp [show i < 64 by omega]
  have z : toBits k 0 = List.replicate k false := by
    apply List.ext_getElem <;> simp [toBits]
  rw [e, toBits_concat _ _ _ _ (Nat.two_pow_pos k), z]

/-- What a call of jpeg_fill_bit_buffer that does not suspend does, for any reader and any request. -/
theorem fill_abs {r r' : Rd} {n : Nat} (hr : r.Ok) (hn : n ≤ 57) (h : fill r n = some r') :
    r'.Ok ∧ r'.tail = r.tail ∧ n ≤ r'.left ∧ (r'.left < 8 → r'.bits.length = r'.left) ∧
    r'.abs = if n ≤ r.bits.length then r.abs else lpad r.abs := by
  have nm : ∀ r0 : Rd, r0.Ok → r0.marker ≠ 0 →
      (noMore r0 n).Ok ∧ (noMore r0 n).tail = r0.tail ∧ n ≤ (noMore r0 n).left ∧
      ((noMore r0 n).left < 8 → (noMore r0 n).bits.length = (noMore r0 n).left) ∧
      (noMore r0 n).abs = if n ≤ r0.bits.length then r0.abs else lpad r0.abs := by
    intro r0 h0 hm
    have hb : r0.bits.length = r0.left := by simp [Rd.bits, hm]
    unfold noMore
    by_cases hle : n > r0.left
    · rw [if_pos hle, if_neg (show ¬ n ≤ r0.bits.length by omega)]
      refine ⟨⟨by simp [minGetBits], h0.bytes⟩, by simp [Rd.tail, hm], by simpa [minGetBits] using hn,
        by simp [minGetBits], ?_⟩
      have e := toBits_shl r0.gb r0.left (57 - r0.left) (by omega)
      rw [show r0.left + (57 - r0.left) = 57 by omega] at e
      simp only [Rd.abs, lpad, hb, LR.mk.injEq, and_true]
      simp only [Rd.bits, hm, if_false, minGetBits, List.append_nil, e]
      exact ⟨trivial, trivial, rfl⟩
    · rw [if_neg hle, if_pos (show n ≤ r0.bits.length by omega)]
      exact ⟨h0, rfl, by omega, fun _ => hb, rfl⟩
  unfold fill at h
  by_cases hm : r.marker = 0
  · rw [if_pos hm] at h
    cases hf : fillLoop false r.gb r.left r.bytes with
    | none => rw [hf] at h; simp at h
    | some res =>
      obtain ⟨gb', left', bytes', m⟩ := res
      rw [hf] at h
      obtain ⟨s1, s2, s3, s4, s5, s6⟩ := fillLoop_spec hr.left64 hr.bytes (by simp) hf
      dsimp only at h
      by_cases h0 : m = 0
      · subst h0
        simp only [if_true, Option.some.injEq] at h s1
        have s5 := s5 rfl
        simp only [minGetBits] at s5
        subst h
        have hb : toBits r.left r.gb ++ bitsOfBytes (unstuff false r.bytes) = r.bits := by simp [Rd.bits, hm]
        have hlen : n ≤ r.bits.length := by rw [← hb, s1]; simp; omega
        rw [if_pos hlen]
        refine ⟨⟨s2, s3⟩, by simp [Rd.tail, hm, s5.1], by dsimp only; omega, by dsimp only; omega, ?_⟩
        simp [Rd.abs, Rd.bits, hm, s1]
      · simp only [h0, if_false, Option.some.injEq] at h s1
        have s6 := s6 h0
        obtain ⟨q1, q2, q3, q4, q5⟩ := nm { r with gb := gb', left := left', bytes := bytes', marker := m }
          ⟨s2, s3⟩ h0
        have hb : ({ r with gb := gb', left := left', bytes := bytes', marker := m } : Rd).bits = r.bits := by
          simp [Rd.bits, hm, h0, s1]
        rw [h] at q1 q2 q3 q4 q5
        refine ⟨q1, q2.trans (by simp [Rd.tail, hm, h0, s6.1]), q3, q4, ?_⟩
        rw [q5, hb]
        simp only [Rd.abs, hb]
  · rw [if_neg hm] at h
    simp only [Option.some.injEq] at h
    have := nm r hr hm
    rw [h] at this
    exact this

theorem fill_total {r : Rd} (n : Nat) (ht : r.tail ≠ none) : fill r n ≠ none := by
  unfold fill
  split
  · rename_i hm
    have ht' : segTail false r.bytes ≠ none := by simpa [Rd.tail, hm] using ht
    cases hf : fillLoop false r.gb r.left r.bytes with
    | none => exact absurd hf (fillLoop_isSome ht')
    | some res => dsimp only; split <;> simp
  · simp

theorem dropBits_abs {r : Rd} {n : Nat} (hr : r.Ok) (hn : n ≤ r.left) :
    (dropBits r n).Ok ∧ (dropBits r n).tail = r.tail ∧
    (dropBits r n).abs = { r.abs with bits := r.bits.drop n } := by
  refine ⟨(dropBits_same hr).ok, rfl, ?_⟩
  simp only [Rd.abs, dropBits_bits hn]
  rfl

theorem readBits_abs {r r' : Rd} {n x : Nat} (hr : r.Ok) (hn : n ≤ 32) (h : readBits r n = some (x, r')) :
    r'.Ok ∧ r'.tail = r.tail ∧ lread r.abs n = (x, r'.abs) := by
  unfold readBits checkBits at h
  by_cases hl : r.left < n
  · rw [if_pos hl] at h
    cases hf : fill r n with
    | none => rw [hf] at h; simp at h
    | some r1 =>
      rw [hf] at h
      simp only [Option.some.injEq, Prod.mk.injEq] at h
      obtain ⟨rfl, rfl⟩ := h
      obtain ⟨a1, a2, a3, -, a5⟩ := fill_abs hr (by omega) hf
      obtain ⟨b1, b2, b3⟩ := dropBits_abs a1 a3
      refine ⟨b1, b2.trans a2, ?_⟩
      have e : (if n ≤ r.abs.bits.length then r.abs else lpad r.abs) = r1.abs := a5.symm
      unfold lread
      rw [e]
      dsimp only
      rw [b3, (peekBits_eq a3 hn).2]
      rfl
  · rw [if_neg hl] at h
    simp only [Option.some.injEq, Prod.mk.injEq] at h
    obtain ⟨rfl, rfl⟩ := h
    obtain ⟨b1, b2, b3⟩ := dropBits_abs (n := n) hr (by omega)
    refine ⟨b1, b2, ?_⟩
    unfold lread
    rw [if_pos (show n ≤ r.abs.bits.length by simp [Rd.abs, Rd.bits]; omega)]
    dsimp only
    rw [b3, (peekBits_eq (by omega) hn).2]
    rfl

theorem readBits_total {r : Rd} (n : Nat) (ht : r.tail ≠ none) : readBits r n ≠ none := by
  unfold readBits checkBits
  split
  · rename_i h
    split at h
    · exact absurd h (fill_total n ht)
    · simp at h
  · simp

theorem slowLoop_abs {d : DTbl} {fuel : Nat} {r r' : Rd} {code l code' l' : Nat} (hr : r.Ok)
    (h : slowLoop d fuel r code l = some (code', l', r')) :
    r'.Ok ∧ r'.tail = r.tail ∧ lslow d fuel r.abs code l = (code', l', r'.abs) := by
  induction fuel generalizing r code l with
  | zero =>
    simp only [slowLoop, Option.some.injEq, Prod.mk.injEq] at h
    obtain ⟨rfl, rfl, rfl⟩ := h
    exact ⟨hr, rfl, rfl⟩
  | succ fuel ih =>
    simp only [slowLoop] at h
    simp only [lslow]
    split at h
    · rename_i hc
      rw [if_pos hc]
      cases hb : readBits r 1 with
      | none => rw [hb] at h; simp at h
      | some y =>
        obtain ⟨b, r1⟩ := y
        rw [hb] at h
        obtain ⟨a1, a2, a3⟩ := readBits_abs hr (by omega) hb
        obtain ⟨b1, b2, b3⟩ := ih a1 h
        rw [a3]
        exact ⟨b1, b2.trans a2, b3⟩
    · rename_i hc
      rw [if_neg hc]
      simp only [Option.some.injEq, Prod.mk.injEq] at h
      obtain ⟨rfl, rfl, rfl⟩ := h
      exact ⟨hr, rfl, rfl⟩

theorem slowLoop_total {d : DTbl} {fuel : Nat} {r : Rd} {code l : Nat} (hr : r.Ok) (ht : r.tail ≠ none) :
    slowLoop d fuel r code l ≠ none := by
  induction fuel generalizing r code l with
  | zero => simp [slowLoop]
  | succ fuel ih =>
    simp only [slowLoop]
    split
    · cases hb : readBits r 1 with
      | none => exact absurd hb (readBits_total 1 ht)
      | some y =>
        obtain ⟨b, r1⟩ := y
        obtain ⟨a1, a2, -⟩ := readBits_abs hr (by omega) hb
        exact ih a1 (by rw [a2]; exact ht)
    · simp

theorem huffSlow_abs {d : DTbl} {r r' : Rd} {m x : Nat} (hr : r.Ok) (hm : m ≤ 32)
    (h : huffSlow d r m = some (x, r')) :
    r'.Ok ∧ r'.tail = r.tail ∧ lhuffSlow d r.abs m = (x, r'.abs) := by
  unfold huffSlow at h
  cases hb : readBits r m with
  | none => rw [hb] at h; simp at h
  | some y =>
    obtain ⟨c, r1⟩ := y
    rw [hb] at h
    dsimp only at h
    obtain ⟨a1, a2, a3⟩ := readBits_abs hr hm hb
    cases hs : slowLoop d (17 - m) r1 c m with
    | none => rw [hs] at h; simp at h
    | some z =>
      obtain ⟨c', l', r2⟩ := z
      rw [hs] at h
      dsimp only at h
      obtain ⟨b1, b2, b3⟩ := slowLoop_abs a1 hs
      unfold lhuffSlow
      dsimp only
      rw [a3]
      dsimp only
      rw [b3]
      dsimp only
      split at h
      · rename_i hl
        rw [if_pos hl]
        simp only [Option.some.injEq, Prod.mk.injEq] at h
        obtain ⟨rfl, rfl⟩ := h
        exact ⟨⟨b1.left64, b1.bytes⟩, b2.trans a2, rfl⟩
      · rename_i hl
        rw [if_neg hl]
        simp only [Option.some.injEq, Prod.mk.injEq] at h
        obtain ⟨rfl, rfl⟩ := h
        exact ⟨b1, b2.trans a2, rfl⟩

theorem huffSlow_total {d : DTbl} {r : Rd} {m : Nat} (hr : r.Ok) (hm : m ≤ 32) (ht : r.tail ≠ none) :
    huffSlow d r m ≠ none := by
  unfold huffSlow
  cases hb : readBits r m with
  | none => exact absurd hb (readBits_total m ht)
  | some y =>
    obtain ⟨c, r1⟩ := y
    obtain ⟨a1, a2, -⟩ := readBits_abs hr hm hb
    dsimp only
    cases hs : slowLoop d (17 - m) r1 c m with
    | none => exact absurd hs (slowLoop_total a1 (by rw [a2]; exact ht))
    | some z => dsimp only; split <;> simp

/-- The lookahead table sends the out-of-line decoder at most 9 bits. -/
def LookOk (d : DTbl) : Prop := ∀ v, v < 256 → d.lookup.getD v 0 >>> 8 ≤ 9

theorem huffDecode_abs {d : DTbl} {r r' : Rd} {x : Nat} (hd : LookOk d) (hr : r.Ok)
    (h : huffDecode d r = some (x, r')) :
    r'.Ok ∧ r'.tail = r.tail ∧ lhuff d r.abs = (x, r'.abs) := by
  unfold huffDecode at h
  obtain ⟨r1, hr1, a1, a2, a3, a4⟩ : ∃ r1, (if r.left < 8 then fill r 0 else some r) = some r1 ∧
      r1.Ok ∧ r1.tail = r.tail ∧ r1.abs = r.abs ∧ (r1.left < 8 → r1.bits.length = r1.left) := by
    by_cases hl : r.left < 8
    · rw [if_pos hl] at h ⊢
      cases hf : fill r 0 with
      | none => rw [hf] at h; simp at h
      | some r1 =>
        obtain ⟨b1, b2, -, b4, b5⟩ := fill_abs hr (by omega) hf
        exact ⟨r1, rfl, b1, b2, by rw [b5, if_pos (Nat.zero_le _)], b4⟩
    · rw [if_neg hl]
      exact ⟨r, rfl, hr, rfl, rfl, fun h => absurd h hl⟩
  rw [hr1] at h
  dsimp only at h
  unfold lhuff
  rw [← a3]
  by_cases hl : r1.left < 8
  · rw [if_pos hl] at h
    rw [if_pos (show r1.abs.bits.length < 8 by show r1.bits.length < 8; rw [a4 hl]; exact hl)]
    obtain ⟨c1, c2, c3⟩ := huffSlow_abs a1 (by omega) h
    exact ⟨c1, c2.trans a2, c3⟩
  · rw [if_neg hl] at h
    rw [if_neg (show ¬ r1.abs.bits.length < 8 by simp [Rd.abs, Rd.bits]; omega)]
    obtain ⟨p1, p2⟩ := peekBits_eq (r := r1) (n := 8) (by omega) (by omega)
    have hv : ofBits (r1.bits.take 8) < 256 := by
      have := take_bits_lt (r := r1) (n := 8); omega
    have h9 := hd _ hv
    rw [p2] at h
    show _ ∧ _ ∧ (if d.lookup.getD (ofBits (r1.bits.take 8)) 0 >>> 8 ≤ 8 then _ else _) = _
    split at h
    · rename_i h8
      rw [if_pos h8]
      simp only [Option.some.injEq, Prod.mk.injEq] at h
      obtain ⟨rfl, rfl⟩ := h
      obtain ⟨b1, b2, b3⟩ := dropBits_abs (n := d.lookup.getD (ofBits (r1.bits.take 8)) 0 >>> 8) a1 (by omega)
      refine ⟨b1, b2.trans a2, ?_⟩
      rw [b3]
      rfl
    · rename_i h8
      rw [if_neg h8]
      obtain ⟨c1, c2, c3⟩ := huffSlow_abs a1 (by omega) h
      exact ⟨c1, c2.trans a2, c3⟩

theorem huffDecode_total {d : DTbl} {r : Rd} (hd : LookOk d) (hr : r.Ok) (ht : r.tail ≠ none) :
    huffDecode d r ≠ none := by
  unfold huffDecode
  obtain ⟨r1, hr1, a1, a2⟩ : ∃ r1, (if r.left < 8 then fill r 0 else some r) = some r1 ∧
      r1.Ok ∧ r1.tail = r.tail := by
    by_cases hl : r.left < 8
    · rw [if_pos hl]
      cases hf : fill r 0 with
      | none => exact absurd hf (fill_total 0 ht)
      | some r1 =>
        obtain ⟨b1, b2, -⟩ := fill_abs hr (by omega) hf
        exact ⟨r1, rfl, b1, b2⟩
    · rw [if_neg hl]
      exact ⟨r, rfl, hr, rfl⟩
  rw [hr1]
  dsimp only
  have ht1 : r1.tail ≠ none := by rw [a2]; exact ht
  split
  · exact huffSlow_total a1 (by omega) ht1
  · obtain ⟨p1, p2⟩ := peekBits_eq (r := r1) (n := 8) (by omega) (by omega)
    have hv : ofBits (r1.bits.take 8) < 256 := by
      have := take_bits_lt (r := r1) (n := 8); omega
    have h9 := hd _ hv
    rw [p2]
    split
    · simp
    · exact huffSlow_total a1 (by omega) ht1

variable {sizes codes vals : List Nat} {d : DTbl}

theorem isBytes_getD {l : List Nat} (h : IsBytes l) (q : Nat) : l.getD q 0 < 256 := by
  rw [List.getD_eq_getElem?_getD]
  cases e : l[q]? with
  | none => simp
  | some x => exact h x (List.mem_of_getElem? e)

theorem lread_lt (a : LR) (n : Nat) : (lread a n).1 < 2 ^ n := by
  unfold lread
  dsimp only
  refine Nat.lt_of_lt_of_le (ofBits_lt _) (Nat.pow_le_pow_right (by omega) (by simp))

/-- The bit-at-a-time loop ends at 17, or at the code of a table entry whose index it computes. -/
theorem lslow_stop (F : DFacts sizes codes vals d) (fuel : Nat) (a : LR) {code l : Nat} (h1 : 1 ≤ l)
    (hfuel : l + fuel = 17) (ha : Above sizes codes l code) :
    (lslow d fuel a code l).2.1 ≤ 17 ∧ l ≤ (lslow d fuel a code l).2.1 ∧
    ((lslow d fuel a code l).2.1 ≤ 16 → ∃ q, q < sizes.length ∧
      sizes.getD q 0 = (lslow d fuel a code l).2.1 ∧ codes.getD q 0 = (lslow d fuel a code l).1 ∧
      ((lslow d fuel a code l).1 : Int) + d.valoffset.getD ((lslow d fuel a code l).2.1 - 1) 0 = q) := by
  induction fuel generalizing a code l with
  | zero => simp only [lslow]; exact ⟨by omega, by omega, fun h => by omega⟩
  | succ fuel ih =>
    simp only [lslow]
    split
    · rename_i hg
      obtain ⟨q1, q2, q3⟩ := ih (lread a 1).2 (code := (code <<< 1) ||| (lread a 1).1) (l := l + 1) (by omega)
        (by omega) (ha.step F h1 (by omega) (by have := lread_lt a 1; omega) hg)
      exact ⟨q1, by omega, q3⟩
    · rename_i hg
      refine ⟨by dsimp only; omega, Nat.le_refl _, fun _ => ?_⟩
      obtain ⟨q, e1, e2, e3, e4⟩ := stop_entry F h1 (by omega) ha (by omega)
      exact ⟨q, e1, e2, e3, e4⟩

theorem lhuffSlow_sym (F : DFacts sizes codes vals d) (a : LR) {l : Nat} (h1 : 1 ≤ l) (hl : l ≤ 17)
    (ha : Above sizes codes l (lread a l).1) :
    (lhuffSlow d a l).1 = 0 ∨ ∃ q, q < sizes.length ∧ (lhuffSlow d a l).1 = vals.getD q 0 := by
  unfold lhuffSlow
  dsimp only
  obtain ⟨e1, e2, e3⟩ := lslow_stop F (17 - l) (lread a l).2 h1 (by omega) ha
  split
  · exact Or.inl rfl
  · obtain ⟨q, q1, q2, q3, q4⟩ := e3 (by omega)
    right
    refine ⟨q, q1, ?_⟩
    rw [q4, F.vals_eq]
    simp

/-- When no code of at most 8 bits matches the next 8 bits, 9 bits are past all those codes. -/
theorem above_nine (F : DFacts sizes codes vals d) {a : LR} (h8 : 8 ≤ a.bits.length)
    (hmiss : ∀ p, p < sizes.length → sizes.getD p 0 ≤ 8 →
        codes.getD p 0 ≠ ofBits (a.bits.take 8) >>> (8 - sizes.getD p 0)) :
    Above sizes codes 9 (lread a 9).1 := by
  intro p hp hlt
  have hv : ofBits (a.bits.take 8) < 256 := by
    have := ofBits_lt (a.bits.take 8)
    rw [List.length_take, Nat.min_eq_left h8] at this
    omega
  have hma := miss_above F.canon hv hmiss p hp (by omega)
  have e9 : (lread a 9).1 / 2 = ofBits (a.bits.take 8) := by
    have key : ∀ b : LR, 9 ≤ b.bits.length → ofBits (b.bits.take 9) / 2 = ofBits (b.bits.take 8) := by
      intro b hb
      have : b.bits.take 9 = b.bits.take 8 ++ (b.bits.drop 8).take 1 := by rw [← List.take_add]
      rw [this, ofBits_append]
      have h1 : ((b.bits.drop 8).take 1).length = 1 := by simp; omega
      have := ofBits_lt ((b.bits.drop 8).take 1)
      rw [h1] at this ⊢
      omega
    unfold lread
    dsimp only
    split
    · rw [key _ (by assumption)]
    · rw [key _ (by simp [lpad]; omega)]
      simp only [lpad]
      rw [List.take_append_of_le_length h8]
  rw [show 9 - sizes.getD p 0 = 1 + (8 - sizes.getD p 0) by omega, Nat.pow_add,
    ← Nat.div_div_eq_div_mul, Nat.pow_one, e9, ← Nat.shiftRight_eq_div_pow]
  exact hma

/-- Whatever the bits, the symbol decoded is 0 (invalid code) or a symbol of the table. -/
theorem lhuff_sym (F : DFacts sizes codes vals d) (hb : IsBytes vals) (a : LR) :
    (lhuff d a).1 = 0 ∨ ∃ q, q < sizes.length ∧ (lhuff d a).1 = vals.getD q 0 := by
  unfold lhuff
  split
  · exact lhuffSlow_sym F a (by omega) (by omega) (above_one F _)
  · rename_i h8
    dsimp only
    have hv : ofBits (a.bits.take 8) < 256 := by
      have := ofBits_lt (a.bits.take 8)
      rw [List.length_take, Nat.min_eq_left (by omega)] at this
      omega
    by_cases hm : ∀ p, p < sizes.length → sizes.getD p 0 ≤ 8 →
        codes.getD p 0 ≠ ofBits (a.bits.take 8) >>> (8 - sizes.getD p 0)
    · rw [F.look_miss _ hv hm, show (9 * 256 : Nat) >>> 8 = 9 by rfl, if_neg (by omega)]
      exact lhuffSlow_sym F a (by omega) (by omega) (above_nine F (by omega) hm)
    · simp only [not_forall, not_not] at hm
      obtain ⟨q, hq, hq8, hc⟩ := hm
      rw [F.look_hit _ q hv hq hq8 hc]
      have hb' : vals.getD q 0 < 256 := isBytes_getD hb q
      rw [(or_hi_lo hb').1, (or_hi_lo hb').2, if_pos hq8]
      exact Or.inr ⟨q, hq, rfl⟩

theorem lookOk_of_facts (F : DFacts sizes codes vals d) (hb : IsBytes vals) : LookOk d := by
  intro v hv
  by_cases hm : ∀ p, p < sizes.length → sizes.getD p 0 ≤ 8 → codes.getD p 0 ≠ v >>> (8 - sizes.getD p 0)
  · rw [F.look_miss _ hv hm]; decide
  · simp only [not_forall, not_not] at hm
    obtain ⟨q, hq, hq8, hc⟩ := hm
    rw [F.look_hit _ q hv hq hq8 hc]
    have hb' : vals.getD q 0 < 256 := isBytes_getD hb q
    rw [(or_hi_lo hb').1]
    omega

/-- A derived table that decodes to symbols of at most `m`. -/
structure DOk (d : DTbl) (m : Nat) : Prop where
  look : LookOk d
  sym : ∀ a, (lhuff d a).1 ≤ m

theorem makeDTbl_ok {ms : Option Nat} {t : HuffTbl} (h16 : t.counts.length = 16) (hb : IsBytes t.vals)
    (h : makeDTbl ms t = some d) : DOk d (ms.getD 255) := by
  obtain ⟨sizes, codes, -, F, hm⟩ := makeDTbl_facts h16 h
  refine ⟨lookOk_of_facts F hb, fun a => ?_⟩
  rcases lhuff_sym F hb a with h | ⟨q, hq, h⟩
  · omega
  · rw [h]
    cases ms with
    | none => have := isBytes_getD hb q; simp only [Option.getD_none]; omega
    | some m => exact hm m rfl q hq

theorem decAC_abs {need : Bool} (hd : DOk d 255) (k : Nat) {blk blk' : List Int} {r r' : Rd} (hr : r.Ok)
    (h : decAC d need k blk r = some (blk', r')) :
    r'.Ok ∧ r'.tail = r.tail ∧ lAC d need k blk r.abs = (blk', r'.abs) := by
  fun_induction decAC d need k blk r with
  | case1 k blk r hk hn => simp at h
  | case2 k blk r hk sym r1 hs s hs0 hx => simp at h
  | case3 k blk r hk sym r1 hs run s hs0 x r2 hx ih =>
    obtain ⟨a1, a2, a3⟩ := huffDecode_abs hd.look hr hs
    obtain ⟨b1, b2, b3⟩ := readBits_abs a1 (by have : sym &&& 15 ≤ 15 := Nat.and_le_right; omega) hx
    obtain ⟨c1, c2, c3⟩ := ih b1 h
    refine ⟨c1, c2.trans (b2.trans a2), ?_⟩
    rw [lAC, if_pos hk, a3]
    dsimp only
    rw [if_pos hs0, b3]
    exact c3
  | case4 k blk r hk sym r1 hs run s hs0 hrun =>
    obtain ⟨a1, a2, a3⟩ := huffDecode_abs hd.look hr hs
    simp only [Option.some.injEq, Prod.mk.injEq] at h
    obtain ⟨rfl, rfl⟩ := h
    refine ⟨a1, a2, ?_⟩
    rw [lAC, if_pos hk, a3]
    dsimp only
    rw [if_neg hs0, if_pos hrun]
  | case5 k blk r hk sym r1 hs run s hs0 hrun ih =>
    obtain ⟨a1, a2, a3⟩ := huffDecode_abs hd.look hr hs
    obtain ⟨c1, c2, c3⟩ := ih a1 h
    refine ⟨c1, c2.trans a2, ?_⟩
    rw [lAC, if_pos hk, a3]
    dsimp only
    rw [if_neg hs0, if_neg hrun]
    exact c3
  | case6 k blk r hk =>
    simp only [Option.some.injEq, Prod.mk.injEq] at h
    obtain ⟨rfl, rfl⟩ := h
    refine ⟨hr, rfl, ?_⟩
    rw [lAC, if_neg hk]

theorem decAC_total {need : Bool} (hd : DOk d 255) (k : Nat) {blk : List Int} {r : Rd} (hr : r.Ok)
    (ht : r.tail ≠ none) : decAC d need k blk r ≠ none := by
  fun_induction decAC d need k blk r with
  | case1 k blk r hk hn => exact absurd hn (huffDecode_total hd.look hr ht)
  | case2 k blk r hk sym r1 hs s hs0 hx =>
    obtain ⟨a1, a2, a3⟩ := huffDecode_abs hd.look hr hs
    exact absurd hx (readBits_total _ (by rw [a2]; exact ht))
  | case3 k blk r hk sym r1 hs run s hs0 x r2 hx ih =>
    obtain ⟨a1, a2, a3⟩ := huffDecode_abs hd.look hr hs
    obtain ⟨b1, b2, b3⟩ := readBits_abs a1 (by have : sym &&& 15 ≤ 15 := Nat.and_le_right; omega) hx
    exact ih b1 (by rw [b2, a2]; exact ht)
  | case4 k blk r hk sym r1 hs run s hs0 hrun => simp
  | case5 k blk r hk sym r1 hs run s hs0 hrun ih =>
    obtain ⟨a1, a2, a3⟩ := huffDecode_abs hd.look hr hs
    exact ih a1 (by rw [a2]; exact ht)
  | case6 k blk r hk => simp

/-- The tables of a block of the scan, as start_pass_huff_decoder accepts them (jdhuff.c:95-100): DC symbols are
at most 15. -/
structure DBlk.Ok (b : DBlk) : Prop where
  dc : DOk b.dc 15
  ac : DOk b.ac 255

theorem decBlock_abs {b : DBlk} (hb : b.Ok) {last last' : Nat → Int} {blk : List Int} {r r' : Rd} (hr : r.Ok)
    (h : decBlock b last r = some (blk, last', r')) :
    r'.Ok ∧ r'.tail = r.tail ∧ lBlock b last r.abs = (blk, last', r'.abs) := by
  unfold decBlock at h
  cases hs : huffDecode b.dc r with
  | none => rw [hs] at h; simp at h
  | some y =>
    obtain ⟨s, r1⟩ := y
    rw [hs] at h
    dsimp only at h
    obtain ⟨a1, a2, a3⟩ := huffDecode_abs hb.dc.look hr hs
    have hs15 : s ≤ 15 := by have := hb.dc.sym r.abs; rw [a3] at this; exact this
    unfold lBlock
    rw [a3]
    dsimp only
    cases hx : (if s ≠ 0 then (readBits r1 s).map (fun xr => (huffExtend xr.1 s, xr.2)) else some (0, r1)) with
    | none => rw [hx] at h; simp at h
    | some y =>
      obtain ⟨diff, r2⟩ := y
      rw [hx] at h
      dsimp only at h
      obtain ⟨b1, b2, b3⟩ : r2.Ok ∧ r2.tail = r1.tail ∧
          (if s ≠ 0 then (huffExtend (lread r1.abs s).1 s, (lread r1.abs s).2) else (0, r1.abs)) =
            (diff, r2.abs) := by
        by_cases h0 : s ≠ 0
        · rw [if_pos h0] at hx ⊢
          cases hr2 : readBits r1 s with
          | none => rw [hr2] at hx; simp at hx
          | some z =>
            obtain ⟨x, r3⟩ := z
            rw [hr2] at hx
            simp only [Option.map_some, Option.some.injEq, Prod.mk.injEq] at hx
            obtain ⟨rfl, rfl⟩ := hx
            obtain ⟨c1, c2, c3⟩ := readBits_abs a1 (by omega) hr2
            rw [c3]
            exact ⟨c1, c2, rfl⟩
        · rw [if_neg h0] at hx ⊢
          simp only [Option.some.injEq, Prod.mk.injEq] at hx
          obtain ⟨rfl, rfl⟩ := hx
          exact ⟨a1, rfl, rfl⟩
      rw [b3]
      dsimp only
      cases hac : decAC b.ac b.acNeeded 1 (if b.dcNeeded = true then
          (List.replicate 64 (0 : Int)).set 0 (toCoef (diff + last b.ci)) else List.replicate 64 0) r2 with
      | none => rw [hac] at h; simp at h
      | some y =>
        obtain ⟨blk', r3⟩ := y
        rw [hac] at h
        simp only [Option.some.injEq, Prod.mk.injEq] at h
        obtain ⟨rfl, rfl, rfl⟩ := h
        obtain ⟨c1, c2, c3⟩ := decAC_abs hb.ac 1 b1 hac
        rw [c3]
        exact ⟨c1, c2.trans (b2.trans a2), rfl⟩

theorem decBlock_total {b : DBlk} (hb : b.Ok) {last : Nat → Int} {r : Rd} (hr : r.Ok) (ht : r.tail ≠ none) :
    decBlock b last r ≠ none := by
  unfold decBlock
  cases hs : huffDecode b.dc r with
  | none => exact absurd hs (huffDecode_total hb.dc.look hr ht)
  | some y =>
    obtain ⟨s, r1⟩ := y
    dsimp only
    obtain ⟨a1, a2, a3⟩ := huffDecode_abs hb.dc.look hr hs
    have hs15 : s ≤ 15 := by have := hb.dc.sym r.abs; rw [a3] at this; exact this
    have ht1 : r1.tail ≠ none := by rw [a2]; exact ht
    have key : ∀ (diff : Int) (r2 : Rd), r2.Ok → r2.tail ≠ none → ∀ blk, decAC b.ac b.acNeeded 1 blk r2 ≠ none :=
      fun diff r2 h1 h2 blk => decAC_total hb.ac 1 h1 h2
    by_cases h0 : s ≠ 0
    · rw [if_pos h0]
      cases hr2 : readBits r1 s with
      | none => exact absurd hr2 (readBits_total s ht1)
      | some z =>
        obtain ⟨x, r3⟩ := z
        obtain ⟨c1, c2, c3⟩ := readBits_abs a1 (by omega) hr2
        simp only [Option.map_some]
        split
        · rename_i hac; exact absurd hac (decAC_total hb.ac 1 c1 (by rw [c2]; exact ht1))
        · simp
    · rw [if_neg h0]
      dsimp only
      split
      · rename_i hac; exact absurd hac (decAC_total hb.ac 1 a1 ht1)
      · simp

theorem decBlocks_abs {bs : List DBlk} (hb : ∀ b ∈ bs, b.Ok) {last last' : Nat → Int} {blks : List (List Int)}
    {r r' : Rd} (hr : r.Ok) (h : decBlocks bs last r = some (blks, last', r')) :
    r'.Ok ∧ r'.tail = r.tail ∧ lBlocks bs last r.abs = (blks, last', r'.abs) := by
  induction bs generalizing last r blks with
  | nil =>
    simp only [decBlocks, Option.some.injEq, Prod.mk.injEq] at h
    obtain ⟨rfl, rfl, rfl⟩ := h
    exact ⟨hr, rfl, rfl⟩
  | cons b bs ih =>
    simp only [decBlocks] at h
    cases h1 : decBlock b last r with
    | none => rw [h1] at h; simp at h
    | some y =>
      obtain ⟨blk, last1, r1⟩ := y
      rw [h1] at h
      dsimp only at h
      obtain ⟨a1, a2, a3⟩ := decBlock_abs (hb b (by simp)) hr h1
      cases h2 : decBlocks bs last1 r1 with
      | none => rw [h2] at h; simp at h
      | some z =>
        obtain ⟨blks1, last2, r2⟩ := z
        rw [h2] at h
        simp only [Option.some.injEq, Prod.mk.injEq] at h
        obtain ⟨rfl, rfl, rfl⟩ := h
        obtain ⟨b1, b2, b3⟩ := ih (fun b hb' => hb b (by simp [hb'])) a1 h2
        refine ⟨b1, b2.trans a2, ?_⟩
        simp only [lBlocks, a3, b3]

theorem decBlocks_total {bs : List DBlk} (hb : ∀ b ∈ bs, b.Ok) {last : Nat → Int} {r : Rd} (hr : r.Ok)
    (ht : r.tail ≠ none) : decBlocks bs last r ≠ none := by
  induction bs generalizing last r with
  | nil => simp [decBlocks]
  | cons b bs ih =>
    simp only [decBlocks]
    cases h1 : decBlock b last r with
    | none => exact absurd h1 (decBlock_total (hb b (by simp)) hr ht)
    | some y =>
      obtain ⟨blk, last1, r1⟩ := y
      obtain ⟨a1, a2, a3⟩ := decBlock_abs (hb b (by simp)) hr h1
      dsimp only
      cases h2 : decBlocks bs last1 r1 with
      | none => exact absurd h2 (ih (fun b hb' => hb b (by simp [hb'])) a1 (by rw [a2]; exact ht))
      | some z => simp

end Verif.Huff
