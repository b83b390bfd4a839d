import Verif.Huff.Abs
/-
Specification of Huffman decoding (T.81 F.2.2) over an infinite sequence of bits `z`, with a position in it, and the
proof that the ideal reader of `Abs.lean` (hence the byte-level decoder) computes it, where `z` is the bits of the
segment followed by zeros.
-/
namespace Verif.Huff

/-- The number in the `n` bits of `z` starting at `p`. -/
def win (z : Nat → Bool) (p n : Nat) : Nat := ofBits ((List.range n).map (fun i => z (p + i)))

/-- The bits of `l`, then zeros for ever. -/
def zeroExt (l : List Bool) : Nat → Bool := fun i => l.getD i false

/-- T.81 Figure F.16: the length of the code at `p`, trying lengths `l`, `l+1`, ... up to 17. -/
def codeLen (d : DTbl) (z : Nat → Bool) (p : Nat) : (fuel l : Nat) → Nat
  | 0, l => l
  | fuel + 1, l => if (win z p l : Int) > d.maxcode.getD (l - 1) 0 then codeLen d z p fuel (l + 1) else l

/-- The symbol at `p` and the position after it; 0 and 17 bits for an invalid code. -/
def symAt (d : DTbl) (z : Nat → Bool) (p : Nat) : Nat × Nat :=
  let l := codeLen d z p 16 1
  (if l > 16 then 0 else d.vals.getD ((win z p l : Int) + d.valoffset.getD (l - 1) 0).toNat 0, p + l)

/-- The AC coefficients `k..63` from position `p`. -/
def iAC (d : DTbl) (need : Bool) (z : Nat → Bool) (k : Nat) (blk : List Int) (p : Nat) : List Int × Nat :=
  if k < 64 then
    let h := symAt d z p
    if h.1 &&& 15 ≠ 0 then
      iAC d need z (k + (h.1 >>> 4) + 1)
        (if need then blk.set (natOrder.getD (k + (h.1 >>> 4)) 0)
          (toCoef (huffExtend (win z h.2 (h.1 &&& 15)) (h.1 &&& 15))) else blk) (h.2 + (h.1 &&& 15))
    else if h.1 >>> 4 ≠ 15 then (blk, h.2)
    else iAC d need z (k + 15 + 1) blk h.2
  else (blk, p)
termination_by 64 - k

/-- One block from position `p`, into `blk`. -/
def iBlock (b : DBlk) (z : Nat → Bool) (last : Nat → Int) (blk : List Int) (p : Nat) :
    List Int × (Nat → Int) × Nat :=
  let h := symAt b.dc z p
  let v := (if h.1 ≠ 0 then huffExtend (win z h.2 h.1) h.1 else 0) + last b.ci
  let y := iAC b.ac b.acNeeded z 1 (if b.dcNeeded then blk.set 0 (toCoef v) else blk) (h.2 + h.1)
  (y.1, if b.dcNeeded then upd last b.ci v else last, y.2)

/-- The blocks of one MCU, each starting from zero. -/
def iBlocks (z : Nat → Bool) : List DBlk → (Nat → Int) → Nat → List (List Int) × (Nat → Int) × Nat
  | [], last, p => ([], last, p)
  | b :: bs, last, p =>
    let x := iBlock b z last (List.replicate 64 0) p
    let y := iBlocks z bs x.2.1 x.2.2
    (x.1 :: y.1, y.2.1, y.2.2)

theorem win_lt (z : Nat → Bool) (p n : Nat) : win z p n < 2 ^ n := by
  have := ofBits_lt ((List.range n).map (fun i => z (p + i)))
  simpa [win] using this

theorem win_add (z : Nat → Bool) (p m n : Nat) : win z p (m + n) = win z p m * 2 ^ n + win z (p + m) n := by
  unfold win
  rw [List.range_add, List.map_append, ofBits_append]
  simp [List.map_map, Function.comp_def, Nat.add_assoc]

theorem win_zero (z : Nat → Bool) (p : Nat) : win z p 0 = 0 := rfl

theorem win_succ (z : Nat → Bool) (p l : Nat) : (win z p l <<< 1) ||| win z (p + l) 1 = win z p (l + 1) := by
  have h := win_lt z (p + l) 1
  rw [win_add z p l 1, ← shl_or_eq h]

theorem win_shift (z : Nat → Bool) (p m n : Nat) : win z p (m + n) >>> n = win z p m := by
  rw [win_add, Nat.shiftRight_eq_div_pow, Nat.mul_comm, Nat.mul_add_div (Nat.two_pow_pos n),
    Nat.div_eq_of_lt (win_lt z _ n), Nat.add_zero]

variable {sizes codes vals : List Nat} {d : DTbl}

theorem Above.win_step (F : DFacts sizes codes vals d) {z : Nat → Bool} {p l : Nat} (h1 : 1 ≤ l) (h16 : l ≤ 16)
    (ha : Above sizes codes l (win z p l)) (hg : (win z p l : Int) > d.maxcode.getD (l - 1) 0) :
    Above sizes codes (l + 1) (win z p (l + 1)) := by
  rw [← win_succ]
  exact ha.step F h1 h16 (by have := win_lt z (p + l) 1; omega) hg

/-- Where the search stops: at an entry of the table, or at 17 past all codes. -/
theorem codeLen_stop (F : DFacts sizes codes vals d) (z : Nat → Bool) (p fuel : Nat) {l : Nat} (h1 : 1 ≤ l)
    (hfuel : l + fuel = 17) (ha : Above sizes codes l (win z p l)) :
    l ≤ codeLen d z p fuel l ∧ codeLen d z p fuel l ≤ 17 ∧
    Above sizes codes (codeLen d z p fuel l) (win z p (codeLen d z p fuel l)) ∧
    (codeLen d z p fuel l ≤ 16 → ∃ q, q < sizes.length ∧ sizes.getD q 0 = codeLen d z p fuel l ∧
      codes.getD q 0 = win z p (codeLen d z p fuel l) ∧
      (win z p (codeLen d z p fuel l) : Int) + d.valoffset.getD (codeLen d z p fuel l - 1) 0 = q) := by
  induction fuel generalizing l with
  | zero => simp only [codeLen]; exact ⟨by omega, by omega, ha, fun h => by omega⟩
  | succ fuel ih =>
    simp only [codeLen]
    split
    · rename_i hg
      obtain ⟨q1, q2, q3⟩ := ih (l := l + 1) (by omega) (by omega) (ha.win_step F h1 (by omega) hg)
      exact ⟨by omega, q2, q3⟩
    · rename_i hg
      refine ⟨Nat.le_refl _, by omega, ha, fun _ => ?_⟩
      obtain ⟨q, e1, e2, e3, e4⟩ := stop_entry F h1 (by omega) ha (by omega)
      exact ⟨q, e1, e2, e3, e4⟩

theorem codeLen_skip (d : DTbl) (z : Nat → Bool) (p : Nat) {l m : Nat} (hlm : l ≤ m) (hm : m ≤ 17)
    (h : m ≤ codeLen d z p (17 - l) l) : codeLen d z p (17 - l) l = codeLen d z p (17 - m) m := by
  obtain ⟨k, rfl⟩ := Nat.exists_eq_add_of_le hlm
  clear hlm
  induction k generalizing l with
  | zero => rfl
  | succ k ih =>
    obtain ⟨f, hf⟩ : ∃ f, 17 - l = f + 1 := ⟨16 - l, by omega⟩
    rw [hf] at h ⊢
    simp only [codeLen] at h ⊢
    split at h
    · rename_i hg
      rw [if_pos hg]
      have := ih (l := l + 1) (by omega) (by
        rw [show 17 - (l + 1) = f by omega, show l + 1 + k = l + (k + 1) by omega]; exact h)
      rw [show 17 - (l + 1) = f by omega, show l + 1 + k = l + (k + 1) by omega] at this
      exact this
    · omega

/-- The lookahead table agrees with the bit-at-a-time search. -/
theorem symAt_look (F : DFacts sizes codes vals d) (hb : IsBytes vals) (z : Nat → Bool) (p : Nat) :
    (d.lookup.getD (win z p 8) 0 >>> 8 ≤ 8 →
      symAt d z p = (d.lookup.getD (win z p 8) 0 &&& 255, p + d.lookup.getD (win z p 8) 0 >>> 8)) ∧
    (¬ d.lookup.getD (win z p 8) 0 >>> 8 ≤ 8 → d.lookup.getD (win z p 8) 0 >>> 8 = 9 ∧
      codeLen d z p 16 1 = codeLen d z p 8 9) := by
  have hv : win z p 8 < 256 := win_lt z p 8
  obtain ⟨s1, s2, s3, s4⟩ := codeLen_stop F z p 16 (l := 1) (by omega) (by omega) (above_one F _)
  have hpre : ∀ q m, q < sizes.length → sizes.getD q 0 ≤ m → codes.getD q 0 = win z p (sizes.getD q 0) →
      codes.getD q 0 = win z p m >>> (m - sizes.getD q 0) := by
    intro q m hq hm he
    have := win_shift z p (sizes.getD q 0) (m - sizes.getD q 0)
    rw [show sizes.getD q 0 + (m - sizes.getD q 0) = m by omega] at this
    rw [this, he]
  by_cases hm : ∀ q, q < sizes.length → sizes.getD q 0 ≤ 8 →
      codes.getD q 0 ≠ win z p 8 >>> (8 - sizes.getD q 0)
  · rw [F.look_miss _ hv hm]
    refine ⟨fun h => absurd h (by decide), fun _ => ⟨rfl, ?_⟩⟩
    refine codeLen_skip d z p (l := 1) (m := 9) (by omega) (by omega) ?_
    apply Classical.byContradiction
    intro hlt
    have hlt : codeLen d z p 16 1 < 9 := by simpa using hlt
    obtain ⟨q, q1, q2, q3, -⟩ := s4 (by omega)
    exact hm q q1 (by omega) (hpre q 8 q1 (by omega) (by rw [q3, q2]))
  · simp only [not_forall, not_not] at hm
    obtain ⟨q, hq, hq8, hc⟩ := hm
    rw [F.look_hit _ q hv hq hq8 hc]
    have hb' : vals.getD q 0 < 256 := isBytes_getD hb q
    rw [(or_hi_lo hb').1, (or_hi_lo hb').2]
    refine ⟨fun _ => ?_, fun h => absurd hq8 h⟩
    have hcw : codes.getD q 0 = win z p (sizes.getD q 0) := by
      have := win_shift z p (sizes.getD q 0) (8 - sizes.getD q 0)
      rw [show sizes.getD q 0 + (8 - sizes.getD q 0) = 8 by omega] at this
      rw [hc, this]
    have hL : codeLen d z p 16 1 ≤ 16 := by
      apply Classical.byContradiction
      intro hn
      have e : codeLen d z p 16 1 = 17 := by omega
      rw [e] at s3
      have := s3 q hq (by have := (F.canon.size_range hq).2; omega)
      rw [← Nat.shiftRight_eq_div_pow, ← hpre q 17 hq (by have := (F.canon.size_range hq).2; omega) hcw] at this
      omega
    obtain ⟨q', q1, q2, q3, q4⟩ := s4 hL
    have hqq : q' = q := by
      have hw : ∀ n, toBits n (win z p n) = (List.range n).map (fun i => z (p + i)) := by
        intro n
        have := toBits_ofBits ((List.range n).map (fun i => z (p + i)))
        simpa [win] using this
      refine F.canon.prefix_unique q1 hq (a := (List.range (17 - sizes.getD q' 0)).map (fun i => z (p + (sizes.getD q' 0 + i))))
        (b := (List.range (17 - sizes.getD q 0)).map (fun i => z (p + (sizes.getD q 0 + i)))) ?_
      rw [q3, ← q2, hcw, hw, hw]
      have hr : ∀ m, m ≤ 17 → (List.range m).map (fun i => z (p + i)) ++
          (List.range (17 - m)).map (fun i => z (p + (m + i))) = (List.range 17).map (fun i => z (p + i)) := by
        intro m hm
        conv => rhs; rw [show 17 = m + (17 - m) by omega, List.range_add]
        simp [List.map_map, Function.comp_def]
      rw [hr _ (by omega), hr _ (by omega)]
    subst hqq
    unfold symAt
    dsimp only
    rw [if_neg (by omega), q4, ← q2, F.vals_eq]
    simp

theorem symAt_range (F : DFacts sizes codes vals d) (z : Nat → Bool) (p : Nat) :
    p < (symAt d z p).2 ∧ (symAt d z p).2 ≤ p + 17 ∧
    ((symAt d z p).1 = 0 ∨ (∃ q, q < sizes.length ∧ (symAt d z p).1 = vals.getD q 0) ∧ (symAt d z p).2 ≤ p + 16) := by
  obtain ⟨s1, s2, s3, s4⟩ := codeLen_stop F z p 16 (l := 1) (by omega) (by omega) (above_one F _)
  unfold symAt
  dsimp only
  refine ⟨by omega, by omega, ?_⟩
  split
  · exact Or.inl rfl
  · obtain ⟨q, q1, q2, q3, q4⟩ := s4 (by omega)
    exact Or.inr ⟨⟨q, q1, by rw [q4, F.vals_eq]; simp⟩, by omega⟩

/-- A derived table built by `jpeg_make_d_derived_tbl` from a table of bytes, with symbols at most `m`. -/
structure TOk (d : DTbl) (m : Nat) : Prop where
  ok : DOk d m
  facts : ∃ sizes codes vals, IsBytes vals ∧ DFacts sizes codes vals d ∧ sizes.length ≤ 256 ∧
    ∀ q < sizes.length, vals.getD q 0 ≤ m

theorem expand_len {t : HuffTbl} {sizes codes : List Nat} (h16 : t.counts.length ≤ 16)
    (h : expand t = some (sizes, codes)) : sizes.length = t.counts.sum ∧ sizes.length ≤ 256 := by
  obtain ⟨-, hsz⟩ := expand_canon h16 h
  unfold expand at h
  split at h
  · rename_i hok
    rw [sizesOk_iff 0 _ (by omega)] at hok
    rw [hsz, length_mkSizes]
    exact ⟨rfl, by omega⟩
  · simp at h

theorem makeDTbl_tok {ms : Option Nat} {t : HuffTbl} (h16 : t.counts.length = 16) (hb : IsBytes t.vals)
    (h : makeDTbl ms t = some d) : TOk d (ms.getD 255) := by
  refine ⟨makeDTbl_ok h16 hb h, ?_⟩
  obtain ⟨sizes, codes, he, F, hm⟩ := makeDTbl_facts h16 h
  refine ⟨sizes, codes, t.vals, hb, F, (expand_len (by omega) he).2, fun q hq => ?_⟩
  cases ms with
  | none => have := isBytes_getD hb q; simp only [Option.getD_none]; omega
  | some m => exact hm m rfl q hq

theorem TOk.sym_le {m : Nat} (h : TOk d m) (z : Nat → Bool) (p : Nat) : (symAt d z p).1 ≤ m := by
  obtain ⟨sizes, codes, vals, hb, F, -, hm⟩ := h.facts
  rcases (symAt_range F z p).2.2 with e | ⟨⟨q, hq, e⟩, -⟩
  · omega
  · rw [e]; exact hm q hq

theorem TOk.pos {m : Nat} (h : TOk d m) (z : Nat → Bool) (p : Nat) :
    p < (symAt d z p).2 ∧ (symAt d z p).2 ≤ p + 17 ∧ ((symAt d z p).1 = 0 ∨ (symAt d z p).2 ≤ p + 16) := by
  obtain ⟨sizes, codes, vals, hb, F, -, hm⟩ := h.facts
  obtain ⟨a, b, c⟩ := symAt_range F z p
  exact ⟨a, b, c.imp id (fun h => h.2)⟩

/-- The ideal reader `a` is at position `p` of `z`, whose first `L` bits are the segment; `i0` and `h0` are the
flag and the warning count at position 0. -/
structure At (z : Nat → Bool) (L : Nat) (i0 : Bool) (h0 : Nat) (a : LR) (p : Nat) : Prop where
  bits : ∀ i, a.bits.getD i false = z (p + i)
  inside : p ≤ L → a.bits.length = L - p ∧ a.insuff = i0 ∧ a.hits = h0
  past : L < p → a.insuff = true ∧ a.hits = if i0 then h0 else h0 + 1

theorem take_win {l : List Bool} {z : Nat → Bool} {p : Nat} (hb : ∀ i, l.getD i false = z (p + i)) {n : Nat}
    (hn : n ≤ l.length) : ofBits (l.take n) = win z p n := by
  unfold win
  congr 1
  apply List.ext_getElem
  · simp; omega
  · intro i h1 h2
    have := hb i
    simp at h1
    rw [List.getD_eq_getElem?_getD, List.getElem?_eq_getElem (show i < l.length by omega)] at this
    simpa using this

theorem lread_at {z : Nat → Bool} {L : Nat} {i0 : Bool} {h0 : Nat} {a : LR} {p n : Nat}
    (h : At z L i0 h0 a p) (hn : n ≤ 57) :
    (lread a n).1 = win z p n ∧ At z L i0 h0 (lread a n).2 (p + n) := by
  have drop : ∀ (l : List Bool), (∀ i, l.getD i false = z (p + i)) →
      ∀ i, (l.drop n).getD i false = z (p + n + i) := by
    intro l hl i
    have := hl (n + i)
    rw [show p + n + i = p + (n + i) by omega, ← this]
    simp [List.getD_eq_getElem?_getD]
  unfold lread
  dsimp only
  by_cases hle : n ≤ a.bits.length
  · rw [if_pos hle]
    refine ⟨take_win h.bits hle, drop _ h.bits, ?_, ?_⟩
    · intro hp
      obtain ⟨a1, a2, a3⟩ := h.inside (by omega)
      exact ⟨by simp; omega, a2, a3⟩
    · intro hp
      by_cases hpl : p ≤ L
      · obtain ⟨a1, a2, a3⟩ := h.inside hpl; omega
      · exact h.past (by omega)
  · rw [if_neg hle]
    have hbits : ∀ i, (lpad a).bits.getD i false = z (p + i) := by
      intro i
      rw [← h.bits i]
      simp only [lpad, List.getD_eq_getElem?_getD]
      by_cases hi : i < a.bits.length
      · rw [List.getElem?_append_left hi]
      · rw [List.getElem?_append_right (by omega), List.getElem?_eq_none (l := a.bits) (by omega),
          List.getElem?_replicate]
        split <;> rfl
    refine ⟨take_win hbits (by simp [lpad]; omega), drop _ hbits, ?_, ?_⟩
    · intro hp
      obtain ⟨a1, a2, a3⟩ := h.inside (by omega)
      omega
    · intro hp
      refine ⟨rfl, ?_⟩
      simp only [lpad]
      by_cases hpl : p ≤ L
      · obtain ⟨a1, a2, a3⟩ := h.inside hpl
        rw [a2, a3]
      · obtain ⟨a1, a2⟩ := h.past (by omega)
        rw [a1, a2]; simp

theorem lslow_at {z : Nat → Bool} {L : Nat} {i0 : Bool} {h0 : Nat} (fuel : Nat) {a : LR} {p l : Nat}
    (h : At z L i0 h0 a (p + l)) :
    (lslow d fuel a (win z p l) l).1 = win z p (codeLen d z p fuel l) ∧
    (lslow d fuel a (win z p l) l).2.1 = codeLen d z p fuel l ∧
    At z L i0 h0 (lslow d fuel a (win z p l) l).2.2 (p + codeLen d z p fuel l) := by
  induction fuel generalizing a l with
  | zero => exact ⟨rfl, rfl, h⟩
  | succ fuel ih =>
    simp only [lslow, codeLen]
    split
    · obtain ⟨a1, a2⟩ := lread_at h (n := 1) (by omega)
      rw [a1, win_succ]
      exact ih a2
    · exact ⟨rfl, rfl, h⟩

theorem lhuffSlow_at {z : Nat → Bool} {L : Nat} {i0 : Bool} {h0 : Nat} {a : LR} {p m : Nat} (hm : m ≤ 17)
    (h : At z L i0 h0 a p) (hc : codeLen d z p (17 - m) m = codeLen d z p 16 1) :
    (lhuffSlow d a m).1 = (symAt d z p).1 ∧ At z L i0 h0 (lhuffSlow d a m).2 (symAt d z p).2 := by
  unfold lhuffSlow symAt
  dsimp only
  obtain ⟨a1, a2⟩ := lread_at h (n := m) (by omega)
  rw [a1]
  obtain ⟨b1, b2, b3⟩ := lslow_at (d := d) (17 - m) a2
  rw [b1, b2]
  rw [hc] at b3 ⊢
  split <;> exact ⟨rfl, b3⟩

theorem lhuff_at {m : Nat} (hd : TOk d m) {z : Nat → Bool} {L : Nat} {i0 : Bool} {h0 : Nat} {a : LR} {p : Nat}
    (h : At z L i0 h0 a p) :
    (lhuff d a).1 = (symAt d z p).1 ∧ At z L i0 h0 (lhuff d a).2 (symAt d z p).2 := by
  obtain ⟨sizes, codes, vals, hb, F, -⟩ := hd.facts
  unfold lhuff
  split
  · exact lhuffSlow_at (by omega) h rfl
  · rename_i h8
    dsimp only
    rw [take_win h.bits (by omega)]
    obtain ⟨e1, e2⟩ := symAt_look F hb z p
    split
    · rename_i hle
      rw [e1 hle]
      refine ⟨rfl, ?_⟩
      have := (lread_at h (n := d.lookup.getD (win z p 8) 0 >>> 8) (by omega)).2
      unfold lread at this
      rw [if_pos (show d.lookup.getD (win z p 8) 0 >>> 8 ≤ a.bits.length by omega)] at this
      exact this
    · rename_i hle
      rw [(e2 hle).1]
      exact lhuffSlow_at (by omega) h (e2 hle).2.symm

theorem lAC_at {m : Nat} (hd : TOk d m) {need : Bool} {z : Nat → Bool} {L : Nat} {i0 : Bool} {h0 : Nat} {k : Nat}
    {blk : List Int} {a : LR} {p : Nat} (h : At z L i0 h0 a p) :
    (lAC d need k blk a).1 = (iAC d need z k blk p).1 ∧ At z L i0 h0 (lAC d need k blk a).2 (iAC d need z k blk p).2 := by
  fun_induction lAC d need k blk a generalizing p with
  | case1 k blk a hk hh hs x =>
    rename_i ih
    obtain ⟨a1, a2⟩ := lhuff_at hd h
    have hs' : (lhuff d a).1 &&& 15 ≤ 15 := Nat.and_le_right
    obtain ⟨b1, b2⟩ := lread_at (n := (lhuff d a).1 &&& 15) a2 (by omega)
    rw [iAC, if_pos hk]
    simp only [hh, x, dite_eq_ite] at *
    simp only [← a1]
    rw [if_pos hs]
    rw [b1] at ih ⊢
    exact ih b2
  | case2 k blk a hk hh hs =>
    rename_i hr
    obtain ⟨a1, a2⟩ := lhuff_at hd h
    rw [iAC, if_pos hk]
    simp only [hh] at *
    simp only [← a1]
    rw [if_neg hs, if_pos hr]
    exact ⟨rfl, a2⟩
  | case3 k blk a hk hh hs =>
    rename_i hr ih
    obtain ⟨a1, a2⟩ := lhuff_at hd h
    rw [iAC, if_pos hk]
    simp only [hh] at *
    simp only [← a1]
    rw [if_neg hs, if_neg hr]
    exact ih a2
  | case4 k blk a hk =>
    rw [iAC, if_neg hk]
    exact ⟨rfl, h⟩

/-- The tables of a block are derived from tables of bytes, DC symbols at most 15. -/
structure DBlk.TOk (b : DBlk) : Prop where
  dc : Huff.TOk b.dc 15
  ac : Huff.TOk b.ac 255

theorem DBlk.TOk.toOk {b : DBlk} (h : b.TOk) : b.Ok := ⟨h.dc.ok, h.ac.ok⟩

theorem lBlock_at {b : DBlk} (hb : b.TOk) {z : Nat → Bool} {L : Nat} {i0 : Bool} {h0 : Nat} {last : Nat → Int}
    {a : LR} {p : Nat} (h : At z L i0 h0 a p) :
    (lBlock b last a).1 = (iBlock b z last (List.replicate 64 0) p).1 ∧
    (lBlock b last a).2.1 = (iBlock b z last (List.replicate 64 0) p).2.1 ∧
    At z L i0 h0 (lBlock b last a).2.2 (iBlock b z last (List.replicate 64 0) p).2.2 := by
  obtain ⟨a1, a2⟩ := lhuff_at hb.dc h
  have hs := hb.dc.sym_le z p
  have key : ∀ x : Int × LR, x = (if (lhuff b.dc a).1 ≠ 0 then
        (huffExtend (lread (lhuff b.dc a).2 (lhuff b.dc a).1).1 (lhuff b.dc a).1, (lread (lhuff b.dc a).2 (lhuff b.dc a).1).2)
        else (0, (lhuff b.dc a).2)) →
      x.1 = (if (symAt b.dc z p).1 ≠ 0 then huffExtend (win z (symAt b.dc z p).2 (symAt b.dc z p).1) (symAt b.dc z p).1 else 0) ∧
      At z L i0 h0 x.2 ((symAt b.dc z p).2 + (symAt b.dc z p).1) := by
    rintro x rfl
    rw [a1]
    split
    · obtain ⟨b1, b2⟩ := lread_at (n := (symAt b.dc z p).1) a2 (by omega)
      exact ⟨by rw [b1], b2⟩
    · rename_i h0
      simp only [not_not] at h0
      exact ⟨rfl, by rw [h0]; exact a2⟩
  obtain ⟨c1, c2⟩ := key _ rfl
  unfold lBlock iBlock
  dsimp only
  rw [c1]
  obtain ⟨e1, e2⟩ := lAC_at hb.ac (need := b.acNeeded) (k := 1) (blk := if b.dcNeeded = true then
    (List.replicate 64 (0 : Int)).set 0 (toCoef ((if (symAt b.dc z p).1 ≠ 0 then
      huffExtend (win z (symAt b.dc z p).2 (symAt b.dc z p).1) (symAt b.dc z p).1 else 0) + last b.ci))
    else List.replicate 64 0) c2
  exact ⟨e1, rfl, e2⟩

theorem lBlocks_at {bs : List DBlk} (hb : ∀ b ∈ bs, b.TOk) {z : Nat → Bool} {L : Nat} {i0 : Bool} {h0 : Nat}
    {last : Nat → Int} {a : LR} {p : Nat} (h : At z L i0 h0 a p) :
    (lBlocks bs last a).1 = (iBlocks z bs last p).1 ∧ (lBlocks bs last a).2.1 = (iBlocks z bs last p).2.1 ∧
    At z L i0 h0 (lBlocks bs last a).2.2 (iBlocks z bs last p).2.2 := by
  induction bs generalizing last a p with
  | nil => exact ⟨rfl, rfl, h⟩
  | cons b bs ih =>
    obtain ⟨a1, a2, a3⟩ := lBlock_at (hb b (by simp)) (last := last) h
    obtain ⟨b1, b2, b3⟩ := ih (fun b hb' => hb b (by simp [hb'])) (last := (lBlock b last a).2.1) a3
    simp only [lBlocks, iBlocks]
    rw [a1, b1, b2, a2]
    rw [a2] at b3
    exact ⟨rfl, rfl, b3⟩

/-- Where every reader starts: position 0 of its own bits. -/
theorem at_start (a : LR) : At (zeroExt a.bits) a.bits.length a.insuff a.hits a 0 :=
  ⟨fun i => by simp [zeroExt], fun _ => ⟨by simp, rfl, rfl⟩, fun h => by omega⟩

/-- One MCU of `decode_mcu_slow` that does not suspend decodes the segment's bits followed by zeros; it leaves
`insufficient_data` alone and warns of nothing if the bits sufficed, otherwise it sets the flag and warns once,
unless the flag was set already. -/
theorem decBlocks_ideal {bs : List DBlk} (hb : ∀ b ∈ bs, b.TOk) {last last' : Nat → Int} {blks : List (List Int)}
    {r r' : Rd} (hr : r.Ok) (h : decBlocks bs last r = some (blks, last', r')) :
    r'.Ok ∧ r'.tail = r.tail ∧ (blks, last') = ((iBlocks (zeroExt r.bits) bs last 0).1, (iBlocks (zeroExt r.bits) bs last 0).2.1) ∧
    At (zeroExt r.bits) r.bits.length r.insuff r.hits r'.abs (iBlocks (zeroExt r.bits) bs last 0).2.2 := by
  obtain ⟨a1, a2, a3⟩ := decBlocks_abs (fun b hb' => (hb b hb').toOk) hr h
  obtain ⟨b1, b2, b3⟩ := lBlocks_at hb (last := last) (at_start r.abs)
  rw [a3] at b1 b2 b3
  exact ⟨a1, a2, Prod.ext b1 b2, b3⟩

end Verif.Huff
