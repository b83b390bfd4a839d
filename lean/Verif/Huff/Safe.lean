import Verif.Huff.Check
import Verif.Huff.PropsTable
/-
C08: sequential Huffman decoding of arbitrary bytes.
-/
namespace Verif.Huff

/-- The checked table made from a DHT table: what `jpeg_make_d_derived_tbl` accepts (jdhuff.c:143-262). -/
def ckTbl (maxsym : Option Nat) (t : HuffTbl) : Option CkTbl :=
  (makeDTbl maxsym t).map fun d => ⟨d, t.counts.sum⟩

/-- A table as it can come out of a DHT segment (jdmarker.c:482-540): 16 counts, byte symbols. -/
structure HuffTbl.Dht (t : HuffTbl) : Prop where
  counts : t.counts.length = 16
  vals : IsBytes t.vals

theorem ckTbl_ok {ms : Option Nat} {t : HuffTbl} (ht : t.Dht) {c : CkTbl} (h : ckTbl ms t = some c) :
    c.Ok (ms.getD 255) := by
  unfold ckTbl at h
  cases hd : makeDTbl ms t with
  | none => rw [hd] at h; simp at h
  | some d =>
    rw [hd] at h
    simp only [Option.map_some, Option.some.injEq] at h
    subst h
    refine ⟨?_, makeDTbl_tok ht.counts ht.vals hd⟩
    obtain ⟨sizes, codes, he, F, hm⟩ := makeDTbl_facts ht.counts hd
    obtain ⟨hlen, h256⟩ := expand_len (by have := ht.counts; omega) he
    refine ⟨sizes, codes, t.vals, ht.vals, F, hlen.symm, h256, fun q hq => ?_⟩
    cases ms with
    | none => have := isBytes_getD ht.vals q; simp only [Option.getD_none]; omega
    | some m => exact hm m rfl q hq

/-- A block of the scan whose DC and AC tables were accepted (jdhuff.c:95-100). -/
def CkBlk.Accepted (b : CkBlk) : Prop :=
  ∃ tdc tac : HuffTbl, tdc.Dht ∧ tac.Dht ∧ ckTbl (some 15) tdc = some b.dc ∧ ckTbl none tac = some b.ac

theorem CkBlk.Accepted.ok {b : CkBlk} (h : b.Accepted) : b.Ok := by
  obtain ⟨tdc, tac, h1, h2, h3, h4⟩ := h
  exact ⟨ckTbl_ok h1 h3, ckTbl_ok h2 h4⟩

/-- C08, memory safety: whatever the bytes in the source, whatever the state of the bit buffer, decoding the blocks
of an MCU never faults: no array access out of bounds, no bad shift, no lost bits, no overflow, no loop that runs
away; it gives what the unchecked model gives. -/
theorem C08_no_fault {bs : List CkBlk} (hb : ∀ b ∈ bs, b.Accepted) (last : Nat → Int) {r : Rd} (hr : r.Ok) :
    ckBlocks bs last r ≠ .fault ∧ ckBlocks bs last r = Res.of (decBlocks (bs.map CkBlk.plain) last r) := by
  have := ckBlocks_eq (fun b hb' => (hb b hb').ok) (last := last) hr
  refine ⟨?_, this⟩
  rw [this]
  cases decBlocks (bs.map CkBlk.plain) last r <;> simp [Res.of]

/-! ### Whole segments -/

/-- Specification: `n` MCUs decoded from the bits `z`, of which the first `L` are data; once decoding has gone past
the data, MCUs are zero. -/
def idealMCUs (z : Nat → Bool) (L : Nat) (bs : List DBlk) : Nat → (Nat → Int) → Nat → List (List (List Int)) × Nat
  | 0, _, p => ([], p)
  | n + 1, last, p =>
    if p > L then
      let y := idealMCUs z L bs n last p
      (bs.map (fun _ => List.replicate 64 0) :: y.1, y.2)
    else
      let x := iBlocks z bs last p
      let y := idealMCUs z L bs n x.2.1 x.2.2
      (x.1 :: y.1, y.2)

theorem At.insuff_iff {z : Nat → Bool} {L h0 : Nat} {a : LR} {p : Nat} (h : At z L false h0 a p) :
    a.insuff = true ↔ p > L := by
  constructor
  · intro hi
    apply Classical.byContradiction
    intro hn
    have := (h.inside (by omega)).2.1
    rw [hi] at this
    cases this
  · exact fun hp => (h.past hp).1

theorem decMCUs_at {ri : Nat} {bs : List DBlk} (hb : ∀ b ∈ bs, b.TOk) {z : Nat → Bool} {L h0 : Nat} (n : Nat)
    {s : DSt} (hr : s.rd.Ok) (ht : s.rd.tail ≠ none) (hn : ri = 0 ∨ n ≤ s.togo) {p : Nat}
    (h : At z L false h0 s.rd.abs p) :
    ∃ s', decMCUs ri bs n s = some ((idealMCUs z L bs n s.last p).1, s') ∧
      s'.rd.Ok ∧ s'.rd.tail = s.rd.tail ∧ At z L false h0 s'.rd.abs (idealMCUs z L bs n s.last p).2 := by
  induction n generalizing s p with
  | zero => exact ⟨s, rfl, hr, rfl, h⟩
  | succ n ih =>
    have hgo : ¬ (ri ≠ 0 ∧ s.togo = 0) := by omega
    simp only [decMCUs, decMCU, idealMCUs]
    rw [if_neg hgo]
    have hii : s.rd.insuff = true ↔ p > L := h.insuff_iff
    dsimp only
    by_cases hp : p > L
    · rw [if_pos (hii.2 hp), if_pos hp]
      dsimp only
      obtain ⟨s', e1, e2, e3, e4⟩ := ih (s := { s with togo := if ri ≠ 0 then s.togo - 1 else s.togo })
        hr ht (by dsimp only; split <;> omega) h
      rw [e1]
      exact ⟨s', rfl, e2, e3, e4⟩
    · rw [if_neg (fun hh => hp (hii.1 hh)), if_neg hp]
      cases hd : decBlocks bs s.last s.rd with
      | none => exact absurd hd (decBlocks_total (fun b hb' => (hb b hb').toOk) hr ht)
      | some x =>
        obtain ⟨blks, last', r'⟩ := x
        obtain ⟨a1, a2, a3⟩ := decBlocks_abs (fun b hb' => (hb b hb').toOk) hr hd
        obtain ⟨b1, b2, b3⟩ := lBlocks_at hb (last := s.last) h
        rw [a3] at b1 b2 b3
        dsimp only at b1 b2 b3 ⊢
        obtain ⟨s', e1, e2, e3, e4⟩ := ih
          (s := { s with rd := r', last := last', togo := if ri ≠ 0 then s.togo - 1 else s.togo })
          a1 (by rw [a2]; exact ht) (by dsimp only; split <;> omega) b3
        rw [e1]
        rw [b2] at e4 ⊢
        exact ⟨s', by rw [b1], e2, e3.trans a2, e4⟩

/-- C08, running out of data: in a segment that a marker ends, all MCUs up to the next restart are decoded without
suspension; they are what the specification decodes from the segment's bits followed by zeros, zero MCUs once data
ran out; at the end `insufficient_data` tells whether data ran out, and JWRN_HIT_MARKER was issued once if it did
and not at all otherwise. -/
theorem C08_segment {ri : Nat} {bs : List CkBlk} (hb : ∀ b ∈ bs, b.Accepted) (n : Nat) {s : DSt} (hr : s.rd.Ok)
    (ht : s.rd.tail ≠ none) (hi : s.rd.insuff = false) (hn : ri = 0 ∨ n ≤ s.togo) :
    ∃ s', decMCUs ri (bs.map CkBlk.plain) n s =
        some ((idealMCUs (zeroExt s.rd.bits) s.rd.bits.length (bs.map CkBlk.plain) n s.last 0).1, s') ∧
      s'.rd.Ok ∧ s'.rd.tail = s.rd.tail ∧
      (s'.rd.insuff = true ↔
        (idealMCUs (zeroExt s.rd.bits) s.rd.bits.length (bs.map CkBlk.plain) n s.last 0).2 > s.rd.bits.length) ∧
      s'.rd.hits = s.rd.hits + if s'.rd.insuff then 1 else 0 := by
  have h0 := at_start s.rd.abs
  have e : s.rd.abs.insuff = false := hi
  rw [e] at h0
  obtain ⟨s', e1, e2, e3, e4⟩ := decMCUs_at (ri := ri) (bs := bs.map CkBlk.plain) (by
    intro b hb'
    obtain ⟨c, hc, rfl⟩ := List.mem_map.1 hb'
    exact (hb c hc).ok.plain) n hr ht hn h0
  refine ⟨s', e1, e2, e3, e4.insuff_iff, ?_⟩
  by_cases hp : s'.rd.insuff = true
  · rw [if_pos hp]
    exact (e4.past (e4.insuff_iff.1 hp)).2
  · rw [if_neg hp]
    have := e4.insuff_iff.not.1 hp
    exact (e4.inside (by omega)).2.2

/-- What one block may contain. -/
def CoefBlock (blk : List Int) : Prop := blk.length = 64 ∧ ∀ x ∈ blk, -32768 ≤ x ∧ x ≤ 32767

theorem toCoef_range (x : Int) : -32768 ≤ toCoef x ∧ toCoef x ≤ 32767 := by unfold toCoef; omega

theorem CoefBlock.set {blk : List Int} (h : CoefBlock blk) (i : Nat) (x : Int) : CoefBlock (blk.set i (toCoef x)) := by
  refine ⟨by simp [h.1], fun y hy => ?_⟩
  rcases List.mem_or_eq_of_mem_set hy with h' | rfl
  · exact h.2 y h'
  · exact toCoef_range x

theorem decAC_coef {d : DTbl} {nd : Bool} {k : Nat} {blk blk' : List Int} {r r' : Rd} (hc : CoefBlock blk)
    (h : decAC d nd k blk r = some (blk', r')) : CoefBlock blk' := by
  fun_induction decAC d nd k blk r with
  | case1 => simp at h
  | case2 => simp at h
  | case3 k blk r hk sym r1 hs run s hs0 x r2 hx ih =>
    exact ih (by split; exacts [hc.set _ _, hc]) h
  | case4 => simp at h; obtain ⟨rfl, -⟩ := h; exact hc
  | case5 k blk r hk sym r1 hs run s hs0 hrun ih => exact ih hc h
  | case6 => simp at h; obtain ⟨rfl, -⟩ := h; exact hc

theorem coefBlock_zero : CoefBlock (List.replicate 64 0) :=
  ⟨by simp, fun x hx => by rw [List.eq_of_mem_replicate hx]; decide⟩

theorem decBlocks_coef {bs : List DBlk} {last last' : Nat → Int} {blks : List (List Int)} {r r' : Rd}
    (h : decBlocks bs last r = some (blks, last', r')) : blks.length = bs.length ∧ ∀ blk ∈ blks, CoefBlock blk := by
  induction bs generalizing last r blks with
  | nil => simp [decBlocks] at h; obtain ⟨rfl, -, -⟩ := h; simp
  | cons b bs ih =>
    simp only [decBlocks] at h
    cases h1 : decBlock b last r with
    | none => rw [h1] at h; simp at h
    | some y =>
      obtain ⟨blk, last1, r1⟩ := y
      rw [h1] at h
      dsimp only at h
      cases h2 : decBlocks bs last1 r1 with
      | none => rw [h2] at h; simp at h
      | some z =>
        obtain ⟨blks1, last2, r2⟩ := z
        rw [h2] at h
        simp only [Option.some.injEq, Prod.mk.injEq] at h
        obtain ⟨rfl, rfl, rfl⟩ := h
        obtain ⟨i1, i2⟩ := ih h2
        refine ⟨by simp [i1], ?_⟩
        intro x hx
        rcases List.mem_cons.1 hx with rfl | hx
        · unfold decBlock at h1
          cases hs : huffDecode b.dc r with
          | none => rw [hs] at h1; simp at h1
          | some y =>
            obtain ⟨s, r3⟩ := y
            rw [hs] at h1
            dsimp only at h1
            cases hx : (if s ≠ 0 then (readBits r3 s).map (fun xr => (huffExtend xr.1 s, xr.2)) else some (0, r3)) with
            | none => rw [hx] at h1; simp at h1
            | some y =>
              obtain ⟨diff, r4⟩ := y
              rw [hx] at h1
              dsimp only at h1
              cases hac : decAC b.ac b.acNeeded 1 (if b.dcNeeded = true then
                  (List.replicate 64 (0 : Int)).set 0 (toCoef (diff + last b.ci)) else List.replicate 64 0) r4 with
              | none => rw [hac] at h1; simp at h1
              | some y =>
                rw [hac] at h1
                simp at h1
                rw [← h1.1]
                exact decAC_coef (by split; exacts [coefBlock_zero.set _ _, coefBlock_zero]) hac
        · exact i2 x hx

/-- C08, values: whatever the bytes, every block decoded has 64 coefficients that fit in 16 bits. -/
theorem C08_values {ri : Nat} {bs : List DBlk} (n : Nat) {s s' : DSt} {ms : List (List (List Int))}
    (h : decMCUs ri bs n s = some (ms, s')) :
    ms.length = n ∧ ∀ m ∈ ms, m.length = bs.length ∧ ∀ blk ∈ m, CoefBlock blk := by
  induction n generalizing s ms with
  | zero => simp [decMCUs] at h; obtain ⟨rfl, -⟩ := h; simp
  | succ n ih =>
    simp only [decMCUs] at h
    cases h1 : decMCU ri bs s with
    | none => rw [h1] at h; simp at h
    | some y =>
      obtain ⟨m, s1⟩ := y
      rw [h1] at h
      dsimp only at h
      cases h2 : decMCUs ri bs n s1 with
      | none => rw [h2] at h; simp at h
      | some z =>
        obtain ⟨ms1, s2⟩ := z
        rw [h2] at h
        simp only [Option.some.injEq, Prod.mk.injEq] at h
        obtain ⟨rfl, rfl⟩ := h
        obtain ⟨i1, i2⟩ := ih h2
        refine ⟨by simp [i1], fun x hx => ?_⟩
        rcases List.mem_cons.1 hx with rfl | hx
        · unfold decMCU at h1
          split at h1
          · simp at h1
          · split at h1
            · simp at h1
            · rename_i hsel
              simp only [Option.some.injEq, Prod.mk.injEq] at h1
              obtain ⟨rfl, -⟩ := h1
              split at hsel
              · simp only [Option.some.injEq, Prod.mk.injEq] at hsel
                obtain ⟨rfl, -⟩ := hsel
                refine ⟨by simp, fun blk hblk => ?_⟩
                obtain ⟨_, -, rfl⟩ := List.mem_map.1 hblk
                exact coefBlock_zero
              · exact decBlocks_coef hsel
        · exact i2 x hx

/-- C08, after running out: while `insufficient_data` is set, MCUs up to the next restart are zero, nothing is read
and nothing is warned about. -/
theorem C08_skip {ri : Nat} (bs : List DBlk) (n : Nat) {s : DSt} (hi : s.rd.insuff = true)
    (hn : ri = 0 ∨ n ≤ s.togo) :
    ∃ s', decMCUs ri bs n s = some (List.replicate n (bs.map fun _ => List.replicate 64 0), s') ∧
      s'.rd = s.rd ∧ s'.last = s.last := by
  induction n generalizing s with
  | zero => exact ⟨s, rfl, rfl, rfl⟩
  | succ n ih =>
    have hgo : ¬ (ri ≠ 0 ∧ s.togo = 0) := by omega
    simp only [decMCUs, decMCU]
    rw [if_neg hgo]
    dsimp only
    rw [if_pos hi]
    obtain ⟨s', e1, e2, e3⟩ := ih (s := { s with togo := if ri ≠ 0 then s.togo - 1 else s.togo }) hi
      (by dsimp only; split <;> omega)
    dsimp only
    rw [e1]
    exact ⟨s', rfl, e2, e3⟩

/-! ### Non-vacuity -/

/-- A small DC table: codes 00, 01, 10, 110 for the categories 0, 3, 5, 7 (111... is no code). -/
def exDC : HuffTbl := ⟨[0, 3, 1, 0, 0, 0, 0, 0, 0, 0, 0, 0, 0, 0, 0, 0], [0, 3, 5, 7]⟩

/-- Both tables are accepted and are DHT tables. -/
theorem ex_accepted : ∃ b : CkBlk, b.Accepted := by
  have h1 : (ckTbl (some 15) exDC).isSome = true := by decide +kernel
  have h2 : (ckTbl none stdAC).isSome = true := by decide +kernel
  obtain ⟨d1, e1⟩ := Option.isSome_iff_exists.1 h1
  obtain ⟨d2, e2⟩ := Option.isSome_iff_exists.1 h2
  exact ⟨⟨0, d1, d2, true, true⟩, exDC, stdAC, ⟨by decide, by unfold IsBytes; decide⟩,
    ⟨by decide, by unfold IsBytes; decide +kernel⟩, e1, e2⟩

/-- Garbage bytes, then a marker: three MCUs are asked for, data runs out in the second. -/
def exRun : Option (List (List (List Int)) × Bool × Nat × Nat) :=
  match makeDTbl (some 15) exDC, makeDTbl none stdAC with
  | some dc, some ac =>
    (decMCUs 0 [⟨0, dc, ac, true, true⟩] 3 (decInit 0 [0x5B, 0x93, 0x27, 0xFF, 0x00, 0xA1, 0xFF, 0xD9])).map
      fun x => (x.1, x.2.rd.insuff, x.2.rd.hits, x.2.rd.marker)
  | _, _ => none

example : ∃ m1 m2, exRun = some ([m1, m2, [List.replicate 64 0]], true, 1, 0xD9) ∧ m1 ≠ [List.replicate 64 0] := by
  have h : (exRun.any fun x => x.1.length == 3 && x.1.getD 0 [] != [List.replicate 64 0] &&
      x.1.getD 2 [] == [List.replicate 64 0] && x.2 == (true, 1, 0xD9)) = true := by decide +kernel
  cases e : exRun with
  | none => rw [e] at h; simp at h
  | some x =>
    rw [e] at h
    obtain ⟨ms, y⟩ := x
    match ms, h with
    | [m1, m2, m3], h =>
      simp only [Option.any_some, List.length_cons, List.length_nil, List.getD_cons_zero, List.getD_cons_succ,
        Bool.and_eq_true, beq_iff_eq, bne_iff_ne] at h
      exact ⟨m1, m2, by rw [h.2, h.1.2], h.1.1.2⟩

end Verif.Huff
