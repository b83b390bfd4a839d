import Verif.Out.Model
/-
C13: a block's stores stay within BUFSIZE bytes and leave the bytes of the encoder without buffers.
-/
namespace Verif.Out
open Verif.Huff

theorem take_set_self (m : List Nat) (p v : Nat) (h : p < m.length) : (m.set p v).take (p + 1) = m.take p ++ [v] := by
  rw [List.take_add_one, List.take_set_of_le (Nat.le_refl _)]
  simp [h]

/-- `x'` is `x` with `bs` stored. -/
structure Stored (x x' : MW) (bs : List Nat) : Prop where
  pb : x'.pb = x.pb
  free : x'.free = x.free
  len : x'.m.length = x.m.length
  pos : x'.pos = x.pos + bs.length
  data : x'.m.take x'.pos = x.m.take x.pos ++ bs

theorem Stored.trans {a b c : MW} {u v : List Nat} (h : Stored a b u) (k : Stored b c v) : Stored a c (u ++ v) :=
  ⟨k.pb.trans h.pb, k.free.trans h.free, k.len.trans h.len, by rw [k.pos, h.pos, List.length_append]; omega,
    by rw [k.data, h.data, List.append_assoc]⟩

theorem storeM_spec (bs : List Nat) : ∀ x : MW, x.pos + bs.length ≤ x.m.length → ∃ x', storeM x bs = some x' ∧ Stored x x' bs := by
  induction bs with
  | nil => intro x _; exact ⟨x, rfl, rfl, rfl, rfl, rfl, by simp⟩
  | cons b bs ih =>
    intro x h
    simp only [List.length_cons] at h
    obtain ⟨x', e, s⟩ := ih { x with m := x.m.set x.pos b, pos := x.pos + 1 } (by simp; omega)
    refine ⟨x', by simp only [storeM]; rw [if_pos (by omega)]; exact e, ?_⟩
    have : Stored x { x with m := x.m.set x.pos b, pos := x.pos + 1 } [b] :=
      ⟨rfl, rfl, by simp, rfl, take_set_self _ _ _ (by omega)⟩
    exact this.trans s

theorem emitByteM_spec (x : MW) (b : Nat) (h : x.pos + (emitByte b).length + 1 ≤ x.m.length) :
    ∃ x', emitByteM x b = some x' ∧ Stored x x' (emitByte b) := by
  unfold emitByteM
  unfold emitByte at *
  by_cases hb : b % 256 < 0xFF
  · simp only [if_pos hb, List.length_cons, List.length_nil] at h ⊢
    rw [if_pos (by omega)]
    refine ⟨_, rfl, rfl, rfl, by simp, rfl, ?_⟩
    dsimp only
    rw [List.take_set_of_le (Nat.le_refl _)]
    exact take_set_self _ _ _ (by omega)
  · simp only [if_neg hb, List.length_cons, List.length_nil] at h ⊢
    rw [if_pos (by omega)]
    refine ⟨_, rfl, rfl, rfl, by simp, rfl, ?_⟩
    dsimp only
    rw [show x.pos + 2 = x.pos + 1 + 1 from rfl, take_set_self _ _ _ (by simp; omega), take_set_self _ _ _ (by omega)]
    simp

theorem emitByte_pos (b : Nat) : 1 ≤ (emitByte b).length ∧ (emitByte b).length ≤ 2 := by
  unfold emitByte; split <;> simp

theorem emitAllM_spec (bs : List Nat) : ∀ x : MW, x.pos + ((bs.map emitByte).flatten).length + 1 ≤ x.m.length →
    ∃ x', emitAllM x bs = some x' ∧ Stored x x' (bs.map emitByte).flatten := by
  induction bs with
  | nil => intro x _; exact ⟨x, rfl, rfl, rfl, rfl, rfl, by simp⟩
  | cons b bs ih =>
    intro x h
    simp only [List.map_cons, List.flatten_cons, List.length_append] at h
    obtain ⟨y, e, s⟩ := emitByteM_spec x b (by omega)
    obtain ⟨x', e', s'⟩ := ih y (by rw [s.pos, s.len]; omega)
    refine ⟨x', by simp only [emitAllM, e]; exact e', ?_⟩
    simp only [List.map_cons, List.flatten_cons]
    exact s.trans s'

theorem flatten_le (bs : List Nat) : ((bs.map emitByte).flatten).length ≤ 2 * bs.length := by
  induction bs with
  | nil => simp
  | cons b bs ih =>
    simp only [List.map_cons, List.flatten_cons, List.length_append, List.length_cons]
    have := emitByte_pos b
    omega

theorem flushBytes_len (pb : Nat) : (flushBytes pb).length ≤ 16 := by
  unfold flushBytes
  split
  · have := fun b => (emitByte_pos b).2
    simp only [List.length_append]
    have h1 := this (pb >>> 56)
    have h2 := this (pb >>> 48)
    have h3 := this (pb >>> 40)
    have h4 := this (pb >>> 32)
    have h5 := this (pb >>> 24)
    have h6 := this (pb >>> 16)
    have h7 := this (pb >>> 8)
    have h8 := this pb
    omega
  · simp

theorem flushM_spec (x : MW) (pb : Nat) (h : x.pos + (flushBytes pb).length + 1 ≤ x.m.length) :
    ∃ x', flushM x pb = some x' ∧ Stored x x' (flushBytes pb) := by
  unfold flushM flushBytes at *
  by_cases hf : hasFF pb = true
  · rw [if_pos hf] at *
    obtain ⟨x', e, s⟩ := emitAllM_spec [pb >>> 56, pb >>> 48, pb >>> 40, pb >>> 32, pb >>> 24, pb >>> 16, pb >>> 8, pb] x (by
      simpa [Nat.add_assoc] using h)
    exact ⟨x', e, by rw [if_pos hf]; simpa using s⟩
  · rw [if_neg hf] at *
    rw [if_neg hf]
    refine storeM_spec _ x ?_
    simp only [List.length_cons, List.length_nil] at h ⊢; omega

/-- The routine with memory follows the one without: `pre` had been written before, `B` bounds the bits put so far. -/
structure Sim (pre : List Nat) (m0 : List Nat) (p0 : Nat) (w : Wr) (x : MW) (B : Nat) : Prop where
  pb : x.pb = w.pb
  free : x.free = w.free
  le : w.free ≤ 64
  len : x.m.length = m0.length
  data : ∃ out, w.out = pre ++ out ∧ x.pos = p0 + out.length ∧ x.m.take x.pos = m0.take p0 ++ out ∧ 4 * out.length + (64 - w.free) ≤ B

/-- Bits of the largest block with what was in the bit buffer: 64 + (16 + 15) + 63 * (16 + 14). -/
def maxBits : Nat := 1985

theorem putBitsM_spec {pre m0 : List Nat} {p0 : Nat} (hc : p0 + bufSize ≤ m0.length) {w : Wr} {x : MW} {B : Nat} (s : Sim pre m0 p0 w x B)
    (code size : Nat) (hs : size ≤ 64) (hB : B + size ≤ maxBits) :
    ∃ x', putBitsM x code size = some x' ∧ Sim pre m0 p0 (putBits w code size) x' (B + size) := by
  obtain ⟨h1, h2, h3, h4, out, h5, h6, h7, h8⟩ := s
  unfold maxBits bufSize at *
  unfold putBitsM putBits
  rw [h1, h2]
  by_cases hg : size > w.free
  · rw [if_pos hg, if_pos hg]
    have hfl := flushBytes_len ((w.pb <<< w.free) % W64 ||| code >>> (size - w.free))
    generalize (w.pb <<< w.free) % W64 ||| code >>> (size - w.free) = v at hfl
    obtain ⟨y, e, t⟩ := flushM_spec x v (by rw [h4, h6]; omega)
    refine ⟨{ y with pb := code, free := 64 - (size - y.free) }, by rw [e]; rfl, ?_⟩
    refine ⟨rfl, by dsimp only; rw [t.free, h2], by dsimp only; omega, t.len.trans h4, out ++ flushBytes v, ?_, ?_, ?_, ?_⟩
    · dsimp only; rw [h5, List.append_assoc]
    · dsimp only; rw [t.pos, h6, List.length_append]; omega
    · dsimp only; rw [t.data, h7, List.append_assoc]
    · dsimp only; rw [List.length_append]; omega
  · rw [if_neg hg, if_neg hg]
    exact ⟨_, rfl, rfl, rfl, by dsimp only; omega, h4, out, h5, h6, h7, by dsimp only; omega⟩

theorem zrlM_spec {pre m0 : List Nat} {p0 : Nat} (hc : p0 + bufSize ≤ m0.length) {ac : CTbl} (ha : ∀ i, (ac i).2 ≤ 16) (r : Nat) :
    ∀ {w : Wr} {x : MW} {B : Nat}, Sim pre m0 p0 w x B → B + r ≤ maxBits →
    ∃ x' B', zrlM ac r x = some ((zrlLoop ac r w).1, x') ∧ Sim pre m0 p0 (zrlLoop ac r w).2 x' B' ∧ B' + (zrlLoop ac r w).1 ≤ B + r ∧
      (zrlLoop ac r w).1 ≤ r := by
  induction r using Nat.strongRecOn with
  | _ r ih =>
    intro w x B s hB
    rw [zrlM, zrlLoop]
    by_cases hr : r ≥ 256
    · rw [if_pos hr, if_pos hr]
      have := ha 0xF0
      obtain ⟨y, e, t⟩ := putBitsM_spec hc s (ac 0xF0).1 (ac 0xF0).2 (by omega) (by omega)
      obtain ⟨x', B', e', t', u, v⟩ := ih (r - 256) (by omega) t (by omega)
      exact ⟨x', B', by rw [e]; exact e', t', by omega, by omega⟩
    · rw [if_neg hr, if_neg hr]
      exact ⟨x, B, rfl, s, Nat.le_refl _, Nat.le_refl _⟩

theorem encACM_spec {pre m0 : List Nat} {p0 : Nat} (hc : p0 + bufSize ≤ m0.length) {ac : CTbl} (ha : ∀ i, (ac i).2 ≤ 16) {mb : Nat} (hm : mb ≤ 14)
    (ts : List Int) : ∀ (r : Nat) {w : Wr} {x : MW} {B : Nat}, Sim pre m0 p0 w x B → r % 16 = 0 → B + r + 30 * ts.length ≤ maxBits →
    match encAC mb ac ts r w with
    | none => encACM mb ac ts r x = .bad
    | some w' => ∃ x' B', encACM mb ac ts r x = .ok x' ∧ Sim pre m0 p0 w' x' B' ∧ B' ≤ maxBits := by
  induction ts with
  | nil =>
    intro r w x B s hr hB
    simp only [encAC, encACM]
    by_cases h : r > 0
    · rw [if_pos h, if_pos h]
      have := ha 0
      obtain ⟨y, e, t⟩ := putBitsM_spec hc s (ac 0).1 (ac 0).2 (by omega) (by simp at hB; omega)
      exact ⟨y, _, by rw [e], t, by simp at hB; omega⟩
    · rw [if_neg h, if_neg h]
      exact ⟨x, B, rfl, s, by simp at hB; omega⟩
  | cons t ts ih =>
    intro r w x B s hr hB
    simp only [List.length_cons] at hB
    simp only [encAC, encACM]
    by_cases h0 : t = 0
    · rw [if_pos h0, if_pos h0]
      exact ih (r + 16) s (by omega) (by omega)
    · rw [if_neg h0, if_neg h0]
      by_cases hn : nbitsOf t.natAbs > mb
      · rw [if_pos hn, if_pos hn]
      · rw [if_neg hn, if_neg hn]
        obtain ⟨y, B1, e, s1, h1, h2⟩ := zrlM_spec hc ha r s (by omega)
        rw [e]
        dsimp only
        have h3 := ha ((zrlLoop ac r w).1 + nbitsOf t.natAbs)
        obtain ⟨z, e2, s2⟩ := putBitsM_spec hc s1
          (((onesc t) % 2 ^ (nbitsOf t.natAbs)).toNat ||| (ac ((zrlLoop ac r w).1 + nbitsOf t.natAbs)).1 <<< nbitsOf t.natAbs)
          (nbitsOf t.natAbs + (ac ((zrlLoop ac r w).1 + nbitsOf t.natAbs)).2) (by omega) (by omega)
        unfold putCodeM
        rw [e2]
        exact ih 0 s2 (by omega) (by omega)

/-- encode_one_block: same bytes as without a buffer, all stores within `bufSize` bytes. -/
theorem encBlockM_spec {pre m0 : List Nat} {p0 : Nat} (hc : p0 + bufSize ≤ m0.length) {dc ac : CTbl} (hd : ∀ i, (dc i).2 ≤ 16)
    (ha : ∀ i, (ac i).2 ≤ 16) {prec : Nat} (hp : prec ≤ 12) (last : Int) (blk : List Int) (w : Wr) (hw : w.free ≤ 64) (ho : w.out = pre) :
    match encBlock prec dc ac last blk w with
    | none => encBlockM prec dc ac last blk ⟨w.pb, w.free, m0, p0⟩ = .bad
    | some w' => ∃ x', encBlockM prec dc ac last blk ⟨w.pb, w.free, m0, p0⟩ = .ok x' ∧ Sim pre m0 p0 w' x' maxBits := by
  have s : Sim pre m0 p0 w ⟨w.pb, w.free, m0, p0⟩ 64 := ⟨rfl, rfl, hw, rfl, [], by simp [ho], by simp, by simp, by simp⟩
  unfold encBlock encBlockM
  dsimp only
  by_cases hn : nbitsOf (blk.getD 0 0 - last).natAbs > prec + 2 + 1
  · rw [if_pos hn, if_pos hn]
  · rw [if_neg hn, if_neg hn]
    have h3 := hd (nbitsOf (blk.getD 0 0 - last).natAbs)
    obtain ⟨z, e2, s2⟩ := putBitsM_spec hc s
      (((onesc (blk.getD 0 0 - last)) % 2 ^ (nbitsOf (blk.getD 0 0 - last).natAbs)).toNat |||
        (dc (nbitsOf (blk.getD 0 0 - last).natAbs)).1 <<< nbitsOf (blk.getD 0 0 - last).natAbs)
      (nbitsOf (blk.getD 0 0 - last).natAbs + (dc (nbitsOf (blk.getD 0 0 - last).natAbs)).2) (by omega) (by unfold maxBits; omega)
    unfold putCodeM
    rw [e2]
    have := encACM_spec hc ha (mb := prec + 2) (by omega) (kloopOrder.map (fun k => blk.getD k 0)) 0 s2 rfl (by
      have : kloopOrder.length = 63 := by decide
      rw [List.length_map, this]; unfold maxBits; omega)
    unfold putCode
    generalize encAC (prec + 2) ac _ 0 _ = q at *
    cases q with
    | none => exact this
    | some w' =>
      obtain ⟨x', B', e, t, hb⟩ := this
      obtain ⟨t1, t2, t3, t4, out, t5, t6, t7, t8⟩ := t
      exact ⟨x', e, t1, t2, t3, t4, out, t5, t6, t7, by omega⟩

/-- flush_bits. -/
theorem flushLoopM_spec (n : Nat) : ∀ x : MW, x.pos + 2 * ((n + 7) / 8) + 1 ≤ x.m.length →
    ∃ x', flushLoopM x n = some x' ∧ Stored x x' (flushLoop x.pb n) ∧ (flushLoop x.pb n).length ≤ 2 * ((n + 7) / 8) := by
  induction n using Nat.strongRecOn with
  | _ n ih =>
    intro x h
    rw [flushLoopM, flushLoop]
    by_cases h1 : n ≥ 8
    · rw [if_pos h1, if_pos h1]
      have hl := emitByte_pos (x.pb >>> (n - 8))
      obtain ⟨y, e, s⟩ := emitByteM_spec x (x.pb >>> (n - 8)) (by omega)
      obtain ⟨x', e', s', hl'⟩ := ih (n - 8) (by omega) y (by rw [s.pos, s.len]; omega)
      rw [s.pb] at s' hl'
      exact ⟨x', by rw [e]; exact e', s.trans s', by rw [List.length_append]; omega⟩
    · rw [if_neg h1, if_neg h1]
      by_cases h2 : n > 0
      · rw [if_pos h2, if_pos h2]
        have hl := emitByte_pos (x.pb <<< (8 - n) ||| 0xFF >>> n)
        obtain ⟨y, e, s⟩ := emitByteM_spec x (x.pb <<< (8 - n) ||| 0xFF >>> n) (by omega)
        exact ⟨y, e, s, by omega⟩
      · rw [if_neg h2, if_neg h2]
        exact ⟨x, rfl, ⟨rfl, rfl, rfl, rfl, by simp⟩, by simp⟩

end Verif.Out
