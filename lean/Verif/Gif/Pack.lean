import Verif.Gif.Write
import Verif.Gif.Codes
/-
The GIF writer packs codes, lowest bit first, into bytes and these into sub-blocks.
-/
namespace Verif.Gif

/-- The codes written so far are `N` bits of value `V`. -/
structure Packed (e : Enc) (V N : Nat) : Prop where
  pkt : e.pkt.length < 255
  bits : e.curBits < 8
  accum : e.accum < 2 ^ e.curBits
  blocks : ∃ P, (∀ rest pl, Payload rest pl → Payload (e.out ++ rest) (P ++ pl)) ∧ (Bytes e.pkt ∧ Bytes e.out) ∧
    V = val (P ++ e.pkt) + 2 ^ (8 * (P ++ e.pkt).length) * e.accum ∧ N = 8 * (P ++ e.pkt).length + e.curBits

/-- While bytes wait in the accumulator. -/
structure Packing (e : Enc) (V N : Nat) : Prop where
  pkt : e.pkt.length < 255
  accum : e.accum < 2 ^ e.curBits
  blocks : ∃ P, (∀ rest pl, Payload rest pl → Payload (e.out ++ rest) (P ++ pl)) ∧ (Bytes e.pkt ∧ Bytes e.out) ∧
    V = val (P ++ e.pkt) + 2 ^ (8 * (P ++ e.pkt).length) * e.accum ∧ N = 8 * (P ++ e.pkt).length + e.curBits

/-- All but the packing. -/
def Enc.Same (e f : Enc) : Prop :=
  f.nBits = e.nBits ∧ f.maxcode = e.maxcode ∧ f.initBits = e.initBits ∧ f.waiting = e.waiting ∧ f.first = e.first ∧ f.free = e.free ∧
    f.counter = e.counter ∧ f.hcode = e.hcode ∧ f.hval = e.hval

theorem Enc.Same.trans {e f g : Enc} (h1 : e.Same f) (h2 : f.Same g) : e.Same g := by
  obtain ⟨a1, a2, a3, a4, a5, a6, a7, a8, a9⟩ := h1
  obtain ⟨b1, b2, b3, b4, b5, b6, b7, b8, b9⟩ := h2
  exact ⟨by rw [b1, a1], by rw [b2, a2], by rw [b3, a3], by rw [b4, a4], by rw [b5, a5], by rw [b6, a6], by rw [b7, a7], by rw [b8, a8], by rw [b9, a9]⟩

theorem flush_same (e : Enc) : e.Same e.flush ∧ e.flush.accum = e.accum ∧ e.flush.curBits = e.curBits := by
  unfold Enc.flush
  split
  · exact ⟨⟨rfl, rfl, rfl, rfl, rfl, rfl, rfl, rfl, rfl⟩, rfl, rfl⟩
  · exact ⟨⟨rfl, rfl, rfl, rfl, rfl, rfl, rfl, rfl, rfl⟩, rfl, rfl⟩

theorem charOut_same (e : Enc) (c : Nat) : e.Same (e.charOut c) ∧ (e.charOut c).accum = e.accum ∧ (e.charOut c).curBits = e.curBits := by
  unfold Enc.charOut
  simp only []
  split
  · obtain ⟨h1, h2, h3⟩ := flush_same { e with pkt := e.pkt ++ [c] }
    exact ⟨h1, h2, h3⟩
  · exact ⟨⟨rfl, rfl, rfl, rfl, rfl, rfl, rfl, rfl, rfl⟩, rfl, rfl⟩

/-- The bytes of the file and of the packet. -/
def Content (e : Enc) (Q : List Nat) : Prop :=
  ∃ P, (∀ rest pl, Payload rest pl → Payload (e.out ++ rest) (P ++ pl)) ∧ (Bytes e.pkt ∧ Bytes e.out) ∧ Q = P ++ e.pkt

theorem flush_content {e : Enc} {Q : List Nat} (h : Content e Q) (hl : e.pkt.length < 256) : Content e.flush Q ∧ e.flush.pkt = [] := by
  obtain ⟨P, h1, ⟨h2, h3⟩, h4⟩ := h
  unfold Enc.flush
  split
  · rename_i hp
    refine ⟨⟨P ++ e.pkt, ?_, ⟨by intro x hx; simp at hx, ?_⟩, by simp [h4]⟩, rfl⟩
    · intro rest pl hr
      have := h1 _ _ (Payload.cons e.pkt rest pl (List.length_pos_iff.1 hp) hr)
      show Payload ((e.out ++ e.pkt.length :: e.pkt) ++ rest) (P ++ e.pkt ++ pl)
      rw [List.append_assoc, List.append_assoc]
      exact this
    · intro x hx
      simp only [List.mem_append, List.mem_cons] at hx
      rcases hx with hx | rfl | hx
      · exact h3 x hx
      · exact hl
      · exact h2 x hx
  · rename_i hp
    have : e.pkt = [] := List.length_eq_zero_iff.1 (by omega)
    exact ⟨⟨P, h1, ⟨h2, h3⟩, h4⟩, this⟩

theorem charOut_content {e : Enc} {Q : List Nat} (h : Content e Q) (hl : e.pkt.length < 255) (c : Nat) (hc : c < 256) :
    Content (e.charOut c) (Q ++ [c]) ∧ (e.charOut c).pkt.length < 255 := by
  obtain ⟨P, h1, ⟨h2, h3⟩, h4⟩ := h
  have h' : Content { e with pkt := e.pkt ++ [c] } (Q ++ [c]) := by
    refine ⟨P, h1, ⟨?_, h3⟩, by rw [h4, List.append_assoc]⟩
    intro x hx
    rcases List.mem_append.1 hx with hx | hx
    · exact h2 x hx
    · rw [List.mem_singleton.1 hx]; exact hc
  unfold Enc.charOut
  simp only []
  split
  · obtain ⟨k1, k2⟩ := flush_content h' (by simp; omega)
    exact ⟨k1, by rw [k2]; decide⟩
  · rename_i hn
    exact ⟨h', by simp only [] at hn ⊢; omega⟩

theorem drain_packing : ∀ (k : Nat) (e : Enc) (Q : List Nat), Content e Q → e.pkt.length < 255 → e.accum < 2 ^ e.curBits → 8 * k ≤ e.curBits →
    ∃ Q', Content (e.drain k) Q' ∧ (e.drain k).pkt.length < 255 ∧ (e.drain k).accum < 2 ^ (e.drain k).curBits ∧ (e.drain k).curBits = e.curBits - 8 * k ∧
      e.Same (e.drain k) ∧ val Q' + 2 ^ (8 * Q'.length) * (e.drain k).accum = val Q + 2 ^ (8 * Q.length) * e.accum ∧ Q'.length = Q.length + k := by
  intro k
  induction k with
  | zero =>
    intro e Q h hl ha hk
    exact ⟨Q, h, hl, ha, rfl, ⟨rfl, rfl, rfl, rfl, rfl, rfl, rfl, rfl, rfl⟩, rfl, rfl⟩
  | succ k ih =>
    intro e Q h hl ha hk
    obtain ⟨c1, c2⟩ := charOut_content h hl (e.accum % 256) (Nat.mod_lt _ (by decide))
    obtain ⟨s1, s2, s3⟩ := charOut_same e (e.accum % 256)
    unfold Enc.drain
    simp only []
    generalize e.charOut (e.accum % 256) = f at *
    have hlt : f.accum / 256 < 2 ^ (f.curBits - 8) := by
      rw [s2, s3, Nat.div_lt_iff_lt_mul (by decide), show (256 : Nat) = 2 ^ 8 by decide, ← Nat.pow_add, show e.curBits - 8 + 8 = e.curBits by omega]
      exact ha
    obtain ⟨Q', g1, g2, g3, g4, g5, g6, g7⟩ := ih { f with accum := f.accum / 256, curBits := f.curBits - 8 } (Q ++ [e.accum % 256]) c1 c2 hlt
      (by show 8 * k ≤ f.curBits - 8; omega)
    refine ⟨Q', g1, g2, g3, ?_, ?_, ?_, ?_⟩
    · rw [g4]; show f.curBits - 8 - 8 * k = _; omega
    · exact s1.trans g5
    · rw [g6, val_append, List.length_append, List.length_singleton, show 8 * (Q.length + 1) = 8 * Q.length + 8 by ring, Nat.pow_add, s2]
      simp only [val]
      have := Nat.div_add_mod e.accum 256
      calc val Q + 2 ^ (8 * Q.length) * (e.accum % 256 + 256 * 0) + 2 ^ (8 * Q.length) * 2 ^ 8 * (e.accum / 256)
          = val Q + 2 ^ (8 * Q.length) * (256 * (e.accum / 256) + e.accum % 256) := by ring
        _ = _ := by rw [this]
    · rw [g7, List.length_append, List.length_singleton]; omega

theorem or_shift (a b i : Nat) (h : a < 2 ^ i) : a ||| b <<< i = a + 2 ^ i * b := by
  rw [Nat.shiftLeft_eq, Nat.mul_comm b, Nat.or_comm, ← Nat.two_pow_add_eq_or_of_lt h, Nat.add_comm]

/-- What `output` does: the code follows the bits; the rest changes only if the code width grows. -/
theorem output_spec (e : Enc) (V N code : Nat) (h : Packed e V N) (hc : code < 2 ^ e.nBits) :
    Packed (e.output code) (V + 2 ^ N * code) (N + e.nBits) ∧
    (e.output code).nBits = (if e.free > e.maxcode then e.nBits + 1 else e.nBits) ∧
    (e.output code).maxcode = (if e.free > e.maxcode then (if e.nBits + 1 = 12 then 4096 else 2 ^ (e.nBits + 1) - 1) else e.maxcode) ∧
    (e.output code).initBits = e.initBits ∧ (e.output code).waiting = e.waiting ∧ (e.output code).first = e.first ∧
    (e.output code).free = e.free ∧ (e.output code).counter = e.counter ∧ (e.output code).hcode = e.hcode ∧ (e.output code).hval = e.hval := by
  obtain ⟨h1, h2, h3, P, h4, h5, h6, h7⟩ := h
  have hor := or_shift e.accum code e.curBits h3
  have hlt : e.accum ||| code <<< e.curBits < 2 ^ (e.curBits + e.nBits) := by
    rw [hor, Nat.pow_add]
    have : 2 ^ e.curBits * code + 2 ^ e.curBits ≤ 2 ^ e.curBits * 2 ^ e.nBits := by
      rw [← Nat.mul_succ]; exact Nat.mul_le_mul_left _ hc
    omega
  obtain ⟨Q', g1, g2, g3, g4, g5, g6, g7⟩ := drain_packing ((e.curBits + e.nBits) / 8)
    { e with accum := e.accum ||| code <<< e.curBits, curBits := e.curBits + e.nBits } (P ++ e.pkt) ⟨P, h4, h5, rfl⟩ h1 hlt
    (by show 8 * ((e.curBits + e.nBits) / 8) ≤ e.curBits + e.nBits; omega)
  unfold Enc.output
  simp only []
  generalize Enc.drain ((e.curBits + e.nBits) / 8) { e with accum := e.accum ||| code <<< e.curBits, curBits := e.curBits + e.nBits } = f at *
  obtain ⟨a1, a2, a3, a4, a5, a6, a7, a8, a9⟩ := g5
  simp only [] at a1 a2 a3 a4 a5 a6 a7 a8 a9 g4 g6
  have hp : Packed f (V + 2 ^ N * code) (N + e.nBits) := by
    obtain ⟨P', p1, p2, p3⟩ := g1
    refine ⟨g2, by omega, g3, P', p1, p2, ?_, ?_⟩
    · rw [← p3, g6, hor, h6, h7, Nat.pow_add]; ring
    · rw [← p3, g7, h7]; omega
  rw [a6, a2, a1]
  split
  · obtain ⟨q1, q2, q3, q4⟩ := hp
    exact ⟨⟨q1, q2, q3, q4⟩, rfl, rfl, a3, a4, a5, by first | exact a6 | rfl, a7, a8, a9⟩
  · exact ⟨hp, a1, a2, a3, a4, a5, a6, a7, a8, a9⟩

/-- At the end all bits are in the file, filled up with zeros. -/
theorem flush_spec (e : Enc) (V N : Nat) (h : Packed e V N) :
    ∃ P, Payload ((if e.curBits > 0 then e.charOut (e.accum % 256) else e).flush.out ++ [0]) P ∧
      Bytes ((if e.curBits > 0 then e.charOut (e.accum % 256) else e).flush.out ++ [0]) ∧ V = val P ∧ N ≤ 8 * P.length := by
  obtain ⟨h1, h2, h3, P, h4, h5, h6, h7⟩ := h
  have hlt : e.accum < 256 := by
    have : 2 ^ e.curBits ≤ 2 ^ 8 := Nat.pow_le_pow_right (by decide) (by omega)
    omega
  have hfin : ∀ (f : Enc) (Q : List Nat), Content f Q → f.pkt.length < 255 → ∃ P, Payload (f.flush.out ++ [0]) P ∧ Bytes (f.flush.out ++ [0]) ∧ P = Q := by
    intro f Q hf hl
    obtain ⟨⟨P, k1, ⟨k2, k3⟩, k4⟩, k5⟩ := flush_content hf (by omega)
    refine ⟨P ++ [], k1 _ _ (Payload.nil []), ?_, ?_⟩
    · intro x hx
      rcases List.mem_append.1 hx with hx | hx
      · exact k3 x hx
      · rw [List.mem_singleton.1 hx]; decide
    · rw [k4, k5]
  split
  · rename_i hb
    obtain ⟨c1, c2⟩ := charOut_content (Q := P ++ e.pkt) ⟨P, h4, h5, rfl⟩ h1 (e.accum % 256) (Nat.mod_lt _ (by decide))
    obtain ⟨P', p1, p2, p3⟩ := hfin _ _ c1 c2
    refine ⟨P', p1, p2, ?_, ?_⟩
    · rw [p3, val_append, h6, Nat.mod_eq_of_lt hlt]; simp [val]
    · rw [p3, h7]; simp only [List.length_append, List.length_singleton]; omega
  · rename_i hb
    obtain ⟨P', p1, p2, p3⟩ := hfin e (P ++ e.pkt) ⟨P, h4, h5, rfl⟩ h1
    have hc0 : e.curBits = 0 := by omega
    rw [hc0] at h3
    have ha : e.accum = 0 := by omega
    refine ⟨P', p1, p2, ?_, ?_⟩
    · rw [p3, h6, ha]; simp
    · rw [p3, h7]; omega

end Verif.Gif
