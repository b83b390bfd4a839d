import Verif.Huff.Enc
import Verif.Huff.Stream
/-
Refinement of the encoder's 64-bit put_buffer to a list of bits.
-/
namespace Verif.Huff

theorem toBits_load' (n s gb c : Nat) (hl : n + s ≤ 64) (hc : c < 2 ^ s) :
    toBits (n + s) ((gb <<< s) % W64 ||| c) = toBits n gb ++ toBits s c := by
  have e : toBits (n + s) ((gb <<< s) % W64 ||| c) = toBits (n + s) (gb * 2 ^ s + c) := by
    apply toBits_congr
    intro i hi
    rw [← shl_or_eq hc, Nat.testBit_or, Nat.testBit_or, W64, Nat.testBit_mod_two_pow]
    simp [show i < 64 by omega]
  rw [e, toBits_concat _ _ _ _ hc]

theorem emitByte_eq (b : Nat) : emitByte b = stuff [b % 256] := by
  unfold emitByte
  have := Nat.mod_lt b (show 0 < 256 by omega)
  split
  · rw [stuff_cons, if_neg (by omega)]; rfl
  · rw [stuff_cons, if_pos (by omega), show b % 256 = 255 by omega]; rfl

theorem stuff_eq_self {bs : List Nat} (h : ∀ b ∈ bs, b ≠ 0xFF) : stuff bs = bs := by
  induction bs with
  | nil => rfl
  | cons b bs ih =>
    rw [stuff_cons, if_neg (h b (by simp)), ih (fun x hx => h x (by simp [hx]))]; rfl

/-- If the FF test is negative no byte of the buffer is 0xFF. -/
theorem hasFF_false {pb : Nat} (i : Nat) (hi : i < 8)
    (h : (pb >>> (8 * i)) % 256 = 255) : hasFF pb = true := by
  have hb : ((pb &&& 0x8080808080808080) &&&
      (((pb + 0x0101010101010101) % W64) ^^^ (W64 - 1))).testBit (8 * i + 7) = true := by
    rw [Nat.testBit_and, Nat.testBit_and, Nat.testBit_xor]
    have h1 : pb.testBit (8 * i + 7) = true := by
      have : ((pb >>> (8 * i)) % 2 ^ 8).testBit 7 = true := by rw [h]; decide
      rw [Nat.testBit_mod_two_pow, Nat.testBit_shiftRight] at this
      simpa using this
    have h4 : (0x8080808080808080 : Nat).testBit (8 * i + 7) = true := by
      have : i = 0 ∨ i = 1 ∨ i = 2 ∨ i = 3 ∨ i = 4 ∨ i = 5 ∨ i = 6 ∨ i = 7 := by omega
      rcases this with rfl | rfl | rfl | rfl | rfl | rfl | rfl | rfl <;> decide
    have h5 : (W64 - 1).testBit (8 * i + 7) = true := by
      rw [W64, Nat.testBit_two_pow_sub_one]; simp; omega
    have h2 : ((pb + 0x0101010101010101) % W64).testBit (8 * i + 7) = false := by
      have hlt : (((pb + 0x0101010101010101) % W64) >>> (8 * i)) % 256 < 128 := by
        rw [Nat.shiftRight_eq_div_pow] at *
        unfold W64
        have : i = 0 ∨ i = 1 ∨ i = 2 ∨ i = 3 ∨ i = 4 ∨ i = 5 ∨ i = 6 ∨ i = 7 := by omega
        rcases this with rfl | rfl | rfl | rfl | rfl | rfl | rfl | rfl <;>
          simp only [Nat.reduceMul, Nat.reducePow, Nat.mul_zero] at * <;> omega
      have : (((pb + 0x0101010101010101) % W64) >>> (8 * i) % 2 ^ 8).testBit 7 = false :=
        Nat.testBit_lt_two_pow hlt
      rw [Nat.testBit_mod_two_pow, Nat.testBit_shiftRight] at this
      simpa using this
    rw [h1, h4, h2, h5]; rfl
  unfold hasFF
  rw [bne_iff_ne]
  intro hz
  rw [hz] at hb
  simp at hb

theorem bytesOfBits_64 (pb : Nat) : bytesOfBits (toBits 64 pb) =
    [(pb >>> 56) % 256, (pb >>> 48) % 256, (pb >>> 40) % 256, (pb >>> 32) % 256,
     (pb >>> 24) % 256, (pb >>> 16) % 256, (pb >>> 8) % 256, pb % 256] := by
  have step : ∀ n v, bytesOfBits (toBits (8 + n) v) = (v >>> n) % 256 :: bytesOfBits (toBits n v) := by
    intro n v
    rw [toBits_add, bytesOfBits_cons8 _ _ (by simp), ofBits_toBits]
  rw [show 64 = 8 + 56 by rfl, step, show 56 = 8 + 48 by rfl, step, show 48 = 8 + 40 by rfl, step,
    show 40 = 8 + 32 by rfl, step, show 32 = 8 + 24 by rfl, step, show 24 = 8 + 16 by rfl, step,
    show 16 = 8 + 8 by rfl, step, show (8 : Nat) = 8 + 0 by rfl, step]
  simp only [toBits_zero, bytesOfBits_nil, Nat.shiftRight_zero]

theorem flushBytes_eq (pb : Nat) : flushBytes pb = stuff (bytesOfBits (toBits 64 pb)) := by
  rw [bytesOfBits_64]
  unfold flushBytes
  split
  · simp only [emitByte_eq, ← stuff_append]; rfl
  · rename_i h
    rw [stuff_eq_self]
    have key : ∀ i < 8, (pb >>> (8 * i)) % 256 ≠ 255 := fun i hi hc => h (hasFF_false i hi hc)
    have k0 := key 0 (by omega)
    simp only [Nat.mul_zero, Nat.shiftRight_zero] at k0
    intro b hb
    simp only [List.mem_cons, List.not_mem_nil, or_false] at hb
    rcases hb with rfl | rfl | rfl | rfl | rfl | rfl | rfl | rfl
    · exact key 7 (by omega)
    · exact key 6 (by omega)
    · exact key 5 (by omega)
    · exact key 4 (by omega)
    · exact key 3 (by omega)
    · exact key 2 (by omega)
    · exact key 1 (by omega)
    · exact k0

/-- The writer has put out `pre` and then, in the current segment, exactly the bits `bits`. -/
def Wr.Inv (w : Wr) (pre : List Nat) (bits : List Bool) : Prop :=
  ∃ fl : List Bool, fl.length % 8 = 0 ∧ w.out = pre ++ stuff (bytesOfBits fl) ∧
    bits = fl ++ toBits (64 - w.free) w.pb ∧ w.free ≤ 64

theorem putBits_inv {w : Wr} {pre : List Nat} {bits : List Bool} (h : w.Inv pre bits)
    {code size : Nat} (hc : code < 2 ^ size) (hs : size ≤ 64) :
    (putBits w code size).Inv pre (bits ++ toBits size code) := by
  obtain ⟨fl, h8, ho, hb, hf⟩ := h
  unfold putBits
  split
  · rename_i hgt
    obtain ⟨f, rfl⟩ : ∃ f, size = w.free + f := ⟨size - w.free, by omega⟩
    simp only [Nat.add_sub_cancel_left]
    have hcf : code >>> f < 2 ^ w.free := by
      rw [Nat.shiftRight_eq_div_pow, Nat.div_lt_iff_lt_mul (Nat.two_pow_pos _), ← Nat.pow_add]
      exact hc
    have hfull := toBits_load' (64 - w.free) w.free w.pb (code >>> f) (by omega) hcf
    rw [show 64 - w.free + w.free = 64 by omega] at hfull
    refine ⟨fl ++ toBits 64 ((w.pb <<< w.free) % W64 ||| code >>> f), by simp; omega, ?_, ?_, by
      dsimp only; omega⟩
    · dsimp only
      rw [ho, flushBytes_eq, bytesOfBits_append8 _ _ h8, stuff_append, List.append_assoc]
    · dsimp only
      rw [hfull, hb, show 64 - (64 - f) = f by omega, toBits_add]
      simp
  · rename_i hgt
    refine ⟨fl, h8, ho, ?_, by dsimp only; omega⟩
    dsimp only
    rw [show 64 - (w.free - size) = 64 - w.free + size by omega,
      toBits_load' _ _ _ _ (by omega) hc, hb, List.append_assoc]

theorem padOnes_append8 (a l : List Bool) (h : a.length % 8 = 0) :
    padOnes (a ++ l) = a ++ padOnes l := by
  simp only [padOnes, List.length_append, List.append_assoc]
  rw [show (a.length + l.length) % 8 = l.length % 8 by omega]

theorem segment_append8 (a l : List Bool) (h : a.length % 8 = 0) :
    segment (a ++ l) = stuff (bytesOfBits a) ++ segment l := by
  rw [segment, padOnes_append8 _ _ h, bytesOfBits_append8 _ _ h, stuff_append]; rfl

theorem flushLoop_eq (pb n : Nat) : flushLoop pb n = segment (toBits n pb) := by
  induction n using Nat.strongRecOn with
  | ind n ih =>
    rw [flushLoop]
    split
    · rename_i h
      rw [ih _ (by omega)]
      have : toBits n pb = toBits 8 (pb >>> (n - 8)) ++ toBits (n - 8) pb := by
        rw [← toBits_add]; congr 1; omega
      rw [this, segment_append8 _ _ (by simp), emitByte_eq]
      have h2 := bytesOfBits_cons8 (toBits 8 (pb >>> (n - 8))) [] (by simp)
      rw [List.append_nil, ofBits_toBits] at h2
      rw [h2]; rfl
    · split
      · rename_i h1 h2
        rw [emitByte_eq, segment]
        congr 1
        have hp : padOnes (toBits n pb) = toBits 8 (pb <<< (8 - n) ||| 0xFF >>> n) := by
          have hlt : 0xFF >>> n = 2 ^ (8 - n) - 1 := by
            have : n = 1 ∨ n = 2 ∨ n = 3 ∨ n = 4 ∨ n = 5 ∨ n = 6 ∨ n = 7 := by omega
            rcases this with rfl | rfl | rfl | rfl | rfl | rfl | rfl <;> rfl
          have hpos := Nat.two_pow_pos (8 - n)
          rw [hlt, shl_or_eq (by omega)]
          conv => rhs; rw [show 8 = n + (8 - n) by omega]
          rw [show n + (8 - n) - n = 8 - n by omega, toBits_concat _ _ _ _ (by omega)]
          rw [padOnes]
          congr 1
          simp only [length_toBits]
          rw [show (8 - n % 8) % 8 = 8 - n by omega]
          apply List.ext_getElem
          · simp
          · intro i hi1 hi2
            rw [getElem_toBits, Nat.testBit_two_pow_sub_one]
            simp at hi2 ⊢
            omega
        rw [hp]
        have h3 := bytesOfBits_cons8 (toBits 8 (pb <<< (8 - n) ||| 0xFF >>> n)) [] (by simp)
        rw [List.append_nil, ofBits_toBits] at h3
        rw [h3]; rfl
      · rename_i h1 h2
        have : n = 0 := by omega
        subst this; simp [segment, padOnes, bytesOfBits]

theorem flushBits_inv {w : Wr} {pre : List Nat} {bits : List Bool} (h : w.Inv pre bits) :
    (flushBits w).out = pre ++ segment bits ∧ (flushBits w).Inv (pre ++ segment bits) [] := by
  obtain ⟨fl, h8, ho, hb, hf⟩ := h
  have e : (flushBits w).out = pre ++ segment bits := by
    simp only [flushBits]
    rw [ho, hb, flushLoop_eq, segment_append8 _ _ h8, List.append_assoc]
  exact ⟨e, [], rfl, by simp [e, bytesOfBits_nil], by simp [flushBits], by simp [flushBits]⟩

theorem emitRestart_inv {w : Wr} {pre : List Nat} {bits : List Bool} (h : w.Inv pre bits) (n : Nat) :
    (emitRestart w n).Inv (pre ++ segment bits ++ [0xFF, 0xD0 + n]) [] := by
  have := flushBits_inv h
  refine ⟨[], rfl, ?_, ?_, ?_⟩
  · simp [emitRestart, this.1, bytesOfBits_nil]
  · simp [emitRestart, flushBits]
  · simp [emitRestart, flushBits]

end Verif.Huff
