import Verif.Huff.Reader
import Verif.Huff.Stream
import Verif.Huff.TableLemmas
/-
Refinement of the 64-bit bit reader to a plain list of bits, and correctness of symbol decoding.
-/
namespace Verif.Huff

theorem toBits_load (gb left c : Nat) (hl : left + 8 ≤ 64) (hc : c < 256) :
    toBits (left + 8) ((gb <<< 8) % W64 ||| c) = toBits left gb ++ toBits 8 c := by
  have e : toBits (left + 8) ((gb <<< 8) % W64 ||| c) = toBits (left + 8) (gb * 2 ^ 8 + c) := by
    apply toBits_congr
    intro i hi
    rw [← shl_or_eq (show c < 2 ^ 8 by omega), Nat.testBit_or, Nat.testBit_or, W64,
      Nat.testBit_mod_two_pow]
    simp [show i < 64 by omega]
  rw [e, toBits_concat _ _ _ _ (by omega)]

theorem fillLoop_spec {ff : Bool} {gb left : Nat} {bytes : List Nat} {gb' left' : Nat}
    {bytes' : List Nat} {m : Nat} (hl : left ≤ 64) (hb : IsBytes bytes)
    (hlf : ff = true → left < minGetBits)
    (h : fillLoop ff gb left bytes = some (gb', left', bytes', m)) :
    toBits left gb ++ bitsOfBytes (unstuff ff bytes) =
      toBits left' gb' ++ (if m = 0 then bitsOfBytes (unstuff false bytes') else []) ∧
    left' ≤ 64 ∧ IsBytes bytes' ∧ left ≤ left' ∧
    (m = 0 → segTail false bytes' = segTail ff bytes ∧ minGetBits ≤ left') ∧
    (m ≠ 0 → segTail ff bytes = some (m, bytes') ∧ m < 256 ∧ m ≠ 255) := by
  induction bytes generalizing ff gb left with
  | nil =>
    simp only [fillLoop] at h
    split at h
    · rename_i hh
      simp at h
      obtain ⟨rfl, rfl, rfl, rfl⟩ := h
      obtain ⟨rfl, h2⟩ := hh
      simp [unstuff, hl, h2]
    · simp at h
  | cons c rest ih =>
    rw [isBytes_cons] at hb
    cases ff with
    | false =>
      simp only [fillLoop] at h
      split at h
      · rename_i hh
        simp at h
        obtain ⟨rfl, rfl, rfl, rfl⟩ := h
        simp [hl, hh, isBytes_cons, hb]
      · rename_i hh
        split at h
        · rename_i hc
          subst hc
          have := ih hl hb.2 (by intro; omega) h
          simpa [unstuff, segTail] using this
        · rename_i hc
          simp only [minGetBits] at hh
          have := ih (by omega) hb.2 (by simp) h
          rw [toBits_load _ _ _ (by omega) hb.1] at this
          simp only [unstuff, segTail, hc, if_false, bitsOfBytes_cons]
          rw [← List.append_assoc]
          refine ⟨this.1, this.2.1, this.2.2.1, by omega, this.2.2.2.2⟩
    | true =>
      simp only [fillLoop] at h
      have hlf' := hlf rfl
      simp only [minGetBits] at hlf'
      split at h
      · rename_i hc
        subst hc
        have := ih hl hb.2 hlf h
        simpa [unstuff, segTail] using this
      · split at h
        · rename_i hc hc0
          subst hc0
          have := ih (by omega) hb.2 (by simp) h
          rw [toBits_load _ _ _ (by omega) (by omega)] at this
          simp only [unstuff, segTail, if_false, hc, if_true, bitsOfBytes_cons]
          rw [← List.append_assoc]
          refine ⟨this.1, this.2.1, this.2.2.1, by omega, this.2.2.2.2⟩
        · rename_i hc hc0
          simp at h
          obtain ⟨rfl, rfl, rfl, rfl⟩ := h
          simp [unstuff, segTail, hc, hc0, hl, hb]

theorem fillLoop_isSome {ff : Bool} {gb left : Nat} {bytes : List Nat}
    (ht : segTail ff bytes ≠ none) : fillLoop ff gb left bytes ≠ none := by
  induction bytes generalizing ff gb left with
  | nil => simp [segTail] at ht
  | cons c rest ih =>
    cases ff with
    | false =>
      simp only [fillLoop, segTail] at *
      split
      · simp
      · split
        · rename_i hc; simp [hc] at ht; exact ih ht
        · rename_i hc; simp [hc] at ht; exact ih ht
    | true =>
      simp only [fillLoop, segTail] at *
      split
      · rename_i hc; simp [hc] at ht; exact ih ht
      · rename_i hc
        split
        · rename_i hc0; simp [hc0] at ht; exact ih ht
        · simp

/-- The bits a reader still has to deliver before the end of the segment. -/
def Rd.bits (r : Rd) : List Bool :=
  toBits r.left r.gb ++ (if r.marker = 0 then bitsOfBytes (unstuff false r.bytes) else [])

/-- The marker that ends the segment, and the bytes after it. -/
def Rd.tail (r : Rd) : Option (Nat × List Nat) :=
  if r.marker = 0 then segTail false r.bytes else some (r.marker, r.bytes)

/-- Reader invariant: buffer occupancy within the 64-bit word, source bytes are bytes. -/
structure Rd.Ok (r : Rd) : Prop where
  left64 : r.left ≤ 64
  bytes : IsBytes r.bytes

/-- `r'` continues `r` in the same segment, with the same warning count and flag. -/
structure Rd.Same (r r' : Rd) : Prop where
  ok : r'.Ok
  tail : r'.tail = r.tail
  insuff : r'.insuff = r.insuff
  warns : r'.warns = r.warns

theorem Rd.Same.trans {a b c : Rd} (h : a.Same b) (h' : b.Same c) : a.Same c :=
  ⟨h'.ok, h'.tail.trans h.tail, h'.insuff.trans h.insuff, h'.warns.trans h.warns⟩

theorem Rd.Ok.same {r : Rd} (h : r.Ok) : r.Same r := ⟨h, rfl, rfl, rfl⟩

/-- Filling with enough data left in the segment keeps the bit stream and reaches the request. -/
theorem fill_spec {r : Rd} (hr : r.Ok) (ht : r.tail ≠ none) {n : Nat} (hn : n ≤ r.bits.length)
    (hn57 : n ≤ 57) :
    ∃ r', fill r n = some r' ∧ r.Same r' ∧ r'.bits = r.bits ∧ n ≤ r'.left ∧ r.left ≤ r'.left ∧
      (r'.left < 8 → r'.bits.length = r'.left) := by
  unfold fill
  by_cases hm : r.marker = 0
  · rw [if_pos hm]
    have ht' : segTail false r.bytes ≠ none := by simpa [Rd.tail, hm] using ht
    cases hf : fillLoop false r.gb r.left r.bytes with
    | none => exact absurd hf (fillLoop_isSome ht')
    | some res =>
      obtain ⟨gb', left', bytes', m⟩ := res
      have sp := fillLoop_spec hr.left64 hr.bytes (by simp) hf
      dsimp only
      by_cases h0 : m = 0
      · subst h0
        simp only [if_true] at sp ⊢
        obtain ⟨s1, s2, s3, s4, s5, s6⟩ := sp
        have s5 := s5 trivial
        simp only [minGetBits] at s5
        refine ⟨_, rfl, ⟨⟨s2, s3⟩, ?_, rfl, rfl⟩, ?_, by dsimp only; omega, s4, by dsimp only; omega⟩
        · simp [Rd.tail, hm, s5.1]
        · simp [Rd.bits, hm, s1]
      · simp only [h0, if_false] at sp ⊢
        obtain ⟨s1, s2, s3, s4, s5, s6⟩ := sp
        have s6 := s6 h0
        have hb : (r.bits).length = left' := by
          simp only [Rd.bits, hm, if_true]; rw [s1]; simp
        unfold noMore
        rw [if_neg (by dsimp only; omega)]
        refine ⟨_, rfl, ⟨⟨s2, s3⟩, ?_, rfl, rfl⟩, ?_, by dsimp only; omega, s4, ?_⟩
        · simp [Rd.tail, hm, h0, s6.1]
        · simp [Rd.bits, hm, h0, s1]
        · intro _; simp [Rd.bits, h0]
  · rw [if_neg hm]
    have hb : r.bits.length = r.left := by simp [Rd.bits, hm]
    unfold noMore
    rw [if_neg (by omega)]
    exact ⟨_, rfl, hr.same, rfl, by omega, by omega, fun _ => hb⟩

theorem peekBits_eq {r : Rd} {n : Nat} (hn : n ≤ r.left) (h32 : n ≤ 32) :
    toBits n (peekBits r n) = r.bits.take n ∧ peekBits r n = ofBits (r.bits.take n) := by
  have e1 : peekBits r n = (r.gb >>> (r.left - n)) % 2 ^ n := by
    unfold peekBits
    rw [Nat.and_two_pow_sub_one_eq_mod]
    exact Nat.mod_mod_of_dvd _ (Nat.pow_dvd_pow 2 h32)
  have e2 : r.bits.take n = toBits n (r.gb >>> (r.left - n)) := by
    unfold Rd.bits
    have : r.left = n + (r.left - n) := by omega
    conv => lhs; rw [this]
    rw [toBits_add]
    have h : (toBits n (r.gb >>> (r.left - n))).length = n := by simp
    rw [List.append_assoc]
    rw [List.take_append_of_le_length (by simp)]
    rw [List.take_of_length_le (by simp)]
  rw [e1, e2]
  exact ⟨toBits_mod _ _ _ (Nat.le_refl _), (ofBits_toBits _ _).symm⟩

theorem dropBits_bits {r : Rd} {n : Nat} (hn : n ≤ r.left) :
    (dropBits r n).bits = r.bits.drop n := by
  unfold Rd.bits dropBits
  dsimp only
  have : toBits r.left r.gb = toBits n (r.gb >>> (r.left - n)) ++ toBits (r.left - n) r.gb := by
    rw [← toBits_add]; congr 1; omega
  rw [this, List.append_assoc]
  have h : (toBits n (r.gb >>> (r.left - n))).length = n := by simp
  conv => rhs; rw [← h]
  rw [h, List.drop_append_of_le_length (by simp)]
  simp

theorem dropBits_same {r : Rd} {n : Nat} (hr : r.Ok) : r.Same (dropBits r n) :=
  ⟨⟨by have := hr.left64; simp [dropBits]; omega, hr.bytes⟩, rfl, rfl, rfl⟩

/-- Reading `n` bits delivers the next `n` bits of the stream. -/
theorem readBits_spec {r : Rd} (hr : r.Ok) (ht : r.tail ≠ none) {n : Nat}
    (hn : n ≤ r.bits.length) (h32 : n ≤ 32) :
    ∃ r', readBits r n = some (ofBits (r.bits.take n), r') ∧ r.Same r' ∧
      r'.bits = r.bits.drop n := by
  unfold readBits checkBits
  by_cases hl : r.left < n
  · rw [if_pos hl]
    obtain ⟨r', hf, hs, hb, hle, -, -⟩ := fill_spec hr ht hn (by omega)
    rw [hf]
    dsimp only
    refine ⟨_, by rw [(peekBits_eq hle h32).2, hb], hs.trans (dropBits_same hs.ok), ?_⟩
    rw [dropBits_bits hle, hb]
  · rw [if_neg hl]
    dsimp only
    exact ⟨_, by rw [(peekBits_eq (by omega) h32).2], dropBits_same hr,
      dropBits_bits (by omega)⟩

end Verif.Huff
