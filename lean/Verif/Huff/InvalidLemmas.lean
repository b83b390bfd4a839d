import Verif.Huff.DecodeLemmas
/-
HUFF_DECODE on bits that start with no code of the table.
-/
namespace Verif.Huff

variable {sizes codes vals : List Nat} {d : DTbl}

/-- The next bits are the code of no table entry. -/
def NoCode (sizes codes : List Nat) (bits : List Bool) : Prop :=
  ∀ q, q < sizes.length → ∀ rest, bits ≠ toBits (sizes.getD q 0) (codes.getD q 0) ++ rest

theorem slowLoop_invalid (F : DFacts sizes codes vals d)
    (fuel : Nat) {r : Rd} (hr : r.Ok) (ht : r.tail ≠ none) {code l : Nat}
    (h1 : 1 ≤ l) (hfuel : l + fuel = 17)
    (ha : Above sizes codes l code) (hc : code < 2 ^ l) (hlen : fuel ≤ r.bits.length)
    (hb : NoCode sizes codes (toBits l code ++ r.bits)) :
    ∃ code' r', slowLoop d fuel r code l = some (code', 17, r') ∧ r.Same r' ∧
      r'.bits = r.bits.drop fuel := by
  induction fuel generalizing r code l with
  | zero => exact ⟨code, r, by simp only [slowLoop, show l = 17 by omega], hr.same, by simp⟩
  | succ fuel ih =>
    simp only [slowLoop]
    split
    · rename_i hg
      obtain ⟨r', hrb, hs, hb'⟩ := readBits_spec hr ht (n := 1) (by omega) (by omega)
      rw [hrb]
      dsimp only
      have hbit : ofBits (r.bits.take 1) < 2 := by
        have := take_bits_lt (r := r) (n := 1); omega
      have hnew : (code <<< 1) ||| ofBits (r.bits.take 1) = code * 2 ^ 1 + ofBits (r.bits.take 1) :=
        shl_or_eq (by omega)
      obtain ⟨c', r'', e1, e2, e3⟩ := ih hs.ok (by rw [hs.tail]; exact ht)
        (code := (code <<< 1) ||| ofBits (r.bits.take 1))
        (l := l + 1) (by omega) (by omega) (ha.step F h1 (by omega) hbit hg)
        (by rw [hnew, Nat.pow_succ]; omega) (by rw [hb']; simp; omega) (by
          have : toBits (l + 1) ((code <<< 1) ||| ofBits (r.bits.take 1)) ++ r'.bits =
              toBits l code ++ r.bits := by
            rw [hnew, toBits_concat _ _ _ _ (by omega), hb']
            have : toBits 1 (ofBits (r.bits.take 1)) = r.bits.take 1 := by
              have := toBits_ofBits (r.bits.take 1)
              rwa [List.length_take, Nat.min_eq_left (by omega)] at this
            rw [this, List.append_assoc, List.take_append_drop]
          rw [this]; exact hb)
      refine ⟨c', r'', e1, hs.trans e2, ?_⟩
      rw [e3, hb', List.drop_drop, Nat.add_comm]
    · rename_i hg
      obtain ⟨p, hp, hps, hpc, hpv⟩ := stop_entry F h1 (by omega) ha (by omega)
      refine absurd ?_ (hb p hp r.bits)
      rw [hps, hpc]

/-- `r'` continues `r` in the same segment after one warning. -/
structure Rd.Warned (r r' : Rd) : Prop where
  ok : r'.Ok
  tail : r'.tail = r.tail
  insuff : r'.insuff = r.insuff
  warns : r'.warns = r.warns + 1

theorem huffSlow_invalid (F : DFacts sizes codes vals d)
    {r : Rd} (hr : r.Ok) (ht : r.tail ≠ none) {l : Nat} (h1 : 1 ≤ l) (hl : l ≤ 17)
    (ha : Above sizes codes l (ofBits (r.bits.take l))) (hlen : 17 ≤ r.bits.length)
    (hb : NoCode sizes codes r.bits) :
    ∃ r', huffSlow d r l = some (0, r') ∧ r.Warned r' ∧ r'.bits = r.bits.drop 17 := by
  obtain ⟨r1, hrb, hs, hb'⟩ := readBits_spec hr ht (n := l) (by omega) (by omega)
  unfold huffSlow
  rw [hrb]
  dsimp only
  have hto : toBits l (ofBits (r.bits.take l)) = r.bits.take l := by
    have := toBits_ofBits (r.bits.take l)
    rwa [List.length_take, Nat.min_eq_left (by omega)] at this
  obtain ⟨c', r2, e1, e2, e3⟩ := slowLoop_invalid F (17 - l) hs.ok (by rw [hs.tail]; exact ht)
    h1 (by omega) ha take_bits_lt (by rw [hb']; simp; omega) (by
      rw [hto, hb', List.take_append_drop]; exact hb)
  rw [e1]
  dsimp only
  rw [if_pos (by omega)]
  have hs2 := hs.trans e2
  refine ⟨_, rfl, ⟨⟨hs2.ok.left64, hs2.ok.bytes⟩, hs2.tail, hs2.insuff, by simp [hs2.warns]⟩, ?_⟩
  have : ({ r2 with warns := r2.warns + 1 } : Rd).bits = r2.bits := rfl
  rw [this, e3, hb', List.drop_drop]
  congr 1; omega

theorem huffDecode_invalid (F : DFacts sizes codes vals d)
    {r : Rd} (hr : r.Ok) (ht : r.tail ≠ none) (hlen : 17 ≤ r.bits.length)
    (hb : NoCode sizes codes r.bits) :
    ∃ r', huffDecode d r = some (0, r') ∧ r.Warned r' ∧ r'.bits = r.bits.drop 17 := by
  have C := F.canon
  obtain ⟨r1, hr1, hs, hb1, hcase⟩ : ∃ r1, (if r.left < 8 then fill r 0 else some r) = some r1 ∧
      r.Same r1 ∧ r1.bits = r.bits ∧ (r1.left < 8 ∨ 8 ≤ r1.left) := by
    by_cases h : r.left < 8
    · rw [if_pos h]
      obtain ⟨r1, a, b, c, -⟩ := fill_spec hr ht (n := 0) (by omega) (by omega)
      exact ⟨r1, a, b, c, by omega⟩
    · rw [if_neg h]
      exact ⟨r, rfl, hr.same, rfl, by omega⟩
  have comb : ∀ r', r1.Warned r' → r.Warned r' := fun r' h =>
    ⟨h.ok, h.tail.trans hs.tail, h.insuff.trans hs.insuff, by rw [h.warns, hs.warns]⟩
  unfold huffDecode
  rw [hr1]
  dsimp only
  have ht1 : r1.tail ≠ none := by rw [hs.tail]; exact ht
  rw [← hb1] at hb hlen ⊢
  rcases hcase with h | h
  · rw [if_pos h]
    obtain ⟨r2, a, b, c⟩ := huffSlow_invalid F hs.ok ht1 (l := 1) (by omega) (by omega)
      (above_one F _) hlen hb
    exact ⟨r2, a, comb _ b, c⟩
  · rw [if_neg (by omega)]
    obtain ⟨p1, p2⟩ := peekBits_eq h (by omega)
    generalize hlook : peekBits r1 8 = v at *
    have hv8 : v < 256 := by
      rw [p2]; have := take_bits_lt (r := r1) (n := 8); omega
    have hmiss : ∀ p, p < sizes.length → sizes.getD p 0 ≤ 8 →
        codes.getD p 0 ≠ v >>> (8 - sizes.getD p 0) := by
      intro p hp hp8 hcon
      have e := p1
      rw [show 8 = sizes.getD p 0 + (8 - sizes.getD p 0) by omega, toBits_add, ← hcon,
        show sizes.getD p 0 + (8 - sizes.getD p 0) = 8 by omega] at e
      refine hb p hp (toBits (8 - sizes.getD p 0) v ++ r1.bits.drop 8) ?_
      rw [← List.append_assoc, e, List.take_append_drop]
    rw [F.look_miss v hv8 hmiss]
    rw [show (9 * 256 : Nat) >>> 8 = 9 by rfl, if_neg (by omega)]
    obtain ⟨r2, a, b, c⟩ := huffSlow_invalid F hs.ok ht1 (l := 9) (by omega) (by omega)
      (by
        intro p hp hlt
        have hma := miss_above C hv8 hmiss p hp (by omega)
        have e9 : ofBits (r1.bits.take 9) / 2 = v := by
          rw [p2]
          have : r1.bits.take 9 = r1.bits.take 8 ++ (r1.bits.drop 8).take 1 := by
            rw [← List.take_add]
          rw [this, ofBits_append]
          have h1 : ((r1.bits.drop 8).take 1).length = 1 := by simp; omega
          have := ofBits_lt ((r1.bits.drop 8).take 1)
          rw [h1] at this ⊢
          omega
        rw [show 9 - sizes.getD p 0 = 1 + (8 - sizes.getD p 0) by omega, Nat.pow_add,
          ← Nat.div_div_eq_div_mul, Nat.pow_one, e9, ← Nat.shiftRight_eq_div_pow]
        exact hma)
      hlen hb
    exact ⟨r2, a, comb _ b, c⟩

end Verif.Huff
