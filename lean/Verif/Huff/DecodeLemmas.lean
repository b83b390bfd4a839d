import Verif.Huff.ReaderLemmas
import Verif.Huff.DTblLemmas
/-
Correctness of HUFF_DECODE / jpeg_huff_decode on well-formed data.
-/
namespace Verif.Huff

variable {sizes codes vals : List Nat} {d : DTbl}

/-- `code` (of `l` bits) is past every shorter code. -/
def Above (sizes codes : List Nat) (l code : Nat) : Prop :=
  ∀ q, q < sizes.length → sizes.getD q 0 < l → codes.getD q 0 < code / 2 ^ (l - sizes.getD q 0)

theorem Above.step (F : DFacts sizes codes vals d) {l code b : Nat} (h1 : 1 ≤ l) (h16 : l ≤ 16)
    (ha : Above sizes codes l code) (hb : b < 2) (hg : (code : Int) > d.maxcode.getD (l - 1) 0) :
    Above sizes codes (l + 1) ((code <<< 1) ||| b) := by
  intro q hq hlt
  have e : (code <<< 1) ||| b = code * 2 + b := by
    have := shl_or_eq (pb := code) (s := 1) (code := b) (by omega)
    simpa using this
  rw [e]
  rcases Nat.lt_or_ge (sizes.getD q 0) l with h | h
  · have := ha q hq h
    rw [show l + 1 - sizes.getD q 0 = 1 + (l - sizes.getD q 0) by omega, Nat.pow_add,
      ← Nat.div_div_eq_div_mul, show (code * 2 + b) / 2 ^ 1 = code by omega]
    exact this
  · have h3 : sizes.getD q 0 = l := by omega
    have := F.gt_maxcode l code h1 h16 hg q hq h3
    rw [h3, show l + 1 - l = 1 by omega]
    omega

theorem above_one (F : DFacts sizes codes vals d) (code : Nat) : Above sizes codes 1 code := by
  intro q hq h
  have := F.canon.size_range hq
  omega

/-- When the loop stops at length `l ≤ 16`, the code is that of a table entry and the index is right. -/
theorem stop_entry (F : DFacts sizes codes vals d) {l code : Nat} (h1 : 1 ≤ l) (h16 : l ≤ 16)
    (ha : Above sizes codes l code) (hle : (code : Int) ≤ d.maxcode.getD (l - 1) 0) :
    ∃ q, q < sizes.length ∧ sizes.getD q 0 = l ∧ codes.getD q 0 = code ∧
      (code : Int) + d.valoffset.getD (l - 1) 0 = q := by
  obtain ⟨p, e, hpe, he, hsp, hse, hall, hc, hv⟩ := F.le_maxcode l code h1 h16 hle
  have C := F.canon
  -- the first code of the group is at most `code`
  have hp : codes.getD p 0 ≤ code := by
    have hoff := C.off p (by omega)
    cases p with
    | zero =>
      simp at hoff
      have := K_pos (sizes.getD 0 0)
      have h0 : codes[0]?.getD 0 = 0 := by
        rcases hoff with h | h
        · exact h
        · simp at this; omega
      simp [h0]
    | succ p =>
      have hlt : sizes.getD p 0 < l := by
        have hm := C.size_mono (show p ≤ p + 1 by omega) (by omega)
        apply Classical.byContradiction
        intro hn
        have := hall p (by omega) (by omega)
        omega
      have h := ha p (by omega) hlt
      rw [sumK_take_succ (by omega), ← C.off p (by omega), ← Nat.succ_mul, hsp,
        K_split (show sizes.getD p 0 ≤ l by omega) h16, ← Nat.mul_assoc] at hoff
      have h2 := Nat.eq_of_mul_eq_mul_right (K_pos _) hoff
      rw [h2]
      exact (Nat.le_div_iff_mul_le (Nat.two_pow_pos _)).1 h
  have hce := C.consec hpe he (by omega)
  refine ⟨p + (code - codes.getD p 0), by omega, ?_, ?_, by omega⟩
  · have h1 := C.size_mono (show p ≤ p + (code - codes.getD p 0) by omega) (by omega)
    have h2 := C.size_mono (show p + (code - codes.getD p 0) ≤ e by omega) he
    omega
  · have h1 := C.size_mono (show p ≤ p + (code - codes.getD p 0) by omega) (by omega)
    have h2 := C.size_mono (show p + (code - codes.getD p 0) ≤ e by omega) he
    have := C.consec (show p ≤ p + (code - codes.getD p 0) by omega) (by omega) (by omega)
    omega

/-- Two entries whose codes are prefixes of the same bits are the same entry. -/
theorem Canon.prefix_unique (C : Canon sizes codes) {p q : Nat} (hp : p < sizes.length)
    (hq : q < sizes.length) {a b : List Bool}
    (h : toBits (sizes.getD p 0) (codes.getD p 0) ++ a = toBits (sizes.getD q 0) (codes.getD q 0) ++ b) :
    p = q := by
  have key : ∀ p q, ∀ a b : List Bool, p < q → q < sizes.length →
      toBits (sizes.getD p 0) (codes.getD p 0) ++ a = toBits (sizes.getD q 0) (codes.getD q 0) ++ b →
      False := by
    intro p q a b hpq hq h
    have hm := C.size_mono (Nat.le_of_lt hpq) hq
    have hh := congrArg (List.take (sizes.getD p 0)) h
    rw [List.take_append_of_le_length (by simp), List.take_append_of_le_length (by simpa using hm),
      List.take_of_length_le (by simp)] at hh
    obtain ⟨k, hk⟩ : ∃ k, sizes.getD q 0 = sizes.getD p 0 + k := ⟨_, (Nat.add_sub_cancel' hm).symm⟩
    rw [hk, toBits_add, List.take_append_of_le_length (by simp), List.take_of_length_le (by simp)] at hh
    have hlq := C.code_lt hq
    have hlt : codes.getD q 0 >>> k < 2 ^ sizes.getD p 0 := by
      rw [Nat.shiftRight_eq_div_pow, Nat.div_lt_iff_lt_mul (Nat.two_pow_pos _), ← Nat.pow_add, ← hk]
      exact hlq
    have e := toBits_inj (C.code_lt (by omega)) hlt hh
    have hn := C.next_le hpq hq
    rw [K_split hm (C.size_range hq).2, show sizes.getD q 0 - sizes.getD p 0 = k by omega,
      ← Nat.mul_assoc] at hn
    have h2 := Nat.le_of_mul_le_mul_right hn (K_pos _)
    rw [Nat.shiftRight_eq_div_pow] at e
    have h3 := (Nat.le_div_iff_mul_le (Nat.two_pow_pos k)).2 h2
    omega
  rcases Nat.lt_trichotomy p q with h' | h' | h'
  · exact (key p q a b h' hq h).elim
  · exact h'
  · exact (key q p b a h' hp h.symm).elim

theorem take_bits_lt {r : Rd} {n : Nat} : ofBits (r.bits.take n) < 2 ^ n := by
  have h := ofBits_lt (r.bits.take n)
  refine Nat.lt_of_lt_of_le h (Nat.pow_le_pow_right (by omega) (by simp))

/-- The bit-at-a-time loop, when the stream holds the rest of entry `q`'s code. -/
theorem slowLoop_spec (F : DFacts sizes codes vals d) {q : Nat} (hq : q < sizes.length)
    (fuel : Nat) {r : Rd} (hr : r.Ok) (ht : r.tail ≠ none) {code l : Nat} {rest : List Bool}
    (h1 : 1 ≤ l) (hl : l ≤ sizes.getD q 0) (hfuel : l + fuel = 17)
    (ha : Above sizes codes l code) (hc : code < 2 ^ l)
    (hb : toBits l code ++ r.bits = toBits (sizes.getD q 0) (codes.getD q 0) ++ rest) :
    ∃ r', slowLoop d fuel r code l = some (codes.getD q 0, sizes.getD q 0, r') ∧ r.Same r' ∧
      r'.bits = rest ∧
      ((codes.getD q 0 : Int) + d.valoffset.getD (sizes.getD q 0 - 1) 0 = q) := by
  have C := F.canon
  have h16 := (C.size_range hq).2
  induction fuel generalizing r code l with
  | zero => omega
  | succ fuel ih =>
    simp only [slowLoop]
    split
    · rename_i hg
      have hlt : l < sizes.getD q 0 := by
        apply Classical.byContradiction
        intro hn
        have e : l = sizes.getD q 0 := by omega
        subst e
        have hh := congrArg (List.take (sizes.getD q 0)) hb
        rw [List.take_append_of_le_length (by simp), List.take_append_of_le_length (by simp),
          List.take_of_length_le (by simp), List.take_of_length_le (by simp)] at hh
        have := toBits_inj hc (C.code_lt hq) hh
        have := F.gt_maxcode _ code h1 h16 hg q hq rfl
        omega
      have hlen : 1 ≤ r.bits.length := by
        have := congrArg List.length hb
        simp at this hlt; omega
      obtain ⟨r', hrb, hs, hb'⟩ := readBits_spec hr ht hlen (by omega)
      rw [hrb]
      dsimp only
      have hbit : ofBits (r.bits.take 1) < 2 := by
        have := take_bits_lt (r := r) (n := 1); omega
      have hnew : (code <<< 1) ||| ofBits (r.bits.take 1) = code * 2 ^ 1 + ofBits (r.bits.take 1) :=
        shl_or_eq (by omega)
      obtain ⟨r'', e1, e2, e3, e4⟩ := ih hs.ok (by rw [hs.tail]; exact ht) (code := (code <<< 1) ||| ofBits (r.bits.take 1))
        (l := l + 1) (by omega) (by omega) (by omega) (ha.step F h1 (by omega) hbit hg)
        (by rw [hnew, Nat.pow_succ]; omega) (by
          rw [← hb, hnew, toBits_concat _ _ _ _ (by omega), hb']
          have : toBits 1 (ofBits (r.bits.take 1)) = r.bits.take 1 := by
            have := toBits_ofBits (r.bits.take 1)
            rwa [List.length_take, Nat.min_eq_left hlen] at this
          rw [this, List.append_assoc, List.take_append_drop])
      exact ⟨r'', e1, hs.trans e2, e3, e4⟩
    · rename_i hg
      obtain ⟨p, hp, hps, hpc, hpv⟩ := stop_entry F h1 (by omega) ha (by omega)
      have hpq : p = q := by
        apply C.prefix_unique hp hq (a := r.bits) (b := rest)
        rw [hps, hpc]; exact hb
      subst hpq
      rw [← hps, ← hpc] at hb
      have hrest : r.bits = rest := List.append_cancel_left hb
      exact ⟨r, by rw [hps, hpc], hr.same, hrest, by rw [hps, hpc]; exact hpv⟩

theorem huffSlow_spec (F : DFacts sizes codes vals d) {q : Nat} (hq : q < sizes.length)
    {r : Rd} (hr : r.Ok) (ht : r.tail ≠ none) {l : Nat} {rest : List Bool}
    (h1 : 1 ≤ l) (hl : l ≤ sizes.getD q 0)
    (ha : Above sizes codes l (ofBits (r.bits.take l)))
    (hb : r.bits = toBits (sizes.getD q 0) (codes.getD q 0) ++ rest) :
    ∃ r', huffSlow d r l = some (vals.getD q 0, r') ∧ r.Same r' ∧ r'.bits = rest := by
  have h16 := (F.canon.size_range hq).2
  have hlen : l ≤ r.bits.length := by rw [hb]; simp at hl ⊢; omega
  obtain ⟨r1, hrb, hs, hb'⟩ := readBits_spec hr ht hlen (by omega)
  unfold huffSlow
  rw [hrb]
  dsimp only
  have hto : toBits l (ofBits (r.bits.take l)) = r.bits.take l := by
    have := toBits_ofBits (r.bits.take l)
    rwa [List.length_take, Nat.min_eq_left hlen] at this
  obtain ⟨r2, e1, e2, e3, e4⟩ := slowLoop_spec F hq (17 - l) hs.ok (by rw [hs.tail]; exact ht)
    (rest := rest) h1 hl (by omega) ha take_bits_lt (by
      rw [hto, hb', List.take_append_drop, hb])
  rw [e1]
  dsimp only
  rw [if_neg (by omega), e4, F.vals_eq]
  exact ⟨r2, by simp, hs.trans e2, e3⟩

/-- A lookahead value not claimed by any code of at most 8 bits is past all of them. -/
theorem miss_above (C : Canon sizes codes) {v : Nat} (hv : v < 256)
    (hmiss : ∀ q, q < sizes.length → sizes.getD q 0 ≤ 8 →
      codes.getD q 0 ≠ v >>> (8 - sizes.getD q 0)) (q : Nat) (hq : q < sizes.length)
    (h8 : sizes.getD q 0 ≤ 8) : codes.getD q 0 < v >>> (8 - sizes.getD q 0) := by
  have hK : ∀ s, s ≤ 8 → K s = 2 ^ (8 - s) * 2 ^ 8 := by
    intro s hs; rw [K, ← Nat.pow_add]; congr 1; omega
  -- by induction on q: every interval up to q ends at or before v
  have key : ∀ n, n ≤ sizes.length → (∀ q < n, sizes.getD q 0 ≤ 8) →
      sumK (sizes.take n) ≤ v * 2 ^ 8 := by
    intro n
    induction n with
    | zero => intro _ _; simp
    | succ n ih =>
      intro hn h
      have i1 := ih (by omega) (fun q hq => h q (by omega))
      have h8n := h n (by omega)
      rw [sumK_take_succ (by omega), ← C.off n (by omega)] at *
      have hm := hmiss n (by omega) h8n
      rw [hK _ h8n, ← Nat.mul_assoc] at *
      have i2 := Nat.le_of_mul_le_mul_right i1 (by omega)
      rw [← Nat.add_mul]
      apply Nat.mul_le_mul_right
      apply Classical.byContradiction
      intro hcon
      apply hm
      rw [shift_interval, Nat.shiftLeft_eq]
      omega
  have h := key (q + 1) (by omega) (fun q' hq' => by
    have := C.size_mono (show q' ≤ q by omega) hq
    omega)
  rw [sumK_take_succ hq, ← C.off q hq, hK _ h8, ← Nat.mul_assoc, ← Nat.add_mul] at h
  have h2 := Nat.le_of_mul_le_mul_right h (by omega)
  rw [← Nat.succ_mul] at h2
  rw [Nat.shiftRight_eq_div_pow]
  exact (Nat.le_div_iff_mul_le (Nat.two_pow_pos _)).2 h2

theorem or_hi_lo {s v : Nat} (hv : v < 256) : (s * 256 ||| v) >>> 8 = s ∧ (s * 256 ||| v) &&& 255 = v := by
  have : s * 256 ||| v = s * 2 ^ 8 + v := by
    rw [← shl_or_eq (by omega), Nat.shiftLeft_eq]
  rw [this]
  refine ⟨by rw [Nat.shiftRight_eq_div_pow]; omega, ?_⟩
  rw [show 255 = 2 ^ 8 - 1 by rfl, Nat.and_two_pow_sub_one_eq_mod]
  omega

/-- HUFF_DECODE returns the symbol whose code is next in the stream and consumes exactly that code. -/
theorem huffDecode_spec (F : DFacts sizes codes vals d) (hvals : IsBytes vals) {q : Nat}
    (hq : q < sizes.length) {r : Rd} (hr : r.Ok) (ht : r.tail ≠ none) {rest : List Bool}
    (hb : r.bits = toBits (sizes.getD q 0) (codes.getD q 0) ++ rest) :
    ∃ r', huffDecode d r = some (vals.getD q 0, r') ∧ r.Same r' ∧ r'.bits = rest := by
  have C := F.canon
  have hrange := C.size_range hq
  have hv : vals.getD q 0 < 256 := by
    rw [List.getD_eq_getElem?_getD]
    cases h : vals[q]? with
    | none => simp
    | some x => exact hvals x (List.mem_of_getElem? h)
  -- after the optional refill
  obtain ⟨r1, hr1, hs, hb1, hcase⟩ : ∃ r1, (if r.left < 8 then fill r 0 else some r) = some r1 ∧
      r.Same r1 ∧ r1.bits = r.bits ∧ (r1.left < 8 ∨ 8 ≤ r1.left) := by
    by_cases h : r.left < 8
    · rw [if_pos h]
      obtain ⟨r1, a, b, c, -⟩ := fill_spec hr ht (n := 0) (by omega) (by omega)
      exact ⟨r1, a, b, c, by omega⟩
    · rw [if_neg h]
      exact ⟨r, rfl, hr.same, rfl, by omega⟩
  unfold huffDecode
  rw [hr1]
  dsimp only
  have ht1 : r1.tail ≠ none := by rw [hs.tail]; exact ht
  rcases hcase with h | h
  · rw [if_pos h]
    obtain ⟨r2, a, b, c⟩ := huffSlow_spec F hq hs.ok ht1 (l := 1) (rest := rest) (by omega) (by omega)
      (above_one F _) (by rw [hb1, hb])
    exact ⟨r2, a, hs.trans b, c⟩
  · rw [if_neg (by omega)]
    obtain ⟨p1, p2⟩ := peekBits_eq h (by omega)
    generalize hlook : peekBits r1 8 = v at *
    have hv8 : v < 256 := by
      rw [p2]; have := take_bits_lt (r := r1) (n := 8); omega
    by_cases h8 : sizes.getD q 0 ≤ 8
    · have hcode : codes.getD q 0 = v >>> (8 - sizes.getD q 0) := by
        have e := p1
        rw [show 8 = sizes.getD q 0 + (8 - sizes.getD q 0) by omega, toBits_add] at e
        have hh := congrArg (List.take (sizes.getD q 0)) e
        rw [List.take_append_of_le_length (by simp), List.take_of_length_le (by simp), List.take_take,
          Nat.min_eq_left (by omega), hb1, hb, List.take_append_of_le_length (by simp),
          List.take_of_length_le (by simp)] at hh
        refine (toBits_inj ?_ (C.code_lt hq) hh).symm
        rw [Nat.shiftRight_eq_div_pow, Nat.div_lt_iff_lt_mul (Nat.two_pow_pos _), ← Nat.pow_add,
          show sizes.getD q 0 + (8 - sizes.getD q 0) = 8 by omega]
        exact hv8
      rw [F.look_hit v q hv8 hq h8 hcode]
      obtain ⟨o1, o2⟩ := or_hi_lo (s := sizes.getD q 0) hv
      rw [o1, o2, if_pos h8]
      refine ⟨_, rfl, hs.trans (dropBits_same hs.ok), ?_⟩
      rw [dropBits_bits (by omega), hb1, hb, List.drop_append_of_le_length (by simp),
        List.drop_of_length_le (by simp), List.nil_append]
    · have hmiss : ∀ p, p < sizes.length → sizes.getD p 0 ≤ 8 →
          codes.getD p 0 ≠ v >>> (8 - sizes.getD p 0) := by
        intro p hp hp8 hcon
        have e := p1
        rw [show 8 = sizes.getD p 0 + (8 - sizes.getD p 0) by omega, toBits_add, ← hcon,
          show sizes.getD p 0 + (8 - sizes.getD p 0) = 8 by omega] at e
        have : p = q := by
          apply C.prefix_unique hp hq
            (a := toBits (8 - sizes.getD p 0) v ++ r1.bits.drop 8) (b := rest)
          rw [← List.append_assoc, e, List.take_append_drop, hb1, hb]
        subst this; omega
      rw [F.look_miss v hv8 hmiss]
      rw [show (9 * 256 : Nat) >>> 8 = 9 by rfl, if_neg (by omega)]
      have hlen9 : 9 ≤ r1.bits.length := by rw [hb1, hb]; simp at h8 ⊢; omega
      obtain ⟨r2, a, b, c⟩ := huffSlow_spec F hq hs.ok ht1 (l := 9) (rest := rest) (by omega) (by omega)
        (by
          intro p hp hlt
          have hma := miss_above C hv8 hmiss p hp (by omega)
          have e9 : ofBits (r1.bits.take 9) / 2 = v := by
            rw [p2]
            have : r1.bits.take 9 = r1.bits.take 8 ++ (r1.bits.drop 8).take 1 := by
              rw [← List.take_add]
            rw [this, ofBits_append]
            have h1 : ((r1.bits.drop 8).take 1).length = 1 := by simp; omega
            have := ofBits_lt ((r1.bits.drop 8).take 1)
            rw [h1] at this ⊢
            omega
          rw [show 9 - sizes.getD p 0 = 1 + (8 - sizes.getD p 0) by omega, Nat.pow_add,
            ← Nat.div_div_eq_div_mul, Nat.pow_one, e9, ← Nat.shiftRight_eq_div_pow]
          exact hma)
        (by rw [hb1, hb])
      exact ⟨r2, a, hs.trans b, c⟩

end Verif.Huff
