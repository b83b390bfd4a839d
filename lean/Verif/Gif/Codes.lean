import Verif.Gif.Safe
/-
The bit reader of the GIF reader: codes are cut, lowest bit first, from the bytes of the data sub-blocks.
-/
namespace Verif.Gif

/-- Specification: the number that bytes make, the first byte the lowest. -/
def val : List Nat → Nat
  | [] => 0
  | b :: l => b + 256 * val l

/-- Specification: the bytes in data sub-blocks up to the empty one. -/
inductive Payload : List Nat → List Nat → Prop
  | nil (rest : List Nat) : Payload (0 :: rest) []
  | cons (blk rest pl : List Nat) : blk ≠ [] → Payload rest pl → Payload (blk.length :: (blk ++ rest)) (blk ++ pl)

theorem val_append (a b : List Nat) : val (a ++ b) = val a + 2 ^ (8 * a.length) * val b := by
  induction a with
  | nil => simp [val]
  | cons x a ih =>
    simp only [List.cons_append, val, ih, List.length_cons]
    rw [show 8 * (a.length + 1) = 8 * a.length + 8 by ring, Nat.pow_add]
    ring

theorem val_lt (a : List Nat) (h : Bytes a) : val a < 2 ^ (8 * a.length) := by
  induction a with
  | nil => simp [val]
  | cons x a ih =>
    have h1 := h x (by simp)
    have h2 := ih (fun b hb => h b (by simp [hb]))
    simp only [val, List.length_cons]
    rw [show 8 * (a.length + 1) = 8 * a.length + 8 by ring, Nat.pow_add]
    omega

theorem div_pow (x a b y : Nat) : (x + 2 ^ (a + b) * y) / 2 ^ a = x / 2 ^ a + 2 ^ b * y := by
  rw [Nat.pow_add, Nat.mul_assoc, Nat.add_mul_div_left _ _ (Nat.two_pow_pos _)]

theorem mod_pow (x s d y : Nat) : (x + 2 ^ (s + d) * y) % 2 ^ s = x % 2 ^ s := by
  rw [Nat.pow_add, Nat.mul_assoc, Nat.add_mul_mod_self_left]

/-- `R` and `L`: the value and number of the bits not yet read. -/
structure Unread (b : Bits) (pl : List Nat) (R L : Nat) : Prop where
  payload : Payload b.file pl
  whole : b.lastBit = 0 ∨ b.lastBit = 8 * b.lastByte
  bytes : Bytes (b.buf.take b.lastByte)
  value : R = val (b.buf.take (b.lastBit / 8)) / 2 ^ b.cur + 2 ^ (b.lastBit - b.cur) * val pl
  count : L = b.lastBit - b.cur + 8 * pl.length

theorem getD_get (a : List Nat) (i : Nat) (h : i < a.length) : at? a i = .ok (a[i]) := by
  unfold at?; rw [List.getElem?_eq_getElem h]

/-- The code in the buffer. -/
theorem accum_eq (buf : List Nat) (cur size k y : Nat) (h1 : size ≤ 12) (h2 : cur + size ≤ 8 * k) (h3 : k + 2 < buf.length) (h4 : 1 ≤ size)
    (hb : Bytes (buf.take k)) :
    (buf[cur / 8 + 2]'(by omega) * 65536 + buf[cur / 8 + 1]'(by omega) * 256 + buf[cur / 8]'(by omega)) / 2 ^ (cur % 8) % 2 ^ size =
      (val (buf.take k) / 2 ^ cur + 2 ^ (8 * k - cur) * y) % 2 ^ size := by
  generalize ha : buf[cur / 8]'(by omega) = a
  generalize hbb : buf[cur / 8 + 1]'(by omega) = b
  generalize hc : buf[cur / 8 + 2]'(by omega) = c
  have e1 : (val (buf.take k) / 2 ^ cur + 2 ^ (8 * k - cur) * y) % 2 ^ size = val (buf.take k) / 2 ^ cur % 2 ^ size := by
    rw [show 8 * k - cur = size + (8 * k - cur - size) by omega, mod_pow]
  have e2 : val buf / 2 ^ cur % 2 ^ size = val (buf.take k) / 2 ^ cur % 2 ^ size := by
    have hs : val buf = val (buf.take k) + 2 ^ (8 * k) * val (buf.drop k) := by
      conv_lhs => rw [← List.take_append_drop k buf]
      rw [val_append, List.length_take, Nat.min_eq_left (by omega)]
    rw [hs, show 8 * k = cur + (size + (8 * k - cur - size)) by omega, div_pow, mod_pow]
  have hsplit : buf = buf.take (cur / 8) ++ a :: b :: c :: buf.drop (cur / 8 + 3) := by
    conv_lhs => rw [← List.take_append_drop (cur / 8) buf]
    rw [List.drop_eq_getElem_cons (by omega), List.drop_eq_getElem_cons (by omega), List.drop_eq_getElem_cons (by omega), ha, hbb, hc]
  have e3 : val buf / 2 ^ cur = (c * 65536 + b * 256 + a) / 2 ^ (cur % 8) + 2 ^ (24 - cur % 8) * val (buf.drop (cur / 8 + 3)) := by
    have hv : val buf = val (buf.take (cur / 8)) + 2 ^ (8 * (cur / 8)) * (c * 65536 + b * 256 + a + 2 ^ 24 * val (buf.drop (cur / 8 + 3))) := by
      conv_lhs => rw [hsplit]
      rw [val_append, List.length_take, Nat.min_eq_left (by omega)]
      simp only [val]
      ring
    have hlt : val (buf.take (cur / 8)) < 2 ^ (8 * (cur / 8)) := by
      have := val_lt (buf.take (cur / 8)) (fun x hx => hb x (by
        rw [show buf.take (cur / 8) = (buf.take k).take (cur / 8) by rw [List.take_take, Nat.min_eq_left (by omega)]] at hx
        exact List.mem_of_mem_take hx))
      rwa [List.length_take, Nat.min_eq_left (by omega)] at this
    have e4 : val buf / 2 ^ cur = val buf / 2 ^ (8 * (cur / 8)) / 2 ^ (cur % 8) := by
      rw [Nat.div_div_eq_div_mul, ← Nat.pow_add, show 8 * (cur / 8) + cur % 8 = cur by omega]
    have e5 := div_pow (c * 65536 + b * 256 + a) (cur % 8) (24 - cur % 8) (val (buf.drop (cur / 8 + 3)))
    rw [show cur % 8 + (24 - cur % 8) = 24 by omega] at e5
    rw [e4, hv, Nat.add_mul_div_left _ _ (Nat.two_pow_pos _), Nat.div_eq_of_lt hlt, Nat.zero_add, e5]
  rw [e1, ← e2, e3, show 24 - cur % 8 = size + (24 - cur % 8 - size) by omega, mod_pow]

/-- A block is appended to the bits not yet read. -/
theorem reload_spec (b : Bits) (h : BitsOk b) (blk rest pl : List Nat) (R L : Nat) (hblk : blk ≠ []) (hf : b.file = blk.length :: (blk ++ rest))
    (hp : Payload rest pl) (hu : Unread b (blk ++ pl) R L) (hc : b.lastBit ≤ b.cur + 12) :
    ∃ b', reload b = .ok (some b', b') ∧ Unread b' pl R L ∧ b'.first = b.first ∧ b'.out = b.out ∧ b'.file = rest := by
  obtain ⟨h1, h2, h3, h4, h5⟩ := h
  obtain ⟨u1, u2, u3, u4, u5⟩ := hu
  have hfile : Bytes (blk.length :: (blk ++ rest)) := by rw [← hf]; exact h5
  have hn := hfile blk.length (by simp)
  have hpos : 0 < blk.length := List.length_pos_iff.2 hblk
  have hblkb : Bytes blk := fun x hx => hfile x (by simp [hx])
  have hblock : block b.file = .ok (blk, rest) := by
    rw [hf]
    show (if (blk ++ rest).length < blk.length then _ else _) = _
    rw [if_neg (by simp)]
    simp
  have ga := getD_get b.buf (b.lastByte - 2) (by omega)
  have gb := getD_get b.buf (b.lastByte - 1) (by omega)
  have hal : b.buf[b.lastByte - 2]'(by omega) < 256 := u3 _ (by
    rw [List.mem_take_iff_getElem]; exact ⟨b.lastByte - 2, by omega, rfl⟩)
  have hbl : b.buf[b.lastByte - 1]'(by omega) < 256 := u3 _ (by
    rw [List.mem_take_iff_getElem]; exact ⟨b.lastByte - 1, by omega, rfl⟩)
  have hx : val (b.buf.take (b.lastBit / 8)) / 2 ^ b.cur =
      (b.buf[b.lastByte - 2]'(by omega) + 256 * b.buf[b.lastByte - 1]'(by omega)) / 2 ^ (b.cur + 16 - b.lastBit) := by
    rcases u2 with u2 | u2
    · have hc0 : b.cur = 0 := by omega
      rw [u2, hc0]
      have : (b.buf[b.lastByte - 2]'(by omega) + 256 * b.buf[b.lastByte - 1]'(by omega)) / 2 ^ 16 = 0 := Nat.div_eq_of_lt (by omega)
      simpa [val] using this.symm
    · have hsplit : b.buf.take b.lastByte = b.buf.take (b.lastByte - 2) ++ [b.buf[b.lastByte - 2]'(by omega), b.buf[b.lastByte - 1]'(by omega)] := by
        conv_lhs => rw [show b.lastByte = b.lastByte - 2 + 2 by omega, List.take_add]
        congr 1
        rw [List.drop_eq_getElem_cons (by omega), List.drop_eq_getElem_cons (by omega)]
        simp only [List.take_succ_cons, List.take_zero]
        congr 3
        omega
      have hlt : val (b.buf.take (b.lastByte - 2)) < 2 ^ (8 * (b.lastByte - 2)) := by
        have := val_lt (b.buf.take (b.lastByte - 2)) (fun x hx => u3 x (by
          rw [show b.buf.take (b.lastByte - 2) = (b.buf.take b.lastByte).take (b.lastByte - 2) by rw [List.take_take, Nat.min_eq_left (by omega)]] at hx
          exact List.mem_of_mem_take hx))
        rwa [List.length_take, Nat.min_eq_left (by omega)] at this
      have e4 : val (b.buf.take b.lastByte) / 2 ^ b.cur =
          val (b.buf.take b.lastByte) / 2 ^ (8 * (b.lastByte - 2)) / 2 ^ (b.cur + 16 - b.lastBit) := by
        rw [Nat.div_div_eq_div_mul, ← Nat.pow_add, show 8 * (b.lastByte - 2) + (b.cur + 16 - b.lastBit) = b.cur by omega]
      rw [show b.lastBit / 8 = b.lastByte by omega, e4]
      congr 1
      rw [hsplit, val_append, List.length_take, Nat.min_eq_left (by omega), Nat.add_mul_div_left _ _ (Nat.two_pow_pos _), Nat.div_eq_of_lt hlt,
        Nat.zero_add]
      simp only [val]
      omega
  generalize ea : b.buf[b.lastByte - 2]'(by omega) = x at *
  generalize eb : b.buf[b.lastByte - 1]'(by omega) = y at *
  refine ⟨{ b with buf := x :: y :: blk ++ b.buf.drop (2 + blk.length), file := rest, cur := b.cur + 16 - b.lastBit,
                   lastByte := 2 + blk.length, lastBit := (2 + blk.length) * 8 }, ?_, ⟨hp, Or.inr (by show (2 + blk.length) * 8 = 8 * (2 + blk.length); omega), ?_, ?_, ?_⟩, rfl, rfl, rfl⟩
  · unfold reload
    rw [if_neg (by omega), ga, gb, hblock]
    simp only [bind, Except.bind, pure, Except.pure]
    rw [if_neg (by omega), if_neg (by omega), if_neg (by omega)]
  · have : (x :: y :: blk ++ b.buf.drop (2 + blk.length)).take (2 + blk.length) = x :: y :: blk := by
      rw [List.take_append_of_le_length (by simp; omega), List.take_of_length_le (by simp; omega)]
    show Bytes ((x :: y :: blk ++ b.buf.drop (2 + blk.length)).take (2 + blk.length))
    rw [this]
    intro v hv
    rcases List.mem_cons.1 hv with rfl | hv
    · exact hal
    · rcases List.mem_cons.1 hv with rfl | hv
      · exact hbl
      · exact hblkb v hv
  · have : (x :: y :: blk ++ b.buf.drop (2 + blk.length)).take (2 + blk.length) = x :: y :: blk := by
      rw [List.take_append_of_le_length (by simp; omega), List.take_of_length_le (by simp; omega)]
    show R = val ((x :: y :: blk ++ b.buf.drop (2 + blk.length)).take ((2 + blk.length) * 8 / 8)) / 2 ^ (b.cur + 16 - b.lastBit) +
      2 ^ ((2 + blk.length) * 8 - (b.cur + 16 - b.lastBit)) * val pl
    rw [Nat.mul_div_cancel _ (by decide), this, u4, hx, val_append]
    have e6 := div_pow (x + 256 * y) (b.cur + 16 - b.lastBit) (b.lastBit - b.cur) (val blk)
    rw [show b.cur + 16 - b.lastBit + (b.lastBit - b.cur) = 16 by omega] at e6
    have e7 : val (x :: y :: blk) = x + 256 * y + 2 ^ 16 * val blk := by simp only [val]; ring
    rw [e7, e6, Nat.mul_add, ← Nat.mul_assoc, ← Nat.pow_add, ← Nat.add_assoc,
      show (2 + blk.length) * 8 - (b.cur + 16 - b.lastBit) = b.lastBit - b.cur + 8 * blk.length by omega]
  · show L = (2 + blk.length) * 8 - (b.cur + 16 - b.lastBit) + 8 * pl.length
    rw [u5, List.length_append]
    omega

/-- The next code, if there are enough bits. -/
theorem getCode_spec (size clear : Nat) (h1 : 1 ≤ size) (h2 : size ≤ 12) (file pl : List Nat) (hp : Payload file pl) :
    ∀ (b : Bits) (R L : Nat), b.file = file → BitsOk b → Unread b pl R L → b.first = false → b.out = false → size ≤ L →
      ∃ b' pl', getCode size clear b = .ok (R % 2 ^ size, b') ∧ Unread b' pl' (R / 2 ^ size) (L - size) ∧ BitsOk b' ∧ b'.first = false ∧
        b'.out = false ∧ meas b' < meas b := by
  have enough : ∀ (pl : List Nat) (b : Bits) (R L : Nat), BitsOk b → Unread b pl R L → b.first = false → b.out = false → b.cur + size ≤ b.lastBit →
      ∃ b' pl', getCode size clear b = .ok (R % 2 ^ size, b') ∧ Unread b' pl' (R / 2 ^ size) (L - size) ∧ BitsOk b' ∧ b'.first = false ∧
        b'.out = false ∧ meas b' < meas b := by
    intro pl b R L hb hu hfi hou hc
    obtain ⟨g1, g2, g3, g4, g5⟩ := hb
    obtain ⟨u1, u2, u3, u4, u5⟩ := hu
    have hlb : b.lastBit = 8 * b.lastByte := by omega
    have hk : b.lastBit / 8 = b.lastByte := by omega
    rw [hk] at u4
    refine ⟨{ b with cur := b.cur + size }, pl, ?_, ⟨u1, u2, u3, ?_, ?_⟩, ⟨g1, g2, by show b.cur + size ≤ b.lastBit; omega, g4, g5⟩, hfi, hou, ?_⟩
    · unfold getCode
      rw [if_neg (by omega)]
      simp only []
      rw [getD_get _ (b.cur / 8 + 2) (by omega), getD_get _ (b.cur / 8 + 1) (by omega), getD_get _ (b.cur / 8) (by omega)]
      have := accum_eq b.buf b.cur size b.lastByte (val pl) h2 (by omega) (by omega) h1 u3
      simp only [bind, Except.bind, pure, Except.pure]
      rw [this, u4, hlb]
    · show R / 2 ^ size = val (b.buf.take (b.lastBit / 8)) / 2 ^ (b.cur + size) + 2 ^ (b.lastBit - (b.cur + size)) * val pl
      rw [hk, u4, show b.lastBit - b.cur = size + (b.lastBit - (b.cur + size)) by omega, div_pow, Nat.div_div_eq_div_mul, ← Nat.pow_add]
    · show L - size = b.lastBit - (b.cur + size) + 8 * pl.length
      omega
    · unfold meas; simp only [hfi]; omega
  induction hp with
  | nil rest =>
    intro b R L hf hb hu hfi hou hL
    have := hu.count
    simp only [List.length_nil] at this
    exact enough [] b R L hb hu hfi hou (by omega)
  | cons blk rest pl hblk hp ih =>
    intro b R L hf hb hu hfi hou hL
    by_cases hc : b.cur + size ≤ b.lastBit
    · exact enough _ b R L hb hu hfi hou hc
    · obtain ⟨b1, e1, e2, e3, e4, e5⟩ := reload_spec b hb blk rest pl R L hblk hf hp hu (by omega)
      have hs := reload_safe b hb size h2 (by omega)
      rw [e1] at hs
      obtain ⟨⟨k1, -, k3, -⟩, -⟩ := hs
      obtain ⟨b2, pl2, f1, f2, f3, f4, f5, f6⟩ := ih b1 R L e5 k1 e2 (by rw [e3]; exact hfi) (by rw [e4]; exact hou) hL
      refine ⟨b2, pl2, ?_, f2, f3, f4, f5, by simp only [] at k3; omega⟩
      unfold getCode
      rw [if_pos (by omega), hfi, hou]
      simp only [Bool.false_eq_true, if_false]
      split
      · rename_i e he; rw [e1] at he; cases he
      · rename_i st' he; rw [e1] at he; cases he
      · rename_i st' st'' he
        rw [e1] at he
        cases he
        exact f1

end Verif.Gif
