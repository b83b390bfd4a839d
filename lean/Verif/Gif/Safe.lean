import Verif.Gif.Model
import Mathlib.Tactic.Ring
/-
The GIF reader: no access outside an array and no endless loop, for any bytes.
-/
namespace Verif.Gif

/-- The result is not a fault; if it is no error either, `P` holds of it. -/
def Safe {α : Type} (P : α → Prop) : R α → Prop
  | .ok a => P a
  | .error .exit => True
  | .error .fault => False

theorem Safe.bind {α β : Type} {P : α → Prop} {Q : β → Prop} {r : R α} {f : α → R β} (h : Safe P r) (hf : ∀ a, P a → Safe Q (f a)) :
    Safe Q (r >>= f) := by
  cases r with
  | ok a => exact hf a h
  | error e => cases e with
    | exit => trivial
    | fault => exact h

theorem Safe.mono {α : Type} {P Q : α → Prop} {r : R α} (h : Safe P r) (hf : ∀ a, P a → Q a) : Safe Q r := by
  cases r with
  | ok a => exact hf a h
  | error e => cases e with
    | exit => trivial
    | fault => exact h

theorem Safe.not_fault {α : Type} {P : α → Prop} {r : R α} (h : Safe P r) : r ≠ .error .fault := by
  rintro rfl; exact h

/-- Bytes. -/
def Bytes (s : List Nat) : Prop := ∀ b ∈ s, b < 256

theorem byte_safe (s : List Nat) (h : Bytes s) : Safe (fun r => r.1 < 256 ∧ Bytes r.2 ∧ r.2.length < s.length) (byte s) := by
  cases s with
  | nil => trivial
  | cons c s => exact ⟨h c (by simp), fun b hb => h b (by simp [hb]), by simp⟩

theorem bytes_safe (n : Nat) (s : List Nat) (h : Bytes s) :
    Safe (fun r => r.1.length = n ∧ Bytes r.1 ∧ Bytes r.2 ∧ r.2.length + n = s.length) (bytes n s) := by
  unfold bytes
  split
  · trivial
  · refine ⟨by simp; omega, fun b hb => h b (List.mem_of_mem_take hb), fun b hb => h b (List.mem_of_mem_drop hb), by simp; omega⟩

theorem block_safe (s : List Nat) (h : Bytes s) :
    Safe (fun r => r.1.length ≤ 255 ∧ Bytes r.1 ∧ Bytes r.2 ∧ r.2.length + r.1.length + 1 = s.length) (block s) := by
  cases s with
  | nil => trivial
  | cons n s =>
    have hn := h n (by simp)
    refine (bytes_safe n s (fun b hb => h b (by simp [hb]))).mono ?_
    rintro ⟨b, t⟩ ⟨h1, h2, h3, h4⟩
    simp only [] at h1 h2 h3 h4 ⊢
    exact ⟨by omega, h2, h3, by simp only [List.length_cons]; omega⟩

theorem skipBlocks_safe : ∀ (n : Nat) (s : List Nat), s.length ≤ n → Bytes s → Safe (fun t => Bytes t ∧ t.length ≤ s.length) (skipBlocks s) := by
  intro n
  induction n with
  | zero =>
    intro s h hb
    have : s = [] := List.length_eq_zero_iff.1 (by omega)
    subst this
    unfold skipBlocks
    split
    · rename_i e he; cases he; trivial
    · rename_i he; cases he
  | succ n ih =>
    intro s h hb
    unfold skipBlocks
    have hbl := block_safe s hb
    split
    · rename_i e he; rw [he] at hbl; cases e
      · trivial
      · exact hbl
    · rename_i b t he
      rw [he] at hbl
      obtain ⟨h1, h2, h3, h4⟩ := hbl
      simp only [] at h1 h2 h3 h4
      split
      · exact (ih t (by omega) h3).mono (fun a ha => ⟨ha.1, by have := ha.2; omega⟩)
      · exact ⟨h3, by omega⟩

theorem at_safe (a : List Nat) (i : Nat) (h : i < a.length) : Safe (fun v => a[i]? = some v) (at? a i) := by
  unfold at?
  rw [List.getElem?_eq_getElem h]
  show some _ = some _
  rfl

/-- The bit reader. -/
structure BitsOk (b : Bits) : Prop where
  len : b.buf.length = 260
  last : 2 ≤ b.lastByte ∧ b.lastByte ≤ 257
  cur : b.cur ≤ b.lastBit
  bits : b.lastBit ≤ 2056
  file : Bytes b.file

/-- How much is left. -/
def meas (b : Bits) : Nat := 8 * b.file.length + (b.lastBit - b.cur) + (if b.first then 1 else 0)

theorem reload_safe (b : Bits) (h : BitsOk b) (size : Nat) (hs : size ≤ 12) (hc : b.cur + size > b.lastBit) :
    Safe (fun r => (BitsOk r.2 ∧ r.2.file.length < b.file.length ∧ meas r.2 ≤ meas b ∧ r.2.first = b.first) ∧ ∀ s, r.1 = some s → s = r.2)
      (reload b) := by
  obtain ⟨h1, h2, h3, h4, h5⟩ := h
  unfold reload
  rw [if_neg (by omega)]
  refine (at_safe b.buf (b.lastByte - 2) (by omega)).bind fun x _ => ?_
  refine (at_safe b.buf (b.lastByte - 1) (by omega)).bind fun y _ => ?_
  refine (block_safe b.file h5).bind ?_
  rintro ⟨blk, f⟩ ⟨g1, g2, g3, g4⟩
  simp only [] at g1 g2 g3 g4 ⊢
  split
  · refine ⟨⟨⟨by simp [h1], h2, h3, h4, g3⟩, by simp only []; omega, ?_, rfl⟩, by simp⟩
    unfold meas
    simp only []
    omega
  · rw [if_neg (by omega), if_neg (by omega)]
    refine ⟨⟨⟨by simp [h1]; omega, ⟨by simp only []; omega, by simp only []; omega⟩, by simp only []; omega, by simp only []; omega, g3⟩,
      by simp only []; omega, ?_, rfl⟩, ?_⟩
    · unfold meas
      simp only []
      omega
    · intro s hs
      simp only [Option.some.injEq] at hs
      exact hs.symm

theorem getCode_safe (size clear : Nat) (h1 : 1 ≤ size) (h2 : size ≤ 12) : ∀ (n : Nat) (b : Bits), b.file.length = n → BitsOk b →
    Safe (fun r => (r.1 = clear ∨ r.1 = clear + 1 ∨ r.1 < 2 ^ size) ∧ BitsOk r.2 ∧ meas r.2 ≤ meas b ∧ (r.1 ≠ clear + 1 → meas r.2 < meas b) ∧
      (b.first = true → b.cur = b.lastBit → r.1 = clear ∧ r.2.first = false) ∧ (b.first = false → r.2.first = false)) (getCode size clear b) := by
  intro n
  induction n using Nat.strongRecOn with
  | _ n ih =>
    intro b hn h
    unfold getCode
    split
    · rename_i hc
      split
      · rename_i hf
        refine ⟨Or.inl rfl, ⟨h.len, h.last, h.cur, h.bits, h.file⟩, ?_, fun _ => ?_, fun _ _ => ⟨rfl, rfl⟩, by simp⟩
        · unfold meas; simp [hf]
        · unfold meas; simp [hf]
      · rename_i hf
        split
        · exact ⟨Or.inr (Or.inl rfl), h, le_refl _, by simp, fun h => absurd h hf, by simp⟩
        · have hrl := reload_safe b h size h2 hc
          split
          · rename_i e he; rw [he] at hrl; cases e <;> first | trivial | exact hrl
          · rename_i st' he; rw [he] at hrl
            obtain ⟨⟨k1, k2, k3, k6⟩, -⟩ := hrl
            exact ⟨Or.inr (Or.inl rfl), k1, k3, by simp, fun h => absurd h hf, fun h => by rw [← h]; exact k6⟩
          · rename_i st' st'' he; rw [he] at hrl
            obtain ⟨⟨k1, k2, k3, k6⟩, k4⟩ := hrl
            have k5 := k4 st' rfl
            simp only [] at k1 k2 k3 k5 k6
            subst k5
            refine (ih _ (by omega) st' rfl k1).mono ?_
            rintro r ⟨m1, m2, m3, m4, -, m7⟩
            exact ⟨m1, m2, by omega, fun hne => by have := m4 hne; omega, fun h => absurd h hf, fun h => m7 (by rw [k6]; exact h)⟩
    · rename_i hc
      obtain ⟨g1, g2, g3, g4, g5⟩ := h
      refine (at_safe b.buf _ (by omega)).bind fun x _ => ?_
      refine (at_safe b.buf _ (by omega)).bind fun y _ => ?_
      refine (at_safe b.buf _ (by omega)).bind fun z _ => ?_
      refine ⟨Or.inr (Or.inr (Nat.mod_lt _ (Nat.two_pow_pos _))), ⟨g1, g2, by simp only []; omega, g4, g5⟩, ?_, fun _ => ?_, fun _ h => by omega,
        fun h => h⟩
      · unfold meas; simp only []; omega
      · unfold meas; simp only []; omega

theorem swallow_safe (size clear : Nat) (h1 : 1 ≤ size) (h2 : size ≤ 12) : ∀ (fuel : Nat) (b : Bits), meas b < fuel → BitsOk b → b.first = false →
    Safe (fun r => r.1 ≠ clear ∧ BitsOk r.2 ∧ r.2.first = false) (swallow size clear fuel b) := by
  intro fuel
  induction fuel with
  | zero => intro b h; omega
  | succ n ih =>
    intro b h hb hf
    unfold swallow
    refine (getCode_safe size clear h1 h2 _ b rfl hb).bind ?_
    rintro ⟨c, b'⟩ ⟨m1, m2, m3, m4, -, m7⟩
    simp only [] at m1 m2 m3 m4 m7 ⊢
    split
    · rename_i hc
      have := m4 (by omega)
      exact ih b' (by omega) m2 (m7 hf)
    · rename_i hc; exact ⟨hc, m2, m7 hf⟩

/-- A symbol that is defined. -/
def Valid (clear maxCode c : Nat) : Prop := c < clear ∨ clear + 2 ≤ c ∧ c < maxCode

/-- The symbol table. -/
structure LzwOk (st : Lzw) : Prop where
  bits : BitsOk st.bits
  ics : 2 ≤ st.ics ∧ st.ics ≤ 8
  size : 1 ≤ st.size ∧ st.size ≤ 12
  head : st.head.length = 4096
  tail : st.tail.length = 4096
  stack : ∀ v ∈ st.stack, v < st.clear
  max : st.clear + 2 ≤ st.maxCode ∧ st.maxCode ≤ 4096
  tab : ∀ k, st.clear + 2 ≤ k → k < st.maxCode → ∃ h t, st.head[k]? = some h ∧ st.tail[k]? = some t ∧ h < k ∧ Valid st.clear st.maxCode h ∧ t < st.clear
  old : st.bits.first = true ∧ st.bits.cur = st.bits.lastBit ∨ st.bits.first = false ∧ Valid st.clear st.maxCode st.old ∧ st.firstc < st.clear

theorem clear_le {i : Nat} (h : i ≤ 8) : 2 ^ i ≤ 256 := by
  have : 2 ^ i ≤ 2 ^ 8 := Nat.pow_le_pow_right (by decide) h
  simpa using this

theorem push_safe (v : Nat) (s : List Nat) (h : s.length < 4096) : Safe (fun r => r = v % 256 :: s) (push v s) := by
  unfold push; rw [if_pos h]; rfl

theorem put_safe (i v : Nat) (a : List Nat) (h : i < a.length) : Safe (fun r => r = a.set i v) (put i v a) := by
  unfold put; rw [if_pos h]; rfl

theorem expand_safe (clear maxCode : Nat) (head tail : List Nat) (hcl : clear ≤ 256)
    (tab : ∀ k, clear + 2 ≤ k → k < maxCode → ∃ h t, head[k]? = some h ∧ tail[k]? = some t ∧ h < k ∧ Valid clear maxCode h ∧ t < clear)
    (hh : head.length = 4096) (ht : tail.length = 4096) (hm : maxCode ≤ 4096) :
    ∀ (room code : Nat) (stack : List Nat), Valid clear maxCode code → (∀ v ∈ stack, v < clear) → code < room + clear → stack.length + code ≤ 4096 + clear →
      Safe (fun r => r.1 < clear ∧ ∀ v ∈ r.2, v < clear) (expand clear head tail room code stack) := by
  intro room
  induction room with
  | zero =>
    intro code stack hv hs hr _
    unfold expand
    rw [if_neg (by omega)]
    exact ⟨by simp only []; omega, hs⟩
  | succ room ih =>
    intro code stack hv hs hr hl
    unfold expand
    split
    · rename_i hc
      rcases hv with hv | ⟨hv1, hv2⟩
      · omega
      · obtain ⟨h, t, e1, e2, e3, e4, e5⟩ := tab code hv1 hv2
        refine (at_safe tail code (by omega)).bind ?_
        intro t' et
        rw [e2] at et
        obtain rfl := Option.some.inj et
        refine (push_safe t stack (by omega)).bind ?_
        intro s' es
        subst es
        refine (at_safe head code (by omega)).bind ?_
        intro h' eh
        rw [e1] at eh
        obtain rfl := Option.some.inj eh
        refine ih h _ e4 ?_ (by omega) (by simp only [List.length_cons]; omega)
        intro v hv
        rcases List.mem_cons.1 hv with rfl | hv
        · rw [Nat.mod_eq_of_lt (by omega)]; exact e5
        · exact hs v hv
    · exact ⟨by simp only []; omega, hs⟩

/-- What a call guarantees. -/
def Good (ics : Nat) (r : Nat × Lzw) : Prop := r.1 < 2 ^ ics ∧ LzwOk r.2 ∧ r.2.ics = ics

theorem symbol_safe (st : Lzw) (h : LzwOk st) (code : Nat) (hc : code < 4096) (hv : code < st.clear ∨ st.clear + 2 ≤ code)
    (hs : st.stack = []) (ho : Valid st.clear st.maxCode st.old ∧ st.firstc < st.clear) (hf : st.bits.first = false) :
    Safe (Good st.ics) (symbol st code) := by
  have hcl : st.clear ≤ 256 := clear_le h.ics.2
  have hcp : 0 < st.clear := by exact Nat.two_pow_pos _
  unfold symbol
  simp only [hs]
  have h1 : Safe (fun r : Nat × List Nat => Valid st.clear st.maxCode r.1 ∧ (∀ v ∈ r.2, v < st.clear) ∧ r.2.length ≤ 1)
      (if code ≥ st.maxCode then do
        let stack ← push st.firstc []
        pure (st.old, stack)
      else pure (code, [])) := by
    split
    · refine (push_safe st.firstc [] (by simp)).bind ?_
      rintro s rfl
      refine ⟨ho.1, ?_, by simp⟩
      intro v hv
      simp only [List.mem_singleton] at hv
      rw [hv, Nat.mod_eq_of_lt (by omega)]
      exact ho.2
    · exact ⟨by rcases hv with hv | hv; exact Or.inl hv; exact Or.inr ⟨hv, by simp only []; omega⟩, by simp, by simp⟩
  refine h1.bind ?_
  rintro ⟨c, stack⟩ ⟨g1, g2, g3⟩
  simp only [] at g1 g2 g3 ⊢
  have hcm : c < 4096 := by
    have := h.max
    rcases g1 with g | ⟨-, g⟩ <;> omega
  refine (expand_safe st.clear st.maxCode st.head st.tail hcl h.tab h.head h.tail h.max.2 4097 c stack g1 g2 (by omega) (by omega)).bind ?_
  rintro ⟨c', stack'⟩ ⟨g4, g5⟩
  simp only [] at g4 g5 ⊢
  have hold : st.old < 4096 := by
    have := h.max
    rcases ho.1 with g | ⟨-, g⟩ <;> omega
  split
  · rename_i hm
    refine (put_safe _ _ st.head (by rw [h.head]; exact hm)).bind ?_
    rintro hd rfl
    refine (put_safe _ _ st.tail (by rw [h.tail]; exact hm)).bind ?_
    rintro tl rfl
    refine ⟨g4, ⟨h.bits, h.ics, ?_, by simp [h.head], by simp [h.tail], g5, ?_, ?_, ?_⟩, rfl⟩
    · have := h.size
      simp only [Bool.and_eq_true, decide_eq_true_eq]
      split <;> omega
    · have := h.max
      exact ⟨show st.clear + 2 ≤ st.maxCode + 1 by omega, show st.maxCode + 1 ≤ 4096 by omega⟩
    · intro k hk1 hk2
      replace hk1 : st.clear + 2 ≤ k := hk1
      replace hk2 : k < st.maxCode + 1 := hk2
      show ∃ h t, (st.head.set st.maxCode (st.old % 65536))[k]? = some h ∧ (st.tail.set st.maxCode (c' % 256))[k]? = some t ∧ h < k ∧
        Valid st.clear (st.maxCode + 1) h ∧ t < st.clear
      by_cases hkm : k = st.maxCode
      · subst hkm
        refine ⟨st.old, c', ?_, ?_, ?_, ?_, g4⟩
        · rw [List.getElem?_set_self (by rw [h.head]; exact hm), Nat.mod_eq_of_lt (by omega)]
        · rw [List.getElem?_set_self (by rw [h.tail]; exact hm), Nat.mod_eq_of_lt (by omega)]
        · rcases ho.1 with g | ⟨-, g⟩ <;> omega
        · rcases ho.1 with g | ⟨g, g'⟩
          · exact Or.inl g
          · exact Or.inr ⟨g, by omega⟩
      · obtain ⟨a, t, e1, e2, e3, e4, e5⟩ := h.tab k hk1 (by omega)
        refine ⟨a, t, ?_, ?_, e3, ?_, e5⟩
        · rw [List.getElem?_set_ne (by omega)]; exact e1
        · rw [List.getElem?_set_ne (by omega)]; exact e2
        · rcases e4 with g | ⟨g, g'⟩
          · exact Or.inl g
          · exact Or.inr ⟨g, by omega⟩
    · refine Or.inr ⟨hf, ?_, g4⟩
      show Valid st.clear (st.maxCode + 1) (if code > st.maxCode then 0 else code)
      split
      · exact Or.inl hcp
      · rcases hv with hv | hv
        · exact Or.inl hv
        · exact Or.inr ⟨hv, by omega⟩
  · rename_i hm
    refine ⟨g4, ⟨h.bits, h.ics, h.size, h.head, h.tail, g5, h.max, h.tab, Or.inr ⟨hf, ?_, g4⟩⟩, rfl⟩
    show Valid st.clear st.maxCode (if code > st.maxCode then 0 else code)
    have := h.max
    rw [if_neg (by omega)]
    rcases hv with hv | hv
    · exact Or.inl hv
    · exact Or.inr ⟨hv, by omega⟩

theorem readByte_safe (st : Lzw) (h : LzwOk st) : Safe (Good st.ics) (readByte st) := by
  have hcl : st.clear ≤ 256 := clear_le h.ics.2
  have hcp : 0 < st.clear := by exact Nat.two_pow_pos _
  unfold readByte
  split
  · rename_i v s e
    refine ⟨h.stack v (by rw [e]; simp), ⟨h.bits, h.ics, h.size, h.head, h.tail, fun u hu => h.stack u (by rw [e]; simp [show u ∈ s from hu]), h.max, h.tab, h.old⟩, rfl⟩
  · rename_i e
    refine (getCode_safe st.size st.clear h.size.1 h.size.2 _ st.bits rfl h.bits).bind ?_
    rintro ⟨c, b⟩ ⟨m1, m2, m3, m4, m5, m7⟩
    simp only [] at m1 m2 m3 m4 m5 m7 ⊢
    have hbf : b.first = false := by
      rcases h.old with ⟨g1, g2⟩ | ⟨g1, -⟩
      · exact (m5 g1 g2).2
      · exact m7 g1
    have hics := h.ics
    have hpow : 2 ^ st.ics + 2 ≤ 4096 := by have : 2 ^ st.ics ≤ 256 := hcl; omega
    split
    · refine (swallow_safe _ st.clear (by show 1 ≤ st.ics + 1; omega) (by show st.ics + 1 ≤ 12; omega) _ b ?_ m2 hbf).bind ?_
      · unfold meas; rw [hbf]; simp; omega
      · rintro ⟨c', b'⟩ ⟨k0, k1, k2⟩
        simp only [] at k0 k1 k2 ⊢
        have hc' : (if c' > st.clear then 0 else c') < st.clear := by split <;> omega
        refine ⟨hc', ⟨k1, h.ics, ⟨by show 1 ≤ st.ics + 1; omega, by show st.ics + 1 ≤ 12; omega⟩, h.head, h.tail, ?_,
          ⟨le_refl _, by show st.clear + 2 ≤ 4096; omega⟩, ?_, Or.inr ⟨k2, Or.inl hc', hc'⟩⟩, rfl⟩
        · intro v hv; exact absurd hv (by simp [Lzw.reinit])
        · intro k hk1 hk2
          replace hk1 : st.clear + 2 ≤ k := hk1
          replace hk2 : k < st.clear + 2 := hk2
          omega
    · rename_i hc
      split
      · rename_i hce
        have hold : Valid st.clear st.maxCode st.old ∧ st.firstc < st.clear := by
          rcases h.old with ⟨g1, g2⟩ | ⟨-, g⟩
          · exact absurd (m5 g1 g2).1 hc
          · exact g
        split
        · exact ⟨hcp, ⟨m2, h.ics, h.size, h.head, h.tail, by rw [e]; simp, h.max, h.tab, Or.inr ⟨hbf, hold⟩⟩, rfl⟩
        · refine (skipBlocks_safe _ b.file (le_refl _) m2.file).bind fun f hf => ?_
          exact ⟨hcp, ⟨⟨m2.len, m2.last, m2.cur, m2.bits, hf.1⟩, h.ics, h.size, h.head, h.tail, by rw [e]; simp, h.max, h.tab,
            Or.inr ⟨hbf, hold⟩⟩, rfl⟩
      · rename_i hce
        have hold : Valid st.clear st.maxCode st.old ∧ st.firstc < st.clear := by
          rcases h.old with ⟨g1, g2⟩ | ⟨-, g⟩
          · exact absurd (m5 g1 g2).1 hc
          · exact g
        have hsz : c < 2 ^ st.size := by
          rcases m1 with g | g | g
          · exact absurd g hc
          · exact absurd g hce
          · exact g
        have h12 : 2 ^ st.size ≤ 2 ^ 12 := Nat.pow_le_pow_right (by decide) h.size.2
        exact symbol_safe { st with bits := b } ⟨m2, h.ics, h.size, h.head, h.tail, by simp [e], h.max, h.tab, Or.inr ⟨hbf, hold⟩⟩ c
          (by omega) (by show c < st.clear ∨ st.clear + 2 ≤ c; omega) e hold hbf

theorem readN_safe : ∀ (n : Nat) (st : Lzw), LzwOk st →
    Safe (fun r => r.1.length = n ∧ (∀ v ∈ r.1, v < 2 ^ st.ics) ∧ LzwOk r.2 ∧ r.2.ics = st.ics) (readN n st) := by
  intro n
  induction n with
  | zero => intro st h; exact ⟨rfl, by simp, h, rfl⟩
  | succ n ih =>
    intro st h
    unfold readN
    refine (readByte_safe st h).bind ?_
    rintro ⟨v, st1⟩ ⟨g1, g2, g3⟩
    simp only [] at g1 g2 g3 ⊢
    refine (ih st1 g2).bind ?_
    rintro ⟨l, st2⟩ ⟨k1, k2, k3, k4⟩
    simp only [] at k1 k2 k3 k4 ⊢
    refine ⟨by simp [k1], ?_, k3, by rw [k4, g3]⟩
    intro u hu
    rcases List.mem_cons.1 hu with rfl | hu
    · exact g1
    · rw [← g3]; exact k2 u hu

theorem readRows_safe (w : Nat) : ∀ (n : Nat) (st : Lzw), LzwOk st →
    Safe (fun r => r.1.length = n ∧ ∀ row ∈ r.1, row.length = w ∧ ∀ v ∈ row, v < 2 ^ st.ics) (readRows w n st) := by
  intro n
  induction n with
  | zero => intro st _; exact ⟨rfl, by simp⟩
  | succ n ih =>
    intro st h
    unfold readRows
    refine (readN_safe w st h).bind ?_
    rintro ⟨r, st1⟩ ⟨g1, g2, g3, g4⟩
    simp only [] at g1 g2 g3 g4 ⊢
    refine (ih st1 g3).bind ?_
    rintro ⟨l, st2⟩ ⟨k1, k2⟩
    simp only [] at k1 k2 ⊢
    refine ⟨by simp [k1], ?_⟩
    intro row hr
    rcases List.mem_cons.1 hr with rfl | hr
    · exact ⟨g1, g2⟩
    · rw [← g4]; exact k2 row hr

/-! ## The header -/

/-- Entries of the colour map are in range. -/
def MapOk (mx : Nat) (m : Cmap) : Prop := m.length = 256 ∧ ∀ r g b, some (r, g, b) ∈ m → r ≤ mx ∧ g ≤ mx ∧ b ≤ mx

theorem readMap_safe (up : Nat) : ∀ (n i : Nat) (s : List Nat) (m : Cmap), i + n ≤ 256 → Bytes s → MapOk (255 * up) m →
    Safe (fun r => Bytes r.1 ∧ MapOk (255 * up) r.2.1 ∧ (∀ j, i ≤ j → j < i + n → ∃ x, r.2.1[j]? = some (some x)) ∧
      ∀ j, j < i → r.2.1[j]? = m[j]?) (readMap up n i s m) := by
  intro n
  induction n with
  | zero => intro i s m _ hs hm; exact ⟨hs, hm, by intro j h1 h2; omega, fun _ _ => rfl⟩
  | succ n ih =>
    intro i s m hi hs hm
    unfold readMap
    refine (byte_safe s hs).bind ?_
    rintro ⟨r, s1⟩ ⟨r1, r2, -⟩
    refine (byte_safe s1 r2).bind ?_
    rintro ⟨g, s2⟩ ⟨g1, g2, -⟩
    refine (byte_safe s2 g2).bind ?_
    rintro ⟨b, s3⟩ ⟨b1, b2, -⟩
    simp only [] at r1 g1 b1 b2 ⊢
    rw [if_pos (by rw [hm.1]; omega)]
    have hle : ∀ v, v < 256 → v * up ≤ 255 * up := fun v h => Nat.mul_le_mul_right _ (by omega)
    refine (ih (i + 1) s3 _ (by omega) b2 ⟨by simp [hm.1], ?_⟩).bind ?_
    · intro r' g' b' h
      rcases List.mem_or_eq_of_mem_set h with h | h
      · exact hm.2 r' g' b' h
      · cases h; exact ⟨hle _ r1, hle _ g1, hle _ b1⟩
    · rintro ⟨s4, m4, gr⟩ ⟨k1, k2, k3, k4⟩
      simp only [] at k1 k2 k3 k4 ⊢
      refine ⟨k1, k2, ?_, ?_⟩
      · intro j h1 h2
        by_cases hj : j = i
        · subst hj
          rw [k4 j (by omega), List.getElem?_set_self (by rw [hm.1]; omega)]
          exact ⟨_, rfl⟩
        · exact k3 j (by omega) (by omega)
      · intro j h1
        rw [k4 j (by omega), List.getElem?_set_ne (by omega)]

theorem findImage_safe : ∀ (n : Nat) (s : List Nat), s.length = n → Bytes s → Safe Bytes (findImage s) := by
  intro n
  induction n using Nat.strongRecOn with
  | _ n ih =>
    intro s hn hs
    unfold findImage
    split
    · trivial
    · rename_i c s'
      split
      · trivial
      · split
        · split
          · trivial
          · rename_i x s''
            have hb : Bytes s'' := fun b hb => hs b (by simp [hb])
            have hk := skipBlocks_safe _ s'' (le_refl _) hb
            split
            · rename_i e he; rw [he] at hk; cases e <;> first | trivial | exact hk
            · rename_i t he
              rw [he] at hk
              obtain ⟨k1, k2⟩ := hk
              rw [dif_pos k2]
              exact ih _ (by simp only [List.length_cons] at hn; omega) t rfl k1
        · split
          · exact ih _ (by simp only [List.length_cons] at hn; omega) s' rfl (fun b hb => hs b (by simp [hb]))
          · exact fun b hb => hs b (by simp [hb])

/-- What `start` guarantees. -/
structure SrcOk (up maxPixels : Nat) (src : Src) : Prop where
  w : 1 ≤ src.w ∧ src.w ≤ 65535
  h : 1 ≤ src.h ∧ src.h ≤ 65535
  limit : maxPixels = 0 ∨ src.w * src.h ≤ maxPixels
  map : MapOk (255 * up) src.map
  full : ∀ c, c < 2 ^ src.lzw.ics → ∃ x, src.map[c]? = some (some x)
  lzw : LzwOk src.lzw
  fresh : src.lzw.bits.first = true ∧ src.lzw.bits.out = false ∧ src.lzw.bits.lastBit = 0 ∧ src.lzw.bits.lastByte = 2 ∧
    src.lzw.bits.buf.take 2 = [0, 0] ∧ src.lzw.stack = []

theorem word_lt (a : List Nat) (h : Bytes a) (i : Nat) : word a i ≤ 65535 := by
  have : ∀ j, a.getD j 0 < 256 := by
    intro j
    rw [List.getD_eq_getElem?_getD]
    by_cases hj : j < a.length
    · rw [List.getElem?_eq_getElem hj]; exact h _ (List.getElem_mem _)
    · rw [List.getElem?_eq_none (by omega)]; decide
  have h1 := this i
  have h2 := this (i + 1)
  unfold word
  omega

theorem len_le (f : Nat) : 2 * 2 ^ (f % 8) ≤ 256 := by
  have : 2 ^ (f % 8) ≤ 2 ^ 7 := Nat.pow_le_pow_right (by decide) (by omega)
  omega

set_option maxRecDepth 100000 in
theorem start_safe (up maxPixels : Nat) (junk : Nat → Nat) (s : List Nat) (hs : Bytes s) : Safe (SrcOk up maxPixels) (start up maxPixels junk s) := by
  unfold start
  refine (bytes_safe 6 s hs).bind ?_
  rintro ⟨h6, s1⟩ ⟨-, -, a1, -⟩
  simp only [] at a1 ⊢
  split
  · trivial
  refine (bytes_safe 7 s1 a1).bind ?_
  rintro ⟨h7, s2⟩ ⟨-, -, a2, -⟩
  simp only [] at a2 ⊢
  split
  · trivial
  split
  · trivial
  refine Safe.bind (P := fun r : List Nat × Cmap × Nat × Bool => Bytes r.1 ∧ MapOk (255 * up) r.2.1 ∧ r.2.2.1 ≤ 256 ∧
      ∀ j, j < r.2.2.1 → ∃ x, r.2.1[j]? = some (some x)) ?_ ?_
  · have hm0 : MapOk (255 * up) (List.replicate 256 none) :=
      ⟨List.length_replicate, fun r g b hh => by cases List.eq_of_mem_replicate hh⟩
    split
    · refine (readMap_safe up _ 0 s2 _ (by have := len_le (h7.getD 4 0); omega) a2 hm0).bind ?_
      rintro ⟨s3, m3, g3⟩ ⟨k1, k2, k3, -⟩
      exact ⟨k1, k2, len_le _, fun j hj => k3 j (by omega) (by simp only [] at hj; omega)⟩
    · exact ⟨a2, hm0, Nat.zero_le _, fun j hj => absurd hj (Nat.not_lt_zero j)⟩
  rintro ⟨s3, m3, len3, g3⟩ ⟨a3, b3, c3, d3⟩
  simp only [] at a3 b3 c3 d3 ⊢
  refine (findImage_safe _ s3 rfl a3).bind ?_
  intro s4 a4
  refine (bytes_safe 9 s4 a4).bind ?_
  rintro ⟨h9, s5⟩ ⟨-, hb9, a5, -⟩
  simp only [] at a5 hb9 ⊢
  split
  · trivial
  rename_i hwh
  split
  · trivial
  rename_i hlim
  refine Safe.bind (P := fun r : List Nat × Cmap × Nat × Bool => Bytes r.1 ∧ MapOk (255 * up) r.2.1 ∧ r.2.2.1 ≤ 256 ∧
      ∀ j, j < r.2.2.1 → ∃ x, r.2.1[j]? = some (some x)) ?_ ?_
  · split
    · refine (readMap_safe up _ 0 s5 _ (by have := len_le (h9.getD 8 0); omega) a5 b3).bind ?_
      rintro ⟨s6, m6, g6⟩ ⟨k1, k2, k3, -⟩
      exact ⟨k1, k2, len_le _, fun j hj => k3 j (by omega) (by simp only [] at hj; omega)⟩
    · exact ⟨a5, b3, c3, d3⟩
  rintro ⟨s6, m6, len6, g6⟩ ⟨a6, b6, c6, d6⟩
  simp only [] at a6 b6 c6 d6 ⊢
  refine (byte_safe s6 a6).bind ?_
  rintro ⟨ics, s7⟩ ⟨-, a7, -⟩
  simp only [] at a7 ⊢
  split
  · trivial
  rename_i hics
  have hcl : 2 ^ ics ≤ 256 := clear_le (by omega)
  have hw := word_lt h9 hb9 4
  have hh := word_lt h9 hb9 6
  have jl : ∀ n, ((List.range n).map junk).length = n := fun n => by rw [List.length_map, List.length_range]
  refine ⟨⟨by show 1 ≤ word h9 4; omega, hw⟩, ⟨by show 1 ≤ word h9 6; omega, hh⟩, by show maxPixels = 0 ∨ word h9 4 * word h9 6 ≤ maxPixels; omega, ?_, ?_, ?_,
    ⟨rfl, rfl, rfl, rfl, rfl, rfl⟩⟩
  · refine ⟨by rw [List.length_mapIdx]; exact b6.1, ?_⟩
    intro r g b h
    simp only [List.mem_mapIdx] at h
    obtain ⟨i, hi, h⟩ := h
    split at h
    · cases h
      exact ⟨Nat.mul_le_mul_right _ (by omega), Nat.mul_le_mul_right _ (by omega), Nat.mul_le_mul_right _ (by omega)⟩
    · exact b6.2 r g b (by rw [← h]; exact List.getElem_mem _)
  · intro c hc
    replace hc : c < 2 ^ ics := hc
    simp only [List.getElem?_mapIdx]
    by_cases hl : len6 ≤ c
    · rw [List.getElem?_eq_getElem (by rw [b6.1]; omega)]
      simp only [Option.map_some, hl, hc, and_self, if_true]
      exact ⟨_, rfl⟩
    · obtain ⟨x, hx⟩ := d6 c (by omega)
      rw [hx]
      simp only [Option.map_some, hl, false_and, if_false]
      exact ⟨x, rfl⟩
  · have hb : BitsOk { buf := 0 :: 0 :: (List.range 258).map junk, lastByte := 2, lastBit := 0, cur := 0, first := true, out := false, file := s7 } := by
      refine ⟨?_, ⟨?_, ?_⟩, ?_, ?_, a7⟩
      · show (0 :: 0 :: (List.range 258).map junk).length = 260
        rw [List.length_cons, List.length_cons, jl]
      · show 2 ≤ 2; omega
      · show 2 ≤ 257; omega
      · show 0 ≤ 0; omega
      · show 0 ≤ 2056; omega
    refine { bits := hb, ics := ⟨by show 2 ≤ ics; omega, by show ics ≤ 8; omega⟩, size := ⟨by show 1 ≤ ics + 1; omega, by show ics + 1 ≤ 12; omega⟩,
             head := ?_, tail := ?_, stack := fun v hv => ?_, max := ⟨le_refl _, by show 2 ^ ics + 2 ≤ 4096; omega⟩, tab := ?_,
             old := Or.inl ⟨rfl, rfl⟩ }
    · exact (List.length_map _).trans List.length_range
    · exact (List.length_map _).trans List.length_range
    · simp only [List.not_mem_nil] at hv
    intro k hk1 hk2
    replace hk1 : 2 ^ ics + 2 ≤ k := hk1
    replace hk2 : k < 2 ^ ics + 2 := hk2
    omega

/-! ## Rows -/

theorem place_lt (h r : Nat) (hr : r < h) : place h r < h := by
  unfold place
  simp only []
  split
  · omega
  · split
    · omega
    · split <;> omega

theorem colours_safe (mx : Nat) (gray : Bool) (map : Cmap) (n : Nat) (hm : MapOk mx map) (hf : ∀ c, c < n → ∃ x, map[c]? = some (some x)) :
    ∀ (row : List Nat), (∀ v ∈ row, v < n) →
      Safe (fun r => r.length = row.length * (if gray then 1 else 3) ∧ ∀ v ∈ r, v ≤ mx) (colours gray map row) := by
  intro row
  induction row with
  | nil => intro _; exact ⟨by simp, by simp⟩
  | cons c row ih =>
    intro hr
    unfold colours
    obtain ⟨⟨r, g, b⟩, hx⟩ := hf c (hr c (by simp))
    obtain ⟨m1, m2, m3⟩ := hm.2 r g b (List.mem_of_getElem? hx)
    have : lookup map c = .ok (r, g, b) := by unfold lookup; rw [hx]
    rw [this]
    refine Safe.bind (P := fun x => x = (r, g, b)) rfl ?_
    rintro _ rfl
    refine (ih (fun v hv => hr v (by simp [hv]))).bind ?_
    rintro l ⟨l1, l2⟩
    cases gray
    · refine ⟨by simp [l1]; omega, ?_⟩
      intro v hv
      simp only [Bool.false_eq_true, if_false, List.mem_cons] at hv
      rcases hv with rfl | rfl | rfl | hv
      · exact m1
      · exact m2
      · exact m3
      · exact l2 v hv
    · refine ⟨by simp [l1], ?_⟩
      intro v hv
      simp only [if_true, List.mem_cons] at hv
      rcases hv with rfl | hv
      · exact m1
      · exact l2 v hv

theorem pick_safe (mx w : Nat) (gray : Bool) (map : Cmap) (n : Nat) (hm : MapOk mx map) (hf : ∀ c, c < n → ∃ x, map[c]? = some (some x))
    (rows : List (List Nat)) (hr : ∀ row ∈ rows, row.length = w ∧ ∀ v ∈ row, v < n) (order : Nat → Nat) :
    ∀ (k i : Nat), (∀ j, i ≤ j → j < i + k → order j < rows.length) →
      Safe (fun r => r.length = k ∧ ∀ row ∈ r, row.length = w * (if gray then 1 else 3) ∧ ∀ v ∈ row, v ≤ mx) (pick gray map rows order k i) := by
  intro k
  induction k with
  | zero => intro i _; exact ⟨rfl, by simp⟩
  | succ k ih =>
    intro i ho
    unfold pick
    have hi := ho i (le_refl _) (by omega)
    rw [List.getElem?_eq_getElem hi]
    refine Safe.bind (P := fun x => x = rows[order i]) rfl ?_
    rintro _ rfl
    obtain ⟨r1, r2⟩ := hr _ (List.getElem_mem hi)
    refine (colours_safe mx gray map n hm hf _ r2).bind ?_
    rintro x ⟨x1, x2⟩
    refine (ih (i + 1) (fun j h1 h2 => ho j (by omega) (by omega))).bind ?_
    rintro l ⟨l1, l2⟩
    refine ⟨by simp [l1], ?_⟩
    intro row hrow
    rcases List.mem_cons.1 hrow with rfl | hrow
    · exact ⟨by rw [x1, r1], x2⟩
    · exact l2 row hrow

/-- Any sequence of bytes, taken as a GIF file, is read without undefined behaviour (no access outside a buffer or the LZW tables and stack, no
use of colours that were never set) and in finite time; if it is accepted then the image has 1 to 65535 columns and rows and at most the given
number of pixels, and every row is complete, with samples at most 255 * 2^(BITS_IN_JSAMPLE - 8). -/
theorem load_safe (up maxPixels : Nat) (junk : Nat → Nat) (s : List Nat) (hs : ∀ b ∈ s, b < 256) :
    load up maxPixels junk s ≠ .error .fault ∧
    ∀ src rows, load up maxPixels junk s = .ok (src, rows) →
      1 ≤ src.w ∧ src.w ≤ 65535 ∧ 1 ≤ src.h ∧ src.h ≤ 65535 ∧ (maxPixels = 0 ∨ src.w * src.h ≤ maxPixels) ∧ rows.length = src.h ∧
      ∀ row ∈ rows, row.length = src.w * (if src.gray then 1 else 3) ∧ ∀ v ∈ row, v ≤ 255 * up := by
  have key : Safe (fun r : Src × List (List Nat) => 1 ≤ r.1.w ∧ r.1.w ≤ 65535 ∧ 1 ≤ r.1.h ∧ r.1.h ≤ 65535 ∧
      (maxPixels = 0 ∨ r.1.w * r.1.h ≤ maxPixels) ∧ r.2.length = r.1.h ∧
      ∀ row ∈ r.2, row.length = r.1.w * (if r.1.gray then 1 else 3) ∧ ∀ v ∈ row, v ≤ 255 * up) (load up maxPixels junk s) := by
    unfold load
    refine (start_safe up maxPixels junk s hs).bind ?_
    intro src h
    refine (readRows_safe src.w src.h src.lzw h.lzw).bind ?_
    rintro ⟨rows, st⟩ ⟨g1, g2⟩
    simp only [] at g1 g2 ⊢
    refine (pick_safe (255 * up) src.w src.gray src.map _ h.map h.full rows g2 _ src.h 0 ?_).bind ?_
    · intro j _ hj
      rw [g1]
      split
      · exact place_lt _ _ (by omega)
      · simp only []; omega
    · rintro l ⟨l1, l2⟩
      exact ⟨h.w.1, h.w.2, h.h.1, h.h.2, h.limit, l1, l2⟩
  refine ⟨key.not_fault, fun src rows e => ?_⟩
  rw [e] at key
  exact key

end Verif.Gif
