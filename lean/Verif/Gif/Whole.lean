import Verif.Gif.Head
import Verif.Gif.Raw
/-
A file that the GIF writer of djpeg writes is read back by the GIF reader of cjpeg.
-/
namespace Verif.Gif

/-- Specification: the colour of a pixel with 8 bits; `cs` bits of the samples are lost. -/
def Palette.shade (cs : Nat) (p : Palette) (c : Nat) : Nat × Nat × Nat := match p with
  | .rgb l => let x := l.getD c (0, 0, 0); (x.1 / 2 ^ cs, x.2.1 / 2 ^ cs, x.2.2 / 2 ^ cs)
  | .gray l => (l.getD c 0 / 2 ^ cs, l.getD c 0 / 2 ^ cs, l.getD c 0 / 2 ^ cs)
  | .ramp => (c, c, c)

/-- Specification: the samples of the colour map have `8 + cs` bits. -/
def Palette.Fits (cs : Nat) : Palette → Prop
  | .rgb l => ∀ x ∈ l, x.1 < 2 ^ (8 + cs) ∧ x.2.1 < 2 ^ (8 + cs) ∧ x.2.2 < 2 ^ (8 + cs)
  | .gray l => ∀ x ∈ l, x < 2 ^ (8 + cs)
  | .ramp => True

/-- Specification: all colours are gray. -/
def Palette.Gray (cs : Nat) (p : Palette) : Prop := ∀ c, c < p.num → (p.shade cs c).1 = (p.shade cs c).2.1 ∧ (p.shade cs c).1 = (p.shade cs c).2.2

/-- Specification: the samples of a pixel. -/
def samples (gray : Bool) (up : Nat) (x : Nat × Nat × Nat) : List Nat := if gray then [x.1 * up] else [x.1 * up, x.2.1 * up, x.2.2 * up]

def flat (l : List (Nat × Nat × Nat)) : List Nat := l.flatMap fun x => [x.1, x.2.1, x.2.2]

theorem flat_cons (x : Nat × Nat × Nat) (l : List (Nat × Nat × Nat)) : flat (x :: l) = x.1 :: x.2.1 :: x.2.2 :: flat l := rfl

theorem readMap_list (up : Nat) : ∀ (l : List (Nat × Nat × Nat)) (i : Nat) (m : Cmap) (s : List Nat), i + l.length ≤ m.length →
    ∃ m', readMap up l.length i (flat l ++ s) m = .ok (s, m', l.all fun x => decide (x.1 = x.2.1 ∧ x.1 = x.2.2)) ∧ m'.length = m.length ∧
      (∀ j, j < i → m'[j]? = m[j]?) ∧ ∀ j x, l[j]? = some x → m'[i + j]? = some (some (x.1 * up, x.2.1 * up, x.2.2 * up)) := by
  intro l
  induction l with
  | nil => intro i m s _; exact ⟨m, rfl, rfl, fun _ _ => rfl, by simp⟩
  | cons x l ih =>
    intro i m s hi
    rw [List.length_cons] at hi
    obtain ⟨m', h1, h2, h3, h4⟩ := ih (i + 1) (m.set i (some (x.1 * up, x.2.1 * up, x.2.2 * up))) s (by rw [List.length_set]; omega)
    refine ⟨m', ?_, by rw [h2, List.length_set], ?_, ?_⟩
    · rw [List.length_cons, flat_cons]
      unfold readMap
      simp only [List.cons_append, byte, bind, Except.bind, pure, Except.pure]
      rw [if_pos (by omega), h1]
      simp only [List.all_cons]
      have : (decide (x.1 = x.2.1 ∧ x.2.1 = x.2.2) : Bool) = decide (x.1 = x.2.1 ∧ x.1 = x.2.2) := by
        apply Bool.decide_congr
        constructor <;> rintro ⟨a, b⟩ <;> exact ⟨a, by omega⟩
      rw [this, Bool.and_comm]
    · intro j hj
      rw [h3 j (by omega), List.getElem?_set_ne (by omega)]
    · intro j y hy
      cases j with
      | zero =>
        cases hy
        rw [Nat.add_zero, h3 i (by omega), List.getElem?_set_self (by omega)]
      | succ j =>
        have := h4 j y hy
        rw [show i + (j + 1) = i + 1 + j by omega]; exact this

theorem bitsPer_spec (n : Nat) : ∀ (k b : Nat), n - 2 ^ b ≤ k → n ≤ 2 ^ 8 → b ≤ 8 → b ≤ bitsPer n b ∧ bitsPer n b ≤ 8 ∧ n ≤ 2 ^ bitsPer n b := by
  intro k
  induction k with
  | zero =>
    intro b hk hn hb
    unfold bitsPer
    rw [if_neg (by omega)]
    omega
  | succ k ih =>
    intro b hk hn hb
    unfold bitsPer
    split
    · have h1 : 2 ^ (b + 1) = 2 * 2 ^ b := by rw [Nat.pow_succ]; ring
      have h2 := Nat.two_pow_pos b
      have h3 : b < 8 := by
        rcases Nat.lt_or_ge b 8 with h | h
        · exact h
        · have : b = 8 := by omega
          subst this; omega
      have := ih (b + 1) (by omega) hn (by omega)
      exact ⟨by omega, this.2⟩
    · exact ⟨le_refl _, hb, by omega⟩

theorem shade_lt {cs : Nat} {p : Palette} (hf : p.Fits cs) {c : Nat} (hc : c < p.num) :
    (p.shade cs c).1 < 256 ∧ (p.shade cs c).2.1 < 256 ∧ (p.shade cs c).2.2 < 256 := by
  have hd : ∀ v, v < 2 ^ (8 + cs) → v / 2 ^ cs < 256 := by
    intro v hv
    rw [Nat.div_lt_iff_lt_mul (Nat.two_pow_pos cs)]
    rw [Nat.pow_add] at hv; exact hv
  cases p with
  | rgb l =>
    have hc' : c < l.length := hc
    have hm := hf _ (List.getElem_mem hc')
    unfold Palette.shade
    simp only [List.getD_eq_getElem?_getD, List.getElem?_eq_getElem hc', Option.getD_some]
    exact ⟨hd _ hm.1, hd _ hm.2.1, hd _ hm.2.2⟩
  | gray l =>
    have hc' : c < l.length := hc
    have hm := hd _ (hf _ (List.getElem_mem hc'))
    unfold Palette.shade
    simp only [List.getD_eq_getElem?_getD, List.getElem?_eq_getElem hc', Option.getD_some]
    exact ⟨hm, hm, hm⟩
  | ramp => exact ⟨hc, hc, hc⟩

theorem entry_eq {cs : Nat} {p : Palette} (hf : p.Fits cs) {c : Nat} (hc : c < p.num) :
    p.entry cs c = .ok [(p.shade cs c).1, (p.shade cs c).2.1, (p.shade cs c).2.2] := by
  have hs := shade_lt hf hc
  cases p with
  | rgb l =>
    have hc' : c < l.length := hc
    unfold Palette.shade at hs ⊢
    simp only [List.getD_eq_getElem?_getD, List.getElem?_eq_getElem hc', Option.getD_some] at hs ⊢
    unfold Palette.entry
    simp only [List.getElem?_eq_getElem hc', putc, Nat.shiftRight_eq_div_pow]
    rw [Nat.mod_eq_of_lt hs.1, Nat.mod_eq_of_lt hs.2.1, Nat.mod_eq_of_lt hs.2.2]
    rfl
  | gray l =>
    have hc' : c < l.length := hc
    unfold Palette.shade at hs ⊢
    simp only [List.getD_eq_getElem?_getD, List.getElem?_eq_getElem hc', Option.getD_some] at hs ⊢
    unfold Palette.entry
    simp only [List.getElem?_eq_getElem hc', put3, putc, Nat.shiftRight_eq_div_pow]
    rw [Nat.mod_eq_of_lt hs.1]
    rfl
  | ramp =>
    have hc' : c < 256 := hc
    show (Except.ok (put3 ((c * 255 + (256 - 1) / 2) / (256 - 1))) : R (List Nat)) = .ok [c, c, c]
    unfold put3 putc
    rw [show (c * 255 + (256 - 1) / 2) / (256 - 1) = c by omega, Nat.mod_eq_of_lt hc']
    rfl

/-- The colour at index `c` of the map in the file. -/
def filled (cs : Nat) (p : Palette) (c : Nat) : Nat × Nat × Nat := if c < p.num then p.shade cs c else (128, 128, 128)

theorem mapLoop_eq {cs : Nat} {p : Palette} (hf : p.Fits cs) : ∀ (k i : Nat),
    mapLoop cs p k i = .ok (flat ((List.range' i k).map (filled cs p))) := by
  intro k
  induction k with
  | zero => intro i; rfl
  | succ k ih =>
    intro i
    unfold mapLoop
    have hx : (if i < p.num then p.entry cs i else pure (put3 (2 ^ (cs + 7) >>> cs)) : R (List Nat)) =
        .ok [(filled cs p i).1, (filled cs p i).2.1, (filled cs p i).2.2] := by
      unfold filled
      split
      · rename_i h; rw [entry_eq hf h]
      · have : 2 ^ (cs + 7) >>> cs = 128 := by
          rw [Nat.shiftRight_eq_div_pow, Nat.pow_add, Nat.mul_div_cancel_left _ (Nat.two_pow_pos cs)]
        rw [this]; rfl
    rw [hx]
    simp only [bind, Except.bind, pure, Except.pure]
    rw [ih]
    simp only [List.range'_succ, List.map_cons, flat_cons]
    rfl

theorem filled_lt {cs : Nat} {p : Palette} (hf : p.Fits cs) (c : Nat) :
    (filled cs p c).1 < 256 ∧ (filled cs p c).2.1 < 256 ∧ (filled cs p c).2.2 < 256 := by
  unfold filled
  split
  · rename_i h; exact shade_lt hf h
  · decide

theorem flat_bytes (l : List (Nat × Nat × Nat)) (h : ∀ x ∈ l, x.1 < 256 ∧ x.2.1 < 256 ∧ x.2.2 < 256) : Bytes (flat l) := by
  intro b hb
  unfold flat at hb
  rw [List.mem_flatMap] at hb
  obtain ⟨x, hx, hb⟩ := hb
  have := h x hx
  simp only [List.mem_cons, List.not_mem_nil, or_false] at hb
  rcases hb with r | r | r <;> rw [r] <;> omega

theorem bytes_append (a s : List Nat) (n : Nat) (h : a.length = n) : bytes n (a ++ s) = .ok (a, s) := by
  unfold bytes
  rw [if_neg (by rw [List.length_append]; omega), ← h, List.take_left', List.drop_left'] <;> rfl

theorem findImage_comma (s : List Nat) : findImage (44 :: s) = .ok s := by
  unfold findImage; simp

theorem flag_ok (b : Nat) (h : 1 ≤ b ∧ b ≤ 8) : (128 ||| (b - 1) <<< 4 ||| (b - 1)) / 128 % 2 = 1 ∧ 2 * 2 ^ ((128 ||| (b - 1) <<< 4 ||| (b - 1)) % 8) = 2 ^ b ∧
    (128 ||| (b - 1) <<< 4 ||| (b - 1)) < 256 := by
  obtain ⟨h1, h2⟩ := h
  interval_cases b <;> decide

theorem putWord_eq (v : Nat) : putWord v = [v % 256, v / 256 % 256] := by
  unfold putWord putc
  rw [show (255 : Nat) = 2 ^ 8 - 1 by rfl, Nat.and_two_pow_sub_one_eq_mod, Nat.and_two_pow_sub_one_eq_mod, Nat.shiftRight_eq_div_pow]
  simp

/-- What `start` makes of a header of the writer. -/
theorem start_header (up maxPixels cs w h : Nat) (junk : Nat → Nat) (p : Palette) (hf : p.Fits cs) (hn : p.num ≤ 256) (hw : 1 ≤ w ∧ w ≤ 65535)
    (hh : 1 ≤ h ∧ h ≤ 65535) (hm : maxPixels = 0 ∨ w * h ≤ maxPixels) :
    ∃ hd ics, emitHeader cs w h p = .ok (hd, ics) ∧ 2 ≤ ics ∧ ics ≤ 8 ∧ p.num ≤ 2 ^ ics ∧ (∀ b ∈ hd, b < 256) ∧
      ∀ s, ∃ src, start up maxPixels junk (hd ++ s) = .ok src ∧ src.w = w ∧ src.h = h ∧ src.interlaced = false ∧ src.lzw.ics = ics ∧
        src.lzw.bits.file = s ∧ (src.gray = true ↔ p.Gray cs) ∧
        ∀ c, c < p.num → src.map[c]? = some (some ((p.shade cs c).1 * up, (p.shade cs c).2.1 * up, (p.shade cs c).2.2 * up)) := by
  obtain ⟨b1, b2, b3⟩ := bitsPer_spec p.num p.num 1 (by omega) hn (by decide)
  generalize hb : bitsPer p.num 1 = b at *
  obtain ⟨f1, f2, f3⟩ := flag_ok b ⟨b1, b2⟩
  have hml := mapLoop_eq hf (1 <<< b) 0
  rw [Nat.one_shiftLeft] at hml
  generalize hl : (List.range' 0 (2 ^ b)).map (filled cs p) = l at *
  have hll : l.length = 2 ^ b := by rw [← hl]; simp
  have hlb : ∀ x ∈ l, x.1 < 256 ∧ x.2.1 < 256 ∧ x.2.2 < 256 := by
    intro x hx
    rw [← hl, List.mem_map] at hx
    obtain ⟨c, -, rfl⟩ := hx
    exact filled_lt hf c
  have hlg : ∀ c, c < 2 ^ b → l[c]? = some (filled cs p c) := by
    intro c hc
    rw [← hl, List.getElem?_map, List.getElem?_range' hc]
    simp
  have hb256 : 2 ^ b ≤ 256 := clear_le b2
  have he : ∃ q, q = (if b ≤ 1 then 2 else b) ∧ emitHeader cs w h p = .ok ([71, 73, 70, 56, 55, 97] ++ (putWord w ++ (putWord h ++
      (putc (128 ||| (b - 1) <<< 4 ||| (b - 1)) ++ ([0, 0] ++ (flat l ++ (44 ::
      (putWord 0 ++ (putWord 0 ++ (putWord w ++ (putWord h ++ (putc 0 ++ putc q))))))))))), q) := by
    refine ⟨_, rfl, ?_⟩
    unfold emitHeader
    rw [if_neg (by omega), hb]
    simp only [Nat.one_shiftLeft, hml, bind, Except.bind, pure, Except.pure]
  obtain ⟨q, hq, he⟩ := he
  have h8 : 2 ≤ q ∧ q ≤ 8 ∧ 2 ^ b ≤ 2 ^ q :=
    ⟨by rw [hq]; split <;> omega, by rw [hq]; split <;> omega, Nat.pow_le_pow_right (by decide) (by rw [hq]; split <;> omega)⟩
  clear hq
  refine ⟨_, q, he, h8.1, h8.2.1, le_trans b3 h8.2.2, ?_, ?_⟩
  · intro x hx
    simp only [putWord_eq, putc] at hx
    have hfb := flat_bytes l hlb x
    simp only [List.mem_append, List.mem_cons, List.not_mem_nil, or_false] at hx
    generalize 128 ||| (b - 1) <<< 4 ||| (b - 1) = z at hx
    rcases hx with r | r
    · omega
    · rcases r with r | r | r | r | r | r
      · omega
      · omega
      · omega
      · omega
      · exact hfb r
      · omega
  · intro s
    generalize 128 ||| (b - 1) <<< 4 ||| (b - 1) = z at *
    simp only [putWord_eq, putc, List.append_assoc, List.cons_append, List.nil_append]
    unfold start
    rw [show ∀ t : List Nat, 71 :: 73 :: 70 :: 56 :: 55 :: 97 :: t = [71, 73, 70, 56, 55, 97] ++ t from fun _ => rfl, bytes_append _ _ 6 rfl]
    simp only [bind, Except.bind, pure, Except.pure]
    rw [if_neg (by decide)]
    rw [show ∀ (a b c d e : Nat) (t : List Nat), a :: b :: c :: d :: e :: 0 :: 0 :: t = [a, b, c, d, e, 0, 0] ++ t from fun _ _ _ _ _ _ => rfl,
      bytes_append _ _ 7 rfl]
    have hw2 : w % 256 + w / 256 % 256 * 256 = w := by omega
    have hh2 : h % 256 + h / 256 % 256 * 256 = h := by omega
    simp only [word, List.getD_cons_zero, List.getD_cons_succ, hw2, hh2, Nat.mod_eq_of_lt f3, f1, f2]
    rw [if_neg (by omega), if_neg (by omega), if_pos trivial]
    obtain ⟨m, m1, m2, -, m4⟩ := readMap_list up l 0 (List.replicate 256 none) (44 :: 0 :: 0 :: 0 :: 0 :: w % 256 :: w / 256 % 256 :: h % 256 ::
      h / 256 % 256 :: 0 % 256 :: q % 256 :: s) (by rw [hll, List.length_replicate]; omega)
    rw [hll] at m1
    rw [m1]
    simp only [findImage_comma]
    rw [show ∀ (a b c d e : Nat) (t : List Nat), 0 :: 0 :: 0 :: 0 :: a :: b :: c :: d :: e :: t = [0, 0, 0, 0, a, b, c, d, e] ++ t from fun _ _ _ _ _ _ => rfl,
      bytes_append _ _ 9 rfl]
    simp only [List.getD_cons_zero, List.getD_cons_succ, hw2, hh2]
    rw [if_neg (by omega), if_neg (by omega), if_neg (by decide)]
    simp only [byte, Nat.mod_eq_of_lt (show q < 256 by omega)]
    rw [if_neg (by omega)]
    refine ⟨_, rfl, rfl, rfl, rfl, rfl, rfl, ?_, ?_⟩
    · simp only [List.all_eq_true, decide_eq_true_eq]
      constructor
      · intro hall c hc
        have := hall _ (List.mem_of_getElem? (hlg c (by omega)))
        unfold filled at this
        rw [if_pos hc] at this
        exact this
      · intro hg x hx
        rw [← hl, List.mem_map] at hx
        obtain ⟨c, -, rfl⟩ := hx
        unfold filled
        split
        · rename_i hc; exact hg c hc
        · exact ⟨rfl, rfl⟩
    · intro c hc
      simp only [List.getElem?_mapIdx]
      have := m4 c _ (hlg c (by omega))
      rw [Nat.zero_add] at this
      rw [this]
      unfold filled
      rw [if_pos hc]
      simp only [Option.map_some]
      rw [if_neg (by omega)]

theorem colours_list (gray : Bool) (up : Nat) (map : Cmap) (f : Nat → Nat × Nat × Nat) (n : Nat)
    (hm : ∀ c, c < n → map[c]? = some (some ((f c).1 * up, (f c).2.1 * up, (f c).2.2 * up))) :
    ∀ row : List Nat, (∀ c ∈ row, c < n) → colours gray map row = .ok (row.flatMap fun c => samples gray up (f c)) := by
  intro row
  induction row with
  | nil => intro _; rfl
  | cons c row ih =>
    intro h
    unfold colours lookup
    rw [hm c (h c (by simp))]
    simp only [bind, Except.bind, pure, Except.pure]
    rw [ih (fun x hx => h x (by simp [hx]))]
    simp only [List.flatMap_cons, samples]
    cases gray <;> rfl

theorem flatten_inj (w : Nat) (hw : w ≠ 0) : ∀ a b : List (List Nat), (∀ r ∈ a, r.length = w) → (∀ r ∈ b, r.length = w) → a.flatten = b.flatten → a = b := by
  intro a
  induction a with
  | nil =>
    intro b _ hb h
    cases b with
    | nil => rfl
    | cons r b =>
      have := congrArg List.length h
      simp only [List.flatten_cons, List.flatten_nil, List.length_append, List.length_nil, hb r (by simp)] at this
      omega
  | cons x a ih =>
    intro b ha hb h
    cases b with
    | nil =>
      have := congrArg List.length h
      simp only [List.flatten_cons, List.flatten_nil, List.length_append, List.length_nil, ha x (by simp)] at this
      omega
    | cons y b =>
      rw [List.flatten_cons, List.flatten_cons] at h
      obtain ⟨h1, h2⟩ := List.append_inj h (by rw [ha x (by simp), hb y (by simp)])
      rw [h1, ih b (fun r hr => ha r (by simp [hr])) (fun r hr => hb r (by simp [hr])) h2]

theorem flatten_length (w : Nat) : ∀ a : List (List Nat), (∀ r ∈ a, r.length = w) → a.flatten.length = a.length * w := by
  intro a
  induction a with
  | nil => intro _; simp
  | cons x a ih =>
    intro h
    rw [List.flatten_cons, List.length_append, ih (fun r hr => h r (by simp [hr])), h x (by simp), List.length_cons]
    ring

/-- Any image of at most 256 colours, with 1 to 65535 columns and rows, is written as a GIF file of bytes, compressed or not, and reading the file
gives the size and, row by row, the colours of the pixels, as one sample per pixel exactly if all colours of the colour map are gray. -/
theorem gif_round_trip (compress : Bool) (up maxPixels cs w h : Nat) (junk : Nat → Nat) (hval : List Nat) (p : Palette) (rows : List (List Nat))
    (hv : hval.length = 5003) (hf : p.Fits cs) (hn : p.num ≤ 256) (hw : 1 ≤ w ∧ w ≤ 65535) (hh : 1 ≤ h ∧ h ≤ 65535)
    (hm : maxPixels = 0 ∨ w * h ≤ maxPixels) (hr : rows.length = h) (hrow : ∀ row ∈ rows, row.length = w ∧ ∀ c ∈ row, c < p.num) :
    ∃ file src gray, writeGif compress hval cs w h p rows = .ok file ∧ (∀ b ∈ file, b < 256) ∧ (gray = true ↔ p.Gray cs) ∧
      src.w = w ∧ src.h = h ∧ src.gray = gray ∧
      load up maxPixels junk file = .ok (src, rows.map fun row => row.flatMap fun c => samples gray up (p.shade cs c)) := by
  obtain ⟨hd, ics, e1, e2, e3, e4, e5, e6⟩ := start_header up maxPixels cs w h junk p hf hn hw hh hm
  have hpx : ∀ c ∈ rows.flatten, c < 2 ^ ics := by
    intro c hc
    rw [List.mem_flatten] at hc
    obtain ⟨row, h1, h2⟩ := hc
    have := (hrow row h1).2 c h2
    omega
  have hdata : ∃ data P n, (if compress then lzwData ics hval rows.flatten else pure (rawData ics rows.flatten) : R (List Nat)) = .ok data ∧
      Payload data P ∧ (∀ b ∈ data, b < 256) ∧ strings ics n (val P) (8 * P.length) [] none = rows.flatten := by
    cases compress with
    | true => exact lzwData_spec ics ⟨e2, e3⟩ hval rows.flatten hv hpx
    | false =>
      obtain ⟨P, n, h1, h2, h3⟩ := rawData_spec ics ⟨e2, e3⟩ rows.flatten hpx
      exact ⟨_, P, n, rfl, h1, h2, h3⟩
  obtain ⟨data, P, n, d1, d2, d3, d4⟩ := hdata
  have hp59 : ∀ (a b : List Nat), Payload a b → Payload (a ++ [59]) b := by
    intro a b h
    induction h with
    | nil rest => exact Payload.nil _
    | cons blk rest pl h1 h2 ih =>
      rw [List.cons_append, List.append_assoc]
      exact Payload.cons blk _ pl h1 ih
  obtain ⟨src, s1, s2, s3, s4, s5, s6, s7, s8⟩ := e6 (data ++ [59])
  have hbytes : ∀ b ∈ hd ++ (data ++ [59]), b < 256 := by
    intro b hb
    simp only [List.mem_append, List.mem_singleton] at hb
    rcases hb with r | r | r
    · exact e5 b r
    · exact d3 b r
    · omega
  have hfl := flatten_length w rows (fun r hr' => (hrow r hr').1)
  obtain ⟨raw, out, l1, l2, l3, l4, l5⟩ := load_pixels up maxPixels junk _ hbytes src s1 P (by rw [s6]; exact hp59 _ _ d2) n
    (by rw [s5, d4, hfl, hr, s2, s3])
  rw [s5, d4, s2, s3, List.take_of_length_le (by rw [hfl, hr])] at l4
  rw [s2] at l3
  rw [s3] at l2
  have hraw : raw = rows := flatten_inj w (by omega) _ _ l3 (fun r hr' => (hrow r hr').1) l4
  subst hraw
  refine ⟨hd ++ (data ++ [59]), src, src.gray, ?_, hbytes, s7, s2, s3, rfl, ?_⟩
  · unfold writeGif
    rw [e1]
    simp only [bind, Except.bind, pure, Except.pure] at d1 ⊢
    rw [d1]
  · rw [l1]
    have hol := ((load_safe up maxPixels junk _ hbytes).2 _ _ l1).2.2.2.2.2.1
    congr 2
    apply List.ext_getElem?
    intro i
    by_cases hi : i < h
    · obtain ⟨row, x, x1, x2, x3⟩ := l5 i i (by rw [s4, s3]; simp [hi])
      rw [x3, List.getElem?_map, x1]
      have hrow' := List.mem_of_getElem? x1
      rw [colours_list src.gray up src.map (p.shade cs) p.num s8 row (hrow row hrow').2] at x2
      cases x2
      rfl
    · rw [List.getElem?_eq_none (by omega), List.getElem?_eq_none (by rw [List.length_map]; omega)]

/-- More colours are refused. -/
theorem gif_too_many (compress : Bool) (hval : List Nat) (cs w h : Nat) (p : Palette) (rows : List (List Nat)) (hn : p.num > 256) :
    writeGif compress hval cs w h p rows = .error .exit := by
  unfold writeGif emitHeader
  rw [if_pos hn]
  rfl

end Verif.Gif
