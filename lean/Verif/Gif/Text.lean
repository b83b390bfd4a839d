import Verif.Gif.Lzw
import Mathlib.Tactic.IntervalCases
/-
The pixels of a GIF file are the text of its LZW codes.
-/
namespace Verif.Gif

theorem width_first (ics : Nat) (h : 2 ≤ ics ∧ ics ≤ 8) : width (2 ^ ics + 2) = ics + 1 := by
  obtain ⟨h1, h2⟩ := h
  interval_cases ics <;> decide

/-- The first code after Clear. -/
theorem swallow_spec (ics : Nat) (h : 2 ≤ ics ∧ ics ≤ 8) : ∀ (n fuel : Nat) (b : Bits) (pl : List Nat) (R L : Nat), BitsOk b → Unread b pl R L →
    b.first = false → b.out = false → meas b < fuel → strings ics n R L [] none ≠ [] →
    ∃ c b' pl' n' R' L', swallow (ics + 1) (2 ^ ics) fuel b = .ok (c, b') ∧ c < 2 ^ ics ∧ n' < n ∧
      strings ics n R L [] none = c :: strings ics n' R' L' [] (some [c]) ∧ Unread b' pl' R' L' ∧ BitsOk b' ∧ b'.first = false ∧ b'.out = false := by
  intro n
  induction n with
  | zero => intro fuel b pl R L _ _ _ _ _ hne; exact absurd rfl hne
  | succ n ih =>
    intro fuel b pl R L hb hu hf ho hm hne
    have hw := width_first ics h
    simp only [strings, List.length_nil, Nat.add_zero, hw] at hne ⊢
    by_cases hL : L < ics + 1
    · rw [if_pos hL] at hne; exact absurd rfl hne
    rw [if_neg hL] at hne ⊢
    obtain ⟨b1, pl1, e1, e2, e3, e4, e5, e6⟩ := getCode_spec (ics + 1) (2 ^ ics) (by omega) (by omega) b.file pl hu.payload b R L rfl hb hu hf ho (by omega)
    cases fuel with
    | zero => omega
    | succ fuel =>
      unfold swallow
      rw [e1]
      simp only [bind, Except.bind, pure, Except.pure]
      by_cases hc : R % 2 ^ (ics + 1) = 2 ^ ics
      · rw [if_pos hc] at hne ⊢
        rw [if_pos hc]
        obtain ⟨c, b', pl', n', R', L', k1, k2, k3, k4⟩ := ih fuel b1 pl1 _ _ e3 e2 e4 e5 (by omega) hne
        exact ⟨c, b', pl', n', R', L', k1, k2, by omega, k4⟩
      · rw [if_neg hc] at hne ⊢
        rw [if_neg hc]
        by_cases hl : R % 2 ^ (ics + 1) < 2 ^ ics
        · rw [if_pos hl]
          exact ⟨_, b1, pl1, n, _, _, rfl, hl, by omega, rfl, e2, e3, e4, e5⟩
        · rw [if_neg hl] at hne
          exact absurd rfl hne

theorem readByte_clear {st : Lzw} {b b' : Bits} {c : Nat} (hs : st.stack = []) (hg : getCode st.size st.clear st.bits = .ok (st.clear, b))
    (hw : swallow (st.ics + 1) (2 ^ st.ics) (8 * b.file.length + b.lastBit + 3) b = .ok (c, b')) (hc : c < 2 ^ st.ics) :
    readByte st = .ok (c, { { st with bits := b }.reinit with bits := b', old := c, firstc := c }) := by
  unfold readByte
  split
  · rename_i e; rw [hs] at e; cases e
  · rw [hg]
    simp only [bind, Except.bind, pure, Except.pure, if_true]
    rw [show swallow (Lzw.reinit { st with bits := b }).size (Lzw.reinit { st with bits := b }).clear (8 * b.file.length + b.lastBit + 3) b =
      .ok (c, b') from hw]
    have hnc : ¬ c > (Lzw.reinit { st with bits := b }).clear := by show ¬ c > 2 ^ st.ics; omega
    simp only []
    rw [if_neg hnc]

theorem readByte_symbol {st : Lzw} {b : Bits} {c : Nat} (hs : st.stack = []) (hg : getCode st.size st.clear st.bits = .ok (c, b))
    (h1 : c ≠ st.clear) (h2 : c ≠ st.clear + 1) : readByte st = symbol { st with bits := b } c := by
  unfold readByte
  split
  · rename_i e; rw [hs] at e; cases e
  · rw [hg]
    simp only [bind, Except.bind]
    rw [if_neg h1, if_neg h2]

theorem readN_cons {st st1 st2 : Lzw} {v : Nat} {l : List Nat} (h1 : readByte st = .ok (v, st1)) (h2 : readN l.length st1 = .ok (l, st2)) :
    readN (v :: l).length st = .ok (v :: l, st2) := by
  show readN (l.length + 1) st = _
  unfold readN
  rw [h1]
  simp only [bind, Except.bind, pure, Except.pure]
  rw [h2]

theorem readN_stack : ∀ (r : List Nat) (st st' : Lzw) (l : List Nat), st.stack = r → readN l.length { st with stack := [] } = .ok (l, st') →
    l ≠ [] → readN (r ++ l).length st = .ok (r ++ l, st') := by
  intro r
  induction r with
  | nil =>
    intro st st' l hs h _
    have : { st with stack := [] } = st := by cases st; simp only at hs; rw [hs]
    rw [this] at h
    exact h
  | cons v r ih =>
    intro st st' l hs h hl
    have h1 : readByte st = .ok (v, { st with stack := r }) := by
      unfold readByte
      split
      · rename_i e; rw [hs] at e; cases e; rfl
      · rename_i e; rw [hs] at e; cases e
    exact readN_cons h1 (ih { st with stack := r } st' l rfl h hl)

theorem readN_pop : ∀ (r : List Nat) (st : Lzw), st.stack = r → ∃ st', readN r.length st = .ok (r, st') := by
  intro r
  induction r with
  | nil => intro st _; exact ⟨st, rfl⟩
  | cons v r ih =>
    intro st hs
    have h1 : readByte st = .ok (v, { st with stack := r }) := by
      unfold readByte
      split
      · rename_i e; rw [hs] at e; cases e; rfl
      · rename_i e; rw [hs] at e; cases e
    obtain ⟨st', h⟩ := ih { st with stack := r } rfl
    exact ⟨st', readN_cons h1 h⟩

/-- After Clear: the first pixel and what follows. -/
theorem text_clear (n : Nat) (ih : ∀ m, m < n → ∀ (st : Lzw) (dict : List (List Nat)) (p pl : List Nat) (R L : Nat), LzwOk st → st.stack = [] →
      st.bits.first = false → st.bits.out = false → Core st dict p → Unread st.bits pl R L →
      ∃ st', readN (strings st.ics m R L dict (some p)).length st = .ok (strings st.ics m R L dict (some p), st'))
    (st : Lzw) (b : Bits) (pl : List Nat) (R L : Nat) (ok : LzwOk st) (hs : st.stack = [])
    (hg : getCode st.size st.clear st.bits = .ok (st.clear, b)) (hb : BitsOk b) (hf : b.first = false) (ho : b.out = false) (hu : Unread b pl R L) :
    ∃ st', readN (strings st.ics n R L [] none).length st = .ok (strings st.ics n R L [] none, st') := by
  by_cases hne : strings st.ics n R L [] none = []
  · rw [hne]; exact ⟨st, rfl⟩
  have hm : meas b < 8 * b.file.length + b.lastBit + 3 := by
    have := hb.cur
    unfold meas; rw [hf]; simp only [Bool.false_eq_true, if_false]; omega
  obtain ⟨c, b', pl', n', R', L', k1, k2, k3, k4, k5, k6, k7, k8⟩ := swallow_spec st.ics ok.ics n _ b pl R L hb hu hf ho hm hne
  have hr := readByte_clear hs hg k1 k2
  have hgood := readByte_safe st ok
  rw [hr] at hgood
  rw [k4]
  have hcore : Core { { st with bits := b }.reinit with bits := b', old := c, firstc := c } [] [c] := by
    refine ⟨rfl, ?_, ?_, fun i s hi => by simp at hi, Str.leaf c k2, rfl⟩
    · exact (width_first st.ics ok.ics).symm
    · show 2 ^ st.ics * 2 = 2 ^ (st.ics + 1)
      rw [Nat.pow_succ]
  obtain ⟨st', hn⟩ := ih n' k3 _ [] [c] pl' R' L' hgood.2.1 rfl k7 k8 hcore k5
  exact ⟨st', readN_cons hr hn⟩

theorem text_spec : ∀ (n : Nat) (st : Lzw) (dict : List (List Nat)) (p pl : List Nat) (R L : Nat), LzwOk st → st.stack = [] →
      st.bits.first = false → st.bits.out = false → Core st dict p → Unread st.bits pl R L →
      ∃ st', readN (strings st.ics n R L dict (some p)).length st = .ok (strings st.ics n R L dict (some p), st') := by
  intro n
  induction n using Nat.strongRecOn with
  | _ n ih =>
    intro st dict p pl R L ok hs hf ho hcore hu
    cases n with
    | zero => exact ⟨st, rfl⟩
    | succ n =>
      have hcl : st.clear = 2 ^ st.ics := rfl
      have hw : width (2 ^ st.ics + 2 + dict.length) = st.size := by rw [hcore.size, hcore.next]; rfl
      simp only [strings, hw]
      by_cases hL : L < st.size
      · rw [if_pos hL]; exact ⟨st, rfl⟩
      rw [if_neg hL]
      obtain ⟨b1, pl1, e1, e2, e3, e4, e5, e6⟩ := getCode_spec st.size st.clear ok.size.1 ok.size.2 st.bits.file pl hu.payload st.bits R L rfl ok.bits hu
        hf ho (by omega)
      by_cases hc : R % 2 ^ st.size = 2 ^ st.ics
      · rw [if_pos hc]
        exact text_clear n (fun m hm => ih m (by omega)) st b1 pl1 _ _ ok hs (by rw [e1, hc]; rfl) e3 e4 e5 e2
      rw [if_neg hc]
      generalize hcd : R % 2 ^ st.size = code at *
      have hmax := ok.max
      have hnext := hcore.next
      have hcode : code < 4096 := by
        have h1 : code < 2 ^ st.size := by rw [← hcd]; exact Nat.mod_lt _ (Nat.two_pow_pos _)
        have h2 : 2 ^ st.size ≤ 2 ^ 12 := Nat.pow_le_pow_right (by decide) ok.size.2
        omega
      split
      · exact ⟨st, rfl⟩
      · rename_i str hstr
        have hcase : code < st.clear ∧ str = [code] ∨ st.clear + 2 ≤ code ∧ dict[code - (st.clear + 2)]? = some str ∨
            code = st.maxCode ∧ str = p ++ p.take 1 := by
          split at hstr
          · rename_i h1; cases hstr; exact Or.inl ⟨h1, rfl⟩
          · rename_i h1
            split at hstr
            · cases hstr
            · rename_i h2
              split at hstr
              · rename_i h3; cases hstr; exact Or.inr (Or.inr ⟨by omega, rfl⟩)
              · rename_i h3; exact Or.inr (Or.inl ⟨by omega, hstr⟩)
        have hce : code ≠ st.clear + 1 := by
          intro he
          rw [if_neg (by omega), if_pos (by omega)] at hstr
          cases hstr
        have hsym := readByte_symbol hs e1 (by omega) hce
        have hcore1 : Core { st with bits := b1 } dict p := ⟨hcore.next, hcore.size, hcore.limit, hcore.strs, hcore.old, hcore.firstc⟩
        have ok1 : LzwOk { st with bits := b1 } := by
          refine ⟨e3, ok.ics, ok.size, ok.head, ok.tail, ok.stack, ok.max, ok.tab, Or.inr ⟨e4, ?_⟩⟩
          exact hcore.valid ok hf
        obtain ⟨c, r, st1, f1, f2, f3, f4, f5, f6, f7⟩ := symbol_spec { st with bits := b1 } dict p hcore1 ok1 hs e4 code str hcode hcase
        have hrb : readByte st = .ok (c, st1) := by rw [hsym]; exact f1
        have hdict : (if 2 ^ st.ics + 2 + dict.length < 4096 then dict ++ [p ++ str.take 1] else dict) =
            (if ({ st with bits := b1 } : Lzw).maxCode < 4096 then dict ++ [p ++ str.take 1] else dict) := by
          show _ = if st.maxCode < 4096 then _ else _
          rw [hnext, hcl]
        rw [hdict]
        generalize hdd : (if ({ st with bits := b1 } : Lzw).maxCode < 4096 then dict ++ [p ++ str.take 1] else dict) = dict' at *
        have f5' : st1.ics = st.ics := f5
        have f4' : st1.bits = b1 := f4
        have ok2 : LzwOk { st1 with stack := [] } :=
          ⟨f6.bits, f6.ics, f6.size, f6.head, f6.tail, fun v hv => absurd hv List.not_mem_nil, f6.max, f6.tab, f6.old⟩
        have core2 : Core { st1 with stack := [] } dict' str := ⟨f7.next, f7.size, f7.limit, f7.strs, f7.old, f7.firstc⟩
        obtain ⟨st2, hn⟩ := ih n (by omega) { st1 with stack := [] } dict' str pl1 (R / 2 ^ st.size) (L - st.size) ok2 rfl
          (by show st1.bits.first = false; rw [f4']; exact e4) (by show st1.bits.out = false; rw [f4']; exact e5) core2
          (by show Unread st1.bits _ _ _; rw [f4']; exact e2)
        have hics : strings ({ st1 with stack := [] } : Lzw).ics = strings st.ics := congrArg strings f5'
        rw [hics] at hn
        generalize strings st.ics n (R / 2 ^ st.size) (L - st.size) dict' (some str) = rest at hn ⊢
        rw [f2, List.cons_append]
        by_cases hrest : rest = []
        · rw [hrest, List.append_nil]
          obtain ⟨st3, h3⟩ := readN_pop r st1 f3
          exact ⟨st3, readN_cons hrb h3⟩
        · exact ⟨st2, readN_cons hrb (readN_stack r st1 st2 rest f3 hn hrest)⟩

/-- From the start of the data. -/
theorem text_start (n : Nat) (st : Lzw) (pl : List Nat) (ok : LzwOk st) (hp : Payload st.bits.file pl)
    (fresh : st.bits.first = true ∧ st.bits.out = false ∧ st.bits.lastBit = 0 ∧ st.bits.lastByte = 2 ∧ st.bits.buf.take 2 = [0, 0] ∧ st.stack = []) :
    ∃ st', readN (strings st.ics n (val pl) (8 * pl.length) [] none).length st = .ok (strings st.ics n (val pl) (8 * pl.length) [] none, st') := by
  obtain ⟨f1, f2, f3, f4, f5, f6⟩ := fresh
  have hcur : st.bits.cur = 0 := by have := ok.bits.cur; omega
  have hg : getCode st.size st.clear st.bits = .ok (st.clear, { st.bits with first := false }) := by
    unfold getCode
    have := ok.size
    rw [if_pos (by omega), if_pos f1]
  refine text_clear n (fun m _ => text_spec m) st { st.bits with first := false } pl _ _ ok f6 hg
    ⟨ok.bits.len, ok.bits.last, ok.bits.cur, ok.bits.bits, ok.bits.file⟩ rfl f2 ⟨hp, Or.inl f3, ?_, ?_, ?_⟩
  · show Bytes (st.bits.buf.take st.bits.lastByte)
    rw [f4, f5]
    intro x hx
    simp only [List.mem_cons, List.not_mem_nil, or_false, or_self] at hx
    omega
  · show val pl = val (st.bits.buf.take (st.bits.lastBit / 8)) / 2 ^ st.bits.cur + 2 ^ (st.bits.lastBit - st.bits.cur) * val pl
    rw [f3, hcur]
    simp [val]
  · show 8 * pl.length = st.bits.lastBit - st.bits.cur + 8 * pl.length
    rw [f3]; omega

theorem readN_split : ∀ (a b : Nat) (st st' : Lzw) (l : List Nat), readN (a + b) st = .ok (l, st') →
    ∃ l1 l2 st1, readN a st = .ok (l1, st1) ∧ readN b st1 = .ok (l2, st') ∧ l = l1 ++ l2 ∧ l1.length = a ∧ l2.length = b := by
  intro a
  induction a with
  | zero =>
    intro b st st' l h
    rw [Nat.zero_add] at h
    refine ⟨[], l, st, rfl, h, rfl, rfl, ?_⟩
    have : ∀ (b : Nat) (st st' : Lzw) (l : List Nat), readN b st = .ok (l, st') → l.length = b := by
      intro b
      induction b with
      | zero => intro st st' l h; cases h; rfl
      | succ b ih =>
        intro st st' l h
        unfold readN at h
        simp only [bind, Except.bind, pure, Except.pure] at h
        split at h
        · cases h
        · split at h
          · cases h
          · rename_i p _ x hx
            cases h
            obtain ⟨x1, x2⟩ := x
            simp only [List.length_cons, ih _ _ _ hx]
    exact this b st st' l h
  | succ a ih =>
    intro b st st' l h
    rw [show a + 1 + b = a + b + 1 by omega] at h
    unfold readN at h
    simp only [bind, Except.bind, pure, Except.pure] at h
    split at h
    · cases h
    · rename_i p hp
      split at h
      · cases h
      · rename_i x hx
        cases h
        obtain ⟨x1, x2⟩ := x
        obtain ⟨l1, l2, st1, g1, g2, g3, g4, g5⟩ := ih b p.2 x2 x1 hx
        refine ⟨p.1 :: l1, l2, st1, ?_, g2, by rw [g3]; rfl, by simp [g4], g5⟩
        unfold readN
        simp only [bind, Except.bind, pure, Except.pure]
        rw [hp]
        simp only []
        rw [g1]

theorem readRows_flat (w : Nat) : ∀ (n : Nat) (st st' : Lzw) (l : List Nat), readN (n * w) st = .ok (l, st') →
    ∃ rows, readRows w n st = .ok (rows, st') ∧ rows.flatten = l := by
  intro n
  induction n with
  | zero =>
    intro st st' l h
    rw [Nat.zero_mul] at h
    cases h
    exact ⟨[], rfl, rfl⟩
  | succ n ih =>
    intro st st' l h
    rw [show (n + 1) * w = w + n * w by ring] at h
    obtain ⟨l1, l2, st1, g1, g2, g3, -, -⟩ := readN_split _ _ _ _ _ h
    obtain ⟨rows, k1, k2⟩ := ih st1 st' l2 g2
    refine ⟨l1 :: rows, ?_, by rw [List.flatten_cons, k2, g3]⟩
    unfold readRows
    rw [g1]
    simp only [bind, Except.bind, pure, Except.pure]
    rw [k1]

/-- No errors but faults. -/
theorem colours_exit (gray : Bool) (map : Cmap) : ∀ row : List Nat, colours gray map row ≠ .error .exit := by
  intro row
  induction row with
  | nil => intro h; cases h
  | cons c row ih =>
    intro h
    unfold colours at h
    simp only [bind, Except.bind, pure, Except.pure] at h
    split at h
    · rename_i e he
      cases h
      unfold lookup at he
      split at he <;> cases he
    · split at h
      · rename_i e he; cases h; exact ih he
      · cases h

theorem pick_exit (gray : Bool) (map : Cmap) (rows : List (List Nat)) (order : Nat → Nat) :
    ∀ k i : Nat, pick gray map rows order k i ≠ .error .exit := by
  intro k
  induction k with
  | zero => intro i h; cases h
  | succ k ih =>
    intro i h
    unfold pick at h
    cases hrow : rows[order i]? with
    | none => rw [hrow] at h; cases h
    | some row =>
      rw [hrow] at h
      simp only [bind, Except.bind, pure, Except.pure] at h
      split at h
      · rename_i e he; cases h; exact colours_exit _ _ _ he
      · split at h
        · rename_i e he; cases h; exact ih _ he
        · cases h

/-- A file whose header is accepted and whose data sub-blocks hold codes that stand for enough pixels is accepted, and the pixels are those of the
codes: the rows of the file, one after the other, are the first `w * h` colours of their text. -/
theorem load_pixels (up maxPixels : Nat) (junk : Nat → Nat) (s : List Nat) (hs : ∀ b ∈ s, b < 256) (src : Src)
    (hsrc : start up maxPixels junk s = .ok src) (pl : List Nat) (hp : Payload src.lzw.bits.file pl) (n : Nat)
    (hn : src.h * src.w ≤ (strings src.lzw.ics n (val pl) (8 * pl.length) [] none).length) :
    ∃ (raw rows : List (List Nat)), load up maxPixels junk s = .ok (src, rows) ∧
      raw.length = src.h ∧ (∀ row ∈ raw, row.length = src.w) ∧
      raw.flatten = (strings src.lzw.ics n (val pl) (8 * pl.length) [] none).take (src.h * src.w) ∧
      ∀ i r : Nat, (if src.interlaced then interlacedOrder src.h else List.range src.h)[i]? = some r →
        ∃ (row x : List Nat), raw[i]? = some row ∧ colours src.gray src.map row = .ok x ∧ rows[r]? = some x := by
  have hok := start_safe up maxPixels junk s hs
  rw [hsrc] at hok
  replace hok : SrcOk up maxPixels src := hok
  obtain ⟨st', ht⟩ := text_start n src.lzw pl hok.lzw hp hok.fresh
  generalize htext : strings src.lzw.ics n (val pl) (8 * pl.length) [] none = text at *
  rw [show text.length = src.h * src.w + (text.length - src.h * src.w) by omega] at ht
  obtain ⟨l1, l2, st1, g1, g2, g3, g4, g5⟩ := readN_split _ _ _ _ _ ht
  obtain ⟨raw, k1, k2⟩ := readRows_flat _ _ _ _ _ g1
  have hrs := readRows_safe src.w src.h src.lzw hok.lzw
  rw [k1] at hrs
  obtain ⟨r1, r2⟩ := hrs
  have hsafe := (load_safe up maxPixels junk s hs).1
  have hload : ∃ rows, load up maxPixels junk s = .ok (src, rows) := by
    cases hl : load up maxPixels junk s with
    | ok a =>
      refine ⟨a.2, ?_⟩
      unfold load at hl
      rw [hsrc] at hl
      simp only [bind, Except.bind, pure, Except.pure] at hl
      rw [k1] at hl
      simp only [] at hl
      split at hl
      · cases hl
      · cases hl; rfl
    | error e =>
      cases e with
      | fault => exact absurd hl hsafe
      | exit =>
        unfold load at hl
        rw [hsrc] at hl
        simp only [bind, Except.bind, pure, Except.pure] at hl
        rw [k1] at hl
        simp only [] at hl
        split at hl
        · rename_i e he; cases hl; exact absurd he (pick_exit _ _ _ _ _ _)
        · cases hl
  obtain ⟨rows, hload⟩ := hload
  obtain ⟨raw', st2, q1, q2⟩ := load_rows up maxPixels junk s src rows hload
  rw [k1] at q1
  cases q1
  refine ⟨raw, rows, hload, r1, fun row hr => (r2 row hr).1, ?_, q2⟩
  rw [k2, g3, List.take_append_of_le_length (by omega), List.take_of_length_le (by omega)]

end Verif.Gif
