import Mathlib.Data.List.Induction
/-
Model of the stdio and memory data sources (jdatasrc.c), and property C14.
-/
namespace Verif.IO

/-- A source manager: bytes still in the input buffer, bytes of the file not yet read (stdio only), whether it is a
memory source, `start_of_file`, and the number of JWRN_JPEG_EOF warnings issued. -/
structure Src where
  buf : List Nat
  file : List Nat
  mem : Bool
  startOfFile : Bool
  warns : Nat
deriving DecidableEq, Repr

/-- `jpeg_stdio_src` (jdatasrc.c:212-249) followed by `init_source` (47-57). -/
def stdioSrc (file : List Nat) : Src := { buf := [], file := file, mem := false, startOfFile := true, warns := 0 }

/-- `jpeg_mem_src` (jdatasrc.c:257-289): empty input is a fatal error. -/
def memSrc (data : List Nat) : Option Src :=
  if data = [] then none else some { buf := data, file := [], mem := true, startOfFile := true, warns := 0 }

/-- `fill_input_buffer` / `fill_mem_input_buffer` (jdatasrc.c:99-143); `none` is the fatal error JERR_INPUT_EMPTY.
`fread` is assumed to return all the bytes asked for unless the file ends. -/
def Src.fill (s : Src) : Option Src :=
  if s.mem then some { s with buf := [0xFF, 0xD9], warns := s.warns + 1 }
  else
    let chunk := s.file.take 4096
    if chunk.length = 0 then
      if s.startOfFile then none
      else some { s with buf := [0xFF, 0xD9], warns := s.warns + 1, startOfFile := false }
    else some { s with buf := chunk, file := s.file.drop 4096, startOfFile := false }

theorem fill_nonempty {s t : Src} (h : s.fill = some t) : 0 < t.buf.length := by
  unfold Src.fill at h
  split at h
  · injection h with h; subst h; simp
  · simp only at h
    split at h
    · split at h
      · cases h
      · injection h with h; subst h; simp
    · injection h with h; subst h; simp only; omega

/-- The loop of `skip_input_data` (jdatasrc.c:168-176) for positive counts. -/
def skipLoop (n : Nat) (s : Src) : Option Src :=
  if s.buf.length < n then
    match h : s.fill with
    | none => none
    | some t => skipLoop (n - s.buf.length) t
  else some { s with buf := s.buf.drop n }
termination_by (n, if s.buf.length = 0 then 1 else 0)
decreasing_by
  have := fill_nonempty h
  by_cases h0 : s.buf.length = 0
  · have h1 : t.buf.length ≠ 0 := by omega
    rw [h0, Nat.sub_zero, if_neg h1, if_pos rfl]
    exact Prod.Lex.right _ (by decide)
  · exact Prod.Lex.left _ _ (by omega)

/-- `skip_input_data` (jdatasrc.c:158-178). -/
def skipInput (n : Int) (s : Src) : Option Src := if n > 0 then skipLoop n.toNat s else some s

/-- Reading one byte the way every reader of the library does (INPUT_BYTE, jdmarker.c:86-96: refill an empty
buffer, then take a byte). -/
def readByte (s : Src) : Option (Nat × Src) :=
  match s.buf with
  | b :: bs => some (b, { s with buf := bs })
  | [] => match s.fill with
    | none => none
    | some t => match t.buf with
      | b :: bs => some (b, { t with buf := bs })
      | [] => none

/-- Reading `n` bytes one at a time. -/
def readN : Nat → Src → Option (List Nat × Src)
  | 0, s => some ([], s)
  | n + 1, s => match readByte s with
    | none => none
    | some (b, s') => match readN n s' with
      | none => none
      | some (l, s'') => some (b :: l, s'')

/-! ## Specification -/

/-- `n` bytes of the endless filler FF D9 FF D9 … -/
def eoiFill : Nat → List Nat
  | 0 => []
  | 1 => [0xFF]
  | n + 2 => 0xFF :: 0xD9 :: eoiFill n

/-! ## C14 -/

theorem readN_append (n m : Nat) (s : Src) : readN (n + m) s =
    (readN n s).bind (fun p => (readN m p.2).map (fun q => (p.1 ++ q.1, q.2))) := by
  induction n generalizing s with
  | zero =>
    simp only [readN, Nat.zero_add, Option.bind_some, List.nil_append]
    cases readN m s with
    | none => rfl
    | some q => rfl
  | succ n ih =>
    rw [show n + 1 + m = (n + m) + 1 by omega]
    simp only [readN]
    cases readByte s with
    | none => rfl
    | some p =>
      simp only
      rw [ih]
      cases readN n p.2 with
      | none => rfl
      | some q =>
        simp only [Option.bind_some]
        cases readN m q.2 with
        | none => rfl
        | some r => simp

theorem readN_buf (s : Src) : ∀ n, n ≤ s.buf.length → readN n s = some (s.buf.take n, { s with buf := s.buf.drop n }) := by
  intro n
  induction n generalizing s with
  | zero => intro _; simp [readN]
  | succ n ih =>
    intro h
    obtain ⟨buf, file, mem, sof, w⟩ := s
    rcases buf with _ | ⟨b, bs⟩
    · simp at h
    · have := ih ⟨bs, file, mem, sof, w⟩ (by simpa using h)
      simp only at this
      simp only [readN, readByte, this, List.take_succ_cons, List.drop_succ_cons]

theorem skip_eq_read (n : Nat) (s : Src) : skipLoop n s = (readN n s).map Prod.snd := by
  induction n, s using skipLoop.induct with
  | case1 n s hlt hf =>
    rw [skipLoop, if_pos hlt]
    have hs : (match h : s.fill with | none => none | some t => skipLoop (n - s.buf.length) t) = none := by
      split
      · rfl
      · rename_i t' h; rw [hf] at h; cases h
    rw [hs, show n = s.buf.length + (n - s.buf.length - 1 + 1) by omega, readN_append, readN_buf s _ (Nat.le_refl _)]
    have hr : readByte { s with buf := s.buf.drop s.buf.length } = none := by
      have : s.buf.drop s.buf.length = [] := by simp
      unfold readByte
      simp only [this]
      have : ({ s with buf := [] } : Src).fill = none := by
        unfold Src.fill at hf ⊢
        split at hf
        · cases hf
        · rename_i h1
          simp only [if_neg h1]
          simp only at hf
          split at hf
          · rename_i h2
            split at hf
            · rename_i h3; simp [h2, h3]
            · cases hf
          · cases hf
      rw [this]
    simp only [Option.bind_some, readN, hr, Option.map_none]
  | case2 n s hlt t hf ih =>
    rw [skipLoop, if_pos hlt]
    have e : readN n s = (readN (n - s.buf.length) t).map (fun q => (s.buf ++ q.1, q.2)) := by
      conv => lhs; rw [show n = s.buf.length + (n - s.buf.length) by omega]
      rw [readN_append, readN_buf s _ (Nat.le_refl _)]
      simp only [Option.bind_some, List.take_length, List.drop_length]
      -- reading from an emptied buffer refills it
      have hfe : ({ s with buf := [] } : Src).fill = some t := by
        unfold Src.fill at hf ⊢
        split at hf
        · rename_i h1; simp only [if_pos h1]; injection hf with hf; subst hf; rfl
        · rename_i h1
          simp only [if_neg h1]
          simp only at hf
          split at hf
          · rename_i h2
            split at hf
            · cases hf
            · rename_i h3
              simp only [if_pos h2, if_neg h3]; injection hf with hf; subst hf; rfl
          · rename_i h2
            simp only [if_neg h2]; injection hf with hf; subst hf; rfl
      have h1 : readN (n - s.buf.length) { s with buf := [] } = readN (n - s.buf.length) t := by
        rw [show n - s.buf.length = n - s.buf.length - 1 + 1 by omega]
        simp only [readN]
        have : readByte { s with buf := [] } = readByte t := by
          have hne := fill_nonempty hf
          obtain ⟨buf, file, mem, sof, w⟩ := t
          rcases buf with _ | ⟨b, bs⟩
          · simp at hne
          · simp only [readByte, hfe]
        rw [this]
      rw [h1]
    rw [e]
    have : (match h : s.fill with | none => none | some t => skipLoop (n - s.buf.length) t) =
        skipLoop (n - s.buf.length) t := by
      split
      · rename_i h; rw [hf] at h; cases h
      · rename_i t' h; rw [hf] at h; injection h with h; rw [h]
    rw [this, ih]
    cases readN (n - s.buf.length) t with
    | none => rfl
    | some q => rfl
  | case3 n s hlt =>
    rw [skipLoop, if_neg hlt, readN_buf s n (by omega)]
    rfl

/-- **C14, skipping.** For both sources, in every state and for every count, `skip_input_data(n)` has exactly the
effect of reading and discarding `n` bytes one at a time (same remaining data, same warnings, same fatal error), and
a count ≤ 0 changes nothing. -/
theorem skip_is_reading (s : Src) :
    (∀ n : Nat, skipInput n s = (readN n s).map Prod.snd) ∧ (∀ n : Int, n ≤ 0 → skipInput n s = some s) := by
  constructor
  · intro n
    unfold skipInput
    by_cases h : n = 0
    · subst h; simp [readN]
    · rw [if_pos (by omega), Int.toNat_natCast, skip_eq_read]
  · intro n h
    unfold skipInput
    rw [if_neg (by omega)]

theorem eoiFill_length : ∀ n, (eoiFill n).length = n
  | 0 => rfl
  | 1 => rfl
  | n + 2 => by simp [eoiFill, eoiFill_length n]

/-- After the data is exhausted the source supplies FF D9 for ever. -/
theorem read_past_end : ∀ (n : Nat) (s : Src), s.buf = [] → (s.mem = true ∨ s.file = [] ∧ s.startOfFile = false) →
    ∃ t, readN n s = some (eoiFill n, t) ∧ t.warns = s.warns + (n + 1) / 2
  | 0, s, _, _ => ⟨s, rfl, by simp⟩
  | 1, s, hb, hs => by
    obtain ⟨buf, file, mem, sof, w⟩ := s
    simp only at hb hs; subst hb
    rcases hs with rfl | ⟨rfl, rfl⟩
    · exact ⟨_, by simp [readN, readByte, Src.fill, eoiFill]; rfl, rfl⟩
    · cases mem
      · exact ⟨_, by simp [readN, readByte, Src.fill, eoiFill]; rfl, rfl⟩
      · exact ⟨_, by simp [readN, readByte, Src.fill, eoiFill]; rfl, rfl⟩
  | n + 2, s, hb, hs => by
    obtain ⟨buf, file, mem, sof, w⟩ := s
    simp only at hb hs; subst hb
    have key : ∃ s', readN 2 ⟨[], file, mem, sof, w⟩ = some ([0xFF, 0xD9], s') ∧ s'.buf = [] ∧
        (s'.mem = true ∨ s'.file = [] ∧ s'.startOfFile = false) ∧ s'.warns = w + 1 := by
      rcases hs with rfl | ⟨rfl, rfl⟩
      · exact ⟨_, by simp [readN, readByte, Src.fill]; rfl, rfl, Or.inl rfl, rfl⟩
      · cases mem
        · exact ⟨_, by simp [readN, readByte, Src.fill]; rfl, rfl, Or.inr ⟨rfl, rfl⟩, rfl⟩
        · exact ⟨_, by simp [readN, readByte, Src.fill]; rfl, rfl, Or.inl rfl, rfl⟩
    obtain ⟨s', e, h1, h2, h3⟩ := key
    obtain ⟨t, e', h4⟩ := read_past_end n s' h1 h2
    refine ⟨t, ?_, by rw [h4, h3]; simp only; omega⟩
    rw [show readN (n + 2) = readN (2 + n) by rw [Nat.add_comm], readN_append, e]
    simp [e', eoiFill]

/-- Reading through the file part of a stdio source. -/
theorem read_real : ∀ (s : Src), (s.mem = true → s.file = []) → (s.mem = false → s.startOfFile = true → s.file ≠ [] ∨ s.buf ≠ []) →
    ∃ t, readN (s.buf.length + s.file.length) s = some (s.buf ++ s.file, t) ∧ t.buf = [] ∧ t.file = [] ∧
      t.warns = s.warns ∧ t.mem = s.mem ∧ (s.file ≠ [] → t.startOfFile = false) ∧
      (s.file = [] → t.startOfFile = s.startOfFile) := by
  intro s
  induction hk : s.file.length using Nat.strongRecOn generalizing s with
  | _ k ih =>
    intro hm hs
    by_cases hf : s.file = []
    · have hk0 : k = 0 := by rw [← hk, hf]; rfl
      rw [hk0, Nat.add_zero, readN_buf s _ (Nat.le_refl _)]
      exact ⟨{ s with buf := s.buf.drop s.buf.length }, by rw [hf]; simp, by simp, hf, rfl, rfl,
        fun h => absurd hf h, fun _ => rfl⟩
    · have hmem : s.mem = false := by
        cases h : s.mem with
        | true => exact absurd (hm h) hf
        | false => rfl
      have hpos : 0 < s.file.length := List.length_pos_iff.2 hf
      have hfill : ({ s with buf := [] } : Src).fill =
          some { s with buf := s.file.take 4096, file := s.file.drop 4096, startOfFile := false } := by
        unfold Src.fill
        simp only [hmem, Bool.false_eq_true, if_false]
        rw [if_neg (by rw [List.length_take]; omega)]
      -- one refill
      let u : Src := { s with buf := s.file.take 4096, file := s.file.drop 4096, startOfFile := false }
      obtain ⟨t, e, h1, h2, h3, h4, h5, h6⟩ := ih (s.file.drop 4096).length
        (by rw [← hk, List.length_drop]; omega) u rfl (fun h => by rw [show u.mem = s.mem from rfl, hmem] at h; cases h)
        (fun _ h => by cases h)
      refine ⟨t, ?_, h1, h2, h3, h4, fun _ => ?_, fun h => absurd h hf⟩
      · rw [readN_append, readN_buf s _ (Nat.le_refl _)]
        simp only [Option.bind_some, List.take_length, List.drop_length]
        have hlen : u.buf.length + (s.file.drop 4096).length = k := by
          show (s.file.take 4096).length + _ = _
          rw [List.length_take, List.length_drop]; omega
        rw [hlen] at e
        have hrb : readByte { s with buf := [] } = readByte u := by
          have hne : 0 < u.buf.length := fill_nonempty hfill
          unfold readByte
          simp only [hfill]
          change (match u.buf with | b :: bs => some (b, { u with buf := bs }) | [] => none) = _
          cases hu : u.buf with
          | nil => rw [hu] at hne; simp at hne
          | cons b bs => rfl
        have h7 : readN k { s with buf := [] } = readN k u := by
          rw [show k = k - 1 + 1 by omega]
          simp only [readN, hrb]
        rw [h7, e]
        simp [u]
      · by_cases hd : u.file = []
        · rw [h6 hd]
        · exact h5 hd

/-- **C14, past the end.** Reading `n` bytes from a memory source, or from a non-empty file, always succeeds (until
the data is exhausted it gives the data, afterwards FF D9 FF D9 … for ever); a warning is issued each time a filler
EOI is supplied, and none while there is data. -/
theorem past_end_is_eoi (s : Src) (data : List Nat)
    (hs : memSrc data = some s ∨ (data ≠ [] ∧ s = stdioSrc data)) (n : Nat) :
    ∃ t, readN n s = some (data.take n ++ eoiFill (n - data.length), t) ∧
      t.warns = (n - data.length + 1) / 2 := by
  have hd : s.buf ++ s.file = data ∧ s.warns = 0 ∧ (s.mem = true → s.file = []) ∧
      (s.mem = false → s.startOfFile = true → s.file ≠ [] ∨ s.buf ≠ []) ∧ (s.mem = true ∨ s.file ≠ []) := by
    rcases hs with h | ⟨h, rfl⟩
    · unfold memSrc at h
      split at h
      · cases h
      · injection h with h; subst h; simp
    · simp [stdioSrc, h]
  obtain ⟨d1, d2, d3, d4, d5⟩ := hd
  obtain ⟨t, e, h1, h2, h3, h4, h5, -⟩ := read_real s d3 d4
  rw [d1] at e
  have hlen : s.buf.length + s.file.length = data.length := by rw [← d1, List.length_append]
  rw [hlen] at e
  by_cases hn : n ≤ data.length
  · -- a prefix of a successful read
    have hsplit : readN data.length s = (readN n s).bind
        (fun p => (readN (data.length - n) p.2).map (fun q => (p.1 ++ q.1, q.2))) := by
      rw [← readN_append]; congr 1; omega
    rw [e] at hsplit
    cases hr : readN n s with
    | none => rw [hr] at hsplit; cases hsplit
    | some p =>
      obtain ⟨l, u⟩ := p
      rw [hr] at hsplit
      simp only [Option.bind_some] at hsplit
      cases hr2 : readN (data.length - n) u with
      | none => rw [hr2] at hsplit; cases hsplit
      | some q =>
        rw [hr2] at hsplit
        simp only [Option.map_some, Option.some.injEq, Prod.mk.injEq] at hsplit
        have lenN : ∀ (m : Nat) (a b : Src) (x : List Nat), readN m a = some (x, b) →
            x.length = m ∧ a.warns ≤ b.warns := by
          intro m
          induction m with
          | zero => intro a b x h; simp only [readN, Option.some.injEq, Prod.mk.injEq] at h; simp [← h.1, ← h.2]
          | succ m ih =>
            intro a b x h
            simp only [readN] at h
            cases hb : readByte a with
            | none => rw [hb] at h; cases h
            | some p =>
              rw [hb] at h
              simp only at h
              cases hb2 : readN m p.2 with
              | none => rw [hb2] at h; cases h
              | some q =>
                rw [hb2] at h
                simp only [Option.some.injEq, Prod.mk.injEq] at h
                have := ih p.2 q.2 q.1 hb2
                have hw : a.warns ≤ p.2.warns := by
                  unfold readByte at hb
                  split at hb
                  · injection hb with hb; rw [← hb]; exact Nat.le_refl _
                  · split at hb
                    · cases hb
                    · rename_i u' hu
                      split at hb
                      · injection hb with hb; rw [← hb]
                        simp only
                        unfold Src.fill at hu
                        split at hu
                        · injection hu with hu; subst hu; simp
                        · simp only at hu
                          split at hu
                          · split at hu
                            · cases hu
                            · injection hu with hu; subst hu; simp
                          · injection hu with hu; subst hu; simp
                      · cases hb
                rw [← h.1, ← h.2]
                exact ⟨by simp [this.1], by omega⟩
        have a1 := lenN n s u l hr
        have a2 := lenN _ u q.2 q.1 hr2
        refine ⟨u, ?_, ?_⟩
        · rw [show n - data.length = 0 by omega, hsplit.1, List.take_left' a1.1]
          simp [eoiFill]
        · have : q.2.warns = 0 := by rw [← hsplit.2, h3, d2]
          omega
  · have hp := read_past_end (n - data.length) t h1 (by
      rcases d5 with h | h
      · left; rw [h4, h]
      · right; exact ⟨h2, h5 h⟩)
    obtain ⟨u, e', hw⟩ := hp
    refine ⟨u, ?_, by rw [hw, h3, d2]; omega⟩
    have : readN n s = readN (data.length + (n - data.length)) s := by congr 1; omega
    rw [this, readN_append, e]
    simp only [Option.bind_some, e', Option.map_some]
    rw [List.take_of_length_le (by omega)]

/-- Empty input is rejected at once. -/
theorem empty_input_is_error : memSrc [] = none ∧ readByte (stdioSrc []) = none := by decide

example : (readN 7 (stdioSrc [1, 2, 3])).map Prod.fst = some [1, 2, 3, 0xFF, 0xD9, 0xFF, 0xD9] := by decide

end Verif.IO
