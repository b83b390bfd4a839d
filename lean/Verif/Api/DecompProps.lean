import Verif.Api.DecompStep
/-
C29, decompression side: the property theorems.
-/
namespace Verif.Api.D

/-- After any sequence of calls without an error exit since the last abort, a call that the documented order allows is not refused with
JERR_BAD_STATE, and one that it forbids is, for every input and every outcome of the work inside the calls. -/
theorem C29_decomp_order (cs : List Call) (hb : phase (history cs).2 ≠ .broken) (c : Call) (ha : ArgsOk (history cs).1 c) :
    (perm (phase (history cs).2) c = .yes → (step (history cs).1 c).2 ≠ .badState) ∧
    (perm (phase (history cs).2) c = .no → (step (history cs).1 c).2 = .badState) :=
  (step_good hb (history_rel cs) c).2 ha

theorem code_bad (g : Got) : g.code ≠ .badState ∧ g.code ≠ .rejected ∧ g.code ≠ .crash := by cases g <;> simp [Got.code]

theorem passSetup_bad (o : Obj) (es : List In) (w : Setup) :
    (o.passSetup es w).2 ≠ .badState ∧ (o.passSetup es w).2 ≠ .rejected ∧ (o.passSetup es w).2 ≠ .crash := by
  rcases passSetup_spec o es w with h | h | h <;> rw [h.1] <;> simp

theorem preload_bad (o : Obj) (hg : o.gs = 203) (es : List In) (w : Setup) :
    (step.preload o es w).2 ≠ .badState ∧ (step.preload o es w).2 ≠ .rejected ∧ (step.preload o es w).2 ≠ .crash := by
  unfold step.preload
  split
  · split
    · exact passSetup_bad _ _ _
    · simp
    · simp
  · exact passSetup_bad _ _ _

/-- Refused for its order or its arguments, or use of freed memory. -/
def Refused (r : Res) : Prop := r = .badState ∨ r = .rejected ∨ r = .crash

theorem not_refused {r : Res} (h : r ≠ .badState ∧ r ≠ .rejected ∧ r ≠ .crash) : ¬ Refused r := by
  rintro (h' | h' | h')
  · exact h.1 h'
  · exact h.2.1 h'
  · exact h.2.2 h'

theorem consumeInput_refused (o : Obj) (e : In) (h : Refused (o.consumeInput e).2) : (o.consumeInput e).1 = o := by
  unfold Obj.consumeInput at h ⊢
  by_cases h1 : o.gs = 200 ∨ o.gs = 201
  · rw [if_pos h1] at h ⊢
    dsimp only at h ⊢
    generalize (if o.gs = 200 then _ else o : Obj).consume e = q at h
    obtain ⟨o', g⟩ := q
    cases g <;> exact absurd h (not_refused (by simp [Got.code]))
  · rw [if_neg h1] at h ⊢
    by_cases h2 : o.gs = 202
    · rw [if_pos h2]
    · rw [if_neg h2] at h ⊢
      split at h
      · exact absurd h (not_refused (code_bad _))
      · rename_i h3; rw [if_neg h3]

theorem step_refused {o : Obj} (hbf : o.gs = 209 → o.buffered = true) (c : Call) (h : Refused (step o c).2) : (step o c).1 = o := by
  have ho : ∀ n, ¬ Refused (.ok n) := fun n => not_refused (by simp)
  have he : ¬ Refused .err := not_refused (by simp)
  cases c with
  | create => exact absurd h (ho _)
  | destroy => exact absurd h (ho _)
  | abort => exact absurd h (ho _)
  | readHeader req e =>
    simp only [step] at h ⊢
    by_cases h1 : o.gs ≠ 200 ∧ o.gs ≠ 201
    · rw [if_pos h1]
    · rw [if_neg h1] at h ⊢
      have hq := consumeInput_refused o e
      generalize o.consumeInput e = q at h hq
      obtain ⟨o', r⟩ := q
      dsimp only at hq
      split at h
      · split at h
        · exact absurd h he
        · exact absurd h (ho _)
      · dsimp only; exact hq h
  | consumeInput e => exact consumeInput_refused o e h
  | startDecompress c ok es w =>
    simp only [step] at h ⊢
    by_cases h1 : o.gs = 202
    · rw [if_pos h1] at h ⊢
      cases ok with
      | false => rw [if_pos (by simp)]
      | true =>
        rw [if_neg (by simp)] at h ⊢
        cases hc : c.buffered with
        | true => rw [hc, if_pos rfl] at h; exact absurd h (ho _)
        | false =>
          rw [hc, if_neg (by simp)] at h
          exact absurd h (not_refused (preload_bad _ rfl _ _))
    · rw [if_neg h1] at h ⊢
      by_cases h2 : o.gs = 203
      · rw [if_pos h2] at h; exact absurd h (not_refused (preload_bad _ h2 _ _))
      · rw [if_neg h2] at h ⊢
        by_cases h3 : o.gs ≠ 204
        · rw [if_pos h3]
        · rw [if_neg h3] at h; exact absurd h (not_refused (passSetup_bad _ _ _))
  | startOutput s es w =>
    simp only [step] at h ⊢
    by_cases h1 : o.gs ≠ 207 ∧ o.gs ≠ 204
    · rw [if_pos h1]
    · rw [if_neg h1] at h; exact absurd h (not_refused (passSetup_bad _ _ _))
  | finishOutput es =>
    simp only [step] at h ⊢
    by_cases h1 : ((o.gs = 205 ∨ o.gs = 206) ∧ o.buffered) ∨ o.gs = 208
    · rw [if_pos h1] at h
      generalize ({ o with gs := 208 } : Obj).absorbScan es = q at h
      obtain ⟨o', g⟩ := q
      cases g <;> first | exact absurd h (ho _) | exact absurd h he
    · rw [if_neg h1]
  | finishDecompress es =>
    simp only [step] at h ⊢
    by_cases h0 : (o.gs = 205 ∨ o.gs = 206) ∧ o.buffered = false ∧ o.line < o.height
    · rw [if_pos h0]
    · rw [if_neg h0] at h ⊢
      by_cases h1 : ((o.gs = 205 ∨ o.gs = 206) ∧ o.buffered = false) ∨ o.gs = 207 ∨ o.gs = 210
      · rw [if_pos h1] at h
        generalize ({ o with gs := 210 } : Obj).absorb es = q at h
        obtain ⟨o', g⟩ := q
        cases g <;> first | exact absurd h (ho _) | exact absurd h he
      · rw [if_neg h1]
  | readCoefs ok es =>
    simp only [step] at h ⊢
    by_cases h1 : ¬ o.alive = true
    · rw [if_pos h1]
    rw [if_neg h1] at h ⊢
    by_cases h2 : o.lossless = true
    · rw [if_pos h2]
    rw [if_neg h2] at h ⊢
    by_cases h3 : o.gs = 202 ∧ ¬ ok = true
    · rw [if_pos h3] at h; exact absurd h he
    rw [if_neg h3] at h ⊢
    by_cases h4 : o.gs = 202 ∨ o.gs = 209
    · rw [if_pos h4] at h
      have k := absorb_keep es { o with gs := 209, buffered := if o.gs = 202 then true else o.buffered }
      generalize ({ o with gs := 209, buffered := if o.gs = 202 then true else o.buffered } : Obj).absorb es = q at h k
      obtain ⟨o', g⟩ := q
      have kb : o'.buffered = true := by
        refine k.buffered.trans ?_
        dsimp only
        by_cases h5 : o.gs = 202
        · rw [if_pos h5]
        · rw [if_neg h5]; exact hbf (by omega)
      cases g with
      | eoi => dsimp only at h; rw [if_pos kb] at h; exact absurd h (ho _)
      | err => exact absurd h he
      | _ => exact absurd h (ho _)
    · rw [if_neg h4] at h ⊢
      split <;> rfl
  | inputComplete => simp only [step]; split <;> rfl
  | hasMultipleScans => simp only [step]; split <;> rfl
  | readIcc => simp only [step]; split <;> rfl
  | calcDims ok => simp only [step]; split <;> rfl
  | newColormap ok => simp only [step]; split <;> rfl
  | cropScanline p ok => simp only [step]; repeat' split <;> try rfl
  | readScanlines p n es w =>
    simp only [step] at h ⊢
    by_cases h1 : p ≠ o.prec
    · rw [if_pos h1]
    rw [if_neg h1] at h ⊢
    by_cases h2 : o.gs ≠ 205
    · rw [if_pos h2]
    rw [if_neg h2] at h ⊢
    by_cases h3 : o.line ≥ o.height
    · rw [if_pos h3]
    rw [if_neg h3] at h
    cases w <;> first | exact absurd h (ho _) | exact absurd h he
  | skipScanlines p n es ok =>
    simp only [step] at h ⊢
    by_cases h1 : p ≠ o.prec
    · rw [if_pos h1]
    rw [if_neg h1] at h ⊢
    by_cases h2 : ¬ o.alive = true
    · rw [if_pos h2]
    rw [if_neg h2] at h ⊢
    by_cases h3 : o.lossless = true
    · rw [if_pos h3]
    rw [if_neg h3] at h ⊢
    by_cases h4 : o.gs ≠ 205
    · rw [if_pos h4]
    rw [if_neg h4] at h ⊢
    by_cases h5 : o.line + n ≥ o.height
    · rw [if_pos h5] at h; exact absurd h (ho _)
    rw [if_neg h5] at h
    cases ok <;> first | exact absurd h (ho _) | exact absurd h he
  | readRaw p n per es w =>
    simp only [step] at h ⊢
    by_cases h1 : p ≠ o.prec
    · rw [if_pos h1]
    rw [if_neg h1] at h ⊢
    by_cases h2 : ¬ o.alive = true
    · rw [if_pos h2]
    rw [if_neg h2] at h ⊢
    by_cases h3 : o.lossless = true
    · rw [if_pos h3]
    rw [if_neg h3] at h ⊢
    by_cases h4 : o.gs ≠ 206
    · rw [if_pos h4]
    rw [if_neg h4] at h ⊢
    by_cases h5 : o.line ≥ o.height
    · rw [if_pos h5]
    rw [if_neg h5] at h ⊢
    by_cases h6 : n < per
    · rw [if_pos h6]
    rw [if_neg h6] at h
    rcases w with _ | _ | _ <;> first | exact absurd h (ho _) | exact absurd h he

/-- A call refused for its order or its arguments leaves the object as it was: the work can go on as if it had not been made. -/
theorem C29_decomp_refused (cs : List Call) (hb : phase (history cs).2 ≠ .broken) (c : Call) (h : Refused (step (history cs).1 c).2) :
    (step (history cs).1 c).1 = (history cs).1 ∧ phase ((c, (step (history cs).1 c).2) :: (history cs).2) = phase (history cs).2 := by
  have hr := history_rel cs
  generalize (history cs).1 = o at *
  generalize (history cs).2 = hs at *
  refine ⟨step_refused (fun hg => ?_) c h, ?_⟩
  · have hp := hr.gs hb
    generalize phase hs = p at *
    cases p <;> simp only [gsOf, List.mem_cons, List.not_mem_nil, or_false, hg] at hp <;> first
      | omega
      | exact hr.2.2
      | (split at hp <;> omega)
  · rw [phase_next hb]
    generalize phase hs = p at *
    rcases h with h | h | h <;> rw [h] <;> cases c <;> first
      | rfl
      | (simp [step] at h; done)

/-- No use of freed memory on an object that has not been destroyed. -/
theorem C29_decomp_no_crash (cs : List Call) (hg : phase (history cs).2 ≠ .gone) (c : Call) : (step (history cs).1 c).2 ≠ .crash := by
  have ha := (history_rel cs).alive hg
  generalize (history cs).1 = o at *
  intro h
  have hci : ∀ e, (o.consumeInput e).2 ≠ .crash := by
    intro e
    unfold Obj.consumeInput
    split
    · dsimp only
      generalize (if o.gs = 200 then _ else o : Obj).consume e = q
      obtain ⟨o', g⟩ := q
      cases g <;> simp [Got.code]
    · split
      · simp
      · split
        · exact (code_bad _).2.2
        · simp
  cases c with
  | readHeader req e =>
    simp only [step] at h
    split at h
    · simp at h
    · have := hci e
      generalize o.consumeInput e = q at h this
      obtain ⟨o', r⟩ := q
      split at h
      · split at h <;> simp at h
      · exact this h
  | consumeInput e => exact hci e h
  | startDecompress c ok es w =>
    simp only [step] at h
    split at h
    · split at h
      · simp at h
      · split at h
        · simp at h
        · exact (preload_bad _ rfl _ _).2.2 h
    · split at h
      · rename_i h2; exact (preload_bad _ h2 _ _).2.2 h
      · split at h
        · simp at h
        · exact (passSetup_bad _ _ _).2.2 h
  | startOutput s es w =>
    simp only [step] at h
    split at h
    · simp at h
    · exact (passSetup_bad _ _ _).2.2 h
  | finishOutput es =>
    simp only [step] at h
    split at h
    · generalize ({ o with gs := 208 } : Obj).absorbScan es = q at h
      obtain ⟨o', g⟩ := q
      cases g <;> simp at h
    · simp at h
  | finishDecompress es =>
    simp only [step] at h
    split at h
    · simp at h
    · split at h
      · generalize ({ o with gs := 210 } : Obj).absorb es = q at h
        obtain ⟨o', g⟩ := q
        cases g <;> simp at h
      · simp at h
  | readCoefs ok es =>
    simp only [step] at h
    rw [if_neg (by simp [ha])] at h
    split at h
    · simp at h
    · split at h
      · simp at h
      · split at h
        · generalize ({ o with gs := 209, buffered := if o.gs = 202 then true else o.buffered } : Obj).absorb es = q at h
          obtain ⟨o', g⟩ := q
          cases g with
          | eoi => dsimp only at h; split at h <;> simp at h
          | _ => simp at h
        · split at h <;> simp at h
  | _ =>
    simp only [step] at h
    repeat' split at h
    all_goals simp_all

/-- jpeg_finish_decompress starts to finish (and then returns TRUE, returns FALSE for want of input, or meets an error in the input) exactly
when all rows of the image have been read, or outside an output pass of buffered-image mode, or when it has been called before, or after
jpeg_read_coefficients; with rows missing it is rejected. -/
theorem C29_decomp_finish (cs : List Call) (hb : phase (history cs).2 ≠ .broken) (es : List In) :
    let p := phase (history cs).2
    let r := (step (history cs).1 (.finishDecompress es)).2
    ((r = .ok 0 ∨ r = .ok 1 ∨ r = .err) ↔ (∃ c n, p = .output c n ∧ c.height ≤ n) ∨ (∃ c, p = .buf c) ∨ ∃ b, p = .done b) ∧
    (r = .rejected ↔ ∃ c n, p = .output c n ∧ n < c.height) := by
  have hr := history_rel cs
  dsimp only
  generalize (history cs).1 = o at *
  generalize phase (history cs).2 = p at *
  have run : ∀ q : Obj × Got, (match q with | (o, .eoi) => (o.abort, Res.ok 1) | (o, .err) => (o, .err) | (o, _) => (o, .ok 0)).2 = .ok 0 ∨
      (match q with | (o, .eoi) => (o.abort, Res.ok 1) | (o, .err) => (o, .err) | (o, _) => (o, .ok 0)).2 = .ok 1 ∨
      (match q with | (o, .eoi) => (o.abort, Res.ok 1) | (o, .err) => (o, .err) | (o, _) => (o, .ok 0)).2 = .err := by
    rintro ⟨o, g⟩; cases g <;> simp
  have nrej : ∀ r : Res, (r = .ok 0 ∨ r = .ok 1 ∨ r = .err) → r ≠ .rejected := by rintro r (h | h | h) <;> simp [h]
  simp only [step]
  have hg := hr.gs hb
  cases p with
  | broken => exact absurd rfl hb
  | output c n =>
    obtain ⟨h1, -, h3, -, h5, h6, -⟩ := hr
    have h1' : o.gs = 205 ∨ o.gs = 206 := by rw [h1]; split <;> simp
    by_cases hn : n < c.height
    · rw [if_pos ⟨h1', h3, by omega⟩]
      refine ⟨⟨by simp, ?_⟩, ⟨fun _ => ⟨c, n, rfl, hn⟩, fun _ => rfl⟩⟩
      rintro (⟨c', n', h, h'⟩ | ⟨c', h⟩ | ⟨b, h⟩) <;> simp at h
      obtain ⟨rfl, rfl⟩ := h; omega
    · rw [if_neg (by omega), if_pos (Or.inl ⟨h1', h3⟩)]
      refine ⟨iff_of_true (run _) (Or.inl ⟨c, n, rfl, by omega⟩), iff_of_false (nrej _ (run _)) ?_⟩
      rintro ⟨c', n', h, h'⟩; simp at h; obtain ⟨rfl, rfl⟩ := h; omega
  | buf c =>
    have h1 : o.gs = 207 := hr.1
    rw [if_neg (by omega), if_pos (by omega)]
    exact ⟨iff_of_true (run _) (Or.inr (Or.inl ⟨c, rfl⟩)), iff_of_false (nrej _ (run _)) (by simp)⟩
  | done b =>
    have h1 : o.gs = 210 := hr.1
    rw [if_neg (by omega), if_pos (by omega)]
    exact ⟨iff_of_true (run _) (Or.inr (Or.inr ⟨b, rfl⟩)), iff_of_false (nrej _ (run _)) (by simp)⟩
  | bufOutput c n =>
    have h1 : o.gs = 205 ∨ o.gs = 206 := by have := hr.1; rw [this]; split <;> simp
    have h3 : o.buffered = true := hr.2.2.1
    rw [if_neg (by simp [h3]), if_neg (by simp [h3]; omega)]
    simp
  | _ =>
    simp only [gsOf, List.mem_cons, List.not_mem_nil, or_false] at hg
    rw [if_neg (by omega), if_neg (by omega)]
    simp

/-- jpeg_read_scanlines and jpeg_skip_scanlines never deliver more than output_height rows of an image or output pass. -/
theorem C29_decomp_rows (cs : List Call) (c : Cfg) (n : Nat) (h : phase (history cs).2 = .output c n ∨ phase (history cs).2 = .bufOutput c n)
    (hc : c.raw = false) : n ≤ c.height := by
  have hr := history_rel cs
  rcases h with h | h <;> rw [h] at hr <;> exact hr.2.2.2.2.2.2 hc

/-! ### Reuse -/

/-- Equal in what the input has determined. -/
structure Core (o o' : Obj) : Prop where
  gs : o.gs = o'.gs
  multi : o.multi = o'.multi
  eoi : o.eoi = o'.eoi
  hdr : o.hdr = o'.hdr
  insc : o.insc = o'.insc
  prec : o.prec = o'.prec
  lossless : o.lossless = o'.lossless
  alive : o.alive = o'.alive

theorem consume_core {o o' : Obj} (h : Core o o') (e : In) : Core (o.consume e).1 (o'.consume e).1 ∧ (o.consume e).2 = (o'.consume e).2 := by
  obtain ⟨gs, line, height, buffered, raw, multi, eoi, hdr, insc, outsc, prec, lossless, alive⟩ := o
  obtain ⟨gs', line', height', buffered', raw', multi', eoi', hdr', insc', outsc', prec', lossless', alive'⟩ := o'
  obtain ⟨h1, h2, h3, h4, h5, h6, h7, h8⟩ := h
  dsimp only at h1 h2 h3 h4 h5 h6 h7 h8
  subst h1 h2 h3 h4 h5 h6 h7 h8
  unfold Obj.consume
  dsimp only
  cases eoi
  · cases e <;> cases hdr <;> cases multi <;> exact ⟨⟨rfl, rfl, rfl, rfl, rfl, rfl, rfl, rfl⟩, rfl⟩
  · exact ⟨⟨rfl, rfl, rfl, rfl, rfl, rfl, rfl, rfl⟩, rfl⟩

theorem absorb_core (es : List In) : ∀ {o o' : Obj}, Core o o' → Core (o.absorb es).1 (o'.absorb es).1 ∧ (o.absorb es).2 = (o'.absorb es).2 := by
  induction es with
  | nil => intro o o' h; simp only [Obj.absorb]; exact ⟨h, by rw [h.eoi]⟩
  | cons e es ih =>
    intro o o' h
    obtain ⟨h1, h2⟩ := consume_core h e
    rw [Obj.absorb, Obj.absorb]
    generalize o.consume e = q at *
    generalize o'.consume e = q' at *
    obtain ⟨p, g⟩ := q
    obtain ⟨p', g'⟩ := q'
    dsimp only at h1 h2
    subst h2
    cases g <;> dsimp only <;> first | exact ⟨h1, rfl⟩ | exact ih h1

/-- Objects that calls cannot tell apart (but for the two exceptions of `exempt`). -/
def Same (o o' : Obj) : Prop :=
  o = o' ∨
  (o.gs = 200 ∧ o'.gs = 200 ∧ o.prec = o'.prec ∧ o.lossless = o'.lossless ∧ o.alive = true ∧ o'.alive = true) ∨
  (o.gs = 0 ∧ o'.gs = 0 ∧ o.prec = o'.prec ∧ o.lossless = o'.lossless ∧ o.alive = false ∧ o'.alive = false) ∨
  (Core o o' ∧ o.alive = true ∧ ((o.gs = 201 ∨ o.gs = 202) ∨
    ((o.gs = 203 ∨ o.gs = 207) ∧ o.height = o'.height ∧ o.buffered = o'.buffered ∧ o.raw = o'.raw) ∨
    ((o.gs = 209 ∨ o.gs = 210) ∧ o.buffered = o'.buffered)))

/-- jpeg_input_complete before the first call that reads the new image answers for the old one; jpeg_crop_scanline outside an output pass in
buffered-image mode compares output_scanline of the old one with 0. -/
def exempt (o : Obj) : Call → Bool
  | .inputComplete => o.gs == 200
  | .cropScanline _ _ => o.gs == 207
  | _ => false

/-- Same result and same behaviour afterwards. -/
def Both (o o' : Obj) (c : Call) : Prop := (exempt o c = false → (step o c).2 = (step o' c).2) ∧ Same (step o c).1 (step o' c).1

theorem both_of {o o' : Obj} {c : Call} {q q' : Obj × Res} (h : step o c = q) (h' : step o' c = q') (h1 : q.2 = q'.2) (h2 : Same q.1 q'.1) :
    Both o o' c := by
  unfold Both; rw [h, h']; exact ⟨fun _ => h1, h2⟩

theorem Same.gs {o o' : Obj} (h : Same o o') : o.gs = o'.gs := by
  rcases h with rfl | h | h | h
  · rfl
  · exact h.1.trans h.2.1.symm
  · exact h.1.trans h.2.1.symm
  · exact h.1.gs

theorem Same.prec {o o' : Obj} (h : Same o o') : o.prec = o'.prec := by
  rcases h with rfl | h | h | h
  · rfl
  · exact h.2.2.1
  · exact h.2.2.1
  · exact h.1.prec

theorem Same.lossless {o o' : Obj} (h : Same o o') : o.lossless = o'.lossless := by
  rcases h with rfl | h | h | h
  · rfl
  · exact h.2.2.2.1
  · exact h.2.2.2.1
  · exact h.1.lossless

theorem Same.alive {o o' : Obj} (h : Same o o') : o.alive = o'.alive := by
  rcases h with rfl | h | h | h
  · rfl
  · exact h.2.2.2.2.1.trans h.2.2.2.2.2.symm
  · exact h.2.2.2.2.1.trans h.2.2.2.2.2.symm
  · exact h.1.alive

theorem same_setup {o o' : Obj} (h : Core o o') (ha : o.alive = true) (hg : o.gs = 203 ∨ o.gs = 207) (h1 : o.height = o'.height)
    (h2 : o.buffered = o'.buffered) (h3 : o.raw = o'.raw) (h4 : o.outsc = o'.outsc) (es : List In) (w : Setup) :
    (o.passSetup es w).2 = (o'.passSetup es w).2 ∧ Same (o.passSetup es w).1 (o'.passSetup es w).1 := by
  cases w with
  | early => exact ⟨rfl, Or.inr (Or.inr (Or.inr ⟨h, ha, Or.inr (Or.inl ⟨hg, h1, h2, h3⟩)⟩))⟩
  | _ =>
    obtain ⟨gs, line, height, buffered, raw, multi, eoi, hdr, insc, outsc, prec, lossless, alive⟩ := o
    obtain ⟨gs', line', height', buffered', raw', multi', eoi', hdr', insc', outsc', prec', lossless', alive'⟩ := o'
    obtain ⟨k1, k2, k3, k4, k5, k6, k7, k8⟩ := h
    dsimp only at *
    subst k1 k2 k3 k4 k5 k6 k7 k8 h1 h2 h3 h4
    have hn : gs ≠ 204 := by omega
    unfold Obj.passSetup
    dsimp only
    rw [if_pos hn, if_pos hn]
    exact ⟨rfl, Or.inl rfl⟩

theorem same_preload {o o' : Obj} (h : Core o o') (ha : o.alive = true) (hg : o.gs = 203) (h1 : o.height = o'.height)
    (h2 : o.buffered = o'.buffered) (h3 : o.raw = o'.raw) (es : List In) (w : Setup) :
    (step.preload o es w).2 = (step.preload o' es w).2 ∧ Same (step.preload o es w).1 (step.preload o' es w).1 := by
  unfold step.preload
  have lift : ∀ {a a' : Obj}, Core a a' → Core { a with outsc := a.insc } { a' with outsc := a'.insc } := fun k =>
    ⟨k.gs, k.multi, k.eoi, k.hdr, k.insc, k.prec, k.lossless, k.alive⟩
  by_cases hm : ¬ o.multi = true
  · rw [if_neg hm, if_neg (by rw [← h.multi]; exact hm)]
    exact same_setup (lift h) ha (Or.inl hg) h1 h2 h3 h.insc es w
  · have hm : o.multi = true := by cases hx : o.multi <;> simp_all
    rw [if_pos hm, if_pos (by rw [← h.multi]; exact hm)]
    obtain ⟨c1, c2⟩ := absorb_core es h
    have k := absorb_keep es o
    have k' := absorb_keep es o'
    generalize o.absorb es = q at *
    generalize o'.absorb es = q' at *
    obtain ⟨p, g⟩ := q
    obtain ⟨p', g'⟩ := q'
    dsimp only at *
    subst c2
    have e1 : p.height = p'.height := by rw [k.height, k'.height, h1]
    have e2 : p.buffered = p'.buffered := by rw [k.buffered, k'.buffered, h2]
    have e3 : p.raw = p'.raw := by rw [k.raw, k'.raw, h3]
    have s : Same p p' := Or.inr (Or.inr (Or.inr ⟨c1, k.alive.trans ha, Or.inr (Or.inl ⟨Or.inl (k.gs.trans hg), e1, e2, e3⟩)⟩))
    cases g with
    | eoi => exact same_setup (lift c1) (k.alive.trans ha) (Or.inl (k.gs.trans hg)) e1 e2 e3 c1.insc [] w
    | _ => exact ⟨rfl, s⟩

theorem both_id {o o' : Obj} {c : Call} (hs : Same o o') {r : Res} (h : step o c = (o, r)) (h' : step o' c = (o', r)) : Both o o' c :=
  both_of h h' rfl hs

/-- jpeg_consume_input on such objects. -/
theorem both_consumeInput {o o' : Obj} (hs : Same o o') (e : In) :
    (o.consumeInput e).2 = (o'.consumeInput e).2 ∧ Same (o.consumeInput e).1 (o'.consumeInput e).1 := by
  have hgs := hs.gs
  have early : ∀ {a a' : Obj}, Core a a' → a.alive = true → a.gs = 201 →
      (match a.consume e with | (o, .sos) => ({ o with gs := 202 }, Res.ok 1) | (o, g) => (o, g.code)).2 =
        (match a'.consume e with | (o, .sos) => ({ o with gs := 202 }, Res.ok 1) | (o, g) => (o, g.code)).2 ∧
      Same (match a.consume e with | (o, .sos) => ({ o with gs := 202 }, Res.ok 1) | (o, g) => (o, g.code)).1
        (match a'.consume e with | (o, .sos) => ({ o with gs := 202 }, Res.ok 1) | (o, g) => (o, g.code)).1 := by
    intro a a' h ha hg
    obtain ⟨c1, c2⟩ := consume_core h e
    have k := consume_keep a e
    generalize a.consume e = q at *
    generalize a'.consume e = q' at *
    obtain ⟨p, g⟩ := q
    obtain ⟨p', g'⟩ := q'
    dsimp only at *
    subst c2
    have s : Same p p' := Or.inr (Or.inr (Or.inr ⟨c1, k.alive.trans ha, Or.inl (Or.inl (k.gs.trans hg))⟩))
    cases g with
    | sos =>
      exact ⟨rfl, Or.inr (Or.inr (Or.inr ⟨⟨rfl, c1.multi, c1.eoi, c1.hdr, c1.insc, c1.prec, c1.lossless, c1.alive⟩, k.alive.trans ha,
        Or.inl (Or.inr rfl)⟩))⟩
    | _ => exact ⟨rfl, s⟩
  unfold Obj.consumeInput
  rcases hs with rfl | h | h | ⟨h, ha, hc⟩
  · exact ⟨rfl, Or.inl rfl⟩
  · obtain ⟨h1, h2, h3, h4, h5, h6⟩ := h
    rw [if_pos (Or.inl h1), if_pos (Or.inl h2)]
    dsimp only
    rw [if_pos h1, if_pos h2]
    exact early ⟨rfl, rfl, rfl, rfl, rfl, h3, h4, h5.trans h6.symm⟩ h5 rfl
  · have h1 := h.1
    have h2 := h.2.1
    rw [if_neg (by omega), if_neg (by omega), if_neg (by omega), if_neg (by omega), if_neg (by omega), if_neg (by omega)]
    exact ⟨rfl, Or.inr (Or.inr (Or.inl h))⟩
  · have hs : Same o o' := Or.inr (Or.inr (Or.inr ⟨h, ha, hc⟩))
    obtain ⟨c1, c2⟩ := consume_core h e
    have k := consume_keep o e
    have k' := consume_keep o' e
    rcases hc with (hc | hc) | ⟨hc, e1, e2, e3⟩ | ⟨hc | hc, e2⟩
    · rw [if_pos (Or.inr hc), if_pos (show o'.gs = 200 ∨ o'.gs = 201 by omega)]
      dsimp only
      rw [if_neg (show ¬ o.gs = 200 by omega), if_neg (show ¬ o'.gs = 200 by omega)]
      exact early h ha hc
    · rw [if_neg (by omega), if_pos hc, if_neg (by omega), if_pos (by omega)]
      exact ⟨rfl, hs⟩
    · rw [if_neg (by omega), if_neg (by omega), if_pos (by omega), if_neg (by omega), if_neg (by omega), if_pos (by omega)]
      dsimp only
      rw [c2]
      refine ⟨rfl, Or.inr (Or.inr (Or.inr ⟨c1, k.alive.trans ha, Or.inr (Or.inl ⟨?_, ?_, ?_, ?_⟩)⟩))⟩
      · rw [k.gs]; exact hc
      · rw [k.height, k'.height, e1]
      · rw [k.buffered, k'.buffered, e2]
      · rw [k.raw, k'.raw, e3]
    · rw [if_neg (by omega), if_neg (by omega), if_neg (by omega), if_neg (by omega), if_neg (by omega), if_neg (by omega)]
      exact ⟨rfl, hs⟩
    · rw [if_neg (by omega), if_neg (by omega), if_pos (by omega), if_neg (by omega), if_neg (by omega), if_pos (by omega)]
      dsimp only
      rw [c2]
      refine ⟨rfl, Or.inr (Or.inr (Or.inr ⟨c1, k.alive.trans ha, Or.inr (Or.inr ⟨?_, ?_⟩)⟩))⟩
      · rw [k.gs]; exact Or.inr hc
      · rw [k.buffered, k'.buffered, e2]

/-- The objects that are still different. -/
theorem Same.cases {o o' : Obj} (h : Same o o') : o = o' ∨ (o.gs ≠ 204 ∧ o.gs ≠ 205 ∧ o.gs ≠ 206 ∧ o.gs ≠ 208) := by
  rcases h with rfl | h | h | ⟨h, ha, hc⟩
  · exact Or.inl rfl
  · right; omega
  · right; omega
  · right; omega

theorem same_abort {o o' : Obj} (h : Same o o') : Same o.abort o'.abort := by
  unfold Obj.abort
  by_cases ha : o.alive = true
  · rw [if_pos ha, if_pos (h.alive.symm.trans ha)]
    exact Or.inr (Or.inl ⟨rfl, rfl, h.prec, h.lossless, ha, h.alive.symm.trans ha⟩)
  · rw [if_neg ha, if_neg (by rw [← h.alive]; exact ha)]; exact h

theorem Same.step {o o' : Obj} (hs : Same o o') (c : Call) : Both o o' c := by
  rcases hs.cases with rfl | ⟨n4, n5, n6, n8⟩
  · exact ⟨fun _ => rfl, Or.inl rfl⟩
  have hg := hs.gs
  have hp := hs.prec
  have hl := hs.lossless
  have hal := hs.alive
  cases c with
  | create => exact both_of rfl rfl rfl (Or.inl rfl)
  | destroy => exact both_of rfl rfl rfl (Or.inr (Or.inr (Or.inl ⟨rfl, rfl, hp, hl, rfl, rfl⟩)))
  | abort => exact both_of rfl rfl rfl (same_abort hs)
  | consumeInput e => exact both_of rfl rfl (both_consumeInput hs e).1 (both_consumeInput hs e).2
  | readHeader req e =>
    by_cases h1 : o.gs ≠ 200 ∧ o.gs ≠ 201
    · exact both_id hs (r := .badState) (by simp only [D.step]; rw [if_pos h1]) (by simp only [D.step]; rw [if_pos (by omega)])
    · obtain ⟨e1, e2⟩ := both_consumeInput hs e
      unfold Both
      simp only [D.step]
      rw [if_neg h1, if_neg (by omega)]
      generalize o.consumeInput e = q at *
      generalize o'.consumeInput e = q' at *
      obtain ⟨p, r⟩ := q
      obtain ⟨p', r'⟩ := q'
      dsimp only at e1 e2
      subst e1
      split
      · rename_i heq
        simp only [Prod.mk.injEq] at heq
        obtain ⟨rfl, rfl⟩ := heq
        cases req
        · exact ⟨fun _ => rfl, same_abort e2⟩
        · exact ⟨fun _ => rfl, e2⟩
      · rename_i hne
        have : r ≠ .ok 2 := fun h => hne p (by rw [h])
        split
        · rename_i heq; simp only [Prod.mk.injEq] at heq; exact absurd heq.2 this
        · exact ⟨fun _ => rfl, e2⟩
  | inputComplete =>
    unfold Both
    simp only [D.step, ← hg]
    by_cases h1 : o.gs < 200 ∨ o.gs > 210
    · rw [if_pos h1, if_pos h1]; exact ⟨fun _ => rfl, hs⟩
    · rw [if_neg h1, if_neg h1]
      refine ⟨fun he => ?_, hs⟩
      rcases hs with rfl | h | h | h
      · rfl
      · simp [exempt, h.1] at he
      · omega
      · dsimp only; rw [h.1.eoi]
  | hasMultipleScans =>
    unfold Both
    simp only [D.step, ← hg]
    by_cases h1 : o.gs < 202 ∨ o.gs > 210
    · rw [if_pos h1, if_pos h1]; exact ⟨fun _ => rfl, hs⟩
    · rw [if_neg h1, if_neg h1]
      refine ⟨fun _ => ?_, hs⟩
      rcases hs with rfl | h | h | h
      · rfl
      · omega
      · omega
      · dsimp only; rw [h.1.multi]
  | readIcc =>
    unfold Both
    simp only [D.step, ← hg]
    split <;> exact ⟨fun _ => rfl, hs⟩
  | calcDims ok =>
    unfold Both
    simp only [D.step, ← hg]
    split <;> exact ⟨fun _ => rfl, hs⟩
  | newColormap ok =>
    unfold Both
    simp only [D.step, ← hg]
    split <;> exact ⟨fun _ => rfl, hs⟩
  | readScanlines p n es w =>
    unfold Both
    simp only [D.step, ← hg, ← hp]
    by_cases h : p ≠ o.prec
    · rw [if_pos h, if_pos h]; exact ⟨fun _ => rfl, hs⟩
    · rw [if_neg h, if_neg h, if_pos n5, if_pos n5]; exact ⟨fun _ => rfl, hs⟩
  | skipScanlines p n es ok =>
    unfold Both
    simp only [D.step, ← hg, ← hp, ← hl, ← hal]
    by_cases h : p ≠ o.prec
    · rw [if_pos h, if_pos h]; exact ⟨fun _ => rfl, hs⟩
    rw [if_neg h, if_neg h]
    by_cases h : ¬ o.alive = true
    · rw [if_pos h, if_pos h]; exact ⟨fun _ => rfl, hs⟩
    rw [if_neg h, if_neg h]
    by_cases h : o.lossless = true
    · rw [if_pos h, if_pos h]; exact ⟨fun _ => rfl, hs⟩
    rw [if_neg h, if_neg h, if_pos n5, if_pos n5]; exact ⟨fun _ => rfl, hs⟩
  | readRaw p n per es w =>
    unfold Both
    simp only [D.step, ← hg, ← hp, ← hl, ← hal]
    by_cases h : p ≠ o.prec
    · rw [if_pos h, if_pos h]; exact ⟨fun _ => rfl, hs⟩
    rw [if_neg h, if_neg h]
    by_cases h : ¬ o.alive = true
    · rw [if_pos h, if_pos h]; exact ⟨fun _ => rfl, hs⟩
    rw [if_neg h, if_neg h]
    by_cases h : o.lossless = true
    · rw [if_pos h, if_pos h]; exact ⟨fun _ => rfl, hs⟩
    rw [if_neg h, if_neg h, if_pos n6, if_pos n6]; exact ⟨fun _ => rfl, hs⟩
  | cropScanline p ok =>
    unfold Both
    simp only [D.step, ← hg, ← hp, ← hl, ← hal]
    by_cases h : p ≠ o.prec
    · rw [if_pos h, if_pos h]; exact ⟨fun _ => rfl, hs⟩
    rw [if_neg h, if_neg h]
    by_cases h : ¬ o.alive = true
    · rw [if_pos h, if_pos h]; exact ⟨fun _ => rfl, hs⟩
    rw [if_neg h, if_neg h]
    by_cases h : o.lossless = true
    · rw [if_pos h, if_pos h]; exact ⟨fun _ => rfl, hs⟩
    rw [if_neg h, if_neg h]
    by_cases h7 : o.gs = 207
    · refine ⟨fun he => by simp [exempt, h7] at he, ?_⟩
      have e : ∀ (x : Obj) (P : Prop) [Decidable P] (r r' : Res), (if P then (x, r) else (x, r')).1 = x := by intro x P _ r r'; split <;> rfl
      rw [e, e]; exact hs
    · rw [if_pos (Or.inl ⟨n5, h7⟩), if_pos (Or.inl ⟨n5, h7⟩)]; exact ⟨fun _ => rfl, hs⟩
  | startDecompress c ok es w =>
    by_cases h2 : o.gs = 202
    · have h2' : o'.gs = 202 := by omega
      have hx : o = o' ∨ (Core o o' ∧ o.alive = true) := by
        rcases hs with h | h | h | h
        · exact Or.inl h
        · omega
        · omega
        · exact Or.inr ⟨h.1, h.2.1⟩
      rcases hx with rfl | ⟨hc, ha⟩
      · exact ⟨fun _ => rfl, Or.inl rfl⟩
      unfold Both
      simp only [D.step]
      rw [if_pos h2, if_pos h2']
      cases ok with
      | false => exact ⟨fun _ => rfl, hs⟩
      | true =>
        rw [if_neg (show ¬ ¬ true = true by simp), if_neg (show ¬ ¬ true = true by simp)]
        cases hb : c.buffered with
        | true =>
          exact ⟨fun _ => rfl, Or.inr (Or.inr (Or.inr ⟨⟨rfl, hc.multi, hc.eoi, hc.hdr, hc.insc, hc.prec, hc.lossless, hc.alive⟩, ha,
            Or.inr (Or.inl ⟨Or.inr rfl, rfl, rfl, rfl⟩)⟩))⟩
        | false =>
          have := same_preload (o := { o with buffered := false, raw := c.raw, height := c.height, gs := 203 })
            (o' := { o' with buffered := false, raw := c.raw, height := c.height, gs := 203 })
            ⟨rfl, hc.multi, hc.eoi, hc.hdr, hc.insc, hc.prec, hc.lossless, hc.alive⟩ ha rfl rfl rfl rfl es w
          exact ⟨fun _ => this.1, this.2⟩
    · by_cases h3 : o.gs = 203
      · rcases hs with rfl | h | h | ⟨h, ha, (hh | ⟨hh, e1, e2, e3⟩ | hh)⟩
        · exact ⟨fun _ => rfl, Or.inl rfl⟩
        · omega
        · omega
        · omega
        · unfold Both
          simp only [D.step]
          rw [if_neg h2, if_pos h3, if_neg (by omega), if_pos (by omega)]
          have := same_preload h ha h3 e1 e2 e3 es w
          exact ⟨fun _ => this.1, this.2⟩
        · omega
      · exact both_id hs (r := .badState) (by simp only [D.step]; rw [if_neg h2, if_neg h3, if_pos n4])
          (by simp only [D.step]; rw [if_neg (by omega), if_neg (by omega), if_pos (by omega)])
  | startOutput s es w =>
    by_cases h7 : o.gs = 207
    · rcases hs with rfl | h | h | ⟨h, ha, (hh | ⟨hh, e1, e2, e3⟩ | hh)⟩
      · exact ⟨fun _ => rfl, Or.inl rfl⟩
      · omega
      · omega
      · omega
      · unfold Both
        simp only [D.step]
        rw [if_neg (show ¬ (o.gs ≠ 207 ∧ o.gs ≠ 204) by omega), if_neg (show ¬ (o'.gs ≠ 207 ∧ o'.gs ≠ 204) by omega)]
        have ht : (if o.eoi = true ∧ (if s = 0 then 1 else s) > o.insc then o.insc else if s = 0 then 1 else s) =
            (if o'.eoi = true ∧ (if s = 0 then 1 else s) > o'.insc then o'.insc else if s = 0 then 1 else s) := by rw [h.eoi, h.insc]
        rw [← ht]
        generalize (if o.eoi = true ∧ (if s = 0 then 1 else s) > o.insc then o.insc else if s = 0 then 1 else s) = t
        have := same_setup (o := { o with outsc := t }) (o' := { o' with outsc := t })
          ⟨h.gs, h.multi, h.eoi, h.hdr, h.insc, h.prec, h.lossless, h.alive⟩ ha (Or.inr h7) e1 e2 e3 rfl es w
        exact ⟨fun _ => this.1, this.2⟩
      · omega
    · exact both_id hs (r := .badState) (by simp only [D.step]; rw [if_pos ⟨h7, n4⟩]) (by simp only [D.step]; rw [if_pos (by omega)])
  | finishOutput es =>
    exact both_id hs (r := .badState) (by simp only [D.step]; rw [if_neg (by omega)]) (by simp only [D.step]; rw [if_neg (by omega)])
  | finishDecompress es =>
    by_cases h7 : o.gs = 207 ∨ o.gs = 210
    · rcases hs with rfl | h | h | ⟨h, ha, hh⟩
      · exact ⟨fun _ => rfl, Or.inl rfl⟩
      · omega
      · omega
      · have hbf : o.buffered = o'.buffered := by
          rcases hh with hh | hh | hh
          · omega
          · exact hh.2.2.1
          · exact hh.2
        unfold Both
        simp only [D.step]
        rw [if_neg (by omega), if_pos (by omega), if_neg (by omega), if_pos (by omega)]
        obtain ⟨c1, c2⟩ := absorb_core es (o := { o with gs := 210 }) (o' := { o' with gs := 210 })
          ⟨rfl, h.multi, h.eoi, h.hdr, h.insc, h.prec, h.lossless, h.alive⟩
        have k := absorb_keep es { o with gs := 210 }
        have k' := absorb_keep es { o' with gs := 210 }
        generalize ({ o with gs := 210 } : Obj).absorb es = q at *
        generalize ({ o' with gs := 210 } : Obj).absorb es = q' at *
        obtain ⟨p, g⟩ := q
        obtain ⟨p', g'⟩ := q'
        dsimp only at c1 c2
        subst c2
        have s : Same p p' := Or.inr (Or.inr (Or.inr ⟨c1, k.alive.trans ha,
          Or.inr (Or.inr ⟨Or.inr k.gs, k.buffered.trans (hbf.trans k'.buffered.symm)⟩)⟩))
        cases g with
        | eoi => exact ⟨fun _ => rfl, same_abort s⟩
        | _ => exact ⟨fun _ => rfl, s⟩
    · exact both_id hs (r := .badState) (by simp only [D.step]; rw [if_neg (by omega), if_neg (by omega)])
        (by simp only [D.step]; rw [if_neg (by omega), if_neg (by omega)])
  | readCoefs ok es =>
    unfold Both
    simp only [D.step]
    by_cases h1 : ¬ o.alive = true
    · rw [if_pos h1, if_pos (show ¬ o'.alive = true by rw [← hal]; exact h1)]; exact ⟨fun _ => rfl, hs⟩
    rw [if_neg h1, if_neg (show ¬ ¬ o'.alive = true by rw [← hal]; exact h1)]
    by_cases h2 : o.lossless = true
    · rw [if_pos h2, if_pos (show o'.lossless = true by rw [← hl]; exact h2)]; exact ⟨fun _ => rfl, hs⟩
    rw [if_neg h2, if_neg (show ¬ o'.lossless = true by rw [← hl]; exact h2)]
    have hs' := hs
    rcases hs with rfl | h | h | ⟨h, ha, hh⟩
    · exact ⟨fun _ => rfl, Or.inl rfl⟩
    · have h := h.1
      rw [if_neg (by omega), if_neg (by omega), if_neg (by omega), if_neg (by omega), if_neg (by omega), if_neg (by omega)]
      exact ⟨fun _ => rfl, hs'⟩
    · have h := h.1
      rw [if_neg (by omega), if_neg (by omega), if_neg (by omega), if_neg (by omega), if_neg (by omega), if_neg (by omega)]
      exact ⟨fun _ => rfl, hs'⟩
    by_cases h3 : o.gs = 202 ∧ ¬ ok = true
    · rw [if_pos h3, if_pos (show o'.gs = 202 ∧ ¬ ok = true from ⟨by omega, h3.2⟩)]
      exact ⟨fun _ => rfl, Or.inr (Or.inr (Or.inr ⟨⟨h.gs, h.multi, h.eoi, h.hdr, h.insc, h.prec, h.lossless, h.alive⟩, ha, Or.inl (Or.inr h3.1)⟩))⟩
    rw [if_neg h3, if_neg (show ¬ (o'.gs = 202 ∧ ¬ ok = true) from fun h => h3 ⟨by omega, h.2⟩)]
    by_cases h4 : o.gs = 202 ∨ o.gs = 209
    · rw [if_pos h4, if_pos (show o'.gs = 202 ∨ o'.gs = 209 by omega)]
      have hb : (if o.gs = 202 then true else o.buffered) = (if o'.gs = 202 then true else o'.buffered) := by
        rw [← hg]
        by_cases h5 : o.gs = 202
        · rw [if_pos h5, if_pos h5]
        · rw [if_neg h5, if_neg h5]
          rcases hh with hh | hh | hh
          · omega
          · exact hh.2.2.1
          · exact hh.2
      rw [← hb]
      generalize (if o.gs = 202 then true else o.buffered) = b
      obtain ⟨c1, c2⟩ := absorb_core es (o := { o with gs := 209, buffered := b }) (o' := { o' with gs := 209, buffered := b })
        ⟨rfl, h.multi, h.eoi, h.hdr, h.insc, h.prec, h.lossless, h.alive⟩
      have k := absorb_keep es { o with gs := 209, buffered := b }
      have k' := absorb_keep es { o' with gs := 209, buffered := b }
      generalize ({ o with gs := 209, buffered := b } : Obj).absorb es = q at *
      generalize ({ o' with gs := 209, buffered := b } : Obj).absorb es = q' at *
      obtain ⟨p, g⟩ := q
      obtain ⟨p', g'⟩ := q'
      dsimp only at c1 c2
      subst c2
      have kb : p.buffered = p'.buffered := k.buffered.trans k'.buffered.symm
      have s : Same p p' := Or.inr (Or.inr (Or.inr ⟨c1, k.alive.trans ha, Or.inr (Or.inr ⟨Or.inl k.gs, kb⟩)⟩))
      cases g with
      | eoi =>
        dsimp only
        rw [← kb]
        exact ⟨fun _ => rfl, Or.inr (Or.inr (Or.inr ⟨⟨rfl, c1.multi, c1.eoi, c1.hdr, c1.insc, c1.prec, c1.lossless, c1.alive⟩, k.alive.trans ha,
          Or.inr (Or.inr ⟨Or.inr rfl, rfl⟩)⟩))⟩
      | _ => exact ⟨fun _ => rfl, s⟩
    · rw [if_neg h4, if_neg (show ¬ (o'.gs = 202 ∨ o'.gs = 209) by omega)]
      have hs : Same o o' := Or.inr (Or.inr (Or.inr ⟨h, ha, hh⟩))
      by_cases h5 : o.gs = 210 ∨ o.gs = 207
      · have hb : o.buffered = o'.buffered := by
          rcases hh with hh | hh | hh
          · omega
          · exact hh.2.2.1
          · exact hh.2
        by_cases h6 : o.buffered = true
        · rw [if_pos ⟨h5, h6⟩, if_pos ⟨by omega, by rw [← hb]; exact h6⟩]; exact ⟨fun _ => rfl, hs⟩
        · rw [if_neg (fun h => h6 h.2), if_neg (fun h => h6 (by rw [hb]; exact h.2))]; exact ⟨fun _ => rfl, hs⟩
      · rw [if_neg (fun h => h5 h.1), if_neg (fun h => h5 (by omega))]; exact ⟨fun _ => rfl, hs⟩

/-- What an application sees of a sequence of calls: the results, without those of the calls in `exempt`. -/
def seen (o : Obj) : List Call → List (Option Res)
  | [] => []
  | c :: cs => (if exempt o c then none else some (step o c).2) :: seen (step o c).1 cs

/-- Results of a sequence of calls. -/
def results (o : Obj) : List Call → List Res
  | [] => []
  | c :: cs => (step o c).2 :: results (step o c).1 cs

theorem Same.seen {o o' : Obj} (h : Same o o') (cs : List Call) : seen o cs = seen o' cs := by
  induction cs generalizing o o' with
  | nil => rfl
  | cons c cs ih =>
    obtain ⟨h1, h2⟩ := h.step c
    simp only [D.seen]
    rw [ih h2]
    have he : exempt o' c = exempt o c := by unfold exempt; rw [h.gs]
    rw [he]
    cases hc : exempt o c
    · simp [h1 hc]
    · rfl

/-- After any calls on an existing object, also after an error exit, aborting gives an object on which every further sequence of calls has the
same results as on a new one (with the sample precision and mode last read); so does finishing an image and reading a tables-only datastream.
Exceptions: see `exempt` and the theorems below. -/
theorem C29_decomp_reuse (cs : List Call) (hg : phase (history cs).2 ≠ .gone) (c : Call)
    (hc : c = .abort ∨ (phase (history cs).2 ≠ .broken ∧ ((∃ es, c = .finishDecompress es ∧ (step (history cs).1 c).2 = .ok 1) ∨
      ∃ q e, c = .readHeader q e ∧ (step (history cs).1 c).2 = .ok 2))) (ds : List Call) :
    let o := (step (history cs).1 c).1
    seen o ds = seen { Obj.fresh with prec := o.prec, lossless := o.lossless } ds := by
  have hr := history_rel cs
  dsimp only
  have key : (step (history cs).1 c).1.gs = 200 ∧ (step (history cs).1 c).1.alive = true := by
    rcases hc with rfl | ⟨hb, ⟨es, rfl, h⟩ | ⟨q, e, rfl, h⟩⟩
    · have ha := hr.alive hg
      simp only [step]
      exact ⟨by unfold Obj.abort; rw [if_pos ha], (abort_alive _).trans ha⟩
    · have := (step_good hb hr (.finishDecompress es)).1
      rw [h] at this
      exact this
    · have := (step_good hb hr (.readHeader q e)).1
      rw [h] at this
      exact this
  generalize (step (history cs).1 c).1 = o at key ⊢
  exact Same.seen (o := o) (o' := { Obj.fresh with prec := o.prec, lossless := o.lossless })
    (Or.inr (Or.inl ⟨key.1, rfl, rfl, rfl, key.2, rfl⟩)) ds

/-! ### Where the order is not enforced, or the state is stale -/

/-- One scan and its end. -/
def exIn : List In := [.row, .row, .eoi]

/-- jpeg_input_complete on an object that is reused answers TRUE before anything of the new image has been read. -/
theorem C29_stale_input_complete : let h : Hdr := ⟨false, 8, false⟩
    results .fresh [.inputComplete, .readHeader true (.sos h), .startDecompress ⟨false, false, 2⟩ true [] .done, .readScanlines 8 2 [.row] (some 2),
      .finishDecompress exIn, .inputComplete, .readHeader true (.sos h), .inputComplete] =
    [.ok 0, .ok 1, .ok 1, .ok 2, .ok 1, .ok 1, .ok 1, .ok 0] := by decide

/-- jpeg_crop_scanline in buffered-image mode before the first output pass: accepted on a new object, refused on one that has read rows
before. -/
theorem C29_stale_output_scanline : let h : Hdr := ⟨true, 8, false⟩
    let again := [.readHeader true (.sos h), .startDecompress ⟨true, false, 2⟩ true [] .done, .cropScanline 8 true]
    results .fresh again = [.ok 1, .ok 1, .ok 0] ∧
    results .fresh (again ++ [.startOutput 1 [] .done, .readScanlines 8 1 [.row] (some 1), .abort] ++ again) =
      [.ok 1, .ok 1, .ok 0, .ok 1, .ok 1, .ok 0, .ok 1, .ok 1, .badState] := by decide

/-- While jpeg_start_decompress is suspended in a dummy pass, jpeg_start_output is accepted although the image is not in buffered-image mode,
and the other way round. -/
theorem C29_prescan_not_told_apart : let h : Hdr := ⟨true, 8, false⟩
    results .fresh [.readHeader true (.sos h), .startDecompress ⟨false, false, 2⟩ true [.row, .eoi] (.susp 1), .startOutput 1 [] .done] =
      [.ok 1, .ok 0, .ok 1] ∧
    results .fresh [.readHeader true (.sos h), .startDecompress ⟨true, false, 2⟩ true [] .done, .startOutput 1 [] (.susp 1),
      .startDecompress ⟨true, false, 2⟩ true [] .done] = [.ok 1, .ok 1, .ok 0, .ok 1] := by decide

/-- jpeg_consume_input while jpeg_read_coefficients is suspended is refused, although the header comment of the function says it may be called
at any time after jpeg_create_decompress. -/
theorem C29_consume_in_read_coefs : results .fresh [.readHeader true (.sos ⟨true, 8, false⟩), .readCoefs true [.row], .consumeInput .row,
    .readCoefs true exIn] = [.ok 1, .ok 0, .badState, .ok 1] := by decide

/-- On a destroyed object four calls read freed memory. -/
theorem C29_decomp_destroyed : results .fresh [.destroy, .cropScanline 8 true, .skipScanlines 8 1 [] true, .readRaw 8 8 8 [] none,
    .readCoefs true [], .readHeader true .susp, .readScanlines 8 1 [] none, .abort, .destroy] =
    [.ok 0, .crash, .crash, .crash, .crash, .badState, .badState, .ok 0, .ok 0] := by decide

/-- jpeg_skip_scanlines to the bottom in an output pass of buffered-image mode ends the input: the second scan, which is there, is never read,
and jpeg_start_output asked for scan 2 shows scan 1. -/
theorem C29_skip_ends_input : let h : Hdr := ⟨true, 8, false⟩
    let start := [.readHeader true (.sos h), .startDecompress ⟨true, false, 2⟩ true [] .done, .startOutput 1 [.row] .done]
    let more := [.finishOutput [.row, .sos h], .startOutput 2 [.row] .done]
    (history (start ++ [.readScanlines 8 2 [.row] (some 2)] ++ more)).1.outsc = 2 ∧
    (history (start ++ [.skipScanlines 8 2 [.row] true] ++ more)).1.outsc = 1 := by decide

/-! ### Examples -/

/-- Hypotheses of the theorems: an image half read; two passes; read_coefficients. -/
example : let cs := [.readHeader true (.sos ⟨false, 8, false⟩), .startDecompress ⟨false, false, 3⟩ true [] .done, .readScanlines 8 2 [.row] (some 2)]
    phase (history cs).2 = .output ⟨false, false, 3⟩ 2 ∧ ArgsOk (history cs).1 (.readScanlines 8 1 [] none) ∧
      perm (phase (history cs).2) (.readRaw 8 8 8 [] none) = .no := by
  refine ⟨by decide, rfl, by decide⟩

example : results .fresh [.readScanlines 8 1 [] none, .readHeader true .susp, .startDecompress ⟨false, false, 3⟩ true [] .done,
    .readHeader true (.sos ⟨false, 8, false⟩), .finishDecompress [], .startDecompress ⟨false, false, 3⟩ true [] .done, .readScanlines 8 2 [.row] (some 2),
    .finishDecompress [], .readRaw 8 8 8 [] none, .readScanlines 8 4 [.row] (some 4), .finishDecompress [.row], .readScanlines 8 1 [] none,
    .finishDecompress exIn, .finishDecompress exIn, .readHeader false .eoi, .readHeader true (.sos ⟨true, 8, false⟩), .readCoefs true exIn,
    .finishDecompress [], .abort] =
    [.badState, .ok 0, .badState, .ok 1, .badState, .ok 1, .ok 2, .rejected, .badState, .ok 1, .ok 0, .badState, .ok 1, .badState, .ok 2, .ok 1, .ok 1,
      .ok 1, .ok 0] := by decide

end Verif.Api.D
