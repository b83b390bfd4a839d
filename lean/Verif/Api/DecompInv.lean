import Verif.Api.Decomp
/-
C29, decompression side: the object follows the history.
-/
namespace Verif.Api.D

/-- What the object knows of the phase. -/
def Rel (o : Obj) : Phase → Prop
  | .idle => o.gs = 200 ∧ o.alive = true
  | .header => o.gs = 201 ∧ o.alive = true
  | .ready => o.gs = 202 ∧ o.alive = true
  | .starting c => (o.gs = 203 ∨ o.gs = 204) ∧ o.alive = true ∧ o.buffered = false ∧ o.raw = c.raw ∧ o.height = c.height
  | .output c r => o.gs = (if c.raw then 206 else 205) ∧ o.alive = true ∧ o.buffered = false ∧ o.raw = c.raw ∧ o.height = c.height ∧ o.line = r ∧
      (c.raw = false → r ≤ c.height)
  | .buf c => o.gs = 207 ∧ o.alive = true ∧ o.buffered = true ∧ o.raw = c.raw ∧ o.height = c.height
  | .bufStarting c => o.gs = 204 ∧ o.alive = true ∧ o.buffered = true ∧ o.raw = c.raw ∧ o.height = c.height
  | .bufOutput c r => o.gs = (if c.raw then 206 else 205) ∧ o.alive = true ∧ o.buffered = true ∧ o.raw = c.raw ∧ o.height = c.height ∧ o.line = r ∧
      (c.raw = false → r ≤ c.height)
  | .bufPost c => o.gs = 208 ∧ o.alive = true ∧ o.buffered = true ∧ o.raw = c.raw ∧ o.height = c.height
  | .coefs => o.gs = 209 ∧ o.alive = true ∧ o.buffered = true
  | .done b => o.gs = 210 ∧ o.alive = true ∧ o.buffered = b
  | .broken => o.alive = true
  | .gone => o.gs = 0 ∧ o.alive = false

/-- A change that keeps the fields above. -/
theorem Rel.keep {o o' : Obj} {p : Phase} (h : Rel o p) (k : Keep o o') : Rel o' p := by
  obtain ⟨k1, k2, k3, k4, k5, k6⟩ := k
  cases p <;> simp only [Rel, k1, k2, k3, k4, k5, k6] at * <;> exact h

/-- Phase after an event, not after an error exit. -/
theorem phase_next {h : List Event} (hb : phase h ≠ .broken) (e : Event) : phase (e :: h) = (phase h).next e := by
  simp only [phase, if_neg hb]

theorem passSetup_spec (o : Obj) (es : List In) (w : Setup) :
    ((o.passSetup es w).2 = .err ∧ (o.passSetup es w).1.alive = o.alive) ∨
    ((o.passSetup es w).2 = .ok 0 ∧ (o.passSetup es w).1.gs = 204 ∧ (o.passSetup es w).1.alive = o.alive ∧
      (o.passSetup es w).1.buffered = o.buffered ∧ (o.passSetup es w).1.raw = o.raw ∧ (o.passSetup es w).1.height = o.height) ∨
    ((o.passSetup es w).2 = .ok 1 ∧ (o.passSetup es w).1.gs = (if o.raw then 206 else 205) ∧ (o.passSetup es w).1.alive = o.alive ∧
      (o.passSetup es w).1.buffered = o.buffered ∧ (o.passSetup es w).1.raw = o.raw ∧ (o.passSetup es w).1.height = o.height ∧
      (o.passSetup es w).1.line = 0) := by
  have hk : ∀ o' : Obj, o' = (if o.gs ≠ 204 then { o with line := 0, gs := 204 } else o) →
      o'.gs = 204 ∧ o'.alive = o.alive ∧ o'.buffered = o.buffered ∧ o'.raw = o.raw ∧ o'.height = o.height := by
    rintro _ rfl
    by_cases h : o.gs ≠ 204
    · rw [if_pos h]; exact ⟨rfl, rfl, rfl, rfl, rfl⟩
    · rw [if_neg h]; exact ⟨by omega, rfl, rfl, rfl, rfl⟩
  unfold Obj.passSetup
  dsimp only
  generalize ho : (if o.gs ≠ 204 then { o with line := 0, gs := 204 } else o) = o'
  obtain ⟨h1, h2, h3, h4, h5⟩ := hk o' ho.symm
  have kf := feed_keep es o'
  cases w with
  | early => exact Or.inl ⟨rfl, rfl⟩
  | late k => exact Or.inl ⟨rfl, kf.alive.trans h2⟩
  | susp k =>
    exact Or.inr (Or.inl ⟨rfl, kf.gs.trans h1, kf.alive.trans h2, kf.buffered.trans h3, kf.raw.trans h4, kf.height.trans h5⟩)
  | done =>
    refine Or.inr (Or.inr ⟨rfl, ?_, kf.alive.trans h2, kf.buffered.trans h3, kf.raw.trans h4, kf.height.trans h5, rfl⟩)
    dsimp only
    rw [kf.raw.trans h4]

theorem preload_spec (o : Obj) (hg : o.gs = 203) (es : List In) (w : Setup) :
    ((step.preload o es w).2 = .err ∧ (step.preload o es w).1.alive = o.alive) ∨
    ((step.preload o es w).2 = .ok 0 ∧ ((step.preload o es w).1.gs = 203 ∨ (step.preload o es w).1.gs = 204) ∧
      (step.preload o es w).1.alive = o.alive ∧
      (step.preload o es w).1.buffered = o.buffered ∧ (step.preload o es w).1.raw = o.raw ∧ (step.preload o es w).1.height = o.height) ∨
    ((step.preload o es w).2 = .ok 1 ∧ (step.preload o es w).1.gs = (if o.raw then 206 else 205) ∧ (step.preload o es w).1.alive = o.alive ∧
      (step.preload o es w).1.buffered = o.buffered ∧ (step.preload o es w).1.raw = o.raw ∧ (step.preload o es w).1.height = o.height ∧
      (step.preload o es w).1.line = 0) := by
  unfold step.preload
  have fin : ∀ (o' : Obj) es, Keep o o' → ((({ o' with outsc := o'.insc } : Obj).passSetup es w).2 = .err ∧ (({ o' with outsc := o'.insc } : Obj).passSetup es w).1.alive = o.alive) ∨
      ((({ o' with outsc := o'.insc } : Obj).passSetup es w).2 = .ok 0 ∧ ((({ o' with outsc := o'.insc } : Obj).passSetup es w).1.gs = 203 ∨ (({ o' with outsc := o'.insc } : Obj).passSetup es w).1.gs = 204) ∧
      (({ o' with outsc := o'.insc } : Obj).passSetup es w).1.alive = o.alive ∧
      (({ o' with outsc := o'.insc } : Obj).passSetup es w).1.buffered = o.buffered ∧ (({ o' with outsc := o'.insc } : Obj).passSetup es w).1.raw = o.raw ∧ (({ o' with outsc := o'.insc } : Obj).passSetup es w).1.height = o.height) ∨
      ((({ o' with outsc := o'.insc } : Obj).passSetup es w).2 = .ok 1 ∧ (({ o' with outsc := o'.insc } : Obj).passSetup es w).1.gs = (if o.raw then 206 else 205) ∧ (({ o' with outsc := o'.insc } : Obj).passSetup es w).1.alive = o.alive ∧
      (({ o' with outsc := o'.insc } : Obj).passSetup es w).1.buffered = o.buffered ∧ (({ o' with outsc := o'.insc } : Obj).passSetup es w).1.raw = o.raw ∧ (({ o' with outsc := o'.insc } : Obj).passSetup es w).1.height = o.height ∧
      (({ o' with outsc := o'.insc } : Obj).passSetup es w).1.line = 0) := by
    intro o' es k
    rcases passSetup_spec { o' with outsc := o'.insc } es w with h | h | h
    · exact Or.inl ⟨h.1, h.2.trans k.alive⟩
    · exact Or.inr (Or.inl ⟨h.1, Or.inr h.2.1, h.2.2.1.trans k.alive, h.2.2.2.1.trans k.buffered, h.2.2.2.2.1.trans k.raw,
        h.2.2.2.2.2.trans k.height⟩)
    · refine Or.inr (Or.inr ⟨h.1, ?_, h.2.2.1.trans k.alive, h.2.2.2.1.trans k.buffered, h.2.2.2.2.1.trans k.raw,
        h.2.2.2.2.2.1.trans k.height, h.2.2.2.2.2.2⟩)
      rw [h.2.1]
      dsimp only
      rw [k.raw]
  by_cases hm : o.multi = true
  · rw [if_pos hm]
    have k := absorb_keep es o
    generalize ha : o.absorb es = r at k
    obtain ⟨o', g⟩ := r
    cases g with
    | eoi => exact fin o' [] k
    | err => exact Or.inl ⟨rfl, k.alive⟩
    | _ => exact Or.inr (Or.inl ⟨rfl, Or.inl (k.gs.trans hg), k.alive, k.buffered, k.raw, k.height⟩)
  · rw [if_neg hm]; exact fin o es (Keep.refl o)

theorem consumeInput_alive (o : Obj) (e : In) : (o.consumeInput e).1.alive = o.alive := by
  have hc : ∀ o : Obj, (o.consume e).1.alive = o.alive := fun o => (consume_keep o e).alive
  unfold Obj.consumeInput
  dsimp only
  by_cases h1 : o.gs = 200 ∨ o.gs = 201
  · rw [if_pos h1]
    generalize ho : (if o.gs = 200 then ({ o with multi := false, eoi := false, hdr := true, insc := 0, gs := 201 } : Obj) else o) = o'
    have : o'.alive = o.alive := by subst ho; by_cases h : o.gs = 200 <;> simp [h]
    have hk := hc o'
    generalize o'.consume e = r at hk
    obtain ⟨o2, g⟩ := r
    cases g <;> exact hk.trans this
  · rw [if_neg h1]
    by_cases h2 : o.gs = 202
    · rw [if_pos h2]
    · rw [if_neg h2]
      split
      · exact hc o
      · rfl

theorem abort_alive (o : Obj) : o.abort.alive = o.alive := by
  unfold Obj.abort; split <;> rfl

theorem step_alive (o : Obj) (c : Call) (hc : c ≠ .destroy) (ha : o.alive = true) : (step o c).1.alive = true := by
  cases c with
  | create => rfl
  | destroy => exact absurd rfl hc
  | abort => simp only [step, abort_alive]; exact ha
  | readHeader r e =>
    simp only [step]
    split
    · exact ha
    · have := consumeInput_alive o e
      split
      · rename_i o' h
        rw [h] at this
        split
        · exact this.trans ha
        · rw [abort_alive]; exact this.trans ha
      · exact this.trans ha
  | consumeInput e => exact (consumeInput_alive o e).trans ha
  | startDecompress c ok es w =>
    simp only [step]
    have hp : ∀ o : Obj, o.gs = 203 → o.alive = true → (step.preload o es w).1.alive = true := by
      intro o hg ha
      rcases preload_spec o hg es w with h | h | h
      · exact h.2.trans ha
      · exact h.2.2.1.trans ha
      · exact h.2.2.1.trans ha
    by_cases h1 : o.gs = 202
    · rw [if_pos h1]
      split
      · exact ha
      · split
        · exact ha
        · exact hp _ rfl ha
    · rw [if_neg h1]
      by_cases h2 : o.gs = 203
      · rw [if_pos h2]; exact hp o h2 ha
      · rw [if_neg h2]
        split
        · exact ha
        · rcases passSetup_spec o es w with h | h | h
          · exact h.2.trans ha
          · exact h.2.2.1.trans ha
          · exact h.2.2.1.trans ha
  | startOutput s es w =>
    simp only [step]
    split
    · exact ha
    · generalize hs : (if o.eoi = true ∧ (if s = 0 then 1 else s) > o.insc then o.insc else if s = 0 then 1 else s) = t
      rcases passSetup_spec { o with outsc := t } es w with h | h | h
      · exact h.2.trans ha
      · exact h.2.2.1.trans ha
      · exact h.2.2.1.trans ha
  | finishOutput es =>
    simp only [step]
    split
    · have := (absorbScan_keep es { o with gs := 208 }).alive
      generalize Obj.absorbScan { o with gs := 208 } es = r at this
      obtain ⟨o', g⟩ := r
      cases g <;> exact this.trans ha
    · exact ha
  | finishDecompress es =>
    simp only [step]
    split
    · exact ha
    · split
      · have := (absorb_keep es { o with gs := 210 }).alive
        generalize Obj.absorb { o with gs := 210 } es = r at this
        obtain ⟨o', g⟩ := r
        cases g <;> first | exact this.trans ha | (dsimp only; rw [abort_alive]; exact this.trans ha)
      · exact ha
  | readCoefs ok es =>
    simp only [step]
    split
    · exact ha
    split
    · exact ha
    split
    · exact ha
    split
    · have := (absorb_keep es { o with gs := 209, buffered := if o.gs = 202 then true else o.buffered }).alive
      generalize Obj.absorb { o with gs := 209, buffered := if o.gs = 202 then true else o.buffered } es = r at this
      obtain ⟨o', g⟩ := r
      cases g <;> exact this.trans ha
    split <;> exact ha
  | readScanlines p n es w =>
    simp only [step]
    have := (feed_keep es o).alive
    repeat' split
    all_goals first | exact ha | exact this.trans ha
  | skipScanlines p n es ok =>
    simp only [step]
    have := (feed_keep es o).alive
    repeat' split
    all_goals first | exact ha | exact this.trans ha
  | readRaw p n per es w =>
    simp only [step]
    have := (feed_keep es o).alive
    repeat' split
    all_goals first | exact ha | exact this.trans ha
  | _ =>
    simp only [step]
    repeat' split
    all_goals exact ha

end Verif.Api.D
