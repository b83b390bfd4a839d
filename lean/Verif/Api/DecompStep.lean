import Verif.Api.DecompInv
/-
C29, decompression side: every call, in every phase.
-/
namespace Verif.Api.D

/-- A call in a phase: the object follows, and the call is refused or not as the order says. -/
def Good (o : Obj) (p : Phase) (c : Call) : Prop :=
  Rel (step o c).1 (p.next (c, (step o c).2)) ∧
    (ArgsOk o c → (perm p c = .yes → (step o c).2 ≠ .badState) ∧ (perm p c = .no → (step o c).2 = .badState))

theorem good_eq {o : Obj} {p : Phase} {c : Call} {o' : Obj} {r : Res} (h : step o c = (o', r)) (h1 : Rel o' (p.next (c, r)))
    (h2 : ArgsOk o c → (perm p c = .yes → r ≠ .badState) ∧ (perm p c = .no → r = .badState)) : Good o p c := by
  unfold Good; rw [h]; exact ⟨h1, h2⟩

/-- Refused, as it should be. -/
theorem good_bad {o : Obj} {p : Phase} {c : Call} (hr : Rel o p) (h : step o c = (o, .badState)) (h1 : p.next (c, .badState) = p)
    (h2 : perm p c ≠ .yes) : Good o p c :=
  good_eq h (by rw [h1]; exact hr) fun _ => ⟨fun h => absurd h h2, fun _ => rfl⟩

/-- The global state of a phase. -/
def gsOf : Phase → List Nat
  | .idle => [200]
  | .header => [201]
  | .ready => [202]
  | .starting _ => [203, 204]
  | .output c _ => [if c.raw then 206 else 205]
  | .buf _ => [207]
  | .bufStarting _ => [204]
  | .bufOutput c _ => [if c.raw then 206 else 205]
  | .bufPost _ => [208]
  | .coefs => [209]
  | .done _ => [210]
  | .broken => []
  | .gone => [0]

theorem Rel.gs {o : Obj} {p : Phase} (hb : p ≠ .broken) (hr : Rel o p) : o.gs ∈ gsOf p := by
  cases p <;> simp only [Rel, gsOf, List.mem_cons, List.not_mem_nil, or_false] at * <;> first | exact hr.1 | exact absurd rfl hb

theorem Rel.alive {o : Obj} {p : Phase} (hb : p ≠ .gone) (hr : Rel o p) : o.alive = true := by
  cases p <;> simp only [Rel] at * <;> first | exact hr.2.1 | exact hr.2 | exact hr | exact absurd rfl hb

/-- Calls that only look at the state. -/
theorem good_look {o : Obj} {p : Phase} (hb : p ≠ .broken) (hr : Rel o p) (c : Call)
    (hc : c = .inputComplete ∨ c = .hasMultipleScans ∨ c = .readIcc) : Good o p c := by
  have hg := hr.gs hb
  rcases hc with rfl | rfl | rfl <;> (
    cases p with
    | broken => exact absurd rfl hb
    | starting c =>
      simp only [gsOf, List.mem_cons, List.not_mem_nil, or_false] at hg
      rcases hg with hg | hg <;>
      exact good_eq (by simp only [step, hg]; rfl) hr (fun _ => ⟨fun _ => by simp, fun h => by simp [perm] at h⟩)
    | output c r =>
      simp only [gsOf, List.mem_cons, List.not_mem_nil, or_false] at hg
      cases hc : c.raw <;> rw [hc] at hg <;>
      exact good_eq (by simp only [step, hg]; rfl) hr (fun _ => ⟨fun _ => by simp, fun h => by simp [perm] at h⟩)
    | bufOutput c r =>
      simp only [gsOf, List.mem_cons, List.not_mem_nil, or_false] at hg
      cases hc : c.raw <;> rw [hc] at hg <;>
      exact good_eq (by simp only [step, hg]; rfl) hr (fun _ => ⟨fun _ => by simp, fun h => by simp [perm] at h⟩)
    | _ =>
      simp only [gsOf, List.mem_cons, List.not_mem_nil, or_false] at hg
      first
      | exact good_bad hr (by simp only [step, hg]; rfl) rfl (by simp [perm])
      | exact good_eq (by simp only [step, hg]; rfl) hr (fun _ => ⟨fun _ => by simp, fun h => by simp [perm] at h⟩))

/-- The phases of each state. -/
def phOf (o : Obj) (p : Phase) : Prop :=
  (o.gs = 0 ∧ p = .gone) ∨ (o.gs = 200 ∧ p = .idle) ∨ (o.gs = 201 ∧ p = .header) ∨ (o.gs = 202 ∧ p = .ready) ∨
  (o.gs = 203 ∧ ∃ c, p = .starting c) ∨ (o.gs = 204 ∧ ((∃ c, p = .starting c) ∨ ∃ c, p = .bufStarting c)) ∨
  (o.gs = 205 ∧ ∃ c r, c.raw = false ∧ (p = .output c r ∨ p = .bufOutput c r)) ∨
  (o.gs = 206 ∧ ∃ c r, c.raw = true ∧ (p = .output c r ∨ p = .bufOutput c r)) ∨
  (o.gs = 207 ∧ ∃ c, p = .buf c) ∨ (o.gs = 208 ∧ ∃ c, p = .bufPost c) ∨ (o.gs = 209 ∧ p = .coefs) ∨ (o.gs = 210 ∧ ∃ b, p = .done b)

theorem Rel.ph {o : Obj} {p : Phase} (hb : p ≠ .broken) (hr : Rel o p) : phOf o p := by
  have hg := hr.gs hb
  unfold phOf
  cases p with
  | broken => exact absurd rfl hb
  | output c r =>
    simp only [gsOf, List.mem_cons, List.not_mem_nil, or_false] at hg
    cases hc : c.raw <;> simp only [hc, if_true, if_false, Bool.false_eq_true] at hg <;> rw [hg] <;> simp [hc]
  | bufOutput c r =>
    simp only [gsOf, List.mem_cons, List.not_mem_nil, or_false] at hg
    cases hc : c.raw <;> simp only [hc, if_true, if_false, Bool.false_eq_true] at hg <;> rw [hg] <;> simp [hc]
  | starting c =>
    simp only [gsOf, List.mem_cons, List.not_mem_nil, or_false] at hg
    rcases hg with hg | hg <;> rw [hg] <;> simp
  | _ =>
    simp only [gsOf, List.mem_cons, List.not_mem_nil, or_false] at hg
    rw [hg]; simp

set_option hygiene false in
/-- Case analysis on the state. -/
macro "phases" h:ident : tactic =>
  `(tactic| rcases $h:ident with ⟨hg, rfl⟩ | ⟨hg, rfl⟩ | ⟨hg, rfl⟩ | ⟨hg, rfl⟩ | ⟨hg, c, rfl⟩ | ⟨hg, ⟨c, rfl⟩ | ⟨c, rfl⟩⟩ |
      ⟨hg, c, r, hc, rfl | rfl⟩ | ⟨hg, c, r, hc, rfl | rfl⟩ | ⟨hg, c, rfl⟩ | ⟨hg, c, rfl⟩ | ⟨hg, rfl⟩ | ⟨hg, b, rfl⟩)

theorem good_calcDims {o : Obj} {p : Phase} (hb : p ≠ .broken) (hr : Rel o p) (ok : Bool) : Good o p (.calcDims ok) := by
  have hp := hr.ph hb
  phases hp
  all_goals first
    | exact good_bad hr (by simp only [step, hg]; rfl) rfl (by simp [perm])
    | skip
  cases ok
  · exact good_eq (r := .err) (by simp only [step, hg]; rfl) hr.2 (fun _ => ⟨fun _ => by simp, fun h => by simp [perm] at h⟩)
  · exact good_eq (by simp only [step, hg]; rfl) hr (fun _ => ⟨fun _ => by simp, fun h => by simp [perm] at h⟩)

theorem good_newColormap {o : Obj} {p : Phase} (hb : p ≠ .broken) (hr : Rel o p) (ok : Bool) : Good o p (.newColormap ok) := by
  have hp := hr.ph hb
  phases hp
  all_goals first
    | exact good_bad hr (by simp only [step, hg]; rfl) rfl (by simp [perm])
    | skip
  cases ok
  · exact good_eq (by simp only [step, hg]; rfl) hr (fun _ => ⟨fun _ => by simp, fun h => by simp [perm] at h⟩)
  · exact good_eq (by simp only [step, hg]; rfl) hr (fun _ => ⟨fun _ => by simp, fun h => by simp [perm] at h⟩)

theorem good_consumeInput {o : Obj} {p : Phase} (hb : p ≠ .broken) (hr : Rel o p) (e : In) : Good o p (.consumeInput e) := by
  have hp := hr.ph hb
  have later : (o.gs = 203 ∨ o.gs = 204 ∨ o.gs = 205 ∨ o.gs = 206 ∨ o.gs = 207 ∨ o.gs = 208 ∨ o.gs = 210) →
      (∀ n, p.next (.consumeInput e, .ok n) = p) → p.next (.consumeInput e, .err) = .broken → Good o p (.consumeInput e) := by
    intro h1 h2 h3
    have k := consume_keep o e
    have hs : step o (.consumeInput e) = ((o.consume e).1, (o.consume e).2.code) := by
      simp only [step, Obj.consumeInput]
      rw [if_neg (by omega), if_neg (by omega), if_pos h1]
    have ha : p ≠ .gone := by rintro rfl; simp only [Rel] at hr; omega
    generalize o.consume e = g at hs k
    obtain ⟨o', g⟩ := g
    have hx : ∀ r, (∃ n, r = Res.ok n) → step o (.consumeInput e) = (o', r) → Good o p (.consumeInput e) := by
      rintro r ⟨n, rfl⟩ hs
      exact good_eq hs (by rw [h2]; exact hr.keep k) (fun _ => ⟨fun _ => by simp, fun h => by
        exfalso; revert h; cases p <;> simp [perm] at * ⟩)
    cases g with
    | err =>
      refine good_eq (r := .err) hs (by rw [h3]; exact (hr.keep k).alive ha) (fun _ => ⟨fun _ => by simp, fun h => by
        exfalso; revert h; cases p <;> simp [perm] at * ⟩)
    | susp => exact hx _ ⟨_, rfl⟩ hs
    | sos => exact hx _ ⟨_, rfl⟩ hs
    | eoi => exact hx _ ⟨_, rfl⟩ hs
    | row => exact hx _ ⟨_, rfl⟩ hs
  have early : ∀ o' : Obj, o'.gs = 201 → o'.alive = true → (∀ n, p.next (.consumeInput e, .ok n) = if n = 1 then .ready else .header) →
      p.next (.consumeInput e, .err) = .broken → perm p (.consumeInput e) = .yes →
      step o (.consumeInput e) = (match o'.consume e with
        | (o, .sos) => ({ o with gs := 202 }, .ok 1)
        | (o, g) => (o, g.code)) → Good o p (.consumeInput e) := by
    intro o' h1 h2 h3 h4 h5 h6
    have k := consume_keep o' e
    generalize o'.consume e = g at h6 k
    obtain ⟨o2, g⟩ := g
    have hy : ∀ {r : Res}, r ≠ .badState → ArgsOk o (.consumeInput e) → (perm p (.consumeInput e) = .yes → r ≠ .badState) ∧
        (perm p (.consumeInput e) = .no → r = .badState) := fun h _ => ⟨fun _ => h, fun h => by rw [h5] at h; simp at h⟩
    cases g with
    | sos => exact good_eq (r := .ok 1) h6 (by rw [h3]; exact ⟨rfl, k.alive.trans h2⟩) (hy (by simp))
    | err => exact good_eq (r := .err) h6 (by rw [h4]; exact k.alive.trans h2) (hy (by simp))
    | susp => exact good_eq (r := .ok 0) h6 (by rw [h3]; exact ⟨k.gs.trans h1, k.alive.trans h2⟩) (hy (by simp))
    | eoi => exact good_eq (r := .ok 2) h6 (by rw [h3]; exact ⟨k.gs.trans h1, k.alive.trans h2⟩) (hy (by simp))
    | row => exact good_eq (r := .ok 3) h6 (by rw [h3]; exact ⟨k.gs.trans h1, k.alive.trans h2⟩) (hy (by simp))
  phases hp
  · exact good_bad hr (by simp only [step, Obj.consumeInput, hg]; rfl) rfl (by simp [perm])
  · refine early { o with multi := false, eoi := false, hdr := true, insc := 0, gs := 201 } rfl hr.2 (fun _ => rfl) rfl rfl ?_
    simp only [step, Obj.consumeInput]
    rw [if_pos (by omega), if_pos hg]
    rfl
  · refine early o hg hr.2 (fun _ => rfl) rfl rfl ?_
    simp only [step, Obj.consumeInput]
    rw [if_pos (by omega), if_neg (by omega)]
    rfl
  · exact good_eq (by simp only [step, Obj.consumeInput, hg]; rfl) hr (fun _ => ⟨fun _ => by simp, fun h => by simp [perm] at h⟩)
  case _ => exact later (by omega) (fun _ => rfl) rfl
  case _ => exact later (by omega) (fun _ => rfl) rfl
  case _ => exact later (by omega) (fun _ => rfl) rfl
  case _ => exact later (by omega) (fun _ => rfl) rfl
  case _ => exact later (by omega) (fun _ => rfl) rfl
  case _ => exact later (by omega) (fun _ => rfl) rfl
  case _ => exact later (by omega) (fun _ => rfl) rfl
  case _ => exact later (by omega) (fun _ => rfl) rfl
  case _ => exact later (by omega) (fun _ => rfl) rfl
  case _ => exact good_bad hr (by simp only [step, Obj.consumeInput, hg]; rfl) rfl (by simp [perm])
  case _ => exact later (by omega) (fun _ => rfl) rfl

/-- jpeg_consume_input while the header is read. -/
theorem consume_early (o : Obj) (h : o.gs = 200 ∨ o.gs = 201) (e : In) :
    ((o.consumeInput e).2 = .err ∨ ((o.consumeInput e).2 = .ok 1 ∧ (o.consumeInput e).1.gs = 202) ∨
      (o.consumeInput e).1.gs = 201 ∧ ∃ n, n ≠ 1 ∧ (o.consumeInput e).2 = .ok n) := by
  unfold Obj.consumeInput
  rw [if_pos h]
  dsimp only
  generalize ho : (if o.gs = 200 then ({ o with multi := false, eoi := false, hdr := true, insc := 0, gs := 201 } : Obj) else o) = o'
  have hg : o'.gs = 201 := by
    subst ho
    by_cases h2 : o.gs = 200
    · rw [if_pos h2]
    · rw [if_neg h2]; omega
  have k := (consume_keep o' e).gs
  generalize o'.consume e = r at k
  obtain ⟨o2, g⟩ := r
  have k2 := k.trans hg
  cases g with
  | sos => exact Or.inr (Or.inl ⟨rfl, rfl⟩)
  | err => exact Or.inl rfl
  | susp => exact Or.inr (Or.inr ⟨k2, 0, by simp, rfl⟩)
  | eoi => exact Or.inr (Or.inr ⟨k2, 2, by simp, rfl⟩)
  | row => exact Or.inr (Or.inr ⟨k2, 3, by simp, rfl⟩)

theorem good_readHeader {o : Obj} {p : Phase} (hb : p ≠ .broken) (hr : Rel o p) (req : Bool) (e : In) : Good o p (.readHeader req e) := by
  have hp := hr.ph hb
  have main : (o.gs = 200 ∨ o.gs = 201) → o.alive = true → (∀ n, p.next (.readHeader req e, .ok n) = if n = 1 then .ready else if n = 2 then .idle else .header) →
      p.next (.readHeader req e, .err) = .broken → perm p (.readHeader req e) = .yes → Good o p (.readHeader req e) := by
    intro h1 h2 h3 h4 h5
    have hy : ∀ {r : Res}, r ≠ .badState → ArgsOk o (.readHeader req e) → (perm p (.readHeader req e) = .yes → r ≠ .badState) ∧
        (perm p (.readHeader req e) = .no → r = .badState) := fun h _ => ⟨fun _ => h, fun h => by rw [h5] at h; simp at h⟩
    have ha := (consumeInput_alive o e).trans h2
    have hc := consume_early o h1 e
    have hs : step o (.readHeader req e) = match o.consumeInput e with
      | (o, .ok 2) => if req then (o, .err) else (o.abort, .ok 2)
      | r => r := by
      simp only [step]
      rw [if_neg (by omega)]
      rfl
    generalize o.consumeInput e = r at hs hc ha
    obtain ⟨o', r⟩ := r
    rcases hc with hc | ⟨hc, hc2⟩ | ⟨hc2, n, hn, hc⟩
    · dsimp only at hc; subst hc
      exact good_eq hs (by rw [h4]; exact ha) (hy (by simp))
    · dsimp only at hc; subst hc
      exact good_eq hs (by rw [h3]; exact ⟨hc2, ha⟩) (hy (by simp))
    · dsimp only at hc; subst hc
      by_cases hn2 : n = 2
      · subst hn2
        cases req with
        | true => exact good_eq hs (by rw [h4]; exact ha) (hy (by simp))
        | false =>
          refine good_eq hs ?_ (hy (by simp))
          rw [h3]
          refine ⟨?_, (abort_alive o').trans ha⟩
          unfold Obj.abort
          rw [if_pos ha]
      · have : step o (.readHeader req e) = (o', .ok n) := by
          rw [hs]
          split
          · rename_i h; simp only [Prod.mk.injEq, Res.ok.injEq] at h; exact absurd h.2 hn2
          · rfl
        exact good_eq this (by rw [h3, if_neg hn, if_neg hn2]; exact ⟨hc2, ha⟩) (hy (by simp))
  phases hp
  case _ => exact good_bad hr (by simp only [step, hg]; rfl) rfl (by simp [perm])
  case _ => exact main (Or.inl hg) hr.2 (fun _ => rfl) rfl rfl
  case _ => exact main (Or.inr hg) hr.2 (fun _ => rfl) rfl rfl
  all_goals exact good_bad hr (by simp only [step, hg]; rfl) rfl (by simp [perm])

/-- Calls that are rejected or crash before the state is tested. -/
theorem good_reject {o : Obj} {p : Phase} {c : Call} (hr : Rel o p) (r : Res) (h : step o c = (o, r)) (h1 : p.next (c, r) = p)
    (h2 : ¬ ArgsOk o c) : Good o p c := good_eq h (by rw [h1]; exact hr) fun h => absurd h h2

theorem good_crop {o : Obj} {p : Phase} (hb : p ≠ .broken) (hr : Rel o p) (prec : Nat) (ok : Bool) : Good o p (.cropScanline prec ok) := by
  by_cases h1 : prec ≠ o.prec
  · exact good_reject hr .rejected (by simp only [step]; rw [if_pos h1]) rfl (fun h => h1 h.1)
  by_cases h2 : ¬ o.alive = true
  · exact good_reject hr .crash (by simp only [step]; rw [if_neg h1, if_pos h2]) rfl (fun h => h2 h.2.1)
  by_cases h3 : o.lossless = true
  · exact good_reject hr .rejected (by simp only [step]; rw [if_neg h1, if_neg h2, if_pos h3]) rfl (fun h => by
      have := h.2.2; rw [h3] at this; simp at this)
  have hs : step o (.cropScanline prec ok) = if (o.gs ≠ 205 ∧ o.gs ≠ 207) ∨ o.line ≠ 0 then (o, .badState) else (o, if ok then .ok 0 else .rejected) := by
    simp only [step]; rw [if_neg h1, if_neg h2, if_neg h3]
  have hbad : ((o.gs ≠ 205 ∧ o.gs ≠ 207) ∨ o.line ≠ 0) → perm p (.cropScanline prec ok) ≠ .yes → Good o p (.cropScanline prec ok) := by
    intro h5 h6
    exact good_bad hr (by rw [hs, if_pos h5]) rfl h6
  have hok : ¬((o.gs ≠ 205 ∧ o.gs ≠ 207) ∨ o.line ≠ 0) → perm p (.cropScanline prec ok) ≠ .no → Good o p (.cropScanline prec ok) := by
    intro h5 h6
    rw [if_neg h5] at hs
    cases ok
    · exact good_eq hs hr (fun _ => ⟨fun _ => by simp, fun h => absurd h h6⟩)
    · exact good_eq hs hr (fun _ => ⟨fun _ => by simp, fun h => absurd h h6⟩)
  have hp := hr.ph hb
  phases hp
  all_goals first
    | (refine hbad (Or.inl (by omega)) ?_; simp [perm]; done)
    | (refine hbad (Or.inl (by omega)) ?_; simp [perm, hc]; done)
    | skip
  · have hl : o.line = r := hr.2.2.2.2.2.1
    by_cases h5 : r = 0
    · exact hok (by omega) (by simp [perm, hc, h5])
    · exact hbad (by omega) (by simp [perm, h5])
  · have hl : o.line = r := hr.2.2.2.2.2.1
    by_cases h5 : r = 0
    · exact hok (by omega) (by simp [perm, hc, h5])
    · exact hbad (by omega) (by simp [perm, h5])
  · by_cases h5 : o.line = 0
    · exact hok (by omega) (by simp [perm])
    · exact hbad (by omega) (by simp [perm])

/-- Rows delivered. -/
theorem rel_rows {o o' : Obj} {p : Phase} {c : Cfg} {r n : Nat} (h : p = .output c r ∨ p = .bufOutput c r) (hr : Rel o p)
    (k : o'.gs = o.gs ∧ o'.alive = o.alive ∧ o'.buffered = o.buffered ∧ o'.raw = o.raw ∧ o'.height = o.height) (hl : o'.line = r + n)
    (hn : c.raw = false → r + n ≤ c.height) : Rel o' (p.rows n) := by
  obtain ⟨k1, k2, k3, k4, k5⟩ := k
  rcases h with rfl | rfl
  · obtain ⟨h1, h2, h3, h4, h5, -, -⟩ := hr
    exact ⟨k1.trans h1, k2.trans h2, k3.trans h3, k4.trans h4, k5.trans h5, hl, hn⟩
  · obtain ⟨h1, h2, h3, h4, h5, -, -⟩ := hr
    exact ⟨k1.trans h1, k2.trans h2, k3.trans h3, k4.trans h4, k5.trans h5, hl, hn⟩

theorem rel_out {o : Obj} {p : Phase} {c : Cfg} {r : Nat} (h : p = .output c r ∨ p = .bufOutput c r) (hr : Rel o p) :
    o.line = r ∧ o.height = c.height ∧ o.alive = true ∧ (c.raw = false → r ≤ c.height) := by
  rcases h with rfl | rfl
  · exact ⟨hr.2.2.2.2.2.1, hr.2.2.2.2.1, hr.2.1, hr.2.2.2.2.2.2⟩
  · exact ⟨hr.2.2.2.2.2.1, hr.2.2.2.2.1, hr.2.1, hr.2.2.2.2.2.2⟩

/-- In state 205 or 206 the phase is an output phase. -/
theorem out_of {o : Obj} {p : Phase} (hb : p ≠ .broken) (hr : Rel o p) (w : Bool) (hg : o.gs = if w then 206 else 205) :
    ∃ c r, c.raw = w ∧ (p = .output c r ∨ p = .bufOutput c r) := by
  have hp := hr.ph hb
  have hg0 := hg
  have : o.gs = 205 ∨ o.gs = 206 := by cases w <;> simp at hg0 <;> omega
  phases hp
  all_goals first | omega | skip
  all_goals
    refine ⟨c, r, ?_, by simp⟩
    cases w <;> simp at hg0 <;> first | exact hc | omega

theorem good_readScanlines {o : Obj} {p : Phase} (hb : p ≠ .broken) (hr : Rel o p) (prec n : Nat) (es : List In) (w : Option Nat) :
    Good o p (.readScanlines prec n es w) := by
  by_cases h1 : prec ≠ o.prec
  · exact good_reject hr .rejected (by simp only [step]; rw [if_pos h1]) rfl (fun h => h1 h)
  by_cases hg : o.gs = 205
  · obtain ⟨c, r, hc, hp⟩ := out_of hb hr false (by simpa using hg)
    obtain ⟨hl, hh, ha, hle⟩ := rel_out hp hr
    have hx : ∀ {x : Res}, x ≠ .badState → ArgsOk o (.readScanlines prec n es w) → (perm p (.readScanlines prec n es w) = .yes → x ≠ .badState) ∧
        (perm p (.readScanlines prec n es w) = .no → x = .badState) := by
      intro x hx _
      refine ⟨fun _ => hx, fun h => ?_⟩
      rcases hp with rfl | rfl <;> simp [perm, hc] at h
    have hn : ∀ m, p.next (.readScanlines prec n es w, .ok m) = p.rows m := fun m => rfl
    have k := feed_keep es o
    by_cases h5 : o.line ≥ o.height
    · refine good_eq (r := .ok 0) (o' := o) (by simp only [step]; rw [if_neg h1, if_neg (by omega), if_pos h5]) ?_ (hx (by simp))
      rw [hn]
      exact rel_rows hp hr ⟨rfl, rfl, rfl, rfl, rfl⟩ hl (by simpa using hle)
    · cases w with
      | none =>
        refine good_eq (r := .err) (o' := o.feed es) (by simp only [step]; rw [if_neg h1, if_neg (by omega), if_neg h5]) ?_ (hx (by simp))
        rcases hp with rfl | rfl <;> exact k.alive.trans ha
      | some m =>
        refine good_eq (by simp only [step]; rw [if_neg h1, if_neg (by omega), if_neg h5]) ?_ (hx (by simp))
        rw [hn]
        refine rel_rows hp hr ⟨k.gs, k.alive, k.buffered, k.raw, k.height⟩ ?_ ?_
        · show (o.feed es).line + _ = r + _
          rw [k.line, hl]
        · intro hf
          have := hle hf
          rw [k.line, k.height, hl, hh]
          omega
  · refine good_bad hr (by simp only [step]; rw [if_neg h1, if_pos hg]) rfl ?_
    intro h
    have hp := hr.ph hb
    phases hp
    all_goals first
      | omega
      | (simp [perm, hc] at h; done)
      | (simp [perm] at h; done)

theorem good_skip {o : Obj} {p : Phase} (hb : p ≠ .broken) (hr : Rel o p) (prec n : Nat) (es : List In) (ok : Bool) :
    Good o p (.skipScanlines prec n es ok) := by
  by_cases h1 : prec ≠ o.prec
  · exact good_reject hr .rejected (by simp only [step]; rw [if_pos h1]) rfl (fun h => h1 h.1)
  by_cases h2 : ¬ o.alive = true
  · exact good_reject hr .crash (by simp only [step]; rw [if_neg h1, if_pos h2]) rfl (fun h => h2 h.2.1)
  by_cases h3 : o.lossless = true
  · exact good_reject hr .rejected (by simp only [step]; rw [if_neg h1, if_neg h2, if_pos h3]) rfl (fun h => by
      have := h.2.2; rw [h3] at this; simp at this)
  by_cases hg : o.gs = 205
  · obtain ⟨c, r, hc, hp⟩ := out_of hb hr false (by simpa using hg)
    obtain ⟨hl, hh, ha, hle⟩ := rel_out hp hr
    have hx : ∀ {x : Res}, x ≠ .badState → ArgsOk o (.skipScanlines prec n es ok) → (perm p (.skipScanlines prec n es ok) = .yes → x ≠ .badState) ∧
        (perm p (.skipScanlines prec n es ok) = .no → x = .badState) := by
      intro x hx _
      refine ⟨fun _ => hx, fun h => ?_⟩
      rcases hp with rfl | rfl <;> simp [perm, hc] at h
    have hn : ∀ m, p.next (.skipScanlines prec n es ok, .ok m) = p.rows m := fun m => rfl
    have k := feed_keep es o
    have hle' := hle hc
    have h0 : step o (.skipScanlines prec n es ok) = if o.line + n ≥ o.height then ({ o with line := o.height, eoi := true }, .ok (o.height - o.line))
        else if ok then ({ o.feed es with line := (o.feed es).line + n }, .ok n) else (o.feed es, .err) := by
      simp only [step]; rw [if_neg h1, if_neg h2, if_neg h3, if_neg (by omega)]
    by_cases h5 : o.line + n ≥ o.height
    · rw [if_pos h5] at h0
      refine good_eq h0 ?_ (hx (by simp))
      rw [hn]
      refine rel_rows hp hr ⟨rfl, rfl, rfl, rfl, rfl⟩ ?_ ?_
      · show o.height = r + (o.height - o.line)
        rw [hl]; omega
      · intro _; omega
    · rw [if_neg h5] at h0
      cases ok with
      | false =>
        refine good_eq h0 ?_ (hx (by simp))
        rcases hp with rfl | rfl <;> exact k.alive.trans ha
      | true =>
        refine good_eq h0 ?_ (hx (by simp))
        rw [hn]
        refine rel_rows hp hr ⟨k.gs, k.alive, k.buffered, k.raw, k.height⟩ ?_ ?_
        · show (o.feed es).line + n = r + n
          rw [k.line, hl]
        · intro _; omega
  · refine good_bad hr (by simp only [step]; rw [if_neg h1, if_neg h2, if_neg h3, if_pos hg]) rfl ?_
    intro h
    have hp := hr.ph hb
    phases hp
    all_goals first
      | omega
      | (simp [perm, hc] at h; done)
      | (simp [perm] at h; done)

theorem good_readRaw {o : Obj} {p : Phase} (hb : p ≠ .broken) (hr : Rel o p) (prec n per : Nat) (es : List In) (w : Option Bool) :
    Good o p (.readRaw prec n per es w) := by
  by_cases h1 : prec ≠ o.prec
  · exact good_reject hr .rejected (by simp only [step]; rw [if_pos h1]) rfl (fun h => h1 h.1)
  by_cases h2 : ¬ o.alive = true
  · exact good_reject hr .crash (by simp only [step]; rw [if_neg h1, if_pos h2]) rfl (fun h => h2 h.2.1)
  by_cases h3 : o.lossless = true
  · exact good_reject hr .rejected (by simp only [step]; rw [if_neg h1, if_neg h2, if_pos h3]) rfl (fun h => by
      have := h.2.2; rw [h3] at this; simp at this)
  by_cases hg : o.gs = 206
  · obtain ⟨c, r, hc, hp⟩ := out_of hb hr true (by simpa using hg)
    obtain ⟨hl, hh, ha, hle⟩ := rel_out hp hr
    have hx : ∀ {x : Res}, x ≠ .badState → ArgsOk o (.readRaw prec n per es w) → (perm p (.readRaw prec n per es w) = .yes → x ≠ .badState) ∧
        (perm p (.readRaw prec n per es w) = .no → x = .badState) := by
      intro x hx _
      refine ⟨fun _ => hx, fun h => ?_⟩
      rcases hp with rfl | rfl <;> simp [perm, hc] at h
    have hn : ∀ m, p.next (.readRaw prec n per es w, .ok m) = p.rows m := fun m => rfl
    have k := feed_keep es o
    have hf : ∀ m, c.raw = false → r + m ≤ c.height := fun m h => by rw [hc] at h; simp at h
    by_cases h5 : o.line ≥ o.height
    · refine good_eq (r := .ok 0) (o' := o) (by simp only [step]; rw [if_neg h1, if_neg h2, if_neg h3, if_neg (by omega), if_pos h5]) ?_ (hx (by simp))
      rw [hn]
      exact rel_rows hp hr ⟨rfl, rfl, rfl, rfl, rfl⟩ hl (hf _)
    by_cases h6 : n < per
    · refine good_eq (r := .rejected) (o' := o) (by simp only [step]; rw [if_neg h1, if_neg h2, if_neg h3, if_neg (by omega), if_neg h5, if_pos h6]) hr (hx (by simp))
    cases w with
    | none =>
      refine good_eq (r := .err) (o' := o.feed es) (by simp only [step]; rw [if_neg h1, if_neg h2, if_neg h3, if_neg (by omega), if_neg h5, if_neg h6]) ?_ (hx (by simp))
      rcases hp with rfl | rfl <;> exact k.alive.trans ha
    | some b =>
      cases b with
      | false =>
        refine good_eq (r := .ok 0) (o' := o.feed es) (by simp only [step]; rw [if_neg h1, if_neg h2, if_neg h3, if_neg (by omega), if_neg h5, if_neg h6]) ?_ (hx (by simp))
        rw [hn]
        exact rel_rows hp hr ⟨k.gs, k.alive, k.buffered, k.raw, k.height⟩ (k.line.trans hl) (hf _)
      | true =>
        refine good_eq (r := .ok per) (o' := { o.feed es with line := (o.feed es).line + per }) (by simp only [step]; rw [if_neg h1, if_neg h2, if_neg h3, if_neg (by omega), if_neg h5, if_neg h6]) ?_ (hx (by simp))
        rw [hn]
        refine rel_rows hp hr ⟨k.gs, k.alive, k.buffered, k.raw, k.height⟩ ?_ (hf _)
        show (o.feed es).line + per = r + per
        rw [k.line, hl]
  · refine good_bad hr (by simp only [step]; rw [if_neg h1, if_neg h2, if_neg h3, if_pos hg]) rfl ?_
    intro h
    have hp := hr.ph hb
    phases hp
    all_goals first
      | omega
      | (simp [perm, hc] at h; done)
      | (simp [perm] at h; done)

/-- A pass is being set up. -/
theorem rel_setup {o o' : Obj} {x : Res} {c : Cfg} {buf : Bool} (ha : o.alive = true) (hb : o.buffered = buf) (hr : o.raw = c.raw) (hh : o.height = c.height)
    (h : (x = .err ∧ o'.alive = o.alive) ∨
      (x = .ok 0 ∧ (o'.gs = 203 ∨ o'.gs = 204) ∧ o'.alive = o.alive ∧ o'.buffered = o.buffered ∧ o'.raw = o.raw ∧ o'.height = o.height) ∨
      (x = .ok 1 ∧ o'.gs = (if o.raw then 206 else 205) ∧ o'.alive = o.alive ∧ o'.buffered = o.buffered ∧ o'.raw = o.raw ∧ o'.height = o.height ∧
        o'.line = 0)) :
    (x = .err ∧ Rel o' .broken) ∨
    (x = .ok 0 ∧ (buf = false → Rel o' (.starting c)) ∧ (buf = true → o'.gs = 204 → Rel o' (.bufStarting c))) ∨
    (x = .ok 1 ∧ (buf = false → Rel o' (.output c 0)) ∧ (buf = true → Rel o' (.bufOutput c 0))) := by
  rcases h with ⟨h1, h2⟩ | ⟨h1, h2, h3, h4, h5, h6⟩ | ⟨h1, h2, h3, h4, h5, h6, h7⟩
  · exact Or.inl ⟨h1, h2.trans ha⟩
  · exact Or.inr (Or.inl ⟨h1, fun e => ⟨h2, h3.trans ha, (h4.trans hb).trans e, h5.trans hr, h6.trans hh⟩,
      fun e h => ⟨h, h3.trans ha, (h4.trans hb).trans e, h5.trans hr, h6.trans hh⟩⟩)
  · rw [hr] at h2
    exact Or.inr (Or.inr ⟨h1, fun e => ⟨h2, h3.trans ha, (h4.trans hb).trans e, h5.trans hr, h6.trans hh, h7, fun _ => Nat.zero_le _⟩,
      fun e => ⟨h2, h3.trans ha, (h4.trans hb).trans e, h5.trans hr, h6.trans hh, h7, fun _ => Nat.zero_le _⟩⟩)

theorem passSetup_weak (o : Obj) (es : List In) (w : Setup) :
    ((o.passSetup es w).2 = .err ∧ (o.passSetup es w).1.alive = o.alive) ∨
    ((o.passSetup es w).2 = .ok 0 ∧ ((o.passSetup es w).1.gs = 203 ∨ (o.passSetup es w).1.gs = 204) ∧ (o.passSetup es w).1.alive = o.alive ∧
      (o.passSetup es w).1.buffered = o.buffered ∧ (o.passSetup es w).1.raw = o.raw ∧ (o.passSetup es w).1.height = o.height) ∨
    ((o.passSetup es w).2 = .ok 1 ∧ (o.passSetup es w).1.gs = (if o.raw then 206 else 205) ∧ (o.passSetup es w).1.alive = o.alive ∧
      (o.passSetup es w).1.buffered = o.buffered ∧ (o.passSetup es w).1.raw = o.raw ∧ (o.passSetup es w).1.height = o.height ∧
      (o.passSetup es w).1.line = 0) := by
  rcases passSetup_spec o es w with h | h | h
  · exact Or.inl h
  · exact Or.inr (Or.inl ⟨h.1, Or.inr h.2.1, h.2.2⟩)
  · exact Or.inr (Or.inr h)

theorem good_setup {o : Obj} {p : Phase} {c : Call} {q : Obj × Res} (h0 : step o c = q)
    (h : (q.2 = .err ∧ Rel q.1 .broken) ∨ (q.2 = .ok 0 ∧ Rel q.1 (p.next (c, .ok 0))) ∨ (q.2 = .ok 1 ∧ Rel q.1 (p.next (c, .ok 1))))
    (he : p.next (c, .err) = .broken) (hn : perm p c ≠ .no) : Good o p c := by
  obtain ⟨o', x⟩ := q
  rcases h with ⟨e, h⟩ | ⟨e, h⟩ | ⟨e, h⟩
  · dsimp only at e; subst e
    exact good_eq h0 (by rw [he]; exact h) (fun _ => ⟨fun _ => by simp, fun h => absurd h hn⟩)
  · dsimp only at e; subst e
    exact good_eq h0 h (fun _ => ⟨fun _ => by simp, fun h => absurd h hn⟩)
  · dsimp only at e; subst e
    exact good_eq h0 h (fun _ => ⟨fun _ => by simp, fun h => absurd h hn⟩)

theorem good_startDecompress {o : Obj} {p : Phase} (hb : p ≠ .broken) (hr : Rel o p) (c : Cfg) (ok : Bool) (es : List In) (w : Setup) :
    Good o p (.startDecompress c ok es w) := by
  have hp := hr.ph hb
  rcases hp with ⟨hg, rfl⟩ | ⟨hg, rfl⟩ | ⟨hg, rfl⟩ | ⟨hg, rfl⟩ | ⟨hg, d, rfl⟩ | ⟨hg, ⟨d, rfl⟩ | ⟨d, rfl⟩⟩ |
      ⟨hg, d, r, hc, rfl | rfl⟩ | ⟨hg, d, r, hc, rfl | rfl⟩ | ⟨hg, d, rfl⟩ | ⟨hg, d, rfl⟩ | ⟨hg, rfl⟩ | ⟨hg, b, rfl⟩
  all_goals first
    | exact good_bad hr (by simp only [step, hg]; rfl) rfl (by simp [perm])
    | skip
  · -- ready
    cases ok with
    | false => exact good_setup (q := (o, .err)) (by simp [step, hg]) (Or.inl ⟨rfl, hr.2⟩) rfl (by simp [perm])
    | true =>
      cases hcb : c.buffered with
      | true =>
        refine good_setup (q := ({ o with buffered := c.buffered, raw := c.raw, height := c.height, gs := 207 }, .ok 1)) (by simp [step, hg, hcb])
          (Or.inr (Or.inr ⟨rfl, ?_⟩)) rfl (by simp [perm])
        simp only [Phase.next, hcb, if_true]
        exact ⟨rfl, hr.2, rfl, rfl, rfl⟩
      | false =>
        refine good_setup (q := step.preload { o with buffered := c.buffered, raw := c.raw, height := c.height, gs := 203 } es w)
          (by simp [step, hg, hcb]) ?_ rfl (by simp [perm])
        simp only [Phase.next, hcb, Bool.false_eq_true, if_false]
        rcases rel_setup (o := { o with buffered := false, raw := c.raw, height := c.height, gs := 203 }) (c := c) (buf := false) hr.2 rfl rfl rfl
          (preload_spec { o with buffered := false, raw := c.raw, height := c.height, gs := 203 } rfl es w) with h | ⟨h, h2, -⟩ | ⟨h, h2, -⟩
        · exact Or.inl h
        · exact Or.inr (Or.inl ⟨h, h2 rfl⟩)
        · exact Or.inr (Or.inr ⟨h, h2 rfl⟩)
  · -- PRELOAD
    refine good_setup (q := step.preload o es w) (by simp [step, hg]) ?_ rfl (by simp [perm])
    rcases rel_setup (c := d) (buf := false) hr.2.1 hr.2.2.1 hr.2.2.2.1 hr.2.2.2.2 (preload_spec o hg es w) with h | ⟨h, h2, -⟩ | ⟨h, h2, -⟩
    · exact Or.inl h
    · exact Or.inr (Or.inl ⟨h, h2 rfl⟩)
    · exact Or.inr (Or.inr ⟨h, h2 rfl⟩)
  · -- PRESCAN
    refine good_setup (q := o.passSetup es w) (by simp [step, hg]) ?_ rfl (by simp [perm])
    rcases rel_setup (c := d) (buf := false) hr.2.1 hr.2.2.1 hr.2.2.2.1 hr.2.2.2.2 (passSetup_weak o es w) with h | ⟨h, h2, -⟩ | ⟨h, h2, -⟩
    · exact Or.inl h
    · exact Or.inr (Or.inl ⟨h, h2 rfl⟩)
    · exact Or.inr (Or.inr ⟨h, h2 rfl⟩)
  · -- PRESCAN of jpeg_start_output
    refine good_setup (q := o.passSetup es w) (by simp [step, hg]) ?_ rfl (by simp [perm])
    rcases passSetup_spec o es w with h | h | h
    · exact Or.inl ⟨h.1, h.2.trans hr.2.1⟩
    · exact Or.inr (Or.inl ⟨h.1, h.2.2.1.trans hr.2.1⟩)
    · exact Or.inr (Or.inr ⟨h.1, h.2.2.1.trans hr.2.1⟩)

theorem good_startOutput {o : Obj} {p : Phase} (hb : p ≠ .broken) (hr : Rel o p) (scan : Nat) (es : List In) (w : Setup) :
    Good o p (.startOutput scan es w) := by
  have hs : (o.gs = 207 ∨ o.gs = 204) → ∃ t, step o (.startOutput scan es w) = Obj.passSetup { o with outsc := t } es w := by
    intro h
    refine ⟨if o.eoi = true ∧ (if scan = 0 then 1 else scan) > o.insc then o.insc else if scan = 0 then 1 else scan, ?_⟩
    simp only [step]
    rw [if_neg (by omega)]
  have hp := hr.ph hb
  have fin : ∀ c, (o.gs = 207 ∨ o.gs = 204) → o.alive = true → o.buffered = true → o.raw = c.raw → o.height = c.height →
      (∀ n, p.next (.startOutput scan es w, .ok n) = if n = 1 then .bufOutput c 0 else .bufStarting c) →
      p.next (.startOutput scan es w, .err) = .broken → perm p (.startOutput scan es w) ≠ .no → Good o p (.startOutput scan es w) := by
    intro c h1 h2 h3 h4 h5 h6 h7 h8
    obtain ⟨t, h0⟩ := hs h1
    refine good_setup h0 ?_ h7 h8
    rw [h6, h6]
    have h204 := passSetup_spec { o with outsc := t } es w
    rcases rel_setup (o := { o with outsc := t }) (c := c) (buf := true) h2 h3 h4 h5 (passSetup_weak { o with outsc := t } es w) with h | ⟨h, -, hh⟩ | ⟨h, -, hh⟩
    · exact Or.inl h
    · refine Or.inr (Or.inl ⟨h, hh rfl ?_⟩)
      rcases h204 with x | x | x
      · rw [h] at x; simp at x
      · exact x.2.1
      · rw [h] at x; simp at x
    · exact Or.inr (Or.inr ⟨h, hh rfl⟩)
  phases hp
  all_goals first
    | exact good_bad hr (by simp only [step, hg]; rfl) rfl (by simp [perm])
    | skip
  · obtain ⟨t, h0⟩ := hs (Or.inr hg)
    refine good_setup h0 ?_ rfl (by simp [perm])
    rcases passSetup_spec { o with outsc := t } es w with h | h | h
    · exact Or.inl ⟨h.1, h.2.trans hr.2.1⟩
    · exact Or.inr (Or.inl ⟨h.1, h.2.2.1.trans hr.2.1⟩)
    · exact Or.inr (Or.inr ⟨h.1, h.2.2.1.trans hr.2.1⟩)
  · exact fin c (Or.inr hg) hr.2.1 hr.2.2.1 hr.2.2.2.1 hr.2.2.2.2 (fun _ => rfl) rfl (by simp [perm])
  · exact fin c (Or.inl hg) hr.2.1 hr.2.2.1 hr.2.2.2.1 hr.2.2.2.2 (fun _ => rfl) rfl (by simp [perm])

theorem good_finishOutput {o : Obj} {p : Phase} (hb : p ≠ .broken) (hr : Rel o p) (es : List In) : Good o p (.finishOutput es) := by
  have hp := hr.ph hb
  have fin : ∀ c, ((o.gs = 205 ∨ o.gs = 206) ∨ o.gs = 208) → o.alive = true → o.buffered = true → o.raw = c.raw → o.height = c.height →
      (∀ n, p.next (.finishOutput es, .ok n) = if n = 1 then .buf c else .bufPost c) →
      p.next (.finishOutput es, .err) = .broken → perm p (.finishOutput es) ≠ .no → Good o p (.finishOutput es) := by
    intro c h1 h2 h3 h4 h5 h6 h7 h8
    have k := absorbScan_keep es { o with gs := 208 }
    have h0 : step o (.finishOutput es) = match ({ o with gs := 208 } : Obj).absorbScan es with
      | (o, .susp) => (o, .ok 0)
      | (o, .err) => (o, .err)
      | (o, _) => ({ o with gs := 207 }, .ok 1) := by
      simp only [step]
      rw [if_pos (by rw [h3]; simpa using h1)]
      rfl
    generalize ({ o with gs := 208 } : Obj).absorbScan es = q at h0 k
    obtain ⟨o', g⟩ := q
    refine good_setup h0 ?_ h7 h8
    rw [h6, h6]
    have kk : o'.alive = true ∧ o'.buffered = true ∧ o'.raw = c.raw ∧ o'.height = c.height :=
      ⟨k.alive.trans h2, k.buffered.trans h3, k.raw.trans h4, k.height.trans h5⟩
    cases g with
    | susp => exact Or.inr (Or.inl ⟨rfl, k.gs, kk⟩)
    | err => exact Or.inl ⟨rfl, kk.1⟩
    | sos => exact Or.inr (Or.inr ⟨rfl, rfl, kk⟩)
    | eoi => exact Or.inr (Or.inr ⟨rfl, rfl, kk⟩)
    | row => exact Or.inr (Or.inr ⟨rfl, rfl, kk⟩)
  phases hp
  all_goals first
    | exact good_bad hr (by simp only [step, hg]; rfl) rfl (by simp [perm])
    | skip
  · exact good_bad hr (by simp [step, hg, hr.2.2.1]) rfl (by simp [perm])
  · exact fin c (by omega) hr.2.1 hr.2.2.1 hr.2.2.2.1 hr.2.2.2.2.1 (fun _ => rfl) rfl (by simp [perm])
  · exact good_bad hr (by simp [step, hg, hr.2.2.1]) rfl (by simp [perm])
  · exact fin c (by omega) hr.2.1 hr.2.2.1 hr.2.2.2.1 hr.2.2.2.2.1 (fun _ => rfl) rfl (by simp [perm])
  · exact fin c (by omega) hr.2.1 hr.2.2.1 hr.2.2.2.1 hr.2.2.2.2 (fun _ => rfl) rfl (by simp [perm])

theorem good_finishDecompress {o : Obj} {p : Phase} (hb : p ≠ .broken) (hr : Rel o p) (es : List In) : Good o p (.finishDecompress es) := by
  have hp := hr.ph hb
  have fin : ∀ b, ¬((o.gs = 205 ∨ o.gs = 206) ∧ o.buffered = false ∧ o.line < o.height) →
      (((o.gs = 205 ∨ o.gs = 206) ∧ o.buffered = false) ∨ o.gs = 207 ∨ o.gs = 210) → o.alive = true → o.buffered = b →
      p.next (.finishDecompress es, .ok 1) = .idle → p.next (.finishDecompress es, .ok 0) = .done b →
      p.next (.finishDecompress es, .err) = .broken → perm p (.finishDecompress es) ≠ .no → Good o p (.finishDecompress es) := by
    intro b h0 h1 h2 h3 h5 h6 h7 h8
    have k := absorb_keep es { o with gs := 210 }
    have h0 : step o (.finishDecompress es) = match ({ o with gs := 210 } : Obj).absorb es with
      | (o, .eoi) => (o.abort, .ok 1)
      | (o, .err) => (o, .err)
      | (o, _) => (o, .ok 0) := by
      simp only [step]
      rw [if_neg h0, if_pos h1]
      rfl
    generalize ({ o with gs := 210 } : Obj).absorb es = q at h0 k
    obtain ⟨o', g⟩ := q
    refine good_setup h0 ?_ h7 h8
    rw [h5, h6]
    have ha := k.alive.trans h2
    cases g with
    | susp => exact Or.inr (Or.inl ⟨rfl, k.gs, ha, k.buffered.trans h3⟩)
    | err => exact Or.inl ⟨rfl, ha⟩
    | sos => exact Or.inr (Or.inl ⟨rfl, k.gs, ha, k.buffered.trans h3⟩)
    | eoi =>
      refine Or.inr (Or.inr ⟨rfl, ?_, (abort_alive o').trans ha⟩)
      show o'.abort.gs = 200
      unfold Obj.abort; rw [if_pos ha]
    | row => exact Or.inr (Or.inl ⟨rfl, k.gs, ha, k.buffered.trans h3⟩)
  have out : ∀ c r, p = .output c r → (o.gs = 205 ∨ o.gs = 206) → Good o p (.finishDecompress es) := by
    rintro c r rfl hg
    have hbf : o.buffered = false := hr.2.2.1
    by_cases hl : o.line < o.height
    · exact good_eq (r := .rejected) (o' := o) (by simp only [step]; rw [if_pos ⟨hg, hbf, hl⟩]) hr
        (fun _ => ⟨fun _ => by simp, fun h => by simp [perm] at h⟩)
    · exact fin false (fun h => hl h.2.2) (Or.inl ⟨hg, hbf⟩) hr.2.1 hbf rfl rfl rfl (by simp [perm])
  phases hp
  all_goals first
    | exact good_bad hr (by simp only [step, hg]; rfl) rfl (by simp [perm])
    | exact out c r rfl (by omega)
    | skip
  · exact good_bad hr (by simp [step, hg, hr.2.2.1]) rfl (by simp [perm])
  · exact good_bad hr (by simp [step, hg, hr.2.2.1]) rfl (by simp [perm])
  · exact fin true (by omega) (by omega) hr.2.1 hr.2.2.1 rfl rfl rfl (by simp [perm])
  · exact fin b (by omega) (by omega) hr.2.1 hr.2.2 rfl rfl rfl (by simp [perm])

theorem good_readCoefs {o : Obj} {p : Phase} (hb : p ≠ .broken) (hr : Rel o p) (ok : Bool) (es : List In) : Good o p (.readCoefs ok es) := by
  by_cases h2 : ¬ o.alive = true
  · exact good_reject hr .crash (by simp only [step]; rw [if_pos h2]) rfl (fun h => h2 h.1)
  by_cases h3 : o.lossless = true
  · exact good_reject hr .rejected (by simp only [step]; rw [if_neg h2, if_pos h3]) rfl (fun h => by
      have := h.2; rw [h3] at this; simp at this)
  have ha : o.alive = true := by simpa using h2
  have fin : (o.gs = 202 ∧ ok = true) ∨ (o.gs = 209 ∧ o.buffered = true) →
      (∀ n, p.next (.readCoefs ok es, .ok n) = if n = 1 then .done true else .coefs) →
      p.next (.readCoefs ok es, .err) = .broken → perm p (.readCoefs ok es) ≠ .no → Good o p (.readCoefs ok es) := by
    intro h1 h6 h7 h8
    have h0 : step o (.readCoefs ok es) = match ({ o with gs := 209, buffered := true } : Obj).absorb es with
      | (o, .eoi) => ({ o with gs := 210 }, if o.buffered then .ok 1 else .badState)
      | (o, .err) => (o, .err)
      | (o, _) => (o, .ok 0) := by
      have e : (if o.gs = 202 then true else o.buffered) = true := by
        rcases h1 with h | h
        · rw [if_pos h.1]
        · rw [if_neg (by omega)]; exact h.2
      simp only [step]
      rw [if_neg h2, if_neg h3, if_neg (fun h => by rcases h1 with x | x; exact h.2 x.2; omega), if_pos (by omega), e]
      rfl
    have k := absorb_keep es { o with gs := 209, buffered := true }
    generalize ({ o with gs := 209, buffered := true } : Obj).absorb es = q at h0 k
    obtain ⟨o', g⟩ := q
    refine good_setup h0 ?_ h7 h8
    rw [h6, h6]
    have hbf : o'.buffered = true := k.buffered
    cases g with
    | susp => exact Or.inr (Or.inl ⟨rfl, k.gs, k.alive.trans ha, hbf⟩)
    | err => exact Or.inl ⟨rfl, k.alive.trans ha⟩
    | sos => exact Or.inr (Or.inl ⟨rfl, k.gs, k.alive.trans ha, hbf⟩)
    | row => exact Or.inr (Or.inl ⟨rfl, k.gs, k.alive.trans ha, hbf⟩)
    | eoi =>
      refine Or.inr (Or.inr ⟨?_, rfl, k.alive.trans ha, hbf⟩)
      show (if o'.buffered = true then Res.ok 1 else .badState) = _
      rw [if_pos hbf]
  have hp := hr.ph hb
  phases hp
  all_goals first
    | (refine good_bad hr (by simp only [step, hg]; rw [if_neg h2, if_neg h3]; rfl) rfl ?_; simp [perm]; done)
    | skip
  · cases ok with
    | true => exact fin (Or.inl ⟨hg, rfl⟩) (fun _ => rfl) rfl (by simp [perm])
    | false =>
      exact good_setup (q := ({ o with buffered := true }, .err)) (by simp only [step]; rw [if_neg h2, if_neg h3, if_pos ⟨hg, by simp⟩])
        (Or.inl ⟨rfl, ha⟩) rfl (by simp [perm])
  · exact good_eq (r := .ok 1) (o' := o) (by simp only [step, hg, hr.2.2.1]; rw [if_neg h2, if_neg h3]; rfl) hr
      (fun _ => ⟨fun _ => by simp, fun h => by simp [perm] at h⟩)
  · exact fin (Or.inr ⟨hg, hr.2.2⟩) (fun _ => rfl) rfl (by simp [perm])
  · cases b with
    | true =>
      refine good_eq (r := .ok 1) (o' := o) ?_ ?_ (fun _ => ⟨fun _ => by simp, fun h => by simp [perm] at h⟩)
      · simp only [step, hg, hr.2.2]; rw [if_neg h2, if_neg h3]; rfl
      · exact hr
    | false => exact good_bad hr (by simp only [step, hg, hr.2.2]; rw [if_neg h2, if_neg h3]; rfl) rfl (by simp [perm])

/-- Every call, in every phase. -/
theorem step_good {o : Obj} {p : Phase} (hb : p ≠ .broken) (hr : Rel o p) (c : Call) : Good o p c := by
  cases c with
  | create => exact good_eq (r := .ok 0) (o' := .fresh) rfl ⟨rfl, rfl⟩ (fun _ => ⟨fun _ => by simp, fun h => by simp [perm] at h⟩)
  | destroy => exact good_eq (r := .ok 0) (o' := o.destroy) rfl ⟨rfl, rfl⟩ (fun _ => ⟨fun _ => by simp, fun h => by simp [perm] at h⟩)
  | abort =>
    refine good_eq (r := .ok 0) (o' := o.abort) rfl ?_ (fun _ => ⟨fun _ => by simp, fun h => by simp [perm] at h⟩)
    by_cases hp : p = .gone
    · subst hp
      have : o.abort = o := by unfold Obj.abort; rw [if_neg (by simp [hr.2])]
      rw [this]; exact hr
    · have ha := hr.alive hp
      simp only [Phase.next, if_neg hp]
      refine ⟨?_, (abort_alive o).trans ha⟩
      unfold Obj.abort; rw [if_pos ha]
  | readHeader req e => exact good_readHeader hb hr req e
  | consumeInput e => exact good_consumeInput hb hr e
  | inputComplete => exact good_look hb hr _ (Or.inl rfl)
  | hasMultipleScans => exact good_look hb hr _ (Or.inr (Or.inl rfl))
  | readIcc => exact good_look hb hr _ (Or.inr (Or.inr rfl))
  | calcDims ok => exact good_calcDims hb hr ok
  | startDecompress c ok es w => exact good_startDecompress hb hr c ok es w
  | readScanlines p n es w => exact good_readScanlines hb hr p n es w
  | skipScanlines p n es ok => exact good_skip hb hr p n es ok
  | readRaw p n per es w => exact good_readRaw hb hr p n per es w
  | cropScanline p ok => exact good_crop hb hr p ok
  | startOutput s es w => exact good_startOutput hb hr s es w
  | finishOutput es => exact good_finishOutput hb hr es
  | newColormap ok => exact good_newColormap hb hr ok
  | finishDecompress es => exact good_finishDecompress hb hr es
  | readCoefs ok es => exact good_readCoefs hb hr ok es

theorem step_rel {o : Obj} {h : List Event} (hr : Rel o (phase h)) (c : Call) : Rel (step o c).1 (phase ((c, (step o c).2) :: h)) := by
  by_cases hb : phase h = .broken
  · rw [hb] at hr
    simp only [phase, hb, if_true]
    cases c with
    | create => exact ⟨rfl, rfl⟩
    | destroy => exact ⟨rfl, rfl⟩
    | abort =>
      have ha : o.alive = true := hr
      refine ⟨?_, (abort_alive o).trans ha⟩
      simp only [step]
      unfold Obj.abort; rw [if_pos ha]
    | _ => exact step_alive o _ (by simp) hr
  · rw [phase_next hb]
    exact (step_good hb hr c).1

theorem run_rel {o : Obj} {h : List Event} (hr : Rel o (phase h)) (cs : List Call) : Rel (run o h cs).1 (phase (run o h cs).2) := by
  induction cs generalizing o h with
  | nil => exact hr
  | cons c cs ih => exact ih (step_rel hr c)

theorem history_rel (cs : List Call) : Rel (history cs).1 (phase (history cs).2) := run_rel (o := .fresh) (h := []) (show Rel .fresh .idle from ⟨rfl, rfl⟩) cs

end Verif.Api.D
