import Verif.Huff.Feed
/-
C09 for the sequential Huffman decoder, C48.
-/
namespace Verif.Huff

open Rst (codes verdict Verdict)

/-! ### Markers ahead -/

theorem codes_suffix : ∀ l : List Nat, ∀ x ∈ codes l, x.2 <:+ l := by
  intro l
  induction l using codes.induct with
  | case1 a b r h ih =>
    rw [codes, if_pos h]
    intro x hx
    rcases List.mem_cons.1 hx with rfl | hx
    · exact ⟨[a, b], rfl⟩
    · exact (ih x hx).trans ⟨[a, b], rfl⟩
  | case2 a b r h ih =>
    rw [codes, if_neg h]
    intro x hx
    exact (ih x hx).trans ⟨[a], rfl⟩
  | case3 l h => rw [codes.eq_2 _ (by intro a b r e; exact h a b r e)]; simp

/-- The markers after a marker ahead are the rest of the list. -/
theorem codes_after : ∀ l : List Nat, ∀ (a : List (Nat × List Nat)) (x : Nat × List Nat) (b : List (Nat × List Nat)),
    codes l = a ++ x :: b → b = codes x.2 := by
  intro l
  induction l using codes.induct with
  | case1 a b r h ih =>
    rw [codes, if_pos h]
    intro p x q e
    cases p with
    | nil => simp only [List.nil_append, List.cons.injEq] at e; rw [← e.2, ← e.1]
    | cons y p => simp only [List.cons_append, List.cons.injEq] at e; exact ih p x q e.2
  | case2 a b r h ih =>
    rw [codes, if_neg h]
    exact ih
  | case3 l h => rw [codes.eq_2 _ (by intro a b r e; exact h a b r e)]; intro p x q e; simp at e

theorem cands_after {m : Nat} {l : List Nat} {a : List (Nat × List Nat)} {x : Nat × List Nat} {b : List (Nat × List Nat)}
    (h : cands m l = a ++ x :: b) : b = codes x.2 := by
  unfold cands at h
  split at h
  · exact codes_after l a x b h
  · cases a with
    | nil => simp only [List.nil_append, List.cons.injEq] at h; rw [← h.2, ← h.1]
    | cons y p => simp only [List.cons_append, List.cons.injEq] at h; exact codes_after l p x b h.2

/-- An end-of-image marker is ahead. -/
def Live (m : Nat) (bytes : List Nat) : Prop := ∃ y, (0xD9, y) ∈ cands m bytes

theorem verdict_eoi (num : Nat) : verdict num 0xD9 = .leave := by
  unfold verdict; simp

theorem live_data (x y : List Nat) : Live 0 (x ++ 0xFF :: 0xD9 :: y) := by
  refine ⟨y, ?_⟩
  show (0xD9, y) ∈ codes _
  induction x using codes.induct with
  | case1 a b r h ih =>
    rw [List.cons_append, List.cons_append, codes, if_pos h]
    exact List.mem_cons_of_mem _ ih
  | case2 a b r h ih =>
    rw [List.cons_append, List.cons_append, codes, if_neg h]
    exact ih
  | case3 l h =>
    have key : (0xD9, y) ∈ codes (0xFF :: 0xD9 :: y) := by
      rw [codes, if_pos ⟨rfl, by decide, by decide⟩]; exact List.mem_cons_self
    match l, h with
    | [], _ => exact key
    | [a], _ =>
      simp only [List.cons_append, List.nil_append]
      rw [codes, if_neg (by simp)]
      exact key
    | a :: b :: r, h => exact absurd rfl (h a b r)

/-- What read_restart_marker leaves: unread_marker and the bytes after it. -/
def outc (num m : Nat) (bytes : List Nat) : Option (Nat × List Nat) :=
  (pick num m bytes).map fun x => (if verdict num x.1 = .discard then 0 else x.1, x.2)

theorem outc_live {num m : Nat} {bytes : List Nat} (h : Live m bytes) :
    ∃ m' rest, outc num m bytes = some (m', rest) ∧ Live m' rest := by
  obtain ⟨y, hy⟩ := h
  cases hp : pick num m bytes with
  | none =>
    unfold pick at hp
    rw [List.find?_eq_none] at hp
    have := hp _ hy
    simp [verdict_eoi] at this
  | some x =>
    refine ⟨_, _, by unfold outc; rw [hp]; rfl, ?_⟩
    unfold pick at hp
    rw [List.find?_eq_some_iff_append] at hp
    obtain ⟨h1, as, bs, h2, h3⟩ := hp
    have haft := cands_after h2
    rw [h2, List.mem_append, List.mem_cons] at hy
    have hnot : (0xD9, y) ∉ as := by
      intro hh
      have := h3 _ hh
      simp [verdict_eoi] at this
    rcases hy with hy | rfl | hy
    · exact absurd hy hnot
    · refine ⟨y, ?_⟩
      simp [verdict_eoi, cands]
    · refine ⟨y, ?_⟩
      rw [haft] at hy
      generalize (if verdict num x.1 = .discard then 0 else x.1) = q
      unfold cands
      split
      · exact hy
      · exact List.mem_cons_of_mem _ hy

theorem cands_suffix {m : Nat} {l : List Nat} : ∀ x ∈ cands m l, x.2 <:+ l := by
  intro x hx
  unfold cands at hx
  split at hx
  · exact codes_suffix l x hx
  · rcases List.mem_cons.1 hx with rfl | hx
    · exact List.suffix_rfl
    · exact codes_suffix l x hx

theorem outc_suffix {num m m' : Nat} {bytes rest : List Nat} (h : outc num m bytes = some (m', rest)) : rest <:+ bytes := by
  unfold outc at h
  cases hp : pick num m bytes with
  | none => rw [hp] at h; simp at h
  | some x =>
    rw [hp] at h
    simp only [Option.map_some, Option.some.injEq, Prod.mk.injEq] at h
    rw [← h.2]
    exact cands_suffix x (List.mem_of_find?_eq_some hp)

theorem readRestart_outc {t : Rst.St} (hd : t.num < 8) :
    (outc t.num t.unread t.buf = none ↔ (Rst.readRestart t).1 = false) ∧
    ∀ m rest, outc t.num t.unread t.buf = some (m, rest) → (Rst.readRestart t).1 = true ∧
      (Rst.readRestart t).2.unread = m ∧ (Rst.readRestart t).2.buf = rest := by
  have := readRestart_core hd
  revert this
  unfold outc
  cases pick t.num t.unread t.buf with
  | none => intro h; dsimp only at h; simp [h]
  | some x =>
    intro h
    dsimp only at h
    simp only [Option.map_some, Option.some.injEq, Prod.mk.injEq, reduceCtorEq, h.1, Bool.true_eq_false, true_and]
    rintro m rest ⟨rfl, rfl⟩
    exact ⟨h.2.2, h.2.1⟩

theorem processRestart_outc {ri : Nat} {s : DSt} (hd : s.rst < 8) :
    (outc s.rst s.rd.marker s.rd.bytes = none → processRestart ri s = none) ∧
    ∀ m rest, outc s.rst s.rd.marker s.rd.bytes = some (m, rest) → ∃ s', processRestart ri s = some s' ∧
      s'.rd.left = 0 ∧ s'.rd.bytes = rest ∧ s'.rd.marker = m ∧ s'.rd.insuff = (if m = 0 then false else s.rd.insuff) ∧
      s'.rd.hits = s.rd.hits ∧ s'.last = (fun _ => 0) ∧ s'.togo = ri ∧ s'.rst = (s.rst + 1) % 8 := by
  have := processRestart_core (ri := ri) hd
  revert this
  unfold outc
  cases pick s.rst s.rd.marker s.rd.bytes with
  | none => intro h; dsimp only at h; simp [h]
  | some x =>
    intro h
    dsimp only at h
    simp only [Option.map_some, Option.some.injEq, Prod.mk.injEq, reduceCtorEq, false_imp_iff, true_and]
    rintro m rest ⟨rfl, rfl⟩
    obtain ⟨s', h1, h2, h3, h4, h5, h6, h7, h8, h9⟩ := h
    exact ⟨s', h1, h2, h3, h4, by rw [h5, h4], h6, h7, h8, h9⟩

/-! ### The invariant -/

/-- `s`, with the bytes `fut` still to come and the blocks `pend` handed in, is where the run on all the data is in
state `sw`. -/
structure FInv (ri : Nat) (bs : List DBlk) (s : DSt) (pend : List (List Int)) (fut : List Nat) (sw : DSt) : Prop where
  rst : s.rst = sw.rst
  rst8 : s.rst < 8
  togo : s.togo = sw.togo
  nofill : ri = 0 → NoFill (s.rd.bytes ++ fut)
  okw : sw.rd.Ok
  body : ¬ (ri ≠ 0 ∧ s.togo = 0) → RSim s.rd fut sw.rd ∧ s.last = sw.last ∧
    (pend = zeroBlks bs ∨ sw.rd.insuff = false ∧
      ∀ W l r, blocksRun bs sw.last sw.rd = (W, some (l, r)) → Harmless pend W)
  restart : ri ≠ 0 ∧ s.togo = 0 → pend = zeroBlks bs ∧ s.rd.insuff = sw.rd.insuff ∧ s.rd.hits = sw.rd.hits ∧
    outc s.rst s.rd.marker (s.rd.bytes ++ fut) = outc sw.rst sw.rd.marker sw.rd.bytes

variable {ri : Nat} {bs : List DBlk} {s sw : DSt} {pend : List (List Int)} {fut : List Nat}

theorem FInv.more {c : List Nat} (h : FInv ri bs s pend (c ++ fut) sw) : FInv ri bs (s.more c) pend fut sw := by
  refine ⟨h.rst, h.rst8, h.togo, fun h0 => ?_, h.okw, fun hh => ?_, fun hh => ?_⟩
  · have := h.nofill h0
    simpa [DSt.more, Rd.more] using this
  · obtain ⟨h1, h2, h3⟩ := h.body hh
    refine ⟨⟨?_, h1.okw, ?_, ?_⟩, h2, h3⟩
    · have := h1.ok; rw [← more_more] at this; exact this
    · have := h1.abs; rw [← more_more] at this; exact this
    · have := h1.tail; rw [← more_more] at this; exact this
  · obtain ⟨h1, h2, h3, h4⟩ := h.restart hh
    refine ⟨h1, h2, h3, ?_⟩
    rw [← h4]
    simp [DSt.more, Rd.more]

theorem FInv.zero (h : FInv ri bs s pend fut sw) : FInv ri bs s (zeroBlks bs) fut sw :=
  ⟨h.rst, h.rst8, h.togo, h.nofill, h.okw, fun hh => ⟨(h.body hh).1, (h.body hh).2.1, .inl rfl⟩,
    fun hh => ⟨rfl, (h.restart hh).2⟩⟩

/-- At the beginning of an MCU. -/
theorem FInv.start (h1 : s.rst = sw.rst) (h8 : s.rst < 8) (h2 : s.togo = sw.togo) (h3 : ri = 0 → NoFill (s.rd.bytes ++ fut))
    (h4 : RSim s.rd fut sw.rd) (h5 : s.last = sw.last) : FInv ri bs s (zeroBlks bs) fut sw := by
  refine ⟨h1, h8, h2, h3, h4.okw, fun _ => ⟨h4, h5, .inl rfl⟩, fun _ => ⟨rfl, ?_, ?_, ?_⟩⟩
  · exact congrArg LR.insuff h4.abs
  · exact congrArg LR.hits h4.abs
  · unfold outc pick
    have e : cands s.rd.marker (s.rd.bytes ++ fut) = cands sw.rd.marker sw.rd.bytes := by
      have := h4.tail
      rw [cands_tail sw.rd, ← this]
      exact cands_tail (s.rd.more fut)
    rw [e, h1]

/-- The restart step, with the bytes `fut` still to come. -/
theorem restart_step (h : FInv ri bs s pend fut sw) (hr : ri ≠ 0 ∧ s.togo = 0) {sw1 : DSt}
    (href : processRestart ri sw = some sw1) :
    ((restartStep ri s).1 = true ∧ FInv ri bs (restartStep ri s).2 pend fut sw1 ∧ (Live sw.rd.marker sw.rd.bytes → Live sw1.rd.marker sw1.rd.bytes) ∧
      sw1.togo = ri) ∨
    ((restartStep ri s).1 = false ∧ FInv ri bs (restartStep ri s).2 pend fut sw ∧ fut ≠ []) := by
  obtain ⟨hp, hi, hh, ho⟩ := h.restart hr
  obtain ⟨p1, p2⟩ := processRestart_outc (ri := ri) (s := sw) (h.rst ▸ h.rst8)
  have hd : (toRst s).num < 8 := h.rst8
  obtain ⟨m1, m2⟩ := Rst.readRestart_more hd fut
  have hmd : ((toRst s).more fut).num < 8 := h.rst8
  obtain ⟨o1, o2⟩ := readRestart_outc hmd
  have ecur : outc ((toRst s).more fut).num ((toRst s).more fut).unread ((toRst s).more fut).buf =
      outc sw.rst sw.rd.marker sw.rd.bytes := ho
  rw [ecur] at o1 o2
  cases hout : outc sw.rst sw.rd.marker sw.rd.bytes with
  | none => rw [p1 hout] at href; simp at href
  | some x =>
    obtain ⟨m, rest⟩ := x
    obtain ⟨s', q1, q2, q3, q4, q5, q6, q7, q8, q9⟩ := p2 m rest hout
    rw [q1] at href
    simp only [Option.some.injEq] at href
    subst href
    obtain ⟨r1, r2, r3⟩ := o2 m rest hout
    have hcnt := Rst.C30_counter hd
    cases hb : (Rst.readRestart (toRst s)).1 with
    | true =>
      left
      have e := m1 hb
      rw [e] at r2 r3
      rw [hb, if_pos rfl] at hcnt
      have hunr : (Rst.readRestart (toRst s)).2.unread = m := r2
      have hbuf : (Rst.readRestart (toRst s)).2.buf ++ fut = rest := r3
      unfold restartStep
      simp only [hb, if_true]
      have hbytes : IsBytes rest := fun b hb' => h.okw.bytes b ((outc_suffix hout).subset hb')
      have hsim : ∀ rd : Rd, rd.left = 0 → rd.marker = m → rd.bytes ++ fut = rest → rd.insuff = (if m = 0 then false else s.rd.insuff) →
          rd.hits = s.rd.hits → RSim rd fut s'.rd := by
        intro rd k1 k2 k3 k4 k5
        refine ⟨⟨?_, ?_⟩, ⟨by rw [q2]; omega, by rw [q3]; exact hbytes⟩, ?_, ?_⟩
        · show rd.left ≤ 64
          omega
        · show IsBytes (rd.bytes ++ fut)
          rw [k3]; exact hbytes
        · simp only [Rd.abs, LR.mk.injEq]
          refine ⟨?_, ?_, ?_⟩
          · show toBits rd.left rd.gb ++ (if rd.marker = 0 then bitsOfBytes (unstuff false (rd.bytes ++ fut)) else []) = _
            simp only [Rd.bits]
            rw [k1, k2, k3, q2, q3, q4]
            rfl
          · show rd.insuff = _
            rw [k4, q5, hi]
          · show rd.hits = _
            rw [k5, q6, hh]
        · show (if rd.marker = 0 then segTail false (rd.bytes ++ fut) else some (rd.marker, rd.bytes ++ fut)) = _
          simp only [Rd.tail]
          rw [k2, k3, q3, q4]
      refine ⟨trivial, ?_, ?_, q8⟩
      · refine hp ▸ FInv.start ?_ ?_ ?_ (fun h0 => absurd h0 hr.1) ?_ ?_
        · show (Rst.readRestart (toRst s)).2.num = _
          rw [hcnt, q9, ← h.rst]; rfl
        · show (Rst.readRestart (toRst s)).2.num < 8
          rw [hcnt]; omega
        · exact q8.symm
        · refine hsim _ ?_ ?_ ?_ ?_ ?_
          · dsimp only; split <;> rfl
          · dsimp only; rw [hunr]; split <;> rfl
          · dsimp only; split <;> exact hbuf
          · dsimp only; rw [hunr]; split <;> rfl
          · dsimp only; split <;> rfl
        · exact q7.symm
      · intro hl
        obtain ⟨m', rest', e1, e2⟩ := outc_live (num := sw.rst) hl
        rw [hout] at e1
        simp only [Option.some.injEq, Prod.mk.injEq] at e1
        rw [q3, q4, e1.1, e1.2]
        exact e2
    | false =>
      right
      obtain ⟨e1, e2⟩ := m2 hb
      rw [hb, if_neg (by simp)] at hcnt
      unfold restartStep
      simp only [hb, if_neg (show ¬ (false = true) by simp)]
      have hnum : (Rst.readRestart (toRst s)).2.num = s.rst := hcnt
      refine ⟨trivial, ⟨?_, ?_, h.togo, fun h0 => absurd h0 hr.1, h.okw, fun hn => absurd hr hn, fun _ => ⟨hp, hi, hh, ?_⟩⟩, ?_⟩
      · exact hnum.trans h.rst
      · show (Rst.readRestart (toRst s)).2.num < 8
        rw [hnum]; exact h.rst8
      · show outc ((Rst.readRestart (toRst s)).2.more fut).num ((Rst.readRestart (toRst s)).2.more fut).unread ((Rst.readRestart (toRst s)).2.more fut).buf = _
        have hmd2 : ((Rst.readRestart (toRst s)).2.more fut).num < 8 := by
          show (Rst.readRestart (toRst s)).2.num < 8
          rw [hnum]; exact h.rst8
        obtain ⟨t1, t2⟩ := readRestart_outc hmd2
        rw [hout]
        cases hz : outc ((Rst.readRestart (toRst s)).2.more fut).num ((Rst.readRestart (toRst s)).2.more fut).unread ((Rst.readRestart (toRst s)).2.more fut).buf with
        | none =>
          have := t1.1 hz
          rw [← e1, r1] at this
          simp at this
        | some x =>
          obtain ⟨a, b⟩ := x
          obtain ⟨_, t4, t5⟩ := t2 _ _ hz
          rw [← t4, ← t5, ← e2.unread, ← e2.buf, r2, r3]
      · rintro rfl
        have e : (toRst s).more [] = toRst s := by simp [Rst.St.more]
        rw [e, hb] at r1
        simp at r1

/-- Everything decode_mcu does in a call. -/
theorem attempt_step (hb : ∀ b ∈ bs, b.TOk) (h : FInv ri bs s pend fut sw) {blks : List (List Int)} {sw' : DSt}
    (href : decMCU ri bs sw = some (blks, sw')) :
    (∃ s', attempt ri bs pend s = .ok blks s' ∧ FInv ri bs s' (zeroBlks bs) fut sw' ∧ RSim s'.rd fut sw'.rd ∧ s'.last = sw'.last) ∨
    (∃ pend' s' sw1, attempt ri bs pend s = .suspend pend' s' ∧ FInv ri bs s' pend' fut sw1 ∧ decMCU ri bs sw1 = some (blks, sw') ∧
      (Live sw.rd.marker sw.rd.bytes → Live sw1.rd.marker sw1.rd.bytes ∧ fut ≠ [])) := by
  have body : ∀ {s sw : DSt}, FInv ri bs s pend fut sw → ¬ (ri ≠ 0 ∧ s.togo = 0) → decMCU ri bs sw = some (blks, sw') →
      (∃ last rd, mcuBody ri bs pend s.last s.rd = .ok blks last rd ∧
        FInv ri bs { s with rd := rd, last := last, togo := if ri ≠ 0 then s.togo - 1 else s.togo } (zeroBlks bs) fut sw' ∧
        RSim rd fut sw'.rd ∧ last = sw'.last) ∨
      (∃ pend', mcuBody ri bs pend s.last s.rd = .suspend pend' ∧ FInv ri bs s pend' fut sw ∧
        (Live sw.rd.marker sw.rd.bytes → fut ≠ [])) := by
    intro s sw h hr href
    obtain ⟨h1, h2, h3⟩ := h.body hr
    unfold decMCU at href
    rw [if_neg (by rw [← h.togo]; exact hr)] at href
    dsimp only at href
    have hir : s.rd.insuff = sw.rd.insuff := congrArg LR.insuff h1.abs
    cases hi : sw.rd.insuff with
    | true =>
      rw [if_pos hi] at href
      simp only [Option.some.injEq, Prod.mk.injEq] at href
      obtain ⟨rfl, rfl⟩ := href
      left
      refine ⟨s.last, s.rd, ?_, ?_, h1, h2⟩
      · unfold mcuBody
        rw [if_pos (hir.trans hi)]
        rcases h3 with rfl | ⟨h3, -⟩
        · rfl
        · rw [hi] at h3; simp at h3
      · exact FInv.start h.rst h.rst8 (by dsimp only; rw [h.togo]) h.nofill h1 h2
    | false =>
      rw [if_neg (by rw [hi]; simp)] at href
      cases hd : decBlocks bs sw.last sw.rd with
      | none => rw [hd] at href; simp at href
      | some x =>
        obtain ⟨blks', last', rd'⟩ := x
        rw [hd] at href
        simp only [Option.some.injEq, Prod.mk.injEq] at href
        obtain ⟨rfl, rfl⟩ := href
        rw [decBlocks_run] at hd
        cases hw : blocksRun bs sw.last sw.rd with
        | mk W x =>
          rw [hw] at hd
          cases x with
          | none => simp at hd
          | some x =>
            obtain ⟨l1, r1⟩ := x
            simp only [Option.map_some, Option.some.injEq, Prod.mk.injEq] at hd
            obtain ⟨rfl, rfl, rfl⟩ := hd
            have hWl : W.length = bs.length := by have := blocksRun_length bs sw.last sw.rd; rw [hw] at this; exact this
            have hharm : Harmless pend W := by
              rcases h3 with rfl | ⟨-, h3⟩
              · exact ⟨by simp [zeroBlks, hWl], zipWith_zero _ _ _ hWl⟩
              · exact h3 _ _ _ hw
            rw [h2]
            rcases body_step hb h1 hi h.nofill hw hharm with ⟨r', e1, e2, e3⟩ | ⟨pend', e1, e2, e3⟩
            · left
              refine ⟨_, r', e1, ?_, e2, rfl⟩
              exact FInv.start h.rst h.rst8 (by dsimp only; rw [h.togo]) (fun h0 => (h.nofill h0).suffix e3) e2 rfl
            · right
              refine ⟨pend', e1, ⟨h.rst, h.rst8, h.togo, h.nofill, h.okw, fun _ => ⟨h1, h2, .inr ⟨hi, ?_⟩⟩, fun hh => absurd hh hr⟩, ?_⟩
              · intro W' l' r' hw'
                rw [hw] at hw'
                simp only [Prod.mk.injEq] at hw'
                rw [← hw'.1]; exact e2
              · rintro ⟨y, hy⟩ hf
                rw [cands_tail, e3 hf] at hy
                simp at hy
  unfold attempt
  by_cases hr : ri ≠ 0 ∧ s.togo = 0
  · rw [if_pos hr]
    cases hpr : processRestart ri sw with
    | none =>
      unfold decMCU at href
      rw [if_pos (by rw [← h.togo]; exact hr), hpr] at href
      simp at href
    | some sw1 =>
      rcases restart_step h hr hpr with ⟨e1, e2, e3, e4⟩ | ⟨e1, e2, e3⟩
      · have hr' : ¬ (ri ≠ 0 ∧ (restartStep ri s).2.togo = 0) := by
          rw [e2.togo, e4]; intro hh; exact hh.1 hh.2
        have href1 : decMCU ri bs sw1 = some (blks, sw') := by
          rw [← href]
          unfold decMCU
          rw [if_pos (show ri ≠ 0 ∧ sw.togo = 0 by rw [← h.togo]; exact hr), hpr,
            if_neg (show ¬ (ri ≠ 0 ∧ sw1.togo = 0) by rw [e4]; intro hh; exact hh.1 hh.2)]
        dsimp only
        rw [if_pos e1]
        rcases body e2 hr' href1 with ⟨last, rd, g1, g2, g3, g4⟩ | ⟨pend', g1, g2, g3⟩
        · left
          rw [g1]
          exact ⟨_, rfl, g2, g3, g4⟩
        · right
          rw [g1]
          exact ⟨_, _, sw1, rfl, g2, href1, fun hl => ⟨e3 hl, g3 (e3 hl)⟩⟩
      · right
        dsimp only
        rw [if_neg (by rw [e1]; simp)]
        exact ⟨_, _, sw, rfl, e2, href, fun hl => ⟨hl, e3⟩⟩
  · rw [if_neg hr]
    dsimp only
    rw [if_pos rfl]
    rcases body h hr href with ⟨last, rd, g1, g2, g3, g4⟩ | ⟨pend', g1, g2, g3⟩
    · left
      rw [g1]
      exact ⟨_, rfl, g2, g3, g4⟩
    · right
      rw [g1]
      exact ⟨_, _, sw, rfl, g2, href, fun hl => ⟨hl, g3 hl⟩⟩

/-! ### The run on all the data -/

theorem decMCU_live (hb : ∀ b ∈ bs, b.TOk) (hok : sw.rd.Ok) (h8 : sw.rst < 8) (hl : Live sw.rd.marker sw.rd.bytes) :
    ∃ blks sw', decMCU ri bs sw = some (blks, sw') ∧ sw'.rd.Ok ∧ sw'.rst < 8 ∧ Live sw'.rd.marker sw'.rd.bytes := by
  have body : ∀ sw : DSt, sw.rd.Ok → sw.rst < 8 → Live sw.rd.marker sw.rd.bytes →
      ∃ blks sw', (match (if sw.rd.insuff then some (bs.map (fun _ => List.replicate 64 (0 : Int)), sw.last, sw.rd)
          else decBlocks bs sw.last sw.rd) with
        | none => none
        | some (blks, last, rd) =>
          some (blks, { sw with rd := rd, last := last, togo := if ri ≠ 0 then sw.togo - 1 else sw.togo })) = some (blks, sw') ∧
        sw'.rd.Ok ∧ sw'.rst < 8 ∧ Live sw'.rd.marker sw'.rd.bytes := by
    intro sw hok h8 hl
    cases hi : sw.rd.insuff with
    | true =>
      rw [if_pos rfl]
      exact ⟨_, _, rfl, hok, h8, hl⟩
    | false =>
      rw [if_neg (by simp)]
      have ht : sw.rd.tail ≠ none := by
        intro ht
        obtain ⟨y, hy⟩ := hl
        rw [cands_tail, ht] at hy
        simp at hy
      cases hd : decBlocks bs sw.last sw.rd with
      | none => exact absurd hd (decBlocks_total (fun b h => (hb b h).toOk) hok ht)
      | some x =>
        obtain ⟨blks, last, rd⟩ := x
        obtain ⟨a1, a2, -⟩ := decBlocks_abs (fun b h => (hb b h).toOk) hok hd
        refine ⟨_, _, rfl, a1, h8, ?_⟩
        obtain ⟨y, hy⟩ := hl
        refine ⟨y, ?_⟩
        dsimp only
        rw [cands_tail, a2, ← cands_tail]
        exact hy
  unfold decMCU
  by_cases hr : ri ≠ 0 ∧ sw.togo = 0
  · rw [if_pos hr]
    obtain ⟨m', rest, e1, e2⟩ := outc_live (num := sw.rst) hl
    obtain ⟨s', q1, q2, q3, q4, q5, q6, q7, q8, q9⟩ := (processRestart_outc (ri := ri) h8).2 _ _ e1
    rw [q1]
    refine body s' ⟨by rw [q2]; omega, ?_⟩ (by rw [q9]; omega) (by rw [q3, q4]; exact e2)
    rw [q3]
    exact fun b hb' => hok.bytes b ((outc_suffix e1).subset hb')
  · rw [if_neg hr]
    exact body sw hok h8 hl

theorem decMCUs_live (hb : ∀ b ∈ bs, b.TOk) (n : Nat) (hok : sw.rd.Ok) (h8 : sw.rst < 8) (hl : Live sw.rd.marker sw.rd.bytes) :
    ∃ ms sw', decMCUs ri bs n sw = some (ms, sw') ∧ ms.length = n := by
  induction n generalizing sw with
  | zero => exact ⟨_, _, rfl, rfl⟩
  | succ n ih =>
    obtain ⟨blks, sw1, e1, e2, e3, e4⟩ := decMCU_live (ri := ri) hb hok h8 hl
    obtain ⟨ms, sw', e5, e6⟩ := ih e2 e3 e4
    exact ⟨blks :: ms, sw', by simp only [decMCUs, e1, e5], by simp [e6]⟩

/-! ### The run on pieces -/

theorem drive_step (hb : ∀ b ∈ bs, b.TOk) (fut : List Nat) (es : List (List Nat × Bool)) : ∀ {n : Nat} {pend : List (List Int)} {s sw sw' : DSt}
    {ms : List (List (List Int))}, FInv ri bs s pend (evBytes es ++ fut) sw →
    (n = 0 → RSim s.rd (evBytes es ++ fut) sw.rd ∧ s.last = sw.last) → decMCUs ri bs n sw = some (ms, sw') →
    sw.rd.Ok ∧ sw.rst < 8 →
    ∃ k s' es', drive ri bs n es pend s = some (ms.take (n - k), k, s', es') ∧ k ≤ n ∧ es' <:+ es ∧
      (k = 0 → RSim s'.rd (evBytes es' ++ fut) sw'.rd ∧ s'.last = sw'.last ∧ s'.togo = sw'.togo ∧ s'.rst = sw'.rst) ∧
      (Live sw.rd.marker sw.rd.bytes → ∀ es1 es2, es = es1 ++ es2 → evBytes es2 ++ fut = [] → n ≤ es2.length → k = 0) := by
  induction es with
  | nil =>
    intro n pend s sw sw' ms h h0 href hw
    cases n with
    | zero =>
      simp only [decMCUs, Option.some.injEq, Prod.mk.injEq] at href
      obtain ⟨rfl, rfl⟩ := href
      exact ⟨0, s, [], rfl, le_refl _, List.suffix_rfl, fun _ => ⟨(h0 rfl).1, (h0 rfl).2, h.togo, h.rst⟩, fun _ _ _ _ _ _ => rfl⟩
    | succ n =>
      refine ⟨n + 1, s, [], by simp [drive], le_refl _, List.suffix_rfl, fun hk => by omega, fun _ es1 es2 he _ hn => ?_⟩
      have := congrArg List.length he
      simp only [List.length_nil, List.length_append] at this
      omega
  | cons e es ih =>
    intro n pend s sw sw' ms h h0 href hw
    obtain ⟨c, z⟩ := e
    have hev : evBytes ((c, z) :: es) ++ fut = c ++ (evBytes es ++ fut) := by simp [evBytes]
    cases n with
    | zero =>
      simp only [decMCUs, Option.some.injEq, Prod.mk.injEq] at href
      obtain ⟨rfl, rfl⟩ := href
      exact ⟨0, s, _, rfl, le_refl _, List.suffix_rfl, fun _ => ⟨(h0 rfl).1, (h0 rfl).2, h.togo, h.rst⟩, fun _ _ _ _ _ _ => rfl⟩
    | succ n =>
      rw [hev] at h
      have h := h.more
      have h : FInv ri bs (s.more c) (if z then zeroBlks bs else pend) (evBytes es ++ fut) sw := by
        split
        · exact h.zero
        · exact h
      simp only [decMCUs] at href
      cases hm : decMCU ri bs sw with
      | none => rw [hm] at href; simp at href
      | some x =>
        obtain ⟨blks, sw1⟩ := x
        rw [hm] at href
        dsimp only at href
        cases hms : decMCUs ri bs n sw1 with
        | none => rw [hms] at href; simp at href
        | some x =>
          obtain ⟨ms1, sw2⟩ := x
          rw [hms] at href
          simp only [Option.some.injEq, Prod.mk.injEq] at href
          obtain ⟨rfl, rfl⟩ := href
          simp only [drive]
          rcases attempt_step hb h hm with ⟨s', e1, e2, e3, e4⟩ | ⟨pend', s', sw0, e1, e2, e3, e4⟩
          · rw [e1]
            dsimp only
            obtain ⟨k, s2, es', g1, g2, g3, g4, g5⟩ := ih e2 (fun _ => ⟨e3, e4⟩) hms ⟨e2.okw, by rw [← e2.rst]; exact e2.rst8⟩
            rw [g1]
            refine ⟨k, s2, es', ?_, by omega, g3.trans (List.suffix_cons _ _), g4, ?_⟩
            · simp only [Option.map_some]
              rw [show n + 1 - k = (n - k) + 1 by omega, List.take_succ_cons]
            · intro hl es1 es2 he hf hn
              have hl1 : Live sw1.rd.marker sw1.rd.bytes := by
                obtain ⟨_, _, k1, -, -, k2⟩ := decMCU_live (ri := ri) hb hw.1 hw.2 hl
                rw [hm] at k1
                simp only [Option.some.injEq, Prod.mk.injEq] at k1
                rw [k1.2]; exact k2
              cases es1 with
              | nil =>
                simp only [List.nil_append] at he
                subst he
                refine g5 hl1 [] es rfl ?_ (by simp at hn; omega)
                rw [hev] at hf
                simp only [List.append_eq_nil_iff] at hf ⊢
                exact hf.2
              | cons e0 es1 =>
                simp only [List.cons_append, List.cons.injEq] at he
                exact g5 hl1 es1 es2 he.2 hf (by omega)
          · rw [e1]
            dsimp only
            have href2 : decMCUs ri bs (n + 1) sw0 = some (blks :: ms1, sw2) := by
              simp only [decMCUs, e3, hms]
            obtain ⟨k, s2, es', g1, g2, g3, g4, g5⟩ := ih e2 (by omega) href2 ⟨e2.okw, by rw [← e2.rst]; exact e2.rst8⟩
            rw [g1]
            refine ⟨k, s2, es', rfl, g2, g3.trans (List.suffix_cons _ _), g4, ?_⟩
            intro hl es1 es2 he hf hn
            obtain ⟨l1, l2⟩ := e4 hl
            cases es1 with
            | nil =>
              simp only [List.nil_append] at he
              subst he
              rw [hev] at hf
              exact absurd (List.append_eq_nil_iff.1 hf).2 l2
            | cons e0 es1 =>
              simp only [List.cons_append, List.cons.injEq] at he
              exact g5 l1 es1 es2 he.2 hf hn

/-- Tables made by jpeg_make_d_derived_tbl (jdhuff.c:150-300) from tables as DHT segments can define them. -/
def DBlk.Built (b : DBlk) : Prop :=
  ∃ tdc tac : HuffTbl, tdc.Dht ∧ tac.Dht ∧ makeDTbl (some 15) tdc = some b.dc ∧ makeDTbl none tac = some b.ac

theorem DBlk.Built.tok {b : DBlk} (h : b.Built) : b.TOk := by
  obtain ⟨tdc, tac, h1, h2, h3, h4⟩ := h
  exact ⟨makeDTbl_tok h1.counts h1.vals h3, makeDTbl_tok h2.counts h2.vals h4⟩

theorem init_inv {data : List Nat} (hd : IsBytes data) (hf : ri = 0 → NoFill data) :
    FInv ri bs (decInit ri []) (zeroBlks bs) data (decInit ri data) ∧ RSim (decInit ri []).rd data (decInit ri data).rd := by
  have hs : RSim (decInit ri []).rd data (decInit ri data).rd :=
    ⟨⟨by simp [decInit, Rd.more], by simpa [decInit, Rd.more] using hd⟩, ⟨by simp [decInit], hd⟩, rfl, rfl⟩
  exact ⟨FInv.start rfl (by simp [decInit]) rfl (by simpa [decInit] using hf) hs rfl, hs⟩

/-- **C09** for the sequential Huffman decoder.  Compressed data, containing an EOI marker somewhere, arrives in
pieces `es` of any sizes, with decode_mcu called after each piece and called again for the same MCU after a suspension
(`fut` is what has not arrived).  Then the decoder does not fault, the MCUs it has completed are the first ones of those
decoded when all the data is in the buffer at once, and if it has completed all of them, it is in the same state:
DC predictions, restart counter and number, insufficient-data flag, number of HIT_MARKER warnings, and unread bits and
marker. -/
theorem C09_huffman_chunks (hb : ∀ b ∈ bs, b.Built) {data x y : List Nat} (hd : IsBytes data)
    (heoi : data = x ++ 0xFF :: 0xD9 :: y) (hfill : ri = 0 → NoFill data) (n : Nat) (es : List (List Nat × Bool))
    (fut : List Nat) (hes : evBytes es ++ fut = data) :
    ∃ ms sw k s es', decMCUs ri bs n (decInit ri data) = some (ms, sw) ∧ ms.length = n ∧
      drive ri bs n es (zeroBlks bs) (decInit ri []) = some (ms.take (n - k), k, s, es') ∧ k ≤ n ∧ es' <:+ es ∧
      (k = 0 → s.last = sw.last ∧ s.togo = sw.togo ∧ s.rst = sw.rst ∧ s.rd.insuff = sw.rd.insuff ∧
        s.rd.hits = sw.rd.hits ∧ (s.rd.more (evBytes es' ++ fut)).bits = sw.rd.bits ∧
        (s.rd.more (evBytes es' ++ fut)).tail = sw.rd.tail) := by
  have hb' := fun b h => (hb b h).tok
  obtain ⟨i1, i2⟩ := init_inv (ri := ri) (bs := bs) hd hfill
  have hl : Live (decInit ri data).rd.marker (decInit ri data).rd.bytes := by
    show Live 0 data
    rw [heoi]; exact live_data x y
  obtain ⟨ms, sw, e1, e2⟩ := decMCUs_live (ri := ri) hb' n i2.okw (by simp [decInit]) hl
  obtain ⟨k, s, es', g1, g2, g3, g4, -⟩ := drive_step (s := decInit ri []) (sw := decInit ri data) (pend := zeroBlks bs) hb' fut es (by rw [hes]; exact i1) (fun _ => ⟨by rw [hes]; exact i2, rfl⟩) e1
    ⟨i2.okw, by simp [decInit]⟩
  refine ⟨ms, sw, k, s, es', e1, e2, g1, g2, g3, fun hk => ?_⟩
  obtain ⟨k1, k2, k3, k4⟩ := g4 hk
  exact ⟨k2, k3, k4, congrArg LR.insuff k1.abs, congrArg LR.hits k1.abs, congrArg LR.bits k1.abs, k1.tail⟩

/-- **C09**, progress: once all the data has arrived, every call completes an MCU, so that `n` calls are enough. -/
theorem C09_huffman_progress (hb : ∀ b ∈ bs, b.Built) {data x y : List Nat} (hd : IsBytes data)
    (heoi : data = x ++ 0xFF :: 0xD9 :: y) (hfill : ri = 0 → NoFill data) (n : Nat) (es1 es2 : List (List Nat × Bool))
    (hes1 : evBytes es1 = data) (hes2 : evBytes es2 = []) (hn : n ≤ es2.length) :
    ∃ ms sw s es', decMCUs ri bs n (decInit ri data) = some (ms, sw) ∧ ms.length = n ∧
      drive ri bs n (es1 ++ es2) (zeroBlks bs) (decInit ri []) = some (ms, 0, s, es') := by
  have hb' := fun b h => (hb b h).tok
  obtain ⟨i1, i2⟩ := init_inv (ri := ri) (bs := bs) hd hfill
  have hl : Live (decInit ri data).rd.marker (decInit ri data).rd.bytes := by
    show Live 0 data
    rw [heoi]; exact live_data x y
  obtain ⟨ms, sw, e1, e2⟩ := decMCUs_live (ri := ri) hb' n i2.okw (by simp [decInit]) hl
  have hes : evBytes (es1 ++ es2) ++ [] = data := by
    simp only [evBytes, List.map_append, List.flatten_append, List.append_nil] at *
    rw [hes1, hes2, List.append_nil]
  obtain ⟨k, s, es', g1, g2, g3, g4, g5⟩ := drive_step (s := decInit ri []) (sw := decInit ri data) (pend := zeroBlks bs) hb' [] (es1 ++ es2) (by rw [hes]; exact i1) (fun _ => ⟨by rw [hes]; exact i2, rfl⟩) e1
    ⟨i2.okw, by simp [decInit]⟩
  have hk := g5 hl es1 es2 rfl (by rw [hes2]; rfl) hn
  subst hk
  refine ⟨ms, sw, s, es', e1, e2, ?_⟩
  rw [g1, Nat.sub_zero, ← e2, List.take_length]

/-! ### C48 -/

/-- **C48.** decode_mcu, with its fast path, never reads outside the source buffer nor beyond what a table or block
holds, whatever the bytes. -/
theorem C48_no_fault (hb : ∀ b ∈ bs, b.Built) {r : Rd} (hr : r.Ok) (last : Nat → Int) (hl : pend.length = bs.length) :
    mcuBody ri bs pend last r ≠ .fault := by
  have hz := mem_zip_tok (fun b h => (hb b h).tok) pend
  have hs : ∀ p : List (List Int), slowOn bs p last r ≠ .fault := by
    intro p; unfold slowOn
    split <;> simp
  unfold mcuBody
  split
  · simp
  · split
    · rename_i hc
      have hf0 : (⟨r.gb, r.left, r.bytes, r.marker⟩ : FSt).Ok := ⟨hr.left64, hr.bytes⟩
      obtain ⟨b0, l0, f0, n0, e0, -⟩ := blocksFast_ok semOk hz last hf0
        (by have := fast_pot (r := r) (pend := pend) hc.2.1 [] hl; rw [List.append_nil] at this; exact this)
      rw [e0]
      dsimp only
      split
      · exact hs _
      · simp
    · exact hs _

/-- **C48.** The fast path is an optimisation only: when the slow path alone decodes an MCU, decode_mcu with the fast
path gives the same coefficients and DC predictions and leaves the reader at the same bit before the same marker.
Exception, see `C48_fill_counterexample`: FF FF 00 in the entropy-coded data. -/
theorem C48_fast_path (hb : ∀ b ∈ bs, b.Built) {r r' : Rd} (hr : r.Ok) (hi : r.insuff = false)
    (hn : ri = 0 → NoFill r.bytes) {last last' : Nat → Int} {blks : List (List Int)}
    (h : decBlocks bs last r = some (blks, last', r')) :
    ∃ r2, mcuBody ri bs (zeroBlks bs) last r = .ok blks last' r2 ∧ r2.Ok ∧ r2.bits = r'.bits ∧ r2.tail = r'.tail ∧
      r2.insuff = r'.insuff ∧ r2.hits = r'.hits := by
  have hb' := fun b h => (hb b h).tok
  have hsim : RSim r [] r := ⟨by rw [more_nil]; exact hr, hr, by rw [more_nil], by rw [more_nil]⟩
  have hrun := decBlocks_run bs last r
  rw [h] at hrun
  cases hw : blocksRun bs last r with
  | mk W x =>
    rw [hw] at hrun
    cases x with
    | none => simp at hrun
    | some x =>
      obtain ⟨l1, r1⟩ := x
      simp only [Option.map_some, Option.some.injEq, Prod.mk.injEq] at hrun
      obtain ⟨rfl, rfl, rfl⟩ := hrun
      have hWl : W.length = bs.length := by have := blocksRun_length bs last r; rw [hw] at this; exact this
      have hharm : Harmless (zeroBlks bs) W := ⟨by simp [zeroBlks, hWl], zipWith_zero _ _ _ hWl⟩
      rcases body_step (ri := ri) hb' hsim hi (by rw [List.append_nil]; exact hn) hw hharm with ⟨r2, e1, e2, e3⟩ | ⟨p, e1, e2, e3⟩
      · have ha := e2.abs
        rw [more_nil] at ha
        have ht := e2.tail
        rw [more_nil] at ht
        have ho := e2.ok
        rw [more_nil] at ho
        exact ⟨r2, e1, ho, congrArg LR.bits ha, ht, congrArg LR.insuff ha, congrArg LR.hits ha⟩
      · exfalso
        -- a suspended body means that the slow path suspended
        have hsus : ∀ q : List (List Int), slowOn bs q last r ≠ .suspend p := by
          intro q; unfold slowOn; rw [hw]; simp
        unfold mcuBody at e1
        split at e1
        · simp at e1
        · split at e1
          · split at e1
            · simp at e1
            · split at e1
              · exact hsus _ e1
              · simp at e1
          · exact hsus _ e1

/-! ### The exception, and cases -/

/-- FF FF 00 in the entropy-coded data, and enough bytes for the fast path. -/
def exBytes : List Nat := [0x1E, 0xFF, 0xFF, 0x00, 0x34] ++ List.replicate 520 0x11 ++ [0xFF, 0xD9]

/-- A block with tables from DHT segments. -/
def exDBlk : Option DBlk :=
  match makeDTbl (some 15) exDC, makeDTbl none stdAC with
  | some dc, some ac => some ⟨0, dc, ac, true, true⟩
  | _, _ => none

theorem exDBlk_built : ∃ b, exDBlk = some b ∧ b.Built := by
  have h1 : (makeDTbl (some 15) exDC).isSome = true := by decide +kernel
  have h2 : (makeDTbl none stdAC).isSome = true := by decide +kernel
  obtain ⟨d1, e1⟩ := Option.isSome_iff_exists.1 h1
  obtain ⟨d2, e2⟩ := Option.isSome_iff_exists.1 h2
  exact ⟨⟨0, d1, d2, true, true⟩, by unfold exDBlk; rw [e1, e2], exDC, stdAC, ⟨by decide, by unfold IsBytes; decide⟩,
    ⟨by decide, by unfold IsBytes; decide +kernel⟩, e1, e2⟩

/-- The MCU by the slow path and with the fast path. -/
def exTwo (bytes : List Nat) : Option (List (List Int) × List (List Int)) :=
  exDBlk.bind fun b =>
    match decBlocks [b] (fun _ => 0) (decInit 0 bytes).rd, mcuBody 0 [b] (zeroBlks [b]) (fun _ => 0) (decInit 0 bytes).rd with
    | some x, .ok blks _ _ => some (x.1, blks)
    | _, _ => none

/-- **C48**, the exception.  On FF FF 00 (a fill byte before a stuffed FF, which jpeg_fill_bit_buffer accepts as data)
the fast path takes the second FF for a marker, has filled the block with coefficients decoded from zero bits by the
time it notices, and the slow path then decodes into the block as it is: the coefficients differ from those decoded
when the buffer holds fewer than 512 bytes per block. -/
theorem C48_fill_counterexample : ∃ (b : DBlk) (r r1 r2 : Rd) (last l1 l2 : Nat → Int) (x y : List (List Int)), b.Built ∧ r.Ok ∧
    r.insuff = false ∧ decBlocks [b] last r = some (x, l1, r1) ∧ mcuBody 0 [b] (zeroBlks [b]) last r = .ok y l2 r2 ∧ x ≠ y := by
  obtain ⟨b, hb, hbb⟩ := exDBlk_built
  have h : ((exTwo exBytes).any fun x => x.1 != x.2) = true := by decide +kernel
  unfold exTwo at h
  rw [hb] at h
  simp only [Option.bind_some] at h
  split at h
  · rename_i x blks l r e1 e2
    obtain ⟨x, l1, r1⟩ := x
    refine ⟨b, _, r1, r, _, l1, l, x, blks, hbb, ⟨by simp [decInit], ?_⟩, rfl, e1, e2, by simpa using h⟩
    unfold IsBytes
    decide +kernel
  · simp at h

/-- `C48_fast_path` where the fast path is taken: 520 bytes, no FF FF 00. -/
example : ∃ x, exTwo ([0x5B, 0x93, 0x27, 0xFF, 0x00, 0xA1] ++ List.replicate 520 0x5A ++ [0xFF, 0xD9]) = some (x, x) ∧ x ≠ [zblk] := by
  have h : ((exTwo ([0x5B, 0x93, 0x27, 0xFF, 0x00, 0xA1] ++ List.replicate 520 0x5A ++ [0xFF, 0xD9])).any
      fun x => x.1 == x.2 && x.1 != [zblk]) = true := by decide +kernel
  cases e : exTwo ([0x5B, 0x93, 0x27, 0xFF, 0x00, 0xA1] ++ List.replicate 520 0x5A ++ [0xFF, 0xD9]) with
  | none => rw [e] at h; simp at h
  | some x =>
    rw [e] at h
    simp only [Option.any_some, Bool.and_eq_true, beq_iff_eq, bne_iff_ne] at h
    exact ⟨x.1, by rw [show x = (x.1, x.2) from rfl, ← h.1], h.2⟩

/-- Three MCUs with restart markers after each, handed over byte by byte, with empty pieces, the blocks zeroed again or
not. -/
def exFeed : Option (List (List (List Int)) × Nat × Nat × Nat) :=
  exDBlk.bind fun b => (drive 1 [b] 3 ([([], true), ([0x5B], false), ([0x93], true), ([], false), ([0x27], false), ([0xFF], false),
      ([0xD0], true), ([], false), ([0x4F, 0x1A], false), ([0xFF], false), ([0xD1], false), ([0x5B, 0x9A], true), ([0xFF], false), ([0xD9], false)])
      (zeroBlks [b]) (decInit 1 [])).map fun x => (x.1, x.2.1, x.2.2.1.rst, x.2.2.1.rd.marker)

/-- The same on all the data. -/
def exWhole : Option (List (List (List Int)) × Nat × Nat × Nat) :=
  exDBlk.bind fun b => (decMCUs 1 [b] 3 (decInit 1 [0x5B, 0x93, 0x27, 0xFF, 0xD0, 0x4F, 0x1A, 0xFF, 0xD1, 0x5B, 0x9A, 0xFF, 0xD9])).map
    fun x => (x.1, 0, x.2.rst, x.2.rd.marker)

/-- The hypotheses of `C09_huffman_chunks` hold in this case, and all three MCUs are completed. -/
example : (∃ b, exDBlk = some b ∧ b.Built) ∧ IsBytes [0x5B, 0x93, 0x27, 0xFF, 0xD0, 0x4F, 0x1A, 0xFF, 0xD1, 0x5B, 0x9A, 0xFF, 0xD9] ∧
    exFeed = exWhole ∧ (exFeed.any fun x => x.1.length == 3 && x.2.1 == 0 && x.1.getD 0 [] != x.1.getD 1 []) = true :=
  ⟨exDBlk_built, by unfold IsBytes; decide, by decide +kernel, by decide +kernel⟩

end Verif.Huff
