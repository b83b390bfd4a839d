import Verif.Out.Run
import Verif.Huff.LinkLemmas
import Verif.Huff.Safe
import Verif.Huff.Props
/-
C13: the bytes of a scan do not depend on the output buffers.
-/
namespace Verif.Out
open Verif.Huff

theorem Susp.resume {α : Type} {S : Nat → Ev} (hs : AllFull S) {x : Work} {r : Ans α} (hn : x.next = x.dnext) (h : Susp S x r) :
    ∃ x' b, r = .susp x' b ∧ (resume x' b).stream = x.stream ∧ (resume x' b).dnext < (resume x' b).mem.length ∧
      (∃ k, S k = .full b) := by
  obtain ⟨x', b, h1, h2, h3, h4⟩ := h
  refine ⟨x', b, h1, ?_, ?_, x.k, h3⟩
  · unfold Out.resume Work.stream
    dsimp only
    have := h2.data
    rw [hn] at this
    rw [h2.sent, h2.dnext, this]; simp
  · obtain ⟨b', e, hb⟩ := hs x.k
    rw [h3] at e
    cases e
    exact List.length_pos_iff.mpr hb

/-- A manager that makes room: any number of attempts not less than the number of MCUs. -/
theorem drive_take {S : Nat → Ev} (hs : AllTake S) {junk : List Nat} (hj : junk.length = bufSize) {prec : Nat} (hp : prec ≤ 12) (ri : Nat)
    {bs : List EBlk} (hb : Tables bs) : ∀ (ms : List (List (List Int))) (n : Nat) (_ : ms.length ≤ n) (e : ESt) (_ : e.w.free ≤ 64) (x : Work)
    (_ : x.dnext < x.mem.length),
    match encMCUs prec ri bs e ms with
    | none => drive S junk prec ri bs n (Sav.of e) x ms = .bad
    | some e' => e'.w.free ≤ 64 ∧ ∃ u x', e'.w.out = e.w.out ++ u ∧ drive S junk prec ri bs n (Sav.of e) x ms = .ok (Sav.of e', x', []) ∧
        x'.stream = x.stream ++ u ∧ x'.dnext < x'.mem.length := by
  intro ms
  induction ms with
  | nil =>
    intro n hn e hw x hx
    simp only [encMCUs]
    refine ⟨hw, [], x, by simp, ?_, by simp, hx⟩
    cases n <;> rfl
  | cons m ms ih =>
    intro n hn e hw x hx
    obtain ⟨n, rfl⟩ : ∃ k, n = k + 1 := ⟨n - 1, by simp at hn; omega⟩
    have h1 := mcu_run (S := S) hj hp ri hb e hw { x with next := x.dnext } hx m
    simp only [encMCUs, drive]
    cases hE : encMCU prec ri bs e m with
    | none =>
      rw [hE] at h1
      dsimp only
      rw [h1.take hs]
    | some e1 =>
      rw [hE] at h1
      obtain ⟨hw1, u, ho, -, ht, -⟩ := h1
      obtain ⟨x1, r1, s1, l1⟩ := ht hs
      dsimp only
      rw [r1]
      dsimp only
      have h2 := ih n (by simp at hn; omega) e1 hw1 x1 l1
      generalize encMCUs prec ri bs e1 ms = E at h2
      cases E with
      | none => exact h2
      | some e' =>
        obtain ⟨hw', v, x', ho', r', s', l'⟩ := h2
        refine ⟨hw', u ++ v, x', by rw [ho', ho, List.append_assoc], r', ?_, l'⟩
        rw [s', s1, ← List.append_assoc]; rfl

/-- A manager that suspends: any number of attempts. -/
theorem drive_full {S : Nat → Ev} (hs : AllFull S) {junk : List Nat} (hj : junk.length = bufSize) {prec : Nat} (hp : prec ≤ 12) (ri : Nat)
    {bs : List EBlk} (hb : Tables bs) : ∀ (n : Nat) (ms : List (List (List Int))) (e : ESt) (_ : e.w.free ≤ 64) (x : Work)
    (_ : x.dnext < x.mem.length),
    (drive S junk prec ri bs n (Sav.of e) x ms = .bad ∧ encMCUs prec ri bs e ms = none) ∨
    ∃ e' x' don rest u, drive S junk prec ri bs n (Sav.of e) x ms = .ok (Sav.of e', x', rest) ∧ ms = don ++ rest ∧
      encMCUs prec ri bs e don = some e' ∧ e'.w.free ≤ 64 ∧ e'.w.out = e.w.out ++ u ∧ x'.stream = x.stream ++ u ∧ x'.dnext < x'.mem.length := by
  intro n
  induction n with
  | zero =>
    intro ms e hw x hx
    exact Or.inr ⟨e, x, [], ms, [], rfl, rfl, rfl, hw, by simp, by simp, hx⟩
  | succ n ih =>
    intro ms e hw x hx
    cases ms with
    | nil => exact Or.inr ⟨e, x, [], [], [], rfl, rfl, rfl, hw, by simp, by simp, hx⟩
    | cons m ms =>
      have h1 := mcu_run (S := S) hj hp ri hb e hw { x with next := x.dnext } hx m
      have retry : Susp S { x with next := x.dnext } (encMcuM S junk prec ri bs (Sav.of e) { x with next := x.dnext } m) →
          (drive S junk prec ri bs (n+1) (Sav.of e) x (m :: ms) = .bad ∧ encMCUs prec ri bs e (m :: ms) = none) ∨
          ∃ e' x' don rest u, drive S junk prec ri bs (n+1) (Sav.of e) x (m :: ms) = .ok (Sav.of e', x', rest) ∧ m :: ms = don ++ rest ∧
            encMCUs prec ri bs e don = some e' ∧ e'.w.free ≤ 64 ∧ e'.w.out = e.w.out ++ u ∧ x'.stream = x.stream ++ u ∧
              x'.dnext < x'.mem.length := by
        intro h
        obtain ⟨x1, b, r1, s1, l1, -⟩ := Susp.resume hs rfl h
        simp only [drive]
        rw [r1]
        dsimp only
        have h2 := ih (m :: ms) e hw _ l1
        rw [s1] at h2
        exact h2
      cases hE : encMCU prec ri bs e m with
      | none =>
        rw [hE] at h1
        rcases h1.full hs with h | h
        · left
          simp only [encMCUs, drive]
          rw [h, hE]; exact ⟨rfl, rfl⟩
        · exact retry h
      | some e1 =>
        rw [hE] at h1
        obtain ⟨hw1, u, ho, -, -, hf⟩ := h1
        rcases hf hs with ⟨-, x1, r1, s1, l1, -⟩ | ⟨-, h⟩
        · simp only [encMCUs, drive]
          rw [r1, hE]
          dsimp only
          rcases ih ms e1 hw1 x1 l1 with h | ⟨e', x', don, rest, v, r', hm, he, hw', ho', s', l'⟩
          · exact Or.inl h
          · refine Or.inr ⟨e', x', m :: don, rest, u ++ v, r', by rw [hm]; rfl, by simp only [encMCUs]; rw [hE]; exact he, hw',
              by rw [ho', ho, List.append_assoc], ?_, l'⟩
            rw [s', s1, ← List.append_assoc]; rfl
        · exact retry h

/-- With buffers that hold an MCU, two attempts at each MCU suffice. -/
theorem drive_ends {S : Nat → Ev} (hs : AllFull S) {junk : List Nat} (hj : junk.length = bufSize) {prec : Nat} (hp : prec ≤ 12) (ri : Nat)
    {bs : List EBlk} (hb : Tables bs) (hbig : ∀ k b, S k = .full b → 496 * bs.length + 18 < b.length) :
    ∀ (ms : List (List (List Int))) (n : Nat) (_ : 2 * ms.length ≤ n) (e : ESt) (_ : e.w.free ≤ 64) (x : Work)
    (_ : x.dnext < x.mem.length), (encMCUs prec ri bs e ms).isSome = true →
    ∃ s x', drive S junk prec ri bs n (Sav.of e) x ms = .ok (s, x', []) := by
  intro ms
  induction ms with
  | nil =>
    intro n hn e hw x hx _
    refine ⟨Sav.of e, x, ?_⟩
    cases n <;> rfl
  | cons m ms ih =>
    intro n hn e hw x hx hsome
    simp only [encMCUs] at hsome
    obtain ⟨n, rfl⟩ : ∃ k, n = k + 2 := ⟨n - 2, by simp at hn; omega⟩
    have hn' : 2 * ms.length ≤ n := by simp at hn; omega
    cases hE : encMCU prec ri bs e m with
    | none => rw [hE] at hsome; cases hsome
    | some e1 =>
      rw [hE] at hsome
      have h1 := mcu_run (S := S) hj hp ri hb e hw { x with next := x.dnext } hx m
      rw [hE] at h1
      obtain ⟨hw1, u, ho, hu, -, hf⟩ := h1
      rcases hf hs with ⟨-, x1, r1, s1, l1, -⟩ | ⟨-, h⟩
      · obtain ⟨s, x', h3⟩ := ih (n+1) (by omega) e1 hw1 x1 l1 hsome
        refine ⟨s, x', ?_⟩
        simp only [drive] at h3 ⊢
        rw [r1]
        exact h3
      · obtain ⟨x1, b, r1, s1, l1, k, hk⟩ := Susp.resume hs rfl h
        have h2 := mcu_run (S := S) hj hp ri hb e hw { resume x1 b with next := (resume x1 b).dnext } l1 m
        rw [hE] at h2
        obtain ⟨-, u', ho', -, -, hf'⟩ := h2
        have hu' : u' = u := List.append_cancel_left (ho'.symm.trans ho)
        subst hu'
        have hbl := hbig k b hk
        rcases hf' hs with ⟨-, x2, r2, s2, l2, -⟩ | ⟨h, -⟩
        · obtain ⟨s, x', h3⟩ := ih n hn' e1 hw1 x2 l2 hsome
          refine ⟨s, x', ?_⟩
          show drive S junk prec ri bs (n+1+1) _ _ _ = _
          simp only [drive]
          rw [r1]
          dsimp only
          rw [r2]
          exact h3
        · simp only [resume] at h
          omega

/-- Tables as jpeg_make_c_derived_tbl makes them (jchuff.c:235-318). -/
def Derived (bs : List EBlk) : Prop :=
  ∀ b ∈ bs, ∀ t, t = b.dc ∨ t = b.ac → ∃ maxsym h, h.counts.length = 16 ∧ makeCTbl maxsym h = some t

theorem Derived.tables {bs : List EBlk} (h : Derived bs) : Tables bs := by
  intro b hb
  constructor
  · obtain ⟨_, _, h1, h2⟩ := h b hb _ (Or.inl rfl)
    exact fun i => (makeCTbl_wf h1 h2 i).1
  · obtain ⟨_, _, h1, h2⟩ := h b hb _ (Or.inr rfl)
    exact fun i => (makeCTbl_wf h1 h2 i).1

theorem finish_take {S : Nat → Ev} (hs : AllTake S) {junk : List Nat} (hj : junk.length = bufSize) (s : Sav) (x : Work)
    (hx : x.dnext < x.mem.length) : ∃ x', finishM S junk s x = .ok x' ∧ x'.stream = x.stream ++ flushLoop s.pb (64 - s.free) := by
  obtain ⟨a, h1, -, h2, -⟩ := ((flush_run (S := S) hj (x := { x with next := x.dnext }) hx s.pb s.free).1).take hs
  unfold finishM
  rw [h1]
  exact ⟨_, rfl, h2⟩

theorem finish_full {S : Nat → Ev} (hs : AllFull S) {junk : List Nat} (hj : junk.length = bufSize) (s : Sav) (x : Work)
    (hx : x.dnext < x.mem.length) :
    (∃ x', finishM S junk s x = .ok x' ∧ x'.stream = x.stream ++ flushLoop s.pb (64 - s.free)) ∨
      (finishM S junk s x = .bad ∧ x.mem.length ≤ x.dnext + 16) := by
  have hl := (flush_run (S := S) hj (x := { x with next := x.dnext }) hx s.pb s.free).2
  rcases ((flush_run (S := S) hj (x := { x with next := x.dnext }) hx s.pb s.free).1).full hs with ⟨-, a, h1, -, e⟩ | ⟨h0, _, _, h1, -⟩
  · left
    unfold finishM
    rw [h1]
    refine ⟨_, rfl, ?_⟩
    have e1 := e.sent
    have e2 := e.data
    dsimp only [id] at e1 e2
    unfold Work.stream
    dsimp only
    rw [e1, e2, List.append_assoc]
  · right
    unfold finishM
    rw [h1]
    dsimp only at h0
    exact ⟨rfl, by omega⟩

/-- **C13, a destination that makes room.**  Whatever buffers the destination manager supplies, of whatever sizes: a scan that the encoder refuses is
refused, and otherwise exactly the bytes of the scan arrive, in order, and nothing is stored outside a buffer or outside the 512-byte local one
(`drive` and `finishM` would return `fault`). -/
theorem C13_no_suspension {S : Nat → Ev} (hs : AllTake S) {junk : List Nat} (hj : junk.length = 512) {prec : Nat} (hp : prec ≤ 12) (ri : Nat)
    {bs : List EBlk} (hb : Derived bs) (mcus : List (List (List Int))) (x : Work) (hx : x.dnext < x.mem.length) :
    match encScan prec ri bs mcus with
    | none => drive S junk prec ri bs mcus.length (savInit ri) x mcus = .bad
    | some bytes => ∃ s x1 x2, drive S junk prec ri bs mcus.length (savInit ri) x mcus = .ok (s, x1, []) ∧ finishM S junk s x1 = .ok x2 ∧
        x2.stream = x.stream ++ bytes := by
  have h := drive_take hs hj hp ri hb.tables mcus mcus.length (Nat.le_refl _) (encInit ri) (Nat.le_refl _) x hx
  unfold encScan
  generalize encMCUs prec ri bs (encInit ri) mcus = E at h
  cases E with
  | none => exact h
  | some e =>
    obtain ⟨-, u, x1, h1, h2, h3, h4⟩ := h
    obtain ⟨x2, h5, h6⟩ := finish_take hs hj (Sav.of e) x1 h4
    refine ⟨Sav.of e, x1, x2, h2, h5, ?_⟩
    rw [h6, h3]
    show _ = _ ++ (e.w.out ++ _)
    rw [h1, List.append_assoc]; rfl

/-- The result does not depend on the manager, nor on what was in the uninitialised buffer. -/
theorem C13_buffers_invisible {S S' : Nat → Ev} (hs : AllTake S) (hs' : AllTake S') {junk junk' : List Nat} (hj : junk.length = 512)
    (hj' : junk'.length = 512) {prec : Nat} (hp : prec ≤ 12) (ri : Nat) {bs : List EBlk} (hb : Derived bs) (mcus : List (List (List Int)))
    (x x' : Work) (hx : x.dnext < x.mem.length) (hx' : x'.dnext < x'.mem.length) (h : x.stream = x'.stream) :
    let run := fun S junk x => match drive S junk prec ri bs mcus.length (savInit ri) x mcus with
      | .ok (s, x1, _) => match finishM S junk s x1 with
        | .ok x2 => some x2.stream
        | _ => none
      | _ => none
    run S junk x = run S' junk' x' := by
  intro run
  have h1 := C13_no_suspension hs hj hp ri hb mcus x hx
  have h2 := C13_no_suspension hs' hj' hp ri hb mcus x' hx'
  simp only [run]
  generalize encScan prec ri bs mcus = E at h1 h2
  cases E with
  | none => rw [h1, h2]
  | some b =>
    obtain ⟨s, y, z, e1, e2, e3⟩ := h1
    obtain ⟨s', y', z', e1', e2', e3'⟩ := h2
    rw [e1, e1']
    dsimp only
    rw [e2, e2']
    dsimp only
    rw [e3, e3', h]

/-- **C13, a destination that suspends.**  At every point of every history (`n` attempts, any sizes of buffers): the bytes taken and in the buffer
are those of the MCUs done so far, a beginning of the scan's bytes, without loss and without duplication; only a scan the encoder refuses meets an error;
at the end, the whole scan's bytes are there unless the last bytes do not fit, which is impossible with more than 16 bytes of room. -/
theorem C13_suspension {S : Nat → Ev} (hs : AllFull S) {junk : List Nat} (hj : junk.length = 512) {prec : Nat} (hp : prec ≤ 12) (ri : Nat)
    {bs : List EBlk} (hb : Derived bs) (mcus : List (List (List Int))) (x : Work) (hx : x.dnext < x.mem.length) (n : Nat) :
    (drive S junk prec ri bs n (savInit ri) x mcus = .bad ∧ encScan prec ri bs mcus = none) ∨
    ∃ s x1 don rest bytes, drive S junk prec ri bs n (savInit ri) x mcus = .ok (s, x1, rest) ∧ mcus = don ++ rest ∧
      encScan prec ri bs don = some bytes ∧ x.stream ++ bytes = x1.stream ++ flushLoop s.pb (64 - s.free) ∧
      ((∃ x2, finishM S junk s x1 = .ok x2 ∧ x2.stream = x.stream ++ bytes) ∨
        (finishM S junk s x1 = .bad ∧ x1.mem.length ≤ x1.dnext + 16)) := by
  rcases drive_full hs hj hp ri hb.tables n mcus (encInit ri) (Nat.le_refl _) x hx with ⟨h1, h2⟩ | ⟨e, x1, don, rest, u, h1, h2, h3, h4, h5, h6, h7⟩
  · exact Or.inl ⟨h1, by unfold encScan; rw [h2]⟩
  · have hst : x.stream ++ (flushBits e.w).out = x1.stream ++ flushLoop (Sav.of e).pb (64 - (Sav.of e).free) := by
      show _ ++ (e.w.out ++ _) = _
      rw [h6, h5, List.append_assoc, List.append_assoc]; rfl
    refine Or.inr ⟨Sav.of e, x1, don, rest, (flushBits e.w).out, h1, h2, by unfold encScan; rw [h3], hst, ?_⟩
    rcases finish_full hs hj (Sav.of e) x1 h7 with ⟨x2, h8, h9⟩ | h8
    · exact Or.inl ⟨x2, h8, by rw [h9, hst]⟩
    · exact Or.inr h8

/-- **C13, progress.**  If the application's buffers hold an MCU (496 bytes for each block, and the restart marker), no MCU is attempted more than
twice: the scan ends. -/
theorem C13_suspension_ends {S : Nat → Ev} (hs : AllFull S) {junk : List Nat} (hj : junk.length = 512) {prec : Nat} (hp : prec ≤ 12) (ri : Nat)
    {bs : List EBlk} (hb : Derived bs) (hbig : ∀ k b, S k = .full b → 496 * bs.length + 18 < b.length) (mcus : List (List (List Int)))
    (x : Work) (hx : x.dnext < x.mem.length) {bytes : List Nat} (hok : encScan prec ri bs mcus = some bytes) :
    ∃ s x1, drive S junk prec ri bs (2 * mcus.length) (savInit ri) x mcus = .ok (s, x1, []) ∧
      x.stream ++ bytes = x1.stream ++ flushLoop s.pb (64 - s.free) ∧
      (x1.dnext + 16 < x1.mem.length → ∃ x2, finishM S junk s x1 = .ok x2 ∧ x2.stream = x.stream ++ bytes) := by
  have hsome : (encMCUs prec ri bs (encInit ri) mcus).isSome = true := by
    unfold encScan at hok
    split at hok
    · cases hok
    · rename_i h; rw [h]; rfl
  obtain ⟨s, x1, h1⟩ := drive_ends hs hj hp ri hb.tables hbig mcus (2 * mcus.length) (Nat.le_refl _) (encInit ri) (Nat.le_refl _) x hx hsome
  refine ⟨s, x1, h1, ?_⟩
  have h1' : drive S junk prec ri bs (2 * mcus.length) (savInit ri) x mcus = .ok (s, x1, []) := h1
  rcases C13_suspension hs hj hp ri hb mcus x hx (2 * mcus.length) with ⟨h2, -⟩ | ⟨s', x1', don, rest, b, h2, h3, h4, h5, h6⟩
  · rw [h1'] at h2; cases h2
  · rw [h1'] at h2
    cases h2
    rw [List.append_nil] at h3
    subst h3
    rw [hok] at h4
    cases h4
    refine ⟨h5, fun hr => ?_⟩
    rcases h6 with h6 | h6
    · exact h6
    · omega

/-! ### Writers that do not suspend -/

/-- emit_byte of jcmarker.c:115-125, jcphuff.c:293-311 and jcarith.c:122-135 (outside trellis passes): a FALSE is JERR_CANT_SUSPEND. -/
def emitE (S : Nat → Ev) (x : Work) (v : Nat) : Ans Work :=
  match emit S { x with next := x.dnext } v with
  | .ok x => .ok { x with dnext := x.next }
  | .susp _ _ => .bad
  | .bad => .bad
  | .fault => .fault

/-- A run of them. -/
def emitAllE (S : Nat → Ev) : Work → List Nat → Ans Work
  | x, [] => .ok x
  | x, b :: bs => (emitE S x b).bind fun x => emitAllE S x bs

/-- **C13, markers, progressive and arithmetic scans.**  For every behaviour of the manager: the bytes arrive unchanged and in order, or the manager
returned FALSE at a call, which is an error. -/
theorem C13_markers (S : Nat → Ev) (hs : ∀ k b, S k = .take b → b ≠ []) (x : Work) (hx : x.dnext < x.mem.length) (bytes : List Nat) :
    (∃ x', emitAllE S x bytes = .ok x' ∧ x'.stream = x.stream ++ bytes ∧ x'.dnext < x'.mem.length) ∨
      (emitAllE S x bytes = .bad ∧ ∃ k b, S k = .full b) := by
  induction bytes generalizing x with
  | nil => exact Or.inl ⟨x, rfl, by simp, hx⟩
  | cons v bytes ih =>
    have h1 : (∃ x', emitE S x v = .ok x' ∧ x'.stream = x.stream ++ [v] ∧ x'.dnext < x'.mem.length) ∨
        (emitE S x v = .bad ∧ ∃ k b, S k = .full b) := by
      unfold emitE emit
      rw [if_pos (show ({ x with next := x.dnext } : Work).next < ({ x with next := x.dnext } : Work).mem.length from hx)]
      dsimp only
      have ht := take_set_self x.mem x.dnext v hx
      by_cases h : x.dnext + 1 = (x.mem.set x.dnext v).length
      · rw [if_pos h]
        unfold dump
        cases hk : S x.k with
        | take b =>
          refine Or.inl ⟨_, rfl, ?_, List.length_pos_iff.mpr (hs _ _ hk)⟩
          unfold Work.stream
          dsimp only
          rw [h, List.take_length] at ht
          rw [ht]; simp
        | full b => exact Or.inr ⟨rfl, _, _, hk⟩
      · rw [if_neg h]
        refine Or.inl ⟨_, rfl, ?_, ?_⟩
        · unfold Work.stream
          dsimp only
          rw [ht, List.append_assoc]
        · rw [List.length_set] at h
          dsimp only
          rw [List.length_set]
          omega
    simp only [emitAllE]
    rcases h1 with ⟨x1, e1, s1, l1⟩ | ⟨e1, h⟩
    · rw [e1]
      rcases ih x1 l1 with ⟨x2, e2, s2, l2⟩ | h2
      · refine Or.inl ⟨x2, e2, ?_, l2⟩
        rw [s2, s1, List.append_assoc]; rfl
      · exact Or.inr h2
    · rw [e1]
      exact Or.inr ⟨rfl, h⟩

/-! ### Non-vacuity, and a manager the interface does not allow -/

/-- Two one-block MCUs with a restart interval of one. -/
def exMcus : List (List (List Int)) := [[exBlk 5 (-3) 1], [exBlk (-1024) 1023 (-1023)]]
def exEs : Option (List EBlk) := [(⟨0, 0, 0⟩ : BlkSpec)].mapM (encBlk (fun _ => stdDC) (fun _ => stdAC))
def exWork (n : Nat) : Work := ⟨[1, 2], List.replicate n 7, 0, 0, 0⟩
/-- What the application has after the scan. -/
def exRun (S : Nat → Ev) (n size : Nat) : Option (List Nat) :=
  exEs.bind fun es => match drive S (List.replicate 512 9) 8 1 es n (savInit 1) (exWork size) exMcus with
    | .ok (s, x, []) => match finishM S (List.replicate 512 9) s x with
      | .ok x => some x.stream
      | _ => none
    | _ => none

theorem exEs_derived : ∃ es, exEs = some es ∧ Derived es := by
  have h1 : (makeCTbl 15 stdDC).isSome = true := by decide +kernel
  have h2 : (makeCTbl 255 stdAC).isSome = true := by decide +kernel
  obtain ⟨c1, e1⟩ := Option.isSome_iff_exists.1 h1
  obtain ⟨c2, e2⟩ := Option.isSome_iff_exists.1 h2
  refine ⟨[⟨0, c1, c2⟩], ?_, ?_⟩
  · simp only [exEs, List.mapM_cons, List.mapM_nil, encBlk, e1, e2]; rfl
  · intro b hb t ht
    simp only [List.mem_singleton] at hb
    subst hb
    rcases ht with rfl | rfl
    · exact ⟨15, stdDC, by decide, e1⟩
    · exact ⟨255, stdAC, by decide, e2⟩

/-- One-byte buffers, buffers of 600, a suspending manager with buffers of 600 after one of 3 bytes: the same bytes. -/
example : AllTake (fun _ => .take [0]) ∧ AllTake (fun _ => .take (List.replicate 600 0)) ∧ AllFull (fun _ => .full (List.replicate 600 0)) := by
  refine ⟨fun _ => ⟨_, rfl, by simp⟩, fun _ => ⟨_, rfl, ?_⟩, fun _ => ⟨_, rfl, ?_⟩⟩ <;> exact List.ne_nil_of_length_pos (by rw [List.length_replicate]; omega)
example : exRun (fun _ => .take [0]) 2 1 = exRun (fun _ => .take (List.replicate 600 0)) 2 600 ∧
    exRun (fun _ => .take [0]) 2 1 = exRun (fun _ => .full (List.replicate 600 0)) 4 3 ∧
    (exRun (fun _ => .take [0]) 2 1).map List.length = some 31 := by decide +kernel
example : (exEs.bind fun es => encScan 8 1 es exMcus).map ([1, 2] ++ ·) = exRun (fun _ => .take [0]) 2 1 := by decide +kernel

/-- The interface asks a suspending manager to suspend for a whole MCU: one that takes a buffer and then returns FALSE inside the same MCU
gets the bytes of the first buffer twice. -/
example : exRun (fun k => if k = 0 then .take [0] else .full (List.replicate 600 0)) 4 1 ≠
    (exEs.bind fun es => encScan 8 1 es exMcus).map ([1, 2] ++ ·) := by decide +kernel

end Verif.Out
