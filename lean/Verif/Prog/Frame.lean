import Verif.Prog.Writer
import Verif.Huff.Props
import Mathlib.Data.List.Forall2
/-
Scan-level frame shared by the four progressive scan kinds: the restart logic of the encoder (jcphuff.c:439-462 and
the beginning and end of every encode_mcu routine) and of the decoder (jdphuff.c:236-271 and the beginning and end of
every decode_mcu routine), for an arbitrary per-MCU step.
-/
namespace Verif.Prog
open Verif Verif.Huff

/-- What one encode_mcu routine does: `step` codes one MCU, `fin` is what is put out before a restart marker or at
the end of the scan (`emit_eobrun`), `init` the state at the start of a segment (jcphuff.c:455-461, 271-275). -/
structure PEnc (σ ι : Type) where
  init : σ
  step : σ → ι → Option (List Tok × σ)
  fin : σ → Option (List Tok)

/-- Every MCU of a scan, with the restart bookkeeping found in each encode_mcu routine, e.g. jcphuff.c:489-492 and
546-553, and the final `emit_eobrun` (jcphuff.c:1027, 1054).  `none` = error exit. -/
def encGo {σ ι : Type} (E : PEnc σ ι) (ri : Nat) : List ι → σ → (togo rst : Nat) → Option (List Tok)
  | [], s, _, _ => E.fin s
  | m :: ms, s, togo, rst =>
    if ri ≠ 0 ∧ togo = 0 then
      match E.fin s with
      | none => none
      | some t0 =>
        match E.step E.init m with
        | none => none
        | some (t1, s) =>
          match encGo E ri ms s (ri - 1) ((rst + 1) &&& 7) with
          | none => none
          | some t2 => some (t0 ++ [Tok.rst rst] ++ t1 ++ t2)
    else
      match E.step s m with
      | none => none
      | some (t1, s) =>
        match encGo E ri ms s (if ri ≠ 0 then togo - 1 else togo) rst with
        | none => none
        | some t2 => some (t1 ++ t2)

/-- The calls of a whole scan (start_pass_phuff, jcphuff.c:271-284). -/
def encToks {σ ι : Type} (E : PEnc σ ι) (ri : Nat) (ms : List ι) : Option (List Tok) :=
  encGo E ri ms E.init ri 0

/-- What one decode_mcu routine does.  `skip = none`: the routine does not look at `insufficient_data`
(decode_mcu_DC_refine), otherwise `skip` gives the result in that case. -/
structure PDec (σ ι ο : Type) where
  init : σ
  step : σ → ι → Rd → Option (ο × σ × Rd)
  skip : Option (ι → ο)

/-- Decoder state: `base.last` is not used, `st` is `entropy->saved`. -/
structure PSt (σ : Type) where
  base : DSt
  st : σ

/-- One call of a decode_mcu routine: restart if due (jdphuff.c:313-317 and process_restart 236-271), then the data
unless `insufficient_data`, then the restart count (jdphuff.c:350-352). `none` = suspension or error exit. -/
def decOne {σ ι ο : Type} (D : PDec σ ι ο) (ri : Nat) (s : PSt σ) (i : ι) : Option (ο × PSt σ) :=
  match (if ri ≠ 0 ∧ s.base.togo = 0 then
      match processRestart ri s.base with
      | none => none
      | some b => some { base := b, st := D.init }
    else some s) with
  | none => none
  | some s =>
    match (match (if s.base.rd.insuff then D.skip else none) with
        | some f => some (f i, s.st, s.base.rd)
        | none => D.step s.st i s.base.rd) with
    | none => none
    | some (o, st, rd) =>
      some (o, { base := { s.base with rd := rd, togo := if ri ≠ 0 then s.base.togo - 1 else s.base.togo },
                 st := st })

/-- All MCUs. -/
def decGo {σ ι ο : Type} (D : PDec σ ι ο) (ri : Nat) : List ι → PSt σ → Option (List ο × PSt σ)
  | [], s => some ([], s)
  | i :: is, s =>
    match decOne D ri s i with
    | none => none
    | some (o, s) =>
      match decGo D ri is s with
      | none => none
      | some (os, s) => some (o :: os, s)

/-- start_pass_phuff_decoder (jdphuff.c:178-191). -/
def pInit {σ ι ο : Type} (D : PDec σ ι ο) (ri : Nat) (bytes : List Nat) : PSt σ :=
  { base := decInit ri bytes, st := D.init }

/-! ### encoder: restart segments -/

def rstToks : Nat → List (List Tok) → List Tok
  | _, [] => []
  | n, t :: ts => Tok.rst n :: (t ++ rstToks ((n + 1) % 8) ts)

variable {σ ι ο : Type}

theorem encGo_zero (E : PEnc σ ι) (ms : List ι) (s : σ) (a b c d : Nat) :
    encGo E 0 ms s a b = encGo E 0 ms s c d := by
  induction ms generalizing s a b c d with
  | nil => rfl
  | cons m ms ih =>
    simp only [encGo]
    rw [if_neg (show ¬((0:Nat) ≠ 0 ∧ a = 0) by simp), if_neg (show ¬((0:Nat) ≠ 0 ∧ c = 0) by simp)]
    cases E.step s m with
    | none => rfl
    | some x =>
      dsimp only
      rw [ih x.2 _ _ (if (0:Nat) ≠ 0 then c - 1 else c) d]

theorem encGo_segs {E : PEnc σ ι} {ri : Nat} (hri : ri ≠ 0) (ms : List ι) {s : σ} {togo rst : Nat}
    {ts : List Tok} (h : encGo E ri ms s togo rst = some ts) :
    ∃ t0 cts, encGo E 0 (ms.take togo) s 0 0 = some t0 ∧
      List.Forall₂ (fun c t => encGo E 0 c E.init 0 0 = some t) (chunks ri (ms.drop togo)) cts ∧
      ts = t0 ++ rstToks rst cts := by
  induction ms generalizing s togo rst ts with
  | nil =>
    refine ⟨ts, [], by simpa [encGo] using h, ?_, by simp [rstToks]⟩
    rw [chunks]; simp
  | cons m ms ih =>
    simp only [encGo] at h
    by_cases hdue : ri ≠ 0 ∧ togo = 0
    · rw [if_pos hdue] at h
      obtain ⟨-, rfl⟩ := hdue
      split at h
      · simp at h
      rename_i t0 e0
      split at h
      · simp at h
      rename_i t1 s1 e1
      split at h
      · simp at h
      rename_i t2 e2
      simp only [Option.some.injEq] at h
      obtain ⟨u0, cts, g1, g2, g3⟩ := ih e2
      refine ⟨t0, (t1 ++ u0) :: cts, by simpa [encGo] using e0, ?_, ?_⟩
      · rw [chunks, dif_neg (by simp [hri])]
        obtain ⟨k, rfl⟩ : ∃ k, ri = k + 1 := ⟨ri - 1, by omega⟩
        simp only [List.drop_zero, List.take_succ_cons, List.drop_succ_cons, Nat.add_sub_cancel] at *
        refine .cons ?_ g2
        simp only [encGo]
        rw [if_neg (by simp), e1]
        dsimp only
        rw [encGo_zero E _ _ _ _ 0 0, g1]
      · rw [← h, g3]
        simp [rstToks, and7]
    · rw [if_neg hdue] at h
      have ht : togo ≠ 0 := fun hc => hdue ⟨hri, hc⟩
      split at h
      · simp at h
      rename_i t1 s1 e1
      split at h
      · simp at h
      rename_i t2 e2
      simp only [Option.some.injEq] at h
      rw [if_pos hri] at e2
      obtain ⟨u0, cts, g1, g2, g3⟩ := ih e2
      obtain ⟨k, rfl⟩ : ∃ k, togo = k + 1 := ⟨togo - 1, by omega⟩
      simp only [List.take_succ_cons, List.drop_succ_cons, Nat.add_sub_cancel] at *
      refine ⟨t1 ++ u0, cts, ?_, g2, ?_⟩
      · simp only [encGo]
        rw [if_neg (by simp), e1]
        dsimp only
        rw [encGo_zero E _ _ _ _ 0 0, g1]
      · rw [← h, g3, List.append_assoc]

/-- No restart token. -/
def NoRst (ts : List Tok) : Prop := ∀ n, Tok.rst n ∉ ts

def PEnc.NoRst (E : PEnc σ ι) : Prop :=
  (∀ s t, E.fin s = some t → Prog.NoRst t) ∧ ∀ s i t s', E.step s i = some (t, s') → Prog.NoRst t

theorem encGo_noRst {E : PEnc σ ι} (hE : E.NoRst) (ms : List ι) {s : σ} {a b : Nat} {ts : List Tok}
    (h : encGo E 0 ms s a b = some ts) : NoRst ts := by
  induction ms generalizing s a b ts with
  | nil => exact hE.1 s ts h
  | cons m ms ih =>
    simp only [encGo] at h
    rw [if_neg (by simp)] at h
    split at h
    · simp at h
    rename_i t1 s1 e1
    split at h
    · simp at h
    rename_i t2 e2
    simp only [Option.some.injEq] at h
    intro n hn
    rw [← h, List.mem_append] at hn
    rcases hn with hn | hn
    · exact hE.2 _ _ _ _ e1 n hn
    · exact ih e2 n hn

theorem tokTail_append (T : Nat → CTbl) (a b : List Tok) (h : NoRst a) :
    tokTail T (a ++ b) = ((tokTail T a).1 ++ (tokTail T b).1, (tokTail T b).2) := by
  induction a with
  | nil => simp [tokTail]
  | cons t a ih =>
    have h' : NoRst a := fun n hn => h n (by simp [hn])
    cases t with
    | rst n => exact absurd (by simp) (h n)
    | sym _ _ => simp only [List.cons_append, tokTail, ih h', List.append_assoc]
    | bits _ _ => simp only [List.cons_append, tokTail, ih h', List.append_assoc]

theorem tokTail_snd (T : Nat → CTbl) (a : List Tok) (h : NoRst a) : (tokTail T a).2 = [] := by
  have := tokTail_append T a [] h
  rw [List.append_nil] at this
  rw [this]; rfl

theorem tokTail_segs (T : Nat → CTbl) (a : List Tok) (h : NoRst a) (n : Nat) (cts : List (List Tok))
    (hc : ∀ t ∈ cts, NoRst t) :
    tokTail T (a ++ rstToks n cts) =
      ((tokTail T a).1, rstSegs n (cts.map (fun t => segment (tokTail T t).1))) := by
  induction cts generalizing a n with
  | nil => rw [tokTail_append _ _ _ h]; simp [rstToks, tokTail, rstSegs]
  | cons t cts ih =>
    rw [tokTail_append _ _ _ h]
    simp only [rstToks, tokTail]
    rw [ih t (hc t (by simp)) ((n + 1) % 8) (fun x hx => hc x (by simp [hx]))]
    simp [rstSegs]

/-! ### decoder -/

/-- The decoder, in state `st` with the bits `l` ahead, reads exactly the expected outputs. -/
def Runs (D : PDec σ ι ο) : List (ι × ο) → σ → List Bool → Prop
  | [], _, l => l = []
  | (i, o) :: xs, st, l => ∃ st' l', (∀ (r : Rd) (rest : List Bool), r.Ok → r.tail ≠ none →
      r.bits = l ++ rest → ∃ r', D.step st i r = some (o, st', r') ∧ r.Same r' ∧ r'.bits = l' ++ rest) ∧
      Runs D xs st' l'

theorem decGo_append (D : PDec σ ι ο) (ri : Nat) (a b : List ι) {s s1 s2 : PSt σ} {oa ob : List ο}
    (h1 : decGo D ri a s = some (oa, s1)) (h2 : decGo D ri b s1 = some (ob, s2)) :
    decGo D ri (a ++ b) s = some (oa ++ ob, s2) := by
  induction a generalizing s oa with
  | nil => simp only [decGo, Option.some.injEq, Prod.mk.injEq] at h1; obtain ⟨rfl, rfl⟩ := h1; exact h2
  | cons i a ih =>
    simp only [decGo, List.cons_append] at h1 ⊢
    cases e : decOne D ri s i with
    | none => simp [e] at h1
    | some x =>
      rw [e] at h1
      dsimp only at h1 ⊢
      cases e' : decGo D ri a x.2 with
      | none => simp [e'] at h1
      | some y =>
        rw [e'] at h1
        simp only [Option.some.injEq, Prod.mk.injEq] at h1
        obtain ⟨rfl, rfl⟩ := h1
        rw [ih e']
        rfl

/-- Reading the rest of one segment, with no restart due inside it. -/
theorem decGo_seg (D : PDec σ ι ο) (ri : Nat) (xs : List (ι × ο)) {s : PSt σ} {l pad : List Bool}
    (h : Runs D xs s.st l) (hr : s.base.rd.Ok) (ht : s.base.rd.tail ≠ none)
    (hi : s.base.rd.insuff = false) (hb : s.base.rd.bits = l ++ pad)
    (hn : ri = 0 ∨ xs.length ≤ s.base.togo) :
    ∃ s', decGo D ri (xs.map Prod.fst) s = some (xs.map Prod.snd, s') ∧ s.base.rd.Same s'.base.rd ∧
      s'.base.rd.bits = pad ∧ s'.base.disc = s.base.disc ∧ s'.base.rst = s.base.rst ∧
      s'.base.togo = if ri ≠ 0 then s.base.togo - xs.length else s.base.togo := by
  induction xs generalizing s l with
  | nil =>
    simp only [Runs] at h
    subst h
    exact ⟨s, rfl, hr.same, by simpa using hb, rfl, rfl, by simp⟩
  | cons x xs ih =>
    obtain ⟨i, o⟩ := x
    obtain ⟨st', l', h1, h2⟩ := h
    obtain ⟨r', e1, s1, b1⟩ := h1 s.base.rd pad hr ht hb
    have hdue : ¬ (ri ≠ 0 ∧ s.base.togo = 0) := by
      rintro ⟨a, b⟩
      rcases hn with hn | hn
      · exact a hn
      · simp at hn; omega
    have he : decOne D ri s i = some (o, { base := { s.base with
        rd := r', togo := if ri ≠ 0 then s.base.togo - 1 else s.base.togo }, st := st' }) := by
      unfold decOne
      rw [if_neg hdue]
      dsimp only
      rw [hi]
      simp only [Bool.false_eq_true, if_false, e1]
    obtain ⟨s', e', q1, q2, q3, q4, q5⟩ := ih
      (s := { base := { s.base with rd := r', togo := if ri ≠ 0 then s.base.togo - 1 else s.base.togo },
              st := st' }) h2 s1.ok (by dsimp only; rw [s1.tail]; exact ht)
      (by dsimp only; rw [s1.insuff]; exact hi) b1 (by
        rcases hn with hn | hn
        · left; exact hn
        · by_cases h0 : ri = 0
          · left; exact h0
          · right
            simp only [List.length_cons] at hn
            simp only [ne_eq, h0, not_false_eq_true, if_true]
            omega)
    refine ⟨s', ?_, s1.trans q1, q2, q3, q4, ?_⟩
    · simp only [List.map_cons, decGo, he, e']
    · rw [q5]
      by_cases h0 : ri = 0
      · simp [h0]
      · simp [h0]; omega

theorem isBytes_rstSegs (n : Nat) (hn : n < 8) (segs : List (List Bool)) :
    IsBytes (rstSegs n (segs.map segment)) := by
  induction segs generalizing n with
  | nil => simp [rstSegs]
  | cons s segs ih =>
    simp only [List.map_cons, rstSegs, isBytes_append]
    refine ⟨⟨?_, isBytes_segment _⟩, ih _ (by omega)⟩
    intro b hb; simp at hb; omega

theorem rstSegs_head {n m : Nat} (hn : n < 8) (hm0 : m ≠ 0) (hmff : m ≠ 0xFF) (segs : List (List Nat))
    (tail : List Nat) : ∃ mk rest, rstSegs n segs ++ 0xFF :: m :: tail = 0xFF :: mk :: rest ∧ mk ≠ 0 ∧
      mk ≠ 0xFF := by
  cases segs with
  | nil => exact ⟨m, tail, by simp [rstSegs], hm0, hmff⟩
  | cons s segs =>
    simp only [rstSegs, List.append_assoc, List.cons_append, List.nil_append]
    exact ⟨_, _, rfl, by omega, by omega⟩

/-- The segments after the first one, each entered through its restart marker. -/
theorem decGo_rst (D : PDec σ ι ο) {ri : Nat} (hri : ri ≠ 0) {m : Nat} {tail : List Nat} (hm0 : m ≠ 0)
    (hmff : m ≠ 0xFF) (hm : m < 256) (htail : IsBytes tail)
    (cs : List (List (ι × ο))) (segs : List (List Bool))
    (hruns : List.Forall₂ (fun c l => Runs D c D.init l) cs segs)
    (hlen : ∀ c ∈ cs, 0 < c.length ∧ c.length ≤ ri) (hfull : ∀ k, k + 1 < cs.length → (cs.getD k []).length = ri)
    {s : PSt σ} (hr : s.base.rd.Ok) (hb : s.base.rd.bits.length < 8) (hi : s.base.rd.insuff = false)
    (hd : s.base.disc = 0) (hrst : s.base.rst < 8) (htogo : cs ≠ [] → s.base.togo = 0)
    (ht : s.base.rd.tail = segTail false (rstSegs s.base.rst (segs.map segment) ++ 0xFF :: m :: tail)) :
    ∃ s', decGo D ri (cs.flatten.map Prod.fst) s = some (cs.flatten.map Prod.snd, s') ∧
      s'.base.rd.warns = s.base.rd.warns ∧ s'.base.disc = 0 ∧ s'.base.rd.tail = some (m, tail) ∧
      s'.base.rd.bits.length < 8 := by
  induction hruns generalizing s with
  | nil =>
    refine ⟨s, rfl, rfl, hd, ?_, hb⟩
    rw [ht]
    simp [rstSegs, segTail, hm0, hmff]
  | @cons c l cs segs hc hruns ih =>
    have hc0 := hlen c (by simp)
    have hmk : segTail false (rstSegs s.base.rst ((l :: segs).map segment) ++ 0xFF :: m :: tail) =
        some (0xD0 + s.base.rst,
          segment l ++ (rstSegs ((s.base.rst + 1) % 8) (segs.map segment) ++ 0xFF :: m :: tail)) := by
      simp only [List.map_cons, rstSegs, List.append_assoc, List.cons_append, List.nil_append]
      simp only [segTail, if_true]
      rw [if_neg (by omega), if_neg (by omega)]
    rw [hmk] at ht
    have hrest : IsBytes (segment l ++
        (rstSegs ((s.base.rst + 1) % 8) (segs.map segment) ++ 0xFF :: m :: tail)) := by
      rw [isBytes_append, isBytes_append, isBytes_cons, isBytes_cons]
      exact ⟨isBytes_segment _, isBytes_rstSegs _ (by omega) _, by omega, hm, htail⟩
    obtain ⟨gb, hpr⟩ := processRestart_spec (ri := ri) hr hb ht hd hrest hi
    -- state after the restart
    generalize hs0 : (PSt.mk (DSt.mk (Rd.mk gb 0 (segment l ++
        (rstSegs ((s.base.rst + 1) % 8) (segs.map segment) ++ 0xFF :: m :: tail)) 0 false s.base.rd.warns s.base.rd.hits)
        (fun _ => 0) ri ((s.base.rst + 1) &&& 7) 0) D.init : PSt σ) = s0 at *
    have hstep : decGo D ri (c.map Prod.fst) s = decGo D ri (c.map Prod.fst) s0 := by
      cases c with
      | nil => simp at hc0
      | cons x c =>
        have h0 : decOne D ri s x.1 = decOne D ri s0 x.1 := by
          have e1 : (if ri ≠ 0 ∧ s.base.togo = 0 then
              match processRestart ri s.base with
              | none => none
              | some b => some { base := b, st := D.init }
            else some s) = some s0 := by
            rw [if_pos ⟨hri, htogo (by simp)⟩, hpr]
            dsimp only
            rw [hs0]
          have e2 : (if ri ≠ 0 ∧ s0.base.togo = 0 then
              match processRestart ri s0.base with
              | none => none
              | some b => some { base := b, st := D.init }
            else some s0) = some s0 := by
            rw [if_neg]
            subst hs0
            rintro ⟨-, h⟩
            exact hri h
          unfold decOne
          rw [e1, e2]
        simp only [List.map_cons, decGo, h0]
    obtain ⟨mk, rest', hmk', hmk0, hmkf⟩ := rstSegs_head (n := (s.base.rst + 1) % 8) (by omega) hm0 hmff
      (segs.map segment) tail
    obtain ⟨u1, u2⟩ := unstuff_segment l mk rest' hmk0 hmkf
    rw [← hmk'] at u1 u2
    have hb0 : s0.base.rd.bits = l ++ List.replicate ((8 - l.length % 8) % 8) true := by
      subst hs0
      simp only [Rd.bits, toBits_zero, if_true, List.nil_append]
      rw [u1, padOnes]
    have ht0 : s0.base.rd.tail = segTail false (rstSegs ((s.base.rst + 1) % 8) (segs.map segment) ++
        0xFF :: m :: tail) := by
      subst hs0
      simp only [Rd.tail, if_true]
      rw [u2, hmk']
      simp [segTail, hmk0, hmkf]
    have htn : s0.base.rd.tail ≠ none := by rw [ht0, hmk']; simp [segTail, hmk0, hmkf]
    obtain ⟨s1, e1, q1, q2, q3, q4, q5⟩ := decGo_seg D ri c (s := s0) (by subst hs0; exact hc)
      (by subst hs0; exact ⟨by simp, hrest⟩) htn (by subst hs0; rfl) hb0
      (by right; subst hs0; exact hc0.2)
    obtain ⟨s2, e2, p1, p2, p3, p4⟩ := ih (s := s1) (fun c hc => hlen c (by simp [hc]))
      (fun k hk => by have := hfull (k + 1) (by simpa using hk); simpa using this)
      q1.ok (by rw [q2]; simp; omega) (by rw [q1.insuff]; subst hs0; rfl)
      (by rw [q3]; subst hs0; rfl) (by rw [q4]; subst hs0; simp only [and7]; omega)
      (by
        intro hne
        have := hfull 0 (by have := List.length_pos_iff.2 hne; simp; omega)
        simp only [List.getD_cons_zero] at this
        rw [q5, if_pos hri, this]
        subst hs0
        simp)
      (by rw [q1.tail, ht0, q4]; subst hs0; simp only [and7])
    refine ⟨s2, ?_, ?_, p2, p3, p4⟩
    · simp only [List.flatten_cons, List.map_append]
      exact decGo_append D ri _ _ (hstep.trans e1) e2
    · rw [p1, q1.warns]; subst hs0; rfl

/-- **Frame theorem.**  If the calls of the scan are all writable, and within every restart segment the decoder can
follow the encoder, then the whole scan round-trips, without warning, ending exactly at the following marker. -/
theorem frame_roundtrip {τ : Type} (E : PEnc τ ι) (hE : E.NoRst) {κ : Type} (D : PDec σ κ ο)
    {T : Nat → CTbl} (hT : ∀ t, CWf (T t)) (ri : Nat) (xs : List (ι × κ × ο)) (toks : List Tok)
    (henc : encToks E ri (xs.map Prod.fst) = some toks) (hok : ∀ t ∈ toks, TokOk T t)
    (hruns : ∀ (c : List (ι × κ × ο)) (t : List Tok), (∀ x ∈ c, x ∈ xs) →
      encGo E 0 (c.map Prod.fst) E.init 0 0 = some t → (∀ x ∈ t, TokOk T x) →
      Runs D (c.map Prod.snd) D.init (tokTail T t).1)
    {m : Nat} (hm : 0 < m ∧ m < 0xFF) {tail : List Nat} (htail : IsBytes tail) :
    ∃ bytes s', writeScan T toks = some bytes ∧ IsBytes bytes ∧
      decGo D ri (xs.map (fun x => x.2.1)) (pInit D ri (bytes ++ [0xFF, m] ++ tail)) =
        some (xs.map (fun x => x.2.2), s') ∧
      s'.base.rd.warns = 0 ∧ endOfScan s'.base = some (m, tail, 0) := by
  -- split the scan into segments
  obtain ⟨c0, cs, segs, l0, hflat, hb1, hb2, hb3, hr0, hlen0, hlen, hfull, htogo⟩ :
      ∃ (c0 : List (ι × κ × ο)) (cs : List (List (ι × κ × ο))) (segs : List (List Bool)) (l0 : List Bool),
        c0 ++ cs.flatten = xs ∧ (tokTail T toks).1 = l0 ∧
        (tokTail T toks).2 = rstSegs 0 (segs.map segment) ∧
        List.Forall₂ (fun c l => Runs D c D.init l) (cs.map (fun c => c.map Prod.snd)) segs ∧
        Runs D (c0.map Prod.snd) D.init l0 ∧ (ri = 0 ∨ c0.length ≤ ri) ∧
        (∀ c ∈ cs, 0 < c.length ∧ c.length ≤ ri) ∧ (∀ k, k + 1 < cs.length → (cs.getD k []).length = ri) ∧
        (cs ≠ [] → ri ≠ 0 ∧ c0.length = ri) := by
    by_cases hri : ri = 0
    · subst hri
      have hn := encGo_noRst hE _ henc
      refine ⟨xs, [], [], (tokTail T toks).1, by simp, rfl, ?_, by simp, ?_, by simp, by simp, by simp, by simp⟩
      · rw [tokTail_snd _ _ hn]; rfl
      · exact hruns xs toks (fun _ h => h) henc hok
    · obtain ⟨t0, cts, g1, g2, g3⟩ := encGo_segs hri _ henc
      rw [← List.map_take] at g1
      rw [← List.map_drop] at g2
      have hchm : ∀ (l : List (ι × κ × ο)), chunks ri (l.map Prod.fst) = (chunks ri l).map (List.map Prod.fst) := by
        intro l
        generalize hk : l.length = k
        induction k using Nat.strongRecOn generalizing l with
        | ind k ih =>
          rw [chunks]
          conv => rhs; rw [chunks]
          by_cases hl : l = []
          · simp [hl]
          · have : 0 < l.length := List.length_pos_iff.2 hl
            rw [dif_neg (by simp [hri, hl]), dif_neg (by simp [hri, hl]), List.map_cons, ← List.map_take,
              ← List.map_drop, ih (l.drop ri).length (by simp; omega) _ rfl]
      rw [hchm, List.forall₂_map_left_iff] at g2
      have hn0 := encGo_noRst hE _ g1
      have hncs : ∀ t ∈ cts, NoRst t := by
        intro t ht
        clear hok g3
        generalize chunks ri (xs.drop ri) = cc at g2
        induction g2 with
        | nil => simp at ht
        | cons hd tl ih =>
          rcases List.mem_cons.1 ht with rfl | ht
          · exact encGo_noRst hE _ hd
          · exact ih ht
      have htt := tokTail_segs T t0 hn0 0 cts hncs
      rw [← g3] at htt
      have hmemc : ∀ c ∈ chunks ri (xs.drop ri), ∀ x ∈ c, x ∈ xs := by
        intro c hc x hx
        have : x ∈ (chunks ri (xs.drop ri)).flatten := List.mem_flatten.2 ⟨c, hc, hx⟩
        rw [chunks_flatten ri hri] at this
        exact List.mem_of_mem_drop this
      have hokr : ∀ t ∈ cts, ∀ x ∈ t, TokOk T x := by
        intro t ht x hx
        apply hok
        rw [g3, List.mem_append]
        right
        clear hncs htt g2 g3
        generalize 0 = n
        induction cts generalizing n with
        | nil => simp at ht
        | cons u cts ih =>
          simp only [rstToks, List.mem_cons, List.mem_append]
          rcases List.mem_cons.1 ht with rfl | ht
          · right; left; exact hx
          · right; right; exact ih ht _
      refine ⟨xs.take ri, chunks ri (xs.drop ri), cts.map (fun t => (tokTail T t).1), (tokTail T t0).1,
        ?_, by rw [htt], by rw [htt, List.map_map]; rfl, ?_, ?_, ?_, ?_, ?_, ?_⟩
      · rw [chunks_flatten ri hri, List.take_append_drop]
      · clear htt g3 hncs
        generalize chunks ri (xs.drop ri) = cc at *
        induction g2 with
        | nil => exact .nil
        | cons hd tl ih =>
          refine .cons ?_ (ih (fun t ht => hokr t (by simp [ht])) (fun c hc => hmemc c (by simp [hc])))
          exact hruns _ _ (hmemc _ (by simp)) hd (hokr _ (by simp))
      · exact hruns _ _ (fun x hx => List.mem_of_mem_take hx) g1
          (fun x hx => hok x (by rw [g3]; simp [hx]))
      · right; simp
      · exact (chunks_lengths ri hri (xs.drop ri)).2
      · exact (chunks_lengths ri hri (xs.drop ri)).1
      · intro hne
        refine ⟨hri, ?_⟩
        have : xs.drop ri ≠ [] := by
          intro h; rw [h, chunks_nil] at hne; exact hne rfl
        have := List.length_pos_iff.2 this
        simp at this ⊢
        omega
  have hbytes := isBytes_rstSegs 0 (by omega) segs
  have hw := writeScan_eq hT toks hok
  rw [hb1, hb2] at hw
  obtain ⟨mk, rest', hmk, hmk0, hmkf⟩ := rstSegs_head (n := 0) (m := m) (by omega) (by omega) (by omega)
    (segs.map segment) tail
  obtain ⟨u1, u2⟩ := unstuff_segment l0 mk rest' hmk0 hmkf
  rw [← hmk] at u1 u2
  have hall : segment l0 ++ rstSegs 0 (segs.map segment) ++ [0xFF, m] ++ tail =
      segment l0 ++ (rstSegs 0 (segs.map segment) ++ 0xFF :: m :: tail) := by simp
  refine ⟨segment l0 ++ rstSegs 0 (segs.map segment), ?_⟩
  have hisb : IsBytes (segment l0 ++ rstSegs 0 (segs.map segment)) := by
    rw [isBytes_append]; exact ⟨isBytes_segment _, hbytes⟩
  obtain ⟨s1, e1, q1, q2, q3, q4, q5⟩ := decGo_seg D ri (c0.map Prod.snd)
    (s := pInit D ri (segment l0 ++ rstSegs 0 (segs.map segment) ++ [0xFF, m] ++ tail)) (l := l0)
    (pad := List.replicate ((8 - l0.length % 8) % 8) true) hr0
    (by
      refine ⟨by simp [pInit, decInit], ?_⟩
      simp only [pInit, decInit]
      rw [isBytes_append, isBytes_append, isBytes_cons, isBytes_cons]
      exact ⟨⟨hisb, by omega, by omega, by simp⟩, htail⟩)
    (by
      simp only [pInit, decInit, Rd.tail, if_true]
      rw [hall, u2]; simp)
    rfl
    (by
      simp only [pInit, decInit, Rd.bits, toBits_zero, if_true, List.nil_append]
      rw [hall, u1, padOnes])
    (by
      rcases hlen0 with h | h
      · left; exact h
      · right; simpa [pInit, decInit] using h)
  have ht1 : s1.base.rd.tail = segTail false (rstSegs 0 (segs.map segment) ++ 0xFF :: m :: tail) := by
    rw [q1.tail]
    simp only [pInit, decInit, Rd.tail, if_true]
    rw [hall, u2, hmk]
    simp [segTail, hmk0, hmkf]
  have hrst1 : s1.base.rst = 0 := by rw [q4]; rfl
  have hw1 : s1.base.rd.warns = 0 := by rw [q1.warns]; rfl
  have hd1 : s1.base.disc = 0 := by rw [q3]; rfl
  obtain ⟨s2, e2, p1, p2, p3, p4⟩ : ∃ s2, decGo D ri ((cs.map (fun c => c.map Prod.snd)).flatten.map Prod.fst) s1 =
      some ((cs.map (fun c => c.map Prod.snd)).flatten.map Prod.snd, s2) ∧
      s2.base.rd.warns = s1.base.rd.warns ∧ s2.base.disc = 0 ∧ s2.base.rd.tail = some (m, tail) ∧
      s2.base.rd.bits.length < 8 := by
    by_cases hcs : cs = []
    · subst hcs
      cases hb3
      refine ⟨s1, rfl, rfl, hd1, ?_, by rw [q2]; simp; omega⟩
      rw [ht1]
      simp only [List.map_nil, rstSegs, List.nil_append, segTail, if_true]
      rw [if_neg (by omega), if_neg (by omega)]
    · obtain ⟨hri, hc0⟩ := htogo hcs
      refine decGo_rst D hri (by omega) (by omega) (by omega) htail _ segs hb3 ?_ ?_ q1.ok
        (by rw [q2]; simp; omega) (by rw [q1.insuff]; rfl) hd1 (by rw [hrst1]; omega) ?_
        (by rw [ht1, hrst1])
      · intro c hc
        obtain ⟨c', hc', rfl⟩ := List.mem_map.1 hc
        simpa using hlen c' hc'
      · intro k hk
        rw [List.length_map] at hk
        have := hfull k hk
        simp only [List.getD_eq_getElem?_getD, List.getElem?_map] at this ⊢
        rw [List.getElem?_eq_getElem (by omega)] at this ⊢
        simpa using this
      · intro _
        rw [q5, if_pos hri]
        simp [pInit, decInit, hc0]
  refine ⟨s2, hw, hisb, ?_, by rw [p1, hw1], ?_⟩
  · have := decGo_append D ri _ _ e1 e2
    rw [← List.map_append, ← List.map_append] at this
    have hf : c0.map Prod.snd ++ (cs.map (fun c => c.map Prod.snd)).flatten = xs.map Prod.snd := by
      rw [← hflat, List.map_append, List.map_flatten]
    rw [hf, List.map_map, List.map_map] at this
    exact this
  · unfold endOfScan
    split
    · rename_i h
      simp only [Rd.tail, if_neg h] at p3
      simp at p3
      simp [p3, p2]
    · rename_i h
      rw [p2]
      exact endOfScan_aux p3 p4 (by simpa using h)

end Verif.Prog
