import Verif.Arith.McuProps
import Verif.Arith.Props
import Verif.Rst.Props
/-
C49, one scan: the arithmetic-coded data of a scan, restarts included, give the coefficients back.
-/
namespace Verif.Arith
open Verif Verif.Huff
open Verif.Geom (Pos Blk storeMcu)

/-! ### Sequencing -/

theorem encodeSt_fst (ds : List (Bin × Bool)) : ∀ s : Enc × (Bin → Nat), (encodeSt s ds).1 = encodeAll s.1 s.2 ds := by
  induction ds with
  | nil => intro s; rfl
  | cons d ds ih => intro s; rw [encodeSt, ih, encodeAll]

theorem encodeSt_append (a : List (Bin × Bool)) : ∀ (b : List (Bin × Bool)) (s : Enc × (Bin → Nat)),
    encodeSt s (a ++ b) = encodeSt (encodeSt s a) b := by
  induction a with
  | nil => intro b s; rfl
  | cons d a ih => intro b s; rw [List.cons_append, encodeSt, ih, encodeSt]

theorem run_bind {α γ : Type} (r : Rdr Bin α) (f : α → Rdr Bin γ) : ∀ (d : Dec) (σ : Bin → Nat),
    (r.bind f).run d σ = (r.run d σ).bind fun x => (f x.1).run x.2.1 x.2.2 := by
  induction r with
  | ret x => intro d σ; rfl
  | ask b k ih =>
    intro d σ
    rw [Rdr.bind, Rdr.run, Rdr.run]
    cases decode1 d (σ b) with
    | none => rfl
    | some x => exact ih _ _ _

/-- Either fresh, or `ct` is not negative; in particular `ct` is not -1. -/
def CtOk (d : Dec) : Prop := (d.ct = -16 ∧ d.a = 0) ∨ 0 ≤ d.ct

theorem CtOk.ne {d : Dec} (h : CtOk d) : d.ct ≠ -1 := by rcases h with h | h <;> omega

theorem shiftD_ct {d d' : Dec} (h : shiftD d = some d') (h0 : 0 ≤ d.ct) : 0 ≤ d'.ct := by
  unfold shiftD at h
  split at h
  · split at h
    · simp at h
    · simp only [Option.some.injEq] at h
      rw [if_neg (by omega)] at h
      rw [← h]
      dsimp only
      omega
  · simp only [Option.some.injEq] at h
    rw [← h]
    dsimp only
    omega

theorem renormD_ct (n : Nat) : ∀ {d d' : Dec}, renormD n d = some d' → 0 ≤ d.ct → 0 ≤ d'.ct := by
  induction n with
  | zero => intro d d' h h0; simp only [renormD, Option.some.injEq] at h; rw [← h]; exact h0
  | succ n ih =>
    intro d d' h h0
    rw [renormD] at h
    split at h
    · cases e : shiftD d with
      | none => rw [e] at h; simp at h
      | some x => rw [e, Option.bind_some] at h; exact ih h (shiftD_ct e h0)
    · simp only [Option.some.injEq] at h; rw [← h]; exact h0

theorem shiftD_fresh {d d' : Dec} (h : shiftD d = some d') (h0 : d.ct = -16) (ha : d.a = 0) : d'.ct = -8 ∧ d'.a = 0 := by
  unfold shiftD at h
  rw [if_pos (by omega)] at h
  split at h
  · simp at h
  · simp only [Option.some.injEq] at h
    rw [if_pos (by omega)] at h
    rw [← h]
    dsimp only
    rw [if_neg (by omega)]
    omega

theorem shiftD_half {d d' : Dec} (h : shiftD d = some d') (h0 : d.ct = -8) : d'.ct = 0 := by
  unfold shiftD at h
  rw [if_pos (by omega)] at h
  split at h
  · simp at h
  · simp only [Option.some.injEq] at h
    rw [if_pos (by omega)] at h
    rw [← h]
    dsimp only
    omega

theorem renormD_fresh {n : Nat} {d d' : Dec} (h : renormD (n + 2) d = some d') (h0 : d.ct = -16) (ha : d.a = 0) : 0 ≤ d'.ct := by
  rw [renormD, if_pos (by omega)] at h
  cases e : shiftD d with
  | none => rw [e] at h; simp at h
  | some x =>
    obtain ⟨x1, x2⟩ := shiftD_fresh e h0 ha
    rw [e, Option.bind_some, renormD, if_pos (by omega)] at h
    cases e2 : shiftD x with
    | none => rw [e2] at h; simp at h
    | some y => rw [e2, Option.bind_some] at h; exact renormD_ct n h (by have := shiftD_half e2 x1; omega)

theorem decide1_ct (d : Dec) (sv : Nat) : (decide1 d sv).2.1.ct = d.ct := by
  unfold decide1
  dsimp only
  split <;> split <;> first | rfl | (split <;> rfl)

theorem decode1_ct {d : Dec} {sv : Nat} {x : Bool × Dec × Nat} (h : decode1 d sv = some x) (hd : CtOk d) : CtOk x.2.1 := by
  unfold decode1 at h
  cases e : renormD 16 d with
  | none => rw [e] at h; simp at h
  | some y =>
    rw [e, Option.map_some, Option.some.injEq] at h
    rw [← h]
    right
    rw [decide1_ct]
    rcases hd with ⟨h1, h2⟩ | h1
    · exact renormD_fresh e h1 h2
    · exact renormD_ct 16 e h1

theorem run_ct {α : Type} (r : Rdr Bin α) : ∀ {d : Dec} {σ : Bin → Nat} {x : α × Dec × (Bin → Nat)}, r.run d σ = some x →
    CtOk d → CtOk x.2.1 := by
  induction r with
  | ret y =>
    intro d σ x h hd
    simp only [Rdr.run, Option.some.injEq] at h
    rw [← h]; exact hd
  | ask b k ih =>
    intro d σ x h hd
    rw [Rdr.run] at h
    cases e : decode1 d (σ b) with
    | none => rw [e] at h; simp at h
    | some y =>
      rw [e] at h
      exact ih _ h (decode1_ct e hd)

/-! ### A segment: the MCUs between two restarts -/

/-- The decisions of the MCUs of a segment. -/
def segEnc (p : APar) : List (List Blk) → Pred → List (Bin × Bool) × Pred
  | [], s => ([], s)
  | m :: ms, s =>
    let r := encMcu p m s
    let t := segEnc p ms r.2
    (r.1 ++ t.1, t.2)

/-- The decoding procedure for a segment. -/
def segRdr (p : APar) : List (List Blk) → Pred → Rdr Bin (List (List Blk) × Pred × Bool)
  | [], s => .ret ([], s, true)
  | c :: cs, s => (rMcu p c s).bind fun r =>
    if r.2.2 then (segRdr p cs r.2.1).bind fun t => .ret (r.1 :: t.1, t.2) else .ret (r.1 :: cs, r.2.1, false)

/-- An MCU in the encoder and the blocks the decoder has for it. -/
structure McuOk (p : APar) (mcu cur : List Blk) : Prop where
  size : if p.prog = true ∧ p.Ss ≠ 0 then mcu.length = 1 else mcu.length = p.bs.length
  blk : ∀ o ∈ mcu, BlkOk o
  ready : List.Forall₂ p.Ready mcu cur

theorem seg_replay (p : APar) (hp : p.Ok) {ms cs : List (List Blk)} (h : List.Forall₂ (McuOk p) ms cs) :
    ∀ {e d : Pred}, Rel e d → LastIn e → ∃ d', (segRdr p cs d).replay (segEnc p ms e).1 =
      some (List.zipWith (List.zipWith p.res) ms cs, d', true) := by
  induction h with
  | nil => intro e d _ _; exact ⟨d, rfl⟩
  | @cons m c ms cs hm _ ih =>
    intro e d hr hl
    obtain ⟨d1, g1, g2, g3⟩ := encMcu_spec p hp m c e d hm.ready.length_eq hm.size hm.blk hm.ready hr hl
    obtain ⟨d2, g4⟩ := ih g2 g3
    refine ⟨d2, ?_⟩
    rw [segRdr, segEnc]
    dsimp only
    rw [replay_bind g1]
    simp only [if_true]
    rw [replay_bind' g4, replay_ret, List.zipWith_cons_cons]

/-- Encoder: a segment. -/
theorem enc_seg (p : APar) (ms : List (List Blk)) : ∀ s : ES, (p.ri ≠ 0 → ms.length ≤ s.togo) →
    ms.foldl (ES.mcu p) s = ⟨encodeSt s.e (segEnc p ms s.pr).1, (segEnc p ms s.pr).2,
      if p.ri ≠ 0 then s.togo - ms.length else s.togo, s.rst⟩ := by
  induction ms with
  | nil => intro s _; simp [segEnc, encodeSt]
  | cons m ms ih =>
    intro s h
    have e1 : ES.mcu p s m = ⟨encodeSt s.e (encMcu p m s.pr).1, (encMcu p m s.pr).2, if p.ri ≠ 0 then s.togo - 1 else s.togo, s.rst⟩ := by
      unfold ES.mcu
      by_cases hri : p.ri ≠ 0
      · have := h hri
        simp only [List.length_cons] at this
        simp only [if_pos hri]
        rw [if_neg (show ¬ s.togo = 0 by omega)]
      · simp only [if_neg hri]
    rw [List.foldl_cons, e1, ih]
    · dsimp only
      rw [← encodeSt_append, segEnc]
      dsimp only
      congr 1
      by_cases hri : p.ri ≠ 0
      · simp only [if_pos hri, List.length_cons]; omega
      · simp only [if_neg hri]
    · intro hri
      have := h hri
      simp only [List.length_cons] at this
      simp only [if_pos hri]
      omega

theorem enc_restart (p : APar) (hri : p.ri ≠ 0) (m : List Blk) (ms : List (List Blk)) (s : ES) (h : s.togo = 0) :
    (m :: ms).foldl (ES.mcu p) s = (m :: ms).foldl (ES.mcu p) (s.restart p.ri) := by
  rw [List.foldl_cons, List.foldl_cons]
  congr 1
  unfold ES.mcu
  simp only [if_pos hri, if_pos h]
  rw [if_neg (show ¬(s.restart p.ri).togo = 0 by simpa [ES.restart] using hri)]

/-- Decoding MCUs, given their blocks: `decAImg` without the arrays. -/
def decAGo (p : APar) : List (List Blk) → DS → Option (List (List Blk) × DS)
  | [], s => some ([], s)
  | c :: cs, s =>
    match s.mcu p c with
    | none => none
    | some (o, s) => (decAGo p cs s).map fun x => (o :: x.1, x.2)

theorem decAGo_append (p : APar) (a : List (List Blk)) : ∀ (b : List (List Blk)) (s : DS),
    decAGo p (a ++ b) s = (decAGo p a s).bind fun x => (decAGo p b x.2).map fun y => (x.1 ++ y.1, y.2) := by
  induction a with
  | nil =>
    intro b s
    simp only [List.nil_append, decAGo, Option.bind_some]
    cases decAGo p b s <;> rfl
  | cons c a ih =>
    intro b s
    rw [List.cons_append, decAGo, decAGo]
    cases e : s.mcu p c with
    | none => rfl
    | some x =>
      dsimp only
      rw [ih]
      cases decAGo p a x.2 with
      | none => rfl
      | some y =>
        simp only [Option.bind_some, Option.map_some]
        cases decAGo p b y.2 <;> simp

theorem dec_seg (p : APar) (cs : List (List Blk)) : ∀ (s : DS) {ys : List (List Blk)} {pr : Pred} {d : Dec} {σ : Bin → Nat},
    (p.ri ≠ 0 → cs.length ≤ s.togo) → CtOk s.d → (segRdr p cs s.pr).run s.d s.σ = some ((ys, pr, true), d, σ) →
    decAGo p cs s = some (ys, { s with d := d, σ := σ, pr := pr, togo := if p.ri ≠ 0 then s.togo - cs.length else s.togo }) := by
  induction cs with
  | nil =>
    intro s ys pr d σ _ _ h
    simp only [segRdr, Rdr.run, Option.some.injEq, Prod.mk.injEq] at h
    obtain ⟨⟨rfl, rfl, -⟩, rfl, rfl⟩ := h
    simp [decAGo]
  | cons c cs ih =>
    intro s ys pr d σ ht hd h
    rw [segRdr, run_bind] at h
    cases e : (rMcu p c s.pr).run s.d s.σ with
    | none => rw [e] at h; simp at h
    | some x =>
      obtain ⟨⟨o, pr1, ok⟩, d1, σ1⟩ := x
      rw [e] at h
      simp only [Option.bind_some] at h
      cases ok with
      | false => simp [Rdr.run] at h
      | true =>
        simp only [if_true] at h
        rw [run_bind] at h
        cases e2 : (segRdr p cs pr1).run d1 σ1 with
        | none => rw [e2] at h; simp at h
        | some z =>
          obtain ⟨⟨os, pr2, ok⟩, d2, σ2⟩ := z
          rw [e2] at h
          simp only [Option.bind_some, Rdr.run, Option.some.injEq, Prod.mk.injEq] at h
          obtain ⟨⟨rfl, rfl, rfl⟩, rfl, rfl⟩ := h
          have hd1 : CtOk d1 := run_ct _ e hd
          have e3 : s.mcu p c = some (o, { s with d := d1, σ := σ1, pr := pr1, togo := if p.ri ≠ 0 then s.togo - 1 else s.togo }) := by
            unfold DS.mcu
            by_cases hri : p.ri ≠ 0
            · have := ht hri
              simp only [List.length_cons] at this
              simp only [if_pos hri, if_neg (show ¬ s.togo = 0 by omega), Option.map_some]
              rw [if_neg (fun h => hd.ne h.1), e]
              simp
            · simp only [if_neg hri]
              rw [if_neg (fun h => hd.ne h.1), e]
              simp
          rw [decAGo, e3]
          dsimp only
          rw [ih _ (by
            intro hri
            have := ht hri
            simp only [List.length_cons] at this
            simp only [if_pos hri]
            omega) hd1 e2]
          simp only [Option.map_some, Option.some.injEq, Prod.mk.injEq, true_and]
          by_cases hri : p.ri ≠ 0
          · simp only [if_pos hri, List.length_cons]
            congr 1
            omega
          · simp only [if_neg hri]

theorem dec_restart (p : APar) (hri : p.ri ≠ 0) (c : List Blk) (cs : List (List Blk)) (s : DS) (h : s.togo = 0) :
    decAGo p (c :: cs) s = (s.restart p.ri).bind (decAGo p (c :: cs)) := by
  rw [decAGo]
  have e1 : s.mcu p c = (s.restart p.ri).bind fun s' => s'.mcu p c := by
    unfold DS.mcu
    simp only [if_pos hri, if_pos h]
    cases e : s.restart p.ri with
    | none => rfl
    | some s' =>
      have ht : s'.togo = p.ri := by
        unfold DS.restart at e
        split at e
        · simp at e
        · simp only [Option.some.injEq] at e; rw [← e]
      simp only [Option.map_some, Option.bind_some]
      rw [if_neg (show ¬ s'.togo = 0 by omega)]
      rfl
  rw [e1]
  cases e : s.restart p.ri with
  | none => rfl
  | some s' =>
    simp only [Option.bind_some]
    rw [decAGo]

/-! ### Restarts -/

theorem scan_found {l : List Nat} {m : Nat} {rest : List Nat} (hu : unstuff true l = []) (ht : segTail true l = some (m, rest)) :
    ∀ (d : Nat) (sync : List Nat), Rst.scan d sync true l = (d, .inl (m, rest)) := by
  induction l with
  | nil => simp [segTail] at ht
  | cons c l ih =>
    intro d sync
    rw [unstuff] at hu
    rw [segTail] at ht
    rw [Rst.scan]
    by_cases hc : c = 0xFF
    · rw [if_pos hc] at hu ht ⊢
      exact ih hu ht d sync
    · rw [if_neg hc] at hu ht ⊢
      by_cases hc0 : c = 0
      · rw [if_pos hc0] at hu; simp at hu
      · rw [if_neg hc0] at ht
        simp only [Option.some.injEq, Prod.mk.injEq] at ht
        rw [if_pos hc0, ht.1, ht.2]

/-- Where the marker reader finds the marker that ends a segment: no byte is skipped. -/
theorem marker_found {d : Dec} {m : Nat} {rest : List Nat} (ht : d.tail = some (m, rest)) (hu : d.unread = []) (num : Nat)
    (warns : List Rst.Warn) : (d.marker = m ∧ m ≠ 0 ∧ d.bytes = rest) ∨ (d.marker = 0 ∧
      Rst.nextMarker ⟨0, 0, num, d.bytes, warns⟩ = (true, ⟨m, 0, num, rest, warns⟩)) := by
  unfold Dec.tail at ht
  unfold Dec.unread at hu
  by_cases hm : d.marker ≠ 0
  · rw [if_pos hm] at ht
    simp only [Option.some.injEq, Prod.mk.injEq] at ht
    exact Or.inl ⟨ht.1, by omega, ht.2⟩
  · rw [if_neg hm] at ht hu
    refine Or.inr ⟨by omega, ?_⟩
    unfold Rst.nextMarker
    cases hb : d.bytes with
    | nil => rw [hb] at ht; simp [segTail] at ht
    | cons c l =>
      rw [hb, unstuff] at hu
      rw [hb, segTail] at ht
      by_cases hc : c = 0xFF
      · rw [if_pos hc] at hu ht
        rw [Rst.scan, if_neg (by omega), scan_found hu ht]
        simp
      · rw [if_neg hc] at hu; simp at hu

/-- process_restart at the end of a good segment: the decoder is fresh, after the marker. -/
theorem restart_ok (ri : Nat) (s : DS) {rest : List Nat} (ht : s.d.tail = some (0xD0 + s.num, rest)) (hu : s.d.unread = [])
    (hdisc : s.disc = 0) : s.restart ri = some ⟨Dec.init rest, σ0, Pred.init, ri, 0, (s.num + 1) % 8, s.warns, s.bad⟩ := by
  unfold DS.restart
  rcases marker_found ht hu s.num s.warns with ⟨h1, h2, h3⟩ | ⟨h1, h2⟩
  · rw [(Rst.C30_expected _).1 h1]
    dsimp only
    rw [h3, hdisc]
    rfl
  · have : Rst.readRestart ⟨s.d.marker, s.disc, s.num, s.d.bytes, s.warns⟩ = (true, ⟨0, 0, (s.num + 1) % 8, rest, s.warns⟩) := by
      unfold Rst.readRestart
      rw [if_pos h1, h1, hdisc, h2]
      dsimp only
      unfold Rst.handle
      rw [if_pos rfl]
    rw [this]
    rfl

theorem good_σ0 : ∀ b, Good (σ0 b) := by
  intro b
  cases b <;> exact ⟨by simp [σ0], by simp [σ0]⟩

theorem CtOk.init (bytes : List Nat) : CtOk (Dec.init bytes) := Or.inl ⟨rfl, rfl⟩

/-- From a fresh segment on: the bytes the encoder appends, and what the decoder makes of them. -/
theorem segs_roundtrip (p : APar) (hp : p.Ok) : ∀ (n : Nat) (ms cs : List (List Blk)), ms.length ≤ n → List.Forall₂ (McuOk p) ms cs →
    ∀ (pre : List Nat) (num : Nat), num < 8 → ∃ seg,
      finish (ms.foldl (ES.mcu p) ⟨(Enc.init pre, σ0), Pred.init, p.ri, num⟩).e.1 = pre ++ seg ∧
      ∀ m rest (warns : List Rst.Warn) (bad : Nat), m ≠ 0 → m ≠ 0xFF → ∃ s' : DS,
        decAGo p cs ⟨Dec.init (seg ++ 0xFF :: m :: rest), σ0, Pred.init, p.ri, 0, num, warns, bad⟩ =
          some (List.zipWith (List.zipWith p.res) ms cs, s') ∧
        s'.d.tail = some (m, rest) ∧ s'.d.unread = [] ∧ s'.disc = 0 ∧ s'.warns = warns ∧ s'.bad = bad := by
  intro n
  induction n with
  | zero =>
    intro ms cs hn h pre num hnum
    have hms : ms = [] := List.length_eq_zero_iff.1 (by omega)
    subst hms
    cases h
    obtain ⟨seg, h1, h2⟩ := C04_arith_roundtrip (segRdr p [] Pred.init) [] ([], Pred.init, true) rfl σ0 good_σ0 pre
    refine ⟨seg, h1, ?_⟩
    intro m rest warns bad hm hm2
    obtain ⟨d, σ', g1, g2, g3⟩ := h2 m rest hm hm2
    simp only [segRdr, Rdr.run, Option.some.injEq, Prod.mk.injEq] at g1
    obtain ⟨-, rfl, -⟩ := g1
    exact ⟨_, rfl, g2, g3, rfl, rfl, rfl⟩
  | succ n ih =>
    intro ms cs hn h pre num hnum
    by_cases hone : p.ri ≠ 0 → ms.length ≤ p.ri
    · obtain ⟨pr, hrep⟩ := seg_replay p hp h Rel.init LastIn.init
      obtain ⟨seg, h1, h2⟩ := C04_arith_roundtrip (segRdr p cs Pred.init) _ _ hrep σ0 good_σ0 pre
      refine ⟨seg, ?_, ?_⟩
      · rw [enc_seg p ms _ hone]
        dsimp only
        rw [encodeSt_fst]
        exact h1
      · intro m rest warns bad hm hm2
        obtain ⟨d, σ', g1, g2, g3⟩ := h2 m rest hm hm2
        refine ⟨_, dec_seg p cs _ (by rw [← h.length_eq]; exact hone) (CtOk.init _) g1, g2, g3, rfl, rfl, rfl⟩
    · simp only [Classical.not_imp, Nat.not_le] at hone
      obtain ⟨hri, hlen⟩ := hone
      obtain ⟨m1, ms2, hms⟩ : ∃ x xs, ms.drop p.ri = x :: xs := by
        cases e : ms.drop p.ri with
        | nil => rw [List.drop_eq_nil_iff] at e; omega
        | cons x xs => exact ⟨x, xs, rfl⟩
      obtain ⟨c1, cs2, hcs⟩ : ∃ x xs, cs.drop p.ri = x :: xs := by
        cases e : cs.drop p.ri with
        | nil => rw [List.drop_eq_nil_iff] at e; have := h.length_eq; omega
        | cons x xs => exact ⟨x, xs, rfl⟩
      have hms' : ms = ms.take p.ri ++ m1 :: ms2 := by rw [← hms, List.take_append_drop]
      have hcs' : cs = cs.take p.ri ++ c1 :: cs2 := by rw [← hcs, List.take_append_drop]
      have hA : List.Forall₂ (McuOk p) (ms.take p.ri) (cs.take p.ri) := List.forall₂_take _ h
      have hB : List.Forall₂ (McuOk p) (m1 :: ms2) (c1 :: cs2) := by rw [← hms, ← hcs]; exact List.forall₂_drop _ h
      have hlA : (ms.take p.ri).length = p.ri := by rw [List.length_take]; omega
      have hlC : (cs.take p.ri).length = p.ri := by rw [← hA.length_eq, hlA]
      obtain ⟨pr, hrep⟩ := seg_replay p hp hA Rel.init LastIn.init
      obtain ⟨seg, h1, h2⟩ := C04_arith_roundtrip (segRdr p (cs.take p.ri) Pred.init) _ _ hrep σ0 good_σ0 pre
      obtain ⟨seg2, h3, h4⟩ := ih (m1 :: ms2) (c1 :: cs2) (by rw [← hms, List.length_drop]; omega) hB
        (pre ++ seg ++ [0xFF, 0xD0 + num]) ((num + 1) % 8) (by omega)
      refine ⟨seg ++ [0xFF, 0xD0 + num] ++ seg2, ?_, ?_⟩
      · rw [hms', List.foldl_append, enc_seg p (ms.take p.ri) _ (by intro _; exact hlA.le), enc_restart p hri _ _ _ (by simp only [if_pos hri, hlA]; omega)]
        unfold ES.restart
        dsimp only
        rw [encodeSt_fst]
        dsimp only
        rw [h1, h3]
        simp
      · intro m rest warns bad hm hm2
        obtain ⟨d, σ', g1, g2, g3⟩ := h2 (0xD0 + num) (seg2 ++ 0xFF :: m :: rest) (by omega) (by omega)
        obtain ⟨s', g4, g5⟩ := h4 m rest warns bad hm hm2
        refine ⟨s', ?_, g5⟩
        have hb : seg ++ [0xFF, 0xD0 + num] ++ seg2 ++ 0xFF :: m :: rest = seg ++ 0xFF :: (0xD0 + num) :: (seg2 ++ 0xFF :: m :: rest) := by
          simp
        have hz : List.zipWith (List.zipWith p.res) ms cs = List.zipWith (List.zipWith p.res) (ms.take p.ri) (cs.take p.ri) ++
            List.zipWith (List.zipWith p.res) (m1 :: ms2) (c1 :: cs2) := by
          conv => lhs; rw [hms', hcs']
          exact List.zipWith_append (by rw [hlA, hlC])
        rw [hb, hz]
        conv => lhs; rw [hcs']
        rw [decAGo_append, dec_seg p _ _ (by intro _; exact hlC.le) (CtOk.init _) g1, Option.bind_some,
          dec_restart p hri _ _ _ (by simp only [if_pos hri, hlC]; omega),
          restart_ok _ _ (by exact g2) (by exact g3) rfl, Option.bind_some]
        dsimp only
        rw [g4]
        rfl

/-! ### Into the arrays -/

theorem decAImg_of_decAGo (p : APar) (W : List (List Pos)) (hW : W.flatten.Nodup) (cur g : Pos → Blk) {s s' : DS}
    (h : decAGo p (W.map (fun ps => ps.map cur)) s = some (W.map (fun ps => ps.map g), s')) :
    decAImg p W cur s = some (fun q => if q ∈ W.flatten then g q else cur q, s') := by
  induction W generalizing cur s with
  | nil =>
    simp only [List.map_nil, decAGo, Option.some.injEq, Prod.mk.injEq, true_and] at h
    subst h
    simp [decAImg]
  | cons ps W ih =>
    simp only [List.map_cons, decAGo] at h
    split at h
    · simp at h
    rename_i o s1 e1
    cases e2 : decAGo p (W.map fun ps => ps.map cur) s1 with
    | none => rw [e2] at h; simp at h
    | some y =>
    obtain ⟨os, s2⟩ := y
    rw [e2] at h
    simp only [Option.map_some, Option.some.injEq, Prod.mk.injEq, List.cons.injEq] at h
    obtain ⟨⟨rfl, rfl⟩, rfl⟩ := h
    rw [List.flatten_cons, List.nodup_append] at hW
    obtain ⟨-, h2, h3⟩ := hW
    have hc : W.map (fun ps' => ps'.map (fun q => if q ∈ ps then g q else cur q)) = W.map (fun ps' => ps'.map cur) := by
      apply List.map_congr_left
      intro ps' hps
      apply List.map_congr_left
      intro q hq
      rw [if_neg]
      intro hq'
      exact h3 q hq' q (List.mem_flatten.2 ⟨ps', hps, hq⟩) rfl
    have := ih h2 (fun q => if q ∈ ps then g q else cur q) (s := s1) (by rw [hc]; exact e2)
    rw [decAImg, e1]
    dsimp only
    rw [Prog.storeMcu_eq, this]
    congr 2
    funext q
    simp only [List.flatten_cons, List.mem_append]
    by_cases h1 : q ∈ W.flatten <;> by_cases h2 : q ∈ ps <;> simp only [h1, h2, or_true, or_false, if_true, if_false]

/-- What the marker reader finds after the scan: a marker pending from the entropy decoder, or the next in the data (jdinput.c
finish_input_pass, jdmarker.c read_markers): code, what follows, warnings issued. -/
def DS.endOfScan (s : DS) : Option (Nat × List Nat × List Rst.Warn) :=
  if s.d.marker ≠ 0 then some (s.d.marker, s.d.bytes, s.warns)
  else
    match Rst.nextMarker ⟨0, s.disc, s.num, s.d.bytes, s.warns⟩ with
    | (false, _) => none
    | (true, r) => some (r.unread, r.buf, r.warns)

theorem endOfScan_ok {s : DS} {m : Nat} {rest : List Nat} (ht : s.d.tail = some (m, rest)) (hu : s.d.unread = [])
    (hdisc : s.disc = 0) : s.endOfScan = some (m, rest, s.warns) := by
  unfold DS.endOfScan
  rcases marker_found ht hu s.num s.warns with ⟨h1, h2, h3⟩ | ⟨h1, h2⟩
  · rw [if_pos (by omega), h1, h3]
  · rw [if_neg (by omega), hdisc, h2]

/-- C49, one scan: any MCUs, any restart interval, any conditioning. -/
theorem ascan_roundtrip (p : APar) (hp : p.Ok) (W : List (List Pos)) (hW : W.flatten.Nodup)
    (hsize : ∀ ps ∈ W, if p.prog = true ∧ p.Ss ≠ 0 then ps.length = 1 else ps.length = p.bs.length)
    (E cur : Pos → Blk) (hE : ∀ q ∈ W.flatten, BlkOk (E q)) (hready : ∀ q ∈ W.flatten, p.Ready (E q) (cur q))
    {m : Nat} (hm : m ≠ 0) (hm2 : m ≠ 0xFF) (tail : List Nat) :
    ∃ s', decAScan p W (encAScan p (W.map fun ps => ps.map E) ++ 0xFF :: m :: tail) cur =
        some (fun q => if q ∈ W.flatten then p.res (E q) (cur q) else cur q, s') ∧
      s'.endOfScan = some (m, tail, []) ∧ s'.bad = 0 := by
  have h2 : List.Forall₂ (McuOk p) (W.map fun ps => ps.map E) (W.map fun ps => ps.map cur) := by
    rw [List.forall₂_map_left_iff, List.forall₂_map_right_iff, List.forall₂_same]
    intro ps hps
    have hin : ∀ q ∈ ps, q ∈ W.flatten := fun q hq => List.mem_flatten.2 ⟨ps, hps, hq⟩
    refine ⟨by simpa using hsize ps hps, ?_, ?_⟩
    · intro o ho
      obtain ⟨q, hq, rfl⟩ := List.mem_map.1 ho
      exact hE q (hin q hq)
    · rw [List.forall₂_map_left_iff, List.forall₂_map_right_iff, List.forall₂_same]
      exact fun q hq => hready q (hin q hq)
  obtain ⟨seg, h3, h4⟩ := segs_roundtrip p hp _ _ _ (Nat.le_refl _) h2 [] 0 (by omega)
  obtain ⟨s', g1, g2, g3, g4, g5, g6⟩ := h4 m tail [] 0 hm hm2
  refine ⟨s', ?_, ?_, g6⟩
  · unfold decAScan encAScan ES.init DS.init
    rw [h3, List.nil_append]
    apply decAImg_of_decAGo p W hW
    rw [g1]
    congr 2
    rw [Prog.zipWith_maps]
    apply List.map_congr_left
    intro ps _
    rw [Prog.zipWith_maps]
  · rw [endOfScan_ok g2 g3 g4, g5]

end Verif.Arith
