import Verif.Prog.FeedSafe
import Verif.Rst.Suffix
/-
C54.
-/
namespace Verif.Prog
open Verif Verif.Huff
open Verif.Geom (Pos Blk storeMcu)
open Verif.Arith (Touch store_touch storeMcu_same)

variable {σ : Type} {R : PRun σ} {D : PDec σ (List Blk) (List Blk)} {I : σ → Prop} {nb lo hi ri : Nat} {E : Prop}

/-- The restart counter ran out. -/
def Due (ri : Nat) (s : PSt σ) : Prop := ri ≠ 0 ∧ s.base.togo = 0

instance (ri : Nat) (s : PSt σ) : Decidable (Due ri s) := inferInstanceAs (Decidable (_ ∧ _))

/-- The restart count after an MCU. -/
def nextTogo (ri : Nat) (s : PSt σ) : Nat := if ri ≠ 0 then s.base.togo - 1 else s.base.togo

theorem decOne_plain (hS : Sound R D I nb lo hi E) {s : PSt σ} (hr : ¬ Due ri s) (p : List Blk) :
    decOne D ri s p = if R.skip && s.base.rd.insuff then some (p, ⟨{ s.base with togo := nextTogo ri s }, s.st⟩)
      else (D.step s.st p s.base.rd).map fun x => (x.1, ⟨{ s.base with rd := x.2.2, togo := nextTogo ri s }, x.2.1⟩) := by
  unfold decOne
  rw [if_neg (show ¬ (ri ≠ 0 ∧ s.base.togo = 0) from hr)]
  dsimp only
  rw [hS.skip]
  cases R.skip <;> cases s.base.rd.insuff
  · cases h : D.step s.st p s.base.rd <;> simp [nextTogo]
  · cases h : D.step s.st p s.base.rd <;> simp [nextTogo]
  · cases h : D.step s.st p s.base.rd <;> simp [nextTogo]
  · rfl

theorem decOne_restart {s : PSt σ} (hr : Due ri s) {b : DSt} (hb : processRestart ri s.base = some b) (ht : b.togo = ri) (p : List Blk) :
    decOne D ri s p = decOne D ri ⟨b, D.init⟩ p := by
  conv_rhs => unfold decOne
  conv_lhs => unfold decOne
  rw [if_pos (show ri ≠ 0 ∧ s.base.togo = 0 from hr), hb, if_neg (show ¬ (ri ≠ 0 ∧ b.togo = 0) by rw [ht]; intro h; exact h.1 h.2)]

/-- The part of a call after the restart. -/
def callBody (R : PRun σ) (ri : Nat) (blks : List Blk) (s : PSt σ) : Call σ :=
  if R.skip && s.base.rd.insuff then .ok blks ⟨{ s.base with togo := nextTogo ri s }, s.st⟩
  else
    match R.run s.st blks s.base.rd with
    | .ok (o, st, rd) => .ok o ⟨{ s.base with rd := rd, togo := nextTogo ri s }, st⟩
    | .suspend o => .suspend o s
    | .err => .err
    | .fault => .fault

theorem callMcu_plain {s : PSt σ} (hr : ¬ Due ri s) (p : List Blk) : callMcu R ri p s = callBody R ri p s := by
  unfold callMcu callBody
  rw [if_neg (show ¬ (ri ≠ 0 ∧ s.base.togo = 0) from hr)]
  rfl

theorem callMcu_due {s : PSt σ} (hr : Due ri s) (p : List Blk) : callMcu R ri p s =
    if (restartStep ri s.base).1 = true then callBody R ri p ⟨(restartStep ri s.base).2, R.init⟩
    else .suspend p ⟨(restartStep ri s.base).2, s.st⟩ := by
  unfold callMcu callBody
  rw [if_pos (show ri ≠ 0 ∧ s.base.togo = 0 from hr)]
  dsimp only
  split
  · rfl
  · rfl

/-! ### Safety on arbitrary bytes -/

/-- Well-formed decoder states. -/
structure POk (I : σ → Prop) (s : PSt σ) : Prop where
  ok : s.base.rd.Ok
  rst8 : s.base.rst < 8
  st : I s.st

theorem POk.more {s : PSt σ} {c : List Nat} (h : POk I s) (hc : IsBytes c) : POk I (s.more c) := by
  refine ⟨⟨h.ok.left64, ?_⟩, h.rst8, h.st⟩
  intro b hb
  simp only [PSt.more, DSt.more, Rd.more, List.mem_append] at hb
  exact hb.elim (h.ok.bytes b) (hc b)

theorem restartStep_ok {s : DSt} (h : s.rd.Ok) (h8 : s.rst < 8) : (restartStep ri s).2.rd.Ok ∧ (restartStep ri s).2.rst < 8 := by
  obtain ⟨h1, h2⟩ := Rst.readRestart_suffix (s := toRst s) h8
  have hb : IsBytes (Rst.readRestart (toRst s)).2.buf := fun b hb => h.bytes b (h1.subset hb)
  unfold restartStep
  dsimp only
  split
  · refine ⟨⟨?_, ?_⟩, h2⟩
    · dsimp only; split <;> simp
    · dsimp only; split <;> exact hb
  · exact ⟨⟨by simp, hb⟩, h2⟩

/-- What a call may do. -/
def CallSafe (I : σ → Prop) (lo hi : Nat) (E : Prop) (p : List Blk) : Call σ → Prop
  | .ok o s => List.Forall₂ (Touch lo hi) p o ∧ POk I s
  | .suspend o s => List.Forall₂ (Touch lo hi) p o ∧ POk I s
  | .err => E
  | .fault => False

theorem body_safe (hS : Sound R D I nb lo hi E) {s : PSt σ} (h : POk I s) {p : List Blk} (hl : p.length = nb) (hc : ∀ b ∈ p, CoefBlock b) :
    CallSafe I lo hi E p (callBody R ri p s) := by
  unfold callBody
  split
  · exact ⟨forall₂_refl_touch hc, h.ok, h.rst8, h.st⟩
  · have := hS.meets s.st p s.base.rd h.st hl hc h.ok
    cases hx : R.run s.st p s.base.rd with
    | ok a => rw [hx] at this; exact ⟨this.2.1, this.2.2.1, h.rst8, this.2.2.2⟩
    | suspend b => rw [hx] at this; exact ⟨this.2, h⟩
    | err => rw [hx] at this; exact this.2
    | fault => rw [hx] at this; exact this

theorem call_safe (hS : Sound R D I nb lo hi E) {s : PSt σ} (h : POk I s) {p : List Blk} (hl : p.length = nb) (hc : ∀ b ∈ p, CoefBlock b) :
    CallSafe I lo hi E p (callMcu R ri p s) := by
  by_cases hr : Due ri s
  · rw [callMcu_due hr]
    obtain ⟨h1, h2⟩ := restartStep_ok (ri := ri) h.ok h.rst8
    split
    · exact body_safe hS ⟨h1, h2, by show I R.init; rw [hS.init]; exact hS.start⟩ hl hc
    · exact ⟨forall₂_refl_touch hc, h1, h2, h.st⟩
  · rw [callMcu_plain hr]
    exact body_safe hS h hl hc

/-- What a run may do to the coefficient arrays `img`. -/
def FinSafe (lo hi : Nat) (E : Prop) (W : List (List Pos)) (img : Pos → Blk) : Fin σ → Prop
  | .done img' _ _ => ∀ q, Touch lo hi (img q) (img' q) ∧ (q ∉ W.flatten → img' q = img q)
  | .waits left img' _ => left <:+ W ∧ left ≠ [] ∧ ∀ q, Touch lo hi (img q) (img' q) ∧ (q ∉ W.flatten → img' q = img q)
  | .err => E
  | .fault => False

theorem feed_safe (hS : Sound R D I nb lo hi E) (es : List (List Nat)) : ∀ {W : List (List Pos)} {img : Pos → Blk} {s : PSt σ},
    (∀ c ∈ es, IsBytes c) → POk I s → (∀ ps ∈ W, ps.length = nb) → (∀ q, CoefBlock (img q)) →
    FinSafe lo hi E W img (feed R ri W es img s) := by
  induction es with
  | nil =>
    intro W img s _ hs hW hi
    cases W with
    | nil => exact fun q => ⟨.refl (hi q), fun _ => rfl⟩
    | cons ps W => exact ⟨List.suffix_rfl, by simp, fun q => ⟨.refl (hi q), fun _ => rfl⟩⟩
  | cons c es ih =>
    intro W img s he hs hW hi
    cases W with
    | nil => exact fun q => ⟨.refl (hi q), fun _ => rfl⟩
    | cons ps W =>
      have hc : ∀ b ∈ ps.map img, CoefBlock b := by
        intro b hb; obtain ⟨q, -, rfl⟩ := List.mem_map.1 hb; exact hi q
      have key := call_safe (ri := ri) hS (hs.more (he c (by simp))) (p := ps.map img) (by simpa using hW ps (by simp)) hc
      simp only [feed]
      cases hx : callMcu R ri (ps.map img) (s.more c) with
      | fault => rw [hx] at key; exact key
      | err => rw [hx] at key; exact key
      | ok o s1 =>
        rw [hx] at key
        obtain ⟨k1, k2⟩ := store_touch key.1 (fun q => Touch.refl (hi q))
        have := ih (W := W) (fun c hc => he c (by simp [hc])) key.2 (fun ps' h => hW ps' (by simp [h])) (fun q => (k1 q).coef)
        dsimp only
        revert this
        cases feed R ri W es (storeMcu img ps o) s1 with
        | done img' s' es' =>
          intro this q
          refine ⟨(k1 q).trans (this q).1, fun hq => ?_⟩
          rw [List.flatten_cons, List.mem_append, not_or] at hq
          rw [(this q).2 hq.2, k2 q hq.1]
        | waits left img' s' =>
          rintro ⟨h1, h2, this⟩
          refine ⟨h1.trans (List.suffix_cons _ _), h2, fun q => ⟨(k1 q).trans (this q).1, fun hq => ?_⟩⟩
          rw [List.flatten_cons, List.mem_append, not_or] at hq
          rw [(this q).2 hq.2, k2 q hq.1]
        | err => exact id
        | fault => exact id
      | suspend o s1 =>
        rw [hx] at key
        obtain ⟨k1, k2⟩ := store_touch key.1 (fun q => Touch.refl (hi q))
        have := ih (W := ps :: W) (fun c hc => he c (by simp [hc])) key.2 hW (fun q => (k1 q).coef)
        dsimp only
        revert this
        cases feed R ri (ps :: W) es (storeMcu img ps o) s1 with
        | done img' s' es' =>
          intro this q
          refine ⟨(k1 q).trans (this q).1, fun hq => ?_⟩
          rw [(this q).2 hq]
          rw [List.flatten_cons, List.mem_append, not_or] at hq
          rw [k2 q hq.1]
        | waits left img' s' =>
          rintro ⟨h1, h2, this⟩
          refine ⟨h1, h2, fun q => ⟨(k1 q).trans (this q).1, fun hq => ?_⟩⟩
          rw [(this q).2 hq]
          rw [List.flatten_cons, List.mem_append, not_or] at hq
          rw [k2 q hq.1]
        | err => exact id
        | fault => exact id

/-! ### The run on pieces against the run on all the data -/

/-- `s`, with the bytes `fut` still to come, is where the run on all the data is in state `sw`. -/
structure PInv (ri : Nat) (I : σ → Prop) (s : PSt σ) (fut : List Nat) (sw : PSt σ) : Prop where
  rst : s.base.rst = sw.base.rst
  rst8 : s.base.rst < 8
  togo : s.base.togo = sw.base.togo
  okw : sw.base.rd.Ok
  st : I sw.st
  live : Live sw.base.rd.marker sw.base.rd.bytes
  body : ¬ Due ri s → RSim s.base.rd fut sw.base.rd ∧ s.st = sw.st
  restart : Due ri s → s.base.rd.insuff = sw.base.rd.insuff ∧ s.base.rd.hits = sw.base.rd.hits ∧
    outc s.base.rst s.base.rd.marker (s.base.rd.bytes ++ fut) = outc sw.base.rst sw.base.rd.marker sw.base.rd.bytes

/-- The blocks `p` of an MCU, perhaps changed by suspended calls, stand for the blocks `p0` before the MCU. -/
def Stands (R : PRun σ) (ri : Nat) (sw : PSt σ) (p p0 : List Blk) : Prop :=
  p = p0 ∨ ¬ Due ri sw ∧ (R.skip && sw.base.rd.insuff) = false ∧ R.run sw.st p sw.base.rd = R.run sw.st p0 sw.base.rd

variable {s sw : PSt σ} {fut : List Nat} {p p0 : List Blk}

theorem PInv.more {c : List Nat} (h : PInv ri I s (c ++ fut) sw) : PInv ri I (s.more c) fut sw := by
  refine ⟨h.rst, h.rst8, h.togo, h.okw, h.st, h.live, fun hh => ?_, fun hh => ?_⟩
  · obtain ⟨h1, h2⟩ := h.body hh
    refine ⟨⟨?_, h1.okw, ?_, ?_⟩, h2⟩
    · have := h1.ok; rw [← more_more] at this; exact this
    · have := h1.abs; rw [← more_more] at this; exact this
    · have := h1.tail; rw [← more_more] at this; exact this
  · obtain ⟨h2, h3, h4⟩ := h.restart hh
    refine ⟨h2, h3, ?_⟩
    rw [← h4]
    simp [PSt.more, DSt.more, Rd.more]

/-- At the beginning of an MCU. -/
theorem PInv.begin (h1 : s.base.rst = sw.base.rst) (h8 : s.base.rst < 8) (h2 : s.base.togo = sw.base.togo)
    (h4 : RSim s.base.rd fut sw.base.rd) (h5 : s.st = sw.st) (hI : I sw.st) (hl : Live sw.base.rd.marker sw.base.rd.bytes) :
    PInv ri I s fut sw := by
  refine ⟨h1, h8, h2, h4.okw, hI, hl, fun _ => ⟨h4, h5⟩, fun hd => ?_⟩
  have hF : FInv ri [] s.base (zeroBlks []) fut { sw.base with last := s.base.last } :=
    FInv.start h1 h8 h2 (fun h0 => absurd h0 hd.1) h4 rfl
  exact (hF.restart hd).2

theorem live_tail {r : Rd} (h : Live r.marker r.bytes) : r.tail ≠ none := by
  intro ht
  obtain ⟨y, hy⟩ := h
  rw [cands_tail, ht] at hy
  simp at hy

theorem live_of_tail {r r' : Rd} (h : Live r.marker r.bytes) (ht : r'.tail = r.tail) : Live r'.marker r'.bytes := by
  obtain ⟨y, hy⟩ := h
  refine ⟨y, ?_⟩
  rw [cands_tail, ht, ← cands_tail]
  exact hy

/-- A call against the same call on all the data. -/
def CallSim (R : PRun σ) (D : PDec σ (List Blk) (List Blk)) (ri : Nat) (I : σ → Prop) (E : Prop) (fut : List Nat) (sw : PSt σ) (p0 : List Blk) : Call σ → Prop
  | .ok o s => ∃ sw', decOne D ri sw p0 = some (o, sw') ∧ PInv ri I s fut sw' ∧ RSim s.base.rd fut sw'.base.rd ∧ s.st = sw'.st
  | .suspend o s => fut ≠ [] ∧ ∃ sw', PInv ri I s fut sw' ∧ decOne D ri sw' p0 = decOne D ri sw p0 ∧ Stands R ri sw' o p0
  | .err => decOne D ri sw p0 = none ∧ E
  | .fault => False

theorem body_sim (hS : Sound R D I nb lo hi E) (h : PInv ri I s fut sw) (hr : ¬ Due ri s) (hl : p.length = nb) (hl0 : p0.length = nb)
    (hc : ∀ b ∈ p, CoefBlock b) (hc0 : ∀ b ∈ p0, CoefBlock b) (hp : Stands R ri sw p p0) :
    CallSim R D ri I E fut sw p0 (callBody R ri p s) := by
  obtain ⟨h1, h2⟩ := h.body hr
  have hrw : ¬ Due ri sw := by unfold Due at hr ⊢; rw [← h.togo]; exact hr
  have hir : s.base.rd.insuff = sw.base.rd.insuff := congrArg LR.insuff h1.abs
  have htg : nextTogo ri s = nextTogo ri sw := by unfold nextTogo; rw [h.togo]
  unfold callBody
  by_cases hi : (R.skip && s.base.rd.insuff) = true
  · rw [if_pos hi]
    rw [hir] at hi
    have : p = p0 := by
      rcases hp with hp | ⟨-, hp, -⟩
      · exact hp
      · rw [hi] at hp; simp at hp
    subst this
    refine ⟨⟨{ sw.base with togo := nextTogo ri sw }, sw.st⟩, ?_, ?_, h1, h2⟩
    · rw [decOne_plain hS hrw, if_pos hi]
    · exact PInv.begin h.rst h.rst8 htg h1 h2 h.st h.live
  · rw [if_neg hi]
    rw [hir] at hi
    have hif : (R.skip && sw.base.rd.insuff) = false := by simpa using hi
    have hrun : R.run sw.st p sw.base.rd = R.run sw.st p0 sw.base.rd := by
      rcases hp with rfl | ⟨-, -, hp⟩
      · rfl
      · exact hp
    have hm := hS.meets sw.st p0 sw.base.rd h.st hl0 hc0 h.okw
    have hsim := hS.sim sw.st p s.base.rd fut sw.base.rd h.st hl h1 (live_tail h.live)
    have hsafe := hS.meets s.st p s.base.rd (h2 ▸ h.st) hl hc (RSim.okr h1)
    have href := decOne_plain (ri := ri) hS hrw p0
    rw [if_neg hi] at href
    rw [← h2] at hsim
    cases hx : R.run s.st p s.base.rd with
    | fault => rw [hx] at hsafe; exact hsafe
    | err =>
      rw [hx] at hsim hsafe
      have hy : R.run sw.st p0 sw.base.rd = .err := by rw [← hrun, ← h2]; exact hsim
      rw [hy] at hm
      refine ⟨?_, hsafe.2⟩
      rw [href, hm.1]; rfl
    | suspend o =>
      rw [hx] at hsim
      refine ⟨hsim.1, sw, h, rfl, .inr ⟨hrw, hif, ?_⟩⟩
      rw [← hrun, ← h2]; exact hsim.2
    | ok a =>
      rw [hx] at hsim
      obtain ⟨a', k1, ⟨k2, k3, k4⟩, k5⟩ := hsim
      have hy : R.run sw.st p0 sw.base.rd = .ok a' := by rw [← hrun, ← h2]; exact k1
      rw [hy] at hm
      rw [hm.1] at href
      obtain ⟨o, st, rd⟩ := a
      obtain ⟨o', st', rd'⟩ := a'
      dsimp only at k2 k3 k4 k5
      subst k2 k3
      refine ⟨_, href, ?_, k4, rfl⟩
      exact PInv.begin h.rst h.rst8 htg k4 rfl hm.2.2.2 (live_of_tail h.live k5)

theorem call_sim (hS : Sound R D I nb lo hi E) (h : PInv ri I s fut sw) (hl : p.length = nb) (hl0 : p0.length = nb)
    (hc : ∀ b ∈ p, CoefBlock b) (hc0 : ∀ b ∈ p0, CoefBlock b) (hp : Stands R ri sw p p0) :
    CallSim R D ri I E fut sw p0 (callMcu R ri p s) := by
  by_cases hr : Due ri s
  · rw [callMcu_due hr]
    have hrw : Due ri sw := by unfold Due at hr ⊢; rw [← h.togo]; exact hr
    have hpp : p = p0 := by
      rcases hp with hp | ⟨hp, -, -⟩
      · exact hp
      · exact absurd hrw hp
    subst hpp
    obtain ⟨m', rest, e1, e2⟩ := outc_live (num := sw.base.rst) h.live
    obtain ⟨b, q1, q2, q3, q4, q5, q6, q7, q8, q9⟩ := (processRestart_outc (ri := ri) (s := sw.base) (h.rst ▸ h.rst8)).2 _ _ e1
    have hF : FInv ri [] s.base (zeroBlks []) fut sw.base :=
      ⟨h.rst, h.rst8, h.togo, fun h0 => absurd h0 hr.1, h.okw, fun hn => absurd hr hn, fun _ => ⟨rfl, h.restart hr⟩⟩
    have hred := decOne_restart (D := D) hrw q1 q8 p
    rcases restart_step hF hr q1 with ⟨g1, g2, g3, g4⟩ | ⟨g1, g2, g3⟩
    · rw [if_pos g1]
      have hnd : ¬ Due ri (⟨(restartStep ri s.base).2, R.init⟩ : PSt σ) := by
        unfold Due
        dsimp only
        rw [g2.togo, g4]; intro hh; exact hh.1 hh.2
      have hsim := (g2.body hnd).1
      have hinv : PInv ri I ⟨(restartStep ri s.base).2, R.init⟩ fut ⟨b, D.init⟩ :=
        PInv.begin g2.rst g2.rst8 g2.togo hsim hS.init hS.start (g3 h.live)
      have := body_sim hS hinv hnd hl hl hc hc (.inl rfl)
      revert this
      cases callBody R ri p ⟨(restartStep ri s.base).2, R.init⟩ with
      | ok o s1 => rintro ⟨sw', k1, k2⟩; exact ⟨sw', by rw [hred]; exact k1, k2⟩
      | suspend o s1 => rintro ⟨k0, sw', k1, k2, k3⟩; exact ⟨k0, sw', k1, by rw [hred]; exact k2, k3⟩
      | err => rintro ⟨k1, k2⟩; exact ⟨by rw [hred]; exact k1, k2⟩
      | fault => exact id
    · rw [if_neg (by rw [g1]; simp)]
      have ht : (restartStep ri s.base).2.togo = s.base.togo := g2.togo.trans h.togo.symm
      have hd : Due ri (⟨(restartStep ri s.base).2, s.st⟩ : PSt σ) := ⟨hr.1, by show (restartStep ri s.base).2.togo = 0; rw [ht]; exact hr.2⟩
      refine ⟨g3, sw, ⟨g2.rst, g2.rst8, g2.togo, h.okw, h.st, h.live, fun hn => absurd hd hn, fun _ => (g2.restart hd).2⟩, rfl, .inl rfl⟩
  · rw [callMcu_plain hr]
    exact body_sim hS h hr hl hl0 hc hc0 hp

/-- Distinct addresses: an MCU's blocks as a function of the address. -/
theorem blocks_fun : ∀ {ps : List Pos} {o : List Blk}, ps.Nodup → o.length = ps.length → ∃ g : Pos → Blk, o = ps.map g := by
  intro ps
  induction ps with
  | nil => intro o _ h; exact ⟨fun _ => [], by simpa using h⟩
  | cons a ps ih =>
    intro o hn hl
    cases o with
    | nil => simp at hl
    | cons b o =>
      rw [List.nodup_cons] at hn
      obtain ⟨g, hg⟩ := ih hn.2 (by simpa using hl)
      refine ⟨fun q => if q = a then b else g q, ?_⟩
      simp only [List.map_cons, if_true, List.cons.injEq, true_and]
      rw [hg]
      refine List.map_congr_left fun q hq => ?_
      rw [if_neg (by rintro rfl; exact hn.1 hq)]

/-- The run on pieces against the run on all the data, from `img0` in state `sw`. -/
def FinSim (D : PDec σ (List Blk) (List Blk)) (ri : Nat) (E : Prop) (fut : List Nat) (W : List (List Pos)) (es : List (List Nat))
    (img0 : Pos → Blk) (sw : PSt σ) : Fin σ → Prop
  | .done img s es' => es' <:+ es ∧ ∃ sw', decImg D ri W img0 sw = some (img, sw') ∧ RSim s.base.rd (es'.flatten ++ fut) sw'.base.rd ∧
      s.st = sw'.st ∧ s.base.togo = sw'.base.togo ∧ s.base.rst = sw'.base.rst
  | .waits left img _ => (∃ W1 ps W2 img1 sw', W = W1 ++ left ∧ left = ps :: W2 ∧ decImg D ri W1 img0 sw = some (img1, sw') ∧ ∀ q, q ∉ ps → img q = img1 q) ∧
      ∀ es1 es2, es = es1 ++ es2 → es2.flatten ++ fut = [] → es2.length < W.length
  | .err => decImg D ri W img0 sw = none ∧ E
  | .fault => False

theorem feed_sim (hS : Sound R D I nb lo hi E) (fut : List Nat) (es : List (List Nat)) : ∀ {W : List (List Pos)} {img img0 : Pos → Blk} {s sw : PSt σ},
    (∀ c ∈ es, IsBytes c) → POk I s → (∀ ps ∈ W, ps.length = nb ∧ ps.Nodup) → (∀ q, CoefBlock (img q)) → (∀ q, CoefBlock (img0 q)) →
    PInv ri I s (es.flatten ++ fut) sw →
    (W = [] → img = img0 ∧ RSim s.base.rd (es.flatten ++ fut) sw.base.rd ∧ s.st = sw.st) →
    (∀ ps W2, W = ps :: W2 → (∀ q, q ∉ ps → img q = img0 q) ∧ Stands R ri sw (ps.map img) (ps.map img0)) →
    FinSim D ri E fut W es img0 sw (feed R ri W es img s) := by
  induction es with
  | nil =>
    intro W img img0 s sw he hs hW hi hi0 h h0 h1
    cases W with
    | nil =>
      obtain ⟨rfl, k1, k2⟩ := h0 rfl
      exact ⟨List.suffix_rfl, sw, rfl, k1, k2, h.togo, h.rst⟩
    | cons ps W =>
      refine ⟨⟨[], ps, W, img0, sw, rfl, rfl, rfl, (h1 ps W rfl).1⟩, fun es1 es2 he _ => ?_⟩
      have := congrArg List.length he
      simp only [List.length_nil, List.length_append] at this
      simp only [List.length_cons]; omega
  | cons c es ih =>
    intro W img img0 s sw he hs hW hi hi0 h h0 h1
    cases W with
    | nil =>
      obtain ⟨rfl, k1, k2⟩ := h0 rfl
      exact ⟨List.suffix_rfl, sw, rfl, k1, k2, h.togo, h.rst⟩
    | cons ps W =>
      obtain ⟨hout, hst⟩ := h1 ps W rfl
      obtain ⟨hnb, hnd⟩ := hW ps (by simp)
      rw [List.flatten_cons, List.append_assoc] at h
      have hm := h.more
      have hcf : ∀ (f : Pos → Blk), (∀ q, CoefBlock (f q)) → ∀ b ∈ ps.map f, CoefBlock b := by
        intro f hf b hb; obtain ⟨q, -, rfl⟩ := List.mem_map.1 hb; exact hf q
      have key := call_sim hS hm (p := ps.map img) (p0 := ps.map img0) (by simpa using hnb) (by simpa using hnb) (hcf img hi) (hcf img0 hi0) hst
      have hsf := call_safe (ri := ri) hS (hs.more (he c (by simp))) (p := ps.map img) (by simpa using hnb) (hcf img hi)
      have hes : ∀ c ∈ es, IsBytes c := fun c hc => he c (by simp [hc])
      simp only [feed]
      cases hx : callMcu R ri (ps.map img) (s.more c) with
      | fault => rw [hx] at key; exact key
      | err =>
        rw [hx] at key
        refine ⟨?_, key.2⟩
        rw [decImg, key.1]
      | ok o s1 =>
        rw [hx] at key hsf
        obtain ⟨sw1, k1, k2, k3, k4⟩ := key
        obtain ⟨f1, f2⟩ := hsf
        obtain ⟨t1, t2⟩ := store_touch f1 (fun q => Touch.refl (hi q))
        have hlen : o.length = ps.length := by rw [← f1.length_eq, List.length_map]
        obtain ⟨g, rfl⟩ := blocks_fun hnd hlen
        have heq : storeMcu img ps (ps.map g) = storeMcu img0 ps (ps.map g) := by
          rw [storeMcu_eq, storeMcu_eq]
          funext q
          by_cases hq : q ∈ ps
          · rw [if_pos hq, if_pos hq]
          · rw [if_neg hq, if_neg hq, hout q hq]
        have := ih (W := W) (img := storeMcu img ps (ps.map g)) (img0 := storeMcu img ps (ps.map g)) hes f2 (fun ps' h => hW ps' (by simp [h]))
          (fun q => (t1 q).coef) (fun q => (t1 q).coef) k2 (fun _ => ⟨rfl, k3, k4⟩) (fun _ _ _ => ⟨fun _ _ => rfl, .inl rfl⟩)
        dsimp only
        have hdec : decImg D ri (ps :: W) img0 sw = decImg D ri W (storeMcu img ps (ps.map g)) sw1 := by
          rw [decImg, k1, heq]
        revert this
        cases feed R ri W es (storeMcu img ps (ps.map g)) s1 with
        | done img' s' es' =>
          rintro ⟨a1, sw', a2, a3⟩
          exact ⟨a1.trans (List.suffix_cons _ _), sw', by rw [hdec]; exact a2, a3⟩
        | waits left img' s' =>
          rintro ⟨⟨W1, ps1, W2, img1, sw', a1, a2, a3, a4⟩, a5⟩
          refine ⟨⟨ps :: W1, ps1, W2, img1, sw', by rw [a1]; rfl, a2, ?_, a4⟩, ?_⟩
          · rw [decImg, k1]; dsimp only; rw [← heq]; exact a3
          · intro es1 es2 hes12 hfut
            cases es1 with
            | nil =>
              simp only [List.nil_append] at hes12
              subst hes12
              rw [List.flatten_cons, List.append_assoc, List.append_eq_nil_iff] at hfut
              have := a5 [] es rfl hfut.2
              simp only [List.length_cons]; omega
            | cons e1 es1 =>
              simp only [List.cons_append, List.cons.injEq] at hes12
              have := a5 es1 es2 hes12.2 hfut
              simp only [List.length_cons]; omega
        | err => rintro ⟨a1, a2⟩; exact ⟨by rw [hdec]; exact a1, a2⟩
        | fault => exact id
      | suspend o s1 =>
        rw [hx] at key hsf
        obtain ⟨k0, sw1, k1, k2, k3⟩ := key
        obtain ⟨f1, f2⟩ := hsf
        obtain ⟨t1, t2⟩ := store_touch f1 (fun q => Touch.refl (hi q))
        have hlen : o.length = ps.length := by rw [← f1.length_eq, List.length_map]
        obtain ⟨g, rfl⟩ := blocks_fun hnd hlen
        have hmap : ps.map (storeMcu img ps (ps.map g)) = ps.map g := by
          rw [storeMcu_eq]
          exact List.map_congr_left fun q hq => if_pos hq
        have := ih (W := ps :: W) (img := storeMcu img ps (ps.map g)) (img0 := img0) hes f2 hW
          (fun q => (t1 q).coef) hi0 k1 (fun h => by simp at h) (by
            intro ps' W2 hW2
            simp only [List.cons.injEq] at hW2
            obtain ⟨rfl, rfl⟩ := hW2
            refine ⟨fun q hq => ?_, by rw [hmap]; exact k3⟩
            rw [t2 q hq, hout q hq])
        dsimp only
        have hdec : ∀ W, decImg D ri (ps :: W) img0 sw = decImg D ri (ps :: W) img0 sw1 := by
          intro W; rw [decImg, decImg, k2]
        revert this
        cases feed R ri (ps :: W) es (storeMcu img ps (ps.map g)) s1 with
        | done img' s' es' =>
          rintro ⟨a1, sw', a2, a3⟩
          exact ⟨a1.trans (List.suffix_cons _ _), sw', by rw [hdec]; exact a2, a3⟩
        | waits left img' s' =>
          rintro ⟨⟨W1, ps1, W2, img1, sw', a1, a2, a3, a4⟩, a5⟩
          refine ⟨?_, ?_⟩
          · cases W1 with
            | nil =>
              rw [decImg] at a3
              simp only [Option.some.injEq, Prod.mk.injEq] at a3
              obtain ⟨rfl, rfl⟩ := a3
              exact ⟨[], ps1, W2, img0, sw, a1, a2, rfl, a4⟩
            | cons x W1 =>
              have : ps = x := by simp only [List.cons_append, List.cons.injEq] at a1; exact a1.1
              subst this
              exact ⟨ps :: W1, ps1, W2, img1, sw', a1, a2, by rw [hdec]; exact a3, a4⟩
          · intro es1 es2 hes12 hfut
            cases es1 with
            | nil =>
              simp only [List.nil_append] at hes12
              subst hes12
              rw [List.flatten_cons, List.append_assoc, List.append_eq_nil_iff] at hfut
              exact absurd hfut.2 k0
            | cons e1 es1 =>
              simp only [List.cons_append, List.cons.injEq] at hes12
              exact a5 es1 es2 hes12.2 hfut
        | err => rintro ⟨a1, a2⟩; exact ⟨by rw [hdec]; exact a1, a2⟩
        | fault => exact id

/-! ### Scans -/

/-- Reference for a run on pieces: `ref W` is the result of decoding the MCUs at `W` with all the data in the buffer.
A complete run has the same coefficients, restart counter and number, insufficient-data flag and number of HIT_MARKER
warnings, and the same bits and marker unread; a run that waits for data has completed the first MCUs of the scan,
and its coefficients differ from those of the complete run on these only in the MCU it is in; an error exit
(`E`: in what kind of scan) also happens on all the data. -/
def AsWhole (ref : List (List Pos) → Option ((Pos → Blk) × DSt)) (fut : List Nat) (W : List (List Pos)) (es : List (List Nat))
    (E : Prop) : Fin Unit → Prop
  | .done img s es' => es' <:+ es ∧ ∃ sw, ref W = some (img, sw) ∧ s.base.togo = sw.togo ∧ s.base.rst = sw.rst ∧
      s.base.rd.insuff = sw.rd.insuff ∧ s.base.rd.hits = sw.rd.hits ∧ (s.base.rd.more (es'.flatten ++ fut)).bits = sw.rd.bits ∧
      (s.base.rd.more (es'.flatten ++ fut)).tail = sw.rd.tail
  | .waits left img _ => ∃ W1 ps W2 img1 sw, W = W1 ++ left ∧ left = ps :: W2 ∧ ref W1 = some (img1, sw) ∧ ∀ q, q ∉ ps → img q = img1 q
  | .err => ref W = none ∧ E
  | .fault => False

/-- Waiting for data. -/
def Fin.Waits : Fin σ → Prop
  | .waits _ _ _ => True
  | _ => False

/-- Scan positions a scan may write to: from `wlo`… -/
def SPar.wlo (p : SPar) : Nat := p.Ss

/-- …to `whi`. -/
def SPar.whi (p : SPar) : Nat := match p.kind with | .acFirst => p.Se + 15 | .acRefine => p.Se + 1 | _ => 0

theorem start_ok (hS : Sound R D I nb lo hi E) : POk I (start R ri) :=
  ⟨⟨by simp [start, decInit], by simp [start, decInit, IsBytes]⟩, by simp [start, decInit], by show I R.init; rw [hS.init]; exact hS.start⟩

theorem start_inv (hS : Sound R D I nb lo hi E) {data : List Nat} (hd : IsBytes data) (hl : Live 0 data) :
    RSim (start R ri).base.rd data (pInit D ri data).base.rd ∧ PInv ri I (start R ri) data (pInit D ri data) := by
  have h : RSim (start R ri).base.rd data (pInit D ri data).base.rd :=
    ⟨⟨by simp [start, decInit, Rd.more], by simpa [start, decInit, Rd.more] using hd⟩, ⟨by simp [pInit, decInit], hd⟩, rfl, rfl⟩
  exact ⟨h, PInv.begin rfl (by simp [start, decInit]) rfl h hS.init hS.start hl⟩

theorem base_safe {W : List (List Pos)} {img : Pos → Blk} {x : Fin σ} (h : FinSafe lo hi E W img x) : FinSafe lo hi E W img x.base := by
  cases x <;> exact h

/-- The generic theorem for an MCU routine. -/
theorem whole_of_sound (hS : Sound R D I nb lo hi E) (W : List (List Pos)) (hW : ∀ ps ∈ W, ps.length = nb ∧ ps.Nodup) (img : Pos → Blk)
    (hi : ∀ q, CoefBlock (img q)) (es : List (List Nat)) (fut : List Nat) (hd : IsBytes (es.flatten ++ fut)) (hl : Live 0 (es.flatten ++ fut)) :
    AsWhole (fun W => (decImg D ri W img (pInit D ri (es.flatten ++ fut))).map fun x => (x.1, x.2.base)) fut W es E
      (feed R ri W es img (start R ri)).base ∧
    ((feed R ri W es img (start R ri)).base.Waits → ∀ es1 es2, es = es1 ++ es2 → es2.flatten ++ fut = [] → es2.length < W.length) := by
  obtain ⟨h1, h2⟩ := start_inv (ri := ri) hS hd hl
  have hes : ∀ c ∈ es, IsBytes c := fun c hc b hb => hd b (List.mem_append_left _ (List.mem_flatten.2 ⟨c, hc, hb⟩))
  have := feed_sim (ri := ri) hS fut es (W := W) (img := img) (img0 := img) hes (start_ok hS) hW hi hi h2
    (fun _ => ⟨rfl, h1, hS.init⟩) (fun _ _ _ => ⟨fun _ _ => rfl, .inl rfl⟩)
  revert this
  cases feed R ri W es img (start R ri) with
  | done img' s es' =>
    rintro ⟨a1, sw, a2, a3, a4, a5, a6⟩
    refine ⟨⟨a1, sw.base, by dsimp only; rw [a2]; rfl, a5, a6, congrArg LR.insuff a3.abs, congrArg LR.hits a3.abs, congrArg LR.bits a3.abs, a3.tail⟩, fun h => h.elim⟩
  | waits left img' s =>
    rintro ⟨⟨W1, ps, W2, img1, sw, a1, a2, a3, a4⟩, a5⟩
    exact ⟨⟨W1, ps, W2, img1, sw.base, a1, a2, by dsimp only; rw [a3]; rfl, a4⟩, fun _ => a5⟩
  | err =>
    rintro ⟨a1, a2⟩
    exact ⟨⟨by dsimp only; rw [a1]; rfl, a2⟩, fun h => h.elim⟩
  | fault => exact fun h => h.elim

/-- The tables of a DC scan. -/
theorem dcTbls (dcT : Nat → HuffTbl) (ht : ∀ i, (dcT i).Dht) (bs : List DCB) :
    match bs.mapM fun b => (ckTbl (some 15) (dcT b.dcNo)).map (CkD.mk b.ci) with
    | none => bs.mapM (fun b => (makeDTbl (some 15) (dcT b.dcNo)).map (DCD.mk b.ci)) = none
    | some ds => bs.mapM (fun b => (makeDTbl (some 15) (dcT b.dcNo)).map (DCD.mk b.ci)) = some (ds.map CkD.plain) ∧
        ds.length = bs.length ∧ ∀ d ∈ ds, d.dc.Ok 15 := by
  induction bs with
  | nil => exact ⟨rfl, rfl, by simp⟩
  | cons b bs ih =>
    simp only [List.mapM_cons]
    cases hc : ckTbl (some 15) (dcT b.dcNo) with
    | none =>
      have : makeDTbl (some 15) (dcT b.dcNo) = none := by
        unfold ckTbl at hc
        simpa using hc
      rw [this]; rfl
    | some c =>
      have hm : makeDTbl (some 15) (dcT b.dcNo) = some c.d := by
        unfold ckTbl at hc
        cases h : makeDTbl (some 15) (dcT b.dcNo) with
        | none => rw [h] at hc; simp at hc
        | some d => rw [h] at hc; simp at hc; rw [← hc]
      have hok := ckTbl_ok (ht _) hc
      rw [hm]
      revert ih
      cases hx : bs.mapM fun b => (ckTbl (some 15) (dcT b.dcNo)).map (CkD.mk b.ci) with
      | none => intro ih; dsimp only at ih; rw [ih]; rfl
      | some ds =>
        rintro ⟨i1, i2, i3⟩
        rw [i1]
        refine ⟨rfl, by simp [i2], ?_⟩
        intro d hd
        rcases List.mem_cons.1 hd with rfl | hd
        · exact hok
        · exact i3 d hd

theorem acTbl {t : HuffTbl} (ht : t.Dht) :
    match ckTbl none t with
    | none => makeDTbl none t = none
    | some c => makeDTbl none t = some c.d ∧ c.Ok 255 := by
  cases hc : ckTbl none t with
  | none => unfold ckTbl at hc; simpa using hc
  | some c =>
    refine ⟨?_, ckTbl_ok ht hc⟩
    unfold ckTbl at hc
    cases h : makeDTbl none t with
    | none => rw [h] at hc; simp at hc
    | some d => rw [h] at hc; simp at hc; rw [← hc]

theorem Sound.weaken {E' : Prop} (h : Sound R D I nb lo hi E) (hE : E → E') : Sound R D I nb lo hi E' := by
  refine ⟨h.init, h.start, h.skip, fun st mcu rd a b c d => ?_, h.sim⟩
  have := h.meets st mcu rd a b c d
  revert this
  cases R.run st mcu rd with
  | err => exact fun k => ⟨k.1, hE k.2⟩
  | ok a => exact id
  | suspend b => exact id
  | fault => exact id

/-- Whatever holds for the four MCU routines holds for scans. -/
theorem scan_cases {dcT acT : Nat → HuffTbl} (hdc : ∀ i, (dcT i).Dht) (hac : ∀ i, (acT i).Dht) {p : SPar} {nc : Nat}
    (hp : badScan p.Ss p.Se p.Ah p.Al nc = false) {W : List (List Pos)} (hW : p.Fits W) (es : List (List Nat)) (img : Pos → Blk)
    (P : Fin Unit → (List (List Pos) → List Nat → Option ((Pos → Blk) × DSt)) → Nat → Prop)
    (H : ∀ {σ : Type} {R : PRun σ} {D : PDec σ (List Blk) (List Blk)} {I : σ → Prop} {nb : Nat}, Sound R D I nb p.wlo p.whi (p.kind = .dcFirst) →
      (∀ ps ∈ W, ps.length = nb) →
      P (feed R p.ri W es img (start R p.ri)).base (fun W data => (decImg D p.ri W img (pInit D p.ri data)).map fun x => (x.1, x.2.base)) nb) :
    match feedPScan dcT acT p W es img with
    | none => ∀ W data, decPScan dcT acT p W data img = none
    | some r => ∃ nb, P r (fun W data => decPScan dcT acT p W data img) nb := by
  have hbad := hp
  unfold badScan at hbad
  rw [decide_eq_false_iff_not, not_or, not_or] at hbad
  have hAl : p.Al ≤ 13 := by omega
  have hac1 : p.Ss ≠ 0 → 1 ≤ p.Ss ∧ p.Ss ≤ p.Se ∧ p.Se ≤ 63 := by
    intro h0
    have := hbad.1
    rw [if_neg h0] at this
    omega
  unfold SPar.Fits at hW
  have hS0 : (p.kind = .dcFirst ∨ p.kind = .dcRefine → p.Ss = 0) ∧ (p.kind = .acFirst ∨ p.kind = .acRefine → p.Ss ≠ 0) := by
    unfold SPar.kind
    by_cases h0 : p.Ss = 0 <;> by_cases h1 : p.Ah = 0 <;> simp [h0, h1]
  cases hk : p.kind with
  | dcFirst =>
    have h0 := hS0.1 (.inl hk)
    rw [if_pos h0] at hW
    unfold feedPScan decPScan
    simp only [hk]
    have ht := dcTbls dcT hdc p.bs
    revert ht
    cases p.bs.mapM fun b => (ckTbl (some 15) (dcT b.dcNo)).map (CkD.mk b.ci) with
    | none => intro ht; dsimp only at ht; rw [ht]; simp
    | some ds =>
      rintro ⟨t1, t2, t3⟩
      rw [t1]
      refine ⟨ds.length, H (I := fun _ => True) ?_ (fun ps hps => by rw [t2]; exact hW ps hps)⟩
      have e1 : p.wlo = 0 := h0
      have e2 : p.whi = 0 := by unfold SPar.whi; rw [hk]
      rw [e1, e2]
      exact (dcFirst_sound (Al := p.Al) t3 (by omega)).weaken fun _ => hk
  | dcRefine =>
    have h0 := hS0.1 (.inr hk)
    rw [if_pos h0] at hW
    unfold feedPScan decPScan
    simp only [hk]
    refine ⟨p.bs.length, H (I := fun _ => True) ?_ hW⟩
    have e1 : p.wlo = 0 := h0
    have e2 : p.whi = 0 := by unfold SPar.whi; rw [hk]
    rw [e1, e2]
    exact (dcRefine_sound (Al := p.Al) (by omega) _).weaken fun h => h.elim
  | acFirst =>
    have h0 := hS0.2 (.inl hk)
    rw [if_neg h0] at hW
    obtain ⟨a1, a2, a3⟩ := hac1 h0
    unfold feedPScan decPScan
    simp only [hk]
    have ht := acTbl (hac p.acNo)
    revert ht
    cases ckTbl none (acT p.acNo) with
    | none => intro ht; dsimp only at ht; rw [ht]; simp
    | some t =>
      rintro ⟨t1, t2⟩
      rw [t1]
      refine ⟨1, H (I := fun e => e < 32767) ?_ hW⟩
      have e2 : p.whi = p.Se + 15 := by unfold SPar.whi; rw [hk]
      rw [e2]
      exact (acFirst_sound (Al := p.Al) t2 a1 a2 a3 (by omega)).weaken fun h => h.elim
  | acRefine =>
    have h0 := hS0.2 (.inr hk)
    rw [if_neg h0] at hW
    obtain ⟨a1, a2, a3⟩ := hac1 h0
    unfold feedPScan decPScan
    simp only [hk]
    have ht := acTbl (hac p.acNo)
    revert ht
    cases ckTbl none (acT p.acNo) with
    | none => intro ht; dsimp only at ht; rw [ht]; simp
    | some t =>
      rintro ⟨t1, t2⟩
      rw [t1]
      refine ⟨1, H (I := fun e => e < 32767) ?_ hW⟩
      have e2 : p.whi = p.Se + 1 := by unfold SPar.whi; rw [hk]
      rw [e2]
      exact (acRefine_sound (Al := p.Al) t2 a1 a2 a3 (by omega)).weaken fun h => h.elim

variable {dcT acT : Nat → HuffTbl} {p : SPar} {nc : Nat}

/-- **C54**, safety.  A progressive scan with parameters that start_pass_phuff_decoder accepts and tables from DHT
segments is decoded from arbitrary bytes, arriving in arbitrary pieces, with a call after each and again after
suspensions.  Then no array access or shift is out of bounds; whatever happens, all coefficients remain 16-bit numbers,
only blocks of the scan are changed, and only in scan positions from Ss to Se + 15 (first AC scan), Se + 1
(AC refinement), or 0 (DC).  Error exits are possible only in the first DC scan (and for bad tables: `none`). -/
theorem C54_safe (hdc : ∀ i, (dcT i).Dht) (hac : ∀ i, (acT i).Dht) (hp : badScan p.Ss p.Se p.Ah p.Al nc = false)
    (W : List (List Pos)) (hW : p.Fits W) (es : List (List Nat)) (hes : ∀ c ∈ es, IsBytes c) (img : Pos → Blk) (hi : ∀ q, CoefBlock (img q)) :
    match feedPScan dcT acT p W es img with
    | none => True
    | some (.done img' _ _) => ∀ q, Touch p.wlo p.whi (img q) (img' q) ∧ (q ∉ W.flatten → img' q = img q)
    | some (.waits left img' _) => (left <:+ W ∧ left ≠ []) ∧ ∀ q, Touch p.wlo p.whi (img q) (img' q) ∧ (q ∉ W.flatten → img' q = img q)
    | some .err => p.kind = .dcFirst
    | some .fault => False := by
  have := scan_cases hdc hac hp hW es img (fun r _ _ => FinSafe p.wlo p.whi (p.kind = .dcFirst) W img r)
    (fun hS hnb => base_safe (feed_safe hS es hes (start_ok hS) hnb hi))
  revert this
  cases feedPScan dcT acT p W es img with
  | none => intro _; trivial
  | some r =>
    rintro ⟨-, h⟩
    cases r with
    | done => exact h
    | waits => exact ⟨⟨h.1, h.2.1⟩, h.2.2⟩
    | err => exact h
    | fault => exact h

/-- **C54**, pieces.  If the data has an EOI marker somewhere, then however it is cut into pieces (`fut` has not arrived),
the decoder does what it does with all the data in its buffer. -/
theorem C54_chunks (hdc : ∀ i, (dcT i).Dht) (hac : ∀ i, (acT i).Dht) (hp : badScan p.Ss p.Se p.Ah p.Al nc = false)
    (W : List (List Pos)) (hW : p.Fits W) (hn : W.flatten.Nodup) (img : Pos → Blk) (hi : ∀ q, CoefBlock (img q)) {data x y : List Nat}
    (hd : IsBytes data) (heoi : data = x ++ 0xFF :: 0xD9 :: y) (es : List (List Nat)) (fut : List Nat) (hes : es.flatten ++ fut = data) :
    match feedPScan dcT acT p W es img with
    | none => decPScan dcT acT p W data img = none
    | some r => AsWhole (fun W => decPScan dcT acT p W data img) fut W es (p.kind = .dcFirst) r := by
  have hl : Live 0 data := heoi ▸ live_data x y
  have hnd : ∀ ps ∈ W, ps.Nodup := fun ps h => (List.nodup_flatten.1 hn).1 ps h
  subst hes
  have := scan_cases hdc hac hp hW es img (fun r ref _ => AsWhole (fun W => ref W (es.flatten ++ fut)) fut W es (p.kind = .dcFirst) r)
    (fun hS hnb => (whole_of_sound hS W (fun ps h => ⟨hnb ps h, hnd ps h⟩) img hi es fut hd hl).1)
  revert this
  cases feedPScan dcT acT p W es img with
  | none => intro h; exact h _ _
  | some r => rintro ⟨-, h⟩; exact h

/-- **C54**, progress.  Once all the data has arrived no call suspends, so that as many calls as there are MCUs are
enough. -/
theorem C54_progress (hdc : ∀ i, (dcT i).Dht) (hac : ∀ i, (acT i).Dht) (hp : badScan p.Ss p.Se p.Ah p.Al nc = false)
    (W : List (List Pos)) (hW : p.Fits W) (hn : W.flatten.Nodup) (img : Pos → Blk) (hi : ∀ q, CoefBlock (img q)) {data x y : List Nat}
    (hd : IsBytes data) (heoi : data = x ++ 0xFF :: 0xD9 :: y) (es1 es2 : List (List Nat)) (h1 : es1.flatten = data)
    (h2 : es2.flatten = []) (hlen : W.length ≤ es2.length) :
    match feedPScan dcT acT p W (es1 ++ es2) img with
    | none => True
    | some r => ¬ r.Waits := by
  have hl : Live 0 data := heoi ▸ live_data x y
  have hnd : ∀ ps ∈ W, ps.Nodup := fun ps h => (List.nodup_flatten.1 hn).1 ps h
  have hes : (es1 ++ es2).flatten ++ [] = data := by simp [h1, h2]
  have := scan_cases hdc hac hp hW (es1 ++ es2) img (fun r _ _ => ¬ r.Waits) (fun hS hnb hw => by
    have := (whole_of_sound hS W (fun ps h => ⟨hnb ps h, hnd ps h⟩) img hi (es1 ++ es2) [] (hes ▸ hd) (hes ▸ hl)).2 hw es1 es2 rfl (by simp [h2])
    omega)
  revert this
  cases feedPScan dcT acT p W (es1 ++ es2) img with
  | none => intro _; trivial
  | some r => rintro ⟨-, h⟩; exact h

/-- **C54**, with all the data in the buffer: if an EOI marker is somewhere in the data then, but for the error exit
of the first DC scan, the scan is decoded, whatever the bytes. -/
theorem C54_total (hdc : ∀ i, (dcT i).Dht) (hac : ∀ i, (acT i).Dht) (hp : badScan p.Ss p.Se p.Ah p.Al nc = false)
    (hk : p.kind ≠ .dcFirst) (ht : p.kind ≠ .dcRefine → (makeDTbl none (acT p.acNo)).isSome = true)
    (W : List (List Pos)) (hW : p.Fits W) (hn : W.flatten.Nodup) (img : Pos → Blk) (hi : ∀ q, CoefBlock (img q)) {data x y : List Nat}
    (hd : IsBytes data) (heoi : data = x ++ 0xFF :: 0xD9 :: y) :
    ∃ img' s, decPScan dcT acT p W data img = some (img', s) ∧
      ∀ q, Touch p.wlo p.whi (img q) (img' q) ∧ (q ∉ W.flatten → img' q = img q) := by
  have hbytes : ∀ c ∈ [data] ++ List.replicate W.length ([] : List Nat), IsBytes c := by
    intro c hc
    rcases List.mem_append.1 hc with hc | hc
    · rw [List.mem_singleton] at hc; rw [hc]; exact hd
    · rw [(List.mem_replicate.1 hc).2]; simp [IsBytes]
  have hfl : (List.replicate W.length ([] : List Nat)).flatten = [] := by simp
  have h1 := C54_safe hdc hac hp W hW ([data] ++ List.replicate W.length []) hbytes img hi
  have h2 := C54_chunks hdc hac hp W hW hn img hi hd heoi ([data] ++ List.replicate W.length []) [] (by simp [hfl])
  have h3 := C54_progress hdc hac hp W hW hn img hi hd heoi [data] (List.replicate W.length []) (by simp) hfl (by simp)
  have hsome : feedPScan dcT acT p W ([data] ++ List.replicate W.length []) img ≠ none := by
    unfold feedPScan
    cases hkk : p.kind with
    | dcFirst => exact absurd hkk hk
    | dcRefine => simp
    | acFirst =>
      obtain ⟨d, e⟩ := Option.isSome_iff_exists.1 (ht (by rw [hkk]; decide))
      simp [ckTbl, e]
    | acRefine =>
      obtain ⟨d, e⟩ := Option.isSome_iff_exists.1 (ht (by rw [hkk]; decide))
      simp [ckTbl, e]
  revert h1 h2 h3 hsome
  cases feedPScan dcT acT p W ([data] ++ List.replicate W.length []) img with
  | none => intro _ _ _ h; exact absurd rfl h
  | some r =>
    cases r with
    | done img' s es' => rintro h1 ⟨-, sw, h2, -⟩ - -; exact ⟨img', sw, h2, h1⟩
    | waits => intro _ _ h; exact absurd trivial h
    | err => intro h; exact absurd h hk
    | fault => intro h; exact h.elim

/-- What C54 asks of the layout holds for every scan the decoder accepts. -/
theorem C54_layout (w ht ic prec : Nat) (fs : List (Nat × Nat)) (f : Geom.Frame) (h : Geom.cInitialSetup false w ht ic prec fs = .ok f)
    (x : Script.Scan × Cfg) (hx : ∀ i ∈ compIdx x.1, i < f.comps.length) (hnd : (compIdx x.1).Nodup) (g : Geom.Scan)
    (hg : Geom.dPerScan f (compIdx x.1) = .ok g)
    (hp : badScan (scanPar g x.1 x.2).Ss (scanPar g x.1 x.2).Se (scanPar g x.1 x.2).Ah (scanPar g x.1 x.2).Al (compIdx x.1).length = false) :
    (scanPar g x.1 x.2).Fits (Geom.walk f g (Geom.dMcu f g)) ∧ (Geom.walk f g (Geom.dMcu f g)).flatten.Nodup := by
  obtain ⟨G, -⟩ := Geom.good_of_setup h
  have hg' : Geom.cPerScan f (compIdx x.1) = .ok g := by rw [← (Geom.geometry_agrees false w ht ic prec fs f h).2.1]; exact hg
  have ew := Geom.dWalk_eq_spec G hx hg'
  have hne := Geom.idx_ne hg'
  obtain ⟨-, l2⟩ := Geom.spec_lengths hg'
  rw [ew]
  refine ⟨?_, Geom.spec_nodup hnd hne⟩
  unfold SPar.Fits
  split
  · intro ps hps
    rw [show (scanPar g x.1 x.2).bs.length = g.membership.length by simp [scanPar]]
    exact (l2 ps hps).2
  · rename_i h0
    unfold badScan at hp
    rw [decide_eq_false_iff_not, not_or, if_neg h0] at hp
    have h1 : (compIdx x.1).length = 1 := by have := hp.1; omega
    match he : compIdx x.1, h1 with
    | [i], _ =>
      intro ps hps
      simp only [Geom.specWalk, List.mem_flatMap, List.mem_map] at hps
      obtain ⟨r, -, c, -, rfl⟩ := hps
      rfl

/-! ### Cases -/

/-- An AC refinement scan of one component, restart interval 2. -/
def exPar : SPar := ⟨1, 63, 1, 0, 2, [], 0⟩

def exW : List (List Pos) := [[(0, 0, 0)], [(0, 0, 1)], [(0, 0, 2)], [(0, 0, 3)]]

/-- Blocks with some coefficients known. -/
def exBlks (q : Pos) : Blk := 40 :: 6 :: -4 :: 0 :: 2 :: (List.replicate 20 0 ++ [-2, 0, 4] ++ List.replicate 36 (q.2.2 : Int))

def exData : List Nat := [0x5B, 0x93, 0x27, 0xFF, 0x00, 0x31, 0xC4, 0x0A, 0x6E, 0x11, 0xFF, 0xD0, 0x4F, 0x1A, 0x77, 0x02, 0xFF, 0xD9]

/-- The image and what is known of the state. -/
def exSee (r : Option (Fin Unit)) : Option (List Blk × Nat × Nat × Nat) :=
  match r with
  | some (.done img s _) => some (exW.flatten.map img, s.base.togo, s.base.rst, s.base.rd.hits)
  | _ => none

/-- The scan byte by byte, with empty pieces. -/
def exPieces : List (List Nat) := [] :: exData.map (fun b => [b]) ++ [[], [], [], []]

/-- What a suspended call leaves in the first block: correction bits applied, the newly nonzero coefficients undone. -/
def exLeft : Option (Blk × List Nat) :=
  (ckTbl none stdAC).bind fun t =>
    match acRefineRun t 1 63 0 0 (exBlks (0, 0, 0)) (decInit 2 (exData.take 10)).rd, refineRun t 63 0 1 (exBlks (0, 0, 0)) [] (decInit 2 (exData.take 10)).rd with
    | .suspend b, .suspend b' => some (b, b'.2)
    | _, _ => none

/-- The hypotheses of the C54 theorems hold in this case; the run on pieces is that on all the data; the blocks are
changed; calls are suspended after new coefficients have been set and corrections made. -/
example : (∀ i : Nat, ((fun _ => stdAC) i).Dht) ∧ badScan exPar.Ss exPar.Se exPar.Ah exPar.Al 1 = false ∧ exPar.Fits exW ∧ exW.flatten.Nodup ∧
    IsBytes exData ∧ (∀ q ∈ exW.flatten, CoefBlock (exBlks q)) ∧
    exSee (feedPScan (fun _ => stdAC) (fun _ => stdAC) exPar exW exPieces exBlks) =
      (decPScan (fun _ => stdAC) (fun _ => stdAC) exPar exW exData exBlks).map (fun x => (exW.flatten.map x.1, x.2.togo, x.2.rst, x.2.rd.hits)) ∧
    ((decPScan (fun _ => stdAC) (fun _ => stdAC) exPar exW exData exBlks).any fun x => x.1 (0, 0, 0) != exBlks (0, 0, 0) && x.1 (0, 0, 2) != exBlks (0, 0, 2)) = true ∧
    (exLeft.any fun x => x.1 != exBlks (0, 0, 0) && x.2 != []) = true := by
  refine ⟨fun _ => show stdAC.Dht from ⟨by decide, by unfold IsBytes; decide +kernel⟩, by decide, ?_, by decide, by unfold IsBytes; decide, ?_, by decide +kernel, by decide +kernel,
    by decide +kernel⟩
  · unfold SPar.Fits; decide
  · intro q hq
    refine ⟨by simp [exBlks], ?_⟩
    revert q
    decide

/-- **C54**, finding: corrupt data can change coefficients outside the band Ss..Se of its scan (here scan position 16 in
a first scan of positions 1 to 5, and position 6 in a refinement of the same band), up to the bounds of `C54_safe`. -/
theorem C54_outside_band :
    ((decPScan (fun _ => ⟨[1, 0, 0, 0, 0, 0, 0, 0, 0, 0, 0, 0, 0, 0, 0, 0], [0xF1]⟩) (fun _ => ⟨[1, 0, 0, 0, 0, 0, 0, 0, 0, 0, 0, 0, 0, 0, 0, 0], [0xF1]⟩)
      ⟨1, 5, 0, 0, 0, [], 0⟩ [[(0, 0, 0)]] [0x55, 0xFF, 0xD9] (fun _ => List.replicate 64 0)).any fun x => Arith.coefAt (x.1 (0, 0, 0)) 16 != 0) = true ∧
    ((decPScan (fun _ => ⟨[1, 0, 0, 0, 0, 0, 0, 0, 0, 0, 0, 0, 0, 0, 0, 0], [0xF1]⟩) (fun _ => ⟨[1, 0, 0, 0, 0, 0, 0, 0, 0, 0, 0, 0, 0, 0, 0, 0], [0xF1]⟩)
      ⟨1, 5, 1, 0, 0, [], 0⟩ [[(0, 0, 0)]] [0x55, 0xFF, 0xD9] (fun _ => List.replicate 64 0)).any fun x => Arith.coefAt (x.1 (0, 0, 0)) 6 != 0) = true := by
  decide +kernel

end Verif.Prog
