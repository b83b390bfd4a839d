import Verif.Arith.Image
import Verif.Huff.Safe
import Verif.Huff.FeedProps
/-
C50: the arithmetic decoder on arbitrary data.
-/
namespace Verif.Arith
open Verif Verif.Huff
open Verif.Geom (Pos Blk storeMcu)

/-- All runs of a decoding procedure: every bin it asks for satisfies `P`, every result `Q`. -/
def Rdr.All {β α : Type} (P : β → Prop) (Q : α → Prop) : Rdr β α → Prop
  | .ret x => Q x
  | .ask b k => P b ∧ ∀ x, (k x).All P Q

theorem Rdr.All.bind {β α γ : Type} {P : β → Prop} {Q : α → Prop} {R : γ → Prop} {r : Rdr β α} {f : α → Rdr β γ} (h : r.All P Q)
    (hf : ∀ x, Q x → (f x).All P R) : (r.bind f).All P R := by
  induction r with
  | ret x => exact hf x h
  | ask b k ih => exact ⟨h.1, fun x => ih x (h.2 x)⟩

theorem Rdr.All.mono {β α : Type} {P P' : β → Prop} {Q Q' : α → Prop} {r : Rdr β α} (h : r.All P Q) (hP : ∀ b, P b → P' b)
    (hQ : ∀ x, Q x → Q' x) : r.All P' Q' := by
  induction r with
  | ret x => exact hQ x h
  | ask b k ih => exact ⟨hP b h.1, fun x => ih x (h.2 x)⟩

theorem Rdr.All.run {α : Type} {P : Bin → Prop} {Q : α → Prop} {r : Rdr Bin α} (h : r.All P Q) :
    ∀ {d : Dec} {σ : Bin → Nat} {x : α × Dec × (Bin → Nat)}, r.run d σ = some x → Q x.1 := by
  induction r with
  | ret y =>
    intro d σ x e
    simp only [Rdr.run, Option.some.injEq] at e
    rw [← e]; exact h
  | ask b k ih =>
    intro d σ x e
    rw [Rdr.run] at e
    cases e1 : decode1 d (σ b) with
    | none => rw [e1] at e; simp at e
    | some y => rw [e1] at e; exact ih _ (h.2 _) e

/-- The bin exists: NUM_ARITH_TBLS 16, DC_STAT_BINS 64, AC_STAT_BINS 256 (jdarith.c:67-68, jpeglib.h). -/
def BinOk : Bin → Prop
  | .dc t o => t < 16 ∧ o < 64
  | .ac t o => t < 16 ∧ o < 256
  | .fixed => True

/-- dc_context is one of 0, 4, 8, 12, 16; last_dc_val fits 16 bits. -/
structure PredOk (s : Pred) : Prop where
  ctx : ∀ c, s.ctx c ≤ 16
  last : ∀ c, 0 ≤ s.last c ∧ s.last c < 65536

theorem PredOk.init : PredOk Pred.init := ⟨fun _ => by simp [Pred.init], fun _ => by simp [Pred.init]⟩

theorem rCat_all (mk : Nat → Bin) (n : Nat) : ∀ (j st : Nat), j ≤ 14 →
    (rCat mk n (2 ^ j) st).All (fun b => ∃ i, j + i ≤ 14 ∧ b = mk (st + i))
      (fun r => ∀ m' st', r = some (m', st') → ∃ i, j + i ≤ 14 ∧ m' = 2 ^ (j + i) ∧ st' = st + i) := by
  induction n with
  | zero => intro j st _; intro m' st' h; simp at h
  | succ n ih =>
    intro j st hj
    refine ⟨⟨0, by omega, rfl⟩, ?_⟩
    intro x
    cases x with
    | false =>
      intro m' st' h
      simp only [Option.some.injEq, Prod.mk.injEq] at h
      exact ⟨0, by omega, h.1.symm, h.2.symm⟩
    | true =>
      simp only [if_true]
      rw [← pow_succ]
      by_cases h : 2 ^ (j + 1) = 0x8000
      · rw [if_pos h]
        intro m' st' h; simp at h
      · rw [if_neg h]
        have hj2 : j + 1 ≤ 14 := by
          by_contra hc
          exact h (by rw [show j + 1 = 15 by omega]; rfl)
        refine (ih (j + 1) (st + 1) hj2).mono ?_ ?_
        · rintro b ⟨i, hi, rfl⟩
          exact ⟨i + 1, by omega, by congr 1; omega⟩
        · intro r hr m' st' h
          obtain ⟨i, hi, h1, h2⟩ := hr m' st' h
          exact ⟨i + 1, by omega, by rw [h1]; congr 1; omega, by omega⟩

theorem rBits_all (b : Bin) (n : Nat) : ∀ (m v : Nat), m ≤ 2 ^ 14 → v < 2 ^ 15 →
    (rBits b n m v).All (fun b' => b' = b ∧ 2 ≤ m) (fun r => r < 2 ^ 15) := by
  induction n with
  | zero => intro m v _ h; exact h
  | succ n ih =>
    intro m v hm hv
    rw [rBits]
    by_cases h : m / 2 = 0
    · rw [if_pos h]; exact hv
    · rw [if_neg h]
      refine ⟨⟨rfl, by omega⟩, ?_⟩
      intro x
      refine (ih (m / 2) _ (by omega) ?_).mono (fun b' h' => ⟨h'.1, by omega⟩) (fun _ h => h)
      cases x with
      | false => simpa using hv
      | true => simp only [if_true]; exact Nat.or_lt_two_pow hv (by omega)

theorem rDC_all (q : Cond) {tbl ctx : Nat} (ht : tbl < 16) (hc : ctx ≤ 16) :
    (rDC q tbl ctx).All BinOk (fun r => ∀ v c, r = some (v, c) → c ≤ 16 ∧ v.natAbs ≤ 2 ^ 15) := by
  refine ⟨⟨ht, by omega⟩, ?_⟩
  intro nz
  cases nz with
  | false =>
    intro v c h
    simp only [Option.some.injEq, Prod.mk.injEq] at h
    obtain ⟨rfl, rfl⟩ := h
    simp
  | true =>
    simp only [Bool.not_true, Bool.false_eq_true, if_false]
    refine ⟨⟨ht, by omega⟩, ?_⟩
    intro sign
    refine ⟨⟨ht, by split <;> omega⟩, ?_⟩
    intro big
    have hcat : (if big = true then rCat (Bin.dc tbl) 16 1 20 else Rdr.ret (some (0, ctx + 2 + if sign = true then 1 else 0))).All BinOk
        (fun r => ∀ m st, r = some (m, st) → m ≤ 2 ^ 14 ∧ (2 ≤ m → st + 14 < 64)) := by
      cases big with
      | false =>
        intro m st h
        simp only [Option.some.injEq, Prod.mk.injEq] at h
        omega
      | true =>
        simp only [if_true]
        refine (rCat_all (Bin.dc tbl) 16 0 20 (by omega)).mono ?_ ?_
        · rintro b ⟨i, hi, rfl⟩
          exact ⟨ht, by omega⟩
        · intro r hr m st h
          obtain ⟨i, hi, h1, h2⟩ := hr m st h
          rw [h1]
          exact ⟨Nat.pow_le_pow_right (by omega) (by omega), fun _ => by omega⟩
    refine hcat.bind ?_
    intro r hr
    cases r with
    | none => intro v c h; simp at h
    | some x =>
      obtain ⟨m, st⟩ := x
      obtain ⟨h1, h2⟩ := hr m st rfl
      dsimp only
      refine ((rBits_all (Bin.dc tbl (st + 14)) 32 m m h1 (by omega)).mono (P' := BinOk) (Q' := fun r => r < 2 ^ 15) ?_ ?_).bind ?_
      · rintro b ⟨rfl, hm⟩
        exact ⟨ht, h2 hm⟩
      · exact fun _ h => h
      · intro v hv v' c h
        simp only [Option.some.injEq, Prod.mk.injEq] at h
        obtain ⟨rfl, rfl⟩ := h
        constructor
        · (repeat' split) <;> omega
        · split <;> omega

theorem rMag_all (q : Cond) {tbl k : Nat} (ht : tbl < 16) (hk : 1 ≤ k ∧ k ≤ 63) :
    (rMag q tbl k).All BinOk (fun r => ∀ v, r = some v → v.natAbs ≤ 2 ^ 15) := by
  refine ⟨trivial, ?_⟩
  intro sign
  refine ⟨⟨ht, by omega⟩, ?_⟩
  intro b1
  have hcat : (if b1 = true then Rdr.ask (Bin.ac tbl (3 * (k - 1) + 2)) fun b2 =>
        if b2 = true then rCat (Bin.ac tbl) 16 2 (if k ≤ q.K tbl then 189 else 217) else .ret (some (1, 3 * (k - 1) + 2))
      else .ret (some (0, 3 * (k - 1) + 2))).All BinOk (fun r => ∀ m st, r = some (m, st) → m ≤ 2 ^ 14 ∧ (2 ≤ m → st + 14 < 256)) := by
    cases b1 with
    | false =>
      intro m st h
      simp only [Option.some.injEq, Prod.mk.injEq] at h
      omega
    | true =>
      simp only [if_true]
      refine ⟨⟨ht, by omega⟩, ?_⟩
      intro b2
      cases b2 with
      | false =>
        intro m st h
        simp only [Option.some.injEq, Prod.mk.injEq] at h
        omega
      | true =>
        simp only [if_true]
        have hst : (if k ≤ q.K tbl then 189 else 217) ≤ 217 := by split <;> omega
        generalize (if k ≤ q.K tbl then 189 else 217) = st0 at hst
        refine (rCat_all (Bin.ac tbl) 16 1 st0 (by omega)).mono ?_ ?_
        · rintro b ⟨i, hi, rfl⟩
          exact ⟨ht, by omega⟩
        · intro r hr m st h
          obtain ⟨i, hi, h1, h2⟩ := hr m st h
          rw [h1]
          exact ⟨Nat.pow_le_pow_right (by omega) (by omega), fun _ => by omega⟩
  refine hcat.bind ?_
  intro r hr
  cases r with
  | none => intro v h; simp at h
  | some x =>
    obtain ⟨m, st⟩ := x
    obtain ⟨h1, h2⟩ := hr m st rfl
    dsimp only
    refine ((rBits_all (Bin.ac tbl (st + 14)) 32 m m h1 (by omega)).mono (P' := BinOk) (Q' := fun r => r < 2 ^ 15) ?_ ?_).bind ?_
    · rintro b ⟨rfl, hm⟩
      exact ⟨ht, h2 hm⟩
    · exact fun _ h => h
    · intro v hv v' h
      simp only [Option.some.injEq] at h
      rw [← h]
      split <;> omega

/-- What a scan may do to a block: coefficients stay 16-bit values, only those in the band Ss..Se (scan positions) change. -/
structure Touch (Ss Se : Nat) (old new : Blk) : Prop where
  coef : CoefBlock new
  keep : ∀ j < 64, ¬(Ss ≤ j ∧ j ≤ Se) → coefAt new j = coefAt old j

theorem Touch.refl {Ss Se : Nat} {b : Blk} (h : CoefBlock b) : Touch Ss Se b b := ⟨h, fun _ _ _ => rfl⟩

theorem Touch.set {Ss Se : Nat} {old b : Blk} (h : Touch Ss Se old b) {k : Nat} (h1 : Ss ≤ k) (h2 : k ≤ Se) (h3 : k < 64) (x : Int) :
    Touch Ss Se old (b.set (natOrder.getD k 0) (toCoef x)) := by
  refine ⟨h.coef.set _ _, ?_⟩
  intro j hj hn
  rw [← h.keep j hj hn]
  exact coefAt_set_ne h3 hj (by omega)

theorem rAC_all (q : Cond) {tbl Al Ss Se : Nat} (ht : tbl < 16) (hSe : Se ≤ 63) (old : Blk) (n : Nat) : ∀ (k : Nat) (eob : Bool) (blk : Blk),
    1 ≤ k → Ss ≤ k → k + n = Se + 1 → Touch Ss Se old blk → (rAC q tbl Al n k eob blk).All BinOk (fun r => Touch Ss Se old r.1) := by
  induction n with
  | zero => intro k eob blk _ _ _ h; exact h
  | succ n ih =>
    intro k eob blk hk1 hk2 hk h
    rw [rAC]
    have hrest : (Rdr.ask (Bin.ac tbl (3 * (k - 1) + 1)) fun x =>
      if x then (rMag q tbl k).bind fun r =>
        match r with
        | none => .ret (blk, false)
        | some v => rAC q tbl Al n (k + 1) true (blk.set (natOrder.getD k 0) (toCoef (v * 2 ^ Al)))
      else rAC q tbl Al n (k + 1) false blk).All BinOk (fun r => Touch Ss Se old r.1) := by
      refine ⟨⟨ht, by omega⟩, ?_⟩
      intro x
      cases x with
      | false => exact ih (k + 1) false blk (by omega) (by omega) (by omega) h
      | true =>
        simp only [if_true]
        refine (rMag_all q ht ⟨hk1, by omega⟩).bind ?_
        intro r _
        cases r with
        | none => exact h
        | some v => exact ih (k + 1) true _ (by omega) (by omega) (by omega) (h.set hk2 (by omega) (by omega) _)
    cases eob with
    | false => exact hrest
    | true =>
      refine ⟨⟨ht, by omega⟩, ?_⟩
      intro x
      cases x with
      | false => exact hrest
      | true => exact h

theorem rRef_all {tbl Al kex Ss Se : Nat} (ht : tbl < 16) (hSe : Se ≤ 63) (old : Blk) (n : Nat) : ∀ (k : Nat) (eob : Bool) (blk : Blk),
    1 ≤ k → Ss ≤ k → k + n = Se + 1 → Touch Ss Se old blk → (rRef tbl Al kex n k eob blk).All BinOk (fun r => Touch Ss Se old r.1) := by
  induction n with
  | zero => intro k eob blk _ _ _ h; exact h
  | succ n ih =>
    intro k eob blk hk1 hk2 hk h
    rw [rRef]
    have hrest : (if coefAt blk k ≠ 0 then Rdr.ask (.ac tbl (3 * (k - 1) + 2)) fun x =>
        rRef tbl Al kex n (k + 1) true
          (if x then blk.set (natOrder.getD k 0) (toCoef (coefAt blk k + toCoef (if coefAt blk k < 0 then -2 ^ Al else 2 ^ Al))) else blk)
      else .ask (.ac tbl (3 * (k - 1) + 1)) fun x =>
        if x then .ask .fixed fun sg =>
          rRef tbl Al kex n (k + 1) true (blk.set (natOrder.getD k 0) (toCoef (if sg then -2 ^ Al else 2 ^ Al)))
        else rRef tbl Al kex n (k + 1) false blk).All BinOk (fun r => Touch Ss Se old r.1) := by
      split
      · refine ⟨⟨ht, by omega⟩, ?_⟩
        intro x
        cases x with
        | false => exact ih (k + 1) true blk (by omega) (by omega) (by omega) h
        | true => exact ih (k + 1) true _ (by omega) (by omega) (by omega) (h.set hk2 (by omega) (by omega) _)
      · refine ⟨⟨ht, by omega⟩, ?_⟩
        intro x
        cases x with
        | false => exact ih (k + 1) false blk (by omega) (by omega) (by omega) h
        | true => exact ⟨trivial, fun sg => ih (k + 1) true _ (by omega) (by omega) (by omega) (h.set hk2 (by omega) (by omega) _)⟩
    dsimp only
    split
    · refine ⟨⟨ht, by omega⟩, ?_⟩
      intro x
      cases x with
      | false => exact hrest
      | true => exact h
    · exact hrest

theorem Touch.trans {Ss Se : Nat} {a b c : Blk} (h1 : Touch Ss Se a b) (h2 : Touch Ss Se b c) : Touch Ss Se a c :=
  ⟨h2.coef, fun j hj hn => (h2.keep j hj hn).trans (h1.keep j hj hn)⟩

theorem Touch.widen {Ss Se Ss' Se' : Nat} {a b : Blk} (h : Touch Ss Se a b) (h1 : Ss' ≤ Ss) (h2 : Se ≤ Se') : Touch Ss' Se' a b :=
  ⟨h.coef, fun j hj hn => h.keep j hj (by omega)⟩

theorem Touch.dc {Se : Nat} {b : Blk} (h : CoefBlock b) (x : Int) : Touch 0 Se b (b.set 0 (toCoef x)) := by
  have := (Touch.refl (Ss := 0) (Se := Se) h).set (k := 0) (by omega) (by omega) (by omega) x
  rwa [show natOrder.getD 0 0 = 0 by decide +kernel] at this

theorem rBlks_all (ac : Bool) (q : Cond) (Al : Nat) (bs : List ABlk) : (∀ b ∈ bs, b.dcNo < 16 ∧ (ac = true → b.acNo < 16)) →
    ∀ (cur : List Blk) (s : Pred), (∀ b ∈ cur, CoefBlock b) → PredOk s →
    (rBlks ac q Al bs cur s).All BinOk (fun r => List.Forall₂ (Touch 0 (if ac then 63 else 0)) cur r.1 ∧ PredOk r.2.1) := by
  have hrefl : ∀ cur : List Blk, (∀ b ∈ cur, CoefBlock b) → List.Forall₂ (Touch 0 (if ac then 63 else 0)) cur cur := by
    intro cur h
    rw [List.forall₂_same]
    exact fun b hb => Touch.refl (h b hb)
  induction bs with
  | nil => intro _ cur s hc hs; exact ⟨hrefl cur hc, hs⟩
  | cons b bs ih =>
    intro hb cur s hc hs
    cases cur with
    | nil => exact ⟨.nil, hs⟩
    | cons blk blks =>
      have hblk := hc blk (by simp)
      have hblks := fun b h => hc b (List.mem_cons_of_mem _ h)
      rw [rBlks]
      refine (rDC_all q (hb b (by simp)).1 (hs.ctx _)).bind ?_
      intro r hr
      cases r with
      | none => exact ⟨hrefl _ hc, hs⟩
      | some x =>
        obtain ⟨v, ctx⟩ := x
        obtain ⟨hctx, hv⟩ := hr v ctx rfl
        dsimp only
        have hlast : 0 ≤ (if v = 0 then s.last b.ci else (s.last b.ci + v) % 65536) ∧
            (if v = 0 then s.last b.ci else (s.last b.ci + v) % 65536) < 65536 := by
          have := hs.last b.ci
          split <;> omega
        generalize (if v = 0 then s.last b.ci else (s.last b.ci + v) % 65536) = last at hlast
        have hs1 : PredOk ⟨upd s.last b.ci last, fun c => if c = b.ci then ctx else s.ctx c⟩ := by
          refine ⟨fun c => ?_, fun c => ?_⟩
          · dsimp only; split
            · exact hctx
            · exact hs.ctx c
          · dsimp only; unfold upd; split
            · exact hlast
            · exact hs.last c
        generalize (⟨upd s.last b.ci last, fun c => if c = b.ci then ctx else s.ctx c⟩ : Pred) = s1 at hs1
        have hdc : Touch 0 (if ac then 63 else 0) blk (blk.set 0 (toCoef (last * 2 ^ Al))) := Touch.dc hblk _
        refine Rdr.All.bind (Q := fun r : Blk × Bool => Touch 0 (if ac then 63 else 0) blk r.1) ?_ ?_
        · cases ac with
          | false => exact hdc
          | true =>
            simp only [if_true] at hdc ⊢
            exact rAC_all q ((hb b (by simp)).2 rfl) (by omega) blk 63 1 true _ (by omega) (by omega) (by omega) hdc
        · intro r hr
          cases e : r.2 with
          | false => exact ⟨.cons hr (hrefl _ hblks), hs1⟩
          | true =>
            simp only [if_true]
            refine (ih (fun b h => hb b (List.mem_cons_of_mem _ h)) blks s1 hblks hs1).bind ?_
            intro t ht
            exact ⟨.cons hr ht.1, ht.2⟩

theorem rDCRef_all (Al : Nat) (cur : List Blk) : (∀ b ∈ cur, CoefBlock b) →
    (rDCRef Al cur).All BinOk (fun r => List.Forall₂ (Touch 0 0) cur r) := by
  induction cur with
  | nil => intro _; exact .nil
  | cons b bs ih =>
    intro h
    refine ⟨trivial, ?_⟩
    intro x
    refine (ih fun b hb => h b (List.mem_cons_of_mem _ hb)).bind ?_
    intro t ht
    refine .cons ?_ ht
    cases x with
    | false => exact Touch.refl (h b (by simp))
    | true => exact Touch.dc (h b (by simp)) _

/-- What start_pass checks of a scan (jdarith.c:638-660, 708-729): the band and the table numbers the scan uses; a scan has a block. -/
structure APar.Checked (p : APar) : Prop where
  band : p.prog = true → p.Se ≤ 63 ∧ p.Ss ≤ p.Se
  dc : (p.prog = false ∨ (p.Ss = 0 ∧ p.Ah = 0)) → ∀ b ∈ p.bs, b.dcNo < 16
  ac : (p.prog = false ∨ p.Ss ≠ 0) → ∀ b ∈ p.bs, b.acNo < 16

/-- The band of a scan. -/
def APar.lo (p : APar) : Nat := if p.prog then p.Ss else 0
def APar.hi (p : APar) : Nat := if p.prog then p.Se else 63

theorem rMcu_all (p : APar) (hp : p.Checked) (cur : List Blk) (s : Pred) (hc : ∀ b ∈ cur, CoefBlock b) (hs : PredOk s)
    (hne : cur ≠ []) : (rMcu p cur s).All BinOk (fun r => List.Forall₂ (Touch p.lo p.hi) cur r.1 ∧ PredOk r.2.1 ∧
      ((p.prog = true ∧ p.Ah ≠ 0 ∧ p.Ss = 0) → r.2.2 = true)) := by
  have hhead : (p.prog = false ∨ p.Ss ≠ 0) → (p.bs.headD ⟨0, 0, 0⟩).acNo < 16 := by
    intro h
    cases e : p.bs with
    | nil => simp
    | cons b bs => exact hp.ac h b (by simp [e])
  obtain ⟨c0, cs, rfl⟩ : ∃ x xs, cur = x :: xs := by
    cases cur with
    | nil => exact absurd rfl hne
    | cons x xs => exact ⟨x, xs, rfl⟩
  have hrest : ∀ {a b : Nat}, List.Forall₂ (Touch a b) cs cs := by
    intro a b
    rw [List.forall₂_same]
    exact fun b hb => Touch.refl (hc b (by simp [hb]))
  unfold rMcu APar.lo APar.hi
  by_cases hprog : p.prog = true
  · obtain ⟨h63, hle⟩ := hp.band hprog
    simp only [if_pos hprog]
    by_cases hAh : p.Ah = 0
    · rw [if_pos hAh]
      by_cases hSs : p.Ss = 0
      · rw [if_pos hSs, hSs]
        refine (rBlks_all false p.q p.Al p.bs (fun b hb => ⟨hp.dc (Or.inr ⟨hSs, hAh⟩) b hb, by simp⟩) _ s hc hs).mono (fun _ h => h) ?_
        intro r hr
        exact ⟨hr.1.imp fun a b h => h.widen (by omega) (by simp), hr.2, fun h => absurd hAh h.2.1⟩
      · rw [if_neg hSs]
        simp only [List.headD_cons, List.tail_cons]
        refine (rAC_all (Ss := p.Ss) (Se := p.Se) p.q (hhead (Or.inr hSs)) h63 c0 _ p.Ss true c0 (by omega) (by omega) (by omega) (Touch.refl (hc c0 (by simp)))).bind ?_
        intro r hr
        exact ⟨.cons hr hrest, hs, fun h => absurd h.2.2 hSs⟩
    · rw [if_neg hAh]
      by_cases hSs : p.Ss = 0
      · rw [if_pos hSs, hSs]
        refine (rDCRef_all p.Al _ hc).bind ?_
        intro t ht
        exact ⟨ht.imp fun a b h => h.widen (by omega) (by omega), hs, fun _ => rfl⟩
      · rw [if_neg hSs]
        simp only [List.headD_cons, List.tail_cons]
        refine (rRef_all (Ss := p.Ss) (Se := p.Se) (hhead (Or.inr hSs)) h63 c0 _ p.Ss true c0 (by omega) (by omega) (by omega) (Touch.refl (hc c0 (by simp)))).bind ?_
        intro r hr
        exact ⟨.cons hr hrest, hs, fun h => absurd h.2.2 hSs⟩
  · simp only [if_neg hprog]
    have hf : p.prog = false := by simpa using hprog
    refine (rBlks_all true p.q 0 p.bs (fun b hb => ⟨hp.dc (Or.inl hf) b hb, fun _ => hp.ac (Or.inl hf) b hb⟩) _ s hc hs).mono
      (fun _ h => h) ?_
    intro r hr
    exact ⟨hr.1, hr.2, fun h => absurd h.1 hprog⟩

/-! ### The decoder with its array accesses checked -/

/-- What one call of arith_decode (jdarith.c:109-188) needs: the bin lies in its array; its value is an index of jpeg_aritab (114 entries);
the registers fit 32 bits, the shift counter makes a legal shift. -/
def CallOk (d : Dec) (σ : Bin → Nat) (b : Bin) : Prop := BinOk b ∧ σ b % 128 < 114 ∧ σ b < 256 ∧ d.c < 2 ^ 31 ∧ d.a ≤ 0x10000 ∧ d.ct ≤ 7

instance (b : Bin) : Decidable (BinOk b) := by cases b <;> (unfold BinOk; infer_instance)

instance (d : Dec) (σ : Bin → Nat) (b : Bin) : Decidable (CallOk d σ b) := by unfold CallOk; infer_instance

/-- `Rdr.run`, with the checks: a failed check is `none`. -/
def Rdr.runChk {α : Type} : Rdr Bin α → Dec → (Bin → Nat) → Option (α × Dec × (Bin → Nat))
  | .ret x, d, σ => some (x, d, σ)
  | .ask b k, d, σ =>
    if CallOk d σ b then
      match decode1 d (σ b) with
      | none => none
      | some (x, d', sv) => (k x).runChk d' fun b' => if b' = b then sv else σ b'
    else none

/-- `DS.mcu` with the checks. -/
def DS.mcuChk (p : APar) (s : DS) (cur : List Blk) : Option (List Blk × DS) :=
  match (if p.ri ≠ 0 then
      ((if s.togo = 0 then s.restart p.ri else some s).map fun s => { s with togo := s.togo - 1 })
    else some s) with
  | none => none
  | some s =>
    if s.d.ct = -1 ∧ ¬(p.prog ∧ p.Ah ≠ 0 ∧ p.Ss = 0) then some (cur, s)
    else
      match (rMcu p cur s.pr).runChk s.d s.σ with
      | none => none
      | some (r, d, σ) =>
        if r.2.2 then some (r.1, { s with d := d, σ := σ, pr := r.2.1 })
        else some (r.1, { s with d := { d with ct := -1 }, σ := σ, pr := r.2.1, bad := s.bad + 1 })

/-- `decAImg` with the checks. -/
def decAImgChk (p : APar) : List (List Pos) → (Pos → Blk) → DS → Option ((Pos → Blk) × DS)
  | [], img, s => some (img, s)
  | ps :: W, img, s =>
    match s.mcuChk p (ps.map img) with
    | none => none
    | some (bs, s) => decAImgChk p W (storeMcu img ps bs) s

/-- `decAScan` with the checks. -/
def decAScanChk (p : APar) (W : List (List Pos)) (bytes : List Nat) (img : Pos → Blk) : Option ((Pos → Blk) × DS) :=
  decAImgChk p W img (DS.init p.ri bytes)

/-! ### Every run succeeds -/

theorem afterFF_suffix (l : List Nat) : ∀ {x : Nat} {b : List Nat} {m' : Nat}, afterFF l = some (x, b, m') → b <:+ l := by
  induction l with
  | nil => intro x b m' h; simp [afterFF] at h
  | cons c l ih =>
    intro x b m' h
    rw [afterFF] at h
    split at h
    · exact (ih h).trans (List.suffix_cons c l)
    · split at h <;>
      · simp only [Option.some.injEq, Prod.mk.injEq] at h
        rw [← h.2.1]; exact List.suffix_cons c l

theorem fetch_suffix {l : List Nat} {m x : Nat} {b : List Nat} {m' : Nat} (h : fetch l m = some (x, b, m')) : b <:+ l := by
  unfold fetch at h
  split at h
  · simp only [Option.some.injEq, Prod.mk.injEq] at h
    rw [← h.2.1]
  · split at h
    · simp at h
    · split at h
      · exact (afterFF_suffix _ h).trans (List.suffix_cons _ _)
      · simp only [Option.some.injEq, Prod.mk.injEq] at h
        rw [← h.2.1]; exact List.suffix_cons _ _

theorem shiftD_suffix {d d' : Dec} (h : shiftD d = some d') : d'.bytes <:+ d.bytes := by
  unfold shiftD at h
  split at h
  · split at h
    · simp at h
    · rename_i x bytes marker e
      simp only [Option.some.injEq] at h
      have := fetch_suffix e
      rw [← h]
      dsimp only
      split <;> exact this
  · simp only [Option.some.injEq] at h
    rw [← h]

theorem renormD_suffix (n : Nat) : ∀ {d d' : Dec}, renormD n d = some d' → d'.bytes <:+ d.bytes := by
  induction n with
  | zero => intro d d' h; simp only [renormD, Option.some.injEq] at h; rw [h]
  | succ n ih =>
    intro d d' h
    rw [renormD] at h
    split at h
    · cases e : shiftD d with
      | none => rw [e] at h; simp at h
      | some d1 => rw [e] at h; exact (ih h).trans (shiftD_suffix e)
    · simp only [Option.some.injEq] at h; rw [h]

/-- The invariant of the registers, the bins and the data. -/
structure Fit (d : Dec) (σ : Bin → Nat) : Prop where
  ok : d.Ok
  good : ∀ b, Good (σ b)
  bytes : IsBytes d.bytes
  live : Live d.marker d.bytes

theorem IsBytes.suffix {a b : List Nat} (h : IsBytes b) (hs : a <:+ b) : IsBytes a := fun x hx => h x (hs.subset hx)

theorem live_feed {d : Dec} (h : Live d.marker d.bytes) : ∃ P m rest, m ≠ 0 ∧ Feed P m rest 0 d.bytes d.marker ∧
    (IsBytes d.bytes → IsBytes P) ∧ cands d.marker d.bytes = (m, rest) :: Rst.codes rest := by
  obtain ⟨y, hy⟩ := h
  unfold cands at hy ⊢
  by_cases hm : d.marker = 0
  · rw [if_pos hm] at hy ⊢
    rw [(codes_seg d.bytes).1] at hy ⊢
    cases e : segTail false d.bytes with
    | none => rw [e] at hy; simp at hy
    | some x =>
      obtain ⟨m, rest⟩ := x
      exact ⟨unstuff false d.bytes, m, rest, (segTail_ne_zero e).1, Or.inl ⟨hm, by simp, e⟩, fun hb => isBytes_unstuff hb false, rfl⟩
  · rw [if_neg hm]
    exact ⟨[], d.marker, d.bytes, hm, Or.inr ⟨rfl, by simp, rfl⟩, fun _ => by intro x hx; simp at hx, rfl⟩

theorem feed_cands {P : List Nat} {m : Nat} {rest : List Nat} {j : Nat} {bytes : List Nat} {marker : Nat} (hm : m ≠ 0)
    (h : Feed P m rest j bytes marker) : cands marker bytes = (m, rest) :: Rst.codes rest := by
  unfold cands
  rcases h with ⟨h1, -, h2⟩ | ⟨h1, -, h2⟩
  · rw [if_pos h1, (codes_seg bytes).1, h2]
  · rw [h1, h2, if_neg hm]

/-- One decision. -/
theorem decode1_fit {d : Dec} {σ : Bin → Nat} (h : Fit d σ) {b : Bin} (hb : BinOk b) :
    CallOk d σ b ∧ ∃ x d' sv, decode1 d (σ b) = some (x, d', sv) ∧ Fit d' fun b' => if b' = b then sv else σ b' := by
  have hcall : CallOk d σ b := by
    have h2 : d.c < 2 ^ 31 ∧ d.a ≤ 0x10000 ∧ d.ct ≤ 7 := by
      rcases h.ok with ⟨h1, h2, h3⟩ | ⟨h1, h2, h3, h4, h5⟩
      · omega
      · refine ⟨?_, h4, h2⟩
        have h6 : d.ct.toNat ≤ 7 := by omega
        have h7 : 2 ^ d.ct.toNat ≤ 2 ^ 7 := Nat.pow_le_pow_right (by omega) h6
        calc d.c < d.a * 2 ^ d.ct.toNat := h5
          _ ≤ 0x10000 * 2 ^ 7 := Nat.mul_le_mul h4 h7
          _ < 2 ^ 31 := by norm_num
    exact ⟨hb, (h.good b).2, (h.good b).1, h2⟩
  refine ⟨hcall, ?_⟩
  obtain ⟨P, m, rest, hm, hf, hP, hc⟩ := live_feed h.live
  obtain ⟨d1, j1, h1, h2, h3, h4, h5, h6, h7⟩ := renorm_any (hP h.bytes) hm hf h.ok
  obtain ⟨h8, h9, h10, h11⟩ := decide1_ok (h.good b) h3 h4 h5 h6 h7
  refine ⟨_, _, _, by rw [decode1, h1]; rfl, h8, good_upd h.good b _ h9, ?_, ?_⟩
  · rw [h10]
    exact IsBytes.suffix h.bytes (renormD_suffix 16 h1)
  · rw [h10, h11]
    have := h.live
    unfold Live at this ⊢
    rw [feed_cands hm h2]
    rw [hc] at this
    exact this

theorem Rdr.All.runs {α : Type} {Q : α → Prop} {r : Rdr Bin α} (h : r.All BinOk Q) : ∀ {d : Dec} {σ : Bin → Nat}, Fit d σ →
    ∃ y d' σ', r.runChk d σ = some (y, d', σ') ∧ r.run d σ = some (y, d', σ') ∧ Q y ∧ Fit d' σ' := by
  induction r with
  | ret x => intro d σ hf; exact ⟨x, d, σ, rfl, rfl, h, hf⟩
  | ask b k ih =>
    intro d σ hf
    obtain ⟨h1, x, d1, sv, h2, h3⟩ := decode1_fit hf h.1
    obtain ⟨y, d', σ', h4, h5, h6, h7⟩ := ih x (h.2 x) h3
    refine ⟨y, d', σ', ?_, ?_, h6, h7⟩
    · rw [Rdr.runChk, if_pos h1, h2]; exact h4
    · rw [Rdr.run, h2]; exact h5

/-- The invariant of the decoder between MCUs. -/
structure DS.Fit (p : APar) (s : DS) : Prop where
  ok : s.d.Ok ∨ (s.d.ct = -1 ∧ ¬(p.prog = true ∧ p.Ah ≠ 0 ∧ p.Ss = 0))
  good : ∀ b, Good (s.σ b)
  bytes : IsBytes s.d.bytes
  live : Live s.d.marker s.d.bytes
  pred : PredOk s.pr
  num : s.num < 8

theorem readRestart_num {t : Rst.St} (hd : t.num < 8) (h : (Rst.readRestart t).1 = true) : (Rst.readRestart t).2.num < 8 := by
  rw [Rst.C30_counter hd, if_pos h]; omega

theorem restart_fit {p : APar} {s : DS} (h : s.Fit p) : ∃ s', s.restart p.ri = some s' ∧ s'.Fit p := by
  obtain ⟨m, rest, h1, h2⟩ := outc_live (num := s.num) h.live
  obtain ⟨h3, h4, h5⟩ := (readRestart_outc (t := ⟨s.d.marker, s.disc, s.num, s.d.bytes, s.warns⟩) h.num).2 m rest h1
  have h6 := readRestart_num (t := ⟨s.d.marker, s.disc, s.num, s.d.bytes, s.warns⟩) h.num h3
  unfold DS.restart
  revert h3 h4 h5 h6
  generalize Rst.readRestart ⟨s.d.marker, s.disc, s.num, s.d.bytes, s.warns⟩ = r
  obtain ⟨b, r⟩ := r
  intro h3 h4 h5 h6
  dsimp only at h3 h4 h5 h6
  subst h3
  refine ⟨_, rfl, Or.inl (Or.inl ⟨rfl, rfl, rfl⟩), good_σ0, ?_, ?_, PredOk.init, h6⟩
  · dsimp only; rw [h5]; exact IsBytes.suffix h.bytes (outc_suffix h1)
  · dsimp only; rw [h4, h5]; exact h2

theorem mcu_fit {p : APar} (hp : p.Checked) {s : DS} (h : s.Fit p) {cur : List Blk} (hc : ∀ b ∈ cur, CoefBlock b) (hne : cur ≠ []) :
    ∃ out s', s.mcuChk p cur = some (out, s') ∧ s.mcu p cur = some (out, s') ∧ s'.Fit p ∧ List.Forall₂ (Touch p.lo p.hi) cur out := by
  have hpre : ∃ s1, (if p.ri ≠ 0 then
      ((if s.togo = 0 then s.restart p.ri else some s).map fun s => { s with togo := s.togo - 1 })
    else some s) = some s1 ∧ s1.Fit p := by
    by_cases hri : p.ri ≠ 0
    · rw [if_pos hri]
      by_cases ht : s.togo = 0
      · rw [if_pos ht]
        obtain ⟨s1, h1, h2⟩ := restart_fit h
        rw [h1]
        exact ⟨_, rfl, h2.1, h2.2, h2.3, h2.4, h2.5, h2.6⟩
      · rw [if_neg ht]
        exact ⟨_, rfl, h.1, h.2, h.3, h.4, h.5, h.6⟩
    · rw [if_neg hri]
      exact ⟨s, rfl, h⟩
  obtain ⟨s1, e1, h1⟩ := hpre
  unfold DS.mcuChk DS.mcu
  rw [e1]
  dsimp only
  by_cases hb : s1.d.ct = -1 ∧ ¬(p.prog = true ∧ p.Ah ≠ 0 ∧ p.Ss = 0)
  · simp only [if_pos hb]
    exact ⟨cur, s1, rfl, rfl, h1, by rw [List.forall₂_same]; exact fun b hb => Touch.refl (hc b hb)⟩
  · simp only [if_neg hb]
    have hok : s1.d.Ok := by
      rcases h1.ok with h | h
      · exact h
      · exact absurd h hb
    obtain ⟨y, d', σ', h2, h3, h4, h5⟩ := (rMcu_all p hp cur s1.pr hc h1.pred hne).runs ⟨hok, h1.good, h1.bytes, h1.live⟩
    simp only [h2, h3]
    by_cases hg : y.2.2 = true
    · simp only [if_pos hg]
      exact ⟨_, _, rfl, rfl, ⟨Or.inl h5.ok, h5.good, h5.bytes, h5.live, h4.2.1, h1.num⟩, h4.1⟩
    · simp only [if_neg hg]
      exact ⟨_, _, rfl, rfl, ⟨Or.inr ⟨rfl, fun hh => hg (h4.2.2 hh)⟩, h5.good, h5.bytes, h5.live, h4.2.1, h1.num⟩, h4.1⟩

theorem store_touch {Ss Se : Nat} {img : Pos → Blk} : ∀ {ps : List Pos} {out : List Blk} {acc : Pos → Blk},
    List.Forall₂ (Touch Ss Se) (ps.map img) out → (∀ q, Touch Ss Se (img q) (acc q)) →
    (∀ q, Touch Ss Se (img q) (storeMcu acc ps out q)) ∧ ∀ q, q ∉ ps → storeMcu acc ps out q = acc q := by
  intro ps
  induction ps with
  | nil => intro out acc _ ha; exact ⟨ha, fun _ _ => rfl⟩
  | cons p0 ps ih =>
    intro out acc h ha
    cases out with
    | nil => cases h
    | cons o out =>
      simp only [List.map_cons, List.forall₂_cons] at h
      have := ih (acc := fun q => if q = p0 then o else acc q) h.2 (by
        intro q; split
        · rename_i e; rw [e]; exact h.1
        · exact ha q)
      refine ⟨this.1, fun q hq => ?_⟩
      rw [List.mem_cons, not_or] at hq
      have h2 := this.2 q hq.2
      rw [if_neg hq.1] at h2
      exact h2

theorem img_fit {p : APar} (hp : p.Checked) (W : List (List Pos)) : ∀ {img : Pos → Blk} {s : DS}, (∀ ps ∈ W, ps ≠ []) → s.Fit p →
    (∀ q, CoefBlock (img q)) → ∃ img' s', decAImgChk p W img s = some (img', s') ∧ decAImg p W img s = some (img', s') ∧ s'.Fit p ∧
      (∀ q, Touch p.lo p.hi (img q) (img' q)) ∧ ∀ q, q ∉ W.flatten → img' q = img q := by
  induction W with
  | nil => intro img s _ hs hi; exact ⟨img, s, rfl, rfl, hs, fun q => Touch.refl (hi q), fun _ _ => rfl⟩
  | cons ps W ih =>
    intro img s hW hs hi
    obtain ⟨out, s1, h1, h2, h3, h4⟩ := mcu_fit hp hs (cur := ps.map img) (by
      intro b hb; obtain ⟨q, -, rfl⟩ := List.mem_map.1 hb; exact hi q) (by simpa using hW ps (by simp))
    have hst : (∀ q, Touch p.lo p.hi (img q) (storeMcu img ps out q)) ∧ ∀ q, q ∉ ps → storeMcu img ps out q = img q := by
      exact store_touch (img := img) h4 (fun q => Touch.refl (hi q))
    obtain ⟨img', s', h5, h6, h7, h8, h9⟩ := ih (img := storeMcu img ps out) (fun ps' h => hW ps' (List.mem_cons_of_mem _ h)) h3
      (fun q => (hst.1 q).coef)
    refine ⟨img', s', ?_, ?_, h7, fun q => (hst.1 q).trans (h8 q), fun q hq => ?_⟩
    · rw [decAImgChk, h1]; exact h5
    · rw [decAImg, h2]; exact h6
    · rw [List.flatten_cons, List.mem_append, not_or] at hq
      rw [h9 q hq.2, hst.2 q hq.1]

/-- C50: the arithmetic decoder on arbitrary bytes that have an end-of-image marker somewhere (the library's sources supply one at the end of
the data), any scan parameters that passed start_pass, any MCU layout, any coefficient arrays so far: the scan is decoded to its end; no
call of arith_decode leaves the statistics areas, the state table or the registers' ranges (`decAScanChk` = `decAScan`); every coefficient
is a 16-bit value; only blocks of the scan, and in them only coefficients of the scan's band, change. -/
theorem C50_arith_safe (p : APar) (hp : p.Checked) (W : List (List Pos)) (hW : ∀ ps ∈ W, ps ≠ []) (img : Pos → Blk)
    (hi : ∀ q, CoefBlock (img q)) (x y : List Nat) (hb : IsBytes (x ++ 0xFF :: 0xD9 :: y)) :
    ∃ img' s', decAScanChk p W (x ++ 0xFF :: 0xD9 :: y) img = some (img', s') ∧ decAScan p W (x ++ 0xFF :: 0xD9 :: y) img = some (img', s') ∧
      (∀ q, CoefBlock (img' q)) ∧ (∀ q, q ∉ W.flatten → img' q = img q) ∧
      ∀ q j, j < 64 → ¬(p.lo ≤ j ∧ j ≤ p.hi) → coefAt (img' q) j = coefAt (img q) j := by
  obtain ⟨img', s', h1, h2, h3, h4, h5⟩ := img_fit hp W (img := img) (s := DS.init p.ri (x ++ 0xFF :: 0xD9 :: y)) hW
    ⟨Or.inl (Or.inl ⟨rfl, rfl, rfl⟩), good_σ0, hb, live_data x y, PredOk.init, by simp [DS.init]⟩ hi
  exact ⟨img', s', h1, h2, fun q => (h4 q).coef, h5, fun q j hj hn => (h4 q).keep j hj hn⟩

/-- The checks of the decoder's start_pass are what C50 needs. -/
theorem checked_of_accepted {prog : Bool} {g : Geom.Scan} {x : Script.Scan} {c : ACfg} {nc : Nat}
    (h1 : ¬(prog = true ∧ Prog.badScan (aPar prog g x c).Ss (aPar prog g x c).Se (aPar prog g x c).Ah (aPar prog g x c).Al nc = true))
    (h2 : tblsOk true (aPar prog g x c) = true) : (aPar prog g x c).Checked := by
  have hp : (aPar prog g x c).prog = prog := rfl
  generalize aPar prog g x c = p at h1 h2 hp
  subst hp
  unfold tblsOk at h2
  rw [List.all_eq_true] at h2
  refine ⟨?_, ?_, ?_⟩
  · intro hp
    have h := fun hh => h1 ⟨hp, hh⟩
    unfold Prog.badScan at h
    simp only [decide_eq_true_eq] at h
    by_cases hs : p.Ss = 0
    · simp only [hs, if_true] at h
      rw [hs]
      constructor
      · by_contra hc; exact h (Or.inl (by simp; omega))
      · omega
    · simp only [if_neg hs] at h
      constructor
      · by_contra hc; exact h (Or.inl (by simp; omega))
      · by_contra hc; exact h (Or.inl (by simp; omega))
  · intro hp b hb
    have := h2 b hb
    simp only [Bool.and_eq_true] at this
    have h3 := this.1
    rw [if_pos (by simpa using hp)] at h3
    simpa using h3
  · intro hp b hb
    have := h2 b hb
    simp only [Bool.and_eq_true, if_true] at this
    have h3 := this.2
    rw [if_pos (by simpa using hp)] at h3
    simpa using h3

/-- C50 for a scan of a file: whatever the entropy-coded bytes, a scan whose header is accepted is decoded. -/
theorem C50_scan (w ht ic prec : Nat) (fs : List (Nat × Nat)) (f : Geom.Frame) (h : Geom.cInitialSetup false w ht ic prec fs = .ok f)
    (prog : Bool) (x : Script.Scan × ACfg) (hx : ∀ i ∈ Prog.compIdx x.1, i < f.comps.length) (g : Geom.Scan)
    (hg : Geom.dPerScan f (Prog.compIdx x.1) = .ok g) (p : APar) (hp : p = aPar prog g x.1 x.2)
    (h1 : ¬(prog = true ∧ Prog.badScan p.Ss p.Se p.Ah p.Al (Prog.compIdx x.1).length = true)) (h2 : tblsOk true p = true)
    (u y : List Nat) (hb : IsBytes (u ++ 0xFF :: 0xD9 :: y)) (st : Prog.DecSt) (hst : ∀ q, CoefBlock (st.img q)) :
    ∃ st' e, decodeAScan prog f x (u ++ 0xFF :: 0xD9 :: y) st = some (st', e) ∧ (∀ q, CoefBlock (st'.img q)) ∧
      (∀ q : Pos, q.1 ∉ Prog.compIdx x.1 → st'.img q = st.img q) ∧
      ∀ q j, j < 64 → ¬(p.lo ≤ j ∧ j ≤ p.hi) → coefAt (st'.img q) j = coefAt (st.img q) j := by
  subst hp
  obtain ⟨G, -⟩ := Geom.good_of_setup h
  have hg' : Geom.cPerScan f (Prog.compIdx x.1) = .ok g := by rw [← (Geom.geometry_agrees false w ht ic prec fs f h).2.1]; exact hg
  have hW := Geom.dWalk_eq_spec G hx hg'
  have hsp : ∀ ps ∈ Geom.specWalk f (Prog.compIdx x.1), ps ≠ [] ∧ ∀ q ∈ ps, q.1 ∈ Prog.compIdx x.1 := by
    rcases Geom.scan_ok hg' with ⟨i, hi, -⟩ | ⟨hl, -⟩
    · rw [hi]
      intro ps hps
      unfold Geom.specWalk at hps
      simp only [List.mem_flatMap, List.mem_map] at hps
      obtain ⟨r, -, c, -, rfl⟩ := hps
      simp
    · rw [Geom.specWalk_multi hl]
      intro ps hps
      simp only [List.mem_flatMap, List.mem_map] at hps
      obtain ⟨r, -, c, -, rfl⟩ := hps
      constructor
      · cases e : Prog.compIdx x.1 with
        | nil => rw [e] at hl; simp at hl
        | cons i is =>
          obtain ⟨a, b, -⟩ := G.facts (hx i (by simp [e]))
          refine List.ne_nil_of_mem (a := (i, r * (f.comp i).v + 0, c * (f.comp i).h + 0)) ?_
          simp only [List.mem_flatMap, List.mem_map, List.mem_range]
          exact ⟨i, by simp, 0, b, 0, a, rfl⟩
      · intro q hq
        simp only [List.mem_flatMap, List.mem_map] at hq
        obtain ⟨i, hi, y, -, z, -, rfl⟩ := hq
        exact hi
  have hne : ∀ ps ∈ Geom.walk f g (Geom.dMcu f g), ps ≠ [] := fun ps hps => (hsp ps (hW ▸ hps)).1
  obtain ⟨img', s', e1, e2, e3, e4, e5⟩ := C50_arith_safe _ (checked_of_accepted h1 h2) _ hne st.img hst u y hb
  unfold decodeAScan
  rw [hg]
  dsimp only
  rw [if_neg h1, if_pos h2, e2]
  refine ⟨_, _, rfl, e3, ?_, e5⟩
  intro q hq
  refine e4 q ?_
  intro hm
  obtain ⟨ps, h3, h4⟩ := List.mem_flatten.1 hm
  exact hq ((hsp ps (hW ▸ h3)).2 q h4)

theorem storeMcu_same (img : Pos → Blk) (ps : List Pos) : storeMcu img ps (ps.map img) = img := by
  unfold storeMcu
  have : ∀ (ps : List Pos) (a : Pos → Blk), a = img → (ps.zip (ps.map img)).foldl (fun a pb => fun q => if q = pb.1 then pb.2 else a q) a = img := by
    intro ps
    induction ps with
    | nil => intro a h; exact h
    | cons q ps ih =>
      intro a h
      simp only [List.map_cons, List.zip_cons_cons, List.foldl_cons]
      apply ih
      funext r
      subst h
      by_cases e : r = q
      · simp [e]
      · simp [e]
  exact this ps img rfl

/-- A run of zeros that passes Se is a bad code, in a first AC scan. -/
theorem C50_overflow_first (q : Cond) (tbl Al n k : Nat) (blk : Blk) :
    (rAC q tbl Al n k false blk).replay ((List.range' k n).map fun j => (Bin.ac tbl (3 * (j - 1) + 1), false)) = some (blk, false) := by
  induction n generalizing k with
  | zero => rfl
  | succ n ih =>
    rw [List.range'_succ, List.map_cons, rAC]
    simp only [Bool.false_eq_true, if_false, Rdr.replay, if_true]
    exact ih (k + 1)

/-- A run of zeros that passes Se is a bad code, in an AC refinement scan. -/
theorem C50_overflow_refine (tbl Al kex n k : Nat) (blk : Blk) (hz : ∀ j, k ≤ j → j < k + n → coefAt blk j = 0) :
    (rRef tbl Al kex n k false blk).replay ((List.range' k n).map fun j => (Bin.ac tbl (3 * (j - 1) + 1), false)) = some (blk, false) := by
  induction n generalizing k with
  | zero => rfl
  | succ n ih =>
    rw [List.range'_succ, List.map_cons, rRef]
    have h0 : coefAt blk k = 0 := hz k (le_refl _) (by omega)
    simp only [Bool.false_eq_true, false_and, if_false, h0, ne_eq, not_true_eq_false, Rdr.replay, if_true]
    exact ih (k + 1) fun j h1 h2 => hz j (by omega) (by omega)

/-- After a bad code nothing is changed up to the next restart (or the end of the scan, without restarts), and nothing more is reported. -/
theorem C50_bad_code_stops (p : APar) (hk : ¬(p.prog ∧ p.Ah ≠ 0 ∧ p.Ss = 0)) (W : List (List Pos)) (img : Pos → Blk) (s : DS)
    (hs : s.d.ct = -1) (hW : p.ri = 0 ∨ W.length ≤ s.togo) :
    ∃ img' s', decAImg p W img s = some (img', s') ∧ img' = img ∧ s'.bad = s.bad ∧ s'.d = s.d ∧ s'.warns = s.warns := by
  induction W generalizing s with
  | nil => exact ⟨img, s, rfl, rfl, rfl, rfl, rfl⟩
  | cons ps W ih =>
    rw [decAImg]
    have hst : storeMcu img ps (ps.map img) = img := storeMcu_same img ps
    by_cases hr : p.ri = 0
    · have h1 : s.mcu p (ps.map img) = some (ps.map img, s) := by
        unfold DS.mcu
        simp only [hr, ne_eq, not_true_eq_false, if_false]
        rw [if_pos ⟨hs, hk⟩]
      rw [h1]
      simp only [hst]
      exact ih s hs (Or.inl hr)
    · rcases hW with h | h
      · exact absurd h hr
      rw [List.length_cons] at h
      have h1 : s.mcu p (ps.map img) = some (ps.map img, { s with togo := s.togo - 1 }) := by
        unfold DS.mcu
        simp only [hr, ne_eq, not_false_eq_true, if_true]
        rw [if_neg (show ¬ s.togo = 0 by omega)]
        simp only [Option.map_some]
        rw [if_pos ⟨hs, hk⟩]
      rw [h1]
      simp only [hst]
      obtain ⟨img', s', h2, h3, h4, h5, h6⟩ := ih { s with togo := s.togo - 1 } hs (Or.inr (by dsimp only; omega))
      exact ⟨img', s', h2, h3, h4, h5, h6⟩

/-! ### Examples -/

/-- Scans of the kinds that exist: sequential with two components, DC first, AC first, DC refinement, AC refinement. -/
def exSafe : List APar :=
  let q : Cond := ⟨fun _ => 0, fun _ => 1, fun _ => 5⟩
  [⟨false, 0, 63, 0, 0, 2, [⟨0, 0, 1⟩, ⟨1, 15, 15⟩], q⟩, ⟨true, 0, 0, 0, 2, 1, [⟨0, 0, 99⟩, ⟨1, 15, 99⟩], q⟩,
   ⟨true, 1, 63, 0, 13, 0, [⟨0, 99, 15⟩], q⟩, ⟨true, 0, 0, 3, 2, 1, [⟨0, 99, 99⟩], q⟩, ⟨true, 6, 60, 1, 0, 3, [⟨0, 99, 0⟩], q⟩]

example : ∀ p ∈ exSafe, p.Checked := by
  intro p hp
  simp only [exSafe, List.mem_cons, List.not_mem_nil, or_false] at hp
  rcases hp with rfl | rfl | rfl | rfl | rfl <;> refine ⟨?_, ?_, ?_⟩ <;> simp

/-- Arbitrary bytes, with wrong restart markers, for each kind: bad codes met, and the marker pending in the end. -/
example : exSafe.map (fun p => (decAScanChk p [[(0, 0, 0), (1, 0, 0)], [(0, 0, 1), (1, 0, 1)], [(0, 0, 2), (1, 0, 2)]]
      ([0x80, 0x12, 0xFF, 0x00, 0x7A, 0xFF, 0xD3, 0x55, 0xFF, 0xFF, 0xD2, 0xA0, 0x13, 0xFF, 0xD0, 0x99, 0xFE, 0x12, 0xFF, 0xD9])
      (fun _ => List.replicate 64 3)).map fun r => (r.2.bad, r.2.d.marker)) =
      [some (0, 210), some (0, 210), some (0, 0), some (0, 210), some (0, 211)] := by decide +kernel

/-- The hypotheses of `C50_scan` hold for every scan of the example script. -/
example (u y : List Nat) (hb : IsBytes (u ++ 0xFF :: 0xD9 :: y)) : ∀ s ∈ Prog.exScript,
    ∃ st' e, decodeAScan true Prog.exFrame (s, exACfg) (u ++ 0xFF :: 0xD9 :: y) Prog.DecSt.init = some (st', e) ∧ ∀ q, CoefBlock (st'.img q) := by
  have hchk : ∀ x ∈ Prog.exScript, (match Geom.dPerScan Prog.exFrame (Prog.compIdx x) with
      | .error _ => false
      | .ok g => decide ((∀ i ∈ Prog.compIdx x, i < 2) ∧
          Prog.badScan (aPar true g x exACfg).Ss (aPar true g x exACfg).Se (aPar true g x exACfg).Ah (aPar true g x exACfg).Al
            (Prog.compIdx x).length = false ∧ tblsOk true (aPar true g x exACfg) = true)) = true := by
    decide +kernel
  intro s hs
  have := hchk s hs
  cases e : Geom.dPerScan Prog.exFrame (Prog.compIdx s) with
  | error _ => rw [e] at this; simp at this
  | ok g =>
    rw [e] at this
    have this := of_decide_eq_true this
    have hz : ∀ q, CoefBlock (Prog.DecSt.init.img q) := fun q => by
      refine ⟨by simp [Prog.DecSt.init], ?_⟩
      intro c hc
      simp only [Prog.DecSt.init, List.mem_replicate] at hc
      rw [hc.2]; decide
    obtain ⟨st', e', h1, h2, -⟩ := C50_scan 17 9 2 8 [(2, 1), (1, 1)] Prog.exFrame rfl true (s, exACfg) this.1 g e _ rfl
      (fun h => by rw [this.2.1] at h; simp at h) this.2.2 u y hb Prog.DecSt.init hz
    exact ⟨st', e', h1, h2⟩

/-- Bytes with a bad code: reported once, the rest of the restart interval is left alone. -/
example : (decAScanChk ⟨false, 0, 63, 0, 0, 3, [⟨0, 0, 1⟩, ⟨1, 15, 15⟩], ⟨fun _ => 0, fun _ => 1, fun _ => 5⟩⟩
      [[(0, 0, 0), (1, 0, 0)], [(0, 0, 1), (1, 0, 1)], [(0, 0, 2), (1, 0, 2)]] ((List.replicate 12 [51, 64]).flatten ++ [0xFF, 0xD9])
      (fun _ => List.replicate 64 0)).map (fun r => (r.2.bad, decide (r.1 (0, 0, 2) = List.replicate 64 0))) = some (1, true) := by
  decide +kernel

/-- Hypotheses of `C50_bad_code_stops`: the state after the bad code of such bytes. -/
example : ((DS.init 3 ((List.replicate 12 [51, 64]).flatten ++ [0xFF, 0xD9])).mcu
      ⟨false, 0, 63, 0, 0, 3, [⟨0, 0, 1⟩, ⟨1, 15, 15⟩], ⟨fun _ => 0, fun _ => 1, fun _ => 5⟩⟩ [List.replicate 64 0, List.replicate 64 0]).map
      (fun r => (r.2.d.ct, r.2.togo, r.2.bad)) = some (-1, 2, 1) := by
  decide +kernel

/-- Hypothesis of `C50_overflow_refine`: a block with a coefficient below the run. -/
example : ∀ j, 6 ≤ j → j < 6 + 55 → coefAt ((List.replicate 64 (0 : Int)).set 1 5) j = 0 := by
  intro j h1 h2
  have : ∀ j ∈ List.range' 6 55, coefAt ((List.replicate 64 (0 : Int)).set 1 5) j = 0 := by decide +kernel
  exact this j (by simp; omega)

end Verif.Arith
