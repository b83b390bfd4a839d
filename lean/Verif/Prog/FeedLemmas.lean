import Verif.Prog.Feed
import Verif.Arith.Safe
/-
C54: the checked MCU routines do what the unchecked ones of Prog/Model.lean do, and do it again after a suspension.
-/
namespace Verif.Prog
open Verif Verif.Huff
open Verif.Geom (Pos Blk storeMcu)
open Verif.Arith (Touch)

variable {r rw rd : Rd} {fut : List Nat} {t : CkTbl}

/-! ### The bit reader -/

theorem RSim.okr (h : RSim r fut rw) : r.Ok := more_ok h.ok

theorem rd_self (h : rd.Ok) : RSim rd [] rd := ⟨by rw [more_nil]; exact h, h, by rw [more_nil], by rw [more_nil]⟩

theorem sim_join {r r' rw rw' : Rd} {fut : List Nat} (h : RSim r fut rw) (a1 : (r'.more fut).Ok) (a2 : (r'.more fut).tail = (r.more fut).tail)
    (b1 : rw'.Ok) (b2 : rw'.tail = rw.tail) (he : (r'.more fut).abs = rw'.abs) : RSim r' fut rw' :=
  ⟨a1, b1, he, by rw [a2, b2, h.tail]⟩

theorem sim_bits {n : Nat} (h : RSim r fut rw) (ht : rw.tail ≠ none) (h1 : 1 ≤ n) (hn : n < 32) :
    (∃ x r' rw', ckReadBits r n = .ok (x, r') ∧ ckReadBits rw n = .ok (x, rw') ∧ RSim r' fut rw' ∧ rw'.tail = rw.tail ∧ x < 2 ^ n) ∨
    (ckReadBits r n = .suspend ∧ fut ≠ []) := by
  rw [ckReadBits_eq (RSim.okr h) h1 hn, ckReadBits_eq h.okw h1 hn]
  cases hr : readBits r n with
  | none =>
    right
    refine ⟨rfl, ?_⟩
    rintro rfl
    refine absurd hr (readBits_total n ?_)
    have := h.tail
    rw [more_nil] at this
    rw [this]; exact ht
  | some x =>
    left
    obtain ⟨x, r'⟩ := x
    obtain ⟨a1, a2, a3⟩ := readBits_abs h.ok (by omega) (readBits_more fut hr)
    cases hw : readBits rw n with
    | none => exact absurd hw (readBits_total n ht)
    | some y =>
      obtain ⟨y, rw'⟩ := y
      obtain ⟨b1, b2, b3⟩ := readBits_abs h.okw (by omega) hw
      rw [h.abs, b3] at a3
      simp only [Prod.mk.injEq] at a3
      refine ⟨x, r', rw', rfl, by rw [a3.1]; rfl, sim_join h a1 a2 b1 b2 a3.2.symm, b2, ?_⟩
      have := lread_lt rw.abs n
      rw [b3, a3.1] at this
      exact this

theorem sim_huff {m : Nat} (hd : t.Ok m) (h : RSim r fut rw) (ht : rw.tail ≠ none) :
    (∃ x r' rw', ckHuff t r = .ok (x, r') ∧ ckHuff t rw = .ok (x, rw') ∧ RSim r' fut rw' ∧ rw'.tail = rw.tail ∧ x ≤ m) ∨
    (ckHuff t r = .suspend ∧ fut ≠ []) := by
  rw [ckHuff_eq hd (RSim.okr h), ckHuff_eq hd h.okw]
  cases hr : huffDecode t.d r with
  | none =>
    right
    refine ⟨rfl, ?_⟩
    rintro rfl
    refine absurd hr (huffDecode_total hd.tok.ok.look (RSim.okr h) ?_)
    have := h.tail
    rw [more_nil] at this
    rw [this]; exact ht
  | some x =>
    left
    obtain ⟨x, r'⟩ := x
    obtain ⟨a1, a2, a3⟩ := huffDecode_abs hd.tok.ok.look h.ok (huffDecode_more fut hr)
    cases hw : huffDecode t.d rw with
    | none => exact absurd hw (huffDecode_total hd.tok.ok.look h.okw ht)
    | some y =>
      obtain ⟨y, rw'⟩ := y
      obtain ⟨b1, b2, b3⟩ := huffDecode_abs hd.tok.ok.look h.okw hw
      rw [h.abs, b3] at a3
      simp only [Prod.mk.injEq] at a3
      refine ⟨x, r', rw', rfl, by rw [a3.1]; rfl, sim_join h a1 a2 b1 b2 a3.2.symm, b2, ?_⟩
      have := hd.tok.ok.sym rw.abs
      rw [b3, a3.1] at this
      exact this

theorem sim_eob {n : Nat} (h : RSim r fut rw) (ht : rw.tail ≠ none) (hn : n < 32) :
    (∃ x r' rw', eobRun r n = .ok (x, r') ∧ eobRun rw n = .ok (x, rw') ∧ RSim r' fut rw' ∧ rw'.tail = rw.tail) ∨
    (eobRun r n = .suspend ∧ fut ≠ []) := by
  unfold eobRun
  rw [need, need, if_pos hn, if_pos hn]
  by_cases h0 : n ≠ 0
  · rw [if_pos h0, if_pos h0]
    rcases sim_bits h ht (by omega) hn with ⟨x, r', rw', e1, e2, e3, e4, -⟩ | ⟨e1, e2⟩
    · left
      rw [e1, e2]
      exact ⟨_, r', rw', rfl, rfl, e3, e4⟩
    · right
      rw [e1]
      exact ⟨rfl, e2⟩
  · rw [if_neg h0, if_neg h0]
    exact .inl ⟨1, r, rw, rfl, rfl, h, rfl⟩

/-- What a run over the bytes at hand says about the run over all the data; `again b` is the latter, started on what a
suspension leaves. -/
def Agrees {α β : Type} (fut : List Nat) (tl : Option (Nat × List Nat)) (sim : α → α → Prop) (tail : α → Option (Nat × List Nat)) (x : Run β α) (again : β → Run β α) (y : Run β α) : Prop :=
  match x with
  | .ok a => ∃ a', y = .ok a' ∧ sim a a' ∧ tail a' = tl
  | .suspend b => fut ≠ [] ∧ again b = y
  | .err => y = .err
  | .fault => True

/-! ### DC scans -/

/-- Results with readers at the same place. -/
def Sim2 {α : Type} (fut : List Nat) (x y : α × Rd) : Prop := x.1 = y.1 ∧ RSim x.2 fut y.2

def Sim3 {α β : Type} (fut : List Nat) (x y : α × β × Rd) : Prop := x.1 = y.1 ∧ x.2.1 = y.2.1 ∧ RSim x.2.2 fut y.2.2

theorem dcFirst_sim {Al : Nat} {bs : List CkD} (hb : ∀ b ∈ bs, b.dc.Ok 15) (blks : List Blk) (last : Nat → Int)
    (h : RSim r fut rw) (ht : rw.tail ≠ none) :
    Agrees fut rw.tail (Sim3 fut) (fun a => a.2.2.tail) (dcFirstRun Al bs blks last r) (fun b => dcFirstRun Al bs b last rw)
      (dcFirstRun Al bs blks last rw) := by
  induction bs generalizing blks last r rw with
  | nil => simp only [dcFirstRun]; exact ⟨(blks, last, rw), rfl, ⟨rfl, rfl, h⟩, rfl⟩
  | cons b bs ih =>
    cases blks with
    | nil => simp only [dcFirstRun]; exact ⟨([], last, rw), rfl, ⟨rfl, rfl, h⟩, rfl⟩
    | cons blk blks =>
      simp only [dcFirstRun]
      rcases sim_huff (hb b (by simp)) h ht with ⟨s, r1, rw1, e1, e2, e3, e4, e5⟩ | ⟨e1, e2⟩
      · rw [e1, e2]
        simp only [onRes]
        have key : (∃ (v : Int) (r2 rw2 : Rd),
            (if s ≠ 0 then (ckReadBits r1 s).bind (fun x => Res.ok (extend2 x.1 s, x.2)) else Res.ok (0, r1)) = .ok (v, r2) ∧
            (if s ≠ 0 then (ckReadBits rw1 s).bind (fun x => Res.ok (extend2 x.1 s, x.2)) else Res.ok (0, rw1)) = .ok (v, rw2) ∧
            RSim r2 fut rw2 ∧ rw2.tail = rw.tail) ∨
            ((if s ≠ 0 then (ckReadBits r1 s).bind (fun x => Res.ok (extend2 x.1 s, x.2)) else Res.ok (0, r1)) = .suspend ∧ fut ≠ []) := by
          by_cases h0 : s ≠ 0
          · rw [if_pos h0, if_pos h0]
            rcases sim_bits e3 (by rw [e4]; exact ht) (show 1 ≤ s by omega) (by omega) with ⟨x, r2, rw2, g1, g2, g3, g4, -⟩ | ⟨g1, g2⟩
            · left
              rw [g1, g2]
              exact ⟨_, r2, rw2, rfl, rfl, g3, by rw [g4, e4]⟩
            · right
              rw [g1]; exact ⟨rfl, g2⟩
          · rw [if_neg h0, if_neg h0]
            exact .inl ⟨0, r1, rw1, rfl, rfl, e3, e4⟩
        rcases key with ⟨v, r2, rw2, g1, g2, g3, g4⟩ | ⟨g1, g2⟩
        · rw [g1, g2]
          simp only [onRes]
          split
          · rename_i hov
            simp only [Agrees]
          · rename_i hov
            unfold chk
            split
            · rename_i hc
              have := ih (fun b hb' => hb b (by simp [hb'])) blks (upd last b.ci (v + last b.ci)) g3 (by rw [g4]; exact ht)
              cases hx : dcFirstRun Al bs blks (upd last b.ci (v + last b.ci)) r2 with
              | ok z =>
                rw [hx] at this
                obtain ⟨a', k1, ⟨k2, k3, k4⟩, k5⟩ := this
                rw [k1]
                exact ⟨_, rfl, ⟨by simp only [k2], k3, k4⟩, by rw [← g4]; exact k5⟩
              | suspend z =>
                rw [hx] at this
                obtain ⟨k1, k2⟩ := this
                dsimp only at k2
                refine ⟨k1, ?_⟩
                simp only [dcFirstRun, e2, onRes, g2]
                rw [if_neg hov, chk, if_pos ⟨by simpa using hc.1, hc.2⟩, k2]
                simp only [List.set_set]
              | err => rw [hx] at this; simp only [Agrees] at this ⊢; rw [this]
              | fault => trivial
            · trivial
        · rw [g1]
          exact ⟨g2, by simp only [dcFirstRun, e2, onRes]⟩
      · rw [e1]
        exact ⟨e2, by simp only [dcFirstRun]⟩

theorem orBit_idem (Al : Nat) (v : Int) : orBit Al (orBit Al v) = orBit Al v := by
  unfold orBit toCoef
  generalize hw : (v % 65536).toNat ||| 2 ^ Al = w
  have : ((((w : Nat) : Int) + 32768) % 65536 - 32768) % 65536 = (w : Int) % 65536 := by omega
  rw [this]
  have h2 : ((w : Int) % 65536).toNat = w % 65536 := by omega
  rw [h2]
  have h3 : (w % 65536 ||| 2 ^ Al) % 65536 = w % 65536 := by
    rw [show 65536 = 2 ^ 16 by rfl]
    apply Nat.eq_of_testBit_eq
    intro i
    simp only [Nat.testBit_mod_two_pow, Nat.testBit_or, ← hw]
    by_cases hi : i < 16
    · simp [hi]
    · simp [hi]
  generalize (w % 65536 ||| 2 ^ Al) = y at *
  omega

theorem dcRefine_sim {Al : Nat} (blks : List Blk) (h : RSim r fut rw) (ht : rw.tail ≠ none) :
    Agrees fut rw.tail (Sim2 fut) (fun a => a.2.tail) (dcRefineRun Al blks r) (fun b => dcRefineRun Al b rw) (dcRefineRun Al blks rw) := by
  induction blks generalizing r rw with
  | nil => exact ⟨_, rfl, ⟨rfl, h⟩, rfl⟩
  | cons blk blks ih =>
    simp only [dcRefineRun]
    rcases sim_bits h ht (show 1 ≤ 1 by omega) (by omega) with ⟨b, r1, rw1, e1, e2, e3, e4, e5⟩ | ⟨e1, e2⟩
    · rw [e1, e2]
      simp only [onRes]
      unfold chk
      split
      · rename_i hc
        have := ih e3 (by rw [e4]; exact ht)
        cases hx : dcRefineRun Al blks r1 with
        | ok z =>
          rw [hx] at this
          obtain ⟨a', k1, ⟨k2, k3⟩, k4⟩ := this
          rw [k1]
          exact ⟨_, rfl, ⟨by simp only [k2], k3⟩, by rw [← e4]; exact k4⟩
        | suspend z =>
          rw [hx] at this
          obtain ⟨k1, k2⟩ := this
          dsimp only at k2
          refine ⟨k1, ?_⟩
          simp only [dcRefineRun, e2, onRes]
          rw [chk, if_pos ⟨by split <;> simpa using hc.1, hc.2⟩, k2]
          have : (if b ≠ 0 then (if b ≠ 0 then blk.set 0 (orBit Al (blk.getD 0 0)) else blk).set 0
                (orBit Al ((if b ≠ 0 then blk.set 0 (orBit Al (blk.getD 0 0)) else blk).getD 0 0))
              else (if b ≠ 0 then blk.set 0 (orBit Al (blk.getD 0 0)) else blk)) =
              (if b ≠ 0 then blk.set 0 (orBit Al (blk.getD 0 0)) else blk) := by
            by_cases hb : b ≠ 0
            · have g : (blk.set 0 (orBit Al (blk.getD 0 0))).getD 0 0 = orBit Al (blk.getD 0 0) := by
                rw [List.getD_eq_getElem?_getD, List.getElem?_set_self hc.1]; rfl
              simp only [if_pos hb, List.set_set, g, orBit_idem]
            · simp only [if_neg hb]
          simp only [this]
        | err => rw [hx] at this; simp only [Agrees] at this ⊢; rw [this]
        | fault => trivial
      · trivial
    · rw [e1]
      exact ⟨e2, by simp only [dcRefineRun]⟩

/-! ### AC scans, first pass -/

/-- `b` is `a` at the scan positions below `k`. -/
structure Keeps (k : Nat) (a b : Blk) : Prop where
  len : b.length = a.length
  eq : ∀ j < k, j < 64 → b.getD (natOrder.getD j 0) 0 = a.getD (natOrder.getD j 0) 0

theorem Keeps.refl (k : Nat) (a : Blk) : Keeps k a a := ⟨rfl, fun _ _ _ => rfl⟩

theorem Keeps.trans {k : Nat} {a b c : Blk} (h : Keeps k a b) (g : Keeps k b c) : Keeps k a c :=
  ⟨g.len.trans h.len, fun j hj h64 => (g.eq j hj h64).trans (h.eq j hj h64)⟩

theorem Keeps.mono {k k' : Nat} {a b : Blk} (h : Keeps k' a b) (hk : k ≤ k') : Keeps k a b :=
  ⟨h.len, fun j hj h64 => h.eq j (by omega) h64⟩

theorem getD_set_self' {b : Blk} {p : Nat} (hp : p < b.length) (v : Int) : (b.set p v).getD p 0 = v := by
  rw [List.getD_eq_getElem?_getD, List.getElem?_set_self hp]; rfl

theorem getD_set_ne' {b : Blk} {p q : Nat} (h : p ≠ q) (v : Int) : (b.set p v).getD q 0 = b.getD q 0 := by
  rw [List.getD_eq_getElem?_getD, List.getD_eq_getElem?_getD, List.getElem?_set_ne h]

theorem set_same {b : Blk} {p : Nat} {v : Int} (h : b.getD p 0 = v) : b.set p v = b := by
  by_cases hp : p < b.length
  · subst h
    rw [List.getD_eq_getElem?_getD, List.getElem?_eq_getElem hp]
    exact List.set_getElem_self hp
  · exact List.set_eq_of_length_le (by omega)

/-- Setting a position keeps those before it. -/
theorem Keeps.set {k j : Nat} (b : Blk) (hk : k ≤ j) (hj : j < 64) (v : Int) : Keeps k b (b.set (natOrder.getD j 0) v) :=
  ⟨by simp, fun i hi h64 => getD_set_ne' (natOrder_ne hj h64 (by omega)) v⟩

theorem acFirst_keep {Se Al k : Nat} (hSe : Se ≤ 63) {blk b' : Blk} {rd : Rd}
    (h : acFirstRun t Se Al k blk rd = .suspend b') : Keeps k blk b' := by
  generalize hn : Se + 1 - k = n
  induction n using Nat.strongRecOn generalizing k blk rd with
  | _ n ih =>
    rw [acFirstRun] at h
    split at h
    · rename_i hk
      cases hh : ckHuff t rd with
      | fault => rw [hh] at h; cases h
      | suspend => rw [hh] at h; cases h; exact .refl _ _
      | ok y =>
        rw [hh] at h
        simp only [onRes] at h
        split at h
        · cases hb : ckReadBits y.2 (y.1 &&& 15) with
          | fault => rw [hb] at h; cases h
          | suspend => rw [hb] at h; cases h; exact .refl _ _
          | ok x =>
            rw [hb] at h
            simp only [onRes, chk] at h
            split at h
            · by_cases hend : k + y.1 >>> 4 + 1 ≤ Se
              · have := ih _ (by omega) h rfl
                exact Keeps.trans (Keeps.set blk (by omega) (by omega) _) (this.mono (by omega))
              · rw [acFirstRun, if_neg hend] at h; cases h
            · cases h
        · split at h
          · exact (ih _ (by omega) h rfl).mono (by omega)
          · cases he : eobRun y.2 (y.1 >>> 4) with
            | fault => rw [he] at h; cases h
            | suspend => rw [he] at h; cases h; exact .refl _ _
            | ok x => rw [he] at h; cases h
    · cases h

theorem acFirst_sim {Se Al k : Nat} (hd : t.Ok 255) (hSe : Se ≤ 63) (blk : Blk) (h : RSim r fut rw) (ht : rw.tail ≠ none) :
    Agrees fut rw.tail (Sim3 fut) (fun a => a.2.2.tail) (acFirstRun t Se Al k blk r) (fun b => acFirstRun t Se Al k b rw)
      (acFirstRun t Se Al k blk rw) := by
  generalize hn : Se + 1 - k = n
  induction n using Nat.strongRecOn generalizing k blk r rw with
  | _ n ih =>
    by_cases hk : k ≤ Se
    · rw [acFirstRun, if_pos hk]
      rcases sim_huff hd h ht with ⟨y, r1, rw1, e1, e2, e3, e4, e5⟩ | ⟨e1, e2⟩
      · have hrun : y >>> 4 ≤ 15 := by rw [Nat.shiftRight_eq_div_pow]; omega
        have h15 : y &&& 15 ≤ 15 := Nat.and_le_right
        have ht1 : rw1.tail ≠ none := by rw [e4]; exact ht
        rw [e1]
        simp only [onRes]
        by_cases hs : y &&& 15 ≠ 0
        · rw [if_pos hs]
          have next : ∀ b : Blk, acFirstRun t Se Al k b rw = onRes b (ckReadBits rw1 (y &&& 15)) fun x =>
              chk (k + y >>> 4 < natOrder.length ∧ natOrder.getD (k + y >>> 4) 0 < b.length ∧ Al < 32) <|
              acFirstRun t Se Al (k + y >>> 4 + 1) (b.set (natOrder.getD (k + y >>> 4) 0) (toCoef (extend2 x.1 (y &&& 15) * 2 ^ Al))) x.2 := by
            intro b
            rw [acFirstRun, if_pos hk, e2]
            simp only [onRes]
            rw [if_pos hs]
          rcases sim_bits e3 ht1 (show 1 ≤ y &&& 15 by omega) (by omega) with ⟨x, r2, rw2, g1, g2, g3, g4, -⟩ | ⟨g1, g2⟩
          · rw [g1]
            rw [g2] at next
            simp only [onRes] at next ⊢
            rw [next blk]
            unfold chk
            split
            · rename_i hc
              have := ih (Se + 1 - (k + y >>> 4 + 1)) (by omega) (k := k + y >>> 4 + 1) (blk.set (natOrder.getD (k + y >>> 4) 0) (toCoef (extend2 x (y &&& 15) * 2 ^ Al))) g3 (by rw [g4]; exact ht1) rfl
              cases hx : acFirstRun t Se Al (k + y >>> 4 + 1) (blk.set (natOrder.getD (k + y >>> 4) 0) (toCoef (extend2 x (y &&& 15) * 2 ^ Al))) r2 with
              | ok z =>
                rw [hx] at this
                obtain ⟨a', k1, k2, k5⟩ := this
                exact ⟨a', k1, k2, by rw [k5, g4, e4]⟩
              | suspend z =>
                rw [hx] at this
                obtain ⟨k1, k2⟩ := this
                dsimp only at k2
                refine ⟨k1, ?_⟩
                have hK := acFirst_keep hSe hx
                have hend : k + y >>> 4 + 1 ≤ Se := by
                  by_contra hne
                  rw [acFirstRun, if_neg hne] at hx; cases hx
                dsimp only
                have hz := (hK.eq (k + y >>> 4) (by omega) (by omega)).trans (getD_set_self' hc.2.1 _)
                rw [next z, chk, if_pos ⟨hc.1, by rw [hK.len]; simpa using hc.2.1, hc.2.2⟩, set_same hz, k2]
              | err => rw [hx] at this; exact this
              | fault => trivial
            · trivial
          · rw [g1]
            exact ⟨g2, rfl⟩
        · rw [if_neg hs]
          by_cases h15' : y >>> 4 = 15
          · rw [if_pos h15']
            have next : ∀ b : Blk, acFirstRun t Se Al k b rw = acFirstRun t Se Al (k + 15 + 1) b rw1 := by
              intro b
              rw [acFirstRun, if_pos hk, e2]
              simp only [onRes]
              rw [if_neg hs, if_pos h15']
            have := ih (Se + 1 - (k + 15 + 1)) (by omega) (k := k + 15 + 1) blk e3 ht1 rfl
            rw [e4] at this
            simp only [next]
            exact this
          · rw [if_neg h15']
            have next : ∀ b : Blk, acFirstRun t Se Al k b rw = onRes b (eobRun rw1 (y >>> 4)) fun x => .ok (b, x.1 - 1, x.2) := by
              intro b
              rw [acFirstRun, if_pos hk, e2]
              simp only [onRes]
              rw [if_neg hs, if_neg h15']
            rcases sim_eob e3 ht1 (show y >>> 4 < 32 by omega) with ⟨x, r2, rw2, g1, g2, g3, g4⟩ | ⟨g1, g2⟩
            · rw [g1, next blk, g2]
              exact ⟨_, rfl, ⟨rfl, rfl, g3⟩, by rw [← e4, ← g4]⟩
            · rw [g1]
              exact ⟨g2, rfl⟩
      · rw [e1]
        exact ⟨e2, rfl⟩
    · rw [acFirstRun, if_neg hk]
      have e : ∀ b : Blk, acFirstRun t Se Al k b rw = .ok (b, 0, rw) := by
        intro b
        rw [acFirstRun, if_neg hk]
      rw [e blk]
      exact ⟨_, rfl, ⟨rfl, rfl, h⟩, rfl⟩

/-! ### AC scans, refinement -/

theorem correct_bit {Al : Nat} (hAl : Al < 16) (c : Int) : ((correct Al c) % 65536).toNat &&& 2 ^ Al ≠ 0 := by
  have hP : 2 ^ Al < 65536 := Nat.pow_lt_pow_right (by omega) hAl
  by_cases h : (c % 65536).toNat &&& 2 ^ Al = 0
  · have hb : (c % 65536).toNat.testBit Al = false := by
      have := congrArg (·.testBit Al) h
      simpa [Nat.testBit_and] using this
    -- the new value is the old one with that bit added, modulo 2^16
    have key : ∀ m : Nat, m < 65536 → m.testBit Al = false → ((m + 2 ^ Al) % 65536).testBit Al = true ∧ ((m + (65536 - 2 ^ Al)) % 65536).testBit Al = true := by
      intro m hm hbm
      have e16 : 65536 = 2 ^ 16 := rfl
      constructor
      · rw [e16, Nat.testBit_mod_two_pow]
        have : (m + 2 ^ Al).testBit Al = !m.testBit Al := by
          rw [Nat.add_comm, Nat.testBit_two_pow_add_eq]
        simp [this, hbm, hAl]
      · have h2 : ((m + (65536 - 2 ^ Al)) % 65536 + 2 ^ Al) % 65536 = m := by omega
        have h3 := congrArg (·.testBit Al) h2
        rw [e16, Nat.testBit_mod_two_pow] at h3
        rw [Nat.add_comm _ (2 ^ Al), Nat.testBit_two_pow_add_eq] at h3
        rw [hbm] at h3
        simpa [hAl] using h3
    obtain ⟨k1, k2⟩ := key (c % 65536).toNat (by omega) hb
    have fin : ((correct Al c) % 65536).toNat.testBit Al = true := by
      unfold correct
      rw [if_pos h]
      have hpc : ((2 : Int) ^ Al) = ((2 ^ Al : Nat) : Int) := by simp
      rw [hpc]
      generalize hg : 2 ^ Al = P at *
      split
      · have : (toCoef (c + toCoef (P : Int)) % 65536).toNat = ((c % 65536).toNat + P) % 65536 := by
          unfold toCoef; omega
        rw [this]; exact k1
      · have : (toCoef (c + toCoef (-(P : Int))) % 65536).toNat = ((c % 65536).toNat + (65536 - P)) % 65536 := by
          unfold toCoef; omega
        rw [this]; exact k2
    intro h0
    have := congrArg (·.testBit Al) h0
    simp [Nat.testBit_and, fin, Nat.testBit_two_pow_self] at this
  · unfold correct
    rw [if_neg h]
    exact h

theorem correct_idem {Al : Nat} (hAl : Al < 16) (c : Int) : correct Al (correct Al c) = correct Al c := by
  have := correct_bit hAl c
  generalize correct Al c = d at *
  unfold correct
  rw [if_neg this]

theorem correct_ne {Al : Nat} (hAl : Al < 16) (c : Int) : correct Al c ≠ 0 := by
  intro h
  have := correct_bit hAl c
  rw [h] at this
  simp at this

end Verif.Prog
