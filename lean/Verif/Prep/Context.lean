import Verif.Prep.Simple
namespace Verif.Prep
variable {R S : Type}

/-- The slot of the conversion buffer for virtual row `t`. -/
def slot (P : Nat) (t : Int) : Nat := ((t + P) % P).toNat

theorem slot_eq {P : Nat} {t : Int} {a q : Nat} (ht : t = (q * P : Nat) + a) (ha : a < P) : slot P t = a := by
  unfold slot
  rw [ht, Int.add_emod_right, Nat.cast_mul, Int.add_comm, Int.add_mul_emod_self_right, Int.emod_eq_of_lt (by omega) (by omega)]
  rfl

theorem slot_add {P : Nat} (t : Int) (q : Nat) : slot P (t + (q * P : Nat)) = slot P t := by
  unfold slot
  rw [Nat.cast_mul, show t + (q : Int) * P + P = t + P + q * P by omega, Int.add_mul_emod_self_right]

theorem slot_ne {P : Nat} {a b : Int} (h1 : a < b) (h2 : b < a + P) : slot P a ≠ slot P b := by
  unfold slot
  intro e
  have hP : (0 : Int) < P := by omega
  have ha := Int.emod_nonneg (a + P) (show (P : Int) ≠ 0 by omega)
  have hb := Int.emod_nonneg (b + P) (show (P : Int) ≠ 0 by omega)
  have e' : (a + P) % P = (b + P) % P := by omega
  have d1 := Int.mul_ediv_add_emod (a + P) P
  have d2 := Int.mul_ediv_add_emod (b + P) P
  generalize (a + P) / P = qa at d1
  generalize (b + P) / P = qb at d2
  have hd : b - a = P * (qb - qa) := by rw [Int.mul_sub]; omega
  rcases Int.lt_or_le qa qb with h | h
  · have : (P : Int) * 1 ≤ P * (qb - qa) := Int.mul_le_mul_of_nonneg_left (by omega) (by omega)
    omega
  · have : (P : Int) * (qb - qa) ≤ P * 0 := Int.mul_le_mul_of_nonneg_left (by omega) (by omega)
    omega

theorem ptr_slot {k : Cfg R S} (hc : k.context = true) {i : Int} (h1 : -(k.maxV : Int) ≤ i) (h2 : i < 4 * k.maxV) : k.ptr i = some (slot (3 * k.maxV) i) := by
  rw [ptr_context hc h1 h2]
  unfold slot
  push_cast
  rfl

/-- Facts about the conversion buffer holding virtual rows up to `n` (the image rows, then copies of the last one), `g` row groups done. -/
structure Win (k : Cfg R S) (img : Nat → R) (n g : Nat) (s : St R S) : Prop where
  cnt : s.rowsToGo ≠ 0 → n = k.height - s.rowsToGo
  cnt0 : s.rowsToGo = 0 → k.height ≤ n
  lo : g = 0 ∨ (g + 1) * k.maxV ≤ n
  stop : s.nextBufStop + n = s.nextBufRow + (g + 2) * k.maxV
  mul : ∃ q, s.nextBufStop = q * k.maxV ∧ q ≤ 3
  per : ∃ q, n = q * (3 * k.maxV) + s.nextBufRow
  this : s.thisRowGroup = g % 3 * k.maxV
  win : ∀ t : Int, -(k.maxV : Int) ≤ t → (n : Int) - 3 * k.maxV ≤ t → t < n → 0 < n → s.buf (slot (3 * k.maxV) t) = k.rowAt img t

/-- Invariant with context rows. -/
structure CInv (k : Cfg R S) (img : Nat → R) (n : Nat) (s : St R S) : Prop where
  le : s.rowsToGo ≤ k.height
  rg : s.rg ≤ k.unit
  out : OutOk k img s
  w : Win k img n (s.cur * k.unit + s.rg) s
  hi : n < (s.cur * k.unit + s.rg + 2) * k.maxV

theorem row_lt {k : Cfg R S} {img : Nat → R} {n g : Nat} {s : St R S} (hw : Win k img n g s) (hi : n < (g + 2) * k.maxV) : s.nextBufRow < s.nextBufStop ∧ s.nextBufStop ≤ 3 * k.maxV := by
  have := hw.stop
  obtain ⟨q, h1, h2⟩ := hw.mul
  have h3 := Nat.mul_le_mul_right k.maxV h2
  omega

theorem loadContext_ok {k : Cfg R S} (hk : k.Ok) (hc : k.context = true) {img : Nat → R} {input : List R} {avail i n : Nat} {s : St R S} (hI : CInv k img n s) (hi : i < avail)
    (hin : ∀ j, i + j < avail → input[i + j]? = some (img (k.height - s.rowsToGo + j))) (hav : avail - i ≤ s.rowsToGo) :
    ∃ m s1, k.loadContext input avail i s = some (i + m, s1) ∧ 0 < m ∧ i + m ≤ avail ∧ s1.rowsToGo + m = s.rowsToGo ∧ Win k img (n + m) (s.cur * k.unit + s.rg) s1 ∧
      n + m ≤ (s.cur * k.unit + s.rg + 2) * k.maxV ∧ s1.rg = s.rg ∧ SameMain s s1 ∧ s1.out = s.out := by
  obtain ⟨hle, hrg, hout, hw, hhi⟩ := hI
  obtain ⟨r1, r2⟩ := row_lt hw hhi
  have hcnt := hw.cnt (by omega)
  have hV := hk.mv
  generalize hg : s.cur * k.unit + s.rg = g at *
  obtain ⟨m, hm⟩ : ∃ m, min (s.nextBufStop - s.nextBufRow) (avail - i) = m := ⟨_, rfl⟩
  obtain ⟨q, hq⟩ := hw.per
  have hstop := hw.stop
  have sl : ∀ j, j < m → slot (3 * k.maxV) ((n + j : Nat) : Int) = s.nextBufRow + j := by
    intro j hj
    exact slot_eq (q := q) (by rw [hq]; omega) (by omega)
  obtain ⟨buf', e1, e2, e3⟩ := convert_spec (k := k) (input := input) (x := fun j => img (k.height - s.rowsToGo + j)) m i s.nextBufRow s.buf (fun j => s.nextBufRow + j)
    (fun j hj => hin j (by omega)) (fun j hj => by
      rw [ptr_slot hc (by omega) (by omega)]
      rw [slot_eq (q := 0) (a := s.nextBufRow + j) (by omega) (by omega)]) (fun a b _ _ h => by omega)
  have wload : ∀ t : Int, -(k.maxV : Int) ≤ t → ((n + m : Nat) : Int) - 3 * k.maxV ≤ t → t < (n + m : Nat) → 0 ≤ t ∨ 0 < n → buf' (slot (3 * k.maxV) t) = k.rowAt img t := by
    intro t t1 t2 t3 t4
    by_cases hlt : t < n
    · rw [e3 _ (by
        intro j hj
        rw [← sl j hj]
        exact slot_ne (by omega) (by omega))]
      refine hw.win t t1 (by omega) hlt (by omega)
    · obtain ⟨j, rfl⟩ : ∃ j : Nat, t = ((n + j : Nat) : Int) := ⟨(t - n).toNat, by omega⟩
      rw [sl j (by omega), e2 j (by omega), rowAt_lt img (by omega), hcnt]
  by_cases htop : s.rowsToGo = k.height
  · have hn0 : n = 0 := by omega
    subst hn0
    have hnb : s.nextBufRow = 0 := by omega
    have hg0 : g = 0 := by
      rcases hw.lo with h | h
      · exact h
      · have := Nat.mul_pos (show 0 < g + 1 by omega) hV; omega
    subst hg0
    obtain ⟨buf'', f1, f2, f3⟩ := padTop_spec (k := k) (l := 0) (by rw [ptr_slot hc (by omega) (by omega), slot_eq (q := 0) (a := 0) (by omega) (by omega)]) k.maxV 1 buf' (fun j => 3 * k.maxV - (1 + j)) (by
      intro j hj
      rw [ptr_slot hc (by omega) (by omega), ← slot_add _ 1, slot_eq (q := 0) (a := 3 * k.maxV - (1 + j)) (by omega) (by omega)]) (fun j hj => by omega)
    refine ⟨m, { s with buf := buf'', nextBufRow := s.nextBufRow + m, rowsToGo := s.rowsToGo - m }, ?_, by omega, by omega, by simp only; omega, ?_, by omega, rfl, ⟨rfl, rfl, rfl, rfl⟩, rfl⟩
    · simp [Cfg.loadContext, hm, e1, htop, f1]
    · refine ⟨by simp only; omega, by simp only; omega, Or.inl rfl, by simp only; omega, hw.mul, ⟨q, by simp only; omega⟩, hw.this, ?_⟩
      intro t t1 t2 t3 _
      simp only
      by_cases h0 : 0 ≤ t
      · have hslot : slot (3 * k.maxV) t = t.toNat := slot_eq (q := 0) (by omega) (by omega)
        rw [f3 _ (by intro j hj; rw [hslot]; omega)]
        exact wload t t1 t2 t3 (Or.inl h0)
      · have hslot : slot (3 * k.maxV) t = 3 * k.maxV - (1 + (-t - 1).toNat) := by
          rw [← slot_add _ 1]
          exact slot_eq (q := 0) (by omega) (by omega)
        rw [hslot, f2 _ (by omega)]
        have z := wload 0 (by omega) (by omega) (by omega) (Or.inl (by omega))
        rw [slot_eq (P := 3 * k.maxV) (t := 0) (q := 0) (a := 0) (by omega) (by omega)] at z
        rw [z]
        unfold Cfg.rowAt
        congr 2
        omega
  · refine ⟨m, { s with buf := buf', nextBufRow := s.nextBufRow + m, rowsToGo := s.rowsToGo - m }, ?_, by omega, by omega, by simp only; omega, ?_, by omega, rfl, ⟨rfl, rfl, rfl, rfl⟩, rfl⟩
    · simp [Cfg.loadContext, hm, e1, htop]
    · refine ⟨by simp only; omega, by simp only; omega, ?_, by simp only; omega, hw.mul, ⟨q, by simp only; omega⟩, hw.this, ?_⟩
      · rcases hw.lo with h | h
        · exact Or.inl h
        · right; omega
      · intro t t1 t2 t3 _
        exact wload t t1 t2 t3 (Or.inr (by omega))

theorem padContext_ok {k : Cfg R S} (hk : k.Ok) (hc : k.context = true) {img : Nat → R} {n : Nat} {s : St R S} (hI : CInv k img n s) (h0 : s.rowsToGo = 0) :
    ∃ s1, k.padContext s = some s1 ∧ s1.rowsToGo = 0 ∧ Win k img ((s.cur * k.unit + s.rg + 2) * k.maxV) (s.cur * k.unit + s.rg) s1 ∧ s1.rg = s.rg ∧ SameMain s s1 ∧ s1.out = s.out := by
  obtain ⟨hle, hrg, hout, hw, hhi⟩ := hI
  obtain ⟨r1, r2⟩ := row_lt hw hhi
  have hcnt := hw.cnt0 h0
  have hV := hk.mv
  have hH := hk.h.1
  generalize hg : s.cur * k.unit + s.rg = g at *
  obtain ⟨q, hq⟩ := hw.per
  have hstop := hw.stop
  have hlen : s.nextBufStop - s.nextBufRow ≤ 2 * k.maxV ∧ (g + 2) * k.maxV ≤ n + 2 * k.maxV := by
    have e2 : (g + 2) * k.maxV = (g + 1) * k.maxV + k.maxV := by rw [show g + 2 = g + 1 + 1 from rfl, Nat.succ_mul]
    rcases hw.lo with h | h
    · subst h; omega
    · omega
  have sl : ∀ j, j < s.nextBufStop - s.nextBufRow → slot (3 * k.maxV) ((n + j : Nat) : Int) = s.nextBufRow + j := by
    intro j hj
    exact slot_eq (q := q) (by rw [hq]; omega) (by omega)
  have sl1 : k.ptr ((s.nextBufRow : Int) - 1) = some (slot (3 * k.maxV) ((n : Int) - 1)) := by
    rw [ptr_slot hc (by omega) (by omega), ← slot_add _ q]
    congr 2
    rw [hq]; push_cast; omega
  obtain ⟨buf', e1, e2, e3⟩ := expandBuf_spec (k := k) sl1 (s.nextBufStop - s.nextBufRow) s.nextBufRow s.buf (fun j => s.nextBufRow + j) (fun j hj => by
      rw [ptr_slot hc (by omega) (by omega)]
      rw [slot_eq (q := 0) (a := s.nextBufRow + j) (by omega) (by omega)]) (fun j hj => by
      rw [← sl j hj]
      exact (slot_ne (by omega) (by omega)).symm)
  refine ⟨{ s with buf := buf', nextBufRow := s.nextBufStop }, ?_, h0, ?_, rfl, ⟨rfl, rfl, rfl, rfl⟩, rfl⟩
  · unfold Cfg.padContext
    rw [if_pos r1, e1]; rfl
  · refine ⟨fun h => absurd h0 h, fun _ => by omega, ?_, rfl, hw.mul, ⟨q, by simp only; omega⟩, hw.this, ?_⟩
    · rcases hw.lo with h | h
      · exact Or.inl h
      · right; omega
    · intro t t1 t2 t3 _
      simp only
      by_cases hlt : t < n
      · rw [e3 _ (by
          intro j hj
          rw [← sl j hj]
          exact slot_ne (by omega) (by omega))]
        exact hw.win t t1 (by omega) hlt (by omega)
      · obtain ⟨j, rfl⟩ : ∃ j : Nat, t = ((n + j : Nat) : Int) := ⟨(t - n).toNat, by omega⟩
        rw [sl j (by omega), e2 j (by omega), hw.win _ (by omega) (by omega) (by omega) (by omega)]
        unfold Cfg.rowAt
        rw [Nat.min_eq_right (by omega), Nat.min_eq_right (by omega)]

theorem emitContext_ok {k : Cfg R S} (hk : k.Ok) (hc : k.context = true) {img : Nat → R} {n : Nat} {s : St R S} (hle : s.rowsToGo ≤ k.height) (hrg : s.rg < k.unit) (hout : OutOk k img s)
    (hw : Win k img n (s.cur * k.unit + s.rg) s) (hn : n ≤ (s.cur * k.unit + s.rg + 2) * k.maxV) :
    ∃ s1, k.emitContext s = some s1 ∧ CInv k img n s1 ∧ s1.rowsToGo = s.rowsToGo ∧ SameMain s s1 ∧ (s1.rg = s.rg ∨ s1.rg = s.rg + 1) ∧ (n = (s.cur * k.unit + s.rg + 2) * k.maxV → s1.rg = s.rg + 1) := by
  have hV := hk.mv
  have hstop := hw.stop
  unfold Cfg.emitContext
  by_cases he : s.nextBufRow = s.nextBufStop
  · rw [if_pos he]
    generalize hg : s.cur * k.unit + s.rg = g at *
    have hn' : n = (g + 2) * k.maxV := by omega
    have hthis := hw.this
    have hmod : g % 3 < 3 := Nat.mod_lt _ (by omega)
    have hth : s.thisRowGroup ≤ 2 * k.maxV := by rw [hthis]; exact Nat.mul_le_mul_right _ (by omega)
    have hdm : g * k.maxV = g / 3 * (3 * k.maxV) + s.thisRowGroup := by
      rw [hthis]
      have := Nat.div_add_mod g 3
      conv => lhs; rw [← this]
      ring
    obtain ⟨out', e1, e2⟩ := downsample_ok (first := s.thisRowGroup) (img := img) hk hrg (by
      simp only [hc, if_true]
      rw [readRows_spec (x := fun j : Nat => k.rowAt img ((g * k.maxV : Nat) - 1 + j : Int)) (k.maxV + 2) _ (by
        intro j hj
        refine ⟨_, ptr_slot hc (by omega) (by omega), ?_⟩
        rw [← slot_add _ (g / 3)]
        have ee : (s.thisRowGroup : Int) - 1 + j + ((g / 3 * (3 * k.maxV) : Nat) : Int) = ((g * k.maxV : Nat) : Int) - 1 + j := by omega
        rw [ee]
        have e2 : (g + 2) * k.maxV = g * k.maxV + 2 * k.maxV := by rw [Nat.add_mul]
        exact hw.win _ (by omega) (by omega) (by omega) (by omega))]
      simp only [Cfg.groupRows, hc, if_true, hg]) (Or.inl hc) hout
    rw [e1]
    refine ⟨{ s with out := out', rg := s.rg + 1, thisRowGroup := if s.thisRowGroup + k.maxV ≥ 3 * k.maxV then 0 else s.thisRowGroup + k.maxV, nextBufRow := if s.nextBufRow ≥ 3 * k.maxV then 0 else s.nextBufRow, nextBufStop := (if s.nextBufRow ≥ 3 * k.maxV then 0 else s.nextBufRow) + k.maxV },
      rfl, ?_, rfl, ⟨rfl, rfl, rfl, rfl⟩, Or.inr rfl, fun _ => rfl⟩
    obtain ⟨q3, hq3, hq3'⟩ := hw.mul
    obtain ⟨qp, hqp⟩ := hw.per
    have eg3 : (g + 1 + 2) * k.maxV = (g + 2) * k.maxV + k.maxV := by rw [show g + 1 + 2 = (g + 2) + 1 by omega, Nat.succ_mul]
    have hge : s.cur * k.unit + (s.rg + 1) = g + 1 := by omega
    refine ⟨hle, by simp only; omega, e2, ?_, by simp only; rw [hge, eg3]; omega⟩
    simp only [hge]
    refine ⟨hw.cnt, hw.cnt0, Or.inr ?_, by simp only; rw [eg3]; omega, ?_, ?_, ?_, hw.win⟩
    · rw [show g + 1 + 1 = g + 2 from rfl]; omega
    · by_cases h3 : s.nextBufRow ≥ 3 * k.maxV
      · exact ⟨1, by simp [h3], by omega⟩
      · refine ⟨q3 + 1, ?_, ?_⟩
        · simp only [if_neg h3]; rw [he, hq3, Nat.succ_mul]
        · rcases Nat.lt_or_ge q3 3 with h | h
          · omega
          · have := Nat.mul_le_mul_right k.maxV h; omega
    · by_cases h3 : s.nextBufRow ≥ 3 * k.maxV
      · have h3' := Nat.mul_le_mul_right k.maxV hq3'
        refine ⟨qp + 1, ?_⟩
        simp only [if_pos h3]
        rw [Nat.succ_mul]; omega
      · exact ⟨qp, by simp only [if_neg h3]; exact hqp⟩
    · simp only
      rw [hthis]
      rcases (show g % 3 = 0 ∨ g % 3 = 1 ∨ g % 3 = 2 by omega) with h | h | h
      · rw [h, show (g + 1) % 3 = 1 by omega, if_neg (by omega)]; omega
      · rw [h, show (g + 1) % 3 = 2 by omega, if_neg (by omega)]; omega
      · rw [h, show (g + 1) % 3 = 0 by omega, if_pos (by omega)]; omega
  · rw [if_neg he]
    refine ⟨s, rfl, ⟨hle, by omega, hout, hw, by omega⟩, rfl, SameMain.refl s, Or.inl rfl, fun h => by omega⟩

theorem preContext_ok {k : Cfg R S} (hk : k.Ok) (hc : k.context = true) {img : Nat → R} {input : List R} {avail : Nat} : ∀ (fuel i n : Nat) (s : St R S), CInv k img n s → (avail - i) + (k.unit - s.rg) ≤ fuel →
    (∀ j, i + j < avail → input[i + j]? = some (img (k.height - s.rowsToGo + j))) → avail - i ≤ s.rowsToGo →
    ∃ i' n' s', k.preContext input avail fuel i s = some (i', s') ∧ CInv k img n' s' ∧ SameMain s s' ∧ i ≤ i' ∧ i' ≤ max i avail ∧ s'.rowsToGo + (i' - i) = s.rowsToGo ∧ (s'.rg = k.unit ∨ (avail ≤ i' ∧ s'.rowsToGo ≠ 0)) ∧
      (s.rowsToGo ≠ 0 → s.rg < k.unit → s'.rg = k.unit → i < i') := by
  intro fuel
  induction fuel with
  | zero =>
    intro i n s hI hf hin hav
    have := hI.rg
    refine ⟨i, n, s, by unfold Cfg.preContext; rw [if_neg (by omega)], hI, SameMain.refl s, Nat.le_refl _, by omega, by omega, Or.inl (by omega), fun _ h1 h2 => by omega⟩
  | succ fuel ih =>
    intro i n s hI hf hin hav
    unfold Cfg.preContext
    by_cases hrg : s.rg < k.unit
    · rw [if_pos hrg]
      by_cases hi : i < avail
      · rw [if_pos hi]
        obtain ⟨m, s1, l1, l2, l3, l4, l5, l6, l7, l8, l9⟩ := loadContext_ok hk hc hI hi hin hav
        have hle := hI.le
        obtain ⟨s2, p1, p2, p3, p4, p5, p6⟩ := emitContext_ok (img := img) (n := n + m) (s := s1) hk hc (by omega) (by omega) (by
          intro j hj
          rw [l9, l8.1]
          rw [l7] at hj
          exact hI.out j hj) (by rw [l8.1, l7]; exact l5) (by rw [l8.1, l7]; exact l6)
        rw [l1]
        simp only [Option.bind_eq_bind, Option.bind_some]
        rw [p1, Option.bind_some]
        obtain ⟨i', n', s', r1, r2, r3, r4, r5, r6, r7, r8⟩ := ih (i + m) (n + m) s2 p2 (by omega) (by
          intro j hj
          have := hin (m + j) (by omega)
          rw [show i + (m + j) = i + m + j by omega] at this
          rw [this]
          congr 2; omega) (by omega)
        exact ⟨i', n', s', r1, r2, (l8.trans p4).trans r3, by omega, by omega, by omega, r7, fun _ _ _ => by omega⟩
      · rw [if_neg hi]
        by_cases h0 : s.rowsToGo ≠ 0
        · rw [if_pos h0]
          exact ⟨i, n, s, rfl, hI, SameMain.refl s, Nat.le_refl _, by omega, by omega, Or.inr ⟨by omega, h0⟩, fun _ h1 h2 => by omega⟩
        · rw [if_neg h0]
          obtain ⟨s1, l1, l4, l5, l7, l8, l9⟩ := padContext_ok hk hc hI (by omega)
          obtain ⟨s2, p1, p2, p3, p4, p5, p6⟩ := emitContext_ok (img := img) (n := (s.cur * k.unit + s.rg + 2) * k.maxV) (s := s1) hk hc (by omega) (by omega) (by
            intro j hj
            rw [l9, l8.1]
            rw [l7] at hj
            exact hI.out j hj) (by rw [l8.1, l7]; exact l5) (by rw [l8.1, l7])
          have hadv := p6 (by rw [l8.1, l7])
          rw [l1]
          simp only [Option.bind_eq_bind, Option.bind_some]
          rw [p1, Option.bind_some]
          obtain ⟨i', n', s', r1, r2, r3, r4, r5, r6, r7, r8⟩ := ih i _ s2 p2 (by omega) (by
            intro j hj; omega) (by omega)
          exact ⟨i', n', s', r1, r2, (l8.trans p4).trans r3, by omega, by omega, by omega, r7, fun h => absurd (by omega) h⟩
    · rw [if_neg hrg]
      have := hI.rg
      exact ⟨i, n, s, rfl, hI, SameMain.refl s, Nat.le_refl _, by omega, by omega, Or.inl (by omega), fun _ h1 _ => absurd h1 hrg⟩

end Verif.Prep
