import Verif.Prep.Lemmas
namespace Verif.Prep
variable {R S : Type}

/-! ### what the coefficient controller should see -/

/-- Image rows extended beyond the top and the bottom by repeating the first and the last row. -/
def Cfg.rowAt (k : Cfg R S) (img : Nat → R) (t : Int) : R := img (min t.toNat (k.height - 1))

/-- The rows shown to the downsampler for row group `g`: its max_v_samp_factor rows, with one row above and one below when context is needed. -/
def Cfg.groupRows (k : Cfg R S) (img : Nat → R) (g : Nat) : List R :=
  if k.context then (List.range (k.maxV + 2)).map (fun j : Nat => k.rowAt img ((g * k.maxV : Nat) - 1 + j : Int))
  else (List.range k.maxV).map (fun j : Nat => k.rowAt img ((g * k.maxV : Nat) + j : Int))

/-- Row groups that contain image rows. -/
def Cfg.groups (k : Cfg R S) : Nat := (k.height + k.maxV - 1) / k.maxV

/-- Row `j` of the component, padded to whole iMCU rows.  With context rows the padding groups are downsampled from copies of the last image row; without, the last downsampled row is repeated. -/
def Cfg.rowSpec (k : Cfg R S) (img : Nat → R) (j : Nat) : Option S :=
  if k.context ∨ j / k.v < k.groups then (k.down (k.groupRows img (j / k.v)))[j % k.v]?
  else (k.down (k.groupRows img (k.groups - 1)))[k.v - 1]?

/-- Sanity conditions: a non-empty image, positive factors, and a downsampler producing v_samp_factor rows. -/
structure Cfg.Ok (k : Cfg R S) : Prop where
  h : 0 < k.height ∧ k.height < 2 ^ 32
  mv : 0 < k.maxV
  v : 0 < k.v
  u : 0 < k.unit
  down : ∀ l, (k.down l).length = k.v

theorem lt_total {k : Cfg R S} (hk : k.Ok) (c : Nat) : c < k.total ↔ c * (k.maxV * k.unit) < k.height := by
  have hp : 0 < k.maxV * k.unit := Nat.mul_pos hk.mv hk.u
  unfold Cfg.total
  rw [Nat.lt_div_iff_mul_lt hp]
  omega

theorem lt_groups {k : Cfg R S} (hk : k.Ok) (g : Nat) : g < k.groups ↔ g * k.maxV < k.height := by
  unfold Cfg.groups
  have := hk.mv
  rw [Nat.lt_div_iff_mul_lt this]
  omega

/-- The state of the main buffer: the row groups done so far are right. -/
def OutOk (k : Cfg R S) (img : Nat → R) (s : St R S) : Prop := ∀ j, j < s.rg * k.v → some (s.out j) = k.rowSpec img (s.cur * (k.unit * k.v) + j)

/-- Invariant without context rows. -/
structure SInv (k : Cfg R S) (img : Nat → R) (s : St R S) : Prop where
  le : s.rowsToGo ≤ k.height
  rg : s.rg ≤ k.unit
  out : OutOk k img s
  more : s.rowsToGo ≠ 0 → k.height - s.rowsToGo = (s.cur * k.unit + s.rg) * k.maxV + s.nextBufRow ∧ s.nextBufRow < k.maxV ∧
    ∀ r, r < s.nextBufRow → s.buf r = img ((s.cur * k.unit + s.rg) * k.maxV + r)
  done : s.rowsToGo = 0 → (s.cur + 1 = k.total ∧ s.rg = k.unit) ∨ (s.cur = k.total ∧ s.rg = 0)

/-- The parts of the state pre-processing does not touch. -/
def SameMain (s s' : St R S) : Prop := s'.cur = s.cur ∧ s'.suspended = s.suspended ∧ s'.nextScanline = s.nextScanline ∧ s'.trace = s.trace

theorem SameMain.refl (s : St R S) : SameMain s s := ⟨rfl, rfl, rfl, rfl⟩
theorem SameMain.trans {a b c : St R S} (h1 : SameMain a b) (h2 : SameMain b c) : SameMain a c :=
  ⟨h2.1.trans h1.1, h2.2.1.trans h1.2.1, h2.2.2.1.trans h1.2.2.1, h2.2.2.2.trans h1.2.2.2⟩

/-- Storing a downsampled group. -/
theorem downsample_ok {k : Cfg R S} (hk : k.Ok) {img : Nat → R} {s : St R S} (hrg : s.rg < k.unit) {first : Nat}
    (hrows : (if k.context then k.readRows s.buf (k.maxV + 2) (first - 1) else k.readRows s.buf k.maxV first) = some (k.groupRows img (s.cur * k.unit + s.rg)))
    (hreal : k.context = true ∨ s.cur * k.unit + s.rg < k.groups) (ho : OutOk k img s) :
    ∃ out', k.downsample first s = some { s with out := out' } ∧ ∀ j, j < (s.rg + 1) * k.v → some (out' j) = k.rowSpec img (s.cur * (k.unit * k.v) + j) := by
  have hl := hk.down (k.groupRows img (s.cur * k.unit + s.rg))
  have hle : s.rg * k.v + k.v ≤ k.unit * k.v := by
    have := Nat.mul_le_mul_right k.v (show s.rg + 1 ≤ k.unit from hrg)
    rw [Nat.succ_mul] at this; exact this
  obtain ⟨out', e1, e2, e3⟩ := storeOut_spec (k := k) (k.down (k.groupRows img (s.cur * k.unit + s.rg))) (s.rg * k.v) s.out (by rw [hl]; exact hle)
  refine ⟨out', ?_, ?_⟩
  · unfold Cfg.downsample
    revert hrows
    cases k.context <;> intro hrows <;> simp only [Bool.false_eq_true, if_false, if_true] at hrows ⊢ <;> rw [hrows] <;> simp [e1]
  · intro j hj
    rw [Nat.succ_mul] at hj
    by_cases hlt : j < s.rg * k.v
    · rw [e2 j hlt]; exact ho j hlt
    · have := e3 (j - s.rg * k.v) (by rw [hl]; omega)
      rw [show s.rg * k.v + (j - s.rg * k.v) = j by omega] at this
      rw [this]
      unfold Cfg.rowSpec
      have e : s.cur * (k.unit * k.v) + j = (s.cur * k.unit + s.rg) * k.v + (j - s.rg * k.v) := by
        rw [Nat.add_mul, Nat.mul_assoc]; omega
      have hd : (s.cur * (k.unit * k.v) + j) / k.v = s.cur * k.unit + s.rg := by
        rw [e, Nat.add_comm, Nat.add_mul_div_right _ _ hk.v, Nat.div_eq_of_lt (by omega), Nat.zero_add]
      have hm : (s.cur * (k.unit * k.v) + j) % k.v = j - s.rg * k.v := by
        rw [e, Nat.add_comm, Nat.add_mul_mod_self_right, Nat.mod_eq_of_lt (by omega)]
      rw [hd, hm, if_pos hreal]

theorem rowAt_lt {k : Cfg R S} (img : Nat → R) {t : Nat} (h : t < k.height) : k.rowAt img t = img t := by
  unfold Cfg.rowAt; rw [Int.toNat_natCast, Nat.min_eq_left (by omega)]

/-- What is known after an iteration's color conversion and padding. -/
structure Filled (k : Cfg R S) (img : Nat → R) (s : St R S) : Prop where
  le : s.rowsToGo ≤ k.height
  rg : s.rg < k.unit
  cur : s.cur < k.total
  out : OutOk k img s
  nb : s.nextBufRow ≤ k.maxV
  buf : ∀ r, r < s.nextBufRow → s.buf r = k.rowAt img ((s.cur * k.unit + s.rg) * k.maxV + r : Nat)
  real : (s.cur * k.unit + s.rg) * k.maxV < k.height
  pos : 0 < s.nextBufRow
  count : s.rowsToGo ≠ 0 → k.height - s.rowsToGo = (s.cur * k.unit + s.rg) * k.maxV + s.nextBufRow
  last : s.rowsToGo = 0 → k.height ≤ (s.cur * k.unit + s.rg) * k.maxV + s.nextBufRow

theorem loadSimple_ok {k : Cfg R S} (hk : k.Ok) (hc : k.context = false) {img : Nat → R} {input : List R} {avail i : Nat} {s : St R S} (hI : SInv k img s) (hcur : s.cur < k.total) (hi : i < avail) (hrg : s.rg < k.unit)
    (hin : ∀ j, i + j < avail → input[i + j]? = some (img (k.height - s.rowsToGo + j))) (hav : avail - i ≤ s.rowsToGo) :
    ∃ m s1, k.loadSimple input avail i s = some (i + m, s1) ∧ 0 < m ∧ i + m ≤ avail ∧ s1.rowsToGo + m = s.rowsToGo ∧ Filled k img s1 ∧ s1.rg = s.rg ∧ SameMain s s1 := by
  obtain ⟨h1, h2, h3⟩ := hI.more (by omega)
  have hle := hI.le
  obtain ⟨buf', e1, e2, e3⟩ := convert_spec (k := k) (input := input) (x := fun j => img (k.height - s.rowsToGo + j)) (min (k.maxV - s.nextBufRow) (avail - i)) i s.nextBufRow s.buf (fun j => s.nextBufRow + j)
    (fun j hj => hin j (by omega)) (fun j hj => ptr_simple hc (by omega)) (fun a b _ _ h => by omega)
  refine ⟨min (k.maxV - s.nextBufRow) (avail - i), { s with buf := buf', nextBufRow := s.nextBufRow + min (k.maxV - s.nextBufRow) (avail - i), rowsToGo := s.rowsToGo - min (k.maxV - s.nextBufRow) (avail - i) },
    by simp [Cfg.loadSimple, e1], by omega, by omega, ?_, ?_, rfl, ⟨rfl, rfl, rfl, rfl⟩⟩
  · simp only; omega
  · refine ⟨by simp only; omega, hrg, hcur, hI.out, by simp only; omega, ?_, by simp only; omega, by simp only; omega, ?_, ?_⟩
    · intro r hr
      simp only at hr ⊢
      rw [rowAt_lt img (by omega)]
      by_cases hlt : r < s.nextBufRow
      · rw [e3 r (fun j hj => by omega)]; exact h3 r hlt
      · have := e2 (r - s.nextBufRow) (by omega)
        rw [show s.nextBufRow + (r - s.nextBufRow) = r by omega] at this
        rw [this, h1]
        congr 1; omega
    · intro _; simp only; omega
    · intro h0; simp only at h0 ⊢; omega

theorem padSimple_ok {k : Cfg R S} (hk : k.Ok) (hc : k.context = false) {img : Nat → R} {s : St R S} (hF : Filled k img s) :
    ∃ s1, k.padSimple s = some s1 ∧ Filled k img s1 ∧ (s1.rowsToGo = 0 → s1.nextBufRow = k.maxV) ∧ s1.rowsToGo = s.rowsToGo ∧ s1.rg = s.rg ∧ SameMain s s1 := by
  unfold Cfg.padSimple
  by_cases hp : s.rowsToGo = 0 ∧ s.nextBufRow < k.maxV
  · rw [if_pos hp]
    have hl := hF.last hp.1
    have hpos := hF.pos
    obtain ⟨buf', e1, e2, e3⟩ := expandBuf_spec (k := k) (last := (s.nextBufRow : Int) - 1) (l := s.nextBufRow - 1) (by
      rw [show (s.nextBufRow : Int) - 1 = ((s.nextBufRow - 1 : Nat) : Int) by omega]; exact ptr_simple hc (by omega)) (k.maxV - s.nextBufRow) s.nextBufRow s.buf (fun j => s.nextBufRow + j)
      (fun j hj => ptr_simple hc (by omega)) (fun j hj => by omega)
    refine ⟨{ s with buf := buf', nextBufRow := k.maxV }, by rw [e1]; rfl, ?_, fun _ => rfl, rfl, rfl, ⟨rfl, rfl, rfl, rfl⟩⟩
    refine ⟨hF.le, hF.rg, hF.cur, hF.out, Nat.le_refl _, ?_, hF.real, hk.mv, fun h => absurd hp.1 h, fun _ => ?_⟩
    · intro r hr
      simp only at hr ⊢
      by_cases hlt : r < s.nextBufRow
      · rw [e3 r (fun j hj => by omega)]; exact hF.buf r hlt
      · have := e2 (r - s.nextBufRow) (by omega)
        rw [show s.nextBufRow + (r - s.nextBufRow) = r by omega] at this
        rw [this, hF.buf _ (by omega)]
        unfold Cfg.rowAt
        simp only [Int.toNat_natCast]
        rw [Nat.min_eq_right (by omega), Nat.min_eq_right (by omega)]
    · simp only; omega
  · rw [if_neg hp]
    have := hF.nb
    exact ⟨s, rfl, hF, fun h => by omega, rfl, rfl, SameMain.refl s⟩

theorem emitSimple_ok {k : Cfg R S} (hk : k.Ok) (hc : k.context = false) {img : Nat → R} {s : St R S} (hF : Filled k img s) (hfull : s.rowsToGo = 0 → s.nextBufRow = k.maxV) :
    ∃ s1, k.emitSimple s = some s1 ∧ s1.rowsToGo = s.rowsToGo ∧ SameMain s s1 ∧ s1.rg ≤ k.unit ∧ OutOk k img s1 ∧
      (s1.rowsToGo ≠ 0 → SInv k img s1) ∧ (s1.rowsToGo = 0 → 0 < s1.rg ∧ k.groups = s.cur * k.unit + s1.rg) := by
  unfold Cfg.emitSimple
  by_cases hn : s.nextBufRow = k.maxV
  · rw [if_pos hn]
    obtain ⟨out', e1, e2⟩ := downsample_ok (first := 0) hk hF.rg (by
      simp only [hc, Bool.false_eq_true, if_false]
      rw [readRows_spec (x := fun j : Nat => k.rowAt img (((s.cur * k.unit + s.rg) * k.maxV : Nat) + j : Int)) k.maxV ((0 : Nat) : Int) (by
        intro j hj
        refine ⟨j, by rw [Nat.cast_zero, Int.zero_add]; exact ptr_simple hc hj, ?_⟩
        rw [hF.buf j (by omega)]
        congr 1)]
      simp [Cfg.groupRows, hc]) (Or.inr ((lt_groups hk _).2 hF.real)) hF.out
    have hrg := hF.rg
    have hle := hF.le
    refine ⟨{ s with out := out', nextBufRow := 0, rg := s.rg + 1 }, by rw [e1]; rfl, rfl, ⟨rfl, rfl, rfl, rfl⟩, by simp only; omega, e2, ?_, ?_⟩
    · intro hne
      simp only at hne
      have hcnt := hF.count hne
      refine ⟨hF.le, by simp only; omega, e2, ?_, fun h => absurd h hne⟩
      intro _
      refine ⟨?_, hk.mv, fun r hr => by simp at hr⟩
      simp only
      rw [hcnt, hn, ← Nat.add_assoc, Nat.add_mul (s.cur * k.unit + s.rg) 1]
      omega
    · intro h0
      simp only at h0
      have hl := hF.last h0
      refine ⟨by simp only; omega, ?_⟩
      simp only
      rw [hn] at hl
      have h1 := (lt_groups hk (s.cur * k.unit + s.rg)).2 hF.real
      have h2 : ¬ (s.cur * k.unit + s.rg + 1 < k.groups) := by
        rw [lt_groups hk, Nat.add_mul (s.cur * k.unit + s.rg) 1]; omega
      omega
  · rw [if_neg hn]
    have hne : s.rowsToGo ≠ 0 := fun h => hn (hfull h)
    have hnb := hF.nb
    have hrg := hF.rg
    refine ⟨s, rfl, rfl, SameMain.refl s, by omega, hF.out, fun _ => ⟨hF.le, by omega, hF.out, fun _ => ⟨hF.count hne, by omega, ?_⟩, fun h => absurd h hne⟩, fun h => absurd h hne⟩
    intro r hr
    rw [hF.buf r hr, rowAt_lt]
    have := hF.count hne
    have := hF.le
    omega

/-- pre_process_data. -/
theorem preSimple_ok {k : Cfg R S} (hk : k.Ok) (hc : k.context = false) {img : Nat → R} {input : List R} {avail : Nat} : ∀ (fuel i : Nat) (s : St R S), SInv k img s → s.cur < k.total → avail ≤ i + fuel →
    (∀ j, i + j < avail → input[i + j]? = some (img (k.height - s.rowsToGo + j))) → avail - i ≤ s.rowsToGo →
    ∃ i' s', k.preSimple input avail fuel i s = some (i', s') ∧ SInv k img s' ∧ SameMain s s' ∧ i ≤ i' ∧ i' ≤ max i avail ∧ s'.rowsToGo + (i' - i) = s.rowsToGo ∧ (s'.rg = k.unit ∨ avail ≤ i') ∧
      (s.rg < k.unit → s'.rg = k.unit → i < i') := by
  intro fuel
  induction fuel with
  | zero =>
    intro i s hI hcur hf hin hav
    refine ⟨i, s, by unfold Cfg.preSimple; rw [if_neg (by omega)], hI, SameMain.refl s, Nat.le_refl _, by omega, by omega, Or.inr (by omega), fun h1 h2 => by omega⟩
  | succ fuel ih =>
    intro i s hI hcur hf hin hav
    unfold Cfg.preSimple
    by_cases hgo : i < avail ∧ s.rg < k.unit
    · rw [if_pos hgo]
      obtain ⟨m, s1, l1, l2, l3, l4, l5, l6, l7⟩ := loadSimple_ok hk hc hI hcur hgo.1 hgo.2 hin hav
      obtain ⟨s2, p1, p2, p3, p4, p5, p6⟩ := padSimple_ok hk hc l5
      obtain ⟨s3, q1, q2, q3, q4, q5, q6, q7⟩ := emitSimple_ok hk hc p2 p3
      have hsame : SameMain s s3 := (l7.trans p6).trans q3
      rw [l1]
      simp only [Option.bind_eq_bind, Option.bind_some]
      rw [p1, Option.bind_some, q1, Option.bind_some]
      have htot : s3.rowsToGo = 0 → s3.cur + 1 = k.total := by
        intro h0
        obtain ⟨g0, g1⟩ := q7 h0
        have c2 : s2.cur = s.cur := by rw [p6.1, l7.1]
        have c3 : s3.cur = s.cur := hsame.1
        have hlt : s.cur < k.total := hcur
        have hnot : ¬ s.cur + 1 < k.total := by
          rw [lt_total hk]
          have : ¬ k.groups < k.groups := by omega
          rw [lt_groups hk] at this
          rw [g1, c2] at this
          have h2 : (s.cur * k.unit + s3.rg) * k.maxV ≤ (s.cur + 1) * (k.maxV * k.unit) := by
            rw [Nat.mul_comm k.maxV k.unit, ← Nat.mul_assoc]
            apply Nat.mul_le_mul_right
            rw [Nat.succ_mul]; omega
          omega
        omega
      by_cases hbot : s3.rowsToGo = 0 ∧ s3.rg < k.unit
      · rw [if_pos hbot]
        obtain ⟨g0, g1⟩ := q7 hbot.1
        have c2 : s2.cur = s.cur := by rw [p6.1, l7.1]
        have c3 : s3.cur = s.cur := hsame.1
        have hv := hk.v
        have hrv : 0 < s3.rg * k.v := Nat.mul_pos g0 hv
        have hle : s3.rg * k.v ≤ k.unit * k.v := Nat.mul_le_mul_right _ q4
        obtain ⟨out', e1, e2, e3⟩ := expandOut_spec (k := k) (last := s3.rg * k.v - 1) (k.unit * k.v - s3.rg * k.v) (s3.rg * k.v) s3.out (by omega) (by omega)
        rw [e1]
        refine ⟨i + m, { s3 with out := out', rg := k.unit }, rfl, ?_, ⟨hsame.1, hsame.2.1, hsame.2.2.1, hsame.2.2.2⟩, by omega, by omega, ?_, Or.inl rfl, fun _ _ => by omega⟩
        · refine ⟨by simp only; omega, Nat.le_refl _, ?_, fun h => absurd hbot.1 h, fun _ => Or.inl ⟨htot hbot.1, rfl⟩⟩
          intro j hj
          simp only at hj ⊢
          by_cases hjl : j < s3.rg * k.v
          · rw [e2 j hjl]; exact q5 j hjl
          · have hj' := e3 (j - s3.rg * k.v) (by omega)
            rw [show s3.rg * k.v + (j - s3.rg * k.v) = j by omega] at hj'
            rw [hj', q5 _ (by omega)]
            have hcg : k.groups = s3.cur * k.unit + s3.rg := by rw [g1, c2, c3]
            unfold Cfg.rowSpec
            have ea : s3.cur * (k.unit * k.v) + (s3.rg * k.v - 1) = (k.groups - 1) * k.v + (k.v - 1) := by
              have : (k.groups - 1 + 1) * k.v = s3.cur * (k.unit * k.v) + s3.rg * k.v := by
                rw [show k.groups - 1 + 1 = k.groups by omega, hcg, Nat.add_mul, Nat.mul_assoc]
              rw [Nat.succ_mul] at this
              omega
            have hd : (s3.cur * (k.unit * k.v) + (s3.rg * k.v - 1)) / k.v = k.groups - 1 := by
              rw [ea, Nat.add_comm, Nat.add_mul_div_right _ _ hv, Nat.div_eq_of_lt (by omega), Nat.zero_add]
            have hm : (s3.cur * (k.unit * k.v) + (s3.rg * k.v - 1)) % k.v = k.v - 1 := by
              rw [ea, Nat.add_comm, Nat.add_mul_mod_self_right, Nat.mod_eq_of_lt (by omega)]
            have hb : k.groups ≤ (s3.cur * (k.unit * k.v) + j) / k.v := by
              rw [Nat.le_div_iff_mul_le hv, hcg, Nat.add_mul, Nat.mul_assoc]; omega
            rw [hd, hm, if_pos (Or.inr (by omega)), if_neg (by simp [hc]; omega)]
        · simp only; omega
      · rw [if_neg hbot]
        by_cases h0 : s3.rowsToGo = 0
        · have hfull : s3.rg = k.unit := by omega
          have hI3 : SInv k img s3 := ⟨by omega, q4, q5, fun h => absurd h0 h, fun _ => Or.inl ⟨htot h0, hfull⟩⟩
          obtain ⟨i', s', r1, r2, r3, r4, r5, r6, r7, r8⟩ := ih (i + m) s3 hI3 (by rw [hsame.1]; exact hcur) (by omega) (fun j hj => by omega) (by omega)
          exact ⟨i', s', r1, r2, hsame.trans r3, by omega, by omega, by omega, r7, fun _ _ => by omega⟩
        · have hI3 := q6 h0
          obtain ⟨i', s', r1, r2, r3, r4, r5, r6, r7, r8⟩ := ih (i + m) s3 hI3 (by rw [hsame.1]; exact hcur) (by omega) (by
            intro j hj
            have := hin (m + j) (by omega)
            rw [show i + (m + j) = i + m + j by omega] at this
            rw [this]
            have := hI.le
            congr 2; omega) (by omega)
          exact ⟨i', s', r1, r2, hsame.trans r3, by omega, by omega, by omega, r7, fun _ _ => by omega⟩
    · rw [if_neg hgo]
      have := hI.rg
      exact ⟨i, s, rfl, hI, SameMain.refl s, Nat.le_refl _, by omega, by omega, by omega, fun h1 h2 => by omega⟩

end Verif.Prep
