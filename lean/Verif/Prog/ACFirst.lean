import Verif.Prog.Eob
import Verif.Huff.ScanLemmas
/-
AC first scans: the decoder follows the encoder.
-/
namespace Verif.Prog
open Verif Verif.Huff

/-- Store the values `ws` at scan positions k, k+1, ... -/
def setBand : Nat → List Int → List Int → List Int
  | _, [], blk => blk
  | k, w :: ws, blk => setBand (k + 1) ws (blk.set (natOrder.getD k 0) w)

theorem setBand_append (k : Nat) (a b : List Int) (blk : List Int) :
    setBand k (a ++ b) blk = setBand (k + a.length) b (setBand k a blk) := by
  induction a generalizing k blk with
  | nil => rfl
  | cons w a ih => simp only [List.cons_append, setBand, ih, List.length_cons]; congr 1; omega

theorem getD_set_ne {l : List Int} {i j : Nat} {v : Int} (h : i ≠ j) : (l.set i v).getD j 0 = l.getD j 0 := by
  simp [List.getD_eq_getElem?_getD, List.getElem?_set, h]

theorem set_getD_self (l : List Int) (i : Nat) (v : Int) (h : l.getD i 0 = v) (hv : i < l.length) : l.set i v = l := by
  rw [List.getD_eq_getElem?_getD, List.getElem?_eq_getElem hv] at h
  simp at h
  subst h
  exact List.set_getElem_self hv

theorem set_zero_self (l : List Int) (i : Nat) (h : l.getD i 0 = 0) : l.set i 0 = l := by
  by_cases hv : i < l.length
  · exact set_getD_self l i 0 h hv
  · exact List.set_eq_of_length_le (by omega)

/-- Storing zeros where there are zeros changes nothing. -/
theorem setBand_zeros (k : Nat) (ws : List Int) (blk : List Int) (hk : k + ws.length ≤ 64) (hz : ∀ w ∈ ws, w = 0)
    (hb : ∀ j, k ≤ j → j < k + ws.length → blk.getD (natOrder.getD j 0) 0 = 0) : setBand k ws blk = blk := by
  induction ws generalizing k blk with
  | nil => rfl
  | cons w ws ih =>
    have h0 := hz w (by simp)
    subst h0
    simp only [setBand]
    rw [set_zero_self _ _ (hb k (Nat.le_refl _) (by simp))]
    refine ih (k + 1) blk ?_ (fun w hw => hz w (by simp [hw])) (fun j h1 h2 => hb j (by omega) ?_)
    · simp at hk; omega
    · simp; omega

theorem natOrder_ne {i j : Nat} (hi : i < 64) (hj : j < 64) (h : i ≠ j) : natOrder.getD i 0 ≠ natOrder.getD j 0 :=
  fun e => h (natOrder_inj hi hj e)

theorem shr4 (r s : Nat) (hs : s < 16) : ((r <<< 4) + s) >>> 4 = r ∧ ((r <<< 4) + s) &&& 15 = s := by
  rw [Nat.shiftLeft_eq, Nat.shiftRight_eq_div_pow, show 15 = 2 ^ 4 - 1 by rfl, Nat.and_two_pow_sub_one_eq_mod]
  omega

/-- The coefficient loop at position `k` reads exactly `l` and ends with `res`. -/
def RA (d : DTbl) (Se Al k : Nat) (blk : List Int) (l : List Bool) (res : List Int × Nat) : Prop :=
  ∀ (r : Rd) (rest : List Bool), r.Ok → r.tail ≠ none → r.bits = l ++ rest →
    ∃ r', acFirstDec d Se Al k blk r = some (res.1, res.2, r') ∧ r.Same r' ∧ r'.bits = rest

section
variable {c : CTbl} {d : DTbl} (L : Linked c d) {Se Al : Nat}
include L

theorem RA_zrl {k : Nat} {blk : List Int} {l : List Bool} {res : List Int × Nat} (hk : k ≤ Se)
    (hc : (c 0xF0).2 ≠ 0) (h : RA d Se Al (k + 16) blk l res) : RA d Se Al k blk (symBits c 0xF0 ++ l) res := by
  intro r rest hr ht hb
  rw [List.append_assoc] at hb
  obtain ⟨r1, e1, s1, b1⟩ := L.dec _ hc r _ hr ht hb
  obtain ⟨r2, e2, s2, b2⟩ := h r1 rest s1.ok (by rw [s1.tail]; exact ht) b1
  refine ⟨r2, ?_, s1.trans s2, b2⟩
  rw [acFirstDec, if_pos hk, e1]
  exact e2

theorem RA_coef {k run nb : Nat} {v : Int} {blk : List Int} {l : List Bool} {res : List Int × Nat} (hk : k ≤ Se)
    (hv : Coef16 v) (hnz : v.natAbs >>> Al ≠ 0) (hnb : nb = nbitsOf (v.natAbs >>> Al)) (h15 : nb ≤ 15)
    (hc : (c ((run <<< 4) + nb)).2 ≠ 0)
    (h : RA d Se Al (k + run + 1) (blk.set (natOrder.getD (k + run) 0) (apxAC Al v)) l res) :
    RA d Se Al k blk (symBits c ((run <<< 4) + nb) ++ (toBits nb (prepFirst Al v).2 ++ l)) res := by
  intro r rest hr ht hb
  rw [List.append_assoc] at hb
  obtain ⟨r1, e1, s1, b1⟩ := L.dec _ hc r _ hr ht hb
  have hpos : nb ≠ 0 := by have := nbitsOf_pos hnz; omega
  have hab := ptAC_natAbs Al v
  have hpt0 : ptAC Al v ≠ 0 := by intro h0; rw [h0] at hab; exact hnz hab.symm
  rw [hnb, (prepFirst_spec hv).2 hnz (by omega), List.append_assoc] at b1
  obtain ⟨x, r2, e2, hx, s2, b2⟩ := readMag2 hpt0 (by rw [hab]; omega) s1.ok (by rw [s1.tail]; exact ht) b1
  rw [hab, ← hnb] at e2 hx
  obtain ⟨r3, e3, s3, b3⟩ := h r2 rest s2.ok (by rw [s2.tail, s1.tail]; exact ht) b2
  refine ⟨r3, ?_, (s1.trans s2).trans s3, b3⟩
  obtain ⟨q1, q2⟩ := shr4 run nb (by omega)
  rw [acFirstDec, if_pos hk, e1]
  dsimp only
  rw [q1, q2, if_pos hpos, e2]
  dsimp only
  rw [hx, ptAC_mul, toCoef_coef (apxAC_coef hv)]
  exact e3

theorem RA_eob {k : Nat} {blk : List Int} (hk : k ≤ Se) {N : Nat} (hN : EobOk c N) :
    RA d Se Al k blk (eobBits c N) (blk, N - 1) := by
  intro r rest hr ht hb
  rw [eobBits, List.append_assoc] at hb
  obtain ⟨r1, e1, s1, b1⟩ := L.dec _ hN.2.2 r _ hr ht hb
  obtain ⟨r2, e2, s2, b2⟩ := readEob_spec hN.1 hN.2.1 r1 rest s1.ok (by rw [s1.tail]; exact ht) b1
  refine ⟨r2, ?_, s1.trans s2, b2⟩
  obtain ⟨q1, q2⟩ := shr4 (nbitsOf N - 1) 0 (by omega)
  rw [Nat.add_zero] at q1 q2
  rw [acFirstDec, if_pos hk, e1]
  dsimp only
  dsimp only at e2
  have := hN.2.1
  rw [q1, q2, if_neg (by simp), if_neg (by omega), e2]
  rfl

omit L in
theorem RA_end {blk : List Int} : RA d Se Al (Se + 1) blk [] (blk, 0) := by
  intro r rest hr ht hb
  refine ⟨r, ?_, hr.same, by simpa using hb⟩
  rw [acFirstDec, if_neg (by omega)]

omit L in
theorem zrlToks_snd (tbl r : Nat) : (zrlToks tbl r).2 = r % 16 ∧ NoRst (zrlToks tbl r).1 := by
  induction r using Nat.strongRecOn with
  | ind r ih =>
    rw [zrlToks]
    split
    · obtain ⟨h1, h2⟩ := ih (r - 16) (by omega)
      dsimp only
      refine ⟨by rw [h1]; omega, ?_⟩
      intro n hn
      simp only [List.mem_cons, reduceCtorEq, false_or] at hn
      exact h2 n hn
    · refine ⟨by dsimp only; omega, by intro n; simp⟩

theorem RA_zrls {T : Nat → CTbl} {tbl : Nat} (hT : T tbl = c) {k r : Nat} {blk : List Int} {l : List Bool}
    {res : List Int × Nat} (hk : k + r ≤ Se) (hok : ∀ y ∈ (zrlToks tbl r).1, TokOk T y)
    (h : RA d Se Al (k + (r - r % 16)) blk l res) :
    RA d Se Al k blk ((tokTail T (zrlToks tbl r).1).1 ++ l) res := by
  induction r using Nat.strongRecOn generalizing k with
  | ind r ih =>
    rw [zrlToks] at hok ⊢
    by_cases hr : r > 15
    · rw [if_pos hr] at hok ⊢
      dsimp only at hok ⊢
      simp only [tokTail, tokBits]
      rw [hT, List.append_assoc]
      apply RA_zrl L (by omega)
      · have := hok (Tok.sym tbl 0xF0) (by simp)
        simp only [TokOk, hT] at this
        exact this
      · apply ih (r - 16) (by omega) (by omega) (fun y hy => hok y (by simp [hy]))
        rw [show k + 16 + (r - 16 - (r - 16) % 16) = k + (r - r % 16) by omega]
        exact h
    · rw [if_neg hr] at hok ⊢
      simp only [tokTail, List.nil_append]
      rw [Nat.mod_eq_of_lt (by omega), Nat.sub_self, Nat.add_zero] at h
      exact h

/-- The coefficient loop of both sides. -/
theorem acFirstGo_spec {T : Nat → CTbl} {tbl : Nat} (hT : T tbl = c) {maxBits : Nat} (hm : maxBits ≤ 15)
    (hSe : Se < 64) (vs : List Int) (hv : ∀ v ∈ vs, Coef16 v) {k r : Nat} {ts : List Tok} {tr : Nat}
    (hk : k + r + vs.length = Se + 1) {blk : List Int}
    (hz : ∀ j, k + r ≤ j → j ≤ Se → blk.getD (natOrder.getD j 0) 0 = 0)
    (h : acFirstGo maxBits tbl (vs.map (prepFirst Al)) r = some (ts, tr)) (hok : ∀ y ∈ ts, TokOk T y) :
    (0 < tr → ∀ N, EobOk c N → RA d Se Al k blk ((tokTail T ts).1 ++ eobBits c N)
      (setBand (k + r) (vs.map (apxAC Al)) blk, N - 1)) ∧
    (tr = 0 → RA d Se Al k blk (tokTail T ts).1 (setBand (k + r) (vs.map (apxAC Al)) blk, 0)) := by
  induction vs generalizing k r ts blk with
  | nil =>
    simp only [List.map_nil, acFirstGo, Option.some.injEq, Prod.mk.injEq] at h
    obtain ⟨rfl, rfl⟩ := h
    simp only [List.length_nil, Nat.add_zero] at hk
    simp only [List.map_nil, setBand, tokTail, List.nil_append]
    refine ⟨fun h0 N hN => RA_eob L (by omega) hN, fun h0 => ?_⟩
    subst h0
    rw [Nat.add_zero] at hk
    rw [hk]
    exact RA_end
  | cons v vs ih =>
    have hv0 := hv v (by simp)
    have hp := (prepFirst_spec (Al := Al) hv0).1
    simp only [List.length_cons] at hk
    simp only [List.map_cons] at h ⊢
    generalize hpp : prepFirst Al v = pv at h hp
    obtain ⟨a, b⟩ := pv
    simp only at hp
    simp only [acFirstGo] at h
    by_cases ha : a = 0
    · rw [if_pos ha] at h
      have hz0 := hz (k + r) (Nat.le_refl _) (by omega)
      have hap : apxAC Al v = 0 := apxAC_eq_zero.2 (by omega)
      simp only [setBand]
      rw [hap, set_zero_self _ _ hz0]
      exact ih (fun v hv' => hv v (by simp [hv'])) (by omega) (fun j h1 h2 => hz j (by omega) h2) h hok
    · rw [if_neg ha] at h
      split at h
      · simp at h
      rename_i hnb
      split at h
      · simp at h
      rename_i ts' tr' e
      simp only [Option.some.injEq, Prod.mk.injEq] at h
      obtain ⟨rfl, rfl⟩ := h
      obtain ⟨hz2, -⟩ := zrlToks_snd tbl r
      rw [hz2] at hok ⊢
      have hib := ih (fun v hv' => hv v (by simp [hv'])) (k := k + r + 1) (r := 0)
        (blk := blk.set (natOrder.getD (k + r) 0) (apxAC Al v)) (by omega)
        (fun j h1 h2 => by
          rw [getD_set_ne (natOrder_ne (by omega) (by omega) (by omega))]
          exact hz j (by omega) h2) e (fun y hy => hok y (by simp [hy]))
      have hsym := hok (Tok.sym tbl ((r % 16) <<< 4 + nbitsOf a)) (by simp)
      simp only [TokOk, hT] at hsym
      have key : ∀ (l : List Bool) (res : List Int × Nat),
          RA d Se Al (k + r + 1) (blk.set (natOrder.getD (k + r) 0) (apxAC Al v)) ((tokTail T ts').1 ++ l) res →
          RA d Se Al k blk ((tokTail T ((zrlToks tbl r).1 ++
            [Tok.sym tbl ((r % 16) <<< 4 + nbitsOf a), Tok.bits b (nbitsOf a)] ++ ts')).1 ++ l) res := by
        intro l res hR
        have hb : b = (prepFirst Al v).2 := by rw [hpp]
        rw [hb]
        have hnr : NoRst ((zrlToks tbl r).1) := (zrlToks_snd tbl r).2
        have hR2 := RA_coef L (Se := Se) (Al := Al) (l := (tokTail T ts').1 ++ l) (res := res) (blk := blk) (k := k + (r - r % 16)) (run := r % 16) (nb := nbitsOf a) (v := v) (by omega) hv0
          (hp ▸ ha) (by rw [hp]) (by omega) hsym (by
            rw [show k + (r - r % 16) + r % 16 = k + r by omega]
            exact hR)
        rw [List.append_assoc, tokTail_append _ _ _ hnr, List.append_assoc]
        apply RA_zrls L hT (by omega) (fun y hy => hok y (by simp [hy]))
        simp only [List.cons_append, List.nil_append, tokTail, tokBits, List.append_assoc]
        rw [hT]
        exact hR2
      refine ⟨fun h0 N hN => ?_, fun h0 => ?_⟩
      · exact key _ _ (hib.1 h0 N hN)
      · have := key [] _ (by rw [List.append_nil]; exact hib.2 h0)
        rw [List.append_nil] at this
        exact this

omit L in
theorem acFirstGo_noRst {maxBits tbl : Nat} (vs : List (Nat × Nat)) {r : Nat} {ts : List Tok} {tr : Nat}
    (h : acFirstGo maxBits tbl vs r = some (ts, tr)) : NoRst ts := by
  induction vs generalizing r ts tr with
  | nil => simp only [acFirstGo, Option.some.injEq, Prod.mk.injEq] at h; rw [← h.1]; intro n; simp
  | cons v vs ih =>
    obtain ⟨a, b⟩ := v
    simp only [acFirstGo] at h
    split at h
    · exact ih h
    split at h
    · simp at h
    split at h
    · simp at h
    rename_i e
    simp only [Option.some.injEq, Prod.mk.injEq] at h
    rw [← h.1]
    refine noRst_append (noRst_append (zrlToks_snd tbl r).2 ?_) (ih e)
    intro n; simp

omit L in
/-- All values zero: nothing is put out. -/
theorem acFirstGo_zeros {maxBits tbl : Nat} (vs : List (Nat × Nat)) {r : Nat}
    (h : vs.any (fun v => v.1 != 0) = false) : acFirstGo maxBits tbl vs r = some ([], r + vs.length) := by
  induction vs generalizing r with
  | nil => rfl
  | cons v vs ih =>
    obtain ⟨a, b⟩ := v
    simp only [List.any_cons, Bool.or_eq_false_iff] at h
    have ha : a = 0 := by simpa using h.1
    simp only [acFirstGo]
    rw [if_pos ha, ih h.2, List.length_cons]
    congr 2
    omega

omit L in
theorem band_length (Ss Se : Nat) (blk : List Int) : (band Ss Se blk).length = Se + 1 - Ss := by simp [band]

omit L in
theorem band_coef {blk : List Int} (h : ∀ v ∈ blk, Coef16 v) (Ss Se : Nat) : ∀ v ∈ band Ss Se blk, Coef16 v := by
  intro v hv
  simp only [band, List.mem_map] at hv
  obtain ⟨k, -, rfl⟩ := hv
  rw [List.getD_eq_getElem?_getD]
  cases e : blk[natOrder.getD (Ss + k) 0]? with
  | none => simp [Coef16]
  | some x => exact h x (List.mem_of_getElem? e)

/-- The result of one AC scan for one block: the band is known down to bit `Al`. -/
def setAC (Ss Se Al : Nat) (orig cur : List Int) : List Int := setBand Ss ((band Ss Se orig).map (apxAC Al)) cur

/-- One MCU of an AC first scan. -/
theorem acFirst_mcu {T : Nat → CTbl} {tbl : Nat} (hT : T tbl = c) {prec : Nat} (hp : prec + 2 ≤ 15) {Ss : Nat}
    (hSs : Ss ≤ Se) (hSe : Se < 64) (mcu cur : List (List Int)) (hv : ∀ v ∈ mcu.getD 0 [], Coef16 v)
    (hz : ∀ j, Ss ≤ j → j ≤ Se → (cur.getD 0 []).getD (natOrder.getD j 0) 0 = 0) (hcur : cur ≠ [])
    {s s' : ACSt} {t : List Tok} (hw : s.Wf) (h : acFirstStep prec tbl Ss Se Al s mcu = some (t, s')) :
    MCUSpec T tbl (decACFirst d Ss Se Al) cur (cur.set 0 (setAC Ss Se Al (mcu.getD 0 []) (cur.getD 0 []))) s t s' := by
  unfold acFirstStep at h
  dsimp only at h
  have hbl := band_length Ss Se (mcu.getD 0 [])
  have hbc := band_coef hv Ss Se
  have hne : (cur.getD 0 []) = cur.head hcur := by
    cases cur with
    | nil => exact absurd rfl hcur
    | cons x xs => rfl
  unfold setAC
  generalize hvs : band Ss Se (mcu.getD 0 []) = vs at *
  have hspec := fun ts tr e (hok : ∀ y ∈ ts, TokOk T y) => acFirstGo_spec L (Al := Al) hT (maxBits := prec + 2) hp hSe vs hbc
    (k := Ss) (r := 0) (ts := ts) (tr := tr) (by omega) (blk := cur.getD 0 []) (by simpa using hz) e hok
  simp only [Nat.add_zero] at hspec
  generalize hres : setBand Ss (vs.map (apxAC Al)) (cur.getD 0 []) = out at *
  -- from the coefficient loop to the MCU
  have hlift : ∀ l (e : Nat), RA d Se Al Ss (cur.getD 0 []) l (out, e) →
      Step (decACFirst d Ss Se Al) 0 cur (cur.set 0 out) e l := by
    intro l e hR r rest hr ht hb
    obtain ⟨r', e1, s1, b1⟩ := hR r rest hr ht hb
    refine ⟨r', ?_, s1, b1⟩
    simp only [decACFirst]
    rw [if_neg (by omega), e1]
    rfl
  by_cases hany : (vs.map (prepFirst Al)).any (fun v => v.1 != 0) = true
  · -- the block has a body
    have h0 : ∃ t0 s1, emitEob tbl s = some (t0, s1) ∧
        (if ((vs.map (prepFirst Al)).any (fun v => v.1 != 0) && decide (s.eobrun > 0)) = true then emitEob tbl s
          else some ([], s)) = some (t0, s1) := by
      by_cases hpd : s.eobrun > 0
      · rw [if_pos (by simp [hany, hpd])] at h ⊢
        cases e : emitEob tbl s with
        | none => rw [e] at h; simp at h
        | some x => exact ⟨x.1, x.2, rfl, rfl⟩
      · rw [if_neg (by simp [hpd])]
        exact ⟨[], s, emitEob_zero (by omega), rfl⟩
    obtain ⟨t0, s1, h0, h0'⟩ := h0
    rw [h0'] at h
    have hs1 := emitEob_wf hw h0
    subst hs1
    dsimp only at h
    split at h
    · simp at h
    rename_i t1 tr e1
    have hn1 := acFirstGo_noRst _ e1
    by_cases htr : tr > 0
    · rw [if_pos htr] at h
      split at h
      · simp at h
      rename_i t2 s2 e2
      simp only [Option.some.injEq, Prod.mk.injEq] at h
      obtain ⟨rfl, rfl⟩ := h
      refine .bodyRun t0 t1 t2 _ [] rfl h0 hn1 ?_ ?_
      · rw [if_neg (by simp)] at e2
        simp only [Option.some.injEq, Prod.mk.injEq] at e2
        exact .inl ⟨e2.1.symm, e2.2.symm⟩
      · intro hok N hN
        apply hlift
        have := (hspec t1 tr e1 hok).1 htr N (hT ▸ hN)
        simpa [corr, hT] using this
    · rw [if_neg htr] at h
      simp only [Option.some.injEq, Prod.mk.injEq] at h
      obtain ⟨rfl, rfl⟩ := h
      exact .bodyEnd t0 t1 _ rfl h0 hn1 rfl (fun hok => hlift _ _ ((hspec t1 tr e1 hok).2 (by omega)))
  · -- only zeros
    have hany : (vs.map (prepFirst Al)).any (fun v => v.1 != 0) = false := by simpa using hany
    rw [if_neg (by simp [hany])] at h
    have e1 := acFirstGo_zeros (maxBits := prec + 2) (tbl := tbl) _ (r := 0) hany
    rw [e1] at h
    dsimp only at h
    rw [if_pos (by simp; omega)] at h
    have hout : out = cur.getD 0 [] := by
      rw [← hres]
      apply setBand_zeros
      · simp; omega
      · intro w hw
        obtain ⟨v, hv', rfl⟩ := List.mem_map.1 hw
        rw [apxAC_eq_zero, ← (prepFirst_spec (hbc v hv')).1]
        have := List.any_eq_false.1 hany (prepFirst Al v) (List.mem_map_of_mem hv')
        simpa using this
      · intro j h1 h2
        simp at h2
        exact hz j h1 (by omega)
    have hset : cur.set 0 out = cur := by
      rw [hout, hne]
      cases cur with
      | nil => exact absurd rfl hcur
      | cons x xs => rfl
    refine .absorb [] ?_ ?_ ?_
    · rw [List.append_nil]
      by_cases hf : s.eobrun + 1 = 0x7FFF
      · right
        simp only [hf, if_true] at h
        split at h
        · simp at h
        rename_i t2 s2 e2
        simp only [List.nil_append, Option.some.injEq, Prod.mk.injEq] at h
        obtain ⟨rfl, rfl⟩ := h
        rw [hf]
        exact e2
      · left
        simp only [hf, if_false, List.nil_append, Option.some.injEq, Prod.mk.injEq] at h
        exact ⟨h.1.symm, h.2.symm⟩
    · intro e he r rest hr ht hb
      refine ⟨r, ?_, hr.same, by simpa [corr] using hb⟩
      simp only [decACFirst]
      rw [if_pos he, hset]
    · intro N hN
      apply hlift
      have := (hspec [] _ e1 (by simp)).1 (by simp; omega) N (hT ▸ hN)
      simpa [corr, tokTail, hT] using this

omit L in
theorem encACFirst_noRst (prec tbl Ss Se Al : Nat) : (encACFirst prec tbl Ss Se Al).NoRst := by
  constructor
  · intro s t h
    simp only [encACFirst, Option.map_eq_some_iff] at h
    obtain ⟨⟨t', s'⟩, he, rfl⟩ := h
    exact emitEob_noRst he
  · intro s i t s' h
    simp only [encACFirst, acFirstStep] at h
    split at h
    · simp at h
    rename_i t0 s1 e0
    have h0 : NoRst t0 := by
      split at e0
      · exact emitEob_noRst e0
      · simp only [Option.some.injEq, Prod.mk.injEq] at e0; rw [← e0.1]; intro n; simp
    split at h
    · simp at h
    rename_i t1 tr e1
    have h1 := acFirstGo_noRst _ e1
    split at h
    · split at h
      · simp at h
      rename_i t2 s2 e2
      simp only [Option.some.injEq, Prod.mk.injEq] at h
      rw [← h.1]
      refine noRst_append (noRst_append h0 h1) ?_
      split at e2
      · exact emitEob_noRst e2
      · simp only [Option.some.injEq, Prod.mk.injEq] at e2; rw [← e2.1]; intro n; simp
    · simp only [Option.some.injEq, Prod.mk.injEq] at h
      rw [← h.1]
      exact noRst_append h0 h1

end
end Verif.Prog
