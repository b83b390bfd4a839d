import Verif.Lossless.Diff
import Verif.Prog.Shape
/-
Huffman coding of differences in lossless mode.  Code modelled: jclhuff.c:230-450 (emit_bits, flush_bits,
emit_restart, encode_mcus_huff, finish_pass_huff), 470-545 (encode_mcus_gather), jdlhuff.c:175-285 (process_restart,
decode_mcus).  emit_bits / flush_bits / emit_restart are textually those of jcphuff.c (model: Verif/Prog/Writer.lean).

An MCU holds one sample of every component of the scan: jcmaster.c:1074-1078 sets all sampling factors to 1 in lossless
mode.  A row is a list of MCUs; `tbls` are the DC table numbers of the components of the scan.
-/
namespace Verif.Lossless
open Verif Verif.Huff Verif.Prog

/-- Magnitude and value to send, `temp` and `temp2` (jclhuff.c:377-386).  `&` on a negative int is taken on the
two's complement bits. -/
def split16 (d : Int) : Nat × Int :=
  if 32768 ≤ d % 65536 then
    let t := (-d) % 32768
    let t := if t = 0 then 32768 else t
    (t.toNat, -t - 1)
  else ((d % 32768).toNat, d % 32768)

/-- The calls for one difference (jclhuff.c:388-412). `none` = error exit. -/
def sampToks (tbl : Nat) (d : Int) : Option (List Tok) :=
  let nbits := nbitsOf (split16 d).1
  if nbits > 16 then none
  else some (Tok.sym tbl nbits ::
    (if nbits ≠ 0 ∧ nbits ≠ 16 then [Tok.bits (asCode (split16 d).2) nbits] else []))

/-- The samples of one MCU (jclhuff.c:366-413). -/
def mcuToks : List Nat → List Int → Option (List Tok)
  | t :: ts, d :: ds =>
    match sampToks t d with
    | none => none
    | some a =>
      match mcuToks ts ds with
      | none => none
      | some b => some (a ++ b)
  | _, _ => some []

/-- The MCU loop of encode_mcus_huff with the restart counters (jclhuff.c:363-431); `togo` counts MCUs. -/
def mcuLoop (ri : Nat) (tbls : List Nat) : List (List Int) → (togo rst : Nat) → Option (List Tok × Nat × Nat)
  | [], togo, rst => some ([], togo, rst)
  | m :: ms, togo, rst =>
    match mcuToks tbls m with
    | none => none
    | some a =>
      let (togo, rst) :=
        if ri ≠ 0 then (if togo = 0 then (ri - 1, (rst + 1) &&& 7) else (togo - 1, rst)) else (togo, rst)
      match mcuLoop ri tbls ms togo rst with
      | none => none
      | some (b, x) => some (a ++ b, x)

/-- All rows: encode_mcus_huff is called once per row and looks for a due restart only at its start
(jclhuff.c:345-349). -/
def rowsToks (ri : Nat) (tbls : List Nat) : List (List (List Int)) → (togo rst : Nat) → Option (List Tok)
  | [], _, _ => some []
  | row :: rows, togo, rst =>
    let pre := if ri ≠ 0 ∧ togo = 0 then [Tok.rst rst] else []
    match mcuLoop ri tbls row togo rst with
    | none => none
    | some (a, togo, rst) =>
      match rowsToks ri tbls rows togo rst with
      | none => none
      | some b => some (pre ++ a ++ b)

/-- One difference in the decoder (jdlhuff.c:262-276). -/
def decSamp (d : DTbl) (r : Rd) : Option (Int × Rd) :=
  match huffDecode d r with
  | none => none
  | some (s, r) =>
    if s ≠ 0 then
      if s = 16 then some (32768, r)
      else (readBits r s).map (fun xr => (huffExtend xr.1 s, xr.2))
    else some (0, r)

/-- One MCU. -/
def decMcu : List DTbl → Rd → Option (List Int × Rd)
  | [], r => some ([], r)
  | t :: ts, r =>
    match decSamp t r with
    | none => none
    | some (d, r) =>
      match decMcu ts r with
      | none => none
      | some (ds, r) => some (d :: ds, r)

/-- `n` MCUs (jdlhuff.c:255-283). -/
def decMcus (ts : List DTbl) : Nat → Rd → Option (List (List Int) × Rd)
  | 0, r => some ([], r)
  | n + 1, r =>
    match decMcu ts r with
    | none => none
    | some (m, r) =>
      match decMcus ts n r with
      | none => none
      | some (ms, r) => some (m :: ms, r)

/-- decode_mcus for one row of `w` MCUs (jdlhuff.c:219-287).  The flag tells that the row was zeroed for lack of data,
in which case the routine also resets the undifferencer. -/
def decRow (ts : List DTbl) (w : Nat) : PDec Unit Unit (List (List Int) × Bool) :=
  { init := ()
    step := fun _ _ r => (decMcus ts w r).map (fun x => ((x.1, false), (), x.2))
    skip := some (fun _ => (List.replicate w (List.replicate ts.length 0), true)) }

/-! ### the encoder's MCU counter is a row counter -/

/-- The encoder as an instance of the scan frame of Verif/Prog/Frame.lean: one item per row. -/
def encRowE (tbls : List Nat) : PEnc Unit (List (List Int)) :=
  { init := ()
    step := fun _ row => (mcuLoop 0 tbls row 0 0).map (fun x => (x.1, ()))
    fin := fun _ => some [] }

theorem mcuLoop_zero (ri : Nat) (tbls : List Nat) (row : List (List Int)) : ∀ (togo rst a b : Nat),
    (mcuLoop ri tbls row togo rst).map Prod.fst = (mcuLoop 0 tbls row a b).map Prod.fst := by
  induction row with
  | nil => intros; rfl
  | cons m ms ih =>
    intro togo rst a b
    simp only [mcuLoop]
    cases mcuToks tbls m with
    | none => rfl
    | some t =>
      dsimp only
      generalize (if ri ≠ 0 then if togo = 0 then (ri - 1, (rst + 1) &&& 7) else (togo - 1, rst) else (togo, rst)) = p
      generalize (if (0:Nat) ≠ 0 then if a = 0 then (0 - 1, (b + 1) &&& 7) else (a - 1, b) else (a, b)) = q
      have := ih p.1 p.2 q.1 q.2
      cases h1 : mcuLoop ri tbls ms p.1 p.2 <;> cases h2 : mcuLoop 0 tbls ms q.1 q.2 <;> rw [h1, h2] at this <;>
        simp at this ⊢
      exact this

theorem mcuLoop_count {ri : Nat} (hri : ri ≠ 0) (tbls : List Nat) (row : List (List Int)) :
    ∀ (togo rst : Nat) (x : List Tok × Nat × Nat), row.length ≤ togo →
    mcuLoop ri tbls row togo rst = some x → x.2 = (togo - row.length, rst) := by
  induction row with
  | nil => intro togo rst x _ h; simp only [mcuLoop, Option.some.injEq] at h; rw [← h]; simp
  | cons m ms ih =>
    intro togo rst x hl h
    simp only [mcuLoop] at h
    split at h
    · simp at h
    simp only [List.length_cons] at hl
    simp only [hri, ne_eq, not_false_eq_true, if_true, show togo ≠ 0 by omega, if_false] at h
    split at h
    · simp at h
    rename_i b y e
    simp only [Option.some.injEq] at h
    have := ih _ _ _ (by omega) e
    rw [← h]
    simp only at this ⊢
    rw [this, List.length_cons]
    simp; omega

theorem mcuLoop_count0 {ri : Nat} (hri : ri ≠ 0) (tbls : List Nat) (row : List (List Int)) (h0 : row ≠ [])
    (hl : row.length ≤ ri) (rst : Nat) (x : List Tok × Nat × Nat)
    (h : mcuLoop ri tbls row 0 rst = some x) : x.2 = (ri - row.length, (rst + 1) &&& 7) := by
  cases row with
  | nil => exact absurd rfl h0
  | cons m ms =>
    simp only [mcuLoop] at h
    split at h
    · simp at h
    simp only [hri, ne_eq, not_false_eq_true, if_true] at h
    split at h
    · simp at h
    rename_i b y e
    simp only [Option.some.injEq] at h
    simp only [List.length_cons] at hl
    have := mcuLoop_count hri tbls ms _ _ _ (by omega) e
    rw [← h]
    simp only at this ⊢
    rw [this, List.length_cons]
    simp; omega

/-- With a restart interval of `k` rows, the MCU counter of the encoder works as a row counter. -/
theorem rowsToks_eq (w k : Nat) (hw : 0 < w) (tbls : List Nat) (rows : List (List (List Int))) :
    ∀ (j rst : Nat), (∀ row ∈ rows, row.length = w) →
    rowsToks (k * w) tbls rows (j * w) rst = encGo (encRowE tbls) k rows () j rst := by
  induction rows with
  | nil => intros; rfl
  | cons row rows ih =>
    intro j rst hl
    have hrow := hl row (by simp)
    have hl' : ∀ r ∈ rows, r.length = w := fun r hr => hl r (by simp [hr])
    have hz := fun ri togo rst => mcuLoop_zero ri tbls row togo rst 0 0
    simp only [rowsToks, encGo]
    by_cases hk : k = 0
    · subst hk
      simp only [Nat.zero_mul, ne_eq, not_true_eq_false, false_and, if_false, List.nil_append]
      have hcount : ∀ (row : List (List Int)) (togo rst : Nat) x, mcuLoop 0 tbls row togo rst = some x → x.2 = (togo, rst) := by
        intro row
        induction row with
        | nil => intro togo rst x h; simp only [mcuLoop, Option.some.injEq] at h; rw [← h]
        | cons m ms ih2 =>
          intro togo rst x h
          simp only [mcuLoop] at h
          split at h
          · simp at h
          simp only [ne_eq, not_true_eq_false, if_false] at h
          split at h
          · simp at h
          rename_i b y e
          simp only [Option.some.injEq] at h
          rw [← h]
          have := ih2 _ _ _ e
          exact this
      have := hz 0 (j * w) rst
      simp only [encRowE]
      cases h1 : mcuLoop 0 tbls row (j * w) rst with
      | none =>
        rw [h1] at this
        cases h2 : mcuLoop 0 tbls row 0 0 with
        | none => rfl
        | some y => rw [h2] at this; simp at this
      | some x =>
        rw [h1] at this
        cases h2 : mcuLoop 0 tbls row 0 0 with
        | none => rw [h2] at this; simp at this
        | some y =>
          rw [h2] at this
          simp only [Option.map_some, Option.some.injEq] at this ⊢
          have hc := hcount _ _ _ _ h1
          obtain ⟨xa, xb, xc⟩ := x
          simp only [Prod.mk.injEq] at hc this ⊢
          rw [hc.1, hc.2, this]
          have := ih j rst hl'
          simp only [Nat.zero_mul] at this
          rw [this]
          rfl
    · have hri : k * w ≠ 0 := Nat.mul_ne_zero hk (by omega)
      have hkw : w ≤ k * w := Nat.le_mul_of_pos_left _ (by omega)
      by_cases hj : j = 0
      · subst hj
        simp only [Nat.zero_mul, hri, hk, ne_eq, not_false_eq_true, and_self, if_true]
        have := hz (k * w) 0 rst
        simp only [encRowE]
        cases h1 : mcuLoop (k * w) tbls row 0 rst with
        | none =>
          rw [h1] at this
          cases h2 : mcuLoop 0 tbls row 0 0 with
          | none => rfl
          | some y => rw [h2] at this; simp at this
        | some x =>
          rw [h1] at this
          cases h2 : mcuLoop 0 tbls row 0 0 with
          | none => rw [h2] at this; simp at this
          | some y =>
            rw [h2] at this
            simp only [Option.map_some, Option.some.injEq] at this ⊢
            have hc := mcuLoop_count0 hri tbls row (by intro h; rw [h] at hrow; simp at hrow; omega) (by omega) _ _ h1
            obtain ⟨xa, xb, xc⟩ := x
            simp only [Prod.mk.injEq] at hc this ⊢
            rw [hc.1, hc.2, this, hrow]
            have := ih (k - 1) ((rst + 1) &&& 7) hl'
            rw [Nat.sub_mul, Nat.one_mul] at this
            rw [this]
            rfl
      · have hjw : w ≤ j * w := Nat.le_mul_of_pos_left _ (by omega)
        have hjw0 : j * w ≠ 0 := by omega
        simp only [hjw0, hj, hk, ne_eq, not_false_eq_true, and_false, if_false, if_true, List.nil_append]
        have := hz (k * w) (j * w) rst
        simp only [encRowE]
        cases h1 : mcuLoop (k * w) tbls row (j * w) rst with
        | none =>
          rw [h1] at this
          cases h2 : mcuLoop 0 tbls row 0 0 with
          | none => rfl
          | some y => rw [h2] at this; simp at this
        | some x =>
          rw [h1] at this
          cases h2 : mcuLoop 0 tbls row 0 0 with
          | none => rw [h2] at this; simp at this
          | some y =>
            rw [h2] at this
            simp only [Option.map_some, Option.some.injEq] at this ⊢
            have hc := mcuLoop_count hri tbls row _ _ _ (by omega) h1
            obtain ⟨xa, xb, xc⟩ := x
            simp only [Prod.mk.injEq] at hc this ⊢
            rw [hc.1, hc.2, this, hrow]
            have := ih (j - 1) rst hl'
            rw [Nat.sub_mul, Nat.one_mul] at this
            rw [this]
            rfl

/-! ### one difference -/

/-- What the decoder gets for a difference. -/
def decVal (d : Int) : Int :=
  if d % 65536 < 32768 then d % 65536 else if d % 65536 = 32768 then 32768 else d % 65536 - 65536

theorem decVal_cong (d : Int) : Cong d (decVal d) := by
  unfold Cong decVal
  split
  · omega
  · split <;> omega

theorem split16_spec (d : Int) :
    (d % 65536 = 32768 ∧ (split16 d).1 = 32768 ∧ nbitsOf (split16 d).1 = 16) ∨
    (d % 65536 ≠ 32768 ∧ (split16 d).1 = (decVal d).natAbs ∧ (decVal d).natAbs < 32768 ∧
      (split16 d).2 = onesc (decVal d)) := by
  unfold split16 decVal
  by_cases h : d % 65536 = 32768
  · left
    have e : (if 32768 ≤ d % 65536 then
      (((if (-d) % 32768 = 0 then (32768:Int) else (-d) % 32768).toNat, -(if (-d) % 32768 = 0 then (32768:Int) else (-d) % 32768) - 1) : Nat × Int)
      else ((d % 32768).toNat, d % 32768)).1 = 32768 := by
      rw [if_pos (by omega), if_pos (by omega)]; rfl
    refine ⟨h, e, ?_⟩
    dsimp only at e ⊢
    rw [e]
    decide +kernel
  · right
    refine ⟨h, ?_⟩
    by_cases h2 : d % 65536 < 32768
    · rw [if_neg (by omega), if_pos h2]
      have hm : d % 32768 = d % 65536 := by omega
      refine ⟨by dsimp only; omega, by omega, ?_⟩
      rw [onesc_eq _ (by omega) (by omega), if_neg (by omega)]
      exact hm
    · rw [if_pos (by omega), if_neg h2, if_neg h]
      have hne : (-d) % 32768 ≠ 0 := by omega
      have hm : (-d) % 32768 = 65536 - d % 65536 := by omega
      dsimp only
      rw [if_neg hne, hm]
      refine ⟨by omega, by omega, ?_⟩
      rw [onesc_eq _ (by omega) (by omega), if_pos (by omega)]
      omega

theorem sampToks_spec {T : Nat → CTbl} {tbl : Nat} {dt : DTbl} (L : Linked (T tbl) dt) {d : Int} {t : List Tok}
    (h : sampToks tbl d = some t) (hok : ∀ y ∈ t, TokOk T y)
    (r : Rd) (rest : List Bool) (hr : r.Ok) (ht : r.tail ≠ none) (hb : r.bits = (tokTail T t).1 ++ rest) :
    ∃ r', decSamp dt r = some (decVal d, r') ∧ r.Same r' ∧ r'.bits = rest := by
  unfold sampToks at h
  dsimp only at h
  split at h
  · simp at h
  rename_i hnb
  simp only [Option.some.injEq] at h
  subst h
  have hsym : (T tbl (nbitsOf (split16 d).1)).2 ≠ 0 := hok (Tok.sym tbl _) (by simp)
  rcases split16_spec d with ⟨hd, -, h16⟩ | ⟨hd, h1, hlt, h2⟩
  · rw [h16] at hsym hb
    simp only [tokTail, tokBits, ne_eq, not_true_eq_false, and_false, if_false, List.append_nil] at hb
    obtain ⟨r1, e1, s1, b1⟩ := L.dec _ hsym r _ hr ht hb
    refine ⟨r1, ?_, s1, b1⟩
    unfold decSamp
    rw [e1]
    dsimp only
    rw [if_pos (by omega), if_pos rfl]
    unfold decVal
    rw [if_neg (by omega), if_pos hd]
  · generalize decVal d = v at *
    rw [h1] at hsym hb hnb
    rw [h2] at hb
    have h15 : nbitsOf v.natAbs ≤ 15 := nbitsOf_le hlt
    have hbits : (tokTail T (Tok.sym tbl (nbitsOf v.natAbs) ::
        (if nbitsOf v.natAbs ≠ 0 ∧ nbitsOf v.natAbs ≠ 16 then [Tok.bits (asCode (onesc v)) (nbitsOf v.natAbs)] else []))).1 =
        symBits (T tbl) (nbitsOf v.natAbs) ++ magBits v := by
      simp only [tokTail, tokBits]
      by_cases h0 : nbitsOf v.natAbs = 0
      · rw [if_neg (by omega)]
        simp [magBits, h0, tokTail]
      · rw [if_pos ⟨h0, by omega⟩]
        simp only [tokTail, tokBits]
        rw [magBits_asCode (by omega), List.append_nil]
    rw [hbits, List.append_assoc] at hb
    obtain ⟨r1, e1, s1, b1⟩ := L.dec _ hsym r _ hr ht hb
    unfold decSamp
    rw [e1]
    dsimp only
    by_cases h0 : v = 0
    · subst h0
      refine ⟨r1, by simp [nbitsOf], s1, ?_⟩
      simpa [magBits, nbitsOf] using b1
    · have := nbitsOf_pos (n := v.natAbs) (by omega)
      rw [if_pos (by omega), if_neg (by omega)]
      obtain ⟨x, r2, e2, hx, s2, b2⟩ := readMag h0 (by omega) s1.ok (by rw [s1.tail]; exact ht) b1
      exact ⟨r2, by rw [e2, Option.map_some, hx], s1.trans s2, b2⟩

theorem sampToks_noRst {tbl : Nat} {d : Int} {t : List Tok} (h : sampToks tbl d = some t) : NoRst t := by
  unfold sampToks at h
  dsimp only at h
  split at h
  · simp at h
  simp only [Option.some.injEq] at h
  subst h
  intro n hn
  split at hn <;> simp at hn

theorem sampToks_total (tbl : Nat) (d : Int) : ∃ t, sampToks tbl d = some t ∧
    ∀ y ∈ t, TokShape [tbl] (· ≤ 16) y := by
  have hle : nbitsOf (split16 d).1 ≤ 16 := by
    rcases split16_spec d with ⟨-, -, h⟩ | ⟨-, h, hlt, -⟩
    · omega
    · rw [h]; exact Nat.le_trans (nbitsOf_le (k := 15) hlt) (by omega)
  refine ⟨_, by unfold sampToks; dsimp only; rw [if_neg (by omega)], ?_⟩
  intro y hy
  simp only [List.mem_cons] at hy
  rcases hy with rfl | hy
  · exact ⟨by simp, hle⟩
  · split at hy
    · rename_i h
      simp only [List.mem_singleton] at hy
      subst hy
      exact ⟨by omega, hle⟩
    · simp at hy

/-! ### one MCU, one row -/

theorem mcuToks_noRst (tbls : List Nat) : ∀ (m : List Int) (t : List Tok), mcuToks tbls m = some t → NoRst t := by
  induction tbls with
  | nil => intro m t h; simp only [mcuToks, Option.some.injEq] at h; subst h; intro n; simp
  | cons tb tbls ih =>
    intro m t h
    cases m with
    | nil => simp only [mcuToks, Option.some.injEq] at h; subst h; intro n; simp
    | cons d m =>
      simp only [mcuToks] at h
      split at h
      · simp at h
      rename_i a e1
      split at h
      · simp at h
      rename_i b e2
      simp only [Option.some.injEq] at h
      subst h
      intro n hn
      rcases List.mem_append.1 hn with hn | hn
      · exact sampToks_noRst e1 n hn
      · exact ih m b e2 n hn

theorem mcuToks_total (tbls : List Nat) : ∀ (m : List Int), ∃ t, mcuToks tbls m = some t ∧
    ∀ y ∈ t, TokShape tbls (· ≤ 16) y := by
  induction tbls with
  | nil => intro m; exact ⟨[], by simp [mcuToks], by simp⟩
  | cons tb tbls ih =>
    intro m
    cases m with
    | nil => exact ⟨[], by simp [mcuToks], by simp⟩
    | cons d m =>
      obtain ⟨a, e1, h1⟩ := sampToks_total tb d
      obtain ⟨b, e2, h2⟩ := ih m
      refine ⟨a ++ b, by simp only [mcuToks, e1, e2], ?_⟩
      intro y hy
      rcases List.mem_append.1 hy with hy | hy
      · have := h1 y hy
        cases y with
        | sym t s => exact ⟨by have := this.1; simp at this; simp [this], this.2⟩
        | bits c n => exact this
        | rst n => exact this
      · have := h2 y hy
        cases y with
        | sym t s => exact ⟨by simp [this.1], this.2⟩
        | bits c n => exact this
        | rst n => exact this

theorem mcuToks_spec {T : Nat → CTbl} {tbls : List Nat} {ds : List DTbl}
    (hL : List.Forall₂ (fun b d => Linked (T b) d) tbls ds) : ∀ (m : List Int) (t : List Tok),
    m.length = tbls.length → mcuToks tbls m = some t → (∀ y ∈ t, TokOk T y) →
    ∀ (r : Rd) (rest : List Bool), r.Ok → r.tail ≠ none → r.bits = (tokTail T t).1 ++ rest →
    ∃ r', decMcu ds r = some (m.map decVal, r') ∧ r.Same r' ∧ r'.bits = rest := by
  induction hL with
  | nil =>
    intro m t hl h _ r rest hr ht hb
    cases m <;> simp at hl
    simp only [mcuToks, Option.some.injEq] at h
    subst h
    exact ⟨r, rfl, hr.same, by simpa [tokTail] using hb⟩
  | @cons b d tbls ds L _ ih =>
    intro m t hl h hok r rest hr ht hb
    cases m with
    | nil => simp at hl
    | cons x m =>
      simp only [mcuToks] at h
      split at h
      · simp at h
      rename_i t1 e1
      split at h
      · simp at h
      rename_i t2 e2
      simp only [Option.some.injEq] at h
      subst h
      rw [tokTail_append _ _ _ (sampToks_noRst e1)] at hb
      dsimp only at hb
      rw [List.append_assoc] at hb
      obtain ⟨r1, q1, s1, b1⟩ := sampToks_spec L e1 (fun y hy => hok y (by simp [hy])) r _ hr ht hb
      obtain ⟨r2, q2, s2, b2⟩ := ih m t2 (by simpa using hl) e2 (fun y hy => hok y (by simp [hy])) r1 rest s1.ok
        (by rw [s1.tail]; exact ht) b1
      refine ⟨r2, ?_, s1.trans s2, b2⟩
      simp only [decMcu, q1, q2, List.map_cons]

theorem mcuLoop_noRst (tbls : List Nat) (row : List (List Int)) : ∀ x, mcuLoop 0 tbls row 0 0 = some x → NoRst x.1 := by
  induction row with
  | nil => intro x h; simp only [mcuLoop, Option.some.injEq] at h; subst h; intro n; simp
  | cons m ms ih =>
    intro x h
    simp only [mcuLoop] at h
    split at h
    · simp at h
    rename_i a e1
    simp only [ne_eq, not_true_eq_false, if_false] at h
    split at h
    · simp at h
    rename_i b y e2
    simp only [Option.some.injEq] at h
    subst h
    intro n hn
    rcases List.mem_append.1 hn with hn | hn
    · exact mcuToks_noRst _ _ _ e1 n hn
    · exact ih _ e2 n hn

theorem mcuLoop_total (tbls : List Nat) (row : List (List Int)) : ∃ x, mcuLoop 0 tbls row 0 0 = some x ∧
    ∀ y ∈ x.1, TokShape tbls (· ≤ 16) y := by
  induction row with
  | nil => exact ⟨([], 0, 0), by simp [mcuLoop], by simp⟩
  | cons m ms ih =>
    obtain ⟨a, e1, h1⟩ := mcuToks_total tbls m
    obtain ⟨⟨b, y⟩, e2, h2⟩ := ih
    refine ⟨(a ++ b, y), by simp only [mcuLoop, e1, ne_eq, not_true_eq_false, if_false, e2], ?_⟩
    intro z hz
    rcases List.mem_append.1 hz with hz | hz
    · exact h1 z hz
    · exact h2 z hz

theorem mcuLoop_spec {T : Nat → CTbl} {tbls : List Nat} {ds : List DTbl}
    (hL : List.Forall₂ (fun b d => Linked (T b) d) tbls ds) (row : List (List Int)) :
    ∀ x, (∀ m ∈ row, m.length = tbls.length) → mcuLoop 0 tbls row 0 0 = some x → (∀ y ∈ x.1, TokOk T y) →
    ∀ (r : Rd) (rest : List Bool), r.Ok → r.tail ≠ none → r.bits = (tokTail T x.1).1 ++ rest →
    ∃ r', decMcus ds row.length r = some (row.map (fun m => m.map decVal), r') ∧ r.Same r' ∧ r'.bits = rest := by
  induction row with
  | nil =>
    intro x _ h _ r rest hr ht hb
    simp only [mcuLoop, Option.some.injEq] at h
    subst h
    exact ⟨r, rfl, hr.same, by simpa [tokTail] using hb⟩
  | cons m ms ih =>
    intro x hl h hok r rest hr ht hb
    simp only [mcuLoop] at h
    split at h
    · simp at h
    rename_i a e1
    simp only [ne_eq, not_true_eq_false, if_false] at h
    split at h
    · simp at h
    rename_i b y e2
    simp only [Option.some.injEq] at h
    subst h
    dsimp only at hb hok
    rw [tokTail_append _ _ _ (mcuToks_noRst _ _ _ e1)] at hb
    dsimp only at hb
    rw [List.append_assoc] at hb
    obtain ⟨r1, q1, s1, b1⟩ := mcuToks_spec hL m a (hl m (by simp)) e1 (fun y hy => hok y (by simp [hy])) r _ hr ht hb
    obtain ⟨r2, q2, s2, b2⟩ := ih _ (fun m hm => hl m (by simp [hm])) e2 (fun y hy => hok y (by simp [hy])) r1 rest
      s1.ok (by rw [s1.tail]; exact ht) b1
    refine ⟨r2, ?_, s1.trans s2, b2⟩
    simp only [List.length_cons, decMcus, q1, q2, List.map_cons]

theorem encRowE_noRst (tbls : List Nat) : (encRowE tbls).NoRst := by
  constructor
  · intro s t h
    simp only [encRowE, Option.some.injEq] at h
    subst h; intro n; simp
  · intro s i t s' h
    simp only [encRowE, Option.map_eq_some_iff] at h
    obtain ⟨x, e, h⟩ := h
    simp only [Prod.mk.injEq] at h
    rw [← h.1]
    exact mcuLoop_noRst _ _ _ e

end Verif.Lossless
