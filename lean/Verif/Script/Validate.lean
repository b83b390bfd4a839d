/-
Scan scripts: the validator of jcmaster.c (validate_script) and a specification of legal scripts.

Code modelled: /repo/jcmaster.c:270-440 (validate_script), /repo/jpeglib.h (jpeg_scan_info).
-/
import Verif.Common.Bits
import Mathlib.Tactic.Tauto
import Mathlib.Tactic.ByContra

namespace Verif.Script

/-! ## The scan script -/

/-- `jpeg_scan_info` (/repo/jpeglib.h, struct jpeg_scan_info).  `comps` is
`component_index[0 .. comps_in_scan-1]`; simplification: the `comps_in_scan` field is the length of
the list (a negative count, which the code rejects like 0, is not represented). -/
structure Scan where
  comps : List Int
  Ss : Int
  Se : Int
  Ah : Int
  Al : Int
deriving DecidableEq, Repr

/-- The errors of validate_script (jerror.h codes with their first argument). -/
inductive Err where
  | badScanScript (scanno : Nat)
  | componentCount (n : Nat)
  | badProgScript (scanno : Nat)
  | missingData
deriving DecidableEq, Repr

/-- The process the validator decides on (`progressive_mode`, `master->lossless`). -/
inductive Mode where
  | sequential | progressive | lossless
deriving DecidableEq, Repr

/-- Component index checks (/repo/jcmaster.c:337-344): index in range and increasing. `prev` is the
previous index (none for ci = 0). -/
def checkComps (n scanno : Nat) : Option Int → List Int → Except Err Unit
  | _, [] => .ok ()
  | prev, c :: cs =>
    if c < 0 ∨ c ≥ n then .error (.badScanScript scanno)
    else match prev with
      | none => checkComps n scanno (some c) cs
      | some p => if c ≤ p then .error (.badScanScript scanno) else checkComps n scanno (some c) cs

/-- `last_bitpos[ci][coefi]` (-1 = not seen); the arrays are functions. -/
abbrev BitPos := Nat → Nat → Int

/-- Assignment to one array element. -/
def BitPos.set (l : BitPos) (c k : Nat) (v : Int) : BitPos :=
  fun c' k' => if c' = c ∧ k' = k then v else l c' k'

/-- The loop `for (coefi = Ss; coefi <= Se; coefi++)` (/repo/jcmaster.c:375-386), over the list of
coefficient positions. -/
def coefLoop (scanno : Nat) (Ah Al : Int) (c : Nat) : List Nat → BitPos → Except Err BitPos
  | [], l => .ok l
  | k :: ks, l =>
    if l c k < 0 then
      if Ah ≠ 0 then .error (.badProgScript scanno)
      else coefLoop scanno Ah Al c ks (l.set c k Al)
    else
      if Ah ≠ l c k ∨ Al ≠ Ah - 1 then .error (.badProgScript scanno)
      else coefLoop scanno Ah Al c ks (l.set c k Al)

/-- The positions `Ss, …, Se`. -/
def span (Ss Se : Int) : List Nat := List.range' Ss.toNat (Se + 1 - Ss).toNat

/-- The loop over the components of a progressive scan (/repo/jcmaster.c:371-387). -/
def compLoop (scanno : Nat) (s : Scan) : List Int → BitPos → Except Err BitPos
  | [], l => .ok l
  | c :: cs, l =>
    if s.Ss ≠ 0 ∧ l c.toNat 0 < 0 then .error (.badProgScript scanno)
    else match coefLoop scanno s.Ah s.Al c.toNat (span s.Ss s.Se) l with
      | .error e => .error e
      | .ok l' => compLoop scanno s cs l'

/-- One scan of a progressive script (/repo/jcmaster.c:333-388). -/
def progScan (n prec scanno : Nat) (s : Scan) (l : BitPos) : Except Err BitPos :=
  if s.comps.length = 0 ∨ s.comps.length > 4 then .error (.componentCount s.comps.length)
  else match checkComps n scanno none s.comps with
    | .error e => .error e
    | .ok () =>
      let maxAhAl : Int := if prec = 12 then 13 else 10
      if s.Ss < 0 ∨ s.Ss ≥ 64 ∨ s.Se < s.Ss ∨ s.Se ≥ 64 ∨ s.Ah < 0 ∨ s.Ah > maxAhAl ∨
          s.Al < 0 ∨ s.Al > maxAhAl then .error (.badProgScript scanno)
      else if s.Ss = 0 ∧ s.Se ≠ 0 then .error (.badProgScript scanno)
      else if s.Ss ≠ 0 ∧ s.comps.length ≠ 1 then .error (.badProgScript scanno)
      else compLoop scanno s s.comps l

/-- `component_sent[]` loop (/repo/jcmaster.c:409-415). -/
def sentLoop (scanno : Nat) : List Int → (Nat → Bool) → Except Err (Nat → Bool)
  | [], f => .ok f
  | c :: cs, f =>
    if f c.toNat then .error (.badScanScript scanno)
    else sentLoop scanno cs (fun x => if x = c.toNat then true else f x)

/-- One scan of a sequential or lossless script (/repo/jcmaster.c:333-344,390-415). -/
def seqScan (n prec scanno : Nat) (lossless : Bool) (s : Scan) (f : Nat → Bool) :
    Except Err (Nat → Bool) :=
  if s.comps.length = 0 ∨ s.comps.length > 4 then .error (.componentCount s.comps.length)
  else match checkComps n scanno none s.comps with
    | .error e => .error e
    | .ok () =>
      if lossless then
        if s.Ss < 1 ∨ s.Ss > 7 ∨ s.Se ≠ 0 ∨ s.Ah ≠ 0 ∨ s.Al < 0 ∨ s.Al ≥ prec then
          .error (.badProgScript scanno)
        else sentLoop scanno s.comps f
      else
        if s.Ss ≠ 0 ∨ s.Se ≠ 63 ∨ s.Ah ≠ 0 ∨ s.Al ≠ 0 then .error (.badProgScript scanno)
        else sentLoop scanno s.comps f

/-- The loop over scans, progressive (/repo/jcmaster.c:332). -/
def progLoop (n prec : Nat) : Nat → List Scan → BitPos → Except Err BitPos
  | _, [], l => .ok l
  | scanno, s :: ss, l =>
    match progScan n prec scanno s l with
    | .error e => .error e
    | .ok l' => progLoop n prec (scanno + 1) ss l'

/-- The loop over scans, sequential and lossless (/repo/jcmaster.c:332). -/
def seqLoop (n prec : Nat) (lossless : Bool) : Nat → List Scan → (Nat → Bool) →
    Except Err (Nat → Bool)
  | _, [], f => .ok f
  | scanno, s :: ss, f =>
    match seqScan n prec scanno lossless s f with
    | .error e => .error e
    | .ok f' => seqLoop n prec lossless (scanno + 1) ss f'

/-- The mode is read off the first scan (/repo/jcmaster.c:301-330). -/
def modeOf (s : Scan) : Mode :=
  if s.Ss ≠ 0 ∧ s.Se = 0 then .lossless
  else if s.Ss ≠ 0 ∨ s.Se ≠ 63 then .progressive
  else .sequential

/-- validate_script with `optimize_scans` off (/repo/jcmaster.c:270-440); `n` = num_components,
`prec` = data_precision.  Returns the mode or the error raised. -/
def validate (n prec : Nat) (script : List Scan) : Except Err Mode :=
  match script with
  | [] => .error (.badScanScript 0)
  | s :: _ =>
    match modeOf s with
    | .progressive =>
      match progLoop n prec 1 script (fun _ _ => -1) with
      | .error e => .error e
      | .ok l => if (List.range n).any (fun c => l c 0 < 0) then .error .missingData
                 else .ok .progressive
    | m =>
      match seqLoop n prec (m == .lossless) 1 script (fun _ => false) with
      | .error e => .error e
      | .ok f => if (List.range n).any (fun c => !f c) then .error .missingData
                 else .ok m

/-! ## Specification -/

/-- The scan carries data of component `c`. -/
def Scan.has (s : Scan) (c : Nat) : Bool := decide ((c : Int) ∈ s.comps)

/-- The scan carries bits of coefficient `k` (zigzag position) of component `c`. -/
def Scan.covers (s : Scan) (c k : Nat) : Bool := s.has c && decide (s.Ss ≤ k ∧ (k : Int) ≤ s.Se)

/-- Requirements on the component list of a scan: 1 to 4 components of the image, in order. -/
def CompsOK (n : Nat) (s : Scan) : Prop :=
  1 ≤ s.comps.length ∧ s.comps.length ≤ 4 ∧ (∀ c ∈ s.comps, 0 ≤ c ∧ c < n) ∧
    s.comps.Pairwise (· < ·)

/-- Requirements on the parameters of one progressive scan: bands inside the block, DC alone, AC
bands of one component only, bit positions in range. -/
def ProgParamsOK (prec : Nat) (s : Scan) : Prop :=
  let m : Int := if prec = 12 then 13 else 10
  0 ≤ s.Ss ∧ s.Ss ≤ s.Se ∧ s.Se < 64 ∧ 0 ≤ s.Ah ∧ s.Ah ≤ m ∧ 0 ≤ s.Al ∧ s.Al ≤ m ∧
    (s.Ss = 0 → s.Se = 0) ∧ (s.Ss ≠ 0 → s.comps.length = 1)

/-- The scans that carry one given coefficient, in order: `known` is the lowest bit position already
sent.  The first one has Ah = 0 and sends all bits from Al up; each later one has Ah equal to the
position already reached and sends exactly the next lower bit. -/
def BitsInOrder : Option Int → List Scan → Prop
  | _, [] => True
  | none, s :: r => s.Ah = 0 ∧ BitsInOrder (some s.Al) r
  | some a, s :: r => s.Ah = a ∧ s.Al = a - 1 ∧ BitsInOrder (some s.Al) r

/-- A legal progressive script for `n` components. -/
structure LegalProg (n prec : Nat) (script : List Scan) : Prop where
  /-- every scan is well formed -/
  comps : ∀ s ∈ script, CompsOK n s
  params : ∀ s ∈ script, ProgParamsOK prec s
  /-- the bits of every coefficient come in order, without gap or repeat -/
  bits : ∀ c k, BitsInOrder none (script.filter (·.covers c k))
  /-- no AC scan of a component before its first DC scan -/
  dcFirst : ∀ pre s post, script = pre ++ s :: post → s.Ss ≠ 0 → ∀ c : Nat, s.has c →
    ∃ t ∈ pre, t.covers c 0
  /-- some DC data is sent for every component -/
  dcSent : ∀ c < n, ∃ s ∈ script, s.covers c 0

/-- A legal sequential script: every scan is (0,63,0,0), each component is in exactly one scan. -/
structure LegalSeq (n : Nat) (script : List Scan) : Prop where
  comps : ∀ s ∈ script, CompsOK n s
  params : ∀ s ∈ script, s.Ss = 0 ∧ s.Se = 63 ∧ s.Ah = 0 ∧ s.Al = 0
  once : ∀ c < n, (script.filter (·.has c)).length = 1

/-- A legal lossless script: predictor 1..7, point transform below the precision, each component in
exactly one scan. -/
structure LegalLossless (n prec : Nat) (script : List Scan) : Prop where
  comps : ∀ s ∈ script, CompsOK n s
  params : ∀ s ∈ script, 1 ≤ s.Ss ∧ s.Ss ≤ 7 ∧ s.Se = 0 ∧ s.Ah = 0 ∧ 0 ≤ s.Al ∧ s.Al < prec
  once : ∀ c < n, (script.filter (·.has c)).length = 1

/-! ## Proofs -/

theorem checkComps_some (n no : Nat) (cs : List Int) : ∀ p : Int,
    checkComps n no (some p) cs = .ok () ↔
      (∀ c ∈ cs, 0 ≤ c ∧ c < n) ∧ (p :: cs).Pairwise (· < ·) := by
  induction cs with
  | nil => intro p; simp [checkComps]
  | cons c cs ih =>
    intro p
    rw [checkComps]
    by_cases h : c < 0 ∨ c ≥ n
    · rw [if_pos h]
      simp only [reduceCtorEq, false_iff]
      rintro ⟨h1, -⟩
      have := h1 c (by simp)
      omega
    · rw [if_neg h]
      by_cases hp : c ≤ p
      · rw [if_pos hp]
        simp only [reduceCtorEq, false_iff]
        rintro ⟨-, h2⟩
        rw [List.pairwise_cons] at h2
        have := h2.1 c (by simp)
        omega
      · rw [if_neg hp, ih c]
        constructor
        · rintro ⟨h1, h2⟩
          refine ⟨?_, ?_⟩
          · intro d hd
            rcases List.mem_cons.1 hd with rfl | hd
            · omega
            · exact h1 d hd
          · rw [List.pairwise_cons]
            refine ⟨?_, h2⟩
            intro d hd
            rcases List.mem_cons.1 hd with rfl | hd
            · omega
            · have := (List.pairwise_cons.1 h2).1 d hd
              omega
        · rintro ⟨h1, h2⟩
          exact ⟨fun d hd => h1 d (by simp [hd]), (List.pairwise_cons.1 h2).2⟩

theorem checkComps_none (n no : Nat) (cs : List Int) :
    checkComps n no none cs = .ok () ↔ (∀ c ∈ cs, 0 ≤ c ∧ c < n) ∧ cs.Pairwise (· < ·) := by
  cases cs with
  | nil => simp [checkComps]
  | cons c cs =>
    rw [checkComps]
    by_cases h : c < 0 ∨ c ≥ n
    · rw [if_pos h]
      simp only [reduceCtorEq, false_iff]
      rintro ⟨h1, -⟩
      have := h1 c (by simp)
      omega
    · rw [if_neg h, checkComps_some]
      constructor
      · rintro ⟨h1, h2⟩
        refine ⟨?_, h2⟩
        intro d hd
        rcases List.mem_cons.1 hd with rfl | hd
        · omega
        · exact h1 d hd
      · rintro ⟨h1, h2⟩
        exact ⟨fun d hd => h1 d (by simp [hd]), h2⟩

/-- One step of the bit bookkeeping. -/
def StepOK (l : Int) (Ah Al : Int) : Prop :=
  (l < 0 → Ah = 0) ∧ (0 ≤ l → Ah = l ∧ Al = Ah - 1)

theorem coefLoop_iff (no : Nat) (Ah Al : Int) (c : Nat) (ks : List Nat) (hn : ks.Nodup) :
    ∀ l l', coefLoop no Ah Al c ks l = .ok l' ↔
      (∀ k ∈ ks, StepOK (l c k) Ah Al) ∧
        l' = fun c' k' => if c' = c ∧ k' ∈ ks then Al else l c' k' := by
  induction ks with
  | nil =>
    intro l l'
    simp [coefLoop]
    exact eq_comm
  | cons k ks ih =>
    intro l l'
    have hk : k ∉ ks := (List.nodup_cons.1 hn).1
    have key : (coefLoop no Ah Al c ks (l.set c k Al) = .ok l' ∧ StepOK (l c k) Ah Al) ↔
        ((∀ k' ∈ k :: ks, StepOK (l c k') Ah Al) ∧
        l' = fun c' k' => if c' = c ∧ k' ∈ k :: ks then Al else l c' k') := by
      rw [ih (List.nodup_cons.1 hn).2]
      have e1 : (fun c' k' => if c' = c ∧ k' ∈ ks then Al else l.set c k Al c' k') =
          fun c' k' => if c' = c ∧ k' ∈ k :: ks then Al else l c' k' := by
        funext c' k'
        unfold BitPos.set
        by_cases h1 : c' = c <;> by_cases h2 : k' = k <;> by_cases h3 : k' ∈ ks <;> simp [h1, h2, h3]
      rw [e1]
      have e2 : (∀ k' ∈ ks, StepOK (l.set c k Al c k') Ah Al) ↔ ∀ k' ∈ ks, StepOK (l c k') Ah Al := by
        apply forall₂_congr
        intro k' hk'
        unfold BitPos.set
        have : k' ≠ k := fun h => hk (h ▸ hk')
        simp [this]
      rw [e2]
      simp only [List.mem_cons, forall_eq_or_imp]
      tauto
    rw [coefLoop, ← key]
    unfold StepOK
    by_cases h : l c k < 0
    · rw [if_pos h]
      by_cases h2 : Ah ≠ 0
      · rw [if_pos h2]
        simp [h, h2]
      · rw [if_neg h2]
        constructor
        · intro e; exact ⟨e, fun _ => by omega, fun _ => by omega⟩
        · exact fun e => e.1
    · rw [if_neg h]
      by_cases h2 : Ah ≠ l c k ∨ Al ≠ Ah - 1
      · rw [if_pos h2]
        simp only [reduceCtorEq, false_iff]
        rintro ⟨-, -, h3⟩
        have := h3 (by omega)
        omega
      · rw [if_neg h2]
        constructor
        · intro e; exact ⟨e, fun _ => by omega, fun _ => by omega⟩
        · exact fun e => e.1

theorem mem_span (Ss Se : Int) (h0 : 0 ≤ Ss) (k : Nat) :
    k ∈ span Ss Se ↔ Ss ≤ k ∧ (k : Int) ≤ Se := by
  unfold span
  rw [List.mem_range'_1]
  omega

theorem compLoop_iff (no : Nat) (s : Scan) (h0 : 0 ≤ s.Ss) (hb : s.Ss = 0 → s.Se = 0)
    (hAl : 0 ≤ s.Al) (cs : List Int)
    (hpos : ∀ c ∈ cs, 0 ≤ c) (hn : cs.Nodup) :
    ∀ l l', compLoop no s cs l = .ok l' ↔
      (∀ c : Nat, (c : Int) ∈ cs → (s.Ss ≠ 0 → 0 ≤ l c 0) ∧
        ∀ k : Nat, s.Ss ≤ k → (k : Int) ≤ s.Se → StepOK (l c k) s.Ah s.Al) ∧
      l' = fun (c k : Nat) => if (c : Int) ∈ cs ∧ s.Ss ≤ k ∧ (k : Int) ≤ s.Se then s.Al else l c k := by
  induction cs with
  | nil =>
    intro l l'
    simp [compLoop]
    exact eq_comm
  | cons c cs ih =>
    intro l l'
    have hc0 : 0 ≤ c := hpos c (by simp)
    have hcn : c ∉ cs := (List.nodup_cons.1 hn).1
    obtain ⟨c0, rfl⟩ := Int.eq_ofNat_of_zero_le hc0
    rw [compLoop]
    simp only [Int.toNat_natCast]
    by_cases h : s.Ss ≠ 0 ∧ l c0 0 < 0
    · rw [if_pos h]
      simp only [reduceCtorEq, false_iff]
      rintro ⟨h1, -⟩
      have := (h1 c0 (by simp)).1 h.1
      omega
    · rw [if_neg h]
      have hco := coefLoop_iff no s.Ah s.Al c0 (span s.Ss s.Se) (List.nodup_range') l
      cases hr : coefLoop no s.Ah s.Al c0 (span s.Ss s.Se) l with
      | error e =>
        simp only [reduceCtorEq, false_iff]
        rintro ⟨h1, -⟩
        have := (hco _).2 ⟨fun k hk => (h1 c0 (by simp)).2 k ((mem_span _ _ h0 k).1 hk).1
          ((mem_span _ _ h0 k).1 hk).2, rfl⟩
        rw [hr] at this
        cases this
      | ok l1 =>
        simp only
        obtain ⟨hst, hl1⟩ := (hco l1).1 hr
        rw [ih (fun d hd => hpos d (by simp [hd])) (List.nodup_cons.1 hn).2]
        have hl1' : ∀ c' k', c' ≠ c0 → l1 c' k' = l c' k' := by
          intro c' k' hne
          rw [hl1]; simp [hne]
        have hne : ∀ c' : Nat, (c' : Int) ∈ cs → c' ≠ c0 := by
          rintro c' hm rfl; exact hcn hm
        have e2 : (fun (c k : Nat) => if (c : Int) ∈ cs ∧ s.Ss ≤ (k : Int) ∧ (k : Int) ≤ s.Se then s.Al
              else l1 c k) =
            fun (c k : Nat) => if (c : Int) ∈ (c0 : Int) :: cs ∧ s.Ss ≤ k ∧ (k : Int) ≤ s.Se then s.Al
              else l c k := by
          funext c' k'
          rw [hl1]
          simp only [List.mem_cons, mem_span _ _ h0, Int.natCast_inj]
          by_cases a : c' = c0 <;> by_cases b : s.Ss ≤ (k' : Int) ∧ (k' : Int) ≤ s.Se <;>
            by_cases d : (c' : Int) ∈ cs <;> simp [a, b, d]
        rw [e2]
        constructor
        · rintro ⟨h1, h2⟩
          refine ⟨?_, h2⟩
          intro c' hm
          rcases List.mem_cons.1 hm with hm | hm
          · have : c' = c0 := by omega
            subst this
            refine ⟨fun hs => by omega, fun k hk1 hk2 => hst k ((mem_span _ _ h0 k).2 ⟨hk1, hk2⟩)⟩
          · have := h1 c' hm
            refine ⟨fun hs => ?_, fun k hk1 hk2 => ?_⟩
            · rw [← hl1' c' 0 (hne c' hm)]; exact this.1 hs
            · rw [← hl1' c' k (hne c' hm)]; exact this.2 k hk1 hk2
        · rintro ⟨h1, h2⟩
          refine ⟨?_, h2⟩
          intro c' hm
          have := h1 c' (by simp [hm])
          refine ⟨fun hs => ?_, fun k hk1 hk2 => ?_⟩
          · rw [hl1' c' 0 (hne c' hm)]; exact this.1 hs
          · rw [hl1' c' k (hne c' hm)]; exact this.2 k hk1 hk2

theorem nodup_of_lt {cs : List Int} (h : cs.Pairwise (· < ·)) : cs.Nodup :=
  h.imp (fun hab => by omega)

theorem progScan_iff (n prec no : Nat) (s : Scan) (l l' : BitPos) :
    progScan n prec no s l = .ok l' ↔ CompsOK n s ∧ ProgParamsOK prec s ∧
      (∀ c : Nat, s.has c → (s.Ss ≠ 0 → 0 ≤ l c 0)) ∧
      (∀ c k : Nat, s.covers c k → StepOK (l c k) s.Ah s.Al) ∧
      l' = fun c k => if s.covers c k then s.Al else l c k := by
  unfold progScan CompsOK
  by_cases h1 : s.comps.length = 0 ∨ s.comps.length > 4
  · rw [if_pos h1]
    simp only [reduceCtorEq, false_iff]
    rintro ⟨h, -⟩
    omega
  rw [if_neg h1]
  have hcc := checkComps_none n no s.comps
  cases hr : checkComps n no none s.comps with
  | error e =>
    simp only [reduceCtorEq, false_iff]
    rintro ⟨⟨-, -, h⟩, -⟩
    rw [hcc.2 h] at hr
    cases hr
  | ok u =>
    cases u
    obtain ⟨hA, hB⟩ := hcc.1 hr
    simp only
    unfold ProgParamsOK
    simp only
    generalize (if prec = 12 then (13 : Int) else 10) = m
    by_cases h2 : s.Ss < 0 ∨ s.Ss ≥ 64 ∨ s.Se < s.Ss ∨ s.Se ≥ 64 ∨ s.Ah < 0 ∨ s.Ah > m ∨
          s.Al < 0 ∨ s.Al > m
    · rw [if_pos h2]
      simp only [reduceCtorEq, false_iff]
      rintro ⟨-, h, -⟩
      omega
    rw [if_neg h2]
    by_cases h3 : s.Ss = 0 ∧ s.Se ≠ 0
    · rw [if_pos h3]
      simp only [reduceCtorEq, false_iff]
      rintro ⟨-, h, -⟩
      omega
    rw [if_neg h3]
    by_cases h4 : s.Ss ≠ 0 ∧ s.comps.length ≠ 1
    · rw [if_pos h4]
      simp only [reduceCtorEq, false_iff]
      rintro ⟨-, h, -⟩
      omega
    rw [if_neg h4, compLoop_iff no s (by omega) (by omega) (by omega) s.comps
      (fun c hc => (hA c hc).1) (nodup_of_lt hB)]
    have ecov : ∀ c k, s.covers c k = true ↔ (c : Int) ∈ s.comps ∧ s.Ss ≤ k ∧ (k : Int) ≤ s.Se := by
      intro c k; unfold Scan.covers Scan.has; simp
    have ehas : ∀ c, s.has c = true ↔ (c : Int) ∈ s.comps := by
      intro c; unfold Scan.has; simp
    have efun : (fun c k => if s.covers c k then s.Al else l c k) =
        fun (c k : Nat) => if (c : Int) ∈ s.comps ∧ s.Ss ≤ k ∧ (k : Int) ≤ s.Se then s.Al else l c k := by
      funext c k
      by_cases hc : s.covers c k = true
      · rw [if_pos hc, if_pos ((ecov c k).1 hc)]
      · rw [if_neg hc, if_neg (fun h => hc ((ecov c k).2 h))]
    rw [efun]
    constructor
    · rintro ⟨ha, hb⟩
      refine ⟨⟨by omega, by omega, hA, hB⟩, by omega, ?_, ?_, hb⟩
      · intro c hc; exact (ha c ((ehas c).1 hc)).1
      · intro c k hc
        obtain ⟨x, y, z⟩ := (ecov c k).1 hc
        exact (ha c x).2 k y z
    · rintro ⟨-, -, hc, hd, he⟩
      exact ⟨fun c hm => ⟨hc c ((ehas c).2 hm), fun k hk1 hk2 => hd c k ((ecov c k).2 ⟨hm, hk1, hk2⟩)⟩, he⟩

/-- `last_bitpos` value as an option. -/
def known (x : Int) : Option Int := if x < 0 then none else some x

theorem bits_cons_cov (x : Int) (s : Scan) (r : List Scan) (hAl : 0 ≤ s.Al) :
    BitsInOrder (known x) (s :: r) ↔ StepOK x s.Ah s.Al ∧ BitsInOrder (known s.Al) r := by
  unfold known StepOK
  have h2 : ¬ s.Al < 0 := by omega
  by_cases h : x < 0
  · rw [if_pos h, if_neg h2, BitsInOrder]
    constructor
    · rintro ⟨a, b⟩; exact ⟨⟨fun _ => a, fun _ => by omega⟩, b⟩
    · rintro ⟨⟨a, -⟩, b⟩; exact ⟨a h, b⟩
  · rw [if_neg h, if_neg h2, BitsInOrder]
    constructor
    · rintro ⟨a, b, d⟩; exact ⟨⟨fun _ => by omega, fun _ => by omega⟩, d⟩
    · rintro ⟨⟨-, a⟩, b⟩
      have := a (by omega)
      exact ⟨by omega, by omega, b⟩

/-- AC only after DC, with `b` saying that DC was already sent. -/
def DcFirst (b : Nat → Prop) (rest : List Scan) : Prop :=
  ∀ pre s post, rest = pre ++ s :: post → s.Ss ≠ 0 → ∀ c : Nat, s.has c →
    b c ∨ ∃ t ∈ pre, t.covers c 0

theorem dcFirst_cons (b : Nat → Prop) (s : Scan) (r : List Scan) :
    DcFirst b (s :: r) ↔ (∀ c : Nat, s.has c → s.Ss ≠ 0 → b c) ∧
      DcFirst (fun c => b c ∨ s.covers c 0) r := by
  constructor
  · intro h
    refine ⟨?_, ?_⟩
    · intro c hc hs
      rcases h [] s r rfl hs c hc with h | ⟨t, ht, -⟩
      · exact h
      · cases ht
    · intro pre t post e ht c hc
      rcases h (s :: pre) t post (by rw [e]; rfl) ht c hc with h | ⟨u, hu, hv⟩
      · exact .inl (.inl h)
      · rcases List.mem_cons.1 hu with rfl | hu
        · exact .inl (.inr hv)
        · exact .inr ⟨u, hu, hv⟩
  · rintro ⟨h1, h2⟩ pre t post e ht c hc
    cases pre with
    | nil =>
      injection e with e1 e2
      subst e1
      exact .inl (h1 c hc ht)
    | cons p pre =>
      injection e with e1 e2
      subst e1
      rcases h2 pre t post e2 ht c hc with (h | h) | ⟨u, hu, hv⟩
      · exact .inl h
      · exact .inr ⟨s, by simp, h⟩
      · exact .inr ⟨u, by simp [hu], hv⟩

theorem dcFirst_congr {b b' : Nat → Prop} (h : ∀ c, b c ↔ b' c) (r : List Scan) :
    DcFirst b r ↔ DcFirst b' r := by
  have : b = b' := by funext c; exact propext (h c)
  rw [this]

theorem progLoop_iff (n prec : Nat) (rest : List Scan) : ∀ (no : Nat) (l : BitPos),
    (∃ l', progLoop n prec no rest l = .ok l' ∧
      ∀ c, 0 ≤ l' c 0 ↔ (0 ≤ l c 0 ∨ ∃ s ∈ rest, s.covers c 0)) ∨
    (∀ l', progLoop n prec no rest l ≠ .ok l') := by
  induction rest with
  | nil => intro no l; left; exact ⟨l, rfl, by simp⟩
  | cons s r ih =>
    intro no l
    cases hr : progScan n prec no s l with
    | error e => right; intro l'; rw [progLoop, hr]; simp
    | ok l1 =>
      obtain ⟨-, hP, -, -, hl1⟩ := (progScan_iff n prec no s l l1).1 hr
      have hAl : 0 ≤ s.Al := by unfold ProgParamsOK at hP; simp only at hP; omega
      rcases ih (no + 1) l1 with ⟨l', h1, h2⟩ | h
      · left
        refine ⟨l', by rw [progLoop, hr]; exact h1, ?_⟩
        intro c
        rw [h2, hl1]
        by_cases hc : s.covers c 0 = true
        · simp [hc, hAl]
        · simp [hc]
      · right; intro l'; rw [progLoop, hr]; exact h l'

theorem progLoop_ok_iff (n prec : Nat) (rest : List Scan) : ∀ (no : Nat) (l : BitPos),
    (∃ l', progLoop n prec no rest l = .ok l') ↔
      (∀ s ∈ rest, CompsOK n s) ∧ (∀ s ∈ rest, ProgParamsOK prec s) ∧
      (∀ c k, BitsInOrder (known (l c k)) (rest.filter (·.covers c k))) ∧
      DcFirst (fun c => 0 ≤ l c 0) rest := by
  induction rest with
  | nil =>
    intro no l
    simp only [progLoop, Except.ok.injEq, exists_eq', List.filter_nil, true_iff]
    refine ⟨by simp, by simp, fun _ _ => by unfold BitsInOrder; trivial, ?_⟩
    intro pre s post e
    simp at e
  | cons s r ih =>
    intro no l
    have e : (∃ l', progLoop n prec no (s :: r) l = .ok l') ↔
        ∃ l1, progScan n prec no s l = .ok l1 ∧ ∃ l', progLoop n prec (no + 1) r l1 = .ok l' := by
      rw [progLoop]
      cases hr : progScan n prec no s l with
      | error e => simp
      | ok l1 => simp
    rw [e, dcFirst_cons]
    have hext : ∀ c k, BitsInOrder (known (l c k)) ((s :: r).filter (·.covers c k)) ↔
        if s.covers c k then BitsInOrder (known (l c k)) (s :: r.filter (·.covers c k))
        else BitsInOrder (known (l c k)) (r.filter (·.covers c k)) := by
      intro c k
      by_cases hc : s.covers c k = true
      · rw [List.filter_cons_of_pos (p := fun x : Scan => x.covers c k) hc, if_pos hc]
      · rw [List.filter_cons_of_neg (p := fun x : Scan => x.covers c k) hc, if_neg hc]
    constructor
    · rintro ⟨l1, h1, h2⟩
      obtain ⟨hC, hP, hD, hS, hl1⟩ := (progScan_iff n prec no s l l1).1 h1
      have hAl : 0 ≤ s.Al := by unfold ProgParamsOK at hP; simp only at hP; omega
      obtain ⟨g1, g2, g3, g4⟩ := (ih (no + 1) l1).1 h2
      refine ⟨?_, ?_, ?_, ?_, ?_⟩
      · intro t ht
        rcases List.mem_cons.1 ht with rfl | ht
        · exact hC
        · exact g1 t ht
      · intro t ht
        rcases List.mem_cons.1 ht with rfl | ht
        · exact hP
        · exact g2 t ht
      · intro c k
        rw [hext]
        have := g3 c k
        rw [hl1] at this
        by_cases hc : s.covers c k = true
        · simp only [hc, if_true] at this ⊢
          rw [bits_cons_cov _ _ _ hAl]
          exact ⟨hS c k hc, this⟩
        · simp only [hc, if_false] at this ⊢
          exact this
      · exact hD
      · refine (dcFirst_congr (fun c => ?_) r).1 g4
        rw [hl1]
        by_cases hc : s.covers c 0 = true
        · simp [hc, hAl]
        · simp [hc]
    · rintro ⟨hC, hP, hB, hD, hE⟩
      have hPs := hP s (by simp)
      have hAl : 0 ≤ s.Al := by unfold ProgParamsOK at hPs; simp only at hPs; omega
      refine ⟨fun c k => if s.covers c k then s.Al else l c k, ?_, ?_⟩
      · rw [progScan_iff]
        refine ⟨hC s (by simp), hPs, hD, ?_, rfl⟩
        intro c k hc
        have := (hext c k).1 (hB c k)
        rw [if_pos hc, bits_cons_cov _ _ _ hAl] at this
        exact this.1
      · rw [ih]
        refine ⟨fun t ht => hC t (by simp [ht]), fun t ht => hP t (by simp [ht]), ?_, ?_⟩
        · intro c k
          have := (hext c k).1 (hB c k)
          by_cases hc : s.covers c k = true
          · rw [if_pos hc, bits_cons_cov _ _ _ hAl] at this
            simp only [hc, if_true]
            exact this.2
          · rw [if_neg hc] at this
            simp only [hc]
            exact this
        · refine (dcFirst_congr (fun c => ?_) r).1 hE
          by_cases hc : s.covers c 0 = true
          · simp [hc, hAl]
          · simp [hc]

theorem prog_result (n prec : Nat) (script : List Scan) :
    (match progLoop n prec 1 script (fun _ _ => -1) with
      | .error e => .error e
      | .ok l => if (List.range n).any (fun c => l c 0 < 0) then .error .missingData
                 else .ok Mode.progressive) = Except.ok (ε := Err) Mode.progressive ↔
      LegalProg n prec script := by
  have hok := progLoop_ok_iff n prec script 1 (fun _ _ => -1)
  have hk : known (-1) = none := rfl
  have hdc : DcFirst (fun _ => 0 ≤ (-1 : Int)) script ↔
      ∀ pre s post, script = pre ++ s :: post → s.Ss ≠ 0 → ∀ c : Nat, s.has c →
        ∃ t ∈ pre, t.covers c 0 := by
    unfold DcFirst; simp
  rcases progLoop_iff n prec script 1 (fun _ _ => -1) with ⟨l', h1, h2⟩ | h
  · rw [h1]
    obtain ⟨a, b, c, d⟩ := hok.1 ⟨l', h1⟩
    simp only
    have h2' : ∀ c, 0 ≤ l' c 0 ↔ ∃ s ∈ script, s.covers c 0 := by
      intro c; rw [h2]; simp
    constructor
    · intro h
      by_cases hany : (List.range n).any (fun c => decide (l' c 0 < 0)) = true
      · rw [if_pos hany] at h; cases h
      · refine ⟨a, b, c, hdc.1 d, ?_⟩
        intro ci hci
        rw [← h2']
        by_contra hneg
        apply hany
        rw [List.any_eq_true]
        exact ⟨ci, List.mem_range.2 hci, by simpa using hneg⟩
    · intro hL
      rw [if_neg]
      intro hany
      rw [List.any_eq_true] at hany
      obtain ⟨ci, hci, hneg⟩ := hany
      have := (h2' ci).2 (hL.dcSent ci (List.mem_range.1 hci))
      simp only [decide_eq_true_eq] at hneg
      omega
  · constructor
    · intro hh
      cases hr : progLoop n prec 1 script (fun _ _ => -1) with
      | error e => rw [hr] at hh; simp at hh
      | ok l => exact absurd hr (h l)
    · intro hL
      obtain ⟨l', hl'⟩ := hok.2 ⟨hL.comps, hL.params, hL.bits, hdc.2 hL.dcFirst⟩
      exact absurd hl' (h l')

theorem sentLoop_iff (no : Nat) (cs : List Int) (hp : ∀ c ∈ cs, 0 ≤ c) (hn : cs.Nodup) :
    ∀ f f', sentLoop no cs f = .ok f' ↔ (∀ c : Nat, (c : Int) ∈ cs → f c = false) ∧
      f' = fun (c : Nat) => decide ((c : Int) ∈ cs) || f c := by
  induction cs with
  | nil => intro f f'; simp [sentLoop]; exact eq_comm
  | cons c cs ih =>
    intro f f'
    obtain ⟨c0, rfl⟩ := Int.eq_ofNat_of_zero_le (hp c (by simp))
    have hcn := (List.nodup_cons.1 hn).1
    rw [sentLoop]
    simp only [Int.toNat_natCast]
    by_cases h : f c0 = true
    · rw [if_pos h]
      simp only [reduceCtorEq, false_iff]
      rintro ⟨h1, -⟩
      rw [h1 c0 (by simp)] at h
      cases h
    · rw [if_neg h, ih (fun d hd => hp d (by simp [hd])) (List.nodup_cons.1 hn).2]
      have hne : ∀ c' : Nat, (c' : Int) ∈ cs → c' ≠ c0 := by
        rintro c' hm rfl; exact hcn hm
      have e1 : (fun (c : Nat) => decide ((c : Int) ∈ cs) || (if c = c0 then true else f c)) =
          fun (c : Nat) => decide ((c : Int) ∈ (c0 : Int) :: cs) || f c := by
        funext x
        by_cases hx : x = c0
        · subst hx; simp
        · have hx' : ¬ (x : Int) = c0 := by omega
          simp [hx, hx']
      rw [e1]
      constructor
      · rintro ⟨a, b⟩
        refine ⟨?_, b⟩
        intro x hx
        rcases List.mem_cons.1 hx with hx | hx
        · have : x = c0 := by omega
          subst this; simpa using h
        · have := a x hx
          rw [if_neg (hne x hx)] at this; exact this
      · rintro ⟨a, b⟩
        refine ⟨?_, b⟩
        intro x hx
        rw [if_neg (hne x hx)]
        exact a x (by simp [hx])

/-- Parameters of a non-progressive scan. -/
def SeqParamsOK (prec : Nat) (lossless : Bool) (s : Scan) : Prop :=
  if lossless then 1 ≤ s.Ss ∧ s.Ss ≤ 7 ∧ s.Se = 0 ∧ s.Ah = 0 ∧ 0 ≤ s.Al ∧ s.Al < prec
  else s.Ss = 0 ∧ s.Se = 63 ∧ s.Ah = 0 ∧ s.Al = 0

theorem seqScan_iff (n prec no : Nat) (ll : Bool) (s : Scan) (f f' : Nat → Bool) :
    seqScan n prec no ll s f = .ok f' ↔ CompsOK n s ∧ SeqParamsOK prec ll s ∧
      (∀ c : Nat, s.has c → f c = false) ∧ f' = fun c => s.has c || f c := by
  unfold seqScan CompsOK
  by_cases h1 : s.comps.length = 0 ∨ s.comps.length > 4
  · rw [if_pos h1]
    simp only [reduceCtorEq, false_iff]
    rintro ⟨h, -⟩
    omega
  rw [if_neg h1]
  have hcc := checkComps_none n no s.comps
  cases hr : checkComps n no none s.comps with
  | error e =>
    simp only [reduceCtorEq, false_iff]
    rintro ⟨⟨-, -, h⟩, -⟩
    rw [hcc.2 h] at hr
    cases hr
  | ok u =>
    cases u
    obtain ⟨hA, hB⟩ := hcc.1 hr
    have hs := sentLoop_iff no s.comps (fun c hc => (hA c hc).1) (nodup_of_lt hB) f f'
    have key : sentLoop no s.comps f = .ok f' ↔
        (∀ c : Nat, s.has c → f c = false) ∧ f' = fun c => s.has c || f c := by
      rw [hs]; unfold Scan.has; simp
    have hC : (1 ≤ s.comps.length ∧ s.comps.length ≤ 4 ∧ (∀ c ∈ s.comps, 0 ≤ c ∧ c < ↑n) ∧
        s.comps.Pairwise (· < ·)) := ⟨by omega, by omega, hA, hB⟩
    unfold SeqParamsOK
    cases ll with
    | true =>
      simp only [if_true]
      by_cases h2 : s.Ss < 1 ∨ s.Ss > 7 ∨ s.Se ≠ 0 ∨ s.Ah ≠ 0 ∨ s.Al < 0 ∨ s.Al ≥ prec
      · rw [if_pos h2]
        simp only [reduceCtorEq, false_iff]
        rintro ⟨-, h, -⟩
        omega
      · rw [if_neg h2, key]
        constructor
        · rintro ⟨a, b⟩; exact ⟨hC, by omega, a, b⟩
        · rintro ⟨-, -, a, b⟩; exact ⟨a, b⟩
    | false =>
      simp only [Bool.false_eq_true, if_false]
      by_cases h2 : s.Ss ≠ 0 ∨ s.Se ≠ 63 ∨ s.Ah ≠ 0 ∨ s.Al ≠ 0
      · rw [if_pos h2]
        simp only [reduceCtorEq, false_iff]
        rintro ⟨-, h, -⟩
        omega
      · rw [if_neg h2, key]
        constructor
        · rintro ⟨a, b⟩; exact ⟨hC, by omega, a, b⟩
        · rintro ⟨-, -, a, b⟩; exact ⟨a, b⟩

theorem seqLoop_ok_iff (n prec : Nat) (ll : Bool) (rest : List Scan) : ∀ (no : Nat) (f f' : Nat → Bool),
    seqLoop n prec ll no rest f = .ok f' ↔
      (∀ s ∈ rest, CompsOK n s) ∧ (∀ s ∈ rest, SeqParamsOK prec ll s) ∧
      (∀ c, (if f c then 1 else 0) + (rest.filter (·.has c)).length ≤ 1) ∧
      f' = fun c => rest.any (·.has c) || f c := by
  induction rest with
  | nil =>
    intro no f f'
    simp only [seqLoop, Except.ok.injEq, List.filter_nil, List.any_nil, Bool.false_or,
      List.length_nil]
    constructor
    · rintro rfl
      refine ⟨by simp, by simp, ?_, rfl⟩
      intro c; split <;> simp
    · rintro ⟨-, -, -, rfl⟩; rfl
  | cons s r ih =>
    intro no f f'
    have e : seqLoop n prec ll no (s :: r) f = .ok f' ↔
        ∃ l1, seqScan n prec no ll s f = .ok l1 ∧ seqLoop n prec ll (no + 1) r l1 = .ok f' := by
      rw [seqLoop]
      cases hr : seqScan n prec no ll s f with
      | error e => simp
      | ok l1 => simp
    rw [e]
    constructor
    · rintro ⟨l1, h1, h2⟩
      obtain ⟨hC, hP, hD, hl1⟩ := (seqScan_iff n prec no ll s f l1).1 h1
      obtain ⟨g1, g2, g3, g4⟩ := (ih (no + 1) l1 f').1 h2
      refine ⟨?_, ?_, ?_, ?_⟩
      · intro t ht
        rcases List.mem_cons.1 ht with rfl | ht
        · exact hC
        · exact g1 t ht
      · intro t ht
        rcases List.mem_cons.1 ht with rfl | ht
        · exact hP
        · exact g2 t ht
      · intro c
        have := g3 c
        rw [hl1] at this
        by_cases hc : s.has c = true
        · rw [List.filter_cons_of_pos (p := fun x : Scan => x.has c) hc, hD c hc]
          simp only [hc, Bool.true_or, if_true] at this
          simp only [List.length_cons, Bool.false_eq_true, if_false]
          omega
        · rw [List.filter_cons_of_neg (p := fun x : Scan => x.has c) hc]
          simpa [hc] using this
      · rw [g4, hl1]
        funext c
        simp only [List.any_cons]
        cases s.has c <;> simp
    · rintro ⟨hC, hP, hB, hf⟩
      refine ⟨fun c => s.has c || f c, ?_, ?_⟩
      · rw [seqScan_iff]
        refine ⟨hC s (by simp), hP s (by simp), ?_, rfl⟩
        intro c hc
        have := hB c
        rw [List.filter_cons_of_pos (p := fun x : Scan => x.has c) hc] at this
        simp only [List.length_cons] at this
        by_contra hfc
        simp only [Bool.not_eq_false] at hfc
        rw [hfc] at this
        simp only [if_true] at this
        omega
      · rw [ih]
        refine ⟨fun t ht => hC t (by simp [ht]), fun t ht => hP t (by simp [ht]), ?_, ?_⟩
        · intro c
          have := hB c
          by_cases hc : s.has c = true
          · rw [List.filter_cons_of_pos (p := fun x : Scan => x.has c) hc] at this
            simp only [List.length_cons] at this
            simp only [hc, Bool.true_or, if_true]
            omega
          · rw [List.filter_cons_of_neg (p := fun x : Scan => x.has c) hc] at this
            simpa [hc] using this
        · rw [hf]
          funext c
          simp only [List.any_cons]
          cases s.has c <;> simp

theorem seq_result (n prec : Nat) (ll : Bool) (m : Mode) (script : List Scan) :
    (match seqLoop n prec ll 1 script (fun _ => false) with
      | .error e => .error e
      | .ok f => if (List.range n).any (fun c => !f c) then .error .missingData
                 else .ok m) = Except.ok (ε := Err) m ↔
      (∀ s ∈ script, CompsOK n s) ∧ (∀ s ∈ script, SeqParamsOK prec ll s) ∧
      (∀ c < n, (script.filter (·.has c)).length = 1) := by
  have hok := seqLoop_ok_iff n prec ll script 1 (fun _ => false)
  have hout : ∀ c, (∀ s ∈ script, CompsOK n s) → ¬ c < n → (script.filter (·.has c)).length = 0 := by
    intro c hC hc
    rw [List.length_eq_zero_iff, List.filter_eq_nil_iff]
    intro s hs hh
    have := (hC s hs).2.2.1 c (by simpa [Scan.has] using hh)
    omega
  have hany : ∀ c, script.any (·.has c) = true ↔ 1 ≤ (script.filter (·.has c)).length := by
    intro c
    rw [List.any_eq_true, Nat.succ_le_iff, List.length_pos_iff]
    constructor
    · rintro ⟨s, hs, hc⟩ h
      rw [List.filter_eq_nil_iff] at h
      exact h s hs hc
    · intro h
      obtain ⟨s, hs⟩ := List.exists_mem_of_ne_nil _ h
      rw [List.mem_filter] at hs
      exact ⟨s, hs.1, hs.2⟩
  constructor
  · intro h
    cases hr : seqLoop n prec ll 1 script (fun _ => false) with
    | error e => rw [hr] at h; simp at h
    | ok f =>
      rw [hr] at h
      obtain ⟨a, b, c, d⟩ := (hok f).1 hr
      refine ⟨a, b, ?_⟩
      intro ci hci
      simp only at h
      have h1 := c ci
      simp only [Bool.false_eq_true, if_false] at h1
      by_cases hx : (List.range n).any (fun c => !f c) = true
      · rw [if_pos hx] at h; cases h
      · have : f ci = true := by
          by_contra hfc
          apply hx
          rw [List.any_eq_true]
          exact ⟨ci, List.mem_range.2 hci, by simpa using hfc⟩
        rw [d] at this
        simp only [Bool.or_false] at this
        have := (hany ci).1 this
        omega
  · rintro ⟨a, b, c⟩
    have := (hok _).2 ⟨a, b, ?_, rfl⟩
    · rw [this]
      simp only
      rw [if_neg]
      intro hx
      rw [List.any_eq_true] at hx
      obtain ⟨ci, hci, hx⟩ := hx
      have := (hany ci).2 (by rw [c ci (List.mem_range.1 hci)]; omega)
      simp [this] at hx
    · intro ci
      simp only [Bool.false_eq_true, if_false]
      by_cases hci : ci < n
      · rw [c ci hci]; omega
      · rw [hout ci a hci]; omega

theorem modeOf_prog {prec : Nat} {s : Scan} (h : ProgParamsOK prec s) (h0 : s.Ss = 0) :
    modeOf s = .progressive := by
  unfold ProgParamsOK at h
  simp only at h
  unfold modeOf
  rw [if_neg (by omega), if_pos (by omega)]

theorem legalProg_head {n prec : Nat} {s : Scan} {r : List Scan} (h : LegalProg n prec (s :: r)) :
    s.Ss = 0 := by
  by_contra hs
  have hC := h.comps s (by simp)
  obtain ⟨c, hc⟩ := List.exists_mem_of_ne_nil s.comps (by
    intro e; unfold CompsOK at hC; rw [e] at hC; simp at hC)
  obtain ⟨c0, rfl⟩ := Int.eq_ofNat_of_zero_le (hC.2.2.1 c hc).1
  obtain ⟨t, ht, -⟩ := h.dcFirst [] s r rfl hs c0 (by simpa [Scan.has] using hc)
  cases ht

/-- **C19, progressive.** The validator accepts a script as progressive exactly when it is a legal
progressive script (at least one component). -/
theorem validate_progressive_iff (n prec : Nat) (hn : 1 ≤ n) (script : List Scan) :
    validate n prec script = .ok .progressive ↔ LegalProg n prec script := by
  cases script with
  | nil =>
    simp only [validate, reduceCtorEq, false_iff]
    intro h
    obtain ⟨s, hs, -⟩ := h.dcSent 0 (by omega)
    cases hs
  | cons s r =>
    have key := prog_result n prec (s :: r)
    constructor
    · intro h
      rw [← key]
      simp only [validate] at h
      cases hm : modeOf s with
      | progressive => rw [hm] at h; exact h
      | sequential =>
        rw [hm] at h
        simp only at h
        split at h
        · cases h
        · split at h <;> cases h
      | lossless =>
        rw [hm] at h
        simp only at h
        split at h
        · cases h
        · split at h <;> cases h
    · intro hL
      simp only [validate]
      rw [modeOf_prog (hL.params s (by simp)) (legalProg_head hL)]
      exact key.2 hL

/-- **C19, sequential.** -/
theorem validate_sequential_iff (n prec : Nat) (hn : 1 ≤ n) (script : List Scan) :
    validate n prec script = .ok .sequential ↔ LegalSeq n script := by
  cases script with
  | nil =>
    simp only [validate, reduceCtorEq, false_iff]
    intro h
    have := h.once 0 (by omega)
    simp at this
  | cons s r =>
    have key := seq_result n prec false .sequential (s :: r)
    constructor
    · intro h
      simp only [validate] at h
      cases hm : modeOf s with
      | progressive =>
        rw [hm] at h
        simp only at h
        split at h
        · cases h
        · split at h <;> cases h
      | lossless =>
        rw [hm] at h
        simp only at h
        split at h
        · cases h
        · split at h <;> cases h
      | sequential =>
        rw [hm] at h
        obtain ⟨a, b, c⟩ := key.1 h
        exact ⟨a, fun s hs => by simpa [SeqParamsOK] using b s hs, c⟩
    · intro hL
      have hp := hL.params s (by simp)
      simp only [validate]
      have : modeOf s = .sequential := by
        unfold modeOf; rw [if_neg (by omega), if_neg (by omega)]
      rw [this]
      exact key.2 ⟨hL.comps, fun s hs => by simpa [SeqParamsOK] using hL.params s hs, hL.once⟩

/-- **C19, lossless.** -/
theorem validate_lossless_iff (n prec : Nat) (hn : 1 ≤ n) (script : List Scan) :
    validate n prec script = .ok .lossless ↔ LegalLossless n prec script := by
  cases script with
  | nil =>
    simp only [validate, reduceCtorEq, false_iff]
    intro h
    have := h.once 0 (by omega)
    simp at this
  | cons s r =>
    have key := seq_result n prec true .lossless (s :: r)
    constructor
    · intro h
      simp only [validate] at h
      cases hm : modeOf s with
      | progressive =>
        rw [hm] at h
        simp only at h
        split at h
        · cases h
        · split at h <;> cases h
      | sequential =>
        rw [hm] at h
        simp only at h
        split at h
        · cases h
        · split at h <;> cases h
      | lossless =>
        rw [hm] at h
        obtain ⟨a, b, c⟩ := key.1 h
        exact ⟨a, fun s hs => by simpa [SeqParamsOK] using b s hs, c⟩
    · intro hL
      have hp := hL.params s (by simp)
      simp only [validate]
      have : modeOf s = .lossless := by
        unfold modeOf; rw [if_pos (by omega)]
      rw [this]
      exact key.2 ⟨hL.comps, fun s hs => by simpa [SeqParamsOK] using hL.params s hs, hL.once⟩

/-- What "in order" means bit by bit: in the list of scans that carry a coefficient, scan number `i`
sends down to bit position `(first scan's Al) - i`, the first has Ah = 0, and each later one says so
(Ah = Al + 1).  So no bit position is sent twice and none is skipped. -/
theorem bitsInOrder_positions (s : Scan) (r : List Scan) (h : BitsInOrder none (s :: r)) :
    s.Ah = 0 ∧ (∀ (i : Nat) (t : Scan), (s :: r)[i]? = some t → t.Al = s.Al - i ∧ (i ≠ 0 → t.Ah = t.Al + 1)) := by
  have aux : ∀ (r : List Scan) (a : Int), BitsInOrder (some a) r →
      ∀ (i : Nat) (t : Scan), r[i]? = some t → t.Al = a - (i + 1) ∧ t.Ah = t.Al + 1 := by
    intro r
    induction r with
    | nil => intro a _ i t h; simp at h
    | cons x r ih =>
      intro a h i t hi
      rw [BitsInOrder] at h
      cases i with
      | zero =>
        simp at hi; subst hi
        omega
      | succ i =>
        have := ih x.Al h.2.2 i t (by simpa using hi)
        omega
  rw [BitsInOrder] at h
  refine ⟨h.1, ?_⟩
  intro i t hi
  cases i with
  | zero => simp at hi; subst hi; omega
  | succ i =>
    have := aux r s.Al h.2 i t (by simpa using hi)
    omega

end Verif.Script
