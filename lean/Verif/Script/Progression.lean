/-
Built-in progressive scripts: jpeg_simple_progression and jpeg_search_progression.

Code modelled: /repo/jcparam.c:657-735 (fill_a_scan, fill_a_scan_pair, fill_scans, fill_dc_scans),
:734-852 (jpeg_search_progression), :860-1000 (jpeg_simple_progression).

Simplifications: writing through `scanptr` is appending to a list (the number of elements written is
the length of the list, compared with the allocated `script_space_size`); the call to
jpeg_default_colorspace when leaving lossless mode is not modelled (the component count and colour
space are those after it).
-/
import Verif.Script.Validate
import Mathlib.Tactic.IntervalCases

namespace Verif.Script

/-- fill_a_scan (/repo/jcparam.c:657-669). -/
def fillAScan (ci : Int) (Ss Se Ah Al : Int) : List Scan := [⟨[ci], Ss, Se, Ah, Al⟩]

/-- fill_a_scan_pair (/repo/jcparam.c:671-686). -/
def fillAScanPair (ci : Int) (Ss Se Ah Al : Int) : List Scan := [⟨[ci, ci + 1], Ss, Se, Ah, Al⟩]

/-- fill_scans (/repo/jcparam.c:688-703). -/
def fillScans (ncomps : Nat) (Ss Se Ah Al : Int) : List Scan :=
  (List.range ncomps).map fun (ci : Nat) => ⟨[(ci : Int)], Ss, Se, Ah, Al⟩

/-- fill_dc_scans (/repo/jcparam.c:706-726): one interleaved scan if at most 4 components, else one
scan per component. -/
def fillDcScans (ncomps : Nat) (Ah Al : Int) : List Scan :=
  if ncomps ≤ 4 then [⟨(List.range ncomps).map fun (ci : Nat) => (ci : Int), 0, 0, Ah, Al⟩]
  else fillScans ncomps 0 0 Ah Al

/-- What the script functions read and write in `cinfo` and `cinfo->master`. -/
structure Cfg where
  /-- num_components -/
  ncomps : Nat
  /-- jpeg_color_space == JCS_YCbCr -/
  ycc : Bool
  /-- compress_profile == JCP_MAX_COMPRESSION -/
  maxProfile : Bool
  /-- dc_scan_opt_mode -/
  dcMode : Int
  /-- optimize_scans -/
  optScans : Bool
deriving DecidableEq, Repr

/-- "Custom script for YCbCr" test. -/
def Cfg.custom (g : Cfg) : Bool := g.ncomps == 3 && g.ycc

/-- nscans of jpeg_simple_progression (/repo/jcparam.c:882-910). -/
def announced (g : Cfg) : Nat :=
  if g.custom then
    if g.maxProfile then
      if g.dcMode = 0 then 9 else if g.dcMode = 1 then 11 else 10
    else 10
  else
    if g.maxProfile then
      if g.ncomps > 4 then 5 * g.ncomps else 1 + 4 * g.ncomps
    else
      if g.ncomps > 4 then 6 * g.ncomps else 2 + 4 * g.ncomps

/-- The scans jpeg_simple_progression writes (/repo/jcparam.c:928-1004). -/
def simpleScript (g : Cfg) : List Scan :=
  if g.custom then
    if g.maxProfile then
      (if g.dcMode = 0 then fillDcScans g.ncomps 0 0
       else if g.dcMode = 1 then
         fillAScan 0 0 0 0 0 ++ fillAScan 1 0 0 0 0 ++ fillAScan 2 0 0 0 0
       else fillDcScans 1 0 0 ++ fillAScanPair 1 0 0 0 0) ++
      fillAScan 0 1 8 0 2 ++ fillAScan 1 1 8 0 0 ++ fillAScan 2 1 8 0 0 ++
      fillAScan 0 9 63 0 2 ++
      fillAScan 0 1 63 2 1 ++ fillAScan 0 1 63 1 0 ++
      fillAScan 1 9 63 0 0 ++ fillAScan 2 9 63 0 0
    else
      fillDcScans g.ncomps 0 1 ++
      fillAScan 0 1 5 0 2 ++
      fillAScan 2 1 63 0 1 ++ fillAScan 1 1 63 0 1 ++
      fillAScan 0 6 63 0 2 ++
      fillAScan 0 1 63 2 1 ++
      fillDcScans g.ncomps 1 0 ++
      fillAScan 2 1 63 1 0 ++ fillAScan 1 1 63 1 0 ++
      fillAScan 0 1 63 1 0
  else
    if g.maxProfile then
      fillDcScans g.ncomps 0 0 ++
      fillScans g.ncomps 1 8 0 2 ++
      fillScans g.ncomps 9 63 0 2 ++
      fillScans g.ncomps 1 63 2 1 ++
      fillScans g.ncomps 1 63 1 0
    else
      fillDcScans g.ncomps 0 1 ++
      fillScans g.ncomps 1 5 0 2 ++
      fillScans g.ncomps 6 63 0 2 ++
      fillScans g.ncomps 1 63 2 1 ++
      fillDcScans g.ncomps 1 0 ++
      fillScans g.ncomps 1 63 1 0

/-- The luma part of the search script (/repo/jcparam.c:790-812). -/
def searchLuma (ncomps : Nat) (dcMode : Int) : List Scan :=
  (if dcMode = 0 then fillDcScans ncomps 0 0 else fillDcScans 1 0 0) ++
  fillAScan 0 1 8 0 0 ++ fillAScan 0 9 63 0 0 ++
  ((List.range 3).flatMap fun (Al : Nat) =>
    fillAScan 0 1 63 (Al + 1) Al ++ fillAScan 0 1 8 0 (Al + 1) ++ fillAScan 0 9 63 0 (Al + 1)) ++
  fillAScan 0 1 63 0 0 ++
  ([2, 8, 5, 12, 18].flatMap fun (f : Int) => fillAScan 0 1 f 0 0 ++ fillAScan 0 (f + 1) 63 0 0)

/-- The chroma part of the search script (/repo/jcparam.c:818-848). -/
def searchChroma : List Scan :=
  fillAScanPair 1 0 0 0 0 ++ fillAScan 1 0 0 0 0 ++ fillAScan 2 0 0 0 0 ++
  fillAScan 1 1 8 0 0 ++ fillAScan 1 9 63 0 0 ++ fillAScan 2 1 8 0 0 ++ fillAScan 2 9 63 0 0 ++
  ((List.range 2).flatMap fun (Al : Nat) =>
    fillAScan 1 1 63 (Al + 1) Al ++ fillAScan 2 1 63 (Al + 1) Al ++
    fillAScan 1 1 8 0 (Al + 1) ++ fillAScan 1 9 63 0 (Al + 1) ++
    fillAScan 2 1 8 0 (Al + 1) ++ fillAScan 2 9 63 0 (Al + 1)) ++
  fillAScan 1 1 63 0 0 ++ fillAScan 2 1 63 0 0 ++
  ([2, 8, 5, 12, 18].flatMap fun (f : Int) =>
    fillAScan 1 1 f 0 0 ++ fillAScan 1 (f + 1) 63 0 0 ++
    fillAScan 2 1 f 0 0 ++ fillAScan 2 (f + 1) 63 0 0)

/-- jpeg_search_progression (/repo/jcparam.c:734-852): announced number of scans and the scans
written, or none when it returns FALSE. -/
def searchScript (g : Cfg) : Option (Nat × List Scan) :=
  if g.custom then some (64, searchLuma g.ncomps g.dcMode ++ searchChroma)
  else if g.ncomps = 1 then some (23, searchLuma g.ncomps g.dcMode)
  else none

/-- The result of a call: what is left in `cinfo`. -/
structure Installed where
  /-- script_space_size: number of elements in the allocated array -/
  space : Nat
  /-- num_scans -/
  nscans : Nat
  /-- elements written from scan_info[0] on -/
  written : List Scan
deriving DecidableEq, Repr

/-- jpeg_simple_progression (/repo/jcparam.c:860-1006), called in state CSTATE_START; `space` is
`script_space`/`script_space_size` on entry (none = NULL).  Allocation (/repo/jcparam.c:765-773 and
:919-926) replaces the space when it is too small. -/
def simpleProgression (g : Cfg) (space : Option Nat) : Installed :=
  match (if g.optScans then searchScript g else none) with
  | some (nscans, fill) =>
    let size := match space with
      | none => max nscans 64
      | some sz => if sz < nscans then max nscans 64 else sz
    ⟨size, nscans, fill⟩
  | none =>
    let nscans := announced g
    let size := match space with
      | none => max nscans 10
      | some sz => if sz < nscans then max nscans 10 else sz
    ⟨size, nscans, simpleScript g⟩

/-! ## Specification of completeness -/

/-- Every bit of every coefficient has been sent at the end of the script. -/
def Complete (n : Nat) (script : List Scan) : Prop :=
  ∀ c < n, ∀ k < 64, ∃ s, (script.filter (·.covers c k)).getLast? = some s ∧ s.Al = 0

/-! ## Proofs -/

theorem legal_prec {n prec : Nat} {script : List Scan} (h : LegalProg n 8 script) :
    LegalProg n prec script := by
  refine ⟨h.comps, ?_, h.bits, h.dcFirst, h.dcSent⟩
  intro s hs
  have := h.params s hs
  unfold ProgParamsOK at this ⊢
  simp only [show ¬ (8 : Nat) = 12 by omega, if_false] at this
  simp only
  split <;> omega

theorem fillScans_length (n : Nat) (Ss Se Ah Al : Int) : (fillScans n Ss Se Ah Al).length = n := by
  simp [fillScans]

theorem fillDcScans_length (n : Nat) (Ah Al : Int) :
    (fillDcScans n Ah Al).length = if n ≤ 4 then 1 else n := by
  unfold fillDcScans
  split
  · simp
  · rw [fillScans_length]

theorem fillScans_filter (n : Nat) (Ss Se Ah Al : Int) (c k : Nat) :
    (fillScans n Ss Se Ah Al).filter (·.covers c k) =
      if c < n ∧ Ss ≤ k ∧ (k : Int) ≤ Se then [⟨[(c : Int)], Ss, Se, Ah, Al⟩] else [] := by
  unfold fillScans
  induction n with
  | zero => simp
  | succ n ih =>
    rw [List.range_succ, List.map_append, List.filter_append, ih]
    by_cases hk : Ss ≤ (k : Int) ∧ (k : Int) ≤ Se
    · by_cases h1 : c < n
      · have h2 : ¬ (c : Int) = n := by omega
        have h3 : c < n + 1 := by omega
        simp [Scan.covers, Scan.has, hk, h1, h2, h3]
      · by_cases h2 : c = n
        · subst h2
          simp [Scan.covers, Scan.has, hk]
        · have h3 : ¬ (c : Int) = n := by omega
          have h4 : ¬ c < n + 1 := by omega
          simp [Scan.covers, Scan.has, h1, h3, h4]
    · have e1 : ¬ (c < n ∧ Ss ≤ (k : Int) ∧ (k : Int) ≤ Se) := fun h => hk h.2
      have e2 : ¬ (c < n + 1 ∧ Ss ≤ (k : Int) ∧ (k : Int) ≤ Se) := fun h => hk h.2
      rw [if_neg e1, if_neg e2]
      simp only [List.map_cons, List.map_nil, List.nil_append, List.filter_eq_nil_iff,
        List.mem_singleton, forall_eq, Scan.covers, Bool.and_eq_true, decide_eq_true_eq]
      exact fun h => hk h.2

/-- The scan of `fillDcScans` that carries component c. -/
def dcScan (n c : Nat) (Ah Al : Int) : Scan :=
  if n ≤ 4 then ⟨(List.range n).map fun (ci : Nat) => (ci : Int), 0, 0, Ah, Al⟩
  else ⟨[(c : Int)], 0, 0, Ah, Al⟩

theorem mem_range_int (n c : Nat) :
    (c : Int) ∈ (List.range n).map (fun (ci : Nat) => (ci : Int)) ↔ c < n := by
  simp only [List.mem_map, List.mem_range]
  constructor
  · rintro ⟨a, ha, hb⟩; omega
  · intro h; exact ⟨c, h, rfl⟩

theorem fillDcScans_filter (n : Nat) (Ah Al : Int) (c k : Nat) :
    (fillDcScans n Ah Al).filter (·.covers c k) =
      if c < n ∧ k = 0 then [dcScan n c Ah Al] else [] := by
  unfold fillDcScans dcScan
  by_cases h : n ≤ 4
  · rw [if_pos h, if_pos h]
    by_cases h2 : c < n ∧ k = 0
    · rw [if_pos h2]
      have := (mem_range_int n c).2 h2.1
      simp only [List.filter_cons, List.filter_nil, Scan.covers, Scan.has, this, h2.2]
      simp
    · rw [if_neg h2, List.filter_eq_nil_iff]
      intro s hs
      rw [List.mem_singleton] at hs
      subst hs
      unfold Scan.covers Scan.has
      simp only [mem_range_int, Bool.and_eq_true, decide_eq_true_eq]
      omega
  · rw [if_neg h, if_neg h, fillScans_filter]
    by_cases h2 : c < n ∧ k = 0
    · rw [if_pos h2, if_pos (by omega)]
    · rw [if_neg h2, if_neg (by omega)]

theorem fillScans_mem {n : Nat} {Ss Se Ah Al : Int} {s : Scan} (h : s ∈ fillScans n Ss Se Ah Al) :
    ∃ c : Nat, c < n ∧ s = ⟨[(c : Int)], Ss, Se, Ah, Al⟩ := by
  unfold fillScans at h
  rw [List.mem_map] at h
  obtain ⟨c, hc, rfl⟩ := h
  exact ⟨c, List.mem_range.1 hc, rfl⟩

theorem fillScans_ok {n : Nat} {Ss Se Ah Al : Int} (h : 0 ≤ Ss ∧ Ss ≤ Se ∧ Se < 64 ∧ 0 ≤ Ah ∧
    Ah ≤ 10 ∧ 0 ≤ Al ∧ Al ≤ 10 ∧ (Ss = 0 → Se = 0)) :
    ∀ s ∈ fillScans n Ss Se Ah Al, CompsOK n s ∧ ProgParamsOK 8 s := by
  intro s hs
  obtain ⟨c, hc, rfl⟩ := fillScans_mem hs
  refine ⟨⟨by simp, by simp, by simp; omega, by simp⟩, ?_⟩
  unfold ProgParamsOK
  simp
  omega

theorem range_int_pairwise (n : Nat) :
    ((List.range n).map fun (ci : Nat) => (ci : Int)).Pairwise (· < ·) := by
  rw [List.pairwise_map]
  exact List.pairwise_lt_range.imp (fun h => by omega)

theorem fillDcScans_ok {n : Nat} (hn : 1 ≤ n) {Ah Al : Int} (h : 0 ≤ Ah ∧
    Ah ≤ 10 ∧ 0 ≤ Al ∧ Al ≤ 10) :
    ∀ s ∈ fillDcScans n Ah Al, CompsOK n s ∧ ProgParamsOK 8 s := by
  unfold fillDcScans
  split
  · intro s hs
    rw [List.mem_singleton] at hs
    subst hs
    refine ⟨⟨by simpa using hn, by simpa, ?_, range_int_pairwise n⟩, ?_⟩
    · intro c hc
      simp only [List.mem_map, List.mem_range] at hc
      obtain ⟨a, ha, rfl⟩ := hc
      omega
    · unfold ProgParamsOK
      simp
      omega
  · exact fillScans_ok (by omega)

/-- `DcFirst`/`dcFirst` for a script that starts with a scan set covering every DC. -/
theorem dcFirst_of_prefix {n : Nat} (Ah Al : Int) (rest : List Scan)
    (hC : ∀ s ∈ fillDcScans n Ah Al ++ rest, CompsOK n s) :
    ∀ pre s post, fillDcScans n Ah Al ++ rest = pre ++ s :: post → s.Ss ≠ 0 → ∀ c : Nat, s.has c →
      ∃ t ∈ pre, t.covers c 0 := by
  intro pre s post e hs c hc
  have hcn : c < n := by
    have := (hC s (by rw [e]; simp)).2.2.1 c (by simpa [Scan.has] using hc)
    omega
  -- the DC scans have Ss = 0, so s lies in rest
  have hS0 : ∀ t ∈ fillDcScans n Ah Al, t.Ss = 0 := by
    intro t ht
    unfold fillDcScans at ht
    split at ht
    · rw [List.mem_singleton] at ht; subst ht; rfl
    · obtain ⟨x, -, rfl⟩ := fillScans_mem ht; rfl
  have hmem : dcScan n c Ah Al ∈ fillDcScans n Ah Al ∧ (dcScan n c Ah Al).covers c 0 := by
    have : dcScan n c Ah Al ∈ (fillDcScans n Ah Al).filter (·.covers c 0) := by
      rw [fillDcScans_filter, if_pos ⟨hcn, rfl⟩]; simp
    rw [List.mem_filter] at this
    exact this
  rw [List.append_eq_append_iff] at e
  rcases e with ⟨a, rfl, -⟩ | ⟨a, ha, hb⟩
  · exact ⟨_, List.mem_append_left _ hmem.1, hmem.2⟩
  · cases a with
    | nil =>
      rw [List.append_nil] at ha
      rw [← ha]
      exact ⟨_, hmem.1, hmem.2⟩
    | cons x a =>
      injection hb with h1 h2
      subst h1
      exact absurd (hS0 s (by rw [ha]; simp)) hs

/-- **C17 (count).** Exactly as many scans are written as announced. -/
theorem simpleScript_length (g : Cfg) : (simpleScript g).length = announced g := by
  unfold simpleScript announced
  by_cases h : g.custom = true
  · have h3 : g.ncomps = 3 := by
      unfold Cfg.custom at h; simp at h; exact h.1
    simp only [h, if_true]
    cases g.maxProfile
    · simp [fillDcScans_length, h3, fillAScan]
    · simp only [if_true]
      by_cases h0 : g.dcMode = 0
      · simp [h0, fillDcScans_length, h3, fillAScan]
      · by_cases h1 : g.dcMode = 1
        · simp [h1, fillAScan]
        · simp [h0, h1, fillDcScans_length, fillAScan, fillAScanPair]
  · simp only [h, if_false]
    cases g.maxProfile
    · simp only [Bool.false_eq_true, if_false, List.length_append, fillScans_length,
        fillDcScans_length]
      by_cases h4 : g.ncomps ≤ 4
      · rw [if_pos h4, if_neg (by omega)]; omega
      · rw [if_neg h4, if_pos (by omega)]; omega
    · simp only [if_true, Bool.false_eq_true, if_false, List.length_append, fillScans_length,
        fillDcScans_length]
      by_cases h4 : g.ncomps ≤ 4
      · rw [if_pos h4, if_neg (by omega)]; omega
      · rw [if_neg h4, if_pos (by omega)]; omega

theorem searchScript_length (g : Cfg) (nscans : Nat) (fill : List Scan)
    (h : searchScript g = some (nscans, fill)) : fill.length = nscans := by
  unfold searchScript at h
  have hl : ∀ n, (n = 3 ∨ n = 1) → (searchLuma n g.dcMode).length = 23 := by
    intro n hn
    unfold searchLuma
    by_cases h0 : g.dcMode = 0
    · rw [if_pos h0]; rcases hn with rfl | rfl <;> decide
    · rw [if_neg h0]; rcases hn with rfl | rfl <;> decide
  by_cases hc : g.custom = true
  · have h3 : g.ncomps = 3 := by
      unfold Cfg.custom at hc; simp at hc; exact hc.1
    rw [if_pos hc] at h
    simp only [Option.some.injEq, Prod.mk.injEq] at h
    obtain ⟨rfl, rfl⟩ := h
    rw [List.length_append, hl _ (.inl h3)]
    decide
  · rw [if_neg hc] at h
    by_cases h1 : g.ncomps = 1
    · rw [if_pos h1] at h
      simp only [Option.some.injEq, Prod.mk.injEq] at h
      obtain ⟨rfl, rfl⟩ := h
      exact hl _ (.inr h1)
    · rw [if_neg h1] at h; cases h

/-- **C17 (space).** Whatever script space an earlier call left behind, the call writes exactly
`num_scans` elements and they fit in the space it then has. -/
theorem simpleProgression_fits (g : Cfg) (space : Option Nat) :
    (simpleProgression g space).written.length = (simpleProgression g space).nscans ∧
    (simpleProgression g space).nscans ≤ (simpleProgression g space).space := by
  unfold simpleProgression
  have aux : ∀ (ns d : Nat), ns ≤ (match space with
      | none => max ns d
      | some sz => if sz < ns then max ns d else sz) := by
    intro ns d
    cases space with
    | none => simp only; omega
    | some sz => simp only; split <;> omega
  cases hs : (if g.optScans then searchScript g else none) with
  | none =>
    exact ⟨simpleScript_length g, aux _ _⟩
  | some p =>
    obtain ⟨ns, fill⟩ := p
    refine ⟨?_, aux _ _⟩
    have : searchScript g = some (ns, fill) := by
      by_cases h : g.optScans = true
      · rw [if_pos h] at hs; exact hs
      · rw [if_neg h] at hs; cases hs
    exact searchScript_length g ns fill this

/-- Concrete completeness check. -/
def completeB (n : Nat) (script : List Scan) : Bool :=
  (List.range n).all fun c => (List.range 64).all fun k =>
    match (script.filter (·.covers c k)).getLast? with
    | some s => s.Al == 0
    | none => false

theorem completeB_iff (n : Nat) (script : List Scan) :
    completeB n script = true ↔ Complete n script := by
  unfold completeB Complete
  simp only [List.all_eq_true, List.mem_range]
  apply forall₂_congr; intro c _
  apply forall₂_congr; intro k _
  cases (script.filter (·.covers c k)).getLast? with
  | none => simp
  | some s => simp

/-- The custom scripts. -/
theorem custom_legal (g : Cfg) (h : g.custom = true) :
    LegalProg 3 8 (simpleScript g) ∧ Complete 3 (simpleScript g) := by
  have h3 : g.ncomps = 3 := by
    unfold Cfg.custom at h; simp at h; exact h.1
  have key : validate 3 8 (simpleScript g) = .ok .progressive ∧
      completeB 3 (simpleScript g) = true := by
    unfold simpleScript
    rw [if_pos h, h3]
    cases g.maxProfile with
    | false =>
      rw [if_neg (by simp)]
      decide +kernel
    | true =>
      rw [if_pos rfl]
      by_cases h0 : g.dcMode = 0
      · rw [if_pos h0]; decide +kernel
      · rw [if_neg h0]
        by_cases h1 : g.dcMode = 1
        · rw [if_pos h1]; decide +kernel
        · rw [if_neg h1]; decide +kernel
  exact ⟨(validate_progressive_iff 3 8 (by omega) _).1 key.1, (completeB_iff _ _).1 key.2⟩

theorem general_max_legal (n : Nat) (hn : 1 ≤ n) (script : List Scan)
    (hs : script = fillDcScans n 0 0 ++ fillScans n 1 8 0 2 ++ fillScans n 9 63 0 2 ++
      fillScans n 1 63 2 1 ++ fillScans n 1 63 1 0) :
    LegalProg n 8 script ∧ Complete n script := by
  have hf : ∀ c k, script.filter (·.covers c k) =
      (if c < n ∧ k = 0 then [dcScan n c 0 0] else []) ++
      (if c < n ∧ (1 : Int) ≤ k ∧ (k : Int) ≤ 8 then [⟨[(c : Int)], 1, 8, 0, 2⟩] else []) ++
      (if c < n ∧ (9 : Int) ≤ k ∧ (k : Int) ≤ 63 then [⟨[(c : Int)], 9, 63, 0, 2⟩] else []) ++
      (if c < n ∧ (1 : Int) ≤ k ∧ (k : Int) ≤ 63 then [⟨[(c : Int)], 1, 63, 2, 1⟩] else []) ++
      (if c < n ∧ (1 : Int) ≤ k ∧ (k : Int) ≤ 63 then [⟨[(c : Int)], 1, 63, 1, 0⟩] else []) := by
    intro c k
    subst hs
    simp only [List.filter_append, fillScans_filter, fillDcScans_filter]
  have hdc : ∀ c, (dcScan n c 0 0).Ah = 0 ∧ (dcScan n c 0 0).Al = 0 := by
    intro c; unfold dcScan; split <;> simp
  have hok : ∀ s ∈ script, CompsOK n s ∧ ProgParamsOK 8 s := by
    intro s hm
    subst hs
    simp only [List.mem_append] at hm
    rcases hm with (((h | h) | h) | h) | h
    · exact fillDcScans_ok hn (by omega) s h
    all_goals exact fillScans_ok (by omega) s h
  -- the three kinds of position
  have hcase : ∀ c k, script.filter (·.covers c k) =
      if c < n ∧ k = 0 then [dcScan n c 0 0]
      else if c < n ∧ 1 ≤ k ∧ k ≤ 8 then [⟨[(c : Int)], 1, 8, 0, 2⟩, ⟨[(c : Int)], 1, 63, 2, 1⟩,
        ⟨[(c : Int)], 1, 63, 1, 0⟩]
      else if c < n ∧ 9 ≤ k ∧ k ≤ 63 then [⟨[(c : Int)], 9, 63, 0, 2⟩, ⟨[(c : Int)], 1, 63, 2, 1⟩,
        ⟨[(c : Int)], 1, 63, 1, 0⟩]
      else [] := by
    intro c k
    rw [hf]
    by_cases hc : c < n
    · by_cases k0 : k = 0
      · simp [hc, k0]
      · by_cases k1 : k ≤ 8
        · rw [if_neg (by omega), if_pos (by omega), if_neg (by omega), if_pos (by omega),
            if_pos (by omega), if_neg (by omega), if_pos (by omega)]; rfl
        · by_cases k2 : k ≤ 63
          · rw [if_neg (by omega), if_neg (by omega), if_pos (by omega), if_pos (by omega),
              if_pos (by omega), if_neg (by omega), if_neg (by omega), if_pos (by omega)]; rfl
          · rw [if_neg (by omega), if_neg (by omega), if_neg (by omega), if_neg (by omega),
              if_neg (by omega), if_neg (by omega), if_neg (by omega), if_neg (by omega)]; rfl
    · simp [hc]
  refine ⟨⟨fun s h => (hok s h).1, fun s h => (hok s h).2, ?_, ?_, ?_⟩, ?_⟩
  · intro c k
    rw [hcase]
    split
    · simp [BitsInOrder, hdc]
    · split
      · simp [BitsInOrder]
      · split
        · simp [BitsInOrder]
        · simp [BitsInOrder]
  · subst hs
    simp only [List.append_assoc] at hok ⊢
    exact dcFirst_of_prefix 0 0 _ (fun s h => (hok s h).1)
  · intro c hc
    have : dcScan n c 0 0 ∈ script.filter (·.covers c 0) := by
      rw [hcase, if_pos ⟨hc, rfl⟩]; simp
    rw [List.mem_filter] at this
    exact ⟨_, this⟩
  · intro c hc k hk
    rw [hcase]
    by_cases k0 : k = 0
    · rw [if_pos ⟨hc, k0⟩]; exact ⟨_, rfl, (hdc c).2⟩
    · rw [if_neg (by omega)]
      by_cases k1 : k ≤ 8
      · rw [if_pos (by omega)]; exact ⟨_, rfl, rfl⟩
      · rw [if_neg (by omega), if_pos (by omega)]; exact ⟨_, rfl, rfl⟩

theorem general_fast_legal (n : Nat) (hn : 1 ≤ n) (script : List Scan)
    (hs : script = fillDcScans n 0 1 ++ fillScans n 1 5 0 2 ++ fillScans n 6 63 0 2 ++
      fillScans n 1 63 2 1 ++ fillDcScans n 1 0 ++ fillScans n 1 63 1 0) :
    LegalProg n 8 script ∧ Complete n script := by
  have hf : ∀ c k, script.filter (·.covers c k) =
      (if c < n ∧ k = 0 then [dcScan n c 0 1] else []) ++
      (if c < n ∧ (1 : Int) ≤ k ∧ (k : Int) ≤ 5 then [⟨[(c : Int)], 1, 5, 0, 2⟩] else []) ++
      (if c < n ∧ (6 : Int) ≤ k ∧ (k : Int) ≤ 63 then [⟨[(c : Int)], 6, 63, 0, 2⟩] else []) ++
      (if c < n ∧ (1 : Int) ≤ k ∧ (k : Int) ≤ 63 then [⟨[(c : Int)], 1, 63, 2, 1⟩] else []) ++
      (if c < n ∧ k = 0 then [dcScan n c 1 0] else []) ++
      (if c < n ∧ (1 : Int) ≤ k ∧ (k : Int) ≤ 63 then [⟨[(c : Int)], 1, 63, 1, 0⟩] else []) := by
    intro c k
    subst hs
    simp only [List.filter_append, fillScans_filter, fillDcScans_filter]
  have hdc : ∀ c Ah Al, (dcScan n c Ah Al).Ah = Ah ∧ (dcScan n c Ah Al).Al = Al := by
    intro c Ah Al; unfold dcScan; split <;> simp
  have hok : ∀ s ∈ script, CompsOK n s ∧ ProgParamsOK 8 s := by
    intro s hm
    subst hs
    simp only [List.mem_append] at hm
    rcases hm with ((((h | h) | h) | h) | h) | h
    · exact fillDcScans_ok hn (by omega) s h
    · exact fillScans_ok (by omega) s h
    · exact fillScans_ok (by omega) s h
    · exact fillScans_ok (by omega) s h
    · exact fillDcScans_ok hn (by omega) s h
    · exact fillScans_ok (by omega) s h
  have hcase : ∀ c k, script.filter (·.covers c k) =
      if c < n ∧ k = 0 then [dcScan n c 0 1, dcScan n c 1 0]
      else if c < n ∧ 1 ≤ k ∧ k ≤ 5 then [⟨[(c : Int)], 1, 5, 0, 2⟩, ⟨[(c : Int)], 1, 63, 2, 1⟩,
        ⟨[(c : Int)], 1, 63, 1, 0⟩]
      else if c < n ∧ 6 ≤ k ∧ k ≤ 63 then [⟨[(c : Int)], 6, 63, 0, 2⟩, ⟨[(c : Int)], 1, 63, 2, 1⟩,
        ⟨[(c : Int)], 1, 63, 1, 0⟩]
      else [] := by
    intro c k
    rw [hf]
    by_cases hc : c < n
    · by_cases k0 : k = 0
      · simp [hc, k0]
      · have z : ¬ (c < n ∧ k = 0) := by omega
        simp only [z, if_false]
        by_cases k1 : k ≤ 5
        · rw [if_pos (by omega), if_neg (by omega), if_pos (by omega),
            if_pos (by omega), if_pos (by omega)]; rfl
        · by_cases k2 : k ≤ 63
          · rw [if_neg (by omega), if_pos (by omega), if_pos (by omega),
              if_pos (by omega), if_neg (by omega), if_pos (by omega)]; rfl
          · rw [if_neg (by omega), if_neg (by omega), if_neg (by omega),
              if_neg (by omega), if_neg (by omega), if_neg (by omega)]; rfl
    · simp [hc]
  refine ⟨⟨fun s h => (hok s h).1, fun s h => (hok s h).2, ?_, ?_, ?_⟩, ?_⟩
  · intro c k
    rw [hcase]
    split
    · simp [BitsInOrder, hdc]
    · split
      · simp [BitsInOrder]
      · split
        · simp [BitsInOrder]
        · simp [BitsInOrder]
  · subst hs
    simp only [List.append_assoc] at hok ⊢
    exact dcFirst_of_prefix 0 1 _ (fun s h => (hok s h).1)
  · intro c hc
    have : dcScan n c 0 1 ∈ script.filter (·.covers c 0) := by
      rw [hcase, if_pos ⟨hc, rfl⟩]; simp
    rw [List.mem_filter] at this
    exact ⟨_, this⟩
  · intro c hc k hk
    rw [hcase]
    by_cases k0 : k = 0
    · rw [if_pos ⟨hc, k0⟩]; exact ⟨_, rfl, (hdc c _ _).2⟩
    · rw [if_neg (by omega)]
      by_cases k1 : k ≤ 5
      · rw [if_pos (by omega)]; exact ⟨_, rfl, rfl⟩
      · rw [if_neg (by omega), if_pos (by omega)]; exact ⟨_, rfl, rfl⟩

/-- **C17.** For every component count, colour space, profile and DC scan mode, the script
jpeg_simple_progression installs (without scan search) passes the validator as progressive and sends
every bit of every coefficient. -/
theorem simpleProgression_legal (g : Cfg) (hn : 1 ≤ g.ncomps) (hopt : g.optScans = false)
    (prec : Nat) (space : Option Nat) :
    validate g.ncomps prec (simpleProgression g space).written = .ok .progressive ∧
    Complete g.ncomps (simpleProgression g space).written := by
  have hw : (simpleProgression g space).written = simpleScript g := by
    unfold simpleProgression; simp [hopt]
  rw [hw, validate_progressive_iff _ _ hn]
  suffices h : LegalProg g.ncomps 8 (simpleScript g) ∧ Complete g.ncomps (simpleScript g) from
    ⟨legal_prec h.1, h.2⟩
  by_cases hc : g.custom = true
  · have h3 : g.ncomps = 3 := by
      unfold Cfg.custom at hc; simp at hc; exact hc.1
    rw [h3]
    exact custom_legal g hc
  · cases hm : g.maxProfile with
    | true =>
      apply general_max_legal _ hn
      unfold simpleScript; simp [hc, hm]
    | false =>
      apply general_fast_legal _ hn
      unfold simpleScript; simp [hc, hm]

/-- Also with scan search on, when the search does not apply (component count other than 1 and not
3-component YCbCr), the fallback script is legal and complete. -/
theorem simpleProgression_search_fallback (g : Cfg) (hn : 1 < g.ncomps) (hc : g.custom = false)
    (prec : Nat) (space : Option Nat) :
    validate g.ncomps prec (simpleProgression g space).written = .ok .progressive ∧
    Complete g.ncomps (simpleProgression g space).written := by
  have hs : searchScript g = none := by
    unfold searchScript
    rw [if_neg (by simp [hc]), if_neg (by omega)]
  have h1 := simpleProgression_legal { g with optScans := false } (by simp; omega) rfl prec space
  have e : (simpleProgression g space).written =
      (simpleProgression { g with optScans := false } space).written := by
    unfold simpleProgression
    simp [hs]
    rfl
  rw [e]
  exact h1

-- Non-vacuity: a 7-component unknown colour space with the fastest profile gets 42 scans.
example : (simpleProgression ⟨7, false, false, 0, false⟩ (some 10)).nscans = 42 ∧
    (simpleProgression ⟨7, false, false, 0, false⟩ (some 10)).space = 42 := by decide +kernel
example : validate 7 8 (simpleProgression ⟨7, false, false, 0, false⟩ none).written =
    .ok .progressive :=
  (simpleProgression_legal ⟨7, false, false, 0, false⟩ (by decide +kernel) rfl 8 none).1
-- The validator does reject: a repeated bit, an AC scan before DC, and a missing component.
example : validate 1 8 [⟨[0], 0, 0, 0, 0⟩, ⟨[0], 0, 0, 0, 0⟩] = .error (.badProgScript 2) := by
  decide +kernel
example : validate 2 8 [⟨[0], 0, 0, 0, 0⟩, ⟨[1], 1, 5, 0, 0⟩] = .error (.badProgScript 2) := by
  decide +kernel
example : validate 2 8 [⟨[0], 0, 0, 0, 0⟩] = .error .missingData := by decide +kernel
example : validate 3 8 [⟨[0, 1, 2], 4, 0, 0, 7⟩] = .ok .lossless := by decide +kernel
example : validate 3 8 [⟨[0, 2], 0, 63, 0, 0⟩, ⟨[1], 0, 63, 0, 0⟩] = .ok .sequential := by
  decide +kernel

end Verif.Script
