import Verif.Mark.Safe
/-
C11, second part: the remaining routines, one whole marker, the whole of read_markers.
-/
namespace Verif.Mark
open Verif

/-- get_sos: what a successful call leaves in memory, whatever was there before. -/
structure SosDone (m : Mem) (w : Writes) : Prop where
  inb : AllIn (m .ncomp) w
  scan : ∃ l : List Nat, 1 ≤ l.length ∧ l.length ≤ 4 ∧ (∀ c ∈ l, 1 ≤ c ∧ c ≤ min (m .ncomp) 4) ∧ l.Nodup ∧
    ∀ m', apply w m' .nScan = l.length ∧ ∀ i (h : i < l.length), apply w m' (.cur i) = l[i]

theorem InBounds_mono {a b : Nat} (h : a ≤ b) {s : Slot} (hs : s.InBounds a) : s.InBounds b := by
  cases s <;> simp only [Slot.InBounds] at hs ⊢ <;> omega

theorem AllIn.mono {a b : Nat} (h : a ≤ b) {w : Writes} (hw : AllIn a w) : AllIn b w :=
  fun x hx => ⟨InBounds_mono h (hw x hx).1, (hw x hx).2⟩

theorem RoutineOk.withLen {f : Nat → P Unit} {Q S : Writes → Prop}
    (h : ∀ l < 65536, Tri (f l) (fun _ w n => n + 2 = l ∧ Q w) S) (hs : S []) : RoutineOk (in2Bytes >>= f) Q S :=
  fun b hb => Mark.withLen h hs b hb

/-- get_sos after its first test, as a function of the length word. -/
def sosBody (m : Mem) (length : Nat) : P Unit := do
  let n ← inByte
  if length ≠ n * 2 + 6 ∨ n < 1 ∨ n > 4 then fail .badLength
  else
    put .nScan n
    puts [(.cur 0, 0), (.cur 1, 0), (.cur 2, 0), (.cur 3, 0)]
    sosComps m n []
    let c ← inByte
    put .Ss c
    let c ← inByte
    put .Se c
    let c ← inByte
    put .Ah ((c >>> 4) &&& 15)
    put .Al (c &&& 15)
    put .rstNum 0
    put .scanNo (m .scanNo + 1)

theorem getSos_ok (m : Mem) : RoutineOk (getSos m) (SosDone m) (AllIn (m .ncomp)) := by
  unfold getSos
  split
  · exact RoutineOk.fail (by decide)
  show RoutineOk (in2Bytes >>= sosBody m) _ _
  apply RoutineOk.withLen
  · intro l hl
    unfold sosBody
    apply Tri.bind (Q1 := fun c w n => w = [] ∧ n = 1 ∧ c < 256)
    · exact Tri.byte (fun c hc => ⟨rfl, rfl, hc⟩) (AllIn.nil _)
    rintro n _ _ ⟨rfl, rfl, hn⟩
    apply Tri.ite
    · intro _; exact Tri.fail (by decide)
    intro hne
    apply Tri.bind (Q1 := fun _ w k => w = [(Slot.nScan, n)] ∧ k = 0)
    · exact Tri.put ⟨rfl, rfl⟩
    rintro _ _ _ ⟨rfl, rfl⟩
    apply Tri.bind (Q1 := fun _ w k => w = [(Slot.cur 0, 0), (.cur 1, 0), (.cur 2, 0), (.cur 3, 0)] ∧ k = 0)
    · exact Tri.puts ⟨rfl, rfl⟩
    rintro _ _ _ ⟨rfl, rfl⟩
    have h0 : AllIn (m .ncomp) ([(Slot.nScan, n)] ++ [(Slot.cur 0, 0), (.cur 1, 0), (.cur 2, 0), (.cur 3, 0)]) := by
      intro x hx
      simp only [List.cons_append, List.nil_append, List.mem_cons, List.not_mem_nil, or_false] at hx
      rcases hx with rfl | rfl | rfl | rfl | rfl
      · exact ⟨trivial, show n ≤ 4 by omega, trivial⟩
      all_goals exact ⟨show _ < 4 by omega, show 0 ≤ 4 by omega, trivial⟩
    apply Tri.bind (Q1 := fun _ w k => k = 2 * n ∧ AllIn (min (m .ncomp) 4) w ∧ ∃ l : List Nat, l.length = n ∧
        (∀ c ∈ l, 1 ≤ c ∧ c ≤ min (m .ncomp) 4) ∧ l.Nodup ∧ SosComps m 0 l w)
    · refine (sosComps_tri m n [] (by simp; omega)).mono ?_ ?_
      · rintro _ w k ⟨h1, h2, l, h3, h4, h5, h6⟩
        exact ⟨h1, h2, l, h3, h4, by simpa using h5 List.nodup_nil, by simpa using h6⟩
      · intro w hw
        have := h0.append (hw.mono (Nat.min_le_left _ _))
        simpa using this
    rintro _ wc _ ⟨rfl, hwc, l, hll, hlr, hnd, hs1, hs2⟩
    have hc := h0.append (hwc.mono (Nat.min_le_left _ _))
    have step : ∀ (wt : Writes), AllIn (m .ncomp) wt → AllIn (m .ncomp) ([] ++ ([(Slot.nScan, n)] ++
        ([(Slot.cur 0, 0), (.cur 1, 0), (.cur 2, 0), (.cur 3, 0)] ++ (wc ++ wt)))) := by
      intro wt hwt
      have := hc.append hwt
      simpa using this
    apply Tri.bind (Q1 := fun c w n => w = [] ∧ n = 1 ∧ c < 256)
    · exact Tri.byte (fun c hc => ⟨rfl, rfl, hc⟩) (step _ (AllIn.nil _))
    rintro ss _ _ ⟨rfl, rfl, hss⟩
    have a1 : AllIn (m .ncomp) [(Slot.Ss, ss)] := AllIn.one trivial hss
    apply Tri.bind (Q1 := fun _ w k => w = [(Slot.Ss, ss)] ∧ k = 0)
    · exact Tri.put ⟨rfl, rfl⟩
    rintro _ _ _ ⟨rfl, rfl⟩
    apply Tri.bind (Q1 := fun c w n => w = [] ∧ n = 1 ∧ c < 256)
    · exact Tri.byte (fun c hc => ⟨rfl, rfl, hc⟩) (step _ ((AllIn.nil _).append (a1.append (AllIn.nil _))))
    rintro se _ _ ⟨rfl, rfl, hse⟩
    have a2 : AllIn (m .ncomp) [(Slot.Se, se)] := AllIn.one trivial hse
    apply Tri.bind (Q1 := fun _ w k => w = [(Slot.Se, se)] ∧ k = 0)
    · exact Tri.put ⟨rfl, rfl⟩
    rintro _ _ _ ⟨rfl, rfl⟩
    apply Tri.bind (Q1 := fun c w n => w = [] ∧ n = 1 ∧ c < 256)
    · exact Tri.byte (fun c hc => ⟨rfl, rfl, hc⟩)
        (step _ ((AllIn.nil _).append (a1.append ((AllIn.nil _).append (a2.append (AllIn.nil _))))))
    rintro aa _ _ ⟨rfl, rfl, haa⟩
    apply Tri.bind (Q1 := fun _ w k => w = [(Slot.Ah, (aa >>> 4) &&& 15)] ∧ k = 0)
    · exact Tri.put ⟨rfl, rfl⟩
    rintro _ _ _ ⟨rfl, rfl⟩
    apply Tri.bind (Q1 := fun _ w k => w = [(Slot.Al, aa &&& 15)] ∧ k = 0)
    · exact Tri.put ⟨rfl, rfl⟩
    rintro _ _ _ ⟨rfl, rfl⟩
    apply Tri.bind (Q1 := fun _ w k => w = [(Slot.rstNum, 0)] ∧ k = 0)
    · exact Tri.put ⟨rfl, rfl⟩
    rintro _ _ _ ⟨rfl, rfl⟩
    refine Tri.put ⟨by omega, ?_⟩
    have a3 : AllIn (m .ncomp) [(Slot.Ah, (aa >>> 4) &&& 15)] := AllIn.one trivial (and15_lt _)
    have a4 : AllIn (m .ncomp) [(Slot.Al, aa &&& 15)] := AllIn.one trivial (and15_lt _)
    have a5 : AllIn (m .ncomp) [(Slot.rstNum, 0)] := AllIn.one trivial (show 0 < 8 by omega)
    have a6 : AllIn (m .ncomp) [(Slot.scanNo, m .scanNo + 1)] := AllIn.one trivial trivial
    have ht := a1.append (a2.append (a3.append (a4.append (a5.append a6))))
    generalize hwt : [(Slot.Ss, ss)] ++ ([(Slot.Se, se)] ++ ([(Slot.Ah, (aa >>> 4) &&& 15)] ++
      ([(Slot.Al, aa &&& 15)] ++ ([(Slot.rstNum, 0)] ++ [(Slot.scanNo, m .scanNo + 1)])))) = wt at ht
    have htn : ∀ x ∈ wt, x.1 ≠ .nScan ∧ ∀ i, x.1 ≠ .cur i := by
      subst hwt
      intro x hx
      simp only [List.cons_append, List.nil_append, List.mem_cons, List.not_mem_nil, or_false] at hx
      rcases hx with rfl | rfl | rfl | rfl | rfl | rfl <;> simp
    have heq : ([] ++ ([(Slot.nScan, n)] ++ ([(Slot.cur 0, 0), (.cur 1, 0), (.cur 2, 0), (.cur 3, 0)] ++ (wc ++ ([] ++
        ([(Slot.Ss, ss)] ++ ([] ++ ([(Slot.Se, se)] ++ ([] ++ ([(Slot.Ah, (aa >>> 4) &&& 15)] ++ ([(Slot.Al, aa &&& 15)] ++
        ([(Slot.rstNum, 0)] ++ [(Slot.scanNo, m .scanNo + 1)])))))))))))) =
        ([(Slot.nScan, n)] ++ [(Slot.cur 0, 0), (.cur 1, 0), (.cur 2, 0), (.cur 3, 0)]) ++ (wc ++ wt) := by
      subst hwt; simp
    rw [heq]
    refine ⟨h0.append ((hwc.mono (Nat.min_le_left _ _)).append ht), l, by omega, by omega, hlr, hnd, ?_⟩
    intro m'
    rw [apply_append, apply_append]
    constructor
    · rw [apply_notin (fun x hx => (htn x hx).1), apply_notin, hll]
      · rfl
      · intro x hx
        rcases hs2 x hx with ⟨i, hi, rfl⟩ | ⟨ci, v, -, -, rfl | rfl⟩ <;> simp
    · intro i hi
      rw [apply_notin (fun x hx => (htn x hx).2 i)]
      apply apply_const
      · have := hs1 i hi
        simpa using this
      · intro x hx e
        rcases hs2 x hx with ⟨j, hj, rfl⟩ | ⟨ci, v, -, -, rfl | rfl⟩
        · simp only [Nat.zero_add, Slot.cur.injEq] at e
          subst e; rfl
        · simp at e
        · simp at e
  · exact AllIn.nil _

theorem getDac_ok : RoutineOk getDac (AllIn 0) (AllIn 0) := by
  unfold getDac
  apply RoutineOk.withLen _ (AllIn.nil _)
  intro l hl
  refine (dacLoop_tri (l + 1) _ (by omega) (by omega)).mono ?_ (fun _ h => h)
  rintro _ w n ⟨h1, h2⟩
  exact ⟨by omega, h2⟩

theorem getDht_ok : RoutineOk getDht (AllIn 0) (AllIn 0) := by
  unfold getDht
  apply RoutineOk.withLen _ (AllIn.nil _)
  intro l hl
  refine (dhtLoop_tri (l + 1) _ (by omega) (by omega)).mono ?_ (fun _ h => h)
  rintro _ w n ⟨h1, h2⟩
  exact ⟨by omega, h2⟩

theorem getDqt_ok : RoutineOk getDqt (AllIn 0) (AllIn 0) := by
  unfold getDqt
  apply RoutineOk.withLen _ (AllIn.nil _)
  intro l hl
  refine (dqtLoop_tri (l + 1) _ (by omega) (by omega)).mono ?_ (fun _ h => h)
  rintro _ w n ⟨h1, h2⟩
  exact ⟨by omega, h2⟩

theorem getDri_ok : RoutineOk getDri (AllIn 0) (AllIn 0) := by
  unfold getDri
  apply RoutineOk.withLen _ (AllIn.nil _)
  intro l hl
  apply Tri.ite
  · intro _; exact Tri.fail (by decide)
  intro h4
  apply Tri.bind (Q1 := fun c w n => w = [] ∧ n = 2 ∧ c < 65536)
  · exact Tri.word (fun c hc => ⟨rfl, rfl, hc⟩) (AllIn.nil _)
  rintro c _ _ ⟨rfl, rfl, hc⟩
  exact Tri.put ⟨by omega, AllIn.one trivial hc⟩

/-! ### one whole marker -/

/-- Assignments of a routine started in memory `m`: inside the arrays – comp_info having the num_components entries of
the frame header, which is the one just read or the one already in memory – and of values that fit. -/
def WritesOk (m : Mem) (w : Writes) : Prop :=
  ∀ x ∈ w, (x.1.InBounds (m .ncomp) ∨ ∃ n, (Slot.ncomp, n) ∈ w ∧ x.1.InBounds n) ∧ x.1.Fits x.2

theorem AllIn.ok {m : Mem} {w : Writes} (h : AllIn (m .ncomp) w) : WritesOk m w :=
  fun x hx => ⟨Or.inl (h x hx).1, (h x hx).2.1⟩
theorem AllIn.ok0 {m : Mem} {w : Writes} (h : AllIn 0 w) : WritesOk m w := (h.mono (Nat.zero_le _)).ok
theorem SofIn.ok {m : Mem} {w : Writes} (h : SofIn w) : WritesOk m w := fun x hx => by
  refine ⟨?_, (h x hx).2.1⟩
  rcases (h x hx).1 with h1 | h1
  · exact Or.inl (InBounds_mono (Nat.zero_le _) h1)
  · exact Or.inr h1

theorem SofDone.ok {m : Mem} {p l a : Nat} {w : Writes} (h : SofDone p l a w) : WritesOk m w := by
  obtain ⟨prec, ht, wd, n, wc, rfl, h1, h2, h3, h4, h5⟩ := h
  have := (sofIn_comps (prog := p) (lossless := l) (arith := a) h1 h2.2 h3.2 h4.2 h5)
  intro x hx
  rcases List.mem_append.1 hx with h | h
  · have := this.ok (m := m) x h
    refine ⟨?_, this.2⟩
    rcases this.1 with h' | ⟨k, hk, hk'⟩
    · exact Or.inl h'
    · exact Or.inr ⟨k, by simp only [List.mem_append] at hk ⊢; exact Or.inl hk, hk'⟩
  · simp only [List.mem_singleton] at h
    subst h
    exact ⟨Or.inl trivial, trivial⟩

theorem getSoi_writes (m : Mem) (b : List Nat) :
    match getSoi m b with
    | .ok _ w r => r = b ∧ AllIn 0 w
    | .susp _ => False
    | .err e => e ≠ .bound := by
  by_cases h : m .sawSOI ≠ 0
  · have : getSoi m b = .err .soiDuplicate := by unfold getSoi; rw [if_pos h]; rfl
    rw [this]
    simp
  · unfold getSoi
    rw [if_neg h]
    refine ⟨rfl, ?_⟩
    intro x hx
    rcases List.mem_append.1 hx with h | h
    · obtain ⟨i, hi, hx⟩ := List.mem_flatMap.1 h
      have hi := List.mem_range.1 hi
      simp only [List.mem_cons, List.not_mem_nil, or_false] at hx
      rcases hx with rfl | rfl | rfl
      · exact ⟨hi, show 0 < 16 by omega, trivial⟩
      · exact ⟨hi, show 1 < 256 by omega, trivial⟩
      · exact ⟨hi, show 5 < 256 by omega, trivial⟩
    · simp only [List.mem_cons, List.not_mem_nil, or_false] at h
      rcases h with rfl | rfl | rfl | rfl | rfl | rfl | rfl | rfl | rfl | rfl | rfl | rfl <;>
        refine ⟨trivial, ?_, trivial⟩ <;> first | trivial | (simp only [Slot.Fits]; omega)

/-! ### memory invariant -/

theorem apply_cases (w : Writes) (m : Mem) (s : Slot) :
    (apply w m s = m s ∧ ∀ x ∈ w, x.1 ≠ s) ∨ ∃ x ∈ w, x.1 = s ∧ apply w m s = x.2 := by
  induction w generalizing m with
  | nil => exact Or.inl ⟨rfl, by simp⟩
  | cons x w ih =>
    rw [apply_cons]
    rcases ih (fun t => if t = x.1 then x.2 else m t) with ⟨h, h'⟩ | ⟨y, hy, h1, h2⟩
    · by_cases hs : s = x.1
      · right; exact ⟨x, by simp, hs.symm, by rw [h, if_pos hs]⟩
      · left
        refine ⟨by rw [h, if_neg hs], ?_⟩
        intro y hy
        rcases List.mem_cons.1 hy with rfl | hy
        · exact fun e => hs e.symm
        · exact h' y hy
    · right; exact ⟨y, by simp [hy], h1, h2⟩

/-- Every field in range, nothing outside the arrays ever written, and a frame header seen means a non-empty image. -/
structure MemOk (m : Mem) : Prop where
  fits : ∀ x : Slot, x.Fits (m x)
  oob : ∀ x : Slot, ¬ x.InBounds 255 → m x = 0
  frame : m .sawSOF ≠ 0 → 1 ≤ m .height ∧ 1 ≤ m .width ∧ 1 ≤ m .ncomp

theorem MemOk.ok {m : Mem} (h : MemOk m) {w : Writes} (hw : WritesOk m w)
    (hf : apply w m .sawSOF ≠ 0 → 1 ≤ apply w m .height ∧ 1 ≤ apply w m .width ∧ 1 ≤ apply w m .ncomp) : MemOk (apply w m) := by
  refine ⟨?_, ?_, hf⟩
  · intro x
    rcases apply_cases w m x with ⟨e, -⟩ | ⟨y, hy, rfl, e⟩
    · rw [e]; exact h.fits x
    · rw [e]; exact (hw y hy).2
  · intro x hx
    rcases apply_cases w m x with ⟨e, -⟩ | ⟨y, hy, rfl, e⟩
    · rw [e]; exact h.oob x hx
    · exfalso
      apply hx
      rcases (hw y hy).1 with h1 | ⟨n, hn, h1⟩
      · have : m .ncomp < 256 := h.fits .ncomp
        exact InBounds_mono (by omega) h1
      · have : n < 256 := (hw _ hn).2
        exact InBounds_mono (by omega) h1

theorem AllIn.keep {nc : Nat} {w : Writes} (h : AllIn nc w) (m : Mem) {s : Slot} (hs : ¬ s.Plain) : apply w m s = m s := by
  apply apply_notin
  intro x hx e
  apply hs
  rw [← e]
  exact (h x hx).2.2

theorem MemOk.plain {m : Mem} (h : MemOk m) {w : Writes} (hw : AllIn (m .ncomp) w) : MemOk (apply w m) := by
  refine h.ok hw.ok ?_
  rw [hw.keep m (s := .sawSOF) (fun h => h), hw.keep m (s := .height) (fun h => h), hw.keep m (s := .width) (fun h => h),
    hw.keep m (s := .ncomp) (fun h => h)]
  exact h.frame

/-! ### APPn, COM, DNL -/

theorem examine_in (m : Mem) (marker : Nat) {data : List Nat} (h : IsBytes data) : AllIn 0 (examine m marker data) := by
  have b := fun i => getD_lt h i
  unfold examine
  split
  · unfold examineApp0
    split
    · intro x hx
      rcases List.mem_append.1 hx with h | h
      · simp only [List.mem_cons, List.not_mem_nil, or_false] at h
        have b5 := b 5; have b6 := b 6; have b7 := b 7; have b8 := b 8; have b9 := b 9; have b10 := b 10; have b11 := b 11
        rcases h with rfl | rfl | rfl | rfl | rfl | rfl <;> refine ⟨trivial, ?_, trivial⟩ <;> simp only [Slot.Fits] <;> omega
      · split at h
        · simp only [List.mem_cons, List.not_mem_nil, or_false] at h
          subst h; exact ⟨trivial, trivial, trivial⟩
        · simp at h
    · exact AllIn.nil _
  · split
    · unfold examineApp14
      split
      · intro x hx
        simp only [List.mem_cons, List.not_mem_nil, or_false] at hx
        rcases hx with rfl | rfl
        · exact ⟨trivial, trivial, trivial⟩
        · exact ⟨trivial, b 11, trivial⟩
      · exact AllIn.nil _
    · exact AllIn.nil _

/-- A routine that reads the length word `L` and part of the segment and returns how much is left to be skipped; a length
below 2 counts as 2. -/
def SkipOk (p : P Nat) : Prop := ∀ b, IsBytes b →
  match p b with
  | .ok k w r => ∃ hi lo u, b = hi :: lo :: (u ++ r) ∧ u.length + k = hi * 256 + lo - 2 ∧ AllIn 0 w
  | .susp w => AllIn 0 w
  | .err e => e ≠ .bound

theorem skipVariable_ok : SkipOk skipVariable := by
  intro b _
  match b with
  | [] => exact AllIn.nil _
  | [x] => exact AllIn.nil _
  | hi :: lo :: b => exact ⟨hi, lo, [], rfl, by simp, AllIn.nil _⟩

/-- get_interesting_appn as a function of the length word. -/
def appnBody (m : Mem) (marker L : Nat) : P Nat := do
  let length : Int := (L : Int) - 2
  let num := if length ≥ 14 then 14 else if length > 0 then length.toNat else 0
  let b ← inBytes num
  let length := length - num
  if marker = 0xE0 ∨ marker = 0xEE then
    puts (examine m marker b)
    pure length.toNat
  else fail .unknownMarker

theorem appnBody_tri (m : Mem) (marker L : Nat) :
    Tri (appnBody m marker L) (fun k w n => n + k = L - 2 ∧ AllIn 0 w) (AllIn 0) := by
  unfold appnBody
  dsimp only
  generalize hN : (if (L : Int) - 2 ≥ 14 then 14 else if (L : Int) - 2 > 0 then ((L : Int) - 2).toNat else 0 : Nat) = N
  apply Tri.bind (Q1 := fun bs w n => w = [] ∧ n = N ∧ IsBytes bs)
  · exact Tri.bytes (AllIn.nil _) N (fun l _ hl => ⟨rfl, rfl, hl⟩)
  rintro bs _ _ ⟨rfl, rfl, hbs⟩
  apply Tri.ite
  · intro _
    apply Tri.bind (Q1 := fun _ w n => w = examine m marker bs ∧ n = 0)
    · exact Tri.puts ⟨rfl, rfl⟩
    rintro _ _ _ ⟨rfl, rfl⟩
    refine Tri.pure ⟨?_, ?_⟩
    · subst hN
      split
      · omega
      · split <;> omega
    · have := examine_in m marker hbs
      simpa using this
  · intro _; exact Tri.fail (by decide)

theorem getAppn_ok (m : Mem) (marker : Nat) : SkipOk (getAppn m marker) := by
  intro b hb
  have e : getAppn m marker = (in2Bytes >>= appnBody m marker) := rfl
  rw [e, bind_eq, P.bind]
  match b with
  | [] => exact AllIn.nil _
  | [x] => exact AllIn.nil _
  | hi :: lo :: b =>
    have e : in2Bytes (hi :: lo :: b) = .ok (hi * 256 + lo) [] b := rfl
    rw [e]
    simp only
    have := appnBody_tri m marker (hi * 256 + lo) b (fun x hx => hb x (by simp [hx]))
    cases hf : appnBody m marker (hi * 256 + lo) b with
    | ok a w r =>
      rw [hf] at this
      obtain ⟨u, rfl, hn, hq⟩ := this
      exact ⟨hi, lo, u, rfl, hn, by simpa using hq⟩
    | susp w => rw [hf] at this; simpa using this
    | err e => rw [hf] at this; exact this

end Verif.Mark
