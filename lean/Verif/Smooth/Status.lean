import Verif.Smooth.Geo
namespace Verif.Smooth
open Spec

/-! ## What the decoder knows about a coefficient after a number of scans -/

/-- A scan sends bits of coefficient `k` of component `ci`. -/
def Spec.covers (ci k : Nat) (s : Scan) : Bool := decide (ci ∈ s.comps ∧ s.Ss ≤ k ∧ k ≤ s.Se)

/-- The lowest bit number sent in the most recent scan that has the coefficient, -1 if none has it. -/
def Spec.known (ss : List Scan) (ci k : Nat) : Int :=
  match ss.reverse.find? (covers ci k) with
  | some s => s.Al
  | none => -1

/-- What is assumed of a scan: it was accepted by the decoder (jdphuff.c:87-117, jdmarker.c get_sos). -/
structure Spec.OkScan (s : Scan) : Prop where
  nodup : s.comps.Nodup
  lo : 0 ≤ s.Al
  hi : s.Al ≤ 13
  band : s.Ss ≤ s.Se

theorem startScan_cur (n : Nat) (s : Scan) (b : Bits) (c k : Nat) :
    (startScan n s b).cur c k = if covers c k s then s.Al else b.cur c k := by
  unfold startScan covers
  obtain ⟨comps, Ss, Se, Al⟩ := s
  simp only []
  have : ∀ (l : List Nat) (b : Bits), (l.foldl (startComp n ⟨comps, Ss, Se, Al⟩) b).cur c k =
      if c ∈ l ∧ Ss ≤ k ∧ k ≤ Se then Al else b.cur c k := by
    intro l
    induction l with
    | nil => intro b; simp
    | cons a l ih =>
      intro b
      rw [List.foldl_cons, ih]
      simp only [startComp, List.mem_cons]
      by_cases h1 : c ∈ l <;> by_cases h2 : c = a <;> by_cases h3 : Ss ≤ k ∧ k ≤ Se <;> simp [h1, h2, h3]
  rw [this]
  simp

theorem startScan_prev_not (n : Nat) (s : Scan) (b : Bits) (c k : Nat) (h : c ∉ s.comps) :
    (startScan n s b).prev c k = b.prev c k := by
  unfold startScan
  have : ∀ (l : List Nat) (b : Bits), c ∉ l → (l.foldl (startComp n s) b).prev c k = b.prev c k := by
    intro l
    induction l with
    | nil => intro b _; rfl
    | cons a l ih =>
      intro b hc
      simp only [List.mem_cons, not_or] at hc
      rw [List.foldl_cons, ih _ hc.2]
      simp [startComp, hc.1]
  exact this _ _ h

theorem startScan_prev (n : Nat) (s : Scan) (b : Bits) (c k : Nat) (h : c ∈ s.comps) (hd : s.comps.Nodup) (h1 : 1 ≤ k) (h9 : k ≤ 9) :
    (startScan n s b).prev c k = if n > 1 then b.cur c k else 0 := by
  unfold startScan
  have hc : min s.Ss 1 ≤ k ∧ k ≤ max s.Se 9 := by omega
  have key : ∀ (l : List Nat) (b : Bits), c ∉ l → (l.foldl (startComp n s) b).prev c k = b.prev c k := by
    intro l
    induction l with
    | nil => intro b _; rfl
    | cons a l ih =>
      intro b hc
      simp only [List.mem_cons, not_or] at hc
      rw [List.foldl_cons, ih _ hc.2]
      simp [startComp, hc.1]
  have : ∀ (l : List Nat) (b : Bits), c ∈ l → l.Nodup → (l.foldl (startComp n s) b).prev c k = if n > 1 then b.cur c k else 0 := by
    intro l
    induction l with
    | nil => intro b h; simp at h
    | cons a l ih =>
      intro b hm hd
      rw [List.nodup_cons] at hd
      rw [List.foldl_cons]
      by_cases ha : c = a
      · subst ha
        rw [key _ _ hd.1]
        simp only [startComp]
        rw [if_pos ⟨trivial, hc⟩]
      · rw [ih _ (by simpa [ha] using hm) hd.2]
        simp [startComp, ha]
  exact this _ _ h hd

theorem scans_append (n : Nat) (a b : List Scan) (x : Bits) : scans n (a ++ b) x = scans (n + a.length) b (scans n a x) := by
  induction a generalizing n x with
  | nil => rfl
  | cons s a ih =>
    rw [List.cons_append, scans, ih, scans, List.length_cons]
    congr 1
    omega

theorem scans_cur (ss : List Scan) (junk : Nat → Nat → Int) (ci k : Nat) : (scans 1 ss (bits0 junk)).cur ci k = known ss ci k := by
  induction ss using List.reverseRecOn with
  | nil => rfl
  | append_singleton ss s ih =>
    rw [scans_append, scans, scans, startScan_cur, ih]
    unfold known
    rw [List.reverse_append, List.reverse_singleton, List.singleton_append, List.find?_cons]
    cases covers ci k s <;> simp

theorem scans_prev_not (n : Nat) (ss : List Scan) (b : Bits) (ci k : Nat) (h : ∀ s ∈ ss, ci ∉ s.comps) :
    (scans n ss b).prev ci k = b.prev ci k := by
  induction ss generalizing n b with
  | nil => rfl
  | cons s ss ih =>
    rw [scans, ih _ _ fun s hs => h s (by simp [hs]), startScan_prev_not _ _ _ _ _ (h s (by simp))]

theorem scans_prev (pre post : List Scan) (s : Scan) (junk : Nat → Nat → Int) (ci k : Nat) (hs : ci ∈ s.comps) (hd : s.comps.Nodup)
    (hp : ∀ s' ∈ post, ci ∉ s'.comps) (h1 : 1 ≤ k) (h9 : k ≤ 9) :
    (scans 1 (pre ++ s :: post) (bits0 junk)).prev ci k = if pre = [] then 0 else known pre ci k := by
  rw [scans_append, scans, scans_prev_not _ _ _ _ _ hp, startScan_prev _ _ _ _ _ hs hd h1 h9, scans_cur]
  cases pre <;> simp

theorem known_bounds (ss : List Scan) (h : ∀ s ∈ ss, OkScan s) (ci k : Nat) : -1 ≤ known ss ci k ∧ known ss ci k ≤ 13 := by
  unfold known
  cases hf : ss.reverse.find? (covers ci k) with
  | none => simp
  | some s =>
    have := h s (by simpa using List.mem_of_find?_eq_some hf)
    have h1 := this.lo
    have h2 := this.hi
    simp only []
    omega

/-- The last scan that has a component. -/
theorem last_scan (ss : List Scan) (ci : Nat) (h : ∃ s ∈ ss, ci ∈ s.comps) :
    ∃ pre s post, ss = pre ++ s :: post ∧ ci ∈ s.comps ∧ ∀ s' ∈ post, ci ∉ s'.comps := by
  induction ss with
  | nil => simp at h
  | cons a ss ih =>
    by_cases hs : ∃ s ∈ ss, ci ∈ s.comps
    · obtain ⟨pre, s, post, rfl, h1, h2⟩ := ih hs
      exact ⟨a :: pre, s, post, rfl, h1, h2⟩
    · push Not at hs
      obtain ⟨s, hm, hc⟩ := h
      rcases List.mem_cons.1 hm with rfl | hm
      · exact ⟨[], s, ss, rfl, hc, hs⟩
      · exact absurd hc (hs s hm)

theorem known_nonneg (ss : List Scan) (ci k : Nat) (h : 0 ≤ known ss ci k) : ∃ s ∈ ss, ci ∈ s.comps := by
  unfold known at h
  cases hf : ss.reverse.find? (covers ci k) with
  | none => rw [hf] at h; simp at h
  | some s =>
    refine ⟨s, by simpa using List.mem_of_find?_eq_some hf, ?_⟩
    have := List.find?_some hf
    simp only [covers, decide_eq_true_eq] at this
    exact this.1

end Verif.Smooth
