import Verif.File.Step
/-
C56: scan headers as parts of a file: when they are written, that their bytes are bytes, how they begin, and which tables are marked as
sent afterwards.
-/
namespace Verif.File
open Verif Verif.Huff Verif.Mark
open Verif.Prog (compIdx)

/-- Nothing, or something that begins with a marker. -/
def Starts (b : List Nat) : Prop := b = [] ∨ ∃ mk t, b = 0xFF :: mk :: t ∧ 0 < mk ∧ mk < 0xFF

theorem Starts.append {a b : List Nat} (ha : Starts a) (hb : Starts b) : Starts (a ++ b) := by
  rcases ha with rfl | ⟨mk, t, rfl, h⟩
  · exact hb
  · exact Or.inr ⟨mk, t ++ b, rfl, h⟩

theorem Starts.mark {mk : Nat} (h : 0 < mk ∧ mk < 0xFF) (t : List Nat) : Starts (Mark.mark mk ++ t) := Or.inr ⟨mk, t, rfl, h⟩

theorem isBytes_append {a b : List Nat} (ha : IsBytes a) (hb : IsBytes b) : IsBytes (a ++ b) := by
  intro x hx
  rcases List.mem_append.1 hx with h | h
  · exact ha x h
  · exact hb x h

theorem isBytes_mark {mk : Nat} (h : mk < 256) : IsBytes (Mark.mark mk) := by
  intro x hx
  simp [Mark.mark] at hx
  omega

theorem isBytes_be2 (n : Nat) : IsBytes (be2 n) := by
  intro x hx
  simp [be2] at hx
  omega

theorem isBytes_dhtBody (ac : Bool) (n : Nat) (t : HuffTbl) : IsBytes (dhtBody ac n t) := by
  intro x hx
  unfold dhtBody at hx
  rcases List.mem_cons.1 hx with rfl | hx
  · omega
  · rcases List.mem_append.1 hx with hx | hx
    · obtain ⟨i, -, rfl⟩ := List.mem_map.1 hx
      omega
    · obtain ⟨i, -, rfl⟩ := List.mem_map.1 hx
      omega

/-- The tables wanted are there. -/
def HaveH (q : Bool → Nat → Option HuffTbl) (nd na : Bool) (ks : List CComp) : Prop :=
  ∀ k ∈ ks, (nd = true → (q false k.dc).isSome = true) ∧ (na = true → (q true k.ac).isSome = true)

theorem mdhtLens_some {q : Bool → Nat → Option HuffTbl} {sent : Bool → Nat → Bool} {nd na : Bool} : ∀ (ks : List CComp) (ds as : List Nat),
    HaveH q nd na ks → ∃ r, mdhtLens q sent nd na ks ds as = some r := by
  intro ks
  induction ks with
  | nil => intro ds as _; exact ⟨_, rfl⟩
  | cons k ks ih =>
    intro ds as h
    have hk := h k (by simp)
    have ih := fun ds as => ih ds as (fun x hx => h x (by simp [hx]))
    have ihm : ∀ ds as (F : Nat × List (Nat × Nat) → Nat × List (Nat × Nat)), ∃ r, (mdhtLens q sent nd na ks ds as).map F = some r := by
      intro ds as F
      obtain ⟨r, e⟩ := ih ds as
      rw [e]
      exact ⟨_, rfl⟩
    unfold mdhtLens
    cases nd <;> cases na
    · simp only [Bool.false_eq_true, if_false]
      exact ihm _ _ _
    · obtain ⟨t, e⟩ := Option.isSome_iff_exists.1 (hk.2 rfl)
      simp only [Bool.false_eq_true, if_false, if_true, e]
      split
      · exact ihm _ _ _
      · exact ihm _ _ _
    · obtain ⟨t, e⟩ := Option.isSome_iff_exists.1 (hk.1 rfl)
      simp only [Bool.false_eq_true, if_false, if_true, e]
      split
      · rename_i e2
        split at e2 <;> simp at e2
      · exact ihm _ _ _
      · exact ihm _ _ _
    · obtain ⟨t, e⟩ := Option.isSome_iff_exists.1 (hk.1 rfl)
      obtain ⟨u, e'⟩ := Option.isSome_iff_exists.1 (hk.2 rfl)
      simp only [if_true, e, e']
      split
      · rename_i e2
        split at e2 <;> simp at e2
      · exact ihm _ _ _
      · split
        · exact ihm _ _ _
        · exact ihm _ _ _

theorem emitDht_some {q : Bool → Nat → Option HuffTbl} {sent : Bool → Nat → Bool} {ac : Bool} {n : Nat} (h : (q ac n).isSome = true) :
    ∃ b sent', emitDht q sent ac n = some (b, sent') ∧ Starts b ∧ IsBytes b ∧
      ∀ a k, sent' a k = true ↔ sent a k = true ∨ (a, k) = (ac, n) := by
  obtain ⟨t, e⟩ := Option.isSome_iff_exists.1 h
  unfold emitDht
  rw [e]
  simp only
  by_cases hs : sent ac n = true
  · rw [if_pos hs]
    refine ⟨[], sent, rfl, Or.inl rfl, (by intro x hx; cases hx), ?_⟩
    intro a k
    constructor
    · exact Or.inl
    · rintro (h | h)
      · exact h
      · cases h; exact hs
  · rw [if_neg hs]
    refine ⟨_, _, rfl, ?_, ?_, ?_⟩
    · rw [List.append_assoc]
      exact Starts.mark (by omega) _
    · exact isBytes_append (isBytes_append (isBytes_mark (by omega)) (isBytes_be2 _)) (isBytes_dhtBody _ _ _)
    · intro a k
      unfold setH
      by_cases e : a = ac ∧ k = n <;> simp [e]

theorem optDht_some {q : Bool → Nat → Option HuffTbl} {sent : Bool → Nat → Bool} {c ac : Bool} {n : Nat} (h : c = true → (q ac n).isSome = true) :
    ∃ b sent', (if c then emitDht q sent ac n else some ([], sent)) = some (b, sent') ∧ Starts b ∧ IsBytes b ∧
      ∀ a k, sent' a k = true ↔ sent a k = true ∨ (a, k) ∈ (if c then [(ac, n)] else []) := by
  cases c with
  | true =>
    obtain ⟨b, s, e, h1, h2, h3⟩ := emitDht_some (sent := sent) (h rfl)
    exact ⟨b, s, by simpa using e, h1, h2, by simpa using h3⟩
  | false => exact ⟨[], sent, by simp, Or.inl rfl, (by intro x hx; cases hx), by simp⟩

theorem dhtEach_some {q : Bool → Nat → Option HuffTbl} {nd na : Bool} : ∀ (ks : List CComp) (sent : Bool → Nat → Bool), HaveH q nd na ks →
    ∃ b sent', dhtEach q nd na ks sent = some (b, sent') ∧ Starts b ∧ IsBytes b ∧
      ∀ a n, sent' a n = true ↔ sent a n = true ∨ (a, n) ∈ wants nd na ks := by
  intro ks
  induction ks with
  | nil => intro sent _; exact ⟨[], sent, rfl, Or.inl rfl, (by intro x hx; cases hx), by simp [wants]⟩
  | cons k ks ih =>
    intro sent h
    obtain ⟨b1, s1, e1, p1, q1, r1⟩ := optDht_some (sent := sent) (h k (by simp)).1
    obtain ⟨b2, s2, e2, p2, q2, r2⟩ := optDht_some (sent := s1) (h k (by simp)).2
    obtain ⟨b3, s3, e3, p3, q3, r3⟩ := ih s2 (fun x hx => h x (by simp [hx]))
    refine ⟨b1 ++ b2 ++ b3, s3, ?_, (p1.append p2).append p3, isBytes_append (isBytes_append q1 q2) q3, ?_⟩
    · unfold dhtEach
      rw [e1]
      simp only
      rw [e2]
      simp only
      rw [e3]
    · intro a n
      rw [r3, r2, r1, wants_cons, List.mem_append, List.mem_append]
      tauto

theorem multiDht_yes {q : Bool → Nat → Option HuffTbl} {sent sent' : Bool → Nat → Bool} {fastest nd na : Bool} {ks : List CComp} {b : List Nat}
    (hg : nd = true → na = true → DhtGood sent ks [] []) (h : multiDht fastest q sent nd na ks = .yes b sent') :
    Starts b ∧ IsBytes b ∧ ∀ a n, sent' a n = true ↔ sent a n = true ∨ (a, n) ∈ wants nd na ks := by
  unfold multiDht at h
  by_cases hf : fastest = true
  · rw [if_pos hf] at h; cases h
  rw [if_neg hf] at h
  cases e : mdhtLens q sent nd na ks [] [] with
  | none => rw [e] at h; cases h
  | some r =>
    obtain ⟨L, lens⟩ := r
    rw [e] at h
    simp only at h
    by_cases hL : L + 2 > 65535
    · rw [if_pos hL] at h; cases h
    rw [if_neg hL] at h
    simp only [MD.yes.injEq] at h
    obtain ⟨rfl, rfl⟩ := h
    obtain ⟨e1, e2, e3⟩ := mdht_eq q sent nd na ks [] [] sent L lens (by simp) (by simp) hg e
    rw [e2]
    refine ⟨?_, ?_, ?_⟩
    · rw [List.append_assoc]
      exact Starts.mark (by omega) _
    · refine isBytes_append (isBytes_append (isBytes_mark (by omega)) (isBytes_be2 _)) ?_
      intro x hx
      obtain ⟨t, -, ht⟩ := List.mem_flatMap.1 hx
      exact isBytes_dhtBody _ _ _ x ht
    · intro a n
      exact markH_iff _ _ _ _

/-- A scan header is written, begins with a marker, and marks exactly the tables it needs as sent. -/
theorem writeScan_some {c : CS} {s : CScan} (hl : c.lossless = false)
    (hh : c.arith = false → HaveH c.huff (decide (s.Ss = 0 ∧ s.Ah = 0)) (decide (s.Se ≠ 0)) (scanComps c s))
    (hg : c.arith = false → c.fastest = false → s.Ss = 0 → s.Ah = 0 → s.Se ≠ 0 → DhtGood c.hSent (scanComps c s) [] []) :
    ∃ b c', writeScan c s = some (b, c') ∧ (∃ mk t, b = 0xFF :: mk :: t ∧ 0 < mk ∧ mk < 0xFF) ∧ (c.arith = false → IsBytes b) ∧
      c' = { c with hSent := c'.hSent, lastRi := c.ri } ∧
      (c.arith = true → c'.hSent = c.hSent) ∧
      (c.arith = false → ∀ a n, c'.hSent a n = true ↔ c.hSent a n = true ∨
        (a, n) ∈ wants (decide (s.Ss = 0 ∧ s.Ah = 0)) (decide (s.Se ≠ 0)) (scanComps c s)) := by
  have tbl : ∃ b sent, scanTbl c s = some (b, sent) ∧ Starts b ∧ (c.arith = false → IsBytes b) ∧ (c.arith = true → sent = c.hSent) ∧
      (c.arith = false → ∀ a n, sent a n = true ↔ c.hSent a n = true ∨
        (a, n) ∈ wants (decide (s.Ss = 0 ∧ s.Ah = 0)) (decide (s.Se ≠ 0)) (scanComps c s)) := by
    unfold scanTbl
    by_cases ha : c.arith = true
    · rw [if_pos ha]
      refine ⟨_, _, rfl, ?_, by rw [ha]; simp, fun _ => rfl, by rw [ha]; simp⟩
      unfold emitDac
      dsimp only
      split
      · rw [List.append_assoc]
        exact Starts.mark (by omega) _
      · exact Or.inl rfl
    · rw [if_neg ha]
      have ha' : c.arith = false := by simpa using ha
      have hh := hh ha'
      have hg := hg ha'
      rw [hl]
      generalize scanComps c s = ks at *
      have hnd : (decide (s.Ss = 0 ∧ s.Ah = 0 ∨ False)) = decide (s.Ss = 0 ∧ s.Ah = 0) := by simp
      cases e : multiDht c.fastest c.huff c.hSent (decide (s.Ss = 0 ∧ s.Ah = 0)) (decide (s.Se ≠ 0)) ks with
      | err =>
        unfold multiDht at e
        split at e
        · cases e
        · obtain ⟨r, e'⟩ := mdhtLens_some (sent := c.hSent) ks [] [] hh
          rw [e'] at e
          obtain ⟨L, lens⟩ := r
          simp only at e
          split at e <;> cases e
      | yes b sent =>
        have hfast : c.fastest = false := by
          by_contra hf
          unfold multiDht at e
          rw [if_pos (by simpa using hf)] at e
          cases e
        obtain ⟨p, q, r⟩ := multiDht_yes (by
          intro h1 h2
          have h1 := of_decide_eq_true h1
          have h2 := of_decide_eq_true h2
          exact hg hfast h1.1 h1.2 h2) e
        exact ⟨b, sent, rfl, p, fun _ => q, by rw [ha']; simp, fun _ => r⟩
      | no =>
        obtain ⟨b, sent, e', p, q, r⟩ := dhtEach_some ks c.hSent hh
        refine ⟨b, sent, ?_, p, fun _ => q, by rw [ha']; simp, fun _ => r⟩
        simp only [Bool.false_eq_true, or_false, and_true]
        exact e'
  obtain ⟨b, sent, e, p, q, r1, r2⟩ := tbl
  refine ⟨_, _, (by unfold writeScan; rw [e]), ?_, ?_, rfl, r1, r2⟩
  · have h1 : Starts (if c.ri ≠ c.lastRi then emitDri c else []) := by
      split
      · unfold emitDri
        rw [List.append_assoc]
        exact Starts.mark (by omega) _
      · exact Or.inl rfl
    have h2 : Starts (emitSos s (scanComps c s)) := by
      unfold emitSos
      simp only [List.append_assoc]
      exact Starts.mark (by omega) _
    rcases (p.append h1).append h2 with h | h
    · exfalso
      have := congrArg List.length h
      simp [emitSos, Mark.mark, be2] at this
    · exact h
  · intro ha
    refine isBytes_append (isBytes_append (q ha) ?_) ?_
    · split
      · exact isBytes_append (isBytes_append (isBytes_mark (by omega)) (isBytes_be2 _)) (isBytes_be2 _)
      · intro x hx; cases hx
    · unfold emitSos
      refine isBytes_append (isBytes_append (isBytes_append (isBytes_append (isBytes_mark (by omega)) (isBytes_be2 _)) ?_) ?_) ?_
      · intro x hx; simp at hx; omega
      · intro x hx
        obtain ⟨k, -, hk⟩ := List.mem_flatMap.1 hx
        simp only [List.mem_cons, List.not_mem_nil, or_false] at hk
        omega
      · intro x hx
        simp only [List.mem_cons, List.not_mem_nil, or_false] at hx
        omega

end Verif.File
