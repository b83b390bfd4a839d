import Verif.Prog.DC
/-
End-of-band runs (T.81 G.1.2.2): encoder and decoder agree although a run is put out only after the last block in it.
-/
namespace Verif.Prog
open Verif Verif.Huff

variable {ι κ ο : Type}

/-- Correction bits as they appear in the stream. -/
def corr (l : List Nat) : List Bool := l.flatMap (toBits 1)

theorem corr_append (a b : List Nat) : corr (a ++ b) = corr a ++ corr b := by simp [corr]

/-- An EOBn code with its additional bits. -/
def eobBits (c : CTbl) (n : Nat) : List Bool := symBits c ((nbitsOf n - 1) <<< 4) ++ toBits (nbitsOf n - 1) n

/-- A run length that can be coded, with a code for it. -/
def EobOk (c : CTbl) (n : Nat) : Prop := 0 < n ∧ nbitsOf n - 1 ≤ 14 ∧ (c ((nbitsOf n - 1) <<< 4)).2 ≠ 0

theorem bufToks_bits (T : Nat → CTbl) (l : List Nat) (ts : List Tok) :
    (tokTail T (bufToks l ++ ts)).1 = corr l ++ (tokTail T ts).1 := by
  induction l with
  | nil => simp [bufToks, corr]
  | cons b l ih =>
    simp only [bufToks, List.map_cons, List.cons_append, tokTail, tokBits, corr, List.flatMap_cons, List.append_assoc] at *
    rw [ih]

theorem noRst_buf (l : List Nat) : NoRst (bufToks l) := by intro n; simp [bufToks]

theorem noRst_append {a b : List Tok} (ha : NoRst a) (hb : NoRst b) : NoRst (a ++ b) := by
  intro n hn
  rcases List.mem_append.1 hn with h | h
  · exact ha n h
  · exact hb n h

theorem emitEob_noRst {tbl : Nat} {s s' : ACSt} {t : List Tok} (h : emitEob tbl s = some (t, s')) : NoRst t := by
  unfold emitEob at h
  split at h
  · dsimp only at h
    split at h
    · simp at h
    · simp only [Option.some.injEq, Prod.mk.injEq] at h
      rw [← h.1]
      intro n hn
      simp only [List.mem_cons, reduceCtorEq, List.mem_append, false_or] at hn
      rcases hn with hn | hn
      · split at hn <;> simp at hn
      · exact noRst_buf _ n hn
  · simp only [Option.some.injEq, Prod.mk.injEq] at h
    rw [← h.1]; intro n; simp

/-- What emit_eobrun puts out when a run is pending. -/
theorem emitEob_pos {T : Nat → CTbl} {tbl : Nat} {s s' : ACSt} {t : List Tok} (h : emitEob tbl s = some (t, s'))
    (hp : 0 < s.eobrun) (hok : ∀ y ∈ t, TokOk T y) :
    s' = ⟨0, []⟩ ∧ (tokTail T t).1 = eobBits (T tbl) s.eobrun ++ corr s.be ∧ EobOk (T tbl) s.eobrun := by
  unfold emitEob at h
  rw [if_pos hp] at h
  dsimp only at h
  split at h
  · simp at h
  rename_i hnb
  simp only [Option.some.injEq, Prod.mk.injEq] at h
  obtain ⟨rfl, rfl⟩ := h
  refine ⟨rfl, ?_, hp, by omega, hok (Tok.sym tbl _) (by simp)⟩
  simp only [tokTail, tokBits, eobBits, List.append_assoc]
  congr 1
  have hb := bufToks_bits T s.be []
  rw [List.append_nil] at hb
  by_cases h0 : nbitsOf s.eobrun - 1 = 0
  · rw [if_neg (by simpa using h0), h0, List.nil_append, hb]; simp [tokTail]
  · rw [if_pos h0]
    simp only [List.cons_append, List.nil_append, tokTail, tokBits]
    rw [hb]; simp [tokTail]

theorem emitEob_zero {tbl : Nat} {s : ACSt} (hp : s.eobrun = 0) : emitEob tbl s = some ([], s) := by
  unfold emitEob; rw [if_neg (by omega)]

/-- Reading a run length. -/
theorem readEob_spec {n : Nat} (hn : 0 < n) (h14 : nbitsOf n - 1 ≤ 14) :
    Reads (fun r => readEob r (nbitsOf n - 1)) (toBits (nbitsOf n - 1) n) n := by
  intro r rest hr ht hb
  obtain ⟨h1, h2⟩ := nbitsOf_spec n
  have h2 := h2 (by omega)
  have hpos := nbitsOf_pos (n := n) (by omega)
  unfold readEob
  dsimp only
  by_cases h0 : nbitsOf n - 1 = 0
  · rw [if_neg (by simpa using h0)]
    rw [h0] at hb h2
    have : nbitsOf n = 1 := by omega
    rw [this] at h1
    refine ⟨r, ?_, hr.same, by simpa using hb⟩
    have : n = 1 := by omega
    rw [this]
  · rw [if_pos h0]
    obtain ⟨r', e, hs, hb'⟩ := reads_bits (by omega) r rest hr ht hb
    refine ⟨r', ?_, hs, hb'⟩
    dsimp only at e
    rw [e, Option.map_some]
    have he : 2 ^ nbitsOf n = 2 * 2 ^ (nbitsOf n - 1) := by
      conv => lhs; rw [show nbitsOf n = (nbitsOf n - 1) + 1 by omega, Nat.pow_succ, Nat.mul_comm]
    have : n % 2 ^ (nbitsOf n - 1) = n - 2 ^ (nbitsOf n - 1) := by
      rw [Nat.mod_eq_sub_mod h2, Nat.mod_eq_of_lt (by omega)]
    rw [this]
    simp only [Option.some.injEq, Prod.mk.injEq, and_true]
    omega

/-- One decoder call that consumes exactly `l`. -/
def Step (D : PDec Nat κ ο) (e : Nat) (k : κ) (o : ο) (e' : Nat) (l : List Bool) : Prop :=
  ∀ (r : Rd) (rest : List Bool), r.Ok → r.tail ≠ none → r.bits = l ++ rest →
    ∃ r', D.step e k r = some (o, e', r') ∧ r.Same r' ∧ r'.bits = rest

theorem runs_cons {D : PDec Nat κ ο} {e : Nat} {k : κ} {o : ο} {e' : Nat} {l l' : List Bool} {xs : List (κ × ο)}
    (h : Step D e k o e' l) (h' : Runs D xs e' l') : Runs D ((k, o) :: xs) e (l ++ l') := by
  refine ⟨e', l', ?_, h'⟩
  intro r rest hr ht hb
  exact h r (l' ++ rest) hr ht (by rw [hb, List.append_assoc])

/-- The pending output may be forced out, or stay. -/
def Forced (tbl : Nat) (mid : ACSt) (t : List Tok) (s' : ACSt) : Prop :=
  (t = [] ∧ s' = mid) ∨ emitEob tbl mid = some (t, s')

/-- How one MCU of an AC scan is coded and can be read back. -/
inductive MCUSpec (T : Nat → CTbl) (tbl : Nat) (D : PDec Nat κ ο) (k : κ) (o : ο) (s : ACSt) (t : List Tok)
    (s' : ACSt) : Prop
  /-- The block only extends the run. -/
  | absorb (c : List Nat) (hf : Forced tbl ⟨s.eobrun + 1, s.be ++ c⟩ t s')
      (hpos : ∀ e, 0 < e → Step D e k o (e - 1) (corr c))
      (hzero : ∀ N, EobOk (T tbl) N → Step D 0 k o (N - 1) (eobBits (T tbl) N ++ corr c))
  /-- The block has a body and ends with a (new) run. -/
  | bodyRun (t0 t1 t2 : List Tok) (s1 : ACSt) (c : List Nat) (ht : t = t0 ++ t1 ++ t2)
      (h0 : emitEob tbl s = some (t0, s1)) (hn1 : NoRst t1) (hf : Forced tbl ⟨1, c⟩ t2 s')
      (hd : (∀ y ∈ t1, TokOk T y) →
        ∀ N, EobOk (T tbl) N → Step D 0 k o (N - 1) ((tokTail T t1).1 ++ (eobBits (T tbl) N ++ corr c)))
  /-- The block has a body reaching its last coefficient. -/
  | bodyEnd (t0 t1 : List Tok) (s1 : ACSt) (ht : t = t0 ++ t1)
      (h0 : emitEob tbl s = some (t0, s1)) (hn1 : NoRst t1) (hs : s' = ⟨0, []⟩)
      (hd : (∀ y ∈ t1, TokOk T y) → Step D 0 k o 0 (tokTail T t1).1)

/-- A state that can occur: no correction bits without a pending run. -/
def ACSt.Wf (s : ACSt) : Prop := s.eobrun = 0 → s.be = []

theorem emitEob_wf {tbl : Nat} {s s' : ACSt} {t : List Tok} (hw : s.Wf) (h : emitEob tbl s = some (t, s')) :
    s' = ⟨0, []⟩ := by
  by_cases hp : s.eobrun = 0
  · rw [emitEob_zero hp] at h
    simp only [Option.some.injEq, Prod.mk.injEq] at h
    rw [← h.2]
    obtain ⟨e, b⟩ := s
    simp only at hp
    subst hp
    have := hw rfl
    simp only at this
    rw [this]
  · unfold emitEob at h
    rw [if_pos (by omega)] at h
    dsimp only at h
    split at h
    · simp at h
    · simp only [Option.some.injEq, Prod.mk.injEq] at h; exact h.2.symm

theorem emitEob_cases {T : Nat → CTbl} {tbl : Nat} {s s' : ACSt} {t : List Tok} (hw : s.Wf)
    (h : emitEob tbl s = some (t, s')) (hok : ∀ y ∈ t, TokOk T y) :
    (s.eobrun = 0 ∧ (tokTail T t).1 = []) ∨
    (0 < s.eobrun ∧ (tokTail T t).1 = eobBits (T tbl) s.eobrun ++ corr s.be ∧ EobOk (T tbl) s.eobrun) := by
  by_cases hp : s.eobrun = 0
  · left
    rw [emitEob_zero hp] at h
    simp only [Option.some.injEq, Prod.mk.injEq] at h
    rw [← h.1]
    exact ⟨hp, rfl⟩
  · right
    obtain ⟨-, h2, h3⟩ := emitEob_pos (T := T) h (by omega) hok
    exact ⟨by omega, h2, h3⟩

/-- What the decoder sees of the rest of a segment when the encoder is in state `s`. -/
def Ahead (T : Nat → CTbl) (tbl : Nat) (D : PDec Nat κ ο) (xs : List (κ × ο)) (s : ACSt) (l : List Bool) : Prop :=
  (s.eobrun = 0 → Runs D xs 0 l) ∧
  (0 < s.eobrun → ∃ N l', s.eobrun ≤ N ∧ EobOk (T tbl) N ∧ l = eobBits (T tbl) N ++ corr s.be ++ l' ∧
    Runs D xs (N - s.eobrun) l')

theorem ahead_forced {T : Nat → CTbl} {tbl : Nat} {D : PDec Nat κ ο} {xs : List (κ × ο)} {mid s' : ACSt}
    {t : List Tok} {l : List Bool} (hmid : 0 < mid.eobrun) (hf : Forced tbl mid t s') (hok : ∀ y ∈ t, TokOk T y)
    (h : Ahead T tbl D xs s' l) :
    ∃ N l', mid.eobrun ≤ N ∧ EobOk (T tbl) N ∧ (tokTail T t).1 ++ l = eobBits (T tbl) N ++ corr mid.be ++ l' ∧
      Runs D xs (N - mid.eobrun) l' := by
  rcases hf with ⟨rfl, rfl⟩ | he
  · obtain ⟨N, l', a, b, c, d⟩ := h.2 hmid
    exact ⟨N, l', a, b, by simpa [tokTail] using c, d⟩
  · obtain ⟨h1, h2, h3⟩ := emitEob_pos he hmid hok
    subst h1
    refine ⟨mid.eobrun, l, Nat.le_refl _, h3, by rw [h2], ?_⟩
    rw [Nat.sub_self]
    exact h.1 rfl

theorem forced_noRst {tbl : Nat} {mid s' : ACSt} {t : List Tok} (hf : Forced tbl mid t s') : NoRst t := by
  rcases hf with ⟨rfl, rfl⟩ | he
  · intro n; simp
  · exact emitEob_noRst he

theorem forced_wf {tbl : Nat} {mid s' : ACSt} {t : List Tok} (hm : mid.Wf) (hf : Forced tbl mid t s') : s'.Wf := by
  rcases hf with ⟨rfl, rfl⟩ | he
  · exact hm
  · rw [emitEob_wf hm he]; intro _; rfl

/-- **Run lemma**: if every MCU meets `MCUSpec`, the decoder can follow the whole segment. -/
theorem runs_ac {T : Nat → CTbl} {tbl : Nat} (E : PEnc ACSt ι) (D : PDec Nat κ ο)
    (hfin : ∀ s, E.fin s = (emitEob tbl s).map Prod.fst) (xs : List (ι × κ × ο))
    (hspec : ∀ x ∈ xs, ∀ s t s', s.Wf → E.step s x.1 = some (t, s') → MCUSpec T tbl D x.2.1 x.2.2 s t s')
    {s : ACSt} (hw : s.Wf) {t : List Tok} (henc : encGo E 0 (xs.map Prod.fst) s 0 0 = some t)
    (hok : ∀ y ∈ t, TokOk T y) : Ahead T tbl D (xs.map Prod.snd) s (tokTail T t).1 := by
  induction xs generalizing s t with
  | nil =>
    simp only [List.map_nil, encGo, hfin, Option.map_eq_some_iff] at henc
    obtain ⟨⟨t', s'⟩, he, rfl⟩ := henc
    dsimp only at *
    rcases emitEob_cases hw he hok with ⟨h0, h1⟩ | ⟨h0, h1, h2⟩
    · exact ⟨fun _ => h1, fun h => by omega⟩
    · refine ⟨fun h => by omega, fun _ => ⟨s.eobrun, [], Nat.le_refl _, h2, by rw [h1]; simp, rfl⟩⟩
  | cons x xs ih =>
    obtain ⟨i, k, o⟩ := x
    simp only [List.map_cons, encGo] at henc
    rw [if_neg (by simp)] at henc
    split at henc
    · simp at henc
    rename_i t1 s1 e1
    split at henc
    · simp at henc
    rename_i t2 e2
    rw [encGo_zero E _ _ _ _ 0 0] at e2
    simp only [Option.some.injEq] at henc
    subst henc
    have hok1 : ∀ y ∈ t1, TokOk T y := fun y hy => hok y (by simp [hy])
    have hok2 : ∀ y ∈ t2, TokOk T y := fun y hy => hok y (by simp [hy])
    have hih := fun hw' => ih (fun y hy => hspec y (by simp [hy])) (s := s1) (t := t2) hw' e2 hok2
    cases hspec (i, k, o) (by simp) s t1 s1 hw e1 with
    | absorb c hf hpos hzero =>
      rw [tokTail_append _ _ _ (forced_noRst hf)]
      obtain ⟨N, l', a1, a2, a3, a4⟩ := ahead_forced (mid := ⟨s.eobrun + 1, s.be ++ c⟩) (by simp) hf hok1
        (hih (forced_wf (by intro h; simp at h) hf))
      simp only at a1 a3 a4
      refine ⟨fun h0 => ?_, fun h0 => ?_⟩
      · rw [a3, hw h0, List.nil_append]
        rw [h0] at a4
        exact runs_cons (hzero N a2) a4
      · refine ⟨N, corr c ++ l', by omega, a2, by rw [a3, corr_append]; simp, ?_⟩
        apply runs_cons (hpos (N - s.eobrun) (by omega))
        rw [Nat.sub_sub]
        exact a4
    | bodyRun t0 tb tr se c ht h0 hn1 hf hd =>
      subst ht
      have hn0 := emitEob_noRst h0
      rw [tokTail_append _ _ _ (noRst_append (noRst_append hn0 hn1) (forced_noRst hf)),
        tokTail_append _ _ _ (noRst_append hn0 hn1), tokTail_append _ _ _ hn0]
      obtain ⟨N, l', a1, a2, a3, a4⟩ := ahead_forced (mid := ⟨1, c⟩) (by simp) hf
        (fun y hy => hok1 y (by simp [hy])) (hih (forced_wf (by intro h; simp at h) hf))
      simp only at a1 a3 a4
      have hR : Runs D ((k, o) :: xs.map Prod.snd) 0 ((tokTail T tb).1 ++ ((tokTail T tr).1 ++ (tokTail T t2).1)) := by
        rw [a3, ← List.append_assoc]
        exact runs_cons (hd (fun y hy => hok1 y (by simp [hy])) N a2) a4
      rcases emitEob_cases hw h0 (fun y hy => hok1 y (by simp [hy])) with ⟨g0, g1⟩ | ⟨g0, g1, g2⟩
      · refine ⟨fun _ => ?_, fun h => by omega⟩
        rw [g1, List.nil_append, List.append_assoc]
        exact hR
      · refine ⟨fun h => by omega, fun _ => ⟨s.eobrun, _, Nat.le_refl _, g2, ?_, by rw [Nat.sub_self]; exact hR⟩⟩
        rw [g1]; simp only [List.append_assoc]
    | bodyEnd t0 tb se ht h0 hn1 hs hd =>
      subst ht
      have hn0 := emitEob_noRst h0
      rw [tokTail_append _ _ _ (noRst_append hn0 hn1), tokTail_append _ _ _ hn0]
      have hR : Runs D ((k, o) :: xs.map Prod.snd) 0 ((tokTail T tb).1 ++ (tokTail T t2).1) := by
        apply runs_cons (hd (fun y hy => hok1 y (by simp [hy])))
        subst hs
        exact (hih (by intro _; rfl)).1 rfl
      rcases emitEob_cases hw h0 (fun y hy => hok1 y (by simp [hy])) with ⟨g0, g1⟩ | ⟨g0, g1, g2⟩
      · refine ⟨fun _ => ?_, fun h => by omega⟩
        rw [g1, List.nil_append]
        exact hR
      · refine ⟨fun h => by omega, fun _ => ⟨s.eobrun, _, Nat.le_refl _, g2, ?_, by rw [Nat.sub_self]; exact hR⟩⟩
        rw [g1]; simp only [List.append_assoc]

end Verif.Prog
