import Verif.Rst.Model
import Mathlib.Tactic.SplitIfs
/-
C30: reading and resynchronizing at restart markers.
-/
namespace Verif.Rst

/-! ### Specification -/

/-- The markers in a byte string, in order, each with the bytes after it: a marker is FF followed by a byte other than 00 and FF. -/
def codes : List Nat → List (Nat × List Nat)
  | a :: b :: r => if a = 0xFF ∧ b ≠ 0 ∧ b ≠ 0xFF then (b, r) :: codes r else codes (b :: r)
  | _ => []

/-- Bytes before the first marker, not counting padding FF bytes. -/
def skipped : List Nat → Nat
  | a :: b :: r => if a = 0xFF ∧ b ≠ 0 ∧ b ≠ 0xFF then 0 else (if a = 0xFF ∧ b ≠ 0 then 0 else 1) + skipped (b :: r)
  | _ => 0

/-- What to do with a marker found where restart `desired` was expected. -/
inductive Verdict where
  | discard
  | advance
  | leave
deriving DecidableEq, Repr

/-- Invalid codes and the two restarts before the expected one are skipped; the next two restarts and all other markers are left for later; the expected restart, or one too far away to tell, is taken as the expected one. -/
def verdict (desired m : Nat) : Verdict :=
  if m < 0xC0 then .advance
  else if m < 0xD0 ∨ 0xD7 < m then .leave
  else match (m - 0xD0 + 8 - desired) % 8 with
    | 1 => .leave
    | 2 => .leave
    | 6 => .advance
    | 7 => .advance
    | _ => .discard

/-! ### Scanning -/

theorem codes_length : ∀ l : List Nat, 2 * (codes l).length ≤ l.length := by
  intro l
  induction l using codes.induct with
  | case1 a b r h ih => rw [codes, if_pos h]; simp only [List.length_cons]; omega
  | case2 a b r h ih => rw [codes, if_neg h]; simp only [List.length_cons] at *; omega
  | case3 l h => rw [codes.eq_2 _ (by intro a b r e; exact h a b r e)]; simp

theorem codes_skip {a : Nat} {l : List Nat} (h : a ≠ 0xFF) : codes (a :: l) = codes l := by
  cases l with
  | nil => rfl
  | cons b r => rw [codes, if_neg (by omega)]

theorem scan_true (l : List Nat) : ∀ (d : Nat) (sync : List Nat), (scan d sync true l = (d, .inr sync) ∧ (∀ a, a ∈ l → a = 0xFF)) ∨
    (∃ n c q, l = List.replicate n 0xFF ++ c :: q ∧ c ≠ 0 ∧ c ≠ 0xFF ∧ scan d sync true l = (d, .inl (c, q))) ∨
    (∃ n q, l = List.replicate n 0xFF ++ 0 :: q ∧ scan d sync true l = scan (d + 2) q false q) := by
  induction l with
  | nil => intro d sync; left; exact ⟨by simp [scan], by simp⟩
  | cons a l ih =>
    intro d sync
    by_cases ha : a = 0xFF
    · have e : scan d sync true (a :: l) = scan d sync true l := by simp [scan, ha]
      rw [e]
      rcases ih d sync with ⟨h1, h2⟩ | ⟨n, c, q, h1, h2, h3, h4⟩ | ⟨n, q, h1, h2⟩
      · left; exact ⟨h1, by intro b hb; rcases List.mem_cons.1 hb with rfl | hb; exact ha; exact h2 b hb⟩
      · right; left; exact ⟨n + 1, c, q, by rw [h1, ha]; rfl, h2, h3, h4⟩
      · right; right; exact ⟨n + 1, q, by rw [h1, ha]; rfl, h2⟩
    · by_cases hz : a = 0
      · right; right; exact ⟨0, l, by rw [hz]; rfl, by simp [scan, hz]⟩
      · right; left; exact ⟨0, a, l, rfl, hz, ha, by simp [scan, hz, ha]⟩

theorem codes_run (n : Nat) (c : Nat) (q : List Nat) (h : c ≠ 0xFF) : codes (0xFF :: (List.replicate n 0xFF ++ c :: q)) = if c = 0 then codes q else (c, q) :: codes q := by
  induction n with
  | zero =>
    simp only [List.replicate_zero, List.nil_append]
    rw [codes]
    by_cases hc : c = 0
    · rw [if_neg (by simp [hc]), if_pos hc, codes_skip h]
    · rw [if_pos ⟨rfl, hc, h⟩, if_neg hc]
  | succ n ih => rw [List.replicate_succ, List.cons_append, codes, if_neg (by simp), ih]

theorem skipped_skip {a : Nat} {l : List Nat} (h : a ≠ 0xFF) (hc : codes l ≠ []) : skipped (a :: l) = 1 + skipped l := by
  cases l with
  | nil => exact absurd rfl hc
  | cons b r => rw [skipped, if_neg (by simp [h]), if_neg (by simp [h])]

theorem skipped_run (n : Nat) (c : Nat) (q : List Nat) (h : c ≠ 0xFF) (hq : c = 0 → codes q ≠ []) : skipped (0xFF :: (List.replicate n 0xFF ++ c :: q)) = if c = 0 then 2 + skipped q else 0 := by
  induction n with
  | zero =>
    simp only [List.replicate_zero, List.nil_append]
    rw [skipped]
    by_cases hc : c = 0
    · rw [if_neg (by simp [hc]), if_neg (by simp [hc]), if_pos hc, skipped_skip h (hq hc)]; omega
    · rw [if_pos ⟨rfl, hc, h⟩, if_neg hc]
  | succ n ih => rw [List.replicate_succ, List.cons_append, skipped, if_neg (by simp), if_pos (by simp), ih]; simp

theorem codes_all_ff : ∀ l : List Nat, (∀ a, a ∈ l → a = 0xFF) → codes l = [] := by
  intro l
  induction l with
  | nil => intro _; rfl
  | cons a l ih =>
    intro h
    cases l with
    | nil => rfl
    | cons b r =>
      rw [codes, if_neg (by have := h b (by simp); simp [this])]
      exact ih (fun x hx => h x (by simp [hx]))

/-- Scanning finds the first marker, and otherwise keeps what cannot be decided yet. -/
theorem scan_spec (l : List Nat) (d : Nat) :
    (∃ c q t, codes l = (c, q) :: t ∧ t = codes q ∧ c ≠ 0 ∧ scan d l false l = (d + skipped l, .inl (c, q))) ∨ (codes l = [] ∧ ∃ d' sync, scan d l false l = (d', .inr sync) ∧ codes sync = []) := by
  generalize hn : l.length = n
  induction n using Nat.strongRecOn generalizing l d with
  | _ n ih =>
  cases l with
  | nil => right; exact ⟨rfl, d, [], rfl, rfl⟩
  | cons a r =>
    simp only [List.length_cons] at hn
    by_cases ha : a = 0xFF
    · have e : scan d (a :: r) false (a :: r) = scan d (a :: r) true r := by simp [scan, ha]
      rw [e]
      rcases scan_true r d (a :: r) with ⟨h1, h2⟩ | ⟨m, c, q, h1, h2, h3, h4⟩ | ⟨m, q, h1, h2⟩
      · right
        have hall : codes (a :: r) = [] := codes_all_ff _ (by intro b hb; rcases List.mem_cons.1 hb with rfl | hb; exact ha; exact h2 b hb)
        exact ⟨hall, d, a :: r, h1, hall⟩
      · left
        refine ⟨c, q, codes q, ?_, rfl, h2, ?_⟩
        · rw [ha, h1, codes_run m c q h3, if_neg h2]
        · rw [h4, ha, h1, skipped_run m c q h3 (fun h => absurd h h2), if_neg h2]; rfl
      · rw [h2]
        have hcode : codes (a :: r) = codes q := by rw [ha, h1, codes_run m 0 q (by decide), if_pos rfl]
        have hlen : q.length < n := by rw [← hn, h1]; simp; omega
        rcases ih q.length hlen q (d + 2) rfl with ⟨c, q', t, g1, g2, g3, g4⟩ | ⟨g1, g2⟩
        · left
          refine ⟨c, q', t, by rw [hcode]; exact g1, g2, g3, ?_⟩
          rw [g4, ha, h1, skipped_run m 0 q (by decide) (fun _ => by rw [g1]; simp), if_pos rfl, Nat.add_assoc]
        · right
          exact ⟨by rw [hcode]; exact g1, g2⟩
    · have e : scan d (a :: r) false (a :: r) = scan (d + 1) r false r := by simp [scan, ha]
      rw [e, codes_skip ha]
      rcases ih r.length (by omega) r (d + 1) rfl with ⟨c, q', t, g1, g2, g3, g4⟩ | ⟨g1, g2⟩
      · left
        refine ⟨c, q', t, g1, g2, g3, ?_⟩
        rw [g4, skipped_skip ha (by rw [g1]; simp), Nat.add_assoc]
      · right
        exact ⟨g1, g2⟩

/-- Scanning with more data at hand. -/
theorem scan_append (l x : List Nat) (d : Nat) :
    (∀ d' c q, scan d l false l = (d', .inl (c, q)) → scan d (l ++ x) false (l ++ x) = (d', .inl (c, q ++ x))) ∧
    (∀ d' sync, scan d l false l = (d', .inr sync) → scan d (l ++ x) false (l ++ x) = scan d' (sync ++ x) false (sync ++ x)) := by
  generalize hn : l.length = n
  induction n using Nat.strongRecOn generalizing l d with
  | _ n ih =>
  cases l with
  | nil =>
    constructor
    · intro d' c q h; simp [scan] at h
    · intro d' sync h; simp [scan] at h; obtain ⟨rfl, rfl⟩ := h; rfl
  | cons a r =>
    simp only [List.length_cons] at hn
    by_cases ha : a = 0xFF
    · have e : scan d (a :: r) false (a :: r) = scan d (a :: r) true r := by simp [scan, ha]
      have e' : scan d (a :: r ++ x) false (a :: r ++ x) = scan d (a :: r ++ x) true (r ++ x) := by simp [scan, ha]
      have run : ∀ (m : Nat) (z : List Nat) (s : List Nat), scan d s true (List.replicate m 0xFF ++ z) = scan d s true z := by
        intro m
        induction m with
        | zero => intro z s; rfl
        | succ m ihm => intro z s; rw [List.replicate_succ, List.cons_append]; simp [scan, ihm]
      rw [e]
      rcases scan_true r d (a :: r) with ⟨h1, h2⟩ | ⟨m, c, q, h1, h2, h3, h4⟩ | ⟨m, q, h1, h2⟩
      · rw [h1]
        constructor
        · intro d' c q h; simp at h
        · intro d' sync h
          simp only [Prod.mk.injEq, Sum.inr.injEq] at h
          obtain ⟨rfl, rfl⟩ := h
          rfl
      · rw [h4]
        constructor
        · intro d' c' q' h
          simp only [Prod.mk.injEq, Sum.inl.injEq] at h
          obtain ⟨rfl, rfl, rfl⟩ := h
          rw [e', h1, List.append_assoc, run, List.cons_append]
          simp [scan, h2, h3]
        · intro d' sync h; simp at h
      · rw [h2]
        have hlen : q.length < n := by rw [← hn, h1]; simp; omega
        have e2 : scan d (a :: r ++ x) false (a :: r ++ x) = scan (d + 2) (q ++ x) false (q ++ x) := by
          rw [e', h1, List.append_assoc, run, List.cons_append]
          simp [scan]
        rw [e2]
        exact ih q.length hlen q (d + 2) rfl
    · have e : scan d (a :: r) false (a :: r) = scan (d + 1) r false r := by simp [scan, ha]
      have e' : scan d (a :: r ++ x) false (a :: r ++ x) = scan (d + 1) (r ++ x) false (r ++ x) := by simp [scan, ha]
      rw [e, e']
      exact ih r.length (by omega) r (d + 1) rfl

/-! ### next_marker -/

theorem nextMarker_spec (s : St) :
    (∃ c q, codes s.buf = (c, q) :: codes q ∧ c ≠ 0 ∧ nextMarker s = (true, { s with disc := 0, unread := c, buf := q, warns := if s.disc + skipped s.buf ≠ 0 then s.warns ++ [.extraneous (s.disc + skipped s.buf) c] else s.warns })) ∨
    (codes s.buf = [] ∧ ∃ d sync, nextMarker s = (false, { s with disc := d, buf := sync }) ∧ codes sync = []) := by
  rcases scan_spec s.buf s.disc with ⟨c, q, t, g1, g2, g3, g4⟩ | ⟨g1, d', sync, g2, g3⟩
  · left
    subst g2
    refine ⟨c, q, g1, g3, ?_⟩
    unfold nextMarker; rw [g4]
  · right
    refine ⟨g1, d', sync, ?_, g3⟩
    unfold nextMarker; rw [g2]

/-- **C30.** next_marker stops right after the first marker of the data, however much rubbish precedes it, and reports exactly the bytes it skipped; without a marker it suspends. -/
theorem C30_next_marker (s : St) :
    ((nextMarker s).1 = true ↔ codes s.buf ≠ []) ∧
    ∀ c q t, codes s.buf = (c, q) :: t → (nextMarker s).2.unread = c ∧ (nextMarker s).2.buf = q ∧ (nextMarker s).2.num = s.num ∧
      (nextMarker s).2.warns = s.warns ++ (if s.disc + skipped s.buf = 0 then [] else [.extraneous (s.disc + skipped s.buf) c]) := by
  rcases nextMarker_spec s with ⟨c, q, g1, g2, g3⟩ | ⟨g1, d, sync, g2, g3⟩
  · rw [g3, g1]
    refine ⟨by simp, ?_⟩
    intro c' q' t h
    simp only [List.cons.injEq, Prod.mk.injEq] at h
    obtain ⟨⟨rfl, rfl⟩, -⟩ := h
    refine ⟨rfl, rfl, rfl, ?_⟩
    simp only
    split_ifs <;> simp_all
  · rw [g2, g1]
    exact ⟨by simp, fun c q t h => by simp at h⟩

/-! ### the decision -/

theorem action_verdict {desired m : Nat} (hd : desired < 8) : action desired m = match verdict desired m with | .discard => 1 | .advance => 2 | .leave => 3 := by
  unfold action verdict
  by_cases h1 : m < 0xC0
  · simp [h1]
  by_cases h2 : m < 0xD0 ∨ m > 0xD7
  · simp [h1, h2]
  simp only [h1, h2, if_false]
  have hm : 0xD0 ≤ m ∧ m ≤ 0xD7 := by omega
  obtain ⟨k, hk, rfl⟩ : ∃ k, k < 8 ∧ m = 0xD0 + k := ⟨m - 0xD0, by omega, by omega⟩
  have key : ∀ d : Nat, d < 8 → ∀ k : Nat, k < 8 → (if ((0xD0 + k : Nat) : Int) = 0xD0 + ((d : Int) + 1) % 8 ∨ ((0xD0 + k : Nat) : Int) = 0xD0 + ((d : Int) + 2) % 8 then 3
      else if ((0xD0 + k : Nat) : Int) = 0xD0 + ((d : Int) - 1) % 8 ∨ ((0xD0 + k : Nat) : Int) = 0xD0 + ((d : Int) - 2) % 8 then 2 else 1) =
      (match (match (0xD0 + k - 0xD0 + 8 - d) % 8 with | 1 => Verdict.leave | 2 => .leave | 6 => .advance | 7 => .advance | _ => .discard) with | .discard => 1 | .advance => 2 | .leave => 3) := by decide
  exact key desired hd k hk

/-- The first marker, pending or in the data, that is not to be skipped. -/
def target (desired : Nat) (s : St) : Option (Nat × List Nat) := ((s.unread, s.buf) :: codes s.buf).find? (fun x => verdict desired x.1 ≠ .advance)

theorem resyncLoop_spec {desired : Nat} (hd : desired < 8) : ∀ (n : Nat) (s : St), s.buf.length ≤ n →
    (resyncLoop desired s).2.1 ≤ 1 + (codes s.buf).length ∧ (resyncLoop desired s).2.2.num = s.num ∧
    match target desired s with
    | none => (resyncLoop desired s).1 = false ∧ verdict desired (resyncLoop desired s).2.2.unread = .advance ∧ codes (resyncLoop desired s).2.2.buf = [] ∧ (s.unread ≠ 0 → (resyncLoop desired s).2.2.unread ≠ 0)
    | some (m, rest) => (resyncLoop desired s).1 = true ∧ (resyncLoop desired s).2.2.buf = rest ∧ (resyncLoop desired s).2.2.unread = if verdict desired m = .discard then 0 else m := by
  intro n
  induction n with
  | zero =>
    intro s hs
    have hb : s.buf = [] := List.eq_nil_of_length_eq_zero (by omega)
    rw [resyncLoop, action_verdict hd, target, List.find?_cons]
    cases hv : verdict desired s.unread with
    | discard => simp [hb, hv]
    | leave => simp [hv]
    | advance =>
      simp only [show ¬ (2 = 1) by decide, if_false, if_true]
      rcases nextMarker_spec s with ⟨c, q, g1, _, _⟩ | ⟨g1, d, sync, g2, g3⟩
      · rw [hb] at g1; simp [codes] at g1
      · split
        · rename_i s' h
          have h := g2.symm.trans h
          simp only [Prod.mk.injEq, true_and] at h
          subst h
          simp [g1, g3, hv]
        · rename_i s' h; rw [g2] at h; simp at h
  | succ n ih =>
    intro s hs
    rw [resyncLoop, action_verdict hd, target, List.find?_cons]
    cases hv : verdict desired s.unread with
    | discard => simp [hv]
    | leave => simp [hv]
    | advance =>
      simp only [show ¬ (2 = 1) by decide, if_false, if_true]
      rcases nextMarker_spec s with ⟨c, q, g1, g4, g3⟩ | ⟨g1, d, sync, g2, g3⟩
      · split
        · rename_i s' h; rw [g3] at h; simp at h
        · rename_i s' h
          have hlt := nextMarker_lt h
          have h := g3.symm.trans h
          simp only [Prod.mk.injEq, true_and] at h
          have ih := ih s' (by omega)
          have ht : target desired s' = (codes s.buf).find? (fun x => verdict desired x.1 ≠ .advance) := by
            rw [g1, ← h]; rfl
          obtain ⟨i1, i2, i3⟩ := ih
          have hcl : (codes s.buf).length = 1 + (codes s'.buf).length := by rw [g1, ← h]; simp; omega
          have hnum : s'.num = s.num := by rw [← h]
          have hun : s'.unread ≠ 0 := by rw [← h]; exact g4
          refine ⟨by rw [hcl]; exact Nat.add_comm _ _ ▸ Nat.add_le_add_left i1 1, by simp only; rw [i2, hnum], ?_⟩
          rw [ht] at i3
          simp only [ne_eq, not_true_eq_false, decide_false, Bool.false_eq_true]
          revert i3
          cases (codes s.buf).find? (fun x => verdict desired x.1 ≠ .advance) with
          | none => intro i3; exact ⟨i3.1, i3.2.1, i3.2.2.1, fun _ => i3.2.2.2 hun⟩
          | some v => intro i3; exact i3
      · split
        · rename_i s' h
          have h := g2.symm.trans h
          simp only [Prod.mk.injEq, true_and] at h
          subst h
          simp [g1, g3, hv]
        · rename_i s' h; rw [g2] at h; simp at h

/-- **C30.** Resynchronization ends at the first marker - the pending one or one of those in the data, in order - that is not to be skipped; that marker is discarded or left according to its verdict, and the data position is right after it.  If there is none,
everything that can be was skipped and the caller is told to wait.  The loop is entered at most once more than there are markers in the data. -/
theorem C30_resync {desired : Nat} (hd : desired < 8) (s : St) :
    (resync desired s).2.1 ≤ 1 + s.buf.length / 2 ∧ (resync desired s).2.2.num = s.num ∧
    match ((s.unread, s.buf) :: codes s.buf).find? (fun x => verdict desired x.1 ≠ .advance) with
    | none => (resync desired s).1 = false ∧ codes (resync desired s).2.2.buf = []
    | some (m, rest) => (resync desired s).1 = true ∧ (resync desired s).2.2.buf = rest ∧ (resync desired s).2.2.unread = if verdict desired m = .discard then 0 else m := by
  obtain ⟨h1, h2, h3⟩ := resyncLoop_spec hd _ { s with warns := s.warns ++ [.resync s.unread desired] } (Nat.le_refl _)
  have hl := codes_length s.buf
  refine ⟨?_, h2, ?_⟩
  · unfold resync; simp only at h1; omega
  · unfold target at h3
    simp only at h3
    unfold resync
    revert h3
    cases (((s.unread, s.buf) :: codes s.buf).find? (fun x => verdict desired x.1 ≠ .advance)) with
    | none => intro h; exact ⟨h.1, h.2.2.1⟩
    | some v => intro h; exact h

/-! ### read_restart_marker -/

theorem verdict_expected {d : Nat} (h : d < 8) : verdict d (0xD0 + d) = .discard := by
  revert d; decide

theorem handle_num {s : St} (hd : s.num < 8) : (handle s).2.num = if (handle s).1 then (s.num + 1) % 8 else s.num := by
  unfold handle
  split
  · rfl
  · obtain ⟨_, h2, _⟩ := C30_resync hd s
    split
    · rename_i s' h; rw [h] at h2; exact h2
    · rename_i s' h; rw [h] at h2; simp only at h2 ⊢; rw [h2]; rfl

/-- **C30.** The expected restart number advances by one modulo 8 exactly when the call succeeds. -/
theorem C30_counter {s : St} (hd : s.num < 8) : (readRestart s).2.num = if (readRestart s).1 then (s.num + 1) % 8 else s.num := by
  unfold readRestart
  split
  · rcases nextMarker_spec s with ⟨c, q, g1, _, g3⟩ | ⟨g1, d, sync, g2, g3⟩
    · rw [g3]; exact handle_num (s := { s with disc := 0, unread := c, buf := q, warns := if s.disc + skipped s.buf ≠ 0 then s.warns ++ [.extraneous (s.disc + skipped s.buf) c] else s.warns }) hd
    · rw [g2]; rfl
  · exact handle_num hd

/-- **C30.** The expected marker is accepted at once: if it is pending no byte is consumed, otherwise the data position is right after it; there is no resynchronization, and no warning unless data bytes precede it. -/
theorem C30_expected (s : St) :
    (s.unread = 0xD0 + s.num → readRestart s = (true, { s with unread := 0, num := (s.num + 1) % 8 })) ∧
    (∀ q t, s.unread = 0 → codes s.buf = (0xD0 + s.num, q) :: t →
      readRestart s = (true, { unread := 0, disc := 0, num := (s.num + 1) % 8, buf := q, warns := s.warns ++ (if s.disc + skipped s.buf = 0 then [] else [.extraneous (s.disc + skipped s.buf) (0xD0 + s.num)]) })) := by
  constructor
  · intro h
    unfold readRestart handle
    rw [if_neg (by omega), if_pos h]
  · intro q t h0 hc
    unfold readRestart
    rw [if_pos h0]
    rcases nextMarker_spec s with ⟨c, q', g1, _, g3⟩ | ⟨g1, d, sync, g2, g3⟩
    · rw [hc] at g1
      simp only [List.cons.injEq, Prod.mk.injEq] at g1
      obtain ⟨⟨rfl, rfl⟩, -⟩ := g1
      rw [g3]
      simp only
      unfold handle
      rw [if_pos rfl]
      simp only [Prod.mk.injEq, true_and]
      congr 1
      split_ifs <;> simp_all
    · rw [hc] at g1; simp at g1

/-- What a call leaves behind if it succeeds. -/
theorem C30_outcome {s : St} (hd : s.num < 8) (hok : (readRestart s).1 = true) :
    (readRestart s).2.unread = 0 ∨ verdict s.num (readRestart s).2.unread = .leave := by
  have hh : ∀ s : St, s.num < 8 → (handle s).1 = true → (handle s).2.unread = 0 ∨ verdict s.num (handle s).2.unread = .leave := by
    intro s hd hok
    unfold handle at *
    split at hok
    · left; rename_i h; rw [if_pos h]
    · rename_i hne
      rw [if_neg hne]
      obtain ⟨_, h2, h3⟩ := C30_resync hd s
      split at hok
      · simp at hok
      · rename_i s' h
        rw [h] at h3
        revert h3
        cases hf : (((s.unread, s.buf) :: codes s.buf).find? (fun x => verdict s.num x.1 ≠ .advance)) with
        | none => intro h; simp at h
        | some v =>
          intro h3
          have hv := List.find?_some hf
          simp only at h3
          have h4 := h3.2.2
          simp only at h4 ⊢
          rw [h4]
          split
          · left; rfl
          · right
            simp only [ne_eq, decide_eq_true_eq] at hv
            rename_i hnd
            cases hx : verdict s.num v.1 <;> simp_all
  unfold readRestart at hok ⊢
  by_cases h0 : s.unread = 0
  · rw [if_pos h0] at hok
    rw [if_pos h0]
    rcases nextMarker_spec s with ⟨c, q, g1, _, g3⟩ | ⟨g1, d, sync, g2, g3⟩
    · rw [g3] at hok
      rw [g3]
      exact hh { s with disc := 0, unread := c, buf := q, warns := if s.disc + skipped s.buf ≠ 0 then s.warns ++ [.extraneous (s.disc + skipped s.buf) c] else s.warns } hd hok
    · rw [g2] at hok; simp at hok
  · rw [if_neg h0] at hok
    rw [if_neg h0]
    exact hh s hd hok

/-! ### recovery -/

/-- Calling n times in a row. -/
def times : Nat → St → Bool × St
  | 0, s => (true, s)
  | n + 1, s => if (readRestart s).1 then times n (readRestart s).2 else readRestart s

theorem left_once {s : St} (hd : s.num < 8) (h0 : s.unread ≠ 0) (hv : verdict s.num s.unread = .leave) : readRestart s = (true, { s with num := (s.num + 1) % 8, warns := s.warns ++ [.resync s.unread s.num] }) := by
  unfold readRestart handle
  rw [if_neg h0, if_neg (by intro h; rw [h, verdict_expected hd] at hv; simp at hv)]
  unfold resync
  rw [resyncLoop, action_verdict hd]
  simp only [hv]
  simp

/-- **C30.** If one or two restart markers were lost, the restart found instead stays pending for as many segments and is then accepted, without consuming any data in between: only the segments in between are lost. -/
theorem C30_lost_markers {s : St} (hd : s.num < 8) {j : Nat} (hj : j = 1 ∨ j = 2) (hu : s.unread = 0xD0 + (s.num + j) % 8) :
    (times j s).1 = true ∧ (times j s).2.unread = s.unread ∧ (times j s).2.buf = s.buf ∧ (times (j + 1) s).1 = true ∧ (times (j + 1) s).2.unread = 0 ∧ (times (j + 1) s).2.buf = s.buf ∧ (times (j + 1) s).2.num = (s.num + j + 1) % 8 := by
  have hv : ∀ d, d < 8 → verdict d (0xD0 + (d + 1) % 8) = .leave ∧ verdict d (0xD0 + (d + 2) % 8) = .leave := by decide
  have acc : ∀ s : St, s.unread = 0xD0 + s.num → readRestart s = (true, { s with unread := 0, num := (s.num + 1) % 8 }) := fun s h => (C30_expected s).1 h
  rcases hj with rfl | rfl
  · have e1 := left_once hd (by omega) (by rw [hu]; exact (hv _ hd).1)
    have e2 := acc { s with num := (s.num + 1) % 8, warns := s.warns ++ [.resync s.unread s.num] } hu
    simp only [times, e1, e2, if_true]
    refine ⟨trivial, trivial, trivial, trivial, trivial, trivial, by omega⟩
  · have e1 := left_once hd (by omega) (by rw [hu]; exact (hv _ hd).2)
    have hm : (s.num + 2) % 8 = ((s.num + 1) % 8 + 1) % 8 := by omega
    have e2 := left_once (s := { s with num := (s.num + 1) % 8, warns := s.warns ++ [.resync s.unread s.num] }) (by simp only; omega) (by simp only; omega) (by
      simp only; rw [hu, hm]; exact (hv _ (by omega)).1)
    have e3 := acc { s with num := ((s.num + 1) % 8 + 1) % 8, warns := s.warns ++ [.resync s.unread s.num] ++ [.resync s.unread ((s.num + 1) % 8)] } (by simp only; rw [hu, hm])
    simp only [times, e1, e2, e3, if_true]
    refine ⟨trivial, trivial, trivial, trivial, trivial, trivial, by omega⟩

/-- **C30.** A marker that is not a restart marker (EOI, SOS, ...) stays pending through any number of restarts, and nothing after it is read. -/
theorem C30_other_marker (n : Nat) {s : St} (hd : s.num < 8) (hu : (0xC0 ≤ s.unread ∧ s.unread < 0xD0) ∨ 0xD7 < s.unread) :
    (times n s).1 = true ∧ (times n s).2.unread = s.unread ∧ (times n s).2.buf = s.buf ∧ (times n s).2.num = (s.num + n) % 8 := by
  induction n generalizing s with
  | zero => exact ⟨rfl, rfl, rfl, by simp only [times]; omega⟩
  | succ n ih =>
    have hv : verdict s.num s.unread = .leave := by
      unfold verdict; rw [if_neg (by omega), if_pos (by omega)]
    have e1 := left_once hd (by omega) hv
    have := ih (s := { s with num := (s.num + 1) % 8, warns := s.warns ++ [.resync s.unread s.num] }) (by simp only; omega) hu
    simp only [times, e1, if_true]
    refine ⟨this.1, this.2.1, this.2.2.1, ?_⟩
    rw [this.2.2.2]; simp only; omega

end Verif.Rst
