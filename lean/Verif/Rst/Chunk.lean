import Verif.Rst.Props
/-
C30: reading restart markers from a suspending source.
-/
namespace Verif.Rst

/-- A JWRN_EXTRANEOUS_DATA warning. -/
def Warn.isData : Warn → Bool
  | .extraneous _ _ => true
  | .resync _ _ => false

/-- Equal except for the number of JWRN_MUST_RESYNC warnings. -/
structure Eqv (a b : St) : Prop where
  unread : a.unread = b.unread
  disc : a.disc = b.disc
  num : a.num = b.num
  buf : a.buf = b.buf
  data : a.warns.filter Warn.isData = b.warns.filter Warn.isData

theorem Eqv.refl (s : St) : Eqv s s := ⟨rfl, rfl, rfl, rfl, rfl⟩
theorem Eqv.trans {a b c : St} (h : Eqv a b) (g : Eqv b c) : Eqv a c := ⟨h.1.trans g.1, h.2.trans g.2, h.3.trans g.3, h.4.trans g.4, h.5.trans g.5⟩
theorem Eqv.symm {a b : St} (h : Eqv a b) : Eqv b a := ⟨h.1.symm, h.2.symm, h.3.symm, h.4.symm, h.5.symm⟩

/-- More data in the source's buffer. -/
def St.more (s : St) (x : List Nat) : St := { s with buf := s.buf ++ x }

theorem nextMarker_eqv {a b : St} (h : Eqv a b) : (nextMarker a).1 = (nextMarker b).1 ∧ Eqv (nextMarker a).2 (nextMarker b).2 := by
  unfold nextMarker
  rw [h.disc, h.buf]
  split
  · exact ⟨rfl, h.1, rfl, h.3, rfl, h.5⟩
  · refine ⟨rfl, rfl, rfl, h.3, rfl, ?_⟩
    simp only
    split <;> simp [h.5, List.filter_append]

theorem nextMarker_more (s : St) (x : List Nat) :
    (∀ s', nextMarker s = (true, s') → nextMarker (s.more x) = (true, s'.more x)) ∧ (∀ s', nextMarker s = (false, s') → nextMarker (s.more x) = nextMarker (s'.more x) ∧ s'.unread = s.unread) := by
  obtain ⟨h1, h2⟩ := scan_append s.buf x s.disc
  constructor
  · intro s' h
    unfold nextMarker at h ⊢
    split at h
    · simp at h
    · rename_i d c q hs
      have := h1 d c q hs
      simp only [St.more]
      rw [this]
      simp only [Prod.mk.injEq, true_and] at h
      subst h
      rfl
  · intro s' h
    unfold nextMarker at h
    split at h
    · rename_i d sync hs
      have := h2 d sync hs
      simp only [Prod.mk.injEq, true_and] at h
      subst h
      unfold nextMarker
      simp only [St.more]
      rw [this]
      exact ⟨rfl, trivial⟩
    · simp at h

theorem loop1 {d : Nat} {s : St} (h : action d s.unread = 1) : resyncLoop d s = (true, 1, { s with unread := 0 }) := by rw [resyncLoop, if_pos h]

theorem loop3 {d : Nat} {s : St} (h1 : action d s.unread ≠ 1) (h2 : action d s.unread ≠ 2) : resyncLoop d s = (true, 1, s) := by rw [resyncLoop, if_neg h1, if_neg h2]

theorem loop2f {d : Nat} {s s' : St} (h2 : action d s.unread = 2) (h : nextMarker s = (false, s')) : resyncLoop d s = (false, 1, s') := by
  rw [resyncLoop, if_neg (by omega), if_pos h2]
  split
  · rename_i s2 h'; have := h.symm.trans h'; simp at this; rw [this]
  · rename_i s2 h'; have := h.symm.trans h'; simp at this

theorem loop2t {d : Nat} {s s' : St} (h2 : action d s.unread = 2) (h : nextMarker s = (true, s')) : resyncLoop d s = ((resyncLoop d s').1, (resyncLoop d s').2.1 + 1, (resyncLoop d s').2.2) := by
  rw [resyncLoop, if_neg (by omega), if_pos h2]
  split
  · rename_i s2 h'; have := h.symm.trans h'; simp at this
  · rename_i s2 h'; have := h.symm.trans h'; simp at this; rw [this]

theorem resyncLoop_eqv (d : Nat) : ∀ (n : Nat) {a b : St}, a.buf.length < n → Eqv a b → (resyncLoop d a).1 = (resyncLoop d b).1 ∧ Eqv (resyncLoop d a).2.2 (resyncLoop d b).2.2 := by
  intro n
  induction n with
  | zero => intro a b h; omega
  | succ n ih =>
    intro a b hn h
    by_cases h1 : action d a.unread = 1
    · rw [loop1 h1, loop1 (by rw [← h.unread]; exact h1)]
      exact ⟨rfl, rfl, h.2, h.3, h.4, h.5⟩
    · by_cases h2 : action d a.unread = 2
      · have h2' : action d b.unread = 2 := by rw [← h.unread]; exact h2
        obtain ⟨e1, e2⟩ := nextMarker_eqv h
        cases ha : nextMarker a with
        | mk oka sa =>
        cases hb : nextMarker b with
        | mk okb sb =>
        rw [ha, hb] at e1 e2
        simp only at e1 e2
        subst e1
        cases oka with
        | false => rw [loop2f h2 ha, loop2f h2' hb]; exact ⟨rfl, e2⟩
        | true =>
          rw [loop2t h2 ha, loop2t h2' hb]
          exact ih (by have := nextMarker_lt ha; omega) e2
      · rw [loop3 h1 h2, loop3 (by rw [← h.unread]; exact h1) (by rw [← h.unread]; exact h2)]
        exact ⟨rfl, h⟩

theorem resyncLoop_more (d : Nat) (x : List Nat) : ∀ (n : Nat) (s : St), s.buf.length < n →
    ((resyncLoop d s).1 = true → (resyncLoop d (s.more x)).1 = true ∧ (resyncLoop d (s.more x)).2.2 = (resyncLoop d s).2.2.more x) ∧
    ((resyncLoop d s).1 = false → (resyncLoop d (s.more x)).1 = (resyncLoop d ((resyncLoop d s).2.2.more x)).1 ∧ (resyncLoop d (s.more x)).2.2 = (resyncLoop d ((resyncLoop d s).2.2.more x)).2.2 ∧
      action d (resyncLoop d s).2.2.unread = 2 ∧ (resyncLoop d s).2.2.num = s.num ∧ (s.unread ≠ 0 → (resyncLoop d s).2.2.unread ≠ 0)) := by
  intro n
  induction n with
  | zero => intro s h; omega
  | succ n ih =>
    intro s hn
    by_cases h1 : action d s.unread = 1
    · rw [loop1 h1, loop1 (s := s.more x) h1]
      exact ⟨fun _ => ⟨rfl, rfl⟩, fun h => by simp at h⟩
    · by_cases h2 : action d s.unread = 2
      · cases hm : nextMarker s with
        | mk ok s' =>
        cases ok with
        | true =>
          have hlt := nextMarker_lt hm
          rw [loop2t h2 hm, loop2t (s := s.more x) h2 ((nextMarker_more s x).1 s' hm)]
          obtain ⟨i1, i2⟩ := ih s' (by omega)
          refine ⟨i1, fun h => ?_⟩
          obtain ⟨j1, j2, j3, j4, j5⟩ := i2 h
          rcases nextMarker_spec s with ⟨c, q, _, g4, g3⟩ | ⟨_, _, _, g2, _⟩
          · have e := hm.symm.trans g3
            simp only [Prod.mk.injEq, true_and] at e
            exact ⟨j1, j2, j3, by simp only; rw [j4, e], fun _ => j5 (by rw [e]; exact g4)⟩
          · rw [hm] at g2; simp at g2
        | false =>
          obtain ⟨m1, m2⟩ := (nextMarker_more s x).2 s' hm
          have h2' : action d s'.unread = 2 := by rw [m2]; exact h2
          have hnum : s'.num = s.num := by
            rcases nextMarker_spec s with ⟨c, q, _, g4, g3⟩ | ⟨_, _, _, g2, _⟩
            · rw [hm] at g3; simp at g3
            · have e := hm.symm.trans g2
              simp only [Prod.mk.injEq, true_and] at e
              rw [e]
          rw [loop2f h2 hm]
          refine ⟨fun h => by simp at h, fun _ => ?_⟩
          have e3 : (resyncLoop d (s.more x)).1 = (resyncLoop d (s'.more x)).1 ∧ (resyncLoop d (s.more x)).2.2 = (resyncLoop d (s'.more x)).2.2 := by
            cases hy : nextMarker (s'.more x) with
            | mk ok y =>
            cases ok with
            | false => rw [loop2f (s := s.more x) h2 (m1.trans hy), loop2f (s := s'.more x) h2' hy]; exact ⟨rfl, rfl⟩
            | true => rw [loop2t (s := s.more x) h2 (m1.trans hy), loop2t (s := s'.more x) h2' hy]; exact ⟨rfl, rfl⟩
          exact ⟨e3.1, e3.2, h2', hnum, fun h => by simp only; rw [m2]; exact h⟩
      · rw [loop3 h1 h2, loop3 (s := s.more x) h1 h2]
        exact ⟨fun _ => ⟨rfl, rfl⟩, fun h => by simp at h⟩

theorem handle_eqv {a b : St} (h : Eqv a b) : (handle a).1 = (handle b).1 ∧ Eqv (handle a).2 (handle b).2 := by
  unfold handle
  rw [h.unread, h.num]
  split
  · exact ⟨rfl, rfl, h.2, by simp only, h.4, h.5⟩
  · have e : Eqv { a with warns := a.warns ++ [.resync a.unread b.num] } { b with warns := b.warns ++ [.resync b.unread b.num] } := ⟨h.1, h.2, h.3, h.4, by simp [List.filter_append, h.5, Warn.isData]⟩
    obtain ⟨e1, e2⟩ := resyncLoop_eqv b.num _ (Nat.lt_succ_self _) e
    unfold resync
    revert e1 e2
    generalize resyncLoop b.num { a with warns := a.warns ++ [.resync a.unread b.num] } = p
    generalize resyncLoop b.num { b with warns := b.warns ++ [.resync b.unread b.num] } = q
    obtain ⟨p1, p2, p3⟩ := p
    obtain ⟨q1, q2, q3⟩ := q
    intro e1 e2
    simp only at e1 e2
    subst e1
    cases p1 with
    | false => exact ⟨rfl, e2⟩
    | true => exact ⟨rfl, e2.1, e2.2, by simp only; rw [e2.3], e2.4, e2.5⟩

/-- One more chunk: what was achieved stays, what was suspended is continued. -/
theorem handle_more {s : St} (hd : s.num < 8) (x : List Nat) :
    ((handle s).1 = true → handle (s.more x) = (true, (handle s).2.more x)) ∧
    ((handle s).1 = false → (handle (s.more x)).1 = (handle ((handle s).2.more x)).1 ∧ Eqv (handle (s.more x)).2 (handle ((handle s).2.more x)).2 ∧ (s.unread ≠ 0 → (handle s).2.unread ≠ 0)) := by
  by_cases he : s.unread = 0xD0 + s.num
  · have e1 : handle s = (true, { s with unread := 0, num := (s.num + 1) % 8 }) := by unfold handle; rw [if_pos he]
    have e2 : handle (s.more x) = (true, { s.more x with unread := 0, num := (s.num + 1) % 8 }) := by unfold handle; rw [if_pos (show (s.more x).unread = 0xD0 + (s.more x).num from he)]; rfl
    rw [e1, e2]
    exact ⟨fun _ => rfl, fun h => by simp at h⟩
  · obtain ⟨m1, m2⟩ := resyncLoop_more s.num x (s.buf.length + 1) { s with warns := s.warns ++ [.resync s.unread s.num] } (Nat.lt_succ_self _)
    have e1 : handle s = match resyncLoop s.num { s with warns := s.warns ++ [.resync s.unread s.num] } with | (false, _, s) => (false, s) | (true, _, s) => (true, { s with num := (s.num + 1) % 8 }) := by
      rw [handle, if_neg he]; rfl
    have e2 : handle (s.more x) = match resyncLoop s.num (({ s with warns := s.warns ++ [.resync s.unread s.num] } : St).more x) with | (false, _, s) => (false, s) | (true, _, s) => (true, { s with num := (s.num + 1) % 8 }) := by
      rw [handle, if_neg (show ¬ (s.more x).unread = 0xD0 + (s.more x).num from he)]; rfl
    rw [e1, e2]
    revert m1 m2
    generalize hp : resyncLoop s.num { s with warns := s.warns ++ [.resync s.unread s.num] } = p
    obtain ⟨ok, n, t⟩ := p
    intro m1 m2
    simp only at m1 m2
    cases ok with
    | true =>
      obtain ⟨a1, a2⟩ := m1 rfl
      refine ⟨fun _ => ?_, fun h => by simp at h⟩
      revert a1 a2
      generalize resyncLoop s.num (({ s with warns := s.warns ++ [.resync s.unread s.num] } : St).more x) = q
      obtain ⟨ok2, n2, t2⟩ := q
      intro a1 a2
      simp only at a1 a2
      subst a1 a2
      rfl
    | false =>
      obtain ⟨a1, a2, a3, a4, a5⟩ := m2 rfl
      refine ⟨fun h => by simp at h, fun _ => ?_⟩
      have hne : ¬ (t.more x).unread = 0xD0 + (t.more x).num := by
        intro h
        have h : t.unread = 0xD0 + s.num := by rw [← a4]; exact h
        rw [h, action_verdict hd, verdict_expected hd] at a3
        simp at a3
      have e3 : handle (t.more x) = match resyncLoop s.num { t.more x with warns := t.warns ++ [.resync t.unread s.num] } with | (false, _, s) => (false, s) | (true, _, s) => (true, { s with num := (s.num + 1) % 8 }) := by
        rw [handle, if_neg hne]
        have : (t.more x).num = s.num := a4
        rw [this]
        rfl
      have hq : Eqv (t.more x) { t.more x with warns := t.warns ++ [.resync t.unread s.num] } := ⟨rfl, rfl, rfl, rfl, by simp [List.filter_append, Warn.isData, St.more]⟩
      obtain ⟨b1, b2⟩ := resyncLoop_eqv s.num _ (Nat.lt_succ_self _) hq
      rw [← a1] at b1
      rw [← a2] at b2
      simp only
      rw [e3]
      revert b1 b2
      generalize resyncLoop s.num (({ s with warns := s.warns ++ [.resync s.unread s.num] } : St).more x) = q1
      generalize resyncLoop s.num { t.more x with warns := t.warns ++ [.resync t.unread s.num] } = q2
      obtain ⟨o1, n1, t1⟩ := q1
      obtain ⟨o2, n2, t2⟩ := q2
      intro b1 b2
      simp only at b1 b2
      subst b1
      cases o1 with
      | false => exact ⟨rfl, b2, a5⟩
      | true => exact ⟨rfl, ⟨b2.1, b2.2, by simp only; rw [b2.3], b2.4, b2.5⟩, a5⟩

theorem readRestart_eqv {a b : St} (h : Eqv a b) : (readRestart a).1 = (readRestart b).1 ∧ Eqv (readRestart a).2 (readRestart b).2 := by
  unfold readRestart
  rw [h.unread]
  split
  · obtain ⟨e1, e2⟩ := nextMarker_eqv h
    revert e1 e2
    generalize nextMarker a = p
    generalize nextMarker b = q
    obtain ⟨p1, p2⟩ := p
    obtain ⟨q1, q2⟩ := q
    intro e1 e2
    simp only at e1 e2
    subst e1
    cases p1 with
    | false => exact ⟨rfl, e2⟩
    | true => exact handle_eqv e2
  · exact handle_eqv h

theorem readRestart_more {s : St} (hd : s.num < 8) (x : List Nat) :
    ((readRestart s).1 = true → readRestart (s.more x) = (true, (readRestart s).2.more x)) ∧
    ((readRestart s).1 = false → (readRestart (s.more x)).1 = (readRestart ((readRestart s).2.more x)).1 ∧ Eqv (readRestart (s.more x)).2 (readRestart ((readRestart s).2.more x)).2) := by
  have hh : ∀ t : St, t.num < 8 → t.unread ≠ 0 → ((handle t).1 = true → handle (t.more x) = (true, (handle t).2.more x)) ∧
      ((handle t).1 = false → (handle (t.more x)).1 = (readRestart ((handle t).2.more x)).1 ∧ Eqv (handle (t.more x)).2 (readRestart ((handle t).2.more x)).2) := by
    intro t hd ht
    obtain ⟨h1, h2⟩ := handle_more hd x
    refine ⟨h1, fun h => ?_⟩
    obtain ⟨a, b, c⟩ := h2 h
    have : readRestart ((handle t).2.more x) = handle ((handle t).2.more x) := by
      rw [readRestart, if_neg (show ¬ ((handle t).2.more x).unread = 0 from c ht)]
    rw [this]
    exact ⟨a, b⟩
  by_cases h0 : s.unread = 0
  · have e1 : readRestart s = match nextMarker s with | (false, s) => (false, s) | (true, s) => handle s := by rw [readRestart, if_pos h0]; rfl
    have e2 : readRestart (s.more x) = match nextMarker (s.more x) with | (false, s) => (false, s) | (true, s) => handle s := by rw [readRestart, if_pos (show (s.more x).unread = 0 from h0)]; rfl
    rw [e1, e2]
    cases hm : nextMarker s with
    | mk ok t =>
    cases ok with
    | true =>
      rw [(nextMarker_more s x).1 t hm]
      rcases nextMarker_spec s with ⟨c, q, _, g4, g3⟩ | ⟨_, _, _, g2, _⟩
      · have e := hm.symm.trans g3
        simp only [Prod.mk.injEq, true_and] at e
        exact hh t (by rw [e]; exact hd) (by rw [e]; exact g4)
      · rw [hm] at g2; simp at g2
    | false =>
      obtain ⟨m1, m2⟩ := (nextMarker_more s x).2 t hm
      refine ⟨fun h => by simp at h, fun _ => ?_⟩
      simp only
      rw [m1, readRestart, if_pos (show (t.more x).unread = 0 by rw [← h0]; exact m2)]
      exact ⟨rfl, Eqv.refl _⟩
  · have e1 : readRestart s = handle s := by rw [readRestart, if_neg h0]
    have e2 : readRestart (s.more x) = handle (s.more x) := by rw [readRestart, if_neg (show ¬ (s.more x).unread = 0 from h0)]
    rw [e1, e2]
    exact hh s hd h0

theorem feed_eq (cs : List (List Nat)) : ∀ {s t : St}, s.num < 8 → Eqv t (s.more cs.flatten) → (feed s cs).1 = (readRestart t).1 ∧ Eqv ((feed s cs).2.1.more (feed s cs).2.2.flatten) (readRestart t).2 := by
  induction cs with
  | nil =>
    intro s t hd h
    have h : Eqv t s := by
      have e : s.more ([] : List (List Nat)).flatten = s := by simp [St.more]
      rw [e] at h; exact h
    obtain ⟨e1, e2⟩ := readRestart_eqv h
    refine ⟨e1.symm, ?_⟩
    have e : ((feed s []).2.1.more (feed s []).2.2.flatten) = (readRestart s).2 := by simp [feed, St.more]
    rw [e]; exact e2.symm
  | cons c cs ih =>
    intro s t hd h
    obtain ⟨r1, r2⟩ := readRestart_more hd (c :: cs).flatten
    obtain ⟨q1, q2⟩ := readRestart_eqv h
    by_cases hok : (readRestart s).1 = true
    · have := r1 hok
      rw [this] at q1 q2
      have e : feed s (c :: cs) = (true, (readRestart s).2, c :: cs) := by rw [feed, if_pos hok]
      rw [e]
      exact ⟨q1.symm, q2.symm⟩
    · have hf : (readRestart s).1 = false := by simpa using hok
      have e : feed s (c :: cs) = feed ((readRestart s).2.more c) cs := by rw [feed, if_neg hok]; rfl
      rw [e]
      obtain ⟨s1, s2⟩ := r2 hf
      have hnum : ((readRestart s).2.more c).num < 8 := by
        have := C30_counter hd
        rw [hf] at this
        simp only [Bool.false_eq_true, if_false] at this
        show (readRestart s).2.num < 8
        omega
      have hE : ((readRestart s).2.more c).more cs.flatten = (readRestart s).2.more (c :: cs).flatten := by simp [St.more]
      obtain ⟨i1, i2⟩ := ih (t := (readRestart s).2.more (c :: cs).flatten) hnum (by rw [hE]; exact Eqv.refl _)
      exact ⟨by rw [i1, q1, s1], i2.trans (q2.trans s2).symm⟩

/-- **C30.** With a suspending source, whatever the chunks: the outcome, the pending marker, the restart number, the position in the data and the reports of skipped data are those of a single call with all the data at hand. -/
theorem C30_chunks {s : St} (hd : s.num < 8) (cs : List (List Nat)) :
    let one := readRestart { s with buf := s.buf ++ cs.flatten }
    let many := feed s cs
    many.1 = one.1 ∧ many.2.1.unread = one.2.unread ∧ many.2.1.num = one.2.num ∧ many.2.1.disc = one.2.disc ∧ many.2.1.buf ++ many.2.2.flatten = one.2.buf ∧ many.2.1.warns.filter Warn.isData = one.2.warns.filter Warn.isData := by
  obtain ⟨h1, h2⟩ := feed_eq cs hd (Eqv.refl _)
  exact ⟨h1, h2.1, h2.3, h2.2, h2.4, h2.5⟩

/-- The number of JWRN_MUST_RESYNC warnings does depend on the chunks: each time the search for the next marker suspends, the warning is repeated. -/
theorem C30_repeated_warning : ∃ (s : St) (cs : List (List Nat)), s.num < 8 ∧ (feed s cs).2.1.warns.length > (readRestart { s with buf := s.buf ++ cs.flatten }).2.warns.length :=
  ⟨⟨0xD1, 0, 2, [], []⟩, [[5], [0xFF], [0xD2]], by decide, by
    have a2 : action 2 0xD1 = 2 := by decide
    have a1 : action 2 0xD2 = 1 := by decide
    have n1 : ∀ w, nextMarker ⟨0xD1, 0, 2, [], w⟩ = (false, ⟨0xD1, 0, 2, [], w⟩) := fun w => rfl
    have n2 : ∀ w, nextMarker ⟨0xD1, 0, 2, [5], w⟩ = (false, ⟨0xD1, 1, 2, [], w⟩) := fun w => rfl
    have n3 : ∀ w, nextMarker ⟨0xD1, 1, 2, [0xFF], w⟩ = (false, ⟨0xD1, 1, 2, [0xFF], w⟩) := fun w => rfl
    have n4 : ∀ w, nextMarker ⟨0xD1, 1, 2, [0xFF, 0xD2], w⟩ = (true, ⟨0xD2, 0, 2, [], w ++ [.extraneous 1 0xD2]⟩) := fun w => rfl
    have n5 : ∀ w, nextMarker ⟨0xD1, 0, 2, [5, 0xFF, 0xD2], w⟩ = (true, ⟨0xD2, 0, 2, [], w ++ [.extraneous 1 0xD2]⟩) := fun w => rfl
    have f : ∀ d b w s', nextMarker ⟨0xD1, d, 2, b, w ++ [.resync 0xD1 2]⟩ = (false, s') → readRestart ⟨0xD1, d, 2, b, w⟩ = (false, s') := by
      intro d b w s' h
      unfold readRestart handle resync
      simp only [show ¬ (0xD1 : Nat) = 0 by decide, if_false, show ¬ (0xD1 : Nat) = 0xD0 + 2 by decide]
      rw [loop2f a2 h]
    have t : ∀ d b w r w', nextMarker ⟨0xD1, d, 2, b, w ++ [.resync 0xD1 2]⟩ = (true, ⟨0xD2, 0, 2, r, w'⟩) → readRestart ⟨0xD1, d, 2, b, w⟩ = (true, ⟨0, 0, 3, r, w'⟩) := by
      intro d b w r w' h
      unfold readRestart handle resync
      simp only [show ¬ (0xD1 : Nat) = 0 by decide, if_false, show ¬ (0xD1 : Nat) = 0xD0 + 2 by decide]
      rw [loop2t a2 h, loop1 a1]
      rfl
    simp only [feed, List.flatten_cons, List.flatten_nil, List.append_nil, List.nil_append, List.cons_append]
    rw [f 0 [] [] _ (n1 _)]
    simp only [Bool.false_eq_true, if_false, List.nil_append]
    rw [f 0 [5] _ _ (n2 _)]
    simp only [Bool.false_eq_true, if_false, List.nil_append]
    rw [f 1 [0xFF] _ _ (n3 _)]
    simp only [Bool.false_eq_true, if_false, List.cons_append, List.nil_append]
    rw [t 1 [0xFF, 0xD2] _ _ _ (n4 _), t 0 [5, 0xFF, 0xD2] _ _ _ (n5 _)]
    decide⟩

/-! ### A concrete case -/

example : codes [1, 0xFF, 0, 0xFF, 0xFF, 0xD1, 7, 0xFF, 0xD9] = [(0xD1, [7, 0xFF, 0xD9]), (0xD9, [])] ∧ skipped [1, 0xFF, 0, 0xFF, 0xFF, 0xD1, 7, 0xFF, 0xD9] = 3 := by decide
example : verdict 3 0xD3 = .discard ∧ verdict 3 0xD2 = .advance ∧ verdict 3 0xD4 = .leave ∧ verdict 3 0xD9 = .leave ∧ verdict 3 0x01 = .advance ∧ verdict 3 0xD7 = .discard := by decide
example : (nextMarker ⟨0, 0, 3, [1, 0xFF, 0, 0xFF, 0xFF, 0xD1, 7], []⟩) = (true, ⟨0xD1, 0, 3, [7], [.extraneous 3 0xD1]⟩) := by decide

end Verif.Rst
