/-
Restart markers on the reading side: jdmarker.c next_marker, read_restart_marker, jpeg_resync_to_restart, with a suspending data source: what has not been consumed at the last INPUT_SYNC is kept by the source and read again.
Fields of other structures (trace messages) are not modelled.
-/
namespace Verif.Rst

/-- Warnings: JWRN_EXTRANEOUS_DATA (bytes skipped, marker found) and JWRN_MUST_RESYNC (marker found, number expected). -/
inductive Warn where
  | extraneous (n m : Nat)
  | resync (m desired : Nat)
deriving DecidableEq, Repr

/-- unread_marker, marker->discarded_bytes, marker->next_restart_num, the bytes in the source's buffer, warnings issued so far. -/
structure St where
  unread : Nat
  disc : Nat
  num : Nat
  buf : List Nat
  warns : List Warn
deriving DecidableEq, Repr

/-- The reading loops of next_marker (jdmarker.c:894-921): `sync` = the bytes not yet consumed at the last INPUT_SYNC, `ff` = inside the loop that swallows FF bytes.  Result: discarded_bytes and, if a marker was found, its code and what follows; if not
(no more bytes: suspension), the bytes that stay in the source's buffer. -/
def scan : Nat → List Nat → Bool → List Nat → Nat × (Nat × List Nat ⊕ List Nat)
  | disc, sync, _, [] => (disc, .inr sync)
  | disc, sync, false, c :: rest => if c ≠ 0xFF then scan (disc + 1) rest false rest else scan disc sync true rest
  | disc, sync, true, c :: rest => if c = 0xFF then scan disc sync true rest else if c ≠ 0 then (disc, .inl (c, rest)) else scan (disc + 2) rest false rest

/-- next_marker (jdmarker.c:888-932); the flag is FALSE on suspension. -/
def nextMarker (s : St) : Bool × St :=
  match scan s.disc s.buf false s.buf with
  | (disc, .inr sync) => (false, { s with disc := disc, buf := sync })
  | (disc, .inl (c, rest)) => (true, { s with disc := 0, unread := c, buf := rest, warns := if disc ≠ 0 then s.warns ++ [.extraneous disc c] else s.warns })

theorem scan_lt : ∀ (l : List Nat) (disc : Nat) (sync : List Nat) (ff : Bool) {c : Nat} {rest : List Nat}, (scan disc sync ff l).2 = .inl (c, rest) → rest.length < l.length := by
  intro l
  induction l with
  | nil => intro disc sync ff c rest h; simp [scan] at h
  | cons b l ih =>
    intro disc sync ff c rest h
    cases ff with
    | false =>
      simp only [scan] at h
      split at h
      · have := ih _ _ _ h; simp only [List.length_cons]; omega
      · have := ih _ _ _ h; simp only [List.length_cons]; omega
    | true =>
      simp only [scan] at h
      split at h
      · have := ih _ _ _ h; simp only [List.length_cons]; omega
      · split at h
        · simp at h; obtain ⟨-, rfl⟩ := h; simp
        · have := ih _ _ _ h; simp only [List.length_cons]; omega

theorem nextMarker_lt {s s' : St} (h : nextMarker s = (true, s')) : s'.buf.length < s.buf.length := by
  unfold nextMarker at h
  split at h
  · simp at h
  · rename_i disc c rest hs
    simp at h
    subst h
    exact scan_lt _ _ _ _ (by rw [hs])

/-- The decision in jpeg_resync_to_restart (jdmarker.c:1227-1242): 1 = discard the marker, 2 = scan to the next marker, 3 = leave it. -/
def action (desired marker : Nat) : Nat :=
  if marker < 0xC0 then 2
  else if marker < 0xD0 ∨ marker > 0xD7 then 3
  else if (marker : Int) = 0xD0 + ((desired : Int) + 1) % 8 ∨ (marker : Int) = 0xD0 + ((desired : Int) + 2) % 8 then 3
  else if (marker : Int) = 0xD0 + ((desired : Int) - 1) % 8 ∨ (marker : Int) = 0xD0 + ((desired : Int) - 2) % 8 then 2
  else 1

/-- The loop of jpeg_resync_to_restart (jdmarker.c:1225-1262) with the number of times it was entered. -/
def resyncLoop (desired : Nat) (s : St) : Bool × Nat × St :=
  if action desired s.unread = 1 then (true, 1, { s with unread := 0 })
  else if action desired s.unread = 2 then
    match h : nextMarker s with
    | (false, s) => (false, 1, s)
    | (true, s) =>
      let (ok, n, s) := resyncLoop desired s
      (ok, n + 1, s)
  else (true, 1, s)
termination_by s.buf.length
decreasing_by exact nextMarker_lt h

/-- jpeg_resync_to_restart (jdmarker.c:1215-1264). -/
def resync (desired : Nat) (s : St) : Bool × Nat × St := resyncLoop desired { s with warns := s.warns ++ [.resync s.unread desired] }

/-- read_restart_marker once a marker is at hand (jdmarker.c:1146-1165); `& 7` = remainder by 8. -/
def handle (s : St) : Bool × St :=
  if s.unread = 0xD0 + s.num then (true, { s with unread := 0, num := (s.num + 1) % 8 })
  else
    match resync s.num s with
    | (false, _, s) => (false, s)
    | (true, _, s) => (true, { s with num := (s.num + 1) % 8 })

/-- read_restart_marker (jdmarker.c:1136-1166). -/
def readRestart (s : St) : Bool × St :=
  if s.unread = 0 then
    match nextMarker s with
    | (false, s) => (false, s)
    | (true, s) => handle s
  else handle s

/-- A suspending source: after a FALSE return the application supplies the next chunk and the call is repeated.  The result of the last call made, and the chunks not yet supplied. -/
def feed (s : St) : List (List Nat) → Bool × St × List (List Nat)
  | [] => ((readRestart s).1, (readRestart s).2, [])
  | c :: cs => if (readRestart s).1 then (true, (readRestart s).2, c :: cs) else feed { (readRestart s).2 with buf := (readRestart s).2.buf ++ c } cs

end Verif.Rst
