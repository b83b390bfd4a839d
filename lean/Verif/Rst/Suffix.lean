import Verif.Rst.Model
/-
What a search for a restart marker leaves in the source's buffer is the end of what was there.
-/
namespace Verif.Rst

theorem scan_suffix (B : List Nat) : ∀ (l : List Nat) (disc : Nat) (sync : List Nat) (ff : Bool), sync <:+ B → l <:+ B →
    match (scan disc sync ff l).2 with
    | .inl x => x.2 <:+ B
    | .inr x => x <:+ B := by
  intro l
  induction l with
  | nil => intro disc sync ff h1 _; exact h1
  | cons b l ih =>
    intro disc sync ff h1 h2
    have h3 : l <:+ B := (List.suffix_cons b l).trans h2
    cases ff with
    | false =>
      simp only [scan]
      by_cases hb : b ≠ 0xFF
      · rw [if_pos hb]; exact ih _ _ _ h3 h3
      · rw [if_neg hb]; exact ih _ _ _ h1 h3
    | true =>
      simp only [scan]
      by_cases hb : b = 0xFF
      · rw [if_pos hb]; exact ih _ _ _ h1 h3
      · rw [if_neg hb]
        by_cases h0 : b ≠ 0
        · rw [if_pos h0]; exact h3
        · rw [if_neg h0]; exact ih _ _ _ h3 h3

theorem nextMarker_suffix (s : St) : (nextMarker s).2.buf <:+ s.buf ∧ (nextMarker s).2.num = s.num := by
  have := scan_suffix s.buf s.buf s.disc s.buf false List.suffix_rfl List.suffix_rfl
  unfold nextMarker
  split
  · rename_i h; rw [h] at this; exact ⟨this, rfl⟩
  · rename_i h; rw [h] at this; exact ⟨this, rfl⟩

theorem resyncLoop_suffix (desired : Nat) (s : St) : (resyncLoop desired s).2.2.buf <:+ s.buf ∧ (resyncLoop desired s).2.2.num = s.num := by
  generalize hn : s.buf.length = n
  induction n using Nat.strongRecOn generalizing s with
  | _ n ih =>
    rw [resyncLoop]
    split
    · exact ⟨List.suffix_rfl, rfl⟩
    · split
      · split
        · rename_i h
          have := nextMarker_suffix s
          rw [h] at this; exact this
        · rename_i s1 h
          have h1 := nextMarker_suffix s
          rw [h] at h1
          have h2 := ih _ (by have := nextMarker_lt h; omega) s1 rfl
          exact ⟨h2.1.trans h1.1, h2.2.trans h1.2⟩
      · exact ⟨List.suffix_rfl, rfl⟩

theorem handle_suffix {s : St} (h : s.num < 8) : (handle s).2.buf <:+ s.buf ∧ (handle s).2.num < 8 := by
  unfold handle
  split
  · exact ⟨List.suffix_rfl, by dsimp only; omega⟩
  · have := resyncLoop_suffix s.num { s with warns := s.warns ++ [.resync s.unread s.num] }
    unfold resync
    split
    · rename_i h1; rw [h1] at this; exact ⟨this.1, by rw [show _ = s.num from this.2]; exact h⟩
    · rename_i h1; rw [h1] at this; exact ⟨this.1, by dsimp only; omega⟩

theorem readRestart_suffix {s : St} (h : s.num < 8) : (readRestart s).2.buf <:+ s.buf ∧ (readRestart s).2.num < 8 := by
  unfold readRestart
  split
  · have := nextMarker_suffix s
    split
    · rename_i h1; rw [h1] at this; exact ⟨this.1, by rw [this.2]; exact h⟩
    · rename_i s1 h1
      rw [h1] at this
      have h2 := handle_suffix (s := s1) (by rw [this.2]; exact h)
      exact ⟨h2.1.trans this.1, h2.2⟩
  · exact handle_suffix h

end Verif.Rst
