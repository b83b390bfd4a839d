import Verif.Prep.Model
namespace Verif.Prep
variable {R S : Type}

theorem ptr_simple {k : Cfg R S} (hc : k.context = false) {i : Nat} (h : i < k.maxV) : k.ptr i = some i := by
  unfold Cfg.ptr Cfg.pointers
  simp [hc, h]

theorem ptr_context {k : Cfg R S} (hc : k.context = true) {i : Int} (h1 : -(k.maxV : Int) ≤ i) (h2 : i < 4 * k.maxV) :
    k.ptr i = some ((i + 3 * k.maxV) % (3 * k.maxV)).toNat := by
  unfold Cfg.ptr Cfg.pointers
  simp only [hc, if_true]
  rw [if_neg (by omega)]
  by_cases c1 : i < 0
  · rw [List.getElem?_append_left (by simp; omega), List.getElem?_append_left (by simp; omega), List.getElem?_map, List.getElem?_range (by omega)]
    simp only [Option.map_some, Option.some.injEq]
    rw [Int.emod_eq_of_lt (by omega) (by omega)]
    omega
  · by_cases c2 : i < 3 * k.maxV
    · rw [List.getElem?_append_left (by simp; omega), List.getElem?_append_right (by simp; omega)]
      simp only [List.length_map, List.length_range]
      rw [List.getElem?_range (by omega), Int.add_emod_right, Int.emod_eq_of_lt (by omega) (by omega)]
      congr 1; omega
    · rw [List.getElem?_append_right (by simp; omega)]
      simp only [List.length_append, List.length_map, List.length_range]
      rw [List.getElem?_range (by omega), Int.add_emod_right]
      congr 1
      have : i % (3 * k.maxV) = i - 3 * k.maxV := by
        rw [← Int.sub_emod_right, Int.emod_eq_of_lt (by omega) (by omega)]
      rw [this]; omega

theorem convert_spec {k : Cfg R S} {input : List R} {x : Nat → R} : ∀ (n i : Nat) (row : Int) (buf : Nat → R) (p : Nat → Nat), (∀ j, j < n → input[i + j]? = some (x j)) → (∀ j : Nat, j < n → k.ptr (row + j) = some (p j)) →
    (∀ a b, a < n → b < n → p a = p b → a = b) →
    ∃ buf', k.convert input n i row buf = some buf' ∧ (∀ j, j < n → buf' (p j) = x j) ∧ ∀ q, (∀ j, j < n → q ≠ p j) → buf' q = buf q := by
  intro n
  induction n generalizing x with
  | zero => intro i row buf p _ _ _; exact ⟨buf, rfl, by omega, fun _ _ => rfl⟩
  | succ n ih =>
    intro i row buf p hx hp hi
    have h0 := hx 0 (by omega)
    have p0 := hp 0 (by omega)
    rw [Nat.add_zero] at h0
    rw [Nat.cast_zero, Int.add_zero] at p0
    obtain ⟨buf', e1, e2, e3⟩ := ih (x := fun j => x (j + 1)) (i + 1) (row + 1) (upd buf (p 0) (x 0)) (fun j => p (j + 1)) (by
      intro j hj
      rw [show i + 1 + j = i + (j + 1) by omega]; exact hx (j + 1) (by omega)) (by
      intro j hj
      rw [show row + 1 + (j : Int) = row + ((j + 1 : Nat) : Int) by omega]; exact hp (j + 1) (by omega)) (by
      intro a b ha hb hab
      have := hi (a + 1) (b + 1) (by omega) (by omega) hab; omega)
    refine ⟨buf', by simp [Cfg.convert, h0, p0, e1], ?_, ?_⟩
    · intro j hj
      cases j with
      | zero =>
        rw [e3 (p 0) (by
          intro j hj hpj
          have := hi 0 (j + 1) (by omega) (by omega) hpj; omega)]
        simp [upd]
      | succ j => exact e2 j (by omega)
    · intro q hq
      rw [e3 q (fun j hj => hq (j + 1) (by omega))]
      unfold upd
      rw [if_neg (hq 0 (by omega))]

theorem expandBuf_spec {k : Cfg R S} {last : Int} {l : Nat} (hl : k.ptr last = some l) : ∀ (n : Nat) (row : Int) (buf : Nat → R) (p : Nat → Nat), (∀ j : Nat, j < n → k.ptr (row + j) = some (p j)) → (∀ j, j < n → p j ≠ l) →
    ∃ buf', k.expandBuf last n row buf = some buf' ∧ (∀ j, j < n → buf' (p j) = buf l) ∧ ∀ q, (∀ j, j < n → q ≠ p j) → buf' q = buf q := by
  intro n
  induction n with
  | zero => intro row buf p _ _; exact ⟨buf, rfl, by omega, fun _ _ => rfl⟩
  | succ n ih =>
    intro row buf p hp hne
    have p0 := hp 0 (by omega)
    rw [Nat.cast_zero, Int.add_zero] at p0
    have hu : upd buf (p 0) (buf l) l = buf l := by unfold upd; split <;> rfl
    obtain ⟨buf', e1, e2, e3⟩ := ih (row + 1) (upd buf (p 0) (buf l)) (fun j => p (j + 1)) (by
      intro j hj
      rw [show row + 1 + (j : Int) = row + ((j + 1 : Nat) : Int) by omega]; exact hp (j + 1) (by omega)) (fun j hj => hne (j + 1) (by omega))
    have key : ∀ q, buf' q = buf l ∨ (∃ j, j < n ∧ q = p (j + 1)) ∨ (q ≠ p 0 ∧ buf' q = buf q) ∨ q = p 0 := by
      intro q
      by_cases h0 : q = p 0
      · exact Or.inr (Or.inr (Or.inr h0))
      · by_cases h1 : ∃ j, j < n ∧ q = p (j + 1)
        · exact Or.inr (Or.inl h1)
        · right; right; left
          refine ⟨h0, ?_⟩
          rw [e3 q (fun j hj e => h1 ⟨j, hj, e⟩)]
          unfold upd; rw [if_neg h0]
    refine ⟨buf', by simp [Cfg.expandBuf, Cfg.copyRow, hl, p0, e1], ?_, ?_⟩
    · intro j hj
      cases j with
      | zero =>
        by_cases h1 : ∃ j, j < n ∧ p 0 = p (j + 1)
        · obtain ⟨j, hj', e⟩ := h1
          have := e2 j hj'
          simp only [← e, hu] at this
          exact this
        · rw [e3 (p 0) (fun j hj e => h1 ⟨j, hj, e⟩)]
          simp [upd]
      | succ j =>
        have := e2 j (by omega)
        rw [hu] at this; exact this
    · intro q hq
      rw [e3 q (fun j hj => hq (j + 1) (by omega))]
      unfold upd
      rw [if_neg (hq 0 (by omega))]

theorem padTop_spec {k : Cfg R S} {l : Nat} (hl : k.ptr 0 = some l) : ∀ (n row : Nat) (buf : Nat → R) (p : Nat → Nat), (∀ j : Nat, j < n → k.ptr (-((row + j : Nat) : Int)) = some (p j)) → (∀ j, j < n → p j ≠ l) →
    ∃ buf', k.padTop n row buf = some buf' ∧ (∀ j, j < n → buf' (p j) = buf l) ∧ ∀ q, (∀ j, j < n → q ≠ p j) → buf' q = buf q := by
  intro n
  induction n with
  | zero => intro row buf p _ _; exact ⟨buf, rfl, by omega, fun _ _ => rfl⟩
  | succ n ih =>
    intro row buf p hp hne
    have p0 := hp 0 (by omega)
    rw [Nat.add_zero] at p0
    have hu : upd buf (p 0) (buf l) l = buf l := by unfold upd; split <;> rfl
    obtain ⟨buf', e1, e2, e3⟩ := ih (row + 1) (upd buf (p 0) (buf l)) (fun j => p (j + 1)) (by
      intro j hj
      rw [show row + 1 + j = row + (j + 1) by omega]; exact hp (j + 1) (by omega)) (fun j hj => hne (j + 1) (by omega))
    refine ⟨buf', by simp [Cfg.padTop, Cfg.copyRow, hl, p0, e1], ?_, ?_⟩
    · intro j hj
      cases j with
      | zero =>
        by_cases h1 : ∃ j, j < n ∧ p 0 = p (j + 1)
        · obtain ⟨j, hj', e⟩ := h1
          have := e2 j hj'
          simp only [← e, hu] at this
          exact this
        · rw [e3 (p 0) (fun j hj e => h1 ⟨j, hj, e⟩)]
          simp [upd]
      | succ j =>
        have := e2 j (by omega)
        rw [hu] at this; exact this
    · intro q hq
      rw [e3 q (fun j hj => hq (j + 1) (by omega))]
      unfold upd
      rw [if_neg (hq 0 (by omega))]

theorem readRows_spec {k : Cfg R S} {buf : Nat → R} {x : Nat → R} : ∀ (n : Nat) (row : Int), (∀ j : Nat, j < n → ∃ p, k.ptr (row + j) = some p ∧ buf p = x j) →
    k.readRows buf n row = some ((List.range n).map x) := by
  intro n
  induction n generalizing x with
  | zero => intro row _; rfl
  | succ n ih =>
    intro row h
    obtain ⟨p, hp, hb⟩ := h 0 (by omega)
    rw [Nat.cast_zero, Int.add_zero] at hp
    unfold Cfg.readRows
    rw [hp, ih (x := fun j => x (j + 1)) (row + 1) (by
      intro j hj
      rw [show row + 1 + (j : Int) = row + ((j + 1 : Nat) : Int) by omega]; exact h (j + 1) (by omega))]
    simp only [Option.bind_eq_bind, Option.bind_some, Option.pure_def, hb]
    rw [List.range_succ_eq_map, List.map_cons, List.map_map]
    rfl

theorem storeOut_spec {k : Cfg R S} : ∀ (l : List S) (i : Nat) (out : Nat → S), i + l.length ≤ k.unit * k.v →
    ∃ out', k.storeOut l i out = some out' ∧ (∀ j, j < i → out' j = out j) ∧ ∀ j, j < l.length → some (out' (i + j)) = l[j]? := by
  intro l
  induction l with
  | nil => intro i out _; exact ⟨out, rfl, fun _ _ => rfl, by simp⟩
  | cons a l ih =>
    intro i out h
    simp only [List.length_cons] at h
    obtain ⟨out', e1, e2, e3⟩ := ih (i + 1) (upd out i a) (by omega)
    refine ⟨out', by unfold Cfg.storeOut; rw [if_pos (by omega)]; exact e1, ?_, ?_⟩
    · intro j hj
      rw [e2 j (by omega)]; unfold upd; rw [if_neg (by omega)]
    · intro j hj
      cases j with
      | zero => rw [Nat.add_zero, e2 i (by omega)]; simp [upd]
      | succ j =>
        have := e3 j (by simp at hj; omega)
        rw [List.getElem?_cons_succ, ← this]
        congr 2; omega

theorem expandOut_spec {k : Cfg R S} {last : Nat} : ∀ (n i : Nat) (out : Nat → S), last < i → i + n ≤ k.unit * k.v →
    ∃ out', k.expandOut last n i out = some out' ∧ (∀ j, j < i → out' j = out j) ∧ ∀ j, j < n → out' (i + j) = out last := by
  intro n
  induction n with
  | zero => intro i out _ _; exact ⟨out, rfl, fun _ _ => rfl, by omega⟩
  | succ n ih =>
    intro i out h1 h2
    obtain ⟨out', e1, e2, e3⟩ := ih (i + 1) (upd out i (out last)) (by omega) (by omega)
    have hu : upd out i (out last) last = out last := by unfold upd; rw [if_neg (by omega)]
    refine ⟨out', by unfold Cfg.expandOut; rw [if_pos (by omega)]; exact e1, ?_, ?_⟩
    · intro j hj
      rw [e2 j (by omega)]; unfold upd; rw [if_neg (by omega)]
    · intro j hj
      cases j with
      | zero => rw [Nat.add_zero, e2 i (by omega)]; simp [upd]
      | succ j =>
        have := e3 j (by omega)
        rw [hu] at this
        rw [← this]; congr 1; omega

end Verif.Prep
