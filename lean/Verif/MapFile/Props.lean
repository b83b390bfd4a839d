import Verif.MapFile.Model
import Verif.Ppm.Load
/-
What `djpeg -map` reads from a colour-map file.
-/
namespace Verif.MapFile

open Ppm

/-! ## Specification -/

/-- The different elements of a list, each where it occurs first. -/
def firsts {α : Type} [DecidableEq α] : List α → List α
  | [] => []
  | x :: l => x :: (firsts l).filter (· ≠ x)

/-- The samples of colours in order. -/
def flat (cs : List Col) : List Nat := cs.flatMap fun c => [c.1, c.2.1, c.2.2]

/-- What becomes of the colours of a file: a map of the different ones, unless there are more than samples have values. -/
def outcome (n : Nat) (cs : List Col) : R (List Col) := if (firsts cs).length ≤ n then .ok (firsts cs) else .error .exit

/-- A colour of samples below `n`. -/
def Small (n : Nat) (c : Col) : Prop := c.1 < n ∧ c.2.1 < n ∧ c.2.2 < n

instance (n : Nat) (c : Col) : Decidable (Small n c) := by unfold Small; infer_instance

/-! ## Lemmas -/

theorem firsts_mem {α : Type} [DecidableEq α] (x : α) : ∀ l : List α, x ∈ firsts l ↔ x ∈ l
  | [] => by simp [firsts]
  | y :: l => by
    have := firsts_mem x l
    by_cases h : x = y <;> simp [firsts, h, this]

theorem firsts_nodup {α : Type} [DecidableEq α] : ∀ l : List α, (firsts l).Nodup
  | [] => by simp [firsts]
  | y :: l => by
    have := firsts_nodup l
    simp only [firsts, List.nodup_cons]
    exact ⟨by simp, this.filter _⟩

theorem firsts_length {α : Type} [DecidableEq α] : ∀ l : List α, (firsts l).length ≤ l.length
  | [] => by simp [firsts]
  | y :: l => by
    have h1 := firsts_length l
    have h2 := List.length_filter_le (· ≠ y) (firsts l)
    simp only [firsts, List.length_cons]
    omega

theorem trunc_small {sh : Nat} {c : Col} (h : Small (2 ^ (8 + sh)) c) : trunc sh c = c := by
  obtain ⟨h1, h2, h3⟩ := h
  simp [trunc, Nat.mod_eq_of_lt h1, Nat.mod_eq_of_lt h2, Nat.mod_eq_of_lt h3]

theorem any_mem (m : List Col) (c : Col) : m.any (fun x => x.1 = c.1 && x.2.1 = c.2.1 && x.2.2 = c.2.2) = true ↔ c ∈ m := by
  simp only [List.any_eq_true, Bool.and_eq_true, decide_eq_true_eq]
  constructor
  · rintro ⟨x, hx, ⟨h1, h2⟩, h3⟩
    have : x = c := Prod.ext h1 (Prod.ext h2 h3)
    exact this ▸ hx
  · exact fun h => ⟨c, h, ⟨rfl, rfl⟩, rfl⟩

theorem add_eq (sh : Nat) (m : List Col) (c : Col) (h : Small (2 ^ (8 + sh)) c) :
    add sh m c = if c ∈ m then .ok m else if 2 ^ (8 + sh) ≤ m.length then .error .exit else .ok (m ++ [c]) := by
  unfold add
  rw [trunc_small h]
  by_cases hc : c ∈ m
  · rw [if_pos ((any_mem m c).2 hc), if_pos hc]
  · rw [if_neg (fun e => hc ((any_mem m c).1 e)), if_neg hc]
    by_cases hl : 2 ^ (8 + sh) ≤ m.length
    · rw [if_pos hl, if_pos hl]
    · rw [if_neg hl, if_neg hl, if_pos (by unfold room; omega)]

/-- Adding colours one after the other. -/
def adds (sh : Nat) : List Col → List Col → R (List Col)
  | [], m => .ok m
  | c :: l, m => do
    let m ← add sh m c
    adds sh l m

theorem adds_eq (sh : Nat) : ∀ (l m : List Col), (∀ c ∈ l, Small (2 ^ (8 + sh)) c) → m.length ≤ 2 ^ (8 + sh) →
    adds sh l m = if (m ++ (firsts l).filter (· ∉ m)).length ≤ 2 ^ (8 + sh) then .ok (m ++ (firsts l).filter (· ∉ m)) else .error .exit
  | [], m, _, hm => by simp [adds, firsts, hm]
  | c :: l, m, h, hm => by
    have hs := h c (by simp)
    have hl : ∀ x ∈ l, Small (2 ^ (8 + sh)) x := fun x hx => h x (by simp [hx])
    simp only [adds, add_eq sh m c hs]
    by_cases hc : c ∈ m
    · rw [if_pos hc]
      have e : (firsts (c :: l)).filter (· ∉ m) = (firsts l).filter (· ∉ m) := by
        simp only [firsts, List.filter_cons, List.filter_filter]
        rw [if_neg (by simpa using hc)]
        apply List.filter_congr
        intro x _
        by_cases hx : x = c
        · subst hx; simp [hc]
        · simp [hx]
      rw [e]
      exact adds_eq sh l m hl hm
    · rw [if_neg hc]
      have e : m ++ (firsts (c :: l)).filter (· ∉ m) = (m ++ [c]) ++ (firsts l).filter (· ∉ m ++ [c]) := by
        simp only [firsts, List.filter_cons, List.filter_filter]
        rw [if_pos (by simpa using hc)]
        simp only [List.append_assoc, List.singleton_append, List.append_cancel_left_eq, List.cons.injEq, true_and]
        apply List.filter_congr
        intro x _
        by_cases hx : x = c <;> by_cases hm : x ∈ m <;> simp [hx, hm]
      rw [e]
      by_cases hf : 2 ^ (8 + sh) ≤ m.length
      · rw [if_pos hf, if_neg (by simp only [List.length_append, List.length_singleton]; omega)]
        rfl
      · rw [if_neg hf]
        exact adds_eq sh l (m ++ [c]) hl (by simp only [List.length_append, List.length_singleton]; omega)

theorem adds_nil (sh : Nat) (l : List Col) (h : ∀ c ∈ l, Small (2 ^ (8 + sh)) c) : adds sh l [] = outcome (2 ^ (8 + sh)) l := by
  rw [adds_eq sh l [] h (by simp)]
  simp [outcome]

theorem loop_raw (sh : Nat) (scale : Col → Col) (t : List Nat) : ∀ (cs m : List Col),
    loop sh raw3 scale cs.length (flat cs ++ t) m = adds sh (cs.map scale) m
  | [], m => rfl
  | c :: cs, m => by
    simp only [List.length_cons, loop, flat, List.flatMap_cons, List.cons_append, List.nil_append, raw3, bind, Except.bind, List.map_cons, adds]
    cases add sh m (scale c) with
    | error e => rfl
    | ok m' => exact loop_raw sh scale t cs m'

theorem loop_short (sh : Nat) (scale : Col → Col) : ∀ (n : Nat) (s : List Nat) (m : List Col), s.length < 3 * n →
    loop sh raw3 scale n s m = .error .exit
  | 0, _, _, h => by omega
  | n + 1, s, m, h => by
    unfold loop
    rcases s with _ | ⟨r, _ | ⟨g, _ | ⟨b, s⟩⟩⟩
    · rfl
    · rfl
    · rfl
    · simp only [raw3, bind, Except.bind]
      have ha : add sh m (scale (r, g, b)) ≠ .error .fault := by
        unfold add room
        split
        · simp
        · split
          · simp
          · rw [if_pos (by omega)]; simp
      cases e : add sh m (scale (r, g, b)) with
      | error e' =>
        cases e' with
        | exit => rfl
        | fault => exact absurd e ha
      | ok m' =>
        simp only [List.length_cons] at h
        exact loop_short sh scale n s m' (by omega)

theorem loop_text (sh : Nat) : ∀ (cs m : List Col) (s : List Nat), Text (flat cs) s → (∀ c ∈ cs, Small (2 ^ 32) c) →
    loop sh text3 id cs.length s m = adds sh cs m
  | [], _, _, _, _ => rfl
  | c :: cs, m, s, ht, h => by
    obtain ⟨h1, h2, h3⟩ := h c (by simp)
    have ht' : Text (c.1 :: c.2.1 :: c.2.2 :: flat cs) s := ht
    obtain ⟨s1, e1, t1⟩ := ht'.read (maxval := 2 ^ 32 - 1) (by omega) (by decide)
    obtain ⟨s2, e2, t2⟩ := t1.read (maxval := 2 ^ 32 - 1) (by omega) (by decide)
    obtain ⟨s3, e3, t3⟩ := t2.read (maxval := 2 ^ 32 - 1) (by omega) (by decide)
    simp only [List.length_cons, loop, text3, int, e1, e2, e3, bind, Except.bind, adds, id]
    cases add sh m (c.1, c.2.1, c.2.2) with
    | error e => rfl
    | ok m' => exact loop_text sh cs m' s3 t3 (fun x hx => h x (by simp [hx]))

/-! ## Safety -/

theorem add_safe (sh : Nat) (m : List Col) (c : Col) (hm : m.length ≤ 2 ^ (8 + sh)) (hs : ∀ c ∈ m, Small (2 ^ (8 + sh)) c) :
    Safe (fun m' => 0 < m'.length ∧ m'.length ≤ 2 ^ (8 + sh) ∧ ∀ c ∈ m', Small (2 ^ (8 + sh)) c) (add sh m c) := by
  unfold add
  split
  · rename_i h
    obtain ⟨x, hx, -⟩ := List.any_eq_true.1 h
    exact ⟨List.length_pos_of_mem hx, hm, hs⟩
  · split
    · trivial
    · rename_i hl
      rw [if_pos (by unfold room; omega)]
      refine ⟨by simp, by simp only [List.length_append, List.length_singleton]; omega, fun x hx => ?_⟩
      rcases List.mem_append.1 hx with h | h
      · exact hs x h
      · rw [List.mem_singleton.1 h]
        exact ⟨Nat.mod_lt _ (by positivity), Nat.mod_lt _ (by positivity), Nat.mod_lt _ (by positivity)⟩

theorem loop_safe (sh : Nat) (rd : List Nat → R (Col × List Nat)) (scale : Col → Col) (hr : ∀ s, Safe (fun _ => True) (rd s)) :
    ∀ (n : Nat) (s : List Nat) (m : List Col), m.length ≤ 2 ^ (8 + sh) → (∀ c ∈ m, Small (2 ^ (8 + sh)) c) → 0 < m.length ∨ 0 < n →
    Safe (fun m' => 0 < m'.length ∧ m'.length ≤ 2 ^ (8 + sh) ∧ ∀ c ∈ m', Small (2 ^ (8 + sh)) c) (loop sh rd scale n s m)
  | 0, s, m, hm, hs, h0 => ⟨by omega, hm, hs⟩
  | n + 1, s, m, hm, hs, _ => by
    unfold loop
    refine (hr s).bind fun r _ => ?_
    refine (add_safe sh m (scale r.1) hm hs).bind fun m' h => ?_
    exact loop_safe sh rd scale hr n r.2 m' h.2.1 h.2.2 (Or.inl h.1)

theorem raw3_safe (s : List Nat) : Safe (fun _ => True) (raw3 s) := by
  unfold raw3
  split <;> trivial

theorem int_safe (s : List Nat) : Safe (fun _ => True) (int s) := (readInt_safe _ s).mono fun _ _ => trivial

theorem text3_safe (s : List Nat) : Safe (fun _ => True) (text3 s) := by
  unfold text3
  refine (int_safe s).bind fun r _ => ?_
  refine (int_safe _).bind fun g _ => ?_
  refine (int_safe _).bind fun b _ => ?_
  trivial

/-! ## Theorems -/

/-- Whatever the bytes, reading them as a colour map touches nothing outside the arrays; an accepted map has between 1 and 2^bits colours, all of
whose samples are in range. -/
theorem read_safe (sh : Nat) (s : List Nat) : read sh s ≠ .error .fault ∧
    ∀ m, read sh s = .ok m → 0 < m.length ∧ m.length ≤ 2 ^ (8 + sh) ∧ ∀ c ∈ m, Small (2 ^ (8 + sh)) c := by
  have key : Safe (fun m => 0 < m.length ∧ m.length ≤ 2 ^ (8 + sh) ∧ ∀ c ∈ m, Small (2 ^ (8 + sh)) c) (read sh s) := by
    unfold read
    split
    · unfold gifMap
      split
      · split
        · trivial
        · split
          · trivial
          · refine loop_safe sh raw3 _ raw3_safe _ _ [] (by simp) (by simp) (Or.inr ?_)
            simp [Nat.shiftLeft_eq]
      · trivial
    · unfold ppmMap
      split
      · trivial
      · refine (int_safe _).bind fun w _ => ?_
        refine (int_safe _).bind fun h _ => ?_
        refine (int_safe _).bind fun v _ => ?_
        simp only []
        split
        · trivial
        · rename_i h0
          have hp : 0 < h.1 * w.1 := Nat.mul_pos (by omega) (by omega)
          split
          · trivial
          · split
            · exact loop_safe sh text3 _ text3_safe _ _ [] (by simp) (by simp) (Or.inr hp)
            · split
              · exact loop_safe sh raw3 _ raw3_safe _ _ [] (by simp) (by simp) (Or.inr hp)
              · trivial
    · trivial
  refine ⟨key.not_fault, fun m e => ?_⟩
  rw [e] at key
  exact key

/-- The bytes of a GIF file up to the global colour map: version, screen size, flags, background and aspect ratio are free, except that the flags
announce a map of 2^(k+1) colours. -/
def gifHeader (ver size : List Nat) (hi k bg asp : Nat) : List Nat := [71, 73, 70] ++ ver ++ size ++ [128 + hi * 8 + k] ++ [bg, asp]

theorem gif_flags (hi k : Nat) (hh : hi < 16) (hk : k < 8) : (128 + hi * 8 + k) &&& 128 ≠ 0 ∧ 2 <<< ((128 + hi * 8 + k) &&& 7) = 2 ^ (k + 1) := by
  have h : ∀ hi < 16, ∀ k < 8, (128 + hi * 8 + k) &&& 128 ≠ 0 ∧ 2 <<< ((128 + hi * 8 + k) &&& 7) = 2 ^ (k + 1) := by decide
  exact h hi hh k hk

/-- The map of a GIF file is its different colours in the order in which they first occur, scaled to the sample size; a colour map with fewer
colours than announced is an error. -/
theorem gif_content (sh : Nat) (ver size : List Nat) (hi k bg asp : Nat) (hv : ver.length = 3) (hz : size.length = 4) (hh : hi < 16) (hk : k < 8) :
    (∀ (cs : List Col) (t : List Nat), cs.length = 2 ^ (k + 1) → (∀ c ∈ cs, Small 256 c) →
      read sh (gifHeader ver size hi k bg asp ++ flat cs ++ t) =
        .ok (firsts (cs.map fun c => (c.1 * 2 ^ sh, c.2.1 * 2 ^ sh, c.2.2 * 2 ^ sh)))) ∧
    ∀ t : List Nat, t.length < 3 * 2 ^ (k + 1) → read sh (gifHeader ver size hi k bg asp ++ t) = .error .exit := by
  obtain ⟨a, b, c, rfl⟩ := List.length_eq_three.1 hv
  match size, hz with
  | [d, e, f, g], _ =>
  obtain ⟨f1, f2⟩ := gif_flags hi k hh hk
  have key : ∀ t, read sh (gifHeader [a, b, c] [d, e, f, g] hi k bg asp ++ t) = loop sh raw3 (shift sh) (2 ^ (k + 1)) t [] := by
    intro t
    simp only [gifHeader, List.cons_append, List.nil_append, read, gifMap]
    rw [if_neg (by simp), if_neg f1, f2]
  constructor
  · intro cs t hl hs
    have hsm : ∀ x ∈ cs.map (shift sh), Small (2 ^ (8 + sh)) x := by
      intro x hx
      obtain ⟨y, hy, rfl⟩ := List.mem_map.1 hx
      obtain ⟨h1, h2, h3⟩ := hs y hy
      rw [Nat.pow_add]
      exact ⟨Nat.mul_lt_mul_of_pos_right h1 (by positivity), Nat.mul_lt_mul_of_pos_right h2 (by positivity),
        Nat.mul_lt_mul_of_pos_right h3 (by positivity)⟩
    rw [List.append_assoc, key, ← hl, loop_raw, adds_nil sh _ hsm, outcome, if_pos]
    · rfl
    · have h1 : (firsts (cs.map (shift sh))).length ≤ (cs.map (shift sh)).length := by
        exact firsts_length _
      rw [List.length_map, hl] at h1
      have h2 : 2 ^ (k + 1) ≤ 2 ^ (8 + sh) := Nat.pow_le_pow_right (by decide) (by omega)
      omega
  · intro t ht
    rw [key]
    exact loop_short sh _ _ t [] ht

theorem ppm_start {sh c w h : Nat} {hd : List Nat} (t : List Nat) (hH : Header c w h (2 ^ (8 + sh) - 1) hd) (hw : 0 < w ∧ w < 2 ^ 32) (hh : 0 < h ∧ h < 2 ^ 32)
    (hb : sh ≤ 8) : read sh (hd ++ t) =
      if c = 51 then loop sh text3 id (h * w) t [] else if c = 54 then loop sh raw3 id (h * w) t [] else .error .exit := by
  have hm : 2 ^ 8 ≤ 2 ^ (8 + sh) ∧ 2 ^ (8 + sh) ≤ 2 ^ 16 := ⟨Nat.pow_le_pow_right (by decide) (by omega), Nat.pow_le_pow_right (by decide) (by omega)⟩
  generalize hM : 2 ^ (8 + sh) - 1 = m at hH
  cases hH with
  | mk a1 a2 a3 ws h1 h2 h3 n2 n3 hws =>
    have hsw : Sep [ws] := .ws ws [] hws .nil
    obtain ⟨b2, g2, e1⟩ := readInt_one (s := dec h ++ (a3 ++ (dec m ++ ([ws] ++ t)))) (maxval := 2 ^ 32 - 1) (n := w) h1 h2 n2 (by omega) (by decide)
    obtain ⟨b3, g3, e2⟩ := readInt_one (s := dec m ++ ([ws] ++ t)) (maxval := 2 ^ 32 - 1) (n := h) g2 h3 n3 (by omega) (by decide)
    have e3 : readInt (2 ^ 32 - 1) (b3 ++ (dec m ++ ([ws] ++ t))) = .ok (m, t) := by
      rw [readInt_sep _ _ _ g3, readInt_digits (2 ^ 32 - 1) (by decide) m _ (by omega)]
      exact digits_stop (pbmGetc_ws ws t (isWs_ne hws).1) (isWs_ne hws).2
    have el : [80, c] ++ a1 ++ dec w ++ a2 ++ dec h ++ a3 ++ dec m ++ [ws] ++ t =
        80 :: c :: (a1 ++ (dec w ++ (a2 ++ (dec h ++ (a3 ++ (dec m ++ ([ws] ++ t))))))) := by simp
    rw [el]
    simp only [read, ppmMap, int, e1, e2, e3, bind, Except.bind]
    rw [if_neg (by omega), if_neg (by omega)]

/-- The map of a PPM file is its different colours in the order in which they first occur, if there are at most 2^bits of them; else the file is
refused. The file is a text file whose samples do not exceed the maximum, or a raw file with one byte per sample. -/
theorem ppm_content {sh w h : Nat} {text : Bool} {hd : List Nat} (hb : sh ≤ 8) (hH : Header (if text then 51 else 54) w h (2 ^ (8 + sh) - 1) hd)
    (hw : 0 < w ∧ w < 2 ^ 32) (hh : 0 < h ∧ h < 2 ^ 32) (cs : List Col) (s : List Nat) (hl : cs.length = w * h)
    (hs : if text then (∀ c ∈ cs, Small (2 ^ (8 + sh)) c) ∧ Text (flat cs) s else (∀ c ∈ cs, Small 256 c) ∧ ∃ t, s = flat cs ++ t) :
    read sh (hd ++ s) = outcome (2 ^ (8 + sh)) cs := by
  have hm : 2 ^ 8 ≤ 2 ^ (8 + sh) ∧ 2 ^ (8 + sh) ≤ 2 ^ 16 := ⟨Nat.pow_le_pow_right (by decide) (by omega), Nat.pow_le_pow_right (by decide) (by omega)⟩
  rw [ppm_start s hH hw hh hb, Nat.mul_comm, ← hl]
  cases text with
  | true =>
    simp only [if_true] at hs ⊢
    rw [loop_text sh cs [] s hs.2 (fun c hc => ?_), adds_nil sh cs hs.1]
    obtain ⟨h1, h2, h3⟩ := hs.1 c hc
    exact ⟨by omega, by omega, by omega⟩
  | false =>
    simp only [Bool.false_eq_true, if_false] at hs ⊢
    obtain ⟨h1, t, rfl⟩ := hs
    rw [if_neg (by decide), if_pos trivial, loop_raw, List.map_id, adds_nil sh cs fun c hc => ?_]
    obtain ⟨g1, g2, g3⟩ := h1 c hc
    exact ⟨by omega, by omega, by omega⟩

/-- A raw PPM file with too few bytes, and a file of any other kind, are refused. -/
theorem ppm_refused {sh w h : Nat} {c : Nat} {hd : List Nat} (hb : sh ≤ 8) (hH : Header c w h (2 ^ (8 + sh) - 1) hd)
    (hw : 0 < w ∧ w < 2 ^ 32) (hh : 0 < h ∧ h < 2 ^ 32) (s : List Nat) (hs : c = 54 ∧ s.length < 3 * (w * h) ∨ c ≠ 51 ∧ c ≠ 54) :
    read sh (hd ++ s) = .error .exit := by
  rw [ppm_start s hH hw hh hb]
  rcases hs with ⟨rfl, hl⟩ | ⟨h1, h2⟩
  · rw [if_neg (by decide), if_pos rfl, Nat.mul_comm]
    exact loop_short sh _ _ s [] hl
  · rw [if_neg h1, if_neg h2]

/-- `firsts` has the same elements, each once. -/
theorem firsts_spec {α : Type} [DecidableEq α] (l : List α) : (firsts l).Nodup ∧ ∀ x, x ∈ firsts l ↔ x ∈ l :=
  ⟨firsts_nodup l, fun x => firsts_mem x l⟩

/-! ## Examples -/

/-- The header of a PPM file of 2 x 2 pixels with maximum 255. -/
theorem header_example (c : Nat) : Header c 2 2 (2 ^ (8 + 0) - 1) [80, c, 10, 50, 32, 50, 10, 50, 53, 53, 10] :=
  have e2 : dec 2 = [50] := by decide +kernel
  have e255 : dec 255 = [50, 53, 53] := by decide +kernel
  have h : Header c 2 2 255 _ := .mk [10] [32] [10] 10 (.ws 10 [] (by decide) .nil) (.ws 32 [] (by decide) .nil) (.ws 10 [] (by decide) .nil) (by simp) (by simp) (by decide)
  by rw [e2, e255] at h; exact h

/-- The same as a text file, with a comment. -/
example : Text (flat [(1, 2, 3)]) [49, 32, 50, 35, 120, 10, 51, 10] := by
  have h1 : Text [3] ([35, 120, 10] ++ (dec 3 ++ [10])) := .cons _ 3 [] [10] (.comment [120] [] (by decide) .nil) (Or.inr ⟨[10], [], rfl, .ws 10 [] (by decide) .nil, by simp⟩) (.nil _)
  have h2 := Text.cons [32] 2 [3] _ (.ws 32 [] (by decide) .nil) (Or.inr ⟨[35, 120, 10], dec 3 ++ [10], rfl, .comment [120] [] (by decide) .nil, by simp⟩) h1
  have h3 := Text.cons [] 1 [2, 3] _ .nil (Or.inr ⟨[32], _, rfl, .ws 32 [] (by decide) .nil, by simp⟩) h2
  have e1 : dec 1 = [49] := by decide +kernel
  have e2 : dec 2 = [50] := by decide +kernel
  have e3 : dec 3 = [51] := by decide +kernel
  rw [e1, e2, e3] at h3
  exact h3

/-- P6, 2 x 2, with one colour twice. -/
example : read 0 ([80, 54, 10, 50, 32, 50, 10, 50, 53, 53, 10] ++ [1, 2, 3, 4, 5, 6, 1, 2, 3, 255, 0, 0]) = .ok [(1, 2, 3), (4, 5, 6), (255, 0, 0)] := by
  have e := ppm_content (sh := 0) (w := 2) (h := 2) (text := false) (hd := [80, 54, 10, 50, 32, 50, 10, 50, 53, 53, 10]) (by decide)
    (header_example 54)
    (by decide) (by decide) [(1, 2, 3), (4, 5, 6), (1, 2, 3), (255, 0, 0)] [1, 2, 3, 4, 5, 6, 1, 2, 3, 255, 0, 0] (by decide)
    (by simpa [Small, flat] using ⟨[], rfl⟩)
  rw [e]
  decide

/-- A GIF file with two colours. -/
example : read 4 (gifHeader [56, 57, 97] [1, 0, 1, 0] 7 0 0 0 ++ [1, 2, 3, 255, 0, 0] ++ [44]) = .ok [(16, 32, 48), (4080, 0, 0)] := by
  have e := (gif_content 4 [56, 57, 97] [1, 0, 1, 0] 7 0 0 0 rfl rfl (by decide) (by decide)).1 [(1, 2, 3), (255, 0, 0)] [44] rfl (by decide)
  rw [show [1, 2, 3, 255, 0, 0] = flat [(1, 2, 3), (255, 0, 0)] from rfl, e]
  decide

/-- The samples of a text file are not checked: 300 is stored as 44, and the map has a colour twice. -/
example : add 0 [(44, 0, 0)] (300, 0, 0) = .ok [(44, 0, 0), (44, 0, 0)] := by decide

/-- In a 12-bit build, a raw file with two bytes per sample, which is what djpeg writes, is read with one byte per sample. -/
example : loop 4 raw3 id 1 [15, 255, 0, 1, 8, 0] [] = .ok [(15, 255, 0)] := by decide

end Verif.MapFile
