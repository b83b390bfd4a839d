import Verif.Mark.Model
import Verif.Common.Bits
/-
Rules for the parsers of Model.lean: exact reading (`Reads`), partial correctness on arbitrary input (`Tri`), and
prefix-monotonicity (`Mono`).
-/
namespace Verif.Mark
open Verif

/-- On input that starts with `bs`, the parser reads exactly `bs`, returns `a` and makes the assignments `w`. -/
def Reads {α : Type} (p : P α) (bs : List Nat) (a : α) (w : Writes) : Prop := ∀ rest, p (bs ++ rest) = .ok a w rest

theorem bind_eq {α β : Type} (p : P α) (f : α → P β) : (p >>= f) = P.bind p f := rfl

theorem Reads.bind {α β : Type} {p : P α} {f : α → P β} {b1 b2 : List Nat} {a : α} {x : β} {w1 w2 : Writes}
    (h1 : Reads p b1 a w1) (h2 : Reads (f a) b2 x w2) : Reads (p >>= f) (b1 ++ b2) x (w1 ++ w2) := by
  intro rest
  rw [bind_eq, P.bind, List.append_assoc, h1 (b2 ++ rest)]
  simp only
  rw [h2 rest]

theorem Reads.pure {α : Type} (a : α) : Reads (Pure.pure a : P α) [] a [] := fun _ => rfl
theorem Reads.byte (c : Nat) : Reads inByte [c] c [] := fun _ => rfl
theorem Reads.put (s : Slot) (v : Nat) : Reads (put s v) [] () [(s, v)] := fun _ => rfl
theorem Reads.puts (w : Writes) : Reads (puts w) [] () w := fun _ => rfl

theorem Reads.word (a b : Nat) : Reads in2Bytes [a, b] (a * 256 + b) [] := fun _ => rfl

theorem Reads.bytes (bs : List Nat) : Reads (inBytes bs.length) bs bs [] := by
  induction bs with
  | nil => exact Reads.pure _
  | cons c bs ih =>
    have h : Reads (inBytes bs.length >>= fun cs => (Pure.pure (c :: cs) : P (List Nat))) bs (c :: bs) [] := by
      have := Reads.bind (f := fun cs => (Pure.pure (c :: cs) : P (List Nat))) ih (Reads.pure (c :: bs))
      simpa using this
    exact Reads.bind (f := fun c => inBytes bs.length >>= fun cs => (Pure.pure (c :: cs) : P (List Nat))) (Reads.byte c) h

theorem Reads.cast {α : Type} {p : P α} {b b' : List Nat} {a a' : α} {w w' : Writes} (h : Reads p b a w)
    (hb : b' = b) (ha : a' = a) (hw : w' = w) : Reads p b' a' w' := by subst hb ha hw; exact h

/-! ### partial correctness -/

/-- For every input: on success a prefix of the input was consumed and `Q result assignments length` holds; on suspension
`S assignments` holds; the model's iteration bound is not hit. -/
def Tri {α : Type} (p : P α) (Q : α → Writes → Nat → Prop) (S : Writes → Prop) : Prop :=
  ∀ b, IsBytes b →
    match p b with
    | .ok a w r => ∃ u, b = u ++ r ∧ Q a w u.length
    | .susp w => S w
    | .err e => e ≠ .bound

theorem Tri.bind {α β : Type} {p : P α} {f : α → P β} {Q1 : α → Writes → Nat → Prop} {Q : β → Writes → Nat → Prop}
    {S : Writes → Prop} (h1 : Tri p Q1 S)
    (h2 : ∀ a w n, Q1 a w n → Tri (f a) (fun x w' n' => Q x (w ++ w') (n + n')) (fun w' => S (w ++ w'))) :
    Tri (p >>= f) Q S := by
  intro b hb
  have e1 := h1 b hb
  rw [bind_eq, P.bind]
  cases hp : p b with
  | ok a w r =>
    rw [hp] at e1
    obtain ⟨u, rfl, hq⟩ := e1
    have hr : IsBytes r := fun x hx => hb x (by simp [hx])
    have e2 := h2 a w _ hq r hr
    simp only
    cases hf : f a r with
    | ok x w' r' =>
      rw [hf] at e2
      obtain ⟨u', rfl, hq'⟩ := e2
      exact ⟨u ++ u', by simp, by simpa using hq'⟩
    | susp w' => rw [hf] at e2; exact e2
    | err e => rw [hf] at e2; exact e2
  | susp w => rw [hp] at e1; exact e1
  | err e => rw [hp] at e1; exact e1

theorem Tri.mono {α : Type} {p : P α} {Q Q' : α → Writes → Nat → Prop} {S S' : Writes → Prop} (h : Tri p Q S)
    (hq : ∀ a w n, Q a w n → Q' a w n) (hs : ∀ w, S w → S' w) : Tri p Q' S' := by
  intro b hb
  have := h b hb
  cases hp : p b with
  | ok a w r =>
    rw [hp] at this
    obtain ⟨u, e, hQ⟩ := this
    exact ⟨u, e, hq _ _ _ hQ⟩
  | susp w => rw [hp] at this; exact hs _ this
  | err e => rw [hp] at this; exact this

theorem Tri.pure {α : Type} {a : α} {Q : α → Writes → Nat → Prop} {S : Writes → Prop} (h : Q a [] 0) :
    Tri (Pure.pure a : P α) Q S := fun b _ => ⟨[], rfl, h⟩

theorem Tri.fail {α : Type} {e : Err} {Q : α → Writes → Nat → Prop} {S : Writes → Prop} (h : e ≠ .bound) :
    Tri (Mark.fail e : P α) Q S := fun _ _ => h

theorem Tri.put {s : Slot} {v : Nat} {Q : Unit → Writes → Nat → Prop} {S : Writes → Prop} (h : Q () [(s, v)] 0) :
    Tri (Mark.put s v) Q S := fun b _ => ⟨[], rfl, h⟩

theorem Tri.puts {w : Writes} {Q : Unit → Writes → Nat → Prop} {S : Writes → Prop} (h : Q () w 0) :
    Tri (Mark.puts w) Q S := fun b _ => ⟨[], rfl, h⟩

theorem Tri.byte {Q : Nat → Writes → Nat → Prop} {S : Writes → Prop} (h : ∀ c < 256, Q c [] 1) (hs : S []) :
    Tri inByte Q S := by
  intro b hb
  cases b with
  | nil => exact hs
  | cons c r => exact ⟨[c], rfl, h c (hb c (by simp))⟩

theorem Tri.word {Q : Nat → Writes → Nat → Prop} {S : Writes → Prop} (h : ∀ c < 65536, Q c [] 2) (hs : S []) :
    Tri in2Bytes Q S := by
  apply Tri.bind (Q1 := fun a w n => w = [] ∧ n = 1 ∧ a < 256)
  · exact Tri.byte (fun c hc => ⟨rfl, rfl, hc⟩) hs
  · rintro a w n ⟨rfl, rfl, ha⟩
    apply Tri.bind (Q1 := fun a w n => w = [] ∧ n = 1 ∧ a < 256)
    · exact Tri.byte (fun c hc => ⟨rfl, rfl, hc⟩) hs
    · rintro b w n ⟨rfl, rfl, hb⟩
      exact Tri.pure (h _ (by omega))

theorem Tri.bytes {Q : List Nat → Writes → Nat → Prop} {S : Writes → Prop} (hs : S []) : ∀ (n : Nat),
    (∀ l : List Nat, l.length = n → IsBytes l → Q l [] n) → Tri (inBytes n) Q S := by
  intro n
  induction n generalizing Q with
  | zero => intro h; exact Tri.pure (h [] rfl (by intro x hx; simp at hx))
  | succ n ih =>
    intro h
    apply Tri.bind (Q1 := fun a w k => w = [] ∧ k = 1 ∧ a < 256)
    · exact Tri.byte (fun c hc => ⟨rfl, rfl, hc⟩) hs
    · rintro a w k ⟨rfl, rfl, ha⟩
      apply Tri.bind (Q1 := fun l w k => w = [] ∧ k = n ∧ l.length = n ∧ IsBytes l)
      · exact ih (fun l hl hb => ⟨rfl, rfl, hl, hb⟩)
      · rintro l w k ⟨rfl, rfl, hl, hb⟩
        apply Tri.pure
        have := h (a :: l) (by simp [hl]) (by
          intro x hx
          rcases List.mem_cons.1 hx with rfl | hx
          · exact ha
          · exact hb x hx)
        simpa [Nat.add_comm] using this

/-! ### monotonicity: more input does not change what was decided -/

/-- Success and errors do not depend on what follows; the assignments made before a suspension are a prefix of those made
with more input. -/
def Mono {α : Type} (p : P α) : Prop := ∀ b c,
  match p b with
  | .ok a w r => p (b ++ c) = .ok a w (r ++ c)
  | .err e => p (b ++ c) = .err e
  | .susp w =>
    match p (b ++ c) with
    | .ok _ w' _ => w <+: w'
    | .susp w' => w <+: w'
    | .err _ => True

theorem Mono.bind {α β : Type} {p : P α} {f : α → P β} (h1 : Mono p) (h2 : ∀ a, Mono (f a)) : Mono (p >>= f) := by
  intro b c
  have e1 := h1 b c
  rw [bind_eq, P.bind, P.bind]
  cases hp : p b with
  | ok a w r =>
    rw [hp] at e1
    have e2 := h2 a r c
    simp only at e1
    rw [e1]
    simp only
    cases hf : f a r with
    | ok x w' r' => rw [hf] at e2; simp only at e2; rw [e2]
    | err e => rw [hf] at e2; simp only at e2; rw [e2]
    | susp w' =>
      rw [hf] at e2
      simp only at e2 ⊢
      cases hf2 : f a (r ++ c) with
      | ok x w2 r2 => rw [hf2] at e2; exact (List.prefix_append_right_inj w).2 e2
      | susp w2 => rw [hf2] at e2; exact (List.prefix_append_right_inj w).2 e2
      | err e => trivial
  | err e => rw [hp] at e1; simp only at e1; rw [e1]
  | susp w =>
    rw [hp] at e1
    simp only at e1 ⊢
    cases hp2 : p (b ++ c) with
    | ok a w2 r2 =>
      rw [hp2] at e1
      simp only at e1 ⊢
      cases f a r2 with
      | ok x w3 r3 => exact e1.trans (List.prefix_append _ _)
      | susp w3 => exact e1.trans (List.prefix_append _ _)
      | err e => trivial
    | susp w2 => rw [hp2] at e1; exact e1
    | err e => trivial

theorem Mono.pure {α : Type} (a : α) : Mono (Pure.pure a : P α) := fun _ _ => rfl
theorem Mono.put (s : Slot) (v : Nat) : Mono (put s v) := fun _ _ => rfl
theorem Mono.puts (w : Writes) : Mono (puts w) := fun _ _ => rfl
theorem Mono.fail {α : Type} (e : Err) : Mono (fail e : P α) := fun _ _ => rfl

theorem Mono.byte : Mono inByte := by
  intro b c
  cases b with
  | nil =>
    cases c with
    | nil => exact List.prefix_rfl
    | cons x c => exact List.prefix_rfl
  | cons x b => rfl

theorem Mono.word : Mono in2Bytes := Mono.byte.bind (fun _ => Mono.byte.bind (fun _ => Mono.pure _))

theorem Mono.bytes : ∀ n, Mono (inBytes n)
  | 0 => Mono.pure _
  | n + 1 => Mono.byte.bind (fun _ => (Mono.bytes n).bind (fun _ => Mono.pure _))

theorem Mono.ite {α : Type} {c : Prop} [Decidable c] {p q : P α} (h1 : Mono p) (h2 : Mono q) : Mono (if c then p else q) := by
  split
  · exact h1
  · exact h2

theorem Tri.ite {α : Type} {c : Prop} [Decidable c] {p q : P α} {Q : α → Writes → Nat → Prop} {S : Writes → Prop}
    (h1 : c → Tri p Q S) (h2 : ¬ c → Tri q Q S) : Tri (if c then p else q) Q S := by
  split
  · rename_i h; exact h1 h
  · rename_i h; exact h2 h

/-! ### memory -/

theorem apply_nil (m : Mem) : apply [] m = m := rfl
theorem apply_append (a b : Writes) (m : Mem) : apply (a ++ b) m = apply b (apply a m) := by
  unfold apply; rw [List.foldl_append]
theorem apply_cons (x : Slot × Nat) (b : Writes) (m : Mem) :
    apply (x :: b) m = apply b (fun s => if s = x.1 then x.2 else m s) := rfl

/-- A slot that is not assigned keeps its value. -/
theorem apply_notin {w : Writes} {m : Mem} {s : Slot} (h : ∀ x ∈ w, x.1 ≠ s) : apply w m s = m s := by
  induction w generalizing m with
  | nil => rfl
  | cons x w ih =>
    rw [apply_cons, ih (fun y hy => h y (by simp [hy]))]
    rw [if_neg (fun e => h x (by simp) e.symm)]

/-- A slot that is assigned, always with the same value, has that value. -/
theorem apply_const {w : Writes} {m : Mem} {s : Slot} {v : Nat} (h1 : (s, v) ∈ w) (h2 : ∀ x ∈ w, x.1 = s → x.2 = v) :
    apply w m s = v := by
  induction w generalizing m with
  | nil => simp at h1
  | cons x w ih =>
    rw [apply_cons]
    by_cases h : ∃ y ∈ w, y.1 = s
    · obtain ⟨y, hy, rfl⟩ := h
      have : y.2 = v := h2 y (by simp [hy]) rfl
      subst this
      exact ih hy (fun z hz => h2 z (by simp [hz]))
    · rw [apply_notin (fun y hy e => h ⟨y, hy, e⟩)]
      rcases List.mem_cons.1 h1 with rfl | h1
      · rw [if_pos rfl]
      · exact absurd ⟨_, h1, rfl⟩ h

/-- The value after assignments to a slot does not depend on the value before. -/
theorem apply_mem_indep {w : Writes} {s : Slot} (h : ∃ x ∈ w, x.1 = s) (m m' : Mem) : apply w m s = apply w m' s := by
  induction w generalizing m m' with
  | nil => simp at h
  | cons x w ih =>
    rw [apply_cons, apply_cons]
    by_cases h' : ∃ y ∈ w, y.1 = s
    · exact ih h' _ _
    · rw [apply_notin (fun y hy e => h' ⟨y, hy, e⟩), apply_notin (fun y hy e => h' ⟨y, hy, e⟩)]
      obtain ⟨y, hy, rfl⟩ := h
      rcases List.mem_cons.1 hy with rfl | hy
      · simp
      · exact absurd ⟨y, hy, rfl⟩ h'

/-- Repeating a routine after a suspension: the assignments already made do no harm. -/
theorem apply_redo {w w' : Writes} (h : w <+: w') (m : Mem) : apply w' (apply w m) = apply w' m := by
  funext s
  by_cases hs : ∃ x ∈ w', x.1 = s
  · exact apply_mem_indep hs _ _
  · have h' : ∀ x ∈ w', x.1 ≠ s := fun x hx e => hs ⟨x, hx, e⟩
    rw [apply_notin h', apply_notin h', apply_notin (fun x hx => h' x (h.subset hx))]

end Verif.Mark
