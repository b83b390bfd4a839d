import Verif.Mark.SafeProps
/-
C09, marker part: what read_markers does does not depend on how the input is cut into pieces.
-/
namespace Verif.Mark
open Verif

/-! ### which fields are assigned before a suspension -/

def Only {α : Type} (A : Slot → Prop) (p : P α) : Prop := ∀ b,
  match p b with
  | .ok _ w _ => ∀ x ∈ w, A x.1
  | .susp w => ∀ x ∈ w, A x.1
  | .err _ => True

def OnlyS {α : Type} (A : Slot → Prop) (p : P α) : Prop := ∀ b,
  match p b with
  | .susp w => ∀ x ∈ w, A x.1
  | _ => True

theorem Only.s {α : Type} {A : Slot → Prop} {p : P α} (h : Only A p) : OnlyS A p := by
  intro b
  have := h b
  cases hp : p b with
  | susp w => rw [hp] at this; exact this
  | _ => trivial

theorem Only.bind {α β : Type} {A : Slot → Prop} {p : P α} {f : α → P β} (h1 : Only A p) (h2 : ∀ a, Only A (f a)) :
    Only A (p >>= f) := by
  intro b
  rw [bind_eq, P.bind]
  have e1 := h1 b
  cases hp : p b with
  | ok a w r =>
    rw [hp] at e1
    have e2 := h2 a r
    simp only
    cases hf : f a r with
    | ok x w' r' =>
      rw [hf] at e2
      intro y hy
      rcases List.mem_append.1 hy with h | h
      · exact e1 y h
      · exact e2 y h
    | susp w' =>
      rw [hf] at e2
      intro y hy
      rcases List.mem_append.1 hy with h | h
      · exact e1 y h
      · exact e2 y h
    | err e => trivial
  | susp w => rw [hp] at e1; exact e1
  | err e => trivial

theorem OnlyS.bind {α β : Type} {A : Slot → Prop} {p : P α} {f : α → P β} (h1 : Only A p) (h2 : ∀ a, OnlyS A (f a)) :
    OnlyS A (p >>= f) := by
  intro b
  rw [bind_eq, P.bind]
  have e1 := h1 b
  cases hp : p b with
  | ok a w r =>
    rw [hp] at e1
    have e2 := h2 a r
    simp only
    cases hf : f a r with
    | ok x w' r' => trivial
    | susp w' =>
      rw [hf] at e2
      intro y hy
      rcases List.mem_append.1 hy with h | h
      · exact e1 y h
      · exact e2 y h
    | err e => trivial
  | susp w => rw [hp] at e1; exact e1
  | err e => trivial

section
variable {A : Slot → Prop}
theorem Only.pure {α : Type} (a : α) : Only A (Pure.pure a : P α) := fun _ => by intro x hx; simp at hx
theorem Only.fail {α : Type} (e : Err) : Only A (fail e : P α) := fun _ => trivial
theorem Only.byte : Only A inByte := by
  intro b
  cases b with
  | nil => intro x hx; simp at hx
  | cons c b => intro x hx; simp at hx
theorem Only.word : Only A in2Bytes := Only.byte.bind (fun _ => Only.byte.bind (fun _ => Only.pure _))
theorem Only.bytes : ∀ n, Only A (inBytes n)
  | 0 => Only.pure _
  | n + 1 => Only.byte.bind (fun _ => (Only.bytes n).bind (fun _ => Only.pure _))
theorem Only.put {s : Slot} {v : Nat} (h : A s) : Only A (put s v) := fun _ => by
  intro x hx
  simp only [List.mem_singleton] at hx
  subst hx; exact h
theorem Only.puts {w : Writes} (h : ∀ x ∈ w, A x.1) : Only A (puts w) := fun _ => h
theorem OnlyS.put {s : Slot} {v : Nat} : OnlyS A (Mark.put s v) := fun _ => trivial
theorem OnlyS.puts {w : Writes} : OnlyS A (Mark.puts w) := fun _ => trivial
theorem Only.ite {α : Type} {c : Prop} [Decidable c] {p q : P α} (h1 : Only A p) (h2 : Only A q) : Only A (if c then p else q) := by
  split
  · exact h1
  · exact h2
theorem OnlyS.ite {α : Type} {c : Prop} [Decidable c] {p q : P α} (h1 : OnlyS A p) (h2 : OnlyS A q) : OnlyS A (if c then p else q) := by
  split
  · exact h1
  · exact h2
end

/-- Fields of the frame a scan header refers to, and the scan counter. -/
def Slot.SosDep : Slot → Prop
  | .sawSOF | .ncomp | .cId _ | .scanNo | .unread => True
  | _ => False

theorem sosComps_only (m : Mem) : ∀ k cur, Only (fun s => ¬ s.SosDep) (sosComps m k cur)
  | 0, _ => Only.pure _
  | k + 1, cur => by
    unfold sosComps
    refine Only.byte.bind (fun cc => Only.byte.bind (fun c => ?_))
    split
    · exact Only.fail _
    · refine (Only.put (by simp [Slot.SosDep])).bind (fun _ => (Only.put (by simp [Slot.SosDep])).bind (fun _ =>
        (Only.put (by simp [Slot.SosDep])).bind (fun _ => ?_)))
      exact Only.ite (Only.fail _) (sosComps_only m k _)

theorem getSos_only (m : Mem) : OnlyS (fun s => ¬ s.SosDep) (getSos m) := by
  unfold getSos
  refine OnlyS.ite (Only.fail _).s (OnlyS.bind Only.word (fun l => OnlyS.bind Only.byte (fun n => OnlyS.ite (Only.fail _).s ?_)))
  refine OnlyS.bind (Only.put (by simp [Slot.SosDep])) (fun _ => OnlyS.bind (Only.puts (by simp [Slot.SosDep])) (fun _ =>
    OnlyS.bind (sosComps_only m n []) (fun _ => OnlyS.bind Only.byte (fun c => OnlyS.bind (Only.put (by simp [Slot.SosDep])) (fun _ =>
    OnlyS.bind Only.byte (fun c => OnlyS.bind (Only.put (by simp [Slot.SosDep])) (fun _ => OnlyS.bind Only.byte (fun c =>
    OnlyS.bind (Only.put (by simp [Slot.SosDep])) (fun _ => OnlyS.bind (Only.put (by simp [Slot.SosDep])) (fun _ =>
    OnlyS.bind (Only.put (by simp [Slot.SosDep])) (fun _ => OnlyS.put)))))))))))

theorem getAppn_only (m : Mem) (mk : Nat) : OnlyS (fun _ => False) (getAppn m mk) := by
  unfold getAppn
  refine OnlyS.bind Only.word (fun l => OnlyS.bind (Only.bytes _) (fun b => OnlyS.ite ?_ (Only.fail _).s))
  intro x
  rw [bind_eq, P.bind]
  exact trivial

/-! ### the routines read the same memory when they are run again -/

theorem findComp_congr {m m' : Mem} (h : ∀ i, m (.cId i) = m' (.cId i)) (cc : Nat) (cur : List Nat) :
    ∀ n ci, findComp m cc cur n ci = findComp m' cc cur n ci := by
  intro n
  induction n with
  | zero => intro ci; rfl
  | succ n ih => intro ci; unfold findComp; rw [h ci, ih]

theorem sosComps_congr {m m' : Mem} (h : ∀ i, m (.cId i) = m' (.cId i)) (hn : m .ncomp = m' .ncomp) :
    ∀ k cur, sosComps m k cur = sosComps m' k cur := by
  intro k
  induction k with
  | zero => intro cur; rfl
  | succ k ih =>
    intro cur
    unfold sosComps
    simp only [findComp_congr h, hn, ih]

theorem getSos_congr {m m' : Mem} (h : ∀ s : Slot, s.SosDep → m s = m' s) : getSos m = getSos m' := by
  unfold getSos
  rw [h .sawSOF trivial, h .scanNo trivial]
  simp only [sosComps_congr (fun i => h (.cId i) trivial) (h .ncomp trivial)]

theorem getSof_congr {m m' : Mem} (h : m .sawSOF = m' .sawSOF) (p l a : Nat) : getSof m p l a = getSof m' p l a := by
  unfold getSof
  rw [h]

/-! ### monotonicity of every routine -/

theorem getSoi_mono (m : Mem) : Mono (getSoi m) := by
  unfold getSoi
  exact Mono.ite (Mono.fail _) ((Mono.puts _).bind (fun _ => Mono.puts _))

theorem sofComps_mono : ∀ n ci, Mono (sofComps n ci)
  | 0, _ => Mono.pure _
  | n + 1, ci => Mono.byte.bind (fun _ => (Mono.put _ _).bind (fun _ => Mono.byte.bind (fun _ => (Mono.put _ _).bind (fun _ =>
      (Mono.put _ _).bind (fun _ => Mono.byte.bind (fun _ => (Mono.put _ _).bind (fun _ => sofComps_mono n (ci + 1))))))))

theorem getSof_mono (m : Mem) (p l a : Nat) : Mono (getSof m p l a) := by
  unfold getSof
  exact Mono.ite (Mono.fail _) ((Mono.put _ _).bind (fun _ => (Mono.put _ _).bind (fun _ => (Mono.put _ _).bind (fun _ =>
    Mono.word.bind (fun _ => Mono.byte.bind (fun _ => (Mono.put _ _).bind (fun _ => Mono.word.bind (fun _ => (Mono.put _ _).bind (fun _ =>
    Mono.word.bind (fun _ => (Mono.put _ _).bind (fun _ => Mono.byte.bind (fun _ => (Mono.put _ _).bind (fun _ =>
    Mono.ite (Mono.fail _) (Mono.ite (Mono.fail _) ((sofComps_mono _ _).bind (fun _ => Mono.put _ _))))))))))))))))

theorem sosComps_mono (m : Mem) : ∀ n cur, Mono (sosComps m n cur)
  | 0, _ => Mono.pure _
  | n + 1, cur => by
    unfold sosComps
    refine Mono.byte.bind (fun _ => Mono.byte.bind (fun _ => ?_))
    split
    · exact Mono.fail _
    · exact (Mono.put _ _).bind (fun _ => (Mono.put _ _).bind (fun _ => (Mono.put _ _).bind (fun _ =>
        Mono.ite (Mono.fail _) (sosComps_mono m n _))))

theorem getSos_mono (m : Mem) : Mono (getSos m) := by
  unfold getSos
  exact Mono.ite (Mono.fail _) (Mono.word.bind (fun _ => Mono.byte.bind (fun _ => Mono.ite (Mono.fail _) ((Mono.put _ _).bind (fun _ =>
    (Mono.puts _).bind (fun _ => (sosComps_mono m _ _).bind (fun _ => Mono.byte.bind (fun _ => (Mono.put _ _).bind (fun _ =>
    Mono.byte.bind (fun _ => (Mono.put _ _).bind (fun _ => Mono.byte.bind (fun _ => (Mono.put _ _).bind (fun _ => (Mono.put _ _).bind (fun _ =>
    (Mono.put _ _).bind (fun _ => Mono.put _ _)))))))))))))))

theorem dacLoop_mono : ∀ k L, Mono (dacLoop k L)
  | 0, _ => Mono.fail _
  | k + 1, L => by
    unfold dacLoop
    refine Mono.ite (Mono.byte.bind (fun _ => Mono.byte.bind (fun _ => Mono.ite (Mono.fail _) (Mono.ite ?_ ?_))))
      (Mono.ite (Mono.fail _) (Mono.pure _))
    · exact (Mono.put _ _).bind (fun _ => dacLoop_mono k _)
    · exact (Mono.put _ _).bind (fun _ => (Mono.put _ _).bind (fun _ => Mono.ite (Mono.fail _) (dacLoop_mono k _)))

theorem inHuffval_mono (n : Nat) : Mono (inHuffval n) := Mono.ite (Mono.bytes _) (Mono.fail _)

theorem dhtLoop_mono : ∀ k L, Mono (dhtLoop k L)
  | 0, _ => Mono.fail _
  | k + 1, L => by
    unfold dhtLoop
    refine Mono.ite (Mono.byte.bind (fun _ => (Mono.bytes _).bind (fun _ => Mono.ite (Mono.fail _) ((inHuffval_mono _).bind (fun _ =>
      Mono.ite ?_ ?_))))) (Mono.ite (Mono.fail _) (Mono.pure _))
    · exact Mono.ite (Mono.fail _) ((Mono.puts _).bind (fun _ => dhtLoop_mono k _))
    · exact Mono.ite (Mono.fail _) ((Mono.puts _).bind (fun _ => dhtLoop_mono k _))

theorem dqtVals_mono (n prec : Nat) : ∀ k i, Mono (dqtVals n prec k i)
  | 0, _ => Mono.pure _
  | k + 1, i => by
    unfold dqtVals
    refine Mono.bind ?_ (fun _ => (Mono.put _ _).bind (fun _ => dqtVals_mono n prec k (i + 1)))
    unfold dqtEntry
    exact Mono.ite Mono.word Mono.byte

theorem dqtLoop_mono : ∀ k L, Mono (dqtLoop k L)
  | 0, _ => Mono.fail _
  | k + 1, L => by
    unfold dqtLoop
    exact Mono.ite (Mono.byte.bind (fun _ => Mono.ite (Mono.fail _) ((Mono.put _ _).bind (fun _ => (dqtVals_mono _ _ _ _).bind (fun _ =>
      dqtLoop_mono k _))))) (Mono.ite (Mono.fail _) (Mono.pure _))

theorem getDac_mono : Mono getDac := Mono.word.bind (fun _ => dacLoop_mono _ _)
theorem getDht_mono : Mono getDht := Mono.word.bind (fun _ => dhtLoop_mono _ _)
theorem getDqt_mono : Mono getDqt := Mono.word.bind (fun _ => dqtLoop_mono _ _)
theorem getDri_mono : Mono getDri := Mono.word.bind (fun _ => Mono.ite (Mono.fail _) (Mono.word.bind (fun _ => Mono.put _ _)))
theorem skipVariable_mono : Mono skipVariable := Mono.word.bind (fun _ => Mono.pure _)
theorem getAppn_mono (m : Mem) (mk : Nat) : Mono (getAppn m mk) := by
  unfold getAppn
  exact Mono.word.bind (fun _ => (Mono.bytes _).bind (fun _ => Mono.ite ((Mono.puts _).bind (fun _ => Mono.pure _)) (Mono.fail _)))
theorem firstMarker_mono : Mono firstMarker := by
  unfold firstMarker
  exact Mono.byte.bind (fun _ => Mono.byte.bind (fun _ => Mono.ite (Mono.fail _) (Mono.put _ _)))

end Verif.Mark
