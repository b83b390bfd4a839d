import Verif.Mark.Logic
import Verif.Huff.ScanLemmas
/-
C11: every marker routine on arbitrary bytes: assignments stay inside the arrays, a successful routine has consumed
exactly the declared length, no routine runs forever.
-/
namespace Verif.Mark
open Verif
open Verif.Huff (natOrder)

/-- Fields set by no routine but get_sof and the code around the routines. -/
def Slot.Plain : Slot → Prop
  | .sawSOF | .height | .width | .ncomp | .unread => False
  | _ => True

/-- All assignments are inside the arrays, comp_info having `nc` entries, and of values that fit; none to the size of
the frame. -/
def AllIn (nc : Nat) (w : Writes) : Prop := ∀ x ∈ w, x.1.InBounds nc ∧ x.1.Fits x.2 ∧ x.1.Plain

theorem AllIn.nil (nc : Nat) : AllIn nc [] := by intro x hx; simp at hx
theorem AllIn.append {nc : Nat} {a b : Writes} (ha : AllIn nc a) (hb : AllIn nc b) : AllIn nc (a ++ b) := by
  intro x hx
  rcases List.mem_append.1 hx with h | h
  · exact ha x h
  · exact hb x h
theorem AllIn.one {nc : Nat} {s : Slot} {v : Nat} (h : s.InBounds nc) (h' : s.Fits v) (hp : s.Plain := by trivial) :
    AllIn nc [(s, v)] := by
  intro x hx
  simp only [List.mem_singleton] at hx
  subst hx
  exact ⟨h, h', hp⟩

/-- The segment that follows a marker: two length bytes, then the parameters; the length counts itself. -/
def Segment (b rest : List Nat) : Prop :=
  ∃ hi lo body, b = hi :: lo :: (body ++ rest) ∧ hi * 256 + lo = body.length + 2

/-- A routine that reads the length word first. -/
theorem withLen {f : Nat → P Unit} {Q : Writes → Prop} {S : Writes → Prop}
    (h : ∀ l < 65536, Tri (f l) (fun _ w n => n + 2 = l ∧ Q w) S) (hs : S []) (b : List Nat) (hb : IsBytes b) :
    match (in2Bytes >>= f) b with
    | .ok _ w r => Segment b r ∧ Q w
    | .susp w => S w
    | .err e => e ≠ .bound := by
  rw [bind_eq, P.bind]
  match b with
  | [] => exact hs
  | [x] => exact hs
  | hi :: lo :: b =>
    have e : in2Bytes (hi :: lo :: b) = .ok (hi * 256 + lo) [] b := rfl
    rw [e]
    simp only
    have h1 := hb hi (by simp)
    have h2 := hb lo (by simp)
    have := h (hi * 256 + lo) (by omega) b (fun x hx => hb x (by simp [hx]))
    cases hf : f (hi * 256 + lo) b with
    | ok a w r =>
      rw [hf] at this
      obtain ⟨u, rfl, hn, hq⟩ := this
      exact ⟨⟨hi, lo, u, rfl, by omega⟩, by simpa using hq⟩
    | susp w => rw [hf] at this; simpa using this
    | err e => rw [hf] at this; exact this

/-! ### DAC -/

theorem and15_lt (n : Nat) : n &&& 15 < 16 := by
  have : n &&& 15 = n % 16 := Nat.and_two_pow_sub_one_eq_mod n 4
  omega

theorem dacLoop_tri (k : Nat) : ∀ (L : Int), 0 < k → L < k →
    Tri (dacLoop k L) (fun _ w n => (n : Int) = L ∧ AllIn 0 w) (AllIn 0) := by
  induction k with
  | zero => intro L h; omega
  | succ k ih =>
    intro L _ hL
    unfold dacLoop
    apply Tri.ite
    · intro hpos
      apply Tri.bind (Q1 := fun c w n => w = [] ∧ n = 1 ∧ c < 256)
      · exact Tri.byte (fun c hc => ⟨rfl, rfl, hc⟩) (AllIn.nil _)
      rintro index _ _ ⟨rfl, rfl, hi⟩
      apply Tri.bind (Q1 := fun c w n => w = [] ∧ n = 1 ∧ c < 256)
      · exact Tri.byte (fun c hc => ⟨rfl, rfl, hc⟩) (AllIn.nil _)
      rintro val _ _ ⟨rfl, rfl, hv⟩
      apply Tri.ite
      · intro _; exact Tri.fail (by decide)
      intro h32
      apply Tri.ite
      · intro h16
        have ha : AllIn 0 [(Slot.acK (index - 16), val % 256)] := AllIn.one (show index - 16 < 16 by omega) (show val % 256 < 256 by omega)
        apply Tri.bind (Q1 := fun _ w n => w = [(Slot.acK (index - 16), val % 256)] ∧ n = 0)
        · exact Tri.put ⟨rfl, rfl⟩
        rintro _ _ _ ⟨rfl, rfl⟩
        refine (ih (L - 2) (by omega) (by omega)).mono ?_ ?_
        · rintro _ w n ⟨h1, h2⟩
          exact ⟨by omega, ha.append h2⟩
        · intro w h; exact ha.append h
      · intro h16
        have ha : AllIn 0 [(Slot.dcL index, val &&& 15)] := AllIn.one (show index < 16 by omega) (and15_lt val)
        have ha' : AllIn 0 [(Slot.dcU index, (val >>> 4) % 256)] :=
          AllIn.one (show index < 16 by omega) (show (val >>> 4) % 256 < 256 by omega)
        apply Tri.bind (Q1 := fun _ w n => w = [(Slot.dcL index, val &&& 15)] ∧ n = 0)
        · exact Tri.put ⟨rfl, rfl⟩
        rintro _ _ _ ⟨rfl, rfl⟩
        apply Tri.bind (Q1 := fun _ w n => w = [(Slot.dcU index, (val >>> 4) % 256)] ∧ n = 0)
        · exact Tri.put ⟨rfl, rfl⟩
        rintro _ _ _ ⟨rfl, rfl⟩
        apply Tri.ite
        · intro _; exact Tri.fail (by decide)
        intro _
        refine (ih (L - 2) (by omega) (by omega)).mono ?_ ?_
        · rintro _ w n ⟨h1, h2⟩
          exact ⟨by omega, ha.append (ha'.append h2)⟩
        · intro w h; exact ha.append (ha'.append h)
    · intro hpos
      apply Tri.ite
      · intro _; exact Tri.fail (by decide)
      · intro h0; exact Tri.pure ⟨by omega, AllIn.nil _⟩

/-! ### DQT -/

theorem dqtVals_tri (n prec : Nat) (hn : n < 4) : ∀ k i, i + k ≤ 64 →
    Tri (dqtVals n prec k i) (fun _ w u => u = k * (if prec ≠ 0 then 2 else 1) ∧ AllIn 0 w) (AllIn 0) := by
  intro k
  induction k with
  | zero => intro i _; exact Tri.pure ⟨by simp, AllIn.nil _⟩
  | succ k ih =>
    intro i hi
    unfold dqtVals
    apply Tri.bind (Q1 := fun _ w u => w = [] ∧ u = (if prec ≠ 0 then 2 else 1))
    · unfold dqtEntry
      apply Tri.ite
      · intro h; exact Tri.word (fun c _ => ⟨rfl, by rw [if_pos h]⟩) (AllIn.nil _)
      · intro h; exact Tri.byte (fun c _ => ⟨rfl, by rw [if_neg h]⟩) (AllIn.nil _)
    rintro tmp _ _ ⟨rfl, rfl⟩
    have ha : AllIn 0 [(Slot.q n (natOrder.getD i 0), tmp % 65536)] :=
      AllIn.one ⟨hn, Huff.natOrder_lt i (by omega)⟩ (show tmp % 65536 < 65536 by omega)
    apply Tri.bind (Q1 := fun _ w u => w = [(Slot.q n (natOrder.getD i 0), tmp % 65536)] ∧ u = 0)
    · exact Tri.put ⟨rfl, rfl⟩
    rintro _ _ _ ⟨rfl, rfl⟩
    refine (ih (i + 1) (by omega)).mono ?_ ?_
    · rintro _ w u ⟨h1, h2⟩
      refine ⟨?_, ha.append h2⟩
      rw [h1, Nat.succ_mul]; omega
    · intro w h; exact ha.append h

theorem dqtLoop_tri (k : Nat) : ∀ (L : Int), 0 < k → L < k →
    Tri (dqtLoop k L) (fun _ w n => (n : Int) = L ∧ AllIn 0 w) (AllIn 0) := by
  induction k with
  | zero => intro L h; omega
  | succ k ih =>
    intro L _ hL
    unfold dqtLoop
    apply Tri.ite
    · intro hpos
      apply Tri.bind (Q1 := fun c w n => w = [] ∧ n = 1 ∧ c < 256)
      · exact Tri.byte (fun c hc => ⟨rfl, rfl, hc⟩) (AllIn.nil _)
      rintro n0 _ _ ⟨rfl, rfl, hi⟩
      apply Tri.ite
      · intro _; exact Tri.fail (by decide)
      intro h4
      generalize n0 &&& 15 = n at h4
      generalize n0 >>> 4 = prec
      have ha : AllIn 0 [(Slot.qDef n, 1)] := AllIn.one (show n < 4 by omega) trivial
      apply Tri.bind (Q1 := fun _ w u => w = [(Slot.qDef n, 1)] ∧ u = 0)
      · exact Tri.put ⟨rfl, rfl⟩
      rintro _ _ _ ⟨rfl, rfl⟩
      apply Tri.bind (Q1 := fun _ w u => u = 64 * (if prec ≠ 0 then 2 else 1) ∧ AllIn 0 w)
      · refine (dqtVals_tri n prec (by omega) 64 0 (by omega)).mono (fun _ _ _ h => h) ?_
        intro w h; exact ha.append h
      rintro _ w1 _ ⟨rfl, h1⟩
      refine (ih _ (by omega) ?_).mono ?_ ?_
      · split <;> omega
      · rintro _ w u ⟨h2, h3⟩
        refine ⟨?_, ha.append (h1.append h3)⟩
        split at h2 <;> split <;> omega
      · intro w h; exact ha.append (h1.append h)
    · intro hpos
      apply Tri.ite
      · intro _; exact Tri.fail (by decide)
      · intro h0; exact Tri.pure ⟨by omega, AllIn.nil _⟩

/-! ### DHT -/

theorem getD_lt {l : List Nat} (h : IsBytes l) (i : Nat) : l.getD i 0 < 256 := by
  rw [List.getD_eq_getElem?_getD]
  cases e : l[i]? with
  | none => simp
  | some v => exact h v (List.mem_of_getElem? e)

theorem tblWrites_in (ac : Bool) {n : Nat} (hn : n < 4) {bits vals : List Nat} (hb : IsBytes bits) (hv : IsBytes vals) :
    AllIn 0 (tblWrites ac n bits vals) := by
  intro x hx
  unfold tblWrites at hx
  rcases List.mem_cons.1 hx with rfl | hx
  · exact ⟨hn, trivial, trivial⟩
  · rcases List.mem_append.1 hx with h | h
    · obtain ⟨i, hi, rfl⟩ := List.mem_map.1 h
      exact ⟨⟨hn, List.mem_range.1 hi⟩, getD_lt hb i, trivial⟩
    · obtain ⟨i, hi, rfl⟩ := List.mem_map.1 h
      exact ⟨⟨hn, List.mem_range.1 hi⟩, getD_lt hv i, trivial⟩

theorem dhtLoop_tri (k : Nat) : ∀ (L : Int), 0 < k → L < k →
    Tri (dhtLoop k L) (fun _ w n => (n : Int) = L ∧ AllIn 0 w) (AllIn 0) := by
  induction k with
  | zero => intro L h; omega
  | succ k ih =>
    intro L _ hL
    unfold dhtLoop
    apply Tri.ite
    · intro hpos
      apply Tri.bind (Q1 := fun c w n => w = [] ∧ n = 1 ∧ c < 256)
      · exact Tri.byte (fun c hc => ⟨rfl, rfl, hc⟩) (AllIn.nil _)
      rintro index _ _ ⟨rfl, rfl, hi⟩
      apply Tri.bind (Q1 := fun l w n => w = [] ∧ n = 16 ∧ IsBytes l)
      · exact Tri.bytes (AllIn.nil _) 16 (fun l hl hb => ⟨rfl, rfl, hb⟩)
      rintro bits _ _ ⟨rfl, rfl, hbits⟩
      apply Tri.ite
      · intro _; exact Tri.fail (by decide)
      intro hc
      apply Tri.bind (Q1 := fun l w n => w = [] ∧ n = bits.sum ∧ IsBytes l)
      · unfold inHuffval
        rw [if_pos (by omega)]
        exact Tri.bytes (AllIn.nil _) _ (fun l hl hb => ⟨rfl, rfl, hb⟩)
      rintro vals _ _ ⟨rfl, rfl, hvals⟩
      have go : ∀ (ac : Bool) (n : Nat), n < 4 →
          Tri (puts (tblWrites ac n (0 :: bits) vals) >>= fun _ => dhtLoop k (L - (1 + 16) - bits.sum))
            (fun (_ : Unit) w' n' => ((1 + (16 + (bits.sum + n')) : Nat) : Int) = L ∧ AllIn 0 ([] ++ ([] ++ ([] ++ w'))))
            (fun w' => AllIn 0 ([] ++ ([] ++ ([] ++ w')))) := by
        intro ac n hn
        have ha := tblWrites_in ac hn (bits := 0 :: bits) (vals := vals) (by
          intro x hx
          rcases List.mem_cons.1 hx with rfl | hx
          · omega
          · exact hbits x hx) hvals
        apply Tri.bind (Q1 := fun _ w u => w = tblWrites ac n (0 :: bits) vals ∧ u = 0)
        · exact Tri.puts ⟨rfl, rfl⟩
        rintro _ _ _ ⟨rfl, rfl⟩
        refine (ih _ (by omega) (by omega)).mono ?_ ?_
        · rintro _ w u ⟨h1, h2⟩
          exact ⟨by omega, ha.append h2⟩
        · intro w h; exact ha.append h
      apply Tri.ite
      · intro _
        apply Tri.ite
        · intro _; exact Tri.fail (by decide)
        intro h; exact go true _ (by omega)
      · intro _
        apply Tri.ite
        · intro _; exact Tri.fail (by decide)
        intro h; exact go false _ (by omega)
    · intro hpos
      apply Tri.ite
      · intro _; exact Tri.fail (by decide)
      · intro h0; exact Tri.pure ⟨by omega, AllIn.nil _⟩

/-! ### SOF -/

/-- Assignments of get_sof: inside the arrays, comp_info having as many entries as the num_components just read. -/
def SofIn (w : Writes) : Prop :=
  ∀ x ∈ w, (x.1.InBounds 0 ∨ ∃ n, (Slot.ncomp, n) ∈ w ∧ x.1.InBounds n) ∧ x.1.Fits x.2 ∧ x.1 ≠ .sawSOF ∧ x.1 ≠ .unread

theorem sofComps_tri (nc : Nat) : ∀ k ci, ci + k ≤ nc →
    Tri (sofComps k ci) (fun _ w u => u = 3 * k ∧ AllIn nc w) (AllIn nc) := by
  intro k
  induction k with
  | zero => intro ci _; exact Tri.pure ⟨rfl, AllIn.nil _⟩
  | succ k ih =>
    intro ci hci
    unfold sofComps
    have hc : ci < nc := by omega
    apply Tri.bind (Q1 := fun c w n => w = [] ∧ n = 1 ∧ c < 256)
    · exact Tri.byte (fun c hc => ⟨rfl, rfl, hc⟩) (AllIn.nil _)
    rintro id _ _ ⟨rfl, rfl, hid⟩
    have a1 : AllIn nc [(Slot.cId ci, id)] := AllIn.one hc hid
    apply Tri.bind (Q1 := fun _ w n => w = [(Slot.cId ci, id)] ∧ n = 0)
    · exact Tri.put ⟨rfl, rfl⟩
    rintro _ _ _ ⟨rfl, rfl⟩
    apply Tri.bind (Q1 := fun _ w n => w = [] ∧ n = 1)
    · exact Tri.byte (fun c hc => ⟨rfl, rfl⟩) (a1.append (AllIn.nil _))
    rintro c _ _ ⟨rfl, rfl⟩
    have a2 : AllIn nc [(Slot.cH ci, (c >>> 4) &&& 15)] := AllIn.one hc (and15_lt _)
    have a3 : AllIn nc [(Slot.cV ci, c &&& 15)] := AllIn.one hc (and15_lt _)
    apply Tri.bind (Q1 := fun _ w n => w = [(Slot.cH ci, (c >>> 4) &&& 15)] ∧ n = 0)
    · exact Tri.put ⟨rfl, rfl⟩
    rintro _ _ _ ⟨rfl, rfl⟩
    apply Tri.bind (Q1 := fun _ w n => w = [(Slot.cV ci, c &&& 15)] ∧ n = 0)
    · exact Tri.put ⟨rfl, rfl⟩
    rintro _ _ _ ⟨rfl, rfl⟩
    apply Tri.bind (Q1 := fun c w n => w = [] ∧ n = 1 ∧ c < 256)
    · exact Tri.byte (fun c hc => ⟨rfl, rfl, hc⟩) (a1.append (a2.append (a3.append (AllIn.nil _))))
    rintro tq _ _ ⟨rfl, rfl, htq⟩
    have a4 : AllIn nc [(Slot.cTq ci, tq)] := AllIn.one hc htq
    apply Tri.bind (Q1 := fun _ w n => w = [(Slot.cTq ci, tq)] ∧ n = 0)
    · exact Tri.put ⟨rfl, rfl⟩
    rintro _ _ _ ⟨rfl, rfl⟩
    refine (ih (ci + 1) (by omega)).mono ?_ ?_
    · rintro _ w u ⟨h1, h2⟩
      exact ⟨by omega, a1.append (a2.append (a3.append (a4.append h2)))⟩
    · intro w h; exact a1.append (a2.append (a3.append (a4.append h)))

/-- What get_sof stores before the components. -/
def sofHead (prog lossless arith prec h w n : Nat) : Writes :=
  [(.prog, prog), (.lossless, lossless), (.arith, arith), (.prec, prec), (.height, h), (.width, w), (.ncomp, n)]

theorem SofIn.of_prefix {a b : Writes} (h : a <+: b) (ha : ∀ x ∈ a, x.1.InBounds 0 ∧ x.1.Fits x.2 ∧ x.1 ≠ .sawSOF ∧ x.1 ≠ .unread) : SofIn a :=
  fun x hx => ⟨Or.inl (ha x hx).1, (ha x hx).2⟩

theorem sofHead_in {prog lossless arith prec h w n : Nat} (hp : prec < 256) (hh : h < 65536) (hw : w < 65536) (hn : n < 256) :
    ∀ x ∈ sofHead prog lossless arith prec h w n, x.1.InBounds 0 ∧ x.1.Fits x.2 ∧ x.1 ≠ .sawSOF ∧ x.1 ≠ .unread := by
  intro x hx
  simp only [sofHead, List.mem_cons, List.not_mem_nil, or_false] at hx
  rcases hx with rfl | rfl | rfl | rfl | rfl | rfl | rfl <;> refine ⟨trivial, ?_, by simp⟩ <;> first | trivial | assumption

theorem sofIn_comps {prog lossless arith prec h w n : Nat} (hp : prec < 256) (hh : h < 65536) (hw : w < 65536) (hn : n < 256)
    {wc : Writes} (hc : AllIn n wc) : SofIn (sofHead prog lossless arith prec h w n ++ wc) := by
  intro x hx
  rcases List.mem_append.1 hx with hx | hx
  · have := sofHead_in hp hh hw hn x hx
    exact ⟨Or.inl this.1, this.2⟩
  · exact ⟨Or.inr ⟨n, by simp [sofHead], (hc x hx).1⟩, (hc x hx).2.1, fun e => by have := (hc x hx).2.2; rw [e] at this; exact this,
      fun e => by have := (hc x hx).2.2; rw [e] at this; exact this⟩

/-- The shape of get_sof's assignments on success. -/
def SofDone (prog lossless arith : Nat) (w : Writes) : Prop :=
  ∃ prec h wd n wc, w = sofHead prog lossless arith prec h wd n ++ wc ++ [(Slot.sawSOF, 1)] ∧ prec < 256 ∧
    (1 ≤ h ∧ h < 65536) ∧ (1 ≤ wd ∧ wd < 65536) ∧ (1 ≤ n ∧ n < 256) ∧ AllIn n wc

/-- get_sof after its first test, as a function of the length word. -/
def sofBody (prog lossless arith length : Nat) : P Unit := do
  let prec ← inByte
  put .prec prec
  let h ← in2Bytes
  put .height h
  let w ← in2Bytes
  put .width w
  let n ← inByte
  put .ncomp n
  let length : Int := (length : Int) - 8
  if h = 0 ∨ w = 0 ∨ n = 0 then fail .emptyImage
  else if length ≠ (n : Int) * 3 then fail .badLength
  else
    sofComps n 0
    put .sawSOF 1

/-- Correctness of a routine: on success the declared segment was consumed. -/
def RoutineOk (p : P Unit) (Q S : Writes → Prop) : Prop := ∀ b, IsBytes b →
  match p b with
  | .ok _ w r => Segment b r ∧ Q w
  | .susp w => S w
  | .err e => e ≠ .bound

theorem RoutineOk.put {p : P Unit} {Q S : Writes → Prop} {s : Slot} {v : Nat}
    (h : RoutineOk p (fun w => Q ((s, v) :: w)) (fun w => S ((s, v) :: w))) : RoutineOk (Mark.put s v >>= fun _ => p) Q S := by
  intro b hb
  have := h b hb
  rw [bind_eq, P.bind]
  simp only [Mark.put]
  cases hp : p b with
  | ok a w r => rw [hp] at this; exact this
  | susp w => rw [hp] at this; exact this
  | err e => rw [hp] at this; exact this

theorem RoutineOk.fail {e : Err} {Q S : Writes → Prop} (h : e ≠ .bound) : RoutineOk (Mark.fail e) Q S := fun _ _ => h

theorem RoutineOk.mono {p : P Unit} {Q Q' S S' : Writes → Prop} (h : RoutineOk p Q S) (hq : ∀ w, Q w → Q' w)
    (hs : ∀ w, S w → S' w) : RoutineOk p Q' S' := by
  intro b hb
  have := h b hb
  cases hp : p b with
  | ok a w r => rw [hp] at this; exact ⟨this.1, hq _ this.2⟩
  | susp w => rw [hp] at this; exact hs _ this
  | err e => rw [hp] at this; exact this

theorem getSof_ok (m : Mem) (prog lossless arith : Nat) :
    RoutineOk (getSof m prog lossless arith) (SofDone prog lossless arith) SofIn := by
  unfold getSof
  split
  · exact RoutineOk.fail (by decide)
  apply RoutineOk.put
  apply RoutineOk.put
  apply RoutineOk.put
  generalize hpre : ([(Slot.prog, prog), (.lossless, lossless), (.arith, arith)] : Writes) = pre
  have hpin : ∀ x ∈ pre, x.1.InBounds 0 ∧ x.1.Fits x.2 ∧ x.1 ≠ .sawSOF ∧ x.1 ≠ .unread := by
    subst hpre
    intro x hx
    simp only [List.mem_cons, List.not_mem_nil, or_false] at hx
    rcases hx with rfl | rfl | rfl <;> exact ⟨trivial, trivial, by simp⟩
  have hpS : ∀ w : Writes, (∀ x ∈ w, x.1.InBounds 0 ∧ x.1.Fits x.2 ∧ x.1 ≠ .sawSOF ∧ x.1 ≠ .unread) → SofIn (pre ++ w) := by
    intro w hw x hx
    rcases List.mem_append.1 hx with h | h
    · exact ⟨Or.inl (hpin x h).1, (hpin x h).2⟩
    · exact ⟨Or.inl (hw x h).1, (hw x h).2⟩
  have key : RoutineOk (in2Bytes >>= sofBody prog lossless arith) (fun w => SofDone prog lossless arith (pre ++ w))
      (fun w => SofIn (pre ++ w)) := by
    intro b hb
    refine withLen (f := sofBody prog lossless arith) (Q := fun w => SofDone prog lossless arith (pre ++ w))
      (S := fun w => SofIn (pre ++ w)) ?_ (hpS [] (by simp)) b hb
    intro l hl
    unfold sofBody
    apply Tri.bind (Q1 := fun c w n => w = [] ∧ n = 1 ∧ c < 256)
    · exact Tri.byte (fun c hc => ⟨rfl, rfl, hc⟩) (hpS [] (by simp))
    rintro prec _ _ ⟨rfl, rfl, hprec⟩
    have f1 : Slot.Fits .prec prec := hprec
    apply Tri.bind (Q1 := fun _ w n => w = [(Slot.prec, prec)] ∧ n = 0)
    · exact Tri.put ⟨rfl, rfl⟩
    rintro _ _ _ ⟨rfl, rfl⟩
    apply Tri.bind (Q1 := fun c w n => w = [] ∧ n = 2 ∧ c < 65536)
    · refine Tri.word (fun c hc => ⟨rfl, rfl, hc⟩) (hpS _ ?_)
      intro x hx
      simp only [List.nil_append, List.append_nil, List.mem_cons, List.not_mem_nil, or_false] at hx
      subst hx; exact ⟨trivial, f1, by simp⟩
    rintro h _ _ ⟨rfl, rfl, hh⟩
    have f2 : Slot.Fits .height h := hh
    apply Tri.bind (Q1 := fun _ w n => w = [(Slot.height, h)] ∧ n = 0)
    · exact Tri.put ⟨rfl, rfl⟩
    rintro _ _ _ ⟨rfl, rfl⟩
    apply Tri.bind (Q1 := fun c w n => w = [] ∧ n = 2 ∧ c < 65536)
    · refine Tri.word (fun c hc => ⟨rfl, rfl, hc⟩) (hpS _ ?_)
      intro x hx
      simp only [List.nil_append, List.append_nil, List.cons_append, List.mem_cons, List.not_mem_nil, or_false] at hx
      rcases hx with rfl | rfl
      · exact ⟨trivial, f1, by simp⟩
      · exact ⟨trivial, f2, by simp⟩
    rintro wd _ _ ⟨rfl, rfl, hwd⟩
    have f3 : Slot.Fits .width wd := hwd
    apply Tri.bind (Q1 := fun _ w n => w = [(Slot.width, wd)] ∧ n = 0)
    · exact Tri.put ⟨rfl, rfl⟩
    rintro _ _ _ ⟨rfl, rfl⟩
    apply Tri.bind (Q1 := fun c w n => w = [] ∧ n = 1 ∧ c < 256)
    · refine Tri.byte (fun c hc => ⟨rfl, rfl, hc⟩) (hpS _ ?_)
      intro x hx
      simp only [List.nil_append, List.append_nil, List.cons_append, List.mem_cons, List.not_mem_nil, or_false] at hx
      rcases hx with rfl | rfl | rfl
      · exact ⟨trivial, f1, by simp⟩
      · exact ⟨trivial, f2, by simp⟩
      · exact ⟨trivial, f3, by simp⟩
    rintro n _ _ ⟨rfl, rfl, hn⟩
    apply Tri.bind (Q1 := fun _ w k => w = [(Slot.ncomp, n)] ∧ k = 0)
    · exact Tri.put ⟨rfl, rfl⟩
    rintro _ _ _ ⟨rfl, rfl⟩
    apply Tri.ite
    · intro _; exact Tri.fail (by decide)
    intro hne
    apply Tri.ite
    · intro _; exact Tri.fail (by decide)
    intro hlen
    have hhead : pre ++ [(Slot.prec, prec), (Slot.height, h), (Slot.width, wd), (Slot.ncomp, n)] =
        sofHead prog lossless arith prec h wd n := by subst hpre; rfl
    apply Tri.bind (Q1 := fun _ w k => k = 3 * n ∧ AllIn n w)
    · refine (sofComps_tri n n 0 (by omega)).mono (fun _ _ _ h => h) ?_
      intro w hw
      simp only [List.nil_append, List.cons_append]
      have := sofIn_comps (prog := prog) (lossless := lossless) (arith := arith) hprec hh hwd hn hw
      rw [← hhead] at this
      simpa using this
    rintro _ wc _ ⟨rfl, hwc⟩
    refine Tri.put ⟨by omega, ?_⟩
    refine ⟨prec, h, wd, n, wc, ?_, hprec, by omega, by omega, by omega, hwc⟩
    rw [← hhead]
    simp
  refine key.mono ?_ ?_
  · intro w hw
    have : (Slot.prog, prog) :: (Slot.lossless, lossless) :: (Slot.arith, arith) :: w = pre ++ w := by subst hpre; rfl
    rw [this]; exact hw
  · intro w hw
    have : (Slot.prog, prog) :: (Slot.lossless, lossless) :: (Slot.arith, arith) :: w = pre ++ w := by subst hpre; rfl
    rw [this]; exact hw

/-! ### SOS -/

theorem findComp_spec {m : Mem} {cc : Nat} {cur : List Nat} : ∀ (n ci k : Nat), findComp m cc cur n ci = some k →
    ci ≤ k ∧ k < ci + n ∧ m (.cId k) = cc := by
  intro n
  induction n with
  | zero => intro ci k h; simp [findComp] at h
  | succ n ih =>
    intro ci k h
    unfold findComp at h
    split at h
    · rename_i hc
      simp only [Option.some.injEq] at h
      subst h
      exact ⟨Nat.le_refl _, by omega, hc.1.symm⟩
    · have := ih (ci + 1) k h
      omega

/-- The cur_comp_info entries `l` (index + 1) stored at positions `p`, `p + 1`, …, with the table selectors. -/
def SosComps (m : Mem) (p : Nat) (l : List Nat) (w : Writes) : Prop :=
  (∀ i (h : i < l.length), (Slot.cur (p + i), l[i]) ∈ w) ∧
  ∀ x ∈ w, (∃ i, ∃ h : i < l.length, x = (Slot.cur (p + i), l[i])) ∨
    (∃ ci v, ci < min (m .ncomp) 4 ∧ v < 16 ∧ (x = (Slot.cDc ci, v) ∨ x = (Slot.cAc ci, v)))

theorem sosComps_tri (m : Mem) : ∀ (k : Nat) (cur : List Nat), cur.length + k ≤ 4 →
    Tri (sosComps m k cur)
      (fun _ w n => n = 2 * k ∧ AllIn (min (m .ncomp) 4) w ∧ ∃ l : List Nat, l.length = k ∧
        (∀ c ∈ l, 1 ≤ c ∧ c ≤ min (m .ncomp) 4) ∧ (cur.Nodup → (cur ++ l).Nodup) ∧ SosComps m cur.length l w)
      (AllIn (min (m .ncomp) 4)) := by
  intro k
  induction k with
  | zero =>
    intro cur _
    refine Tri.pure ⟨rfl, AllIn.nil _, [], rfl, by simp, by simp, ?_, ?_⟩
    · intro i h; simp at h
    · intro x hx; simp at hx
  | succ k ih =>
    intro cur hk
    unfold sosComps
    apply Tri.bind (Q1 := fun c w n => w = [] ∧ n = 1 ∧ c < 256)
    · exact Tri.byte (fun c hc => ⟨rfl, rfl, hc⟩) (AllIn.nil _)
    rintro cc _ _ ⟨rfl, rfl, hcc⟩
    apply Tri.bind (Q1 := fun c w n => w = [] ∧ n = 1 ∧ c < 256)
    · exact Tri.byte (fun c hc => ⟨rfl, rfl, hc⟩) (AllIn.nil _)
    rintro c _ _ ⟨rfl, rfl, hc⟩
    cases hf : findComp m cc cur (min (m .ncomp) 4) 0 with
    | none => exact Tri.fail (by decide)
    | some ci =>
      obtain ⟨-, hci, -⟩ := findComp_spec _ _ _ hf
      rw [Nat.zero_add] at hci
      simp only
      have a1 : AllIn (min (m .ncomp) 4) [(Slot.cur cur.length, ci + 1)] :=
        AllIn.one (show cur.length < 4 by omega) (show ci + 1 ≤ 4 by omega)
      have a2 : AllIn (min (m .ncomp) 4) [(Slot.cDc ci, (c >>> 4) &&& 15)] := AllIn.one hci (and15_lt _)
      have a3 : AllIn (min (m .ncomp) 4) [(Slot.cAc ci, c &&& 15)] := AllIn.one hci (and15_lt _)
      apply Tri.bind (Q1 := fun _ w n => w = [(Slot.cur cur.length, ci + 1)] ∧ n = 0)
      · exact Tri.put ⟨rfl, rfl⟩
      rintro _ _ _ ⟨rfl, rfl⟩
      apply Tri.bind (Q1 := fun _ w n => w = [(Slot.cDc ci, (c >>> 4) &&& 15)] ∧ n = 0)
      · exact Tri.put ⟨rfl, rfl⟩
      rintro _ _ _ ⟨rfl, rfl⟩
      apply Tri.bind (Q1 := fun _ w n => w = [(Slot.cAc ci, c &&& 15)] ∧ n = 0)
      · exact Tri.put ⟨rfl, rfl⟩
      rintro _ _ _ ⟨rfl, rfl⟩
      apply Tri.ite
      · intro _; exact Tri.fail (by decide)
      intro hnot
      refine (ih (cur ++ [ci + 1]) (by simp; omega)).mono ?_ ?_
      · rintro _ w n ⟨h1, h2, l, hl, hr, hnd, hs1, hs2⟩
        refine ⟨by omega, a1.append (a2.append (a3.append h2)), (ci + 1) :: l, by simp [hl], ?_, ?_, ?_, ?_⟩
        · intro x hx
          rcases List.mem_cons.1 hx with rfl | hx
          · omega
          · exact hr x hx
        · intro hcur
          have := hnd (by
            rw [List.nodup_append]
            refine ⟨hcur, by simp, ?_⟩
            intro a ha b hb
            simp only [List.mem_singleton] at hb
            subst hb
            intro e; subst e; exact hnot ha)
          simpa using this
        · intro i hi
          cases i with
          | zero => simp
          | succ i =>
            have := hs1 i (by simpa using hi)
            simp only [List.length_append, List.length_cons, List.length_nil] at this
            have e : cur.length + (i + 1) = cur.length + (0 + 1) + i := by omega
            simp only [List.getElem_cons_succ, List.nil_append, List.cons_append, List.mem_cons]
            right; right; right
            rw [e]; exact this
        · intro x hx
          simp only [List.nil_append, List.cons_append, List.mem_cons] at hx
          rcases hx with rfl | rfl | rfl | hx
          · left; exact ⟨0, by simp, rfl⟩
          · right; exact ⟨ci, _, hci, and15_lt _, Or.inl rfl⟩
          · right; exact ⟨ci, _, hci, and15_lt _, Or.inr rfl⟩
          · rcases hs2 x hx with ⟨i, hi, rfl⟩ | h
            · left
              refine ⟨i + 1, by simpa using hi, ?_⟩
              simp only [List.length_append, List.length_cons, List.length_nil, List.getElem_cons_succ]
              have e : cur.length + (i + 1) = cur.length + (0 + 1) + i := by omega
              rw [e]
            · right; exact h
      · intro w h; exact a1.append (a2.append (a3.append h))

end Verif.Mark
