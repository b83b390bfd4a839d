import Mathlib.Data.List.Perm.Basic
import Mathlib.Data.List.Nodup
import Mathlib.Data.List.Range
import Mathlib.Tactic.Set
import Mathlib.Tactic.Linarith
/-
Model of ICC profile writing (jcicc.c) and reading (jdicc.c), and property C28.
-/
namespace Verif.Icc

/-! ## Model -/

/-- A marker segment as written, or as kept in the saved-marker list: code and data bytes. -/
structure Marker where
  code : Nat
  data : List Nat
deriving DecidableEq, Repr, Inhabited

/-- The identifying string (jcicc.c:83-94). -/
def iccId : List Nat := [0x49, 0x43, 0x43, 0x5F, 0x50, 0x52, 0x4F, 0x46, 0x49, 0x4C, 0x45, 0x0]

/-- `num_markers` (jcicc.c:62-65). -/
def numMarkers (len : Nat) : Nat :=
  let n := len / 65519
  if n * 65519 ≠ len then n + 1 else n

/-- The loop of `jpeg_write_icc_profile` (jcicc.c:67-105); `cur` and `num` are written with `jpeg_write_m_byte`,
which keeps the low 8 bits. -/
def writeLoop (num : Nat) (cur : Nat) (data : List Nat) : List Marker :=
  if data.length = 0 then []
  else
    let length := if data.length > 65519 then 65519 else data.length
    { code := 0xE2, data := iccId ++ [cur % 256, num % 256] ++ data.take length } ::
      writeLoop num (cur + 1) (data.drop length)
termination_by data.length
decreasing_by simp only [List.length_drop]; split <;> omega

/-- `jpeg_write_icc_profile` (jcicc.c:48-106); `none` for the parameter error (empty profile). -/
def writeIcc (data : List Nat) : Option (List Marker) :=
  if data.length = 0 then none else some (writeLoop (numMarkers data.length) 1 data)

/-- `marker_is_icc` (jdicc.c:29-48). -/
def isIcc (m : Marker) : Bool :=
  m.code == 0xE2 && decide (14 ≤ m.data.length) && (m.data.take 12 == iccId)

inductive Result where
  | profile (p : List Nat)
  | notFound
  | bogus
  | fault
deriving DecidableEq, Repr

/-- State of the first pass: `num_markers` and, for each sequence number, `marker_present`/`data_length`. -/
structure P1 where
  num : Nat
  len : Nat → Option Nat

/-- One step of the first pass (jdicc.c:96-117); `inl` is an early return. -/
def pass1Step (s : P1) (m : Marker) : Except Result P1 :=
  if isIcc m then
    let cnt := m.data.getD 13 0
    let seq := m.data.getD 12 0
    if s.num ≠ 0 ∧ s.num ≠ cnt then .error .bogus
    else
      let num := if s.num = 0 then cnt else s.num
      if seq = 0 ∨ seq > num then .error .bogus
      else if 256 ≤ seq then .error .fault
      else if (s.len seq).isSome then .error .bogus
      else .ok { num := num, len := fun q => if q = seq then some (m.data.length - 14) else s.len q }
  else .ok s

/-- The second pass (jdicc.c:126-135): offsets of the chunks from `seq` on; `k` chunks remain. -/
def pass2 (len : Nat → Option Nat) : (k seq total : Nat) → (off : Nat → Nat) → Except Result (Nat × (Nat → Nat))
  | 0, _, total, off => .ok (total, off)
  | k + 1, seq, total, off =>
    match len seq with
    | none => .error .bogus
    | some l => pass2 len k (seq + 1) (total + l) (fun q => if q = seq then total else off q)

/-- The copy loop (jdicc.c:157-159); writing outside the allocated block is a fault. -/
def copyInto (a : List (Option Nat)) (dst : Nat) : List Nat → Except Result (List (Option Nat))
  | [] => .ok a
  | b :: bs => if dst < a.length then copyInto (a.set dst (some b)) (dst + 1) bs else .error .fault

/-- One step of the third pass (jdicc.c:148-161). -/
def pass3Step (len : Nat → Option Nat) (off : Nat → Nat) (a : List (Option Nat)) (m : Marker) :
    Except Result (List (Option Nat)) :=
  if isIcc m then
    let seq := m.data.getD 12 0
    copyInto a (off seq) ((m.data.drop 14).take ((len seq).getD 0))
  else .ok a

/-- `jpeg_read_icc_profile` (jdicc.c:70-167) on a list of saved markers; malloc is assumed to succeed. -/
def readIcc (ms : List Marker) : Result :=
  match ms.foldlM pass1Step { num := 0, len := fun _ => none } with
  | .error r => r
  | .ok s =>
    if s.num = 0 then .notFound
    else match pass2 s.len s.num 1 0 (fun _ => 0) with
      | .error r => r
      | .ok (total, off) =>
        if total = 0 then .bogus
        else match ms.foldlM (pass3Step s.len off) (List.replicate total none) with
          | .error r => r
          | .ok a => if a.all Option.isSome then .profile (a.map (fun x => x.getD 0)) else .fault

/-! ## Specification -/

/-- Chunk number, chunk count and payload of an ICC marker segment (ICC.1 annex B.4). -/
def seqOf (m : Marker) : Nat := m.data.getD 12 0
def cntOf (m : Marker) : Nat := m.data.getD 13 0
def payload (m : Marker) : List Nat := m.data.drop 14

/-- The ICC segments among `ms` form the complete profile `p`: some ordering of them is numbered 1, 2, …, N, every
one says there are N, and their payloads in that order are `p`, which is not empty. -/
def FormsProfile (ms : List Marker) (p : List Nat) : Prop :=
  ∃ cs : List Marker, (ms.filter isIcc).Perm cs ∧ cs.map seqOf = List.range' 1 cs.length ∧
    (∀ m ∈ cs, cntOf m = cs.length) ∧ p = (cs.map payload).flatten ∧ p ≠ []

/-! ## Proofs -/

theorem pass1_filter (s : P1) (ms : List Marker) : ms.foldlM pass1Step s = (ms.filter isIcc).foldlM pass1Step s := by
  induction ms generalizing s with
  | nil => rfl
  | cons m ms ih =>
    by_cases h : isIcc m
    · rw [List.filter_cons_of_pos h, List.foldlM_cons, List.foldlM_cons]
      congr 1; funext s'; exact ih s'
    · rw [List.filter_cons_of_neg h, List.foldlM_cons]
      have : pass1Step s m = .ok s := by unfold pass1Step; rw [if_neg h]
      rw [this]; exact ih s

theorem pass3_filter (len : Nat → Option Nat) (off : Nat → Nat) (a : List (Option Nat)) (ms : List Marker) :
    ms.foldlM (pass3Step len off) a = (ms.filter isIcc).foldlM (pass3Step len off) a := by
  induction ms generalizing a with
  | nil => rfl
  | cons m ms ih =>
    by_cases h : isIcc m
    · rw [List.filter_cons_of_pos h, List.foldlM_cons, List.foldlM_cons]
      congr 1; funext s'; exact ih s'
    · rw [List.filter_cons_of_neg h, List.foldlM_cons]
      have : pass3Step len off a m = .ok a := by unfold pass3Step; rw [if_neg h]
      rw [this]; exact ih a

/-- Length recorded for chunk `q` after the chunks `cs`. -/
def lenOf (cs : List Marker) (d : Nat → Option Nat) (q : Nat) : Option Nat :=
  match cs.find? (fun m => seqOf m == q) with
  | some m => some (payload m).length
  | none => d q

/-- When one step of the first pass succeeds. -/
theorem step_ok (s s' : P1) (m : Marker) (hm : isIcc m = true) : pass1Step s m = .ok s' ↔
    (s.num = 0 ∨ s.num = cntOf m) ∧ 1 ≤ seqOf m ∧ seqOf m ≤ cntOf m ∧ seqOf m < 256 ∧ s.len (seqOf m) = none ∧
    s' = ⟨cntOf m, fun q => if q = seqOf m then some (payload m).length else s.len q⟩ := by
  have hpl : (payload m).length = m.data.length - 14 := by simp [payload]
  unfold pass1Step
  rw [if_pos hm, hpl]
  simp only
  change (if s.num ≠ 0 ∧ s.num ≠ cntOf m then _ else
    if seqOf m = 0 ∨ seqOf m > (if s.num = 0 then cntOf m else s.num) then _ else
    if 256 ≤ seqOf m then _ else if (s.len (seqOf m)).isSome = true then _ else _) = _ ↔ _
  by_cases h1 : s.num ≠ 0 ∧ s.num ≠ cntOf m
  · rw [if_pos h1]
    constructor
    · intro h; cases h
    · rintro ⟨h, -⟩; omega
  have h1' : s.num = 0 ∨ s.num = cntOf m := by omega
  have hn : (if s.num = 0 then cntOf m else s.num) = cntOf m := by
    split <;> omega
  rw [if_neg h1, hn]
  by_cases h2 : seqOf m = 0 ∨ seqOf m > cntOf m
  · rw [if_pos h2]
    constructor
    · intro h; cases h
    · rintro ⟨_, h, h', -⟩; omega
  rw [if_neg h2]
  by_cases h3 : 256 ≤ seqOf m
  · rw [if_pos h3]
    constructor
    · intro h; cases h
    · rintro ⟨_, _, _, h, -⟩; omega
  rw [if_neg h3]
  by_cases h4 : (s.len (seqOf m)).isSome = true
  · rw [if_pos h4]
    constructor
    · intro h; cases h
    · rintro ⟨_, _, _, _, h, -⟩; rw [h] at h4; cases h4
  rw [if_neg h4]
  constructor
  · intro h; injection h with h
    refine ⟨h1', by omega, by omega, by omega, by simpa using h4, ?_⟩
    rw [← h]; exact congrArg (P1.mk · _) hn
  · rintro ⟨_, _, _, _, _, h⟩
    rw [h]; exact congrArg (fun z => Except.ok (P1.mk z _)) hn

theorem lenOf_cons (m : Marker) (cs : List Marker) (d : Nat → Option Nat) (h : seqOf m ∉ cs.map seqOf) :
    lenOf (m :: cs) d = lenOf cs (fun q => if q = seqOf m then some (payload m).length else d q) := by
  funext q
  unfold lenOf
  rw [List.find?_cons]
  by_cases hq : seqOf m = q
  · have hf : cs.find? (fun m => seqOf m == q) = none := by
      rw [List.find?_eq_none]
      intro x hx hxe
      exact h (List.mem_map.2 ⟨x, hx, by rw [hq]; simpa using hxe⟩)
    simp [hf, hq]
  · have hq' : (seqOf m == q) = false := by simpa using hq
    rw [hq']
    simp only
    cases cs.find? (fun m => seqOf m == q) with
    | some x => rfl
    | none => exact (if_neg (fun h => hq h.symm)).symm

/-- Successful first pass from state `s` on ICC markers only: characterisation. -/
theorem pass1_ok_iff : ∀ (cs : List Marker) (s t : P1), (∀ m ∈ cs, isIcc m) → cs ≠ [] →
    (cs.foldlM pass1Step s = .ok t ↔
      (s.num = 0 ∨ s.num = t.num) ∧
      (∀ m ∈ cs, cntOf m = t.num ∧ 1 ≤ seqOf m ∧ seqOf m ≤ t.num ∧ seqOf m < 256 ∧ s.len (seqOf m) = none) ∧
      (cs.map seqOf).Nodup ∧ t.len = lenOf cs s.len) := by
  intro cs
  induction cs with
  | nil => intro s t _ h; exact absurd rfl h
  | cons m cs ih =>
    intro s t hic _
    have hm : isIcc m = true := hic m (by simp)
    have hic' : ∀ x ∈ cs, isIcc x := fun x hx => hic x (by simp [hx])
    rw [List.foldlM_cons]
    set s1 : P1 := ⟨cntOf m, fun q => if q = seqOf m then some (payload m).length else s.len q⟩ with hs1
    have key : (pass1Step s m >>= fun s' => cs.foldlM pass1Step s') = .ok t ↔
        pass1Step s m = .ok s1 ∧ cs.foldlM pass1Step s1 = .ok t := by
      constructor
      · intro h
        cases hx : pass1Step s m with
        | error r => rw [hx] at h; cases h
        | ok s' =>
          rw [hx] at h
          have := (step_ok s s' m hm).1 hx
          obtain ⟨_, _, _, _, _, e⟩ := this
          rw [e] at h
          exact ⟨by rw [e], h⟩
      · rintro ⟨h1, h2⟩
        rw [h1]; exact h2
    rw [key, step_ok _ _ _ hm]
    by_cases hcs : cs = []
    · subst hcs
      have e : (([] : List Marker).foldlM pass1Step s1 = .ok t) ↔ t = s1 := by
        simp [pure, Except.pure, eq_comm]
      rw [e]
      constructor
      · rintro ⟨⟨a1, a2, a3, a4, a5, -⟩, b⟩
        rw [b]
        refine ⟨a1, ?_, by simp, ?_⟩
        · intro x hx
          have : x = m := by simpa using hx
          subst this
          exact ⟨rfl, a2, a3, a4, a5⟩
        · rw [lenOf_cons _ _ _ (by simp)]; rfl
      · rintro ⟨a, b, -, c⟩
        obtain ⟨b1, b2, b3, b4, b5⟩ := b m (by simp)
        refine ⟨⟨by omega, b2, by omega, b4, b5, rfl⟩, ?_⟩
        rw [lenOf_cons _ _ _ (by simp)] at c
        cases t
        simp only [hs1, P1.mk.injEq] at *
        exact ⟨b1.symm, by rw [c]; rfl⟩
    · rw [ih s1 t hic' hcs]
      constructor
      · rintro ⟨⟨a1, a2, a3, a4, a5, -⟩, ⟨b0, b1, b2, b3⟩⟩
        have hni : seqOf m ∉ cs.map seqOf := by
          intro hin
          obtain ⟨x, hx, hxe⟩ := List.mem_map.1 hin
          have := (b1 x hx).2.2.2.2
          simp only [hs1] at this
          rw [if_pos hxe] at this; cases this
        have hc : cntOf m = t.num := by
          simp only [hs1] at b0; omega
        refine ⟨by omega, ?_, ?_, ?_⟩
        · intro x hx
          rcases List.mem_cons.1 hx with rfl | hx
          · exact ⟨hc, a2, by omega, a4, a5⟩
          · obtain ⟨c1, c2, c3, c4, c5⟩ := b1 x hx
            refine ⟨c1, c2, c3, c4, ?_⟩
            simp only [hs1] at c5
            rw [if_neg] at c5
            · exact c5
            · intro h; exact hni (List.mem_map.2 ⟨x, hx, h⟩)
        · rw [List.map_cons, List.nodup_cons]; exact ⟨hni, b2⟩
        · rw [lenOf_cons _ _ _ hni]; exact b3
      · rintro ⟨a, b, c, d⟩
        rw [List.map_cons, List.nodup_cons] at c
        obtain ⟨b1, b2, b3, b4, b5⟩ := b m (by simp)
        refine ⟨⟨by omega, b2, by omega, b4, b5, rfl⟩, Or.inr (by simp only [hs1]; exact b1), ?_, c.2, ?_⟩
        · intro x hx
          obtain ⟨c1, c2, c3, c4, c5⟩ := b x (by simp [hx])
          refine ⟨c1, c2, c3, c4, ?_⟩
          simp only [hs1]
          rw [if_neg]
          · exact c5
          · intro h; exact c.1 (List.mem_map.2 ⟨x, hx, h⟩)
        · rw [lenOf_cons _ _ _ c.1] at d; exact d

/-- The first pass never fails otherwise than by rejecting, for byte data. -/
theorem pass1_err : ∀ (cs : List Marker) (s : P1) (r : Result), (∀ m ∈ cs, ∀ b ∈ m.data, b < 256) →
    cs.foldlM pass1Step s = .error r → r = .bogus := by
  intro cs
  induction cs with
  | nil => intro s r _ h; cases h
  | cons m cs ih =>
    intro s r hb h
    rw [List.foldlM_cons] at h
    cases hx : pass1Step s m with
    | ok s' =>
      rw [hx] at h
      exact ih s' r (fun x hx => hb x (by simp [hx])) h
    | error r' =>
      rw [hx] at h
      have hr : r' = r := by injection h
      rw [← hr]
      unfold pass1Step at hx
      have hseq : m.data.getD 12 0 < 256 := by
        rw [List.getD_eq_getElem?_getD]
        cases hg : m.data[12]? with
        | none => simp
        | some b => exact hb m (by simp) b (List.mem_of_getElem? hg)
      split at hx
      · simp only at hx
        generalize (if s.num = 0 then m.data.getD 13 0 else s.num) = nn at hx
        by_cases h1 : s.num ≠ 0 ∧ s.num ≠ m.data.getD 13 0
        · rw [if_pos h1] at hx; injection hx with hx; exact hx.symm
        rw [if_neg h1] at hx
        by_cases h2 : m.data.getD 12 0 = 0 ∨ m.data.getD 12 0 > nn
        · rw [if_pos h2] at hx; injection hx with hx; exact hx.symm
        rw [if_neg h2, if_neg (by omega)] at hx
        split at hx
        · injection hx with hx; exact hx.symm
        · cases hx
      · cases hx

theorem pass2_ok (len : Nat → Option Nat) (L : Nat → Nat) : ∀ (k seq total : Nat) (off : Nat → Nat),
    (∀ q, seq ≤ q → q < seq + k → len q = some (L q)) →
    ∃ off', pass2 len k seq total off = .ok (total + ((List.range' seq k).map L).sum, off') ∧
      (∀ q, seq ≤ q → q < seq + k → off' q = total + ((List.range' seq (q - seq)).map L).sum) ∧
      (∀ q, q < seq → off' q = off q) := by
  intro k
  induction k with
  | zero =>
    intro seq total off _
    exact ⟨off, by simp [pass2], fun q h1 h2 => by omega, fun _ _ => rfl⟩
  | succ k ih =>
    intro seq total off h
    obtain ⟨off', e1, e2, e3⟩ := ih (seq + 1) (total + L seq) (fun q => if q = seq then total else off q)
      (fun q h1 h2 => h q (by omega) (by omega))
    refine ⟨off', ?_, ?_, ?_⟩
    · rw [pass2, h seq (Nat.le_refl _) (by omega)]
      simp only
      rw [e1, List.range'_succ, List.map_cons, List.sum_cons, Nat.add_assoc]
    · intro q h1 h2
      by_cases hq : q = seq
      · subst hq
        rw [e3 q (by omega)]; simp
      · rw [e2 q (by omega) (by omega)]
        have : q - seq = (q - (seq + 1)) + 1 := by omega
        rw [this, List.range'_succ, List.map_cons, List.sum_cons, Nat.add_assoc]
    · intro q hq
      rw [e3 q (by omega)]
      show (if q = seq then _ else _) = _
      rw [if_neg (by omega)]

theorem pass2_cases (len : Nat → Option Nat) : ∀ (k seq total : Nat) (off : Nat → Nat),
    pass2 len k seq total off = .error .bogus ∨ (∀ q, seq ≤ q → q < seq + k → (len q).isSome) := by
  intro k
  induction k with
  | zero => intro seq total off; right; intro q h1 h2; omega
  | succ k ih =>
    intro seq total off
    rw [pass2]
    cases hl : len seq with
    | none => left; rfl
    | some l =>
      simp only
      rcases ih (seq + 1) (total + l) (fun q => if q = seq then total else off q) with h | h
      · left; exact h
      · right
        intro q h1 h2
        by_cases hq : q = seq
        · rw [hq, hl]; rfl
        · exact h q (by omega) (by omega)

theorem pass2_missing (len : Nat → Option Nat) : ∀ (k seq total : Nat) (off : Nat → Nat) (q : Nat),
    seq ≤ q → q < seq + k → len q = none → pass2 len k seq total off = .error .bogus := by
  intro k seq total off q h1 h2 h3
  rcases pass2_cases len k seq total off with h | h
  · exact h
  · have := h q h1 h2
    rw [h3] at this; cases this

theorem copyInto_ok (x : List (Option Nat)) : ∀ (bs : List Nat) (l r : List (Option Nat)), x.length = bs.length →
    copyInto (l ++ x ++ r) l.length bs = .ok (l ++ bs.map some ++ r) := by
  induction x with
  | nil =>
    intro bs l r h
    have : bs = [] := List.length_eq_zero_iff.1 (by simpa using h.symm)
    subst this; simp [copyInto]
  | cons a x ih =>
    intro bs l r h
    cases bs with
    | nil => simp at h
    | cons b bs =>
      rw [copyInto, if_pos (by simp)]
      have e : (l ++ (a :: x) ++ r).set l.length (some b) = (l ++ [some b]) ++ x ++ r := by
        simp [List.set_append]
      rw [e]
      have := ih bs (l ++ [some b]) r (by simpa using h)
      rw [List.length_append, List.length_singleton] at this
      rw [this]; simp

/-- What the output block holds once the chunks satisfying `done` have been copied. -/
def blockAt (done : Marker → Bool) (cs : List Marker) : List (Option Nat) :=
  cs.flatMap (fun m => if done m then (payload m).map some else List.replicate (payload m).length none)

theorem blockAt_congr (d d' : Marker → Bool) (cs : List Marker) (h : ∀ m ∈ cs, d m = d' m) :
    blockAt d cs = blockAt d' cs := by
  induction cs with
  | nil => rfl
  | cons m cs ih =>
    unfold blockAt at *
    rw [List.flatMap_cons, List.flatMap_cons, h m (by simp), ih (fun x hx => h x (by simp [hx]))]

theorem blockAt_length (d : Marker → Bool) (cs : List Marker) :
    (blockAt d cs).length = (cs.map (fun m => (payload m).length)).sum := by
  induction cs with
  | nil => rfl
  | cons m cs ih =>
    unfold blockAt at *
    rw [List.flatMap_cons, List.length_append, ih, List.map_cons, List.sum_cons]
    congr 1
    split <;> simp

theorem blockAt_all (d : Marker → Bool) (cs : List Marker) (h : ∀ m ∈ cs, d m = true) :
    blockAt d cs = ((cs.map payload).flatten).map some := by
  induction cs with
  | nil => rfl
  | cons m cs ih =>
    unfold blockAt at *
    rw [List.flatMap_cons, h m (by simp), ih (fun x hx => h x (by simp [hx]))]
    simp

theorem blockAt_none (cs : List Marker) :
    blockAt (fun _ => false) cs = List.replicate (cs.map (fun m => (payload m).length)).sum none := by
  induction cs with
  | nil => rfl
  | cons m cs ih =>
    unfold blockAt at *
    rw [List.flatMap_cons, ih, List.map_cons, List.sum_cons, List.replicate_add]
    simp

theorem pass3_ok (len : Nat → Option Nat) (off : Nat → Nat) (cs' : List Marker) (hnd : cs'.Nodup)
    (hlen : ∀ m ∈ cs', len (seqOf m) = some (payload m).length)
    (hoff : ∀ l m r, cs' = l ++ m :: r → off (seqOf m) = (l.map (fun m => (payload m).length)).sum) :
    ∀ (todo : List Marker) (done : Marker → Bool), (∀ m ∈ todo, isIcc m = true ∧ m ∈ cs') →
    todo.foldlM (pass3Step len off) (blockAt done cs') =
      .ok (blockAt (fun m => done m || decide (m ∈ todo)) cs') := by
  intro todo
  induction todo with
  | nil => intro done _; simp [pure, Except.pure]
  | cons m todo ih =>
    intro done h
    obtain ⟨hm, hin⟩ := h m (by simp)
    obtain ⟨l, r, hlr⟩ := List.append_of_mem hin
    have hstep : pass3Step len off (blockAt done cs') m = .ok (blockAt (fun x => done x || decide (x = m)) cs') := by
      unfold pass3Step
      rw [if_pos hm]
      simp only
      change copyInto _ (off (seqOf m)) (List.take ((len (seqOf m)).getD 0) (payload m)) = _
      rw [hlen m hin, hoff l m r hlr]
      simp only [Option.getD_some, List.take_length]
      rw [hlr] at hnd ⊢
      rw [List.nodup_append] at hnd
      obtain ⟨_, hnd2, hnd3⟩ := hnd
      rw [List.nodup_cons] at hnd2
      have hl : ∀ x ∈ l, (done x || decide (x = m)) = done x := by
        intro x hx
        have : x ≠ m := hnd3 x hx m (by simp)
        simp [this]
      have hr : ∀ x ∈ r, (done x || decide (x = m)) = done x := by
        intro x hx
        have : x ≠ m := by rintro rfl; exact hnd2.1 hx
        simp [this]
      have split : ∀ d : Marker → Bool, blockAt d (l ++ m :: r) = blockAt d l ++
          (if d m then (payload m).map some else List.replicate (payload m).length none) ++ blockAt d r := by
        intro d; unfold blockAt
        rw [List.flatMap_append, List.flatMap_cons, List.append_assoc]
      rw [split, split, blockAt_congr (fun x => done x || decide (x = m)) done l hl,
        blockAt_congr (fun x => done x || decide (x = m)) done r hr, ← blockAt_length done l]
      rw [copyInto_ok]
      · simp
      · split <;> simp
    rw [List.foldlM_cons, hstep]
    have := ih (fun x => done x || decide (x = m)) (fun x hx => h x (by simp [hx]))
    refine Eq.trans this ?_
    congr 1
    apply blockAt_congr
    intro x _
    by_cases h1 : x = m <;> by_cases h2 : x ∈ todo <;> simp [h1, h2]

/-- The core of C28: what the reader does with ICC segments `cs` that are numbered without repeats. -/
theorem read_sorted (ms cs' : List Marker) (hp : (ms.filter isIcc).Perm cs')
    (hseq : cs'.map seqOf = List.range' 1 cs'.length) (hcnt : ∀ m ∈ cs', cntOf m = cs'.length)
    (hne : cs' ≠ []) (hb : ∀ m ∈ ms, ∀ b ∈ m.data, b < 256) :
    readIcc ms = if (cs'.map payload).flatten = [] then .bogus else .profile (cs'.map payload).flatten := by
  have hmem : ∀ m, m ∈ ms.filter isIcc ↔ m ∈ cs' := fun m => hp.mem_iff
  have hicc : ∀ m ∈ ms.filter isIcc, isIcc m = true := fun m hm => (List.mem_filter.1 hm).2
  have hndm : (cs'.map seqOf).Nodup := by rw [hseq]; exact List.nodup_range'
  have hnd : cs'.Nodup := List.Nodup.of_map _ hndm
  have hfne : ms.filter isIcc ≠ [] := by
    intro h; rw [h] at hp; exact hne (hp.symm.eq_nil)
  have hinj : ∀ x ∈ cs', ∀ y ∈ cs', seqOf x = seqOf y → x = y := fun x hx y hy h =>
    List.inj_on_of_nodup_map hndm hx hy h
  have hrange : ∀ m ∈ cs', 1 ≤ seqOf m ∧ seqOf m ≤ cs'.length := by
    intro m hm
    have : seqOf m ∈ cs'.map seqOf := List.mem_map.2 ⟨m, hm, rfl⟩
    rw [hseq, List.mem_range'_1] at this
    omega
  have h256 : ∀ m ∈ cs', seqOf m < 256 := by
    intro m hm
    have hm' : m ∈ ms := (List.mem_filter.1 ((hmem m).2 hm)).1
    unfold seqOf
    rw [List.getD_eq_getElem?_getD]
    cases hg : m.data[12]? with
    | none => simp
    | some b => exact hb m hm' b (List.mem_of_getElem? hg)
  set len := lenOf (ms.filter isIcc) (fun _ => none) with hlendef
  have hlen : ∀ m ∈ cs', len (seqOf m) = some (payload m).length := by
    intro m hm
    rw [hlendef]; unfold lenOf
    cases hf : (ms.filter isIcc).find? (fun x => seqOf x == seqOf m) with
    | none =>
      rw [List.find?_eq_none] at hf
      exact absurd (by simp) (hf m ((hmem m).2 hm))
    | some x =>
      have hx : x ∈ cs' := (hmem x).1 (List.mem_of_find?_eq_some hf)
      have he : seqOf x = seqOf m := by simpa using List.find?_some hf
      rw [hinj x hx m hm he]
  have h1 : ms.foldlM pass1Step { num := 0, len := fun _ => none } = .ok ⟨cs'.length, len⟩ := by
    rw [pass1_filter, pass1_ok_iff _ _ _ hicc hfne]
    refine ⟨Or.inl rfl, ?_, ?_, rfl⟩
    · intro m hm
      have hm' := (hmem m).1 hm
      exact ⟨hcnt m hm', (hrange m hm').1, (hrange m hm').2, h256 m hm', rfl⟩
    · exact ((hp.map seqOf).nodup_iff).2 hndm
  let L : Nat → Nat := fun q => (len q).getD 0
  have hL : ∀ m ∈ cs', L (seqOf m) = (payload m).length := by
    intro m hm; show (len (seqOf m)).getD 0 = _; rw [hlen m hm]; rfl
  have hsome : ∀ q, 1 ≤ q → q < 1 + cs'.length → len q = some (L q) := by
    intro q hq1 hq2
    have : q ∈ cs'.map seqOf := by rw [hseq, List.mem_range'_1]; omega
    obtain ⟨m, hm, rfl⟩ := List.mem_map.1 this
    rw [hL m hm, hlen m hm]
  obtain ⟨off, e1, e2, -⟩ := pass2_ok len L cs'.length 1 0 (fun _ => 0) hsome
  have hsum : ∀ l : List Marker, (∀ m ∈ l, m ∈ cs') → (l.map seqOf).map L = l.map (fun m => (payload m).length) := by
    intro l hl
    rw [List.map_map]
    exact List.map_congr_left (fun m hm => hL m (hl m hm))
  have htot : 0 + ((List.range' 1 cs'.length).map L).sum = (cs'.map (fun m => (payload m).length)).sum := by
    rw [← hseq, hsum cs' (fun _ h => h), Nat.zero_add]
  rw [htot] at e1
  have hoff : ∀ l m r, cs' = l ++ m :: r → off (seqOf m) = (l.map (fun m => (payload m).length)).sum := by
    intro l m r hlr
    have hm : m ∈ cs' := by rw [hlr]; simp
    have hs : l.map seqOf ++ seqOf m :: r.map seqOf = List.range' 1 l.length ++ List.range' (1 + l.length) (r.length + 1) := by
      have := hseq
      rw [hlr] at this
      rw [List.map_append, List.map_cons] at this
      rw [this, List.length_append, List.length_cons]
      have e := List.range'_append (s := 1) (m := l.length) (n := r.length + 1) (step := 1)
      rw [Nat.one_mul] at e
      exact e.symm
    have h2 := List.append_inj hs (by simp)
    have h3 : seqOf m = 1 + l.length := by
      have := h2.2
      rw [List.range'_succ] at this
      injection this
    rw [e2 (seqOf m) (hrange m hm).1 (by have := (hrange m hm).2; omega), h3]
    have : 1 + l.length - 1 = l.length := by omega
    rw [this, ← h2.1, hsum l (fun x hx => by rw [hlr]; simp [hx]), Nat.zero_add]
  have hT : ((cs'.map payload).flatten).length = (cs'.map (fun m => (payload m).length)).sum := by
    rw [List.length_flatten, List.map_map]; rfl
  have h3 := pass3_ok len off cs' hnd hlen hoff (ms.filter isIcc) (fun _ => false)
    (fun m hm => ⟨hicc m hm, (hmem m).1 hm⟩)
  rw [blockAt_none, blockAt_all _ cs' (by intro m hm; simpa using List.mem_filter.1 ((hmem m).2 hm))] at h3
  unfold readIcc
  rw [h1]
  simp only
  have hl0 : cs'.length ≠ 0 := fun h => hne (List.length_eq_zero_iff.1 h)
  rw [if_neg hl0, e1]
  simp only
  by_cases hz : (cs'.map payload).flatten = []
  · have : (cs'.map (fun m => (payload m).length)).sum = 0 := by rw [← hT, hz]; rfl
    rw [if_pos this, if_pos hz]
  · have : (cs'.map (fun m => (payload m).length)).sum ≠ 0 := by
      rw [← hT]; exact fun h => hz (List.length_eq_zero_iff.1 h)
    rw [if_neg this, if_neg hz, pass3_filter, h3]
    simp [Function.comp_def]

/-- C28 (reading): for every list of saved markers, a profile is returned exactly when the ICC segments form it; it is
"not found" exactly when there are none; everything else (missing, repeated, out of range or inconsistently counted
chunks) is rejected; and no write ever leaves the allocated block. -/
theorem read_icc_exact (ms : List Marker) (hb : ∀ m ∈ ms, ∀ b ∈ m.data, b < 256) :
    (∀ p, readIcc ms = .profile p ↔ FormsProfile ms p) ∧
    (readIcc ms = .notFound ↔ ∀ m ∈ ms, isIcc m = false) ∧
    readIcc ms ≠ .fault := by
  have hicc : ∀ m ∈ ms.filter isIcc, isIcc m = true := fun m hm => (List.mem_filter.1 hm).2
  by_cases hnil : ms.filter isIcc = []
  · have hr : readIcc ms = .notFound := by
      unfold readIcc
      rw [pass1_filter, hnil]
      rfl
    rw [hr]
    refine ⟨fun p => ⟨fun h => (by cases h), ?_⟩, ⟨fun _ => ?_, fun _ => rfl⟩, by simp⟩
    · rintro ⟨cs, h1, _, _, h4, h5⟩
      rw [hnil] at h1
      rw [h1.symm.eq_nil] at h4
      exact absurd h4 h5
    · intro m hm
      by_contra hc
      have : m ∈ ms.filter isIcc := List.mem_filter.2 ⟨hm, by simpa using hc⟩
      rw [hnil] at this; cases this
  have hex : ¬ ∀ m ∈ ms, isIcc m = false := by
    intro h
    apply hnil
    rw [List.filter_eq_nil_iff]
    intro m hm; rw [h m hm]; simp
  -- the sorted arrangement exists, or the reader rejects
  have hor : (∃ cs', (ms.filter isIcc).Perm cs' ∧ cs'.map seqOf = List.range' 1 cs'.length ∧
      (∀ m ∈ cs', cntOf m = cs'.length)) ∨ readIcc ms = .bogus := by
    cases h1 : ms.foldlM pass1Step { num := 0, len := fun _ => none } with
    | error r =>
      right
      have := pass1_err ms _ r hb h1
      unfold readIcc
      rw [h1, this]
    | ok s =>
      have h1' := h1
      rw [pass1_filter, pass1_ok_iff _ _ _ hicc hnil] at h1'
      obtain ⟨-, a2, a3, a4⟩ := h1'
      have hN : s.num ≠ 0 := by
        obtain ⟨m, hm⟩ := List.exists_mem_of_ne_nil _ hnil
        have := a2 m hm; omega
      rcases pass2_cases s.len s.num 1 0 (fun _ => 0) with h2 | h2
      · right
        unfold readIcc
        rw [h1]; simp only
        rw [if_neg hN, h2]
      · left
        have hfind : ∀ q, 1 ≤ q → q < 1 + s.num → ∃ m ∈ ms.filter isIcc, seqOf m = q := by
          intro q hq1 hq2
          have := h2 q hq1 hq2
          rw [a4] at this; unfold lenOf at this
          cases hf : (ms.filter isIcc).find? (fun x => seqOf x == q) with
          | none => rw [hf] at this; cases this
          | some x => exact ⟨x, List.mem_of_find?_eq_some hf, by simpa using List.find?_some hf⟩
        choose! g hg1 hg2 using hfind
        refine ⟨(List.range' 1 s.num).map g, ?_, ?_, ?_⟩
        · have hm2 : ((List.range' 1 s.num).map g).map seqOf = List.range' 1 s.num := by
            rw [List.map_map]
            conv_rhs => rw [← List.map_id (List.range' 1 s.num)]
            apply List.map_congr_left
            intro q hq
            rw [List.mem_range'_1] at hq
            exact hg2 q hq.1 hq.2
          apply (List.perm_ext_iff_of_nodup (List.Nodup.of_map _ a3)
            (List.Nodup.of_map seqOf (by rw [hm2]; exact List.nodup_range'))).2
          intro m
          constructor
          · intro hm
            have hq := a2 m hm
            refine List.mem_map.2 ⟨seqOf m, by rw [List.mem_range'_1]; omega, ?_⟩
            exact List.inj_on_of_nodup_map a3 (hg1 _ (by omega) (by omega)) hm (hg2 _ (by omega) (by omega))
          · intro hm
            obtain ⟨q, hq, rfl⟩ := List.mem_map.1 hm
            rw [List.mem_range'_1] at hq
            exact hg1 q hq.1 hq.2
        · rw [List.map_map, List.length_map, List.length_range']
          conv_rhs => rw [← List.map_id (List.range' 1 s.num)]
          apply List.map_congr_left
          intro q hq
          rw [List.mem_range'_1] at hq
          exact hg2 q hq.1 hq.2
        · intro m hm
          obtain ⟨q, hq, rfl⟩ := List.mem_map.1 hm
          rw [List.mem_range'_1] at hq
          rw [List.length_map, List.length_range']
          exact (a2 _ (hg1 q hq.1 hq.2)).1
  have hfw : ∀ p, FormsProfile ms p → readIcc ms = .profile p := by
    rintro p ⟨cs, c1, c2, c3, c4, c5⟩
    have hne : cs ≠ [] := by rintro rfl; exact hnil c1.eq_nil
    rw [read_sorted ms cs c1 c2 c3 hne hb, ← c4, if_neg c5]
  rcases hor with ⟨cs, c1, c2, c3⟩ | hbog
  · have hne : cs ≠ [] := by rintro rfl; exact hnil c1.eq_nil
    have hr := read_sorted ms cs c1 c2 c3 hne hb
    by_cases hz : (cs.map payload).flatten = []
    · rw [if_pos hz] at hr
      refine ⟨fun p => ⟨fun h => (by rw [hr] at h; cases h), hfw p⟩, ⟨fun h => (by rw [hr] at h; cases h),
        fun h => absurd h hex⟩, by rw [hr]; simp⟩
    · rw [if_neg hz] at hr
      refine ⟨fun p => ⟨fun h => ?_, hfw p⟩, ⟨fun h => (by rw [hr] at h; cases h),
        fun h => absurd h hex⟩, by rw [hr]; simp⟩
      rw [hr] at h
      injection h with h
      exact ⟨cs, c1, c2, c3, h.symm, by rw [← h]; exact hz⟩
  · refine ⟨fun p => ⟨fun h => (by rw [hbog] at h; cases h), hfw p⟩, ⟨fun h => (by rw [hbog] at h; cases h),
        fun h => absurd h hex⟩, by rw [hbog]; simp⟩

theorem writeLoop_spec (num : Nat) : ∀ (n : Nat) (data : List Nat) (cur : Nat), data.length ≤ n * 65519 →
    n * 65519 < data.length + 65519 → cur + n ≤ 256 → num < 256 →
    let ms := writeLoop num cur data
    ms.map seqOf = List.range' cur n ∧ (∀ m ∈ ms, cntOf m = num ∧ isIcc m = true ∧ m.code = 0xE2 ∧
      m.data.length ≤ 65533) ∧ (ms.map payload).flatten = data := by
  intro n
  induction n with
  | zero =>
    intro data cur h1 _ _ _
    have : data = [] := List.length_eq_zero_iff.1 (by omega)
    subst this
    rw [writeLoop]; simp
  | succ n ih =>
    intro data cur h1 h2 h3 h4
    rw [writeLoop]
    have hne : data.length ≠ 0 := by omega
    rw [if_neg hne]
    simp only
    set len := (if data.length > 65519 then 65519 else data.length) with hlen
    have hl1 : len ≤ 65519 := by rw [hlen]; split <;> omega
    have hl2 : len ≤ data.length := by rw [hlen]; split <;> omega
    have hl3 : (data.length > 65519 ∧ len = 65519) ∨ (data.length ≤ 65519 ∧ len = data.length) := by
      rw [hlen]; split <;> omega
    have hd1 : (data.drop len).length ≤ n * 65519 := by rw [List.length_drop]; omega
    have hd2 : n * 65519 < (data.drop len).length + 65519 := by
      rw [List.length_drop]; clear_value len; clear hlen hd1 ih
      rw [Nat.succ_mul] at h1 h2
      generalize data.length = dl at *
      generalize n * 65519 = X at *
      rcases hl3 with ⟨h, rfl⟩ | ⟨h, rfl⟩
      · rw [Nat.sub_add_cancel (Nat.le_of_lt h)]; exact Nat.lt_of_add_lt_add_right h2
      · exact Nat.lt_of_lt_of_le (Nat.lt_of_add_lt_add_right (Nat.lt_of_lt_of_le h2 (Nat.add_le_add_right h _)))
          (Nat.le_add_left _ _)
    obtain ⟨i1, i2, i3⟩ := ih (data.drop len) (cur + 1) hd1 hd2 (by omega) h4
    have hc : cur % 256 = cur := Nat.mod_eq_of_lt (by omega)
    have hn : num % 256 = num := Nat.mod_eq_of_lt h4
    refine ⟨?_, ?_, ?_⟩
    · rw [List.map_cons, i1, List.range'_succ]
      congr 1
    · intro m hm
      rcases List.mem_cons.1 hm with rfl | hm
      · refine ⟨hn, ?_, rfl, ?_⟩
        · simp [isIcc, iccId]
        · simp [iccId]; omega
      · exact i2 m hm
    · rw [List.map_cons, List.flatten_cons, i3]
      conv_rhs => rw [← List.take_append_drop len data]
      rfl

/-- C28 (round trip): any profile of 1 to 255*65519 bytes is written as legal APP2 segments (each fits the 16-bit
segment length), and reading any list of saved markers whose ICC segments are those, in any order and with any other
markers interleaved, returns exactly the profile. -/
theorem icc_roundtrip (data : List Nat) (h0 : 1 ≤ data.length) (h1 : data.length ≤ 255 * 65519)
    (ms w : List Marker) (hw : writeIcc data = some w) (hp : (ms.filter isIcc).Perm w)
    (hb : ∀ m ∈ ms, ∀ b ∈ m.data, b < 256) :
    readIcc ms = .profile data ∧ ∀ m ∈ w, m.code = 0xE2 ∧ m.data.length + 2 ≤ 65535 := by
  unfold writeIcc at hw
  rw [if_neg (by omega)] at hw
  injection hw with hw
  have hnm : numMarkers data.length ≤ 255 ∧ data.length ≤ numMarkers data.length * 65519 ∧
      numMarkers data.length * 65519 < data.length + 65519 := by
    unfold numMarkers
    simp only
    split <;> omega
  obtain ⟨a1, a2, a3⟩ := writeLoop_spec (numMarkers data.length) (numMarkers data.length) data 1 hnm.2.1 hnm.2.2
    (by omega) (by omega)
  rw [hw] at a1 a2 a3
  have hlen : w.length = numMarkers data.length := by
    have := congrArg List.length a1
    simpa using this
  refine ⟨((read_icc_exact ms hb).1 data).2 ⟨w, hp, by rw [a1, hlen], fun m hm => by rw [hlen]; exact (a2 m hm).1,
    a3.symm, ?_⟩, fun m hm => ⟨(a2 m hm).2.2.1, by have := (a2 m hm).2.2.2; omega⟩⟩
  intro h; rw [h] at h0; simp at h0

/-- Two chunks in the wrong order with a comment between them; and the same with the first chunk twice. -/
example :
    let c1 : Marker := ⟨0xE2, iccId ++ [1, 2, 10, 20]⟩
    let c2 : Marker := ⟨0xE2, iccId ++ [2, 2, 30]⟩
    readIcc [c2, ⟨0xFE, [1, 2, 3]⟩, c1] = .profile [10, 20, 30] ∧ readIcc [c1, c2, c1] = .bogus ∧
      readIcc [c2] = .bogus := by
  decide +kernel

example : ∃ w, writeIcc [1, 2, 3] = some w ∧ w.length = 1 ∧ readIcc (⟨0xFE, [7]⟩ :: w) = .profile [1, 2, 3] :=
  ⟨_, rfl, by simp [writeLoop], by
    refine (icc_roundtrip [1, 2, 3] (by decide) (by decide) _ _ rfl ?_ ?_).1
    · rw [List.filter_cons_of_neg (by decide), List.filter_eq_self.2]
      exact fun m hm => ((writeLoop_spec _ 1 [1, 2, 3] 1 (by decide) (by decide) (by decide) (by decide)).2.1 m hm).2.1
    · simp [writeLoop, iccId, numMarkers]⟩

end Verif.Icc
