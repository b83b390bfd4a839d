import Verif.Common.Bits
/-
Specification of entropy-coded segments (independent of any code): which data bytes a byte string
carries before its first marker (T.81 B.1.1.5: FF 00 is a data byte FF, FF.. x is marker x).
-/
namespace Verif.Huff

/-- The data bytes before the first marker. `ff` = the previous byte was an 0xFF still undecided. -/
def unstuff : Bool → List Nat → List Nat
  | _, [] => []
  | false, c :: rest => if c = 0xFF then unstuff true rest else c :: unstuff false rest
  | true, c :: rest =>
    if c = 0xFF then unstuff true rest
    else if c = 0 then 0xFF :: unstuff false rest
    else []

/-- The first marker and what follows it. -/
def segTail : Bool → List Nat → Option (Nat × List Nat)
  | _, [] => none
  | false, c :: rest => if c = 0xFF then segTail true rest else segTail false rest
  | true, c :: rest =>
    if c = 0xFF then segTail true rest
    else if c = 0 then segTail false rest
    else some (c, rest)

/-- Byte stuffing: a zero byte after every FF (T.81 F.1.2.3). -/
def stuff (bs : List Nat) : List Nat := bs.flatMap (fun b => if b = 0xFF then [0xFF, 0] else [b])

/-- Pad a bit string with 1-bits to a whole number of bytes. -/
def padOnes (l : List Bool) : List Bool := l ++ List.replicate ((8 - l.length % 8) % 8) true

/-- Cut a bit string into bytes. -/
def bytesOfBits (l : List Bool) : List Nat :=
  (List.range (l.length / 8)).map (fun i => ofBits ((l.drop (8 * i)).take 8))

/-- A complete entropy-coded segment carrying the bit string `l`. -/
def segment (l : List Bool) : List Nat := stuff (bytesOfBits (padOnes l))

@[simp] theorem stuff_nil : stuff [] = [] := rfl
@[simp] theorem stuff_append (a b : List Nat) : stuff (a ++ b) = stuff a ++ stuff b := by
  simp [stuff]
theorem stuff_cons (b : Nat) (bs : List Nat) :
    stuff (b :: bs) = (if b = 0xFF then [0xFF, 0] else [b]) ++ stuff bs := by simp [stuff]

theorem unstuff_stuff_append (bs rest : List Nat) :
    unstuff false (stuff bs ++ rest) = bs ++ unstuff false rest := by
  induction bs with
  | nil => simp
  | cons b bs ih =>
    rw [stuff_cons]
    split
    · rename_i h; subst h; simp [unstuff, ih]
    · rename_i h; simp [unstuff, ih, h]

theorem segTail_stuff_append (bs rest : List Nat) :
    segTail false (stuff bs ++ rest) = segTail false rest := by
  induction bs with
  | nil => simp
  | cons b bs ih =>
    rw [stuff_cons]
    split
    · rename_i h; subst h; simp [segTail, ih]
    · rename_i h; simp [segTail, ih, h]

theorem length_bytesOfBits (l : List Bool) : (bytesOfBits l).length = l.length / 8 := by
  simp [bytesOfBits]

theorem isBytes_bytesOfBits (l : List Bool) : IsBytes (bytesOfBits l) := by
  intro b hb
  simp only [bytesOfBits, List.mem_map, List.mem_range] at hb
  obtain ⟨i, hi, rfl⟩ := hb
  refine Nat.lt_of_lt_of_le (ofBits_lt _) ?_
  simp only [List.length_take, List.length_drop]
  calc 2 ^ _ ≤ 2 ^ 8 := Nat.pow_le_pow_right (by omega) (Nat.min_le_left _ _)
    _ = 256 := by decide

theorem bytesOfBits_cons8 (a l : List Bool) (ha : a.length = 8) :
    bytesOfBits (a ++ l) = ofBits a :: bytesOfBits l := by
  simp only [bytesOfBits, List.length_append, ha]
  rw [show (8 + l.length) / 8 = l.length / 8 + 1 by omega, List.range_succ_eq_map]
  simp only [List.map_cons, List.map_map]
  congr 1
  · simp [← ha]
  · apply List.map_congr_left
    intro i _
    simp only [Function.comp]
    congr 2
    rw [show 8 * i.succ = 8 + 8 * i by omega, ← List.drop_drop, ← ha, List.drop_left]

theorem bytesOfBits_nil : bytesOfBits [] = [] := rfl

theorem bitsOfBytes_bytesOfBits (l : List Bool) (h : l.length % 8 = 0) :
    bitsOfBytes (bytesOfBits l) = l := by
  generalize hn : l.length / 8 = n
  induction n generalizing l with
  | zero =>
    have : l = [] := List.length_eq_zero_iff.1 (by omega)
    subst this; rfl
  | succ n ih =>
    have h8 : (l.take 8).length = 8 := by simp; omega
    have := bytesOfBits_cons8 (l.take 8) (l.drop 8) h8
    rw [List.take_append_drop] at this
    rw [this, bitsOfBytes_cons, ih (l.drop 8) (by simp; omega) (by simp; omega)]
    have h2 := toBits_ofBits (l.take 8)
    rw [h8] at h2
    rw [h2, List.take_append_drop]

theorem bytesOfBits_bitsOfBytes (bs : List Nat) (h : IsBytes bs) :
    bytesOfBits (bitsOfBytes bs) = bs := by
  induction bs with
  | nil => rfl
  | cons b bs ih =>
    rw [isBytes_cons] at h
    rw [bitsOfBytes_cons, bytesOfBits_cons8 _ _ (by simp), ih h.2, ofBits_toBits,
      Nat.mod_eq_of_lt h.1]

theorem bytesOfBits_append8 (a l : List Bool) (ha : a.length % 8 = 0) :
    bytesOfBits (a ++ l) = bytesOfBits a ++ bytesOfBits l := by
  generalize hn : a.length / 8 = n
  induction n generalizing a with
  | zero =>
    have : a = [] := List.length_eq_zero_iff.1 (by omega)
    subst this; simp [bytesOfBits_nil]
  | succ n ih =>
    have h8 : (a.take 8).length = 8 := by simp; omega
    have e1 := bytesOfBits_cons8 (a.take 8) (a.drop 8) h8
    have e2 := bytesOfBits_cons8 (a.take 8) (a.drop 8 ++ l) h8
    rw [List.take_append_drop] at e1
    rw [← List.append_assoc, List.take_append_drop] at e2
    rw [e2, e1, ih (a.drop 8) (by simp; omega) (by simp; omega)]
    rfl

theorem length_padOnes (l : List Bool) : (padOnes l).length % 8 = 0 := by
  simp [padOnes]; omega

/-- Reading a segment followed by a marker gives back its bits (padded), then the marker. -/
theorem unstuff_segment (l : List Bool) (m : Nat) (rest : List Nat) (hm0 : m ≠ 0) (hm : m ≠ 0xFF) :
    bitsOfBytes (unstuff false (segment l ++ 0xFF :: m :: rest)) = padOnes l ∧
    segTail false (segment l ++ 0xFF :: m :: rest) = some (m, rest) := by
  constructor
  · rw [segment, unstuff_stuff_append]
    simp [unstuff, hm0, hm, bitsOfBytes_bytesOfBits _ (length_padOnes l)]
  · rw [segment, segTail_stuff_append]
    simp [segTail, hm0, hm]

theorem isBytes_stuff {bs : List Nat} (h : IsBytes bs) : IsBytes (stuff bs) := by
  induction bs with
  | nil => simp
  | cons b bs ih =>
    rw [isBytes_cons] at h
    rw [stuff_cons, isBytes_append]
    refine ⟨?_, ih h.2⟩
    split
    · simp [IsBytes]
    · simp [IsBytes, h.1]

theorem isBytes_segment (l : List Bool) : IsBytes (segment l) :=
  isBytes_stuff (isBytes_bytesOfBits _)

end Verif.Huff
