/-
Bit lists (most significant bit first) and bytes: the vocabulary in which the bit-level
specifications are stated.  Nothing here models code.
-/

namespace Verif

/-- The `n` low bits of `v`, most significant first. -/
def toBits (n v : Nat) : List Bool := (List.range n).map (fun i => v.testBit (n - 1 - i))

/-- The number denoted by a bit list, most significant bit first. -/
def ofBits (l : List Bool) : Nat := l.foldl (fun a b => 2 * a + b.toNat) 0

/-- All the bits of a byte list, each byte most significant bit first. -/
def bitsOfBytes (bs : List Nat) : List Bool := bs.flatMap (toBits 8)

/-- Every element is a byte. -/
def IsBytes (bs : List Nat) : Prop := ∀ b ∈ bs, b < 256

@[simp] theorem toBits_zero (v : Nat) : toBits 0 v = [] := rfl

@[simp] theorem length_toBits (n v : Nat) : (toBits n v).length = n := by simp [toBits]

theorem getElem_toBits (n v i : Nat) (h : i < (toBits n v).length) :
    (toBits n v)[i] = v.testBit (n - 1 - i) := by simp [toBits]

theorem toBits_congr {n v w : Nat} (h : ∀ i < n, v.testBit i = w.testBit i) :
    toBits n v = toBits n w := by
  apply List.ext_getElem
  · simp
  · intro i h1 h2
    rw [getElem_toBits, getElem_toBits]
    simp at h1
    exact h _ (by omega)

theorem toBits_mod (n v m : Nat) (h : n ≤ m) : toBits n (v % 2 ^ m) = toBits n v := by
  apply toBits_congr
  intro i hi
  rw [Nat.testBit_mod_two_pow]
  have : i < m := by omega
  simp [this]

/-- Splitting: the `m+n` low bits of `v` are the `m` bits above position `n`, then the `n` low bits. -/
theorem toBits_add (m n v : Nat) : toBits (m + n) v = toBits m (v >>> n) ++ toBits n v := by
  apply List.ext_getElem
  · simp
  · intro i h1 h2
    simp only [getElem_toBits, List.getElem_append, length_toBits]
    simp at h1
    split
    · rw [Nat.testBit_shiftRight]; congr 1; omega
    · congr 1; omega

theorem toBits_succ (n v : Nat) : toBits (n + 1) v = v.testBit n :: toBits n v := by
  rw [Nat.add_comm, toBits_add]
  have : toBits 1 (v >>> n) = [v.testBit n] := by
    apply List.ext_getElem
    · simp
    · intro i h1 h2
      simp at h1
      subst h1
      simp [getElem_toBits, Nat.testBit_shiftRight]
  simp [this]

/-- Concatenation of fields. -/
theorem toBits_concat (m n a b : Nat) (hb : b < 2 ^ n) :
    toBits (m + n) (a * 2 ^ n + b) = toBits m a ++ toBits n b := by
  rw [toBits_add]
  congr 1
  · congr 1
    rw [Nat.shiftRight_eq_div_pow, Nat.mul_comm, Nat.mul_add_div (Nat.two_pow_pos n),
      Nat.div_eq_of_lt hb]
    simp
  · rw [← toBits_mod n (a * 2 ^ n + b) n (Nat.le_refl n)]
    congr 1
    rw [Nat.mul_comm, Nat.mul_add_mod, Nat.mod_eq_of_lt hb]

theorem foldl_ofBits (l : List Bool) (a : Nat) :
    l.foldl (fun a b => 2 * a + b.toNat) a = a * 2 ^ l.length + ofBits l := by
  induction l generalizing a with
  | nil => simp [ofBits]
  | cons b l ih =>
    simp only [List.foldl_cons, List.length_cons, ofBits]
    rw [ih, ih (2 * 0 + b.toNat)]
    simp only [Nat.pow_succ, Nat.add_mul]
    simp [Nat.mul_comm, Nat.mul_assoc]
    omega

theorem ofBits_cons (b : Bool) (l : List Bool) :
    ofBits (b :: l) = b.toNat * 2 ^ l.length + ofBits l := by
  have := foldl_ofBits l (2 * 0 + b.toNat)
  simp [ofBits] at *
  exact this

theorem ofBits_append (l r : List Bool) :
    ofBits (l ++ r) = ofBits l * 2 ^ r.length + ofBits r := by
  have := foldl_ofBits r (ofBits l)
  simp [ofBits, List.foldl_append] at *
  exact this

@[simp] theorem ofBits_nil : ofBits [] = 0 := rfl

theorem ofBits_lt (l : List Bool) : ofBits l < 2 ^ l.length := by
  induction l with
  | nil => simp
  | cons b l ih =>
    rw [ofBits_cons, List.length_cons, Nat.pow_succ]
    cases b <;> simp <;> omega

theorem ofBits_toBits (n v : Nat) : ofBits (toBits n v) = v % 2 ^ n := by
  induction n with
  | zero => simp [Nat.mod_one]
  | succ n ih =>
    rw [toBits_succ, ofBits_cons, ih, length_toBits, Nat.toNat_testBit,
      Nat.pow_succ, Nat.mod_mul, Nat.mul_comm]
    omega

theorem toBits_ofBits (l : List Bool) : toBits l.length (ofBits l) = l := by
  induction l with
  | nil => rfl
  | cons b l ih =>
    rw [List.length_cons, toBits_succ, ofBits_cons]
    have hlt := ofBits_lt l
    congr 1
    · rw [Nat.testBit_eq_decide_div_mod_eq, Nat.mul_comm, Nat.mul_add_div (Nat.two_pow_pos _),
        Nat.div_eq_of_lt hlt]
      cases b <;> simp
    · rw [← toBits_mod l.length _ l.length (Nat.le_refl _), Nat.mul_comm, Nat.mul_add_mod,
        Nat.mod_eq_of_lt hlt, ih]

theorem toBits_inj {n v w : Nat} (hv : v < 2 ^ n) (hw : w < 2 ^ n) (h : toBits n v = toBits n w) :
    v = w := by
  have := congrArg ofBits h
  rwa [ofBits_toBits, ofBits_toBits, Nat.mod_eq_of_lt hv, Nat.mod_eq_of_lt hw] at this

@[simp] theorem bitsOfBytes_nil : bitsOfBytes [] = [] := rfl
@[simp] theorem bitsOfBytes_cons (b : Nat) (bs : List Nat) :
    bitsOfBytes (b :: bs) = toBits 8 b ++ bitsOfBytes bs := by simp [bitsOfBytes]
@[simp] theorem bitsOfBytes_append (a b : List Nat) :
    bitsOfBytes (a ++ b) = bitsOfBytes a ++ bitsOfBytes b := by simp [bitsOfBytes]

theorem length_bitsOfBytes (bs : List Nat) : (bitsOfBytes bs).length = 8 * bs.length := by
  induction bs with
  | nil => rfl
  | cons b bs ih => simp [ih]; omega

@[simp] theorem isBytes_nil : IsBytes [] := by simp [IsBytes]
theorem isBytes_cons {b : Nat} {bs : List Nat} : IsBytes (b :: bs) ↔ b < 256 ∧ IsBytes bs := by
  simp [IsBytes]
theorem isBytes_append {a b : List Nat} : IsBytes (a ++ b) ↔ IsBytes a ∧ IsBytes b := by
  simp [IsBytes, or_imp, forall_and]

/-- Appending a `size`-bit field to a bit buffer by shift-and-or. -/
theorem testBit_shl_or {pb s code j : Nat} (hc : code < 2 ^ s) :
    ((pb <<< s) ||| code).testBit j = if j < s then code.testBit j else pb.testBit (j - s) := by
  rw [Nat.testBit_or, Nat.testBit_shiftLeft]
  split
  · rename_i h
    have : ¬ s ≤ j := by omega
    simp [this]
  · rename_i h
    have hle : s ≤ j := by omega
    have : code.testBit j = false :=
      Nat.testBit_lt_two_pow (Nat.lt_of_lt_of_le hc (Nat.pow_le_pow_right (by omega) hle))
    simp [hle, this]

theorem shl_or_eq {pb s code : Nat} (hc : code < 2 ^ s) :
    (pb <<< s) ||| code = pb * 2 ^ s + code := by
  rw [← Nat.shiftLeft_add_eq_or_of_lt hc, Nat.shiftLeft_eq]

end Verif
