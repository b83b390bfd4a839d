import Verif.Gif.Codes
import Verif.Gif.Rows
/-
The LZW decoder of the GIF reader computes the strings of LZW with variable code width.
-/
namespace Verif.Gif

/-- Specification: the width of a code if `next` is the first code that is not yet defined. -/
def width (next : Nat) : Nat := min 12 (Nat.log2 next + 1)

/-- Specification: the text of at most `n` codes, cut from the lowest of `L` bits of value `R`. Codes below 2^ics stand for themselves, 2^ics
is Clear, 2^ics + 1 is End, and the following ones stand for the strings of `dict`. `prev` is the text of the code before, if there was one since
Clear. Each code but the first after Clear defines a string: the text before and one more colour, the first of this code's text; at most
4096 codes are defined. The text ends at End, at a code that is not defined, and where bits are missing. -/
def strings (ics : Nat) : Nat → Nat → Nat → List (List Nat) → Option (List Nat) → List Nat
  | 0, _, _, _, _ => []
  | n + 1, R, L, dict, prev =>
    let next := 2 ^ ics + 2 + dict.length
    let w := width next
    let c := R % 2 ^ w
    if L < w then []
    else if c = 2 ^ ics then strings ics n (R / 2 ^ w) (L - w) [] none
    else match prev with
      | none => if c < 2 ^ ics then c :: strings ics n (R / 2 ^ w) (L - w) [] (some [c]) else []
      | some p =>
        match (if c < 2 ^ ics then some [c] else if c = 2 ^ ics + 1 then none
               else if c = next then some (p ++ p.take 1) else dict[c - (2 ^ ics + 2)]?) with
        | none => []
        | some str => str ++ strings ics n (R / 2 ^ w) (L - w) (if next < 4096 then dict ++ [p ++ str.take 1] else dict) (some str)

/-- The text of a code, according to the tables. -/
inductive Str (clear : Nat) (head tail : List Nat) : Nat → List Nat → Prop
  | leaf (c : Nat) : c < clear → Str clear head tail c [c]
  | node (k h t : Nat) (s : List Nat) : clear + 2 ≤ k → h < k → t < clear → head[k]? = some h → tail[k]? = some t → Str clear head tail h s →
      Str clear head tail k (s ++ [t])

theorem Str.first {clear : Nat} {head tail : List Nat} {k : Nat} {s : List Nat} (h : Str clear head tail k s) :
    ∃ c r, s = c :: r ∧ c < clear := by
  induction h with
  | leaf c hc => exact ⟨c, [], rfl, hc⟩
  | node k h t s _ _ _ _ _ _ ih =>
    obtain ⟨c, r, e, hc⟩ := ih
    exact ⟨c, r ++ [t], by rw [e]; rfl, hc⟩

theorem Str.frame {clear : Nat} {head tail : List Nat} {k : Nat} {s : List Nat} (h : Str clear head tail k s) (m x y : Nat) (hk : k < m) :
    Str clear (head.set m x) (tail.set m y) k s := by
  induction h with
  | leaf c hc => exact Str.leaf c hc
  | node k h t s h1 h2 h3 h4 h5 _ ih =>
    exact Str.node k h t s h1 h2 h3 (by rw [List.getElem?_set_ne (by omega)]; exact h4) (by rw [List.getElem?_set_ne (by omega)]; exact h5) (ih (by omega))

theorem expand_spec {clear : Nat} {head tail : List Nat} {k : Nat} {s : List Nat} (h : Str clear head tail k s) (hcl : clear ≤ 256) :
    ∀ (room : Nat) (stack : List Nat), k < room + clear → stack.length + k ≤ 4096 + clear →
      ∃ c r, s = c :: r ∧ expand clear head tail room k stack = .ok (c, r ++ stack) := by
  induction h with
  | leaf c hc =>
    intro room stack _ _
    refine ⟨c, [], rfl, ?_⟩
    cases room with
    | zero => unfold expand; rw [if_neg (by omega)]; rfl
    | succ room => unfold expand; rw [if_neg (by omega)]; rfl
  | node k h t s h1 h2 h3 h4 h5 _ ih =>
    intro room stack hr hs
    cases room with
    | zero => omega
    | succ room =>
      obtain ⟨c, r, e1, e2⟩ := ih room (t :: stack) (by omega) (by simp only [List.length_cons]; omega)
      refine ⟨c, r ++ [t], by rw [e1]; rfl, ?_⟩
      unfold expand
      rw [if_pos (by omega)]
      have hpush : push t stack = .ok (t :: stack) := by
        unfold push; rw [if_pos (by omega), Nat.mod_eq_of_lt (by omega)]
      simp only [at?, h5, h4, hpush, bind, Except.bind]
      rw [e2]; simp

/-- The tables are those of `dict`, the code before is that of `p`. -/
structure Core (st : Lzw) (dict : List (List Nat)) (p : List Nat) : Prop where
  next : st.maxCode = st.clear + 2 + dict.length
  size : st.size = width st.maxCode
  limit : st.limit = 2 ^ st.size
  strs : ∀ i s, dict[i]? = some s → Str st.clear st.head st.tail (st.clear + 2 + i) s
  old : Str st.clear st.head st.tail st.old p
  firstc : p.take 1 = [st.firstc]

theorem width_succ (m : Nat) (hm : m ≠ 0) :
    width (m + 1) = if m + 1 ≥ 2 ^ width m ∧ width m < 12 then width m + 1 else width m := by
  unfold width
  have h1 := Nat.log2_self_le hm
  have h2 := Nat.lt_log2_self (n := m)
  have h3 : ∀ k, k ≤ (m + 1).log2 ↔ 2 ^ k ≤ m + 1 := fun k => Nat.le_log2 (by omega)
  have hge : m.log2 ≤ (m + 1).log2 := (h3 _).2 (by omega)
  have hpow : 2 ^ (m.log2 + 1 + 1) = 2 * 2 ^ (m.log2 + 1) := by rw [Nat.pow_succ]; ring
  have hle : (m + 1).log2 ≤ m.log2 + 1 := by
    by_contra hc
    have := (h3 (m.log2 + 1 + 1)).1 (by omega)
    have := Nat.two_pow_pos (m.log2 + 1)
    omega
  by_cases hw : m.log2 + 1 < 12
  · rw [Nat.min_eq_right (by omega : m.log2 + 1 ≤ 12)]
    have := h3 (m.log2 + 1)
    split
    · rename_i hg; have := this.2 hg.1; omega
    · rename_i hg
      have : ¬ m.log2 + 1 ≤ (m + 1).log2 := fun h => hg ⟨this.1 h, hw⟩
      omega
  · rw [Nat.min_eq_left (by omega : 12 ≤ m.log2 + 1), if_neg (by omega)]
    omega

theorem width_le (m : Nat) : 1 ≤ width m ∧ width m ≤ 12 := by unfold width; omega

theorem Core.valid {st : Lzw} {dict : List (List Nat)} {p : List Nat} (h : Core st dict p) (ok : LzwOk st) (hf : st.bits.first = false) :
    Valid st.clear st.maxCode st.old ∧ st.firstc < st.clear := by
  rcases ok.old with ⟨g, -⟩ | ⟨-, g⟩
  · rw [hf] at g; cases g
  · exact g

/-- One code. -/
theorem symbol_spec (st : Lzw) (dict : List (List Nat)) (p : List Nat) (h : Core st dict p) (ok : LzwOk st) (hs : st.stack = [])
    (hf : st.bits.first = false) (code : Nat) (str : List Nat) (hc : code < 4096)
    (hstr : code < st.clear ∧ str = [code] ∨ st.clear + 2 ≤ code ∧ dict[code - (st.clear + 2)]? = some str ∨
      code = st.maxCode ∧ str = p ++ p.take 1) :
    ∃ c r st', symbol st code = .ok (c, st') ∧ str = c :: r ∧ st'.stack = r ∧ st'.bits = st.bits ∧ st'.ics = st.ics ∧ LzwOk st' ∧
      Core st' (if st.maxCode < 4096 then dict ++ [p ++ str.take 1] else dict) str := by
  have hcl : st.clear ≤ 256 := clear_le ok.ics.2
  have hcp : 0 < st.clear := by exact Nat.two_pow_pos _
  obtain ⟨hold, hfc⟩ := h.valid ok hf
  have hmax := ok.max
  have hold' : st.old < st.maxCode ∧ st.old < 4096 := by rcases hold with g | ⟨-, g⟩ <;> omega
  have hsafe := symbol_safe st ok code hc (by
    rcases hstr with ⟨g, -⟩ | ⟨g, -⟩ | ⟨g, -⟩
    · exact Or.inl g
    · exact Or.inr g
    · right; have := h.next; omega) hs ⟨hold, hfc⟩ hf
  -- the expansion
  have hexp : ∃ c r, str = c :: r ∧ c < st.clear ∧
      (do let (cd, stack) ← (if code ≥ st.maxCode then do
            let stack ← push st.firstc st.stack
            pure (st.old, stack)
          else pure (code, st.stack))
          expand st.clear st.head st.tail 4097 cd stack : R (Nat × List Nat)) = .ok (c, r) := by
    rcases hstr with ⟨g1, g2⟩ | ⟨g1, g2⟩ | ⟨g1, g2⟩
    · subst g2
      obtain ⟨c, r, e1, e2⟩ := expand_spec (Str.leaf (head := st.head) (tail := st.tail) code g1) hcl 4097 [] (by omega) (by simp; omega)
      refine ⟨c, r, e1, ?_, ?_⟩
      · cases e1; exact g1
      · rw [if_neg (by omega), hs]
        simp only [bind, Except.bind, pure, Except.pure]
        rw [e2, List.append_nil]
    · have hlt : code - (st.clear + 2) < dict.length := by
        by_contra hcn
        rw [List.getElem?_eq_none (by omega)] at g2
        cases g2
      have hS := h.strs _ _ g2
      rw [show st.clear + 2 + (code - (st.clear + 2)) = code by omega] at hS
      obtain ⟨c, r, e1, e2⟩ := expand_spec hS hcl 4097 [] (by omega) (by simp; omega)
      obtain ⟨c', r', e3, e4⟩ := hS.first
      refine ⟨c, r, e1, ?_, ?_⟩
      · rw [e1] at e3; cases e3; exact e4
      · have := h.next
        rw [if_neg (by omega), hs]
        simp only [bind, Except.bind, pure, Except.pure]
        rw [e2, List.append_nil]
    · obtain ⟨c, r, e1, e2⟩ := expand_spec h.old hcl 4097 [st.firstc] (by omega) (by simp; omega)
      obtain ⟨c', r', e3, e4⟩ := h.old.first
      refine ⟨c, r ++ [st.firstc], ?_, ?_, ?_⟩
      · rw [g2, h.firstc, e1]; rfl
      · rw [e1] at e3; cases e3; exact e4
      · rw [if_pos (by omega), hs]
        simp only [push, List.length_nil]
        rw [if_pos (by decide), Nat.mod_eq_of_lt (by omega)]
        simp only [bind, Except.bind, pure, Except.pure]
        rw [e2]
  obtain ⟨c, r, e1, e2, e3⟩ := hexp
  have htake : str.take 1 = [c] := by rw [e1]; rfl
  by_cases hm : st.maxCode < 4096
  · -- a new string
    have hsym : symbol st code = .ok (c, { st with
        firstc := c, stack := r, head := st.head.set st.maxCode st.old, tail := st.tail.set st.maxCode c, maxCode := st.maxCode + 1,
        size := if decide (st.maxCode + 1 ≥ st.limit) && decide (st.size < 12) then st.size + 1 else st.size,
        limit := if decide (st.maxCode + 1 ≥ st.limit) && decide (st.size < 12) then st.limit * 2 else st.limit,
        old := if code > st.maxCode then 0 else code }) := by
      unfold symbol
      simp only [bind, Except.bind, pure, Except.pure] at e3 ⊢
      split at e3
      · cases e3
      · rename_i v hv
        rw [e3]
        simp only []
        rw [if_pos hm]
        unfold put
        rw [if_pos (by rw [ok.head]; exact hm)]
        simp only []
        rw [if_pos (by rw [ok.tail]; exact hm), Nat.mod_eq_of_lt (by omega : st.old < 65536), Nat.mod_eq_of_lt (by omega : c < 256)]
    refine ⟨c, r, _, hsym, e1, rfl, rfl, rfl, ?_, ?_⟩
    · rw [hsym] at hsafe; exact hsafe.2.1
    · have hnew : Str st.clear (st.head.set st.maxCode st.old) (st.tail.set st.maxCode c) st.maxCode (p ++ [c]) :=
        Str.node _ st.old c p hmax.1 hold'.1 e2 (List.getElem?_set_self (by rw [ok.head]; exact hm))
          (List.getElem?_set_self (by rw [ok.tail]; exact hm)) (h.old.frame _ _ _ hold'.1)
      have hnext := h.next
      rw [if_pos hm, htake]
      have hcode : (if code > st.maxCode then 0 else code) = code := by
        rw [if_neg]
        rcases hstr with ⟨g, -⟩ | ⟨g1, g2⟩ | ⟨g, -⟩
        · omega
        · have hlt : code - (st.clear + 2) < dict.length := by
            by_contra hcn
            rw [List.getElem?_eq_none (by omega)] at g2
            cases g2
          omega
        · omega
      refine ⟨?_, ?_, ?_, ?_, ?_, ?_⟩
      · show st.maxCode + 1 = st.clear + 2 + (dict ++ [p ++ [c]]).length
        rw [List.length_append, List.length_singleton]; omega
      · show (if decide (st.maxCode + 1 ≥ st.limit) && decide (st.size < 12) then st.size + 1 else st.size) = width (st.maxCode + 1)
        rw [width_succ _ (by omega), ← h.size, h.limit]
        simp only [Bool.and_eq_true, decide_eq_true_eq]
      · show (if decide (st.maxCode + 1 ≥ st.limit) && decide (st.size < 12) then st.limit * 2 else st.limit) =
          2 ^ (if decide (st.maxCode + 1 ≥ st.limit) && decide (st.size < 12) then st.size + 1 else st.size)
        split
        · rw [Nat.pow_succ, h.limit]
        · exact h.limit
      · intro i s hi
        show Str st.clear (st.head.set st.maxCode st.old) (st.tail.set st.maxCode c) (st.clear + 2 + i) s
        by_cases hil : i < dict.length
        · rw [List.getElem?_append_left hil] at hi
          exact (h.strs i s hi).frame _ _ _ (by omega)
        · rw [List.getElem?_append_right (by omega)] at hi
          have hi0 : i - dict.length = 0 := by
            by_contra hcn
            rw [List.getElem?_eq_none (by simp; omega)] at hi
            cases hi
          rw [hi0] at hi
          cases hi
          rw [show st.clear + 2 + i = st.maxCode by omega]
          exact hnew
      · show Str st.clear (st.head.set st.maxCode st.old) (st.tail.set st.maxCode c) (if code > st.maxCode then 0 else code) str
        rw [hcode]
        rcases hstr with ⟨g1, g2⟩ | ⟨g1, g2⟩ | ⟨g1, g2⟩
        · rw [g2]; exact Str.leaf _ g1
        · have hlt : code - (st.clear + 2) < dict.length := by
            by_contra hcn
            rw [List.getElem?_eq_none (by omega)] at g2
            cases g2
          have := (h.strs _ _ g2).frame st.maxCode st.old c (by omega)
          rwa [show st.clear + 2 + (code - (st.clear + 2)) = code by omega] at this
        · have : str = p ++ [c] := by
            have hh := h.firstc
            obtain ⟨c', r', e4, -⟩ := h.old.first
            rw [e4] at hh
            have hh' : c' = st.firstc := by simpa using hh
            rw [g2, h.firstc, e4, List.cons_append] at e1
            have h5 : c' = c := (List.cons.inj e1).1
            rw [g2, h.firstc, ← hh', h5]
          rw [this, g1]; exact hnew
      · show str.take 1 = [c]
        exact htake
  · -- the table is full
    have hsym : symbol st code = .ok (c, { st with firstc := c, stack := r, old := if code > st.maxCode then 0 else code }) := by
      unfold symbol
      simp only [bind, Except.bind, pure, Except.pure] at e3 ⊢
      split at e3
      · cases e3
      · rename_i v hv
        rw [e3]
        simp only []
        rw [if_neg hm]
    refine ⟨c, r, _, hsym, e1, rfl, rfl, rfl, ?_, ?_⟩
    · rw [hsym] at hsafe; exact hsafe.2.1
    · rw [if_neg hm]
      refine ⟨h.next, h.size, h.limit, h.strs, ?_, htake⟩
      show Str st.clear st.head st.tail (if code > st.maxCode then 0 else code) str
      rw [if_neg (by omega)]
      rcases hstr with ⟨g1, g2⟩ | ⟨g1, g2⟩ | ⟨g1, g2⟩
      · rw [g2]; exact Str.leaf _ g1
      · have := h.strs _ _ g2
        rwa [show st.clear + 2 + (code - (st.clear + 2)) = code by omega] at this
      · omega

end Verif.Gif
