import Mathlib.Data.List.Induction
/-
Model of the memory and stdio data destinations (jdatadst.c) with an explicit heap, and property C12.
-/
namespace Verif.IO

/-! ## Heap -/

/-- A heap: blocks by address (address 0 is never used: it is NULL); a byte never written is `none`. `fresh` is the
next address `malloc` returns, so addresses are not reused and every use after free or double free is visible. -/
structure Heap where
  live : Nat → Option (List (Option Nat))
  fresh : Nat

/-- Reasons for stopping: a C memory error (must never happen) or a library error exit. -/
inductive Stop where
  | fault (what : String)
  | outOfMemory
  | badParam
deriving DecidableEq, Repr

abbrev R := Except Stop

def Heap.set (h : Heap) (p : Nat) (v : Option (List (Option Nat))) : Heap :=
  { h with live := fun q => if q = p then v else h.live q }

/-- `malloc(n)`; `ok` says whether the call succeeds. -/
def malloc (ok : Nat → Bool) (h : Heap) (n : Nat) : Option (Heap × Nat) :=
  if ok h.fresh then some ({ (h.set h.fresh (some (List.replicate n none))) with fresh := h.fresh + 1 }, h.fresh)
  else none

/-- `free(p)`: NULL is ignored; freeing a block that is not live is a fault. -/
def free (h : Heap) (p : Nat) : R Heap :=
  if p = 0 then .ok h
  else match h.live p with
    | none => .error (.fault "free")
    | some _ => .ok (h.set p none)

/-- `p[i] = v`. -/
def store (h : Heap) (p i v : Nat) : R Heap :=
  match h.live p with
  | none => .error (.fault "store: dead block")
  | some l => if i < l.length then .ok (h.set p (some (l.set i (some v)))) else .error (.fault "store: overrun")

/-- `memcpy(dst, src, n)` between distinct live blocks. -/
def memcpy (h : Heap) (dst src n : Nat) : R Heap :=
  match h.live dst, h.live src with
  | some d, some s =>
    if n ≤ d.length ∧ n ≤ s.length then .ok (h.set dst (some (s.take n ++ d.drop n)))
    else .error (.fault "memcpy: overrun")
  | _, _ => .error (.fault "memcpy: dead block")

/-! ## Memory destination -/

/-- my_mem_destination_mgr (jdatadst.c:44-52) and the caller's two variables `*outbuffer`, `*outsize`.
`next_output_byte` is the offset `next` into block `buffer`. -/
structure MemDest where
  heap : Heap
  outbuffer : Nat
  outsize : Nat
  newbuffer : Nat
  buffer : Nat
  bufsize : Nat
  next : Nat
  free : Nat

/-- `jpeg_mem_dest_internal` (jdatadst.c:237-278), for non-NULL argument pointers. -/
def memDestInit (ok : Nat → Bool) (h : Heap) (outbuffer outsize : Nat) : R MemDest :=
  if outbuffer = 0 ∨ outsize = 0 then
    match malloc ok h 4096 with
    | none => .error .outOfMemory
    | some (h, p) => .ok { heap := h, outbuffer := p, outsize := 4096, newbuffer := p, buffer := p, bufsize := 4096,
                           next := 0, free := 4096 }
  else .ok { heap := h, outbuffer := outbuffer, outsize := outsize, newbuffer := 0, buffer := outbuffer,
             bufsize := outsize, next := 0, free := outsize }

/-- `empty_mem_output_buffer` (jdatadst.c:121-148); `size_t` arithmetic modulo 2^64. -/
def emptyMem (ok : Nat → Bool) (d : MemDest) : R MemDest :=
  let nextsize := d.bufsize * 2 % 2 ^ 64
  match malloc ok d.heap nextsize with
  | none => .error .outOfMemory
  | some (h, nb) => do
    let h ← memcpy h nb d.buffer d.bufsize
    let h ← Verif.IO.free h d.newbuffer
    .ok { d with heap := h, newbuffer := nb, next := d.bufsize, free := d.bufsize, buffer := nb, bufsize := nextsize }

/-- `emit_byte` (jcmarker.c:136-146): the protocol by which every byte is handed to a destination. -/
def emitByteMem (ok : Nat → Bool) (d : MemDest) (b : Nat) : R MemDest := do
  let h ← store d.heap d.buffer d.next b
  let d := { d with heap := h, next := d.next + 1, free := d.free - 1 }
  if d.free = 0 then emptyMem ok d else .ok d

def emitBytesMem (ok : Nat → Bool) (d : MemDest) (bs : List Nat) : R MemDest := bs.foldlM (emitByteMem ok) d

/-- `term_mem_destination` (jdatadst.c:177-184). -/
def termMem (d : MemDest) : MemDest := { d with outbuffer := d.buffer, outsize := d.bufsize - d.free }

/-- A whole image: jpeg_mem_dest, the bytes, jpeg_finish_compress. -/
def writeMem (ok : Nat → Bool) (h : Heap) (outbuffer outsize : Nat) (bs : List Nat) : R MemDest := do
  let d ← memDestInit ok h outbuffer outsize
  let d ← emitBytesMem ok d bs
  .ok (termMem d)

/-! ## Stdio destination -/

/-- my_destination_mgr (jdatadst.c:30-35): the file written so far, the 4096-byte buffer, and the two counters. -/
structure FileDest where
  file : List Nat
  buffer : List Nat
  next : Nat
  free : Nat

/-- `init_destination` (jdatadst.c:62-74); the fresh buffer's content is arbitrary. -/
def initFile (junk : List Nat) : FileDest := { file := [], buffer := junk, next := 0, free := 4096 }

/-- `empty_output_buffer` (jdatadst.c:106-119) when fwrite succeeds. -/
def emptyFile (d : FileDest) : FileDest :=
  { d with file := d.file ++ d.buffer.take 4096, next := 0, free := 4096 }

/-- `emit_byte` (jcmarker.c:136-146) on the stdio destination. -/
def emitByteFile (d : FileDest) (b : Nat) : FileDest :=
  let d := { d with buffer := d.buffer.set d.next b, next := d.next + 1, free := d.free - 1 }
  if d.free = 0 then emptyFile d else d

/-- `term_destination` (jdatadst.c:160-175). -/
def termFile (d : FileDest) : List Nat :=
  let datacount := 4096 - d.free
  if datacount > 0 then d.file ++ d.buffer.take datacount else d.file

/-! ## C12 -/

/-- Heap facts the caller guarantees: NULL is not a block, fresh addresses are unused, and the caller's buffer, if
given, is a live block of at least the stated size. -/
structure CallerOk (h : Heap) (p n : Nat) : Prop where
  null : h.live 0 = none
  fresh0 : 0 < h.fresh
  fresh : ∀ q, h.fresh ≤ q → h.live q = none
  buf : p ≠ 0 → n ≠ 0 → ∃ l, h.live p = some l ∧ n ≤ l.length
  size : n < 2 ^ 63

/-- The caller's buffer if the library uses it (0 if it allocates its own). -/
def usedBuf (p n : Nat) : Nat := if p = 0 ∨ n = 0 then 0 else p
/-- The size of the first buffer. -/
def size0 (p n : Nat) : Nat := if p = 0 ∨ n = 0 then 4096 else n

/-- Invariant while bytes are being emitted; `out` is the bytes so far. -/
structure Inv (h0 : Heap) (t n0 : Nat) (out : List Nat) (d : MemDest) : Prop where
  next_eq : d.next = out.length
  free_eq : d.next + d.free = d.bufsize
  free_pos : 0 < d.free
  size_eq : ∃ k, d.bufsize = n0 * 2 ^ k ∧ (k = 0 → d.buffer = t ∨ t = 0) ∧
    (k ≠ 0 → n0 * 2 ^ (k - 1) ≤ out.length ∧ h0.fresh ≤ d.buffer)
  blk : ∃ l, d.heap.live d.buffer = some l ∧ d.bufsize ≤ l.length ∧ l.take out.length = out.map some
  null : d.heap.live 0 = none
  fresh0 : h0.fresh ≤ d.heap.fresh
  fresh : ∀ q, d.heap.fresh ≤ q → d.heap.live q = none
  frame : ∀ q, q ≠ d.buffer → q ≠ t → d.heap.live q = h0.live q
  tlive : t ≠ 0 → ∃ l l0, d.heap.live t = some l ∧ h0.live t = some l0 ∧ l.length = l0.length
  own : (d.buffer = t ∧ d.newbuffer = 0) ∨ (h0.fresh ≤ d.buffer ∧ d.newbuffer = d.buffer)

theorem init_inv {ok : Nat → Bool} {h : Heap} {p n : Nat} (H : CallerOk h p n) :
    (∃ d, memDestInit ok h p n = .ok d ∧ Inv h (usedBuf p n) (size0 p n) [] d) ∨
      (memDestInit ok h p n = .error .outOfMemory ∧ ∃ a, ok a = false) := by
  unfold memDestInit usedBuf size0
  by_cases hc : p = 0 ∨ n = 0
  · rw [if_pos hc, if_pos hc, if_pos hc]
    unfold malloc
    by_cases hok : ok h.fresh
    · left
      rw [if_pos hok]
      refine ⟨_, rfl, ?_⟩
      have hf := H.fresh0
      constructor
      · rfl
      · rfl
      · simp
      · exact ⟨0, by simp, fun _ => Or.inr rfl, fun h => absurd rfl h⟩
      · refine ⟨List.replicate 4096 none, ?_, ?_, ?_⟩
        · show (if h.fresh = h.fresh then _ else _) = _
          rw [if_pos rfl]
        · rw [List.length_replicate]; exact Nat.le_refl _
        · rfl
      · show (if 0 = h.fresh then _ else h.live 0) = none
        rw [if_neg (by omega)]; exact H.null
      · show h.fresh ≤ h.fresh + 1; omega
      · intro q hq
        have hq' : h.fresh + 1 ≤ q := hq
        show (if q = h.fresh then _ else h.live q) = none
        rw [if_neg (by omega)]; exact H.fresh q (by omega)
      · intro q hq _
        show (if q = h.fresh then _ else h.live q) = h.live q
        exact if_neg hq
      · intro h; exact absurd rfl h
      · right; exact ⟨Nat.le_refl _, rfl⟩
    · right
      rw [if_neg hok]
      exact ⟨rfl, _, by simpa using hok⟩
  · left
    rw [if_neg hc, if_neg hc, if_neg hc]
    have hp : p ≠ 0 := fun h => hc (Or.inl h)
    have hn : n ≠ 0 := fun h => hc (Or.inr h)
    obtain ⟨l, hl, hll⟩ := H.buf hp hn
    refine ⟨_, rfl, ?_⟩
    constructor
    · rfl
    · simp
    · simp only; omega
    · exact ⟨0, by simp, fun _ => Or.inl rfl, fun h => absurd rfl h⟩
    · exact ⟨l, hl, hll, by simp⟩
    · exact H.null
    · exact Nat.le_refl _
    · exact H.fresh
    · intro q _ _; rfl
    · intro _; exact ⟨l, l, hl, hl, rfl⟩
    · left; exact ⟨rfl, rfl⟩

theorem emit_inv {ok : Nat → Bool} {h0 : Heap} {t n0 : Nat} {out : List Nat} {d : MemDest} (b : Nat)
    (hf0 : 0 < h0.fresh) (hfr : ∀ q, h0.fresh ≤ q → h0.live q = none)
    (I : Inv h0 t n0 out d) (hlen : out.length + 1 < 2 ^ 63) :
    (∃ d', emitByteMem ok d b = .ok d' ∧ Inv h0 t n0 (out ++ [b]) d') ∨
      (emitByteMem ok d b = .error .outOfMemory ∧ ∃ a, ok a = false) := by
  obtain ⟨l, hl, hsz, htk⟩ := I.blk
  have hnx := I.next_eq
  have hfe := I.free_eq
  have hfp := I.free_pos
  have hlt : d.next < l.length := by omega
  have htake : (l.set d.next (some b)).take (out.length + 1) = (out ++ [b]).map some := by
    rw [hnx, List.take_add_one, List.take_set_of_le (Nat.le_refl _), htk, List.getElem?_set_self (by omega)]
    simp
  have hbuf0 : d.buffer ≠ 0 := by
    intro h; rw [h, I.null] at hl; cases hl
  have hbfr : d.buffer < d.heap.fresh := by
    rcases Nat.lt_or_ge d.buffer d.heap.fresh with h | h
    · exact h
    · rw [I.fresh _ h] at hl; cases hl
  have htfr : t ≠ 0 → t < h0.fresh := by
    intro ht
    obtain ⟨_, l0, _, h2, _⟩ := I.tlive ht
    rcases Nat.lt_or_ge t h0.fresh with h | h
    · exact h
    · rw [hfr _ h] at h2; cases h2
  have hff := I.fresh0
  unfold emitByteMem store
  rw [hl]
  simp only [if_pos hlt]
  show (∃ d', (if d.free - 1 = 0 then _ else _) = Except.ok d' ∧ _) ∨ ((if d.free - 1 = 0 then _ else _) = _ ∧ _)
  by_cases hz : d.free - 1 = 0
  · rw [if_pos hz]
    have hbs : d.bufsize = out.length + 1 := by omega
    have hwrap : d.bufsize * 2 % 2 ^ 64 = d.bufsize * 2 := Nat.mod_eq_of_lt (by omega)
    unfold emptyMem malloc
    simp only [hwrap]
    by_cases hok : ok (d.heap.set d.buffer (some (l.set d.next (some b)))).fresh
    · left
      rw [if_pos hok]
      have hfs : (d.heap.set d.buffer (some (l.set d.next (some b)))).fresh = d.heap.fresh := rfl
      simp only [hfs]
      unfold memcpy
      have e1 : (Heap.set (Heap.set d.heap d.buffer (some (l.set d.next (some b)))) d.heap.fresh
          (some (List.replicate (d.bufsize * 2) none))).live d.heap.fresh =
          some (List.replicate (d.bufsize * 2) none) := by simp [Heap.set]
      have e2 : (Heap.set (Heap.set d.heap d.buffer (some (l.set d.next (some b)))) d.heap.fresh
          (some (List.replicate (d.bufsize * 2) none))).live d.buffer =
          some (l.set d.next (some b)) := by
        have : d.buffer ≠ d.heap.fresh := by omega
        simp [Heap.set, this]
      simp only [e1, e2]
      rw [if_pos (by simp; omega)]
      simp only [bind, Except.bind]
      -- the new block's contents
      have hnew : (l.set d.next (some b)).take d.bufsize ++ (List.replicate (d.bufsize * 2) (none : Option Nat)).drop
          d.bufsize = (out ++ [b]).map some ++ List.replicate d.bufsize none := by
        rw [hbs, htake]; congr 1; simp; omega
      rw [hnew]
      rcases I.own with ⟨o1, o2⟩ | ⟨o1, o2⟩
      · -- the caller's buffer was in use
        rw [show Verif.IO.free _ d.newbuffer = Except.ok _ from by unfold Verif.IO.free; rw [if_pos o2]]
        refine ⟨_, rfl, ?_⟩
        have ht0 : t ≠ 0 := o1 ▸ hbuf0
        have htf := htfr ht0
        constructor
        · simp [hbs]
        · simp; omega
        · simp only; omega
        · obtain ⟨k, hk, hk0, hk1⟩ := I.size_eq
          refine ⟨k + 1, by simp only; rw [hk, Nat.pow_succ, Nat.mul_assoc], fun h => by omega, fun _ => ?_⟩
          simp only [Nat.add_sub_cancel, List.length_append, List.length_cons, List.length_nil]
          exact ⟨by omega, hff⟩
        · refine ⟨(out ++ [b]).map some ++ List.replicate d.bufsize none, by simp [Heap.set], ?_, ?_⟩
          · simp; omega
          · exact List.take_left' (by simp)
        · have h1 : (0 : Nat) ≠ d.heap.fresh := by omega
          simp [Heap.set, h1, Ne.symm hbuf0, I.null]
        · simp only [Heap.set]; omega
        · intro q hq
          have hq' : d.heap.fresh + 1 ≤ q := hq
          have h1 : q ≠ d.heap.fresh := by omega
          have h2 : q ≠ d.buffer := by omega
          simp [Heap.set, h1, h2, I.fresh q (by omega)]
        · intro q hq hqt
          have hq' : q ≠ d.heap.fresh := hq
          have h2 : q ≠ d.buffer := by omega
          simp [Heap.set, hq', h2, I.frame q h2 hqt]
        · intro _
          obtain ⟨l1, l0, a1, a2, a3⟩ := I.tlive ht0
          refine ⟨l.set d.next (some b), l0, ?_, a2, ?_⟩
          · have h1 : t ≠ d.heap.fresh := by omega
            simp [Heap.set, h1, o1]
          · rw [← o1, hl] at a1
            rw [List.length_set]; injection a1 with a1; rw [a1]; exact a3
        · right; exact ⟨hff, rfl⟩
      · -- the library's own buffer is freed
        have hn0 : d.newbuffer ≠ 0 := o2 ▸ hbuf0
        have hne : d.buffer ≠ d.heap.fresh := by omega
        have htb : t ≠ d.buffer := by
          intro h
          rcases Nat.eq_zero_or_pos t with h' | h'
          · omega
          · have := htfr (by omega); omega
        rw [show Verif.IO.free _ d.newbuffer = Except.ok _ from by
          unfold Verif.IO.free
          rw [if_neg hn0]
          simp only [Heap.set, o2, if_neg hne, if_true]
          rfl]
        refine ⟨_, rfl, ?_⟩
        constructor
        · simp [hbs]
        · simp; omega
        · simp only; omega
        · obtain ⟨k, hk, hk0, hk1⟩ := I.size_eq
          refine ⟨k + 1, by simp only; rw [hk, Nat.pow_succ, Nat.mul_assoc], fun h => by omega, fun _ => ?_⟩
          simp only [Nat.add_sub_cancel, List.length_append, List.length_cons, List.length_nil]
          exact ⟨by omega, hff⟩
        · refine ⟨(out ++ [b]).map some ++ List.replicate d.bufsize none,
            by simp [Heap.set, Ne.symm hne, o2], ?_, ?_⟩
          · simp; omega
          · exact List.take_left' (by simp)
        · have h1 : (0 : Nat) ≠ d.heap.fresh := by omega
          simp [Heap.set, h1, Ne.symm hbuf0, I.null]
        · simp only [Heap.set]; omega
        · intro q hq
          have hq' : d.heap.fresh + 1 ≤ q := hq
          have h1 : q ≠ d.heap.fresh := by omega
          have h2 : q ≠ d.buffer := by omega
          simp [Heap.set, h1, h2, I.fresh q (by omega)]
        · intro q hq hqt
          have hq' : q ≠ d.heap.fresh := hq
          by_cases h2 : q = d.buffer
          · subst h2
            rw [hfr _ o1]
            simp [Heap.set, o2]
          · simp [Heap.set, hq', h2, o2, I.frame q h2 hqt]
        · intro ht0
          obtain ⟨l1, l0, a1, a2, a3⟩ := I.tlive ht0
          refine ⟨l1, l0, ?_, a2, a3⟩
          have h1 : t ≠ d.heap.fresh := by have := htfr ht0; omega
          simp [Heap.set, h1, htb, o2, a1]
        · right; exact ⟨hff, rfl⟩
    · right
      rw [if_neg hok]
      exact ⟨rfl, _, by simpa using hok⟩
  · rw [if_neg hz]
    left
    refine ⟨_, rfl, ?_⟩
    constructor
    · simp [hnx]
    · simp only; omega
    · simp only; omega
    · obtain ⟨k, hk, hk0, hk1⟩ := I.size_eq
      refine ⟨k, hk, hk0, fun h => ?_⟩
      have := hk1 h
      simp only [List.length_append, List.length_cons, List.length_nil]
      exact ⟨by omega, this.2⟩
    · refine ⟨l.set d.next (some b), by simp [Heap.set], by simpa using hsz, ?_⟩
      rw [List.length_append]; exact htake
    · simp [Heap.set, Ne.symm hbuf0, I.null]
    · exact hff
    · intro q hq
      have h2 : q ≠ d.buffer := by
        have : d.heap.fresh ≤ q := hq
        omega
      simp only [Heap.set, if_neg h2]; exact I.fresh q hq
    · intro q hq hqt
      have h2 : q ≠ d.buffer := hq
      simp only [Heap.set, if_neg h2]; exact I.frame q h2 hqt
    · intro ht0
      obtain ⟨l1, l0, a1, a2, a3⟩ := I.tlive ht0
      by_cases h : t = d.buffer
      · refine ⟨l.set d.next (some b), l0, by simp [Heap.set, h], a2, ?_⟩
        rw [h, hl] at a1
        injection a1 with a1
        rw [List.length_set, a1, a3]
      · exact ⟨l1, l0, by simp [Heap.set, h, a1], a2, a3⟩
    · exact I.own

theorem emits_inv {ok : Nat → Bool} {h0 : Heap} {t n0 : Nat}
    (hf0 : 0 < h0.fresh) (hfr : ∀ q, h0.fresh ≤ q → h0.live q = none) :
    ∀ (bs out : List Nat) (d : MemDest), Inv h0 t n0 out d → out.length + bs.length < 2 ^ 63 →
    (∃ d', emitBytesMem ok d bs = .ok d' ∧ Inv h0 t n0 (out ++ bs) d') ∨
      (emitBytesMem ok d bs = .error .outOfMemory ∧ ∃ a, ok a = false)
  | [], out, d, I, _ => Or.inl ⟨d, rfl, by simpa using I⟩
  | b :: bs, out, d, I, h => by
    simp only [List.length_cons] at h
    unfold emitBytesMem
    rw [List.foldlM_cons]
    rcases emit_inv (ok := ok) b hf0 hfr I (by omega) with ⟨d', e, I'⟩ | ⟨e, ha⟩
    · rw [e]
      have := emits_inv (ok := ok) hf0 hfr bs (out ++ [b]) d' I' (by simp; omega)
      rw [List.append_assoc, List.singleton_append] at this
      exact this
    · rw [e]; exact Or.inr ⟨rfl, ha⟩

/-- **C12 (memory destination).** For every byte sequence shorter than 2^63 and every caller buffer (given, or
NULL/0), writing through jpeg_mem_dest either stops because a `malloc` call failed, or ends with `*outsize` equal to
the number of bytes and `*outbuffer` a live block that starts with exactly those bytes. No write is ever outside a
live block, nothing is freed twice (those are faults, and no fault occurs). All other blocks of the heap are as
before — in particular every intermediate buffer has been freed — the caller's own buffer is still live with its
size unchanged, and it is the result whenever the data is shorter than it. The buffer has grown by doubling only,
and only as far as needed. -/
theorem mem_dest_exact (ok : Nat → Bool) (h : Heap) (p n : Nat) (H : CallerOk h p n) (bs : List Nat)
    (hlen : bs.length < 2 ^ 63) :
    match writeMem ok h p n bs with
    | .error e => e = .outOfMemory ∧ ∃ a, ok a = false
    | .ok d =>
      d.outsize = bs.length ∧
      (∃ l, d.heap.live d.outbuffer = some l ∧ bs.length ≤ l.length ∧ l.take bs.length = bs.map some) ∧
      (∀ q, q ≠ d.outbuffer → q ≠ p → d.heap.live q = h.live q) ∧
      (p ≠ 0 → p ≠ d.outbuffer → (d.heap.live p).map List.length = (h.live p).map List.length) ∧
      (p ≠ 0 → n ≠ 0 → bs.length < n → d.outbuffer = p) ∧
      (p = 0 ∨ n = 0 ∨ n ≤ bs.length → h.live d.outbuffer = none) ∧
      (∃ k, d.bufsize = (if p = 0 ∨ n = 0 then 4096 else n) * 2 ^ k ∧ bs.length < d.bufsize ∧
        (k ≠ 0 → (if p = 0 ∨ n = 0 then 4096 else n) * 2 ^ (k - 1) ≤ bs.length)) := by
  unfold writeMem
  rcases init_inv (ok := ok) H with ⟨d, e, I⟩ | ⟨e, ha⟩
  · rw [e]
    rcases emits_inv (ok := ok) H.fresh0 H.fresh bs [] d I (by simpa using hlen) with ⟨d', e', I'⟩ | ⟨e', ha⟩
    · simp only [bind, Except.bind, e']
      simp only [List.nil_append] at I'
      obtain ⟨l, hl, hsz, htk⟩ := I'.blk
      have hnx := I'.next_eq
      have hfe := I'.free_eq
      have hfp := I'.free_pos
      have hfr : ∀ q, q ≠ d'.buffer → q ≠ p → d'.heap.live q = h.live q := by
        intro q hq hqp
        by_cases hq0 : q = usedBuf p n
        · unfold usedBuf at hq0
          split at hq0
          · rw [hq0, I'.null, H.null]
          · exact absurd hq0 hqp
        · exact I'.frame q hq hq0
      refine ⟨by simp only [termMem]; omega, ⟨l, hl, by omega, htk⟩, hfr, ?_, ?_, ?_, ?_⟩
      · intro hp hpb
        have hpb' : p ≠ d'.buffer := hpb
        show (d'.heap.live p).map List.length = _
        by_cases hu : usedBuf p n = p
        · have : usedBuf p n ≠ 0 := by omega
          obtain ⟨l1, l0, a1, a2, a3⟩ := I'.tlive this
          rw [hu] at a1 a2
          rw [a1, a2]; simp [a3]
        · rw [I'.frame p hpb' (Ne.symm hu)]
      · intro hp hn hlt
        have hc : ¬ (p = 0 ∨ n = 0) := by omega
        obtain ⟨k, hk, hk0, hk1⟩ := I'.size_eq
        unfold usedBuf at hk0
        unfold size0 at hk1
        rw [if_neg hc] at hk0 hk1
        by_cases h0 : k = 0
        · rcases hk0 h0 with h | h
          · exact h
          · omega
        · have := (hk1 h0).1
          have h1 : n * 1 ≤ n * 2 ^ (k - 1) := Nat.mul_le_mul_left _ (Nat.two_pow_pos _)
          omega
      · intro hc
        apply H.fresh
        show h.fresh ≤ d'.buffer
        rcases I'.own with ⟨o1, o2⟩ | ⟨o1, -⟩
        · have hb0 : d'.buffer ≠ 0 := by
            intro h; rw [h, I'.null] at hl; cases hl
          obtain ⟨k, hk, hk0, hk1⟩ := I'.size_eq
          by_cases h0 : k = 0
          · exfalso
            by_cases hc' : p = 0 ∨ n = 0
            · unfold usedBuf at o1
              rw [if_pos hc'] at o1
              exact hb0 o1
            · unfold size0 at hk
              rw [if_neg hc', h0] at hk
              simp at hk
              omega
          · exact (hk1 h0).2
        · exact o1
      · obtain ⟨k, hk, hk0, hk1⟩ := I'.size_eq
        exact ⟨k, hk, by show bs.length < d'.bufsize; omega, fun h => (hk1 h).1⟩
    · simp only [bind, Except.bind, e']
      exact ⟨trivial, ha⟩
  · rw [e]
    exact ⟨rfl, ha⟩

/-- Non-vacuity: a caller buffer of 3 bytes at address 7, five bytes written (one overflow); the result is a new
6-byte block and the caller's block is untouched afterwards. -/
def exHeap : Heap := { live := fun q => if q = 7 then some [none, none, none] else none, fresh := 10 }
example : CallerOk exHeap 7 3 := by
  refine ⟨rfl, by decide, fun q hq => ?_, fun _ _ => ⟨_, rfl, by decide⟩, by decide⟩
  have : ¬ q = 7 := by have : 10 ≤ q := hq; omega
  simp [exHeap, this]
example : (match writeMem (fun _ => true) exHeap 7 3 [1, 2, 3, 4, 5] with
    | .ok d => some (d.outbuffer, d.outsize, d.heap.live d.outbuffer, d.heap.live 7)
    | .error _ => none) = some (10, 5, some [some 1, some 2, some 3, some 4, some 5, none],
      some [some 1, some 2, some 3]) := by rfl

/-- (Proof helper.) The state after the store in `emitByteMem`. -/
def pushed (a : MemDest) (l : List (Option Nat)) (x : Nat) : MemDest :=
  { a with heap := a.heap.set a.buffer (some (l.set a.next (some x))), next := a.next + 1, free := a.free - 1 }

/-- The window between an overflow and jpeg_finish_compress: when the library allocated the first buffer, the
caller's `*outbuffer` variable still points to it although it has been freed (so after an error exit in that window
the caller must not free it). -/
theorem outbuffer_dangles_before_term (ok : Nat → Bool) (h : Heap) (n : Nat) (H : CallerOk h 0 n)
    (bs : List Nat) (h1 : 4096 ≤ bs.length) (hlen : bs.length < 2 ^ 63) (d0 d : MemDest)
    (e0 : memDestInit ok h 0 n = .ok d0) (e : emitBytesMem ok d0 bs = .ok d) :
    d0.heap.live d0.outbuffer ≠ none ∧ d.heap.live d0.outbuffer = none := by
  rcases init_inv (ok := ok) H with ⟨d1, e1, I1⟩ | ⟨e1, -⟩
  · rw [e0] at e1; injection e1 with e1; subst e1
    have hb : d0.outbuffer = h.fresh ∧ d0.buffer = h.fresh := by
      unfold memDestInit malloc at e0
      rw [if_pos (Or.inl rfl)] at e0
      by_cases hok : ok h.fresh
      · rw [if_pos hok] at e0; injection e0 with e0; subst e0; exact ⟨rfl, rfl⟩
      · rw [if_neg hok] at e0; cases e0
    rcases emits_inv (ok := ok) H.fresh0 H.fresh bs [] d0 I1 (by simpa using hlen) with ⟨d', e', I'⟩ | ⟨e', -⟩
    · rw [e] at e'; injection e' with e'; subst e'
      obtain ⟨l, hl, -⟩ := I1.blk
      refine ⟨by rw [hb.1, ← hb.2, hl]; simp, ?_⟩
      rw [hb.1]
      have hf := H.fresh0
      -- the current buffer is not the first one, because it is larger
      have key : ∀ (cs : List Nat) (out : List Nat) (a c : MemDest), Inv h 0 4096 out a →
          out.length + cs.length < 2 ^ 63 →
          (out.length < 4096 → a.buffer = h.fresh ∧ a.bufsize = 4096) →
          (4096 ≤ out.length → h.fresh < a.buffer) → h.fresh < a.heap.fresh →
          emitBytesMem ok a cs = .ok c → 4096 ≤ out.length + cs.length → h.fresh < c.buffer := by
        intro cs
        induction cs with
        | nil =>
          intro out a c _ _ _ h2 _ h4 h5
          have : a = c := by simpa [emitBytesMem, pure, Except.pure] using h4
          subst this; exact h2 (by simpa using h5)
        | cons x cs ih =>
          intro out a c Ia hb h2 h3 h3' h4 h5
          simp only [List.length_cons] at hb h5
          unfold emitBytesMem at h4
          rw [List.foldlM_cons] at h4
          rcases emit_inv (ok := ok) x H.fresh0 H.fresh Ia (by omega) with ⟨a', ea, Ia'⟩ | ⟨ea, -⟩
          · rw [ea] at h4
            have hstep : (a'.buffer = a.buffer ∧ a'.bufsize = a.bufsize ∧ a.free - 1 ≠ 0 ∧
                a'.heap.fresh = a.heap.fresh) ∨
                (a'.buffer = a.heap.fresh ∧ a.free - 1 = 0 ∧ a.heap.fresh < a'.heap.fresh) := by
              obtain ⟨l, hl, hsz, -⟩ := Ia.blk
              have q1 := Ia.next_eq
              have q2 := Ia.free_eq
              have q3 := Ia.free_pos
              unfold emitByteMem store at ea
              rw [hl] at ea
              simp only [if_pos (show a.next < l.length by omega)] at ea
              by_cases hz : a.free - 1 = 0
              · right
                have ea' : emptyMem ok (pushed a l x) = .ok a' := by
                  simpa [pushed, bind, Except.bind, hz] using ea
                unfold emptyMem malloc pushed at ea'
                simp only at ea'
                split at ea'
                · cases ea'
                · rename_i hh nb hm
                  split at hm
                  · injection hm with hm
                    injection hm with hm1 hm2
                    subst hm1; subst hm2
                    simp only [bind, Except.bind] at ea'
                    split at ea'
                    · cases ea'
                    · rename_i hh2 hmc
                      split at ea'
                      · cases ea'
                      · rename_i hh3 hfree
                        injection ea' with ea'
                        subst ea'
                        refine ⟨rfl, hz, ?_⟩
                        have f2 : hh2.fresh = a.heap.fresh + 1 := by
                          unfold memcpy at hmc
                          split at hmc
                          · split at hmc
                            · injection hmc with hmc; subst hmc; rfl
                            · cases hmc
                          · cases hmc
                        have f3 : hh3.fresh = hh2.fresh := by
                          unfold Verif.IO.free at hfree
                          split at hfree
                          · injection hfree with hfree; rw [hfree]
                          · split at hfree
                            · cases hfree
                            · injection hfree with hfree; subst hfree; rfl
                        show a.heap.fresh < hh3.fresh
                        omega
                  · cases hm
              · left
                have ea' : pushed a l x = a' := by
                  simpa [pushed, bind, Except.bind, hz] using ea
                subst ea'; exact ⟨rfl, rfl, hz, rfl⟩
            have q1 := Ia.next_eq
            have q2 := Ia.free_eq
            have q3 := Ia.free_pos
            refine ih (out ++ [x]) a' c Ia' (by simp; omega) ?_ ?_ ?_ h4 (by simp; omega)
            · simp only [List.length_append, List.length_cons, List.length_nil]
              intro hlt
              have := h2 (by omega)
              rcases hstep with ⟨s1, s2, s3, -⟩ | ⟨s1, s2, -⟩
              · rw [s1, s2]; exact this
              · omega
            · simp only [List.length_append, List.length_cons, List.length_nil]
              intro hge
              rcases hstep with ⟨s1, s2, s3, -⟩ | ⟨s1, s2, -⟩
              · rw [s1]
                rcases Nat.lt_or_ge out.length 4096 with hc | hc
                · have := h2 hc; omega
                · exact h3 hc
              · omega
            · rcases hstep with ⟨-, -, -, s⟩ | ⟨-, -, s⟩ <;> omega
          · rw [ea] at h4; cases h4
      have hu : usedBuf 0 n = 0 := by simp [usedBuf]
      have hs0 : size0 0 n = 4096 := by simp [size0]
      rw [hu, hs0] at I1 I'
      have hbuf : h.fresh < d.buffer := by
        refine key bs [] d0 d I1 (by simpa using hlen) (fun _ => ⟨hb.2, ?_⟩) (by simp) ?_ e (by simpa using h1)
        · unfold memDestInit malloc at e0
          rw [if_pos (Or.inl rfl)] at e0
          by_cases hok : ok h.fresh
          · rw [if_pos hok] at e0; injection e0 with e0; subst e0; rfl
          · rw [if_neg hok] at e0; cases e0
        · rcases Nat.lt_or_ge h.fresh d0.heap.fresh with h' | h'
          · exact h'
          · have := I1.fresh h.fresh h'
            rw [← hb.2, hl] at this; cases this
      rw [I'.frame h.fresh (by omega) (by omega)]
      exact H.fresh _ (Nat.le_refl _)
    · rw [e] at e'; cases e'
  · rw [e0] at e1; cases e1

/-! ### Stdio -/

theorem file_inv (junk : List Nat) (hj : junk.length = 4096) : ∀ bs : List Nat,
    let d := bs.foldl emitByteFile (initFile junk)
    d.buffer.length = 4096 ∧ d.next + d.free = 4096 ∧ 0 < d.free ∧ d.file ++ d.buffer.take d.next = bs := by
  intro bs
  induction bs using List.reverseRecOn with
  | nil => exact ⟨hj, rfl, by simp [initFile], rfl⟩
  | append_singleton bs b ih =>
    simp only at ih ⊢
    rw [List.foldl_append]
    generalize bs.foldl emitByteFile (initFile junk) = d at ih
    obtain ⟨h1, h2, h3, h4⟩ := ih
    show _ ∧ _
    simp only [List.foldl_cons, List.foldl_nil]
    have htake : (d.buffer.set d.next b).take (d.next + 1) = d.buffer.take d.next ++ [b] := by
      rw [List.take_add_one, List.take_set_of_le (Nat.le_refl _), List.getElem?_set_self (by omega)]
      simp
    unfold emitByteFile
    by_cases hz : d.free - 1 = 0
    · simp only [if_pos hz, emptyFile]
      refine ⟨by simpa using h1, by simp, by simp, ?_⟩
      rw [show (4096 : Nat) = d.next + 1 by omega, htake, ← h4]
      simp
    · simp only [if_neg hz]
      refine ⟨by simpa using h1, by omega, by omega, ?_⟩
      rw [htake, ← h4]; simp

/-- **C12 (stdio destination).** The file finally holds exactly the emitted bytes, for every byte sequence and
whatever the buffer initially held. -/
theorem stdio_dest_exact (junk bs : List Nat) (hj : junk.length = 4096) :
    termFile (bs.foldl emitByteFile (initFile junk)) = bs := by
  have := file_inv junk hj bs
  simp only at this
  obtain ⟨h1, h2, h3, h4⟩ := this
  unfold termFile
  simp only
  split
  · rw [show 4096 - (bs.foldl emitByteFile (initFile junk)).free = (bs.foldl emitByteFile (initFile junk)).next by
      omega]
    exact h4
  · rename_i hc
    have : (bs.foldl emitByteFile (initFile junk)).next = 0 := by omega
    rw [this] at h4; simpa using h4

end Verif.IO
