/-
Model of jpeg_gen_optimal_table (/repo/jchuff.c:948-1100).
-/
import Verif.Huff.Table

namespace Verif.Huff.Opt

/-- Scan state of the search for the two smallest counts (/repo/jchuff.c:999-1002); `none` is -1. -/
structure Pick where
  c1 : Option Nat
  c2 : Option Nat
  v : Nat
  v2 : Nat

/-- Loop body (/repo/jchuff.c:1003-1015). -/
def pickStep (f : Nat → Nat) (s : Pick) (i : Nat) : Pick :=
  if f i ≤ s.v2 then
    if f i ≤ s.v then ⟨some i, s.c1, f i, s.v⟩
    else { s with v2 := f i, c2 := some i }
  else s

/-- The whole scan (/repo/jchuff.c:999-1015). -/
def pick (f : Nat → Nat) (n : Nat) : Pick :=
  (List.range n).foldl (pickStep f) ⟨none, none, 1000000000, 1000000000⟩

/-- Arrays of the merging loop (freq, codesize, others), as functions. -/
structure MState where
  freq : Nat → Nat
  cs : Nat → Nat
  others : Nat → Option Nat

/-- `codesize[c]++; while (others[c] >= 0) { c = others[c]; codesize[c]++; }`
(/repo/jchuff.c:1028-1033, :1038-1042).  Returns codesize and the last c.  The step bound (257 array
elements) is only there to make the definition total. -/
def walk (others : Nat → Option Nat) : Nat → Nat → (Nat → Nat) → (Nat → Nat) × Nat
  | 0, c, cs => (cs, c)
  | k + 1, c, cs =>
    let cs := fun i => if i = c then cs i + 1 else cs i
    match others c with
    | none => (cs, c)
    | some c' => walk others k c' cs

/-- One merge (/repo/jchuff.c:999-1043); `none` = loop exit (`c2 < 0`). -/
def mergeStep (n : Nat) (st : MState) : Option MState :=
  let p := pick st.freq n
  match p.c2 with
  | none => none
  | some c2 =>
    let c1 := p.c1.getD 0
    let s := st.freq c1 + st.freq c2
    let freq := fun i => if i = c2 then 1000000001 else if i = c1 then s else st.freq i
    let (cs, last) := walk st.others 257 c1 st.cs
    let others := fun i => if i = last then some c2 else st.others i
    let (cs, _) := walk others 257 c2 cs
    some ⟨freq, cs, others⟩

/-- `for (;;)` (/repo/jchuff.c:993-1043); at most `n - 1` merges are possible, the bound only makes the
definition total. -/
def mergeLoop (n : Nat) : Nat → MState → MState
  | 0, st => st
  | k + 1, st =>
    match mergeStep n st with
    | none => st
    | some st' => mergeLoop n k st'

/-- `UINT8 bits[MAX_CLEN + 1]` counting loop (/repo/jchuff.c:1046-1053), with 8-bit wrap-around. -/
def countBits (cs : Nat → Nat) (n : Nat) : Nat → Nat :=
  (List.range n).foldl (fun b i => fun l => if l = cs i then (b l + 1) % 256 else b l) (fun _ => 0)

/-- `j = i - 2; while (bits[j] == 0) j--;` (/repo/jchuff.c:1078-1080); none = the index would go below 0. -/
def findDown (b : Nat → Nat) : Nat → Option Nat
  | 0 => if b 0 = 0 then none else some 0
  | j + 1 => if b (j + 1) = 0 then findDown b j else some (j + 1)

/-- One length-limiting step (/repo/jchuff.c:1082-1085), 8-bit arithmetic, in the order of the source. -/
def limitStep (b : Nat → Nat) (i j : Nat) : Nat → Nat :=
  let b := fun l => if l = i then (b l + 254) % 256 else b l
  let b := fun l => if l = i - 1 then (b l + 1) % 256 else b l
  let b := fun l => if l = j + 1 then (b l + 2) % 256 else b l
  fun l => if l = j then (b l + 255) % 256 else b l

/-- `while (bits[i] > 0)` (/repo/jchuff.c:1077-1086); none = index out of bounds or no termination within
256 steps (a step lowers bits[i] by 2). -/
def limitAt (i : Nat) : Nat → (Nat → Nat) → Option (Nat → Nat)
  | 0, _ => none
  | k + 1, b =>
    if b i > 0 then
      match findDown b (i - 2) with
      | none => none
      | some j => limitAt i k (limitStep b i j)
    else some b

/-- `for (i = MAX_CLEN; i > 16; i--)` (/repo/jchuff.c:1076-1087), over the list of values of i. -/
def limit : List Nat → (Nat → Nat) → Option (Nat → Nat)
  | [], b => some b
  | i :: is, b =>
    match limitAt i 256 b with
    | none => none
    | some b => limit is b

/-- `bit_pos[]` (/repo/jchuff.c:1060-1064): number of symbols with a smaller code length, from length 1. -/
def bitPos (b : Nat → Nat) (l : Nat) : Nat := ((List.range' 1 (l - 1)).map b).sum

/-- Symbols sorted by code length (/repo/jchuff.c:1102-1105); state: huffval and bit_pos. -/
def fillVals (cs : Nat → Nat) (nz : Nat → Nat) : List Nat → (Nat → Nat) × (Nat → Nat) →
    (Nat → Nat) × (Nat → Nat)
  | [], s => s
  | i :: is, (hv, bp) =>
    fillVals cs nz is (fun p => if p = bp (cs i) then nz i % 256 else hv p,
      fun l => if l = cs i then bp l + 1 else bp l)

inductive OErr where
  /-- ERREXIT(JERR_HUFF_CLEN_OVERFLOW) -/
  | clenOverflow
  /-- array index out of bounds or endless loop in the length limiting -/
  | undefined
deriving DecidableEq, Repr

/-- freq with freq[256] = 1 (/repo/jchuff.c:974), as the list of the nonzero entries
(/repo/jchuff.c:983-990): their indexes. -/
def nzIndex (freq : Nat → Nat) : List Nat :=
  (List.range 257).filter (fun i => decide ((if i = 256 then 1 else freq i) ≠ 0))

/-- Code sizes after the merging loop, by position among the nonzero entries. -/
def codeSizes (freq : Nat → Nat) : Nat → Nat :=
  let nz := nzIndex freq
  let f := fun k => let i := nz.getD k 0; if i = 256 then 1 else freq i
  (mergeLoop nz.length nz.length ⟨f, fun _ => 0, fun _ => none⟩).cs

/-- jpeg_gen_optimal_table (/repo/jchuff.c:948-1110). `freq i`, i < 256, are the counts.  In the result
`counts[l-1] = bits[l]`, and `vals` are the 256 entries of huffval (those not written keep what they
held; here 0). -/
def genOptimal (freq : Nat → Nat) : Except OErr HuffTbl :=
  let nz := nzIndex freq
  let n := nz.length
  let cs := codeSizes freq
  if (List.range n).any (fun i => decide (cs i > 32)) then .error .clenOverflow
  else
    let bits := countBits cs n
    let bp := bitPos bits
    match limit ((List.range' 17 16).reverse) bits with
    | none => .error .undefined
    | some bits =>
      match findDown bits 16 with
      | none => .error .undefined
      | some i =>
        let bits := fun l => if l = i then (bits l + 255) % 256 else bits l
        let hv := (fillVals cs (fun k => nz.getD k 0) (List.range (n - 1)) (fun _ => 0, bp)).1
        .ok ⟨(List.range' 1 16).map bits, (List.range 256).map hv⟩

end Verif.Huff.Opt
