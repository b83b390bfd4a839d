import Verif.Ppm.Model
/-
Model of the readers of scan scripts and quantization tables of cjpeg and jpegtran (rdswitch.c). A file is the list of its bytes.

`long` has 64 bits (LP64); a number that exceeds it is signed overflow, undefined behaviour, a `fault`, like storing outside an array. `exit` stands
for the return value FALSE, with which the programs stop.
-/
namespace Verif.Switch

open Ppm

/-- `isspace` in the C locale. -/
def isSpace (c : Nat) : Bool := c = 32 || (9 ≤ c && c ≤ 13)

/-- "Skip any leading whitespace" (rdswitch.c:53-59), and the same loop after a number (rdswitch.c:156-157): the first other character. `text_getc`
(rdswitch.c:29-43) is the same function as `pbm_getc`, modelled in `Ppm`. -/
def skip (s : List Nat) : Option Nat × List Nat :=
  match h : pbmGetc s with
  | (none, s') => (none, s')
  | (some c, s') =>
    have := pbmGetc_lt h
    if isSpace c then skip s' else (some c, s')
termination_by s.length

/-- The loop over further digits (rdswitch.c:67-72): the number, the character after it, the rest. -/
def num (v : Nat) (s : List Nat) : R (Nat × Option Nat × List Nat) :=
  match h : pbmGetc s with
  | (none, s') => .ok (v, none, s')
  | (some c, s') =>
    have := pbmGetc_lt h
    if isDigit c then
      if v * 10 + (c - 48) > 2 ^ 63 - 1 then .error .fault else num (v * 10 + (c - 48)) s'
    else .ok (v, some c, s')
termination_by s.length

/-- The result of the functions that read an integer: TRUE with the number, the character after it and the rest; FALSE with the character met. -/
inductive Tok where
  | num (v : Nat) (t : Option Nat) (s : List Nat)
  | stop (t : Option Nat)
deriving DecidableEq, Repr

/-- `read_text_integer` (rdswitch.c:46-76). -/
def textInt (s : List Nat) : R Tok :=
  match skip s with
  | (none, _) => .ok (.stop none)
  | (some c, s) => if isDigit c then do
      let (v, t, s) ← num (c - 48) s
      .ok (.num v t s)
    else .ok (.stop (some c))

/-- The rest of `read_scan_integer` (rdswitch.c:155-169): the character that decides what follows; a digit is put back. -/
def after (t : Option Nat) (s : List Nat) : Option Nat × List Nat :=
  let (ch, s) := match t with
    | none => (none, s)
    | some c => if isSpace c then skip s else (some c, s)
  match ch with
  | none => (none, s)
  | some c => if isDigit c then (some 32, c :: s) else if c ≠ 59 ∧ c ≠ 58 then (some 32, s) else (some c, s)

/-- `read_scan_integer` (rdswitch.c:146-171). -/
def scanInt (s : List Nat) : R Tok := do
  match ← textInt s with
  | .stop t => .ok (.stop t)
  | .num v t s =>
    let (t, s) := after t s
    .ok (.num v t s)

/-- The conversion `(int)val`. -/
def cast (v : Nat) : Int := (v : Int).bmod (2 ^ 32)

/-- `jpeg_scan_info` (jpeglib.h:235-241), with `component_index` up to `comps_in_scan`. -/
structure Scan where
  comps : List Int
  ss : Int
  se : Int
  ah : Int
  al : Int
deriving DecidableEq, Repr

/-- The loop over further components (rdswitch.c:214-226); the array has 4 entries. -/
def more : Nat → Option Nat → List Nat → List Int → R (Option Nat × List Nat × List Int)
  | k, t, s, acc =>
    if t ≠ some 32 then .ok (t, s, acc)
    else if acc.length ≥ 4 then .error .exit
    else match k with
    | 0 => .error .fault
    | k + 1 => do
      match ← scanInt s with
      | .stop _ => .error .exit
      | .num v t s => if acc.length < 4 then more k t s (acc ++ [cast v]) else .error .fault

/-- A progression parameter that must be followed by a blank (rdswitch.c:228-236). -/
def param (s : List Nat) : R (Int × List Nat) := do
  match ← scanInt s with
  | .stop _ => .error .exit
  | .num v t s => if t ≠ some 32 then .error .exit else .ok (cast v, s)

/-- The parameters after a colon, or the default ones (rdswitch.c:227-247). -/
def params (t : Option Nat) (s : List Nat) : R (Int × Int × Int × Int × Option Nat × List Nat) :=
  if t = some 58 then do
    let (ss, s) ← param s
    let (se, s) ← param s
    let (ah, s) ← param s
    match ← scanInt s with
    | .stop _ => .error .exit
    | .num v t s => .ok (ss, se, ah, cast v, t, s)
  else .ok (0, 63, 0, 0, t, s)

/-- The main loop of `read_scan_script` (rdswitch.c:206-262); `k` is the number of scans there is still room for, MAX_SCANS = 64 at first. -/
def scans : Nat → List Nat → List Scan → R (List Scan)
  | k, s, acc => do
    match ← scanInt s with
    | .stop t => if t ≠ none then .error .exit else .ok acc
    | .num v t s =>
      match k with
      | 0 => .error .exit
      | k + 1 =>
        let (t, s, comps) ← more 4 t s [cast v]
        let (ss, se, ah, al, t, s) ← params t s
        if t ≠ some 59 ∧ t ≠ none then .error .exit else scans k s (acc ++ [⟨comps, ss, se, ah, al⟩])

/-- `read_scan_script` (rdswitch.c:175-285). An empty result leaves the parameters of the compressor as they were. -/
def readScript (s : List Nat) : R (List Scan) := scans 64 s []

/-- The other elements of a table (rdswitch.c:114-121). -/
def elems : Nat → List Nat → List Nat → R (List Nat × List Nat)
  | 0, s, acc => .ok (acc, s)
  | n + 1, s, acc => do
    match ← textInt s with
    | .stop _ => .error .exit
    | .num v _ s => elems n s (acc ++ [v % 2 ^ 32])

/-- The main loop of `read_quant_tables` (rdswitch.c:107-135); `k` is the number of tables there is still room for, NUM_QUANT_TBLS = 4 at first. The
elements are converted to `unsigned int`. The tables go to `jpeg_add_quant_table`, one after the other. -/
def tables : Nat → List Nat → List (List Nat) → R (List (List Nat))
  | k, s, acc => do
    match ← textInt s with
    | .stop t => if t ≠ none then .error .exit else .ok acc
    | .num v _ s =>
      match k with
      | 0 => .error .exit
      | k + 1 =>
        let (tbl, s) ← elems 63 s [v % 2 ^ 32]
        tables k s (acc ++ [tbl])

/-- `read_quant_tables` (rdswitch.c:85-141). -/
def readTables (s : List Nat) : R (List (List Nat)) := tables 4 s []

end Verif.Switch
