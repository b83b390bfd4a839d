import Verif.TJ.Size
/-
Memory manager (jmemmgr.c, jmemnobs.c), LP64: sizeof(size_t) = 8, sizeof(small_pool_hdr) = sizeof(large_pool_hdr) = 24,
pointers 8 bytes, sizeof(JBLOCK) = 128.  `A` stands for ALIGN_SIZE.  Addresses are numbers; malloc is an arbitrary
environment that may fail at any time and otherwise returns a block that overlaps no outstanding block.
-/
namespace Verif.Pool

/-- MAX_ALLOC_CHUNK (jmemsys.h:66-75). -/
def maxChunk : Nat := 1000000000
/-- sizeof(small_pool_hdr), sizeof(large_pool_hdr). -/
def hdr : Nat := 24
/-- sizeof(my_memory_mgr); the value does not matter. -/
def ctlSize : Nat := 168

/-- A pool header together with the block it heads (jmemmgr.c:102-120); `size` is ghost. -/
structure Pool where
  base : Nat
  size : Nat
  used : Nat
  left : Nat
deriving DecidableEq, Repr

/-- Ghost: an object handed out. -/
structure Obj where
  pool : Nat
  addr : Nat
  size : Nat
deriving DecidableEq, Repr

/-- State of the memory manager (my_memory_mgr, jmemmgr.c:126-151) and of the heap.  Ghost: `live` = blocks obtained from malloc and not
freed, `objs` = objects handed out and not released, `badFree` = something was freed that malloc did not return or that
was freed before, `clock` = number of malloc calls. -/
structure St where
  small : Nat → List Pool
  large : Nat → List Pool
  total : Nat
  clock : Nat
  live : List (Nat × Nat)
  objs : List Obj
  badFree : Bool

/-- malloc: what it returns may depend on the time, the outstanding blocks and the size. -/
abbrev Env := Nat → List (Nat × Nat) → Nat → Option Nat

/-- Blocks (address, length) do not overlap. -/
def Apart (x y : Nat × Nat) : Prop := x.1 + x.2 ≤ y.1 ∨ y.1 + y.2 ≤ x.1

/-- The contract of malloc. -/
def Env.Good (env : Env) : Prop := ∀ t live n b, env t live n = some b →
  0 < b ∧ b + n < 2 ^ 64 ∧ ∀ x ∈ live, Apart (b, n) x

/-- Errors: ERREXIT1(JERR_OUT_OF_MEMORY, which), JERR_BAD_POOL_ID, JERR_WIDTH_OVERFLOW. -/
inductive Err where
  | oom (which : Nat)
  | badPool
  | width
  | divZero
deriving DecidableEq, Repr

/-- round_up_pow2 (jmemmgr.c:41-47). -/
def roundUp (a b : Nat) : Nat := ((a + b - 1) % 2 ^ 64) &&& (2 ^ 64 - b)

/-- One call of malloc (jmemnobs.c:31-35, 50-54). -/
def malloc (env : Env) (n : Nat) (s : St) : Option Nat × St :=
  match env s.clock s.live n with
  | none => (none, { s with clock := s.clock + 1 })
  | some b => (some b, { s with clock := s.clock + 1, live := (b, n) :: s.live })

/-- free (jmemnobs.c:37-41, 56-60). -/
def release (b n : Nat) (s : St) : St :=
  if (b, n) ∈ s.live then { s with live := s.live.erase (b, n) } else { s with badFree := true }

/-- The first pool with enough space (jmemmgr.c:297-302). -/
def findPool (sz : Nat) : List Pool → Option Nat
  | [] => none
  | p :: ps => if sz ≤ p.left then some 0 else (findPool sz ps).map (· + 1)

/-- first_pool_slop, extra_pool_slop (jmemmgr.c:249-257). -/
def firstSlop (pool : Nat) : Nat := if pool = 0 then 1600 else 16000
def extraSlop (pool : Nat) : Nat := if pool = 0 then 0 else 5000

/-- The request loop (jmemmgr.c:316-323); the first argument bounds the iterations. -/
def getSmall (env : Env) (minReq : Nat) : Nat → Nat → St → Option (Nat × Nat) × St
  | 0, _, s => (none, s)
  | k + 1, slop, s =>
    match malloc env (minReq + slop) s with
    | (some b, s) => (some (b, slop), s)
    | (none, s) => if slop / 2 < 50 then (none, s) else getSmall env minReq k (slop / 2) s

/-- Data start of a pool (jmemmgr.c:337-340, 405-408). -/
def dataStart (A base : Nat) : Nat :=
  let p := base + hdr
  if p % A ≠ 0 then p + (A - p % A) else p

def setL (f : Nat → List Pool) (i : Nat) (l : List Pool) : Nat → List Pool := fun j => if j = i then l else f j

/-- The final part of alloc_small: take the object from pool number `i` of the list (jmemmgr.c:337-345). -/
def takeFrom (A pool sz i : Nat) (s : St) : Nat × St :=
  let l := s.small pool
  let p := l.getD i ⟨0, 0, 0, 0⟩
  let a := dataStart A p.base + p.used
  (a, { s with small := setL s.small pool (l.set i { p with used := p.used + sz, left := p.left - sz }), objs := ⟨pool, a, sz⟩ :: s.objs })

/-- alloc_small (jmemmgr.c:263-346). -/
def allocSmall (A : Nat) (env : Env) (pool size : Nat) (s : St) : Except Err Nat × St :=
  if size > maxChunk then (.error (.oom 7), s)
  else
    let sz := roundUp size A
    if (hdr + sz + A - 1) % 2 ^ 64 > maxChunk then (.error (.oom 1), s)
    else if pool ≥ 2 then (.error .badPool, s)
    else
      match findPool sz (s.small pool) with
      | some i => let r := takeFrom A pool sz i s; (.ok r.1, r.2)
      | none =>
        let minReq := hdr + sz + A - 1
        let slop := if s.small pool = [] then firstSlop pool else extraSlop pool
        let slop := if slop > maxChunk - minReq then maxChunk - minReq else slop
        match getSmall env minReq (slop + 1) slop s with
        | (none, s) => (.error (.oom 2), s)
        | (some (b, slop), s) =>
          let s := { s with total := s.total + (minReq + slop),
                            small := setL s.small pool (s.small pool ++ [⟨b, minReq + slop, 0, sz + slop⟩]) }
          let r := takeFrom A pool sz ((s.small pool).length - 1) s
          (.ok r.1, r.2)

/-- alloc_large (jmemmgr.c:362-411). -/
def allocLarge (A : Nat) (env : Env) (pool size : Nat) (s : St) : Except Err Nat × St :=
  if size > maxChunk then (.error (.oom 8), s)
  else
    let sz := roundUp size A
    if (hdr + sz + A - 1) % 2 ^ 64 > maxChunk then (.error (.oom 3), s)
    else if pool ≥ 2 then (.error .badPool, s)
    else
      match malloc env (sz + hdr + A - 1) s with
      | (none, s) => (.error (.oom 4), s)
      | (some b, s) =>
        (.ok (dataStart A b),
          { s with total := s.total + (sz + hdr + A - 1),
                   large := setL s.large pool (⟨b, sz + hdr + A - 1, sz, 0⟩ :: s.large pool), objs := ⟨pool, dataStart A b, sz⟩ :: s.objs })

/-- The chunk loop of alloc_sarray and alloc_barray (jmemmgr.c:530-539, 577-587): `width` = bytes per row; the first
argument bounds the iterations.  Result: addresses of the rows. -/
def chunkLoop (A : Nat) (env : Env) (pool width numrows : Nat) : Nat → (rpc currow : Nat) → (rows : List Nat) → St → Except Err (List Nat) × St
  | 0, _, _, rows, s => (.ok rows, s)
  | k + 1, rpc, currow, rows, s =>
    if currow < numrows then
      let rpc := min rpc (numrows - currow)
      match allocLarge A env pool (rpc * width) s with
      | (.error e, s) => (.error e, s)
      | (.ok w, s) => chunkLoop A env pool width numrows k rpc (currow + rpc) (rows ++ (List.range rpc).map (fun i => w + i * width)) s
    else (.ok rows, s)

/-- alloc_sarray / alloc_barray from the computation of rowsperchunk on (jmemmgr.c:470-540, 560-589); `width` = bytes per
row (a zero width divides by zero).  Result: the address of the row pointers and the rows. -/
def allocRows (A : Nat) (env : Env) (pool width numrows : Nat) (s : St) : Except Err (Nat × List Nat) × St :=
  if width = 0 then (.error .divZero, s)
  else
    let ltemp := (maxChunk - hdr) / width
    if ltemp = 0 then (.error .width, s)
    else
      let rpc := if ltemp < numrows then ltemp else numrows
      match allocSmall A env pool (numrows * 8) s with
      | (.error e, s) => (.error e, s)
      | (.ok a, s) =>
        match chunkLoop A env pool width numrows (numrows + 1) rpc 0 [] s with
        | (.error e, s) => (.error e, s)
        | (.ok rows, s) => (.ok (a, rows), s)

/-- alloc_sarray (jmemmgr.c:433-545); `ss` = sample_size, widths and heights are JDIMENSIONs. -/
def allocSArray (A : Nat) (env : Env) (pool ss samplesperrow numrows : Nat) (s : St) : Except Err (Nat × List Nat) × St :=
  if A % ss ≠ 0 then (.error (.oom 5), s)
  else if samplesperrow > maxChunk then (.error (.oom 9), s)
  else allocRows A env pool (roundUp samplesperrow (2 * A / ss) % 2 ^ 32 * ss) numrows s

/-- alloc_barray (jmemmgr.c:552-589). -/
def allocBArray (A : Nat) (env : Env) (pool blocksperrow numrows : Nat) (s : St) : Except Err (Nat × List Nat) × St :=
  if 128 % A ≠ 0 then (.error (.oom 6), s)
  else allocRows A env pool (blocksperrow * 128) numrows s

/-- Freeing the pools of a list (jmemmgr.c:1137-1146, 1152-1159). -/
def freeList (A : Nat) : List Pool → St → St
  | [], s => s
  | p :: ps, s =>
    let n := p.used + p.left + hdr + A - 1
    let s := release p.base n s
    freeList A ps { s with total := s.total - n }

/-- free_pool (jmemmgr.c:1095-1160); the virtual arrays are not part of this model (no backing store, jmemnobs.c). -/
def freePool (A pool : Nat) (s : St) : Except Err Unit × St :=
  if pool ≥ 2 then (.error .badPool, s)
  else
    let l := s.large pool
    let s := freeList A l { s with large := setL s.large pool [] }
    let l := s.small pool
    let s := freeList A l { s with small := setL s.small pool [] }
    (.ok (), { s with objs := s.objs.filter (fun o => o.pool ≠ pool) })

/-- self_destruct (jmemmgr.c:1168-1188); `ctl` = address of the manager itself. -/
def selfDestruct (A ctl : Nat) (s : St) : St :=
  release ctl ctlSize (freePool A 0 (freePool A 1 s).2).2

/-- jinit_memory_mgr (jmemmgr.c:1197-1279), after a successful malloc of the control block at `ctl`. -/
def init (ctl : Nat) : St :=
  { small := fun _ => [], large := fun _ => [], total := ctlSize, clock := 1, live := [(ctl, ctlSize)], objs := [], badFree := false }

/-- Requests the library makes. -/
inductive Op where
  | small (pool size : Nat)
  | large (pool size : Nat)
  | sarray (pool ss samplesperrow numrows : Nat)
  | barray (pool blocksperrow numrows : Nat)
  | free (pool : Nat)
deriving DecidableEq, Repr

/-- One request; after an error exit the application goes on with the state as it is (setjmp/longjmp). -/
def step (A : Nat) (env : Env) (s : St) : Op → St
  | .small p n => (allocSmall A env p n s).2
  | .large p n => (allocLarge A env p n s).2
  | .sarray p ss w h => (allocSArray A env p ss w h s).2
  | .barray p w h => (allocBArray A env p w h s).2
  | .free p => (freePool A p s).2

/-- A history of requests. -/
def run (A : Nat) (env : Env) (ops : List Op) (s : St) : St := ops.foldl (step A env) s

end Verif.Pool
