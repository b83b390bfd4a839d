import Verif.Pool.Rows
/-
Property C33: for every history of allocation requests and pool releases, with any behaviour of malloc, the regions handed
out and not yet released are aligned, inside blocks obtained from malloc and not freed, and pairwise disjoint; every block
is freed exactly once; oversize requests are rejected; the accounting is exact.
-/
namespace Verif.Pool

theorem freeList_spec {A : Nat} : ∀ (l : List Pool) (s : St) (rest : List (Nat × Nat)) (T : Nat), (∀ p ∈ l, p.Ok A) →
    List.Perm s.live (l.map Pool.blk ++ rest) → s.total = (l.map Pool.size).sum + T →
    List.Perm (freeList A l s).live rest ∧ (freeList A l s).total = T ∧ (freeList A l s).badFree = s.badFree ∧
    (freeList A l s).small = s.small ∧ (freeList A l s).large = s.large ∧ (freeList A l s).objs = s.objs ∧ (s.live.Pairwise Apart → (freeList A l s).live.Pairwise Apart) := by
  intro l
  induction l with
  | nil => intro s rest T _ hp ht; exact ⟨by simpa [freeList] using hp, by simpa [freeList] using ht, rfl, rfl, rfl, rfl, id⟩
  | cons p ps ih =>
    intro s rest T hok hp ht
    have hs := (hok p (List.mem_cons_self ..)).1
    have hmem : (p.base, p.used + p.left + hdr + A - 1) ∈ s.live := by
      rw [← hs]
      exact hp.mem_iff.2 (by simp [Pool.blk])
    have hrel : release p.base (p.used + p.left + hdr + A - 1) s = { s with live := s.live.erase (p.base, p.used + p.left + hdr + A - 1) } := by
      unfold release; rw [if_pos hmem]
    unfold freeList
    simp only [hrel]
    have hp' : List.Perm (s.live.erase (p.base, p.used + p.left + hdr + A - 1)) (ps.map Pool.blk ++ rest) := by
      have := hp.erase (p.base, p.used + p.left + hdr + A - 1)
      simp only [List.map_cons, List.cons_append, Pool.blk, hs, List.erase_cons_head] at this
      exact this
    simp only [List.map_cons, List.sum_cons] at ht
    have h1 := ih { s with live := s.live.erase (p.base, p.used + p.left + hdr + A - 1), total := s.total - (p.used + p.left + hdr + A - 1) } rest T
      (fun q hq => hok q (List.mem_cons.2 (Or.inr hq))) hp' (by show s.total - _ = _; omega)
    obtain ⟨a1, a2, a3, a4, a5, a6, a7⟩ := h1
    exact ⟨a1, a2, a3, a4, a5, a6, fun h => a7 (h.sublist List.erase_sublist)⟩

theorem all_perm {s : St} {pid : Nat} (hp : pid < 2) : List.Perm (all s) (s.large pid ++ (s.small pid ++ (s.small (1 - pid) ++ s.large (1 - pid)))) := by
  have e : pid = 0 ∨ pid = 1 := by omega
  unfold all
  rcases e with rfl | rfl
  · simp only [Nat.sub_zero]
    generalize s.small 0 = a; generalize s.small 1 = b; generalize s.large 0 = c; generalize s.large 1 = d
    have h1 : List.Perm (a ++ b ++ c ++ d) (c ++ (a ++ b) ++ d) := List.perm_append_comm.append_right d
    simpa [List.append_assoc] using h1
  · simp only [Nat.sub_self]
    generalize s.small 0 = a; generalize s.small 1 = b; generalize s.large 0 = c; generalize s.large 1 = d
    have h1 : List.Perm (a ++ b ++ c ++ d) (d ++ (a ++ b ++ c)) := List.perm_append_comm
    have h2 : List.Perm (a ++ b ++ c) (b ++ a ++ c) := List.perm_append_comm.append_right c
    simpa [List.append_assoc] using h1.trans (h2.append_left d)

theorem freePool_inv {A ctl : Nat} {s : St} (h : Inv A ctl s) (pid : Nat) :
    Inv A ctl (freePool A pid s).2 ∧ (pid < 2 → (freePool A pid s).1 = .ok () ∧ (freePool A pid s).2.small pid = [] ∧ (freePool A pid s).2.large pid = [] ∧
      (freePool A pid s).2.small (1 - pid) = s.small (1 - pid) ∧ (freePool A pid s).2.large (1 - pid) = s.large (1 - pid)) ∧
    (pid < 2 → (freePool A pid s).2.objs = s.objs.filter (fun o => o.pool ≠ pid)) ∧ (¬ pid < 2 → freePool A pid s = (.error .badPool, s)) := by
  unfold freePool
  by_cases hp : pid ≥ 2
  · rw [if_pos hp]; exact ⟨h, fun h => absurd h (by omega), fun h => absurd h (by omega), fun _ => rfl⟩
  rw [if_neg hp]
  have hp : pid < 2 := by omega
  have hap := all_perm (s := s) hp
  simp only
  have hperm := h.perm.trans ((hap.map Pool.blk).cons (ctl, ctlSize))
  have htot := h.total
  rw [perm_sum (hap.map Pool.size)] at htot
  generalize hrest : s.small (1 - pid) ++ s.large (1 - pid) = rest at *
  simp only [List.map_append, List.sum_append] at hperm htot
  obtain ⟨a1, a2, a3, a4, a5, a6, a7⟩ := freeList_spec (A := A) (s.large pid) { s with large := setL s.large pid [] }
    ((s.small pid).map Pool.blk ++ ((ctl, ctlSize) :: rest.map Pool.blk)) (((s.small pid).map Pool.size).sum + (ctlSize + (rest.map Pool.size).sum))
    (fun p hpp => h.ok p (mem_all hp (List.mem_append.2 (Or.inr hpp)))) (by
      refine hperm.trans ?_
      refine List.perm_middle.symm.trans ?_
      refine (List.Perm.append_left _ ?_)
      exact List.perm_middle.symm) (by show s.total = _; omega)
  generalize freeList A (s.large pid) { s with large := setL s.large pid [] } = s1 at *
  have hs1 : s1.small = s.small := a4
  have a7 := a7 h.apart
  obtain ⟨b1, b2, b3, b4, b5, b6, b7⟩ := freeList_spec (A := A) (s1.small pid) { s1 with small := setL s1.small pid [] } ((ctl, ctlSize) :: rest.map Pool.blk)
    (ctlSize + (rest.map Pool.size).sum) (fun p hpp => h.ok p (mem_all hp (List.mem_append.2 (Or.inl (by rw [hs1] at hpp; exact hpp)))))
    (by rw [hs1]; exact a1) (by rw [hs1]; exact a2)
  have b7 := b7 a7
  generalize freeList A (s1.small pid) { s1 with small := setL s1.small pid [] } = s2 at *
  have c1 : s2.small = setL s.small pid [] := by rw [b4, ← hs1]
  have c2 : s2.large = setL s.large pid [] := by rw [b5]; exact a5
  have c3 : s2.objs = s.objs := by rw [b6]; exact a6
  have hne : 1 - pid ≠ pid := by omega
  have hall : all s2 = rest ∨ List.Perm (all s2) rest := by
    right
    refine (all_perm hp).trans ?_
    rw [c1, c2]
    simp only [setL, if_pos, if_neg hne, List.nil_append]
    rw [← hrest]
  have hall : List.Perm (all s2) rest := by rcases hall with h | h; exact h ▸ List.Perm.refl _; exact h
  have hsub : ∀ q ∈ rest, q ∈ all s := fun q hq => hap.mem_iff.2 (by simp [hq])
  refine ⟨⟨?_, b7, ?_, ?_, ?_, ?_, ?_⟩, ?_, ?_, fun h => absurd hp h⟩
  · exact b1.trans ((hall.map Pool.blk).symm.cons _)
  · intro q hq; exact h.ok q (hsub q (hall.mem_iff.1 hq))
  · intro o ho
    have ho := List.mem_filter.1 ho
    rw [c3] at ho
    have hne : o.pool ≠ pid := by simpa using ho.2
    obtain ⟨o1, o2, q, hq, q1, q2⟩ := h.objs o ho.1
    refine ⟨o1, o2, q, ?_, q1, q2⟩
    show q ∈ s2.small o.pool ++ s2.large o.pool
    rw [c1, c2]
    simp only [setL, if_neg hne]
    exact hq
  · show (s2.objs.filter _).Pairwise _
    rw [c3]
    exact h.disj.sublist List.filter_sublist
  · show s2.total = ctlSize + ((all s2).map Pool.size).sum
    rw [b2, perm_sum (hall.map Pool.size)]
  · show s2.badFree = false
    rw [b3]; show s1.badFree = false; rw [a3]; exact h.good
  · intro _
    refine ⟨by simp, ?_, ?_, ?_, ?_⟩
    · show s2.small pid = []; rw [c1]; simp [setL]
    · show s2.large pid = []; rw [c2]; simp [setL]
    · show s2.small (1 - pid) = _; rw [c1]; simp [setL, hne]
    · show s2.large (1 - pid) = _; rw [c2]; simp [setL, hne]
  · intro _
    show s2.objs.filter _ = _
    rw [c3]

/-! ### the specification: what the application sees -/

/-- A region of memory the application was given: pool, address, length. -/
structure Region where
  pool : Nat
  addr : Nat
  len : Nat
deriving DecidableEq, Repr

/-- What a request returned: an address, or an address of row pointers and the rows, or nothing. -/
inductive Ret where
  | ptr (a : Nat)
  | rows (a : Nat) (rows : List Nat)
  | done
  | fail
deriving DecidableEq, Repr

def Ret.ofPtr : Except Err Nat → Ret
  | .ok a => .ptr a
  | .error _ => .fail
def Ret.ofRows : Except Err (Nat × List Nat) → Ret
  | .ok (a, r) => .rows a r
  | .error _ => .fail
def Ret.ofUnit : Except Err Unit → Ret
  | .ok _ => .done
  | .error _ => .fail

/-- Outcome of one request. -/
def ret (A : Nat) (env : Env) (s : St) : Op → Ret
  | .small p n => .ofPtr (allocSmall A env p n s).1
  | .large p n => .ofPtr (allocLarge A env p n s).1
  | .sarray p ss w h => .ofRows (allocSArray A env p ss w h s).1
  | .barray p w h => .ofRows (allocBArray A env p w h s).1
  | .free p => .ofUnit (freePool A p s).1

/-- The requests and what they returned, in order. -/
def log (A : Nat) (env : Env) : List Op → St → List (Op × Ret)
  | [], _ => []
  | o :: os, s => (o, ret A env s o) :: log A env os (step A env s o)

/-- The regions outstanding after one more request: every object asked for, and every row of an array, with the length
asked for; a release of a pool takes the regions of that pool away. -/
def outstanding1 (rs : List Region) : Op × Ret → List Region
  | (.small p n, .ptr a) => ⟨p, a, n⟩ :: rs
  | (.large p n, .ptr a) => ⟨p, a, n⟩ :: rs
  | (.sarray p ss w h, .rows a rows) => ⟨p, a, h * 8⟩ :: rows.map (fun r => ⟨p, r, w * ss⟩) ++ rs
  | (.barray p w h, .rows a rows) => ⟨p, a, h * 8⟩ :: rows.map (fun r => ⟨p, r, w * 128⟩) ++ rs
  | (.free p, .done) => rs.filter (fun r => r.pool ≠ p)
  | _ => rs

def outstanding (l : List (Op × Ret)) : List Region := l.foldl outstanding1 []

/-- sample_size is 1 or 2 (jmemmgr.c:447-450). -/
def Op.Ok : Op → Prop
  | .sarray _ ss _ _ => ss = 1 ∨ ss = 2
  | _ => True

/-- Two regions share no byte. -/
def Region.Disjoint (x y : Region) : Prop := ∀ a, ¬ (x.addr ≤ a ∧ a < x.addr + x.len ∧ y.addr ≤ a ∧ a < y.addr + y.len)

/-! ### the invariant linking the two -/

structure Link (A ctl : Nat) (s : St) (rs : List Region) : Prop where
  inv : Inv A ctl s
  within : ∀ r ∈ rs, Within r.pool s.objs r.addr r.len
  align : ∀ r ∈ rs, r.addr % A = 0
  apart : rs.Pairwise (fun x y => Apart (x.addr, x.len) (y.addr, y.len))

theorem within_len {pid : Nat} {objs : List Obj} {r n n' : Nat} (h : Within pid objs r n) (hn : n' ≤ n) : Within pid objs r n' := by
  obtain ⟨o, h1, h2, h3, h4⟩ := h
  exact ⟨o, h1, h2, h3, by omega⟩

/-- Adding regions that lie in new objects. -/
theorem Link.add {A ctl : Nat} {s s' : St} {rs add : List Region} (h : Link A ctl s rs) (hi : Inv A ctl s') {new : List Obj} (ho : s'.objs = new ++ s.objs)
    (hw : ∀ r ∈ add, Within r.pool new r.addr r.len) (ha : ∀ r ∈ add, r.addr % A = 0)
    (hp : add.Pairwise (fun x y => Apart (x.addr, x.len) (y.addr, y.len))) : Link A ctl s' (add ++ rs) := by
  refine ⟨hi, ?_, ?_, ?_⟩
  · intro r hr
    rw [ho]
    rcases List.mem_append.1 hr with hr | hr
    · exact (hw r hr).mono (fun o h => List.mem_append.2 (Or.inl h))
    · exact (h.within r hr).mono (fun o h => List.mem_append.2 (Or.inr h))
  · intro r hr
    rcases List.mem_append.1 hr with hr | hr
    · exact ha r hr
    · exact h.align r hr
  · refine List.pairwise_append.2 ⟨hp, h.apart, ?_⟩
    intro x hx y hy
    obtain ⟨o, h1, _, h3, h4⟩ := hw x hx
    obtain ⟨o', g1, _, g3, g4⟩ := h.within y hy
    have hd := hi.disj
    rw [ho] at hd
    exact apart_within ((List.pairwise_append.1 hd).2.2 o h1 o' g1) h3 h4 g3 g4

theorem Link.same {A ctl : Nat} {s s' : St} {rs : List Region} (h : Link A ctl s rs) (hi : Inv A ctl s') {new : List Obj} (ho : s'.objs = new ++ s.objs) : Link A ctl s' rs := by
  have := h.add hi ho (add := []) (by simp) (by simp) (by simp)
  simpa using this

theorem Gives.link {A ctl pid n a : Nat} {s s' : St} {rs : List Region} (h : Link A ctl s rs) (hi : Inv A ctl s') (g : Gives A pid n s s' a) :
    Link A ctl s' (⟨pid, a, n⟩ :: rs) := by
  obtain ⟨⟨sz, h1, h2⟩, h3, h4⟩ := g
  refine h.add (add := [⟨pid, a, n⟩]) (new := [⟨pid, a, sz⟩]) hi (by rw [h2]; rfl) ?_ ?_ (by simp)
  · intro r hr
    rw [List.mem_singleton.1 hr]
    exact ⟨_, List.mem_singleton_self _, rfl, Nat.le_refl _, by show a + n ≤ a + sz; omega⟩
  · intro r hr
    rw [List.mem_singleton.1 hr]; exact h3

theorem GivesRows.link {A ctl pid width len numrows a : Nat} {rows : List Nat} {s s' : St} {rs : List Region} (h : Link A ctl s rs) (hi : Inv A ctl s')
    (g : GivesRows A pid width numrows s s' a rows) (hl : len ≤ width) : Link A ctl s' (⟨pid, a, numrows * 8⟩ :: rows.map (fun r => ⟨pid, r, len⟩) ++ rs) := by
  obtain ⟨g1, ⟨new, g2, g3, g4⟩, g5, g6⟩ := g
  refine h.add (new := new) hi g2 ?_ ?_ ?_
  · intro r hr
    rcases List.mem_cons.1 hr with rfl | hr
    · exact g4
    · obtain ⟨x, hx, rfl⟩ := List.mem_map.1 hr
      exact within_len (g3.within x hx) hl
  · intro r hr
    rcases List.mem_cons.1 hr with rfl | hr
    · exact g5
    · obtain ⟨x, hx, rfl⟩ := List.mem_map.1 hr
      exact g3.align x hx
  · refine List.pairwise_cons.2 ⟨?_, ?_⟩
    · intro y hy
      obtain ⟨x, hx, rfl⟩ := List.mem_map.1 hy
      have := g6 x hx
      unfold Apart at *; simp only at *; omega
    · rw [List.pairwise_map]
      refine g3.apart.imp ?_
      intro x y hxy
      unfold Apart at *; simp only at *; omega

/-- The width of a row of samples. -/
theorem sample_width {A ss w : Nat} (hA : AOk A) (hs : ss = 1 ∨ ss = 2) (hw : w ≤ maxChunk) :
    w * ss ≤ roundUp w (2 * A / ss) % 2 ^ 32 * ss ∧ (roundUp w (2 * A / ss) % 2 ^ 32 * ss) % A = 0 ∧ (roundUp w (2 * A / ss) % 2 ^ 32 * ss) % (2 * A) = 0 := by
  have key : ∀ k, k ≤ 6 → w ≤ roundUp w (2 ^ k) % 2 ^ 32 ∧ roundUp w (2 ^ k) % 2 ^ 32 % 2 ^ k = 0 := by
    intro k hk
    have hp : 2 ^ k ≤ 2 ^ 6 := Nat.pow_le_pow_right (by omega) hk
    have hpos := Nat.two_pow_pos k
    rw [roundUp_eq (by omega) (by unfold maxChunk at hw; omega)]
    obtain ⟨b1, b2⟩ := ceil_bounds (a := w) hpos
    unfold maxChunk at hw
    rw [Nat.mod_eq_of_lt (by omega)]
    exact ⟨b1, Nat.mul_mod_left _ _⟩
  rcases hs with rfl | rfl <;> rcases hA with rfl | rfl | rfl
  · have := key 4 (by omega); simp only [show 2 * 8 / 1 = 2 ^ 4 by decide]; generalize roundUp w (2 ^ 4) % 2 ^ 32 = x at *; omega
  · have := key 5 (by omega); simp only [show 2 * 16 / 1 = 2 ^ 5 by decide]; generalize roundUp w (2 ^ 5) % 2 ^ 32 = x at *; omega
  · have := key 6 (by omega); simp only [show 2 * 32 / 1 = 2 ^ 6 by decide]; generalize roundUp w (2 ^ 6) % 2 ^ 32 = x at *; omega
  · have := key 3 (by omega); simp only [show 2 * 8 / 2 = 2 ^ 3 by decide]; generalize roundUp w (2 ^ 3) % 2 ^ 32 = x at *; omega
  · have := key 4 (by omega); simp only [show 2 * 16 / 2 = 2 ^ 4 by decide]; generalize roundUp w (2 ^ 4) % 2 ^ 32 = x at *; omega
  · have := key 5 (by omega); simp only [show 2 * 32 / 2 = 2 ^ 5 by decide]; generalize roundUp w (2 ^ 5) % 2 ^ 32 = x at *; omega

theorem step_link {A ctl : Nat} (hA : AOk A) {env : Env} (he : env.Good) {s : St} {rs : List Region} (h : Link A ctl s rs) (op : Op) (hop : op.Ok) :
    Link A ctl (step A env s op) (outstanding1 rs (op, ret A env s op)) := by
  cases op with
  | small p n =>
    obtain ⟨g1, g2, g3⟩ := allocSmall_inv hA he h.inv p n
    show Link A ctl (allocSmall A env p n s).2 _
    simp only [ret]
    cases e : (allocSmall A env p n s).1 with
    | ok a => exact Gives.link h g1 (g2 a e)
    | error er => exact h.same g1 (new := []) (g3 er e)
  | large p n =>
    obtain ⟨g1, g2, g3⟩ := allocLarge_inv hA he h.inv p n
    show Link A ctl (allocLarge A env p n s).2 _
    simp only [ret]
    cases e : (allocLarge A env p n s).1 with
    | ok a => exact Gives.link h g1 (g2 a e)
    | error er => exact h.same g1 (new := []) (g3 er e)
  | sarray p ss w hh =>
    show Link A ctl (allocSArray A env p ss w hh s).2 _
    simp only [ret]
    unfold allocSArray
    by_cases h1 : A % ss ≠ 0
    · rw [if_pos h1]; exact h
    by_cases h2 : w > maxChunk
    · rw [if_neg h1, if_pos h2]; exact h
    rw [if_neg h1, if_neg h2]
    obtain ⟨w1, w2, w3⟩ := sample_width hA hop (show w ≤ maxChunk by omega)
    generalize roundUp w (2 * A / ss) % 2 ^ 32 * ss = width at *
    obtain ⟨g1, ⟨new, g2⟩, g3⟩ := allocRows_inv (pid := p) (numrows := hh) hA w2 he h.inv
    cases e : (allocRows A env p width hh s).1 with
    | ok ar => obtain ⟨a, r⟩ := ar; exact GivesRows.link h g1 (g3 a r e).1 w1
    | error er => exact h.same g1 g2
  | barray p w hh =>
    show Link A ctl (allocBArray A env p w hh s).2 _
    simp only [ret]
    unfold allocBArray
    by_cases h1 : 128 % A ≠ 0
    · rw [if_pos h1]; exact h
    rw [if_neg h1]
    have w2 : (w * 128) % A = 0 := by rcases hA with rfl | rfl | rfl <;> omega
    obtain ⟨g1, ⟨new, g2⟩, g3⟩ := allocRows_inv (pid := p) (numrows := hh) hA w2 he h.inv
    cases e : (allocRows A env p (w * 128) hh s).1 with
    | ok ar => obtain ⟨a, r⟩ := ar; exact GivesRows.link h g1 (g3 a r e).1 (Nat.le_refl _)
    | error er => exact h.same g1 g2
  | free p =>
    obtain ⟨g1, g2, g3, g4⟩ := freePool_inv h.inv p
    show Link A ctl (freePool A p s).2 _
    simp only [ret]
    by_cases hp : p < 2
    · rw [(g2 hp).1]
      refine ⟨g1, ?_, ?_, h.apart.sublist List.filter_sublist⟩
      · intro r hr
        have hr := List.mem_filter.1 hr
        have hne : r.pool ≠ p := by simpa using hr.2
        obtain ⟨o, o1, o2, o3⟩ := h.within r hr.1
        rw [g3 hp]
        exact ⟨o, List.mem_filter.2 ⟨o1, by simpa [o2] using hne⟩, o2, o3⟩
      · intro r hr; exact h.align r (List.mem_filter.1 hr).1
    · rw [g4 hp]; exact h

theorem run_link {A ctl : Nat} (hA : AOk A) {env : Env} (he : env.Good) : ∀ (ops : List Op) (s : St) (rs : List Region), (∀ o ∈ ops, o.Ok) → Link A ctl s rs →
    Link A ctl (run A env ops s) ((log A env ops s).foldl outstanding1 rs) := by
  intro ops
  induction ops with
  | nil => intro s rs _ h; exact h
  | cons o os ih =>
    intro s rs ho h
    exact ih _ _ (fun o h => ho o (List.mem_cons.2 (Or.inr h))) (step_link hA he h o (ho o (List.mem_cons_self ..)))

theorem init_link (A ctl : Nat) : Link A ctl (init ctl) [] := ⟨init_inv A ctl, by simp, by simp, by simp⟩

/-! ### the theorems -/

/-- **C33 (a)** After every history of requests, whatever malloc does, each outstanding region is aligned and lies in a block
that malloc returned and that has not been freed, and any two outstanding regions are disjoint; in particular the rows of
arrays. -/
theorem C33_regions {A : Nat} (hA : AOk A) {env : Env} (he : env.Good) (ctl : Nat) (ops : List Op) (ho : ∀ o ∈ ops, o.Ok) :
    (∀ r ∈ outstanding (log A env ops (init ctl)), r.addr % A = 0 ∧
      ∃ b ∈ (run A env ops (init ctl)).live, b ≠ (ctl, ctlSize) ∧ b.1 < r.addr ∧ r.addr + r.len ≤ b.1 + b.2) ∧
    (outstanding (log A env ops (init ctl))).Pairwise Region.Disjoint := by
  have h := run_link hA he ops (init ctl) [] ho (init_link A ctl)
  refine ⟨?_, ?_⟩
  · intro r hr
    refine ⟨h.align r hr, ?_⟩
    obtain ⟨o, o1, o2, o3, o4⟩ := h.within r hr
    obtain ⟨p1, p2, p, hp, q1, q2⟩ := h.inv.objs o o1
    have hpa := mem_all p1 hp
    have hd := data_le hA (h.inv.ok p hpa)
    have ds := (dataStart_spec hA p.base).1
    have hpl : p.blk ∈ (run A env ops (init ctl)).live := h.inv.perm.mem_iff.2 (List.mem_cons.2 (Or.inr (List.mem_map.2 ⟨p, hpa, rfl⟩)))
    refine ⟨p.blk, hpl, ?_, ?_, ?_⟩
    · intro hc
      have := (h.inv.perm.pairwise_iff (R := Apart) (fun hx => hx.symm)).1 h.inv.apart
      have := (List.pairwise_cons.1 this).1 p.blk (List.mem_map.2 ⟨p, hpa, rfl⟩)
      rw [hc] at this
      unfold Apart ctlSize at this
      simp only at this
      omega
    · show p.base < r.addr; unfold hdr at ds; omega
    · show r.addr + r.len ≤ p.base + p.size; omega
  · refine h.apart.imp ?_
    intro x y hxy a
    unfold Apart at hxy
    simp only at hxy
    omega

/-- **C33 (b)** Nothing is ever freed twice or without having been allocated; releasing a pool releases its blocks and only
those; destroying the manager returns every block it ever obtained. -/
theorem C33_freed_once {A : Nat} (hA : AOk A) {env : Env} (he : env.Good) (ctl : Nat) (ops : List Op) (ho : ∀ o ∈ ops, o.Ok) :
    (run A env ops (init ctl)).badFree = false ∧ (run A env ops (init ctl)).live.Nodup ∧
    (selfDestruct A ctl (run A env ops (init ctl))).live = [] ∧ (selfDestruct A ctl (run A env ops (init ctl))).badFree = false := by
  have h := (run_link hA he ops (init ctl) [] ho (init_link A ctl)).inv
  generalize run A env ops (init ctl) = s at h
  have hnd : s.live.Nodup := by
    have hpos : ∀ x ∈ s.live, 0 < x.2 := by
      intro x hx
      rcases List.mem_cons.1 (h.perm.mem_iff.1 hx) with rfl | hx
      · show 0 < ctlSize; decide
      · obtain ⟨p, hp, rfl⟩ := List.mem_map.1 hx
        have := (h.ok p hp).1
        unfold hdr at this
        show 0 < p.size
        omega
    refine List.Pairwise.imp_of_mem ?_ h.apart
    intro x y hx hy hxy e
    subst e
    have := hpos x hx
    unfold Apart at hxy
    omega
  refine ⟨h.good, hnd, ?_⟩
  unfold selfDestruct
  obtain ⟨g1, g2, _⟩ := freePool_inv h 1
  have g2 := g2 (by omega)
  generalize (freePool A 1 s).2 = s1 at *
  obtain ⟨k1, k2, _⟩ := freePool_inv g1 0
  have k2 := k2 (by omega)
  generalize (freePool A 0 s1).2 = s2 at *
  have : all s2 = [] := by
    unfold all
    have e1 : s2.small 0 = [] := k2.2.1
    have e2 : s2.large 0 = [] := k2.2.2.1
    have e3 : s2.small 1 = [] := k2.2.2.2.1.trans g2.2.1
    have e4 : s2.large 1 = [] := k2.2.2.2.2.trans g2.2.2.1
    rw [e1, e2, e3, e4]; rfl
  have hp := k1.perm
  rw [this] at hp
  have hl : s2.live = [(ctl, ctlSize)] := by simpa using hp
  unfold release
  rw [hl]
  simp [k1.good]

/-- **C33 (c)** total_space_allocated is the number of bytes obtained from malloc and not freed. -/
theorem C33_accounting {A : Nat} (hA : AOk A) {env : Env} (he : env.Good) (ctl : Nat) (ops : List Op) (ho : ∀ o ∈ ops, o.Ok) :
    (run A env ops (init ctl)).total = ((run A env ops (init ctl)).live.map Prod.snd).sum := by
  have h := (run_link hA he ops (init ctl) [] ho (init_link A ctl)).inv
  rw [h.total, perm_sum (h.perm.map Prod.snd)]
  simp only [List.map_cons, List.sum_cons, List.map_map]
  rfl

/-- **C33 (d)** Requests above the chunk limit, or too wide for one row, are rejected without any effect. -/
theorem C33_oversize (A : Nat) (env : Env) (s : St) (p n : Nat) :
    (n > maxChunk → allocSmall A env p n s = (.error (.oom 7), s) ∧ allocLarge A env p n s = (.error (.oom 8), s) ∧
      ∀ ss h, A % ss = 0 → allocSArray A env p ss n h s = (.error (.oom 9), s)) ∧
    (AOk A → n * 128 > maxChunk → ∀ h, allocBArray A env p n h s = (.error .width, s)) := by
  refine ⟨fun h => ⟨by unfold allocSmall; rw [if_pos h], by unfold allocLarge; rw [if_pos h], ?_⟩, ?_⟩
  · intro ss hh ha
    unfold allocSArray
    rw [if_neg (by omega), if_pos h]
  · intro hA h hh
    unfold allocBArray allocRows
    rw [if_neg (by rcases hA with rfl | rfl | rfl <;> decide), if_neg (by unfold maxChunk at h; omega)]
    simp only
    rw [if_pos]
    apply Nat.div_eq_of_lt
    unfold hdr maxChunk at *
    omega

/-- malloc that always finds memory. -/
def Env.Rich (env : Env) : Prop := ∀ t live n, (env t live n).isSome

/-- **C33 (e)** As long as malloc finds memory, requests within the limit succeed. -/
theorem C33_progress {A : Nat} (hA : AOk A) {env : Env} (he : env.Rich) (s : St) (p n : Nat) (hp : p < 2) (hn : n + 2 * A + 22 ≤ maxChunk) :
    (∃ a, (allocSmall A env p n s).1 = .ok a) ∧ (∃ a, (allocLarge A env p n s).1 = .ok a) := by
  have hr := roundUp_spec hA (show n ≤ maxChunk by omega)
  have hA1 : 8 ≤ A ∧ A ≤ 32 := by rcases hA with rfl | rfl | rfl <;> omega
  have hm : ¬ (hdr + roundUp n A + A - 1) % 2 ^ 64 > maxChunk := by
    have := Nat.mod_le (hdr + roundUp n A + A - 1) (2 ^ 64)
    unfold hdr at *
    omega
  have hmal : ∀ k s, ∃ b, (malloc env k s).1 = some b := by
    intro k s
    have := he s.clock s.live k
    unfold malloc
    cases e : env s.clock s.live k with
    | none => rw [e] at this; cases this
    | some b => exact ⟨b, rfl⟩
  constructor
  · unfold allocSmall
    simp only
    rw [if_neg (by omega), if_neg hm, if_neg (by omega)]
    cases e : findPool (roundUp n A) (s.small p) with
    | some i => exact ⟨_, rfl⟩
    | none =>
      simp only
      unfold getSmall
      generalize (if (if s.small p = [] then firstSlop p else extraSlop p) > maxChunk - (hdr + roundUp n A + A - 1) then maxChunk - (hdr + roundUp n A + A - 1)
        else (if s.small p = [] then firstSlop p else extraSlop p)) = slop
      obtain ⟨b, hb⟩ := hmal (hdr + roundUp n A + A - 1 + slop) s
      cases e2 : malloc env (hdr + roundUp n A + A - 1 + slop) s with
      | mk r s1 => rw [e2] at hb; subst hb; exact ⟨_, rfl⟩
  · unfold allocLarge
    simp only
    rw [if_neg (by omega), if_neg hm, if_neg (by omega)]
    obtain ⟨b, hb⟩ := hmal (roundUp n A + hdr + A - 1) s
    cases e2 : malloc env (roundUp n A + hdr + A - 1) s with
    | mk r s1 => rw [e2] at hb; subst hb; exact ⟨_, rfl⟩

/-- A multiple of twice the alignment that leaves room for the header also leaves room for the alignment padding. -/
theorem large_fits {A : Nat} (hA : A = 8 ∨ A = 32) {env : Env} (he : env.Rich) (s : St) {p n : Nat} (hp : p < 2) (hn : n ≤ maxChunk - hdr) (hm : n % (2 * A) = 0) :
    ∃ a s', allocLarge A env p n s = (.ok a, s') := by
  have hA' : AOk A := by rcases hA with rfl | rfl; exact Or.inl rfl; exact Or.inr (Or.inr rfl)
  have hr := roundUp_spec hA' (show n ≤ maxChunk by omega)
  have hrn : roundUp n A = n := by
    generalize roundUp n A = x at hr
    rcases hA with rfl | rfl <;> omega
  unfold allocLarge
  simp only [hrn]
  have hsz : ¬ (hdr + n + A - 1) % 2 ^ 64 > maxChunk := by
    have := Nat.mod_le (hdr + n + A - 1) (2 ^ 64)
    unfold hdr maxChunk at *
    rcases hA with rfl | rfl <;> omega
  rw [if_neg (by omega), if_neg hsz, if_neg (by omega)]
  have := he s.clock s.live (n + hdr + A - 1)
  unfold malloc
  cases e : env s.clock s.live (n + hdr + A - 1) with
  | none => rw [e] at this; cases this
  | some b => exact ⟨_, _, rfl⟩

theorem chunkLoop_fits {A p width numrows : Nat} (hA : A = 8 ∨ A = 32) {env : Env} (he : env.Rich) (hp : p < 2) (hw : width % (2 * A) = 0) :
    ∀ (k rpc currow : Nat) (rows : List Nat) (s : St), rpc * width ≤ maxChunk - hdr → ∃ r s', chunkLoop A env p width numrows k rpc currow rows s = (.ok r, s') := by
  intro k
  induction k with
  | zero => intro rpc currow rows s _; exact ⟨_, _, rfl⟩
  | succ k ih =>
    intro rpc currow rows s hr
    unfold chunkLoop
    by_cases hlt : currow < numrows
    · rw [if_pos hlt]
      simp only
      have hle : min rpc (numrows - currow) * width ≤ maxChunk - hdr := Nat.le_trans (Nat.mul_le_mul_right _ (Nat.min_le_left _ _)) hr
      obtain ⟨a, s', e⟩ := large_fits hA he s (n := min rpc (numrows - currow) * width) hp hle (by rw [Nat.mul_mod, hw]; simp)
      rw [e]
      exact ih _ _ _ _ hle
    · rw [if_neg hlt]; exact ⟨_, _, rfl⟩

/-- **C33 (e')** With the alignment of the LP64 builds (8, or 32 with SIMD) and while malloc finds memory, every array whose rows fit a
chunk and whose row pointers fit a chunk is allocated: splitting into chunks never produces an oversize request. -/
theorem C33_array_progress {A : Nat} (hA : A = 8 ∨ A = 32) {env : Env} (he : env.Rich) (s : St) (p h : Nat) (hp : p < 2) (hh : h * 8 + 2 * A + 22 ≤ maxChunk) :
    (∀ ss w, ss = 1 ∨ ss = 2 → 0 < w → w * ss + 128 ≤ maxChunk → ∃ r, (allocSArray A env p ss w h s).1 = .ok r) ∧
    (∀ w, 0 < w → w * 128 + 128 ≤ maxChunk → ∃ r, (allocBArray A env p w h s).1 = .ok r) := by
  have hA' : AOk A := by rcases hA with rfl | rfl; exact Or.inl rfl; exact Or.inr (Or.inr rfl)
  have key : ∀ width, 0 < width → width ≤ maxChunk - hdr → width % (2 * A) = 0 → ∃ r, (allocRows A env p width h s).1 = .ok r := by
    intro width h0 h1 h2
    unfold allocRows
    rw [if_neg (by omega)]
    simp only
    have hq : 0 < (maxChunk - hdr) / width := Nat.div_pos h1 h0
    rw [if_neg (by omega)]
    obtain ⟨⟨a, ea⟩, _⟩ := C33_progress hA' he s p (h * 8) hp hh
    cases e : allocSmall A env p (h * 8) s with
    | mk r s1 =>
      rw [e] at ea
      simp only at ea
      subst ea
      simp only
      have hle : (if (maxChunk - hdr) / width < h then (maxChunk - hdr) / width else h) ≤ (maxChunk - hdr) / width := by split <;> omega
      obtain ⟨r, s', e2⟩ := chunkLoop_fits (numrows := h) hA he hp h2 (h + 1) _ 0 [] s1 (Nat.le_trans (Nat.mul_le_mul_right width hle) (Nat.div_mul_le_self _ _))
      rw [e2]
      exact ⟨_, rfl⟩
  refine ⟨?_, ?_⟩
  · intro ss w hs hw hb
    unfold allocSArray
    have hwm : w ≤ maxChunk := by rcases hs with rfl | rfl <;> omega
    rw [if_neg (by rcases hs with rfl | rfl <;> rcases hA with rfl | rfl <;> decide), if_neg (by omega)]
    obtain ⟨w1, w2, w3⟩ := sample_width hA' hs hwm
    have hup : roundUp w (2 * A / ss) % 2 ^ 32 * ss ≤ w * ss + 2 * A := by
      have key2 : ∀ k, k ≤ 6 → roundUp w (2 ^ k) % 2 ^ 32 ≤ w + 2 ^ k - 1 := by
        intro k hk
        have hp : 2 ^ k ≤ 2 ^ 6 := Nat.pow_le_pow_right (by omega) hk
        rw [roundUp_eq (by omega) (by unfold maxChunk at hwm; omega)]
        exact Nat.le_trans (Nat.mod_le _ _) (ceil_bounds (a := w) (Nat.two_pow_pos k)).2
      rcases hs with rfl | rfl <;> rcases hA with rfl | rfl
      · have := key2 4 (by omega); simp only [show 2 * 8 / 1 = 2 ^ 4 by decide]; omega
      · have := key2 6 (by omega); simp only [show 2 * 32 / 1 = 2 ^ 6 by decide]; omega
      · have := key2 3 (by omega); simp only [show 2 * 8 / 2 = 2 ^ 3 by decide]; omega
      · have := key2 5 (by omega); simp only [show 2 * 32 / 2 = 2 ^ 5 by decide]; omega
    generalize roundUp w (2 * A / ss) % 2 ^ 32 * ss = width at *
    have hws : 0 < w * ss := by rcases hs with rfl | rfl <;> omega
    refine key _ (by omega) ?_ w3
    unfold maxChunk hdr at *
    rcases hA with rfl | rfl <;> omega
  · intro w hw hb
    unfold allocBArray
    rw [if_neg (by rcases hA with rfl | rfl <;> decide)]
    refine key _ (by omega) ?_ (by rcases hA with rfl | rfl <;> omega)
    unfold maxChunk hdr at *
    omega

/-- **C33 (f)** Arrays: exactly the number of rows asked for, and the rows of one allocation chunk follow one another. -/
theorem C33_rows {A : Nat} (hA : AOk A) {env : Env} (he : env.Good) (ctl : Nat) (ops : List Op) (ho : ∀ o ∈ ops, o.Ok) (p w h a : Nat) (rows : List Nat) :
    let s := run A env ops (init ctl)
    (∀ ss, ss = 1 ∨ ss = 2 → ret A env s (.sarray p ss w h) = .rows a rows → rows.length = h ∧
      ∃ width rpc, w * ss ≤ width ∧ 0 < width ∧ rpc = min ((maxChunk - hdr) / width) h ∧
        ∀ i j, i % rpc = 0 → j < rpc → i + j < h → rows.getD (i + j) 0 = rows.getD i 0 + j * width) ∧
    (ret A env s (.barray p w h) = .rows a rows → rows.length = h ∧ 0 < w ∧ ∃ rpc, rpc = min ((maxChunk - hdr) / (w * 128)) h ∧
        ∀ i j, i % rpc = 0 → j < rpc → i + j < h → rows.getD (i + j) 0 = rows.getD i 0 + j * (w * 128)) := by
  intro s
  have hi : Inv A ctl s := (run_link hA he ops (init ctl) [] ho (init_link A ctl)).inv
  have hmin : ∀ x y : Nat, (if x < y then x else y) = min x y := by intro x y; split <;> omega
  have hz : ∀ width, (allocRows A env p width h s).1 = .ok (a, rows) → 0 < width := by
    intro width hh
    unfold allocRows at hh
    by_cases h0 : width = 0
    · rw [if_pos h0] at hh; cases hh
    · omega
  refine ⟨?_, ?_⟩
  · intro ss hss hret
    simp only [ret] at hret
    unfold allocSArray at hret
    by_cases h1 : A % ss ≠ 0
    · rw [if_pos h1] at hret; cases hret
    by_cases h2 : w > maxChunk
    · rw [if_neg h1, if_pos h2] at hret; cases hret
    rw [if_neg h1, if_neg h2] at hret
    obtain ⟨w1, w2, w3⟩ := sample_width hA hss (show w ≤ maxChunk by omega)
    generalize roundUp w (2 * A / ss) % 2 ^ 32 * ss = width at *
    obtain ⟨g1, _, g3⟩ := allocRows_inv (pid := p) (numrows := h) hA w2 he hi
    cases e : (allocRows A env p width h s).1 with
    | error er => rw [e] at hret; cases hret
    | ok ar =>
      obtain ⟨a', r'⟩ := ar
      rw [e] at hret
      cases hret
      obtain ⟨q1, q2⟩ := g3 _ _ e
      rw [hmin] at q2
      refine ⟨q1.count, width, _, w1, hz _ e, rfl, ?_⟩
      intro i j hi hj hij
      exact q2 i j hi hj (by rw [q1.count]; exact hij)
  · intro hret
    simp only [ret] at hret
    unfold allocBArray at hret
    by_cases h1 : 128 % A ≠ 0
    · rw [if_pos h1] at hret; cases hret
    rw [if_neg h1] at hret
    have w2 : (w * 128) % A = 0 := by rcases hA with rfl | rfl | rfl <;> omega
    obtain ⟨g1, _, g3⟩ := allocRows_inv (pid := p) (numrows := h) hA w2 he hi
    cases e : (allocRows A env p (w * 128) h s).1 with
    | error er => rw [e] at hret; cases hret
    | ok ar =>
      obtain ⟨a', r'⟩ := ar
      rw [e] at hret
      cases hret
      obtain ⟨q1, q2⟩ := g3 _ _ e
      rw [hmin] at q2
      refine ⟨q1.count, by have := hz _ e; omega, _, rfl, ?_⟩
      intro i j hi hj hij
      exact q2 i j hi hj (by rw [q1.count]; exact hij)

/-! ### examples -/

/-- A malloc that places every block behind all outstanding ones, with room between. -/
def bump : Env := fun _ live n => let b := live.foldl (fun m x => max m (x.1 + x.2)) 4096 + 5
  if b + n < 2 ^ 64 then some b else none

theorem foldl_max_ge (l : List (Nat × Nat)) : ∀ m, m ≤ l.foldl (fun m x => max m (x.1 + x.2)) m ∧ ∀ x ∈ l, x.1 + x.2 ≤ l.foldl (fun m x => max m (x.1 + x.2)) m := by
  induction l with
  | nil => intro m; exact ⟨Nat.le_refl _, by simp⟩
  | cons a l ih =>
    intro m
    obtain ⟨h1, h2⟩ := ih (max m (a.1 + a.2))
    refine ⟨by simp only [List.foldl_cons]; omega, ?_⟩
    intro x hx
    simp only [List.foldl_cons]
    rcases List.mem_cons.1 hx with rfl | hx
    · omega
    · exact h2 x hx

theorem bump_good : bump.Good := by
  intro t live n b h
  unfold bump at h
  simp only at h
  split at h
  · cases h
    have := foldl_max_ge live 4096
    refine ⟨by omega, by assumption, ?_⟩
    intro x hx
    have := this.2 x hx
    right
    show x.1 + x.2 ≤ _
    omega
  · cases h

/-- A history with both pools, all kinds of requests, and a release. -/
def exOps : List Op := [.small 0 100, .large 1 5000, .sarray 1 1 100 3, .barray 1 4 2, .small 1 7, .free 1, .small 0 2000, .barray 1 2 3]

example : (∀ o ∈ exOps, o.Ok) ∧ (outstanding (log 32 bump exOps (init 4096))).length = 6 ∧
    (outstanding (log 32 bump (exOps.take 5) (init 4096))).length = 10 ∧ (run 32 bump exOps (init 4096)).live.length = 5 := by
  refine ⟨?_, ?_⟩
  · intro o ho; simp only [exOps, List.mem_cons, List.not_mem_nil, or_false] at ho; rcases ho with rfl | rfl | rfl | rfl | rfl | rfl | rfl | rfl <;> simp [Op.Ok]
  · decide +kernel

example : ret 32 bump (init 4096) (.sarray 1 2 100 3) = .rows 4320 [20416, 20672, 20928] := by decide +kernel

end Verif.Pool
