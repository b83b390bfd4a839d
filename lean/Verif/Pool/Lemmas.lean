import Verif.Pool.Model
namespace Verif.Pool

/-- Values of ALIGN_SIZE (jmemmgr.c:86-94: 8 or 16 without SIMD, 32 with). -/
def AOk (A : Nat) : Prop := A = 8 ∨ A = 16 ∨ A = 32

theorem roundUp_eq {a k : Nat} (hk : k ≤ 63) (h : a + 2 ^ k ≤ 2 ^ 64) : roundUp a (2 ^ k) = (a + 2 ^ k - 1) / 2 ^ k * 2 ^ k := by
  have := Nat.two_pow_pos k
  unfold roundUp
  rw [Nat.mod_eq_of_lt (by omega), Verif.TJ.and_high_mask 64 k _ (by omega) (by omega)]

theorem AOk.pow {A : Nat} (h : AOk A) : ∃ k, 3 ≤ k ∧ k ≤ 5 ∧ A = 2 ^ k := by
  rcases h with rfl | rfl | rfl
  · exact ⟨3, by omega, by omega, rfl⟩
  · exact ⟨4, by omega, by omega, rfl⟩
  · exact ⟨5, by omega, by omega, rfl⟩

theorem ceil_bounds {a A : Nat} (hA : 0 < A) : a ≤ (a + A - 1) / A * A ∧ (a + A - 1) / A * A ≤ a + A - 1 := by
  have := Nat.div_add_mod (a + A - 1) A
  have h2 := Nat.mod_lt (a + A - 1) hA
  rw [Nat.mul_comm] at this
  omega

theorem roundUp_spec {A : Nat} (h : AOk A) {a : Nat} (ha : a ≤ maxChunk) :
    a ≤ roundUp a A ∧ roundUp a A ≤ a + A - 1 ∧ roundUp a A % A = 0 := by
  obtain ⟨k, h1, h2, rfl⟩ := h.pow
  have hp : 2 ^ k ≤ 2 ^ 5 := Nat.pow_le_pow_right (by omega) h2
  have hpos := Nat.two_pow_pos k
  rw [roundUp_eq (by omega) (by unfold maxChunk at ha; omega)]
  obtain ⟨b1, b2⟩ := ceil_bounds (a := a) hpos
  exact ⟨b1, b2, Nat.mul_mod_left _ _⟩

theorem dataStart_spec {A : Nat} (h : AOk A) (b : Nat) : b + hdr ≤ dataStart A b ∧ dataStart A b ≤ b + hdr + A - 1 ∧ dataStart A b % A = 0 := by
  unfold dataStart
  have hA : 0 < A := by rcases h with rfl | rfl | rfl <;> omega
  have := Nat.mod_lt (b + hdr) hA
  simp only
  split
  · refine ⟨by omega, by omega, ?_⟩
    rcases h with rfl | rfl | rfl <;> omega
  · refine ⟨by omega, by omega, by omega⟩

/-- All pools of the manager. -/
def all (s : St) : List Pool := s.small 0 ++ s.small 1 ++ s.large 0 ++ s.large 1

def Pool.blk (p : Pool) : Nat × Nat := (p.base, p.size)

/-- The bookkeeping of a pool is consistent. -/
def Pool.Ok (A : Nat) (p : Pool) : Prop := p.size = p.used + p.left + hdr + A - 1 ∧ p.used % A = 0

/-- An object lies in the used part of a pool of its class. -/
def Obj.In (A : Nat) (s : St) (o : Obj) : Prop :=
  o.pool < 2 ∧ o.addr % A = 0 ∧ ∃ p ∈ s.small o.pool ++ s.large o.pool, dataStart A p.base ≤ o.addr ∧ o.addr + o.size ≤ dataStart A p.base + p.used

/-- The invariant. -/
structure Inv (A ctl : Nat) (s : St) : Prop where
  perm : List.Perm s.live ((ctl, ctlSize) :: (all s).map Pool.blk)
  apart : s.live.Pairwise Apart
  ok : ∀ p ∈ all s, p.Ok A
  objs : ∀ o ∈ s.objs, o.In A s
  disj : s.objs.Pairwise (fun x y => Apart (x.addr, x.size) (y.addr, y.size))
  total : s.total = ctlSize + ((all s).map Pool.size).sum
  good : s.badFree = false

theorem mem_all {s : St} {pid : Nat} (h : pid < 2) {p : Pool} (hp : p ∈ s.small pid ++ s.large pid) : p ∈ all s := by
  have : pid = 0 ∨ pid = 1 := by omega
  unfold all
  rcases this with rfl | rfl <;> simp only [List.mem_append] at hp ⊢ <;> tauto

theorem Apart.symm {x y : Nat × Nat} (h : Apart x y) : Apart y x := by unfold Apart at *; omega

/-- Pool blocks are pairwise apart. -/
theorem Inv.pools {A ctl : Nat} {s : St} (h : Inv A ctl s) : ((all s).map Pool.blk).Pairwise Apart := by
  have := (h.perm.pairwise_iff (R := Apart) (fun hx => hx.symm)).1 h.apart
  exact (List.pairwise_cons.1 this).2

theorem init_inv (A ctl : Nat) : Inv A ctl (init ctl) := by
  refine ⟨by simp [init, all], by simp [init], by simp [init, all], by simp [init], by simp [init], by simp [init, all], rfl⟩

/-! ### allocation -/

theorem malloc_none {env : Env} {n : Nat} {s s' : St} (h : malloc env n s = (none, s')) : s' = { s with clock := s.clock + 1 } := by
  unfold malloc at h
  split at h
  · cases h; rfl
  · cases h

theorem malloc_some {env : Env} {n b : Nat} {s s' : St} (h : malloc env n s = (some b, s')) :
    env s.clock s.live n = some b ∧ s' = { s with clock := s.clock + 1, live := (b, n) :: s.live } := by
  unfold malloc at h
  split at h
  · cases h
  · rename_i e; cases h; exact ⟨e, rfl⟩

/-- The part of the state that a failed malloc leaves alone. -/
theorem Inv.tick {A ctl : Nat} {s : St} (h : Inv A ctl s) (c : Nat) : Inv A ctl { s with clock := c } :=
  ⟨h.perm, h.apart, h.ok, h.objs, h.disj, h.total, h.good⟩

theorem getSmall_spec {env : Env} {minReq : Nat} : ∀ (k slop : Nat) (s : St),
    (∃ c, (getSmall env minReq k slop s) = (none, { s with clock := c })) ∨
    (∃ b sl c t, sl ≤ slop ∧ getSmall env minReq k slop s = (some (b, sl), { s with clock := c, live := (b, minReq + sl) :: s.live }) ∧
      env t s.live (minReq + sl) = some b) := by
  intro k
  induction k with
  | zero => intro slop s; exact Or.inl ⟨s.clock, rfl⟩
  | succ k ih =>
    intro slop s
    unfold getSmall
    cases e : malloc env (minReq + slop) s with
    | mk r s1 =>
      cases r with
      | some b =>
        obtain ⟨h1, h2⟩ := malloc_some e
        right
        exact ⟨b, slop, s.clock + 1, s.clock, Nat.le_refl _, by rw [h2], h1⟩
      | none =>
        have h2 := malloc_none e
        simp only
        split
        · left; exact ⟨s.clock + 1, by rw [h2]⟩
        · rcases ih (slop / 2) s1 with ⟨c, h⟩ | ⟨b, sl, c, t, h0, h, h'⟩
          · left; exact ⟨c, by rw [h, h2]⟩
          · right
            refine ⟨b, sl, c, t, by omega, by rw [h, h2], by rw [h2] at h'; exact h'⟩

theorem findPool_spec {sz : Nat} : ∀ (l : List Pool) (i : Nat), findPool sz l = some i → ∃ h : i < l.length, sz ≤ l[i].left := by
  intro l
  induction l with
  | nil => intro i h; cases h
  | cons p ps ih =>
    intro i h
    unfold findPool at h
    split at h
    · cases h; exact ⟨by simp, by simpa⟩
    · cases e : findPool sz ps with
      | none => rw [e] at h; cases h
      | some j =>
        rw [e] at h
        cases h
        obtain ⟨h1, h2⟩ := ih j e
        exact ⟨by simp; omega, by simpa using h2⟩

theorem all_setSmall {s : St} {pid : Nat} (h : pid < 2) (l : List Pool) (hl : l.map Pool.blk = (s.small pid).map Pool.blk) :
    (all { s with small := setL s.small pid l }).map Pool.blk = (all s).map Pool.blk := by
  have : pid = 0 ∨ pid = 1 := by omega
  unfold all
  rcases this with rfl | rfl <;> simp [setL, hl]

theorem set_map_blk {l : List Pool} {i : Nat} {p : Pool} (h : i < l.length) (hp : p.blk = l[i].blk) : (l.set i p).map Pool.blk = l.map Pool.blk := by
  rw [List.map_set, hp]
  apply List.ext_getElem
  · simp
  · intro j h1 h2
    rw [List.getElem_set]
    split
    · next e => subst e; simp
    · rfl

theorem getD_of_lt {l : List Pool} {i : Nat} (h : i < l.length) (d : Pool) : l.getD i d = l[i] := by
  rw [List.getD_eq_getElem?_getD, List.getElem?_eq_getElem h]; rfl

theorem pairwise_map_mem {α : Type} {f : α → Nat × Nat} : ∀ {l : List α}, (l.map f).Pairwise Apart → ∀ x ∈ l, ∀ y ∈ l, x = y ∨ Apart (f x) (f y) := by
  intro l
  induction l with
  | nil => intro _ x hx; cases hx
  | cons a l ih =>
    intro h x hx y hy
    simp only [List.map_cons, List.pairwise_cons, List.mem_map, forall_exists_index, and_imp, forall_apply_eq_imp_iff₂] at h
    rcases List.mem_cons.1 hx with ex | hx' <;> rcases List.mem_cons.1 hy with ey | hy'
    · exact Or.inl (ex.trans ey.symm)
    · exact Or.inr (ex ▸ h.1 y hy')
    · exact Or.inr (ey ▸ (h.1 x hx').symm)
    · exact ih h.2 x hx' y hy'

theorem data_le {A : Nat} (h : AOk A) {p : Pool} (hp : p.Ok A) : dataStart A p.base + p.used + p.left ≤ p.base + p.size := by
  have := dataStart_spec h p.base
  have := hp.1
  rcases h with rfl | rfl | rfl <;> omega

theorem sum_of_blk {l l' : List Pool} (h : l.map Pool.blk = l'.map Pool.blk) : (l.map Pool.size).sum = (l'.map Pool.size).sum := by
  have e : ∀ l : List Pool, l.map Pool.size = (l.map Pool.blk).map Prod.snd := by intro l; rw [List.map_map]; rfl
  rw [e, e, h]

/-- Taking an object from a pool with enough space. -/
theorem takeFrom_inv {A ctl : Nat} (hA : AOk A) {s : St} (h : Inv A ctl s) {pid sz i : Nat} (hp : pid < 2) (hi : i < (s.small pid).length)
    (hl : sz ≤ (s.small pid)[i].left) (hsz : sz % A = 0) :
    Inv A ctl (takeFrom A pid sz i s).2 ∧ (takeFrom A pid sz i s).1 % A = 0 := by
  unfold takeFrom
  simp only [getD_of_lt hi]
  generalize hpp : (s.small pid)[i] = p at hl
  have hpm : p ∈ s.small pid := hpp ▸ List.getElem_mem hi
  have hpa : p ∈ all s := mem_all hp (List.mem_append.2 (Or.inl hpm))
  have hpo := h.ok p hpa
  generalize hp' : ({ p with used := p.used + sz, left := p.left - sz } : Pool) = p'
  have hblk : p'.blk = p.blk := by rw [← hp']; rfl
  have hset : ((s.small pid).set i p').map Pool.blk = (s.small pid).map Pool.blk := set_map_blk hi (by rw [hpp, hblk])
  have hall := all_setSmall (s := s) hp _ hset
  have ha0 : (dataStart A p.base + p.used) % A = 0 := by
    have := (dataStart_spec hA p.base).2.2
    have := hpo.2
    rcases hA with rfl | rfl | rfl <;> omega
  refine ⟨⟨?_, h.apart, ?_, ?_, ?_, ?_, h.good⟩, ha0⟩
  · show List.Perm s.live ((ctl, ctlSize) :: (all { s with small := setL s.small pid ((s.small pid).set i p') }).map Pool.blk)
    rw [hall]; exact h.perm
  · intro q hq
    have hq' : q ∈ all s ∨ q = p' := by
      unfold all at hq
      have e : pid = 0 ∨ pid = 1 := by omega
      rcases e with rfl | rfl
      · simp only [setL, List.mem_append, if_true, show ¬ (1 = 0) by omega, if_false] at hq
        rcases hq with ((hq | hq) | hq) | hq
        · rcases List.mem_or_eq_of_mem_set hq with h | h
          · exact Or.inl (by unfold all; simp [h])
          · exact Or.inr h
        all_goals exact Or.inl (by unfold all; simp [hq])
      · simp only [setL, List.mem_append, if_true, show ¬ (0 = 1) by omega, if_false] at hq
        rcases hq with ((hq | hq) | hq) | hq
        · exact Or.inl (by unfold all; simp [hq])
        · rcases List.mem_or_eq_of_mem_set hq with h | h
          · exact Or.inl (by unfold all; simp [h])
          · exact Or.inr h
        all_goals exact Or.inl (by unfold all; simp [hq])
    rcases hq' with hq' | rfl
    · exact h.ok q hq'
    · rw [← hp']
      refine ⟨?_, ?_⟩
      · have := hpo.1; show p.size = p.used + sz + (p.left - sz) + hdr + A - 1; omega
      · have := hpo.2
        show (p.used + sz) % A = 0
        rcases hA with rfl | rfl | rfl <;> omega
  · intro o ho
    rcases List.mem_cons.1 ho with rfl | ho
    · refine ⟨hp, ha0, p', ?_, ?_⟩
      · simp only [setL, if_true, List.mem_append]
        exact Or.inl (List.mem_iff_getElem.2 ⟨i, by simpa using hi, by simp⟩)
      · rw [← hp']
        exact ⟨Nat.le_add_right _ _, by show dataStart A p.base + p.used + sz ≤ dataStart A p.base + (p.used + sz); omega⟩
    · obtain ⟨o1, o2, q, hq, q1, q2⟩ := h.objs o ho
      refine ⟨o1, o2, ?_⟩
      rcases List.mem_append.1 hq with hq | hq
      · by_cases e : o.pool = pid
        · rw [e] at hq
          obtain ⟨j, hj, hjq⟩ := List.getElem_of_mem hq
          by_cases eij : i = j
          · subst eij
            refine ⟨p', ?_, ?_⟩
            · rw [e]
              simp only [setL, if_true, List.mem_append]
              exact Or.inl (List.mem_iff_getElem.2 ⟨i, by simpa using hi, by simp⟩)
            · have : q = p := by rw [← hjq, hpp]
              subst this
              rw [← hp']
              exact ⟨q1, by show _ ≤ dataStart A q.base + (q.used + sz); omega⟩
          · refine ⟨q, ?_, q1, q2⟩
            rw [e]
            simp only [setL, if_true, List.mem_append]
            exact Or.inl (List.mem_iff_getElem.2 ⟨j, by simpa using hj, by rw [List.getElem_set_ne eij]; exact hjq⟩)
        · refine ⟨q, ?_, q1, q2⟩
          simp only [setL, if_neg e, List.mem_append]
          exact Or.inl hq
      · exact ⟨q, List.mem_append.2 (Or.inr hq), q1, q2⟩
  · refine List.pairwise_cons.2 ⟨?_, h.disj⟩
    intro o ho
    obtain ⟨o1, o2, q, hq, q1, q2⟩ := h.objs o ho
    have hqa := mem_all o1 hq
    have hqd := data_le hA (h.ok q hqa)
    have hpd := data_le hA hpo
    have d1 := (dataStart_spec hA q.base).1
    have d2 := (dataStart_spec hA p.base).1
    rcases pairwise_map_mem h.pools q hqa p hpa with rfl | hap
    · right; exact q2
    · unfold Apart Pool.blk at hap
      unfold Apart
      simp only at hap ⊢
      omega
  · show s.total = ctlSize + ((all { s with small := setL s.small pid ((s.small pid).set i p') }).map Pool.size).sum
    rw [sum_of_blk hall]; exact h.total

theorem perm_sum {l l' : List Nat} (h : List.Perm l l') : l.sum = l'.sum := by
  induction h with
  | nil => rfl
  | cons a _ ih => simp [ih]
  | swap a b l => simp only [List.sum_cons]; omega
  | trans _ _ h1 h2 => rw [h1, h2]

/-- A new pool. -/
theorem add_inv {A ctl : Nat} {s s' : St} (h : Inv A ctl s) {p : Pool} (hlive : s'.live = p.blk :: s.live)
    (hall : List.Perm (all s') (p :: all s)) (hok : p.Ok A) (hap : ∀ x ∈ s.live, Apart p.blk x) (ho : s'.objs = s.objs)
    (hsub : ∀ pid q, q ∈ s.small pid ++ s.large pid → q ∈ s'.small pid ++ s'.large pid) (ht : s'.total = s.total + p.size)
    (hb : s'.badFree = s.badFree) : Inv A ctl s' := by
  refine ⟨?_, ?_, ?_, ?_, by rw [ho]; exact h.disj, ?_, by rw [hb]; exact h.good⟩
  · rw [hlive]
    have : List.Perm ((all s').map Pool.blk) (p.blk :: (all s).map Pool.blk) := hall.map _
    exact ((h.perm.cons _).trans (List.Perm.swap _ _ _)).trans ((this.symm).cons _)
  · rw [hlive]; exact List.pairwise_cons.2 ⟨hap, h.apart⟩
  · intro q hq
    rcases List.mem_cons.1 (hall.mem_iff.1 hq) with rfl | hq
    · exact hok
    · exact h.ok q hq
  · rw [ho]
    intro o hoo
    obtain ⟨o1, o2, q, hq, q1, q2⟩ := h.objs o hoo
    exact ⟨o1, o2, q, hsub _ q hq, q1, q2⟩
  · rw [ht, perm_sum (hall.map Pool.size), h.total]
    simp only [List.map_cons, List.sum_cons]
    omega

theorem all_addSmall {s s' : St} {pid : Nat} (hp : pid < 2) (p : Pool) (h1 : s'.small = setL s.small pid (s.small pid ++ [p])) (h2 : s'.large = s.large) :
    List.Perm (all s') (p :: all s) := by
  unfold all
  rw [h1, h2]
  have e : pid = 0 ∨ pid = 1 := by omega
  rcases e with rfl | rfl
  · simp only [setL, if_true, show ¬ (1 = 0) by omega, if_false, List.append_assoc, List.singleton_append]
    exact List.perm_middle
  · simp only [setL, if_true, show ¬ (0 = 1) by omega, if_false, List.append_assoc, List.singleton_append]
    rw [← List.append_assoc, ← List.append_assoc (s.small 0)]
    exact List.perm_middle

theorem all_addLarge {s s' : St} {pid : Nat} (hp : pid < 2) (p : Pool) (h1 : s'.large = setL s.large pid (p :: s.large pid)) (h2 : s'.small = s.small) :
    List.Perm (all s') (p :: all s) := by
  unfold all
  rw [h1, h2]
  have e : pid = 0 ∨ pid = 1 := by omega
  rcases e with rfl | rfl
  · simp only [setL, if_true, show ¬ (1 = 0) by omega, if_false, List.append_assoc, List.cons_append]
    rw [← List.append_assoc, ← List.append_assoc (s.small 0)]
    exact List.perm_middle
  · simp only [setL, if_true, show ¬ (0 = 1) by omega, if_false]
    exact List.perm_middle

/-- What a successful allocation of `n` bytes at `a` does. -/
structure Gives (A pid n : Nat) (s s' : St) (a : Nat) : Prop where
  objs : ∃ sz, n ≤ sz ∧ s'.objs = ⟨pid, a, sz⟩ :: s.objs
  align : a % A = 0
  pool : pid < 2

theorem allocSmall_inv {A ctl : Nat} (hA : AOk A) {env : Env} (he : env.Good) {s : St} (h : Inv A ctl s) (pid n : Nat) :
    Inv A ctl (allocSmall A env pid n s).2 ∧ (∀ a, (allocSmall A env pid n s).1 = .ok a → Gives A pid n s (allocSmall A env pid n s).2 a) ∧
    (∀ e, (allocSmall A env pid n s).1 = .error e → (allocSmall A env pid n s).2.objs = s.objs) := by
  unfold allocSmall
  by_cases h1 : n > maxChunk
  · rw [if_pos h1]; exact ⟨h, (fun a h => by cases h), fun _ _ => rfl⟩
  rw [if_neg h1]
  have hr := roundUp_spec hA (show n ≤ maxChunk by omega)
  simp only
  generalize roundUp n A = sz at hr
  by_cases h2 : (hdr + sz + A - 1) % 2 ^ 64 > maxChunk
  · rw [if_pos h2]; exact ⟨h, (fun a h => by cases h), fun _ _ => rfl⟩
  rw [if_neg h2]
  have hm : hdr + sz + A - 1 ≤ maxChunk := by
    rw [Nat.mod_eq_of_lt] at h2
    · omega
    · unfold maxChunk at h1; unfold hdr
      rcases hA with rfl | rfl | rfl <;> omega
  by_cases h3 : pid ≥ 2
  · rw [if_pos h3]; exact ⟨h, (fun a h => by cases h), fun _ _ => rfl⟩
  rw [if_neg h3]
  have hp : pid < 2 := by omega
  cases e : findPool sz (s.small pid) with
  | some i =>
    simp only
    obtain ⟨hi, hl⟩ := findPool_spec _ _ e
    obtain ⟨g1, g2⟩ := takeFrom_inv hA h hp hi hl hr.2.2
    refine ⟨g1, ?_, (fun e h => by cases h)⟩
    intro a ha
    cases ha
    exact ⟨⟨sz, hr.1, rfl⟩, g2, hp⟩
  | none =>
    simp only
    generalize (if (if s.small pid = [] then firstSlop pid else extraSlop pid) > maxChunk - (hdr + sz + A - 1) then maxChunk - (hdr + sz + A - 1)
      else (if s.small pid = [] then firstSlop pid else extraSlop pid)) = slop
    rcases getSmall_spec (env := env) (minReq := hdr + sz + A - 1) (slop + 1) slop s with ⟨c, hg⟩ | ⟨b, sl, c, t, hsl, hg, hb⟩
    · rw [hg]
      exact ⟨h.tick c, (fun a h => by cases h), fun _ _ => rfl⟩
    · rw [hg]
      simp only
      obtain ⟨k1, k2, k3⟩ := he _ _ _ _ hb
      generalize hs' : ({ s with clock := c, live := (b, hdr + sz + A - 1 + sl) :: s.live, total := s.total + (hdr + sz + A - 1 + sl), small := setL s.small pid (s.small pid ++ [⟨b, hdr + sz + A - 1 + sl, 0, sz + sl⟩]) } : St) = s'
      have hin : Inv A ctl s' := by
        refine add_inv (p := ⟨b, hdr + sz + A - 1 + sl, 0, sz + sl⟩) h (by rw [← hs']; rfl)
          (all_addSmall hp _ (by rw [← hs']) (by rw [← hs'])) ⟨?_, Nat.zero_mod _⟩ k3 (by rw [← hs']) ?_ (by rw [← hs']) (by rw [← hs'])
        · show hdr + sz + A - 1 + sl = 0 + (sz + sl) + hdr + A - 1
          rcases hA with rfl | rfl | rfl <;> omega
        · intro pid' q hq
          rw [← hs']
          simp only [setL]
          rcases List.mem_append.1 hq with hq | hq
          · split
            · next e => subst e; simp [hq]
            · simp [hq]
          · simp [hq]
      have hsm : s'.small pid = s.small pid ++ [⟨b, hdr + sz + A - 1 + sl, 0, sz + sl⟩] := by rw [← hs']; simp [setL]
      have hlen : (s'.small pid).length - 1 < (s'.small pid).length := by rw [hsm]; simp
      have hlast : (s'.small pid)[(s'.small pid).length - 1].left = sz + sl := by
        have : (s'.small pid)[(s'.small pid).length - 1] = ⟨b, hdr + sz + A - 1 + sl, 0, sz + sl⟩ := by simp [hsm]
        rw [this]
      obtain ⟨g1, g2⟩ := takeFrom_inv hA hin hp hlen (by rw [hlast]; omega) hr.2.2
      rw [show setL s.small pid (s.small pid ++ [⟨b, hdr + sz + A - 1 + sl, 0, sz + sl⟩]) pid = s'.small pid by rw [← hs']]
      refine ⟨g1, ?_, (fun e h => by cases h)⟩
      intro a ha
      cases ha
      refine ⟨⟨sz, hr.1, ?_⟩, g2, hp⟩
      show _ :: s'.objs = _
      rw [show s'.objs = s.objs by rw [← hs']]
      rfl

theorem allocLarge_inv {A ctl : Nat} (hA : AOk A) {env : Env} (he : env.Good) {s : St} (h : Inv A ctl s) (pid n : Nat) :
    Inv A ctl (allocLarge A env pid n s).2 ∧ (∀ a, (allocLarge A env pid n s).1 = .ok a → Gives A pid n s (allocLarge A env pid n s).2 a) ∧
    (∀ e, (allocLarge A env pid n s).1 = .error e → (allocLarge A env pid n s).2.objs = s.objs) := by
  unfold allocLarge
  by_cases h1 : n > maxChunk
  · rw [if_pos h1]; exact ⟨h, (fun a h => by cases h), fun _ _ => rfl⟩
  rw [if_neg h1]
  have hr := roundUp_spec hA (show n ≤ maxChunk by omega)
  simp only
  generalize roundUp n A = sz at hr
  by_cases h2 : (hdr + sz + A - 1) % 2 ^ 64 > maxChunk
  · rw [if_pos h2]; exact ⟨h, (fun a h => by cases h), fun _ _ => rfl⟩
  rw [if_neg h2]
  by_cases h3 : pid ≥ 2
  · rw [if_pos h3]; exact ⟨h, (fun a h => by cases h), fun _ _ => rfl⟩
  rw [if_neg h3]
  have hp : pid < 2 := by omega
  cases e : malloc env (sz + hdr + A - 1) s with
  | mk r s1 =>
    cases r with
    | none =>
      rw [malloc_none e]
      exact ⟨h.tick _, (fun a h => by cases h), fun _ _ => rfl⟩
    | some b =>
      obtain ⟨hb, hs1⟩ := malloc_some e
      obtain ⟨k1, k2, k3⟩ := he _ _ _ _ hb
      simp only
      have hd := dataStart_spec hA b
      have hin : Inv A ctl { s1 with total := s1.total + (sz + hdr + A - 1), large := setL s1.large pid (⟨b, sz + hdr + A - 1, sz, 0⟩ :: s1.large pid) } := by
        refine add_inv (p := ⟨b, sz + hdr + A - 1, sz, 0⟩) h (by rw [hs1]; rfl) (all_addLarge hp _ (by rw [hs1]) (by rw [hs1])) ⟨by simp, hr.2.2⟩ k3 (by rw [hs1]) ?_ (by rw [hs1]) (by rw [hs1])
        intro pid' q hq
        rw [hs1]
        simp only [setL]
        rcases List.mem_append.1 hq with hq | hq
        · simp [hq]
        · split
          · next e => subst e; simp [hq]
          · simp [hq]
      have hall : (⟨b, sz + hdr + A - 1, sz, 0⟩ : Pool) ∈ all { s1 with total := s1.total + (sz + hdr + A - 1), large := setL s1.large pid (⟨b, sz + hdr + A - 1, sz, 0⟩ :: s1.large pid) } := by
        apply mem_all hp
        simp [setL]
      refine ⟨⟨hin.perm, hin.apart, hin.ok, ?_, ?_, hin.total, hin.good⟩, ?_, (fun e h => by cases h)⟩
      · intro o ho
        rcases List.mem_cons.1 ho with rfl | ho
        · refine ⟨hp, hd.2.2, ⟨b, sz + hdr + A - 1, sz, 0⟩, by simp [setL], Nat.le_refl _, Nat.le_refl _⟩
        · exact hin.objs o ho
      · refine List.pairwise_cons.2 ⟨?_, hin.disj⟩
        intro o ho
        have ho' : o ∈ s.objs := by rw [hs1] at ho; exact ho
        obtain ⟨o1, o2, q, hq, q1, q2⟩ := h.objs o ho'
        have hqa := mem_all o1 hq
        have hqd := data_le hA (h.ok q hqa)
        have d1 := (dataStart_spec hA q.base).1
        have hql : q.blk ∈ s.live := h.perm.mem_iff.2 (List.mem_cons.2 (Or.inr (List.mem_map.2 ⟨q, hqa, rfl⟩)))
        have := k3 _ hql
        unfold Apart Pool.blk at this
        unfold Apart
        simp only at this ⊢
        have : 0 < A := by rcases hA with rfl | rfl | rfl <;> omega
        omega
      · intro a ha
        cases ha
        refine ⟨⟨sz, hr.1, ?_⟩, hd.2.2, hp⟩
        rw [hs1]

end Verif.Pool
