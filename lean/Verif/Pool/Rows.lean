import Verif.Pool.Lemmas
/- Two-dimensional arrays. -/
namespace Verif.Pool

/-- A region lies in one of the objects of pool `pid`. -/
def Within (pid : Nat) (objs : List Obj) (r n : Nat) : Prop := ∃ o ∈ objs, o.pool = pid ∧ o.addr ≤ r ∧ r + n ≤ o.addr + o.size

/-- The rows handed out so far. -/
structure RowsOk (A pid width : Nat) (new : List Obj) (rows : List Nat) : Prop where
  within : ∀ r ∈ rows, Within pid new r width
  align : ∀ r ∈ rows, r % A = 0
  apart : rows.Pairwise (fun r r' => Apart (r, width) (r', width))

/-- Chunks of `rpc` rows are contiguous. -/
def Contig (width rpc : Nat) (rows : List Nat) : Prop :=
  ∀ i j, i % rpc = 0 → j < rpc → i + j < rows.length → rows.getD (i + j) 0 = rows.getD i 0 + j * width

theorem Within.mono {pid : Nat} {l l' : List Obj} {r n : Nat} (h : Within pid l r n) (hs : ∀ o ∈ l, o ∈ l') : Within pid l' r n := by
  obtain ⟨o, h1, h2⟩ := h
  exact ⟨o, hs o h1, h2⟩

theorem apart_within {o o' : Obj} {r n r' n' : Nat} (h : Apart (o.addr, o.size) (o'.addr, o'.size))
    (h1 : o.addr ≤ r) (h2 : r + n ≤ o.addr + o.size) (h3 : o'.addr ≤ r') (h4 : r' + n' ≤ o'.addr + o'.size) : Apart (r, n) (r', n') := by
  unfold Apart at *
  simp only at *
  omega

theorem rows_mem {w rpc width r : Nat} (h : r ∈ (List.range rpc).map (fun i => w + i * width)) :
    w ≤ r ∧ r + width ≤ w + rpc * width ∧ ∃ i, i < rpc ∧ r = w + i * width := by
  obtain ⟨i, hi, rfl⟩ := List.mem_map.1 h
  have hi := List.mem_range.1 hi
  have : (i + 1) * width ≤ rpc * width := Nat.mul_le_mul_right _ hi
  rw [Nat.add_mul] at this
  exact ⟨by omega, by omega, i, hi, rfl⟩

theorem range_apart (w width : Nat) : ∀ rpc, ((List.range rpc).map (fun i => w + i * width)).Pairwise (fun r r' => Apart (r, width) (r', width)) := by
  intro rpc
  rw [List.pairwise_map]
  refine List.pairwise_lt_range.imp ?_
  intro a b hab
  have : (a + 1) * width ≤ b * width := Nat.mul_le_mul_right _ hab
  rw [Nat.add_mul] at this
  unfold Apart
  simp only
  omega

theorem RowsOk.add {A ctl pid width : Nat} (hA : AOk A) (hw : width % A = 0) {s : St} (h : Inv A ctl s) {new old : List Obj} {rows : List Nat}
    {w sz rpc : Nat} (ho : s.objs = ⟨pid, w, sz⟩ :: (new ++ old)) (hsz : rpc * width ≤ sz) (hwa : w % A = 0) (hr : RowsOk A pid width new rows) :
    RowsOk A pid width (⟨pid, w, sz⟩ :: new) (rows ++ (List.range rpc).map (fun i => w + i * width)) := by
  have hd := h.disj
  rw [ho] at hd
  have hd := (List.pairwise_cons.1 hd).1
  refine ⟨?_, ?_, ?_⟩
  · intro r hm
    rcases List.mem_append.1 hm with hm | hm
    · exact (hr.within r hm).mono (fun o h => List.mem_cons.2 (Or.inr h))
    · obtain ⟨h1, h2, _⟩ := rows_mem hm
      exact ⟨_, List.mem_cons_self .., rfl, h1, by show r + width ≤ w + sz; omega⟩
  · intro r hm
    rcases List.mem_append.1 hm with hm | hm
    · exact hr.align r hm
    · obtain ⟨_, _, i, _, rfl⟩ := rows_mem hm
      have : (i * width) % A = 0 := by rw [Nat.mul_mod, hw]; simp
      rcases hA with rfl | rfl | rfl <;> omega
  · refine List.pairwise_append.2 ⟨hr.apart, range_apart _ _ _, ?_⟩
    intro r hm r' hm'
    obtain ⟨o, h1, h2, h3, h4⟩ := hr.within r hm
    obtain ⟨g1, g2, _⟩ := rows_mem hm'
    exact apart_within (hd o (List.mem_append.2 (Or.inl h1))).symm h3 h4 g1 (by show r' + width ≤ w + sz; omega)

theorem Contig.add {width rpc w n : Nat} {rows : List Nat} (h : Contig width rpc rows) (hl : rows.length % rpc = 0) (hn : n ≤ rpc) (hr : 0 < rpc) :
    Contig width rpc (rows ++ (List.range n).map (fun i => w + i * width)) := by
  intro i j hi hj hij
  simp only [List.length_append, List.length_map, List.length_range] at hij
  have key : ∀ k, k < n → (rows ++ (List.range n).map (fun i => w + i * width)).getD (rows.length + k) 0 = w + k * width := by
    intro k hk
    rw [List.getD_eq_getElem?_getD, List.getElem?_append_right (by omega)]
    simp [show k < n from hk]
  have key2 : ∀ k, k < rows.length → (rows ++ (List.range n).map (fun i => w + i * width)).getD k 0 = rows.getD k 0 := by
    intro k hk
    rw [List.getD_eq_getElem?_getD, List.getElem?_append_left hk, ← List.getD_eq_getElem?_getD]
  by_cases hc : i < rows.length
  · have h1 : i + j < rows.length := by
      have e1 := Nat.div_add_mod i rpc
      have e2 := Nat.div_add_mod rows.length rpc
      have : i / rpc < rows.length / rpc := by
        by_contra hx
        have := Nat.mul_le_mul_left rpc (Nat.le_of_not_lt hx)
        omega
      have := Nat.mul_le_mul_left rpc this
      rw [Nat.mul_succ] at this
      omega
    rw [key2 _ h1, key2 _ hc]
    exact h i j hi hj h1
  · have : i = rows.length := by
      have e1 := Nat.div_add_mod i rpc
      have e2 := Nat.div_add_mod rows.length rpc
      by_contra hx
      have : rows.length / rpc < i / rpc := by
        by_contra hx
        have := Nat.mul_le_mul_left rpc (Nat.le_of_not_lt hx)
        omega
      have := Nat.mul_le_mul_left rpc this
      rw [Nat.mul_succ] at this
      omega
    subst this
    rw [key j (by omega), show rows.length = rows.length + 0 from rfl, key 0 (by omega)]
    omega

/-- The chunk loop. -/
theorem chunkLoop_inv {A ctl pid width numrows rpc0 : Nat} (hA : AOk A) (hw : width % A = 0) {env : Env} (he : env.Good) (old : List Obj) :
    ∀ (k rpc currow : Nat) (rows : List Nat) (s : St) (new : List Obj), Inv A ctl s → s.objs = new ++ old → RowsOk A pid width new rows →
    rows.length = currow → currow ≤ numrows → numrows < currow + k → 0 < rpc → rpc ≤ rpc0 → (currow < numrows → currow % rpc0 = 0 ∧ rpc = rpc0) →
    Contig width rpc0 rows →
    Inv A ctl (chunkLoop A env pid width numrows k rpc currow rows s).2 ∧
    (∃ add, (chunkLoop A env pid width numrows k rpc currow rows s).2.objs = add ++ (new ++ old) ∧ ∀ rows', (chunkLoop A env pid width numrows k rpc currow rows s).1 = .ok rows' →
      RowsOk A pid width (add ++ new) rows' ∧ rows'.length = numrows ∧ Contig width rpc0 rows' ∧ ∀ r ∈ rows', r ∈ rows ∨ Within pid add r width) := by
  intro k
  induction k with
  | zero => intro rpc currow rows s new h ho hr hlen hle hk; omega
  | succ k ih =>
    intro rpc currow rows s new h ho hr hlen hle hk hrpc hrpc0 hmod hcon
    unfold chunkLoop
    by_cases hlt : currow < numrows
    · rw [if_pos hlt]
      obtain ⟨hm0, hrr⟩ := hmod hlt
      simp only
      obtain ⟨g1, g2, g3⟩ := allocLarge_inv hA he h pid (min rpc (numrows - currow) * width)
      generalize hn : min rpc (numrows - currow) = n at *
      have hn0 : 0 < n := by omega
      cases e : allocLarge A env pid (n * width) s with
      | mk r s1 =>
        rw [e] at g1 g2 g3
        cases r with
        | error er => exact ⟨g1, [], by rw [g3 er rfl, ho]; rfl, fun rows' hc => by cases hc⟩
        | ok w =>
          obtain ⟨⟨sz, hsz, ho1⟩, hwa, hp⟩ := g2 w rfl
          simp only at ho1
          simp only
          have hr1 := RowsOk.add (rpc := n) hA hw g1 (by rw [ho1, ho]) hsz hwa hr
          have hcon1 := Contig.add (w := w) (n := n) hcon (by rw [hlen]; exact hm0) (by omega) (by omega)
          have hside : currow + n < numrows → (currow + n) % rpc0 = 0 ∧ n = rpc0 := by
            intro hlt2
            have : n = rpc := by omega
            subst this
            subst hrr
            exact ⟨by rw [Nat.add_mod, hm0]; simp, rfl⟩
          obtain ⟨i1, add, i2, i3⟩ := ih n (currow + n) (rows ++ (List.range n).map (fun i => w + i * width)) s1 (⟨pid, w, sz⟩ :: new) g1
            (by rw [ho1, ho]; rfl) hr1 (by simp [hlen]) (by omega) (by omega) hn0 (by omega) hside hcon1
          · refine ⟨i1, add ++ [⟨pid, w, sz⟩], by rw [i2]; simp, ?_⟩
            intro rows' hc
            obtain ⟨j1, j2, j3, j4⟩ := i3 rows' hc
            refine ⟨by simpa using j1, j2, j3, ?_⟩
            intro r hm
            rcases j4 r hm with hm | hm
            · rcases List.mem_append.1 hm with hm | hm
              · exact Or.inl hm
              · obtain ⟨a1, a2, _⟩ := rows_mem hm
                exact Or.inr ⟨⟨pid, w, sz⟩, by simp, rfl, a1, by show r + width ≤ w + sz; omega⟩
            · exact Or.inr (hm.mono (fun o h => List.mem_append.2 (Or.inl h)))
    · rw [if_neg hlt]
      refine ⟨h, [], by simpa using ho, ?_⟩
      intro rows' hc
      cases hc
      exact ⟨by simpa using hr, by omega, hcon, fun r hm => Or.inl hm⟩

/-- What a successful array allocation gives: `a` = address of the row pointers. -/
structure GivesRows (A pid width numrows : Nat) (s s' : St) (a : Nat) (rows : List Nat) : Prop where
  count : rows.length = numrows
  objs : ∃ new, s'.objs = new ++ s.objs ∧ RowsOk A pid width new rows ∧ Within pid new a (numrows * 8)
  align : a % A = 0
  sep : ∀ r ∈ rows, Apart (a, numrows * 8) (r, width)

theorem allocRows_inv {A ctl pid width numrows : Nat} (hA : AOk A) (hw : width % A = 0) {env : Env} (he : env.Good) {s : St} (h : Inv A ctl s) :
    Inv A ctl (allocRows A env pid width numrows s).2 ∧ (∃ new, (allocRows A env pid width numrows s).2.objs = new ++ s.objs) ∧
    (∀ a rows, (allocRows A env pid width numrows s).1 = .ok (a, rows) →
      GivesRows A pid width numrows s (allocRows A env pid width numrows s).2 a rows ∧
      Contig width (if (maxChunk - hdr) / width < numrows then (maxChunk - hdr) / width else numrows) rows) := by
  unfold allocRows
  by_cases h1 : width = 0
  · rw [if_pos h1]; exact ⟨h, ⟨[], rfl⟩, fun a r h => by cases h⟩
  rw [if_neg h1]
  simp only
  by_cases h2 : (maxChunk - hdr) / width = 0
  · rw [if_pos h2]; exact ⟨h, ⟨[], rfl⟩, fun a r h => by cases h⟩
  rw [if_neg h2]
  obtain ⟨g1, g2, g3⟩ := allocSmall_inv hA he h pid (numrows * 8)
  cases e : allocSmall A env pid (numrows * 8) s with
  | mk r s1 =>
    rw [e] at g1 g2 g3
    cases r with
    | error er => exact ⟨g1, ⟨[], by rw [g3 er rfl]; rfl⟩, fun a r h => by cases h⟩
    | ok a =>
      obtain ⟨⟨sz, hsz, ho1⟩, ha, hp⟩ := g2 a rfl
      simp only at ho1
      simp only
      generalize hrpc : (if (maxChunk - hdr) / width < numrows then (maxChunk - hdr) / width else numrows) = rpc
      by_cases hn : numrows = 0
      · subst hn
        have : chunkLoop A env pid width 0 (0 + 1) rpc 0 [] s1 = (.ok [], s1) := by unfold chunkLoop; simp
        rw [this]
        refine ⟨g1, ⟨[⟨pid, a, sz⟩], by rw [ho1]; rfl⟩, ?_⟩
        intro a' rows hc
        cases hc
        exact ⟨⟨rfl, ⟨[⟨pid, a, sz⟩], by rw [ho1]; rfl, ⟨by simp, by simp, by simp⟩, ⟨_, List.mem_singleton_self _, rfl, Nat.le_refl _, by show a + 0 * 8 ≤ a + sz; omega⟩⟩, ha, by simp⟩,
          by intro i j _ _ hh; simp at hh⟩
      have hr0 : 0 < rpc := by rw [← hrpc]; generalize (maxChunk - hdr) / width = q at h2; split <;> omega
      obtain ⟨i1, add, i2, i3⟩ := chunkLoop_inv (pid := pid) (numrows := numrows) (rpc0 := rpc) hA hw he s1.objs (numrows + 1) rpc 0 [] s1 [] g1 rfl ⟨by simp, by simp, by simp⟩ rfl (by omega) (by omega)
        hr0 (Nat.le_refl _) (fun _ => ⟨Nat.zero_mod _, rfl⟩) (by intro i j _ _ hh; simp at hh)
      generalize hcl : chunkLoop A env pid width numrows (numrows + 1) rpc 0 [] s1 = res at i1 i2 i3
      obtain ⟨r2, s2⟩ := res
      have hobj : s2.objs = (add ++ [⟨pid, a, sz⟩]) ++ s.objs := by rw [i2, ho1]; simp
      cases r2 with
      | error er => exact ⟨i1, ⟨_, hobj⟩, fun a r h => by cases h⟩
      | ok rows =>
        refine ⟨i1, ⟨_, hobj⟩, ?_⟩
        intro a' rows' hc
        cases hc
        obtain ⟨j1, j2, j3, j4⟩ := i3 rows rfl
        refine ⟨⟨j2, ⟨_, hobj, ⟨?_, j1.align, j1.apart⟩, ⟨⟨pid, a, sz⟩, by simp, rfl, Nat.le_refl _, by show a + numrows * 8 ≤ a + sz; omega⟩⟩, ha, ?_⟩, j3⟩
        · intro r hm
          exact (j1.within r hm).mono (by intro o ho; simp at ho ⊢; exact Or.inl ho)
        · intro r hm
          rcases j4 r hm with hm | ⟨o, ho, ho2, ho3, ho4⟩
          · cases hm
          · have hd := i1.disj
            rw [hobj, List.append_assoc] at hd
            have := (List.pairwise_append.1 hd).2.2 o ho ⟨pid, a, sz⟩ (by simp)
            exact apart_within this.symm (Nat.le_refl _) (by show a + numrows * 8 ≤ a + sz; omega) ho3 ho4

end Verif.Pool
