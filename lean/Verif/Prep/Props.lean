import Verif.Prep.Context
/-
C45: the component rows handed to the coefficient controller do not depend on how the application splits the image into jpeg_write_scanlines calls, nor on suspensions.
-/
namespace Verif.Prep
variable {R S : Type}

/-- Invariant of the preprocessor. -/
def PInv (k : Cfg R S) (img : Nat → R) (s : St R S) : Prop := if k.context then ∃ n, CInv k img n s else SInv k img s

theorem PInv.out {k : Cfg R S} {img : Nat → R} {s : St R S} (h : PInv k img s) : OutOk k img s ∧ s.rowsToGo ≤ k.height ∧ s.rg ≤ k.unit := by
  unfold PInv at h
  split at h
  · obtain ⟨n, h⟩ := h; exact ⟨h.out, h.le, h.rg⟩
  · exact ⟨h.out, h.le, h.rg⟩

theorem PInv.finished {k : Cfg R S} (hk : k.Ok) {img : Nat → R} {s : St R S} (h : PInv k img s) (hc : s.cur = k.total) : s.rowsToGo = 0 := by
  have ht : ¬ k.total * (k.maxV * k.unit) < k.height := by rw [← lt_total hk]; omega
  have hp : 0 < k.total := by rw [lt_total hk]; simpa using hk.h.1
  unfold PInv at h
  by_contra hne
  split at h
  · obtain ⟨n, h⟩ := h
    have h1 := h.w.cnt hne
    have hle := h.le
    rcases h.w.lo with h2 | h2
    · rw [hc] at h2
      have := Nat.mul_pos hp hk.u
      omega
    · rw [hc] at h2
      have h3 : k.total * (k.maxV * k.unit) ≤ (k.total * k.unit + s.rg + 1) * k.maxV := by
        rw [show k.total * (k.maxV * k.unit) = k.total * k.unit * k.maxV by ring]
        exact Nat.mul_le_mul_right _ (by omega)
      omega
  · obtain ⟨h1, h2, _⟩ := h.more hne
    have hle := h.le
    rw [hc] at h1
    have h3 : k.total * (k.maxV * k.unit) ≤ (k.total * k.unit + s.rg) * k.maxV := by
      rw [show k.total * (k.maxV * k.unit) = k.total * k.unit * k.maxV by ring]
      exact Nat.mul_le_mul_right _ (by omega)
    omega

theorem PInv.next {k : Cfg R S} (hk : k.Ok) {img : Nat → R} {s : St R S} (h : PInv k img s) (hc : s.cur < k.total) (hr : s.rg = k.unit) (tr : List (Nat × List S × Bool)) (b : Bool) :
    PInv k img { s with trace := tr, suspended := b, rg := 0, cur := s.cur + 1 } := by
  have e : (s.cur + 1) * k.unit + 0 = s.cur * k.unit + s.rg := by rw [Nat.succ_mul]; omega
  unfold PInv at h ⊢
  split at h
  · rename_i hx
    rw [if_pos hx]
    obtain ⟨n, h⟩ := h
    refine ⟨n, h.le, Nat.zero_le _, fun j hj => by simp at hj, ?_, by simp only [e]; exact h.hi⟩
    simp only [e]
    exact ⟨h.w.cnt, h.w.cnt0, h.w.lo, h.w.stop, h.w.mul, h.w.per, h.w.this, h.w.win⟩
  · rename_i hx
    rw [if_neg hx]
    refine ⟨h.le, Nat.zero_le _, fun j hj => by simp at hj, ?_, ?_⟩
    · simp only [e]; exact h.more
    · intro h0
      rcases h.done h0 with h1 | h1
      · exact Or.inr ⟨h1.1, rfl⟩
      · omega

theorem PInv.main {k : Cfg R S} {img : Nat → R} {s : St R S} (h : PInv k img s) (tr : List (Nat × List S × Bool)) (b : Bool) (ns : Nat) :
    PInv k img { s with trace := tr, suspended := b, nextScanline := ns } := by
  unfold PInv at h ⊢
  split at h
  · rename_i hx
    rw [if_pos hx]
    obtain ⟨n, h⟩ := h
    exact ⟨n, h.le, h.rg, h.out, ⟨h.w.cnt, h.w.cnt0, h.w.lo, h.w.stop, h.w.mul, h.w.per, h.w.this, h.w.win⟩, h.hi⟩
  · rename_i hx
    rw [if_neg hx]
    exact ⟨h.le, h.rg, h.out, h.more, h.done⟩

theorem PInv.start {k : Cfg R S} (hk : k.Ok) (img : Nat → R) (b0 : Nat → R) (o0 : Nat → S) : PInv k img (k.start b0 o0) := by
  have hh := hk.h.1
  have hv := hk.mv
  unfold PInv
  split
  · refine ⟨0, Nat.le_refl _, Nat.zero_le _, fun j hj => by simp [Cfg.start] at hj, ⟨fun _ => by simp [Cfg.start], fun h => by simp [Cfg.start] at h; omega, Or.inl (by simp [Cfg.start]), by simp [Cfg.start],
      ⟨2, rfl, by omega⟩, ⟨0, by simp [Cfg.start]⟩, by simp [Cfg.start], fun t _ _ _ h => by omega⟩, by simp [Cfg.start]; omega⟩
  · refine ⟨Nat.le_refl _, Nat.zero_le _, fun j hj => by simp [Cfg.start] at hj, fun _ => ⟨by simp [Cfg.start], by simpa [Cfg.start] using hv, fun r hr => by simp [Cfg.start] at hr⟩, fun h => by simp [Cfg.start] at h; omega⟩

theorem preprocess_ok {k : Cfg R S} (hk : k.Ok) {img : Nat → R} {input : List R} {avail i : Nat} {s : St R S} (hI : PInv k img s) (hcur : s.cur < k.total)
    (hin : ∀ j, i + j < avail → input[i + j]? = some (img (k.height - s.rowsToGo + j))) (hav : avail - i ≤ s.rowsToGo) :
    ∃ i' s', k.preprocess input avail i s = some (i', s') ∧ PInv k img s' ∧ SameMain s s' ∧ i ≤ i' ∧ i' ≤ max i avail ∧ s'.rowsToGo + (i' - i) = s.rowsToGo ∧ (s'.rg = k.unit ∨ (avail ≤ i' ∧ s'.rowsToGo ≠ 0)) ∧
      (s.rowsToGo ≠ 0 → s.rg < k.unit → s'.rg = k.unit → i < i') := by
  unfold PInv at hI
  unfold Cfg.preprocess
  split at hI
  · rename_i hc
    obtain ⟨n, hI⟩ := hI
    rw [if_pos hc]
    obtain ⟨i', n', s', r1, r2, r3, r4, r5, r6, r7, r8⟩ := preContext_ok hk hc (avail + k.unit) i n s hI (by omega) hin hav
    exact ⟨i', s', r1, by unfold PInv; rw [if_pos hc]; exact ⟨n', r2⟩, r3, r4, r5, r6, r7, r8⟩
  · rename_i hc
    rw [if_neg hc]
    obtain ⟨i', s', r1, r2, r3, r4, r5, r6, r7, r8⟩ := preSimple_ok hk (by simpa using hc) avail i s hI hcur (by omega) hin hav
    refine ⟨i', s', r1, by unfold PInv; rw [if_neg hc]; exact r2, r3, r4, r5, r6, ?_, fun _ => r8⟩
    rcases r7 with h | h
    · exact Or.inl h
    · by_cases h0 : s'.rowsToGo = 0
      · rcases r2.done h0 with h1 | h1
        · exact Or.inl h1.2
        · have := r3.1; omega
      · exact Or.inr ⟨h, h0⟩

/-! ### the calls of compress_data -/

/-- The rows of iMCU row `c` of the component, each known. -/
def Cfg.imcu (k : Cfg R S) (img : Nat → R) (c : Nat) : List (Option S) := (List.range (k.unit * k.v)).map (fun j => k.rowSpec img (c * (k.unit * k.v) + j))

/-- The calls of compress_data, from iMCU row `c` to iMCU row `c'`: every call is given the right rows of the current iMCU row, which is tried again until the controller accepts it. -/
def Feeds (k : Cfg R S) (img : Nat → R) : Nat → List (Nat × List S × Bool) → Nat → Prop
  | c, [], c' => c = c'
  | c, (x, data, ok) :: l, c' => x = c ∧ data.map some = k.imcu img c ∧ Feeds k img (if ok then c + 1 else c) l c'

theorem Feeds.snoc {k : Cfg R S} {img : Nat → R} : ∀ {l : List (Nat × List S × Bool)} {c c' : Nat} {data : List S} {ok : Bool}, Feeds k img c l c' → data.map some = k.imcu img c' →
    Feeds k img c (l ++ [(c', data, ok)]) (if ok then c' + 1 else c') := by
  intro l
  induction l with
  | nil => intro c c' data ok h hd; subst h; exact ⟨rfl, hd, rfl⟩
  | cons a l ih =>
    intro c c' data ok h hd
    obtain ⟨x, d, o⟩ := a
    exact ⟨h.1, h.2.1, ih h.2.2 hd⟩

/-- The state between calls of jpeg_write_scanlines. -/
structure Between (k : Cfg R S) (img : Nat → R) (s : St R S) : Prop where
  inv : PInv k img s
  cur : s.cur ≤ k.total
  susp : s.suspended = true → s.rg = k.unit ∧ s.cur < k.total
  idle : s.suspended = false → s.cur < k.total → s.rg < k.unit ∧ s.rowsToGo ≠ 0
  feeds : Feeds k img 0 s.trace s.cur

theorem process_ok {k : Cfg R S} (hk : k.Ok) {img : Nat → R} {input : List R} {avail base : Nat} (hin : ∀ j, j < avail → input[j]? = some (img (base + j))) (hbase : base + avail ≤ k.height) :
    ∀ (fuel i : Nat) (ok : Nat → Bool) (s : St R S), PInv k img s → s.cur ≤ k.total → k.total - s.cur ≤ fuel → base + i + (if s.suspended then 1 else 0) = k.height - s.rowsToGo →
    (s.suspended = true → s.rg = k.unit ∧ s.cur < k.total) → (s.suspended = false → s.cur < k.total → s.rg < k.unit ∧ (s.rowsToGo = 0 → 1 ≤ i)) → Feeds k img 0 s.trace s.cur →
    ∃ i' s', k.process input avail fuel i ok s = some (i', s') ∧ Between k img s' ∧ base + i' + (if s'.suspended then 1 else 0) = k.height - s'.rowsToGo ∧ s'.nextScanline = s.nextScanline ∧
      i' ≤ max (i + (if s.suspended then 1 else 0)) avail ∧ ((∀ n, ok n = true) → s'.suspended = false ∧ avail ≤ i') := by
  intro fuel
  induction fuel with
  | zero =>
    intro i ok s hP hcur hf hcnt hs1 hs2 hfe
    have hct : s.cur = k.total := by omega
    have h0 := hP.finished hk hct
    have hns : s.suspended = false := by
      by_contra h
      have := hs1 (by simpa using h); omega
    rw [hns] at hcnt
    simp only [Bool.false_eq_true, if_false] at hcnt
    refine ⟨i, s, by unfold Cfg.process; rw [if_neg (by omega)], ⟨hP, hcur, hs1, fun _ h => by omega, hfe⟩, by rw [hns]; simpa using hcnt, rfl, by omega, fun _ => ⟨hns, by omega⟩⟩
  | succ fuel ih =>
    intro i ok s hP hcur hf hcnt hs1 hs2 hfe
    unfold Cfg.process
    by_cases hc : s.cur < k.total
    · rw [if_pos hc]
      -- after preprocessing
      obtain ⟨i1, s1, e1, P1, m1, c1, c2, d1, d2⟩ : ∃ i1 s1, k.fill input avail i s = some (i1, s1) ∧ PInv k img s1 ∧ SameMain s s1 ∧
          base + i1 + (if s.suspended then 1 else 0) = k.height - s1.rowsToGo ∧ i1 + (if s.suspended then 1 else 0) ≤ max (i + (if s.suspended then 1 else 0)) avail ∧ (s1.rg ≠ k.unit → s.suspended = false ∧ avail ≤ i1 ∧ s1.rowsToGo ≠ 0) ∧ (s1.rg = k.unit → s.suspended = false → 1 ≤ i1) := by
        unfold Cfg.fill
        by_cases hrg : s.rg < k.unit
        · rw [if_pos hrg]
          have hns : s.suspended = false := by
            by_contra h
            have := hs1 (by simpa using h); omega
          rw [hns] at hcnt
          simp only [Bool.false_eq_true, if_false] at hcnt
          have hle := hP.out.2.1
          obtain ⟨i', s', r1, r2, r3, r4, r5, r6, r7, r8⟩ := preprocess_ok (input := input) (avail := avail) (i := i) hk hP hc (by
            intro j hj
            rw [hin (i + j) hj]
            congr 2; omega) (by omega)
          refine ⟨i', s', r1, r2, r3, ?_, by rw [hns]; exact r5, ?_, ?_⟩
          · rw [hns]
            simp only [Bool.false_eq_true, if_false]
            omega
          · intro hne
            rcases r7 with h | h
            · exact absurd h hne
            · exact ⟨hns, h⟩
          · intro hu _
            by_cases h0 : s.rowsToGo = 0
            · have := (hs2 hns hc).2 h0; omega
            · have := r8 h0 hrg hu; omega
        · rw [if_neg hrg]
          have hsu : s.suspended = true := by
            by_contra h
            have := hs2 (by simpa using h) hc; omega
          have hu := (hs1 hsu).1
          refine ⟨i, s, rfl, hP, SameMain.refl s, hcnt, by omega, fun h => absurd hu h, fun _ h => by rw [hsu] at h; cases h⟩
      rw [e1]
      simp only [Option.bind_eq_bind, Option.bind_some]
      obtain ⟨q1, q2, q3, q4⟩ := m1
      by_cases hu : s1.rg ≠ k.unit
      · rw [if_pos hu]
        obtain ⟨z1, z2, z3⟩ := d1 hu
        have hrl := P1.out.2.2
        rw [z1] at c1 c2 ⊢
        simp only [Bool.false_eq_true, if_false, Nat.add_zero] at c1 c2 ⊢
        refine ⟨i1, s1, rfl, ⟨P1, by omega, (fun h => by rw [q2, z1] at h; cases h), fun _ _ => ⟨by omega, z3⟩, by rw [q4, q1]; exact hfe⟩, by rw [q2, z1]; simpa using c1, q3, c2, fun _ => ⟨by rw [q2, z1], z2⟩⟩
      · rw [if_neg hu]
        have hu' : s1.rg = k.unit := by omega
        have hdata : ((List.range (k.unit * k.v)).map s1.out).map some = k.imcu img s1.cur := by
          unfold Cfg.imcu
          rw [List.map_map]
          apply List.map_congr_left
          intro j hj
          have := P1.out.1 j (by rw [hu']; exact List.mem_range.1 hj)
          simpa using this
        have hfe1 : Feeds k img 0 s1.trace s1.cur := by rw [q4, q1]; exact hfe
        by_cases hok : ok 0 = false
        · rw [if_pos hok]
          have hfe2 := hfe1.snoc (ok := false) hdata
          simp only [Bool.false_eq_true, if_false] at hfe2
          rw [hok]
          by_cases hsus : s1.suspended = false
          · rw [if_pos hsus]
            rw [q2] at hsus
            have hi1 := d2 hu' hsus
            rw [hsus] at c1
            simp only [Bool.false_eq_true, if_false] at c1
            have hH := hk.h.2
            refine ⟨_, _, rfl, ⟨?_, by simp only; omega, fun _ => ⟨hu', by simp only; omega⟩, fun h => by simp at h, hfe2⟩, ?_, q3, ?_, fun h => by have := h 0; rw [hok] at this; cases this⟩
            · exact P1.main _ true s1.nextScanline
            · simp only [if_true]; omega
            · omega
          · rw [if_neg hsus]
            have hsus' : s1.suspended = true := by simpa using hsus
            rw [← q2, hsus'] at c1
            refine ⟨_, _, rfl, ⟨?_, by simp only; omega, fun _ => ⟨hu', by simp only; omega⟩, (fun h => by simp only [hsus'] at h; cases h), hfe2⟩, ?_, q3, ?_, fun h => by have := h 0; rw [hok] at this; cases this⟩
            · exact P1.main _ s1.suspended s1.nextScanline
            · simp only [hsus']; exact c1
            · omega
        · rw [if_neg hok]
          have hok' : ok 0 = true := by simpa using hok
          have hfe2 := hfe1.snoc (ok := true) hdata
          simp only [if_true] at hfe2
          rw [hok']
          have hH := hk.h.2
          have hi2 : (if s1.suspended then (i1 + 1) % 2 ^ 32 else i1) = i1 + (if s.suspended then 1 else 0) := by
            rw [q2]
            split
            · rename_i hx
              rw [hx] at c1
              simp only [if_true] at c1
              omega
            · omega
          rw [hi2]
          have hpos : 1 ≤ i1 + (if s.suspended then 1 else 0) := by
            by_cases hsus : s.suspended = false
            · have := d2 hu' hsus; omega
            · rw [show s.suspended = true by simpa using hsus]; simp
          obtain ⟨i', s', r1, r2, r3, r4, r5, r6⟩ := ih (i1 + (if s.suspended then 1 else 0)) (fun n => ok (n + 1)) { s1 with trace := s1.trace ++ [(s1.cur, (List.range (k.unit * k.v)).map s1.out, true)], suspended := false, rg := 0, cur := s1.cur + 1 }
            (P1.next hk (by omega) hu' _ false) (by simp only; omega) (by simp only; omega) (by simpa [Nat.add_assoc] using c1) (fun h => by simp at h) (fun _ _ => ⟨hk.u, fun _ => hpos⟩) hfe2
          refine ⟨i', s', r1, r2, r3, by rw [r4]; exact q3, ?_, ?_⟩
          · simp only [Bool.false_eq_true, if_false, Nat.add_zero] at r5
            omega
          · intro h
            exact r6 (fun n => h (n + 1))
    · rw [if_neg hc]
      have hct : s.cur = k.total := by omega
      have h0 := hP.finished hk hct
      have hns : s.suspended = false := by
        by_contra h
        have := hs1 (by simpa using h); omega
      rw [hns] at hcnt
      simp only [Bool.false_eq_true, if_false] at hcnt
      exact ⟨i, s, rfl, ⟨hP, hcur, hs1, fun _ h => by omega, hfe⟩, by rw [hns]; simpa using hcnt, rfl, by omega, fun _ => ⟨hns, by omega⟩⟩

/-- A state between calls, with next_scanline as the application sees it. -/
structure Good (k : Cfg R S) (img : Nat → R) (s : St R S) : Prop extends Between k img s where
  next : s.nextScanline + (if s.suspended then 1 else 0) = k.height - s.rowsToGo

theorem start_good {k : Cfg R S} (hk : k.Ok) (img : Nat → R) (b0 : Nat → R) (o0 : Nat → S) : Good k img (k.start b0 o0) where
  inv := PInv.start hk img b0 o0
  cur := Nat.zero_le _
  susp := fun h => by simp [Cfg.start] at h
  idle := fun _ _ => ⟨by simpa [Cfg.start] using hk.u, by have := hk.h.1; simp [Cfg.start]; omega⟩
  feeds := rfl
  next := by simp [Cfg.start]

theorem write_good {k : Cfg R S} (hk : k.Ok) {img : Nat → R} {s : St R S} (hG : Good k img s) (n : Nat) (ok : Nat → Bool) :
    ∃ r s', k.writeScanlines img n ok s = some (r, s') ∧ Good k img s' ∧ s'.nextScanline = s.nextScanline + r ∧
      r ≤ max (if s.suspended then 1 else 0) (min n (k.height - s.nextScanline)) ∧ ((∀ m, ok m = true) → s'.suspended = false ∧ min n (k.height - s.nextScanline) ≤ r) := by
  have hnx := hG.next
  have hH := hk.h.2
  obtain ⟨i', s', r1, r2, r3, r4, r5, r6⟩ := process_ok (k := k) (img := img) (input := (List.range (min n (k.height - s.nextScanline))).map (fun j => img (s.nextScanline + j))) (avail := min n (k.height - s.nextScanline)) (base := s.nextScanline) hk
    (by intro j hj; rw [List.getElem?_map, List.getElem?_range hj]; rfl) (by omega) (k.total + 1) 0 ok s hG.inv hG.cur (by omega) (by simpa using hnx) hG.susp (fun h1 h2 => ⟨(hG.idle h1 h2).1, fun h => absurd h (hG.idle h1 h2).2⟩) hG.feeds
  refine ⟨i', { s' with nextScanline := (s'.nextScanline + i') % 2 ^ 32 }, by simp [Cfg.writeScanlines, r1], ?_, ?_, by simpa using r5, r6⟩
  · refine { inv := r2.inv.main _ s'.suspended _, cur := r2.cur, susp := r2.susp, idle := r2.idle, feeds := r2.feeds, next := ?_ }
    simp only
    rw [r4, Nat.mod_eq_of_lt (by omega)]
    exact r3
  · simp only
    rw [r4, Nat.mod_eq_of_lt (by omega)]

theorem history_good {k : Cfg R S} (hk : k.Ok) {img : Nat → R} : ∀ (calls : List (Nat × (Nat → Bool))) (s : St R S), Good k img s → ∃ s', k.history img calls s = some s' ∧ Good k img s' := by
  intro calls
  induction calls with
  | nil => intro s h; exact ⟨s, rfl, h⟩
  | cons a l ih =>
    intro s h
    obtain ⟨n, ok⟩ := a
    obtain ⟨r, s1, e1, e2, _⟩ := write_good hk h n ok
    obtain ⟨s2, e3, e4⟩ := ih s1 e2
    exact ⟨s2, by simp [Cfg.history, e1, e3], e4⟩

/-- **C45: scanlines reach the coefficient controller independently of the calls.**  For every sequence of jpeg_write_scanlines calls (any number of lines each) and every behaviour of the coefficient controller (any pattern of
suspensions), no buffer row outside the row pointer arrays is touched; the coefficient controller is offered iMCU rows 0, 1, 2, ... in order, each with the rows determined by the image alone, and again after a suspension;
next_scanline never exceeds the image height, and when it reaches the height every iMCU row has been accepted. -/
theorem C45_feed {k : Cfg R S} (hk : k.Ok) (img : Nat → R) (b0 : Nat → R) (o0 : Nat → S) (calls : List (Nat × (Nat → Bool))) :
    ∃ s, k.history img calls (k.start b0 o0) = some s ∧ Feeds k img 0 s.trace s.cur ∧ s.cur ≤ k.total ∧ s.nextScanline ≤ k.height ∧ (s.nextScanline = k.height → s.cur = k.total) := by
  obtain ⟨s, e1, e2⟩ := history_good hk calls _ (start_good hk img b0 o0)
  have hn := e2.next
  refine ⟨s, e1, e2.feeds, e2.cur, by omega, ?_⟩
  intro h
  have hle := e2.inv.out.2.1
  have hh := hk.h.1
  by_contra hne
  have hlt : s.cur < k.total := by have := e2.cur; omega
  by_cases hs : s.suspended = true
  · rw [hs] at hn
    simp only [if_true] at hn
    omega
  · have hs' : s.suspended = false := by simpa using hs
    have := (e2.idle hs' hlt).2
    rw [hs'] at hn
    simp only [Bool.false_eq_true, if_false] at hn
    omega

/-- **C45: lines accepted.**  In every reachable state that is not suspended, a call during which the coefficient controller does not suspend accepts all the lines offered (up to the image height); in general a call accepts at
most the lines offered (one more than none, if it completes the row held back by a suspension). -/
theorem C45_accepts {k : Cfg R S} (hk : k.Ok) (img : Nat → R) (b0 : Nat → R) (o0 : Nat → S) (calls : List (Nat × (Nat → Bool))) (s : St R S) (hs : k.history img calls (k.start b0 o0) = some s) (n : Nat) (ok : Nat → Bool) :
    ∃ r s', k.writeScanlines img n ok s = some (r, s') ∧ s'.nextScanline = s.nextScanline + r ∧ r ≤ max (if s.suspended then 1 else 0) (min n (k.height - s.nextScanline)) ∧
      (s.suspended = false → (∀ m, ok m = true) → r = min n (k.height - s.nextScanline) ∧ s'.suspended = false) := by
  obtain ⟨s0, e1, e2⟩ := history_good hk calls _ (start_good hk img b0 o0)
  rw [hs, Option.some.injEq] at e1
  subst e1
  obtain ⟨r, s', f1, f2, f3, f4, f5⟩ := write_good hk e2 n ok
  refine ⟨r, s', f1, f3, f4, ?_⟩
  intro h1 h2
  obtain ⟨h3, h4⟩ := f5 h2
  rw [h1] at f4
  simp only [Bool.false_eq_true, if_false] at f4
  exact ⟨by omega, h3⟩

/-- The rows accepted by the coefficient controller. -/
def accepted (l : List (Nat × List S × Bool)) : List (List S) := (l.filter (fun x => x.2.2)).map (fun x => x.2.1)

theorem Feeds.accepted {k : Cfg R S} {img : Nat → R} : ∀ {l : List (Nat × List S × Bool)} {c c' : Nat}, Feeds k img c l c' →
    c ≤ c' ∧ (Verif.Prep.accepted l).map (fun d => d.map some) = (List.range (c' - c)).map (fun i => k.imcu img (c + i)) := by
  intro l
  induction l with
  | nil => intro c c' h; subst h; simp [Verif.Prep.accepted]
  | cons a l ih =>
    intro c c' h
    obtain ⟨x, d, o⟩ := a
    obtain ⟨h1, h2, h3⟩ := h
    cases o with
    | false =>
      simp only [Bool.false_eq_true, if_false] at h3
      simpa [Verif.Prep.accepted] using ih h3
    | true =>
      simp only [if_true] at h3
      obtain ⟨g1, g2⟩ := ih h3
      refine ⟨by omega, ?_⟩
      simp only [Verif.Prep.accepted, List.filter_cons_of_pos, List.map_cons, h2]
      rw [show c' - c = c' - (c + 1) + 1 by omega, List.range_succ_eq_map, List.map_cons, List.map_map, Nat.add_zero]
      congr 1
      simp only [Verif.Prep.accepted, List.map_map] at g2
      simp only [List.map_map]
      rw [g2]
      apply List.map_congr_left
      intro i _
      simp only [Function.comp]
      congr 1; omega

/-- **C45: independence.**  Any two complete histories give the coefficient controller the same component data. -/
theorem C45_independent {k : Cfg R S} (hk : k.Ok) (img : Nat → R) (b0 b0' : Nat → R) (o0 o0' : Nat → S) (calls calls' : List (Nat × (Nat → Bool))) (s s' : St R S)
    (h : k.history img calls (k.start b0 o0) = some s) (h' : k.history img calls' (k.start b0' o0') = some s') (hd : s.nextScanline = k.height) (hd' : s'.nextScanline = k.height) :
    accepted s.trace = accepted s'.trace := by
  obtain ⟨t, e1, e2, e3, e4, e5⟩ := C45_feed hk img b0 o0 calls
  obtain ⟨t', f1, f2, f3, f4, f5⟩ := C45_feed hk img b0' o0' calls'
  rw [h, Option.some.injEq] at e1
  rw [h', Option.some.injEq] at f1
  subst e1 f1
  have a := e2.accepted.2
  have b := f2.accepted.2
  rw [e5 hd] at a
  rw [f5 hd'] at b
  have := a.trans b.symm
  have inj : Function.Injective (fun d : List S => d.map some) := fun x y hxy => by
    have := congrArg (fun l => l.filterMap id) hxy
    simpa [List.filterMap_map] using this
  exact (List.map_inj_right (fun x y h => inj h)).1 this

/-! A concrete case: 11 rows, max_v_samp_factor 2, v_samp_factor 1, 8 rows per unit, context rows; downsampling keeps the rows it saw. -/

/-- The example configuration. -/
def exCfg (c : Bool) : Cfg Nat (List Nat) := { height := 11, maxV := 2, v := 1, unit := 2, context := c, down := fun l => [l] }

example (c : Bool) : (exCfg c).Ok where
  h := by cases c <;> decide
  mv := by cases c <;> decide
  v := by cases c <;> decide
  u := by cases c <;> decide
  down := fun _ => rfl

example : ((exCfg true).history id [(3, fun _ => true), (0, fun _ => true), (20, fun n => n != 0), (1, fun _ => false), (9, fun _ => true), (9, fun _ => true)] ((exCfg true).start (fun _ => 99) (fun _ => []))).map (fun s => s.trace) =
    some [(0, [[0, 0, 1, 2], [1, 2, 3, 4]], false), (0, [[0, 0, 1, 2], [1, 2, 3, 4]], false), (0, [[0, 0, 1, 2], [1, 2, 3, 4]], true), (1, [[3, 4, 5, 6], [5, 6, 7, 8]], true), (2, [[7, 8, 9, 10], [9, 10, 10, 10]], true)] := by decide +kernel

example : ((exCfg false).history id [(3, fun _ => true), (20, fun _ => true)] ((exCfg false).start (fun _ => 99) (fun _ => []))).map (fun s => accepted s.trace) =
    some [[[0, 1], [2, 3]], [[4, 5], [6, 7]], [[8, 9], [10, 10]]] := by decide +kernel

end Verif.Prep
