/-
The merging loop of jpeg_gen_optimal_table (Optimal.lean) performs Huffman's procedure (OptForest.lean).
-/
import Verif.Huff.Optimal
import Verif.Huff.OptForest
import Mathlib.Data.List.Perm.Subperm

namespace Verif.Huff.Opt

def LIM : Nat := 1000000000

/-- What the scan knows after the first `k` entries. -/
inductive PInv (f : Nat → Nat) (k : Nat) : Pick → Prop
  | none (h : ∀ i < k, LIM < f i) : PInv f k ⟨none, none, LIM, LIM⟩
  | one (a : Nat) (ha : a < k) (hl : f a ≤ LIM) (h : ∀ i < k, i ≠ a → LIM < f i) :
      PInv f k ⟨some a, none, f a, LIM⟩
  | two (a b : Nat) (ha : a < k) (hb : b < k) (hab : a ≠ b) (hla : f a ≤ LIM) (hlb : f b ≤ LIM)
      (h1 : ∀ i < k, i ≠ a → Before f a i) (h2 : ∀ i < k, i ≠ a → i ≠ b → Before f b i) :
      PInv f k ⟨some a, some b, f a, f b⟩

theorem lt_succ_cases {i k : Nat} (h : i < k + 1) : i < k ∨ i = k := by omega

theorem pickStep_inv {f : Nat → Nat} {k : Nat} {s : Pick} (h : PInv f k s) :
    PInv f (k + 1) (pickStep f s k) := by
  cases h with
  | none h =>
    unfold pickStep
    by_cases hk : f k ≤ LIM
    · simp only [hk, if_true]
      exact .one k (by omega) hk (fun i hi hne => h i (by omega))
    · simp only [hk, if_false]
      exact .none (fun i hi => by
        rcases lt_succ_cases hi with h' | rfl
        · exact h i h'
        · omega)
  | one a ha hl h =>
    unfold pickStep
    by_cases hk : f k ≤ LIM
    · simp only [hk, if_true]
      by_cases hk2 : f k ≤ f a
      · simp only [hk2, if_true]
        have hb : Before f k a := by unfold Before; omega
        refine .two k a (by omega) (by omega) (by omega) hk hl ?_ ?_
        · intro i hi hne
          by_cases e : i = a
          · rw [e]; exact hb
          · have := h i (by omega) e
            unfold Before; omega
        · intro i hi hne hne2
          have := h i (by omega) hne2
          unfold Before; omega
      · simp only [hk2, if_false]
        refine .two a k (by omega) (by omega) (by omega) hl hk ?_ ?_
        · intro i hi hne
          rcases lt_succ_cases hi with h' | rfl
          · have := h i h' hne
            unfold Before; omega
          · unfold Before; omega
        · intro i hi hne hne2
          have := h i (by omega) hne
          unfold Before; omega
    · simp only [hk, if_false]
      exact .one a (by omega) hl (fun i hi hne => by
        rcases lt_succ_cases hi with h' | rfl
        · exact h i h' hne
        · omega)
  | two a b ha hb hab hla hlb h1 h2 =>
    unfold pickStep
    by_cases hk : f k ≤ f b
    · simp only [hk, if_true]
      by_cases hk2 : f k ≤ f a
      · simp only [hk2, if_true]
        have hb' : Before f k a := by unfold Before; omega
        refine .two k a (by omega) (by omega) (by omega) (by omega) hla ?_ ?_
        · intro i hi hne
          by_cases e : i = a
          · rw [e]; exact hb'
          · exact hb'.trans (h1 i (by omega) e)
        · intro i hi hne hne2
          exact h1 i (by omega) hne2
      · simp only [hk2, if_false]
        have hb' : Before f k b := by unfold Before; omega
        refine .two a k (by omega) (by omega) (by omega) hla (by omega) ?_ ?_
        · intro i hi hne
          rcases lt_succ_cases hi with h' | rfl
          · exact h1 i h' hne
          · unfold Before; omega
        · intro i hi hne hne2
          by_cases e : i = b
          · rw [e]; exact hb'
          · exact hb'.trans (h2 i (by omega) hne e)
    · simp only [hk, if_false]
      have h3 := h1 b hb hab.symm
      refine .two a b (by omega) (by omega) hab hla hlb ?_ ?_
      · intro i hi hne
        rcases lt_succ_cases hi with h' | rfl
        · exact h1 i h' hne
        · unfold Before at *; omega
      · intro i hi hne hne2
        rcases lt_succ_cases hi with h' | rfl
        · exact h2 i h' hne hne2
        · unfold Before; omega

theorem pick_inv (f : Nat → Nat) (n : Nat) : PInv f n (pick f n) := by
  unfold pick
  induction n with
  | zero => exact .none (fun i hi => by omega)
  | succ n ih =>
    rw [List.range_succ, List.foldl_append]
    exact pickStep_inv ih

/-! ## Branch chains -/

/-- `l` is the branch list that starts at its head: each element links to the next, the last to none. -/
def IsChain (others : Nat → Option Nat) : List Nat → Prop
  | [] => False
  | [c] => others c = none
  | c :: c' :: l => others c = some c' ∧ IsChain others (c' :: l)

theorem IsChain.congr {o o' : Nat → Option Nat} : ∀ {l : List Nat}, IsChain o l →
    (∀ i ∈ l, o' i = o i) → IsChain o' l
  | [], h, _ => h
  | [c], h, e => by simp only [IsChain] at *; rw [e c (by simp)]; exact h
  | c :: c' :: l, h, e => by
    simp only [IsChain] at *
    exact ⟨by rw [e c (by simp)]; exact h.1, h.2.congr (fun i hi => e i (by simp at hi ⊢; tauto))⟩

theorem walk_chain (others : Nat → Option Nat) : ∀ (l : List Nat) (c k : Nat) (cs : Nat → Nat),
    IsChain others (c :: l) → (c :: l).Nodup → (c :: l).length ≤ k →
    walk others k c cs = (fun i => if i ∈ c :: l then cs i + 1 else cs i, (c :: l).getLast (by simp)) := by
  intro l
  induction l with
  | nil =>
    intro c k cs h _ hk
    obtain ⟨k, rfl⟩ : ∃ k', k = k' + 1 := ⟨k - 1, by simp at hk; omega⟩
    simp only [IsChain] at h
    simp [walk, h]
  | cons c' l ih =>
    intro c k cs h hnd hk
    obtain ⟨k, rfl⟩ : ∃ k', k = k' + 1 := ⟨k - 1, by simp at hk; omega⟩
    simp only [IsChain] at h
    rw [List.nodup_cons] at hnd
    simp only [walk, h.1]
    rw [ih c' k _ h.2 hnd.2 (by simp at hk ⊢; omega)]
    ext1
    · funext i
      by_cases e : i = c
      · subst e
        simp [hnd.1]
      · by_cases hi : i ∈ c' :: l
        · simp only [hi, if_true, e, if_false, List.mem_cons_of_mem]
        · have : i ∉ c :: c' :: l := by
            intro hc; rcases List.mem_cons.1 hc with h1 | h1
            · exact e h1
            · exact hi h1
          simp only [hi, if_false, e, this]
    · simp

theorem chain_append {o : Nat → Option Nat} : ∀ {l l2 : List Nat} (h1 : IsChain o l)
    (h2 : IsChain o l2) (hl : l ≠ []), (∀ i ∈ l, i ∉ l2) → l.Nodup → ∀ c2, l2.head? = some c2 →
    IsChain (fun i => if i = l.getLast hl then some c2 else o i) (l ++ l2)
  | [], _, _, _, hl, _, _, _, _ => absurd rfl hl
  | [c], [], h1, h2, hl, hd, hn, c2, hc => absurd hc (by simp)
  | [c], x :: l2, h1, h2, hl, hd, hn, c2, hc => by
    simp only [List.head?_cons, Option.some.injEq] at hc
    subst hc
    simp only [List.cons_append, List.nil_append, List.getLast_singleton, IsChain, if_true, true_and]
    refine h2.congr (fun i hi => ?_)
    have : i ≠ c := by rintro rfl; exact hd i (by simp) hi
    simp [this]
  | c :: c' :: l, l2, h1, h2, hl, hd, hn, c2, hc => by
    rw [List.nodup_cons] at hn
    simp only [IsChain] at h1
    have ih := chain_append (l := c' :: l) h1.2 h2 (by simp) (fun i hi => hd i (by simp [hi])) hn.2 c2 hc
    simp only [List.cons_append, IsChain, List.getLast_cons_cons] at ih ⊢
    refine ⟨?_, ih⟩
    have : c ≠ (c' :: l).getLast (by simp) := by
      intro e
      exact hn.1 (e ▸ List.getLast_mem _)
    simp only [this, if_false]
    exact h1.1

/-! ## The merging loop -/

/-- The forest represented by the arrays: roots `R`, branch of a root `mem r`, root of an entry. -/
structure CI (n : Nat) (R : List Nat) (mem : Nat → List Nat) (root : Nat → Nat) (st : MState) : Prop where
  n257 : n ≤ 257
  nodup : R.Nodup
  lt : ∀ r ∈ R, r < n
  high : ∀ i < n, i ∉ R → st.freq i = LIM + 1
  tot : (R.map st.freq).sum ≤ LIM
  chain : ∀ r ∈ R, IsChain st.others (mem r) ∧ (mem r).head? = some r ∧ (mem r).Nodup ∧
    ∀ i ∈ mem r, i < n
  root_mem : ∀ i < n, root i ∈ R
  mem_iff : ∀ i < n, ∀ r ∈ R, i ∈ mem r ↔ root i = r

theorem run_congr {R : List Nat} {f f' D : Nat → Nat} (h : Run R f D) : (∀ x ∈ R, f' x = f x) →
    Run R f' D := by
  induction h generalizing f' with
  | done r f => intro _; exact .done r f'
  | @step R f D a b hm h ih =>
    intro he
    have hbef : ∀ x ∈ R, ∀ y ∈ R, Before f x y → Before f' x y := by
      intro x hx y hy hb
      unfold Before at *
      rw [he x hx, he y hy]; exact hb
    refine .step (a := a) (b := b) ⟨hm.ha, hm.hb, hm.ne, ?_, ?_⟩ (ih ?_)
    · intro x hx hne; exact hbef _ hm.ha _ hx (hm.first x hx hne)
    · intro x hx h1 h2; exact hbef _ hm.hb _ hx (hm.second x hx h1 h2)
    · intro x hx
      unfold upd
      rw [he a hm.ha, he b hm.hb, he x (List.mem_of_mem_erase hx)]

theorem le_sum_of_mem {R : List Nat} {x : Nat} (h : x ∈ R) (g : Nat → Nat) : g x ≤ (R.map g).sum := by
  rw [sum_erase h]; omega

theorem nodup_length_le {l : List Nat} {n : Nat} (hn : l.Nodup) (h : ∀ i ∈ l, i < n) : l.length ≤ n := by
  have : l.Subperm (List.range n) := List.subperm_of_subset hn (fun i hi => List.mem_range.2 (h i hi))
  simpa using this.length_le

theorem merge_step_spec {n : Nat} {R : List Nat} {mem : Nat → List Nat} {root : Nat → Nat} {st : MState}
    (h : CI n R mem root st) :
    (R.length ≤ 1 → mergeStep n st = none) ∧
    (2 ≤ R.length → ∃ a b st', mergeStep n st = some st' ∧ Min2 R st.freq a b ∧
      (∀ x ∈ R.erase b, st'.freq x = upd st.freq a (st.freq a + st.freq b) x) ∧
      (∀ i < n, st'.cs i = st.cs i + (if root i = a ∨ root i = b then 1 else 0)) ∧
      CI n (R.erase b) (fun r => if r = a then mem a ++ mem b else mem r)
        (fun i => if root i = b then a else root i) st') := by
  have hR : ∀ i < n, i ∈ R ↔ st.freq i ≤ LIM := by
    intro i hi
    constructor
    · intro hm; exact Nat.le_trans (le_sum_of_mem hm st.freq) h.tot
    · intro hf
      by_contra hc
      have := h.high i hi hc
      omega
  have hp := pick_inv st.freq n
  constructor
  · intro hlen
    unfold mergeStep
    generalize pick st.freq n = p at hp
    cases hp with
    | none => rfl
    | one => rfl
    | two a b ha hb hab hla hlb h1 h2 =>
      exfalso
      have ma := (hR a ha).2 hla
      have mb := (hR b hb).2 hlb
      match R, hlen, ma, mb with
      | [r], _, ma, mb =>
        simp at ma mb; omega
      | [], _, ma, _ => simp at ma
  · intro hlen
    unfold mergeStep
    generalize pick st.freq n = p at hp
    cases hp with
    | none hh =>
      exfalso
      obtain ⟨r, hr⟩ := List.exists_mem_of_length_pos (l := R) (by omega)
      have := (hR r (h.lt r hr)).1 hr
      have := hh r (h.lt r hr)
      omega
    | one a ha hl hh =>
      exfalso
      match R, hlen, h.nodup, hR, h.lt with
      | x :: y :: l, _, hn, hR, hlt =>
        have hxy : x ≠ y := by
          rintro rfl; simp at hn
        have e1 : x = a := by
          by_contra e
          have := hh x (hlt x (by simp)) e
          have := (hR x (hlt x (by simp))).1 (by simp)
          omega
        have e2 : y = a := by
          by_contra e
          have := hh y (hlt y (by simp)) e
          have := (hR y (hlt y (by simp))).1 (by simp)
          omega
        omega
    | two a b ha hb hab hla hlb h1 h2 =>
      have ma := (hR a ha).2 hla
      have mb := (hR b hb).2 hlb
      obtain ⟨ca1, ca2, ca3, ca4⟩ := h.chain a ma
      obtain ⟨cb1, cb2, cb3, cb4⟩ := h.chain b mb
      obtain ⟨la, hla'⟩ : ∃ la, mem a = a :: la := by
        cases hm : mem a with
        | nil => rw [hm] at ca2; simp at ca2
        | cons x l => rw [hm] at ca2; simp at ca2; exact ⟨l, by rw [ca2]⟩
      obtain ⟨lb, hlb'⟩ : ∃ lb, mem b = b :: lb := by
        cases hm : mem b with
        | nil => rw [hm] at cb2; simp at cb2
        | cons x l => rw [hm] at cb2; simp at cb2; exact ⟨l, by rw [cb2]⟩
      have hdis : ∀ i ∈ mem a, i ∉ mem b := by
        intro i hi hi2
        have e1 := (h.mem_iff i (ca4 i hi) a ma).1 hi
        have e2 := (h.mem_iff i (ca4 i hi) b mb).1 hi2
        exact hab (e1.symm.trans e2)
      have hm2 : Min2 R st.freq a b :=
        ⟨ma, mb, hab, fun x hx hne => h1 x (h.lt x hx) hne,
          fun x hx hne hne2 => h2 x (h.lt x hx) hne hne2⟩
      have hlenA : (a :: la).length ≤ 257 := by
        rw [← hla']; exact Nat.le_trans (nodup_length_le ca3 ca4) h.n257
      have hlenB : (b :: lb).length ≤ 257 := by
        rw [← hlb']; exact Nat.le_trans (nodup_length_le cb3 cb4) h.n257
      have w1 := walk_chain st.others la a 257 st.cs (hla' ▸ ca1) (hla' ▸ ca3) hlenA
      obtain ⟨last, hlast⟩ : ∃ last, last = (a :: la).getLast (by simp) := ⟨_, rfl⟩
      rw [← hlast] at w1
      have hlm : last ∈ mem a := by rw [hla', hlast]; exact List.getLast_mem _
      have cb1' : IsChain (fun i => if i = last then some b else st.others i) (b :: lb) := by
        rw [← hlb']
        refine cb1.congr (fun i hi => ?_)
        have : i ≠ last := by rintro rfl; exact hdis i hlm hi
        simp [this]
      have w2 := walk_chain (fun i => if i = last then some b else st.others i) lb b 257
        (fun i => if i ∈ a :: la then st.cs i + 1 else st.cs i) cb1' (hlb' ▸ cb3) hlenB
      simp only [Option.getD_some, w1, w2]
      refine ⟨a, b, _, rfl, hm2, ?_, ?_, ?_⟩
      · intro x hx
        have := (h.nodup.mem_erase_iff).1 hx
        simp only [upd, if_neg this.1]
      · intro i hi
        simp only
        rw [← hla', ← hlb']
        have e1 := h.mem_iff i hi a ma
        have e2 := h.mem_iff i hi b mb
        by_cases x1 : root i = a
        · have : i ∉ mem b := fun hc => hab (x1.symm.trans (e2.1 hc))
          rw [if_neg this, if_pos (e1.2 x1), if_pos (.inl x1)]
        · have n1 : i ∉ mem a := fun hc => x1 (e1.1 hc)
          by_cases x2 : root i = b
          · rw [if_pos (e2.2 x2), if_neg n1, if_pos (.inr x2)]
          · have n2 : i ∉ mem b := fun hc => x2 (e2.1 hc)
            rw [if_neg n2, if_neg n1, if_neg (by tauto)]; rfl
      · have hmemE : ∀ z, z ∈ R.erase b ↔ z ≠ b ∧ z ∈ R := fun z => h.nodup.mem_erase_iff
        have haE : a ∈ R.erase b := (hmemE a).2 ⟨hab, ma⟩
        refine ⟨h.n257, h.nodup.erase b, ?_, ?_, ?_, ?_, ?_, ?_⟩
        · intro r hr; exact h.lt r ((hmemE r).1 hr).2
        · intro i hi hn
          simp only
          by_cases e : i = b
          · rw [if_pos e]; rfl
          · have hnR : i ∉ R := fun hc => hn ((hmemE i).2 ⟨e, hc⟩)
            have hne : i ≠ a := fun hc => hnR (hc ▸ ma)
            rw [if_neg e, if_neg hne]
            exact h.high i hi hnR
        · refine Nat.le_trans (Nat.le_of_eq ?_) h.tot
          rw [sum_erase mb, sum_erase haE, sum_erase haE]
          simp only [if_neg hab, if_true]
          have : (((R.erase b).erase a).map (fun i => if i = b then 1000000001 else
              if i = a then st.freq a + st.freq b else st.freq i)).sum =
              (((R.erase b).erase a).map st.freq).sum := by
            apply sum_congr
            intro x hx
            have k1 := ((h.nodup.erase b).mem_erase_iff).1 hx
            have k2 := (hmemE x).1 k1.2
            rw [if_neg k2.1, if_neg k1.1]
          rw [this]; omega
        · intro r hr
          have hr' := (hmemE r).1 hr
          by_cases e : r = a
          · subst e
            simp only [if_true]
            have hne : mem r ≠ [] := by rw [hla']; simp
            refine ⟨?_, ?_, ?_, ?_⟩
            · have := chain_append ca1 cb1 hne hdis ca3 b cb2
              have hl2 : (mem r).getLast hne = last := by
                rw [hlast]; congr 1
              rw [hl2] at this
              exact this
            · rw [hla']; simp
            · rw [List.nodup_append]
              refine ⟨ca3, cb3, ?_⟩
              intro x hx y hy hxy
              exact hdis x hx (hxy ▸ hy)
            · intro i hi
              rcases List.mem_append.1 hi with hi | hi
              · exact ca4 i hi
              · exact cb4 i hi
          · simp only [if_neg e]
            obtain ⟨c1, c2, c3, c4⟩ := h.chain r hr'.2
            refine ⟨c1.congr (fun i hi => ?_), c2, c3, c4⟩
            have : i ≠ last := by
              rintro rfl
              have k1 := (h.mem_iff i (c4 i hi) r hr'.2).1 hi
              have k2 := (h.mem_iff i (c4 i hi) a ma).1 hlm
              exact e (k1.symm.trans k2)
            simp [this]
        · intro i hi
          by_cases e : root i = b
          · rw [if_pos e]; exact haE
          · rw [if_neg e]; exact (hmemE _).2 ⟨e, h.root_mem i hi⟩
        · intro i hi r hr
          have hr' := (hmemE r).1 hr
          by_cases e : r = a
          · subst e
            simp only [if_true, List.mem_append]
            rw [h.mem_iff i hi r ma, h.mem_iff i hi b mb]
            by_cases e2 : root i = b
            · simp [e2]
            · simp [e2]
          · simp only [if_neg e]
            rw [h.mem_iff i hi r hr'.2]
            by_cases e2 : root i = b
            · rw [if_pos e2, e2]
              constructor
              · intro hc; exact absurd hc.symm hr'.1
              · intro hc; exact absurd hc.symm e
            · rw [if_neg e2]

theorem merge_loop_spec (n : Nat) : ∀ (k : Nat) (R : List Nat) (mem : Nat → List Nat) (root : Nat → Nat)
    (st : MState), CI n R mem root st → 1 ≤ R.length → R.length ≤ k + 1 →
    ∃ D, Run R st.freq D ∧ ∀ i < n, (mergeLoop n k st).cs i = st.cs i + D (root i) := by
  intro k
  induction k with
  | zero =>
    intro R mem root st h h1 h2
    match R, h1, h2 with
    | [r], _, _ => exact ⟨fun _ => 0, .done r st.freq, fun i hi => by simp [mergeLoop]⟩
  | succ k ih =>
    intro R mem root st h h1 h2
    obtain ⟨s1, s2⟩ := merge_step_spec h
    by_cases hl : R.length ≤ 1
    · match R, h1, hl with
      | [r], _, _ =>
        refine ⟨fun _ => 0, .done r st.freq, fun i hi => ?_⟩
        simp only [mergeLoop]
        rw [s1 (by simp)]
        rfl
    · obtain ⟨a, b, st', e, hm, hf, hcs, hci⟩ := s2 (by omega)
      have hlE := List.length_erase_of_mem hm.hb
      obtain ⟨D, hD, hres⟩ := ih _ _ _ st' hci (by omega) (by omega)
      refine ⟨_, .step hm (run_congr hD (fun x hx => (hf x hx).symm)), fun i hi => ?_⟩
      simp only [mergeLoop]
      rw [e]
      simp only
      rw [hres i hi, hcs i hi]
      by_cases x : root i = a ∨ root i = b
      · rw [if_pos x, if_pos x]
        have : (if root i = b then a else root i) = a := by
          split
          · rfl
          · tauto
        rw [this]; omega
      · rw [if_neg x, if_neg x, if_neg (by tauto)]; rfl

end Verif.Huff.Opt
