/-
C58 where the factors of one matrix are among those of the other, in any order.
-/
import Verif.Rank2

set_option linter.unusedSectionVars false

namespace Verif

variable {K : Type} [Field K] [LinearOrder K] [IsStrictOrderedRing K]

/-- In the first batch element the columns of `b` are columns of `a`, in some order, and no two columns of `a` have the same norm. -/
structure Among (a b : Tensor K) : Prop where
  rows : a.rows = b.rows
  nonempty : a.rows ≠ 0
  cols : ∃ g : ℕ → ℕ, (∀ j < b.cols, g j < a.cols ∧ ∀ x < a.rows, b.at' (fun _ => 0) x j = a.at' (fun _ => 0) x (g j)) ∧
    ∀ j < b.cols, ∀ j' < b.cols, g j = g j' → j = j'
  norms : ∀ i < a.cols, ∀ i' < a.cols, (∑ x ∈ Finset.range a.rows, a.at' (fun _ => 0) x i ^ 2) = ∑ x ∈ Finset.range a.rows, a.at' (fun _ => 0) x i' ^ 2 → i = i'

/-- The loop makes no slot but for the columns of `a`, if those of `b` are among them. -/
theorem alignLoop_among {eq : ℕ → ℕ → E Bool} {na nb : ℕ → K} {g : ℕ → ℕ} (as : List ℕ) (hs : as.Pairwise fun i i' => na i < na i') : ∀ {bs : List ℕ} {r : Align},
    (∀ j ∈ bs, eq (g j) j = .ok true ∧ na (g j) = nb j) → (bs.map g).Sublist as → alignLoop eq na nb as bs = .ok r → r.aJoin.length = as.length := by
  induction as with
  | nil =>
    intro bs r _ hb h
    obtain rfl : bs = [] := by simpa using hb
    rw [alignLoop] at h
    cases h; rfl
  | cons i as ih =>
    intro bs r he hb h
    rw [List.pairwise_cons] at hs
    cases bs with
    | nil =>
      rw [alignLoop] at h
      · cases h; simp
      · simp
    | cons j bs =>
      have ht : (bs.map g).Sublist as := by
        rw [List.map_cons] at hb
        cases hb with
        | cons _ h => exact (List.sublist_cons_self _ _).trans h
        | cons_cons _ h => exact h
      have he' : ∀ j ∈ bs, eq (g j) j = .ok true ∧ na (g j) = nb j := fun k hk => he k (List.mem_cons_of_mem _ hk)
      rw [alignLoop] at h
      obtain ⟨v, hv, h⟩ := bind_ok_iff.1 h
      cases v with
      | true =>
        obtain ⟨r', h1, h⟩ := bind_ok_iff.1 h
        cases h
        simpa [Align.cons] using ih hs.2 he' ht h1
      | false =>
        have hg : g j ≠ i := fun e => by
          have := (he j (by simp)).1
          rw [e, hv] at this
          cases this
        have hj : ((j :: bs).map g).Sublist as := by
          rw [List.map_cons] at hb ⊢
          cases hb with
          | cons _ h => exact h
          | cons_cons _ h => exact absurd rfl hg
        have lt : na i < nb j := by
          rw [← (he j (by simp)).2]
          exact hs.1 _ (hj.subset (by simp))
        simp only [Bool.false_eq_true, if_false, lt, if_true] at h
        obtain ⟨r', h1, h⟩ := bind_ok_iff.1 h
        cases h
        simpa [Align.cons] using ih hs.2 he hj h1

/-- The same with the columns of `a` among those of `b`. -/
theorem alignLoop_among' {eq : ℕ → ℕ → E Bool} {na nb : ℕ → K} {g : ℕ → ℕ} (bs : List ℕ) (hs : bs.Pairwise fun i i' => nb i < nb i') : ∀ {as : List ℕ} {r : Align},
    (∀ i ∈ as, eq i (g i) = .ok true ∧ nb (g i) = na i) → (as.map g).Sublist bs → alignLoop eq na nb as bs = .ok r → r.aJoin.length = bs.length := by
  induction bs with
  | nil =>
    intro as r _ hb h
    obtain rfl : as = [] := by simpa using hb
    rw [alignLoop] at h
    cases h; rfl
  | cons j bs ih =>
    intro as r he hb h
    rw [List.pairwise_cons] at hs
    cases as with
    | nil =>
      rw [alignLoop] at h
      cases h; simp
    | cons i as =>
      have ht : (as.map g).Sublist bs := by
        rw [List.map_cons] at hb
        cases hb with
        | cons _ h => exact (List.sublist_cons_self _ _).trans h
        | cons_cons _ h => exact h
      have he' : ∀ j ∈ as, eq j (g j) = .ok true ∧ nb (g j) = na j := fun k hk => he k (List.mem_cons_of_mem _ hk)
      rw [alignLoop] at h
      obtain ⟨v, hv, h⟩ := bind_ok_iff.1 h
      cases v with
      | true =>
        obtain ⟨r', h1, h⟩ := bind_ok_iff.1 h
        cases h
        simpa [Align.cons] using ih hs.2 he' ht h1
      | false =>
        have hg : g i ≠ j := fun e => by
          have := (he i (by simp)).1
          rw [e, hv] at this
          cases this
        have hj : ((i :: as).map g).Sublist bs := by
          rw [List.map_cons] at hb ⊢
          cases hb with
          | cons _ h => exact h
          | cons_cons _ h => exact absurd rfl hg
        have lt : ¬ na i < nb j := by
          rw [← (he i (by simp)).2, not_lt]
          exact (hs.1 _ (hj.subset (by simp))).le
        simp only [Bool.false_eq_true, if_false, lt] at h
        obtain ⟨r', h1, h⟩ := bind_ok_iff.1 h
        cases h
        simpa [Align.cons] using ih hs.2 he hj h1

theorem colNorms_getD (a : Tensor K) {i : ℕ} (hi : i < a.cols) : (colNorms a).getD i 0 = ∑ x ∈ Finset.range a.rows, a.at' (fun _ => 0) x i ^ 2 := by
  simp [colNorms, List.getD_eq_getElem?_getD, hi, pow_two]

/-- Columns with different norms are sorted strictly. -/
theorem sorted_strict {a : Tensor K}
    (hn : ∀ i < a.cols, ∀ i' < a.cols, (∑ x ∈ Finset.range a.rows, a.at' (fun _ => 0) x i ^ 2) = ∑ x ∈ Finset.range a.rows, a.at' (fun _ => 0) x i' ^ 2 → i = i') :
    (codeArgsort (colNorms a)).Pairwise fun i i' => (colNorms a).getD i 0 < (colNorms a).getD i' 0 := by
  have p := argsort_range a
  have s : (codeArgsort (colNorms a)).Pairwise fun i j => (colNorms a).getD i 0 ≤ (colNorms a).getD j 0 := by
    refine List.pairwise_insertionSort _ _
  have d : (codeArgsort (colNorms a)).Nodup := p.nodup_iff.2 List.nodup_range
  refine (s.and d).imp_of_mem fun {i j} hi hj h => lt_of_le_of_ne h.1 fun e => h.2 ?_
  have hi := List.mem_range.1 (p.mem_iff.1 hi)
  have hj := List.mem_range.1 (p.mem_iff.1 hj)
  rw [colNorms_getD a hi, colNorms_getD a hj] at e
  exact hn i hi j hj e

/-- The sorted columns of `b` are a sublist of those of `a`. -/
theorem Among.sublist {a b : Tensor K} {g : ℕ → ℕ} (hr : a.rows = b.rows)
    (hg : ∀ j < b.cols, g j < a.cols ∧ ∀ x < a.rows, b.at' (fun _ => 0) x j = a.at' (fun _ => 0) x (g j)) (hi : ∀ j < b.cols, ∀ j' < b.cols, g j = g j' → j = j')
    (hn : ∀ i < a.cols, ∀ i' < a.cols, (∑ x ∈ Finset.range a.rows, a.at' (fun _ => 0) x i ^ 2) = ∑ x ∈ Finset.range a.rows, a.at' (fun _ => 0) x i' ^ 2 → i = i') :
    (∀ j < b.cols, (colNorms a).getD (g j) 0 = (colNorms b).getD j 0) ∧ ((codeArgsort (colNorms b)).map g).Sublist (codeArgsort (colNorms a)) := by
  have key : ∀ j < b.cols, (colNorms a).getD (g j) 0 = (colNorms b).getD j 0 := by
    intro j hj
    rw [colNorms_getD b hj, colNorms_getD a (hg j hj).1, ← hr]
    exact Finset.sum_congr rfl fun x hx => by rw [(hg j hj).2 x (Finset.mem_range.1 hx)]
  have pa := argsort_range a
  have pb := argsort_range b
  have mb : ∀ {j}, j ∈ codeArgsort (colNorms b) → j < b.cols := fun h => List.mem_range.1 (pb.mem_iff.1 h)
  refine ⟨key, ?_⟩
  have hb := sorted_strict (a := b) fun i h1 i' h2 e => hi i h1 i' h2 (hn _ (hg i h1).1 _ (hg i' h2).1 (by
    rw [← colNorms_getD a (hg i h1).1, ← colNorms_getD a (hg i' h2).1, key i h1, key i' h2, colNorms_getD b h1, colNorms_getD b h2]; exact e))
  have sb : ((codeArgsort (colNorms b)).map g).Pairwise fun i i' => (colNorms a).getD i 0 < (colNorms a).getD i' 0 := by
    rw [List.pairwise_map]
    exact hb.imp_of_mem fun h1 h2 h => by rwa [key _ (mb h1), key _ (mb h2)]
  let R : ℕ → ℕ → Prop := fun i i' => (colNorms a).getD i 0 < (colNorms a).getD i' 0
  have : Std.Antisymm R := ⟨fun _ _ h1 h2 => absurd h2 (lt_asymm h1)⟩
  refine List.sublist_of_subperm_of_pairwise (r := R) (List.subperm_of_subset ?_ ?_) sb (sorted_strict hn)
  · exact sb.imp fun h e => by rw [e] at h; exact lt_irrefl _ h
  · intro i h
    obtain ⟨j, h1, rfl⟩ := List.mem_map.1 h
    exact pa.mem_iff.2 (List.mem_range.2 (hg j (mb h1)).1)

/-- Columns that agree in the first batch element are found equal. -/
theorem codeColEq_of {tol : K} (ht : 0 < tol) {a b : Tensor K} (hr : a.rows = b.rows) (h0 : a.rows ≠ 0) {i j : ℕ}
    (h : ∀ x < a.rows, a.at' (fun _ => 0) x i = b.at' (fun _ => 0) x j) : codeColEq tol a b i j = .ok true := by
  unfold codeColEq
  rw [← hr, if_pos (Compat.refl _)]
  have e0 : bd a.rows a.rows = a.rows := by simp [bd]
  simp only [e0, Except.ok.injEq, decide_eq_true_eq]
  refine ⟨h0, ?_⟩
  rw [Finset.sum_eq_zero, zero_div]
  · exact ht
  · intro x hx
    rw [h x (Finset.mem_range.1 hx), sub_self, mul_zero]

theorem align_among {c : Cfg K} (ht : 0 < c.tol) {a b : Tensor K} (h : Among a b) {r : Align} (hL : align c.code a b = .ok r) : r.aJoin.length = a.cols := by
  simp only [align, bind_ok_iff] at hL
  obtain ⟨_, _, _, _, hL⟩ := hL
  obtain ⟨g, hg, hi⟩ := h.cols
  obtain ⟨k1, k2⟩ := Among.sublist h.rows hg hi h.norms
  have mb : ∀ {j}, j ∈ codeArgsort (colNorms b) → j < b.cols := fun h => List.mem_range.1 ((argsort_range b).mem_iff.1 h)
  have := alignLoop_among (g := g) _ (sorted_strict h.norms) (fun j hj => ⟨codeColEq_of ht h.rows h.nonempty fun x hx => ((hg j (mb hj)).2 x hx).symm, k1 j (mb hj)⟩) k2 hL
  rw [this, (argsort_range a).length_eq, List.length_range]

theorem align_among' {c : Cfg K} (ht : 0 < c.tol) {a b : Tensor K} (h : Among b a) {r : Align} (hL : align c.code a b = .ok r) : r.aJoin.length = b.cols := by
  simp only [align, bind_ok_iff] at hL
  obtain ⟨_, _, _, _, hL⟩ := hL
  obtain ⟨g, hg, hi⟩ := h.cols
  obtain ⟨k1, k2⟩ := Among.sublist h.rows hg hi h.norms
  have mb : ∀ {j}, j ∈ codeArgsort (colNorms a) → j < a.cols := fun h => List.mem_range.1 ((argsort_range a).mem_iff.1 h)
  have := alignLoop_among' (g := g) _ (sorted_strict h.norms) (fun j hj => ⟨codeColEq_of ht h.rows.symm (h.rows ▸ h.nonempty) fun x hx => (hg j (mb hj)).2 x (h.rows ▸ hx), k1 j (mb hj)⟩) k2 hL
  rw [this, (argsort_range b).length_eq, List.length_range]

/-- `P` columns suffice for those of `a` and `b`: as many as both have, or as many as one has if those of the other are among them. -/
def JoinLe (a b : Tensor K) (P : ℕ) : Prop := a.cols + b.cols ≤ P ∨ Among a b ∧ a.cols ≤ P ∨ Among b a ∧ b.cols ≤ P

/-- C58.  The sum of two LowRank matrices has no more left factors than one of them if those of the other are among its left factors, in whatever order; likewise for right factors. -/
theorem C58_add_among (c : Cfg K) (ht : 0 < c.tol) {al ar am bl br bm r : Mat K} {t u t' u' : Tensor K} (a1 : al.IsArray t) (a2 : ar.IsArray u) (b1 : bl.IsArray t') (b2 : br.IsArray u')
    {P Q : ℕ} (hP : JoinLe t t' P) (hQ : JoinLe u u' Q) (h : Returns c (fun B => B.add (.lr al ar am) (.lr bl br bm)) r) : r.factorsLe P Q := by
  obtain ⟨n, h⟩ := h
  cases n with
  | zero => cases h
  | succ n =>
    have h : addLRLR c.code (ops c.code n) al ar am bl br bm = .ok r := h
    have key : ∀ {x y : Tensor K} {P : ℕ}, JoinLe x y P → ∀ L, align c.code x y = .ok L → L.aJoin.length ≤ P := by
      rintro x y P (h | ⟨h, hp⟩ | ⟨h, hp⟩) L hL
      · exact (align_length hL).2.trans h
      · exact (align_among ht h hL).le.trans hp
      · exact (align_among' ht h hL).le.trans hp
    exact addLRLR_bound a1 a2 b1 b2 (key hP) (key hQ) r h

/-! ### Cases meeting the hypotheses, and a case in which two columns have the same norm -/

namespace Ex
/-- Factors of norms 5 and 25. -/
def pL : Tensor ℚ := m 2 2 [1, 3, 2, 4]
/-- The same in the other order. -/
def pL' : Tensor ℚ := m 2 2 [3, 1, 4, 2]
/-- The second of them. -/
def pL1 : Tensor ℚ := m 2 1 [3, 4]
def pA : Mat ℚ := .lr (.num pL) (.num pL) (.num (m 2 2 [1, 0, 0, 1]))
def pB : Mat ℚ := .lr (.num pL') (.num pL') (.num (m 2 2 [2, 0, 0, 5]))
def pC : Mat ℚ := .lr (.num pL1) (.num pL1) (.num (m 1 1 [2]))

theorem pL_norms : ∀ i < 2, ∀ i' < 2, (∑ x ∈ Finset.range pL.rows, pL.at' (fun _ => 0) x i ^ 2) = ∑ x ∈ Finset.range pL.rows, pL.at' (fun _ => 0) x i' ^ 2 → i = i' := by
  decide +kernel
theorem pAmong : Among pL pL' := ⟨rfl, by decide, ⟨fun j => 1 - j, by decide +kernel, by decide⟩, pL_norms⟩
theorem pAmong1 : Among pL pL1 := ⟨rfl, by decide, ⟨fun _ => 1, by decide +kernel, by decide⟩, pL_norms⟩

/-- Two factors of the same norm, in either order. -/
def eA : Mat ℚ := .lr (.num (m 3 2 [1, 0, 0, 1, 0, 0])) (.num (m 3 2 [1, 0, 0, 1, 0, 0])) (.num (m 2 2 [1, 0, 0, 1]))
def eB : Mat ℚ := .lr (.num (m 3 2 [0, 1, 1, 0, 0, 0])) (.num (m 3 2 [0, 1, 1, 0, 0, 0])) (.num (m 2 2 [1, 0, 0, 1]))
/-- The rank that the result reports. -/
def reports (k : ℕ) (x : E (Mat ℚ)) : Bool := match x with
  | .ok r => (match rankAttr r with
    | .ok j => j == k
    | .error _ => false)
  | .error _ => false
end Ex

example : ∃ r, Returns Ex.cfg (fun B => B.add Ex.pA Ex.pB) r ∧ r.kind = some .lr ∧ r.factorsLe 2 2 := by
  obtain ⟨r, hr, hk⟩ : ∃ r, Returns Ex.cfg (fun B => B.add Ex.pA Ex.pB) r ∧ r.kind = some .lr := Ex.kindIs (n := 6) (by decide +kernel)
  exact ⟨r, hr, hk, C58_add_among Ex.cfg (by norm_num [Ex.cfg]) (.inl ⟨rfl, by decide⟩) (.inl ⟨rfl, by decide⟩) (.inl ⟨rfl, by decide⟩) (.inl ⟨rfl, by decide⟩)
    (.inr (.inl ⟨Ex.pAmong, le_refl _⟩)) (.inr (.inl ⟨Ex.pAmong, le_refl _⟩)) hr⟩
example : ∃ r, Returns Ex.cfg (fun B => B.add Ex.pC Ex.pA) r ∧ r.kind = some .lr ∧ r.factorsLe 2 2 := by
  obtain ⟨r, hr, hk⟩ : ∃ r, Returns Ex.cfg (fun B => B.add Ex.pC Ex.pA) r ∧ r.kind = some .lr := Ex.kindIs (n := 6) (by decide +kernel)
  exact ⟨r, hr, hk, C58_add_among Ex.cfg (by norm_num [Ex.cfg]) (.inl ⟨rfl, by decide⟩) (.inl ⟨rfl, by decide⟩) (.inl ⟨rfl, by decide⟩) (.inl ⟨rfl, by decide⟩)
    (.inr (.inr ⟨Ex.pAmong1, le_refl _⟩)) (.inr (.inr ⟨Ex.pAmong1, le_refl _⟩)) hr⟩

/-- C58.  Where two factors have the same norm the order matters: two LowRank matrices of rank two with the same two factors in different orders add up to one that reports rank three. -/
theorem C58_among_refuted : ∃ (c : Cfg ℚ) (al ar am bl br bm r : Mat ℚ) (t t' : Tensor ℚ), 0 < c.tol ∧ al = .num t ∧ ar = .num t ∧ bl = .num t' ∧ br = .num t' ∧
    t.cols = 2 ∧ t'.rows = t.rows ∧ (∀ x < t.rows, ∀ j < 2, t'.at' (fun _ => 0) x j = t.at' (fun _ => 0) x (1 - j)) ∧
    (Mat.lr al ar am).Valid ∧ (Mat.lr bl br bm).Valid ∧ Returns c (fun B => B.add (.lr al ar am) (.lr bl br bm)) r ∧ rankAttr r = .ok 3 := by
  have h : Ex.reports 3 ((ops Ex.cfg.code 6).add Ex.eA Ex.eB) = true := by decide +kernel
  cases e : (ops Ex.cfg.code 6).add Ex.eA Ex.eB with
  | error _ => rw [e] at h; cases h
  | ok r =>
    rw [e] at h
    refine ⟨Ex.cfg, _, _, _, _, _, _, r, Ex.m 3 2 [1, 0, 0, 1, 0, 0], Ex.m 3 2 [0, 1, 1, 0, 0, 0], by norm_num [Ex.cfg], rfl, rfl, rfl, rfl, rfl, rfl, by decide +kernel, ?_, ?_, ⟨6, e⟩, ?_⟩
    · exact ⟨[], ⟨Ex.num_wf _ _ _ _, Ex.num_wf _ _ _ _, Ex.num_wf _ _ _ _⟩, ⟨le_refl _, le_refl _, le_refl _⟩, rfl, rfl⟩
    · exact ⟨[], ⟨Ex.num_wf _ _ _ _, Ex.num_wf _ _ _ _, Ex.num_wf _ _ _ _⟩, ⟨le_refl _, le_refl _, le_refl _⟩, rfl, rfl⟩
    · simp only [Ex.reports] at h
      split at h
      · rename_i j hj
        rw [hj, eq_of_beq h]
      · cases h

end Verif
