/-
C49.  How far the tolerance can move a sum of low-rank matrices: a bound on every entry, for matrices without a batch.
-/
import Verif.Low
import Mathlib.Algebra.Order.BigOperators.Ring.Finset
import Mathlib.Algebra.Order.Field.Basic

set_option linter.unusedSectionVars false

namespace Verif

variable {K : Type} [Field K] [LinearOrder K]

/-! ### Slots -/

/-- Every second component occurs once. -/
theorem slot_unique {L : List Slot} (h : (L.filterMap (·.2)).Nodup) {s t : Slot} {q : ℕ} (hs : s ∈ L) (ht : t ∈ L) (es : s.2 = some q) (et : t.2 = some q) : s = t := by
  induction L with
  | nil => cases hs
  | cons x xs ih =>
    cases hx : x.2 with
    | none =>
      rw [List.filterMap_cons_none hx] at h
      have hs' : s ∈ xs := (List.mem_cons.1 hs).resolve_left fun e => by rw [e, hx] at es; cases es
      have ht' : t ∈ xs := (List.mem_cons.1 ht).resolve_left fun e => by rw [e, hx] at et; cases et
      exact ih h hs' ht'
    | some p =>
      rw [List.filterMap_cons_some hx, List.nodup_cons] at h
      have out : ∀ y ∈ xs, y.2 = some q → x.2 ≠ some q := fun y hy e e' => by
        rw [hx] at e'
        cases e'
        exact h.1 (List.mem_filterMap.2 ⟨y, hy, e⟩)
      rcases List.mem_cons.1 hs with rfl | hs'
      · rcases List.mem_cons.1 ht with rfl | ht'
        · rfl
        · exact absurd es (out t ht' et)
      · rcases List.mem_cons.1 ht with rfl | ht'
        · exact absurd et (out s hs' es)
        · exact ih h.2 hs' ht'

open Classical in
/-- The values of `b` after its merged columns are replaced by the ones of `a`. -/
noncomputable def merged (L : List Slot) (u v : ℕ → K) (q : ℕ) : K := if h : ∃ p, (some p, some q) ∈ L then u h.choose else v q

theorem merged_eq {L : List Slot} {m : ℕ} (h : (L.filterMap (·.2)).Perm (List.range m)) (u v : ℕ → K) {p q : ℕ} (hpq : (some p, some q) ∈ L) : u p = merged L u v q := by
  have hx : ∃ p, (some p, some q) ∈ L := ⟨p, hpq⟩
  unfold merged
  rw [dif_pos hx]
  have := slot_unique (h.nodup_iff.2 List.nodup_range) hpq hx.choose_spec rfl rfl
  simp only [Prod.mk.injEq, Option.some.injEq] at this
  rw [← this.1]

theorem merged_own {L : List Slot} {m : ℕ} (h : (L.filterMap (·.2)).Perm (List.range m)) (u v : ℕ → K) {q : ℕ} (hq : (none, some q) ∈ L) : merged L u v q = v q := by
  unfold merged
  rw [dif_neg]
  rintro ⟨p, hp⟩
  have := slot_unique (h.nodup_iff.2 List.nodup_range) hq hp rfl rfl
  simp at this

theorem merged_or (L : List Slot) (u v : ℕ → K) (q : ℕ) : merged L u v q = v q ∨ ∃ p, (some p, some q) ∈ L ∧ merged L u v q = u p := by
  unfold merged
  split
  · rename_i h; exact Or.inr ⟨_, h.choose_spec, rfl⟩
  · exact Or.inl rfl

theorem join_merged {L : List Slot} {m : ℕ} (h : (L.filterMap (·.2)).Perm (List.range m)) (u v : ℕ → K) {s : ℕ} (hs : s < L.length) :
    optF v (joinB (L.getD s (none, none))) = optF (merged L u v) (joinB (L.getD s (none, none))) := by
  have hm : L.getD s (none, none) ∈ L := by
    rw [List.getD_eq_getElem?_getD, List.getElem?_eq_getElem hs]; exact List.getElem_mem hs
  rcases hx : L.getD s (none, none) with ⟨_ | p, _ | q⟩
  · rfl
  · rw [hx] at hm
    simp only [joinB, Option.isSome_none, Bool.false_eq_true, if_false, optF, Option.elim]
    exact (merged_own h u v hm).symm
  · rfl
  · rfl

/-- The sum the code computes: the first matrix plus the second with its merged columns replaced. -/
theorem slots_merged {L L' : List Slot} {n n' m m' : ℕ} (al bl ar br : ℕ → K) (am bm : ℕ → ℕ → K)
    (hL1 : (L.filterMap (·.1)).Perm (List.range n)) (hL2 : (L.filterMap (·.2)).Perm (List.range m))
    (hL1' : (L'.filterMap (·.1)).Perm (List.range n')) (hL2' : (L'.filterMap (·.2)).Perm (List.range m')) :
    ∑ t ∈ Finset.range L'.length, (∑ s ∈ Finset.range L.length,
      (optF al (L.getD s (none, none)).1 + optF bl (joinB (L.getD s (none, none)))) *
      (optF (fun p => optF (am p) (L'.getD t (none, none)).1) (L.getD s (none, none)).1 +
       optF (fun p => optF (bm p) (L'.getD t (none, none)).2) (L.getD s (none, none)).2)) *
      (optF ar (L'.getD t (none, none)).1 + optF br (joinB (L'.getD t (none, none)))) =
    (∑ q ∈ Finset.range n', (∑ p ∈ Finset.range n, al p * am p q) * ar q) +
    ∑ q ∈ Finset.range m', (∑ p ∈ Finset.range m, merged L al bl p * bm p q) * merged L' ar br q := by
  rw [← slots_core (al := al) (bl := merged L al bl) (ar := ar) (br := merged L' ar br) (am := am) (bm := bm) hL1 hL2 hL1' hL2'
    (fun _ _ h => merged_eq hL2 al bl h) (fun _ _ h => merged_eq hL2' ar br h)]
  refine Finset.sum_congr rfl fun t ht => ?_
  rw [join_merged hL2' ar br (Finset.mem_range.1 ht)]
  congr 1
  refine Finset.sum_congr rfl fun s hs => ?_
  rw [join_merged hL2 al bl (Finset.mem_range.1 hs)]

variable [IsStrictOrderedRing K]

/-- Moving both outer factors by at most `ε` moves the product by at most `ε (Λ + P) Σ|b|`. -/
theorem sum_near {m m' : ℕ} {u u' v v' : ℕ → K} {b : ℕ → ℕ → K} {ε Λ P : K} (hu : ∀ p < m, |u p| ≤ Λ) (hv' : ∀ q < m', |v' q| ≤ P)
    (du : ∀ p < m, |u' p - u p| ≤ ε) (dv : ∀ q < m', |v' q - v q| ≤ ε) (h0 : 0 ≤ ε) :
    |(∑ q ∈ Finset.range m', (∑ p ∈ Finset.range m, u' p * b p q) * v' q) - ∑ q ∈ Finset.range m', (∑ p ∈ Finset.range m, u p * b p q) * v q| ≤
      ε * (Λ + P) * ∑ q ∈ Finset.range m', ∑ p ∈ Finset.range m, |b p q| := by
  rw [← Finset.sum_sub_distrib, Finset.mul_sum]
  refine (Finset.abs_sum_le_sum_abs _ _).trans (Finset.sum_le_sum fun q hq => ?_)
  rw [Finset.sum_mul, Finset.sum_mul, ← Finset.sum_sub_distrib, Finset.mul_sum]
  refine (Finset.abs_sum_le_sum_abs _ _).trans (Finset.sum_le_sum fun p hp => ?_)
  rw [Finset.mem_range] at hp hq
  have e : u' p * b p q * v' q - u p * b p q * v q = b p q * ((u' p - u p) * v' q + u p * (v' q - v q)) := by ring
  rw [e, abs_mul, mul_comm]
  refine mul_le_mul_of_nonneg_right ?_ (abs_nonneg _)
  calc |(u' p - u p) * v' q + u p * (v' q - v q)| ≤ |(u' p - u p) * v' q| + |u p * (v' q - v q)| := abs_add_le _ _
    _ ≤ ε * P + Λ * ε := by
      rw [abs_mul, abs_mul]
      exact add_le_add (mul_le_mul (du p hp) (hv' q hq) (abs_nonneg _) h0) (mul_le_mul (hu p hp) (dv q hq) (abs_nonneg _) ((abs_nonneg _).trans (hu p hp)))
    _ = ε * (Λ + P) := by ring

/-- A product with a small middle factor is small. -/
theorem sum_small {k k' : ℕ} {x y : ℕ → K} {b : ℕ → ℕ → K} {Λ P : K} (hx : ∀ s < k, |x s| ≤ Λ) (hy : ∀ t < k', |y t| ≤ P) :
    |∑ t ∈ Finset.range k', (∑ s ∈ Finset.range k, x s * b s t) * y t| ≤ (∑ t ∈ Finset.range k', ∑ s ∈ Finset.range k, |b s t|) * (Λ * P) := by
  rw [Finset.sum_mul]
  refine (Finset.abs_sum_le_sum_abs _ _).trans (Finset.sum_le_sum fun t ht => ?_)
  rw [Finset.sum_mul, Finset.sum_mul]
  refine (Finset.abs_sum_le_sum_abs _ _).trans (Finset.sum_le_sum fun s hs => ?_)
  rw [Finset.mem_range] at hs ht
  rw [abs_mul, abs_mul, show |x s| * |b s t| * |y t| = |b s t| * (|x s| * |y t|) by ring]
  exact mul_le_mul_of_nonneg_left (mul_le_mul (hx s hs) (hy t ht) (abs_nonneg _) ((abs_nonneg _).trans (hx s hs))) (abs_nonneg _)

/-- Columns within the tolerance are entry-wise within `ε`, when `n tol ≤ ε²`. -/
theorem close_entry {n : ℕ} {d : ℕ → K} {tol ε : K} (hn : n ≠ 0) (h : (∑ x ∈ Finset.range n, d x * d x) / (n : K) < tol) (hε : (n : K) * tol ≤ ε * ε) (h0 : 0 ≤ ε)
    {x : ℕ} (hx : x < n) : |d x| ≤ ε := by
  have hn' : (0 : K) < n := by exact_mod_cast Nat.pos_of_ne_zero hn
  rw [div_lt_iff₀ hn', mul_comm] at h
  have h1 : d x * d x ≤ ∑ x ∈ Finset.range n, d x * d x := Finset.single_le_sum (f := fun x => d x * d x) (fun i _ => mul_self_nonneg _) (Finset.mem_range.2 hx)
  refine abs_le.2 (abs_le_of_sq_le_sq' ?_ h0)
  rw [sq, sq]
  exact (h1.trans h.le).trans hε

/-! ### The run of the code -/

/-- The slots of the code's alignment: every column occurs once, merged columns passed the tolerance test. -/
structure CodeSlots (tol : K) (a b : Tensor K) (L : List Slot) : Prop where
  left : (L.filterMap (·.1)).Perm (List.range a.cols)
  right : (L.filterMap (·.2)).Perm (List.range b.cols)
  eq : ∀ p q, (some p, some q) ∈ L → codeColEq tol a b p q = .ok true
  ne : (none, none) ∉ L

omit [IsStrictOrderedRing K] in
theorem code_slots {c : Cfg K} {a b : Tensor K} {r : Align} (h : align c.code a b = .ok r) :
    ∃ L : List Slot, r = ⟨L.map fun s => enc s.1, L.map fun s => enc s.2, L.map fun s => enc s.1, L.map fun s => enc (joinB s)⟩ ∧ CodeSlots c.tol a b L := by
  simp only [align, bind_ok_iff] at h
  obtain ⟨_, _, _, _, h⟩ := h
  obtain ⟨L, rfl, h1, h2, h3, h4⟩ := alignLoop_slots h
  have pa : (codeArgsort (colNorms a)).Perm (List.range (colNorms a).length) := List.perm_insertionSort _ _
  have pb : (codeArgsort (colNorms b)).Perm (List.range (colNorms b).length) := List.perm_insertionSort _ _
  simp only [colNorms, List.length_map, List.length_range] at pa pb
  exact ⟨L, rfl, by rw [h1]; exact pa, by rw [h2]; exact pb, h3, h4⟩

namespace CodeSlots
variable {tol : K} {a b : Tensor K} {L : List Slot} (h : CodeSlots tol a b L)
include h

omit [IsStrictOrderedRing K] in
theorem lt_left {s : Slot} {p : ℕ} (hs : s ∈ L) (hp : s.1 = some p) : p < a.cols := by
  have : p ∈ L.filterMap (·.1) := List.mem_filterMap.2 ⟨s, hs, hp⟩
  simpa using h.left.mem_iff.1 this
omit [IsStrictOrderedRing K] in
theorem lt_right {s : Slot} {p : ℕ} (hs : s ∈ L) (hp : s.2 = some p) : p < b.cols := by
  have : p ∈ L.filterMap (·.2) := List.mem_filterMap.2 ⟨s, hs, hp⟩
  simpa using h.right.mem_iff.1 this
omit [IsStrictOrderedRing K] in
theorem l1 : ∀ p, some p ∈ L.map (fun s => s.1) → p < a.cols := fun p hp => by
  obtain ⟨s, hs, e⟩ := List.mem_map.1 hp
  exact h.lt_left hs e
omit [IsStrictOrderedRing K] in
theorem l2 : ∀ p, some p ∈ L.map (fun s => s.2) → p < b.cols := fun p hp => by
  obtain ⟨s, hs, e⟩ := List.mem_map.1 hp
  exact h.lt_right hs e
omit [IsStrictOrderedRing K] in
theorem lj : ∀ p, some p ∈ L.map joinB → p < b.cols := fun p hp => by
  obtain ⟨s, hs, e⟩ := List.mem_map.1 hp
  unfold joinB at e
  split_ifs at e
  exact h.lt_right hs e

omit [IsStrictOrderedRing K] in
/-- There are at most as many slots as columns. -/
theorem length : L.length ≤ a.cols + b.cols := by
  have e1 : (L.filterMap (·.1)).length = a.cols := by rw [h.left.length_eq, List.length_range]
  have e2 : (L.filterMap (·.2)).length = b.cols := by rw [h.right.length_eq, List.length_range]
  have key : ∀ M : List Slot, (none, none) ∉ M → M.length ≤ (M.filterMap (·.1)).length + (M.filterMap (·.2)).length := by
    intro M
    induction M with
    | nil => simp
    | cons x xs ih =>
      intro hx
      have := ih fun h => hx (List.mem_cons_of_mem _ h)
      rcases x with ⟨_ | p, _ | q⟩
      · exact absurd List.mem_cons_self hx
      all_goals simp only [List.filterMap_cons, List.length_cons]; omega
  have := key L h.ne
  omega

/-- Entries of a merged column move by at most `ε`. -/
theorem near (hr : a.rows = b.rows) {ε : K} (hε : (a.rows : K) * tol ≤ ε * ε) (h0 : 0 ≤ ε) {x : ℕ} (hx : x < a.rows) (q : ℕ) :
    |merged L (fun p => a.at' (fun _ => 0) x p) (fun p => b.at' (fun _ => 0) x p) q - b.at' (fun _ => 0) x q| ≤ ε := by
  rcases merged_or L (fun p => a.at' (fun _ => 0) x p) (fun p => b.at' (fun _ => 0) x p) q with e | ⟨p, hp, e⟩
  · rw [e, sub_self, abs_zero]; exact h0
  · rw [e]
    have := h.eq p q hp
    unfold codeColEq at this
    split_ifs at this
    simp only [Except.ok.injEq, decide_eq_true_eq, ← hr, bd_self] at this
    exact close_entry (d := fun x => a.at' (fun _ => 0) x p - b.at' (fun _ => 0) x q) this.1 this.2 hε h0 hx

omit [IsStrictOrderedRing K] in
theorem merged_le {Λ : K} {x q : ℕ} (ha : ∀ p < a.cols, |a.at' (fun _ => 0) x p| ≤ Λ) (hb : ∀ p < b.cols, |b.at' (fun _ => 0) x p| ≤ Λ) (hq : q < b.cols) :
    |merged L (fun p => a.at' (fun _ => 0) x p) (fun p => b.at' (fun _ => 0) x p) q| ≤ Λ := by
  rcases merged_or L (fun p => a.at' (fun _ => 0) x p) (fun p => b.at' (fun _ => 0) x p) q with e | ⟨p, hp, e⟩
  · rw [e]; exact hb q hq
  · rw [e]; exact ha p (h.lt_left hp rfl)

/-- The entries of the joined factor are entries of one of the factors. -/
theorem join_le {Λ : K} {x s : ℕ} (ha : ∀ p < a.cols, |a.at' (fun _ => 0) x p| ≤ Λ) (hb : ∀ p < b.cols, |b.at' (fun _ => 0) x p| ≤ Λ) (hs : s < L.length) :
    |optF (fun p => a.at' (fun _ => 0) x p) (L.getD s (none, none)).1 + optF (fun p => b.at' (fun _ => 0) x p) (joinB (L.getD s (none, none)))| ≤ Λ := by
  have hm : L.getD s (none, none) ∈ L := by
    rw [List.getD_eq_getElem?_getD, List.getElem?_eq_getElem hs]; exact List.getElem_mem hs
  rcases hx : L.getD s (none, none) with ⟨_ | p, _ | q⟩
  · rw [hx] at hm; exact absurd hm h.ne
  · rw [hx] at hm
    simpa [joinB, optF] using hb q (h.lt_right hm rfl)
  · rw [hx] at hm
    simpa [joinB, optF] using ha p (h.lt_left hm rfl)
  · rw [hx] at hm
    simpa [joinB, optF] using ha p (h.lt_left hm rfl)

end CodeSlots

omit [IsStrictOrderedRing K] in
/-- On factors that are arrays the recursive calls do not matter. -/
theorem addLRLR_num {env : Env K} {B C : Ops K} (hB : NumOps B) (hC : NumOps C) (al ar am bl br bm : Tensor K) :
    addLRLR env B (.num al) (.num ar) (.num am) (.num bl) (.num br) (.num bm) = addLRLR env C (.num al) (.num ar) (.num am) (.num bl) (.num br) (.num bm) := by
  simp only [addLRLR, hB.dense, hC.dense, takeGen_num hB, takeGen_num hC, padZeroCol_num hB, padZeroCol_num hC, padZeroRow_num hB, padZeroRow_num hC, bind_assoc, ok_bind', hB.add, hC.add]

omit [IsStrictOrderedRing K] in
theorem inRange_nil_zero : InRange [] (fun _ => 0) := fun k => by simp [dim]

omit [LinearOrder K] [IsStrictOrderedRing K] in
/-- The sum of a function of all entries, for a matrix without a batch. -/
theorem sum_entries {t : Tensor K} {r c : ℕ} (hb : t.sh = [c, r]) (f : K → K) :
    ∑ n ∈ Finset.range (size t.sh), f (t.get (unlin t.sh n)) = ∑ j ∈ Finset.range c, ∑ i ∈ Finset.range r, f (t.at' (fun _ => 0) i j) := by
  have e : size t.sh = r * c := by rw [hb]; simp [size, Nat.mul_comm]
  rw [e, sum_range_mul, Finset.sum_comm]
  refine Finset.sum_congr rfl fun x hx => Finset.sum_congr rfl fun q hq => ?_
  rw [Finset.mem_range] at hx hq
  have e1 : (q * c + x) % c = x := by rw [Nat.mul_comm, Nat.mul_add_mod]; exact Nat.mod_eq_of_lt hx
  have e2 : (q * c + x) / c = q := by
    rw [Nat.mul_comm, Nat.mul_add_div (by omega), Nat.div_eq_of_lt hx, Nat.add_zero]
  rw [hb]
  simp only [unlin, e1, e2, Nat.mod_eq_of_lt hq]
  rfl

omit [IsStrictOrderedRing K] in
theorem bsh_nil {s t : Shp} (h : bsh s t = []) : s = [] ∧ t = [] := by
  have := congrArg List.length h
  rw [length_bsh] at this
  simp only [List.length_nil] at this
  exact ⟨List.length_eq_zero_iff.1 (by omega), List.length_eq_zero_iff.1 (by omega)⟩

/-- C49.  The tolerance moves no entry of a sum of LowRank matrices (of arrays, without a batch) by more than
`ε (Λ + P) Σ|middle of b| + (number of joined columns) · tol · Λ P`, where `Λ` and `P` bound the entries of the left and right factors and `rows · tol ≤ ε²`. -/
theorem C49_lowrank_sum (c : Cfg K) (htol : 0 ≤ c.tol) {al ar am bl br bm : Tensor K} {r : Mat K}
    (ha : (Mat.lr (.num al) (.num ar) (.num am)).Valid) (hb : (Mat.lr (.num bl) (.num br) (.num bm)).Valid)
    (ba : (den (Mat.lr (.num al) (.num ar) (.num am))).bt = []) (bb : (den (Mat.lr (.num bl) (.num br) (.num bm))).bt = [])
    (h1 : al.rows = bl.rows) (h2 : ar.rows = br.rows) {ε Λ P : K} (h0 : 0 ≤ ε) (hΛ : 0 ≤ Λ) (hP : 0 ≤ P)
    (hl : (al.rows : K) * c.tol ≤ ε * ε) (hr : (ar.rows : K) * c.tol ≤ ε * ε)
    (ka : ∀ x < al.rows, ∀ p < al.cols, |al.at' (fun _ => 0) x p| ≤ Λ) (kb : ∀ x < bl.rows, ∀ p < bl.cols, |bl.at' (fun _ => 0) x p| ≤ Λ)
    (ka' : ∀ x < ar.rows, ∀ p < ar.cols, |ar.at' (fun _ => 0) x p| ≤ P) (kb' : ∀ x < br.rows, ∀ p < br.cols, |br.at' (fun _ => 0) x p| ≤ P)
    (h : Returns c (fun B => B.add (.lr (.num al) (.num ar) (.num am)) (.lr (.num bl) (.num br) (.num bm))) r) :
    r.Valid ∧ (den r).sh = [ar.rows, al.rows] ∧ ∀ i < al.rows, ∀ j < ar.rows,
      |(den r).at' (fun _ => 0) i j - ((den (.lr (.num al) (.num ar) (.num am))).at' (fun _ => 0) i j + (den (.lr (.num bl) (.num br) (.num bm))).at' (fun _ => 0) i j)| ≤
        ε * (Λ + P) * (∑ q ∈ Finset.range br.cols, ∑ p ∈ Finset.range bl.cols, |bm.at' (fun _ => 0) p q|) +
          ((al.cols + bl.cols) * (ar.cols + br.cols) : ℕ) * c.tol * (Λ * P) := by
  have wa := ha.own
  have wb := hb.own
  rw [ba] at wa
  rw [bb] at wb
  obtain ⟨n, h⟩ := h
  have h : addLRLR c.code (ops c.strict 1) (.num al) (.num ar) (.num am) (.num bl) (.num br) (.num bm) = .ok r := by
    match n, h with
    | 0, h => cases h
    | 1, h =>
      change addLRLR c.code (ops c.code 0) _ _ _ _ _ _ = _ at h
      simp only [addLRLR, bind_ok_iff] at h
      obtain ⟨_, _, _, _, _, _, _, h, _⟩ := h
      cases h
    | n+2, h => rw [addLRLR_num (numOps c.strict 0) (numOps c.code n)]; exact h
  have hB := c.ok 1
  have hsa := wa.shape
  have hsb := wb.shape
  obtain ⟨⟨wal, war, wam⟩, ⟨kal, kar, kam⟩, ca1, ca2⟩ := wa
  obtain ⟨⟨wbl, wbr, wbm⟩, ⟨kbl, kbr, kbm⟩, cb1, cb2⟩ := wb
  have gal := wal.good kal; have gar := war.good kar; have gam := wam.good kam
  have gbl := wbl.good kbl; have gbr := wbr.good kbr; have gbm := wbm.good kbm
  simp only [addLRLR, hsa, hsb, bind_ok_iff, Except.ok.injEq, assertCompatible_ok, exists_eq_left'] at h
  obtain ⟨_, hcomp, dal, e1, dbl, e2, L, hL, dar, e3, dbr, e4, R, hR, pal, hpal, aLeft, haL, pbl, hpbl, bLeft, hbL, jL, hjL,
    par, hpar, aRight, haR, pbr, hpbr, bRight, hbR, jR, hjR, pam, hpam, pam', hpam', tam, htam, aMid, haM,
    pbm, hpbm, pbm', hpbm', tbm, htbm, bMid, hbM, jM, hjM, lr, hlr, djm, edjm, isz, hisz, h⟩ := h
  obtain rfl : al = dal := (hB.dense wal e1).symm
  obtain rfl : bl = dbl := (hB.dense wbl e2).symm
  obtain rfl : ar = dar := (hB.dense war e3).symm
  obtain rfl : br = dbr := (hB.dense wbr e4).symm
  change align c.code al bl = _ at hL
  change align c.code ar br = _ at hR
  obtain ⟨L, rfl, sL⟩ := code_slots hL
  obtain ⟨R, rfl, sR⟩ := code_slots hR
  simp only [show ∀ (M : List Slot) (f : Slot → Option ℕ), M.map (fun s => enc (f s)) = (M.map f).map enc from
    fun M f => by simp] at *
  obtain ⟨waL, daL, _⟩ := padTakeCol_ok hB wal kal sL.l1 hpal haL
  obtain ⟨wbL, dbL, _⟩ := padTakeCol_ok hB wbl kbl sL.lj hpbl hbL
  obtain ⟨waR, daR, _⟩ := padTakeCol_ok hB war kar sR.l1 hpar haR
  obtain ⟨wbR, dbR, _⟩ := padTakeCol_ok hB wbr kbr sR.lj hpbr hbR
  obtain ⟨waM, daM, _⟩ := padTakeMid_ok hB wam kam (by rw [← ca1]; exact sL.l1) (by rw [← ca2]; exact sR.l1) hpam hpam' htam haM
  obtain ⟨wbM, dbM, _⟩ := padTakeMid_ok hB wbm kbm (by rw [← cb1]; exact sL.l2) (by rw [← cb2]; exact sR.l2) hpbm hpbm' htbm hbM
  have RaL := (Rep.self (S := []) kal gal.fits).ptCol sL.l1
  have RbL := (Rep.self' (S := []) kbl h1.symm rfl gbl.fits).ptCol sL.lj
  have RaR := (Rep.self (S := []) kar gar.fits).ptCol sR.l1
  have RbR := (Rep.self' (S := []) kbr h2.symm rfl gbr.fits).ptCol sR.lj
  have RaM := (Rep.self' (S := []) kam ca1.symm ca2.symm gam.fits).ptMid sL.l1 sR.l1
  have RbM := (Rep.self' (S := []) kbm cb1.symm cb2.symm gbm.fits).ptMid sL.l2 sR.l2
  simp only [List.length_map] at RaL RbL RaR RbR RaM RbM
  have zL := hB.add waL wbL (noStretch_of_eq (by rw [daL, dbL, RaL.rows, RbL.rows]; rfl) (by rw [daL, dbL, RaL.cols, RbL.cols])) hjL
  have zR := hB.add waR wbR (noStretch_of_eq (by rw [daR, dbR, RaR.rows, RbR.rows]; rfl) (by rw [daR, dbR, RaR.cols, RbR.cols])) hjR
  have zM := hB.add waM wbM (noStretch_of_eq (by rw [daM, dbM, RaM.rows, RbM.rows]) (by rw [daM, dbM, RaM.cols, RbM.cols])) hjM
  obtain ⟨rfl, wlr⟩ := mkLR_inv zL.wf zR.wf zM.wf hlr
  obtain rfl := hB.dense zM.wf edjm
  have dL := zL.eq; have dR := zR.eq; have dM := zM.eq
  rw [daL, dbL] at dL
  rw [daR, dbR] at dR
  rw [daM, dbM] at dM
  have lhs := ((dL ▸ RaL.zipB (· + ·) RbL).mm (dM ▸ RaM.zipB (· + ·) RbM)).mm (dR ▸ RaR.zipB (· + ·) RbR).tr
  have ra := ((Rep.self' (S := []) kal rfl rfl gal.fits).mm (Rep.self' kam ca1.symm ca2.symm gam.fits)).mm (Rep.self' kar rfl rfl gar.fits).tr
  have rb := ((Rep.self' (S := []) kbl h1.symm rfl gbl.fits).mm (Rep.self' kbm cb1.symm cb2.symm gbm.fits)).mm (Rep.self' kbr h2.symm rfl gbr.fits).tr
  obtain ⟨nam, nar⟩ := bsh_nil (s := bsh al.bt am.bt) (t := ar.bt) ba
  obtain ⟨nal, nam⟩ := bsh_nil nam
  obtain ⟨nbm, nbr⟩ := bsh_nil (s := bsh bl.bt bm.bt) (t := br.bt) bb
  obtain ⟨nbl, nbm⟩ := bsh_nil nbm
  have njM : (den jM).bt = [] := by
    rw [dM, zipB_bt, ptMid_bt, ptMid_bt]
    show bsh am.bt bm.bt = []
    rw [nam, nbm]; rfl
  have nlr : (den (.lr jL jR jM)).bt = [] := by
    simp only [den, mm_bt, tr_bt, dL, dR, dM, zipB_bt, ptCol_bt, ptMid_bt]
    rw [nal, nar, nam, nbl, nbr, nbm]; rfl
  have slr : (den (.lr jL jR jM)).sh = [ar.rows, al.rows] := by
    refine (Tensor.sh_eq (t := den (.lr jL jR jM)) lhs.rank).trans ?_
    exact congrArg₂ _ lhs.cols (congrArg₂ _ lhs.rows nlr)
  have z0 := inRange_nil_zero
  have near : ∀ i < al.rows, ∀ j < ar.rows,
      |(den (.lr jL jR jM)).at' (fun _ => 0) i j - ((den (.lr (.num al) (.num ar) (.num am))).at' (fun _ => 0) i j + (den (.lr (.num bl) (.num br) (.num bm))).at' (fun _ => 0) i j)| ≤
        ε * (Λ + P) * (∑ q ∈ Finset.range br.cols, ∑ p ∈ Finset.range bl.cols, |bm.at' (fun _ => 0) p q|) := by
    intro i hi j hj
    have v := lhs.at' (fun _ => 0) i j z0 hi hj
    simp only [getD_map_slot _ (fun s => s.1) rfl, getD_map_slot _ (fun s => s.2) rfl, getD_map_slot _ joinB rfl] at v
    rw [show (den (.lr jL jR jM)).at' (fun _ => 0) i j = _ from v.trans (slots_merged _ _ _ _ _ _ sL.left sL.right sR.left sR.right),
      show (den (.lr (.num al) (.num ar) (.num am))).at' (fun _ => 0) i j = _ from ra.at' _ i j z0 hi hj,
      show (den (.lr (.num bl) (.num br) (.num bm))).at' (fun _ => 0) i j = _ from rb.at' _ i j z0 hi hj]
    refine (le_of_eq (congrArg _ (add_sub_add_left_eq_sub _ _ _))).trans ?_
    exact sum_near (fun p hp => kb i (h1 ▸ hi) p hp) (fun q hq => sR.merged_le (fun p hp => ka' j hj p hp) (fun p hp => kb' j (h2 ▸ hj) p hp) hq)
      (fun p _ => sL.near h1 hl h0 hi p) (fun q _ => sR.near h2 hr h0 hj q) h0
  have ext : 0 ≤ (((al.cols + bl.cols) * (ar.cols + br.cols) : ℕ) : K) * c.tol * (Λ * P) := mul_nonneg (mul_nonneg (Nat.cast_nonneg _) htol) (mul_nonneg hΛ hP)
  cases isz with
  | false =>
    simp only [Bool.false_eq_true, if_false, pure_eq_ok] at h
    subst h
    exact ⟨⟨_, wlr⟩, slr, fun i hi j hj => (near i hi j hj).trans (le_add_of_nonneg_right ext)⟩
  | true =>
    simp only [if_true, bind_ok_iff, wlr.shape, Except.ok.injEq, exists_eq_left'] at h
    rw [slr, mkZero_ok] at h
    obtain ⟨c', r', bt', hq, rfl⟩ := h
    simp only [List.cons.injEq] at hq
    obtain ⟨rfl, rfl, rfl⟩ := hq
    refine ⟨⟨[], Fits.nil _⟩, rfl, fun i hi j hj => ?_⟩
    have RM := dM ▸ RaM.zipB (· + ·) RbM
    have sjM : (den jM).sh = [R.length, L.length] := by rw [Tensor.sh_eq RM.rank, RM.rows, RM.cols, njM]
    have small : |(den (.lr jL jR jM)).at' (fun _ => 0) i j| ≤ (((al.cols + bl.cols) * (ar.cols + br.cols) : ℕ) : K) * c.tol * (Λ * P) := by
      have lhs2 := ((dL ▸ RaL.zipB (· + ·) RbL).mm (Rep.self' RM.rank RM.rows RM.cols RM.bt)).mm (dR ▸ RaR.zipB (· + ·) RbR).tr
      have v := lhs2.at' (fun _ => 0) i j z0 hi hj
      simp only [getD_map_slot _ (fun s => s.1) rfl, getD_map_slot _ joinB rfl] at v
      rw [show (den (.lr jL jR jM)).at' (fun _ => 0) i j = _ from v]
      refine (sum_small (fun s hs => sL.join_le (fun p hp => ka i hi p hp) (fun p hp => kb i (h1 ▸ hi) p hp) hs)
        (fun t ht => sR.join_le (fun p hp => ka' j hj p hp) (fun p hp => kb' j (h2 ▸ hj) p hp) ht)).trans (mul_le_mul_of_nonneg_right ?_ (mul_nonneg hΛ hP))
      have hz : codeIsZero c.tol (den jM) = .ok true := hisz
      simp only [codeIsZero, Except.ok.injEq, decide_eq_true_eq] at hz
      rw [sum_entries sjM (fun x => |x|)] at hz
      obtain ⟨hz0, hz⟩ := hz
      have hp : (0 : K) < (size (den jM).sh : ℕ) := by exact_mod_cast Nat.pos_of_ne_zero hz0
      rw [div_lt_iff₀ hp, mul_comm] at hz
      refine hz.le.trans (mul_le_mul_of_nonneg_right ?_ htol)
      have : size (den jM).sh ≤ (al.cols + bl.cols) * (ar.cols + br.cols) := by
        rw [sjM]
        simp only [size, List.prod_cons, List.prod_nil, mul_one]
        rw [Nat.mul_comm]
        exact Nat.mul_le_mul sL.length sR.length
      exact_mod_cast this
    have zr : (den (Mat.zero [] al.rows ar.rows : Mat K)).at' (fun _ => 0) i j = 0 := (Rep.fill (Fits.nil []) al.rows ar.rows (0 : K)).at' _ i j z0 hi hj
    rw [zr, zero_sub, abs_neg]
    have tri := abs_sub_abs_le_abs_sub ((den (.lr (.num al) (.num ar) (.num am))).at' (fun _ => 0) i j + (den (.lr (.num bl) (.num br) (.num bm))).at' (fun _ => 0) i j)
      ((den (.lr jL jR jM)).at' (fun _ => 0) i j)
    rw [abs_sub_comm] at tri
    have := near i hi j hj
    linarith

/-- Two matrices with columns that `align` merges although they differ (those of `C33_tolerance_refuted`): the hypotheses are met with `Λ = P = 3`, `ε = 2e-5`,
and every entry of the sum is right up to 2e-4. -/
example : ∃ r, Returns Ex.cfg (fun B => B.add (.lr (.num (Ex.m 2 1 [1, 2])) (.num (Ex.m 2 1 [1, 2])) (.num (Ex.m 1 1 [1])))
      (.lr (.num (Ex.m 2 1 [1, 2 + 1 / 10^12])) (.num (Ex.m 2 1 [1, 2 + 1 / 10^12])) (.num (Ex.m 1 1 [1])))) r ∧
    ∀ i < 2, ∀ j < 2, |(den r).at' (fun _ => 0) i j - ((den (.lr (.num (Ex.m 2 1 [1, 2])) (.num (Ex.m 2 1 [1, 2])) (.num (Ex.m 1 1 [1])))).at' (fun _ => 0) i j +
      (den (.lr (.num (Ex.m 2 1 [1, 2 + 1 / 10^12])) (.num (Ex.m 2 1 [1, 2 + 1 / 10^12])) (.num (Ex.m 1 1 [1])))).at' (fun _ => 0) i j)| ≤ 2 / 10^4 := by
  obtain ⟨r, hr, _⟩ := Ex.kindIs (k := .lr) (f := fun B => B.add (.lr (.num (Ex.m 2 1 [1, 2])) (.num (Ex.m 2 1 [1, 2])) (.num (Ex.m 1 1 [1])))
      (.lr (.num (Ex.m 2 1 [1, 2 + 1 / 10^12])) (.num (Ex.m 2 1 [1, 2 + 1 / 10^12])) (.num (Ex.m 1 1 [1])))) (n := 5) (by decide +kernel)
  refine ⟨r, hr, fun i hi j hj => ?_⟩
  have h := (C49_lowrank_sum Ex.cfg (al := Ex.m 2 1 [1, 2]) (ar := Ex.m 2 1 [1, 2]) (am := Ex.m 1 1 [1])
    (bl := Ex.m 2 1 [1, 2 + 1 / 10^12]) (br := Ex.m 2 1 [1, 2 + 1 / 10^12]) (bm := Ex.m 1 1 [1]) (r := r) (ε := 2 / 10^5) (Λ := 3) (P := 3) (by decide +kernel)
    ⟨[], ⟨Ex.num_wf _ _ _ _, Ex.num_wf _ _ _ _, Ex.num_wf _ _ _ _⟩, ⟨by decide +kernel, by decide +kernel, by decide +kernel⟩, by decide +kernel, by decide +kernel⟩
    ⟨[], ⟨Ex.num_wf _ _ _ _, Ex.num_wf _ _ _ _, Ex.num_wf _ _ _ _⟩, ⟨by decide +kernel, by decide +kernel, by decide +kernel⟩, by decide +kernel, by decide +kernel⟩
    (by decide +kernel) (by decide +kernel) rfl rfl (by decide +kernel) (by decide +kernel) (by decide +kernel) (by decide +kernel) (by decide +kernel)
    (by decide +kernel) (by decide +kernel) (by decide +kernel) (by decide +kernel) hr).2.2 i hi j hj
  exact h.trans (by decide +kernel)

end Verif
