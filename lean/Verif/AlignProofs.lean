/-
Soundness of the alignment of low-rank factors and of the sum of two LowRank matrices.
-/
import Verif.OpsOk

set_option linter.unusedSectionVars false

namespace Verif

variable {K : Type} [Field K] [LinearOrder K]

/-- What is assumed of the numeric backend:
* `argsort` returns a permutation of the indices;
* two columns are merged only if they are equal in every batch element;
* a sum is replaced by Zero only if its middle factor is zero.
`strictEnv` (below) has these properties and runs the code's tests. -/
structure Env.Lawful (env : Env K) : Prop where
  argsort : ∀ l, (env.argsort l).Perm (List.range l.length)
  colEq : ∀ {a b : Tensor K} {i j}, env.colEq a b i j = .ok true → i < a.cols → j < b.cols → a.rows = b.rows →
    ∀ {S β x}, Good S a → Good S b → InRange S β → x < a.rows → a.at' β x i = b.at' β x j
  isZero : ∀ {t : Tensor K}, env.isZero t = .ok true → 2 ≤ t.rank →
    ∀ β i j, InRange t.bt β → i < t.rows → j < t.cols → t.at' β i j = 0

/-! ### The loop -/

/-- A slot of the alignment: a column of `a`, a column of `b`, or both. -/
abbrev Slot := Option ℕ × Option ℕ

/-- Encoding of an optional column; `-1` is the padding column. -/
def enc : Option ℕ → Int
  | none => -1
  | some i => i

/-- The column of `b` used when joining: none if `a` has one. -/
def joinB (s : Slot) : Option ℕ := if s.1.isSome then none else s.2

theorem alignLoop_slots {eq : ℕ → ℕ → E Bool} {na nb : ℕ → K} {as bs : List ℕ} {r : Align}
    (h : alignLoop eq na nb as bs = .ok r) :
    ∃ L : List Slot, r = ⟨L.map fun s => enc s.1, L.map fun s => enc s.2, L.map fun s => enc s.1, L.map fun s => enc (joinB s)⟩ ∧
      L.filterMap (·.1) = as ∧ L.filterMap (·.2) = bs ∧ (∀ p q, (some p, some q) ∈ L → eq p q = .ok true) ∧ (none, none) ∉ L := by
  induction as, bs using alignLoop.induct generalizing r with
  | case1 i as j bs ih1 ih2 ih3 =>
    rw [alignLoop] at h
    simp only [bind_ok_iff] at h
    obtain ⟨t, ht, h⟩ := h
    cases t with
    | true =>
      simp only [if_true, bind_ok_iff, pure_eq_ok] at h
      obtain ⟨r', hr', rfl⟩ := h
      obtain ⟨L, rfl, h1, h2, h3, h4⟩ := ih1 hr'
      refine ⟨(some i, some j) :: L, by simp [Align.cons, enc, joinB], by simp [h1], by simp [h2], ?_, by simp [h4]⟩
      intro p q hpq
      simp only [List.mem_cons, Prod.mk.injEq, Option.some.injEq] at hpq
      rcases hpq with ⟨rfl, rfl⟩ | hpq
      · exact ht
      · exact h3 _ _ hpq
    | false =>
      by_cases hlt : na i < nb j
      · simp only [Bool.false_eq_true, if_false, if_pos hlt, bind_ok_iff, pure_eq_ok] at h
        obtain ⟨r', hr', rfl⟩ := h
        obtain ⟨L, rfl, h1, h2, h3, h4⟩ := ih2 hr'
        refine ⟨(some i, none) :: L, by simp [Align.cons, enc, joinB], by simp [h1], by simp [h2], ?_, by simp [h4]⟩
        intro p q hpq
        simp at hpq
        exact h3 _ _ hpq
      · simp only [Bool.false_eq_true, if_false, if_neg hlt, bind_ok_iff, pure_eq_ok] at h
        obtain ⟨r', hr', rfl⟩ := h
        obtain ⟨L, rfl, h1, h2, h3, h4⟩ := ih3 hr'
        refine ⟨(none, some j) :: L, by simp [Align.cons, enc, joinB], by simp [h1], by simp [h2], ?_, by simp [h4]⟩
        intro p q hpq
        simp at hpq
        exact h3 _ _ hpq
  | case2 bs =>
    rw [alignLoop] at h
    simp only [Except.ok.injEq] at h
    subst h
    refine ⟨bs.map fun j => (none, some j), ?_, ?_, ?_, ?_, by simp⟩
    · simp [enc, joinB, Function.comp_def]
    · induction bs <;> simp_all
    · induction bs <;> simp_all
    · simp
  | case3 as hne =>
    have h' : alignLoop eq na nb as [] = .ok ⟨as.map Int.ofNat, as.map fun _ => -1, as.map Int.ofNat, as.map fun _ => -1⟩ := by
      cases as with
      | nil => exact absurd rfl hne
      | cons a as => rw [alignLoop]; exact hne
    rw [h'] at h
    simp only [Except.ok.injEq] at h
    subst h
    refine ⟨as.map fun j => (some j, none), ?_, ?_, ?_, ?_, by simp⟩
    · simp [enc, joinB, Function.comp_def]
    · clear h' hne; induction as <;> simp_all
    · clear h' hne; induction as <;> simp_all
    · simp

/-- The slots of an alignment: every column of `a` and of `b` occurs in exactly one slot, and merged columns are equal. -/
structure SlotsOf (a b : Tensor K) (L : List Slot) : Prop where
  left : (L.filterMap (·.1)).Perm (List.range a.cols)
  right : (L.filterMap (·.2)).Perm (List.range b.cols)
  eq : a.rows = b.rows → ∀ p q, (some p, some q) ∈ L → ∀ {S β x}, Good S a → Good S b → InRange S β → x < a.rows →
    a.at' β x p = b.at' β x q

theorem SlotsOf.lt_left {a b : Tensor K} {L : List Slot} (h : SlotsOf a b L) {s : Slot} {p} (hs : s ∈ L) (hp : s.1 = some p) : p < a.cols := by
  have : p ∈ L.filterMap (·.1) := List.mem_filterMap.2 ⟨s, hs, hp⟩
  simpa using (h.left.mem_iff).1 this
theorem SlotsOf.lt_right {a b : Tensor K} {L : List Slot} (h : SlotsOf a b L) {s : Slot} {p} (hs : s ∈ L) (hp : s.2 = some p) : p < b.cols := by
  have : p ∈ L.filterMap (·.2) := List.mem_filterMap.2 ⟨s, hs, hp⟩
  simpa using (h.right.mem_iff).1 this

theorem align_slots {env : Env K} (he : env.Lawful) {a b : Tensor K} {r : Align} (h : align env a b = .ok r) :
    ∃ L : List Slot, r = ⟨L.map fun s => enc s.1, L.map fun s => enc s.2, L.map fun s => enc s.1, L.map fun s => enc (joinB s)⟩ ∧
      SlotsOf a b L := by
  simp only [align, bind_ok_iff] at h
  obtain ⟨_, _, _, _, h⟩ := h
  obtain ⟨L, rfl, h1, h2, h3, _⟩ := alignLoop_slots h
  have pa := he.argsort (colNorms a)
  have pb := he.argsort (colNorms b)
  simp only [colNorms, List.length_map, List.length_range] at pa pb
  refine ⟨L, rfl, ?_, ?_, ?_⟩
  · rw [h1]; exact pa
  · rw [h2]; exact pb
  · intro hr p q hpq S β x ga gb hβ hx
    refine he.colEq (h3 p q hpq) ?_ ?_ hr ga gb hβ hx
    · have : p ∈ L.filterMap (·.1) := List.mem_filterMap.2 ⟨_, hpq, rfl⟩
      rw [h1] at this
      simpa using pa.mem_iff.1 this
    · have : q ∈ L.filterMap (·.2) := List.mem_filterMap.2 ⟨_, hpq, rfl⟩
      rw [h2] at this
      simpa using pb.mem_iff.1 this

/-- Sum over slots is the sum over columns. -/
theorem sum_slots {L : List Slot} {sel : Slot → Option ℕ} {n : ℕ} (h : (L.filterMap sel).Perm (List.range n)) (F : Option ℕ → K)
    (h0 : F none = 0) : ∑ s ∈ Finset.range L.length, F (sel (L.getD s (none, none))) = ∑ p ∈ Finset.range n, F (some p) := by
  have e1 : ∀ M : List Slot, ∑ s ∈ Finset.range M.length, F (sel (M.getD s (none, none))) = (M.map fun s => F (sel s)).sum := by
    intro M
    induction M with
    | nil => simp
    | cons m M ih =>
      rw [List.length_cons, Finset.sum_range_succ']
      simp only [List.getD_cons_succ, List.getD_cons_zero, ih, List.map_cons, List.sum_cons]
      ring
  have e2 : ∀ M : List Slot, (M.map fun s => F (sel s)).sum = ((M.filterMap sel).map fun p => F (some p)).sum := by
    intro M
    induction M with
    | nil => simp
    | cons m M ih =>
      cases hm : sel m with
      | none => simp [hm, ih, h0]
      | some p => simp [hm, ih]
  rw [e1, e2, (h.map _).sum_eq]
  have e3 : ∀ n, ((List.range n).map fun p => F (some p)).sum = ∑ p ∈ Finset.range n, F (some p) := by
    intro n
    induction n with
    | zero => simp
    | succ n ih => simp [List.range_succ, Finset.sum_range_succ, ih]
  exact e3 n

/-! ### Padding and selection -/

theorem Rep.padCol {S : Shp} {r c : ℕ} {d : Tensor K} {f} (h : Rep S r c d f) :
    Rep S r (c+1) (concatAx 0 [d, fillT (1 :: r :: d.bt) 0]) fun β i j => if j < c then f β i j else 0 := by
  have e : (concatAx 0 [d, fillT (1 :: r :: d.bt) (0:K)]).sh = (c+1) :: r :: d.bt := by
    simp only [concatAx, ofFn_sh, List.head?_cons, Option.map_some, Option.getD_some, concatDim]
    have hc : dim d.sh 0 = c := h.cols
    have hr : dim d.sh 1 = r := h.rows
    rw [h.sh]; simp [*]
  refine ⟨by simp [Tensor.rank, e], by simp [Tensor.rows, e], by simp [Tensor.cols, e], by rw [Tensor.bt, e]; exact h.bt, ?_⟩
  intro β i j hβ hi hj
  have hin : InRange ((c+1) :: r :: S) (icons j (icons i β)) := by simp [*]
  unfold Tensor.at'
  rw [concatAx] at e ⊢
  rw [ofFn_sh] at e
  rw [ofFn_get_fits _ hin (by rw [e]; simp [h.bt]), e, clip_cons_of_lt hj, clip_cons_of_lt hi]
  have hc : dim d.sh 0 = c := h.cols
  by_cases hjc : j < c
  · rw [concatGet, if_pos (show icons j (icons i (clip d.bt β)) 0 < dim d.sh 0 by rw [hc]; exact hjc), if_pos hjc]
    have := h.at' β i j hβ hi hjc
    rw [← Tensor.at'_clip (Fits.refl _)] at this
    exact this
  · rw [concatGet, if_neg (show ¬ icons j (icons i (clip d.bt β)) 0 < dim d.sh 0 by rw [hc]; exact hjc), if_neg hjc]
    simp [concatGet, fillT, ofFn]

theorem Rep.padRow {S : Shp} {r c : ℕ} {d : Tensor K} {f} (h : Rep S r c d f) :
    Rep S (r+1) c (concatAx 1 [d, fillT (c :: 1 :: d.bt) 0]) fun β i j => if i < r then f β i j else 0 := by
  have e : (concatAx 1 [d, fillT (c :: 1 :: d.bt) (0:K)]).sh = c :: (r+1) :: d.bt := by
    simp only [concatAx, ofFn_sh, List.head?_cons, Option.map_some, Option.getD_some, concatDim]
    have hc : dim d.sh 0 = c := h.cols
    have hr : dim d.sh 1 = r := h.rows
    rw [h.sh]; simp [*]
  refine ⟨by simp [Tensor.rank, e], by simp [Tensor.rows, e], by simp [Tensor.cols, e], by rw [Tensor.bt, e]; exact h.bt, ?_⟩
  intro β i j hβ hi hj
  have hin : InRange (c :: (r+1) :: S) (icons j (icons i β)) := by simp [*]
  unfold Tensor.at'
  rw [concatAx] at e ⊢
  rw [ofFn_sh] at e
  rw [ofFn_get_fits _ hin (by rw [e]; simp [h.bt]), e, clip_cons_of_lt hj, clip_cons_of_lt hi]
  have hc : dim d.sh 1 = r := h.rows
  by_cases hjc : i < r
  · rw [concatGet, if_pos (show icons j (icons i (clip d.bt β)) 1 < dim d.sh 1 by rw [hc]; exact hjc), if_pos hjc]
    have := h.at' β i j hβ hjc hj
    rw [← Tensor.at'_clip (Fits.refl _)] at this
    exact this
  · rw [concatGet, if_neg (show ¬ icons j (icons i (clip d.bt β)) 1 < dim d.sh 1 by rw [hc]; exact hjc), if_neg hjc]
    simp [concatGet, fillT, ofFn]

theorem Rep.takeCol {S : Shp} {r c : ℕ} {d : Tensor K} {f} (h : Rep S r c d f) (js : List ℕ) (hjs : ∀ j ∈ js, j < c) :
    Rep S r js.length (takeAx 0 js d) fun β i j => f β i (js.getD j 0) := by
  have e : (takeAx 0 js d).sh = js.length :: r :: d.bt := by
    simp only [takeAx, ofFn_sh]; rw [h.sh]; rfl
  refine ⟨by simp [Tensor.rank, e], by simp [Tensor.rows, e], by simp [Tensor.cols, e], by rw [Tensor.bt, e]; exact h.bt, ?_⟩
  intro β i j hβ hi hj
  have hin : InRange (js.length :: r :: S) (icons j (icons i β)) := by simp [*]
  unfold Tensor.at'
  rw [takeAx] at e ⊢
  rw [ofFn_sh] at e
  rw [ofFn_get_fits _ hin (by rw [e]; simp [h.bt]), e, clip_cons_of_lt hj, clip_cons_of_lt hi]
  have hm : js.getD j 0 < c := by
    rw [List.getD_eq_getElem?_getD, List.getElem?_eq_getElem hj]; exact hjs _ (List.getElem_mem hj)
  rw [← h.at' β i _ hβ hi hm, ← Tensor.at'_clip (Fits.refl _)]
  unfold Tensor.at'
  congr 1
  funext k
  rcases k with _ | k <;> simp

theorem Rep.takeRow {S : Shp} {r c : ℕ} {d : Tensor K} {f} (h : Rep S r c d f) (js : List ℕ) (hjs : ∀ j ∈ js, j < r) :
    Rep S js.length c (takeAx 1 js d) fun β i j => f β (js.getD i 0) j := by
  have e : (takeAx 1 js d).sh = c :: js.length :: d.bt := by
    simp only [takeAx, ofFn_sh]; rw [h.sh]; rfl
  refine ⟨by simp [Tensor.rank, e], by simp [Tensor.rows, e], by simp [Tensor.cols, e], by rw [Tensor.bt, e]; exact h.bt, ?_⟩
  intro β i j hβ hi hj
  have hin : InRange (c :: js.length :: S) (icons j (icons i β)) := by simp [*]
  unfold Tensor.at'
  rw [takeAx] at e ⊢
  rw [ofFn_sh] at e
  rw [ofFn_get_fits _ hin (by rw [e]; simp [h.bt]), e, clip_cons_of_lt hj, clip_cons_of_lt hi]
  have hm : js.getD i 0 < r := by
    rw [List.getD_eq_getElem?_getD, List.getElem?_eq_getElem hi]; exact hjs _ (List.getElem_mem hi)
  rw [← h.at' β _ j hβ hm hj, ← Tensor.at'_clip (Fits.refl _)]
  unfold Tensor.at'
  congr 1
  funext k
  rcases k with _ | _ | k <;> simp

theorem normIdxs_enc {c : ℕ} (l : List (Option ℕ)) (h : ∀ p, some p ∈ l → p < c) :
    normIdxs (c+1) (l.map enc) = .ok (l.map fun o => o.getD c) := by
  induction l with
  | nil => rfl
  | cons o l ih =>
    have ih := ih fun p hp => h p (List.mem_cons_of_mem _ hp)
    have h1 : normIdx (c+1) (enc o) = .ok (o.getD c) := by
      cases o with
      | none => simp [normIdx, enc]
      | some p =>
        have := h p (List.mem_cons_self)
        simp [normIdx, enc]; omega
    simp only [List.map_cons, normIdxs, h1, ih]
    rfl

/-- Read an optional index; nothing reads as zero. -/
def optF (g : ℕ → K) (o : Option ℕ) : K := o.elim 0 g

@[simp] theorem optF_none (g : ℕ → K) : optF g none = 0 := rfl
@[simp] theorem optF_some (g : ℕ → K) (p) : optF g (some p) = g p := rfl

/-- Pad with a column of zeros and select columns. -/
def ptCol (l : List (Option ℕ)) (t : Tensor K) : Tensor K :=
  takeAx 0 (l.map (·.getD t.cols)) (concatAx 0 [t, fillT (1 :: t.rows :: t.bt) 0])

/-- Pad with a row and a column of zeros and select rows and columns. -/
def ptMid (l l' : List (Option ℕ)) (t : Tensor K) : Tensor K :=
  let p := concatAx 1 [t, fillT (t.cols :: 1 :: t.bt) 0]
  takeAx 0 (l'.map (·.getD t.cols)) (takeAx 1 (l.map (·.getD t.rows)) (concatAx 0 [p, fillT (1 :: p.rows :: p.bt) 0]))

theorem getD_map_getD {l : List (Option ℕ)} {c s : ℕ} (hs : s < l.length) :
    (l.map (·.getD c)).getD s 0 = (l.getD s none).getD c := by
  simp [List.getD_eq_getElem?_getD, List.getElem?_eq_getElem hs]

theorem mem_of_getD {l : List (Option ℕ)} {s : ℕ} {p : ℕ} (h : l.getD s none = some p) : some p ∈ l := by
  rw [List.getD_eq_getElem?_getD] at h
  cases hs : l[s]? with
  | none => simp [hs] at h
  | some x => simp [hs] at h; subst h; exact List.mem_of_getElem? hs

theorem getD_lt {l : List (Option ℕ)} {c : ℕ} (h : ∀ p, some p ∈ l → p < c) : ∀ j ∈ l.map (·.getD c), j < c + 1 := by
  intro j hj
  obtain ⟨o, ho, rfl⟩ := List.mem_map.1 hj
  cases o with
  | none => simp
  | some p => have := h p ho; simp; omega

theorem Rep.ptCol {S : Shp} {r c : ℕ} {t : Tensor K} {f} (h : Rep S r c t f) {l : List (Option ℕ)} (hl : ∀ p, some p ∈ l → p < c) :
    Rep S r l.length (ptCol l t) fun β i s => optF (f β i) (l.getD s none) := by
  unfold Verif.ptCol
  rw [h.cols, h.rows]
  have := h.padCol.takeCol (l.map (·.getD c)) (getD_lt hl)
  rw [List.length_map] at this
  refine this.congr ?_
  intro β i s _ _ hs
  rw [getD_map_getD hs]
  cases ho : l.getD s none with
  | none => simp
  | some p => simp [hl p (mem_of_getD ho)]

theorem Rep.ptMid {S : Shp} {r c : ℕ} {t : Tensor K} {f} (h : Rep S r c t f) {l l' : List (Option ℕ)}
    (hl : ∀ p, some p ∈ l → p < r) (hl' : ∀ p, some p ∈ l' → p < c) :
    Rep S l.length l'.length (ptMid l l' t) fun β s u => optF (fun p => optF (f β p) (l'.getD u none)) (l.getD s none) := by
  unfold Verif.ptMid
  have h1 := h.padRow
  rw [h.cols, h.rows]
  have h2 := h1.padCol
  simp only
  rw [h1.rows]
  have := (h2.takeRow (l.map (·.getD r)) (getD_lt hl)).takeCol (l'.map (·.getD c)) (getD_lt hl')
  rw [List.length_map, List.length_map] at this
  refine this.congr ?_
  intro β s u _ hs hu
  rw [getD_map_getD hs, getD_map_getD hu]
  cases ho : l.getD s none with
  | none => cases hu' : l'.getD u none with
    | none => simp
    | some q => simp
  | some p => cases hu' : l'.getD u none with
    | none => simp
    | some q => simp [hl p (mem_of_getD ho), hl' q (mem_of_getD hu')]

theorem set_set_bt {t : Tensor K} {k d : ℕ} (hk : k < 2) : (t.sh.set k d).drop 2 = t.bt := by
  rw [List.drop_set]; simp [hk, Tensor.bt]

theorem takeAx_bt {t : Tensor K} {k : ℕ} (hk : k < 2) (js : List ℕ) : (takeAx k js t).bt = t.bt := by
  rw [Tensor.bt, takeAx, ofFn_sh, set_set_bt hk]
theorem concatAx_bt {t u : Tensor K} {k : ℕ} (hk : k < 2) : (concatAx k [t, u]).bt = t.bt := by
  rw [Tensor.bt, concatAx, ofFn_sh]; exact set_set_bt hk
theorem ptCol_bt (l : List (Option ℕ)) (t : Tensor K) : (ptCol l t).bt = t.bt := by
  rw [ptCol, takeAx_bt (by omega), concatAx_bt (by omega)]
theorem ptMid_bt (l l' : List (Option ℕ)) (t : Tensor K) : (ptMid l l' t).bt = t.bt := by
  rw [ptMid, takeAx_bt (by omega), takeAx_bt (by omega), concatAx_bt (by omega), concatAx_bt (by omega)]

/-! ### The operations on factors -/

theorem wrapLike_wf {S : Shp} {a : Mat K} {t : Tensor K} (g : Good S t) :
    (wrapLike a t).WF S ∧ den (wrapLike a t) = t ∧ (wrapLike a t).isAM = a.isAM ∧ (wrapLike a t).rigid = false := by
  unfold wrapLike
  by_cases h : a.isAM = true
  · rw [if_pos h]; exact ⟨(mkDense_wf g).1, (mkDense_wf g).2, h.symm, rfl⟩
  · rw [if_neg h]; exact ⟨⟨by have := g.rank; omega, g.fits⟩, rfl, by cases a <;> simp_all [Mat.isAM], rfl⟩

theorem axPos_neg {R k : ℕ} (h : k < R) : axPos R (-(k+1)) = .ok k := by
  unfold axPos
  rw [if_neg (by omega), if_pos (by omega)]
  congr 1

theorem nConcat_ok {k : ℕ} {t u v : Tensor K} (hk : k < t.rank) (h : nConcat (-(k+1)) [t, u] = .ok v) : v = concatAx k [t, u] := by
  simp only [nConcat, axPos_neg hk, bind_ok_iff, Except.ok.injEq, pure_eq_ok] at h
  obtain ⟨_, rfl, _, _, rfl⟩ := h
  rfl

theorem nTake_ok {k : ℕ} {t v : Tensor K} {l : List (Option ℕ)} {c : ℕ} (hk : k < t.rank) (hc : dim t.sh k = c + 1)
    (hl : ∀ p, some p ∈ l → p < c) (h : nTake t (l.map enc) (-(k+1)) = .ok v) : v = takeAx k (l.map (·.getD c)) t := by
  simp only [nTake, axPos_neg hk, bind_ok_iff, Except.ok.injEq, pure_eq_ok] at h
  obtain ⟨_, rfl, js, hjs, rfl⟩ := h
  rw [hc, normIdxs_enc l hl] at hjs
  simp at hjs
  rw [hjs]

theorem padZeroCol_ok {B : Ops K} (hB : B.Ok) {S : Shp} {a p : Mat K} (ha : a.WF S) (h2 : 2 ≤ (den a).rank)
    (h : padZeroCol B a = .ok p) :
    p.WF S ∧ den p = concatAx 0 [den a, fillT (1 :: (den a).rows :: (den a).bt) 0] ∧ p.rigid = false := by
  simp only [padZeroCol, ha.shape, bind_ok_iff, Except.ok.injEq, pure_eq_ok] at h
  obtain ⟨_, rfl, d, hd, t, ht, rfl⟩ := h
  have := hB.dense ha hd
  subst this
  have := nConcat_ok (k := 0) (t := den a) (by omega) (by simpa using ht)
  subst this
  have g := (ha.good h2).rep.padCol.good
  obtain ⟨w, e, _, hr⟩ := wrapLike_wf (a := a) g
  exact ⟨w, e, hr⟩

theorem padZeroRow_ok {B : Ops K} (hB : B.Ok) {S : Shp} {a p : Mat K} (ha : a.WF S) (h2 : 2 ≤ (den a).rank)
    (h : padZeroRow B a = .ok p) :
    p.WF S ∧ den p = concatAx 1 [den a, fillT ((den a).cols :: 1 :: (den a).bt) 0] ∧ p.rigid = false := by
  simp only [padZeroRow, ha.shape, bind_ok_iff, Except.ok.injEq, pure_eq_ok] at h
  obtain ⟨_, rfl, d, hd, t, ht, rfl⟩ := h
  have := hB.dense ha hd
  subst this
  have := nConcat_ok (k := 1) (t := den a) (by omega) (by simpa using ht)
  subst this
  have g := (ha.good h2).rep.padRow.good
  obtain ⟨w, e, _, hr⟩ := wrapLike_wf (a := a) g
  exact ⟨w, e, hr⟩

theorem takeCol_ok {B : Ops K} (hB : B.Ok) {S : Shp} {a q : Mat K} (ha : a.WF S) (h2 : 2 ≤ (den a).rank) {l : List (Option ℕ)} {c : ℕ}
    (hc : (den a).cols = c + 1) (hl : ∀ p, some p ∈ l → p < c) (h : takeGen B a (l.map enc) (-1) = .ok q) :
    q.WF S ∧ den q = takeAx 0 (l.map (·.getD c)) (den a) ∧ q.rigid = false := by
  simp only [takeGen, bind_ok_iff, pure_eq_ok] at h
  obtain ⟨d, hd, t, ht, rfl⟩ := h
  have := hB.dense ha hd
  subst this
  have := nTake_ok (k := 0) (by omega) hc hl (by simpa using ht)
  subst this
  have g := ((Rep.self' h2 rfl hc ha.fits).takeCol _ (getD_lt hl)).good
  obtain ⟨w, e, _, hr⟩ := wrapLike_wf (a := a) g
  exact ⟨w, e, hr⟩

theorem takeRow_ok {B : Ops K} (hB : B.Ok) {S : Shp} {a q : Mat K} (ha : a.WF S) (h2 : 2 ≤ (den a).rank) {l : List (Option ℕ)} {c : ℕ}
    (hc : (den a).rows = c + 1) (hl : ∀ p, some p ∈ l → p < c) (h : takeGen B a (l.map enc) (-2) = .ok q) :
    q.WF S ∧ den q = takeAx 1 (l.map (·.getD c)) (den a) ∧ q.rigid = false := by
  simp only [takeGen, bind_ok_iff, pure_eq_ok] at h
  obtain ⟨d, hd, t, ht, rfl⟩ := h
  have := hB.dense ha hd
  subst this
  have := nTake_ok (k := 1) (by omega) hc hl (by simpa using ht)
  subst this
  have g := ((Rep.self' h2 hc rfl ha.fits).takeRow _ (getD_lt hl)).good
  obtain ⟨w, e, _, hr⟩ := wrapLike_wf (a := a) g
  exact ⟨w, e, hr⟩

theorem padTakeCol_ok {B : Ops K} (hB : B.Ok) {S : Shp} {a p q : Mat K} (ha : a.WF S) (h2 : 2 ≤ (den a).rank) {l : List (Option ℕ)}
    (hl : ∀ p, some p ∈ l → p < (den a).cols) (hp : padZeroCol B a = .ok p) (hq : takeGen B p (l.map enc) (-1) = .ok q) :
    q.WF S ∧ den q = ptCol l (den a) ∧ q.rigid = false := by
  obtain ⟨wp, ep, _⟩ := padZeroCol_ok hB ha h2 hp
  have R := (ha.good h2).rep.padCol
  rw [← ep] at R
  obtain ⟨wq, eq, hr⟩ := takeCol_ok hB wp R.rank R.cols hl hq
  exact ⟨wq, by rw [eq, ep]; rfl, hr⟩

theorem padTakeMid_ok {B : Ops K} (hB : B.Ok) {S : Shp} {a p p' q q' : Mat K} (ha : a.WF S) (h2 : 2 ≤ (den a).rank) {l l' : List (Option ℕ)}
    (hl : ∀ p, some p ∈ l → p < (den a).rows) (hl' : ∀ p, some p ∈ l' → p < (den a).cols)
    (hp : padZeroRow B a = .ok p) (hp' : padZeroCol B p = .ok p') (hq : takeGen B p' (l.map enc) (-2) = .ok q)
    (hq' : takeGen B q (l'.map enc) (-1) = .ok q') :
    q'.WF S ∧ den q' = ptMid l l' (den a) ∧ q'.rigid = false := by
  obtain ⟨wp, ep, _⟩ := padZeroRow_ok hB ha h2 hp
  have R := (ha.good h2).rep.padRow
  rw [← ep] at R
  obtain ⟨wp', ep', _⟩ := padZeroCol_ok hB wp R.rank hp'
  have R' := R.padCol
  rw [← R.rows, ← ep'] at R'
  obtain ⟨wq, eq, _⟩ := takeRow_ok hB wp' R'.rank (R'.rows.trans R.rows) hl hq
  have R'' := R'.takeRow (l.map (·.getD (den a).rows)) (by rw [R.rows]; exact getD_lt hl)
  rw [← eq] at R''
  obtain ⟨wq', eq', hr⟩ := takeCol_ok hB wq R''.rank R''.cols hl' hq'
  exact ⟨wq', by rw [eq', eq, ep', ep]; rfl, hr⟩

/-! ### The identity behind the sum of low-rank matrices -/

theorem slots_core {L L' : List Slot} {n n' m m' : ℕ} {al bl ar br : ℕ → K} {am bm : ℕ → ℕ → K}
    (hL1 : (L.filterMap (·.1)).Perm (List.range n)) (hL2 : (L.filterMap (·.2)).Perm (List.range m))
    (hL1' : (L'.filterMap (·.1)).Perm (List.range n')) (hL2' : (L'.filterMap (·.2)).Perm (List.range m'))
    (heq : ∀ p q, (some p, some q) ∈ L → al p = bl q) (heq' : ∀ p q, (some p, some q) ∈ L' → ar p = br q) :
    ∑ t ∈ Finset.range L'.length, (∑ s ∈ Finset.range L.length,
      (optF al (L.getD s (none, none)).1 + optF bl (joinB (L.getD s (none, none)))) *
      (optF (fun p => optF (am p) (L'.getD t (none, none)).1) (L.getD s (none, none)).1 +
       optF (fun p => optF (bm p) (L'.getD t (none, none)).2) (L.getD s (none, none)).2)) *
      (optF ar (L'.getD t (none, none)).1 + optF br (joinB (L'.getD t (none, none)))) =
    (∑ q ∈ Finset.range n', (∑ p ∈ Finset.range n, al p * am p q) * ar q) +
    ∑ q ∈ Finset.range m', (∑ p ∈ Finset.range m, bl p * bm p q) * br q := by
  have J1 : ∀ (M : List Slot) (u v : ℕ → K), (∀ p q, (some p, some q) ∈ M → u p = v q) → ∀ s < M.length, ∀ G : ℕ → K,
      (optF u (M.getD s (none, none)).1 + optF v (joinB (M.getD s (none, none)))) * optF G (M.getD s (none, none)).1 =
        optF (fun p => u p * G p) (M.getD s (none, none)).1 := by
    intro M u v _ s _ G
    rcases hx : M.getD s (none, none) with ⟨_ | p, y⟩
    · simp
    · simp [joinB]
  have J2 : ∀ (M : List Slot) (u v : ℕ → K), (∀ p q, (some p, some q) ∈ M → u p = v q) → ∀ s < M.length, ∀ G : ℕ → K,
      (optF u (M.getD s (none, none)).1 + optF v (joinB (M.getD s (none, none)))) * optF G (M.getD s (none, none)).2 =
        optF (fun p => v p * G p) (M.getD s (none, none)).2 := by
    intro M u v h s hs G
    have hm : M.getD s (none, none) ∈ M := by
      rw [List.getD_eq_getElem?_getD, List.getElem?_eq_getElem hs]; exact List.getElem_mem hs
    rcases hx : M.getD s (none, none) with ⟨_ | p, _ | q⟩
    · simp
    · simp [joinB]
    · simp
    · rw [hx] at hm
      simp [joinB, h p q hm]
  have inner : ∀ t, ∑ s ∈ Finset.range L.length,
      (optF al (L.getD s (none, none)).1 + optF bl (joinB (L.getD s (none, none)))) *
      (optF (fun p => optF (am p) (L'.getD t (none, none)).1) (L.getD s (none, none)).1 +
       optF (fun p => optF (bm p) (L'.getD t (none, none)).2) (L.getD s (none, none)).2) =
      optF (fun q => ∑ p ∈ Finset.range n, al p * am p q) (L'.getD t (none, none)).1 +
      optF (fun q => ∑ p ∈ Finset.range m, bl p * bm p q) (L'.getD t (none, none)).2 := by
    intro t
    rw [Finset.sum_congr rfl fun s hs => by
      rw [mul_add, J1 L al bl heq s (Finset.mem_range.1 hs), J2 L al bl heq s (Finset.mem_range.1 hs)]]
    rw [Finset.sum_add_distrib, sum_slots hL1 (optF _) rfl, sum_slots hL2 (optF _) rfl]
    congr 1
    · cases (L'.getD t (none, none)).1 <;> simp
    · cases (L'.getD t (none, none)).2 <;> simp
  rw [Finset.sum_congr rfl fun t ht => by
    rw [inner t, mul_comm, mul_add, J1 L' ar br heq' t (Finset.mem_range.1 ht), J2 L' ar br heq' t (Finset.mem_range.1 ht)]]
  rw [Finset.sum_add_distrib, sum_slots hL1' (optF _) rfl, sum_slots hL2' (optF _) rfl]
  congr 1 <;> exact Finset.sum_congr rfl fun q _ => by simp [mul_comm]

theorem slotL_lt {a b : Tensor K} {L : List Slot} (h : SlotsOf a b L) : ∀ p, some p ∈ L.map (fun s => s.1) → p < a.cols := by
  intro p hp
  obtain ⟨s, hs, e⟩ := List.mem_map.1 hp
  exact h.lt_left hs e
theorem slotR_lt {a b : Tensor K} {L : List Slot} (h : SlotsOf a b L) : ∀ p, some p ∈ L.map (fun s => s.2) → p < b.cols := by
  intro p hp
  obtain ⟨s, hs, e⟩ := List.mem_map.1 hp
  exact h.lt_right hs e
theorem slotJ_lt {a b : Tensor K} {L : List Slot} (h : SlotsOf a b L) : ∀ p, some p ∈ L.map joinB → p < b.cols := by
  intro p hp
  obtain ⟨s, hs, e⟩ := List.mem_map.1 hp
  unfold joinB at e
  split_ifs at e
  exact h.lt_right hs e

theorem getD_map_slot (L : List Slot) (sel : Slot → Option ℕ) (h : sel (none, none) = none) (s : ℕ) :
    (L.map sel).getD s none = sel (L.getD s (none, none)) := by
  simp only [List.getD_eq_getElem?_getD, List.getElem?_map]
  cases L[s]? <;> simp [h]

theorem addLRLR_ok {env : Env K} (he : env.Lawful) {B : Ops K} (hB : B.Ok) {S : Shp} {al ar am bl br bm r : Mat K}
    (ha : Mat.WF S (.lr al ar am)) (hb : Mat.WF S (.lr bl br bm)) (ns : NoStretch (.lr al ar am) (.lr bl br bm))
    (h : addLRLR env B al ar am bl br bm = .ok r) : ZipOk (· + ·) S (.lr al ar am) (.lr bl br bm) r := by
  have hr1 : (den al).rows = (den bl).rows := by
    have h1 : (den bl).rows = 1 ∨ (den bl).rows = (den al).rows := (ns.1 rfl).1
    have h2 : (den al).rows = 1 ∨ (den al).rows = (den bl).rows := (ns.2 rfl).1
    omega
  have hr2 : (den ar).rows = (den br).rows := by
    have h1 : (den br).rows = 1 ∨ (den br).rows = (den ar).rows := (ns.1 rfl).2
    have h2 : (den ar).rows = 1 ∨ (den ar).rows = (den br).rows := (ns.2 rfl).2
    omega
  have hsa := ha.shape
  have hsb := hb.shape
  obtain ⟨⟨wal, war, wam⟩, ⟨kal, kar, kam⟩, ca1, ca2⟩ := ha
  obtain ⟨⟨wbl, wbr, wbm⟩, ⟨kbl, kbr, kbm⟩, cb1, cb2⟩ := hb
  have gal := wal.good kal; have gar := war.good kar; have gam := wam.good kam
  have gbl := wbl.good kbl; have gbr := wbr.good kbr; have gbm := wbm.good kbm
  simp only [addLRLR, hsa, hsb, bind_ok_iff, Except.ok.injEq, assertCompatible_ok, exists_eq_left'] at h
  obtain ⟨_, hcomp, dal, e1, dbl, e2, L, hL, dar, e3, dbr, e4, R, hR, pal, hpal, aLeft, haL, pbl, hpbl, bLeft, hbL, jL, hjL,
    par, hpar, aRight, haR, pbr, hpbr, bRight, hbR, jR, hjR, pam, hpam, pam', hpam', tam, htam, aMid, haM,
    pbm, hpbm, pbm', hpbm', tbm, htbm, bMid, hbM, jM, hjM, lr, hlr, djm, edjm, isz, hisz, h⟩ := h
  obtain rfl := hB.dense wal e1
  obtain rfl := hB.dense wbl e2
  obtain rfl := hB.dense war e3
  obtain rfl := hB.dense wbr e4
  obtain ⟨L, rfl, sL⟩ := align_slots he hL
  obtain ⟨R, rfl, sR⟩ := align_slots he hR
  simp only [show ∀ (M : List Slot) (f : Slot → Option ℕ), M.map (fun s => enc (f s)) = (M.map f).map enc from
    fun M f => by simp] at *
  obtain ⟨waL, daL, _⟩ := padTakeCol_ok hB wal kal (slotL_lt sL) hpal haL
  obtain ⟨wbL, dbL, _⟩ := padTakeCol_ok hB wbl kbl (slotJ_lt sL) hpbl hbL
  obtain ⟨waR, daR, _⟩ := padTakeCol_ok hB war kar (slotL_lt sR) hpar haR
  obtain ⟨wbR, dbR, _⟩ := padTakeCol_ok hB wbr kbr (slotJ_lt sR) hpbr hbR
  obtain ⟨waM, daM, _⟩ := padTakeMid_ok hB wam kam (by rw [← ca1]; exact slotL_lt sL) (by rw [← ca2]; exact slotL_lt sR)
    hpam hpam' htam haM
  obtain ⟨wbM, dbM, _⟩ := padTakeMid_ok hB wbm kbm (by rw [← cb1]; exact slotR_lt sL) (by rw [← cb2]; exact slotR_lt sR)
    hpbm hpbm' htbm hbM
  have RaL : ∀ {T}, Fits T (den al).bt → _ := fun {T} hT => (Rep.self (S := T) kal hT).ptCol (slotL_lt sL)
  have RbL : ∀ {T}, Fits T (den bl).bt → _ := fun {T} hT => (Rep.self' (S := T) kbl hr1.symm rfl hT).ptCol (slotJ_lt sL)
  have RaR : ∀ {T}, Fits T (den ar).bt → _ := fun {T} hT => (Rep.self (S := T) kar hT).ptCol (slotL_lt sR)
  have RbR : ∀ {T}, Fits T (den br).bt → _ := fun {T} hT => (Rep.self' (S := T) kbr hr2.symm rfl hT).ptCol (slotJ_lt sR)
  have RaM : ∀ {T}, Fits T (den am).bt → _ := fun {T} hT => (Rep.self' (S := T) kam ca1.symm ca2.symm hT).ptMid (slotL_lt sL) (slotL_lt sR)
  have RbM : ∀ {T}, Fits T (den bm).bt → _ := fun {T} hT => (Rep.self' (S := T) kbm cb1.symm cb2.symm hT).ptMid (slotR_lt sL) (slotR_lt sR)
  simp only [List.length_map] at RaL RbL RaR RbR RaM RbM
  have zL := hB.add waL wbL (noStretch_of_eq (by rw [daL, dbL, (RaL gal.fits).rows, (RbL gbl.fits).rows])
    (by rw [daL, dbL, (RaL gal.fits).cols, (RbL gbl.fits).cols])) hjL
  have zR := hB.add waR wbR (noStretch_of_eq (by rw [daR, dbR, (RaR gar.fits).rows, (RbR gbr.fits).rows])
    (by rw [daR, dbR, (RaR gar.fits).cols, (RbR gbr.fits).cols])) hjR
  have zM := hB.add waM wbM (noStretch_of_eq (by rw [daM, dbM, (RaM gam.fits).rows, (RbM gbm.fits).rows])
    (by rw [daM, dbM, (RaM gam.fits).cols, (RbM gbm.fits).cols])) hjM
  obtain ⟨rfl, wlr⟩ := mkLR_inv zL.wf zR.wf zM.wf hlr
  obtain rfl := hB.dense zM.wf edjm
  have dL := zL.eq; have dR := zR.eq; have dM := zM.eq
  rw [daL, dbL] at dL
  rw [daR, dbR] at dR
  rw [daM, dbM] at dM
  -- the low-rank result denotes the sum
  have key : den (.lr jL jR jM) = zipB (· + ·) (den (.lr al ar am)) (den (.lr bl br bm)) := by
    have e : (den (.lr jL jR jM)).bt = bsh (bsh (bsh (den al).bt (den bl).bt) (bsh (den am).bt (den bm).bt)) (bsh (den ar).bt (den br).bt) := by
      simp only [den, mm_bt, tr_bt, dL, dR, dM, zipB_bt, ptCol_bt, ptMid_bt]
    have h1 := gal.fits; have h2 := gar.fits; have h3 := gam.fits
    have h4 := gbl.fits; have h5 := gbr.fits; have h6 := gbm.fits
    have f1 : Fits (den (.lr jL jR jM)).bt (den al).bt := by rw [e]; fitsIn S
    have f2 : Fits (den (.lr jL jR jM)).bt (den ar).bt := by rw [e]; fitsIn S
    have f3 : Fits (den (.lr jL jR jM)).bt (den am).bt := by rw [e]; fitsIn S
    have f4 : Fits (den (.lr jL jR jM)).bt (den bl).bt := by rw [e]; fitsIn S
    have f5 : Fits (den (.lr jL jR jM)).bt (den br).bt := by rw [e]; fitsIn S
    have f6 : Fits (den (.lr jL jR jM)).bt (den bm).bt := by rw [e]; fitsIn S
    have lhs := ((dL ▸ (RaL f1).zipB (· + ·) (RbL f4)).mm (dM ▸ (RaM f3).zipB (· + ·) (RbM f6))).mm (dR ▸ (RaR f2).zipB (· + ·) (RbR f5)).tr
    have rhs := (((Rep.self' kal rfl rfl f1).mm (Rep.self' kam ca1.symm ca2.symm f3)).mm (Rep.self' kar rfl rfl f2).tr).zipB (· + ·)
      (((Rep.self' kbl hr1.symm rfl f4).mm (Rep.self' kbm cb1.symm cb2.symm f6)).mm (Rep.self' kbr hr2.symm rfl f5).tr)
    refine Rep.ext lhs rhs ?_ ?_
    · rw [e]
      simp only [den, zipB_bt, mm_bt, tr_bt]
      bsh_ac
    · intro β i j hβ hi hj
      simp only [getD_map_slot _ (fun s => s.1) rfl, getD_map_slot _ (fun s => s.2) rfl, getD_map_slot _ joinB rfl]
      exact slots_core sL.left sL.right sR.left sR.right
        (fun p q hpq => sL.eq hr1 p q hpq ⟨kal, f1⟩ ⟨kbl, f4⟩ hβ hi)
        (fun p q hpq => sR.eq hr2 p q hpq ⟨kar, f2⟩ ⟨kbr, f5⟩ hβ hj)
  cases isz with
  | false =>
    simp only [Bool.false_eq_true, if_false, pure_eq_ok] at h
    subst h
    exact ⟨wlr, hcomp, key⟩
  | true =>
    simp only [if_true, bind_ok_iff, wlr.shape, Except.ok.injEq, exists_eq_left'] at h
    have k2 : 2 ≤ (den (.lr jL jR jM)).rank := by simp [den, Tensor.rank]
    rw [Tensor.sh_eq k2, mkZero_ok] at h
    obtain ⟨c', r', bt', hq, rfl⟩ := h
    simp only [List.cons.injEq] at hq
    obtain ⟨rfl, rfl, rfl⟩ := hq
    refine ⟨wlr.fits, hcomp, ?_⟩
    rw [← key]
    obtain ⟨⟨wl, wr, wm⟩, ⟨kl, kr, km⟩, c1, c2⟩ := id wlr
    have e : (den (.lr jL jR jM)).bt = bsh (bsh (den jL).bt (den jM).bt) (den jR).bt := by
      simp only [den, mm_bt, tr_bt]
    have h1 := wl.fits; have h2 := wr.fits; have h3 := wm.fits
    have f1 : Fits (den (.lr jL jR jM)).bt (den jL).bt := by rw [e]; fitsIn S
    have f2 : Fits (den (.lr jL jR jM)).bt (den jR).bt := by rw [e]; fitsIn S
    have f3 : Fits (den (.lr jL jR jM)).bt (den jM).bt := by rw [e]; fitsIn S
    refine (Rep.ext (((Rep.self' kl rfl c1 f1).mm (Rep.self' km rfl rfl f3)).mm (Rep.self' kr rfl c2 f2).tr)
      (Rep.fill (Fits.refl _) _ _ 0) rfl ?_).symm
    intro β i j hβ hi hj
    refine Finset.sum_eq_zero fun x hx => ?_
    rw [Finset.sum_eq_zero, zero_mul]
    intro y hy
    rw [Finset.mem_range] at hx hy
    rw [← Tensor.at'_clip (t := den jM) (Fits.refl _), he.isZero hisz km _ _ _ (inRange_clip _ (f3.pos hβ.pos)) hy hx, mul_zero]

end Verif
