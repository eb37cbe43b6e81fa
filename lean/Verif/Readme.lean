/-
C52: the pipeline of the README.
-/
import Verif.Cancel

set_option linter.unusedSectionVars false

namespace Verif

variable {K : Type} [Field K] [LinearOrder K] [IsStrictOrderedRing K]

/-! ### Woodbury minus its low-rank part -/

theorem add_diag_zero (c : Cfg K) {d : Tensor K} {bt : Shp} {n p q : ℕ} (hd : (Mat.diag d).Valid) (hf : Fits (den (.diag d)).sh (q :: p :: bt)) (hl : bt.length + 2 ≤ (den (.diag d)).rank) :
    (ops c.code (n+1)).add (.diag d) (.zero bt p q) = .ok (.diag d) := by
  show addRun c.code (ops c.code n) .amZero (.diag d) (.zero bt p q) = _
  have hs : shape (Mat.zero bt p q : Mat K) = .ok (q :: p :: bt) := rfl
  have hc : Compat (den (.diag d)).sh (q :: p :: bt) := (Fits.refl _).compat hf
  simp only [addRun, hd.own.shape, hs, shapeBroadcast, bind_ok_iff, Except.ok.injEq, exists_eq_left', assertCompatible_ok, exists_const, bsE_ok]
  refine ⟨hc, _, ⟨hc, rfl⟩, ?_⟩
  rw [bsh_of_fits hf (by simp only [List.length_cons, Tensor.rank] at *; omega), broadcastTo_self hd.own]

/-- C52.  Adding to a Woodbury matrix the opposite of its low-rank part gives back the Diagonal matrix, exactly (if the batch of the low-rank
parts broadcasts to that of the diagonal). -/
theorem C52_woodbury_cancel (c : Cfg K) (ht : 0 < c.tol) {d : Tensor K} {al ar am bl br bm : Mat K} (hd : (Mat.diag d).Valid)
    (ha : (Mat.lr al ar am).Supported) (hb : (Mat.lr bl br bm).Supported)
    (hc : BatchCompat (.lr al ar am) (.lr bl br bm)) (hwa : (Mat.lr al ar am).wo true) (hwb : (Mat.lr bl br bm).wo true)
    (ho : Opposite al ar am bl br bm) (hl : (den al).rows ≠ 0) (hr : (den ar).rows ≠ 0) (hl' : (den al).cols ≠ 0) (hr' : (den ar).cols ≠ 0)
    (fd : Fits (den (.diag d)).bt (bsh (den (.lr al ar am)).bt (den (.lr bl br bm)).bt)) (ld : (bsh (den (.lr al ar am)).bt (den (.lr bl br bm)).bt).length + 1 ≤ d.rank)
    (e1 : (den al).rows = d.cols) (e2 : (den ar).rows = d.cols) :
    Returns c (fun B => B.add (.wb d al ar am) (.lr bl br bm)) (.diag d) := by
  obtain ⟨n, h⟩ := C52_lowrank_cancel c ht ha hb hc hwa hwb ho hl hr hl' hr'
  cases n with
  | zero => cases h
  | succ n =>
    refine ⟨n + 2, ?_⟩
    show ((ops c.code (n+1)).add (.lr al ar am) (.lr bl br bm) >>= fun y => (ops c.code (n+1)).add (.diag d) y) = _
    have h : (ops c.code (n+1)).add (.lr al ar am) (.lr bl br bm) = _ := h
    rw [h]
    have h1 : 1 ≤ d.rank := by omega
    refine add_diag_zero c hd ?_ ?_
    · intro k
      match k with
      | 0 => right; exact e2
      | 1 => right; exact e1
      | k+2 => exact fd k
    · rw [show (den (.diag d)).rank = d.rank + 1 by simp [den, Tensor.rank] ; simp [Tensor.rank] at h1; omega]
      omega

/-! ### The inverse of a Woodbury matrix with plain factors -/

omit [IsStrictOrderedRing K] in
theorem dense_of_kind {a : Mat K} (h : a.kind = some .dense) : ∃ t, a = .dense t := by
  cases a <;> simp_all [Mat.kind]

omit [IsStrictOrderedRing K] in
theorem kindC_plain {env : Env K} {a : Mat K} (h : a.plain = true) (h2 : 2 ≤ (den a).rank) : kindC env a = .dense := by
  cases a with
  | num t => exact kindC_num_rk (by change 2 ≤ t.rank at h2; omega)
  | dense t => rfl
  | _ => simp [Mat.plain] at h

omit [IsStrictOrderedRing K] in
theorem triRk_plain {a : Mat K} (h : a.plain = true) : TriRk a := by
  cases a <;> first | trivial

theorem inv_wb_struct {c : Cfg K} {lin : LinEnv K} (hl : lin.Lawful) {n k : ℕ} {d : Tensor K} {l r m x : Mat K} (ha : (Mat.wb d l r m).Valid)
    (pl : l.plain = true) (pr : r.plain = true) (pm : m.kind = some .diag ∨ m.kind = some .dense)
    (h : (lops c.code lin (ops c.strict n) k).inv (.wb d l r m) = .ok x) :
    ∃ u1 u2 u3 : Tensor K, x = .wb (zipB (· / ·) (scalarT 1) d) (.dense u1) (.dense u2) (.dense u3) ∧ (∀ i, InRange d.sh i → d.get i ≠ 0) ∧
      u1 = mm (diagC (zipB (· / ·) (scalarT 1) d)) (den l) ∧ u2 = mm (diagC (zipB (· / ·) (scalarT 1) d)) (den r) := by
  have ho := ha.own
  match k, h with
  | 0, h => cases h
  | 1, h =>
    change invWB c.code (ops c.strict n) (lops c.code lin (ops c.strict n) 0) d l r m = _ at h
    simp only [invWB, bind_ok_iff] at h
    obtain ⟨_, h, _⟩ := h
    cases h
  | k+2, h =>
    change invWB c.code (ops c.strict n) (lops c.code lin (ops c.strict n) (k+1)) d l r m = _ at h
    simp only [invWB, schurM, bind_ok_iff] at h
    obtain ⟨di, hdi, dl, hdl, dr, hdr, s, ⟨di', hdi', sec, hsec, mi, hmi, hs⟩, si, hsi, lr, hlr, h⟩ := h
    rw [hdi] at hdi'
    cases hdi'
    have hL : InvC (lops c.code lin (ops c.strict n) (k+1)) := (c.lok hl n (k+1)).inv
    have hB := c.ok n
    obtain ⟨o1, _⟩ := hL ho.wbDiag hdi
    obtain ⟨o2, k2⟩ := hL ho.wbLr.1.2.2 hmi
    have hs' := schur_ok hB ho o1 o2 hsec hs
    obtain ⟨o3, k3⟩ := hL hs'.1 hsi
    have m1 := hB.matmul o1.wf ho.wbLr.1.1 o1.rank' ho.wbLr.2.1.1 hdl
    have m2 := hB.matmul o1.wf ho.wbLr.1.2.1 o1.rank' ho.wbLr.2.1.2.1 hdr
    obtain ⟨rfl, _⟩ := mkLR_inv m1.wf m2.wf o3.wf hlr
    have hdi : (nDiv (scalarT 1) d >>= fun v => mkDiag v) = .ok di := hdi
    simp only [bind_ok_iff, mkDiag_ok] at hdi
    obtain ⟨v, hv, hv1, rfl⟩ := hdi
    obtain ⟨_, h0, rfl⟩ := nDiv_ok hv
    -- the classes
    have MK := ops_mmKinds c.strict n
    have A := ops_addKinds c.strict n
    have kdl : ∃ u, dl = .dense u := by
      obtain ⟨k', hk, e⟩ := MK false false (.diag _) l (.inl rfl) trivial (triRk_plain pl) dl hdl
      rw [kindC_plain pl ho.wbLr.2.1.1] at hk
      simp only [kindC, convertAM, Mat.kind, Option.getD_some, mmOut, List.mem_singleton] at hk
      exact dense_of_kind (by rw [e, hk])
    have kdr : ∃ u, dr = .dense u := by
      obtain ⟨k', hk, e⟩ := MK false false (.diag _) r (.inl rfl) trivial (triRk_plain pr) dr hdr
      rw [kindC_plain pr ho.wbLr.2.1.2.1] at hk
      simp only [kindC, convertAM, Mat.kind, Option.getD_some, mmOut, List.mem_singleton] at hk
      exact dense_of_kind (by rw [e, hk])
    have ksec : sec.kind = some .dense := by
      refine (?_ : Post (fun x : Mat K => x.kind = some .dense) (matmul3 (ops c.strict n) true false false r (.diag _) l)) sec hsec
      unfold matmul3
      refine Post.skip fun sa => Post.skip fun sb => Post.skip fun sc => ?_
      have one : ∀ {ta tb : Bool} {a b : Mat K}, a.isAM = true ∨ b.isAM = true → TriRk a → TriRk b → mmOut ta tb (kindC c.strict a) (kindC c.strict b) = [.dense] →
          Post (fun x : Mat K => x.kind = some .dense) ((ops c.strict n).matmul ta tb a b) := fun hab ta' tb' e x hx => by
        obtain ⟨k', hk, e'⟩ := MK _ _ _ _ hab ta' tb' x hx
        rw [e, List.mem_singleton] at hk
        rw [e', hk]
      refine Post.ite ?_ ?_
      · refine (one (b := .diag (zipB (· / ·) (scalarT 1) d)) (.inr rfl) (triRk_plain pr) trivial (by rw [kindC_plain pr ho.wbLr.2.1.2.1]; rfl)).bind fun ab hab => ?_
        obtain ⟨u, rfl⟩ := dense_of_kind hab
        exact one (.inl rfl) trivial (triRk_plain pl) (by rw [kindC_plain pl ho.wbLr.2.1.1]; rfl)
      · refine (one (a := .diag (zipB (· / ·) (scalarT 1) d)) (.inl rfl) trivial (triRk_plain pl) (by rw [kindC_plain pl ho.wbLr.2.1.1]; rfl)).bind fun ab hab => ?_
        obtain ⟨u, rfl⟩ := dense_of_kind hab
        exact one (.inr rfl) (triRk_plain pr) trivial (by rw [kindC_plain pr ho.wbLr.2.1.2.1]; rfl)
    have ks : s.kind = some .dense := by
      rcases pm with pm | pm
      · obtain ⟨k', hk, e⟩ := A.am (k2.trans pm) ksec s hs
        simp only [addOut, List.mem_singleton] at hk
        rw [e, hk]
      · obtain ⟨k', hk, e⟩ := A.am (k2.trans pm) ksec s hs
        simp only [addOut, List.mem_singleton] at hk
        rw [e, hk]
    obtain ⟨u1, rfl⟩ := kdl
    obtain ⟨u2, rfl⟩ := kdr
    obtain ⟨u3, rfl⟩ := dense_of_kind (k3.trans ks)
    refine ⟨u1, u2, upT (tneg u3), ?_, h0, m1.eq, m2.eq⟩
    cases n with
    | zero => cases hdl
    | succ n =>
      simp only [subtractM, convertAM, negativeM, mkDense, bind_ok_iff, Except.ok.injEq, exists_eq_left'] at h
      obtain ⟨y, hy, h⟩ := h
      rw [mkLR_inv' hy] at h
      exact mkWB_inv h

/-! ### The pipeline -/

omit [IsStrictOrderedRing K] in
theorem recip_recip {d : Tensor K} (h1 : 1 ≤ d.rank) : zipB (· / ·) (scalarT 1) (zipB (· / ·) (scalarT 1) d) = d := by
  have g := GoodV.self h1
  have v := recip_vrep g
  have v' := recip_vrep v.good
  have e : (zipB (· / ·) (scalarT 1) (zipB (· / ·) (scalarT 1) d)).sh.tail = d.sh.tail := by rw [recip_sh, recip_sh]
  have ec : (zipB (· / ·) (scalarT 1) d).cols = d.cols := v.len
  rw [ec] at v'
  refine VRep.ext (by rw [e]; exact v') (VRep.self h1 (by rw [e]; exact Fits.refl _)) e fun β i hβ hi => ?_
  rw [e] at hβ
  rw [v.vat β i hβ hi]
  simp

omit [IsStrictOrderedRing K] in
/-- A Diagonal matrix plus a number is a Woodbury matrix. -/
theorem add_diag_num (c : Cfg K) {d s : Tensor K} {y : Mat K} (hd : (Mat.diag d).Valid) (hs : s.sh = []) (hs0 : s.get (fun _ => 0) ≠ 0)
    (hy : Returns c (fun B => B.add (.diag d) (.num s)) y) :
    ∃ e, y = .wb d (.num (fillT [1, d.cols] 1)) (.num (fillT [1, d.cols] 1)) (.diag e) ∧ fillDiag s 1 = .ok (.diag e) := by
  have cv : convertAM c.code (.num s) = .const s 1 1 := by
    simp only [convertAM, Tensor.rank, hs, List.length_nil, if_true]
    rw [if_neg (by tauto)]
  have st : ∀ B : Ops K, stepAdd c.code B (.diag d) (.num s) = B.add (.const s 1 1) (.diag d) := fun B => by
    show (match (Mat.diag d).kind, (convertAM c.code (.num s)).kind with
      | some ka, some kb => addRun c.code B (addId ka kb) (.diag d) (convertAM c.code (.num s))
      | _, _ => .error .notFound) = _
    rw [cv]; rfl
  obtain ⟨n, h⟩ := hy
  match n, h with
  | 0, h => cases h
  | 1, h =>
    change stepAdd c.code (ops c.code 0) (.diag d) (.num s) = _ at h
    rw [st] at h
    cases h
  | 2, h =>
    change stepAdd c.code (ops c.code 1) (.diag d) (.num s) = _ at h
    rw [st] at h
    change addRun c.code (ops c.code 0) .constDiag (.const s 1 1) (.diag d) = _ at h
    simp only [addRun, bind_ok_iff] at h
    obtain ⟨_, _, _, _, _, _, _, _, _, _, h⟩ := h
    cases h
  | n+3, h =>
    change stepAdd c.code (ops c.code (n+2)) (.diag d) (.num s) = _ at h
    rw [st] at h
    change addRun c.code (ops c.code (n+1)) .constDiag (.const s 1 1) (.diag d) = _ at h
    simp only [addRun, bind_ok_iff, constToLR] at h
    obtain ⟨_, _, _, _, _, _, rc, hrc, lr, ⟨m, hm, hlr⟩, h⟩ := h
    obtain ⟨e, rfl, _, _⟩ := fillDiag_ok (S := []) (by rw [hs]; exact Fits.refl _) hm
    rw [mkLR_inv' hlr] at h
    have hrc' : rc = (d.cols, d.cols) := by
      have e := shapeMatrixBroadcast_ok (S := (den (.diag d)).bt) (a := .const s 1 1) (by show Fits _ s.sh; rw [hs]; exact Fits.nil _) hd.own hrc
      rw [e.2]
      show (bd 1 d.cols, bd 1 d.cols) = _
      simp [bd]
    subst hrc'
    exact ⟨e, mkWB_inv h, hm⟩

omit [IsStrictOrderedRing K] in
theorem IsInverse.flip {a r : Tensor K} (h : IsInverse a r) : IsInverse r a where
  rank := by rw [rank_of_sh h.shape]; exact h.rank
  square := by rw [rows_of_sh h.shape, cols_of_sh h.shape]; exact h.square
  shape := h.shape.symm
  right β i j hβ hi hj := by
    rw [rows_of_sh h.shape] at *; rw [bt_of_sh h.shape] at hβ
    exact h.left β i j hβ hi hj
  left β i j hβ hi hj := by
    rw [rows_of_sh h.shape] at *; rw [bt_of_sh h.shape] at hβ
    exact h.right β i j hβ hi hj

/-- C52.  The pipeline of the README: for a batch of Diagonal matrices `d` and a number `s`, `inv(inv(d + s)) - s` is the Diagonal matrix `d` itself. -/
theorem C52_readme (c : Cfg K) (ht : 0 < c.tol) {lin : LinEnv K} (hl : lin.Lawful) {d s : Tensor K} {y z w : Mat K} (hd : (Mat.diag d).Valid) (hn : 0 ∉ d.sh)
    (hs : s.sh = []) (hs0 : s.get (fun _ => 0) ≠ 0) (hy : Returns c (fun B => B.add (.diag d) (.num s)) y)
    (hz : LReturns c lin (fun _ L => L.inv y) z) (hw : LReturns c lin (fun _ L => L.inv z) w) :
    Returns c (fun B => subtractM c.code B w (.num s)) (.diag d) := by
  have h1 : 1 ≤ d.rank := hd.own.1
  have fs : ∀ T, Fits T s.sh := fun T => by rw [hs]; exact Fits.nil _
  obtain ⟨e, rfl, he⟩ := add_diag_num c hd hs hs0 hy
  obtain ⟨e', he', _, ve⟩ := fillDiag_ok (fs []) he
  cases he'
  generalize ho : (fillT [1, d.cols] 1 : Tensor K) = one at *
  have R1 : ∀ T, Rep T d.cols 1 one fun _ _ _ => 1 := fun T => by rw [← ho]; exact Rep.fill (Fits.nil T) d.cols 1 1
  have gd := GoodV.self h1
  have vy : (Mat.wb d (.num one) (.num one) (.diag e)).Valid := by
    refine ⟨d.sh.tail, ⟨h1, Fits.refl _⟩, ⟨⟨by have := (R1 []).rank; omega, (R1 _).bt⟩, ⟨by have := (R1 []).rank; omega, (R1 _).bt⟩, ⟨(ve (fs [])).rank, (ve (fs _)).bt⟩⟩, ?_⟩
    exact ⟨⟨(R1 []).rank, (R1 []).rank, (Rep.diagC (ve (fs []))).rank⟩, ⟨((R1 []).cols).trans (Rep.diagC (ve (fs []))).rows.symm, ((R1 []).cols).trans (Rep.diagC (ve (fs []))).cols.symm⟩, (R1 []).rows, (R1 []).rows⟩
  -- the first inverse
  have xz := (C46_inv c lin vy ⟨rfl, trivial, trivial, trivial⟩ ⟨rfl, rfl, trivial⟩).2
  obtain ⟨vz, iz, _⟩ := C19_inv c hl vy hz xz
  obtain ⟨k, n, hz⟩ := hz.strict xz
  obtain ⟨u1, u2, u3, rfl, d0, eu1, eu2⟩ := inv_wb_struct hl vy rfl rfl (.inl rfl) hz
  -- the second
  have xw := (C46_inv c lin vz ⟨rfl, trivial, trivial, trivial⟩ ⟨rfl, rfl, trivial⟩).2
  obtain ⟨vw, iw, _⟩ := C19_inv c hl vz hw xw
  obtain ⟨k', n', hw⟩ := hw.strict xw
  obtain ⟨w1, w2, w3, rfl, _, ew1, ew2⟩ := inv_wb_struct hl vz rfl rfl (.inr rfl) hw
  rw [recip_recip h1] at ew1 ew2 vw iw ⊢
  have ew : den (.wb d (.dense w1) (.dense w2) (.dense w3)) = den (.wb d (.num one) (.num one) (.diag e)) := by
    exact iw.unique iz.flip
  have hT : (den (.wb d (.num one) (.num one) (.diag e))).bt = d.sh.tail := by
    obtain ⟨e2, h2, h3, _⟩ := fillDiag_ok (fs []) he
    cases h2
    have b1 : one.bt = [] := by rw [← ho]; rfl
    have b2 : (diagC e).bt = [] := by show e.sh.tail = []; rw [h3, hs]; rfl
    simp only [den, zipB_bt, mm_bt, tr_bt, b1, b2]
    show bsh d.sh.tail [] = d.sh.tail
    simp
  have ow := vw.own
  rw [ew, hT] at ow
  generalize hU : d.sh.tail = T at *
  have hn' : 0 ∉ T := by rw [← hU]; exact fun h => hn (List.mem_of_mem_tail h)
  have hc : d.cols ≠ 0 := by
    intro h0
    have : 0 < dim d.sh 0 := dim_pos hn 0
    exact absurd h0 (Nat.pos_iff_ne_zero.1 this)
  have Rd : VRep T d.cols d d.vat := VRep.self h1 (by rw [hU]; exact Fits.refl _)
  have Rv := recip_vrep Rd.good
  have inner : ∀ {x : Tensor K} {f : Idx → ℕ → K} {q : Tensor K} {h : Idx → ℕ → ℕ → K}, VRep T d.cols x f → Rep T d.cols 1 q h →
      Rep T d.cols 1 (mm (diagC x) q) fun β i j => f β i * h β i j := by
    intro x f q h hx hq
    refine ((Rep.diagC hx).mm hq).congr fun β i j hβ hi hj => ?_
    simp only [ite_mul, zero_mul]
    rw [Finset.sum_ite_eq, if_pos (Finset.mem_range.2 hi)]
  have one1 : ∀ {u w : Tensor K}, u = mm (diagC (zipB (· / ·) (scalarT 1) d)) one → w = mm (diagC d) u → Rep T d.cols 1 w fun _ _ _ => 1 := by
    rintro u w rfl rfl
    refine (inner Rd (inner Rv (R1 T))).congr fun β i j hβ hi hj => ?_
    have : d.vat β i ≠ 0 := d0 _ (by
      rw [Rd.sh]
      exact inRange_cons.2 ⟨hi, by rw [hU]; exact hβ⟩)
    field_simp
  have W1 := one1 eu1 ew1
  have W2 := one1 eu2 ew2
  obtain ⟨⟨_, _⟩, ⟨ww1, ww2, ww3⟩, ⟨k1, k2, k3⟩, ⟨q1, q2⟩, q3, q4⟩ := ow
  have W3 : Rep T 1 1 w3 w3.at' := Rep.self' k3 (q1.symm.trans W1.cols) (q2.symm.trans W2.cols) (ww3.good k3).fits
  have LW := (W1.mm W3).mm W2.tr
  have LY := ((R1 T).mm (Rep.diagC (ve (fs T)))).mm (R1 T).tr
  have val : ∀ β, InRange T β → w3.at' β 0 0 = s.get β := by
    intro β hβ
    have a1 := ((Rep.diagC Rd).zipB (· + ·) LW).at' β 0 0 hβ (by omega) (by omega)
    have a2 := ((Rep.diagC Rd).zipB (· + ·) LY).at' β 0 0 hβ (by omega) (by omega)
    have := a1.symm.trans ((congrArg (fun t => Tensor.at' t β 0 0) ew).trans a2)
    simpa using this
  -- the last step
  have hm : ∃ f, fillDiag (tneg s) 1 = .ok (.diag f) ∧ f.sh = [1] ∧ ∀ β, InRange T β → f.vat β 0 = - s.get β := by
    have ok : ∃ x, fillDiag (tneg s) 1 = .ok x := by
      refine ⟨.diag (zipB (· * ·) (expandEnd 1 (tneg s)) (fillT (1 :: (tneg s).sh) 1)), ?_⟩
      have e : (expandEnd 1 (tneg s)).sh = 1 :: (tneg s).sh := expandEnd_one_sh _
      simp only [fillDiag, bind_ok_iff, nMul_ok, mkDiag_ok]
      refine ⟨_, ⟨by rw [e]; exact Compat.refl _, rfl⟩, ?_, rfl⟩
      simp [Tensor.rank, e]
    obtain ⟨x, hx⟩ := ok
    have ts : (tneg s).sh = s.sh := rfl
    obtain ⟨f, rfl, sf, vf⟩ := fillDiag_ok (S := []) (by rw [ts]; exact fs _) hx
    refine ⟨f, hx, by rw [sf, ts, hs], fun β hβ => ?_⟩
    rw [(vf (T := T) (by rw [ts]; exact fs T)).vat β 0 hβ (by omega)]
    exact tmap_get _ hβ (fs T)
  obtain ⟨f, hf, sf, vf⟩ := hm
  have cv : convertAM c.code (.num s) = .const s 1 1 := by
    simp only [convertAM, Tensor.rank, hs, List.length_nil, if_true]
    rw [if_neg (by tauto)]
  have wlr : (Mat.lr (.dense w1) (.dense w2) (.dense w3)).WF T := ⟨⟨ww1, ww2, ww3⟩, ⟨k1, k2, k3⟩, q1, q2⟩
  have rf : 1 ≤ f.rank := by simp [Tensor.rank, sf]
  have wrr : ∀ T, (Mat.lr (.num one) (.num one) (.diag f)).WF T := fun T => by
    have r1 := (R1 []).rank
    refine ⟨⟨⟨by omega, (R1 _).bt⟩, ⟨by omega, (R1 _).bt⟩, ⟨rf, by rw [sf]; exact Fits.nil _⟩⟩, ⟨r1, r1, by simp [den, Tensor.rank]⟩, ?_, ?_⟩
    · show one.cols = f.cols; rw [(R1 []).cols]; simp [Tensor.cols, sf]
    · show one.cols = f.cols; rw [(R1 []).cols]; simp [Tensor.cols, sf]
  have bl : Fits T (den (.lr (.dense w1) (.dense w2) (.dense w3))).bt ∧ (den (.lr (.dense w1) (.dense w2) (.dense w3))).bt.length ≤ T.length := by
    refine ⟨wlr.fits, ?_⟩
    have e : bsh T (den (.lr (.dense w1) (.dense w2) (.dense w3))).bt = T := by
      have := congrArg Tensor.bt ew
      rw [hT] at this
      refine Eq.trans ?_ this
      simp only [den, zipB_bt, mm_bt, tr_bt]
      rw [show (diagC d).bt = T from hU]
    have := congrArg List.length e
    rw [length_bsh] at this
    omega
  have br : (den (.lr (.num one) (.num one) (.diag f))).bt = [] := by
    have b1 : one.bt = [] := by rw [← ho]; rfl
    have b2 : (diagC f).bt = [] := by show f.sh.tail = []; rw [sf]; rfl
    simp only [den, mm_bt, tr_bt, b1, b2]; rfl
  have sl : (Mat.lr (.dense w1) (.dense w2) (.dense w3)).Supported := by
    exact ⟨⟨T, wlr⟩, ⟨trivial, trivial, trivial⟩, bl.1.pos hn'⟩
  have sr : (Mat.lr (.num one) (.num one) (.diag f)).Supported := by
    exact ⟨⟨[], wrr []⟩, ⟨trivial, trivial, trivial⟩, by rw [br]; simp⟩
  have op : Opposite (.dense w1) (.dense w2) (.dense w3) (.num one) (.num one) (.diag f) := by
    have up : ∀ β, InRange (bsh (den (.lr (.dense w1) (.dense w2) (.dense w3))).bt (den (.lr (.num one) (.num one) (.diag f))).bt) β → InRange T β := fun β hβ => by
      rw [br, bsh_nil_right] at hβ
      exact hβ.up bl.1 hn'
    refine ⟨⟨W1.rows.trans (R1 T).rows.symm, W1.cols.trans (R1 T).cols.symm, fun β hβ x hx p hp => ?_⟩, ⟨W2.rows.trans (R1 T).rows.symm, W2.cols.trans (R1 T).cols.symm, fun β hβ x hx p hp => ?_⟩, fun β hβ p hp q hq => ?_⟩
    · have hx : x < d.cols := by rw [← W1.rows]; exact hx
      have hp : p < 1 := by rw [← W1.cols]; exact hp
      exact (W1.at' β x p (up β hβ) hx hp).trans ((R1 T).at' β x p (up β hβ) hx hp).symm
    · have hx : x < d.cols := by rw [← W2.rows]; exact hx
      have hp : p < 1 := by rw [← W2.cols]; exact hp
      exact (W2.at' β x p (up β hβ) hx hp).trans ((R1 T).at' β x p (up β hβ) hx hp).symm
    · have hp : p < 1 := by rw [← W3.rows]; exact hp
      have hq : q < 1 := by rw [← W3.cols]; exact hq
      obtain rfl : p = 0 := by omega
      obtain rfl : q = 0 := by omega
      have fc : f.cols = 1 := by simp [Tensor.cols, sf]
      have RF := Rep.diagC (S := T) (VRep.self rf (by rw [sf]; exact Fits.nil _))
      have a1 := RF.at' β 0 0 (up β hβ) (by omega) (by omega)
      have a1 : (den (.diag f : Mat K)).at' β 0 0 = _ := a1
      rw [a1, if_pos rfl, vf β (up β hβ)]
      show w3.at' β 0 0 + _ = 0
      rw [val β (up β hβ), add_neg_cancel]
  obtain ⟨n, h⟩ := C52_lowrank_cancel c ht sl sr (by unfold BatchCompat; rw [br]; exact Compat.nil_right _) ⟨trivial, trivial, trivial⟩ ⟨trivial, trivial, trivial⟩ op
    (by rw [show (den (.dense w1 : Mat K)) = w1 from rfl, W1.rows]; exact hc) (by rw [show (den (.dense w2 : Mat K)) = w2 from rfl, W2.rows]; exact hc)
    (by rw [show (den (.dense w1 : Mat K)) = w1 from rfl, W1.cols]; exact one_ne_zero) (by rw [show (den (.dense w2 : Mat K)) = w2 from rfl, W2.cols]; exact one_ne_zero)
  cases n with
  | zero => cases h
  | succ n =>
  refine ⟨n + 3, ?_⟩
  have e1 : subtractM c.code (ops c.code (n+3)) (.wb d (.dense w1) (.dense w2) (.dense w3)) (.num s) =
      (ops c.code (n+3)).add (.wb d (.dense w1) (.dense w2) (.dense w3)) (.const (tneg s) 1 1) := by
    show (negativeM (convertAM c.code (.num s)) >>= fun x => _) = _
    rw [cv]; rfl
  have e2 : (ops c.code (n+2)).add (.lr (.dense w1) (.dense w2) (.dense w3)) (.const (tneg s) 1 1) =
      (ops c.code (n+1)).add (.lr (.dense w1) (.dense w2) (.dense w3)) (.lr (.num one) (.num one) (.diag f)) := by
    show addRun c.code (ops c.code (n+1)) .lrConst (.lr (.dense w1) (.dense w2) (.dense w3)) (.const (tneg s) 1 1) = _
    have wc : (Mat.const (tneg s) 1 1).WF T := (fs T : Fits T (tneg s).sh)
    have hc' : shapeMatrixBroadcast (.lr (.dense w1) (.dense w2) (.dense w3)) (.const (tneg s) 1 1) = .ok (d.cols, d.cols) := by
      have ec : (den (.lr (.dense w1) (.dense w2) (.dense w3))).cols = d.cols := LW.cols
      have er : (den (.lr (.dense w1) (.dense w2) (.dense w3))).rows = d.cols := LW.rows
      have ec' : (den (.const (tneg s) 1 1)).cols = 1 := rfl
      have er' : (den (.const (tneg s) 1 1)).rows = 1 := rfl
      simp only [shapeMatrixBroadcast, wlr.shapeMatrix, wc.shapeMatrix, bind_ok_iff, Except.ok.injEq, exists_eq_left', bsE_ok, pure_eq_ok, ec, er, ec', er']
      refine ⟨_, ⟨?_, rfl⟩, ?_⟩
      · simp [compat_cons, Compat.nil_left]
      · simp
    simp only [addRun, hc', constToLR]
    obtain ⟨⟨x1, x2, x3⟩, x4, x5, x6⟩ := wrr T
    show ((fillDiag (tneg s) 1 >>= fun middle => mkLR (.num (fillT [1, d.cols] 1)) (.num (fillT [1, d.cols] 1)) middle) >>= fun lr => _) = _
    rw [hf, ho]
    show (mkLR (.num one) (.num one) (.diag f) >>= fun lr => _) = _
    rw [mkLR_ok x1 x2 x3 x4 x5 x6]
    rfl
  show subtractM c.code (ops c.code (n+3)) (.wb d (.dense w1) (.dense w2) (.dense w3)) (.num s) = _
  rw [e1]
  show ((ops c.code (n+2)).add (.lr (.dense w1) (.dense w2) (.dense w3)) (.const (tneg s) 1 1) >>= fun y => (ops c.code (n+2)).add (.diag d) y) = _
  have h' : (ops c.code (n+1)).add (.lr (.dense w1) (.dense w2) (.dense w3)) (.lr (.num one) (.num one) (.diag f)) = _ := h
  rw [e2, h']
  have dn : (den (.diag d)).rank = T.length + 2 := by rw [← hU]; simp [den, Tensor.rank]
  refine add_diag_zero c hd ?_ ?_
  · intro k
    match k with
    | 0 => right; exact W2.rows
    | 1 => right; exact W1.rows
    | k+2 =>
      show dim (bsh _ _) k = 1 ∨ dim (bsh _ _) k = dim d.sh.tail k
      rw [br, bsh_nil_right, hU]
      exact bl.1 k
  · rw [dn, br, bsh_nil_right]
    have := bl.2
    omega

/-- C52.  The same with the first line of the README, `2 * d`: `inv(inv(p * d + s)) - s` is `p * d`, for any number `p`. -/
theorem C52_readme_scaled (c : Cfg K) (ht : 0 < c.tol) {lin : LinEnv K} (hl : lin.Lawful) {d p s : Tensor K} {x y z w : Mat K} (hd : (Mat.diag d).Valid) (hn : 0 ∉ d.sh)
    (hp : p.sh = []) (hp0 : p.get (fun _ => 0) ≠ 0) (hs : s.sh = []) (hs0 : s.get (fun _ => 0) ≠ 0) (hx : Returns c (fun B => B.mul (.num p) (.diag d)) x)
    (hy : Returns c (fun B => B.add x (.num s)) y) (hz : LReturns c lin (fun _ L => L.inv y) z) (hw : LReturns c lin (fun _ L => L.inv z) w) :
    x = .diag (tmap (p.get (fun _ => 0) * ·) d) ∧ Returns c (fun B => subtractM c.code B w (.num s)) x := by
  have ex : x = .diag (tmap (p.get (fun _ => 0) * ·) d) := by
    have cv : convertAM c.code (.num p) = .const p 1 1 := by
      simp only [convertAM, Tensor.rank, hp, List.length_nil, if_true]
      rw [if_neg (by tauto)]
    obtain ⟨n, h⟩ := hx
    cases n with
    | zero => cases h
    | succ n =>
      change stepMul c.code (ops c.code n) (.num p) (.diag d) = _ at h
      have st : stepMul c.code (ops c.code n) (.num p) (.diag d) = mulRun (ops c.code n) .constDiag (.const p 1 1) (.diag d) := by
        show (match (convertAM c.code (.num p)).kind, (Mat.diag d).kind with
          | some ka, some kb => mulRun (ops c.code n) (mulId ka kb) (convertAM c.code (.num p)) (.diag d)
          | _, _ => .error .notFound) = _
        rw [cv]; rfl
      rw [st] at h
      simp only [mulRun, bind_ok_iff, mkDiag_ok, nMul_ok] at h
      obtain ⟨_, _, _, _, _, _, _, ⟨_, rfl⟩, _, rfl⟩ := h
      have e : expandIgn 1 p = p := by simp [expandIgn, Tensor.rank, hp]
      rw [e]
      congr 1
      have h1 : 1 ≤ d.rank := hd.own.1
      refine Tensor.ext_inRange (by simp [hp]) fun i hi => ?_
      have hi : InRange d.sh i := by simpa [hp] using hi
      have fp : Fits d.sh p.sh := by rw [hp]; exact Fits.nil _
      rw [zipB_get _ hi fp (Fits.refl _), tmap_get _ hi (Fits.refl _)]
      congr 1
      rw [← p.get_clip i]
      congr 1
      funext k
      simp [clip, hp]
  refine ⟨ex, ?_⟩
  subst ex
  have vd : (Mat.diag (tmap (p.get (fun _ => 0) * ·) d)).Valid := ⟨_, hd.own.1, hd.own.2⟩
  exact C52_readme c ht hl vd hn hs hs0 hy hz hw

/-! ### Subtracting a matrix from itself -/

/-- The negative of a LowRank matrix shares its outer factors. -/
theorem negative_lr {l r m : Mat K} (ha : (Mat.lr l r m).Supported) (hw : (Mat.lr l r m).wo true) :
    ∃ m', negativeM (.lr l r m) = .ok (.lr l r m') ∧ den m' = tneg (den m) ∧ (Mat.lr l r m').Supported ∧ (Mat.lr l r m').wo true ∧ den (.lr l r m') = tneg (den (.lr l r m)) := by
  obtain ⟨x, hx, fx, _⟩ := negativeM_keeps ha.valid.own ha.fit
  obtain ⟨wx, dx, _⟩ := negativeM_ok ha.valid.own hx
  have wx' := wop_negativeM hw x hx
  have hx' := hx
  simp only [negativeM, bind_ok_iff] at hx
  obtain ⟨m', hm, h⟩ := hx
  have wm : (m : Mat K).WF _ := ha.valid.own.1.2.2
  obtain ⟨_, dm, _⟩ := negativeM_ok wm hm
  have e : x = .lr l r m' := by
    simp only [mkLR, bind_ok_iff, pure_eq_ok] at h
    obtain ⟨_, _, _, _, _, _, _, _, _, _, _, _, _, _, _, _, _, h⟩ := h
    exact h.2.symm
  subst e
  exact ⟨m', hx', dm, ⟨⟨_, wx⟩, fx, by rw [dx]; exact ha.batch⟩, wx', dx⟩

theorem opposite_self {l r m m' : Mat K} {S : Shp} (hm : Fits S (den m).bt) (h2 : 2 ≤ (den m).rank) (d : den m' = tneg (den m))
    (hS : bsh (den (.lr l r m)).bt (den (.lr l r m')).bt = S) : Opposite l r m l r m' := by
  refine ⟨⟨rfl, rfl, fun _ _ _ _ _ _ => rfl⟩, ⟨rfl, rfl, fun _ _ _ _ _ _ => rfl⟩, fun β hβ p hp q hq => ?_⟩
  rw [hS] at hβ
  rw [d, (tneg_rep (Rep.self h2 hm)).at' β p q hβ hp hq, add_neg_cancel]

/-- C52.  `a - a` is the Zero matrix for a LowRank matrix `a`. -/
theorem C52_lowrank_self (c : Cfg K) (ht : 0 < c.tol) {l r m : Mat K} (ha : (Mat.lr l r m).Supported) (hw : (Mat.lr l r m).wo true)
    (hl : (den l).rows ≠ 0) (hr : (den r).rows ≠ 0) (hl' : (den l).cols ≠ 0) (hr' : (den r).cols ≠ 0) :
    Returns c (fun B => subtractM c.code B (.lr l r m) (.lr l r m)) (.zero (den (.lr l r m)).bt (den l).rows (den r).rows) := by
  obtain ⟨m', e, d, ha', hw', da⟩ := negative_lr ha hw
  have hb : (den (.lr l r m')).bt = (den (.lr l r m)).bt := by rw [da]; rfl
  have op : Opposite l r m l r m' := opposite_self ha.valid.own.1.2.2.fits ha.valid.own.2.1.2.2 d (by rw [hb, bsh_self])
  obtain ⟨n, h⟩ := C52_lowrank_cancel c ht ha ha' (by unfold BatchCompat; rw [hb]; exact Compat.refl _) hw hw' op hl hr hl' hr'
  rw [hb, bsh_self] at h
  refine ⟨n, ?_⟩
  show (negativeM (.lr l r m) >>= fun x => _) = _
  rw [e]
  exact h

/-! ### Concrete cases -/

namespace Ex

/-- The result of a run. -/
def out (x : E (Mat ℚ)) : Mat ℚ :=
  match x with
  | .ok r => r
  | .error _ => .num (scalarT 0)

theorem out_ok {x : E (Mat ℚ)} (h : isOk x = true) : x = .ok (out x) := by
  cases x with
  | ok r => rfl
  | error e => simp [isOk] at h

/-- The diagonal `(5, 7, 11)`. -/
def dRd : Tensor ℚ := v [5, 7, 11]
/-- `d + 1`. -/
def yRd : Mat ℚ := out ((ops cfg.code 6).add (.diag dRd) (.num (scalarT 1)))
/-- `inv(d + 1)`. -/
def zRd : Mat ℚ := out ((lops cfg.code lin (ops cfg.code 8) 8).inv yRd)
/-- `inv(inv(d + 1))`. -/
def wRd : Mat ℚ := out ((lops cfg.code lin (ops cfg.code 8) 8).inv zRd)

theorem yRd_ok : Returns cfg (fun B => B.add (.diag dRd) (.num (scalarT 1))) yRd := ⟨6, out_ok (by decide +kernel)⟩
theorem zRd_ok : LReturns cfg lin (fun _ L => L.inv yRd) zRd := ⟨8, 8, out_ok (by decide +kernel)⟩
theorem wRd_ok : LReturns cfg lin (fun _ L => L.inv zRd) wRd := ⟨8, 8, out_ok (by decide +kernel)⟩

/-- The diagonal comes back. -/
example : Returns cfg (fun B => subtractM cfg.code B wRd (.num (scalarT 1))) (.diag dRd) :=
  C52_readme cfg (by norm_num [cfg]) lin_lawful ⟨[], le_refl _, Fits.nil _⟩ (by decide) rfl one_ne_zero yRd_ok zRd_ok wRd_ok

/-- `2 * d` for the diagonal `(1, 2)`, and the rest of the pipeline. -/
def xRd : Mat ℚ := out ((ops cfg.code 6).mul (.num (scalarT 2)) (.diag (v [1, 2])))
def y2Rd : Mat ℚ := out ((ops cfg.code 6).add xRd (.num (scalarT 3)))
def z2Rd : Mat ℚ := out ((lops cfg.code lin (ops cfg.code 8) 8).inv y2Rd)
def w2Rd : Mat ℚ := out ((lops cfg.code lin (ops cfg.code 8) 8).inv z2Rd)
example : xRd = .diag (tmap (2 * ·) (v [1, 2])) ∧ Returns cfg (fun B => subtractM cfg.code B w2Rd (.num (scalarT 3))) xRd :=
  C52_readme_scaled (p := scalarT 2) (s := scalarT 3) cfg (by norm_num [cfg]) lin_lawful (y := y2Rd) (z := z2Rd) ⟨[], le_refl _, Fits.nil _⟩ (by decide) rfl (two_ne_zero (α := ℚ)) rfl (three_ne_zero (α := ℚ))
    ⟨6, out_ok (by decide +kernel)⟩ ⟨6, out_ok (by decide +kernel)⟩ ⟨8, 8, out_ok (by decide +kernel)⟩ ⟨8, 8, out_ok (by decide +kernel)⟩

/-- The opposite of `R`. -/
def Rneg : Mat ℚ := .lr (.num (m 2 1 [1, 2])) (.num (m 2 1 [3, 4])) (.num (m 1 1 [-2]))
theorem Rneg_wf (S) : Rneg.WF S := ⟨⟨num_wf _ _ _ _, num_wf _ _ _ _, num_wf _ _ _ _⟩, ⟨le_refl _, le_refl _, le_refl _⟩, rfl, rfl⟩
theorem R_opposite : Opposite (.num (m 2 1 [1, 2])) (.num (m 2 1 [3, 4])) (.num (m 1 1 [2])) (.num (m 2 1 [1, 2])) (.num (m 2 1 [3, 4])) (.num (m 1 1 [-2])) := by
  refine ⟨⟨rfl, rfl, fun β x p _ _ _ => rfl⟩, ⟨rfl, rfl, fun β x p _ _ _ => rfl⟩, fun β hβ p hp q hq => ?_⟩
  have hp : p < 1 := hp
  have hq : q < 1 := hq
  obtain rfl : p = 0 := by omega
  obtain rfl : q = 0 := by omega
  have : InRange [1, 1] (icons 0 (icons 0 β)) := by
    rw [inRange_cons]; refine ⟨by decide, ?_⟩; rw [inRange_cons]; exact ⟨by decide, hβ⟩
  show (m 1 1 [2]).at' β 0 0 + (m 1 1 [-2]).at' β 0 0 = 0
  rw [Tensor.at', Tensor.at', m, m, ofFn_get _ this, ofFn_get _ this]
  show (2 : ℚ) + -2 = 0
  norm_num
example : Returns cfg (fun B => B.add R Rneg) (.zero [] 2 2) :=
  C52_lowrank_cancel cfg (by norm_num [cfg]) ⟨⟨[], R_wf _⟩, ⟨trivial, trivial, trivial⟩, by decide⟩ ⟨⟨[], Rneg_wf _⟩, ⟨trivial, trivial, trivial⟩, by decide⟩ (Compat.refl _)
    ⟨trivial, trivial, trivial⟩ ⟨trivial, trivial, trivial⟩ R_opposite (by decide) (by decide) (by decide) (by decide)
example : Returns cfg (fun B => B.add W Rneg) (.diag (v [5, 7])) :=
  C52_woodbury_cancel cfg (by norm_num [cfg]) ⟨[], le_refl _, Fits.nil _⟩ ⟨⟨[], R_wf _⟩, ⟨trivial, trivial, trivial⟩, by decide⟩ ⟨⟨[], Rneg_wf _⟩, ⟨trivial, trivial, trivial⟩, by decide⟩ (Compat.refl _)
    ⟨trivial, trivial, trivial⟩ ⟨trivial, trivial, trivial⟩ R_opposite (by decide) (by decide) (by decide) (by decide) (Fits.nil _) (by decide) rfl rfl

example : Returns cfg (fun B => subtractM cfg.code B R R) (.zero [] 2 2) :=
  C52_lowrank_self cfg (by norm_num [cfg]) R_supported ⟨trivial, trivial, trivial⟩ (by decide) (by decide) (by decide) (by decide)

end Ex

end Verif
