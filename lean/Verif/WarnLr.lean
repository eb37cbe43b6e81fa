/-
C44: products of LowRank matrices do not warn needlessly.
-/
import Verif.Tight
import Verif.Rank3

set_option linter.unusedSectionVars false

namespace Verif

variable {K : Type} [Field K] [LinearOrder K] {env : Env K}

/-- An array with rows and columns, or a Dense matrix. -/
def Mat.ArrLike (a : Mat K) : Prop := ∃ t, a.IsArray t

/-- An array, a Dense or a Diagonal matrix. -/
def Mat.ArrLikeDiag (a : Mat K) : Prop := a.ArrLike ∨ a.kind = some .diag

theorem Mat.ArrLike.conv {a : Mat K} (h : a.ArrLike) : (convertAM env a).kind = some .dense := by
  obtain ⟨t, ⟨rfl, h⟩ | rfl⟩ := h
  · have : t.rank ≠ 0 := by omega
    simp [convertAM, this, mkDense, Mat.kind]
  · rfl
theorem Mat.ArrLike.plain {a : Mat K} (h : a.ArrLike) : a.structured = false := by
  obtain ⟨t, ⟨rfl, h⟩ | rfl⟩ := h <;> rfl
theorem Mat.ArrLike.dense {a : Mat K} (h : a.ArrLike) (n : ℕ) : (wops env n).dense a = (ops env n).dense a := by
  obtain ⟨t, ⟨rfl, h⟩ | rfl⟩ := h <;> cases n <;> rfl
theorem Mat.ArrLikeDiag.conv {a : Mat K} (h : a.ArrLikeDiag) : (convertAM env a).kind = some .dense ∨ (convertAM env a).kind = some .diag := by
  rcases h with h | h
  · exact .inl h.conv
  · exact .inr (by rw [convertAM_of_kind h]; exact h)
theorem Mat.ArrLikeDiag.tri {a : Mat K} (h : a.ArrLikeDiag) : TriRk a := by
  rcases h with ⟨t, ⟨rfl, h⟩ | rfl⟩ | h
  · trivial
  · trivial
  · cases a <;> simp [Mat.kind] at h; trivial
theorem kindC_of_conv {a : Mat K} {k : Kind} (h : (convertAM env a).kind = some k) : kindC env a = k := by simp [kindC, h]

theorem Mat.ArrLike.trans {a b : Mat K} (h : a.ArrLike) (e : transposeM a = .ok b) : b.ArrLike := by
  obtain ⟨t, ⟨rfl, h⟩ | rfl⟩ := h
  · cases e
    refine ⟨nTranspose t, .inl ⟨rfl, ?_⟩⟩
    unfold nTranspose
    split_ifs
    simp [Tensor.rank, tr]
  · cases e
    exact ⟨upT (nTranspose t), .inr rfl⟩
theorem Mat.ArrLikeDiag.trans {a b : Mat K} (h : a.ArrLikeDiag) (e : transposeM a = .ok b) : b.ArrLikeDiag := by
  rcases h with h | h
  · exact .inl (h.trans e)
  · cases a <;> simp [Mat.kind] at h
    cases e
    exact .inr rfl

/-- The product of two such matrices, not both Diagonal, is an array or Dense matrix, computed without a warning. -/
theorem warr_mm (n : ℕ) {ta tb : Bool} {a b y : Mat K} (ha : a.ArrLikeDiag) (hb : b.ArrLikeDiag) (hab : a.ArrLike ∨ b.ArrLike) (h : (ops env n).matmul ta tb a b = .ok y) :
    (wops env n).matmul ta tb a b = .ok y ∧ y.ArrLike := by
  by_cases hn : a.isAM = true ∨ b.isAM = true
  · have ka := ha.conv (env := env)
    have kb := hb.conv (env := env)
    have hd : (convertAM env a).kind = some .dense ∨ (convertAM env b).kind = some .dense := hab.imp Mat.ArrLike.conv Mat.ArrLike.conv
    have key : ∀ k k' : Kind, (convertAM env a).kind = some k → (convertAM env b).kind = some k' → k.single → k'.single → ¬MixTri ta tb k k' → (∀ q ∈ mmOut ta tb k k', q = .dense) →
        (wops env n).matmul ta tb a b = .ok y ∧ y.ArrLike := by
      intro k k' ka kb sa sb hm ho
      obtain ⟨k2, h2, h3⟩ := ops_mmKinds env n ta tb a b hn ha.tri hb.tri y h
      rw [kindC_of_conv ka, kindC_of_conv kb] at h2
      refine ⟨?_, ?_⟩
      · rw [wops_matmul_convert n hn, mm_eq n ka kb (triRk_convert ha.tri) (triRk_convert hb.tri) sa sb hm, ← ops_matmul_convert n hn]
        exact h
      · rw [ho k2 h2] at h3
        cases y <;> simp [Mat.kind] at h3
        exact ⟨_, .inr rfl⟩
    rcases ka with ka | ka <;> rcases kb with kb | kb
    · exact key _ _ ka kb trivial trivial (by unfold MixTri; simp) (by cases ta <;> cases tb <;> decide)
    · exact key _ _ ka kb trivial trivial (by unfold MixTri; simp) (by cases ta <;> cases tb <;> decide)
    · exact key _ _ ka kb trivial trivial (by unfold MixTri; simp) (by cases ta <;> cases tb <;> decide)
    · rw [ka, kb] at hd; simp at hd
  · push Not at hn
    cases a <;> simp [Mat.isAM] at hn
    cases b <;> simp [Mat.isAM] at hn
    rename_i s t
    cases n with
    | zero => cases h
    | succ n =>
      have h' : (do return Mat.num (← nMatmul ta tb s t)) = .ok y := h
      refine ⟨h', ?_⟩
      obtain ⟨r, hr, h'⟩ := bind_ok_iff.1 h'
      cases h'
      exact ⟨r, .inl ⟨rfl, nMatmul_rank2 hr⟩⟩

theorem warr_mm3 (n : ℕ) {a b c y : Mat K} (ha : a.ArrLikeDiag) (hb : b.ArrLike) (hc : c.ArrLikeDiag) (h : matmul3 (ops env n) false false false a b c = .ok y) :
    matmul3 (wops env n) false false false a b c = .ok y ∧ y.ArrLike := by
  unfold matmul3 at h ⊢
  obtain ⟨sa, h1, h⟩ := bind_ok_iff.1 h
  obtain ⟨sb, h2, h⟩ := bind_ok_iff.1 h
  obtain ⟨sc, h3, h⟩ := bind_ok_iff.1 h
  simp only [h1, h2, h3, bind, Except.bind] at h ⊢
  split_ifs at h ⊢
  · obtain ⟨p, h4, h⟩ := bind_ok_iff.1 h
    obtain ⟨h5, h6⟩ := warr_mm n ha (.inl hb) (.inr hb) h4
    simp only [h5]
    exact warr_mm n (.inl h6) hc (.inl h6) h
  · obtain ⟨p, h4, h⟩ := bind_ok_iff.1 h
    obtain ⟨h5, h6⟩ := warr_mm n (.inl hb) hc (.inl hb) h4
    simp only [h5]
    exact warr_mm n ha (.inl h6) (.inr h6) h

/-- What `_tr` makes of a LowRank matrix with plain factors. -/
theorem trM_lr_arr {t : Bool} {l r m y : Mat K} (hl : l.ArrLike) (hr : r.ArrLike) (hm : m.ArrLikeDiag) (h : trM t (.lr l r m) = .ok y) :
    ∃ l' r' m', y = .lr l' r' m' ∧ l'.ArrLike ∧ r'.ArrLike ∧ m'.ArrLikeDiag := by
  cases t with
  | false => cases h; exact ⟨l, r, m, rfl, hl, hr, hm⟩
  | true =>
    have h' : (do let m' ← transposeM m; mkLR r l m') = .ok y := h
    obtain ⟨m', h1, h2⟩ := bind_ok_iff.1 h'
    simp only [mkLR, bind_ok_iff] at h2
    obtain ⟨_, _, _, _, _, _, _, _, _, _, _, _, _, _, _, _, _, _, h2⟩ := h2
    cases h2
    exact ⟨r, l, m', rfl, hr, hl, hm.trans h1⟩

/-- C44.  No needless warning: the product of LowRank matrices whose outer factors are arrays or Dense matrices and whose middle factors are arrays, Dense or Diagonal (the default) never warns, even where the
middle factor of the result is a single number and is made Diagonal. -/
theorem C44_matmul_lowrank (c : Cfg K) {ta tb : Bool} {al ar am bl br bm res : Mat K} (hal : al.ArrLike) (har : ar.ArrLike) (ham : am.ArrLikeDiag) (hbl : bl.ArrLike) (hbr : br.ArrLike) (hbm : bm.ArrLikeDiag)
    (h : Returns c (fun B => B.matmul ta tb (.lr al ar am) (.lr bl br bm)) res) : Quiet c (fun B => B.matmul ta tb (.lr al ar am) (.lr bl br bm)) res := by
  obtain ⟨n, h⟩ := h
  refine ⟨n, ?_⟩
  cases n with
  | zero => cases h
  | succ n =>
    have h' : matmulLRLR (ops c.code n) ta tb (.lr al ar am) (.lr bl br bm) = .ok res := h
    show (wops c.code (n+1)).matmul ta tb (.lr al ar am) (.lr bl br bm) = .ok res
    rw [wMatmul_am (k := .lr) (k' := .lr) rfl rfl (m := .lrLr) rfl]
    show wMatmulLRLR (wops c.code n) ta tb (.lr al ar am) (.lr bl br bm) = .ok res
    unfold matmulLRLR at h'
    unfold wMatmulLRLR
    obtain ⟨_, h1, h'⟩ := bind_ok_iff.1 h'
    obtain ⟨a', h2, h'⟩ := bind_ok_iff.1 h'
    obtain ⟨b', h3, h'⟩ := bind_ok_iff.1 h'
    refine bind_ok_iff.2 ⟨_, h1, bind_ok_iff.2 ⟨_, h2, bind_ok_iff.2 ⟨_, h3, ?_⟩⟩⟩
    obtain ⟨al', ar', am', rfl, _, har', ham'⟩ := trM_lr_arr hal har ham h2
    obtain ⟨bl', br', bm', rfl, hbl', _, hbm'⟩ := trM_lr_arr hbl hbr hbm h3
    obtain ⟨p, h4, h'⟩ := bind_ok_iff.1 h'
    obtain ⟨q, h5, h'⟩ := bind_ok_iff.1 h'
    obtain ⟨s, h6, h'⟩ := bind_ok_iff.1 h'
    obtain ⟨h7, hp⟩ := warr_mm n (.inl har') (.inl hbl') (.inl har') h4
    obtain ⟨h8, hq⟩ := warr_mm3 n ham' hp hbm' h5
    refine bind_ok_iff.2 ⟨_, h7, bind_ok_iff.2 ⟨_, h8, bind_ok_iff.2 ⟨_, h6, ?_⟩⟩⟩
    rw [hq.plain, hq.dense]
    exact h'

/-- The product of two LowRank matrices of rank one, one of them with a Diagonal middle factor. -/
example : ∃ r, Quiet Ex.cfg (fun B => B.matmul true false Ex.R (.lr (.num (Ex.m 2 1 [1, 2])) (.dense (Ex.m 2 1 [5, 6])) (.diag (Ex.v [3])))) r := by
  obtain ⟨r, h, _⟩ := Ex.meets (Calls.matmul true false Ex.R (.lr (.num (Ex.m 2 1 [1, 2])) (.dense (Ex.m 2 1 [5, 6])) (.diag (Ex.v [3])))) (n := 10) (by decide +kernel)
  exact ⟨r, C44_matmul_lowrank Ex.cfg ⟨_, .inl ⟨rfl, by decide⟩⟩ ⟨_, .inl ⟨rfl, by decide⟩⟩ (.inl ⟨_, .inl ⟨rfl, by decide⟩⟩) ⟨_, .inl ⟨rfl, by decide⟩⟩ ⟨_, .inr rfl⟩ (.inr rfl) h⟩

end Verif
