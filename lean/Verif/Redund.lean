import Verif.RedundModel
import Verif.Drop
import Mathlib.Analysis.Matrix.Order

/-!
# Dropping coefficients does not change the fit (property C143)
-/

namespace Verif.Red
open Verif.Drop Matrix

variable {n : ℕ}

/-- The rows and columns kept have a null vector. -/
def Singular (M : Matrix (Fin n) (Fin n) ℝ) (keep : List ℕ) : Prop :=
  ∃ v : Fin n → ℝ, v ≠ 0 ∧ (∀ i : Fin n, (i : ℕ) ∉ keep → v i = 0) ∧ ∀ i : Fin n, (i : ℕ) ∈ keep → (M *ᵥ v) i = 0

/-- Decompositions in exact arithmetic: the pivoted QR decomposition finds independent columns that span the others; the check accepts matrices
without null vector; the vector of the smallest singular value of a singular matrix is a null vector. -/
structure Exact (e : Ext n) (M : Matrix (Fin n) (Fin n) ℝ) : Prop where
  perm : (e.qr M).1.Perm (List.range n)
  rank_le : (e.qr M).2 ≤ n
  indep : ∀ v : Fin n → ℝ, (∀ i : Fin n, (i : ℕ) ∈ (e.qr M).1.drop (e.qr M).2 → v i = 0) → M *ᵥ v = 0 → v = 0
  span : ∀ c : Fin n, (c : ℕ) ∈ (e.qr M).1.drop (e.qr M).2 →
    ∃ v : Fin n → ℝ, (∀ i : Fin n, (i : ℕ) ∈ (e.qr M).1.drop (e.qr M).2 → v i = 0) ∧ ∀ r, M r c = (M *ᵥ v) r
  ok : ∀ keep, e.ok M keep = true ↔ ¬ Singular M keep
  vec : ∀ keep wk, Singular M keep → e.vec M keep = some wk →
    (∃ i : Fin n, spread keep wk i ≠ 0) ∧ ∀ i : Fin n, (i : ℕ) ∈ keep → (M *ᵥ fun j : Fin n => spread keep wk j) i = 0

/-- Vectors with zeros at the dropped positions reach every value of the matrix. -/
def Redundant (M : Matrix (Fin n) (Fin n) ℝ) (drop : List ℕ) : Prop :=
  ∀ b : Fin n → ℝ, ∃ b' : Fin n → ℝ, (∀ i : Fin n, (i : ℕ) ∈ drop → b' i = 0) ∧ M *ᵥ b' = M *ᵥ b

/-- Different vectors with zeros at the dropped positions have different values. -/
def Enough (M : Matrix (Fin n) (Fin n) ℝ) (drop : List ℕ) : Prop :=
  ∀ v : Fin n → ℝ, (∀ i : Fin n, (i : ℕ) ∈ drop → v i = 0) → M *ᵥ v = 0 → v = 0

theorem null_of_keep {M : Matrix (Fin n) (Fin n) ℝ} (hM : M.PosSemidef) {keep : List ℕ} {v : Fin n → ℝ}
    (h0 : ∀ i : Fin n, (i : ℕ) ∉ keep → v i = 0) (h1 : ∀ i : Fin n, (i : ℕ) ∈ keep → (M *ᵥ v) i = 0) : M *ᵥ v = 0 := by
  rw [← hM.dotProduct_mulVec_zero_iff]
  refine Finset.sum_eq_zero fun i _ => ?_
  by_cases hi : (i : ℕ) ∈ keep
  · rw [h1 i hi, mul_zero]
  · simp [h0 i hi]

/-- One pass of Foster's algorithm. -/
theorem redundant_step {M : Matrix (Fin n) (Fin n) ℝ} (hM : M.PosSemidef) {drop : List ℕ} {wk : List ℝ} (hd : Redundant M drop)
    (hw : ∃ i : Fin n, spread (complement n drop) wk i ≠ 0)
    (h0 : ∀ i : Fin n, (i : ℕ) ∈ complement n drop → (M *ᵥ fun j : Fin n => spread (complement n drop) wk j) i = 0) :
    Redundant M (drop ++ [argmaxAbs n (spread (complement n drop) wk)]) := by
  obtain ⟨i, hi⟩ := hw
  have hn : 0 < n := lt_of_le_of_lt (Nat.zero_le _) i.2
  set w := spread (complement n drop) wk with hwd
  obtain ⟨hc, hmax⟩ := argmaxAbs_max n hn w
  set c := argmaxAbs n w
  have hwc : w c ≠ 0 := fun h => hi (abs_nonpos_iff.1 (by simpa [h] using hmax i i.2))
  have hz : ∀ j : Fin n, (j : ℕ) ∉ complement n drop → w j = 0 := fun j hj => by
    by_contra h
    exact hj (spread_mem _ _ _ h)
  have hk := null_of_keep hM (v := fun j : Fin n => w j) hz h0
  intro b
  obtain ⟨b', hb, he⟩ := hd b
  refine ⟨b' - (b' ⟨c, hc⟩ / w c) • fun j : Fin n => w j, fun j hj => ?_, ?_⟩
  · rcases List.mem_append.1 hj with h | h
    · have : w j = 0 := hz j fun h' => ((complement_mem n drop j).1 h').2 h
      simp [hb j h, this]
    · have e : (j : ℕ) = c := List.mem_singleton.1 h
      have ej : j = ⟨c, hc⟩ := Fin.ext e
      subst ej
      simp [hwc]
  · rw [mulVec_sub, mulVec_smul, hk, smul_zero, sub_zero, he]

theorem singular_iff_not_enough {M : Matrix (Fin n) (Fin n) ℝ} (hM : M.PosSemidef) (drop : List ℕ) :
    ¬ Singular M (complement n drop) ↔ Enough M drop := by
  constructor
  · intro h v hv h0
    by_contra hne
    refine h ⟨v, hne, fun i hi => hv i ?_, fun i _ => by rw [h0]; rfl⟩
    by_contra hd
    exact hi ((complement_mem n drop i).2 ⟨i.2, hd⟩)
  · rintro h ⟨v, hne, h0, h1⟩
    exact hne (h v (fun i hi => h0 i fun hk => ((complement_mem n drop i).1 hk).2 hi) (null_of_keep hM h0 h1))

theorem foster_sound {e : Ext n} {M : Matrix (Fin n) (Fin n) ℝ} (hM : M.PosSemidef) (he : Exact e M) (fuel : ℕ) :
    ∀ drop out, Redundant M drop → Singular M (complement n drop) → foster n (e.vec M) (e.ok M) fuel drop = some out →
      Redundant M out ∧ ((∀ keep, e.vec M keep ≠ none) → Enough M out) := by
  induction fuel with
  | zero => intro drop out _ _ h; simp [foster] at h
  | succ fuel ih =>
    intro drop out hd hs h
    rw [foster] at h
    cases hv : e.vec M (complement n drop) with
    | none =>
      rw [hv] at h
      obtain rfl : drop = out := by simpa using h
      exact ⟨hd, fun hn => absurd hv (hn _)⟩
    | some wk =>
      rw [hv] at h
      dsimp only at h
      obtain ⟨hw, h0⟩ := he.vec _ _ hs hv
      have hr := redundant_step hM hd hw h0
      by_cases hok : e.ok M (complement n (drop ++ [argmaxAbs n (spread (complement n drop) wk)])) = true
      · rw [if_pos hok] at h
        obtain rfl := Option.some.inj h
        exact ⟨hr, fun _ => (singular_iff_not_enough hM _).1 ((he.ok _).1 hok)⟩
      · rw [if_neg hok] at h
        exact ih _ _ hr (by rw [he.ok, not_not] at hok; exact hok) h

theorem qr_sound {e : Ext n} {M : Matrix (Fin n) (Fin n) ℝ} (he : Exact e M) :
    Redundant M ((e.qr M).1.drop (e.qr M).2) ∧ Enough M ((e.qr M).1.drop (e.qr M).2) := by
  classical
  refine ⟨fun b => ?_, he.indep⟩
  set d := (e.qr M).1.drop (e.qr M).2
  choose v hv hs using he.span
  refine ⟨fun i => (if (i : ℕ) ∈ d then 0 else b i) + ∑ c : Fin n, if h : (c : ℕ) ∈ d then b c * v c h i else 0, fun i hi => ?_, ?_⟩
  · dsimp only
    rw [if_pos hi, zero_add]
    refine Finset.sum_eq_zero fun c _ => ?_
    split_ifs with h
    · rw [hv c h i hi, mul_zero]
    · rfl
  · funext r
    have e1 : (M *ᵥ fun i => (if (i : ℕ) ∈ d then 0 else b i) + ∑ c : Fin n, if h : (c : ℕ) ∈ d then b c * v c h i else 0) r =
        (∑ i, M r i * if (i : ℕ) ∈ d then 0 else b i) + ∑ c : Fin n, if h : (c : ℕ) ∈ d then b c * (M *ᵥ v c h) r else 0 := by
      simp only [mulVec, dotProduct, mul_add, Finset.sum_add_distrib, Finset.mul_sum]
      congr 1
      rw [Finset.sum_comm]
      refine Finset.sum_congr rfl fun c _ => ?_
      split_ifs with h
      · exact Finset.sum_congr rfl fun i _ => by ring
      · simp
    rw [e1, ← Finset.sum_add_distrib]
    refine Finset.sum_congr rfl fun c _ => ?_
    by_cases h : (c : ℕ) ∈ d
    · rw [if_pos h, dif_pos h, ← hs c h r]
      ring
    · rw [if_neg h, dif_neg h, add_zero]

theorem mem_sort (l : List ℕ) (i : ℕ) : i ∈ sort l ↔ i ∈ l := by
  unfold sort
  exact List.mem_mergeSort

theorem Redundant.congr {M : Matrix (Fin n) (Fin n) ℝ} {d d' : List ℕ} (h : Redundant M d) (hd : ∀ i, i ∈ d' → i ∈ d) : Redundant M d' := fun b => by
  obtain ⟨b', h1, h2⟩ := h b
  exact ⟨b', fun i hi => h1 i (hd _ hi), h2⟩

theorem Enough.congr {M : Matrix (Fin n) (Fin n) ℝ} {d d' : List ℕ} (h : Enough M d) (hd : ∀ i, i ∈ d → i ∈ d') : Enough M d' :=
  fun v hv => h v fun i hi => hv i (hd _ hi)

/-- What `identify_drop` returns for the matrix it examines. -/
theorem identify_sound {e : Ext n} {eps : ℝ} {byqr : Bool} {fuel : ℕ} {H S : Matrix (Fin n) (Fin n) ℝ} {keep drop : List ℕ}
    (he : Exact e (pre eps (scaled H S))) (hM : (pre eps (scaled H S)).PosSemidef)
    (h : identify e eps byqr fuel H S = some (keep, drop)) :
    (∀ i, i ∈ keep ↔ i < n ∧ i ∉ drop) ∧ Redundant (pre eps (scaled H S)) drop ∧
      ((∀ k, e.vec (pre eps (scaled H S)) k ≠ none) → Enough (pre eps (scaled H S)) drop) := by
  unfold identify at h
  dsimp only at h
  set M := pre eps (scaled H S)
  cases byqr with
  | true =>
    rw [if_pos rfl] at h
    have h' := Option.some.inj h
    have hp := byQR_partition sort (fun l => List.mergeSort_perm l _) n _ he.perm _ he.rank_le
    rw [h'] at hp
    have hd : ∀ i, i ∈ drop ↔ i ∈ (e.qr M).1.drop (e.qr M).2 := fun i => by
      have : drop = (byQR sort n (e.qr M).1 (e.qr M).2).2 := by rw [h']
      rw [this]
      unfold byQR
      dsimp only
      rw [mem_sort]
      split_ifs with hr
      · rfl
      · rw [List.drop_of_length_le (by rw [he.perm.length_eq, List.length_range]; omega)]
    obtain ⟨h1, h2⟩ := qr_sound he
    exact ⟨hp.1, h1.congr fun i => (hd i).1, fun _ => h2.congr fun i => (hd i).2⟩
  | false =>
    rw [if_neg (by decide)] at h
    have hc : complement n [] = List.range n := by simp [complement]
    by_cases hok : e.ok M (List.range n) = true
    · rw [if_pos hok] at h
      obtain ⟨rfl, rfl⟩ := Prod.mk.inj (Option.some.inj h)
      refine ⟨fun i => by simp [mem_sort], fun b => ⟨b, fun i hi => by simp [mem_sort] at hi, rfl⟩, fun _ => ?_⟩
      rw [he.ok, ← hc, singular_iff_not_enough hM] at hok
      exact hok.congr fun i hi => by simp at hi
    · rw [if_neg hok] at h
      obtain ⟨d, hd, hkd⟩ := Option.map_eq_some_iff.1 h
      obtain ⟨rfl, rfl⟩ := Prod.mk.inj hkd
      rw [he.ok, not_not, ← hc] at hok
      obtain ⟨h1, h2⟩ := foster_sound hM he fuel [] d (fun b => ⟨b, fun i hi => by simp at hi, rfl⟩) hok hd
      exact ⟨fun i => by rw [mem_sort, mem_sort, complement_mem], h1.congr fun i => (mem_sort _ _).1, fun hn => (h2 hn).congr fun i => (mem_sort _ _).2⟩

/-! ### The matrix examined -/

theorem dgr_pos {eps : ℝ} (h : 0 < eps) (M : Matrix (Fin n) (Fin n) ℝ) (i : Fin n) : 0 < dgr eps M i := by
  unfold dgr
  refine inv_pos.2 (Real.sqrt_pos.2 ?_)
  split_ifs with h1
  · exact one_pos
  · exact lt_of_lt_of_le (by positivity) (not_lt.1 h1)

theorem pre_mulVec (eps : ℝ) (M : Matrix (Fin n) (Fin n) ℝ) (v : Fin n → ℝ) (i : Fin n) :
    (pre eps M *ᵥ v) i = dgr eps M i * (M *ᵥ fun j => dgr eps M j * v j) i := by
  simp only [mulVec, dotProduct, pre, of_apply, Finset.mul_sum]
  exact Finset.sum_congr rfl fun j _ => by ring

theorem pre_psd {eps : ℝ} {M : Matrix (Fin n) (Fin n) ℝ} (hM : M.PosSemidef) : (pre eps M).PosSemidef := by
  refine PosSemidef.of_dotProduct_mulVec_nonneg ?_ fun v => ?_
  · ext i j
    have := congrFun (congrFun hM.1 i) j
    simp only [conjTranspose_apply, star_trivial] at this
    simp only [conjTranspose_apply, star_trivial, pre, of_apply, this]
    ring
  · have := hM.dotProduct_mulVec_nonneg fun j => dgr eps M j * v j
    refine this.trans_eq (Finset.sum_congr rfl fun i _ => ?_)
    rw [pre_mulVec]
    simp only [Pi.star_apply, star_trivial]
    ring

theorem frob_pos {A : Matrix (Fin n) (Fin n) ℝ} (h : A ≠ 0) : 0 < frob A := by
  refine Real.sqrt_pos.2 (lt_of_le_of_ne (Finset.sum_nonneg fun i _ => Finset.sum_nonneg fun j _ => sq_nonneg _) fun h0 => h ?_)
  ext i j
  have h1 := (Finset.sum_eq_zero_iff_of_nonneg fun i _ => Finset.sum_nonneg fun j _ => sq_nonneg _).1 h0.symm i (Finset.mem_univ i)
  have h2 := (Finset.sum_eq_zero_iff_of_nonneg fun j _ => sq_nonneg _).1 h1 j (Finset.mem_univ j)
  simpa using h2

theorem scaled_eq (H S : Matrix (Fin n) (Fin n) ℝ) : scaled H S = (1 / frob H) • (-H) + S := by
  ext i j
  simp [scaled]
  ring

theorem sSum_psd {Ps : List (Matrix (Fin n) (Fin n) ℝ)} (h : ∀ P ∈ Ps, P.PosSemidef) : (sSum Ps).PosSemidef := by
  induction Ps with
  | nil => exact PosSemidef.zero
  | cons P Ps ih =>
    exact ((h P List.mem_cons_self).smul (by unfold frob; positivity)).add (ih fun Q hQ => h Q (List.mem_cons_of_mem _ hQ))

theorem psd_add_null {A B : Matrix (Fin n) (Fin n) ℝ} (hA : A.PosSemidef) (hB : B.PosSemidef) {v : Fin n → ℝ} (h : (A + B) *ᵥ v = 0) :
    A *ᵥ v = 0 ∧ B *ᵥ v = 0 := by
  have h1 := hA.dotProduct_mulVec_nonneg v
  have h2 := hB.dotProduct_mulVec_nonneg v
  have h3 : star v ⬝ᵥ (A *ᵥ v) + star v ⬝ᵥ (B *ᵥ v) = 0 := by
    rw [← dotProduct_add, ← add_mulVec, h, dotProduct_zero]
  exact ⟨(hA.dotProduct_mulVec_zero_iff v).1 (by linarith), (hB.dotProduct_mulVec_zero_iff v).1 (by linarith)⟩

theorem sSum_null {Ps : List (Matrix (Fin n) (Fin n) ℝ)} (h : ∀ P ∈ Ps, P.PosSemidef) (hne : ∀ P ∈ Ps, P ≠ 0) {v : Fin n → ℝ} :
    sSum Ps *ᵥ v = 0 ↔ ∀ P ∈ Ps, P *ᵥ v = 0 := by
  induction Ps with
  | nil => simp [sSum]
  | cons P Ps ih =>
    have ih' := ih (fun Q hQ => h Q (List.mem_cons_of_mem _ hQ)) (fun Q hQ => hne Q (List.mem_cons_of_mem _ hQ))
    have hf := frob_pos (hne P List.mem_cons_self)
    constructor
    · intro h0
      obtain ⟨h1, h2⟩ := psd_add_null ((h P List.mem_cons_self).smul (by positivity)) (sSum_psd fun Q hQ => h Q (List.mem_cons_of_mem _ hQ)) h0
      rw [smul_mulVec, smul_eq_zero] at h1
      intro Q hQ
      rcases List.mem_cons.1 hQ with rfl | hQ
      · exact h1.resolve_left (by positivity)
      · exact ih'.1 h2 Q hQ
    · intro h0
      rw [sSum, add_mulVec, smul_mulVec, h0 P List.mem_cons_self, smul_zero, zero_add]
      exact ih'.2 fun Q hQ => h0 Q (List.mem_cons_of_mem _ hQ)

theorem sNorm_psd {Ps : List (Matrix (Fin n) (Fin n) ℝ)} (h : ∀ P ∈ Ps, P.PosSemidef) : (sNorm Ps).PosSemidef := by
  unfold sNorm
  split_ifs
  · exact PosSemidef.zero
  · exact (sSum_psd h).smul (by unfold frob; positivity)

theorem sNorm_null {Ps : List (Matrix (Fin n) (Fin n) ℝ)} (h : ∀ P ∈ Ps, P.PosSemidef) (hne : ∀ P ∈ Ps, P ≠ 0) {v : Fin n → ℝ} :
    sNorm Ps *ᵥ v = 0 ↔ ∀ P ∈ Ps, P *ᵥ v = 0 := by
  unfold sNorm
  split_ifs with h0
  · subst h0; simp
  · rw [← sSum_null h hne, smul_mulVec, smul_eq_zero]
    refine or_iff_right ?_
    have : sSum Ps ≠ 0 := fun hz => by
      obtain ⟨P, hP⟩ := List.exists_mem_of_ne_nil _ h0
      refine hne P hP (Matrix.ext_of_mulVec_single fun i => ?_)
      rw [(sSum_null h hne).1 (by rw [hz, zero_mulVec]) P hP, zero_mulVec]
    have := frob_pos this
    positivity

/-! ### Models -/

/-- The Hessian of a log-likelihood that is strictly concave in the linear predictors of each observation: `J o` are the rows of the model matrices of
observation `o`, one per parameter, `W o` the negative second derivatives by the linear predictors. -/
structure Curved {N K : ℕ} (H : Matrix (Fin n) (Fin n) ℝ) (J : Fin N → Matrix (Fin K) (Fin n) ℝ) (W : Fin N → Matrix (Fin K) (Fin K) ℝ) : Prop where
  hess : -H = ∑ o, (J o)ᵀ * W o * J o
  pos : ∀ o, (W o).PosDef
  ne : H ≠ 0

variable {N K : ℕ} {H : Matrix (Fin n) (Fin n) ℝ} {J : Fin N → Matrix (Fin K) (Fin n) ℝ} {W : Fin N → Matrix (Fin K) (Fin K) ℝ}

theorem Curved.psd (h : Curved H J W) : (-H).PosSemidef := by
  rw [h.hess]
  refine posSemidef_sum _ fun o _ => ?_
  simpa using (h.pos o).posSemidef.conjTranspose_mul_mul_same (J o)

theorem Curved.null (h : Curved H J W) {v : Fin n → ℝ} : (-H) *ᵥ v = 0 ↔ ∀ o, J o *ᵥ v = 0 := by
  constructor
  · intro h0 o
    have hs : ∀ o, star v ⬝ᵥ (((J o)ᵀ * W o * J o) *ᵥ v) = star (J o *ᵥ v) ⬝ᵥ (W o *ᵥ (J o *ᵥ v)) := fun o => by
      rw [← mulVec_mulVec, ← mulVec_mulVec, dotProduct_mulVec, vecMul_transpose]
      rfl
    have e : ∑ o, star (J o *ᵥ v) ⬝ᵥ (W o *ᵥ (J o *ᵥ v)) = 0 := by
      rw [← Finset.sum_congr rfl fun o _ => hs o, ← dotProduct_sum, ← sum_mulVec, ← h.hess, h0, dotProduct_zero]
    have hz := (Finset.sum_eq_zero_iff_of_nonneg fun o _ => (h.pos o).posSemidef.dotProduct_mulVec_nonneg (J o *ᵥ v)).1 e o (Finset.mem_univ o)
    by_contra hne
    exact absurd hz ((h.pos o).dotProduct_mulVec_pos hne).ne'
  · intro h0
    rw [h.hess, sum_mulVec]
    exact Finset.sum_eq_zero fun o _ => by rw [← mulVec_mulVec, h0 o, mulVec_zero]

theorem examined_null {eps : ℝ} (heps : 0 < eps) (h : Curved H J W) {Ps : List (Matrix (Fin n) (Fin n) ℝ)} (hP : ∀ P ∈ Ps, P.PosSemidef)
    (hne : ∀ P ∈ Ps, P ≠ 0) {v : Fin n → ℝ} :
    pre eps (scaled H (sNorm Ps)) *ᵥ v = 0 ↔ (∀ o, J o *ᵥ (fun j => dgr eps (scaled H (sNorm Ps)) j * v j) = 0) ∧
      ∀ P ∈ Ps, P *ᵥ (fun j => dgr eps (scaled H (sNorm Ps)) j * v j) = 0 := by
  have hf := frob_pos h.ne
  have e : pre eps (scaled H (sNorm Ps)) *ᵥ v = 0 ↔ scaled H (sNorm Ps) *ᵥ (fun j => dgr eps (scaled H (sNorm Ps)) j * v j) = 0 := by
    rw [funext_iff, funext_iff]
    refine forall_congr' fun i => ?_
    rw [pre_mulVec, Pi.zero_apply, mul_eq_zero]
    exact or_iff_right (dgr_pos heps _ i).ne'
  rw [e]
  generalize (fun j => dgr eps (scaled H (sNorm Ps)) j * v j) = u
  rw [scaled_eq]
  constructor
  · intro h0
    obtain ⟨h1, h2⟩ := psd_add_null (h.psd.smul (by positivity)) (sNorm_psd hP) h0
    rw [smul_mulVec, smul_eq_zero] at h1
    exact ⟨h.null.1 (h1.resolve_left (by positivity)), (sNorm_null hP hne).1 h2⟩
  · rintro ⟨h1, h2⟩
    rw [add_mulVec, smul_mulVec, h.null.2 h1, (sNorm_null hP hne).2 h2, smul_zero, zero_add]

theorem examined_psd {eps : ℝ} (h : Curved H J W) {Ps : List (Matrix (Fin n) (Fin n) ℝ)} (hP : ∀ P ∈ Ps, P.PosSemidef) :
    (pre eps (scaled H (sNorm Ps))).PosSemidef := by
  refine pre_psd ?_
  rw [scaled_eq]
  exact (h.psd.smul (by unfold frob; positivity)).add (sNorm_psd hP)

/-- **C143.** Nothing is lost: for all coefficients there are coefficients that are zero at the dropped positions and have the same linear predictors for
all observations and parameters and the same values of all penalties. -/
theorem nothing_lost_partial {e : Ext n} {eps : ℝ} {byqr : Bool} {fuel : ℕ} {Ps : List (Matrix (Fin n) (Fin n) ℝ)} {keep drop : List ℕ} (heps : 0 < eps)
    (h : Curved H J W) (hP : ∀ P ∈ Ps, P.PosSemidef) (hne : ∀ P ∈ Ps, P ≠ 0) (he : Exact e (pre eps (scaled H (sNorm Ps))))
    (hi : identify e eps byqr fuel H (sNorm Ps) = some (keep, drop)) (b : Fin n → ℝ) :
    ∃ b' : Fin n → ℝ, (∀ i : Fin n, (i : ℕ) ∉ keep → b' i = 0) ∧ (∀ o, J o *ᵥ b' = J o *ᵥ b) ∧ ∀ P ∈ Ps, P *ᵥ b' = P *ᵥ b := by
  obtain ⟨hk, hr, -⟩ := identify_sound he (examined_psd h hP) hi
  set d := dgr eps (scaled H (sNorm Ps)) with hd
  have hd0 : ∀ i, d i ≠ 0 := fun i => (dgr_pos heps _ i).ne'
  obtain ⟨u, h1, h2⟩ := hr fun i => b i / d i
  have h3 := (examined_null heps h hP hne (v := u - fun i => b i / d i)).1 (by rw [mulVec_sub, h2, sub_self])
  rw [← hd] at h3
  have e1 : (fun j => d j * (u - fun i => b i / d i) j) = (fun j => d j * u j) - b := by
    funext j
    have := hd0 j
    simp only [Pi.sub_apply]
    field_simp
  rw [e1] at h3
  refine ⟨fun j => d j * u j, fun i hi => ?_, fun o => ?_, fun P hP => ?_⟩
  · have : (i : ℕ) ∈ drop := by
      by_contra hn
      exact hi ((hk i).2 ⟨i.2, hn⟩)
    simp [h1 i this]
  · have := h3.1 o
    rwa [mulVec_sub, sub_eq_zero] at this
  · have := h3.2 P hP
    rwa [mulVec_sub, sub_eq_zero] at this

/-- **C143.** Enough is dropped: if the solver for singular vectors does not fail, coefficients that are zero at the dropped positions are determined by
linear predictors and penalties. -/
theorem enough_dropped {e : Ext n} {eps : ℝ} {byqr : Bool} {fuel : ℕ} {Ps : List (Matrix (Fin n) (Fin n) ℝ)} {keep drop : List ℕ} (heps : 0 < eps)
    (h : Curved H J W) (hP : ∀ P ∈ Ps, P.PosSemidef) (hne : ∀ P ∈ Ps, P ≠ 0) (he : Exact e (pre eps (scaled H (sNorm Ps))))
    (hi : identify e eps byqr fuel H (sNorm Ps) = some (keep, drop)) (hv : ∀ k, e.vec (pre eps (scaled H (sNorm Ps))) k ≠ none)
    {b b' : Fin n → ℝ} (hb : ∀ i : Fin n, (i : ℕ) ∉ keep → b i = 0) (hb' : ∀ i : Fin n, (i : ℕ) ∉ keep → b' i = 0)
    (h1 : ∀ o, J o *ᵥ b = J o *ᵥ b') (h2 : ∀ P ∈ Ps, P *ᵥ b = P *ᵥ b') : b = b' := by
  obtain ⟨hk, -, hen⟩ := identify_sound he (examined_psd h hP) hi
  set d := dgr eps (scaled H (sNorm Ps)) with hd
  have hd0 : ∀ i, d i ≠ 0 := fun i => (dgr_pos heps _ i).ne'
  have e1 : (fun j => d j * ((b j - b' j) / d j)) = b - b' := by
    funext j
    have := hd0 j
    simp only [Pi.sub_apply]
    field_simp
  have := hen hv (fun j => (b j - b' j) / d j) (fun i hi => by
    have hn : (i : ℕ) ∉ keep := fun h' => ((hk i).1 h').2 hi
    simp [hb i hn, hb' i hn]) ((examined_null heps h hP hne).2 (by
      rw [← hd, e1]
      exact ⟨fun o => by rw [mulVec_sub, h1, sub_self], fun P hP => by rw [mulVec_sub, h2 P hP, sub_self]⟩))
  funext j
  have hj := congrFun this j
  simp only [Pi.zero_apply, div_eq_zero_iff, hd0 j, or_false] at hj
  exact sub_eq_zero.1 hj

/-- `S_emb`: penalties times smoothing parameters. -/
def weighted (lam : ℕ → ℝ) : List (Matrix (Fin n) (Fin n) ℝ) → ℕ → Matrix (Fin n) (Fin n) ℝ
  | [], _ => 0
  | P :: Ps, k => lam k • P + weighted lam Ps (k + 1)

theorem weighted_congr (lam : ℕ → ℝ) {Ps : List (Matrix (Fin n) (Fin n) ℝ)} (hP : ∀ P ∈ Ps, P.IsSymm) {b b' : Fin n → ℝ}
    (h : ∀ P ∈ Ps, P *ᵥ b' = P *ᵥ b) (k : ℕ) : b' ⬝ᵥ (weighted lam Ps k *ᵥ b') = b ⬝ᵥ (weighted lam Ps k *ᵥ b) := by
  induction Ps generalizing k with
  | nil => simp [weighted]
  | cons P Ps ih =>
    have h1 := h P List.mem_cons_self
    have h2 : b' ⬝ᵥ (P *ᵥ b) = b ⬝ᵥ (P *ᵥ b') := by
      conv_lhs => rw [dotProduct_mulVec, ← mulVec_transpose, (hP P List.mem_cons_self).eq, dotProduct_comm]
    simp only [weighted, add_mulVec, dotProduct_add, smul_mulVec, dotProduct_smul]
    rw [ih (fun Q hQ => hP Q (List.mem_cons_of_mem _ hQ)) (fun Q hQ => h Q (List.mem_cons_of_mem _ hQ)), h1, h2, h1]

/-- **C143.** The fit is the same: whatever the log-likelihood as a function of the linear predictors and whatever the smoothing parameters, a maximum of the
penalised log-likelihood over coefficients that are zero at the dropped positions is a maximum over all coefficients. -/
theorem same_fit_partial {e : Ext n} {eps : ℝ} {byqr : Bool} {fuel : ℕ} {Ps : List (Matrix (Fin n) (Fin n) ℝ)} {keep drop : List ℕ} (heps : 0 < eps)
    (h : Curved H J W) (hP : ∀ P ∈ Ps, P.PosSemidef) (hne : ∀ P ∈ Ps, P ≠ 0) (he : Exact e (pre eps (scaled H (sNorm Ps))))
    (hi : identify e eps byqr fuel H (sNorm Ps) = some (keep, drop)) (llk : (Fin N → Fin K → ℝ) → ℝ) (lam : ℕ → ℝ) {b : Fin n → ℝ}
    (hb : ∀ b' : Fin n → ℝ, (∀ i : Fin n, (i : ℕ) ∉ keep → b' i = 0) →
      llk (fun o => J o *ᵥ b') - 1 / 2 * (b' ⬝ᵥ (weighted lam Ps 0 *ᵥ b')) ≤ llk (fun o => J o *ᵥ b) - 1 / 2 * (b ⬝ᵥ (weighted lam Ps 0 *ᵥ b)))
    (b' : Fin n → ℝ) :
    llk (fun o => J o *ᵥ b') - 1 / 2 * (b' ⬝ᵥ (weighted lam Ps 0 *ᵥ b')) ≤ llk (fun o => J o *ᵥ b) - 1 / 2 * (b ⬝ᵥ (weighted lam Ps 0 *ᵥ b)) := by
  obtain ⟨c, h1, h2, h3⟩ := nothing_lost_partial heps h hP hne he hi b'
  have := hb c h1
  rwa [funext h2, weighted_congr lam (fun P hp => by have := (hP P hp).1; rwa [IsHermitian, conjTranspose_eq_transpose_of_trivial] at this) h3] at this

/-! ### Log-likelihoods that are not concave -/

/-- A log-likelihood with positive curvature in the first coefficient. -/
noncomputable def llkW (b : Fin 3 → ℝ) : ℝ := b 0 + 1 / 2 * b 0 ^ 2 - 1 / 2 * b 1 ^ 2 - 1 / 2 * b 2 ^ 2

/-- Its Hessian. -/
def hessW : Matrix (Fin 3) (Fin 3) ℝ := diagonal ![1, -1, -1]

theorem llkW_hess (b v : Fin 3 → ℝ) : llkW (b + v) = llkW b + ((1 + b 0) * v 0 - b 1 * v 1 - b 2 * v 2) + 1 / 2 * (v ⬝ᵥ (hessW *ᵥ v)) := by
  simp [llkW, hessW, mulVec_diagonal, dotProduct, Fin.sum_univ_three]
  ring

/-- The penalised log-likelihood with a ridge penalty and smoothing parameter 2. -/
noncomputable def penW (b : Fin 3 → ℝ) : ℝ := llkW b - 1 / 2 * (b ⬝ᵥ (weighted (fun _ => 2) [1] 0 *ᵥ b))

theorem penW_eq (b : Fin 3 → ℝ) : penW b = 1 / 2 - 1 / 2 * (b 0 - 1) ^ 2 - 3 / 2 * b 1 ^ 2 - 3 / 2 * b 2 ^ 2 := by
  unfold penW llkW
  simp [weighted, smul_mulVec, dotProduct, Fin.sum_univ_three]
  ring

theorem frob_diag (d : Fin 3 → ℝ) : frob (diagonal d) = Real.sqrt (d 0 ^ 2 + d 1 ^ 2 + d 2 ^ 2) := by
  simp [frob, Fin.sum_univ_three, diagonal_apply]

theorem frob_hessW : frob hessW = Real.sqrt 3 := by
  rw [hessW, frob_diag]
  congr 1
  show (1 : ℝ) ^ 2 + (-1) ^ 2 + (-1) ^ 2 = 3
  norm_num

theorem sNorm_one : sNorm [(1 : Matrix (Fin 3) (Fin 3) ℝ)] = diagonal fun _ => 1 / Real.sqrt 3 := by
  have h1 : frob (1 : Matrix (Fin 3) (Fin 3) ℝ) = Real.sqrt 3 := by
    rw [← diagonal_one, frob_diag]
    congr 1
    norm_num
  have h2 : sSum [(1 : Matrix (Fin 3) (Fin 3) ℝ)] = diagonal fun _ => 1 / Real.sqrt 3 := by
    rw [sSum, sSum, add_zero, h1, ← diagonal_one, ← diagonal_smul]
    congr 1
    funext i
    simp
  have h3 : frob (diagonal fun _ : Fin 3 => 1 / Real.sqrt 3) = 1 := by
    rw [frob_diag, Real.sqrt_eq_one, div_pow, Real.sq_sqrt (by norm_num)]
    norm_num
  rw [sNorm, if_neg (by simp), h2, h3]
  simp

theorem examinedW {eps : ℝ} (h0 : 0 < eps) (h1 : eps ≤ 1) : pre eps (scaled hessW (sNorm [1])) = diagonal ![0, 1, 1] := by
  have hs : (0 : ℝ) < Real.sqrt 3 := Real.sqrt_pos.2 (by norm_num)
  have h2 : scaled hessW (sNorm [1]) = diagonal ![0, 2 / Real.sqrt 3, 2 / Real.sqrt 3] := by
    rw [scaled_eq, sNorm_one, frob_hessW, hessW]
    ext i j
    fin_cases i <;> fin_cases j <;> simp <;> ring
  have h3 : Real.sqrt 3 ≤ 2 := Real.sqrt_le_iff.2 ⟨by norm_num, by norm_num⟩
  have h4 : ¬ 2 / Real.sqrt 3 < eps ^ 2 := by
    rw [not_lt]
    calc eps ^ 2 ≤ 1 := pow_le_one₀ h0.le h1
      _ ≤ 2 / Real.sqrt 3 := (one_le_div hs).2 h3
  have h5 : (0 : ℝ) < 2 / Real.sqrt 3 := by positivity
  have h6 : (Real.sqrt (2 / Real.sqrt 3))⁻¹ * (2 / Real.sqrt 3) * (Real.sqrt (2 / Real.sqrt 3))⁻¹ = 1 := by
    have h7 := Real.sq_sqrt h5.le
    have h8 : Real.sqrt (2 / Real.sqrt 3) ≠ 0 := (Real.sqrt_pos.2 h5).ne'
    generalize Real.sqrt (2 / Real.sqrt 3) = r at h7 h8 ⊢
    rw [← h7]
    field_simp
  have hd : ∀ i : Fin 3, i ≠ 0 → dgr eps (diagonal ![0, 2 / Real.sqrt 3, 2 / Real.sqrt 3]) i = (Real.sqrt (2 / Real.sqrt 3))⁻¹ := fun i hi => by
    have e : |(diagonal ![0, 2 / Real.sqrt 3, 2 / Real.sqrt 3] : Matrix (Fin 3) (Fin 3) ℝ) i i| = 2 / Real.sqrt 3 := by
      fin_cases i
      · exact absurd rfl hi
      · simpa using abs_of_pos h5
      · simpa using abs_of_pos h5
    unfold dgr
    rw [e, if_neg h4]
  rw [h2]
  ext i j
  by_cases hij : i = j
  · subst hij
    simp only [pre, of_apply, diagonal_apply_eq]
    fin_cases i
    · simp
    · have := hd 1 (by decide)
      simp only [Fin.mk_one]
      rw [this]
      simpa using h6
    · have := hd 2 (by decide)
      simp only [Fin.reduceFinMk]
      rw [this]
      simpa using h6
  · simp [pre, diagonal_apply_ne _ hij]

/-- **C143.** The restriction to concave log-likelihoods is needed: the penalised log-likelihood of this model is strictly concave with maximum 1/2, but every
exact decomposition of the normalised matrix drops the first coefficient; then 0 is the best that can be reached. -/
theorem indefinite_wrong {e : Ext 3} {eps : ℝ} {byqr : Bool} {fuel : ℕ} {keep drop : List ℕ} (h0 : 0 < eps) (h1 : eps ≤ 1)
    (he : Exact e (pre eps (scaled hessW (sNorm [1])))) (hv : ∀ k, e.vec (pre eps (scaled hessW (sNorm [1]))) k ≠ none)
    (hi : identify e eps byqr fuel hessW (sNorm [1]) = some (keep, drop)) :
    (∀ i, i ∈ keep ↔ i = 1 ∨ i = 2) ∧ penW ![1, 0, 0] = 1 / 2 ∧ (∀ b, penW b ≤ 1 / 2) ∧
      ∀ b, (∀ i : Fin 3, (i : ℕ) ∉ keep → b i = 0) → penW b ≤ 0 := by
  have hM := examinedW h0 h1
  obtain ⟨hk, hr, hen⟩ := identify_sound he (by
    rw [hM]
    exact PosSemidef.diagonal fun i => by fin_cases i <;> simp) hi
  have hen := hen hv
  rw [hM] at hr hen
  have d0 : 0 ∈ drop := by
    by_contra hn
    have := hen ![1, 0, 0] (fun i hi' => by
      fin_cases i
      · exact absurd hi' hn
      · rfl
      · rfl) (by funext i; rw [mulVec_diagonal]; fin_cases i <;> simp)
    simpa using congrFun this 0
  have d1 : ∀ i : Fin 3, i ≠ 0 → (i : ℕ) ∉ drop := fun i hi0 hd => by
    obtain ⟨b', hb, hm⟩ := hr fun _ => 1
    have := congrFun hm i
    rw [mulVec_diagonal, mulVec_diagonal, hb i hd] at this
    fin_cases i
    · exact absurd rfl hi0
    · simp at this
    · simp at this
  have hkeep : ∀ i, i ∈ keep ↔ i = 1 ∨ i = 2 := fun i => by
    rw [hk]
    constructor
    · rintro ⟨h3, hd⟩
      have : i ≠ 0 := fun h => hd (h ▸ d0)
      omega
    · rintro (rfl | rfl)
      · exact ⟨by norm_num, d1 1 (by decide)⟩
      · exact ⟨by norm_num, d1 2 (by decide)⟩
  refine ⟨hkeep, by rw [penW_eq]; simp, fun b => ?_, fun b hb => ?_⟩
  · rw [penW_eq]
    nlinarith [sq_nonneg (b 0 - 1), sq_nonneg (b 1), sq_nonneg (b 2)]
  · have hb0 : b 0 = 0 := hb 0 (by rw [hkeep]; simp)
    rw [penW_eq, hb0]
    nlinarith [sq_nonneg (b 1), sq_nonneg (b 2)]

end Verif.Red
