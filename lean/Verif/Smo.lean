import Verif.SmoLemmas
import Verif.Rl

/-!
# What smoothing parameters do (property C130)
-/

namespace Verif.Smo
open Matrix Rl

variable {N p K : ℕ} {x x' : In N p K}

/-- Two fits of the same model to the same data; smoothing parameters differ. -/
structure Same (x x' : In N p K) : Prop where
  X : x'.X = x.X
  y : x'.y = x.y
  S : x'.S = x.S
  D : x'.D = x.D

/-- Two fits for which only the smoothing parameter `j` differs, which is larger in the second. -/
structure Raise (x x' : In N p K) (j : Fin K) : Prop extends Same x x' where
  up : x.lam j ≤ x'.lam j
  rest : ∀ k, k ≠ j → x'.lam k = x.lam k

theorem Raise.le {j : Fin K} (r : Raise x x' j) (k : Fin K) : x.lam k ≤ x'.lam k := by
  by_cases h : k = j
  · rw [h]; exact r.up
  · rw [r.rest k h]

theorem Raise.sum {j : Fin K} (r : Raise x x' j) (g : Fin K → ℝ) :
    ∑ k ∈ Finset.univ.erase j, x'.lam k * g k = ∑ k ∈ Finset.univ.erase j, x.lam k * g k :=
  Finset.sum_congr rfl fun k hk => by rw [r.rest k (Finset.ne_of_mem_erase hk)]

theorem inv_le (h : Core x) (h' : Core x') (s : Same x x') (hl : ∀ j, x.lam j ≤ x'.lam j) (v : Fin p → ℝ) :
    v ⬝ᵥ ((M x')⁻¹ *ᵥ v) ≤ v ⬝ᵥ ((M x)⁻¹ *ᵥ v) := by
  refine inv_anti h.pd h'.pd (fun u => ?_) v
  show u ⬝ᵥ (M x *ᵥ u) ≤ u ⬝ᵥ (M x' *ᵥ u)
  rw [quad_M, quad_M, s.X, s.S]
  exact add_le_add le_rfl (Finset.sum_le_sum fun j _ => mul_le_mul_of_nonneg_right (hl j) (quad_nonneg (h.psd j) u))

/-- C130.  Larger smoothing parameters: fewer effective degrees of freedom. -/
theorem edf_antitone (h : Core x) (h' : Core x') (s : Same x x') (hl : ∀ j, x.lam j ≤ x'.lam j) : edf x' ≤ edf x := by
  rw [edf_eq h, edf_eq h', s.X]
  exact Finset.sum_le_sum fun i _ => inv_le h h' s hl _

/-- C130.  Larger smoothing parameters: for given scale, smaller variances of every linear combination of coefficients. -/
theorem variance_antitone (h : Core x) (h' : Core x') (s : Same x x') (hl : ∀ j, x.lam j ≤ x'.lam j) (v : Fin p → ℝ) :
    ∑ a, (x'.Linv *ᵥ v) a ^ 2 ≤ ∑ a, (x.Linv *ᵥ v) a ^ 2 := by
  rw [sq_Linv h, sq_Linv h']
  exact inv_le h h' s hl v

/-- C130.  Raising one smoothing parameter takes degrees of freedom from its own penalty and gives some to the others. (`lam j * bps x j`
is what is taken off the number of coefficients for penalty `j`.) -/
theorem term_edf {j : Fin K} (h : Core x) (h' : Core x') (r : Raise x x' j) :
    x.lam j * bps x j ≤ x'.lam j * bps x' j ∧ ∀ k, k ≠ j → x'.lam k * bps x' k ≤ x.lam k * bps x k := by
  constructor
  · rw [bps_eq h, bps_eq h', r.D, Finset.mul_sum, Finset.mul_sum]
    refine Finset.sum_le_sum fun b _ => ?_
    set v := fun a => x.D j a b
    have hs : ∀ {z : In N p K}, Core z → z.lam j * (v ⬝ᵥ ((M z)⁻¹ *ᵥ v)) = v ⬝ᵥ (((z.lam j)⁻¹ • M z)⁻¹ *ᵥ v) := by
      intro z hz
      rw [smul_inv (inv_ne_zero (hz.pos j).ne') (Core.unit hz), inv_inv, smul_mulVec, dotProduct_smul, smul_eq_mul]
    rw [hs h, hs h']
    have hp : ∀ {z : In N p K}, Core z → ((z.lam j)⁻¹ • M z).PosDef := fun hz => hz.pd.smul (inv_pos.2 (hz.pos j))
    refine inv_anti (hp h') (hp h) (fun u => ?_) v
    have hq : ∀ {z : In N p K}, Core z → u ⬝ᵥ (((z.lam j)⁻¹ • M z) *ᵥ u) =
        (z.lam j)⁻¹ * (∑ i, (z.X *ᵥ u) i ^ 2 + ∑ k ∈ Finset.univ.erase j, z.lam k * (u ⬝ᵥ (z.S k *ᵥ u))) + u ⬝ᵥ (z.S j *ᵥ u) := by
      intro z hz
      rw [smul_mulVec, dotProduct_smul, smul_eq_mul, quad_M, ← Finset.add_sum_erase _ _ (Finset.mem_univ j)]
      have := (hz.pos j).ne'
      field_simp
      ring
    rw [hq h, hq h', r.X, r.S, r.sum fun k => u ⬝ᵥ (x.S k *ᵥ u)]
    refine add_le_add (mul_le_mul_of_nonneg_right (inv_anti₀ (h.pos j) r.up) ?_) le_rfl
    exact add_nonneg (Finset.sum_nonneg fun i _ => sq_nonneg _)
      (Finset.sum_nonneg fun k _ => mul_nonneg (h.pos k).le (quad_nonneg (h.psd k) u))
  · intro k hk
    rw [r.rest k hk]
    refine mul_le_mul_of_nonneg_left ?_ (h.pos k).le
    rw [bps_eq h, bps_eq h', r.D]
    exact Finset.sum_le_sum fun b _ => inv_le h h' r.toSame r.le _

/-- Minimisers of `f + s g` and `f + t g`. -/
theorem trade {α : Type} {f g : α → ℝ} {s t : ℝ} (hs : 0 ≤ s) (hst : s < t) {a b : α} (ha : f a + s * g a ≤ f b + s * g b)
    (hb : f b + t * g b ≤ f a + t * g a) : g b ≤ g a ∧ f a ≤ f b := by
  have h1 : (t - s) * g b ≤ (t - s) * g a := by nlinarith
  have h2 : g b ≤ g a := le_of_mul_le_mul_left h1 (by linarith)
  exact ⟨h2, by nlinarith⟩

theorem coef_same (s : Same x x') (hl : x'.lam = x.lam) : coef x' = coef x := by
  unfold coef
  rw [s.X, s.y, s.S, hl]

theorem rss_same (s : Same x x') : rss x' = rss x := by
  funext b
  unfold rss
  rw [s.X, s.y]

theorem rough_same (s : Same x x') : rough x' = rough x := by
  funext j b
  unfold rough
  rw [s.S]

/-- C130.  Raising one smoothing parameter: a smoother term, in the sense of its penalty, and a worse fit (residual sum of squares and other
penalties). -/
theorem smoother {j : Fin K} (h : Core x) (h' : Core x') (r : Raise x x' j) :
    bsb x' j ≤ bsb x j ∧ rss x (coef x) + ∑ k ∈ Finset.univ.erase j, x.lam k * bsb x k ≤
      rss x' (coef x') + ∑ k ∈ Finset.univ.erase j, x'.lam k * bsb x' k := by
  have e' : ∀ k, bsb x' k = rough x k (coef x') := fun k => by unfold bsb rough; rw [r.S]
  have e : ∀ k, bsb x k = rough x k (coef x) := fun k => rfl
  simp only [e, e', rss_same r.toSame]
  rw [r.sum fun k => rough x k (coef x')]
  rcases r.up.eq_or_lt with he | hlt
  · have : x'.lam = x.lam := funext fun k => by
      by_cases hk : k = j
      · rw [hk, he]
      · exact r.rest k hk
    rw [coef_same r.toSame this]
    exact ⟨le_rfl, le_rfl⟩
  · have h1 := least h (coef x')
    have h2 := least h' (coef x)
    rw [rss_same r.toSame, rough_same r.toSame] at h2
    rw [← Finset.add_sum_erase _ _ (Finset.mem_univ j), ← Finset.add_sum_erase _ _ (Finset.mem_univ j)] at h1 h2
    rw [r.sum fun k => rough x k (coef x'), r.sum fun k => rough x k (coef x)] at h2
    exact trade (f := fun b => rss x b + ∑ k ∈ Finset.univ.erase j, x.lam k * rough x k b) (g := rough x j) (h.pos j).le hlt
      (by linarith) (by linarith)

/-- C130.  All smoothing parameters multiplied by a factor above one: larger residual sum of squares, smaller penalty. -/
theorem common_factor (h : Core x) (h' : Core x') (s : Same x x') {c : ℝ} (hc : 1 < c) (hl : ∀ j, x'.lam j = c * x.lam j) :
    rss x (coef x) ≤ rss x' (coef x') ∧ ∑ j, x.lam j * bsb x' j ≤ ∑ j, x.lam j * bsb x j := by
  have e' : ∀ k, bsb x' k = rough x k (coef x') := fun k => by unfold bsb rough; rw [s.S]
  have e : ∀ k, bsb x k = rough x k (coef x) := fun k => rfl
  simp only [e, e', rss_same s]
  have h1 := least h (coef x')
  have h2 := least h' (coef x)
  rw [rss_same s, rough_same s] at h2
  simp only [hl, mul_assoc, ← Finset.mul_sum] at h2
  have := trade (f := rss x) (g := fun b => ∑ k, x.lam k * rough x k b) zero_le_one hc (by linarith) h2
  exact ⟨this.2, this.1⟩

/-- C130.  The penalty of a term vanishes as its smoothing parameter grows: it is below `yᵀy / lam`. -/
theorem rough_bound (h : Core x) (j : Fin K) : bsb x j ≤ (∑ i, x.y i ^ 2) / x.lam j := by
  rw [le_div_iff₀ (h.pos j)]
  have h1 := least h 0
  have e : rss x 0 = ∑ i, x.y i ^ 2 := by unfold rss; simp
  have e0 : ∀ k, rough x k 0 = 0 := fun k => by unfold rough; simp
  simp only [e0, mul_zero, Finset.sum_const_zero, add_zero, e] at h1
  have h2 : 0 ≤ rss x (coef x) := Finset.sum_nonneg fun i _ => sq_nonneg _
  have h3 : x.lam j * rough x j (coef x) ≤ ∑ k, x.lam k * rough x k (coef x) :=
    Finset.single_le_sum (f := fun k => x.lam k * rough x k (coef x)) (fun k _ => mul_nonneg (h.pos k).le (rough_nonneg h k _))
      (Finset.mem_univ j)
  have : bsb x j * x.lam j = x.lam j * rough x j (coef x) := mul_comm _ _
  linarith

/-- C130.  As the smoothing parameter of term `j` grows, the fit approaches the fit `b` without what the penalty penalises: `b` is in the
kernel of the penalty, and `u` are the multipliers of this constraint (`b` minimises the sum of squares and the other penalties in
the kernel). The distance, in fitted values and penalties, is at most a constant over `lam`. -/
theorem null_limit (h : Core x) (j : Fin K) {b u : Fin p → ℝ} (hb : x.S j *ᵥ b = 0)
    (hu : x.Xᵀ *ᵥ (x.y - x.X *ᵥ b) - ∑ k ∈ Finset.univ.erase j, x.lam k • (x.S k *ᵥ b) = x.S j *ᵥ u) :
    ∑ i, ((x.X *ᵥ coef x) i - (x.X *ᵥ b) i) ^ 2 + ∑ k, x.lam k * rough x k (coef x - b) ≤ rough x j u / x.lam j := by
  have hl := h.pos j
  set d := coef x - b with hd
  have e1 : M x *ᵥ b = x.Xᵀ *ᵥ (x.X *ᵥ b) + ∑ k ∈ Finset.univ.erase j, x.lam k • (x.S k *ᵥ b) := by
    unfold M penal
    rw [add_mulVec, ← mulVec_mulVec, sum_mulVec, ← Finset.add_sum_erase _ _ (Finset.mem_univ j), smul_mulVec, hb, smul_zero, zero_add]
    congr 1
    exact Finset.sum_congr rfl fun k _ => smul_mulVec _ _ _
  have e2 : M x *ᵥ d = x.S j *ᵥ u := by
    rw [hd, mulVec_sub, normal h, e1, ← hu, mulVec_sub]
    abel
  have e3 : d ⬝ᵥ (M x *ᵥ d) = ∑ i, ((x.X *ᵥ coef x) i - (x.X *ᵥ b) i) ^ 2 + ∑ k, x.lam k * rough x k d := by
    rw [quad_M, hd, mulVec_sub]; rfl
  have e4 : d ⬝ᵥ (M x *ᵥ d) = d ⬝ᵥ (x.S j *ᵥ u) := by rw [e2]
  have h5 : x.lam j * rough x j d ≤ d ⬝ᵥ (M x *ᵥ d) := by
    rw [e3]
    have : x.lam j * rough x j d ≤ ∑ k, x.lam k * rough x k d :=
      Finset.single_le_sum (f := fun k => x.lam k * rough x k d) (fun k _ => mul_nonneg (h.pos k).le (rough_nonneg h k _))
        (Finset.mem_univ j)
    linarith [Finset.sum_nonneg (s := Finset.univ) fun (i : Fin N) _ => sq_nonneg ((x.X *ᵥ coef x) i - (x.X *ᵥ b) i)]
  have h6 := rough_nonneg h j (x.lam j • d - u)
  have e7 : rough x j (x.lam j • d - u) = x.lam j ^ 2 * rough x j d - 2 * x.lam j * (d ⬝ᵥ (x.S j *ᵥ u)) + rough x j u := by
    unfold rough
    rw [mulVec_sub, mulVec_smul, sub_dotProduct, dotProduct_sub, dotProduct_sub, smul_dotProduct, smul_dotProduct, dotProduct_smul,
      dotProduct_smul, sym_swap (Wps.psd_symm (h.psd j)) u d]
    simp only [smul_eq_mul]
    ring
  rw [← e3, le_div_iff₀ hl]
  rw [e7] at h6
  nlinarith

/-- C130.  Small smoothing parameters: the residual sum of squares exceeds that of any coefficients, those of least squares included, by at
most their penalty. -/
theorem nearly_least_squares (h : Core x) (b : Fin p → ℝ) : rss x (coef x) ≤ rss x b + ∑ j, x.lam j * rough x j b := by
  have h1 := least h b
  have : 0 ≤ ∑ k, x.lam k * rough x k (coef x) := Finset.sum_nonneg fun k _ => mul_nonneg (h.pos k).le (rough_nonneg h k _)
  linarith

end Verif.Smo
