import Verif.PirlsAggModel
import Verif.PirlsInv

/-!
# Counts with exposures may be added up; repeating rows divides smoothing parameters (property C134)
-/

namespace Verif.PInv
open Verif Matrix Fl Fam Pirls

variable {N N' p : ℕ} {x : In N p} {x' : In N' p} {r : Fin N' → Fin N}

/-! ### Exposures -/

/-- Sums over the detailed rows, group by group. -/
theorem sum_groups (h : Exposures x x' r) (u v : Fin N → ℝ) :
    ∑ k, (x'.y k * u (r k) + Real.exp (x'.off k) * v (r k)) = ∑ i, (x.y i * u i + Real.exp (x.off i) * v i) := by
  rw [← Finset.sum_fiberwise Finset.univ r]
  refine Finset.sum_congr rfl fun i _ => ?_
  rw [h.y, h.off, Finset.sum_mul, Finset.sum_mul, ← Finset.sum_add_distrib]
  refine Finset.sum_congr rfl fun k hk => ?_
  rw [(Finset.mem_filter.1 hk).2]

theorem adm_poisson {N p : ℕ} {x : In N p} (hf : ∀ i, x.fam i = .poisson) (hl : x.lk = .log) (b : Fin p → ℝ) :
    Adm x b := adm_total (fun i => by rw [hf i, hl]; trivial) b

theorem fi_poisson {N p : ℕ} {x : In N p} (hl : x.lk = .log) (c : Fin p → ℝ) (i : Fin N) :
    x.lk.fiR (eta x c i) = Real.exp (x.off i) * Real.exp ((x.X *ᵥ c) i) := by
  rw [hl, ← Real.exp_add, add_comm]
  rfl

theorem wR_poisson {N p : ℕ} {x : In N p} (hf : ∀ i, x.fam i = .poisson) (hl : x.lk = .log) (c : Fin p → ℝ) (i : Fin N) :
    wR x c i = Real.exp (x.off i) * Real.exp ((x.X *ᵥ c) i) := by
  unfold wR
  rw [fi_poisson hl, hf, hl]
  simp only [FamKind.VR, LinkKind.d1R]
  have h1 := Real.exp_pos (x.off i)
  have h2 := Real.exp_pos ((x.X *ᵥ c) i)
  field_simp

theorem sim_exposures (h : Exposures x x' r) (hg : Good x 1) (hg' : Good x' 1) : ∃ K, Sim x x' id K := by
  have ha : ∀ b, Adm x b := adm_poisson h.fam h.lk
  have ha' : ∀ b, Adm x' b := adm_poisson h.fam' h.lk'
  have hX : ∀ (c : Fin p → ℝ) k, (x'.X *ᵥ c) k = (x.X *ᵥ c) (r k) := fun c k => by simp only [Matrix.mulVec, dotProduct, h.X]
  obtain ⟨K1, h1⟩ := pen_eq hg
  obtain ⟨K2, h2⟩ := pen_eq hg'
  refine ⟨K2 - K1 + 2 * ((∑ i, (x.fam i).cR (x.y i) 1) - ∑ k, (x'.fam k).cR (x'.y k) 1) +
    2 * ((∑ i, x.y i * x.off i) - ∑ k, x'.y k * x'.off k), ⟨fun c d => rfl, fun c => ?_, fun c => ?_⟩⟩
  · rw [h2 c (ha' c), id, h1 c (ha c), fin_add]
    have hl : (∑ k, (x'.fam k).lR (x'.y k) (x'.lk.fiR (eta x' c k)) 1) - (∑ k, x'.y k * x'.off k) =
        (∑ i, (x.fam i).lR (x.y i) (x.lk.fiR (eta x c i)) 1) - ∑ i, x.y i * x.off i := by
      have e := sum_groups h (fun i => (x.X *ᵥ c) i) (fun i => - Real.exp ((x.X *ᵥ c) i))
      rw [← Finset.sum_sub_distrib, ← Finset.sum_sub_distrib]
      refine Eq.trans (Finset.sum_congr rfl fun k _ => ?_) (e.trans (Finset.sum_congr rfl fun i _ => ?_))
      · rw [fi_poisson h.lk', h.fam']
        simp only [FamKind.lR]
        rw [Real.log_mul (Real.exp_pos _).ne' (Real.exp_pos _).ne', Real.log_exp, Real.log_exp, hX]
        ring
      · rw [fi_poisson h.lk, h.fam]
        simp only [FamKind.lR]
        rw [Real.log_mul (Real.exp_pos _).ne' (Real.exp_pos _).ne', Real.log_exp, Real.log_exp]
        ring
    congr 1
    unfold PR phi
    rw [Finset.sum_add_distrib, Finset.sum_add_distrib, h.S]
    linear_combination -2 * hl
  · have eg : Pirls.gram x' c = Pirls.gram x c := by
      ext a b
      rw [gram_eq hg' (ha' c), gram_eq hg (ha c), h.S]
      congr 1
      have e := sum_groups h 0 (fun i => Real.exp ((x.X *ᵥ c) i) * x.X i a * x.X i b)
      refine Eq.trans (Finset.sum_congr rfl fun k _ => ?_) (e.trans (Finset.sum_congr rfl fun i _ => ?_))
      · rw [wR_poisson h.fam' h.lk', hX, h.X, Pi.zero_apply]
        ring
      · rw [wR_poisson h.fam h.lk, Pi.zero_apply]
        ring
    have er : rhs x' c = rhs x c := by
      funext a
      rw [rhs_eq hg' (ha' c), rhs_eq hg (ha c)]
      have e := sum_groups h (fun i => x.X i a) (fun i => Real.exp ((x.X *ᵥ c) i) * x.X i a * ((x.X *ᵥ c) i - 1))
      refine Eq.trans (Finset.sum_congr rfl fun k _ => ?_) (e.trans (Finset.sum_congr rfl fun i _ => ?_))
      · rw [wR_poisson h.fam' h.lk', fi_poisson h.lk', h.lk', hX, h.X]
        simp only [LinkKind.d1R]
        have h1 := Real.exp_pos (x'.off k)
        have h2 := Real.exp_pos ((x.X *ᵥ c) (r k))
        field_simp
        ring
      · rw [wR_poisson h.fam h.lk, fi_poisson h.lk, h.lk]
        simp only [LinkKind.d1R]
        have h1 := Real.exp_pos (x.off i)
        have h2 := Real.exp_pos ((x.X *ᵥ c) i)
        field_simp
        ring
    show Pirls.next x' c = Pirls.next x c
    unfold Pirls.next
    rw [eg, er]

/-- C134.  Counts with exposures: rows with the same covariates may be added up. The systems solved, and with them the coefficients pass by
pass and the standard errors, are the same. -/
theorem exposures (h : Exposures x x' r) (hg : Good x 1) (hg' : Good x' 1) (c : Fin p → ℝ) :
    Pirls.next x' c = Pirls.next x c ∧ ∀ k, (pass x')^[k] c = (pass x)^[k] c := by
  obtain ⟨K, hs⟩ := sim_exposures h hg hg'
  exact ⟨hs.next c, fun k => path_sim hs k c⟩

/-- C134.  The expected number of events of a group of rows is the sum of those of its rows. -/
theorem exposures_mean (h : Exposures x x' r) (c : Fin p → ℝ) (i : Fin N) :
    x.lk.fiR (eta x c i) = ∑ k ∈ Finset.univ.filter (fun k => r k = i), x'.lk.fiR (eta x' c k) := by
  rw [fi_poisson h.lk, h.off, Finset.sum_mul]
  refine Finset.sum_congr rfl fun k hk => ?_
  rw [fi_poisson h.lk', ← (Finset.mem_filter.1 hk).2]
  simp only [Matrix.mulVec, dotProduct, h.X]

/-! ### Repeated rows -/

/-- A floating point number multiplied by a positive number. -/
def scl (κ : ℝ) : Fl → Fl
  | fin a => fin (κ * a)
  | v => v

theorem scl_add (κ : ℝ) (a b : Fl) : scl κ (a + b) = scl κ a + scl κ b := by
  show scl κ (Fl.add a b) = Fl.add (scl κ a) (scl κ b)
  cases a <;> cases b <;> simp [Fl.add, scl, mul_add]

theorem scl_gt {κ : ℝ} (hκ : 0 < κ) (a b : Fl) : Step.Gt (scl κ a) (scl κ b) ↔ Step.Gt a b := by
  cases a <;> cases b <;> simp [scl, Step.Gt, hκ]

theorem scl_fin (κ : ℝ) (a : Fl) : (scl κ a).IsFin ↔ a.IsFin := by
  cases a <;> simp [scl, IsFin]

theorem scl_small {κ : ℝ} (hκ : 0 < κ) (a b : Fl) : small (scl κ a) (scl κ b) ↔ small a b := by
  cases a <;> cases b <;> simp only [scl, small]
  rename_i a b
  rw [← mul_sub, abs_mul, abs_of_pos hκ, show 1 / 10 ^ 9 * (κ * a) = κ * (1 / 10 ^ 9 * a) by ring]
  exact mul_lt_mul_iff_right₀ hκ

attribute [local instance] flMonoid in
theorem fl_sum_copies {N N' : ℕ} {r : Fin N' → Fin N} {q : ℕ} (hq : 0 < q) (hc : ∀ i, (Finset.univ.filter fun k => r k = i).card = q)
    (g : Fin N → Fl) : Fl.sum (fun k => g (r k)) = scl q (Fl.sum g) := by
  have fl_sum : ∀ {n : ℕ} (g : Fin n → Fl), Fl.sum g = ∑ i, g i := by
    intro n
    induction n with
    | zero => intro g; rfl
    | succ n ih => intro g; rw [Fin.sum_univ_castSucc, ← ih]; rfl
  have hm : ∀ (m : ℕ) (a : Fl), (m + 1) • a = scl ((m + 1 : ℕ) : ℝ) a := by
    intro m a
    induction m with
    | zero =>
      rw [zero_add, one_nsmul]
      cases a <;> simp [scl]
    | succ m ih =>
      rw [succ_nsmul, ih]
      show Fl.add _ _ = _
      cases a <;> simp [scl, Fl.add]
      ring
  rw [fl_sum, fl_sum, ← Finset.sum_fiberwise Finset.univ r]
  obtain ⟨m, rfl⟩ : ∃ m, q = m + 1 := ⟨q - 1, by omega⟩
  rw [← hm, ← Finset.sum_nsmul]
  refine Finset.sum_congr rfl fun i _ => ?_
  have e : ∑ k ∈ Finset.univ.filter (fun k => r k = i), g (r k) = ∑ _k ∈ Finset.univ.filter (fun k => r k = i), g i :=
    Finset.sum_congr rfl fun k hk => by rw [(Finset.mem_filter.1 hk).2]
  rw [e, Finset.sum_const, hc]

theorem sum_copies {r : Fin N' → Fin N} {q : ℕ} (hc : ∀ i, (Finset.univ.filter fun k => r k = i).card = q) (g : Fin N → ℝ) :
    ∑ k, g (r k) = q * ∑ i, g i := by
  rw [← Finset.sum_fiberwise Finset.univ r, Finset.mul_sum]
  refine Finset.sum_congr rfl fun i _ => ?_
  have e : ∑ k ∈ Finset.univ.filter (fun k => r k = i), g (r k) = ∑ _k ∈ Finset.univ.filter (fun k => r k = i), g i :=
    Finset.sum_congr rfl fun k hk => by rw [(Finset.mem_filter.1 hk).2]
  rw [e, Finset.sum_const, hc, nsmul_eq_mul]

variable {q : ℕ}

theorem eta_copies (h : Copies x x' r q) (c : Fin p → ℝ) (k : Fin N') : eta x' c k = eta x c (r k) := by
  unfold eta
  rw [h.off]
  congr 1
  simp only [Matrix.mulVec, dotProduct, h.X]

theorem zw_copies (h : Copies x x' r q) (c : Fin p → ℝ) (k : Fin N') : zw x' c k = zw x c (r k) := by
  unfold zw
  rw [eta_copies h, h.fam, h.lk, h.y, h.off]

/-- C134.  Every row `q` times, smoothing parameters times `q`: the penalised cross-product is `q` times the old one. -/
theorem gram_copies (h : Copies x x' r q) (c : Fin p → ℝ) : Pirls.gram x' c = (q : ℝ) • Pirls.gram x c := by
  classical
  ext a b
  rw [Matrix.smul_apply, gram_rows, gram_rows, h.S, smul_eq_mul, mul_add, ← sum_copies h.count]
  congr 1
  refine Finset.sum_congr rfl fun k _ => ?_
  rw [zw_copies h, h.X]

theorem rhs_copies (h : Copies x x' r q) (c : Fin p → ℝ) : rhs x' c = (q : ℝ) • rhs x c := by
  classical
  funext a
  rw [Pi.smul_apply, rhs_rows, rhs_rows, smul_eq_mul, ← sum_copies h.count]
  refine Finset.sum_congr rfl fun k _ => ?_
  rw [zw_copies h, h.X]

theorem next_copies (h : Copies x x' r q) (hq : 0 < q) (c : Fin p → ℝ) : Pirls.next x' c = Pirls.next x c := by
  have h0 : (0 : ℝ) < q := Nat.cast_pos.2 hq
  have hpd : (Pirls.gram x' c).PosDef ↔ (Pirls.gram x c).PosDef := by
    rw [gram_copies h]
    refine ⟨fun hp => ?_, fun hp => hp.smul h0⟩
    have := hp.smul (inv_pos.2 h0)
    rwa [smul_smul, inv_mul_cancel₀ h0.ne', one_smul] at this
  unfold Pirls.next Gauss.solveXX
  by_cases hp : (Pirls.gram x c).PosDef
  · rw [if_pos hp, if_pos (hpd.2 hp)]
    show (Pirls.gram x' c)⁻¹ *ᵥ rhs x' c = (Pirls.gram x c)⁻¹ *ᵥ rhs x c
    have hu : IsUnit (Pirls.gram x c).det := hp.isUnit.map Matrix.detMonoidHom
    have hinv : ((q : ℝ) • Pirls.gram x c)⁻¹ = (q : ℝ)⁻¹ • (Pirls.gram x c)⁻¹ := by
      refine Matrix.inv_eq_right_inv ?_
      rw [Matrix.smul_mul, Matrix.mul_smul, smul_smul, mul_inv_cancel₀ h0.ne', one_smul, Matrix.mul_nonsing_inv _ hu]
    rw [gram_copies h, rhs_copies h, hinv, Matrix.smul_mulVec, Matrix.mulVec_smul, smul_smul, inv_mul_cancel₀ h0.ne', one_smul]
  · rw [if_neg hp, if_neg (fun h' => hp (hpd.1 h'))]

theorem pen_copies (h : Copies x x' r q) (hq : 0 < q) (c : Fin p → ℝ) :
    (Step.evalAt (prob x') c).pen = scl q (Step.evalAt (prob x) c).pen := by
  classical
  show Fl.sum _ + fin (c ⬝ᵥ (x'.S *ᵥ c)) = scl q (Fl.sum _ + fin (c ⬝ᵥ (x.S *ᵥ c)))
  rw [scl_add, ← fl_sum_copies hq h.count]
  congr 1
  · congr 1
    funext k
    have hmu : (prob x').muF ((prob x').etaF c) k = (prob x).muF ((prob x).etaF c) (r k) := by
      show x'.lk.fi (fin (eta x' c k)) = x.lk.fi (fin (eta x c (r k)))
      rw [eta_copies h, h.lk]
    by_cases hn : (prob x).muF ((prob x).etaF c) (r k) = nan
    · rw [if_pos hn, if_pos (hmu.trans hn)]
    · rw [if_neg hn, if_neg (fun h' => hn (hmu.symm.trans h')), hmu, h.fam, h.y]
  · show _ = fin _
    rw [h.S, Matrix.smul_mulVec, dotProduct_smul, smul_eq_mul]

theorem loop_copies (h : Copies x x' r q) (hq : 0 < q) (c : Fin p → ℝ) (prev : Fl) : ∀ (fuel cor : ℕ) (n : Fin p → ℝ),
    (Step.coefLoop (prob x') c (scl q prev) fuel cor (Step.evalAt (prob x') n)).map (fun r => (r.n, r.pen)) =
      (Step.coefLoop (prob x) c prev fuel cor (Step.evalAt (prob x) n)).map (fun r => (r.n, scl q r.pen)) := by
  have h0 : (0 : ℝ) < q := Nat.cast_pos.2 hq
  intro fuel
  induction fuel with
  | zero => intro cor n; rfl
  | succ fuel ih =>
    intro cor n
    unfold Step.coefLoop
    rw [pen_copies h hq n]
    have hiff : (Step.Gt (scl q (Step.evalAt (prob x) n).pen) (scl q prev) ∨ ¬ (scl q (Step.evalAt (prob x) n).pen).IsFin) ↔
        (Step.Gt (Step.evalAt (prob x) n).pen prev ∨ ¬ (Step.evalAt (prob x) n).pen.IsFin) := by
      rw [scl_gt h0, scl_fin]
    by_cases hc : Step.Gt (Step.evalAt (prob x) n).pen prev ∨ ¬ (Step.evalAt (prob x) n).pen.IsFin
    · rw [if_pos (hiff.2 hc), if_pos hc]
      dsimp only
      by_cases h31 : cor > 31
      · rw [if_pos h31, if_pos h31]
        simp only [Option.map_some]
        rfl
      · rw [if_neg h31, if_neg h31, ih]
        rfl
    · rw [if_neg (fun hx => hc (hiff.1 hx)), if_neg hc]
      simp only [Option.map_some]
      rw [pen_copies h hq n]; rfl

theorem outer_copies (h : Copies x x' r q) (hq : 0 < q) (m : ℕ) : ∀ (left i : ℕ) (b n : Fin p → ℝ) (c : Fl),
    loop x' m left i b n (scl q c) = loop x m left i b n c := by
  have h0 : (0 : ℝ) < q := Nat.cast_pos.2 hq
  intro left
  induction left with
  | zero => intro i b n c; rfl
  | succ left ih =>
    intro i b n c
    unfold loop
    have ha : (accept x' b (scl q c) n).map (fun r => (r.n, r.pen)) = (accept x b c n).map (fun r => (r.n, scl q r.pen)) :=
      loop_copies h hq b c 34 0 n
    cases h1 : accept x' b (scl q c) n with
    | none =>
      rw [h1] at ha
      cases h2 : accept x b c n with
      | none => rfl
      | some r => rw [h2] at ha; cases ha
    | some r' =>
      rw [h1] at ha
      cases h2 : accept x b c n with
      | none => rw [h2] at ha; cases ha
      | some r =>
        rw [h2] at ha
        simp only [Option.map_some, Option.some.injEq, Prod.mk.injEq] at ha
        obtain ⟨e1, e2⟩ := ha
        dsimp only
        rw [e2, e1, next_copies h hq, ih]
        by_cases hs : 0 < i ∧ (small r.pen c ∨ i = m - 2)
        · rw [if_pos hs, if_pos (by rwa [scl_small h0])]
        · rw [if_neg hs, if_neg (by rwa [scl_small h0])]

/-- C134.  A fit to data in which every row appears `q` times, with smoothing parameters `q` times as large, ends with the same
coefficients: repeating the rows is the same as dividing the smoothing parameters. All families and links, with invalid rows and
systems that cannot be factorised. -/
theorem copies (h : Copies x x' r q) (hq : 0 < q) (m : ℕ) (c : Fin p → ℝ) : Pirls.inner x' m c = Pirls.inner x m c := by
  have e : (prob x').devF ((prob x').muF ((prob x').etaF c)) + fin (c ⬝ᵥ (x'.S *ᵥ c)) =
      scl q ((prob x).devF ((prob x).muF ((prob x).etaF c)) + fin (c ⬝ᵥ (x.S *ᵥ c))) := pen_copies h hq c
  unfold Pirls.inner
  rw [e, outer_copies h hq, next_copies h hq]

/-- C134.  The standard error of every linear combination of coefficients is that of the original data divided by `√q` (same scale
parameter). -/
theorem spread_copies (h : Copies x x' r q) (hq : 0 < q) (c v : Fin p → ℝ) (hp : (Pirls.gram x c).PosDef) :
    v ⬝ᵥ ((Pirls.gram x' c)⁻¹ *ᵥ v) = (v ⬝ᵥ ((Pirls.gram x c)⁻¹ *ᵥ v)) / q := by
  have h0 : (0 : ℝ) < q := Nat.cast_pos.2 hq
  have hu : IsUnit (Pirls.gram x c).det := hp.isUnit.map Matrix.detMonoidHom
  have hinv : ((q : ℝ) • Pirls.gram x c)⁻¹ = (q : ℝ)⁻¹ • (Pirls.gram x c)⁻¹ := by
    refine Matrix.inv_eq_right_inv ?_
    rw [Matrix.smul_mul, Matrix.mul_smul, smul_smul, mul_inv_cancel₀ h0.ne', one_smul, Matrix.mul_nonsing_inv _ hu]
  rw [gram_copies h, hinv, Matrix.smul_mulVec, dotProduct_smul, smul_eq_mul]
  field_simp

end Verif.PInv
