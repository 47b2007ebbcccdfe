import Verif.BoundModel
import Verif.SmoGlm

/-!
# Means at the boundary of their range (C139)
-/

namespace Verif.Bound

open Matrix Fl Fam Filter Topology

/-! ### Deviances at the boundary -/

theorem fin_sub_ninf (a : ℝ) : fin a - ninf = pinf := rfl

theorem binomial_one {n k : ℕ} (hk : k < n) : ∃ d ≤ 0, FamKind.D (.binomial n) (fin (k / n)) (fin 1) = fin d := by
  have hn : (0 : ℝ) < n := Nat.cast_pos.2 (by omega)
  have e : (k : ℝ) / n * n = k := by field_simp
  have hnk : (0 : ℝ) < n - k := sub_pos.2 (Nat.cast_lt.2 hk)
  simp only [FamKind.D, fin_mul, fin_sub, e, one_mul, sub_self, log_zero]
  rw [log_fin hn, log_fin hnk, fin_sub_ninf, clean_pinf, fin_mul, mul_zero]
  rcases Nat.eq_zero_or_pos k with rfl | h0
  · exact ⟨0, le_rfl, by simp⟩
  · have h0' : (0 : ℝ) < k := Nat.cast_pos.2 h0
    rw [log_fin h0', fin_sub, clean_fin, fin_mul, fin_add, fin_mul]
    have : Real.log k ≤ Real.log n := Real.log_le_log h0' (Nat.cast_le.2 hk.le)
    exact ⟨_, by nlinarith [mul_nonneg h0'.le (sub_nonneg.2 this)], rfl⟩

theorem binomial_zero {n k : ℕ} (h0 : 0 < k) (hk : k ≤ n) : ∃ d ≤ 0, FamKind.D (.binomial n) (fin (k / n)) (fin 0) = fin d := by
  have hn : (0 : ℝ) < n := Nat.cast_pos.2 (by omega)
  have e : (k : ℝ) / n * n = k := by field_simp
  have h0' : (0 : ℝ) < k := Nat.cast_pos.2 h0
  simp only [FamKind.D, fin_mul, fin_sub, e, zero_mul, sub_zero, log_zero]
  rw [log_fin hn, log_fin h0', fin_sub_ninf, clean_pinf, fin_mul, mul_zero]
  rcases Nat.eq_or_lt_of_le hk with rfl | h1
  · exact ⟨0, le_rfl, by simp⟩
  · have hnk : (0 : ℝ) < n - k := sub_pos.2 (Nat.cast_lt.2 h1)
    rw [log_fin hnk, fin_sub, clean_fin, fin_mul, fin_add, fin_mul]
    have : Real.log (n - k) ≤ Real.log n := Real.log_le_log hnk (by linarith)
    exact ⟨_, by nlinarith [mul_nonneg hnk.le (sub_nonneg.2 this)], rfl⟩

theorem log_one_sub : Tendsto (fun m : ℝ => -Real.log (1 - m)) (𝓝[<] 1) atTop := by
  refine tendsto_neg_atBot_atTop.comp (Real.tendsto_log_nhdsGT_zero.comp (tendsto_nhdsWithin_iff.2 ⟨?_, ?_⟩))
  · have : Tendsto (fun m : ℝ => 1 - m) (𝓝 1) (𝓝 (1 - 1)) := tendsto_const_nhds.sub tendsto_id
    rw [sub_self] at this
    exact this.mono_left nhdsWithin_le_nhds
  · filter_upwards [self_mem_nhdsWithin] with m hm
    exact sub_pos.2 (Set.mem_Iio.1 hm)

/-- **C139.** Binomial families, mean 1 and an observation with at least one failure: the deviance is not positive although it grows beyond all
bounds as the mean approaches 1. -/
theorem binomial_one_wrong {n k : ℕ} (hk : k < n) :
    (∃ d ≤ 0, FamKind.D (.binomial n) (fin (k / n)) (fin 1) = fin d) ∧
    ∃ f : ℝ → ℝ, (∀ m, 0 < m → m < 1 → FamKind.D (.binomial n) (fin (k / n)) (fin m) = fin (f m)) ∧ Tendsto f (𝓝[<] 1) atTop := by
  have hn : (0 : ℝ) < n := Nat.cast_pos.2 (by omega)
  have e : (k : ℝ) / n * n = k := by field_simp
  have hnk : (0 : ℝ) < n - k := sub_pos.2 (Nat.cast_lt.2 hk)
  refine ⟨binomial_one hk, _, fun m h0 h1 => D_eq (fam := .binomial n) ⟨by omega, k, hk.le, rfl⟩ one_pos ⟨h0, h1⟩ (Or.inr rfl), ?_⟩
  simp only [FamKind.lR, e]
  generalize (k : ℝ) * Real.log (k / n) + (n - k) * Real.log (1 - k / n) = C
  have h1 : Tendsto (fun m : ℝ => 2 * C - 2 * k * Real.log m) (𝓝[<] 1) (𝓝 (2 * C - 2 * k * Real.log 1)) :=
    ((Real.continuousAt_log one_ne_zero).tendsto.const_mul _).const_sub _ |>.mono_left nhdsWithin_le_nhds
  refine (h1.add_atTop (log_one_sub.const_mul_atTop (show (0 : ℝ) < 2 * (n - k) by linarith))).congr fun m => by ring

/-- **C139.** The same for mean 0 and at least one success. -/
theorem binomial_zero_wrong {n k : ℕ} (h0 : 0 < k) (hk : k ≤ n) :
    (∃ d ≤ 0, FamKind.D (.binomial n) (fin (k / n)) (fin 0) = fin d) ∧
    ∃ f : ℝ → ℝ, (∀ m, 0 < m → m < 1 → FamKind.D (.binomial n) (fin (k / n)) (fin m) = fin (f m)) ∧ Tendsto f (𝓝[>] 0) atTop := by
  have hn : (0 : ℝ) < n := Nat.cast_pos.2 (by omega)
  have e : (k : ℝ) / n * n = k := by field_simp
  have h0' : (0 : ℝ) < k := Nat.cast_pos.2 h0
  refine ⟨binomial_zero h0 hk, _, fun m h0 h1 => D_eq (fam := .binomial n) ⟨by omega, k, hk, rfl⟩ one_pos ⟨h0, h1⟩ (Or.inr rfl), ?_⟩
  simp only [FamKind.lR, e]
  generalize (k : ℝ) * Real.log (k / n) + (n - k) * Real.log (1 - k / n) = C
  have h1 : Tendsto (fun m : ℝ => 2 * C - 2 * (n - k) * Real.log (1 - m)) (𝓝[>] 0) (𝓝 (2 * C - 2 * (n - k) * Real.log (1 - 0))) := by
    have : ContinuousAt (fun m : ℝ => Real.log (1 - m)) 0 := (continuousAt_const.sub continuousAt_id).log (by norm_num)
    exact (this.tendsto.const_mul _).const_sub _ |>.mono_left nhdsWithin_le_nhds
  refine (h1.add_atTop ((tendsto_neg_atBot_atTop.comp Real.tendsto_log_nhdsGT_zero).const_mul_atTop
    (show (0 : ℝ) < 2 * k by linarith))).congr fun m => by simp only [Function.comp]; ring

/-- **C139.** Poisson family, mean 0 and a positive count: the deviance is negative although it grows beyond all bounds as the mean approaches 0. -/
theorem poisson_wrong {k : ℕ} (h0 : 0 < k) : FamKind.D .poisson (fin k) (fin 0) = fin (-2 * k) ∧
    ∃ f : ℝ → ℝ, (∀ m, 0 < m → FamKind.D .poisson (fin k) (fin m) = fin (f m)) ∧ Tendsto f (𝓝[>] 0) atTop := by
  have h0' : (0 : ℝ) < k := Nat.cast_pos.2 h0
  refine ⟨?_, _, fun m hm => D_eq (fam := .poisson) ⟨k, rfl⟩ one_pos hm (Or.inr rfl), ?_⟩
  · simp only [FamKind.D, log_zero]
    rw [log_fin h0', fin_sub_ninf]
    have : fin (k : ℝ) * pinf = pinf := by
      show infSign (k : ℝ) = pinf
      simp [infSign, h0']
    rw [this, clean_pinf]
    simp
  · simp only [FamKind.lR]
    generalize (k : ℝ) * Real.log k - k = C
    have h1 : Tendsto (fun m : ℝ => 2 * C + 2 * m) (𝓝[>] 0) (𝓝 (2 * C + 2 * 0)) :=
      ((tendsto_id.const_mul (2 : ℝ)).const_add (2 * C)).mono_left nhdsWithin_le_nhds
    refine (h1.add_atTop ((tendsto_neg_atBot_atTop.comp Real.tendsto_log_nhdsGT_zero).const_mul_atTop
      (show (0 : ℝ) < 2 * k by linarith))).congr fun m => by simp only [Function.comp]; ring

/-- **C139.** Where the deviance is right at the boundary: zero if the observation equals the mean; not a finite number for gamma and inverse Gaussian
families with mean 0. -/
theorem boundary_partial : (∀ n : ℕ, 0 < n → FamKind.D (.binomial n) (fin 1) (fin 1) = fin 0 ∧ FamKind.D (.binomial n) (fin 0) (fin 0) = fin 0) ∧
    FamKind.D .poisson (fin 0) (fin 0) = fin 0 ∧
    ∀ y : ℝ, 0 < y → ¬(FamKind.D .gamma (fin y) (fin 0)).IsFin ∧ ¬(FamKind.D .invGauss (fin y) (fin 0)).IsFin := by
  refine ⟨fun n hn => ?_, ?_, fun y hy => ⟨?_, ?_⟩⟩
  · have hn : (0 : ℝ) < n := Nat.cast_pos.2 hn
    simp only [FamKind.D, fin_mul, fin_sub, one_mul, zero_mul, sub_self, sub_zero, log_zero]
    rw [log_fin hn]
    simp [show (ninf - ninf : Fl) = nan from rfl]
  · simp only [FamKind.D, log_zero]
    rw [show (fin 0 * (ninf - ninf) : Fl) = nan from rfl]
    simp
  · simp only [FamKind.D, log_zero, fin_sub]
    rw [log_fin hy, fin_sub_ninf]
    have : fin (y - 0) / fin 0 = pinf := by
      show (if (0 : ℝ) = 0 then infSign (y - 0) else _) = _
      simp [infSign, hy]
    rw [this]
    exact id
  · simp only [FamKind.D, fin_sub, pow_fin, fin_mul]
    have : fin ((y - 0) ^ 2) / fin (0 ^ 2 * y) = pinf := by
      show (if (0 : ℝ) ^ 2 * y = 0 then infSign ((y - 0) ^ 2) else _) = _
      simp [infSign, pow_pos hy 2]
    rw [this]
    exact id

/-! ### Overflow -/

theorem add_isFin {a b : Fl} (h : (a + b).IsFin) : a.IsFin ∧ b.IsFin := by
  cases a <;> cases b <;> first | exact ⟨trivial, trivial⟩ | exact absurd h id

theorem sum_isFin : ∀ {n : ℕ} (f : Fin n → Fl), (Fl.sum f).IsFin → ∀ i, (f i).IsFin
  | 0, _, _, i => i.elim0
  | n + 1, f, h, i => by
    have h := add_isFin h
    refine Fin.lastCases h.2 (fun j => sum_isFin _ h.1 j) i

theorem D_pinf {fam : FamKind} (hf : ∀ n, fam ≠ .binomial n) (y : ℝ) : ¬(fam.D (fin y) pinf).IsFin := by
  cases fam with
  | binomial n => exact absurd rfl (hf n)
  | gaussian => exact id
  | gamma => exact id
  | invGauss =>
    simp only [FamKind.D]
    have e : Fl.pow (fin y - pinf) 2 = pinf := rfl
    have e' : Fl.pow pinf 2 = pinf := rfl
    rw [e, e']
    have : ∀ z : ℝ, (pinf / (pinf * fin z) : Fl) = nan := fun z => by
      show Fl.div pinf (infSign z) = nan
      unfold infSign
      split_ifs <;> rfl
    rw [this]
    exact id
  | poisson =>
    simp only [FamKind.D]
    have e : ∀ z : Fl, ∃ a, Fl.clean z = fin a := fun z => by cases z <;> exact ⟨_, rfl⟩
    obtain ⟨a, ha⟩ := e (fin y * (Fl.log (fin y) - Fl.log pinf))
    rw [ha]
    have e1 : (fin 2 * (fin y - pinf) : Fl) = ninf := by
      show infSign (-2) = ninf
      norm_num [infSign]
    rw [e1, fin_mul, fin_sub_ninf]
    exact id

variable {N p : ℕ} {x : Pirls.In N p} {A : Arith}

/-- **C139.** With logarithmic links and any family but the binomial one, step control starting from coefficients without overflow never accepts
coefficients for which a mean overflows. -/
theorem overflow_rejected (hl : x.lk = .log ∨ ∃ b, x.lk = .logb b) (hf : ∀ i n, x.fam i ≠ .binomial n) {b : Fin p → ℝ}
    (hb : ∀ i, Pirls.eta x b i ≤ A.over) (c : Fl) (prop : Fin p → ℝ) :
    ∃ r, accept A x b c prop = some r ∧ ∀ i, Pirls.eta x r.n i ≤ A.over := by
  obtain ⟨r, h1, h2, h3⟩ := Step.coef_step_correct (prob A x) b prop c
  refine ⟨r, h1, fun i => ?_⟩
  rcases h3 with h3 | ⟨a, ha, -⟩
  · rw [h3]
    exact hb i
  · by_contra hc
    push Not at hc
    have hm : fi A x.lk (fin (Pirls.eta x r.n i)) = pinf := by
      rcases hl with h | ⟨d, h⟩ <;> rw [h] <;> simp only [fi, expF, if_pos hc]
      rfl
    rw [h2] at ha
    have hfin : ((prob A x).devF ((prob A x).muF ((prob A x).etaF r.n))).IsFin := by
      refine (add_isFin (b := fin ((prob A x).quad r.n)) ?_).1
      have : (Step.evalAt (prob A x) r.n).pen = (prob A x).devF ((prob A x).muF ((prob A x).etaF r.n)) + fin ((prob A x).quad r.n) := by
        simp [Step.evalAt, Step.penDev, prob]
      rw [← this, ha]
      trivial
    have hne : (prob A x).muF ((prob A x).etaF r.n) i ≠ nan := by
      show fi A x.lk (fin (Pirls.eta x r.n i)) ≠ nan
      rw [hm]
      simp
    have := sum_isFin _ hfin i
    rw [if_neg hne] at this
    have e : (prob A x).muF ((prob A x).etaF r.n) i = pinf := hm
    rw [e] at this
    exact D_pinf (hf i) _ this

/-! ### Without rounding -/

/-- The mean is neither rounded to the boundary nor does it overflow. -/
def Inside (A : Arith) : LinkKind → Set ℝ
  | .logit => Set.Ico A.lo A.one
  | .identity => Set.univ
  | .log => Set.Icc A.lo A.over
  | .logb _ => Set.Icc A.lo A.over

theorem fi_inside {lk : LinkKind} {e : ℝ} (h : e ∈ Inside A lk) : fi A lk (fin e) = lk.fi (fin e) := by
  cases lk with
  | logit =>
    obtain ⟨h1, h2⟩ := h
    simp only [fi, onePlus, expF, LinkKind.fi, if_neg (not_le.2 h2), if_neg (not_lt.2 h1), if_neg (not_lt.2 (h2.trans A.lt).le), exp_fin]
  | identity => rfl
  | log => simp only [fi, expF, LinkKind.fi, if_neg (not_lt.2 h.1), if_neg (not_lt.2 h.2), exp_fin]
  | logb b => simp only [fi, expF, LinkKind.fi, if_neg (not_lt.2 h.1), if_neg (not_lt.2 h.2), exp_fin]

theorem inside_convex (A : Arith) (lk : LinkKind) : Convex ℝ (Inside A lk) := by
  cases lk with
  | logit => exact convex_Ico _ _
  | identity => exact convex_univ
  | log => exact convex_Icc _ _
  | logb b => exact convex_Icc _ _

theorem eta_mid (b c : Fin p → ℝ) (i : Fin N) : Pirls.eta x (Step.mid b c) i = (1 / 2 : ℝ) • Pirls.eta x b i + (1 / 2 : ℝ) • Pirls.eta x c i := by
  simp only [Pirls.eta, Step.mid, mulVec_smul, mulVec_add, Pi.smul_apply, Pi.add_apply, smul_eq_mul]
  ring

theorem loop_congr {V E M : Type} [AddCommGroup V] [Module ℝ V] {P Q : Step.Prob V E M} {coef : V} {c : Fl} {K : Set V} (hc : coef ∈ K)
    (hK : ∀ n ∈ K, Step.mid coef n ∈ K) (he : ∀ n ∈ K, Step.evalAt P n = Step.evalAt Q n) :
    ∀ fuel cor s, s.n ∈ K → Step.coefLoop P coef c fuel cor s = Step.coefLoop Q coef c fuel cor s := by
  intro fuel
  induction fuel with
  | zero => exact fun _ _ _ => rfl
  | succ fuel ih =>
    intro cor s hs
    have hn : (if cor > 30 then coef else s.n) ∈ K := by split_ifs; exacts [hc, hs]
    simp only [Step.coefLoop]
    rw [he _ (hK _ hn), ih _ _ (by exact hK _ hn)]

/-- **C139.** If neither the means at the current nor those at the proposed coefficients are rounded to the boundary, step control is the one of the
exact means, for which C31 and C124 hold. -/
theorem accept_same_partial {b prop : Fin p → ℝ} (hb : ∀ i, Pirls.eta x b i ∈ Inside A x.lk) (hp : ∀ i, Pirls.eta x prop i ∈ Inside A x.lk) (c : Fl) :
    accept A x b c prop = Pirls.accept x b c prop := by
  have he : ∀ n ∈ {n : Fin p → ℝ | ∀ i, Pirls.eta x n i ∈ Inside A x.lk}, Step.evalAt (prob A x) n = Step.evalAt (Pirls.prob x) n := fun n hn => by
    have : (prob A x).muF ((prob A x).etaF n) = (Pirls.prob x).muF ((Pirls.prob x).etaF n) := funext fun i => fi_inside (hn i)
    simp only [Step.evalAt, this]
    rfl
  unfold accept Pirls.accept
  rw [he _ hp]
  refine loop_congr (K := {n : Fin p → ℝ | ∀ i, Pirls.eta x n i ∈ Inside A x.lk}) hb (fun n hn i => ?_) he _ _ _ hp
  rw [eta_mid]
  exact inside_convex A x.lk (hb i) (hn i) (by norm_num) (by norm_num) (by norm_num)

/-! ### A fit that is lost -/

/-- One success, one failure, an intercept. -/
noncomputable def coin : Pirls.In 2 1 := ⟨fun _ => .binomial 1, .logit, ![1, 0], fun _ _ => 1, 0, 0⟩

theorem coin_eta (b : Fin 1 → ℝ) (i : Fin 2) : Pirls.eta coin b i = b 0 := by simp [Pirls.eta, coin, mulVec, dotProduct]

theorem coin_good : Pirls.Good coin 1 := by
  refine ⟨fun i => ?_, one_pos, fun _ => Or.inr rfl, PosSemidef.zero⟩
  fin_cases i
  · exact ⟨one_pos, 1, le_rfl, by simp [coin]⟩
  · exact ⟨one_pos, 0, by simp, by simp [coin]⟩

theorem coin_ident : Pirls.Ident coin := by
  intro v h _
  have := h 0
  funext a
  fin_cases a
  simpa [coin] using this

theorem coin_adm (b : Fin 1 → ℝ) : Pirls.Adm coin b := Pirls.adm_total (x := coin) (fun _ => trivial) b

theorem coin_next (t : ℝ) : Pirls.next coin ![t] 0 = t + (Real.exp (-t) - Real.exp t) / 2 := by
  have h := congrFun (Pirls.gram_step coin_good (coin_adm ![t]) (Pirls.gram_posdef coin_good coin_ident (coin_adm ![t]))) 0
  simp only [mulVec, dotProduct, Fin.sum_univ_one, Pirls.gram_eq coin_good (coin_adm ![t]), Pirls.G, Pirls.wR, Pirls.uR, Pirls.uF, Fin.sum_univ_two,
    coin_eta, Pi.sub_apply] at h
  generalize Pirls.next coin ![t] 0 = q at h ⊢
  have he := Real.exp_pos t
  simp [coin, LinkKind.fiR, LinkKind.d1R, FamKind.VR] at h
  rw [Real.exp_neg]
  generalize Real.exp t = e at h he ⊢
  have h1 : (1 : ℝ) - e / (1 + e) = 1 / (1 + e) := by field_simp; ring
  rw [h1] at h
  field_simp at h ⊢
  nlinarith

/-- Deviance of `coin`. -/
theorem coin_dev (b : Fin 1 → ℝ) : SmoG.deviance coin b = fin (2 * Real.log (Real.exp (b 0) + 2 + Real.exp (-b 0))) := by
  have hd : ∀ i, (coin.fam i).D (fin (coin.y i)) (coin.lk.fi (fin ((∑ j, coin.X i j * b j) + coin.off i))) =
      fin (2 * 1 * ((coin.fam i).lR (coin.y i) (coin.y i) 1 - (coin.fam i).lR (coin.y i) (coin.lk.fiR (b 0)) 1)) := fun i => by
    have : (∑ j, coin.X i j * b j) + coin.off i = b 0 := coin_eta b i
    have hm := (coin_adm b).mem i
    rw [coin_eta] at hm
    rw [this, fi_eq, D_eq (coin_good.obs i) one_pos hm (Or.inr rfl)]
  unfold SmoG.deviance
  rw [funext hd, sum_fin, Fin.sum_univ_two]
  congr 1
  have he := Real.exp_pos (b 0)
  simp [coin, FamKind.lR, LinkKind.fiR]
  rw [Real.exp_neg]
  generalize Real.exp (b 0) = e at he ⊢
  have h1 : (1 : ℝ) - e / (1 + e) = 1 / (1 + e) := by field_simp; ring
  have h2 : e + 2 + e⁻¹ = (1 + e) * (1 + e) / e := by field_simp; ring
  rw [h1, h2, Real.log_div (by positivity) he.ne', Real.log_mul (by positivity) (by positivity), Real.log_div he.ne' (by positivity),
    Real.log_div one_ne_zero (by positivity), Real.log_one]
  ring

theorem exp_five : 143 < Real.exp 5 ∧ Real.exp 5 < 150 := by
  have e : Real.exp 5 = Real.exp 1 ^ 5 := by rw [← Real.exp_nat_mul]; norm_num
  have h1 := Real.exp_one_gt_d9
  have h2 := Real.exp_one_lt_d9
  rw [e]
  constructor
  · calc (143 : ℝ) < 2.7 ^ 5 := by norm_num
      _ ≤ _ := pow_le_pow_left₀ (by norm_num) (by linarith) 5
  · calc Real.exp 1 ^ 5 ≤ 2.72 ^ 5 := pow_le_pow_left₀ (Real.exp_pos 1).le (by linarith) 5
      _ < 150 := by norm_num

/-- **C139.** One success and one failure, current intercept -5. The proposed intercept is above 66, both means are rounded to 1, the deviance is
evaluated as 0 and the step accepted, although the deviance of these coefficients is larger than before. No row has working data afterwards and the
fit ends with a `ValueError`. -/
theorem step_wrong (h1 : A.one ≤ 66) (h2 : 75 ≤ A.over) (h3 : A.lo ≤ -5) :
    ∃ r d d', accept A coin ![-5] (Step.evalAt (prob A coin) ![-5]).pen (Pirls.next coin ![-5]) = some r ∧ r.n = Pirls.next coin ![-5] ∧
      r.dev = fin 0 ∧ SmoG.deviance coin ![-5] = fin d ∧ SmoG.deviance coin r.n = fin d' ∧ d < d' ∧ working A coin r.n = none := by
  classical
  obtain ⟨e1, e2⟩ := exp_five
  have hq := coin_next (-5)
  have hneg : Real.exp (-5) < 1 := Real.exp_lt_one_iff.2 (by norm_num)
  have hneg' := Real.exp_pos (-5)
  rw [neg_neg] at hq
  have hq1 : 66 < Pirls.next coin ![-5] 0 := by rw [hq]; linarith
  have hq2 : Pirls.next coin ![-5] 0 < 75 := by rw [hq]; linarith
  generalize Pirls.next coin ![-5] = q at hq1 hq2 ⊢
  have hmu : ∀ i, fi A coin.lk (fin (Pirls.eta coin q i)) = fin 1 := fun i => by
    rw [coin_eta]
    show expF A (fin (q 0)) / onePlus A (fin (q 0)) = fin 1
    have a1 : ¬A.over < q 0 := not_lt.2 (by linarith)
    have a2 : ¬q 0 < A.lo := not_lt.2 (by linarith)
    have a3 : A.one ≤ q 0 := by linarith
    simp only [onePlus, expF, if_neg a1, if_neg a2, if_pos a3]
    rw [fin_div (Real.exp_pos _).ne', div_self (Real.exp_pos _).ne']
  have hdev : (Step.evalAt (prob A coin) q).dev = fin 0 := by
    show (Fl.sum fun i => if fi A coin.lk (fin (Pirls.eta coin q i)) = .nan then fin 0 else
      (coin.fam i).D (fin (coin.y i)) (fi A coin.lk (fin (Pirls.eta coin q i)))) = fin 0
    have : ∀ i, (if fi A coin.lk (fin (Pirls.eta coin q i)) = .nan then fin 0 else
        (coin.fam i).D (fin (coin.y i)) (fi A coin.lk (fin (Pirls.eta coin q i)))) = fin 0 := fun i => by
      rw [hmu, if_neg (by simp)]
      fin_cases i
      · exact (boundary_partial.1 1 one_pos).1
      · show FamKind.D (.binomial 1) (fin 0) (fin 1) = fin 0
        simp only [FamKind.D, fin_mul, fin_sub, Nat.cast_one, mul_one, sub_self, sub_zero, log_zero]
        rw [log_fin one_pos]
        simp [fin_sub_ninf]
    rw [funext this, sum_fin]
    simp
  have hquad : (prob A coin).quad = fun _ => 0 := by funext b; simp [prob, coin]
  have hpen : (Step.evalAt (prob A coin) q).pen = fin 0 := by
    show (if (prob A coin).pen then (Step.evalAt (prob A coin) q).dev + fin ((prob A coin).quad q) else (Step.evalAt (prob A coin) q).dev) = _
    rw [hdev, hquad]
    simp [prob]
  obtain ⟨d, hd, hd0⟩ := SmoG.dev_fin coin_good (coin_adm ![-5])
  have hin : ∀ i, Pirls.eta coin ![-5] i ∈ Inside A coin.lk := fun i => by
    rw [coin_eta]
    exact ⟨by simpa using h3, by simpa using (by linarith [A.pos] : (-5 : ℝ) < A.one)⟩
  have hold : (Step.evalAt (prob A coin) ![-5]).pen = fin d := by
    show (if (prob A coin).pen then (Step.evalAt (prob A coin) ![-5]).dev + fin ((prob A coin).quad ![-5]) else (Step.evalAt (prob A coin) ![-5]).dev) = _
    have : (Step.evalAt (prob A coin) ![-5]).dev = fin d := by
      rw [← hd]
      show (Fl.sum fun i => if fi A coin.lk (fin (Pirls.eta coin ![-5] i)) = .nan then fin 0 else
        (coin.fam i).D (fin (coin.y i)) (fi A coin.lk (fin (Pirls.eta coin ![-5] i)))) = _
      unfold SmoG.deviance
      congr 1
      funext i
      rw [fi_inside (hin i), fi_eq, if_neg (by simp), ← fi_eq]
      rfl
    rw [this, hquad]
    simp [prob]
  refine ⟨Step.evalAt (prob A coin) q, d, _, ?_, rfl, hdev, hd, coin_dev q, ?_, ?_⟩
  · rw [hold]
    unfold accept
    rw [Step.coefLoop, if_neg]
    rw [hpen]
    rintro (h | h)
    · exact absurd hd0 (not_le.2 h)
    · exact h trivial
  · have := coin_dev ![-5]
    rw [hd, fin_inj] at this
    rw [this]
    have : Real.exp 66 ≤ Real.exp (q 0) := Real.exp_le_exp.2 hq1.le
    have h66 : Real.exp 5 * 67 / 6 * 1 < Real.exp 66 := by
      have a : Real.exp 66 = Real.exp 5 * Real.exp 61 := by rw [← Real.exp_add]; norm_num
      have b := Real.add_one_le_exp (61 : ℝ)
      rw [a]
      nlinarith
    have hlt : Real.exp (![-5] 0) + 2 + Real.exp (-![-5] 0) < Real.exp (q 0) + 2 + Real.exp (-q 0) := by
      have := Real.exp_pos (-q 0)
      simp only [cons_val_zero, neg_neg]
      linarith
    have hpos : 0 < Real.exp (![-5] 0) + 2 + Real.exp (-![-5] 0) := by positivity
    exact mul_lt_mul_of_pos_left (Real.log_lt_log hpos hlt) two_pos
  · unfold working workingData
    rw [if_pos]
    intro i
    show invalid (fisherZW (coin.fam i) coin.lk (fin (coin.y i)) (fi A coin.lk (fin (Pirls.eta coin q i))) _)
    rw [hmu]
    rintro ⟨hz, -⟩
    have hz := (add_isFin hz).1
    have hp : LinkKind.dy1 coin.lk (fin 1) = pinf := by
      show fin 1 / ((fin 1 - fin 1) * fin 1) = pinf
      rw [fin_sub, fin_mul]
      show (if ((1 : ℝ) - 1) * 1 = 0 then infSign 1 else _) = pinf
      simp [infSign]
    rw [hp, fin_sub] at hz
    have : ∀ z : ℝ, ¬(pinf * fin z : Fl).IsFin := fun z => by
      show ¬(infSign z).IsFin
      unfold infSign
      split_ifs <;> exact id
    exact this _ hz

end Verif.Bound
