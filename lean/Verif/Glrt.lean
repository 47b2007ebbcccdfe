import Verif.GlrtModel
import Verif.Nested
import Verif.Compare
import Verif.Cand

/-!
# Likelihood ratio tests of nested models: theorems (property C146)
-/

namespace Verif.Glrt
open Verif Fl Fam Compare

variable {N p q : ℕ} {vb : Settings → Mod → VB} {fcdf : ℝ → ℝ → ℝ → ℝ} {ccdf : ℝ → ℝ → ℝ} {fam : Fams} {u : Args} {m1 m2 : Mod}

theorem decided {r : Result} (h : compareCDL vb fcdf ccdf fam u m1 m2 = some r) (hg : u.glrt = true) (hl : m2.llk ≤ m1.llk) : r.H1 ≠ none := by
  intro h0
  rcases (decision h).1.1 h0 with h1 | h1
  · rw [hg] at h1
    cases h1
  · exact absurd h1.1 (not_lt.2 hl)

/-- C146.  Generalised additive models with the same scale: families without scale parameter, or a known scale. -/
theorem gamm_partial {x : Pirls.In N p} {x' : Pirls.In N q} {J : Fin p → Fin q} {s : ℝ} (hn : Nest.Larger x x' J) (h0 : x.S = 0)
    (hg : Pirls.Good x' s) (hi : Pirls.Ident x') (hc : ∀ i, Pirls.concave (x.fam i) x.lk) {b' : Fin q → ℝ} (hb' : Pirls.Adm x' b')
    (hf : Pirls.next x' b' = b') {b : Fin p → ℝ} (hb : Pirls.Adm x b) (h1 : llk x' s b' = fin m1.llk) (h2 : llk x s b = fin m2.llk) {r : Result}
    (h : compareCDL vb fcdf ccdf fam u m1 m2 = some r) (ht : u.glrt = true) : r.H1 ≠ none := by
  refine decided h ht ?_
  obtain ⟨a, c, e1, e2, e3⟩ := Pirls.fixed_is_max hg hi (by rw [hn.fam, hn.lk]; exact hc) hb' hf (hn.adm hb)
  have k1 : Pirls.pllk x' s b' = fin (m1.llk - SmoG.quad x'.S b' / (2 * s)) := by
    rw [← fin_sub, ← h1]
    rfl
  have k2 : Pirls.pllk x' s (Nest.pad J b) = fin (m2.llk - SmoG.quad x'.S (Nest.pad J b) / (2 * s)) := by
    rw [← fin_sub, ← h2]
    have : llk x s b = Fl.sum fun i => lpEta (x'.fam i) x'.lk (x'.y i) s (fin ((∑ j, x'.X i j * Nest.pad J b j) + x'.off i)) := by
      unfold llk
      simp only [hn.lin, hn.fam, hn.lk, hn.y]
      rfl
    rw [this]
    rfl
  rw [k1, fin_inj] at e1
  rw [k2, fin_inj] at e2
  rw [Nest.pad_quad hn.inj hn.pen, h0] at e2
  have q0 : SmoG.quad (0 : Matrix (Fin p) (Fin p) ℝ) b = 0 := by simp [SmoG.quad]
  have q1 := div_nonneg (Nest.quad_nonneg hg.psd b') (mul_nonneg zero_le_two hg.pos.le)
  rw [q0, zero_div, sub_zero] at e2
  linarith

/-- C146.  `GAMMLSS` and `GSMM` models with concave log-likelihoods, fitted with Newton steps. -/
theorem newton_partial {x : Lml.In p} {x' : Lml.In q} {J : Fin p → Fin q} (hJ : Function.Injective J)
    (hl : ∀ c, x'.llk (Nest.pad J c) = x.llk c) (h0 : x.S = 0) (hS : ∀ a c, x'.S (J a) (J c) = 0) (hp : x'.S.PosSemidef) (hc : Lml.Concave x')
    {c' : Fin q → ℝ} (hr : Lml.Reg x' c') (hgr : HasFlGrad x'.llk (x'.grad c') c') (hf : Lml.step x' c' = c') {c : Fin p → ℝ}
    (h1 : x'.llk c' = fin m1.llk) (h2 : x.llk c = fin m2.llk) {r : Result} (h : compareCDL vb fcdf ccdf fam u m1 m2 = some r)
    (ht : u.glrt = true) : r.H1 ≠ none := by
  refine decided h ht ?_
  obtain ⟨a, a', e1, e2, e3⟩ := Nest.newton_unpenalised hJ hl h0 hS hp hc hr hgr hf c
  rw [h2, fin_inj] at e1
  rw [h1, fin_inj] at e2
  rwa [e1, e2]

/-! ### Gaussian models with estimated scale -/

/-- Residual sum of squares. -/
noncomputable def rss (x : Pirls.In N p) (b : Fin p → ℝ) : ℝ := ∑ i, (x.y i - ((∑ j, x.X i j * b j) + x.off i)) ^ 2

theorem scale_eq (x : Pirls.In N p) (b : Fin p → ℝ) : scale x b = rss x b / (N - p) := by
  unfold scale Scale.scaleA Scale.estScale rss
  simp only [Option.getD_none, Scale.totalEdf]
  congr 1
  exact Finset.sum_congr rfl fun i _ => by
    rw [Pi.sub_apply, ← sq]
    rfl

theorem gauss_llk {x : Pirls.In N p} (hx : ∀ i, x.fam i = .gaussian) (hk : x.lk = .identity) {s : ℝ} (hs : 0 < s) (b : Fin p → ℝ) :
    llk x s b = fin (-(N / 2 * Real.log (2 * Real.pi * s)) - rss x b / (2 * s)) := by
  have h0 : 0 < 2 * Real.pi * s := by positivity
  have e : ∀ i, lpEta (x.fam i) x.lk (x.y i) s (fin (Pirls.eta x b i)) =
      fin (-(Real.log (2 * Real.pi * s) / 2) + -(x.y i - Pirls.eta x b i) ^ 2 / (2 * s)) := by
    intro i
    rw [hx, hk]
    show Fl.log (fin (normPdf (x.y i) (Pirls.eta x b i) (Real.sqrt s))) = _
    unfold normPdf
    rw [Real.sq_sqrt hs.le, Fl.log_fin (ProbabilityTheory.gaussianPDFReal_pos _ _ _ (by simpa using hs))]
    congr 1
    rw [ProbabilityTheory.gaussianPDFReal, Real.coe_toNNReal s hs.le, Real.log_mul (inv_ne_zero (Real.sqrt_pos.2 h0).ne') (Real.exp_pos _).ne',
      Real.log_exp, Real.log_inv, Real.log_sqrt h0.le]
  unfold llk
  rw [funext e, sum_fin, fin_inj, Finset.sum_add_distrib, Finset.sum_const, Finset.card_univ, Fintype.card_fin, nsmul_eq_mul, ← Finset.sum_div,
    Finset.sum_neg_distrib, neg_div]
  unfold rss
  have : ∑ i, (x.y i - Pirls.eta x b i) ^ 2 = ∑ i, (x.y i - ((∑ j, x.X i j * b j) + x.off i)) ^ 2 := rfl
  rw [this]
  ring

/-- What the comparison of two Gaussian models without penalties works with. -/
structure Pair (x : Pirls.In N p) (x' : Pirls.In N q) (b : Fin p → ℝ) (b' : Fin q → ℝ) (m1 m2 : Mod) : Prop where
  fam : ∀ i, x.fam i = .gaussian
  lk : x.lk = .identity
  fam' : ∀ i, x'.fam i = .gaussian
  lk' : x'.lk = .identity
  lt : p < q
  rows : q < N
  pos : 0 < rss x b
  pos' : 0 < rss x' b'
  first : Reads x' (scale x' b') b' m1
  second : Reads x (scale x b) b m2

variable {x : Pirls.In N p} {x' : Pirls.In N q} {b : Fin p → ℝ} {b' : Fin q → ℝ}

theorem llk_at_scale {x : Pirls.In N p} {b : Fin p → ℝ} {m : Mod} (hx : ∀ i, x.fam i = .gaussian) (hk : x.lk = .identity) (hN : p < N)
    (h0 : 0 < rss x b) (h : Reads x (scale x b) b m) :
    0 < scale x b ∧ 2 * m.llk = -(N * Real.log (2 * Real.pi)) - N * Real.log (scale x b) - (N - p) := by
  have hd : (0 : ℝ) < N - p := sub_pos.2 (Nat.cast_lt.2 hN)
  have hs : 0 < scale x b := by
    rw [scale_eq]
    exact div_pos h0 hd
  refine ⟨hs, ?_⟩
  have h1 := h.llk
  rw [gauss_llk hx hk hs, fin_inj, Real.log_mul (by positivity) hs.ne'] at h1
  have h2 : rss x b = scale x b * (N - p) := by
    rw [scale_eq]
    field_simp
  rw [← h1, show rss x b / (2 * scale x b) = (N - p) / 2 by rw [h2]; field_simp]
  ring

/-- C146.  The statistic and the condition for no decision, in terms of the two scale estimates: the log-likelihoods are evaluated at different
scales, so that the statistic is not a function of the reduction in residual sum of squares over a common scale. -/
theorem gaussian_iff (hP : Pair x x' b b' m1 m2) {r : Result} (h : compareCDL vb fcdf ccdf fam u m1 m2 = some r) (ht : u.glrt = true)
    (hV : u.correctV = false) (hE : fam.extended = false) :
    r.stat = N * Real.log (scale x b / scale x' b') + ((q : ℝ) - p) ∧
    (r.H1 = none ↔ N * Real.log (scale x b / scale x' b') + ((q : ℝ) - p) < 0) := by
  obtain ⟨s2, e2⟩ := llk_at_scale hP.fam hP.lk (hP.lt.trans hP.rows) hP.pos hP.second
  obtain ⟨s1, e1⟩ := llk_at_scale hP.fam' hP.lk' hP.rows hP.pos' hP.first
  have e : 2 * (m1.llk - m2.llk) = N * Real.log (scale x b / scale x' b') + ((q : ℝ) - p) := by
    rw [Real.log_div s2.ne' s1.ne']
    linarith
  obtain ⟨-, -, b1, b2, hb1, hb2, hst, hd1, hd2, -⟩ := compare_some h
  refine ⟨by rw [hst, e], ?_⟩
  have v1 : b1.2 = q := by
    unfold baseDof at hb1
    rw [hV, if_neg (by simp)] at hb1
    split at hb1 <;> cases hb1
    · exact hP.first.t1
    · exact hP.first.edf
  have v2 : b2.2 = p := by
    unfold baseDof at hb2
    rw [hV, if_neg (by simp)] at hb2
    split at hb2 <;> cases hb2
    · exact hP.second.t1
    · exact hP.second.edf
  have hdof : r.dof2 ≤ r.dof1 := by
    have ha : added fam m1 m2 = added fam m1 m1 := by simp [added, hE]
    rw [hd1, hd2, v1, v2, ha]
    have : (p : ℝ) ≤ q := Nat.cast_le.2 hP.lt.le
    linarith
  rw [(decision h).1]
  constructor
  · rintro (h0 | h0)
    · rw [ht] at h0
      cases h0
    · have := h0.1
      linarith
  · intro h0
    exact Or.inr ⟨by linarith, hdof⟩

/-- C146.  There is a decision if the additional columns do not raise the scale estimate, that is if the usual F statistic is at least one. -/
theorem gaussian_partial (hP : Pair x x' b b' m1 m2) (hs : scale x' b' ≤ scale x b) {r : Result} (h : compareCDL vb fcdf ccdf fam u m1 m2 = some r)
    (ht : u.glrt = true) (hV : u.correctV = false) (hE : fam.extended = false) : r.H1 ≠ none := by
  obtain ⟨s1, -⟩ := llk_at_scale hP.fam' hP.lk' hP.rows hP.pos' hP.first
  rw [Ne, (gaussian_iff hP h ht hV hE).2, not_lt]
  have h1 : 0 ≤ Real.log (scale x b / scale x' b') := Real.log_nonneg ((one_le_div s1).2 hs)
  have h2 : (p : ℝ) ≤ q := Nat.cast_le.2 hP.lt.le
  have := mul_nonneg (Nat.cast_nonneg (α := ℝ) N) h1
  linarith

/-- C146.  Columns that do not reduce the residual sum of squares: there is never a decision, although the models are nested and not penalised. -/
theorem gaussian_undecided (hP : Pair x x' b b' m1 m2) (hn : rss x' b' = rss x b) {r : Result}
    (h : compareCDL vb fcdf ccdf fam u m1 m2 = some r) (ht : u.glrt = true) (hV : u.correctV = false) (hE : fam.extended = false) :
    r.H1 = none := by
  rw [(gaussian_iff hP h ht hV hE).2]
  have hq : (0 : ℝ) < N - q := sub_pos.2 (Nat.cast_lt.2 hP.rows)
  have hp : (0 : ℝ) < N - p := sub_pos.2 (Nat.cast_lt.2 (hP.lt.trans hP.rows))
  have hpq : (p : ℝ) < q := Nat.cast_lt.2 hP.lt
  have e : scale x b / scale x' b' = (N - q) / (N - p) := by
    rw [scale_eq, scale_eq, hn]
    have := hP.pos.ne'
    field_simp
  rw [e]
  have h1' : Real.log ((N - q) / (N - p)) < (N - q) / (N - p) - 1 :=
    Real.log_lt_sub_one_of_pos (div_pos hq hp) (by rw [Ne, div_eq_one_iff_eq hp.ne']; intro hc; linarith)
  have hN : (0 : ℝ) < N := Nat.cast_pos.2 (Nat.zero_lt_of_lt hP.rows)
  have h2 := mul_lt_mul_of_pos_left h1' hN
  have h3 : (N : ℝ) * ((N - q) / (N - p) - 1) + (q - p) = -(p * (q - p)) / (N - p) := by
    field_simp
    ring
  have h4 : -((p : ℝ) * (q - p)) / (N - p) ≤ 0 :=
    div_nonpos_of_nonpos_of_nonneg (neg_nonpos.2 (mul_nonneg (Nat.cast_nonneg p) (by linarith))) hp.le
  linarith

end Verif.Glrt
