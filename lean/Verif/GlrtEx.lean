import Verif.Glrt
import Verif.SmoGlmEx

/-!
# Cases for C146, and nested Gaussian models for which there is no decision
-/

namespace Verif.Glrt
open Verif Matrix Fl Fam Compare

variable {N p q : ℕ} {vb : Settings → Mod → VB} {fcdf : ℝ → ℝ → ℝ → ℝ} {ccdf : ℝ → ℝ → ℝ}

/-- Mean of four observations. -/
noncomputable def mean4 (y : Fin 4 → ℝ) : Pirls.In 4 1 := ⟨fun _ => .gaussian, .identity, y, fun _ _ => 1, 0, 0⟩

/-- Mean and a difference between the first and the last two observations. -/
noncomputable def diff4 (y : Fin 4 → ℝ) : Pirls.In 4 2 := ⟨fun _ => .gaussian, .identity, y, !![1, 1; 1, 1; 1, -1; 1, -1], 0, 0⟩

theorem nested4 (y : Fin 4 → ℝ) : Nest.Larger (mean4 y) (diff4 y) fun _ => 0 :=
  ⟨fun a c _ => Subsingleton.elim a c, rfl, rfl, rfl, rfl, fun i _ => by fin_cases i <;> rfl, fun _ _ => rfl⟩

theorem mean4_good (y : Fin 4 → ℝ) : Pirls.Good (mean4 y) 1 := ⟨fun _ => trivial, one_pos, fun _ => Or.inr rfl, PosSemidef.zero⟩

theorem diff4_good (y : Fin 4 → ℝ) : Pirls.Good (diff4 y) 1 := ⟨fun _ => trivial, one_pos, fun _ => Or.inr rfl, PosSemidef.zero⟩

theorem mean4_ident (y : Fin 4 → ℝ) : Pirls.Ident (mean4 y) := by
  intro v h _
  have := h 0
  funext a
  fin_cases a
  simpa [mean4] using this

theorem diff4_ident (y : Fin 4 → ℝ) : Pirls.Ident (diff4 y) := by
  intro v h _
  have h0 := h 0
  have h2 := h 2
  simp [diff4, Fin.sum_univ_two] at h0 h2
  funext a
  fin_cases a <;> simp <;> linarith

theorem mean4_fixed {y : Fin 4 → ℝ} {m : ℝ} (h : y 0 + y 1 + y 2 + y 3 = 4 * m) : Pirls.next (mean4 y) ![m] = ![m] := by
  rw [Ifc.next_iff (mean4_good y) (mean4_ident y) (Pirls.adm_total (x := mean4 y) (fun _ => trivial) _)]
  intro a
  fin_cases a
  simp [Fin.sum_univ_four, Pirls.uR, Pirls.uF, mean4, Pirls.eta, LinkKind.fiR, LinkKind.d1R, FamKind.VR, Matrix.mulVec, dotProduct]
  linarith

theorem diff4_fixed {y : Fin 4 → ℝ} {m d : ℝ} (h : y 0 + y 1 + y 2 + y 3 = 4 * m) (h' : y 0 + y 1 - y 2 - y 3 = 4 * d) :
    Pirls.next (diff4 y) ![m, d] = ![m, d] := by
  rw [Ifc.next_iff (diff4_good y) (diff4_ident y) (Pirls.adm_total (x := diff4 y) (fun _ => trivial) _)]
  intro a
  fin_cases a <;>
    simp [Fin.sum_univ_four, Fin.sum_univ_two, Pirls.uR, Pirls.uF, diff4, Pirls.eta, LinkKind.fiR, LinkKind.d1R, FamKind.VR, Matrix.mulVec,
      dotProduct] <;>
    linarith

theorem mean4_rss (y : Fin 4 → ℝ) (m : ℝ) : rss (mean4 y) ![m] = (y 0 - m) ^ 2 + (y 1 - m) ^ 2 + (y 2 - m) ^ 2 + (y 3 - m) ^ 2 := by
  simp [rss, mean4, Fin.sum_univ_four]

theorem diff4_rss (y : Fin 4 → ℝ) (m d : ℝ) :
    rss (diff4 y) ![m, d] = (y 0 - (m + d)) ^ 2 + (y 1 - (m + d)) ^ 2 + (y 2 - (m + -d)) ^ 2 + (y 3 - (m + -d)) ^ 2 := by
  simp [rss, diff4, Fin.sum_univ_four, Fin.sum_univ_two]

/-- A fitted Gaussian model without penalties, as read by `compare_CDL`. -/
noncomputable def read (x : Pirls.In N p) (b : Fin p → ℝ) : Mod :=
  ⟨-(N / 2 * Real.log (2 * Real.pi * scale x b)) - rss x b / (2 * scale x b), p, p, p, N, true, false, 0⟩

theorem reads {x : Pirls.In N p} {b : Fin p → ℝ} (hx : ∀ i, x.fam i = .gaussian) (hk : x.lk = .identity) (hN : p < N) (h0 : 0 < rss x b) :
    Reads x (scale x b) b (read x b) := by
  refine ⟨gauss_llk hx hk ?_ b, rfl, rfl, rfl, rfl⟩
  rw [scale_eq]
  exact div_pos h0 (sub_pos.2 (Nat.cast_lt.2 hN))

theorem pair4 {y : Fin 4 → ℝ} {m d : ℝ} (h : 0 < rss (mean4 y) ![m]) (h' : 0 < rss (diff4 y) ![m, d]) :
    Pair (mean4 y) (diff4 y) ![m] ![m, d] (read (diff4 y) ![m, d]) (read (mean4 y) ![m]) :=
  ⟨fun _ => rfl, rfl, fun _ => rfl, rfl, by norm_num, by norm_num, h, h', reads (fun _ => rfl) rfl (by norm_num) h',
    reads (fun _ => rfl) rfl (by norm_num) h⟩

/-- `Gaussian`: a scale parameter, not an `ExtendedFamily`. -/
def famG : Fams := ⟨true, true, false⟩

theorem runs {x : Pirls.In N p} {x' : Pirls.In N q} {b : Fin p → ℝ} {b' : Fin q → ℝ} (h : p ≤ q) :
    ∃ r, compareCDL vb fcdf ccdf famG uG (read x' b') (read x b) = some r := by
  unfold compareCDL
  simp only
  rw [if_neg (by simp [famG]), if_neg (by simp [read, h])]
  exact ⟨_, rfl⟩

/-- C146 fails: observations 1, -1, 1, -1, a mean, and a column with which they are not correlated.  Both fits are exact least squares fits without
penalties, and the test that was asked for is not decided. -/
theorem gaussian_wrong : ∃ (x : Pirls.In 4 1) (x' : Pirls.In 4 2) (J : Fin 1 → Fin 2) (b : Fin 1 → ℝ) (b' : Fin 2 → ℝ) (m1 m2 : Mod),
    Nest.Larger x x' J ∧ x.S = 0 ∧ x'.S = 0 ∧ Pirls.Ident x ∧ Pirls.Ident x' ∧ Pirls.next x b = b ∧ Pirls.next x' b' = b' ∧
    Pair x x' b b' m1 m2 ∧
    ∀ vb fcdf ccdf, ∃ r, compareCDL vb fcdf ccdf famG uG m1 m2 = some r ∧ r.H1 = none := by
  have a0 : rss (mean4 ![1, -1, 1, -1]) ![0] = 4 := by rw [mean4_rss]; simp; norm_num
  have a1 : rss (diff4 ![1, -1, 1, -1]) ![0, 0] = 4 := by rw [diff4_rss]; simp; norm_num
  have hP := pair4 (y := ![1, -1, 1, -1]) (m := 0) (d := 0) (by rw [a0]; norm_num) (by rw [a1]; norm_num)
  refine ⟨_, _, _, _, _, _, _, nested4 ![1, -1, 1, -1], rfl, rfl, mean4_ident _, diff4_ident _, mean4_fixed (m := 0) (by simp),
    diff4_fixed (m := 0) (d := 0) (by simp) (by simp), hP, fun vb fcdf ccdf => ?_⟩
  obtain ⟨r, hr⟩ := runs (vb := vb) (fcdf := fcdf) (ccdf := ccdf) (x := mean4 ![1, -1, 1, -1]) (x' := diff4 ![1, -1, 1, -1]) (b := ![0])
    (b' := ![0, 0]) (by norm_num)
  exact ⟨r, hr, gaussian_undecided hP (by rw [a0, a1]) hr rfl rfl rfl⟩

/-- Observations 2, 0, -2, 0: the scale estimate drops from 8/3 to 2, and there is a decision. -/
example : ∃ r, compareCDL vb fcdf ccdf famG uG (read (diff4 ![2, 0, -2, 0]) ![0, 1]) (read (mean4 ![2, 0, -2, 0]) ![0]) = some r ∧ r.H1 ≠ none ∧
    r.stat = (4 : ℕ) * Real.log (scale (mean4 ![2, 0, -2, 0]) ![0] / scale (diff4 ![2, 0, -2, 0]) ![0, 1]) + (((2 : ℕ) : ℝ) - (1 : ℕ)) := by
  have a0 : rss (mean4 ![2, 0, -2, 0]) ![0] = 8 := by rw [mean4_rss]; simp; norm_num
  have a1 : rss (diff4 ![2, 0, -2, 0]) ![0, 1] = 4 := by rw [diff4_rss]; simp; norm_num
  have hP := pair4 (y := ![2, 0, -2, 0]) (m := 0) (d := 1) (by rw [a0]; norm_num) (by rw [a1]; norm_num)
  obtain ⟨r, hr⟩ := runs (vb := vb) (fcdf := fcdf) (ccdf := ccdf) (x := mean4 ![2, 0, -2, 0]) (x' := diff4 ![2, 0, -2, 0]) (b := ![0])
    (b' := ![0, 1]) (by norm_num)
  exact ⟨r, hr, gaussian_partial hP (by rw [scale_eq, scale_eq, a0, a1]; norm_num) hr rfl rfl rfl, (gaussian_iff hP hr rfl rfl rfl).1⟩

theorem llk_fin {x : Pirls.In N p} {s : ℝ} (hg : Pirls.Good x s) {b : Fin p → ℝ} (hb : Pirls.Adm x b) : ∃ l, llk x s b = fin l := by
  have h := Pirls.pllk_eq hg hb
  change llk x s b - _ = _ at h
  cases hl : llk x s b with
  | fin l => exact ⟨l, rfl⟩
  | _ =>
    rw [hl] at h
    cases h

/-- A Poisson count of 3 with mean 1 and with a log mean to be estimated. -/
noncomputable def ct0 : Pirls.In 1 0 := ⟨fun _ => .poisson, .log, ![3], fun _ a => a.elim0, 0, 0⟩

example : ∃ l1 l2, llk (SmoG.ct 0) 1 ![Real.log 3] = fin l1 ∧ llk ct0 1 ![] = fin l2 ∧
    ∀ r, compareCDL vb fcdf ccdf famN uG ⟨l1, 1, 1, 1, 1, false, false, 0⟩ ⟨l2, 0, 0, 0, 1, false, false, 0⟩ = some r → r.H1 ≠ none := by
  have hg := SmoG.ct_good (l := 0) le_rfl
  have hl : Nest.Larger ct0 (SmoG.ct 0) Fin.elim0 := ⟨fun a => a.elim0, rfl, rfl, rfl, rfl, fun _ a => a.elim0, fun a => a.elim0⟩
  have h0 : Pirls.Good ct0 1 := ⟨fun i => ⟨3, by fin_cases i; simp [ct0]⟩, one_pos, fun _ => Or.inr rfl, PosSemidef.zero⟩
  have ha : Pirls.Adm ct0 ![] := Pirls.adm_total (x := ct0) (fun _ => trivial) _
  obtain ⟨l1, e1⟩ := llk_fin hg (SmoG.ct_adm 0 ![Real.log 3])
  obtain ⟨l2, e2⟩ := llk_fin h0 ha
  exact ⟨l1, l2, e1, e2, fun r hr => gamm_partial hl rfl hg (SmoG.ct_ident 0) (fun _ => trivial) (SmoG.ct_adm 0 _)
    (SmoG.ct_fixed le_rfl (by rw [Real.exp_log (by norm_num)]; norm_num)) ha e1 e2 hr rfl⟩

/-- A quadratic log-likelihood and the model without coefficients. -/
example {r : Result} (h : compareCDL vb fcdf ccdf famN uG ⟨-(1 / 2 - 1) ^ 2 / 2, 1, 1, 1, 1, false, false, 0⟩
    ⟨-(0 - 1) ^ 2 / 2, 0, 0, 0, 1, false, false, 0⟩ = some r) : r.H1 ≠ none :=
  newton_partial (x := ⟨fun _ => .fin (-(0 - 1) ^ 2 / 2), fun _ _ => 0, fun _ => 0, 0, fun _ => none, fun _ _ => 0⟩) (x' := Lml.quad1)
    (J := Fin.elim0) (c' := fun _ => 1 / 2) (c := ![]) (fun a => a.elim0) (fun c => by
      have : Nest.pad (Fin.elim0 : Fin 0 → Fin 1) c 0 = 0 := Function.extend_apply' _ _ _ fun ⟨a, _⟩ => a.elim0
      simp [Lml.quad1, this]) rfl (fun a => a.elim0) (by
      show (diagonal fun _ => (1 : ℝ)).PosSemidef
      rw [diagonal_one]
      exact PosSemidef.one) Lml.quad1_concave (Lml.quad1_reg _) (Lml.quad1_grad _) (Lml.quad1_step _) rfl rfl h rfl

end Verif.Glrt
