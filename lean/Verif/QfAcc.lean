import Verif.QfLemmas

/-!
# Lemmas on the result of `qf` without auxiliary integrations
-/

namespace Verif.Qf

open Real MeasureTheory ProbabilityTheory Filter Topology

theorem finish_aux (cs : Comps) (c acc tau sigsq xnt xlim intv intl ersm : ℝ) (k : ℕ) :
    (finish cs c acc tau sigsq xnt xlim intv intl ersm k).aux = k ∧ (finish cs c acc tau sigsq xnt xlim intv intl ersm k).tausq = tau := by
  unfold finish
  split_ifs <;> exact ⟨rfl, rfl⟩

theorem range_aux (cs : Comps) (c acc tau lmin lmax mean : ℝ) : ∀ (f b : ℕ) (up un utx acc1 xlim sigsq intl ersm : ℝ) (k : ℕ),
    k ≤ (range cs c acc tau lmin lmax mean f b up un utx acc1 xlim sigsq intl ersm k).aux ∧
      (range cs c acc tau lmin lmax mean f b up un utx acc1 xlim sigsq intl ersm k).tausq = tau := by
  intro f
  induction f with
  | zero => intros; unfold range; exact ⟨le_rfl, rfl⟩
  | succ f ih =>
    intro b up un utx acc1 xlim sigsq intl ersm k
    unfold range
    dsimp only
    have hfin : ∀ (xnt intv : ℝ), k ≤ (finish cs c acc tau sigsq xnt xlim intv intl ersm k).aux ∧
        (finish cs c acc tau sigsq xnt xlim intv intl ersm k).tausq = tau :=
      fun xnt intv => ⟨(finish_aux ..).1.ge, (finish_aux ..).2⟩
    rcases ctff cs sigsq acc1 lmin lmax mean b up with _ | ⟨⟨up', c1⟩, b1⟩
    · exact ⟨le_rfl, rfl⟩
    dsimp only
    by_cases h1 : c1 - c < 0
    · rw [if_pos h1]; exact ⟨le_rfl, rfl⟩
    rw [if_neg h1]
    rcases ctff cs sigsq acc1 lmin lmax mean b1 un with _ | ⟨⟨un', c2⟩, b2⟩
    · exact ⟨le_rfl, rfl⟩
    dsimp only
    by_cases h2 : c - c2 < 0
    · rw [if_pos h2]; exact ⟨le_rfl, rfl⟩
    rw [if_neg h2]
    by_cases h3 : 3 / √acc1 * (3 / 2) < utx / (2 * π / max (c1 - c) (c - c2))
    · rw [if_pos h3]
      by_cases h4 : xlim < 3 / √acc1
      · rw [if_pos h4]; exact ⟨le_rfl, rfl⟩
      rw [if_neg h4]
      by_cases h5 : |c| < 2 * π / (utx / (⌊3 / √acc1 + 1 / 2⌋₊ : ℝ))
      · rw [if_pos h5]
        rcases b2 with _ | _ | b2
        · exact ⟨le_rfl, rfl⟩
        · exact ⟨le_rfl, rfl⟩
        dsimp only
        rcases cfe cs (theta cs) (c - 2 * π / (utx / (⌊3 / √acc1 + 1 / 2⌋₊ : ℝ))) with _ | e1
        · exact hfin _ _
        rcases cfe cs (theta cs) (c + 2 * π / (utx / (⌊3 / √acc1 + 1 / 2⌋₊ : ℝ))) with _ | e2
        · exact hfin _ _
        dsimp only
        rcases findu cs (sigsq + 33 / 100 * acc1 / (11 / 10 * (e1 + e2))) (1 / 4 * (67 / 100 * acc1)) b2 utx with _ | ⟨utx', b3⟩
        · exact ⟨Nat.le_succ k, rfl⟩
        · obtain ⟨i1, i2⟩ := ih b3 up' un' utx' (3 / 4 * (67 / 100 * acc1)) (xlim - 3 / √acc1)
            (sigsq + 33 / 100 * acc1 / (11 / 10 * (e1 + e2)))
            (intl + (integrate cs sigsq c ⌊3 / √acc1 + 1 / 2⌋₊ (utx / (⌊3 / √acc1 + 1 / 2⌋₊ : ℝ))
              (some (33 / 100 * acc1 / (11 / 10 * (e1 + e2))))).1)
            (ersm + (integrate cs sigsq c ⌊3 / √acc1 + 1 / 2⌋₊ (utx / (⌊3 / √acc1 + 1 / 2⌋₊ : ℝ))
              (some (33 / 100 * acc1 / (11 / 10 * (e1 + e2))))).2) (k + 1)
          exact ⟨(Nat.le_succ k).trans i1, i2⟩
      · rw [if_neg h5]; exact hfin _ _
    · rw [if_neg h3]; exact hfin _ _

/-- Result of the last part of `qf` if no auxiliary integration was carried out. -/
theorem range_accuracy {cs : Comps} (hn : ∀ p ∈ cs, 0 ≤ p.2) {v : NNReal} (hv : VarPos cs v) {acc : ℝ} (ha : 4 * exp (-50) ≤ acc) {accx : ℝ}
    (hx0 : exp (-50) ≤ accx) (hx1 : accx < 1) (hx2 : accx ≤ 1 / 2 * acc) {lmin lmax : ℝ} (hE : Ext cs lmin lmax) {U : ℝ} (hU : 0 < U)
    (ht : truncation cs U 0 v ≤ accx) {up : ℝ} (hup : 0 < up) (c tau : ℝ) (f b : ℕ) (lim : ℤ)
    (hf : (range cs c acc tau lmin lmax (mean cs) f b up (-up) U (1 / 2 * acc) lim v 0 0 0).fault = 0)
    (hx : (range cs c acc tau lmin lmax (mean cs) f b up (-up) U (1 / 2 * acc) lim v 0 0 0).aux = 0) :
    |(range cs c acc tau lmin lmax (mean cs) f b up (-up) U (1 / 2 * acc) lim v 0 0 0).val - (sumLaw (spread cs) v).real (Set.Iio c)|
      ≤ acc + (lim.toNat + 1) * exp (-50) := by
  have he := exp_pos (-50 : ℝ)
  have hlim : (0 : ℝ) ≤ (lim.toNat + 1) * exp (-50) := by positivity
  cases f with
  | zero => simp [range] at hf
  | succ f =>
    have hr : ∀ R : Res, R = range cs c acc tau lmin lmax (mean cs) (f + 1) b up (-up) U (1 / 2 * acc) lim v 0 0 0 → R.fault = 0 → R.aux = 0 →
        |R.val - (sumLaw (spread cs) v).real (Set.Iio c)| ≤ acc + (lim.toNat + 1) * exp (-50) := by
      intro R hR hf hx
      unfold range at hR
      dsimp only at hR
      rcases hc1 : ctff cs v (1 / 2 * acc) lmin lmax (mean cs) b up with _ | ⟨⟨up', c1⟩, b1⟩
      · rw [hc1] at hR; dsimp only at hR; rw [hR] at hf; simp at hf
      rw [hc1] at hR
      dsimp only at hR
      obtain ⟨m1, t1⟩ := ctff_upper hn hv hE (by linarith) hup hc1
      dsimp only at m1 t1
      by_cases h1 : c1 - c < 0
      · rw [if_pos h1] at hR
        rw [hR]
        dsimp only
        have hle : (sumLaw (spread cs) v).real (Set.Ici c) ≤ 1 / 2 * acc :=
          le_trans (measureReal_mono (Set.Ici_subset_Ici.2 (by linarith))) t1
        have hco : (sumLaw (spread cs) v).real (Set.Ici c) = 1 - (sumLaw (spread cs) v).real (Set.Iio c) := by
          rw [← probReal_compl_eq_one_sub measurableSet_Iio, Set.compl_Iio]
        have h0 : (sumLaw (spread cs) v).real (Set.Iio c) ≤ 1 := measureReal_le_one
        rw [abs_le]
        constructor <;> linarith
      rw [if_neg h1] at hR
      rcases hc2 : ctff cs v (1 / 2 * acc) lmin lmax (mean cs) b1 (-up) with _ | ⟨⟨un', c2⟩, b2⟩
      · rw [hc2] at hR; dsimp only at hR; rw [hR] at hf; simp at hf
      rw [hc2] at hR
      dsimp only at hR
      obtain ⟨m2, t2⟩ := ctff_lower hn hv hE (by linarith) (by linarith) hc2
      dsimp only at m2 t2
      by_cases h2 : c - c2 < 0
      · rw [if_pos h2] at hR
        rw [hR]
        dsimp only
        have hle : (sumLaw (spread cs) v).real (Set.Iio c) ≤ 1 / 2 * acc :=
          le_trans (measureReal_mono (fun x (hx : x < c) => (by rw [Set.mem_Iic]; linarith : x ∈ Set.Iic c2))) t2
        have h0 : 0 ≤ (sumLaw (spread cs) v).real (Set.Iio c) := measureReal_nonneg
        rw [abs_le]
        constructor <;> linarith
      rw [if_neg h2] at hR
      -- main integration
      have hfin : R = finish cs c acc tau v (U / (2 * π / max (c1 - c) (c - c2))) lim (2 * π / max (c1 - c) (c - c2)) 0 0 0 →
          |R.val - (sumLaw (spread cs) v).real (Set.Iio c)| ≤ acc + (lim.toNat + 1) * exp (-50) := by
        intro hR
        obtain ⟨Δ, hΔ⟩ : ∃ Δ, Δ = 2 * π / max (c1 - c) (c - c2) := ⟨_, rfl⟩
        rw [← hΔ] at hR
        have hm := main_error hn hv hU hx0 hx1 ht (by linarith : c2 < c1) t1 t2 hΔ
        unfold finish at hR
        by_cases hl : (lim : ℝ) < U / Δ
        · rw [if_pos hl] at hR; rw [hR] at hf; simp at hf
        rw [if_neg hl] at hR
        dsimp only at hR
        rw [hR]
        dsimp only
        rw [zero_add]
        refine hm.trans ?_
        have hfl : (⌊U / Δ + 1 / 2⌋₊ : ℝ) ≤ (lim.toNat : ℝ) := by
          have hl2 : (lim : ℝ) ≤ (lim.toNat : ℝ) := by exact_mod_cast Int.self_le_toNat lim
          have : ⌊U / Δ + 1 / 2⌋₊ < lim.toNat + 1 := by
            refine (Nat.floor_lt' (by omega)).2 ?_
            push_cast
            linarith [not_lt.1 hl]
          exact_mod_cast Nat.lt_succ_iff.1 this
        nlinarith
      by_cases h3 : 3 / √(1 / 2 * acc) * (3 / 2) < U / (2 * π / max (c1 - c) (c - c2))
      · rw [if_pos h3] at hR
        by_cases h4 : (lim : ℝ) < 3 / √(1 / 2 * acc)
        · rw [if_pos h4] at hR; rw [hR] at hf; simp at hf
        rw [if_neg h4] at hR
        by_cases h5 : |c| < 2 * π / (U / (⌊3 / √(1 / 2 * acc) + 1 / 2⌋₊ : ℝ))
        · rw [if_pos h5] at hR
          rcases b2 with _ | _ | b2
          · dsimp only at hR; rw [hR] at hf; simp at hf
          · dsimp only at hR; rw [hR] at hf; simp at hf
          dsimp only at hR
          rcases hf1 : cfe cs (theta cs) (c - 2 * π / (U / (⌊3 / √(1 / 2 * acc) + 1 / 2⌋₊ : ℝ))) with _ | e1
          · rw [hf1] at hR; exact hfin hR
          rcases hf2 : cfe cs (theta cs) (c + 2 * π / (U / (⌊3 / √(1 / 2 * acc) + 1 / 2⌋₊ : ℝ))) with _ | e2
          · rw [hf1, hf2] at hR; exact hfin hR
          rw [hf1, hf2] at hR
          dsimp only at hR
          rcases hu : findu cs (v + 33 / 100 * (1 / 2 * acc) / (11 / 10 * (e1 + e2))) (1 / 4 * (67 / 100 * (1 / 2 * acc))) b2 U with _ | ⟨utx', b3⟩
          · rw [hu] at hR; dsimp only at hR; rw [hR] at hf; simp at hf
          rw [hu] at hR
          dsimp only at hR
          exfalso
          have := (range_aux cs c acc tau lmin lmax (mean cs) f b3 up' un' utx' (3 / 4 * (67 / 100 * (1 / 2 * acc))) (lim - 3 / √(1 / 2 * acc))
            (v + 33 / 100 * (1 / 2 * acc) / (11 / 10 * (e1 + e2)))
            (0 + (integrate cs v c ⌊3 / √(1 / 2 * acc) + 1 / 2⌋₊ (U / (⌊3 / √(1 / 2 * acc) + 1 / 2⌋₊ : ℝ))
              (some (33 / 100 * (1 / 2 * acc) / (11 / 10 * (e1 + e2))))).1)
            (0 + (integrate cs v c ⌊3 / √(1 / 2 * acc) + 1 / 2⌋₊ (U / (⌊3 / √(1 / 2 * acc) + 1 / 2⌋₊ : ℝ))
              (some (33 / 100 * (1 / 2 * acc) / (11 / 10 * (e1 + e2))))).2) (0 + 1)).1
          rw [← hR] at this
          omega
        · rw [if_neg h5] at hR; exact hfin hR
      · rw [if_neg h3] at hR; exact hfin hR
    exact hr _ rfl hf hx

theorem cfe_nonneg {cs : Comps} {th : List ℕ} {x e : ℝ} (h : cfe cs th x = some e) : 0 ≤ e := by
  unfold cfe at h
  dsimp only at h
  split_ifs at h <;>
  · rw [← Option.some.inj h]
    exact div_nonneg (rpow_nonneg (by norm_num) _) (by positivity)

/-- What the choice of a convergence factor leaves behind. -/
theorem factorStep_spec {cs : Comps} {c acc sigsq almx sd : ℝ} {b : ℕ} {utx : ℝ} {r : (ℝ × ℝ × ℝ) × ℕ} (ha : 0 ≤ acc) (hu : 0 < utx)
    (ht : truncation cs utx 0 sigsq ≤ 1 / 2 * acc) (h : factorStep cs c acc sigsq almx sd b utx = some r) :
    0 ≤ r.1.1 ∧ r.1.2.1 = sigsq + r.1.1 ∧ 0 < r.1.2.2 ∧ truncation cs r.1.2.2 0 r.1.2.1 ≤ 1 / 2 * acc := by
  have hsame : ∀ b', r = ((0, sigsq, utx), b') → 0 ≤ r.1.1 ∧ r.1.2.1 = sigsq + r.1.1 ∧ 0 < r.1.2.2 ∧ truncation cs r.1.2.2 0 r.1.2.1 ≤ 1 / 2 * acc := by
    rintro b' rfl
    exact ⟨le_rfl, by simp, hu, ht⟩
  unfold factorStep at h
  by_cases hc : c ≠ 0 ∧ 7 / 100 * sd < almx
  · rw [if_pos hc] at h
    rcases b with _ | b
    · simp at h
    dsimp only at h
    rcases he : cfe cs (theta cs) c with _ | e
    · rw [he] at h; dsimp only at h
      exact hsame b (Option.some.inj h).symm
    rw [he] at h
    dsimp only at h
    rcases b with _ | b
    · simp at h
    dsimp only at h
    by_cases htr : truncation cs utx (1 / 4 * acc / e) sigsq < 1 / 5 * acc
    · rw [if_pos htr] at h
      rcases hf : findu cs (sigsq + 1 / 4 * acc / e) (1 / 4 * acc) b utx with _ | ⟨utx', b'⟩
      · rw [hf] at h; simp at h
      rw [hf] at h
      dsimp only at h
      have hs := findu_spec hu hf
      rw [← Option.some.inj h]
      refine ⟨div_nonneg (by linarith) (cfe_nonneg he), rfl, hs.1, hs.2.trans (by linarith)⟩
    · rw [if_neg htr] at h
      exact hsame b (Option.some.inj h).symm
  · rw [if_neg hc] at h
    exact hsame b (Option.some.inj h).symm

theorem chi_degenerate {e : List ℝ} (h : ∀ a ∈ e, a = 0) : Wald.chi e = Measure.dirac 0 := by
  refine Measure.ext_of_charFun ?_
  funext t
  rw [chi_charFun, charFun_dirac]
  have h1 : (e.map fun a => -(1 / 4) * log (1 + (2 * a * t) ^ 2)).sum = 0 := by
    rw [List.map_congr_left (g := fun _ => 0) fun a ha => by rw [h a ha]; simp]
    simp
  have h2 : (e.map fun a => 1 / 2 * arctan (2 * a * t)).sum = 0 := by
    rw [List.map_congr_left (g := fun _ => 0) fun a ha => by rw [h a ha]; simp]
    simp
  rw [h1, h2]
  simp

end Verif.Qf
