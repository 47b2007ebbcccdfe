import Verif.NutsInv
import Mathlib.Dynamics.Ergodic.MeasurePreserving
import Mathlib.MeasureTheory.Group.Prod
import Mathlib.MeasureTheory.Integral.Lebesgue.Add
import Mathlib.MeasureTheory.Measure.Haar.Unique
import Mathlib.MeasureTheory.Constructions.BorelSpace.Metric
import Mathlib.MeasureTheory.Function.SpecialFunctions.Basic
import Mathlib.MeasureTheory.Integral.ExpDecay
import Mathlib.MeasureTheory.Integral.Gamma

namespace Verif.Nuts

open Matrix Finset MeasureTheory
open scoped ENNReal

variable {p : ℕ}

/-! ### The leapfrog step preserves volume -/

section
variable (T : Target p) (hgrad : Measurable T.grad)

include hgrad in
theorem kick_preserving (c : ℝ) : MeasurePreserving (fun w : Ph p => ((w.1, w.2 + c • T.grad w.1) : Ph p)) := by
  refine MeasurePreserving.skew_product (MeasurePreserving.id volume) (g := fun (a b : Fin p → ℝ) => b + c • T.grad a) ?_ ?_
  · exact measurable_snd.add ((hgrad.comp measurable_fst).const_smul c)
  · exact ae_of_all _ fun a => (measurePreserving_add_right volume (c • T.grad a)).map_eq

theorem drift_preserving (c : ℝ) : MeasurePreserving (fun w : Ph p => ((w.1 + c • (T.Minv *ᵥ w.2), w.2) : Ph p)) := by
  have h : MeasurePreserving (fun w : Ph p => ((w.1, w.2 + c • (T.Minv *ᵥ w.1)) : Ph p)) := by
    refine MeasurePreserving.skew_product (MeasurePreserving.id volume) (g := fun (a b : Fin p → ℝ) => b + c • (T.Minv *ᵥ a)) ?_ ?_
    · exact measurable_snd.add ((meas_mulVec T.Minv measurable_fst).const_smul c)
    · exact ae_of_all _ fun a => (measurePreserving_add_right volume (c • (T.Minv *ᵥ a))).map_eq
  have hs : MeasurePreserving (Prod.swap : Ph p → Ph p) := Measure.measurePreserving_swap
  exact hs.comp (h.comp hs)

include hgrad in
theorem leap_preserving (eps : ℝ) : MeasurePreserving (leap T eps) := by
  have h := (kick_preserving T hgrad (1 / 2 * eps)).comp ((drift_preserving T eps).comp (kick_preserving T hgrad (1 / 2 * eps)))
  exact h

include hgrad in
theorem orb_preserving (eps : ℝ) (k : ℤ) : MeasurePreserving (fun w : Ph p => orb T eps w k) := by
  induction k using Int.induction_on with
  | zero => simp only [orb_zero]; exact MeasurePreserving.id _
  | succ k ih => simp only [orb_succ]; exact (leap_preserving T hgrad eps).comp ih
  | pred k ih => simp only [orb_pred]; exact (leap_preserving T hgrad (-eps)).comp ih

end

/-! ### Balance over phase space -/

section
variable (T : Target p) (it : Iter) (z : ℤ → Ph p)

/-- One extension in direction `v` followed by the rest of the loop. -/
noncomputable def goV (f : ℤ → NNReal) (fuel j : ℕ) (v : Bool) (lo hi k : ℤ) : NNReal :=
  let g := grow T it z j v lo hi
  let nt := newTree T it z j v lo hi
  if g.2.2.1 then
    accQ (cnt T it z nt.1 nt.2) (cnt T it z lo hi) *
      ((∑ k2 ∈ Icc nt.1 nt.2 with Valid T it z k2, kern T it z f fuel (j + 1) g.1 g.2.1 g.2.2.2 k2) / (cnt T it z nt.1 nt.2 : NNReal)) +
    (1 - accQ (cnt T it z nt.1 nt.2) (cnt T it z lo hi)) * kern T it z f fuel (j + 1) g.1 g.2.1 g.2.2.2 k
  else kern T it z f fuel (j + 1) g.1 g.2.1 g.2.2.2 k

theorem kern_succ (f : ℤ → NNReal) (fuel j : ℕ) (lo hi k : ℤ) :
    kern T it z f (fuel + 1) j lo hi true k = 1 / 2 * goV T it z f fuel j false lo hi k + 1 / 2 * goV T it z f fuel j true lo hi k := rfl

theorem goV_shift (c : ℤ) (f : ℤ → NNReal) (fuel j : ℕ) (v : Bool) (lo hi k : ℤ) :
    goV T it (fun k => z (k + c)) (fun k => f (k + c)) fuel j v lo hi k = goV T it z f fuel j v (lo + c) (hi + c) (k + c) := by
  have hsum : ∀ (a b : ℤ) (j : ℕ) (l h : ℤ) (s : Bool),
      ∑ k2 ∈ Icc a b with Valid T it (fun k => z (k + c)) k2, kern T it z f fuel j l h s (k2 + c) =
      ∑ k2 ∈ Icc (a + c) (b + c) with Valid T it z k2, kern T it z f fuel j l h s k2 := by
    intro a b j l h s
    rw [sum_filter, sum_filter]
    exact sum_Icc_shift c (fun k2 => if Valid T it z k2 then kern T it z f fuel j l h s k2 else 0) a b
  have hb := shape_shift T it z c j false lo
  have hf := shape_shift T it z c j true hi
  cases v <;>
  simp only [goV, kern_shift, cnt_shift, hsum, grow, newTree, if_true, Bool.false_eq_true, if_false, chk_shift, hb.1, hb.2.1, hb.2.2, hf.1, hf.2.1, hf.2.2]

/-- The contribution of the block at `lo`. -/
noncomputable def blk (j : ℕ) (G : ℤ → NNReal) (lo : ℤ) : NNReal := if ok T it z j lo then bsum T it z j G lo else 0

theorem blk_shift (c : ℤ) (j : ℕ) (G : ℤ → NNReal) (lo : ℤ) :
    blk T it (fun k => z (k + c)) j (fun k => G (k + c)) lo = blk T it z j G (lo + c) := by
  unfold blk
  rw [ok_shift, bsum_shift]

theorem pair_step' (f : ℤ → NNReal) (fuel j : ℕ) :
    blk T it z j (goV T it z f fuel j true 0 (2 ^ j - 1)) 0 +
      blk T it z j (goV T it z f fuel j false (2 ^ j) (2 ^ j + 2 ^ j - 1)) (2 ^ j) =
    blk T it z (j + 1) (kern T it z f fuel (j + 1) 0 (2 ^ (j + 1) - 1) true) 0 +
      (if ok T it z (j + 1) 0 then 0 else blk T it z j f 0 + blk T it z j f (2 ^ j)) := by
  have := pair_step T it z f fuel j 0
  simp only [zero_add] at this
  simp only [blk]
  refine Eq.trans this ?_
  by_cases h : ok T it z (j + 1) 0 = true
  · rw [if_pos h, if_pos h, if_pos h, add_zero]
  · rw [if_neg h, if_neg h, if_neg h, zero_add]

theorem split_step (f : ℤ → NNReal) (j : ℕ) :
    blk T it z j f 0 + blk T it z j f (2 ^ j) =
    blk T it z (j + 1) f 0 + (if ok T it z (j + 1) 0 then 0 else blk T it z j f 0 + blk T it z j f (2 ^ j)) := by
  by_cases h : ok T it z (j + 1) 0 = true
  · rw [if_pos h, add_zero]
    have hpw : (2 : ℤ) ^ (j + 1) = 2 ^ j + 2 ^ j := by rw [pow_succ]; ring
    have hpos : (0 : ℤ) < 2 ^ j := by positivity
    have hh : ok T it z j 0 = true ∧ ok T it z j (0 + 2 ^ j) = true := by
      have h' := h
      simp only [ok, Bool.and_eq_true] at h'
      exact ⟨h'.1, h'.2.1⟩
    rw [zero_add] at hh
    simp only [blk, if_pos h, if_pos hh.1, if_pos hh.2]
    unfold bsum
    rw [Icc_split (lo := 0) (mid := 0 + 2 ^ j - 1) (hi := 0 + 2 ^ (j + 1) - 1) (by omega) (by omega), filter_union, sum_union,
      show (0 : ℤ) + 2 ^ j - 1 + 1 = 2 ^ j by ring, show (0 : ℤ) + 2 ^ (j + 1) - 1 = 2 ^ j + 2 ^ j - 1 by omega]
    exact (Icc_disj _ _ _).mono (filter_subset _ _) (filter_subset _ _)
  · rw [if_neg h]
    simp only [blk, if_neg h, zero_add]

end

section
variable (T : Target p) (hllk : Measurable T.llk) (hgrad : Measurable T.grad)

include hgrad in
theorem meas_orb (eps : ℝ) (k : ℤ) : Measurable fun w : Ph p => orb T eps w k := (orb_preserving T hgrad eps k).measurable

theorem orb_shift (eps : ℝ) (w : Ph p) (c : ℤ) : orb T eps (orb T eps w c) = fun k => orb T eps w (k + c) := by
  funext k; exact orb_add T eps w c k

section
variable {Ω : Type*} [MeasurableSpace Ω] (L : Ω → ℝ) (hL : Measurable L) (e D : ℝ) (Z : Ω → ℤ → Ph p) (hZ : ∀ k, Measurable fun ω => Z ω k)

include hllk hL hZ in
theorem meas_blk (j : ℕ) (G : Ω → ℤ → NNReal) (hG : ∀ k, Measurable fun ω => G ω k) (lo : ℤ) :
    Measurable fun ω => blk T ⟨L ω, e, 0, D⟩ (Z ω) j (G ω) lo := by
  unfold blk bsum
  simp only [sum_filter]
  exact Measurable.ite (measurableSet_eq_fun (meas_ok T hllk L hL e D Z hZ j lo) measurable_const)
    (Finset.measurable_sum _ fun k _ => Measurable.ite (meas_valid T hllk L hL e D Z hZ k) (hG k) measurable_const) measurable_const

include hllk hL hZ in
theorem meas_goV (f : Ω → ℤ → NNReal) (hf : ∀ k, Measurable fun ω => f ω k) (fuel j : ℕ) (v : Bool) (lo hi k : ℤ) :
    Measurable fun ω => goV T ⟨L ω, e, 0, D⟩ (Z ω) (f ω) fuel j v lo hi k := by
  have hc := meas_cnt T hllk L hL e D Z hZ
  have ih := meas_kern T hllk L hL e D Z hZ f hf fuel
  exact meas_dep _ (meas_grow T hllk L hL e D Z hZ j v lo hi) _ fun a =>
    meas_step a.1.2.2.1 (fun ω => cnt T ⟨L ω, e, 0, D⟩ (Z ω) a.2.1 a.2.2) (fun ω => cnt T ⟨L ω, e, 0, D⟩ (Z ω) lo hi) (hc a.2.1 a.2.2) (hc lo hi)
      (fun ω k => Valid T ⟨L ω, e, 0, D⟩ (Z ω) k) (meas_valid T hllk L hL e D Z hZ)
      (fun k ω => kern T ⟨L ω, e, 0, D⟩ (Z ω) (f ω) fuel (j + 1) a.1.1 a.1.2.1 a.1.2.2.2 k) (fun k => ih (j + 1) a.1.1 a.1.2.1 a.1.2.2.2 k) a.2.1 a.2.2 k

end

variable (eps lu D : ℝ) (g : (Fin p → ℝ) → NNReal) (hg : Measurable g)

include hllk hgrad hg in
/-- Balance over phase space for a fixed slice level. -/
theorem balance_integral (fuel j : ℕ) :
    ∫⁻ w : Ph p, (blk T ⟨lu, eps, 0, D⟩ (orb T eps w) j
      (kern T ⟨lu, eps, 0, D⟩ (orb T eps w) (fun k => g (orb T eps w k).1) fuel j 0 (2 ^ j - 1) true) 0 : ℝ≥0∞) =
    ∫⁻ w : Ph p, (blk T ⟨lu, eps, 0, D⟩ (orb T eps w) j (fun k => g (orb T eps w k).1) 0 : ℝ≥0∞) := by
  induction fuel generalizing j with
  | zero => rfl
  | succ fuel ih =>
    set it : Iter := ⟨lu, eps, 0, D⟩ with hit
    let F : Ph p → NNReal := fun w => blk T it (orb T eps w) j (goV T it (orb T eps w) (fun k => g (orb T eps w k).1) fuel j true 0 (2 ^ j - 1)) 0
    let B : Ph p → NNReal := fun w => blk T it (orb T eps w) j (goV T it (orb T eps w) (fun k => g (orb T eps w k).1) fuel j false 0 (2 ^ j - 1)) 0
    let S : Ph p → NNReal := fun w => blk T it (orb T eps w) j (fun k => g (orb T eps w k).1) 0
    let K : Ph p → NNReal := fun w => blk T it (orb T eps w) (j + 1) (kern T it (orb T eps w) (fun k => g (orb T eps w k).1) fuel (j + 1) 0 (2 ^ (j + 1) - 1) true) 0
    let K' : Ph p → NNReal := fun w => blk T it (orb T eps w) (j + 1) (fun k => g (orb T eps w k).1) 0
    let E : Ph p → NNReal := fun w => if ok T it (orb T eps w) (j + 1) 0 then 0 else S w + S (orb T eps w (2 ^ j))
    have hZ : ∀ k, Measurable fun w : Ph p => orb T eps w k := meas_orb T hgrad eps
    have hf : ∀ k, Measurable fun w : Ph p => g (orb T eps w k).1 := fun k => hg.comp (measurable_fst.comp (hZ k))
    have mgo : ∀ v lo hi k, Measurable fun w : Ph p => goV T it (orb T eps w) (fun k => g (orb T eps w k).1) fuel j v lo hi k :=
      meas_goV T hllk (fun _ => lu) measurable_const eps D (fun w => orb T eps w) hZ (fun w k => g (orb T eps w k).1) hf fuel j
    have mF : Measurable F := meas_blk T hllk (fun _ => lu) measurable_const eps D (fun w => orb T eps w) hZ j _ (fun k => mgo true _ _ k) 0
    have mB : Measurable B := meas_blk T hllk (fun _ => lu) measurable_const eps D (fun w => orb T eps w) hZ j _ (fun k => mgo false _ _ k) 0
    have mS : Measurable S := meas_blk T hllk (fun _ => lu) measurable_const eps D (fun w => orb T eps w) hZ j _ hf 0
    have mK' : Measurable K' := meas_blk T hllk (fun _ => lu) measurable_const eps D (fun w => orb T eps w) hZ (j + 1) _ hf 0
    have mK : Measurable K := meas_blk T hllk (fun _ => lu) measurable_const eps D (fun w => orb T eps w) hZ (j + 1) _
      (fun k => meas_kern T hllk (fun _ => lu) measurable_const eps D (fun w => orb T eps w) hZ _ hf fuel (j + 1) 0 (2 ^ (j + 1) - 1) true k) 0
    have hshift : ∀ H : Ph p → NNReal, Measurable H → ∫⁻ w, (H (orb T eps w (2 ^ j)) : ℝ≥0∞) = ∫⁻ w, (H w : ℝ≥0∞) := fun H hH =>
      (orb_preserving T hgrad eps (2 ^ j)).lintegral_comp (f := fun w => (H w : ℝ≥0∞)) hH.coe_nnreal_ennreal
    have hBs : ∀ w, B (orb T eps w (2 ^ j)) = blk T it (orb T eps w) j (goV T it (orb T eps w) (fun k => g (orb T eps w k).1) fuel j false (2 ^ j) (2 ^ j + 2 ^ j - 1)) (2 ^ j) := by
      intro w
      show blk T it (orb T eps (orb T eps w (2 ^ j))) j _ 0 = _
      rw [orb_shift]
      have := goV_shift T it (orb T eps w) (2 ^ j) (fun k => g (orb T eps w k).1) fuel j false 0 (2 ^ j - 1)
      rw [show goV T it (fun k => orb T eps w (k + 2 ^ j)) (fun k => g (orb T eps w (k + 2 ^ j)).1) fuel j false 0 (2 ^ j - 1) =
        fun k => goV T it (orb T eps w) (fun k => g (orb T eps w k).1) fuel j false (0 + 2 ^ j) (2 ^ j - 1 + 2 ^ j) (k + 2 ^ j) from funext this,
        blk_shift, zero_add, show (2 : ℤ) ^ j - 1 + 2 ^ j = 2 ^ j + 2 ^ j - 1 by ring]
    have hSs : ∀ w, S (orb T eps w (2 ^ j)) = blk T it (orb T eps w) j (fun k => g (orb T eps w k).1) (2 ^ j) := by
      intro w
      show blk T it (orb T eps (orb T eps w (2 ^ j))) j _ 0 = _
      rw [orb_shift, blk_shift T it (orb T eps w) (2 ^ j) j (fun k => g (orb T eps w k).1) 0, zero_add]
    have h1 : ∀ w, blk T it (orb T eps w) j (kern T it (orb T eps w) (fun k => g (orb T eps w k).1) (fuel + 1) j 0 (2 ^ j - 1) true) 0 =
        1 / 2 * B w + 1 / 2 * F w := by
      intro w
      simp only [B, F, blk]
      by_cases h : ok T it (orb T eps w) j 0 = true
      · rw [if_pos h, if_pos h, if_pos h]
        unfold bsum
        rw [mul_sum, mul_sum, ← sum_add_distrib]
        exact sum_congr rfl fun k _ => kern_succ T it _ _ _ _ _ _ _
      · rw [if_neg h, if_neg h, if_neg h, mul_zero, add_zero]
    have h2 : ∀ w, F w + B (orb T eps w (2 ^ j)) = K w + E w := by
      intro w
      rw [hBs]
      refine (pair_step' T it (orb T eps w) (fun k => g (orb T eps w k).1) fuel j).trans ?_
      simp only [E, hSs]
      rfl
    have h3 : ∀ w, S w + S (orb T eps w (2 ^ j)) = K' w + E w := by
      intro w
      simp only [E, hSs]
      exact split_step T it (orb T eps w) (fun k => g (orb T eps w k).1) j
    have ihK : ∫⁻ w, (K w : ℝ≥0∞) = ∫⁻ w, (K' w : ℝ≥0∞) := ih (j + 1)
    have hhalf : ((1 / 2 : NNReal) : ℝ≥0∞) + ((1 / 2 : NNReal) : ℝ≥0∞) = 1 := by
      rw [← ENNReal.coe_add]
      norm_num
    have hBm : Measurable fun w => B (orb T eps w (2 ^ j)) := mB.comp (hZ _)
    have hSm : Measurable fun w => S (orb T eps w (2 ^ j)) := mS.comp (hZ _)
    calc ∫⁻ w : Ph p, (blk T it (orb T eps w) j (kern T it (orb T eps w) (fun k => g (orb T eps w k).1) (fuel + 1) j 0 (2 ^ j - 1) true) 0 : ℝ≥0∞)
        = ∫⁻ w, (((1 / 2 : NNReal) : ℝ≥0∞) * B w + ((1 / 2 : NNReal) : ℝ≥0∞) * F w) := by
          apply lintegral_congr
          intro w
          rw [h1 w, ENNReal.coe_add, ENNReal.coe_mul, ENNReal.coe_mul]
      _ = ((1 / 2 : NNReal) : ℝ≥0∞) * (∫⁻ w, ((F w : ℝ≥0∞) + (B (orb T eps w (2 ^ j)) : ℝ≥0∞))) := by
          rw [lintegral_add_left (mB.coe_nnreal_ennreal.const_mul _), lintegral_const_mul _ mB.coe_nnreal_ennreal,
            lintegral_const_mul _ mF.coe_nnreal_ennreal, lintegral_add_left mF.coe_nnreal_ennreal, hshift B mB]
          ring
      _ = ((1 / 2 : NNReal) : ℝ≥0∞) * (∫⁻ w, ((K w : ℝ≥0∞) + (E w : ℝ≥0∞))) := by
          congr 1
          apply lintegral_congr
          intro w
          rw [← ENNReal.coe_add, h2 w, ENNReal.coe_add]
      _ = ((1 / 2 : NNReal) : ℝ≥0∞) * (∫⁻ w, ((S w : ℝ≥0∞) + (S (orb T eps w (2 ^ j)) : ℝ≥0∞))) := by
          congr 1
          rw [lintegral_add_left mK.coe_nnreal_ennreal, ihK, ← lintegral_add_left mK'.coe_nnreal_ennreal]
          apply lintegral_congr
          intro w
          rw [← ENNReal.coe_add, ← h3 w, ENNReal.coe_add]
      _ = ∫⁻ w, (S w : ℝ≥0∞) := by
          rw [lintegral_add_left mS.coe_nnreal_ennreal, hshift S mS, mul_add, ← add_mul, hhalf, one_mul]

/-- The block of size one. -/
theorem blk_zero (it : Iter) (hD : 0 < it.DeltaMax) (z : ℤ → Ph p) (G : ℤ → NNReal) (lo : ℤ) :
    blk T it z 0 G lo = if it.logu ≤ ham T (z lo) then G lo else 0 := by
  unfold blk bsum
  rw [pow_zero, show lo + 1 - 1 = lo by ring, Icc_self, filter_singleton]
  by_cases hv : Valid T it z lo
  · have hv' : it.logu ≤ ham T (z lo) := hv
    rw [if_pos hv, if_pos hv', sum_singleton, if_pos]
    simp only [ok, decide_eq_true_eq]
    linarith
  · rw [if_neg hv, if_neg (show ¬ it.logu ≤ ham T (z lo) from hv), sum_empty, ite_self]

/-- The iteration started at `w` on the slice level `lu`. -/
theorem iteration_expect (maxJ : ℕ) (w : Ph p) (e : ℝ) (he : 0 ≤ e) :
    (iteration T maxJ w.1 (T.llk w.1) eps w.2 e).expect (fun l => (g l.cstate : ℝ)) =
      (kern T ⟨ham T w - e, eps, 0, 1000⟩ (orb T eps w) (fun k => g (orb T eps w k).1) maxJ 0 0 0 true 0 : ℝ) := by
  unfold iteration
  set it := iterOf T (T.llk w.1) eps w.2 e with hit
  have hv : Valid T it (orb T it.eps w) 0 := by
    show it.logu ≤ ham T (orb T it.eps w 0)
    rw [orb_zero]
    show T.llk w.1 - energy T w.2 - e ≤ T.llk w.1 - energy T w.2
    linarith
  rw [loop0_mkL T it w hv, doublings_expect T it (orb T it.eps w) (isOrb_orb T it w) g maxJ 0 0 0 0 le_rfl true none
    (cnt_pos_of_valid T it _ (mem_Icc.2 ⟨le_rfl, le_rfl⟩) hv)]
  exact congrArg _ (kern_congr T (orb T eps w) (ham T w - e) 1000 eps eps (T.llk w.1 - energy T w.2) 0 _ _ _ _ _ _ _)

include hllk hgrad hg in
theorem iteration_slice (maxJ : ℕ) :
    ∫⁻ w : Ph p in {w | lu ≤ ham T w}, ENNReal.ofReal ((iteration T maxJ w.1 (T.llk w.1) eps w.2 (ham T w - lu)).expect (fun l => (g l.cstate : ℝ))) =
      ∫⁻ w : Ph p in {w | lu ≤ ham T w}, (g w.1 : ℝ≥0∞) := by
  have hs : MeasurableSet {w : Ph p | lu ≤ ham T w} := measurableSet_le measurable_const (meas_ham T hllk measurable_id)
  have := balance_integral T hllk hgrad eps lu 1000 g hg maxJ 0
  simp only [blk_zero T ⟨lu, eps, 0, 1000⟩ (by norm_num), orb_zero] at this
  rw [← lintegral_indicator hs, ← lintegral_indicator hs]
  refine Eq.trans (lintegral_congr fun w => ?_) (this.trans (lintegral_congr fun w => ?_))
  · by_cases hw : lu ≤ ham T w
    · rw [Set.indicator_of_mem (by exact hw), if_pos hw, iteration_expect T eps g maxJ w _ (by linarith), ENNReal.ofReal_coe_nnreal, sub_sub_cancel]
      norm_num
    · rw [Set.indicator_of_notMem (by exact hw), if_neg hw]; rfl
  · by_cases hw : lu ≤ ham T w
    · rw [Set.indicator_of_mem (by exact hw), if_pos hw]
    · rw [Set.indicator_of_notMem (by exact hw), if_neg hw]; rfl

include hllk hgrad hg in
theorem iteration_joint (maxJ : ℕ) :
    ∫⁻ w : Ph p, ENNReal.ofReal (Real.exp (ham T w)) * ∫⁻ e in Set.Ici (0 : ℝ), ENNReal.ofReal (Real.exp (-e)) *
      ENNReal.ofReal ((iteration T maxJ w.1 (T.llk w.1) eps w.2 e).expect (fun l => (g l.cstate : ℝ))) =
    ∫⁻ w : Ph p, ENNReal.ofReal (Real.exp (ham T w)) * (g w.1 : ℝ≥0∞) := by
  -- the loop as a function of the slice level
  let K : Ph p × ℝ → NNReal := fun q => kern T ⟨q.2, eps, 0, 1000⟩ (orb T eps q.1) (fun k => g (orb T eps q.1 k).1) maxJ 0 0 0 true 0
  have hZ : ∀ k, Measurable fun q : Ph p × ℝ => orb T eps q.1 k := fun k => (meas_orb T hgrad eps k).comp measurable_fst
  have mK : Measurable K := meas_kern T hllk (fun q : Ph p × ℝ => q.2) measurable_snd eps 1000 (fun q => orb T eps q.1) hZ
    (fun q k => g (orb T eps q.1 k).1) (fun k => hg.comp (measurable_fst.comp (hZ k))) maxJ 0 0 0 true 0
  let Ψ : (Ph p × ℝ → NNReal) → Ph p → ℝ → ℝ≥0∞ := fun H w u => if u ≤ ham T w then ENNReal.ofReal (Real.exp u) * (H (w, u) : ℝ≥0∞) else 0
  have hset : MeasurableSet {q : Ph p × ℝ | q.2 ≤ ham T q.1} := measurableSet_le measurable_snd (meas_ham T hllk measurable_fst)
  have mΨ : ∀ H, Measurable H → Measurable (Function.uncurry (Ψ H)) := fun H hH =>
    Measurable.ite hset ((Real.measurable_exp.comp measurable_snd).ennreal_ofReal.mul hH.coe_nnreal_ennreal) measurable_const
  have step : ∀ (H : Ph p × ℝ → NNReal), Measurable H → ∀ w, ENNReal.ofReal (Real.exp (ham T w)) * ∫⁻ e in Set.Ici (0 : ℝ), ENNReal.ofReal (Real.exp (-e)) *
      (H (w, ham T w - e) : ℝ≥0∞) = ∫⁻ u, Ψ H w u := by
    intro H hH w
    rw [← lintegral_sub_left_eq_self (Ψ H w) (ham T w), ← lintegral_indicator measurableSet_Ici]
    have hHw : Measurable fun e : ℝ => H (w, ham T w - e) := hH.comp (measurable_const.prodMk (measurable_const.sub measurable_id))
    rw [← lintegral_const_mul]
    · apply lintegral_congr
      intro e
      by_cases he : 0 ≤ e
      · rw [Set.indicator_of_mem (by exact he)]
        show _ = if _ then _ else _
        rw [if_pos (by linarith), ← mul_assoc, ← ENNReal.ofReal_mul (Real.exp_pos _).le, ← Real.exp_add]
        rfl
      · rw [Set.indicator_of_notMem (by exact he), mul_zero]
        show _ = if _ then _ else _
        rw [if_neg (by linarith)]
    · exact ((Real.measurable_exp.comp measurable_neg).ennreal_ofReal.mul hHw.coe_nnreal_ennreal).indicator measurableSet_Ici
  calc _ = ∫⁻ w : Ph p, ∫⁻ u, Ψ K w u := by
        apply lintegral_congr
        intro w
        rw [← step K mK w]
        congr 1
        apply setLIntegral_congr_fun measurableSet_Ici
        intro e he
        beta_reduce
        rw [iteration_expect T eps g maxJ w e he, ENNReal.ofReal_coe_nnreal]
    _ = ∫⁻ u, ∫⁻ w : Ph p, Ψ K w u := lintegral_lintegral_swap (mΨ K mK).aemeasurable
    _ = ∫⁻ u, ∫⁻ w : Ph p, Ψ (fun q => g q.1.1) w u := by
        apply lintegral_congr
        intro u
        have hs : MeasurableSet {w : Ph p | u ≤ ham T w} := measurableSet_le measurable_const (meas_ham T hllk measurable_id)
        have h := balance_integral T hllk hgrad eps u 1000 g hg maxJ 0
        simp only [blk_zero T ⟨u, eps, 0, 1000⟩ (by norm_num), orb_zero] at h
        have e1 : ∀ H : Ph p × ℝ → NNReal, (fun w => Ψ H w u) = fun w => ENNReal.ofReal (Real.exp u) * ((if u ≤ ham T w then H (w, u) else 0 : NNReal) : ℝ≥0∞) := by
          intro H
          funext w
          show (if _ then _ else _) = _
          by_cases hw : u ≤ ham T w
          · rw [if_pos hw, if_pos hw]
          · rw [if_neg hw, if_neg hw]; simp
        rw [e1 K, show (fun w => Ψ (fun q => g q.1.1) w u) = _ from e1 (fun q => g q.1.1), lintegral_const_mul' _ _ ENNReal.ofReal_ne_top, lintegral_const_mul' _ _ ENNReal.ofReal_ne_top]
        congr 1
    _ = ∫⁻ w : Ph p, ∫⁻ u, Ψ (fun q => g q.1.1) w u := (lintegral_lintegral_swap (mΨ _ (hg.comp (measurable_fst.comp measurable_fst))).aemeasurable).symm
    _ = _ := by
        apply lintegral_congr
        intro w
        rw [← step (fun q => g q.1.1) (hg.comp (measurable_fst.comp measurable_fst)) w]
        congr 1
        show ∫⁻ e in Set.Ici (0 : ℝ), ENNReal.ofReal (Real.exp (-e)) * (g w.1 : ℝ≥0∞) = _
        rw [lintegral_mul_const' _ _ ENNReal.coe_ne_top]
        have : ∫⁻ e in Set.Ici (0 : ℝ), ENNReal.ofReal (Real.exp (-e)) = 1 := by
          rw [setLIntegral_congr Ioi_ae_eq_Ici.symm]
          rw [← ofReal_integral_eq_lintegral_ofReal (integrableOn_exp_neg_Ioi 0) (ae_of_all _ fun e => (Real.exp_pos _).le)]
          rw [integral_exp_neg_Ioi_zero, ENNReal.ofReal_one]
        rw [this, one_mul]

end

end Verif.Nuts
