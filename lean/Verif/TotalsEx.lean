import Verif.Totals
import Verif.IfaceEx
import Verif.ClassesEx

/-!
# Cases for C142
-/

namespace Verif.Tot
open Verif Matrix Fl Fam

/-- Counts 1, 3 of the first and 2 of the second level, treatment coding. -/
noncomputable def levels : Pirls.In 3 2 := ⟨fun _ => .poisson, .log, ![1, 3, 2], !![1, 0; 1, 0; 1, 1], 0, 0⟩

theorem good_levels : Pirls.Good levels 1 := ⟨fun i => by
  fin_cases i
  exacts [⟨1, by simp [levels]⟩, ⟨3, by simp [levels]⟩, ⟨2, by simp [levels]⟩], one_pos, fun _ => Or.inr rfl, PosSemidef.zero⟩

theorem ident_levels : Pirls.Ident levels := by
  intro v h _
  have h0 := h 0
  have h2 := h 2
  simp [levels, Fin.sum_univ_two] at h0 h2
  funext a
  fin_cases a
  · simpa using h0
  · simp [h0] at h2
    simpa using h2

theorem adm_levels (b : Fin 2 → ℝ) : Pirls.Adm levels b := Pirls.adm_total (x := levels) (fun _ => trivial) b

theorem levels_means : Means levels ![Real.log 2, 0] fun _ => 2 := fun i => by
  rw [fi_eq, fin_inj]
  fin_cases i <;> simp [levels, LinkKind.fiR, Fin.sum_univ_two, Real.exp_log]

theorem levels_next : Pirls.next levels ![Real.log 2, 0] = ![Real.log 2, 0] := by
  rw [Ifc.next_iff good_levels ident_levels (adm_levels _)]
  intro a
  have h := levels_means.eq
  unfold Pirls.uR Pirls.uF
  simp only [← h, Fin.sum_univ_three]
  fin_cases a <;> simp [levels, LinkKind.d1R, FamKind.VR] <;> norm_num

/-- The indicator of the first level is the difference of the columns. -/
theorem first_level : Free levels fun i => if i ∈ ({0, 1} : Finset (Fin 3)) then 1 else 0 :=
  ⟨![1, -1], fun i => by fin_cases i <;> simp [levels, Fin.sum_univ_two], by simp [levels]⟩

example : ∑ i, size (levels.fam i) * 2 * (if i ∈ ({0, 1} : Finset (Fin 3)) then 1 else 0) =
    ∑ i, size (levels.fam i) * levels.y i * (if i ∈ ({0, 1} : Finset (Fin 3)) then 1 else 0) :=
  totals good_levels ident_levels (fun _ => trivial) (adm_levels _) levels_next levels_means first_level

example : (2 : ℝ) = (∑ k ∈ ({0, 1} : Finset (Fin 3)), size (levels.fam k) * levels.y k) / ∑ k ∈ ({0, 1} : Finset (Fin 3)), size (levels.fam k) :=
  group_means good_levels ident_levels (adm_levels _) levels_next levels_means first_level (fun i hi k hk => by
    refine ⟨?_, rfl⟩
    simp at hi hk
    rcases hi with rfl | rfl <;> rcases hk with rfl | rfl <;> first | rfl | (funext j; fin_cases j <;> rfl)) (fun _ _ _ _ => trivial)
    (i := 1) (by simp)

example : ∑ i, (exposed.y i - (![3 / 4, 3 / 2] : Fin 2 → ℝ) i) / (![3 / 4, 3 / 2] : Fin 2 → ℝ) i * 1 = 0 :=
  relative good_exposed ident_exposed (fun _ => rfl) rfl (adm_exposed _) exposed_next exposed_means
    ⟨fun _ => 1, fun i => by simp [exposed], by simp [exposed]⟩

/-- One observation of each of two classes. -/
theorem two_ok : Cls.Ok (K := 1) 1 (fun (_ : Fin 2) _ => 1) ![0, 1] (Lml.fullPat fun _ => 1) 0 Ridge.cholC :=
  Cls.ok_one _ isSymm_zero (fun _ => le_rfl) fun _ => ⟨0, one_ne_zero⟩

theorem two_step : Lml.step (Lml.lssIn (EtaBeta.mnFam 1) (fun _ => 1) (fun _ (_ : Fin 2) _ => 1) (Cls.num (K := 1) ![0, 1]) (Lml.fullPat fun _ => 1) 0
    Ridge.cholC fun _ _ => 0) 0 = 0 := by
  rw [Cls.step_iff two_ok]
  intro k a
  have e : ∀ o, Cls.et 1 (fun (_ : Fin 2) _ => 1) (0 : Fin (∑ l ∈ Finset.range 1, (fun _ => 1) l) → ℝ) o = 0 := fun o => by
    funext k
    rw [Cls.et_eq]
    simp [Cls.cf]
  unfold Cls.score Cls.pen
  simp only [e, Fin.sum_univ_two, Cls.tot_eq]
  rw [Subsingleton.elim k 0]
  simp [Cls.all]
  norm_num

example (k : Fin 2) : ∑ o : Fin 2, Lss.mnProb (EtaBeta.musOf (EtaBeta.mnFam 1) (EtaBeta.etaOf (K := 1) (fun _ => 1) (fun _ _ _ => 1)
    (Lml.blk (fun _ => 1) 0) o)) k * (∑ _a : Fin 1, (1 : ℝ) * 1) = ∑ o : Fin 2, if (![0, 1] : Fin 2 → Fin 2) o = k then ∑ _a : Fin 1, (1 : ℝ) * 1 else 0 :=
  class_totals two_ok two_step (v := fun _ => 1) (fun _ _ => by simp) k

/-- Observations -1 and 1: mean 0, variance 1. -/
example : (0 : ℝ) = (∑ o ∈ (Finset.univ : Finset (Fin 2)), Ifc.ga.y o) / (Finset.univ : Finset (Fin 2)).card ∧
    (1 : ℝ) ^ 2 = (∑ o ∈ (Finset.univ : Finset (Fin 2)), (Ifc.ga.y o - 0) ^ 2) / (Finset.univ : Finset (Fin 2)).card := by
  have hst : Lml.step (Lml.lssIn (EtaBeta.gauFam ![Ifc.ga.lk, .log]) Lml.wOne (fun _ _ _ => 1) Ifc.ga.y (Lml.fullPat Lml.wOne) 0 Ridge.cholC fun _ _ => 0) 0 = 0 :=
    Ifc.ga_step
  exact group_moments Ifc.ga_fits hst (fun k => ⟨fun _ => 1, fun o => by show ∑ _a : Fin 1, (1 : ℝ) * 1 = _; simp, fun j => by simp⟩)
    (fun _ _ _ _ _ => rfl) (Finset.mem_univ 0) (by
      funext k
      rw [EtaBeta.musOf_eq]
      fin_cases k <;> simp [EtaBeta.etaOf, EtaBeta.gauFam, Ifc.ga, LinkKind.fiR, Lml.blk]) one_pos

end Verif.Tot
