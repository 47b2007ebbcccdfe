import Verif.LssBound
import Verif.LmlEx

/-!
# C151: examples

Two observations, 0 and 1.
-/

namespace Verif.GBd
open Verif Matrix Finset Filter Topology Lml Fam

def ws (_ : ℕ) : ℕ := 1

/-- A common mean; `x o` is the covariate of the standard deviation. -/
def des (x : Fin 2 → ℝ) (k : ℕ) (o : Fin 2) (_ : ℕ) : ℝ := if k = 0 then 1 else x o

def y01 : Fin 2 → ℝ := ![0, 1]

theorem pr_des (x : Fin 2 → ℝ) (c : Fin (∑ l ∈ Finset.range 2, ws l) → ℝ) (k : Fin 2) (o : Fin 2) :
    pr ws (des x) c k o = (if k = 0 then 1 else x o) * blk (K := 2) ws c ⟨k, (0 : Fin 1)⟩ := by
  show ∑ a : Fin 1, des x k o a * blk (K := 2) ws c ⟨k, a⟩ = _
  rw [Fin.sum_univ_one]
  fin_cases k <;> simp [des]

/-- The second coefficient falls. -/
noncomputable def dirn : Fin (∑ l ∈ Finset.range 2, ws l) → ℝ := fun i => if i = at' (K := 2) ws ⟨1, (0 : Fin 1)⟩ then -1 else 0

theorem blk_dirn (k : Fin 2) : blk (K := 2) ws dirn ⟨k, (0 : Fin 1)⟩ = if k = 1 then -1 else 0 := by
  show (if at' (K := 2) ws ⟨k, (0 : Fin 1)⟩ = _ then (-1 : ℝ) else 0) = _
  simp only [(at_bij (w := ws) (K := 2)).1.eq_iff]
  fin_cases k
  · rw [if_neg (by rintro ⟨⟩), if_neg (by simp)]
  · simp

/-- A standard deviation of its own for the first observation, whose mean is reproduced by the coefficients zero. -/
theorem own_degenerate : Degenerate ws (des ![1, 0]) y01 0 0 dirn := by
  refine ⟨by simp, fun o => ?_, fun o ho => ?_, ?_⟩
  · rw [pr_des, blk_dirn]
    simp
  · rw [pr_des, blk_dirn] at ho
    rw [pr_des]
    fin_cases o
    · simp [y01, blk]
    · simp at ho
  · simp only [pr_des, blk_dirn, Fin.sum_univ_two]
    simp

example : Tendsto (fun t : ℝ => EtaBeta.llk (EtaBeta.gauFam ![.identity, .log]) ws (des ![1, 0]) y01 (blk ws ((0 : Fin (∑ l ∈ Finset.range 2, ws l) → ℝ) + t • dirn)) -
    1 / 2 * ∑ i, ∑ j, ((0 : Fin (∑ l ∈ Finset.range 2, ws l) → ℝ) + t • dirn) i * (0 : Matrix _ _ ℝ) i j *
      ((0 : Fin (∑ l ∈ Finset.range 2, ws l) → ℝ) + t • dirn) j) atTop atTop :=
  log_unbounded PosSemidef.zero own_degenerate

example (d : Fin (∑ l ∈ Finset.range 2, ws l) → ℝ) : ∃ d', EtaBeta.llk (EtaBeta.gauFam ![.identity, .log]) ws (des ![1, 0]) y01 (blk ws d) <
    EtaBeta.llk (EtaBeta.gauFam ![.identity, .log]) ws (des ![1, 0]) y01 (blk ws d') := by
  simpa using log_no_max (S := 0) PosSemidef.zero own_degenerate d

/-- The same data with the default link. -/
example (d : Fin (∑ l ∈ Finset.range 2, ws l) → ℝ) :
    EtaBeta.llk (EtaBeta.gauFam ![.identity, .logb (-1 / 10000)]) ws (des ![1, 0]) y01 (blk ws d) <
      2 * (-Real.log (Real.sqrt (2 * Real.pi)) - Real.log (1 / 10000)) := by
  have := default_bounded (w := ws) (X := des ![1, 0]) (y := y01) (lm := .identity) (b := -1 / 10000) (by norm_num) (S := 0) PosSemidef.zero two_pos d
  norm_num at this ⊢
  exact this

example (c : Fin (∑ l ∈ Finset.range 2, ws l) → ℝ) : ∃ L, Tendsto (fun k => F .identity (.logb (-1 / 10000)) ws (des ![1, 0]) y01 0
    (iter Lml.cfg (lssIn (EtaBeta.gauFam ![.identity, .logb (-1 / 10000)]) ws (des ![1, 0]) y01 (fullPat ws) 0 Ridge.cholC fun _ _ => 0) c k).coef)
    atTop (𝓝 L) := by
  obtain ⟨L, -, h, -⟩ := default_values_converge (w := ws) (X := des ![1, 0]) (y := y01) (lm := .identity) (b := -1 / 10000) (by norm_num)
    (S := 0) (stored := fullPat ws) (chol := Ridge.cholC) (noise := fun _ _ => 0) PosSemidef.zero two_pos Lml.cfg (by simp [Lml.cfg]) c
  exact ⟨L, h⟩

/-- One standard deviation: a mean cannot be 0 and 1. -/
example (c : Fin (∑ l ∈ Finset.range 2, ws l) → ℝ) : EtaBeta.llk (EtaBeta.gauFam ![.identity, .log]) ws (des ![1, 1]) y01 (blk ws c) ≤
    2 * (-Real.log (Real.sqrt (2 * Real.pi)) + (Real.log (2 / (1 / 2)) - 1) / 2) := by
  have := constant_sd_bounded (w := ws) (X := des ![1, 1]) (y := y01) (S := 0) PosSemidef.zero (x1 := fun _ => 1) (fun o a => by
    fin_cases o <;> simp [des]) (rho := 1 / 2) (by norm_num) (fun c => by
      simp only [pr_des, Fin.sum_univ_two]
      simp [y01]
      nlinarith [sq_nonneg (1 - 2 * blk (K := 2) ws c ⟨0, (0 : Fin 1)⟩)]) c
  simpa using this

end Verif.GBd
