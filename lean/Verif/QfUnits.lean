import Verif.QfLemmas

/-!
# Property C115: the coefficient of the convergence factor and units
-/

namespace Verif.Qf

open Real

theorem cfeLoop_scale {s : ℝ} (hs : 0 < s) (sxl : ℝ) : ∀ (ps : List (ℝ × ℤ)) (y : ℝ),
    cfeLoop sxl (ps.map fun p => (s * p.1, p.2)) (s * y) = (s * (cfeLoop sxl ps y).1, (cfeLoop sxl ps y).2) := by
  intro ps
  induction ps with
  | nil => intro y; rfl
  | cons p ps ih =>
    intro y
    rw [List.map_cons, cfeLoop, cfeLoop]
    dsimp only
    have h0 : 0 < s * p.1 * sxl ↔ 0 < p.1 * sxl := by rw [mul_assoc]; exact mul_pos_iff_of_pos_left hs
    have ha : |s * p.1| = s * |p.1| := by rw [abs_mul, abs_of_pos hs]
    have e1 : s * y - s * |p.1| * (p.2 : ℝ) = s * (y - |p.1| * (p.2 : ℝ)) := by ring
    have e2 : s * |p.1| / (866 / 10000) = s * (|p.1| / (866 / 10000)) := by ring
    rw [ha, e1, e2]
    by_cases hp : 0 < p.1 * sxl
    · rw [if_pos (h0.2 hp), if_pos hp]
      have hne : |p.1| ≠ 0 := abs_ne_zero.2 fun h => by rw [h, zero_mul] at hp; exact lt_irrefl _ hp
      by_cases h1 : |p.1| / (866 / 10000) < y - |p.1| * (p.2 : ℝ)
      · rw [if_pos (mul_lt_mul_of_pos_left h1 hs), if_pos h1]
        exact ih _
      · rw [if_neg (fun h => h1 (lt_of_mul_lt_mul_left h hs.le)), if_neg h1]
        have hq : ((ps.map fun p : ℝ × ℤ => (s * p.1, p.2)).map fun q : ℝ × ℤ => (q.2 : ℝ)) = ps.map fun q : ℝ × ℤ => (q.2 : ℝ) := by
          rw [List.map_map]; rfl
        by_cases h2 : |p.1| / (866 / 10000) < y
        · rw [if_pos (mul_lt_mul_of_pos_left h2 hs), if_pos h2, hq, ← mul_sub, mul_div_mul_left _ _ hs.ne']
        · rw [if_neg (fun h => h2 (lt_of_mul_lt_mul_left h hs.le)), if_neg h2, hq, ← mul_sub, mul_div_mul_left _ _ hs.ne']
    · rw [if_neg (fun h => hp (h0.1 h)), if_neg hp]
      exact ih y

/-- **C115.** The bound `cfe * tau ^ 2` on the error due to the convergence factor does not depend on units: with weights and
argument multiplied by `s`, and `tau` with them, it is the same; and `cfe` fails for both or neither. -/
theorem cfe_units {s : ℝ} (hs : 0 < s) (cs : Comps) (th : List ℕ) (x tau : ℝ) :
    (cfe (cs.map fun p => (s * p.1, p.2)) th (s * x)).map (· * (s * tau) ^ 2) = (cfe cs th x).map (· * tau ^ 2) := by
  unfold cfe
  dsimp only
  have e : (th.reverse.map fun t => (cs.map fun p : ℝ × ℤ => (s * p.1, p.2)).getD t (0, 0)) =
      (th.reverse.map fun t => cs.getD t (0, 0)).map fun p => (s * p.1, p.2) := by
    rw [List.map_map]
    refine List.map_congr_left fun t _ => ?_
    show _ = (s * (cs.getD t (0, 0)).1, (cs.getD t (0, 0)).2)
    rw [List.getD_eq_getElem?_getD, List.getD_eq_getElem?_getD, List.getElem?_map]
    cases cs[t]? with
    | none => simp
    | some p => rfl
  have hx : (0 < s * x) = (0 < x) := propext (mul_pos_iff_of_pos_left hs)
  rw [e, abs_mul, abs_of_pos hs, if_congr (Iff.of_eq hx) rfl rfl, cfeLoop_scale hs]
  generalize cfeLoop _ _ _ = r
  by_cases h : 100 < r.2
  · rw [if_pos h, if_pos h]; rfl
  · rw [if_neg h, if_neg h]
    simp only [Option.map_some]
    congr 1
    rw [mul_pow, mul_pow, ← mul_assoc π, mul_comm π, mul_assoc, div_mul_eq_mul_div, div_mul_eq_mul_div, mul_left_comm,
      mul_div_mul_left _ _ (pow_ne_zero 2 hs.ne')]

/-- Weights 1 and 3, one degree of freedom each, argument 2: `cfe` does not fail. -/
example : (cfe [(2 * 1, 1), (2 * 3, 1)] [1, 0] (2 * 2)).map (· * (2 * 5) ^ 2) = (cfe [(1, 1), (3, 1)] [1, 0] 2).map (· * 5 ^ 2) :=
  cfe_units two_pos [(1, 1), (3, 1)] [1, 0] 2 5

example : cfe [(1, 1), (3, 1)] [1, 0] 2 = some (2 ^ (((2 - (2 - 1)) / 1 + 1) / 4 : ℝ) / (π * 2 ^ 2)) := by
  have h : cfeLoop 1 [((1 : ℝ), (1 : ℤ)), (3, 1)] 2 = (2, (2 - (2 - 1)) / 1 + 1) := by
    rw [cfeLoop]
    norm_num
  unfold cfe
  have : (if (0 : ℝ) < 2 then (1 : ℝ) else -1) = 1 := if_pos two_pos
  rw [this]
  show (let r := cfeLoop 1 [((1 : ℝ), (1 : ℤ)), (3, 1)] |2|; if 100 < r.2 then none else some ((2 : ℝ) ^ (r.2 / 4) / (π * r.1 ^ 2))) = _
  dsimp only
  rw [abs_two, h]
  norm_num

end Verif.Qf
