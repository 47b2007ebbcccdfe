import Mathlib.Analysis.SpecialFunctions.Log.Basic
import Mathlib.Analysis.SpecialFunctions.Log.Deriv
import Mathlib.Analysis.SpecialFunctions.Sqrt
import Mathlib.Analysis.Calculus.Deriv.Comp
import Mathlib.Analysis.Calculus.FDeriv.Comp
import Mathlib.Algebra.BigOperators.Fin

/-!
# Extended reals with `nan`

numpy evaluates the elementwise formulas of the package (log, division, ...) without raising: a
logarithm of zero becomes `-inf`, `0/0` becomes `nan`, and several functions then overwrite
`nan`/`inf` entries (`x[np.isnan(x) | np.isinf(x)] = 0`).  `Fl` is the value domain used to model
these formulas: exact real numbers plus the three special values.

Simplifications: rounding and overflow are not modelled (`fin` carries an exact real number), and
there is no signed zero (`a / 0` has the sign of `a`).
-/

namespace Verif

/-- A numpy float: an exact real, or one of the special values. -/
inductive Fl where
  | fin (r : ℝ)
  | pinf
  | ninf
  | nan

namespace Fl

/-- `-x`. -/
def neg : Fl → Fl
  | fin a => fin (-a)
  | pinf => ninf
  | ninf => pinf
  | nan => nan

/-- `x + y`. -/
def add : Fl → Fl → Fl
  | nan, _ => nan
  | _, nan => nan
  | fin a, fin b => fin (a + b)
  | fin _, x => x
  | x, fin _ => x
  | pinf, pinf => pinf
  | ninf, ninf => ninf
  | pinf, ninf => nan
  | ninf, pinf => nan

/-- An infinity with the sign of `a` (`nan` when `a = 0`). -/
noncomputable def infSign (a : ℝ) : Fl := if 0 < a then pinf else if a < 0 then ninf else nan

/-- `x * y`. -/
noncomputable def mul : Fl → Fl → Fl
  | nan, _ => nan
  | _, nan => nan
  | fin a, fin b => fin (a * b)
  | fin a, pinf => infSign a
  | fin a, ninf => infSign (-a)
  | pinf, fin a => infSign a
  | ninf, fin a => infSign (-a)
  | pinf, pinf => pinf
  | ninf, ninf => pinf
  | pinf, ninf => ninf
  | ninf, pinf => ninf

/-- `x / y`. -/
noncomputable def div : Fl → Fl → Fl
  | nan, _ => nan
  | _, nan => nan
  | fin a, fin b => if b = 0 then infSign a else fin (a / b)
  | fin _, _ => fin 0
  | pinf, fin b => if 0 ≤ b then pinf else ninf
  | ninf, fin b => if 0 ≤ b then ninf else pinf
  | _, _ => nan

noncomputable instance : Neg Fl := ⟨neg⟩
noncomputable instance : Add Fl := ⟨add⟩
noncomputable instance : Sub Fl := ⟨fun a b => add a (neg b)⟩
noncomputable instance : Mul Fl := ⟨mul⟩
noncomputable instance : Div Fl := ⟨div⟩

/-- `np.log(x)`. -/
noncomputable def log : Fl → Fl
  | fin a => if 0 < a then fin (Real.log a) else if a = 0 then ninf else nan
  | pinf => pinf
  | ninf => nan
  | nan => nan

/-- `np.log1p(x)`. -/
noncomputable def log1p (x : Fl) : Fl := log (fin 1 + x)

/-- `np.exp(x)`. -/
noncomputable def exp : Fl → Fl
  | fin a => fin (Real.exp a)
  | pinf => pinf
  | ninf => fin 0
  | nan => nan

/-- `np.sqrt(x)`. -/
noncomputable def sqrt : Fl → Fl
  | fin a => if 0 ≤ a then fin (Real.sqrt a) else nan
  | pinf => pinf
  | ninf => nan
  | nan => nan

/-- `np.power(x, k)` for a natural number `k ≥ 1`. -/
noncomputable def pow (x : Fl) : ℕ → Fl
  | 0 => fin 1
  | 1 => x
  | k + 2 => pow x (k + 1) * x

/-- `np.isfinite(x)`; `np.isnan(x) | np.isinf(x)` is its negation. -/
def IsFin : Fl → Prop
  | fin _ => True
  | _ => False

/-- `x[np.isnan(x) | np.isinf(x)] = 0`. -/
noncomputable def clean : Fl → Fl
  | fin a => fin a
  | _ => fin 0

/-- The finite value carried by a float; the special values have none, `0` is a placeholder that
no theorem relies on (all uses are guarded by `IsFin`). -/
noncomputable def val : Fl → ℝ
  | fin a => a
  | _ => 0

/-- `np.sum(x)`. -/
noncomputable def sum : {n : ℕ} → (Fin n → Fl) → Fl
  | 0, _ => fin 0
  | _ + 1, f => sum (fun i => f i.castSucc) + f (Fin.last _)

@[simp] theorem fin_add (a b : ℝ) : fin a + fin b = fin (a + b) := rfl
@[simp] theorem fin_neg (a : ℝ) : -fin a = fin (-a) := rfl
@[simp] theorem fin_sub (a b : ℝ) : fin a - fin b = fin (a - b) := by
  show add (fin a) (neg (fin b)) = _
  simp [add, neg, sub_eq_add_neg]
@[simp] theorem fin_mul (a b : ℝ) : fin a * fin b = fin (a * b) := rfl
theorem fin_div {a b : ℝ} (h : b ≠ 0) : fin a / fin b = fin (a / b) := by
  show div (fin a) (fin b) = _
  simp [div, h]
theorem log_fin {a : ℝ} (h : 0 < a) : log (fin a) = fin (Real.log a) := by simp [log, h]
@[simp] theorem log_zero : log (fin 0) = ninf := by simp [log]
@[simp] theorem exp_fin (a : ℝ) : exp (fin a) = fin (Real.exp a) := rfl
theorem sqrt_fin {a : ℝ} (h : 0 ≤ a) : sqrt (fin a) = fin (Real.sqrt a) := by simp [sqrt, h]
@[simp] theorem clean_fin (a : ℝ) : clean (fin a) = fin a := rfl
@[simp] theorem clean_ninf : clean ninf = fin 0 := rfl
@[simp] theorem clean_pinf : clean pinf = fin 0 := rfl
@[simp] theorem clean_nan : clean nan = fin 0 := rfl
@[simp] theorem val_fin (a : ℝ) : val (fin a) = a := rfl
@[simp] theorem ninf_sub_fin (a : ℝ) : ninf - fin a = ninf := rfl
@[simp] theorem pow_fin (a : ℝ) (k : ℕ) : pow (fin a) k = fin (a ^ k) := by
  induction k with
  | zero => simp [pow]
  | succ k ih =>
    cases k with
    | zero => simp [pow]
    | succ k => rw [pow, ih, fin_mul, ← pow_succ]
theorem log1p_fin {a : ℝ} (h : 0 < 1 + a) : log1p (fin a) = fin (Real.log (1 + a)) := by
  simp [log1p, log_fin h]
theorem fin_inj {a b : ℝ} : fin a = fin b ↔ a = b := by simp
theorem sum_fin {n : ℕ} (f : Fin n → ℝ) : sum (fun i => fin (f i)) = fin (∑ i, f i) := by
  induction n with
  | zero => simp [sum]
  | succ n ih => rw [sum, ih, fin_add, Fin.sum_univ_castSucc]
theorem isFin_iff {x : Fl} : x.IsFin ↔ ∃ a, x = fin a := by
  cases x <;> simp [IsFin]

end Fl

open Filter Topology

/-- `d` is the (finite) derivative at `x` of the float function `f`, which is finite around `x`. -/
def HasFlDeriv (f : Fl → Fl) (d : Fl) (x : ℝ) : Prop :=
  ∃ (F : ℝ → ℝ) (d' : ℝ), d = Fl.fin d' ∧ (∀ᶠ x' in 𝓝 x, f (Fl.fin x') = Fl.fin (F x')) ∧
    HasDerivAt F d' x

/-- `g` is the gradient at `c` of the float valued function `f` of a vector, finite around `c`. -/
def HasFlGrad {p : ℕ} (f : (Fin p → ℝ) → Fl) (g : Fin p → ℝ) (c : Fin p → ℝ) : Prop :=
  ∃ F : (Fin p → ℝ) → ℝ, (∀ᶠ c' in 𝓝 c, f c' = Fl.fin (F c')) ∧
    HasFDerivAt F (∑ j, g j • ContinuousLinearMap.proj (R := ℝ) (φ := fun _ : Fin p => ℝ) j) c

end Verif
