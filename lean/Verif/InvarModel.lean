import Verif.LmlModel

/-!
# The same data in another form (property C126)

The data a user hands over, rewritten: rows in another order, model matrices with recombined columns.  The fits themselves are the
ones of `Verif.Lml` (gamm_solvers.py 5352-5478, 8275-8396).
-/

namespace Verif.Invar
open Verif Matrix

/-- Model matrices `Xs[k] @ B[k]`: the columns of each predictor recombined (`B` diagonal: other units). -/
noncomputable def recombine {K n : ℕ} (w : ℕ → ℕ) (X : ℕ → Fin n → ℕ → ℝ)
    (B : (k : Fin K) → Matrix (Fin (w k)) (Fin (w k)) ℝ) : ℕ → Fin n → ℕ → ℝ :=
  fun k o b => if h : k < K then if hb : b < w k then ∑ a : Fin (w k), X k o a * B ⟨k, h⟩ a ⟨b, hb⟩ else 0 else 0

/-- Position of coefficient `q.2` of predictor `q.1` in the coefficient vector, as a bijection (gamm_solvers.py 4663, 5010). -/
noncomputable def place {K : ℕ} (w : ℕ → ℕ) (q : Σ k : Fin K, Fin (w k)) : Fin (∑ l ∈ Finset.range K, w l) := ⟨_, Lml.split_lt w q⟩

/-- The coefficients of all predictors: `coef[k] = B[k] @ coef'[k]` as one matrix. -/
noncomputable def whole {K : ℕ} (w : ℕ → ℕ) (B : (k : Fin K) → Matrix (Fin (w k)) (Fin (w k)) ℝ) :
    Matrix (Fin (∑ l ∈ Finset.range K, w l)) (Fin (∑ l ∈ Finset.range K, w l)) ℝ :=
  fun i j => ∑ q : Σ k : Fin K, Fin (w k), ∑ b : Fin (w q.1), if place w q = i ∧ place w ⟨q.1, b⟩ = j then B q.1 q.2 b else 0

end Verif.Invar
