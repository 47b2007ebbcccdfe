import Verif.PirlsModel

/-!
# The same data of a generalised additive model in another form (property C129)

What a user hands over, rewritten.  The fits themselves are those of `Verif.Pirls` (gamm_solvers.py 580-616, 1286-1291, 1798-1858,
2210-2292).
-/

namespace Verif.PInv
open Verif Matrix Fam Pirls

variable {N N' p : ℕ}

/-- The columns of the model matrix recombined (`A` diagonal: other units), with the penalty on the recombined coefficients. -/
noncomputable def recomb (A : Matrix (Fin p) (Fin p) ℝ) (x : In N p) : In N p := { x with X := x.X * A, S := Aᵀ * x.S * A }

/-- Rows in another order. -/
def reorder (σ : Equiv.Perm (Fin N)) (x : In N p) : In N p where
  fam := fun i => x.fam (σ i)
  lk := x.lk
  y := fun i => x.y (σ i)
  X := fun i => x.X (σ i)
  off := fun i => x.off (σ i)
  S := x.S

/-- The predictor `X @ b0` moved into the offset. -/
noncomputable def shift (b0 : Fin p → ℝ) (x : In N p) : In N p := { x with off := fun i => x.off i + (x.X *ᵥ b0) i }

/-- `x'` has one row for each trial of the binomial rows of `x`; trial `k` belongs to row `r k`. -/
structure Trials (x : In N p) (x' : In N' p) (r : Fin N' → Fin N) (n : Fin N → ℕ) : Prop where
  fam : ∀ i, x.fam i = .binomial (n i)
  fam' : ∀ k, x'.fam k = .binomial 1
  lk : x.lk = .logit
  lk' : x'.lk = .logit
  X : ∀ k, x'.X k = x.X (r k)
  off : ∀ k, x'.off k = x.off (r k)
  S : x'.S = x.S
  count : ∀ i, (Finset.univ.filter fun k => r k = i).card = n i
  y : ∀ i, ∑ k ∈ Finset.univ.filter (fun k => r k = i), x'.y k = n i * x.y i

end Verif.PInv
