import Verif.PirlsModel

/-!
# Rows added up and rows repeated (property C134)

What a user hands over, with rows of the same covariates added up or every row repeated.  The fits themselves are those of
`Verif.Pirls` (gamm_solvers.py 580-616, 1286-1291, 1798-1858, 2210-2292).
-/

namespace Verif.PInv
open Verif Matrix Fam Pirls

variable {N N' p : ℕ}

/-- `x` has one row for each group of rows of `x'` with the same covariates; row `k` belongs to group `r k`. Counts and exposures
(`offset = np.log(exposure)`) are added up. -/
structure Exposures (x : In N p) (x' : In N' p) (r : Fin N' → Fin N) : Prop where
  fam : ∀ i, x.fam i = .poisson
  fam' : ∀ k, x'.fam k = .poisson
  lk : x.lk = .log
  lk' : x'.lk = .log
  X : ∀ k, x'.X k = x.X (r k)
  S : x'.S = x.S
  off : ∀ i, Real.exp (x.off i) = ∑ k ∈ Finset.univ.filter (fun k => r k = i), Real.exp (x'.off k)
  y : ∀ i, x.y i = ∑ k ∈ Finset.univ.filter (fun k => r k = i), x'.y k

/-- `x'` repeats every row of `x` `q` times, in any order; its smoothing parameters are `q` times those of `x`. -/
structure Copies (x : In N p) (x' : In N' p) (r : Fin N' → Fin N) (q : ℕ) : Prop where
  fam : ∀ k, x'.fam k = x.fam (r k)
  lk : x'.lk = x.lk
  X : ∀ k, x'.X k = x.X (r k)
  off : ∀ k, x'.off k = x.off (r k)
  y : ∀ k, x'.y k = x.y (r k)
  S : x'.S = (q : ℝ) • x.S
  count : ∀ i, (Finset.univ.filter fun k => r k = i).card = q

end Verif.PInv
