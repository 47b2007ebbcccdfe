import Mathlib.Data.Real.Basic
import Mathlib.Algebra.BigOperators.Group.Finset.Basic

/-!
# Convergence diagnostics of posterior samples (property C91)

Model of `check_convergence` (src/mssm/src/python/mcmc.py 100-205). The diagnostics of arviz (`ess`, `rhat`, `mcse`) are parameters: functions
of the draws of one parameter in all chains given to them. The model matrix returned by `model.predict` for the group-level terms
(169-173) is an input; columns of other terms are zero in it. One of the three diagnostics is modelled, the others are treated in the
same way.
-/

namespace Verif.Chk

/-- Samples of shape (chains, draws, parameters). -/
structure Samples where
  chains : ℕ
  N : ℕ
  np : ℕ
  val : ℕ → ℕ → ℕ → ℝ

/-- `N` after 120-121. -/
def evenN (S : Samples) : ℕ := if S.N % 2 ≠ 0 then S.N - 1 else S.N

/-- `par_samples_split` while it is filled, and `split_idx`. -/
structure St where
  arr : ℕ → ℕ → ℕ → ℝ
  idx : ℕ

/-- Assignment of one half, from draw `off` on (129-134). -/
def put (S : Samples) (chain off : ℕ) (st : St) : St :=
  ⟨fun c => if c = st.idx then fun t j => S.val chain (off + t) j else st.arr c, st.idx + 1⟩

/-- `par_samples_split` (125-134). -/
def splitArr (S : Samples) : ℕ → ℕ → ℕ → ℝ :=
  ((List.range S.chains).foldl (fun st chain => put S chain (evenN S / 2) (put S chain 0 st)) ⟨fun _ _ _ => 0, 0⟩).arr

/-- A diagnostic: number of chains, number of draws, draws. -/
abbrev Diag := (c d : ℕ) → (Fin c → Fin d → ℝ) → ℝ

/-- Diagnostics of all parameters of one kind (111-143). -/
def diags (f : Diag) : Option Samples → List ℝ
  | none => []
  | some S => (List.range S.np).map fun j => f (2 * S.chains) (evenN S / 2) fun c t => splitArr S c t j

/-- A formula: the matrix of its group-level terms, `rows` rows and `p` columns. -/
structure Form where
  rows : ℕ
  p : ℕ
  fixedX : ℕ → ℕ → ℝ

/-- `np.split(l, idx)[k]` (157-162). -/
def piece (l : List ℝ) (idx : List ℕ) (k : ℕ) : List ℝ :=
  (l.take ((idx ++ [l.length]).getD k l.length)).drop ((0 :: idx).getD k l.length)

/-- `fcidx` (175). -/
noncomputable def fcidx (F : Form) : List ℕ := by
  classical
  exact (List.range F.p).filter fun j => 0 < ∑ r ∈ Finset.range F.rows, F.fixedX r j

/-- Entries at the given positions, `none` if one is out of range (an exception in numpy). -/
def take (l : List ℝ) (ix : List ℕ) : Option (List ℝ) := ix.mapM fun j => l[j]?

/-- Diagnostics of the coefficients reported if `type != 0` (155-179). -/
noncomputable def group (l : List ℝ) (idx : Option (List ℕ)) (forms : List Form) : Option (List ℝ) :=
  forms.zipIdx.foldl (fun acc q => do return (← acc) ++ (← take (piece l (idx.getD []) q.2) (fcidx q.1))) (some [])

/-- `check_convergence` (100-205), one diagnostic. -/
noncomputable def check (f : Diag) (coef scale theta llk rho : Option Samples) (idx : Option (List ℕ)) (forms : List Form) (type : ℕ) :
    Option (List ℝ) := do
  let sel ← if type = 0 then some (diags f coef) else group (diags f coef) idx forms
  return sel ++ (if scale.isSome then diags f scale else []) ++ (if theta.isSome then diags f theta else [])
    ++ (if rho.isSome then diags f rho else []) ++ (if llk.isSome then diags f llk else [])

end Verif.Chk
