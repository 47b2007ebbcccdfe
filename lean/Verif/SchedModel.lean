import Mathlib.Data.Real.Basic
import Mathlib.Algebra.BigOperators.Group.Finset.Basic
import Mathlib.Algebra.BigOperators.Fin
import Mathlib.Algebra.Order.BigOperators.Group.Finset
import Mathlib.Algebra.Order.Ring.Abs

/-! Model of the sampling loop of `sample_mssm` (`/repo/src/mssm/src/python/mcmc.py` 1121-1412).

One chain is advanced by a parameter `adv` (the call of `advance_chain_mssm`, lines 1153-1191; seeds drawn inside), which gets the
iteration number, the number of steps and the tree depth limit and returns the new chain variables and the drawn states with their
log densities. Parameter blocks (coef, scale, theta, rho) of a draw are kept together: they are slices of the same column. The
decision `conv` of the convergence check (lines 1262-1330) is a parameter. Progress bar and callback are left out. -/

namespace Verif.Sched

/-- Chain variables: current state and log density, step size, averaged step size, `Hbar` (lines 1073-1119, 1199-1205). -/
structure Ch (σ : Type) where
  cur : σ
  eps : ℝ
  epsbar : ℝ
  Hbar : ℝ

/-- Arguments of `sample_mssm`. -/
structure Cfg where
  nIter : ℕ
  Madapt : ℕ
  nSteps : ℕ
  maxJ : ℕ
  maxJAdapt : ℕ
  minIter : ℕ

variable {σ : Type} {c : ℕ}

/-- Steps of the next block (lines 1143-1153). -/
def steps (cfg : Cfg) (iter : ℕ) : ℕ :=
  if iter < cfg.Madapt then (if iter + cfg.nSteps ≤ cfg.Madapt then cfg.nSteps else cfg.Madapt - iter)
  else (if iter + cfg.nSteps ≤ cfg.nIter + cfg.Madapt then cfg.nSteps else cfg.nIter + cfg.Madapt - iter)

/-- The array slice assignment `samples[chain, sidx:eidx] = draws` (lines 1207-1240). -/
def write (a : ℕ → σ) (sidx : ℕ) (draws : List σ) : ℕ → σ :=
  fun i => if sidx ≤ i then (draws[i - sidx]?).getD (a i) else a i

/-- Loop variables: iteration number, chains, stored draws per chain. -/
structure St (σ : Type) (c : ℕ) where
  iter : ℕ
  chains : Fin c → Ch σ
  samples : Fin c → ℕ → σ

/-- A call `adv chain iter Madapt steps maxJ vars`: new chain variables and drawn states (the state of the chain is the last one). -/
abbrev Adv (σ : Type) (c : ℕ) := Fin c → ℕ → ℕ → ℕ → ℕ → Ch σ → Ch σ × List σ

/-- Body of the loop up to the convergence check (lines 1143-1254). -/
noncomputable def body (cfg : Cfg) (adv : Adv σ c) (st : St σ c) : St σ c :=
  let k := steps cfg st.iter
  let out := fun ch => adv ch st.iter cfg.Madapt k (if st.iter < cfg.Madapt then cfg.maxJAdapt else cfg.maxJ) (st.chains ch)
  let chains := fun ch => (out ch).1
  let samples := fun ch => if cfg.Madapt ≤ st.iter then write (st.samples ch) (st.iter - cfg.Madapt) (out ch).2 else st.samples ch
  let iter := st.iter + k
  let m := (∑ ch, (chains ch).epsbar) / c
  { iter := iter
    chains := if iter = cfg.Madapt then fun ch => { chains ch with eps := m, epsbar := m } else chains
    samples := samples }

/-- Result of the call: range of stored rows that is returned, and the final loop variables. -/
structure Res (σ : Type) (c : ℕ) where
  from_ : ℕ
  upto : ℕ
  st : St σ c

/-- The loop (lines 1140-1412). `conv` stands for lines 1258-1330 without the test on the number of draws: enough draws for the
check, package available, `auto_converge` and the numerical criteria. `none`: out of fuel. -/
noncomputable def loop (cfg : Cfg) (adv : Adv σ c) (conv : St σ c → Bool) : ℕ → St σ c → Option (Res σ c)
  | 0, _ => none
  | fuel + 1, st =>
    if st.iter < cfg.nIter + cfg.Madapt then
      let st' := body cfg adv st
      if cfg.Madapt < st'.iter ∧ conv st' = true ∧ 2 * cfg.minIter ≤ st'.iter - cfg.Madapt then
        some ⟨(st'.iter - cfg.Madapt) / 2, st'.iter - cfg.Madapt, st'⟩
      else loop cfg adv conv fuel st'
    else some ⟨0, cfg.nIter, st⟩

end Verif.Sched
