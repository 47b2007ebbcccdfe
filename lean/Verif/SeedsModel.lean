import Mathlib.Data.Real.Basic
import Mathlib.Data.Real.Archimedean
import Mathlib.Algebra.Order.Floor.Semiring

/-!
# Seeds of the sampler (property C112)

Model of the seeds in `sample_mssm` (src/mssm/src/python/mcmc.py 554, 1081-1119, 1158-1192). `gen` is the sequence of numbers returned
by `np_gen.random()`. Each call of `advance_chain` (src/mssm/src/cpp/mcmc.cpp 421-422) sets up a new generator from its seed, so that the
random numbers of the call are a function of the seed.
-/

namespace Verif.Seeds

/-- `int(np_gen.random() * 10000)` (1101, 1162). -/
noncomputable def seedOf (u : ℝ) : ℕ := ⌊u * 10000⌋₊

/-- One pass over the chains, starting at position `pos` of the generator: seeds, and the next position (1081-1101, 1160-1162). -/
noncomputable def pass (gen : ℕ → ℝ) (c pos : ℕ) : List ℕ × ℕ :=
  (List.range c).foldl (fun st _ => (st.1 ++ [seedOf (gen st.2)], st.2 + 1)) ([], pos)

/-- All passes: the search for the initial step sizes, then one pass for each block. -/
noncomputable def passes (gen : ℕ → ℝ) (c blocks : ℕ) : List (List ℕ) × ℕ :=
  (List.range blocks).foldl (fun st _ => (st.1 ++ [(pass gen c st.2).1], (pass gen c st.2).2)) ([], (pass gen c 0).2)

/-- Seed of a chain in a block, if there is one. -/
noncomputable def seed (gen : ℕ → ℝ) (c blocks b ch : ℕ) : Option ℕ := do
  let l ← (passes gen c blocks).1[b]?
  l[ch]?

end Verif.Seeds
