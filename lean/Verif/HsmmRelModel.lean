import Verif.HsmmModel
import Mathlib.Logic.Equiv.Basic

/-!
# Renumbering the states of a hidden semi-Markov model

What the tables passed to the C++ functions (`llk`, `viterbi`, `sample_backwards`, `forward_resid`, `predictive_resid`; hsmm.py collects
them in `compute_bs`, `compute_ds`, `compute_Tpi`) become when a user lists the states in another order.
-/

namespace Verif.Relab
open Verif.Hsmm

variable {R : Type}

/-- Column of the duration table after renumbering.  Columns `n_S, ..., 2 n_S - 1` hold the durations of later segments if the first
segment has durations of its own (llk.cpp 129-136). -/
def col (s : Equiv.Perm ℕ) (n j : ℕ) : ℕ := if j < n then s.symm j else s.symm (j - n) + n

/-- The tables with state `j` called `s j`. -/
def relab (s : Equiv.Perm ℕ) (m : Tables R) : Tables R where
  n_T := m.n_T
  D := m.D
  n_S := m.n_S
  event_width := m.event_width
  starts_with_first := m.starts_with_first
  ends_with_last := m.ends_with_last
  ends_in_last := m.ends_in_last
  hmp := m.hmp
  tvdtpi := m.tvdtpi
  bs2 := fun t j => m.bs2 t (s.symm j)
  bs3 := fun t k j => m.bs3 t k (s.symm j)
  ds2 := fun d j => m.ds2 d (col s m.n_S j)
  ds3 := fun d j t => m.ds3 d (col s m.n_S j) t
  T2 := fun i j => m.T2 (s.symm i) (s.symm j)
  T3 := fun i j t => m.T3 (s.symm i) (s.symm j) t
  pi := fun j => m.pi (s.symm j)

/-- Which renumberings the switches leave possible: the states of event models alternate between flats and events, and the state the
series ends in must stay the last one if `ends_in_last`.  Numbers from `n_S` on name no state. -/
structure Ok (s : Equiv.Perm ℕ) (m : Tables R) : Prop where
  bij : ∀ j, s j < m.n_S ↔ j < m.n_S
  par : m.hmp = true → ∀ j, s j % 2 = j % 2
  last : m.ends_in_last = true → s (m.n_S - 1) = m.n_S - 1

end Verif.Relab
