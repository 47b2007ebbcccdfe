import Verif.HsmmRelModel
import Verif.HsmmFamModel

/-!
# Renumbering the states of `HSMMFamily`

How a user lists the states in another order: emission and duration families, formulas and model matrices move with their state (hsmm.py
356-792), and so do their coefficients.  Transitions out of a state and the initial distribution are multinomial with the first target as
reference (741-756, 784-787), so that their coefficients are differences of the old ones.
-/

namespace Verif.Relab
open Verif.Hsmm Verif.HFam

/-- The formula that becomes formula `k`. -/
def back (s : Equiv.Perm ℕ) (n : ℕ) : Key → Key
  | .sh par m => .sh par m
  | .em j m par => .em (s.symm j) m par
  | .du j par => .du (col s n j) par
  | .tr j par => .tr (s.symm j) par
  | .ini par => .ini par

/-- The series with state `j` called `s j`. -/
def relabM (s : Equiv.Perm ℕ) (h : Model) : Model where
  n_T := h.n_T
  D := h.D
  n_S := h.n_S
  M := h.M
  starts_with_first := h.starts_with_first
  ends_with_last := h.ends_with_last
  ends_in_last := h.ends_in_last
  tvdtpi := h.tvdtpi
  obs := fun j => h.obs (s.symm j)
  dur := fun j => h.dur (col s h.n_S j)
  n_shared := h.n_shared
  shared_m := h.shared_m
  fixed := h.fixed.map fun f => ⟨fun i j => f.T2 (s.symm i) (s.symm j), fun i j t => f.T3 (s.symm i) (s.symm j) t, fun j => f.pi (s.symm j)⟩
  p := fun k => h.p (back s h.n_S k)
  X := fun k => h.X (back s h.n_S k)

/-- The `q`-th state that can follow `i` (`Tj_idx[q]`, hsmm.py 741). -/
def tgt (i q : ℕ) : ℕ := if q < i then q else q + 1

/-- Position of `k` among the states that can follow `i`. -/
def pos (i k : ℕ) : ℕ := if k < i then k else k - 1

/-- Coefficients of the transition from `i` to `k`; the first target is the reference. -/
def full (β : Coef) (i k c : ℕ) : ℝ := if pos i k = 0 then 0 else β (.tr i (pos i k - 1)) c

/-- Coefficients of the start in `k`. -/
def fullPi (β : Coef) (k c : ℕ) : ℝ := if k = 0 then 0 else β (.ini (k - 1)) c

/-- Coefficients after renumbering. -/
def relabC (s : Equiv.Perm ℕ) (n : ℕ) (β : Coef) : Coef
  | .tr a q => fun c => full β (s.symm a) (s.symm (tgt a (q + 1))) c - full β (s.symm a) (s.symm (tgt a 0)) c
  | .ini q => fun c => fullPi β (s.symm (q + 1)) c - fullPi β (s.symm 0) c
  | k => β (back s n k)

end Verif.Relab
