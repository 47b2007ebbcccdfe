import Verif.HsmmRelLemmas

/-!
# The numbering of hidden states is arbitrary (property C128)

Log-likelihood, residuals, sampled paths and decoded paths of a hidden semi-Markov model do not depend on the order in which the states are
listed: a path under the new numbering is the old path with its states renamed.
-/

namespace Verif.Relab
open Verif.Hsmm Finset

variable {s : Equiv.Perm ℕ} {m : Tables ℝ}

/-- C128.  Renumbering the states leaves the log-likelihood as it is. -/
theorem llk_relab (h : Ok s m) : llk (relab s m) = llk m :=
  sum_congr rfl fun t _ => congrArg Real.log (lamSum_relab h (lam_relab h t) t)

/-- C128.  Renumbering the states leaves the forward pseudo-residuals of all time points as they are. -/
theorem forwardResid_relab (h : Ok s m) {c2 c2' : ℕ → ℝ} {c3 c3' : ℕ → ℕ → ℝ} (h2 : ∀ j, j < m.n_S → c2' (s j) = c2 j)
    (h3 : ∀ k j, j < m.n_S → c3' k (s j) = c3 k j) (t : ℕ) : forwardResid (relab s m) c2' c3' t = forwardResid m c2 c3 t := by
  cases t with
  | zero =>
    exact sbLam_relab h (fun d j hj => residCell_relab h h2 h3 (prev := fun _ _ => 0) (prev' := fun _ _ => 0) (fun _ _ _ => rfl) 0 0 d hj) 0
  | succ t =>
    show sbLam (relab s m) (t + 1) (residCell (relab s m) c2' c3' (t + 1) (fwdLam (relab s m) t)
      (sbLam (relab s m) t (fwdLam (relab s m) t))) = _
    rw [sbLam_relab h (fwdLam_relab h t)]
    exact sbLam_relab h (fun d j hj => residCell_relab h h2 h3 (fwdLam_relab h t) (t + 1) _ d hj) (t + 1)

/-- C128.  A path is drawn under the new numbering exactly as often as the path it renames under the old one. -/
theorem sample_relab (h : Ok s m) {j : ℕ} (hj : j < m.n_S) (ed : ℕ) (p : List ℕ) :
    sampleProb (relab s m) (s j) ed (p.map s) = sampleProb m j ed p := by
  show drawProb m.n_S (stateProbsT (relab s m)) (s j) * drawProb (m.D - 1) (durProbs (relab s m) (s j)) ed *
    loopProb (relab s m) (m.n_T - 1) (s j) ed (p.map s) = _
  have e : durProbs (relab s m) (s j) = durProbs m j := funext fun d => durProbs_relab h d hj
  rw [drawProb_relab h.bij fun i hi => stateProbsT_relab h hi, loopProb_relab h _ _ _ _ hj, e]
  rfl

end Verif.Relab
