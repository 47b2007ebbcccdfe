import Verif.CoefModel
import Verif.NewtonModel
import Verif.EtaBetaModel
import Verif.HazardModel

/-!
# Coefficient iterations with the derivatives of the model

`update_coef_gammlss` (gamm_solvers.py 5352-5478) and `update_coef_gen_smooth` (8275-8396) as modelled in `Verif.Coef`, with the
proposals no longer arbitrary: the gradient and the Hessian returned by the family are handed to `newton_coef_smooth`
(`Verif.Newton.newton`) or `gd_coef_smooth` (`Verif.Newton.gradStep`).
-/

namespace Verif.Lml
open Verif Matrix

/-- A model with `p` coefficients: log-likelihood, gradient and Hessian as returned by the family, total penalty `S_emb`, the sparse
Cholesky factorisation, and random numbers for restarts. -/
structure In (p : ℕ) where
  llk : (Fin p → ℝ) → Fl
  grad : (Fin p → ℝ) → Fin p → ℝ
  hess : (Fin p → ℝ) → Matrix (Fin p) (Fin p) ℝ
  S : Matrix (Fin p) (Fin p) ℝ
  chol : Matrix (Fin p) (Fin p) ℝ → Option (Matrix (Fin p) (Fin p) ℝ × Equiv.Perm (Fin p))
  noise : ℕ → Fin p → ℝ

variable {p : ℕ}

/-- `next_coef, L, LV, eps = newton_coef_smooth(coef, grad, H, S_emb)` (5383, 8292): what the loop that adds a ridge gives once it
ends. -/
def Newtons (x : In p) (c : Fin p → ℝ) (o : Newton.Out p) : Prop :=
  ∃ fuel, Newton.newton x.chol fuel c (x.grad c) (x.hess c) x.S = some o

open Classical in
/-- The Newton proposal.  If the loop does not end there is no proposal; the value `c` given then is never used, since the loop ends
for symmetric Hessians (`newton_ends`). -/
noncomputable def step (x : In p) (c : Fin p → ℝ) : Fin p → ℝ :=
  if h : ∃ o, Newtons x c o then h.choose.coef else c

open Classical in
/-- `eps` of the Newton proposal (5383, 8292). -/
noncomputable def eps (x : In p) (c : Fin p → ℝ) : ℝ := if h : ∃ o, Newtons x c o then h.choose.eps else 0

/-- The model as seen by the loop: penalty `coef' S_emb coef` (5386, 8295), gradient step `gd_coef_smooth` (5381, 8290). -/
noncomputable def ext (x : In p) : Coef.Ext (Fin p → ℝ) (Matrix (Fin p) (Fin p) ℝ) where
  llk := x.llk
  quad := fun c => c ⬝ᵥ x.S *ᵥ c
  info := x.hess
  newton := step x
  gd := fun c a => Newton.gradStep c (x.grad c) x.S a
  ridge := eps x
  noise := x.noise

/-- State before the first iteration (5325, 5331, 7978, 7985). -/
noncomputable def start (x : In p) (c : Fin p → ℝ) : Coef.S (Fin p → ℝ) (Matrix (Fin p) (Fin p) ℝ) :=
  ⟨c, x.llk c, Coef.penOf (ext x) c (x.llk c), 1 / 10, 0, none⟩

/-- State after `k` iterations counted from zero. -/
noncomputable def iter (C : Coef.Cfg) (x : In p) (c : Fin p → ℝ) : ℕ → Coef.S (Fin p → ℝ) (Matrix (Fin p) (Fin p) ℝ)
  | 0 => start x c
  | k + 1 => Coef.round C (ext x) k (iter C x c k)

/-! ### Families -/

theorem split_lt {K : ℕ} (w : ℕ → ℕ) (q : Σ k : Fin K, Fin (w k)) :
    (∑ l ∈ Finset.range q.1, w l) + q.2 < ∑ l ∈ Finset.range K, w l := by
  have h1 : (∑ l ∈ Finset.range q.1, w l) + w q.1 = ∑ l ∈ Finset.range (q.1 + 1), w l := (Finset.sum_range_succ _ _).symm
  have h2 : ∑ l ∈ Finset.range (q.1 + 1), w l ≤ ∑ l ∈ Finset.range K, w l :=
    Finset.sum_le_sum_of_subset (Finset.range_subset_range.2 q.1.isLt)
  have := q.2.isLt
  omega

/-- `split_coef = np.split(coef, coef_split_idx)` (4663, 5010): blocks of the coefficient vector. -/
def blk {K : ℕ} (w : ℕ → ℕ) (c : Fin (∑ l ∈ Finset.range K, w l) → ℝ) (q : Σ k : Fin K, Fin (w k)) : ℝ := c ⟨_, split_lt w q⟩

/-- A GAMMLSS: log-likelihood, and derivatives by `deriv_transform_mu_eta` and `deriv_transform_eta_beta` (5357-5377) as modelled in
`Verif.EtaBeta`. -/
noncomputable def lssIn {K n : ℕ} (fam : EtaBeta.LFam K) (w : ℕ → ℕ) (X : ℕ → Fin n → ℕ → ℝ) (y : Fin n → ℝ)
    (stored : ℕ → ℕ → ℕ → List ℕ) (S : Matrix (Fin (∑ l ∈ Finset.range K, w l)) (Fin (∑ l ∈ Finset.range K, w l)) ℝ)
    (chol : Matrix (Fin (∑ l ∈ Finset.range K, w l)) (Fin (∑ l ∈ Finset.range K, w l)) ℝ →
      Option (Matrix (Fin (∑ l ∈ Finset.range K, w l)) (Fin (∑ l ∈ Finset.range K, w l)) ℝ ×
        Equiv.Perm (Fin (∑ l ∈ Finset.range K, w l))))
    (noise : ℕ → Fin (∑ l ∈ Finset.range K, w l) → ℝ) : In (∑ l ∈ Finset.range K, w l) where
  llk := fun c => .fin (EtaBeta.llk fam w X y (blk w c))
  grad := fun c i => (EtaBeta.gradient fam w X y (blk w c)).getD i 0
  hess := fun c i j => EtaBeta.entry (EtaBeta.hessian fam w X y stored (blk w c)) i j
  S := S
  chol := chol
  noise := noise

/-- A proportional hazard model: `PropHaz.llk`, `gradient` and `hessian` (exp_fam.py 4055-4164) as modelled in `Verif.Haz`. -/
noncomputable def hazIn {n p : ℕ} (nt : ℕ) (r delta : Fin n → ℕ) (X : Fin n → Fin p → ℝ) (S : Matrix (Fin p) (Fin p) ℝ)
    (chol : Matrix (Fin p) (Fin p) ℝ → Option (Matrix (Fin p) (Fin p) ℝ × Equiv.Perm (Fin p))) (noise : ℕ → Fin p → ℝ) : In p where
  llk := fun c => .fin (Haz.llk nt r delta X c)
  grad := Haz.gradient nt r delta X
  hess := fun c k l => Haz.hessian nt r delta X c k l
  S := S
  chol := chol
  noise := noise

end Verif.Lml
