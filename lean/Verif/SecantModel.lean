import Verif.CompactModel
import Verif.Fl

/-!
# Update vectors of quasi-Newton fits (property C110)

Model of how src/mssm/src/python/gamm_solvers.py collects the update vectors from which the Hessian of the
log-likelihood is approximated: `update_coef_gen_smooth` (7987-8252, 8398-8415), `sample_ys_qefs` (6918-7175),
`init_qEFS_storage` (7277-7376) and the changes of basis around them (8717-8727, 8972-9012).

Arithmetic is exact.  The log-likelihood and its gradient are arbitrary functions, the log-likelihood may take
the special values of floats.  External: the optimiser (it returns pairs of steps and gradient differences),
the Cholesky factorisation, the stream of normal numbers for a seed.
-/

namespace Verif.Secant

open Matrix Verif.Compact

variable {n t f a : ℕ}

/-- Coefficients. -/
abbrev Vec (n : ℕ) := Fin n → ℝ

/-- `__neg_llk` (7990-7993). -/
noncomputable def negLlk (llk : Vec n → ℝ) (S : Matrix (Fin n) (Fin n) ℝ) (b : Vec n) : ℝ :=
  -1 * llk b + 0.5 * (b ⬝ᵥ S *ᵥ b)

/-- `__neg_grad` (7995-8002). -/
def negGrad (grad : Vec n → Vec n) (S : Matrix (Fin n) (Fin n) ℝ) (b : Vec n) : Vec n :=
  fun i => -1 * (grad b i - (S *ᵥ b) i)

/-- One row of `sks` and `yks`. -/
@[ext] structure Upd (n : ℕ) where
  s : Vec n
  y : Vec n

/-- `yks -= (S_emb @ sks.T).T` (8109). -/
def dual (S : Matrix (Fin n) (Fin n) ℝ) (u : Upd n) : Upd n := ⟨u.s, u.y - S *ᵥ u.s⟩

/-! ## Finite differences for some coefficients -/

/-- What `makepdd_fd2llk` returns and is used later (8133-8135): `nHfdk` and `IonHBBk`. -/
structure Blk (t f : ℕ) where
  nHfd : Matrix (Fin t) (Fin t) ℝ
  I : Matrix (Fin f) (Fin f) ℝ

/-- `-1 * family.jhessian(...)` made positive definite (8128-8135, 8151-8158, 8182-8188); `jh` is the result of
`jhessian`, `eig` that of `eigh`, `thresh` as in 7249. -/
noncomputable def blkAt (tcols : Fin f ⊕ Fin a → Fin t) (jh : Vec t → Matrix (Fin t) (Fin t) ℝ)
    (eig : Matrix (Fin t) (Fin t) ℝ → Eig f) (thresh damp : ℝ) (pd : Bool) (b : Vec t) : Blk t f :=
  let nH := (-1 : ℝ) • jh b
  ⟨makepdd tcols nH true pd thresh damp (eig nH), pdInv true pd thresh (eig nH)⟩

/-- Correction of one row (8139-8140). -/
def fdRow (tcols : Fin f ⊕ Fin a → Fin t) (k : Blk t f) (u : Upd t) : Upd t := ⟨u.s, ycorr tcols k.nHfd k.I u.s u.y⟩

/-- The loop from the last row to the first (8117-8147); rows given in this order.  `coef2` starts at the final
coefficients. -/
def walkRev (corr : Vec n → Upd n → Upd n) : Vec n → List (Upd n) → List (Upd n)
  | _, [] => []
  | coef2, u :: us => corr coef2 u :: walkRev corr (coef2 - u.s) us

/-- Rows after the loop, in their original order. -/
def walk (corr : Vec n → Upd n → Upd n) (coef : Vec n) (rows : List (Upd n)) : List (Upd n) :=
  (walkRev corr coef rows.reverse).reverse

/-- Coefficients at which the Hessian is approximated for each row (`coef2` in 8128-8130), last row first. -/
def walkPts : Vec n → List (Upd n) → List (Vec n)
  | _, [] => []
  | coef2, u :: us => coef2 :: walkPts (coef2 - u.s) us

/-- `nHfd`, `IonHBB` after the loop: from the last row (8142-8144), or at `coef` when there is none
(8150-8158). -/
def lastBlk {B : Type} (blk : Vec n → B) (coef : Vec n) (rows : List (Upd n)) : B :=
  match (walkPts coef rows.reverse).head? with
  | some x => blk x
  | none => blk coef

/-- The buffer of `maxcor` rows of the optimiser (scipy's L-BFGS-B): rows are appended until it is full, then the
oldest row is overwritten in place.  `hess_inv.sk` and `hess_inv.yk` (8072) are this buffer in the order in which
it is stored. -/
def ring (maxcor : ℕ) (l : List (Upd n)) : List (Upd n) :=
  ((List.range l.length).zip l).foldl (fun buf p => if buf.length < maxcor then buf ++ [p.2] else buf.set (p.1 % maxcor) p.2) []

/-! ## Rows of earlier fits -/

/-- Append one row and delete the oldest (8170-8176). -/
def padStep (maxcor : ℕ) (l : List (Upd n)) (u : Upd n) : List (Upd n) :=
  let l := l ++ [u]
  if l.length > maxcor then l.tail else l

/-- Pad with the rows of the previous fit (8160-8176); `init` is `opt_raw.init` (7331, 8414). -/
def pad (maxcor : ℕ) (init : Bool) (prev new : List (Upd n)) : List (Upd n) :=
  if new.length < maxcor && init then new.foldl (padStep maxcor) prev else new

/-- Rows multiplied by a matrix (8721-8722, 8981-8984). -/
def mulRow (Q : Matrix (Fin n) (Fin n) ℝ) (u : Upd n) : Upd n := ⟨u.s ᵥ* Q, u.y ᵥ* Q⟩

/-- One outer iteration of `qEFS` without finite differences: the basis and the penalty used, the rows returned by
the optimiser, and whether the earlier approximation is kept (8871-8899). -/
structure Iter (n : ℕ) where
  Q : Matrix (Fin n) (Fin n) ℝ
  S : Matrix (Fin n) (Fin n) ℝ
  rows : List (Upd n)
  keepOld : Bool

/-- Storage between outer iterations: `init` and the rows. -/
structure Store (n : ℕ) where
  init : Bool
  rows : List (Upd n)

/-- Storage set up before fitting (7326-7331): the single row `[1]` (of length one) is never read as a row since
`init` is false, here there is none. -/
def Store.start : Store n := ⟨false, []⟩

/-- One outer iteration: rows are brought to the basis used for fitting (8718-8722), penalty removed (8109), padded
(8161-8176), possibly replaced by the earlier ones (8892-8896), and brought back (8972-8989). -/
def Iter.next (maxcor : ℕ) (st : Store n) (it : Iter n) : Store n :=
  let prev := if st.init then st.rows.map (mulRow it.Q) else st.rows
  let new := pad maxcor st.init prev (it.rows.map (dual it.S))
  let kept := if it.keepOld && st.init then prev else new
  ⟨true, kept.map (mulRow it.Qᵀ)⟩

/-- `nHfd` brought back to the original basis (8972, 8997-9000): only if there are rows. -/
def backFd (Q : Matrix (Fin n) (Fin n) ℝ) (rows : List (Upd n)) (M : Matrix (Fin n) (Fin n) ℝ) : Matrix (Fin n) (Fin n) ℝ :=
  if rows.length > 0 then Q * M * Qᵀ else M

/-! ## Sampling -/

/-- `sample_hessian_options` (7013-7025) for `method=0`, with defaults. -/
structure Opts (n : ℕ) where
  initR : ℝ := 10
  adaptR : Bool := true
  addPen : Bool := true
  T : ℝ := 1
  Madapt : ℕ := 100
  delta : ℝ := 0.8
  nSamples : Option ℕ := none
  H0 : Option (Matrix (Fin n) (Fin n) ℝ) := none

/-- Everything `sample_ys_qefs` gets for `method=0`: the normal numbers are those drawn one vector after
the other from the generator for the seed. -/
structure Samp (n : ℕ) where
  llk : Vec n → Fl
  grad : Vec n → Vec n
  coef : Vec n
  S : Matrix (Fin n) (Fin n) ℝ
  maxcor : ℕ
  H0 : Matrix (Fin n) (Fin n) ℝ
  z : ℕ → Vec n
  opts : Opts n

/-- `maxcor`, possibly overwritten (7021-7022). -/
def Samp.limit (p : Samp n) : ℕ := p.opts.nSamples.getD p.maxcor

/-- The matrix handed to `cpp_cholP` (7024-7025, 7034). -/
def Samp.prec (p : Samp n) : Matrix (Fin n) (Fin n) ℝ :=
  let H0 := p.opts.H0.getD p.H0
  if p.opts.addPen then H0 + p.S else H0

/-- `LV` (7034-7040): the inverse of the factor, with its permutation applied, or the identity. -/
def Samp.LV (chol : Matrix (Fin n) (Fin n) ℝ → Option (Matrix (Fin n) (Fin n) ℝ)) (p : Samp n) : Matrix (Fin n) (Fin n) ℝ :=
  match chol p.prec with
  | some LV => LV
  | none => 1

/-- `step0` (7059-7061, 7096-7098) from the `k`-th vector of normal numbers. -/
def Samp.step0 (chol : Matrix (Fin n) (Fin n) ℝ → Option (Matrix (Fin n) (Fin n) ℝ)) (p : Samp n) (k : ℕ) : Vec n :=
  (p.LV chol)ᵀ *ᵥ p.z k

/-- `c_pen_llk`, `n_pen_llk` (7030-7031, 7071-7072). -/
noncomputable def Samp.penLlk (p : Samp n) (b : Vec n) : Fl := p.llk b - Fl.fin (0.5 * (b ⬝ᵥ p.S *ᵥ b))

/-- `min(1, np.exp(x))` (7075): Python returns the second argument only if it compares less than the first, which no
`nan` does.  The exponential is never `-inf`. -/
noncomputable def minOne (x : Fl) : ℝ :=
  match Fl.exp x with
  | Fl.fin e => if e < 1 then e else 1
  | _ => 1

/-- `acc` (7075) for a perturbation `sk`. -/
noncomputable def Samp.acc (p : Samp n) (sk : Vec n) : ℝ :=
  minOne ((p.penLlk (p.coef - sk) - p.penLlk p.coef) / Fl.fin p.opts.T)

/-- State of the loop finding the radius (7043-7050). -/
structure Rad where
  r : ℝ
  rbar : ℝ
  Hbar : ℝ

/-- `mu` (7046). -/
noncomputable def Samp.mu (p : Samp n) : ℝ := Real.log (10 * p.opts.initR)

/-- One pass (7052-7084); `t` is the loop variable, the vectors of normal numbers are counted from zero. -/
noncomputable def Samp.radStep (chol : Matrix (Fin n) (Fin n) ℝ → Option (Matrix (Fin n) (Fin n) ℝ)) (p : Samp n) (w : Rad) (t : ℕ) : Rad :=
  let Hbar := w.Hbar + (p.opts.delta - p.acc (w.r • p.step0 chol (t - 1)))
  let etat := (t : ℝ) ^ (-(0.75 : ℝ))
  let logr := p.mu - (Real.sqrt t / 0.05) * (1 / ((t : ℝ) + 10)) * Hbar
  ⟨Real.exp logr, Real.exp (etat * logr + (1 - etat) * Real.log w.rbar), Hbar⟩

/-- State after `m` passes. -/
noncomputable def Samp.rad (chol : Matrix (Fin n) (Fin n) ℝ → Option (Matrix (Fin n) (Fin n) ℝ)) (p : Samp n) : ℕ → Rad
  | 0 => ⟨p.opts.initR, 1, 0⟩
  | m + 1 => p.radStep chol (p.rad chol m) (m + 1)

/-- `r` used for the update vectors (7043, 7087). -/
noncomputable def Samp.radius (chol : Matrix (Fin n) (Fin n) ℝ → Option (Matrix (Fin n) (Fin n) ℝ)) (p : Samp n) : ℝ :=
  if p.opts.adaptR then (p.rad chol p.opts.Madapt).rbar else p.opts.initR

/-- Vectors of normal numbers used while adapting (7052-7061). -/
def Samp.used (p : Samp n) : ℕ := if p.opts.adaptR then p.opts.Madapt else 0

/-- One pass of the loop collecting update vectors (7089-7127): the gradient at `coef` is passed as the next
one, that at `coef - sk` as the previous one. -/
noncomputable def Samp.drawStep (chol : Matrix (Fin n) (Fin n) ℝ → Option (Matrix (Fin n) (Fin n) ℝ)) (p : Samp n)
    (w : List (Pair n) × ℕ) (k : ℕ) : List (Pair n) × ℕ :=
  let r := p.radius chol
  let step0 := p.step0 chol (p.used + k)
  let u := updateYs p.limit (p.grad (p.coef - r • step0)) (p.grad p.coef) step0 r false w.1
  (u.1, if u.2 then w.2 else w.2 + 1)

/-- `sample_ys_qefs` with `method=0`: the stored pairs and `updates`. -/
noncomputable def Samp.draw (chol : Matrix (Fin n) (Fin n) ℝ → Option (Matrix (Fin n) (Fin n) ℝ)) (p : Samp n) : List (Pair n) × ℕ :=
  (List.range p.limit).foldl (p.drawStep chol) ([], 0)

open Classical in
/-- One pass with `method=1` (7131-7173): `hv` is the derivative returned by `scp.differentiate.jacobian`.  A zero
inner product makes `omega` infinite, the test of the update then raises and the pair is not stored. -/
noncomputable def pearlStep (limit : ℕ) (hv : Vec n → Vec n) (w : List (Pair n) × ℕ) (sk : Vec n) : List (Pair n) × ℕ :=
  let c : Pair n := ⟨hv sk, sk, 1 / (hv sk ⬝ᵥ sk)⟩
  if c.y ⬝ᵥ c.s = 0 ∨ testFails w.1 c then w
  else
    let l := w.1 ++ [c]
    (if l.length > limit then l.tail else l, w.2 + 1)

/-- `sample_ys_qefs` with `method=1`. -/
noncomputable def pearl (limit : ℕ) (hv : Vec n → Vec n) (z : ℕ → Vec n) : List (Pair n) × ℕ :=
  ((List.range limit).map z).foldl (pearlStep limit hv) ([], 0)

/-- The function differentiated at zero (7137-7144). -/
def pearlFun (grad : Vec n → Vec n) (coef sk : Vec n) (r : ℝ) : Vec n := (-1 : ℝ) • grad (coef + r • sk)

/-- The loop over attempts (8226-8243), `left` attempts remaining; `sample` gives the result for a seed. -/
def attemptLoop (sample : ℕ → List (Pair n) × ℕ) (seed : ℕ) : ℕ → List (Pair n) × ℕ → List (Pair n) × ℕ
  | 0, w => w
  | left + 1, w => if w.2 = 0 then attemptLoop sample (seed + 1) left (sample seed) else w

/-- Up to 30 attempts with seeds from `outer` on. -/
def attempts (sample : ℕ → List (Pair n) × ℕ) (outer : ℕ) : List (Pair n) × ℕ := attemptLoop sample outer 30 ([], 0)

/-- `LbfgsInvHessProduct(sks, yks)` (8401): raises unless both arrays have two dimensions; without accepted pairs
they are still the one dimensional `np.array([])` (7002-7003). -/
def store? (l : List (Pair n)) : Option (List (Pair n)) := if l = [] then none else some l

/-- Result of sampling in `update_coef_gen_smooth` without finite differences (8226-8246, 8401): whether the warning is
given, and the storage. -/
def sampled (sample : ℕ → List (Pair n) × ℕ) (outer : ℕ) : Bool × Option (List (Pair n)) :=
  let w := attempts sample outer
  (w.2 == 0, store? w.1)

/-! ## Columns -/

/-- `opt_storage.acols` (7347). -/
def acols (n : ℕ) (fcols : List ℕ) : List ℕ := (List.range n).filter fun c => c ∉ fcols

/-- `tcols` (7350). -/
def tcols (n : ℕ) (fcols : List ℕ) : List ℕ := fcols ++ acols n fcols

end Verif.Secant
