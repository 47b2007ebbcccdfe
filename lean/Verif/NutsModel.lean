import Mathlib.Analysis.SpecialFunctions.Exp
import Mathlib.Analysis.SpecialFunctions.Pow.Real
import Mathlib.LinearAlgebra.Matrix.DotProduct
import Mathlib.Data.Matrix.Mul

/-! Model of `/repo/src/mssm/src/cpp/mcmc.cpp`: `compute_energy`, `leap_frog`, `check_dynamic_divergence`, `build_tree`,
`advance_chain`. Vectors are `Fin p → ℝ`, arithmetic is exact, `llk_fun` and `grad_fun` return real numbers (no inf, no nan).
`find_reasonable_epsilon` (lines 295-369) is in `StepSizeModel.lean`. -/

namespace Verif.Nuts

open Matrix

variable {p : ℕ}

/-! ### Random decisions

`U(gen)` is only used in comparisons. A program with random decisions is a tree: `coin q k` draws `U` and continues with
`k true` if `q > U`. -/

inductive Rand (α : Type) where
  | ret (a : α)
  | coin (q : ℝ) (k : Bool → Rand α)

namespace Rand

def bind {α β : Type} : Rand α → (α → Rand β) → Rand β
  | ret a, f => f a
  | coin q k, f => coin q fun b => bind (k b) f

/-- Run with the numbers `U pos, U (pos+1), …` produced by the generator. -/
noncomputable def run {α : Type} (U : ℕ → ℝ) : Rand α → ℕ → α × ℕ
  | ret a, pos => (a, pos)
  | coin q k, pos => run U (k (decide (U pos < q))) (pos + 1)

/-- Expectation when the draws are independent and uniform on `[0, 1)`: `q > U` has probability `min 1 (max 0 q)`. -/
noncomputable def expect {α : Type} : Rand α → (α → ℝ) → ℝ
  | ret a, f => f a
  | coin q k, f => min 1 (max 0 q) * expect (k true) f + (1 - min 1 (max 0 q)) * expect (k false) f

/-- `a` is a possible result. -/
inductive Out {α : Type} : Rand α → α → Prop where
  | ret (a : α) : Out (ret a) a
  | yes {q : ℝ} {k : Bool → Rand α} {a : α} : 0 < q → Out (k true) a → Out (coin q k) a
  | no {q : ℝ} {k : Bool → Rand α} {a : α} : q < 1 → Out (k false) a → Out (coin q k) a

end Rand

/-- The target: log density, its gradient, inverse mass matrix. -/
structure Target (p : ℕ) where
  llk : (Fin p → ℝ) → ℝ
  grad : (Fin p → ℝ) → Fin p → ℝ
  Minv : Matrix (Fin p) (Fin p) ℝ

/-- A state with its momentum. -/
abbrev Ph (p : ℕ) := (Fin p → ℝ) × (Fin p → ℝ)

/-- `compute_energy` (mcmc.cpp 19-29). -/
noncomputable def energy (T : Target p) (r : Fin p → ℝ) : ℝ := 1 / 2 * (r ⬝ᵥ (T.Minv *ᵥ r))

/-- `leap_frog` (mcmc.cpp 32-69); returns state', gradient', momentum', log density'. -/
noncomputable def leapFrog (T : Target p) (state grad r : Fin p → ℝ) (eps : ℝ) :
    (Fin p → ℝ) × (Fin p → ℝ) × (Fin p → ℝ) × ℝ :=
  let r1 := r + (1 / 2 * eps) • grad
  let state' := state + eps • (T.Minv *ᵥ r1)
  let llk' := T.llk state'
  let grad' := T.grad state'
  (state', grad', r1 + (1 / 2 * eps) • grad', llk')

/-- `check_dynamic_divergence` (mcmc.cpp 71-115). -/
noncomputable def checkDiv (T : Target p) (rb1 rb2 re1 re2 rsum1 rsum2 : Fin p → ℝ) : Bool :=
  let rsum := rsum1 + rsum2
  let sub1 := rsum1 + rb2
  let sub2 := rsum2 + re1
  decide (0 < (T.Minv *ᵥ rb1) ⬝ᵥ rsum) && decide (0 < (T.Minv *ᵥ re2) ⬝ᵥ rsum) &&
  (decide (0 < (T.Minv *ᵥ rb1) ⬝ᵥ sub1) && decide (0 < (T.Minv *ᵥ rb2) ⬝ᵥ sub1)) &&
  (decide (0 < (T.Minv *ᵥ re1) ⬝ᵥ sub2) && decide (0 < (T.Minv *ᵥ re2) ⬝ᵥ sub2))

/-- The tuple returned by `build_tree` (mcmc.cpp 117-131). `s` stands for `sprime == 1`. -/
structure Tree (p : ℕ) where
  statem : Fin p → ℝ
  statep : Fin p → ℝ
  state' : Fin p → ℝ
  rm : Fin p → ℝ
  rp : Fin p → ℝ
  rsum : Fin p → ℝ
  n : ℕ
  s : Bool
  a : ℝ
  na : ℕ
  L : ℝ

/-- Arguments of `build_tree` that stay the same during one iteration. -/
structure Iter where
  logu : ℝ
  eps : ℝ
  H0 : ℝ
  DeltaMax : ℝ

/-- Base case (mcmc.cpp 167-200); `v = true` is `v = 1`. -/
noncomputable def leaf (T : Target p) (it : Iter) (v : Bool) (state r : Fin p → ℝ) : Tree p :=
  let out := leapFrog T state (T.grad state) r ((if v then 1 else -1) * it.eps)
  let state' := out.1
  let r' := out.2.2.1
  let L' := out.2.2.2
  let H' := L' - energy T r'
  { statem := state', statep := state', state' := state', rm := r', rp := r', rsum := r'
    n := if it.logu ≤ H' then 1 else 0
    s := decide (it.logu < it.DeltaMax + H')
    a := if 0 < H' - it.H0 then 1 else Real.exp (H' - it.H0)
    na := 1
    L := L' }

/-- Joining the two sub-trees once the second is built (mcmc.cpp 227-286); `c` is the outcome of the acceptance test. -/
noncomputable def join (T : Target p) (v : Bool) (t1 t2 : Tree p) (c : Bool) : Tree p :=
  let rb1 := if v then t1.rm else t1.rp
  let re1 := if v then t1.rp else t1.rm
  let rb2 := if v then t2.rm else t2.rp
  let re2 := if v then t2.rp else t2.rm
  { statem := if v then t1.statem else t2.statem
    statep := if v then t2.statep else t1.statep
    state' := if c then t2.state' else t1.state'
    rm := if v then t1.rm else t2.rm
    rp := if v then t2.rp else t1.rp
    rsum := t1.rsum + t2.rsum
    n := t1.n + t2.n
    s := t2.s && checkDiv T rb1 rb2 re1 re2 t1.rsum t2.rsum
    a := t1.a + t2.a
    na := t1.na + t2.na
    L := if c then t2.L else t1.L }

/-- `build_tree` (mcmc.cpp 117-292). The test at 263-268 is false when both counts are zero (0/0 is nan; here `0/0 = 0 > U` is
false too). -/
noncomputable def buildTree (T : Target p) (it : Iter) (v : Bool) : ℕ → (Fin p → ℝ) → (Fin p → ℝ) → Rand (Tree p)
  | 0, state, r => .ret (leaf T it v state r)
  | j + 1, state, r =>
    (buildTree T it v j state r).bind fun t1 =>
      if t1.s then
        (buildTree T it v j (if v then t1.statep else t1.statem) (if v then t1.rp else t1.rm)).bind fun t2 =>
          .coin ((t2.n : ℝ) / ((t1.n + t2.n : ℕ) : ℝ)) fun c => .ret (join T v t1 t2 c)
      else .ret t1

/-- Loop variables of one iteration of `advance_chain` (mcmc.cpp 459-482). `acc` holds `a`, `na`, which the code leaves
uninitialised until the first tree is built. -/
structure Loop (p : ℕ) where
  cstate : Fin p → ℝ
  cL : ℝ
  statem : Fin p → ℝ
  statep : Fin p → ℝ
  rm : Fin p → ℝ
  rp : Fin p → ℝ
  rsum : Fin p → ℝ
  n : ℕ
  s : Bool
  acc : Option (ℝ × ℕ)

/-- Updates after a tree has been built in direction `v` (mcmc.cpp 488-538); `c` is the outcome of the acceptance test, which is
only made when the tree has `sprime == 1`. -/
noncomputable def extend (T : Target p) (v : Bool) (l : Loop p) (t : Tree p) (c : Bool) : Loop p :=
  let rb1 := if v then l.rm else l.rp
  let re1 := if v then l.rp else l.rm
  let rb2 := if v then t.rm else t.rp
  let re2 := if v then t.rp else t.rm
  { cstate := if c then t.state' else l.cstate
    cL := if c then t.L else l.cL
    statem := if v then l.statem else t.statem
    statep := if v then t.statep else l.statep
    rm := if v then l.rm else t.rm
    rp := if v then t.rp else l.rp
    rsum := l.rsum + t.rsum
    n := l.n + t.n
    s := t.s && checkDiv T rb1 rb2 re1 re2 l.rsum t.rsum
    acc := some (t.a, t.na) }

/-- One pass of the doubling loop (mcmc.cpp 486-540). `U(gen) >= 0.5` gives `v = 1`. -/
noncomputable def doubling (T : Target p) (it : Iter) (j : ℕ) (l : Loop p) : Rand (Loop p) :=
  .coin (1 / 2) fun back =>
    let v := !back
    (buildTree T it v j (if v then l.statep else l.statem) (if v then l.rp else l.rm)).bind fun t =>
      if t.s then .coin ((t.n : ℝ) / (l.n : ℝ)) fun c => .ret (extend T v l t c)
      else .ret (extend T v l t false)

/-- `while (s == 1 && j < max_j)` (mcmc.cpp 484-541), with `fuel = max_j - j`. -/
noncomputable def doublings (T : Target p) (it : Iter) : ℕ → ℕ → Loop p → Rand (Loop p)
  | 0, _, l => .ret l
  | fuel + 1, j, l => if l.s then (doubling T it j l).bind fun l' => doublings T it fuel (j + 1) l' else .ret l

/-- Start of an iteration (mcmc.cpp 445-482): `r0` from `r_sampler`, `e` the exponential draw. -/
noncomputable def iterOf (T : Target p) (cL eps : ℝ) (r0 : Fin p → ℝ) (e : ℝ) : Iter :=
  let H0 := cL - energy T r0
  { logu := H0 - e, eps := eps, H0 := H0, DeltaMax := 1000 }

def loop0 (cstate : Fin p → ℝ) (cL : ℝ) (r0 : Fin p → ℝ) : Loop p :=
  { cstate := cstate, cL := cL, statem := cstate, statep := cstate, rm := r0, rp := r0, rsum := r0, n := 1, s := true, acc := none }

/-- One iteration up to the step-size adaptation (mcmc.cpp 444-541). -/
noncomputable def iteration (T : Target p) (maxJ : ℕ) (cstate : Fin p → ℝ) (cL eps : ℝ) (r0 : Fin p → ℝ) (e : ℝ) :
    Rand (Loop p) :=
  doublings T (iterOf T cL eps r0 e) maxJ 0 (loop0 cstate cL r0)

/-- Step-size variables. -/
structure Adapt where
  eps : ℝ
  epsbar : ℝ
  Hbar : ℝ

/-- Constants of the dual averaging (arguments of `advance_chain`). -/
structure AdaptCfg where
  Madapt : ℕ
  mu : ℝ
  delta : ℝ
  kappa : ℝ
  gamma : ℝ
  t0 : ℕ

/-- Dual averaging (mcmc.cpp 545-558); `m` is already incremented. `t0` is a non-negative `int`. -/
noncomputable def adapt (c : AdaptCfg) (m : ℕ) (alpha : ℝ) (s : Adapt) : Adapt :=
  if m < c.Madapt then
    let oomt := 1 / ((m : ℝ) + c.t0)
    let Hbar := (1 - oomt) * s.Hbar + oomt * (c.delta - alpha)
    let eps := Real.exp (c.mu - Real.sqrt m / c.gamma * Hbar)
    let oomt2 := (m : ℝ) ^ (-c.kappa)
    ⟨eps, Real.exp (oomt2 * Real.log eps + (1 - oomt2) * Real.log s.epsbar), Hbar⟩
  else ⟨s.epsbar, s.epsbar, s.Hbar⟩

/-- Chain variables of `advance_chain` together with the stored draws (`llks`, `states`). -/
structure Chain (p : ℕ) where
  m : ℕ
  cstate : Fin p → ℝ
  cL : ℝ
  ad : Adapt
  stored : List (ℝ × (Fin p → ℝ))

/-- One step of `advance_chain` (mcmc.cpp 442-562) with momentum draw `r0` and exponential draw `e`. The uninitialised `a/na` for
`max_j = 0` is an arbitrary number `junk`. -/
noncomputable def chainStep (T : Target p) (maxJ : ℕ) (c : AdaptCfg) (junk : ℝ) (r0 : Fin p → ℝ) (e : ℝ) (ch : Chain p) :
    Rand (Chain p) :=
  (iteration T maxJ ch.cstate ch.cL ch.ad.eps r0 e).bind fun l =>
    let alpha := match l.acc with
      | some (a, na) => a / na
      | none => junk
    .ret { m := ch.m + 1, cstate := l.cstate, cL := l.cL, ad := adapt c (ch.m + 1) alpha ch.ad,
           stored := ch.stored ++ [(l.cL, l.cstate)] }

/-- `advance_chain` (mcmc.cpp 372-567): one step per pair of draws. -/
noncomputable def advanceChain (T : Target p) (maxJ : ℕ) (c : AdaptCfg) (junk : ℝ) :
    List ((Fin p → ℝ) × ℝ) → Chain p → Rand (Chain p)
  | [], ch => .ret ch
  | (r0, e) :: ds, ch => (chainStep T maxJ c junk r0 e ch).bind fun ch' => advanceChain T maxJ c junk ds ch'

end Verif.Nuts
