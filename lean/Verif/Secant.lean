import Verif.SecantDraw
import Mathlib.Data.List.Perm.Basic
import Mathlib.Data.List.Nodup
import Mathlib.Data.List.Range

/-!
# Update vectors of quasi-Newton fits: theorems (property C110)
-/

namespace Verif.Secant

open Matrix Verif.Compact

variable {n t f a : ℕ}

/-! ## The problem handed to the optimiser -/

/-- If the family's gradient is the derivative of its log-likelihood and the penalty is symmetric, then the gradient
given to the optimiser is the derivative of the function it minimises, along every direction. -/
theorem neg_grad_derivative {llk : Vec n → ℝ} {grad : Vec n → Vec n} {S : Matrix (Fin n) (Fin n) ℝ} (hS : Sᵀ = S) {b : Vec n}
    (hg : ∀ d : Vec n, HasDerivAt (fun h : ℝ => llk (b + h • d)) (grad b ⬝ᵥ d) 0) (d : Vec n) :
    HasDerivAt (fun h : ℝ => negLlk llk S (b + h • d)) (negGrad grad S b ⬝ᵥ d) 0 := by
  have hq : ∀ h : ℝ, (b + h • d) ⬝ᵥ S *ᵥ (b + h • d) = b ⬝ᵥ S *ᵥ b + h * (2 * ((S *ᵥ b) ⬝ᵥ d)) + h ^ 2 * (d ⬝ᵥ S *ᵥ d) := by
    intro h
    have e1 : b ⬝ᵥ S *ᵥ d = (S *ᵥ b) ⬝ᵥ d := by
      rw [dotProduct_mulVec, ← Matrix.mulVec_transpose, hS]
    rw [Matrix.mulVec_add, Matrix.mulVec_smul, dotProduct_add, add_dotProduct, add_dotProduct, smul_dotProduct, smul_dotProduct,
      dotProduct_smul, dotProduct_smul, e1, dotProduct_comm d (S *ᵥ b)]
    simp only [smul_eq_mul]
    ring
  have h1 : HasDerivAt (fun h : ℝ => b ⬝ᵥ S *ᵥ b + h * (2 * ((S *ᵥ b) ⬝ᵥ d)) + h ^ 2 * (d ⬝ᵥ S *ᵥ d)) (2 * ((S *ᵥ b) ⬝ᵥ d)) 0 := by
    have a1 := ((hasDerivAt_id (0 : ℝ)).mul_const (2 * ((S *ᵥ b) ⬝ᵥ d))).const_add (b ⬝ᵥ S *ᵥ b)
    have a2 := ((hasDerivAt_id (0 : ℝ)).pow 2).mul_const (d ⬝ᵥ S *ᵥ d)
    have a3 := a1.add a2
    refine (a3.congr_deriv ?_).congr_of_eventuallyEq (Filter.Eventually.of_forall fun h => ?_)
    · simp
    · simp
  have h2 := ((hg d).const_mul (-1)).add (h1.const_mul 0.5)
  have e : (fun h : ℝ => negLlk llk S (b + h • d))
      = (fun h : ℝ => -1 * llk (b + h • d) + 0.5 * (b ⬝ᵥ S *ᵥ b + h * (2 * ((S *ᵥ b) ⬝ᵥ d)) + h ^ 2 * (d ⬝ᵥ S *ᵥ d))) := by
    funext h
    unfold negLlk
    rw [hq]
  rw [e]
  refine (h2.congr_deriv ?_).congr_of_eventuallyEq (Filter.Eventually.of_forall fun h => rfl)
  have e2 : negGrad grad S b = -(grad b) + S *ᵥ b := by
    funext i
    unfold negGrad
    simp
    ring
  rw [e2, add_dotProduct, neg_dotProduct]
  ring

/-- The row that the optimiser stores for a step from `x` to `x'`. -/
def optRow (grad : Vec n → Vec n) (S : Matrix (Fin n) (Fin n) ℝ) (x x' : Vec n) : Upd n := ⟨x' - x, negGrad grad S x' - negGrad grad S x⟩

/-- The row that belongs to the log-likelihood without penalty: step, and minus the change of the gradient. -/
def llkRow (grad : Vec n → Vec n) (x x' : Vec n) : Upd n := ⟨x' - x, -(grad x' - grad x)⟩

/-- The correction turns rows of the penalised problem into rows of the log-likelihood. -/
theorem dual_secant (grad : Vec n → Vec n) (S : Matrix (Fin n) (Fin n) ℝ) (x x' : Vec n) :
    dual S (optRow grad S x x') = llkRow grad x x' := by
  unfold dual optRow llkRow
  congr 1
  funext i
  simp only [Pi.sub_apply, Pi.neg_apply, negGrad, Matrix.mulVec_sub]
  ring

/-- `llk(b) = -b²` with a penalty: the hypotheses hold at every point. -/
example (b : Vec 1) (d : Vec 1) : HasDerivAt (fun h : ℝ => negLlk (fun x : Vec 1 => -(x 0) ^ 2) !![3] (b + h • d))
    (negGrad (fun x => fun _ => -2 * x 0) !![3] b ⬝ᵥ d) 0 := by
  refine neg_grad_derivative (llk := fun x : Vec 1 => -(x 0) ^ 2) (grad := fun x => fun _ => -2 * x 0) ?_ ?_ d
  · ext i j
    fin_cases i <;> fin_cases j <;> rfl
  · intro d
    have h1 := ((((hasDerivAt_id (0 : ℝ)).mul_const (d 0)).const_add (b 0)).pow 2).neg
    refine (h1.congr_deriv ?_).congr_of_eventuallyEq (Filter.Eventually.of_forall fun h => ?_)
    · simp [dotProduct]
    · simp

example : dual !![3] (optRow (fun x : Vec 1 => fun _ => -2 * x 0) !![3] (fun _ => 1) (fun _ => 4)) = ⟨fun _ => 3, fun _ => 6⟩ := by
  rw [dual_secant]
  unfold llkRow
  congr 1 <;> funext i <;> simp <;> norm_num

/-! ## Finite differences for some coefficients -/

/-- Up to `maxcor` steps: every row is corrected with the Hessian at the coefficients reached by its step. -/
theorem walk_ring_partial (corr : Vec n → Upd n → Upd n) (grad : Vec n → Vec n) (S : Matrix (Fin n) (Fin n) ℝ) {maxcor : ℕ} (x : Vec n)
    (xs : List (Vec n)) (h : xs.length ≤ maxcor) :
    walk corr (pathEnd x xs) ((ring maxcor (pathRows (optRow grad S) x xs)).map (dual S))
      = pathRows (fun b b' => corr b' (llkRow grad b b')) x xs := by
  rw [ring_eq (by rw [pathRows_length]; exact h), pathRows_map]
  have e : (fun b b' => dual S (optRow grad S b b')) = llkRow grad := by
    funext b b'
    exact dual_secant grad S b b'
  rw [e]
  unfold walk
  rw [walkRev_path corr (llkRow grad) (fun _ _ => rfl), List.reverse_reverse]

/-- After more steps the rows of the buffer are not in the order of the steps, and the Hessian is approximated at
coefficients that were never visited: steps 1, 2, 4 from 0 with room for two rows. -/
theorem ring_wrong : ∃ (x : Vec 1) (xs : List (Vec 1)), xs.length = 3 ∧
    ∀ grad : Vec 1 → Vec 1, ∀ S : Matrix (Fin 1) (Fin 1) ℝ,
      ∃ b ∈ walkPts (pathEnd x xs) ((ring 2 (pathRows (optRow grad S) x xs)).map (dual S)).reverse, b ∉ x :: xs := by
  refine ⟨fun _ => 0, [fun _ => 1, fun _ => 3, fun _ => 7], rfl, fun grad S => ⟨fun _ => 5, ?_, ?_⟩⟩
  · have e : ring 2 (pathRows (optRow grad S) (fun _ => 0) [fun _ => 1, fun _ => 3, fun _ => 7])
        = [optRow grad S (fun _ => 3) (fun _ => 7), optRow grad S (fun _ => 1) (fun _ => 3)] := by
      unfold ring
      simp [pathRows, List.range_succ]
    rw [e]
    change (fun _ => (5 : ℝ)) ∈ [(fun _ => 7 : Vec 1), (fun _ => 7) - ((fun _ => 3) - fun _ => 1)]
    rw [List.mem_cons, List.mem_singleton]
    right
    funext i
    simp
    norm_num
  · simp only [List.mem_cons, List.not_mem_nil, or_false, not_or]
    refine ⟨fun h => ?_, fun h => ?_, fun h => ?_, fun h => ?_⟩ <;>
      · have := congrFun h 0
        norm_num at this

/-- The stored block always belongs to the final coefficients. -/
theorem block_final {B : Type} (blk : Vec n → B) (coef : Vec n) (rows : List (Upd n)) : lastBlk blk coef rows = blk coef := by
  unfold lastBlk
  cases rows.reverse with
  | nil => rfl
  | cons u us => rfl

/-- The structured approximation built from the stored block and from a quasi-Newton part that satisfies the secant
equation of the last stored row reproduces, for the coefficients without finite differences, minus the change of the
gradient of the log-likelihood over the last step. -/
theorem structured_secant_partial {tc : Fin f ⊕ Fin a → Fin t} (jh : Vec t → Matrix (Fin t) (Fin t) ℝ)
    (eig : Matrix (Fin t) (Fin t) ℝ → Eig f) (thresh damp : ℝ) (pd : Bool) (grad : Vec t → Vec t) (S : Matrix (Fin t) (Fin t) ℝ)
    {maxcor : ℕ} (x : Vec t) (xs : List (Vec t)) (b : Vec t) (hl : xs.length + 1 ≤ maxcor)
    {B : Blk t f} (hB : B = lastBlk (blkAt tc jh eig thresh damp pd) b (pathRows (optRow grad S) x (xs ++ [b])))
    (htc : Function.Bijective tc) (hjh : ∀ i j, jh b (tc (Sum.inr i)) (tc (Sum.inr j)) = 0)
    {u : Upd t} (hu : (walk (fun y => fdRow tc (blkAt tc jh eig thresh damp pd y)) b
      ((ring maxcor (pathRows (optRow grad S) x (xs ++ [b]))).map (dual S))).getLast? = some u)
    {H0 qa : Matrix (Fin a) (Fin a) ℝ} (hq : (H0 + qa) *ᵥ (fun i => u.s (tc (Sum.inr i))) = fun i => u.y (tc (Sum.inr i))) (i : Fin a) :
    (shExplicit tc B.nHfd B.I H0 qa *ᵥ (b - pathEnd x xs)) (tc (Sum.inr i))
      = -(grad b (tc (Sum.inr i)) - grad (pathEnd x xs) (tc (Sum.inr i))) := by
  have h1 := walk_ring_partial (fun y => fdRow tc (blkAt tc jh eig thresh damp pd y)) grad S (maxcor := maxcor) x (xs ++ [b])
    (by simpa using hl)
  rw [pathEnd_append] at h1
  rw [h1, pathRows_append, List.getLast?_append] at hu
  simp only [List.getLast?_singleton, Option.some_or, Option.some.injEq] at hu
  rw [block_final] at hB
  subst hu
  have hok : FdOK tc B.nHfd := by
    rw [hB]
    refine makepdd_fdok htc (fun i j => ?_) _ _ _ _ _
    rw [Matrix.smul_apply, hjh, smul_zero]
  rw [← hB] at hq
  have := sh_secant hok (I := B.I) (H0 := H0) (qa := qa) (s := (llkRow grad (pathEnd x xs) b).s) (y := (llkRow grad (pathEnd x xs) b).y) hq i
  exact this

/-- First column by finite differences, second by a quasi-Newton update: one step from the origin to `(1, 1)` for a
log-likelihood with Hessian `-(2 1; 1 3)`. -/
example (B : Blk 2 1) (tc : Fin 1 ⊕ Fin 1 → Fin 2) (htc : tc = Sum.elim (fun _ => 0) (fun _ => 1))
    (hB : B = lastBlk (blkAt tc (fun _ => !![-2, -1; -1, 0]) (fun _ => ⟨1, ![2]⟩) 1 1 true) ![1, 1]
      (pathRows (optRow (fun b => -(!![2, 1; 1, 3] *ᵥ b)) 1) ![0, 0] ([] ++ [![1, 1]])))
    (u : Upd 2) (hu : (walk (fun y => fdRow tc (blkAt tc (fun _ => !![-2, -1; -1, 0]) (fun _ => ⟨1, ![2]⟩) 1 1 true y)) ![1, 1]
      ((ring 5 (pathRows (optRow (fun b => -(!![2, 1; 1, 3] *ᵥ b)) 1) ![0, 0] ([] ++ [![1, 1]]))).map (dual 1))).getLast? = some u) :
    (shExplicit tc B.nHfd B.I (Matrix.of fun _ _ => u.y 1) 0 *ᵥ (![1, 1] - ![0, 0])) 1 = 4 := by
  have hbij : Function.Bijective tc := by
    rw [htc]
    constructor
    · rintro (i | i) (j | j) h <;> simp at h ⊢ <;> exact Subsingleton.elim _ _
    · intro i
      fin_cases i
      · exact ⟨Sum.inl 0, rfl⟩
      · exact ⟨Sum.inr 0, rfl⟩
  have ht1 : ∀ i : Fin 1, tc (Sum.inr i) = 1 := fun i => by rw [htc]; rfl
  have hus : u.s = ![1, 1] - ![0, 0] := by
    have h1 := walk_ring_partial (fun y => fdRow tc (blkAt tc (fun _ => !![-2, -1; -1, 0]) (fun _ => ⟨1, ![2]⟩) 1 1 true y))
      (fun b => -(!![2, 1; 1, 3] *ᵥ b)) 1 (maxcor := 5) ![0, 0] [![1, 1]] (by simp)
    have h2 := hu
    rw [show walk (fun y => fdRow tc (blkAt tc (fun _ => !![-2, -1; -1, 0]) (fun _ => ⟨1, ![2]⟩) 1 1 true y)) ![1, 1]
      ((ring 5 (pathRows (optRow (fun b => -(!![2, 1; 1, 3] *ᵥ b)) 1) ![0, 0] ([] ++ [![1, 1]]))).map (dual 1)) = _ from h1] at h2
    simp only [pathRows, List.getLast?_singleton, Option.some.injEq] at h2
    rw [← h2]
    rfl
  have h := structured_secant_partial (tc := tc) (fun _ => !![-2, -1; -1, 0]) (fun _ => ⟨1, ![2]⟩) 1 1 true
    (fun b => -(!![2, 1; 1, 3] *ᵥ b)) 1 (maxcor := 5) ![0, 0] [] ![1, 1] (by simp) hB hbij
    (fun i j => by rw [ht1, ht1]; rfl) hu (H0 := Matrix.of fun _ _ => u.y 1) (qa := 0)
    (by
      funext i
      simp only [ht1, add_zero, Matrix.mulVec, dotProduct, Matrix.of_apply]
      rw [hus]
      simp) 0
  rw [ht1] at h
  refine h.trans ?_
  simp [pathEnd, Matrix.mulVec, dotProduct, Fin.sum_univ_two]
  norm_num

/-! ## Rows over the outer iterations -/

/-- One outer iteration as a user thinks of it: basis, penalty, the steps of the optimiser (start and end, in the
basis used for fitting) and whether the earlier approximation is kept. -/
structure Outer (n : ℕ) where
  Q : Matrix (Fin n) (Fin n) ℝ
  S : Matrix (Fin n) (Fin n) ℝ
  steps : List (Vec n × Vec n)
  keepOld : Bool

/-- The iteration for a log-likelihood with gradient `g`: in the basis given by the columns of `Q` its gradient is
`Qᵀ g(Q b)`. -/
def Outer.iter (g : Vec n → Vec n) (o : Outer n) : Iter n :=
  ⟨o.Q, o.S, o.steps.map fun p => optRow (fun b => o.Qᵀ *ᵥ g (o.Q *ᵥ b)) o.S p.1 p.2, o.keepOld⟩

/-- Rows of an iteration in the original basis, for the log-likelihood without penalty. -/
def Outer.orig (g : Vec n → Vec n) (o : Outer n) : List (Upd n) := o.steps.map fun p => llkRow g (o.Q *ᵥ p.1) (o.Q *ᵥ p.2)

theorem back_row {Q : Matrix (Fin n) (Fin n) ℝ} (hQ : Q * Qᵀ = 1) (g : Vec n → Vec n) (S : Matrix (Fin n) (Fin n) ℝ) (x x' : Vec n) :
    mulRow Qᵀ (dual S (optRow (fun b => Qᵀ *ᵥ g (Q *ᵥ b)) S x x')) = llkRow g (Q *ᵥ x) (Q *ᵥ x') := by
  rw [dual_secant]
  unfold mulRow llkRow
  congr 1
  · rw [Matrix.vecMul_transpose, Matrix.mulVec_sub]
  · rw [Matrix.vecMul_transpose, Matrix.mulVec_neg, Matrix.mulVec_sub, Matrix.mulVec_mulVec, Matrix.mulVec_mulVec, hQ,
      Matrix.one_mulVec, Matrix.one_mulVec]

/-- All rows collected, oldest first; a kept approximation adds none. -/
def collected (g : Vec n → Vec n) (l : List (Outer n)) : List (Upd n) := l.flatMap fun o => if o.keepOld then [] else o.orig g

/-- Whatever bases and smoothing penalties were used in the outer iterations: the stored rows are the newest `maxcor`
rows over all iterations, each of them a step in the original coefficients together with minus the change of the
gradient of the log-likelihood over this step. -/
theorem history (g : Vec n → Vec n) {maxcor : ℕ} (first : Outer n) (rest : List (Outer n))
    (hf : first.keepOld = false)
    (hQ : ∀ o ∈ first :: rest, o.Q * o.Qᵀ = 1) (hl : ∀ o ∈ first :: rest, o.steps.length ≤ maxcor) :
    ((first :: rest).map (Outer.iter g)).foldl (Iter.next maxcor) Store.start
      = ⟨true, newest maxcor (collected g (first :: rest))⟩ := by
  have horig : ∀ o : Outer n, o.Q * o.Qᵀ = 1 → ((o.iter g).rows.map (dual o.S)).map (mulRow o.Qᵀ) = o.orig g := by
    intro o ho
    unfold Outer.iter Outer.orig
    simp only [List.map_map]
    refine List.map_congr_left fun p _ => ?_
    exact back_row ho g o.S p.1 p.2
  have hlen : ∀ o : Outer n, ((o.iter g).rows.map (dual o.S)).length = o.steps.length := by
    intro o
    unfold Outer.iter
    simp
  have h0 : Iter.next maxcor Store.start (first.iter g) = ⟨true, newest maxcor (collected g [first])⟩ := by
    unfold Iter.next Store.start
    simp only [Bool.and_false, Bool.false_eq_true, if_false]
    congr 1
    unfold pad
    rw [if_neg (by simp)]
    change ((first.iter g).rows.map (dual first.S)).map (mulRow first.Qᵀ) = _
    rw [horig first (hQ first (by simp))]
    have e : collected g [first] = first.orig g := by
      unfold collected
      simp [hf]
    rw [e, newest_of_le]
    unfold Outer.orig
    simpa using hl first (by simp)
  have hstep : ∀ (l : List (Outer n)) (o : Outer n), o.Q * o.Qᵀ = 1 → o.steps.length ≤ maxcor →
      Iter.next maxcor ⟨true, newest maxcor (collected g l)⟩ (o.iter g) = ⟨true, newest maxcor (collected g (l ++ [o]))⟩ := by
    intro l o ho hol
    have hQ' : o.Qᵀ * o.Q = 1 := mul_eq_one_comm.1 ho
    unfold Iter.next
    simp only [Bool.and_true, if_true]
    congr 1
    have ec : collected g (l ++ [o]) = collected g l ++ (if o.keepOld then [] else o.orig g) := by
      unfold collected
      rw [List.flatMap_append]
      simp
    rw [ec]
    change (if o.keepOld = true then (newest maxcor (collected g l)).map (mulRow o.Q)
      else pad maxcor true ((newest maxcor (collected g l)).map (mulRow o.Q)) ((o.iter g).rows.map (dual o.S))).map (mulRow o.Qᵀ) = _
    cases o.keepOld with
    | true =>
      simp only [if_true, List.append_nil]
      exact mulRow_cancel o.Q o.Qᵀ ho _
    | false =>
      simp only [Bool.false_eq_true, if_false]
      rw [pad_eq (by rw [List.length_map]; exact newest_length _ _) (by rw [hlen]; exact hol), newest_map, List.map_append,
        mulRow_cancel o.Q o.Qᵀ ho, horig o ho, newest_append_newest]
  have hgen : ∀ (r l : List (Outer n)), (∀ o ∈ r, o.Q * o.Qᵀ = 1) → (∀ o ∈ r, o.steps.length ≤ maxcor) →
      (r.map (Outer.iter g)).foldl (Iter.next maxcor) ⟨true, newest maxcor (collected g l)⟩
        = ⟨true, newest maxcor (collected g (l ++ r))⟩ := by
    intro r
    induction r with
    | nil =>
      intro l _ _
      rw [List.append_nil]
      rfl
    | cons o r ih =>
      intro l h1 h2
      rw [List.map_cons, List.foldl_cons, hstep l o (h1 o (by simp)) (h2 o (by simp)),
        ih (l ++ [o]) (fun p hp => h1 p (by simp [hp])) (fun p hp => h2 p (by simp [hp])), List.append_assoc]
      rfl
  rw [List.map_cons, List.foldl_cons, h0, hgen rest [first] (fun o ho => hQ o (by simp [ho])) (fun o ho => hl o (by simp [ho]))]
  rfl

/-- Two outer iterations in different bases with room for two rows: the two newest rows remain. -/
example : (([⟨1, 1, [(![0, 0], ![1, 0]), (![1, 0], ![1, 1])], false⟩,
      ⟨!![0, 1; 1, 0], 0, [(![1, 1], ![3, 1])], false⟩] : List (Outer 2)).map (Outer.iter fun b => (-2 : ℝ) • b)).foldl (Iter.next 2) Store.start
    = ⟨true, [⟨![0, 1], ![0, 2]⟩, ⟨![0, 2], ![0, 4]⟩]⟩ := by
  rw [history (fun b => (-2 : ℝ) • b) _ _ rfl]
  · unfold collected newest Outer.orig llkRow
    simp
    norm_num
  · intro o ho
    simp only [List.mem_cons, List.not_mem_nil, or_false] at ho
    rcases ho with rfl | rfl
    · simp
    · ext i j
      fin_cases i <;> fin_cases j <;> simp [Matrix.mul_apply, Fin.sum_univ_two]
  · intro o ho
    simp only [List.mem_cons, List.not_mem_nil, or_false] at ho
    rcases ho with rfl | rfl <;> simp

/-- The stored finite difference block returns to the original basis if there are rows. -/
theorem block_back_partial {Q : Matrix (Fin n) (Fin n) ℝ} (hQ : Q * Qᵀ = 1) {rows : List (Upd n)} (h : rows ≠ [])
    (M : Matrix (Fin n) (Fin n) ℝ) : backFd Q rows (Qᵀ * M * Q) = M := by
  unfold backFd
  rw [if_pos (List.length_pos_iff.2 h)]
  calc Q * (Qᵀ * M * Q) * Qᵀ = (Q * Qᵀ) * M * (Q * Qᵀ) := by simp only [Matrix.mul_assoc]
    _ = M := by rw [hQ, Matrix.one_mul, Matrix.mul_one]

/-- Without rows it stays in the basis used for fitting. -/
theorem block_back_wrong : ∃ (Q M : Matrix (Fin 2) (Fin 2) ℝ), Q * Qᵀ = 1 ∧ backFd Q [] (Qᵀ * M * Q) ≠ M := by
  refine ⟨!![0, 1; 1, 0], !![1, 0; 0, 2], ?_, ?_⟩
  · ext i j
    fin_cases i <;> fin_cases j <;> simp [Matrix.mul_apply, Fin.sum_univ_two]
  · intro h
    unfold backFd at h
    rw [if_neg (by simp)] at h
    have := congrFun (congrFun h 0) 0
    simp [Matrix.mul_apply, Fin.sum_univ_two] at this

/-! ## Sampling -/

/-- Lengths of steps are measured by the matrix that was factorised: a step has the length of its normal numbers. -/
theorem step_scale (chol : Matrix (Fin n) (Fin n) ℝ → Option (Matrix (Fin n) (Fin n) ℝ)) (p : Samp n) {H LV : Matrix (Fin n) (Fin n) ℝ}
    (hH : H = p.opts.H0.getD p.H0 + if p.opts.addPen then p.S else 0)
    (h : chol H = some LV) (hc : LV * H * LVᵀ = 1) (k : ℕ) :
    p.step0 chol k ⬝ᵥ H *ᵥ p.step0 chol k = p.z k ⬝ᵥ p.z k := by
  have hp : p.prec = H := by
    rw [hH]
    unfold Samp.prec
    cases p.opts.addPen <;> simp
  have e : p.LV chol = LV := by
    unfold Samp.LV
    rw [hp, h]
  unfold Samp.step0
  rw [e, Matrix.mulVec_transpose, Matrix.mulVec_vecMul, ← Matrix.dotProduct_mulVec, Matrix.mulVec_mulVec]
  rw [show LV * (H * LVᵀ) = 1 by rw [← Matrix.mul_assoc, hc], Matrix.one_mulVec]

/-- If the matrix cannot be factorised, the normal numbers are the step. -/
theorem step_plain (chol : Matrix (Fin n) (Fin n) ℝ → Option (Matrix (Fin n) (Fin n) ℝ)) (p : Samp n)
    (h : chol (p.opts.H0.getD p.H0 + if p.opts.addPen then p.S else 0) = none) (k : ℕ) : p.step0 chol k = p.z k := by
  have hp : p.prec = p.opts.H0.getD p.H0 + if p.opts.addPen then p.S else 0 := by
    unfold Samp.prec
    cases p.opts.addPen <;> simp
  unfold Samp.step0 Samp.LV
  rw [hp, h]
  simp

/-- Every stored pair is a step that ends at the estimate together with minus the change of the gradient over it; pairs are
stored in the order in which they were drawn, and left out exactly when the update with those already stored is not
defined.  Nothing is deleted, `updates` counts the stored pairs.  Normal numbers used to adapt the radius are not used again. -/
theorem draw_pairs (chol : Matrix (Fin n) (Fin n) ℝ → Option (Matrix (Fin n) (Fin n) ℝ)) (p : Samp n) {from_ : ℕ}
    (hf : from_ = if p.opts.adaptR then p.opts.Madapt else 0) :
    ∃ ks : List ℕ, ks.Sublist (List.range (p.opts.nSamples.getD p.maxcor)) ∧
      p.draw chol = (ks.map fun k => tried p.grad p.coef (p.radius chol • p.step0 chol (from_ + k)), ks.length) ∧
      (∀ k < p.opts.nSamples.getD p.maxcor, k ∈ ks ↔
        (tried p.grad p.coef (p.radius chol • p.step0 chol (from_ + k))).y ⬝ᵥ (p.radius chol • p.step0 chol (from_ + k)) ≠ 0 ∧
        ¬ testFails ((ks.filter (· < k)).map fun k => tried p.grad p.coef (p.radius chol • p.step0 chol (from_ + k)))
          (tried p.grad p.coef (p.radius chol • p.step0 chol (from_ + k)))) := by
  subst hf
  obtain ⟨ks, hg, he⟩ := p.draw_inv chol (le_refl p.limit)
  exact ⟨ks, hg.sub, he, hg.iff⟩

/-- The approximation of the Hessian is defined for the sampled pairs and for every shorter list of the first pairs. -/
theorem draw_defined (chol : Matrix (Fin n) (Fin n) ℝ → Option (Matrix (Fin n) (Fin n) ℝ)) (p : Samp n) {as bs : List (Pair n)} {c : Pair n}
    (h : (p.draw chol).1 = as ++ c :: bs) : c.y ⬝ᵥ c.s ≠ 0 ∧ hsr1List (as ++ [c]) (omegaNoWr c.y c.s) ≠ none := by
  obtain ⟨ks, hg, he⟩ := p.draw_inv chol (le_refl p.limit)
  have h' : ks.map (p.try chol) = as ++ c :: bs := by
    rw [← h]
    exact (congrArg Prod.fst he).symm
  obtain ⟨k1, k2, rfl, h1, h2⟩ := List.map_eq_append_iff.1 h'
  obtain ⟨k, k3, rfl, h3, -⟩ := List.map_eq_cons_iff.1 h2
  have := hg.prefix rfl
  rw [h3, h1] at this
  exact this

/-- Nothing is stored exactly if every gradient difference tried is orthogonal to its step, or a positive multiple of
the step. -/
theorem draw_nothing_iff (chol : Matrix (Fin n) (Fin n) ℝ → Option (Matrix (Fin n) (Fin n) ℝ)) (p : Samp n) {from_ : ℕ}
    (hf : from_ = if p.opts.adaptR then p.opts.Madapt else 0) :
    (p.draw chol).2 = 0 ↔ ∀ k < p.opts.nSamples.getD p.maxcor,
      let s := p.radius chol • p.step0 chol (from_ + k)
      let y := p.grad (p.coef - s) - p.grad p.coef
      y ⬝ᵥ s = 0 ∨ (0 < y ⬝ᵥ s ∧ (y ⬝ᵥ s) ^ 2 = (y ⬝ᵥ y) * (s ⬝ᵥ s)) := by
  obtain ⟨ks, hs, he, hi⟩ := draw_pairs chol p hf
  rw [he]
  simp only [List.length_eq_zero_iff]
  constructor
  · rintro rfl k hk
    have := hi k hk
    simp only [List.not_mem_nil, false_iff, not_and, not_not, List.filter_nil, List.map_nil] at this
    by_cases h0 : (p.grad (p.coef - p.radius chol • p.step0 chol (from_ + k)) - p.grad p.coef) ⬝ᵥ
        (p.radius chol • p.step0 chol (from_ + k)) = 0
    · exact Or.inl h0
    · exact Or.inr ((single_fails_iff _ _ _ h0).1 (this h0))
  · intro h
    by_contra hne
    obtain ⟨k, ks', rfl⟩ := List.exists_cons_of_ne_nil hne
    have hk : k < p.opts.nSamples.getD p.maxcor := List.mem_range.1 (hs.subset (by simp))
    have h1 := (hi k hk).1 (by simp)
    have hp : (k :: ks').Pairwise (· < ·) := List.pairwise_lt_range.sublist hs
    have e : (k :: ks').filter (· < k) = [] := by
      rw [List.filter_eq_nil_iff]
      intro j hj
      rcases List.mem_cons.1 hj with rfl | hj
      · simp
      · have := (List.pairwise_cons.1 hp).1 j hj
        simp only [decide_eq_true_eq, not_lt]
        exact this.le
    rw [e] at h1
    rcases h k hk with h2 | h2
    · exact h1.1 h2
    · exact h1.2 ((single_fails_iff _ _ _ h1.1).2 h2)

/-- `method=1`: if the derivative returned is that of the function handed over, every stored pair is a vector drawn together
with the negative Hessian times this vector, whatever the Hessian is. -/
theorem pearl_pairs (limit : ℕ) {grad : Vec n → Vec n} {coef : Vec n} {H : Matrix (Fin n) (Fin n) ℝ} {hv : Vec n → Vec n}
    (z : ℕ → Vec n)
    (hH : ∀ (s : Vec n) (i : Fin n), HasDerivAt (fun r : ℝ => grad (coef + r • s) i) ((H *ᵥ s) i) 0)
    (hd : ∀ (s : Vec n) (i : Fin n), HasDerivAt (fun r : ℝ => pearlFun grad coef s r i) (hv s i) 0) :
    ∃ ks : List ℕ, ks.Sublist (List.range limit) ∧ (pearl limit hv z).2 = ks.length ∧
      (pearl limit hv z).1 = ks.map (fun k => ⟨-(H *ᵥ z k), z k, 1 / (-(H *ᵥ z k) ⬝ᵥ z k)⟩) ∧
      ∀ k < limit, k ∈ ks ↔ -(H *ᵥ z k) ⬝ᵥ z k ≠ 0 ∧
        ¬ testFails ((ks.filter (· < k)).map fun k => (⟨-(H *ᵥ z k), z k, 1 / (-(H *ᵥ z k) ⬝ᵥ z k)⟩ : Pair n))
          ⟨-(H *ᵥ z k), z k, 1 / (-(H *ᵥ z k) ⬝ᵥ z k)⟩ := by
  have e : hv = fun s => -(H *ᵥ s) := by
    funext s i
    have h1 := (hH s i).const_mul (-1)
    have h2 := hd s i
    have e2 : (fun r : ℝ => pearlFun grad coef s r i) = fun r : ℝ => -1 * grad (coef + r • s) i := by
      funext r
      simp [pearlFun]
    rw [e2] at h2
    rw [h2.unique h1]
    simp
  obtain ⟨ks, hg, he⟩ := pearl_inv limit hv z (le_refl limit)
  have he' : pearl limit hv z = _ := he
  subst e
  refine ⟨ks, hg.sub, ?_, ?_, hg.iff⟩
  · rw [he']
  · rw [he']

/-- A quadratic log-likelihood with Hessian `-diag(1, 2)`: the step `(1, 1)` gives a pair, and a step along a coordinate
does not. -/
noncomputable def quadEx (z : Vec 2) : Samp 2 where
  llk := fun b => Fl.fin (-(b 0 ^ 2 + 2 * b 1 ^ 2) / 2)
  grad := fun b => ![-b 0, -2 * b 1]
  coef := ![1, 1]
  S := 1
  maxcor := 1
  H0 := 1
  z := fun _ => z
  opts := { adaptR := false, initR := 1 }

example : ((quadEx ![1, 1]).draw fun _ => none).2 ≠ 0 := by
  rw [Ne, draw_nothing_iff _ _ rfl]
  intro h
  have := h 0 (by simp [quadEx])
  simp [quadEx, Samp.radius, Samp.step0, Samp.LV, dotProduct, Fin.sum_univ_two] at this
  norm_num at this

example : ((quadEx ![1, 0]).draw fun _ => none).2 = 0 := by
  rw [draw_nothing_iff _ _ rfl]
  intro k _
  simp [quadEx, Samp.radius, Samp.step0, Samp.LV, dotProduct, Fin.sum_univ_two]

example : (quadEx ![1, 1]).step0 (fun _ => some ((1 / Real.sqrt 2) • 1)) 0 ⬝ᵥ
    (1 + 1 : Matrix (Fin 2) (Fin 2) ℝ) *ᵥ (quadEx ![1, 1]).step0 (fun _ => some ((1 / Real.sqrt 2) • 1)) 0 = 2 := by
  rw [step_scale (fun _ => some ((1 / Real.sqrt 2) • 1)) (quadEx ![1, 1]) (by simp [quadEx]) rfl]
  · simp [quadEx, dotProduct, Fin.sum_univ_two]
    norm_num
  · have h2 : Real.sqrt 2 * Real.sqrt 2 = 2 := Real.mul_self_sqrt (by norm_num)
    have h3 : Real.sqrt 2 ≠ 0 := by positivity
    ext i j
    fin_cases i <;> fin_cases j <;> simp [Matrix.mul_apply, Fin.sum_univ_two, Matrix.smul_apply]
    all_goals
      field_simp
      nlinarith [h2]

/-! ## The radius -/

/-- The radius is positive. -/
theorem radius_pos (chol : Matrix (Fin n) (Fin n) ℝ → Option (Matrix (Fin n) (Fin n) ℝ)) (p : Samp n) (h : 0 < p.opts.initR) :
    0 < p.radius chol := by
  unfold Samp.radius
  cases p.opts.adaptR with
  | true => exact p.rbar_pos chol _
  | false => exact h

/-- During adaptation the radius exceeds ten times the initial one exactly as long as the mean acceptance so far exceeds
the target. -/
theorem radius_feedback (chol : Matrix (Fin n) (Fin n) ℝ → Option (Matrix (Fin n) (Fin n) ℝ)) (p : Samp n) (h : 0 < p.opts.initR) (m : ℕ) :
    10 * p.opts.initR < (p.rad chol (m + 1)).r ↔
      p.opts.delta * (m + 1) < ∑ k ∈ Finset.range (m + 1), p.acc ((p.rad chol k).r • p.step0 chol k) := by
  have h10 : 0 < 10 * p.opts.initR := by linarith
  rw [← Real.log_lt_log_iff h10 (p.r_pos chol m), p.rad_logr, p.rad_Hbar, Finset.sum_sub_distrib]
  have hg := gain_pos m
  set c := (Real.sqrt ((m + 1 : ℕ) : ℝ) / 0.05) * (1 / (((m + 1 : ℕ) : ℝ) + 10))
  set A := ∑ k ∈ Finset.range (m + 1), p.acc ((p.rad chol k).r • p.step0 chol k)
  have e : ∑ k ∈ Finset.range (m + 1), p.opts.delta = p.opts.delta * (m + 1) := by
    rw [Finset.sum_const, Finset.card_range, nsmul_eq_mul]
    push_cast
    ring
  rw [e]
  change p.mu < p.mu - c * (p.opts.delta * (m + 1) - A) ↔ _
  constructor
  · intro h1
    by_contra h2
    have := mul_nonneg hg.le (sub_nonneg.2 (not_lt.1 h2))
    linarith
  · intro h1
    have := mul_pos hg (sub_pos.2 h1)
    nlinarith

/-- Perturbations that all are accepted less often than wanted do not enlarge the radius beyond ten times the initial one. -/
theorem radius_shrinks (chol : Matrix (Fin n) (Fin n) ℝ → Option (Matrix (Fin n) (Fin n) ℝ)) (p : Samp n) (h : 0 < p.opts.initR)
    (ha : p.opts.adaptR = true) (hM : 1 ≤ p.opts.Madapt) (hacc : ∀ s : Vec n, p.acc s ≤ p.opts.delta) :
    p.radius chol ≤ 10 * p.opts.initR := by
  obtain ⟨m, hm⟩ : ∃ m, p.opts.Madapt = m + 1 := ⟨p.opts.Madapt - 1, by omega⟩
  unfold Samp.radius
  rw [ha, if_pos rfl, hm, ← Real.log_le_log_iff (p.rbar_pos chol _) (by linarith)]
  refine p.rbar_le chol m fun k _ => ?_
  rw [Real.log_le_log_iff (p.r_pos chol k) (by linarith)]
  by_contra hc
  have := (radius_feedback chol p h k).1 (not_le.1 hc)
  have h2 : ∑ j ∈ Finset.range (k + 1), p.acc ((p.rad chol j).r • p.step0 chol j) ≤ p.opts.delta * (k + 1) := by
    refine (Finset.sum_le_sum fun j _ => hacc _).trans ?_
    rw [Finset.sum_const, Finset.card_range, nsmul_eq_mul]
    push_cast
    linarith
  linarith

/-- The acceptance of a perturbation with a finite log-likelihood is the smaller of one and the ratio of the penalised
likelihoods. -/
theorem acc_finite_partial (p : Samp n) (hT : p.opts.T ≠ 0) {s : Vec n} {l1 l0 : ℝ} (h1 : p.llk (p.coef - s) = Fl.fin l1)
    (h0 : p.llk p.coef = Fl.fin l0) :
    p.acc s = min 1 (Real.exp (((l1 - 0.5 * ((p.coef - s) ⬝ᵥ p.S *ᵥ (p.coef - s))) - (l0 - 0.5 * (p.coef ⬝ᵥ p.S *ᵥ p.coef))) / p.opts.T)) := by
  unfold Samp.acc Samp.penLlk
  rw [h1, h0, Fl.fin_sub, Fl.fin_sub, Fl.fin_sub, Fl.fin_div hT, minOne_fin]

/-- Perturbations where the log-likelihood is minus infinity count as rejected, so they do not enlarge the radius. -/
theorem invalid_ninf_partial (chol : Matrix (Fin n) (Fin n) ℝ → Option (Matrix (Fin n) (Fin n) ℝ)) (p : Samp n) (h : 0 < p.opts.initR)
    (hT : 0 < p.opts.T) (hd : 0 ≤ p.opts.delta) (ha : p.opts.adaptR = true) (hM : 1 ≤ p.opts.Madapt) {l0 : ℝ} (h0 : p.llk p.coef = Fl.fin l0)
    (hz : ∀ s : Vec n, p.llk (p.coef - s) = Fl.ninf ∨ p.acc s ≤ p.opts.delta) :
    p.radius chol ≤ 10 * p.opts.initR := by
  refine radius_shrinks chol p h ha hM fun s => ?_
  rcases hz s with h1 | h1
  · refine le_trans (le_of_eq ?_) hd
    unfold Samp.acc Samp.penLlk
    rw [h1, h0, Fl.fin_sub, Fl.ninf_sub_fin, Fl.ninf_sub_fin]
    have e : (Fl.ninf / Fl.fin p.opts.T) = Fl.ninf := if_pos hT.le
    rw [e]
    unfold minOne Fl.exp
    simp
  · exact h1

/-- Perturbations where the log-likelihood is not a number count as accepted: if all are, the radius ends up above ten times
the initial one. -/
theorem invalid_nan_wrong (chol : Matrix (Fin n) (Fin n) ℝ → Option (Matrix (Fin n) (Fin n) ℝ)) (p : Samp n) (h : 0 < p.opts.initR)
    (hd : p.opts.delta < 1) (ha : p.opts.adaptR = true) (hM : 1 ≤ p.opts.Madapt)
    (hz : ∀ m < p.opts.Madapt, p.llk (p.coef - (p.rad chol m).r • p.step0 chol m) = Fl.nan) :
    10 * p.opts.initR < p.radius chol := by
  have hacc : ∀ m < p.opts.Madapt, p.acc ((p.rad chol m).r • p.step0 chol m) = 1 := by
    intro m hm
    unfold Samp.acc Samp.penLlk
    rw [hz m hm]
    rfl
  obtain ⟨m, hm⟩ : ∃ m, p.opts.Madapt = m + 1 := ⟨p.opts.Madapt - 1, by omega⟩
  have h10 : 0 < 10 * p.opts.initR := by linarith
  have hlog : ∀ k < m + 1, Real.log (10 * p.opts.initR) < Real.log (p.rad chol (k + 1)).r := by
    intro k hk
    rw [Real.log_lt_log_iff h10 (p.r_pos chol k), radius_feedback chol p h k,
      Finset.sum_congr rfl fun j hj => hacc j (by have := Finset.mem_range.1 hj; omega)]
    rw [Finset.sum_const, Finset.card_range, nsmul_eq_mul]
    push_cast
    have : (0 : ℝ) ≤ k := Nat.cast_nonneg k
    nlinarith
  obtain ⟨lo, h1, h2⟩ : ∃ lo, Real.log (10 * p.opts.initR) < lo ∧ ∀ k < m + 1, lo ≤ Real.log (p.rad chol (k + 1)).r := by
    clear hm hz hacc
    induction m with
    | zero => exact ⟨_, hlog 0 (by omega), fun k hk => by rw [show k = 0 by omega]⟩
    | succ m ih =>
      obtain ⟨lo, h1, h2⟩ := ih fun k hk => hlog k (by omega)
      refine ⟨min lo (Real.log (p.rad chol (m + 1 + 1)).r), lt_min h1 (hlog (m + 1) (by omega)), fun k hk => ?_⟩
      rcases Nat.lt_succ_iff_lt_or_eq.1 hk with hk | rfl
      · exact (min_le_left _ _).trans (h2 k hk)
      · exact min_le_right _ _
  unfold Samp.radius
  rw [ha, if_pos rfl, hm, ← Real.log_lt_log_iff h10 (p.rbar_pos chol _)]
  exact h1.trans_le (p.rbar_ge chol m h2)

/-- A log-likelihood that is not a number away from the estimate: with default options the radius ends up above 100. -/
example : 100 < ({ quadEx ![1, 1] with llk := fun b => if b = ![1, 1] then Fl.fin 0 else Fl.nan, opts := {} } : Samp 2).radius fun _ => none := by
  have h := invalid_nan_wrong (fun _ => none)
    ({ quadEx ![1, 1] with llk := fun b => if b = ![1, 1] then Fl.fin 0 else Fl.nan, opts := {} } : Samp 2)
    (show (0 : ℝ) < 10 by norm_num) (show (0.8 : ℝ) < 1 by norm_num) rfl (show 1 ≤ 100 by norm_num) (fun m _ => ?_)
  · refine lt_of_eq_of_lt ?_ h
    change (100 : ℝ) = 10 * 10
    norm_num
  · refine if_neg fun he => ?_
    have h0 := congrFun he 0
    have hr : ∀ m, (({ quadEx ![1, 1] with llk := fun b => if b = ![1, 1] then Fl.fin 0 else Fl.nan, opts := {} } : Samp 2).rad
        (fun _ => none) m).r ≠ 0 := by
      intro m
      cases m with
      | zero => norm_num [Samp.rad]
      | succ m => exact (Samp.r_pos _ _ m).ne'
    refine hr m ?_
    simpa [quadEx, Samp.step0, Samp.LV] using h0

/-- Without adaptation steps the radius is one, not the initial radius. -/
theorem no_adaptation_wrong (chol : Matrix (Fin n) (Fin n) ℝ → Option (Matrix (Fin n) (Fin n) ℝ)) (p : Samp n) (ha : p.opts.adaptR = true)
    (hM : p.opts.Madapt = 0) : p.radius chol = 1 := by
  unfold Samp.radius
  rw [ha, if_pos rfl, hM]
  rfl

/-! ## Attempts -/

/-- The pairs come from the first of the seeds `outer`, ..., `outer + 29` that gives any. -/
theorem attempts_first (sample : ℕ → List (Pair n) × ℕ) (outer k : ℕ) (hk : k < 30) (h0 : ∀ j < k, (sample (outer + j)).2 = 0)
    (h : (sample (outer + k)).2 ≠ 0) : attempts sample outer = sample (outer + k) :=
  attemptLoop_first sample k outer 30 ([], 0) rfl hk h0 h

/-- Pairs are stored exactly if one of the 30 seeds gives any; no warning is given then. -/
theorem sampled_partial (p : ℕ → Samp n) (chol : Matrix (Fin n) (Fin n) ℝ → Option (Matrix (Fin n) (Fin n) ℝ)) (outer : ℕ) :
    (∃ k < 30, ((p (outer + k)).draw chol).2 ≠ 0) ↔
      ∃ l, sampled (fun seed => (p seed).draw chol) outer = (false, some l) ∧ l ≠ [] := by
  constructor
  · rintro ⟨k, hk, h⟩
    classical
    have hex : ∃ k, ((p (outer + k)).draw chol).2 ≠ 0 := ⟨k, h⟩
    have h1 := Nat.find_spec hex
    have h2 : Nat.find hex ≤ k := Nat.find_min' hex h
    have h3 := attempts_first (fun seed => (p seed).draw chol) outer (Nat.find hex) (by omega)
      (fun j hj => not_not.1 (Nat.find_min hex hj)) h1
    obtain ⟨ks, -, he, -⟩ := draw_pairs chol (p (outer + Nat.find hex)) rfl
    refine ⟨((p (outer + Nat.find hex)).draw chol).1, ?_, ?_⟩
    · unfold sampled store?
      simp only
      rw [h3]
      have hne : ((p (outer + Nat.find hex)).draw chol).1 ≠ [] := by
        intro h0
        rw [he] at h0 h1
        simp only [List.map_eq_nil_iff] at h0
        rw [h0] at h1
        exact h1 rfl
      rw [if_neg hne]
      simp only [Prod.mk.injEq, and_true]
      simpa using h1
    · intro h0
      rw [he] at h0 h1
      simp only [List.map_eq_nil_iff] at h0
      rw [h0] at h1
      exact h1 rfl
  · rintro ⟨l, hl, -⟩
    by_contra hc
    push Not at hc
    have h3 := attemptLoop_none (fun seed => (p seed).draw chol) 29 outer ([], 0) rfl (fun j hj => hc j hj)
    have h4 : attempts (fun seed => (p seed).draw chol) outer = (p (outer + 29)).draw chol := h3
    unfold sampled at hl
    rw [h4] at hl
    have := congrArg Prod.fst hl
    simp only [hc 29 (by omega), beq_self_eq_true] at this
    exact absurd this (by simp)

/-- If none of the seeds gives pairs the warning is followed by an exception: no storage can be built. -/
theorem no_samples_wrong (p : ℕ → Samp n) (chol : Matrix (Fin n) (Fin n) ℝ → Option (Matrix (Fin n) (Fin n) ℝ)) (outer : ℕ)
    (h : ∀ k < 30, ((p (outer + k)).draw chol).2 = 0) : sampled (fun seed => (p seed).draw chol) outer = (true, none) := by
  have h3 := attemptLoop_none (fun seed => (p seed).draw chol) 29 outer ([], 0) rfl (fun j hj => h j hj)
  have h4 : attempts (fun seed => (p seed).draw chol) outer = (p (outer + 29)).draw chol := h3
  unfold sampled
  simp only
  rw [h4]
  obtain ⟨ks, -, he, -⟩ := draw_pairs chol (p (outer + 29)) rfl
  have h5 := h 29 (by omega)
  rw [he] at h5 ⊢
  simp only [List.length_eq_zero_iff] at h5
  rw [h5]
  rfl

/-- This happens for every log-likelihood whose negative Hessian is a multiple of the identity, whatever is drawn:
update vectors of `SR1` cannot be told apart from the scaled identity they start from. -/
theorem isotropic_wrong (p : ℕ → Samp n) (chol : Matrix (Fin n) (Fin n) ℝ → Option (Matrix (Fin n) (Fin n) ℝ)) (outer : ℕ) (c : ℝ) (hc : 0 ≤ c)
    (g0 : Vec n) (hg : ∀ seed b, (p seed).grad b = g0 - c • b) : sampled (fun seed => (p seed).draw chol) outer = (true, none) := by
  refine no_samples_wrong p chol outer fun k _ => ?_
  rw [draw_nothing_iff _ _ rfl]
  intro j _
  simp only [hg]
  set q := p (outer + k)
  generalize q.radius chol • q.step0 chol _ = s
  have e : g0 - c • (q.coef - s) - (g0 - c • q.coef) = c • s := by
    rw [smul_sub]
    abel
  rw [e, smul_dotProduct, smul_dotProduct, dotProduct_smul]
  simp only [smul_eq_mul]
  rcases hc.eq_or_lt with rfl | hc
  · left
    ring
  · rcases (dot_nonneg s).eq_or_lt with h0 | h0
    · left
      rw [← h0, mul_zero]
    · right
      exact ⟨mul_pos hc h0, by ring⟩

/-- Unit normal log-likelihood, any normal numbers. -/
example (z : ℕ → ℕ → Vec 2) (outer : ℕ) : sampled (fun seed => ({ quadEx 0 with grad := fun b => -b, z := z seed } : Samp 2).draw fun _ => none) outer
    = (true, none) :=
  isotropic_wrong (fun seed => { quadEx 0 with grad := fun b => -b, z := z seed }) _ outer 1 zero_le_one 0 (fun _ b => by simp)

/-! ## Columns -/

/-- The columns used for finite differences followed by the others are a rearrangement of all columns exactly if they are
distinct columns of the model. -/
theorem columns_perm_iff (n : ℕ) (fcols : List ℕ) :
    (tcols n fcols).Perm (List.range n) ↔ fcols.Nodup ∧ ∀ c ∈ fcols, c < n := by
  constructor
  · intro h
    have h1 : (tcols n fcols).Nodup := h.nodup_iff.2 List.nodup_range
    refine ⟨(List.nodup_append.1 h1).1, fun c hc => ?_⟩
    have : c ∈ List.range n := h.subset (List.mem_append_left _ hc)
    exact List.mem_range.1 this
  · rintro ⟨h1, h2⟩
    have hn : (tcols n fcols).Nodup := by
      unfold tcols acols
      rw [List.nodup_append]
      refine ⟨h1, List.nodup_range.filter _, ?_⟩
      rintro c hc d hd rfl
      rw [List.mem_filter] at hd
      simp [hc] at hd
    rw [List.perm_ext_iff_of_nodup hn List.nodup_range]
    intro c
    unfold tcols acols
    rw [List.mem_append, List.mem_filter, List.mem_range]
    constructor
    · rintro (h | h)
      · exact h2 c h
      · exact h.1
    · intro h
      by_cases hc : c ∈ fcols
      · exact Or.inl hc
      · exact Or.inr ⟨h, by simpa using hc⟩

end Verif.Secant
