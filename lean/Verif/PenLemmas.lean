import Verif.PenModel
import Mathlib.Algebra.Group.ForwardDiff
import Mathlib.LinearAlgebra.Matrix.Rank
import Mathlib.LinearAlgebra.Lagrange
import Mathlib.RingTheory.Polynomial.Pochhammer
import Mathlib.Data.Nat.Choose.Cast
import Mathlib.Data.Nat.Factorial.Cast
import Mathlib.RingTheory.Polynomial.DegreeLT
import Mathlib.LinearAlgebra.Matrix.DotProduct
import Mathlib.Tactic

/-! # Lemmas on differences, recoding and ranks -/

namespace Verif.Pen

open Finset Polynomial

/-- Differences only look at the entries they span. -/
theorem diff_local (m : ℕ) : ∀ (f g : ℕ → ℝ) (j : ℕ), (∀ i ≤ j + m, f i = g i) →
    diff1^[m] f j = diff1^[m] g j := by
  induction m with
  | zero => intro f g j h; exact h j (by omega)
  | succ m ih =>
    intro f g j h
    rw [Function.iterate_succ_apply, Function.iterate_succ_apply]
    refine ih _ _ j fun i hi => ?_
    simp only [diff1]
    rw [h (i + 1) (by omega), h i (by omega)]

theorem diff1_sum (s : Finset ℕ) (v : ℕ → ℝ) (F : ℕ → ℕ → ℝ) :
    diff1 (fun j => ∑ i ∈ s, v i * F i j) = fun j => ∑ i ∈ s, v i * diff1 (F i) j := by
  funext j
  simp only [diff1, ← Finset.sum_sub_distrib]
  exact Finset.sum_congr rfl fun i _ => by ring

theorem diff_sum (m : ℕ) (s : Finset ℕ) (v : ℕ → ℝ) : ∀ F : ℕ → ℕ → ℝ,
    diff1^[m] (fun j => ∑ i ∈ s, v i * F i j) = fun j => ∑ i ∈ s, v i * diff1^[m] (F i) j := by
  induction m with
  | zero => intro F; rfl
  | succ m ih =>
    intro F
    rw [Function.iterate_succ_apply, diff1_sum, ih]
    rfl

/-- The root applied to a vector takes its differences. -/
theorem root_apply (n m : ℕ) (v : ℕ → ℝ) (j : ℕ) (hj : j < n - m) :
    ∑ i ∈ range n, v i * npDiff m eye i j = diff1^[m] v j := by
  have h := congrFun (diff_sum m (range n) v eye) j
  simp only [npDiff]
  rw [← h]
  refine diff_local m _ _ j fun i hi => ?_
  simp only [eye, mul_ite, mul_one, mul_zero, Finset.sum_ite_eq', mem_range]
  rw [if_pos (by omega)]

theorem quad_gram (n k : ℕ) (D : Arr) (v : ℕ → ℝ) :
    quad n (gram k D) v = ∑ j ∈ range k, (∑ i ∈ range n, v i * D i j) ^ 2 := by
  simp only [quad, gram, sq, Finset.mul_sum, Finset.sum_mul]
  have e1 : ∀ i ∈ range n, (∑ j ∈ range n, ∑ l ∈ range k, v i * (D i l * D j l) * v j)
      = ∑ l ∈ range k, ∑ j ∈ range n, v i * (D i l * D j l) * v j :=
    fun i _ => Finset.sum_comm
  rw [Finset.sum_congr rfl e1, Finset.sum_comm]
  refine Finset.sum_congr rfl fun l _ => Finset.sum_congr rfl fun i _ =>
    Finset.sum_congr rfl fun j _ => by ring

theorem diff_eq_fwd (m : ℕ) (f : ℕ → ℝ) : diff1^[m] f = (fwdDiff 1)^[m] f := rfl

theorem diff_poly (m : ℕ) : ∀ (P : ℝ → ℝ) (j : ℕ),
    diff1^[m] (fun i : ℕ => P i) j = (fwdDiff (1 : ℝ))^[m] P j := by
  induction m with
  | zero => intro P j; rfl
  | succ m ih =>
    intro P j
    rw [Function.iterate_succ_apply, Function.iterate_succ_apply]
    rw [← ih (fwdDiff 1 P) j]
    refine congrArg (fun f => diff1^[m] f j) ?_
    funext i
    simp only [diff1, fwdDiff]
    push_cast
    rfl

/-- The polynomial `x choose k`. -/
noncomputable def chooseP (k : ℕ) : ℝ[X] := C ((k.factorial : ℝ)⁻¹) * descPochhammer ℝ k

theorem chooseP_eval (k i : ℕ) : (chooseP k).eval (i : ℝ) = (i.choose k : ℝ) := by
  rw [chooseP, eval_mul, eval_C, descPochhammer_eval_eq_descFactorial,
    Nat.descFactorial_eq_factorial_mul_choose]
  push_cast
  rw [← mul_assoc, inv_mul_cancel₀ (by exact_mod_cast Nat.factorial_ne_zero k), one_mul]

theorem chooseP_degree (k m : ℕ) (h : k < m) : (chooseP k).degree < (m : ℕ) := by
  have h0 : ((k.factorial : ℝ)⁻¹) ≠ 0 := inv_ne_zero (by exact_mod_cast Nat.factorial_ne_zero k)
  rw [chooseP, degree_C_mul h0]
  have h1 : (descPochhammer ℝ k).natDegree = k := descPochhammer_natDegree ℝ k
  have h2 : descPochhammer ℝ k ≠ 0 := (monic_descPochhammer ℝ k).ne_zero
  rw [degree_eq_natDegree h2, h1]
  exact_mod_cast h

/-- A vector has vanishing differences exactly when it is a polynomial of lower degree on the
grid. -/
theorem ker_iff (n m : ℕ) (v : ℕ → ℝ) :
    (∀ j < n - m, diff1^[m] v j = 0) ↔
      ∃ P : ℝ[X], P.degree < (m : ℕ) ∧ ∀ i < n, v i = P.eval (i : ℝ) := by
  constructor
  · intro h
    refine ⟨∑ k ∈ range m, C (diff1^[k] v 0) * chooseP k, ?_, ?_⟩
    · rcases Nat.eq_zero_or_pos m with rfl | hm
      · simp
      refine lt_of_le_of_lt (degree_sum_le _ _) ?_
      rw [Finset.sup_lt_iff (by exact WithBot.bot_lt_coe m)]
      intro k hk
      refine lt_of_le_of_lt ?_ (chooseP_degree k m (mem_range.1 hk))
      rw [← smul_eq_C_mul]
      exact degree_smul_le _ _
    · intro i hi
      have hv := shift_eq_sum_fwdDiff_iter (1 : ℕ) v i 0
      simp only [smul_eq_mul, mul_one, zero_add] at hv
      rw [hv, eval_finsetSum]
      simp only [eval_mul, eval_C, chooseP_eval, nsmul_eq_mul]
      have hz : ∀ k, m ≤ k → k < n → diff1^[k] v 0 = 0 := by
        intro k hk hkn
        obtain ⟨d, rfl⟩ := Nat.exists_eq_add_of_le hk
        rw [show m + d = d + m by omega, Function.iterate_add_apply]
        rw [diff_local d _ (fun _ => 0) 0 (fun i hi => h i (by omega))]
        have : ∀ d : ℕ, diff1^[d] (fun _ : ℕ => (0 : ℝ)) = fun _ => 0 := by
          intro d
          induction d with
          | zero => rfl
          | succ d ih => rw [Function.iterate_succ_apply']; rw [ih]; funext j; simp [diff1]
        rw [this]
      have e1 : ∑ k ∈ range (i + 1), (i.choose k : ℝ) * (fwdDiff 1)^[k] v 0
          = ∑ k ∈ range (max (i + 1) m), (i.choose k : ℝ) * diff1^[k] v 0 := by
        refine Finset.sum_subset (fun k hk => ?_) fun k _ hk => ?_
        · simp only [mem_range] at hk ⊢; omega
        · simp only [mem_range] at hk
          rw [Nat.choose_eq_zero_of_lt (by omega)]; simp
      have e2 : ∑ k ∈ range m, (i.choose k : ℝ) * diff1^[k] v 0
          = ∑ k ∈ range (max (i + 1) m), (i.choose k : ℝ) * diff1^[k] v 0 := by
        refine Finset.sum_subset (fun k hk => ?_) fun k hk hk' => ?_
        · simp only [mem_range] at hk ⊢; omega
        · simp only [mem_range] at hk hk'
          rw [hz k (by omega) (by omega)]; simp
      rw [e1, ← e2]
      exact Finset.sum_congr rfl fun k _ => mul_comm _ _
  · rintro ⟨P, hP, hv⟩ j hj
    rw [diff_local m v (fun i : ℕ => P.eval (i : ℝ)) j (fun i hi => hv i (by omega)),
      diff_poly m P.eval j]
    rcases Nat.eq_zero_or_pos m with rfl | hm
    · have : P = 0 := by simpa using hP
      simp [this]
    · rw [fwdDiff_iter_eq_zero_of_degree_lt]
      · rfl
      · rcases eq_or_ne P 0 with rfl | h0
        · simpa using hm
        · exact (natDegree_lt_iff_degree_lt h0).2 hP

/-- Values of polynomials of degree below `m` on the grid. -/
noncomputable def evalMap (n m : ℕ) : degreeLT ℝ m →ₗ[ℝ] (Fin n → ℝ) :=
  LinearMap.pi fun i => (leval (i : ℝ)).comp (degreeLT ℝ m).subtype

theorem evalMap_apply (n m : ℕ) (p : degreeLT ℝ m) (i : Fin n) :
    evalMap n m p i = p.1.eval (i : ℝ) := rfl

theorem evalMap_inj (n m : ℕ) (h : m ≤ n) : Function.Injective (evalMap n m) := by
  rw [← LinearMap.ker_eq_bot, LinearMap.ker_eq_bot']
  intro p hp
  have hd : p.1.degree < (m : ℕ) := mem_degreeLT.1 p.2
  apply Subtype.ext
  refine Polynomial.eq_zero_of_degree_lt_of_eval_index_eq_zero (s := (univ : Finset (Fin n)))
    (v := fun i : Fin n => ((i : ℕ) : ℝ)) ?_ ?_ ?_
  · intro a _ b _ hab
    dsimp only at hab
    exact Fin.ext (by exact_mod_cast hab)
  · refine lt_of_lt_of_le hd ?_
    simp only [card_univ, Fintype.card_fin]
    exact_mod_cast h
  · intro i _
    have := congrFun hp i
    rwa [evalMap_apply] at this

/-- A vector of finite length as a function on all indices. -/
def ext {n : ℕ} (v : Fin n → ℝ) : ℕ → ℝ := fun i => if h : i < n then v ⟨i, h⟩ else 0

theorem ext_apply {n : ℕ} (v : Fin n → ℝ) (i : Fin n) : ext v i = v i := by
  simp [ext]

/-- The null space. -/
noncomputable def nullS (n m : ℕ) : Submodule ℝ (Fin n → ℝ) := LinearMap.range (evalMap n m)

theorem mem_nullS {n m : ℕ} (v : Fin n → ℝ) :
    v ∈ nullS n m ↔ ∀ j < n - m, diff1^[m] (ext v) j = 0 := by
  rw [ker_iff]
  constructor
  · rintro ⟨p, rfl⟩
    refine ⟨p.1, mem_degreeLT.1 p.2, fun i hi => ?_⟩
    rw [show i = ((⟨i, hi⟩ : Fin n) : ℕ) from rfl, ext_apply, evalMap_apply]
  · rintro ⟨P, hP, h⟩
    refine ⟨⟨P, mem_degreeLT.2 hP⟩, ?_⟩
    funext i
    rw [evalMap_apply, ← h i i.2, ext_apply]

theorem finrank_nullS (n m : ℕ) (h : m ≤ n) : Module.finrank ℝ (nullS n m) = m := by
  rw [nullS, LinearMap.finrank_range_of_inj (evalMap_inj n m h),
    (degreeLTEquiv ℝ m).finrank_eq, Module.finrank_fintype_fun_eq_card, Fintype.card_fin]

/-- Rank of a product of a matrix with its transpose from the kernel. -/
theorem rank_gram {q k : ℕ} (E : Matrix (Fin q) (Fin k) ℝ) (d : ℕ)
    (hd : Module.finrank ℝ (LinearMap.ker (Matrix.mulVecLin E.transpose)) = d) :
    (E * E.transpose).rank = q - d := by
  rw [Matrix.rank_self_mul_transpose, ← Matrix.rank_transpose]
  have := LinearMap.finrank_range_add_finrank_ker (Matrix.mulVecLin E.transpose)
  rw [hd, Module.finrank_fintype_fun_eq_card, Fintype.card_fin] at this
  rw [Matrix.rank]
  omega

/-- A functional that does not vanish on a subspace cuts its dimension by one. -/
theorem finrank_cut {V : Type*} [AddCommGroup V] [Module ℝ V] [FiniteDimensional ℝ V]
    (K : Submodule ℝ V) (l : V →ₗ[ℝ] ℝ) (w : V) (hw : w ∈ K) (hl : l w ≠ 0) :
    Module.finrank ℝ (K ⊓ LinearMap.ker l : Submodule ℝ V) + 1 = Module.finrank ℝ K := by
  have h := LinearMap.finrank_range_add_finrank_ker (l.domRestrict K)
  have hr : LinearMap.range (l.domRestrict K) = ⊤ := by
    rw [LinearMap.range_eq_top]
    intro x
    refine ⟨(x / l w) • ⟨w, hw⟩, ?_⟩
    rw [map_smul]
    simp [LinearMap.domRestrict_apply, hl]
  rw [hr, finrank_top, Module.finrank_self] at h
  have hk : Module.finrank ℝ (LinearMap.ker (l.domRestrict K))
      = Module.finrank ℝ (K ⊓ LinearMap.ker l : Submodule ℝ V) := by
    rw [LinearMap.ker_domRestrict]
    rw [show K ⊓ LinearMap.ker l = ((LinearMap.ker l).comap K.subtype).map K.subtype by
      rw [Submodule.map_comap_subtype]]
    exact (LinearEquiv.finrank_eq (Submodule.equivMapOfInjective K.subtype
      K.subtype_injective _))
  omega

theorem finrank_comap_inj {V W : Type*} [AddCommGroup V] [Module ℝ V] [FiniteDimensional ℝ V]
    [AddCommGroup W] [Module ℝ W] [FiniteDimensional ℝ W]
    (T : V →ₗ[ℝ] W) (hT : Function.Injective T) (K : Submodule ℝ W) :
    Module.finrank ℝ (K.comap T) = Module.finrank ℝ (K ⊓ LinearMap.range T : Submodule ℝ W) := by
  rw [inf_comm, ← Submodule.map_comap_eq]
  exact LinearEquiv.finrank_eq (Submodule.equivMapOfInjective T hT _)

/-! ### Absorbing constraints as a linear map -/

/-- Index kept or moved to by column `j`. -/
def hd (z j : ℕ) : ℕ := if j < z then j else j + 1

/-- Index subtracted in column `j` of the difference recoding. -/
def tl (n z j : ℕ) : ℕ := if j < z then (if j = 0 then n - 1 else j - 1) else j

/-- Matrix that maps constrained to unconstrained coefficients. -/
def backT (n : ℕ) : Con → Arr
  | .qr Z => Z
  | .drop z => fun a j => if a = hd z j then 1 else 0
  | .diff z => fun a j => (if a = hd z j then 1 else 0) - (if a = tl n z j then 1 else 0)

/-- The index of the constraint is a column. -/
def Con.ok (n : ℕ) : Con → Prop
  | .qr _ => True
  | .drop z => z < n
  | .diff z => z < n

theorem recode_apply (n z j : ℕ) (f : ℕ → ℝ) (hz : z < n) (hj : j < n - 1) :
    recode n z f j = f (hd z j) - f (tl n z j) := by
  unfold recode rot diff1 hd tl
  dsimp only
  by_cases h : j < z
  · rw [if_pos (show j < n - 1 - (n - 1 - z) by omega), if_pos h, if_pos h,
      if_neg (show ¬ (j + (n - 1 - z) + 1 < n - z) by omega)]
    rw [show j + (n - 1 - z) + 1 - (n - z) = j by omega]
    by_cases h0 : j = 0
    · rw [if_pos h0, if_pos (by omega), show j + (n - 1 - z) + z = n - 1 by omega]
    · rw [if_neg h0, if_neg (by omega), show j + (n - 1 - z) - (n - z) = j - 1 by omega]
  · rw [if_neg (show ¬ (j < n - 1 - (n - 1 - z)) by omega), if_neg h, if_neg h,
      show j - (n - 1 - (n - 1 - z)) = j - z by omega, if_pos (by omega), if_pos (by omega),
      show j - z + 1 + z = j + 1 by omega, show j - z + z = j by omega]

theorem hd_lt (n z j : ℕ) (hj : j < n - 1) : hd z j < n := by
  unfold hd; split_ifs <;> omega

theorem tl_lt (n z j : ℕ) (hj : j < n - 1) : tl n z j < n := by
  unfold tl; split_ifs <;> omega

theorem sum_pick (n a : ℕ) (ha : a < n) (f : ℕ → ℝ) :
    ∑ b ∈ range n, f b * (if b = a then (1 : ℝ) else 0) = f a := by
  simp [ha]

theorem absorbB_eq (n : ℕ) (con : Con) (h : con.ok n) (B : Arr) (r j : ℕ) (hj : j < n - 1) :
    absorbB n con B r j = ∑ a ∈ range n, B r a * backT n con a j := by
  cases con with
  | qr Z => rfl
  | drop z =>
    simp only [absorbB, backT]
    rw [sum_pick n _ (hd_lt n z j hj)]
    unfold del hd
    split_ifs <;> rfl
  | diff z =>
    simp only [absorbB, backT, mul_sub, Finset.sum_sub_distrib]
    rw [sum_pick n _ (hd_lt n z j hj), sum_pick n _ (tl_lt n z j hj),
      recode_apply n z j _ h hj]

theorem absorbD_eq (n : ℕ) (con : Con) (h : con.ok n) (D : Arr) (i j : ℕ) (hi : i < n - 1) :
    absorbD n con D i j = ∑ a ∈ range n, backT n con a i * D a j := by
  cases con with
  | qr Z => rfl
  | drop z =>
    simp only [absorbD, backT]
    rw [Finset.sum_congr rfl fun a _ => mul_comm _ _, sum_pick n (hd z i) (hd_lt n z i hi)
      (fun a => D a j)]
    unfold del hd
    split_ifs <;> rfl
  | diff z =>
    simp only [absorbD, backT, tr]
    rw [recode_apply n z i _ h hi]
    rw [Finset.sum_congr rfl fun a _ => mul_comm _ _]
    simp only [mul_sub, Finset.sum_sub_distrib]
    rw [sum_pick n (hd z i) (hd_lt n z i hi) (fun a => D a j),
      sum_pick n (tl n z i) (tl_lt n z i hi) (fun a => D a j)]
    rfl

theorem absorbS_gram (n k : ℕ) (con : Con) (D : Arr) (i j : ℕ) :
    absorbS n k con (gram k D) D i j = gram k (absorbD n con D) i j := by
  cases con with
  | qr Z =>
    simp only [absorbS, absorbD, gram, Finset.sum_mul, Finset.mul_sum]
    have e1 : ∀ b ∈ range n, (∑ a ∈ range n, ∑ l ∈ range k, Z a i * (D a l * D b l) * Z b j)
        = ∑ l ∈ range k, ∑ a ∈ range n, Z a i * (D a l * D b l) * Z b j :=
      fun b _ => Finset.sum_comm
    rw [Finset.sum_congr rfl e1, Finset.sum_comm]
    refine Finset.sum_congr rfl fun l _ => ?_
    refine Finset.sum_congr rfl fun b _ => Finset.sum_congr rfl fun a _ => by ring
  | drop z =>
    simp only [absorbS, absorbD, gram, del]
    by_cases hi : i < z <;> by_cases hj : j < z <;>
      simp only [hi, hj, if_true, if_false] <;> unfold del gram <;> simp [hj]
  | diff z => rfl

/-- The constrained root applied to coefficients is the unconstrained root applied to the
back-transformed coefficients. -/
theorem absorbD_apply (n : ℕ) (con : Con) (h : con.ok n) (D : Arr) (γ : ℕ → ℝ) (l : ℕ) :
    ∑ i ∈ range (n - 1), γ i * absorbD n con D i l
      = ∑ a ∈ range n, mv (n - 1) (backT n con) γ a * D a l := by
  have e1 : ∀ i ∈ range (n - 1), γ i * absorbD n con D i l
      = ∑ a ∈ range n, backT n con a i * γ i * D a l := by
    intro i hi
    rw [absorbD_eq n con h D i l (mem_range.1 hi), Finset.mul_sum]
    exact Finset.sum_congr rfl fun a _ => by ring
  rw [Finset.sum_congr rfl e1, Finset.sum_comm]
  simp only [mv, Finset.sum_mul]

theorem absorbS_quad (n k : ℕ) (con : Con) (h : con.ok n) (D : Arr) (γ : ℕ → ℝ) :
    quad (n - 1) (absorbS n k con (gram k D) D) γ
      = quad n (gram k D) (mv (n - 1) (backT n con) γ) := by
  rw [quad_gram]
  rw [show quad (n - 1) (absorbS n k con (gram k D) D) γ
    = quad (n - 1) (gram k (absorbD n con D)) γ by simp only [quad, absorbS_gram], quad_gram]
  simp only [absorbD_apply n con h]

theorem absorbB_apply (n : ℕ) (con : Con) (h : con.ok n) (B : Arr) (γ : ℕ → ℝ) (r : ℕ) :
    mv (n - 1) (absorbB n con B) γ r = mv n B (mv (n - 1) (backT n con) γ) r := by
  simp only [mv, Finset.mul_sum]
  rw [Finset.sum_comm]
  refine Finset.sum_congr rfl fun j hj => ?_
  rw [absorbB_eq n con h B r j (mem_range.1 hj), Finset.sum_mul]
  exact Finset.sum_congr rfl fun a _ => by ring

/-! ### Which coefficients are reached -/

theorem backT_drop (n z a : ℕ) (hz : z < n) (ha : a < n) (γ : ℕ → ℝ) :
    mv (n - 1) (backT n (.drop z)) γ a = if a = z then 0 else γ (if a < z then a else a - 1) := by
  simp only [mv, backT, ite_mul, one_mul, zero_mul]
  by_cases h : a = z
  · rw [if_pos h]
    refine Finset.sum_eq_zero fun j hj => if_neg ?_
    unfold hd; split_ifs <;> omega
  · rw [if_neg h]
    have hm := mem_range (n := n - 1) (m := if a < z then a else a - 1)
    rw [Finset.sum_eq_single (if a < z then a else a - 1)]
    · rw [if_pos]; unfold hd; split_ifs <;> omega
    · intro j _ hj; refine if_neg ?_; revert hj; unfold hd; split_ifs <;> omega
    · intro hn; exact absurd (mem_range.2 (by split_ifs <;> omega)) hn

/-- Value of the difference recoding at an index: what enters minus what leaves. -/
theorem backT_diff (n z a : ℕ) (hz : z < n) (ha : a < n) (γ : ℕ → ℝ) :
    mv (n - 1) (backT n (.diff z)) γ a
      = (if a = z then 0 else γ (if a < z then a else a - 1))
        - (if a + 1 = z ∨ (z = 0 ∧ a = n - 1) then 0
            else γ (if a < z then a + 1 else if a = n - 1 then 0 else a)) := by
  have h1 := backT_drop n z a hz ha γ
  simp only [mv, backT] at h1 ⊢
  simp only [sub_mul, Finset.sum_sub_distrib]
  rw [h1]
  congr 1
  simp only [ite_mul, one_mul, zero_mul]
  by_cases h : a + 1 = z ∨ (z = 0 ∧ a = n - 1)
  · rw [if_pos h]
    refine Finset.sum_eq_zero fun j hj => if_neg ?_
    have := mem_range.1 hj
    unfold tl; split_ifs <;> omega
  · rw [if_neg h]
    obtain ⟨b, hb⟩ : ∃ b, b = (if a < z then a + 1 else if a = n - 1 then 0 else a) := ⟨_, rfl⟩
    have hb' : b < n - 1 ∧ tl n z b = a := by
      rw [hb]
      unfold tl
      by_cases h1 : a < z
      · simp only [if_pos h1]
        refine ⟨by omega, ?_⟩
        rw [if_pos (show a + 1 < z by omega), if_neg (show ¬ (a + 1 = 0) by omega)]
        omega
      · by_cases h2 : a = n - 1
        · simp only [if_neg h1, if_pos h2]
          refine ⟨by omega, ?_⟩
          rw [if_pos (show 0 < z by omega)]
          simp [h2]
        · simp only [if_neg h1, if_neg h2]
          exact ⟨by omega, trivial⟩
    rw [← hb, Finset.sum_eq_single b]
    · rw [if_pos hb'.2.symm]
    · intro j hj' hj
      have := mem_range.1 hj'
      refine if_neg ?_
      intro e
      rw [← hb'.2] at e
      apply hj
      have hb1 := hb'.1
      clear hb h hb' h1
      unfold tl at e
      split_ifs at e <;> omega
    · intro hn; exact absurd (mem_range.2 hb'.1) hn

theorem diff_sum_zero (n z : ℕ) (γ : ℕ → ℝ) :
    ∑ a ∈ range n, mv (n - 1) (backT n (.diff z)) γ a = 0 := by
  simp only [mv]
  rw [Finset.sum_comm]
  refine Finset.sum_eq_zero fun j hj => ?_
  rw [← Finset.sum_mul]
  simp only [backT, Finset.sum_sub_distrib, Finset.sum_ite_eq', mem_range]
  have := mem_range.1 hj
  rw [if_pos (hd_lt n z j this), if_pos (tl_lt n z j this)]
  simp

/-- Sum along the path `z, …, n-1, 0, …, z-1` up to index `a`. -/
noncomputable def cum (n z : ℕ) (β : ℕ → ℝ) (a : ℕ) : ℝ :=
  if z ≤ a then ∑ l ∈ Ico z (a + 1), β l
  else ∑ l ∈ Ico z n, β l + ∑ l ∈ range (a + 1), β l

theorem diff_surj (n z : ℕ) (hz : z < n) (β : ℕ → ℝ) (hβ : ∑ a ∈ range n, β a = 0) (a : ℕ)
    (ha : a < n) :
    β a = mv (n - 1) (backT n (.diff z)) (fun j => - cum n z β (tl n z j)) a := by
  rw [backT_diff n z a hz ha]
  have htot : ∑ l ∈ Ico z n, β l + ∑ l ∈ range z, β l = 0 := by
    rw [← hβ, add_comm, Finset.sum_range_add_sum_Ico _ hz.le]
  -- what leaves is the sum up to `a`
  have hq : (if a + 1 = z ∨ (z = 0 ∧ a = n - 1) then (0 : ℝ)
      else - cum n z β (tl n z (if a < z then a + 1 else if a = n - 1 then 0 else a)))
      = - cum n z β a := by
    by_cases h : a + 1 = z ∨ (z = 0 ∧ a = n - 1)
    · rw [if_pos h]
      rcases h with h | ⟨h, h'⟩
      · have : cum n z β a = 0 := by
          unfold cum; rw [if_neg (by omega), h]; exact htot
        rw [this]; simp
      · have : cum n z β a = 0 := by
          unfold cum; rw [if_pos (by omega), show a + 1 = n by omega]
          subst h; simpa using htot
        rw [this]; simp
    · rw [if_neg h]
      congr 2
      unfold tl
      by_cases h1 : a < z
      · simp only [if_pos h1]
        rw [if_pos (show a + 1 < z by omega), if_neg (show ¬ (a + 1 = 0) by omega)]
        omega
      · by_cases h2 : a = n - 1
        · simp only [if_neg h1, if_pos h2]
          rw [if_pos (show 0 < z by omega)]
          simp [h2]
        · simp only [if_neg h1, if_neg h2]
  rw [hq]
  by_cases hza : a = z
  · rw [if_pos hza]; subst hza
    unfold cum; rw [if_pos le_rfl]; simp
  · rw [if_neg hza]
    by_cases haz : a < z
    · rw [if_pos haz]
      by_cases h0 : a = 0
      · subst h0
        have : tl n z 0 = n - 1 := by unfold tl; rw [if_pos haz, if_pos rfl]
        rw [this]
        unfold cum
        rw [if_pos (by omega), if_neg (by omega), show n - 1 + 1 = n by omega]
        simp
      · have : tl n z a = a - 1 := by unfold tl; rw [if_pos haz, if_neg h0]
        rw [this]
        unfold cum
        rw [if_neg (by omega), if_neg (by omega), show a - 1 + 1 = a by omega,
          Finset.sum_range_succ]
        ring
    · rw [if_neg haz]
      have : tl n z (a - 1) = a - 1 := by unfold tl; rw [if_neg (by omega)]
      rw [this]
      unfold cum
      rw [if_pos (by omega), if_pos (by omega), show a - 1 + 1 = a by omega,
        Finset.sum_Ico_succ_top (by omega)]
      ring

/-- Coefficients of the difference recoding are determined by the vector: the coefficient of
column `j` is minus the path sum up to the index it leaves. -/
theorem diff_inj (n z : ℕ) (hz : z < n) (γ : ℕ → ℝ) (hγ : ∀ a < n,
    mv (n - 1) (backT n (.diff z)) γ a = 0) : ∀ j < n - 1, γ j = 0 := by
  -- upper part of the path
  have hup : ∀ d j, j = z + d → j < n - 1 → γ j = 0 := by
    intro d
    induction d with
    | zero =>
      intro j hj hjn
      have := hγ j (by omega)
      rw [backT_diff n z j hz (by omega), if_pos (by omega), if_neg (by omega),
        if_neg (by omega), if_neg (by omega)] at this
      linarith
    | succ d ih =>
      intro j hj hjn
      have := hγ j (by omega)
      rw [backT_diff n z j hz (by omega), if_neg (by omega), if_neg (by omega), if_neg (by omega),
        if_neg (by omega), if_neg (by omega), ih (j - 1) (by omega) (by omega)] at this
      linarith
  have hlow : ∀ j, j < z → j < n - 1 → γ j = 0 := by
    intro j
    induction j with
    | zero =>
      intro hj hjn
      have := hγ (n - 1) (by omega)
      rw [backT_diff n z (n - 1) hz (by omega)] at this
      by_cases hzn : n - 1 = z
      · rw [if_pos hzn, if_neg (by omega), if_neg (by omega), if_pos rfl] at this
        linarith
      · rw [if_neg hzn, if_neg (by omega), if_neg (by omega), if_neg (by omega), if_pos rfl,
          hup (n - 1 - 1 - z) (n - 1 - 1) (by omega) (by omega)] at this
        linarith
    | succ j ih =>
      intro hj hjn
      have := hγ j (by omega)
      rw [backT_diff n z j hz (by omega), if_neg (show ¬ j = z by omega),
        if_neg (show ¬ (j + 1 = z ∨ (z = 0 ∧ j = n - 1)) by omega)] at this
      simp only [if_pos (show j < z by omega)] at this
      rw [ih (by omega) (by omega)] at this
      linarith
  intro j hj
  by_cases h : j < z
  · exact hlow j h hj
  · exact hup (j - z) j (by omega) hj

theorem drop_inj (n z : ℕ) (hz : z < n) (γ : ℕ → ℝ) (hγ : ∀ a < n,
    mv (n - 1) (backT n (.drop z)) γ a = 0) : ∀ j < n - 1, γ j = 0 := by
  intro j hj
  by_cases h : j < z
  · have := hγ j (by omega)
    rwa [backT_drop n z j hz (by omega), if_neg (by omega), if_pos h] at this
  · have := hγ (j + 1) (by omega)
    rwa [backT_drop n z (j + 1) hz (by omega), if_neg (by omega), if_neg (by omega),
      show j + 1 - 1 = j by omega] at this

end Verif.Pen
