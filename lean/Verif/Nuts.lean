import Verif.NutsMeasure
import Mathlib.MeasureTheory.Measure.Lebesgue.EqHaar

/-! Properties C12, C13 and C57 of the NUTS sampler. -/

namespace Verif.Nuts

open Matrix Finset MeasureTheory
open scoped ENNReal

variable {p : ℕ}

/-! ### C12 -/

/-- One leapfrog step, flip the momentum, one more step of the same size, flip again: back at the start. -/
theorem leapfrog_reversible (T : Target p) (state r : Fin p → ℝ) (eps : ℝ) :
    let o := leapFrog T state (T.grad state) r eps
    let o2 := leapFrog T o.1 o.2.1 (-o.2.2.1) eps
    o2.1 = state ∧ -o2.2.2.1 = r := by
  intro o o2
  have hr : -o.2.2.1 + (1 / 2 * eps) • o.2.1 = -(r + (1 / 2 * eps) • T.grad state) := by
    show -(r + (1 / 2 * eps) • T.grad state + (1 / 2 * eps) • T.grad o.1) + (1 / 2 * eps) • T.grad o.1 = _
    abel
  have h1 : o2.1 = state := by
    show state + eps • (T.Minv *ᵥ (r + (1 / 2 * eps) • T.grad state)) + eps • (T.Minv *ᵥ (-o.2.2.1 + (1 / 2 * eps) • o.2.1)) = state
    rw [hr, mulVec_neg, smul_neg]
    abel
  refine ⟨h1, ?_⟩
  show -((-o.2.2.1 + (1 / 2 * eps) • o.2.1) + (1 / 2 * eps) • T.grad o2.1) = r
  rw [h1, hr]
  abel

/-- The returned gradient and log density belong to the returned state. -/
theorem leapfrog_consistent (T : Target p) (state grad r : Fin p → ℝ) (eps : ℝ) :
    (leapFrog T state grad r eps).2.1 = T.grad (leapFrog T state grad r eps).1 ∧
    (leapFrog T state grad r eps).2.2.2 = T.llk (leapFrog T state grad r eps).1 := ⟨rfl, rfl⟩

/-- A leapfrog step preserves volume in phase space. -/
theorem leapfrog_volume (T : Target p) (hgrad : Measurable T.grad) (eps : ℝ) (A : Set (Ph p)) (hA : MeasurableSet A) :
    volume {w : Ph p | ((leapFrog T w.1 (T.grad w.1) w.2 eps).1, (leapFrog T w.1 (T.grad w.1) w.2 eps).2.2.1) ∈ A} = volume A :=
  (leap_preserving T hgrad eps).measure_preimage hA.nullMeasurableSet

/-- A target with a curved log density for which the hypotheses hold and the step moves the state. -/
noncomputable def exT : Target 1 := ⟨fun x => -(x 0) ^ 2 / 2, fun x => -x, 1⟩

example : Measurable exT.grad ∧ (leapFrog exT (fun _ => 1) (exT.grad fun _ => 1) (fun _ => 1) 1).1 = fun _ => 3 / 2 := by
  refine ⟨measurable_neg, ?_⟩
  funext i
  simp [leapFrog, exT]
  norm_num

/-! ### C13 -/

/-- A leapfrog step as a map on (state, momentum). -/
noncomputable def lfStep (T : Target p) (eps : ℝ) (w : Ph p) : Ph p :=
  ((leapFrog T w.1 (T.grad w.1) w.2 eps).1, (leapFrog T w.1 (T.grad w.1) w.2 eps).2.2.1)

theorem orb_iterate (T : Target p) (eps : ℝ) (w : Ph p) (k : ℤ) :
    orb T eps w k = (lfStep T (if 0 ≤ k then eps else -eps))^[k.natAbs] w := by
  induction k using Int.induction_on with
  | zero => simp [orb_zero]
  | succ k ih =>
    rw [orb_succ, ih, if_pos (by omega), if_pos (by omega), show ((k : ℤ) + 1).natAbs = (k : ℤ).natAbs + 1 by omega,
      Function.iterate_succ_apply']
    rfl
  | pred k ih =>
    rw [orb_pred, ih]
    rcases Nat.eq_zero_or_pos k with rfl | hk
    · simp; rfl
    · rw [if_neg (by omega), if_neg (by omega), show (-(k : ℤ) - 1).natAbs = (-(k : ℤ)).natAbs + 1 by omega,
        Function.iterate_succ_apply']
      rfl

/-- `s` follows `prev`: reached from `(prev, r0)` by fewer than `2^maxJ` leapfrog steps of size `eps` (all forwards or all
backwards), at a point whose joint log density is at least the slice level. -/
def Follows (T : Target p) (maxJ : ℕ) (eps : ℝ) (r0 : Fin p → ℝ) (e : ℝ) (prev s : Fin p → ℝ) : Prop :=
  ∃ n : ℕ, n < 2 ^ maxJ ∧ ∃ sg : ℝ, (sg = 1 ∨ sg = -1) ∧
    ((lfStep T (sg * eps))^[n] (prev, r0)).1 = s ∧
    T.llk prev - energy T r0 - e ≤ T.llk s - energy T ((lfStep T (sg * eps))^[n] (prev, r0)).2

/-- Acceptance statistic: `na` consecutive leapfrog states, `a` the sum of `min 1 (exp (H - H0))` over them. -/
def AccStat (T : Target p) (maxJ : ℕ) (eps : ℝ) (r0 : Fin p → ℝ) (prev : Fin p → ℝ) (a : ℝ) (na : ℕ) : Prop :=
  ∃ lo : ℤ, 0 < na ∧ na ≤ 2 ^ (maxJ - 1) ∧
    a = ∑ i ∈ range na, min 1 (Real.exp (ham T (orb T eps (prev, r0) (lo + i)) - ham T (prev, r0)))

theorem acc1_eq_min (T : Target p) (it : Iter) (z : ℤ → Ph p) (k : ℤ) : acc1 T it z k = min 1 (Real.exp (ham T (z k) - it.H0)) := by
  unfold acc1
  split_ifs with h
  · rw [min_eq_left (Real.one_le_exp h.le)]
  · rw [min_eq_right (Real.exp_le_one_iff.2 (not_lt.1 h))]

/-- One iteration, whatever the random numbers: the new state follows the old one, carries its own log density, and the acceptance
statistic is an average of numbers between 0 and 1 over at most `2^(maxJ-1)` leapfrog states. -/
theorem iteration_ok (T : Target p) (maxJ : ℕ) (prev : Fin p → ℝ) (eps : ℝ) (r0 : Fin p → ℝ) (e : ℝ) (he : 0 ≤ e) (l : Loop p)
    (hl : (iteration T maxJ prev (T.llk prev) eps r0 e).Out l) :
    l.cL = T.llk l.cstate ∧ Follows T maxJ eps r0 e prev l.cstate ∧
      (0 < maxJ → ∃ a na, l.acc = some (a, na) ∧ AccStat T maxJ eps r0 prev a na ∧ 0 ≤ a / na ∧ a / na ≤ 1) := by
  unfold iteration at hl
  set it := iterOf T (T.llk prev) eps r0 e with hit
  have hv : Valid T it (orb T it.eps (prev, r0)) 0 := by
    show it.logu ≤ ham T (orb T it.eps (prev, r0) 0)
    rw [orb_zero]
    show T.llk prev - energy T r0 - e ≤ T.llk prev - energy T r0
    linarith
  rw [show loop0 prev (T.llk prev) r0 = _ from loop0_mkL T it (prev, r0) hv] at hl
  obtain ⟨lo, hi, s, k, ac, rfl, h1, h2, h3, h4, h5, h6⟩ := doublings_out T it _ (isOrb_orb T it (prev, r0)) maxJ 0 0 0 0 le_rfl true none
    (mem_Icc.2 ⟨le_rfl, le_rfl⟩) hv l hl
  rw [mem_Icc] at h4
  simp only [zero_add, pow_zero] at h3 h6
  refine ⟨rfl, ⟨k.natAbs, ?_, if 0 ≤ k then 1 else -1, ?_, ?_⟩, ?_⟩
  · have : (k.natAbs : ℤ) < 2 ^ maxJ := by omega
    exact_mod_cast this
  · split_ifs <;> simp
  · have e1 : (if 0 ≤ k then (1 : ℝ) else -1) * eps = if 0 ≤ k then eps else -eps := by split_ifs <;> ring
    rw [e1, ← orb_iterate]
    exact ⟨rfl, h5⟩
  · intro hJ
    rcases h6 with ⟨_, h | h⟩ | ⟨d, x, hd, rfl, hx⟩
    · omega
    · simp at h
    · have hb := hx.bounds T it (orb T it.eps (prev, r0))
      obtain ⟨lo', hi', q1, q2, rfl⟩ := hx
      simp only at hb
      have hna : (0 : ℝ) < ((hi' + 1 - lo').toNat : ℝ) := by exact_mod_cast hb.1
      refine ⟨_, _, rfl, ⟨lo', hb.1, hb.2.1.trans (Nat.pow_le_pow_right (by norm_num) (by omega)), ?_⟩, div_nonneg hb.2.2.1 hna.le,
        (div_le_one hna).2 hb.2.2.2⟩
      unfold accs
      refine sum_nbij' (fun k => (k - lo').toNat) (fun i : ℕ => lo' + (i : ℤ)) ?_ ?_ ?_ ?_ ?_
      · intro k hk; rw [mem_Icc] at hk; rw [mem_range]; omega
      · intro i hi; rw [mem_range] at hi; rw [mem_Icc]; omega
      · intro k hk; rw [mem_Icc] at hk; omega
      · intro i hi; omega
      · intro k hk
        rw [mem_Icc] at hk
        rw [acc1_eq_min, show lo' + (((k - lo').toNat : ℕ) : ℤ) = k by omega]
        rfl

/-- The new draws: each follows its predecessor and carries its own log density. -/
def Draws (T : Target p) (maxJ : ℕ) : (Fin p → ℝ) → List ((Fin p → ℝ) × ℝ) → List (ℝ × (Fin p → ℝ)) → Prop
  | _, [], [] => True
  | prev, (r0, e) :: ds, (L, s) :: new => L = T.llk s ∧ (∃ eps, 0 < eps ∧ Follows T maxJ eps r0 e prev s) ∧ Draws T maxJ s ds new
  | _, _, _ => False

theorem adapt_pos (c : AdaptCfg) (m : ℕ) (alpha : ℝ) (s : Adapt) (h : 0 < s.epsbar) :
    0 < (adapt c m alpha s).eps ∧ 0 < (adapt c m alpha s).epsbar := by
  unfold adapt
  split_ifs
  · exact ⟨Real.exp_pos _, Real.exp_pos _⟩
  · exact ⟨h, h⟩

/-- Every run of `advance_chain`, whatever the random numbers: one draw stored per step, in order, each consistent, and the last one
is the current state. -/
theorem advanceChain_ok (T : Target p) (maxJ : ℕ) (c : AdaptCfg) (junk : ℝ) (ds : List ((Fin p → ℝ) × ℝ)) (hds : ∀ d ∈ ds, 0 ≤ d.2)
    (ch : Chain p) (hch : ch.cL = T.llk ch.cstate) (heps : 0 < ch.ad.eps) (hbar : 0 < ch.ad.epsbar) (ch' : Chain p)
    (ho : (advanceChain T maxJ c junk ds ch).Out ch') :
    ∃ new, ch'.stored = ch.stored ++ new ∧ Draws T maxJ ch.cstate ds new ∧ ch'.cL = T.llk ch'.cstate ∧ ch'.m = ch.m + ds.length ∧
      ((ch.cL, ch.cstate) :: new).getLast (by simp) = (ch'.cL, ch'.cstate) ∧ 0 < ch'.ad.eps ∧ 0 < ch'.ad.epsbar := by
  induction ds generalizing ch with
  | nil =>
    rw [Rand.out_ret ho]
    exact ⟨[], by simp, trivial, hch, rfl, rfl, heps, hbar⟩
  | cons d ds ih =>
    obtain ⟨r0, e⟩ := d
    obtain ⟨ch1, h1, h2⟩ := Rand.out_bind ho
    obtain ⟨l, hl, hl2⟩ := Rand.out_bind h1
    rw [hch] at hl
    have hok := iteration_ok T maxJ ch.cstate ch.ad.eps r0 e (hds (r0, e) (by simp)) l hl
    have hch1 := Rand.out_ret hl2
    have hap : ∀ al, 0 < (adapt c (ch.m + 1) al ch.ad).eps ∧ 0 < (adapt c (ch.m + 1) al ch.ad).epsbar := fun al => adapt_pos _ _ _ _ hbar
    have b1 : ch1.cL = l.cL := by rw [hch1]
    have b2 : ch1.cstate = l.cstate := by rw [hch1]
    have b3 : ch1.stored = ch.stored ++ [(l.cL, l.cstate)] := by rw [hch1]
    have b4 : ch1.m = ch.m + 1 := by rw [hch1]
    have b5 : 0 < ch1.ad.eps ∧ 0 < ch1.ad.epsbar := by rw [hch1]; exact hap _
    obtain ⟨new, n1, n2, n3, n4, n5, n6, n7⟩ := ih (fun d hd => hds d (by simp [hd])) ch1 (by rw [b1, b2, hok.1]) b5.1 b5.2 h2
    refine ⟨(l.cL, l.cstate) :: new, by rw [n1, b3]; simp, ⟨hok.1, ⟨_, heps, hok.2.1⟩, b2 ▸ n2⟩, n3, ?_, ?_, n6, n7⟩
    · rw [n4, b4, List.length_cons]; omega
    · rw [List.getLast_cons (by simp), ← n5]
      congr 2
      rw [b1, b2]

/-- The same for a run on a given stream of uniform numbers. -/
theorem advanceChain_run_ok (T : Target p) (maxJ : ℕ) (c : AdaptCfg) (junk : ℝ) (ds : List ((Fin p → ℝ) × ℝ)) (hds : ∀ d ∈ ds, 0 ≤ d.2)
    (ch : Chain p) (hch : ch.cL = T.llk ch.cstate) (heps : 0 < ch.ad.eps) (hbar : 0 < ch.ad.epsbar) (U : ℕ → ℝ)
    (hU : ∀ i, 0 ≤ U i ∧ U i < 1) (pos : ℕ) :
    ∃ new, ((advanceChain T maxJ c junk ds ch).run U pos).1.stored = ch.stored ++ new ∧ Draws T maxJ ch.cstate ds new := by
  obtain ⟨new, h1, h2, _⟩ := advanceChain_ok T maxJ c junk ds hds ch hch heps hbar _ (Rand.run_out U hU _ pos)
  exact ⟨new, h1, h2⟩

/-- A tree of depth `j` makes at most `2^j` leapfrog steps, exactly `2^j` when it is not stopped, and its proposal lies on the
trajectory and carries its own log density. -/
theorem buildTree_ok (T : Target p) (it : Iter) (v : Bool) (j : ℕ) (state r : Fin p → ℝ) (t : Tree p)
    (ht : (buildTree T it v j state r).Out t) :
    t.na ≤ 2 ^ j ∧ (t.s = true → t.na = 2 ^ j) ∧ t.n ≤ t.na ∧ 0 ≤ t.a ∧ t.a ≤ t.na ∧ t.L = T.llk t.state' ∧
      ∃ n, 1 ≤ n ∧ n ≤ t.na ∧ ((lfStep T ((if v then 1 else -1) * it.eps))^[n] (state, r)).1 = t.state' := by
  have hu := buildTree_uniform T it (orb T it.eps (state, r)) (isOrb_orb T it (state, r)) v j 0
  rw [orb_zero] at hu
  have hr := shape_range T it (orb T it.eps (state, r)) j v 0
  obtain ⟨k, hk, rfl, -⟩ := hu.out t ht
  simp only at hr
  set a := shape T it (orb T it.eps (state, r)) j v 0
  rw [mem_Icc] at hk
  have hb : AccOk T it (orb T it.eps (state, r)) j (accs T it (orb T it.eps (state, r)) a.1 a.2.1, (a.2.1 + 1 - a.1).toNat) :=
    ⟨a.1, a.2.1, hr.1, hr.2.1, rfl⟩
  have hb' := hb.bounds
  refine ⟨hb'.2.1, ?_, ?_, hb'.2.2.1, hb'.2.2.2, rfl, ?_⟩
  · intro hs
    have := hr.2.2.1 hs
    have h2 : ((a.2.1 + 1 - a.1).toNat : ℤ) = 2 ^ j := by rw [Int.toNat_of_nonneg (by omega)]; exact this
    exact_mod_cast h2
  · show cnt T it _ a.1 a.2.1 ≤ (a.2.1 + 1 - a.1).toNat
    rw [← Int.card_Icc]
    exact card_filter_le _ _
  · refine ⟨k.natAbs, ?_, ?_, ?_⟩
    · cases v
      · have := hr.2.2.2.2 rfl; omega
      · have := hr.2.2.2.1 rfl; omega
    · show k.natAbs ≤ (a.2.1 + 1 - a.1).toNat
      cases v
      · have := hr.2.2.2.2 rfl; omega
      · have := hr.2.2.2.1 rfl; omega
    · have : (if v then (1 : ℝ) else -1) * it.eps = if 0 ≤ k then it.eps else -it.eps := by
        cases v
        · have := hr.2.2.2.2 rfl
          rw [if_neg (by simp), if_neg (by omega)]; ring
        · have := hr.2.2.2.1 rfl
          rw [if_pos rfl, if_pos (by omega)]; ring
      rw [this, ← orb_iterate]
      rfl

example : ∃ (c : AdaptCfg) (ch : Chain 1), ch.cL = exT.llk ch.cstate ∧ 0 < ch.ad.eps ∧ 0 < ch.ad.epsbar ∧
    ∃ ch', (advanceChain exT 1 c 0 [(fun _ => 1, 1)] ch).Out ch' := by
  refine ⟨⟨5, 0, 1 / 2, 1, 1, 10⟩, ⟨0, fun _ => 0, exT.llk fun _ => 0, ⟨1, 1, 0⟩, []⟩, rfl, one_pos, one_pos, _,
    Rand.run_out (fun _ => 1 / 2) (fun _ => ⟨by norm_num, by norm_num⟩) _ 0⟩

/-! ### C57 -/

/-- Along every trajectory and for every slice level, starting from all slice points with equal weight the state after the iteration
is again spread over the slice points with equal weight. -/
theorem iteration_uniform_on_slice (T : Target p) (maxJ : ℕ) (eps lu : ℝ) (w : Ph p) (g : (Fin p → ℝ) → NNReal) :
    ∑' i : ℤ, (if lu ≤ ham T (orb T eps w i) then
        ENNReal.ofReal ((iteration T maxJ (orb T eps w i).1 (T.llk (orb T eps w i).1) eps (orb T eps w i).2 (ham T (orb T eps w i) - lu)).expect
          (fun l => (g l.cstate : ℝ))) else 0) =
      ∑' i : ℤ, if lu ≤ ham T (orb T eps w i) then (g (orb T eps w i).1 : ℝ≥0∞) else 0 := by
  have hb := balance T ⟨lu, eps, 0, 1000⟩ (orb T eps w) (fun k => g (orb T eps w k).1) maxJ 0
  have e0 : ∀ G : ℤ → ℤ → NNReal, ∀ lo, (if ok T ⟨lu, eps, 0, 1000⟩ (orb T eps w) 0 lo then bsum T ⟨lu, eps, 0, 1000⟩ (orb T eps w) 0 (G lo) lo else 0) =
      if lu ≤ ham T (orb T eps w lo) then G lo lo else 0 := fun G lo => blk_zero T ⟨lu, eps, 0, 1000⟩ (by norm_num) (orb T eps w) (G lo) lo
  refine Eq.trans (tsum_congr fun i => ?_) (hb.trans (tsum_congr fun i => ?_))
  · rw [e0 (fun lo => kern T ⟨lu, eps, 0, 1000⟩ (orb T eps w) (fun k => g (orb T eps w k).1) maxJ 0 lo (lo + 2 ^ 0 - 1) true) i]
    by_cases h : lu ≤ ham T (orb T eps w i)
    · rw [if_pos h, if_pos h, iteration_expect T eps g maxJ _ _ (by linarith), ENNReal.ofReal_coe_nnreal, sub_sub_cancel, orb_shift,
        kern_shift T _ (orb T eps w) i (fun k => g (orb T eps w k).1), zero_add, pow_zero, add_sub_cancel_right]
    · rw [if_neg h, if_neg h]; rfl
  · rw [e0 (fun _ k => g (orb T eps w k).1) i]
    by_cases h : lu ≤ ham T (orb T eps w i)
    · rw [if_pos h, if_pos h]
    · rw [if_neg h, if_neg h]; rfl

/-- One iteration with fixed step size leaves the target invariant: with the state distributed with density proportional to
`exp (llk θ)`, momentum `A ξ` for standard normal `ξ` (`A Aᵀ` the inverse of `Minv`; `A = MLTᵀ` in mcmc.py 668 and 1069-1071) and an
exponential draw, the expected value of any `g` at the new state is its expected value at the old one. -/
theorem iteration_invariant (T : Target p) (hllk : Measurable T.llk) (hgrad : Measurable T.grad) (maxJ : ℕ) (eps : ℝ)
    (A : Matrix (Fin p) (Fin p) ℝ) (hA : Aᵀ * T.Minv * A = 1) (g : (Fin p → ℝ) → NNReal) (hg : Measurable g) :
    ∫⁻ θ : Fin p → ℝ, ENNReal.ofReal (Real.exp (T.llk θ)) * (∫⁻ ξ : Fin p → ℝ, ENNReal.ofReal (Real.exp (-(ξ ⬝ᵥ ξ) / 2)) *
      ∫⁻ e in Set.Ici (0 : ℝ), ENNReal.ofReal (Real.exp (-e)) *
        ENNReal.ofReal ((iteration T maxJ θ (T.llk θ) eps (A *ᵥ ξ) e).expect (fun l => (g l.cstate : ℝ)))) =
    ∫⁻ θ : Fin p → ℝ, ENNReal.ofReal (Real.exp (T.llk θ)) * (∫⁻ ξ : Fin p → ℝ, ENNReal.ofReal (Real.exp (-(ξ ⬝ᵥ ξ) / 2)) * (g θ : ℝ≥0∞)) := by
  have hdet : A.det ≠ 0 := by
    intro h0
    have := congrArg Matrix.det hA
    rw [det_mul, h0, mul_zero, det_one] at this
    exact zero_ne_one this
  have hen : ∀ ξ, energy T (A *ᵥ ξ) = (ξ ⬝ᵥ ξ) / 2 := by
    intro ξ
    unfold energy
    rw [mulVec_mulVec, dotProduct_mulVec, ← mulVec_transpose, mulVec_mulVec, transpose_mul]
    have : (Aᵀ * T.Minvᵀ) * A = 1 := by
      have h2 := congrArg Matrix.transpose hA
      rw [transpose_mul, transpose_mul, transpose_transpose, transpose_one, ← Matrix.mul_assoc] at h2
      exact h2
    rw [this, one_mulVec]
    ring
  -- change of variables in the momentum
  have hcv : ∀ F : (Fin p → ℝ) → ℝ≥0∞, Measurable F → ∫⁻ ξ : Fin p → ℝ, F (A *ᵥ ξ) = ENNReal.ofReal |A.det⁻¹| * ∫⁻ r, F r := by
    intro F hF
    have hm : Measurable fun ξ : Fin p → ℝ => A *ᵥ ξ := meas_mulVec A measurable_id
    have h1 : Measure.map (fun ξ : Fin p → ℝ => A *ᵥ ξ) volume = ENNReal.ofReal |A.det⁻¹| • volume :=
      Real.map_matrix_volume_pi_eq_smul_volume_pi hdet
    rw [← lintegral_map hF hm, h1, lintegral_smul_measure]
    rfl
  let I : Ph p → ℝ≥0∞ := fun w => ∫⁻ e in Set.Ici (0 : ℝ), ENNReal.ofReal (Real.exp (-e)) *
        ENNReal.ofReal ((iteration T maxJ w.1 (T.llk w.1) eps w.2 e).expect (fun l => (g l.cstate : ℝ)))
  have mI : Measurable I := by
    let K : Ph p × ℝ → NNReal := fun q => kern T ⟨ham T q.1 - q.2, eps, 0, 1000⟩ (orb T eps q.1) (fun k => g (orb T eps q.1 k).1) maxJ 0 0 0 true 0
    have hZ : ∀ k, Measurable fun q : Ph p × ℝ => orb T eps q.1 k := fun k => (meas_orb T hgrad eps k).comp measurable_fst
    have mK : Measurable K := meas_kern T hllk (fun q : Ph p × ℝ => ham T q.1 - q.2) ((meas_ham T hllk measurable_fst).sub measurable_snd) eps 1000
      (fun q => orb T eps q.1) hZ (fun q k => g (orb T eps q.1 k).1) (fun k => hg.comp (measurable_fst.comp (hZ k))) maxJ 0 0 0 true 0
    have : I = fun w => ∫⁻ e in Set.Ici (0 : ℝ), ENNReal.ofReal (Real.exp (-e)) * (K (w, e) : ℝ≥0∞) := by
      funext w
      apply setLIntegral_congr_fun measurableSet_Ici
      intro e he
      beta_reduce
      rw [iteration_expect T eps g maxJ w e he, ENNReal.ofReal_coe_nnreal]
    rw [this]
    apply Measurable.lintegral_prod_right'
      (f := fun q : Ph p × ℝ => ENNReal.ofReal (Real.exp (-q.2)) * (K q : ℝ≥0∞))
    exact (Real.measurable_exp.comp measurable_snd.neg).ennreal_ofReal.mul mK.coe_nnreal_ennreal
  have mE : Measurable fun r : Fin p → ℝ => ENNReal.ofReal (Real.exp (-energy T r)) :=
    (Real.measurable_exp.comp (meas_energy T measurable_id).neg).ennreal_ofReal
  -- both sides as integrals over phase space
  have key : ∀ H : Ph p → ℝ≥0∞, Measurable H → ∫⁻ θ : Fin p → ℝ, ENNReal.ofReal (Real.exp (T.llk θ)) *
      (∫⁻ ξ : Fin p → ℝ, ENNReal.ofReal (Real.exp (-(ξ ⬝ᵥ ξ) / 2)) * H (θ, A *ᵥ ξ)) =
      ENNReal.ofReal |A.det⁻¹| * ∫⁻ w : Ph p, ENNReal.ofReal (Real.exp (ham T w)) * H w := by
    intro H hH
    have mw : Measurable fun w : Ph p => ENNReal.ofReal (Real.exp (ham T w)) * H w :=
      (Real.measurable_exp.comp (meas_ham T hllk measurable_id)).ennreal_ofReal.mul hH
    rw [show (volume : Measure (Ph p)) = volume.prod volume from rfl, lintegral_prod _ mw.aemeasurable,
      ← lintegral_const_mul _ mw.lintegral_prod_right']
    apply lintegral_congr
    intro θ
    have e1 : ∫⁻ ξ : Fin p → ℝ, ENNReal.ofReal (Real.exp (-(ξ ⬝ᵥ ξ) / 2)) * H (θ, A *ᵥ ξ) =
        ∫⁻ ξ : Fin p → ℝ, (fun r => ENNReal.ofReal (Real.exp (-energy T r)) * H (θ, r)) (A *ᵥ ξ) := by
      apply lintegral_congr
      intro ξ
      beta_reduce
      rw [hen, neg_div]
    have hHθ : Measurable fun r => H (θ, r) := hH.comp (measurable_const.prodMk measurable_id)
    have mm : Measurable fun r => ENNReal.ofReal (Real.exp (-energy T r)) * H (θ, r) := mE.mul hHθ
    rw [e1, hcv _ mm, mul_left_comm, ← lintegral_const_mul _ mm]
    congr 1
    apply lintegral_congr
    intro r
    rw [← mul_assoc, ← ENNReal.ofReal_mul (Real.exp_pos _).le, ← Real.exp_add]
    rfl
  rw [key I mI, key (fun w => (g w.1 : ℝ≥0∞)) (hg.comp measurable_fst).coe_nnreal_ennreal]
  congr 1
  exact iteration_joint T hllk hgrad eps g hg maxJ

example : Measurable exT.llk ∧ Measurable exT.grad ∧ (1 : Matrix (Fin 1) (Fin 1) ℝ)ᵀ * exT.Minv * 1 = 1 := by
  refine ⟨?_, measurable_neg, by simp [exT]⟩
  show Measurable fun x : Fin 1 → ℝ => -(x 0) ^ 2 / 2
  exact (((measurable_pi_apply 0).pow_const 2).neg).div_const 2

end Verif.Nuts
