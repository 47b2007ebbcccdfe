import Verif.NutsModel
import Mathlib.Algebra.Order.BigOperators.Group.Finset
import Mathlib.Algebra.BigOperators.Field
import Mathlib.Data.Int.Interval
import Mathlib.Order.Interval.Finset.Nat
import Mathlib.Tactic.Ring
import Mathlib.Tactic.Linarith
import Mathlib.Tactic.Abel
import Mathlib.Tactic.FieldSimp
import Mathlib.GroupTheory.Perm.Basic
import Mathlib.Algebra.Module.Pi

namespace Verif.Nuts

open Matrix Finset

variable {p : ℕ}

/-! ### Random decisions -/

namespace Rand

theorem out_bind {α β : Type} {x : Rand α} {f : α → Rand β} {b : β} (h : Out (x.bind f) b) : ∃ a, Out x a ∧ Out (f a) b := by
  induction x with
  | ret a => exact ⟨a, .ret a, h⟩
  | coin q k ih =>
    cases h with
    | yes hq h => obtain ⟨a, ha, hb⟩ := ih true h; exact ⟨a, .yes hq ha, hb⟩
    | no hq h => obtain ⟨a, ha, hb⟩ := ih false h; exact ⟨a, .no hq ha, hb⟩

theorem out_ret {α : Type} {a b : α} (h : Out (ret a) b) : b = a := by cases h; rfl

/-- Running with numbers from `[0, 1)` gives a possible result. -/
theorem run_out {α : Type} (U : ℕ → ℝ) (hU : ∀ i, 0 ≤ U i ∧ U i < 1) (x : Rand α) (pos : ℕ) : Out x (x.run U pos).1 := by
  induction x generalizing pos with
  | ret a => exact .ret a
  | coin q k ih =>
    unfold run
    by_cases h : U pos < q
    · rw [decide_eq_true h]; exact .yes (lt_of_le_of_lt (hU pos).1 h) (ih _ _)
    · rw [decide_eq_false h]; exact .no (lt_of_le_of_lt (not_lt.1 h) (hU pos).2) (ih _ _)

theorem expect_bind {α β : Type} (x : Rand α) (f : α → Rand β) (g : β → ℝ) :
    (x.bind f).expect g = x.expect fun a => (f a).expect g := by
  induction x with
  | ret a => rfl
  | coin q k ih => simp only [bind, expect, ih]

theorem expect_congr {α : Type} (x : Rand α) (f g : α → ℝ) (h : ∀ a, Out x a → f a = g a) : x.expect f = x.expect g := by
  induction x with
  | ret a => exact h a (.ret a)
  | coin q k ih =>
    simp only [expect]
    congr 1
    · by_cases hq : 0 < q
      · rw [ih true fun a ha => h a (.yes hq ha)]
      · rw [max_eq_left (not_lt.1 hq), min_eq_right zero_le_one]; simp
    · by_cases hq : q < 1
      · rw [ih false fun a ha => h a (.no hq ha)]
      · rw [min_eq_left (le_trans (not_lt.1 hq) (le_max_right _ _))]; simp

theorem expect_const {α : Type} (x : Rand α) (c : ℝ) : x.expect (fun _ => c) = c := by
  induction x with
  | ret a => rfl
  | coin q k ih => simp only [expect, ih]; ring

theorem expect_mono {α : Type} (x : Rand α) (f g : α → ℝ) (h : ∀ a, f a ≤ g a) : x.expect f ≤ x.expect g := by
  induction x with
  | ret a => exact h a
  | coin q k ih =>
    simp only [expect]
    have h0 : 0 ≤ min 1 (max 0 q) := le_min zero_le_one (le_max_left _ _)
    have h1 : min 1 (max 0 q) ≤ 1 := min_le_left _ _
    exact add_le_add (mul_le_mul_of_nonneg_left (ih true) h0) (mul_le_mul_of_nonneg_left (ih false) (by linarith))

theorem expect_linear {α : Type} (x : Rand α) {ι : Type} (s : Finset ι) (c : ι → ℝ) (f : ι → α → ℝ) :
    x.expect (fun a => ∑ i ∈ s, c i * f i a) = ∑ i ∈ s, c i * x.expect (f i) := by
  induction x with
  | ret a => rfl
  | coin q k ih =>
    simp only [expect, ih, mul_sum, ← sum_add_distrib]
    exact sum_congr rfl fun i _ => by ring

end Rand

/-! ### The leapfrog map -/

/-- One leapfrog step on states with momentum, with the gradient of the state as in `build_tree`. -/
noncomputable def leap (T : Target p) (eps : ℝ) (z : Ph p) : Ph p :=
  ((leapFrog T z.1 (T.grad z.1) z.2 eps).1, (leapFrog T z.1 (T.grad z.1) z.2 eps).2.2.1)

theorem leap_neg (T : Target p) (eps : ℝ) (z : Ph p) : leap T (-eps) (leap T eps z) = z := by
  have e : z.2 + (1 / 2 * eps) • T.grad z.1 + (1 / 2 * eps) • T.grad (z.1 + eps • (T.Minv *ᵥ (z.2 + (1 / 2 * eps) • T.grad z.1))) +
      (1 / 2 * -eps) • T.grad (z.1 + eps • (T.Minv *ᵥ (z.2 + (1 / 2 * eps) • T.grad z.1))) = z.2 + (1 / 2 * eps) • T.grad z.1 := by
    rw [show (1 / 2 * -eps : ℝ) = -(1 / 2 * eps) by ring, neg_smul]
    abel
  have e2 : z.1 + eps • (T.Minv *ᵥ (z.2 + (1 / 2 * eps) • T.grad z.1)) + -eps • (T.Minv *ᵥ (z.2 + (1 / 2 * eps) • T.grad z.1)) = z.1 := by
    rw [neg_smul]; abel
  unfold leap leapFrog
  simp only
  rw [e, e2]
  refine Prod.ext rfl ?_
  simp only
  rw [show (1 / 2 * -eps : ℝ) = -(1 / 2 * eps) by ring, neg_smul]
  abel

/-- The leapfrog map is a bijection. -/
noncomputable def leapEquiv (T : Target p) (eps : ℝ) : Equiv.Perm (Ph p) where
  toFun := leap T eps
  invFun := leap T (-eps)
  left_inv := leap_neg T eps
  right_inv z := by
    have := leap_neg T (-eps) z
    rwa [neg_neg] at this

/-- The trajectory through `z`: `k` leapfrog steps (backwards for negative `k`). -/
noncomputable def orb (T : Target p) (eps : ℝ) (z : Ph p) (k : ℤ) : Ph p := (leapEquiv T eps ^ k) z

theorem orb_zero (T : Target p) (eps : ℝ) (z : Ph p) : orb T eps z 0 = z := by simp [orb]

theorem orb_succ (T : Target p) (eps : ℝ) (z : Ph p) (k : ℤ) : orb T eps z (k + 1) = leap T eps (orb T eps z k) := by
  unfold orb
  rw [add_comm, zpow_add, zpow_one, Equiv.Perm.mul_apply]
  rfl

theorem orb_pred (T : Target p) (eps : ℝ) (z : Ph p) (k : ℤ) : orb T eps z (k - 1) = leap T (-eps) (orb T eps z k) := by
  unfold orb
  rw [show k - 1 = -1 + k by ring, zpow_add, zpow_neg_one, Equiv.Perm.mul_apply]
  rfl

theorem orb_add (T : Target p) (eps : ℝ) (z : Ph p) (k l : ℤ) : orb T eps (orb T eps z k) l = orb T eps z (l + k) := by
  unfold orb
  rw [zpow_add, Equiv.Perm.mul_apply]

/-- Joint log density of a state with its momentum. -/
noncomputable def ham (T : Target p) (z : Ph p) : ℝ := T.llk z.1 - energy T z.2

/-! ### Trees described by intervals of the trajectory -/

section
variable (T : Target p) (it : Iter) (z : ℤ → Ph p)

/-- Index `k` lies in the slice. -/
def Valid (k : ℤ) : Prop := it.logu ≤ ham T (z k)

noncomputable instance (k : ℤ) : Decidable (Valid T it z k) := inferInstanceAs (Decidable (it.logu ≤ ham T (z k)))

noncomputable def cnt (lo hi : ℤ) : ℕ := #{k ∈ Icc lo hi | Valid T it z k}

noncomputable def rs (lo hi : ℤ) : Fin p → ℝ := ∑ k ∈ Icc lo hi, (z k).2

noncomputable def acc1 (k : ℤ) : ℝ := if 0 < ham T (z k) - it.H0 then 1 else Real.exp (ham T (z k) - it.H0)

noncomputable def accs (lo hi : ℤ) : ℝ := ∑ k ∈ Icc lo hi, acc1 T it z k

/-- The tree covering the indices `lo, …, hi` with proposal `k`. -/
noncomputable def mk (lo hi : ℤ) (s : Bool) (k : ℤ) : Tree p :=
  { statem := (z lo).1, statep := (z hi).1, state' := (z k).1, rm := (z lo).2, rp := (z hi).2, rsum := rs z lo hi
    n := cnt T it z lo hi, s := s, a := accs T it z lo hi, na := (hi + 1 - lo).toNat, L := T.llk (z k).1 }

/-- The divergence check for the interval `lo..hi` cut after `mid`. -/
noncomputable def chk (lo mid hi : ℤ) : Bool :=
  checkDiv T (z lo).2 (z (mid + 1)).2 (z mid).2 (z hi).2 (rs z lo mid) (rs z (mid + 1) hi)

theorem chk_mirror (lo mid hi : ℤ) :
    checkDiv T (z hi).2 (z mid).2 (z (mid + 1)).2 (z lo).2 (rs z (mid + 1) hi) (rs z lo mid) = chk T z lo mid hi := by
  unfold chk checkDiv
  simp only
  rw [add_comm (rs z (mid + 1) hi) (rs z lo mid)]
  generalize decide (0 < (T.Minv *ᵥ (z hi).2) ⬝ᵥ (rs z lo mid + rs z (mid + 1) hi)) = b1
  generalize decide (0 < (T.Minv *ᵥ (z lo).2) ⬝ᵥ (rs z lo mid + rs z (mid + 1) hi)) = b2
  generalize decide (0 < (T.Minv *ᵥ (z hi).2) ⬝ᵥ (rs z (mid + 1) hi + (z mid).2)) = b3
  generalize decide (0 < (T.Minv *ᵥ (z mid).2) ⬝ᵥ (rs z (mid + 1) hi + (z mid).2)) = b4
  generalize decide (0 < (T.Minv *ᵥ (z (mid + 1)).2) ⬝ᵥ (rs z lo mid + (z (mid + 1)).2)) = b5
  generalize decide (0 < (T.Minv *ᵥ (z lo).2) ⬝ᵥ (rs z lo mid + (z (mid + 1)).2)) = b6
  cases b1 <;> cases b2 <;> cases b3 <;> cases b4 <;> cases b5 <;> cases b6 <;> rfl

theorem Icc_split {lo mid hi : ℤ} (h1 : lo ≤ mid + 1) (h2 : mid ≤ hi) : Icc lo hi = Icc lo mid ∪ Icc (mid + 1) hi := by
  ext k; simp only [mem_union, mem_Icc]; omega

theorem Icc_disj (lo mid hi : ℤ) : Disjoint (Icc lo mid) (Icc (mid + 1) hi) := by
  rw [disjoint_left]; intro k; simp only [mem_Icc]; omega

theorem sum_Icc_split {M : Type*} [AddCommMonoid M] (f : ℤ → M) {lo mid hi : ℤ} (h1 : lo ≤ mid + 1) (h2 : mid ≤ hi) :
    ∑ k ∈ Icc lo hi, f k = ∑ k ∈ Icc lo mid, f k + ∑ k ∈ Icc (mid + 1) hi, f k := by
  rw [Icc_split h1 h2, sum_union (Icc_disj lo mid hi)]

theorem cnt_split {lo mid hi : ℤ} (h1 : lo ≤ mid + 1) (h2 : mid ≤ hi) :
    cnt T it z lo hi = cnt T it z lo mid + cnt T it z (mid + 1) hi := by
  unfold cnt
  rw [Icc_split h1 h2, filter_union, card_union_of_disjoint]
  exact (Icc_disj lo mid hi).mono (filter_subset _ _) (filter_subset _ _)

theorem join_fwd {lo mid hi : ℤ} (h1 : lo ≤ mid) (h2 : mid < hi) (s2 : Bool) (k1 k2 : ℤ) (c : Bool) :
    join T true (mk T it z lo mid true k1) (mk T it z (mid + 1) hi s2 k2) c =
      mk T it z lo hi (s2 && chk T z lo mid hi) (if c then k2 else k1) := by
  unfold join mk
  simp only [if_true]
  congr 1
  · cases c <;> rfl
  · exact (sum_Icc_split _ (by omega) (by omega)).symm
  · exact (cnt_split T it z (by omega) (by omega)).symm
  · exact (sum_Icc_split _ (by omega) (by omega)).symm
  · omega
  · cases c <;> rfl

theorem join_bwd {lo mid hi : ℤ} (h1 : lo ≤ mid) (h2 : mid < hi) (s2 : Bool) (k1 k2 : ℤ) (c : Bool) :
    join T false (mk T it z (mid + 1) hi true k1) (mk T it z lo mid s2 k2) c =
      mk T it z lo hi (s2 && chk T z lo mid hi) (if c then k2 else k1) := by
  unfold join mk
  simp only [Bool.false_eq_true, if_false]
  congr 1
  · cases c <;> rfl
  · rw [add_comm]; exact (sum_Icc_split _ (by omega) (by omega)).symm
  · rw [add_comm]; exact (cnt_split T it z (by omega) (by omega)).symm
  · rw [chk_mirror]
  · rw [add_comm]; exact (sum_Icc_split _ (by omega) (by omega)).symm
  · omega
  · cases c <;> rfl

/-- Interval and flag of the tree built from index `i` (not random). -/
noncomputable def shape : ℕ → Bool → ℤ → ℤ × ℤ × Bool
  | 0, v, i => let k := if v then i + 1 else i - 1; (k, k, decide (it.logu < it.DeltaMax + ham T (z k)))
  | j + 1, v, i =>
    let a := shape j v i
    if a.2.2 then
      let b := shape j v (if v then a.2.1 else a.1)
      if v then (a.1, b.2.1, b.2.2 && chk T z a.1 a.2.1 b.2.1) else (b.1, a.2.1, b.2.2 && chk T z b.1 b.2.1 a.2.1)
    else a

theorem shape_range (j : ℕ) (v : Bool) (i : ℤ) :
    let a := shape T it z j v i
    a.1 ≤ a.2.1 ∧ a.2.1 + 1 - a.1 ≤ 2 ^ j ∧ (a.2.2 = true → a.2.1 + 1 - a.1 = 2 ^ j) ∧
      (v = true → a.1 = i + 1) ∧ (v = false → a.2.1 = i - 1) := by
  induction j generalizing i with
  | zero =>
    cases v <;> simp [shape]
  | succ j ih =>
    intro a
    have ha := ih i
    by_cases hs : (shape T it z j v i).2.2 = true
    · have hb := ih (if v then (shape T it z j v i).2.1 else (shape T it z j v i).1)
      cases v
      · have e : a = _ := if_pos hs
        simp only [Bool.false_eq_true, if_false] at e hb
        rw [e]
        simp only at ha hb ⊢
        have e2 := ha.2.2.1 hs
        have e3 := hb.2.2.2.2 trivial
        refine ⟨by omega, ?_, ?_, by simp, fun _ => ha.2.2.2.2 trivial⟩
        · rw [pow_succ]; have := hb.2.1; omega
        · intro h
          rw [Bool.and_eq_true] at h
          have := hb.2.2.1 h.1
          rw [pow_succ]; omega
      · have e : a = _ := if_pos hs
        simp only [if_true] at e hb
        rw [e]
        simp only at ha hb ⊢
        have e2 := ha.2.2.1 hs
        have e3 := hb.2.2.2.1 trivial
        refine ⟨by omega, ?_, ?_, fun _ => ha.2.2.2.1 trivial, by simp⟩
        · rw [pow_succ]; have := hb.2.1; omega
        · intro h
          rw [Bool.and_eq_true] at h
          have := hb.2.2.1 h.1
          rw [pow_succ]; omega
    · have e : a = shape T it z j v i := if_neg hs
      rw [e]
      refine ⟨ha.1, ?_, fun h => absurd h hs, ha.2.2.2.1, ha.2.2.2.2⟩
      have := ha.2.1
      have : (2 : ℤ) ^ j ≤ 2 ^ (j + 1) := pow_le_pow_right₀ (by norm_num) (by omega)
      omega

/-- `z` is a leapfrog trajectory with the step size of the iteration. -/
def IsOrb : Prop := (∀ k, z (k + 1) = leap T it.eps (z k)) ∧ ∀ k, z (k - 1) = leap T (-it.eps) (z k)

theorem leaf_mk (hz : IsOrb T it z) (v : Bool) (i : ℤ) :
    leaf T it v (z i).1 (z i).2 = mk T it z (shape T it z 0 v i).1 (shape T it z 0 v i).2.1 (shape T it z 0 v i).2.2 (shape T it z 0 v i).1 := by
  have key : ∀ k e, z k = leap T e (z i) → leapFrog T (z i).1 (T.grad (z i).1) (z i).2 e =
      ((z k).1, T.grad (z k).1, (z k).2, T.llk (z k).1) := by
    intro k e h
    rw [h]; rfl
  have hk : ∀ k, cnt T it z k k = if it.logu ≤ ham T (z k) then 1 else 0 := by
    intro k
    unfold cnt
    rw [Icc_self, filter_singleton]
    by_cases h : it.logu ≤ ham T (z k)
    · rw [if_pos h, if_pos (show Valid T it z k from h)]; rfl
    · rw [if_neg h, if_neg (show ¬ Valid T it z k from h)]; rfl
  cases v
  · have h := key (i - 1) ((if false = true then 1 else -1) * it.eps) (by simp [hz.2 i])
    unfold leaf
    rw [h]
    simp only [shape, mk, hk, rs, accs, acc1, Icc_self, sum_singleton, Bool.false_eq_true, if_false, ham]
    congr 1
    simp
  · have h := key (i + 1) ((if true = true then 1 else -1) * it.eps) (by simp [hz.1 i])
    unfold leaf
    rw [h]
    simp only [shape, mk, hk, rs, accs, acc1, Icc_self, sum_singleton, if_true, ham]
    congr 1
    simp

/-- A random tree over the interval `lo..hi` whose proposal is uniform on the slice. -/
structure Uniform (lo hi : ℤ) (s : Bool) (x : Rand (Tree p)) : Prop where
  out : ∀ t, x.Out t → ∃ k ∈ Icc lo hi, t = mk T it z lo hi s k ∧ (0 < cnt T it z lo hi → Valid T it z k)
  exp : ∀ f, (cnt T it z lo hi : ℝ) * x.expect f = ∑ k ∈ Icc lo hi with Valid T it z k, f (mk T it z lo hi s k)

theorem q_clamp (a b : ℕ) : min 1 (max 0 ((b : ℝ) / ((a + b : ℕ) : ℝ))) = (b : ℝ) / ((a + b : ℕ) : ℝ) := by
  have h0 : (0 : ℝ) ≤ (b : ℝ) / ((a + b : ℕ) : ℝ) := div_nonneg (Nat.cast_nonneg _) (Nat.cast_nonneg _)
  rw [max_eq_right h0, min_eq_right]
  apply div_le_one_of_le₀ _ (Nat.cast_nonneg _)
  exact_mod_cast Nat.le_add_left b a

theorem cnt_pos_of_valid {lo hi k : ℤ} (hk : k ∈ Icc lo hi) (h : Valid T it z k) : 0 < cnt T it z lo hi :=
  card_pos.2 ⟨k, mem_filter.2 ⟨hk, h⟩⟩

/-- Joining two uniform trees over neighbouring intervals gives a uniform tree. -/
theorem uniform_join (v : Bool) {lo mid hi : ℤ} (h1 : lo ≤ mid) (h2 : mid < hi) (s2 : Bool) (x1 : Rand (Tree p))
    (x2 : Tree p → Rand (Tree p))
    (hx1 : if v then Uniform T it z lo mid true x1 else Uniform T it z (mid + 1) hi true x1)
    (hx2 : ∀ t1, x1.Out t1 → if v then Uniform T it z (mid + 1) hi s2 (x2 t1) else Uniform T it z lo mid s2 (x2 t1)) :
    Uniform T it z lo hi (s2 && chk T z lo mid hi)
      (x1.bind fun t1 => if t1.s then (x2 t1).bind fun t2 => .coin ((t2.n : ℝ) / ((t1.n + t2.n : ℕ) : ℝ)) fun c =>
        .ret (join T v t1 t2 c) else .ret t1) := by
  -- the two intervals in building order
  obtain ⟨lo1, hi1, lo2, hi2, hsub1, hsub2, hun, hdis, hcnt, hj, hx1', hx2'⟩ : ∃ lo1 hi1 lo2 hi2 : ℤ, Icc lo1 hi1 ⊆ Icc lo hi ∧
      Icc lo2 hi2 ⊆ Icc lo hi ∧ Icc lo hi = Icc lo1 hi1 ∪ Icc lo2 hi2 ∧ Disjoint (Icc lo1 hi1) (Icc lo2 hi2) ∧
      cnt T it z lo hi = cnt T it z lo1 hi1 + cnt T it z lo2 hi2 ∧
      (∀ k1 k2 c, join T v (mk T it z lo1 hi1 true k1) (mk T it z lo2 hi2 s2 k2) c =
        mk T it z lo hi (s2 && chk T z lo mid hi) (if c then k2 else k1)) ∧
      Uniform T it z lo1 hi1 true x1 ∧ ∀ t1, x1.Out t1 → Uniform T it z lo2 hi2 s2 (x2 t1) := by
    cases v
    · refine ⟨mid + 1, hi, lo, mid, ?_, ?_, ?_, (Icc_disj lo mid hi).symm, ?_, fun k1 k2 c => join_bwd T it z h1 h2 s2 k1 k2 c,
        by simpa using hx1, fun t1 ht => by simpa using hx2 t1 ht⟩
      · intro k; simp only [mem_Icc]; omega
      · intro k; simp only [mem_Icc]; omega
      · rw [Icc_split (mid := mid) (by omega) (by omega), union_comm]
      · rw [cnt_split T it z (mid := mid) (by omega) (by omega), add_comm]
    · refine ⟨lo, mid, mid + 1, hi, ?_, ?_, ?_, Icc_disj lo mid hi, ?_, fun k1 k2 c => join_fwd T it z h1 h2 s2 k1 k2 c,
        by simpa using hx1, fun t1 ht => by simpa using hx2 t1 ht⟩
      · intro k; simp only [mem_Icc]; omega
      · intro k; simp only [mem_Icc]; omega
      · rw [Icc_split (mid := mid) (by omega) (by omega)]
      · rw [cnt_split T it z (mid := mid) (by omega) (by omega)]
  set sJ := s2 && chk T z lo mid hi
  constructor
  · intro t ht
    obtain ⟨t1, ht1, ht⟩ := Rand.out_bind ht
    obtain ⟨k1, hk1, rfl, hv1⟩ := hx1'.out t1 ht1
    rw [if_pos (show (mk T it z lo1 hi1 true k1).s = true from rfl)] at ht
    obtain ⟨t2, ht2, ht⟩ := Rand.out_bind ht
    obtain ⟨k2, hk2, rfl, hv2⟩ := (hx2' _ ht1).out t2 ht2
    cases ht with
    | yes hq h =>
      have := Rand.out_ret h
      rw [hj, if_pos rfl] at this
      refine ⟨k2, hsub2 hk2, this, fun _ => hv2 ?_⟩
      by_contra hc
      have h0 : cnt T it z lo2 hi2 = 0 := by omega
      simp only [mk] at hq
      rw [h0] at hq
      simp at hq
    | no hq h =>
      have := Rand.out_ret h
      rw [hj, if_neg (by simp)] at this
      refine ⟨k1, hsub1 hk1, this, fun hpos => hv1 ?_⟩
      by_contra hc
      have h0 : cnt T it z lo1 hi1 = 0 := by omega
      simp only [mk] at hq
      rw [h0, Nat.zero_add, div_self] at hq
      · exact lt_irrefl _ hq
      · rw [hcnt] at hpos; exact_mod_cast (show cnt T it z lo2 hi2 ≠ 0 by omega)
  · intro f
    set J : Tree p → Tree p := fun t => { mk T it z lo hi sJ 0 with state' := t.state', L := t.L } with hJ
    have hJmk : ∀ a b s k, J (mk T it z a b s k) = mk T it z lo hi sJ k := fun _ _ _ _ => rfl
    set n1 := cnt T it z lo1 hi1
    set n2 := cnt T it z lo2 hi2
    set q : ℝ := (n2 : ℝ) / ((n1 + n2 : ℕ) : ℝ) with hq
    have hinner : ∀ t1, x1.Out t1 → (if t1.s then (x2 t1).bind fun t2 => .coin ((t2.n : ℝ) / ((t1.n + t2.n : ℕ) : ℝ)) fun c =>
        .ret (join T v t1 t2 c) else .ret t1 : Rand (Tree p)).expect f =
        q * (x2 t1).expect (fun t2 => f (J t2)) + (1 - q) * f (J t1) := by
      intro t1 ht1
      obtain ⟨k1, hk1, rfl, hv1⟩ := hx1'.out t1 ht1
      rw [if_pos (show (mk T it z lo1 hi1 true k1).s = true from rfl), Rand.expect_bind]
      have : (x2 (mk T it z lo1 hi1 true k1)).expect (fun t2 => q * f (J t2) + (1 - q) * f (J (mk T it z lo1 hi1 true k1))) =
          q * (x2 (mk T it z lo1 hi1 true k1)).expect (fun t2 => f (J t2)) + (1 - q) * f (J (mk T it z lo1 hi1 true k1)) := by
        have h := Rand.expect_linear (x2 (mk T it z lo1 hi1 true k1)) (univ : Finset Bool) (fun b => if b then q else 1 - q)
          (fun b t2 => if b then f (J t2) else f (J (mk T it z lo1 hi1 true k1)))
        simp only [Fintype.sum_bool, if_true, Bool.false_eq_true, if_false, Rand.expect_const] at h
        exact h
      rw [← this]
      apply Rand.expect_congr
      intro t2 ht2
      obtain ⟨k2, hk2, rfl, hv2⟩ := (hx2' _ ht1).out t2 ht2
      simp only [Rand.expect, hj, if_true, Bool.false_eq_true, if_false, hJmk]
      have e : ((mk T it z lo2 hi2 s2 k2).n : ℝ) / (((mk T it z lo1 hi1 true k1).n + (mk T it z lo2 hi2 s2 k2).n : ℕ) : ℝ) = q := rfl
      rw [e, hq, q_clamp]
    rw [Rand.expect_bind, Rand.expect_congr _ _ _ hinner]
    have hsum : (cnt T it z lo hi : ℝ) = n1 + n2 := by rw [hcnt]; push_cast; rfl
    have hfil : ∑ k ∈ Icc lo hi with Valid T it z k, f (mk T it z lo hi sJ k) =
        ∑ k ∈ Icc lo1 hi1 with Valid T it z k, f (mk T it z lo hi sJ k) + ∑ k ∈ Icc lo2 hi2 with Valid T it z k, f (mk T it z lo hi sJ k) := by
      rw [hun, filter_union, sum_union]
      exact hdis.mono (filter_subset _ _) (filter_subset _ _)
    have h1e := hx1'.exp (fun t => f (J t))
    simp only [hJmk] at h1e
    rw [hfil, ← h1e]
    -- the inner expectation does not depend on the first tree once multiplied by its count
    have h2e : ∀ t1, x1.Out t1 → (n2 : ℝ) * (x2 t1).expect (fun t2 => f (J t2)) =
        ∑ k ∈ Icc lo2 hi2 with Valid T it z k, f (mk T it z lo hi sJ k) := by
      intro t1 ht1
      have := (hx2' t1 ht1).exp (fun t => f (J t))
      simpa only [hJmk] using this
    set S2 := ∑ k ∈ Icc lo2 hi2 with Valid T it z k, f (mk T it z lo hi sJ k)
    by_cases hn : n1 + n2 = 0
    · have hn1 : n1 = 0 := by omega
      have hn2 : n2 = 0 := by omega
      have hS2 : S2 = 0 := by
        have hemp : (Icc lo2 hi2).filter (fun k => Valid T it z k) = ∅ := card_eq_zero.1 hn2
        simp only [S2]
        rw [hemp, sum_empty]
      rw [hsum, hS2, show (n1 : ℝ) = 0 by exact_mod_cast hn1, show (n2 : ℝ) = 0 by exact_mod_cast hn2]
      ring
    · have hne : ((n1 + n2 : ℕ) : ℝ) ≠ 0 := by exact_mod_cast hn
      have hfin : x1.expect (fun t1 => q * (x2 t1).expect (fun t2 => f (J t2)) + (1 - q) * f (J t1)) =
          S2 / ((n1 + n2 : ℕ) : ℝ) + (1 - q) * x1.expect (fun t1 => f (J t1)) := by
        have h := Rand.expect_linear x1 (univ : Finset Bool) (fun b => if b then S2 / ((n1 + n2 : ℕ) : ℝ) else 1 - q)
          (fun b t1 => if b then 1 else f (J t1))
        simp only [Fintype.sum_bool, if_true, Bool.false_eq_true, if_false, Rand.expect_const, mul_one] at h
        rw [← h]
        apply Rand.expect_congr
        intro t1 ht1
        rw [← h2e t1 ht1, hq]
        ring
      rw [hfin, hsum, hq]
      push_cast at hne ⊢
      field_simp
      ring

theorem buildTree_uniform (hz : IsOrb T it z) (v : Bool) (j : ℕ) (i : ℤ) :
    Uniform T it z (shape T it z j v i).1 (shape T it z j v i).2.1 (shape T it z j v i).2.2 (buildTree T it v j (z i).1 (z i).2) := by
  induction j generalizing i with
  | zero =>
    unfold buildTree
    rw [leaf_mk T it z hz]
    have hse : (shape T it z 0 v i).2.1 = (shape T it z 0 v i).1 := rfl
    rw [hse]
    generalize (shape T it z 0 v i).1 = k
    generalize (shape T it z 0 v i).2.2 = s
    constructor
    · intro t ht
      refine ⟨k, by simp, Rand.out_ret ht, ?_⟩
      intro h
      unfold cnt at h
      obtain ⟨k', hk'⟩ := card_pos.1 h
      rw [Icc_self, mem_filter, mem_singleton] at hk'
      rw [← hk'.1]; exact hk'.2
    · intro f
      unfold cnt
      rw [Icc_self, filter_singleton]
      by_cases h : Valid T it z k
      · rw [if_pos h, card_singleton, sum_singleton]; simp [Rand.expect]
      · rw [if_neg h]; simp
  | succ j ih =>
    have hr := shape_range T it z j v i
    by_cases hs : (shape T it z j v i).2.2 = true
    · have hr2 := shape_range T it z j v (if v then (shape T it z j v i).2.1 else (shape T it z j v i).1)
      have h1 := ih i
      have h2 := ih (if v then (shape T it z j v i).2.1 else (shape T it z j v i).1)
      rw [hs] at h1
      cases v
      · have e : shape T it z (j + 1) false i = _ := if_pos hs
        simp only [Bool.false_eq_true, if_false] at e h2 hr2
        rw [e]
        have e3 := hr2.2.2.2.2 trivial
        simp only at e3 hr hr2
        have hmid : (shape T it z j false i).1 = (shape T it z j false (shape T it z j false i).1).2.1 + 1 := by omega
        simp only
        have hh1 : Uniform T it z ((shape T it z j false (shape T it z j false i).1).2.1 + 1) (shape T it z j false i).2.1 true
            (buildTree T it false j (z i).1 (z i).2) := by rw [← hmid]; exact h1
        refine uniform_join T it z false hr2.1 (by omega) _ _ _ hh1 ?_
        intro t1 ht1
        obtain ⟨k1, _, rfl, _⟩ := h1.out t1 ht1
        simp only [Bool.false_eq_true, if_false]
        exact h2
      · have e : shape T it z (j + 1) true i = _ := if_pos hs
        simp only [if_true] at e h2 hr2
        rw [e]
        have e3 := hr2.2.2.2.1 trivial
        simp only at e3 hr hr2
        simp only
        rw [e3] at h2
        refine uniform_join T it z true hr.1 (by omega) _ _ _ h1 ?_
        intro t1 ht1
        obtain ⟨k1, _, rfl, _⟩ := h1.out t1 ht1
        simp only [if_true]
        exact h2
    · have e : shape T it z (j + 1) v i = shape T it z j v i := if_neg hs
      rw [e]
      have h1 := ih i
      have hfalse : (shape T it z j v i).2.2 = false := by simpa using hs
      have hs1 : ∀ t1, (buildTree T it v j (z i).1 (z i).2).Out t1 → t1.s = false := by
        intro t1 ht1
        obtain ⟨k, _, rfl, _⟩ := h1.out t1 ht1
        exact hfalse
      constructor
      · intro t ht
        obtain ⟨t1, ht1, ht⟩ := Rand.out_bind ht
        rw [if_neg (by rw [hs1 t1 ht1]; simp)] at ht
        rw [Rand.out_ret ht]
        exact h1.out t1 ht1
      · intro f
        rw [← h1.exp f]
        congr 1
        simp only [buildTree]
        rw [Rand.expect_bind]
        apply Rand.expect_congr
        intro t1 ht1
        rw [if_neg (by rw [hs1 t1 ht1]; simp)]
        rfl

end

end Verif.Nuts
