import Verif.HsmmGradModel
import Verif.HsmmLemmas
import Mathlib.Analysis.Calculus.Deriv.Mul
import Mathlib.Analysis.Calculus.Deriv.Add
import Mathlib.Analysis.SpecialFunctions.Log.Deriv

/-! Specification and helper lemmas for the gradient of the hidden semi-Markov log-likelihood. -/

namespace Verif.Hsmm

open Finset

/-- Probability tables that depend on one real coefficient `θ`; sizes and switches (in `base`) do not. -/
structure TableFamily where
  base : Tables ℝ
  bs2 : ℝ → ℕ → ℕ → ℝ
  ds2 : ℝ → ℕ → ℕ → ℝ
  ds3 : ℝ → ℕ → ℕ → ℕ → ℝ
  T2 : ℝ → ℕ → ℕ → ℝ
  T3 : ℝ → ℕ → ℕ → ℕ → ℝ
  pi : ℝ → ℕ → ℝ

/-- The tables at coefficient value `θ`. -/
def TableFamily.at (f : TableFamily) (θ : ℝ) : Tables ℝ :=
  { f.base with bs2 := f.bs2 θ, ds2 := f.ds2 θ, ds3 := f.ds3 θ, T2 := f.T2 θ, T3 := f.T3 θ, pi := f.pi θ }

/-- The table derivatives at `θ0` are `db`, `dd`, `dT`, `dpi`. -/
structure TablesHaveDeriv (f : TableFamily) (θ0 : ℝ) (db : ℕ → ℕ → ℝ) (dd dT : ℕ → ℕ → ℕ → ℝ) (dpi : ℕ → ℝ) : Prop where
  b : ∀ t j, HasDerivAt (fun θ => (f.at θ).bs2 t j) (db t j) θ0
  d : ∀ d j t, HasDerivAt (fun θ => (f.at θ).ds d j t) (dd d j t) θ0
  T : ∀ i j t, i < f.base.n_S → j < f.base.n_S → i ≠ j → HasDerivAt (fun θ => (f.at θ).T i j t) (dT i j t) θ0
  pi : ∀ j, HasDerivAt (fun θ => (f.at θ).pi j) (dpi j) θ0

variable (f : TableFamily) (θ0 : ℝ)

theorem at_shape (θ : ℝ) : (f.at θ).n_T = (f.at θ0).n_T ∧ (f.at θ).n_S = (f.at θ0).n_S ∧ (f.at θ).D = (f.at θ0).D :=
  ⟨rfl, rfl, rfl⟩

/-- Derivative of the cell weights: recursion. -/
theorem hasDerivAt_F_succ {db dd dT dpi} (hd : TablesHaveDeriv f θ0 db dd dT dpi) (hh : f.base.hmp = false)
    (t : ℕ) (G : ℕ → ℕ → ℝ) (d j : ℕ) (hj : j < f.base.n_S) (hdd : d < f.base.D - 1)
    (h1 : d + 1 ≤ f.base.D - 2 → HasDerivAt (fun θ => F (f.at θ) t (d + 1) j) (G (d + 1) j) θ0)
    (h2 : ∀ i, i < f.base.n_S → HasDerivAt (fun θ => F (f.at θ) t 0 i) (G 0 i) θ0) :
    HasDerivAt (fun θ => F (f.at θ) (t + 1) d j)
      ((if d + 1 ≤ f.base.D - 2 then
          G (d + 1) j * (f.at θ0).bs2 (t + 1) j + F (f.at θ0) t (d + 1) j * db (t + 1) j else 0) +
       ((∑ i ∈ range f.base.n_S, if i = j then 0 else G 0 i * (f.at θ0).T i j t + F (f.at θ0) t 0 i * dT i j t) *
          ((f.at θ0).bs2 (t + 1) j * (f.at θ0).ds d ((f.at θ0).dcol j) (t + 1)) +
        (∑ i ∈ range f.base.n_S, if i = j then 0 else F (f.at θ0) t 0 i * (f.at θ0).T i j t) *
          (db (t + 1) j * (f.at θ0).ds d ((f.at θ0).dcol j) (t + 1) +
           (f.at θ0).bs2 (t + 1) j * dd d ((f.at θ0).dcol j) (t + 1)))) θ0 := by
  have e : (fun θ => F (f.at θ) (t + 1) d j) = fun θ =>
      (if d + 1 ≤ f.base.D - 2 then F (f.at θ) t (d + 1) j * (f.at θ).bs2 (t + 1) j else 0) +
      (∑ i ∈ range f.base.n_S, if i = j then 0 else F (f.at θ) t 0 i * (f.at θ).T i j t) *
          ((f.at θ).bs2 (t + 1) j * (f.at θ).ds d ((f.at θ0).dcol j) (t + 1)) := by
    funext θ
    have hh' : (f.at θ).hmp = false := hh
    rw [F_succ (f.at θ) t d j hj]
    have hok : SegOk (f.at θ) ⟨t + 1, d, j⟩ := ⟨hj, hdd, fun h => by rw [hh'] at h; exact absurd h (by decide)⟩
    rw [if_pos hok]
    simp only [emCont, emEnter, hh', Bool.false_eq_true, if_false]
    rfl
  rw [e]
  refine HasDerivAt.add ?_ ?_
  · split_ifs with hc
    · exact (h1 hc).mul (hd.b _ _)
    · exact hasDerivAt_const _ _
  · refine HasDerivAt.mul ?_ ((hd.b _ _).mul (hd.d _ _ _))
    refine HasDerivAt.fun_sum ?_
    intro i hi
    rw [mem_range] at hi
    split_ifs with hij
    · exact hasDerivAt_const _ _
    · exact (h2 i hi).mul (hd.T _ _ _ hi hj hij)

theorem hasDerivAt_F_zero {db dd dT dpi} (hd : TablesHaveDeriv f θ0 db dd dT dpi) (hh : f.base.hmp = false)
    (d j : ℕ) (hj : j < f.base.n_S) (hdd : d < f.base.D - 1) :
    HasDerivAt (fun θ => F (f.at θ) 0 d j)
      ((dpi j * (f.at θ0).ds d j 0 + (f.at θ0).pi j * dd d j 0) * (f.at θ0).bs2 0 j
        + (f.at θ0).pi j * (f.at θ0).ds d j 0 * db 0 j) θ0 := by
  have e : (fun θ => F (f.at θ) 0 d j) = fun θ => (f.at θ).pi j * (f.at θ).ds d j 0 * (f.at θ).bs2 0 j := by
    funext θ
    have hh' : (f.at θ).hmp = false := hh
    have hok : SegOk (f.at θ) ⟨0, d, j⟩ := ⟨hj, hdd, fun h => by rw [hh'] at h; exact absurd h (by decide)⟩
    rw [F_zero, if_pos hok]
    simp [emStart, hh']
  rw [e]
  exact ((hd.pi j).mul (hd.d _ _ _)).mul (hd.b _ _)

/-! ### Continuity of the normalisers -/

theorem continuousAt_lam {db dd dT dpi} (hd : TablesHaveDeriv f θ0 db dd dT dpi) (hh : f.base.hmp = false)
    (t : ℕ) (hL : ∀ s < t, Lam (f.at θ0) s ≠ 0) :
    (∀ d j, j < f.base.n_S → ContinuousAt (fun θ => lam (f.at θ) t d j) θ0) ∧ ContinuousAt (fun θ => Lam (f.at θ) t) θ0 := by
  have key : ∀ t, (∀ d j, j < f.base.n_S → ContinuousAt (fun θ => lam (f.at θ) t d j) θ0) →
      ContinuousAt (fun θ => Lam (f.at θ) t) θ0 := by
    intro t h
    unfold Lam lamSum
    change ContinuousAt (fun θ => ∑ d ∈ range (f.base.D - 1), ∑ j ∈ range f.base.n_S,
      lamContrib (f.at θ) t d j (lam (f.at θ) t d j)) θ0
    apply tendsto_finsetSum
    intro d _
    apply tendsto_finsetSum
    intro j hj
    have hcont := h d j (mem_range.1 hj)
    have e : ∃ c : ℝ, ∀ θ v, lamContrib (f.at θ) t d j v = c * v := by
      by_cases h1 : lamContrib (f.at θ0) t d j 1 = 1
      · refine ⟨1, fun θ v => ?_⟩
        have : lamContrib (f.at θ) t d j v = lamContrib (f.at θ0) t d j v := rfl
        rw [this]
        unfold lamContrib at h1 ⊢
        split_ifs at h1 ⊢ <;> simp_all
      · refine ⟨0, fun θ v => ?_⟩
        have : lamContrib (f.at θ) t d j v = lamContrib (f.at θ0) t d j v := rfl
        rw [this]
        unfold lamContrib at h1 ⊢
        split_ifs at h1 ⊢ <;> simp_all
    obtain ⟨c, hc⟩ := e
    simp only [hc]
    exact (continuousAt_const.mul hcont)
  induction t with
  | zero =>
    have h0 : ∀ d j, j < f.base.n_S → ContinuousAt (fun θ => lam (f.at θ) 0 d j) θ0 := by
      intro d j _
      have e : (fun θ => lam (f.at θ) 0 d j) = fun θ => (f.at θ).pi j * (f.at θ).bs2 0 j * (f.at θ).ds d j 0 := by
        funext θ
        have hh' : (f.at θ).hmp = false := hh
        simp [lam, lamCell, hh']
      rw [e]
      exact ((hd.pi j).continuousAt.mul (hd.b _ _).continuousAt).mul (hd.d _ _ _).continuousAt
    exact ⟨h0, key 0 h0⟩
  | succ t ih =>
    obtain ⟨ih1, ih2⟩ := ih fun s hs => hL s (by omega)
    have h1 : ∀ d j, j < f.base.n_S → ContinuousAt (fun θ => lam (f.at θ) (t + 1) d j) θ0 := by
      intro d j hj
      have e : (fun θ => lam (f.at θ) (t + 1) d j) = fun θ =>
          if t + 1 + d < f.base.n_T ∨ f.base.ends_with_last = false then
            ((if d + 1 ≤ f.base.D - 2 then lam (f.at θ) t (d + 1) j * (f.at θ).bs2 (t + 1) j else 0) +
             (∑ i ∈ range f.base.n_S, if i = j then 0 else lam (f.at θ) t 0 i * (f.at θ).T i j t) *
              ((f.at θ).bs2 (t + 1) j * (f.at θ).ds d ((f.at θ0).dcol j) (t + 1))) / Lam (f.at θ) t
          else 0 := by
        funext θ
        have hh' : (f.at θ).hmp = false := hh
        simp only [lam, lamCell, hh', Bool.false_eq_true, false_and, if_false, Nat.add_eq_zero_iff, one_ne_zero,
          and_false, Nat.add_sub_cancel]
        rfl
      rw [e]
      split_ifs with hc hc2
      · refine ContinuousAt.div ?_ ih2 (hL t (by omega))
        refine ContinuousAt.add ((ih1 _ _ hj).mul (hd.b _ _).continuousAt) ?_
        refine ContinuousAt.mul ?_ ((hd.b _ _).continuousAt.mul (hd.d _ _ _).continuousAt)
        apply tendsto_finsetSum
        intro i hi
        rw [mem_range] at hi
        split_ifs with hij
        · exact continuousAt_const
        · exact (ih1 _ _ hi).mul (hd.T _ _ _ hi hj hij).continuousAt
      · refine ContinuousAt.div ?_ ih2 (hL t (by omega))
        refine ContinuousAt.add continuousAt_const ?_
        refine ContinuousAt.mul ?_ ((hd.b _ _).continuousAt.mul (hd.d _ _ _).continuousAt)
        apply tendsto_finsetSum
        intro i hi
        rw [mem_range] at hi
        split_ifs with hij
        · exact continuousAt_const
        · exact (ih1 _ _ hi).mul (hd.T _ _ _ hi hj hij).continuousAt
      · exact continuousAt_const
    exact ⟨h1, key _ h1⟩

/-- Near `θ0` the log-likelihood is the logarithm of the total weight. -/
theorem llk_eventually {db dd dT dpi} (hd : TablesHaveDeriv f θ0 db dd dT dpi) (hh : f.base.hmp = false)
    (hT : 0 < f.base.n_T) (hL : ∀ s < f.base.n_T, Lam (f.at θ0) s ≠ 0) :
    (fun θ => llk (f.at θ)) =ᶠ[nhds θ0] fun θ => Real.log (∑ l ∈ allSegs (f.at θ), weight (f.at θ) l) := by
  have hev : ∀ᶠ θ in nhds θ0, ∀ s ∈ range f.base.n_T, Lam (f.at θ) s ≠ 0 := by
    rw [Filter.eventually_all_finset]
    intro s hs
    rw [mem_range] at hs
    exact (continuousAt_lam f θ0 hd hh s fun s' hs' => hL s' (by omega)).2.eventually_ne (hL s hs)
  filter_upwards [hev] with θ hθ
  have hθ' : ∀ s < f.base.n_T, Lam (f.at θ) s ≠ 0 := fun s hs => hθ s (mem_range.2 hs)
  have h := Lam_final_mul (f.at θ) hT fun s hs => hθ' s (by
    have : (f.at θ).n_T = f.base.n_T := rfl
    omega)
  rw [← h]
  have e : (f.at θ).n_T = ((f.at θ).n_T - 1) + 1 := by
    have : (f.at θ).n_T = f.base.n_T := rfl
    omega
  have e' : (f.at θ).n_T = f.base.n_T := rfl
  rw [Real.log_mul (hθ' _ (by omega)) (prod_ne_zero_iff.2 fun s hs => hθ' s (by have := mem_range.1 hs; omega)),
    Real.log_prod (fun s hs => hθ' s (by have := mem_range.1 hs; omega)), add_comm]
  unfold llk
  conv_lhs => rw [e]
  rw [sum_range_succ]

/-! ### The search for the column of the transition gradient -/

/-- The states other than `i`, in increasing order (hsmm.py `Tj_idx`). -/
def others (n i : ℕ) : List ℕ := (List.range n).filter (· ≠ i)

theorem tidxLoop_eq (i j : ℕ) (hij : i ≠ j) (xs : List ℕ) (hj : j ∈ xs) (acc : ℕ) :
    ∃ k, tidxLoop i j xs acc = acc + k ∧ (xs.filter (· ≠ i))[k]? = some j := by
  induction xs generalizing acc with
  | nil => simp at hj
  | cons x xs ih =>
    simp only [tidxLoop]
    by_cases h1 : x = i
    · rw [if_pos h1]
      have hj' : j ∈ xs := by
        rcases List.mem_cons.1 hj with h | h
        · exact absurd (h.trans h1).symm hij
        · exact h
      obtain ⟨k, hk, hk2⟩ := ih hj' acc
      exact ⟨k, hk, by simpa [h1] using hk2⟩
    · rw [if_neg h1]
      by_cases h2 : x = j
      · rw [if_pos h2]
        exact ⟨0, rfl, by simp [h2, Ne.symm hij]⟩
      · rw [if_neg h2]
        have hj' : j ∈ xs := by
          rcases List.mem_cons.1 hj with h | h
          · exact absurd h.symm h2
          · exact h
        obtain ⟨k, hk, hk2⟩ := ih hj' (acc + 1)
        refine ⟨k + 1, by rw [hk]; ring, ?_⟩
        simpa [h1] using hk2

theorem tidx_spec (n i j : ℕ) (hij : i ≠ j) (hj : j < n) : (others n i)[tidx n i j]? = some j := by
  obtain ⟨k, hk, hk2⟩ := tidxLoop_eq i j hij (List.range n) (List.mem_range.2 hj) 0
  unfold tidx others
  rw [hk, zero_add]
  exact hk2

end Verif.Hsmm
