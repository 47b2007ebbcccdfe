import Verif.HsmmFam
import Verif.HsmmMgLemmas3
import Verif.Dens

/-!
Property C120: states of hidden semi-Markov models with multivariate Gaussian emissions.
-/

namespace Verif.HMg

open Finset Hsmm HFam
open scoped Matrix

/-! ### Layout of the gradient -/

/-- The gradient lists the formulas in the order of the coefficients, then the parameters of the precision matrices, state by
state and cell by cell. -/
theorem seriesGrad_eq (h : Mg) (β : Coef) (θ : ℕ → ℝ) :
    seriesGrad h β θ = ((allKeys h.fm).flatMap fun k => (List.range (h.base.p k)).map (DM h β θ k)) ++ thVals h β θ := by
  set S := (blks h).map (seg h β θ) with hS
  have hraw : rawGrad h β θ = S.flatMap Seg.all ++ (restCols h.fm β).map (entry h β θ) := by
    unfold rawGrad
    rw [List.map_append, List.map_flatMap, hS, List.flatMap_map]
    congr 2
    funext b
    exact colsB_map h β θ b
  have hown : S.flatMap Seg.own = ((emBlocks h.fm).map fun b => Key.em b.1 b.2.1 b.2.2).flatMap fun k =>
      (List.range (h.base.p k)).map (DM h β θ k) := by
    rw [hS, own_eq, blks_em, List.flatMap_map]
    congr 1
    funext b
    apply List.map_congr_left
    intro c _
    rw [mgCol_eq]
    simp [DM, colsOf]
  have hrest : (restCols h.fm β).map (entry h β θ) =
      ((duBlocks h.fm).map (fun b => Key.du b.1 b.2) ++ (trBlocks h.fm).map (fun b => Key.tr b.1 b.2) ++
        (piBlocks h.fm).map Key.ini).flatMap fun k => (List.range (h.base.p k)).map (DM h β θ k) := by
    unfold restCols
    simp only [List.map_append, List.flatMap_append, List.map_flatMap, List.flatMap_map, List.map_map]
    have e1 : ∀ b : ℕ × ℕ, ∀ c, DM h β θ (.du b.1 b.2) c = entry h β θ (durCol h.fm β b.1 b.2 c) := fun b c => by
      simp [DM, colsOf]; rfl
    have e2 : ∀ b : ℕ × ℕ, ∀ c, DM h β θ (.tr b.1 b.2) c = entry h β θ (trCol h.fm β b.1 b.2 c) := fun b c => by
      simp [DM, colsOf]; rfl
    have e3 : ∀ b : ℕ, ∀ c, DM h β θ (.ini b) c = entry h β θ (piCol h.fm β b c) := fun b c => by
      simp [DM, colsOf]; rfl
    congr 1
    · congr 1
      · congr 1
        funext b
        exact List.map_congr_left fun c _ => (e1 b c).symm
      · congr 1
        funext b
        exact List.map_congr_left fun c _ => (e2 b c).symm
    · congr 1
      funext b
      exact List.map_congr_left fun c _ => (e3 b c).symm
  have hall : ∀ f : Key → List ℝ, (allKeys h.fm).flatMap f = (sharedKeys h.fm).flatMap f ++
      (((emBlocks h.fm).map (fun b => Key.em b.1 b.2.1 b.2.2)).flatMap f ++
        ((duBlocks h.fm).map (fun b => Key.du b.1 b.2) ++ (trBlocks h.fm).map (fun b => Key.tr b.1 b.2) ++
          (piBlocks h.fm).map Key.ini).flatMap f) := by
    intro f
    unfold allKeys
    simp only [List.flatMap_append, List.append_assoc]
  have hth : (gth S 0).map (fun i => (rawGrad h β θ).getD i 0) = thVals h β θ := by
    have h1 := gth_map ((restCols h.fm β).map (entry h β θ)) S []
    rw [List.nil_append, ← hraw, List.length_nil] at h1
    rw [h1, hS, th_eq]
  have hkeep : (((List.range (rawGrad h β θ).length).filter fun i => i ∉ (gdup S 0).flatMap (·.2) ++ gth S 0).map fun i =>
      (rawGrad h β θ).getD i 0) = S.flatMap Seg.own ++ (restCols h.fm β).map (entry h β θ) := by
    have h1 := g_rest ((restCols h.fm β).map (entry h β θ)) S []
    rw [List.nil_append, ← hraw, List.length_nil] at h1
    rw [← h1, List.range_eq_range']
  have hthl : (gth S 0).length = 0 → thVals h β θ = [] := fun h0 => by
    rw [← hth, List.length_eq_zero_iff.1 h0, List.map_nil]
  rw [hall, ← hown, ← hrest]
  unfold seriesGrad
  dsimp only
  rw [dupScan_eq h β θ, thScan_eq, ← hS]
  by_cases hn : 0 < h.base.n_shared
  · rw [if_pos hn, hkeep]
    have hsum : ((sharedKeys h.fm).flatMap fun k => (List.range (h.base.p k)).map fun c =>
        (((gdup S 0).filter fun e => e.1 = k).map fun e => (rawGrad h β θ).getD (e.2.getD c 0) 0).sum) =
        (sharedKeys h.fm).flatMap fun k => (List.range (h.base.p k)).map (DM h β θ k) := by
      refine List.flatMap_congr fun k hk => List.map_congr_left fun c hc => ?_
      have hc' := List.mem_range.1 hc
      have h1 := gdup_sum k c ((restCols h.fm β).map (entry h β θ)) S (by
        intro s hs e he hek
        rw [hS, List.mem_map] at hs
        obtain ⟨b, _, rfl⟩ := hs
        cases b with
        | th j r c' => cases he
        | em j m par =>
          simp only [seg] at he
          by_cases hs : par < h.base.n_shared
          · rw [if_pos hs, Option.mem_def, Option.some.injEq] at he
            subst he
            simp only at hek ⊢
            rw [hek, List.length_map, List.length_range]
            exact hc'
          · rw [if_neg hs] at he
            cases he) []
      rw [List.nil_append, ← hraw, List.length_nil] at h1
      rw [h1, hS, sh_eq h β θ k c hc', blks_em]
      have hsh : ∃ a b, k = .sh a b := by
        unfold sharedKeys at hk
        simp only [List.mem_flatMap, List.mem_map] at hk
        obtain ⟨a, _, b, _, rfl⟩ := hk
        exact ⟨a, b, rfl⟩
      obtain ⟨a, b, rfl⟩ := hsh
      unfold DM
      simp only [colsOf, List.map_map, emBlocks_fz, mgCol_eq]
      rfl
    rw [hsum]
    by_cases h0 : 0 < (gth S 0).length
    · rw [if_pos h0, hth]
    · rw [if_neg h0, hthl (by omega)]
  · rw [if_neg hn]
    have hsk : sharedKeys h.fm = [] := by
      have : h.fm.n_shared = 0 := by show h.base.n_shared = 0; omega
      simp [sharedKeys, this]
    have hgd : ∀ B tot, dupScan h B tot = [] := by
      intro B
      induction B with
      | nil => intro tot; rfl
      | cons b B ih =>
        intro tot
        cases b with
        | em j m par =>
          unfold dupScan
          dsimp only
          rw [if_neg (by omega)]
          exact ih _
        | th j r c => exact ih _
    have hgd' : gdup S 0 = [] := by rw [hS, ← dupScan_eq h β θ, hgd]
    rw [hgd', List.flatMap_nil, List.nil_append] at hkeep
    rw [hsk, List.flatMap_nil, List.nil_append]
    by_cases h0 : 0 < (gth S 0).length
    · rw [if_pos h0, hth, hkeep]
    · rw [if_neg h0, hthl (by omega), List.append_nil, ← hkeep, List.length_eq_zero_iff.1 (by omega : (gth S 0).length = 0)]
      simp only [List.not_mem_nil, not_false_iff, decide_true, List.filter_true]
      have := map_getD_range' [] (rawGrad h β θ) []
      simp only [List.length_nil, List.append_nil, List.nil_append] at this
      rw [List.range_eq_range', this]

theorem thetIdx_nodup (m : ℕ) : (MGauss.thetIdx m).Nodup := by
  refine nodup_fm List.nodup_range _ (fun i => ?_) (fun b => b.1) ?_
  · exact List.Nodup.map (fun a b e => by simpa using e) List.nodup_range
  · intro i x hx
    obtain ⟨d, _, rfl⟩ := List.mem_map.1 hx
    rfl

/-- Positions in the list of cells. -/
theorem thetIdx_at (m q : ℕ) (rc : ℕ × ℕ) (hq : (MGauss.thetIdx m)[q]? = some rc) :
    ∃ r c : Fin m, r ≤ c ∧ rc = (↑r, ↑c) ∧ q = MGauss.pos m r c := by
  obtain ⟨hlt, hget⟩ := List.getElem?_eq_some_iff.1 hq
  have hmem : rc ∈ MGauss.thetIdx m := hget ▸ List.getElem_mem hlt
  unfold MGauss.thetIdx at hmem
  simp only [List.mem_flatMap, List.mem_range, List.mem_map] at hmem
  obtain ⟨i, hi, d, hd, rfl⟩ := hmem
  refine ⟨⟨i, hi⟩, ⟨i + d, by omega⟩, by simp, rfl, ?_⟩
  have h1 := (MGauss.thetIdx_pos m).2 ⟨i, hi⟩ ⟨i + d, by omega⟩ (by simp)
  obtain ⟨hlt', hget'⟩ := List.getElem?_eq_some_iff.1 h1
  exact (List.Nodup.getElem_inj_iff (thetIdx_nodup m)).1 (hget.trans hget'.symm)

theorem thVals_at (h : Mg) (E : ℕ → ℕ → ℕ → ℝ) : ∀ n,
    ((List.range n).flatMap fun j => if h.mg j then (MGauss.thetIdx h.base.M).map fun rc => E j rc.1 rc.2 else []).length = h.thOff n ∧
    ∀ i < h.thOff n, ∃ j < n, h.mg j = true ∧ ∃ r c : Fin h.base.M, r ≤ c ∧ i = h.thOff j + MGauss.pos h.base.M r c ∧
      ((List.range n).flatMap fun j => if h.mg j then (MGauss.thetIdx h.base.M).map fun rc => E j rc.1 rc.2 else []).getD i 0 = E j r c := by
  intro n
  induction n with
  | zero => exact ⟨rfl, fun i hi => absurd hi (Nat.not_lt_zero _)⟩
  | succ n ih =>
    obtain ⟨ihl, ihv⟩ := ih
    rw [List.range_succ, List.flatMap_append]
    set A := (List.range n).flatMap fun j => if h.mg j then (MGauss.thetIdx h.base.M).map fun rc => E j rc.1 rc.2 else [] with hA
    have e : ([n] : List ℕ).flatMap (fun j => if h.mg j then (MGauss.thetIdx h.base.M).map fun rc => E j rc.1 rc.2 else []) =
        if h.mg n then (MGauss.thetIdx h.base.M).map fun rc => E n rc.1 rc.2 else [] := by simp
    rw [e]
    have hth : h.thOff (n + 1) = h.thOff n + if h.mg n then h.extra else 0 := rfl
    rw [hth]
    cases hg : h.mg n with
    | false =>
      simp only [Bool.false_eq_true, if_false, List.append_nil, Nat.add_zero]
      refine ⟨ihl, fun i hi => ?_⟩
      obtain ⟨j, hj, hr⟩ := ihv i hi
      exact ⟨j, by omega, hr⟩
    | true =>
      simp only [if_true]
      refine ⟨by rw [List.length_append, List.length_map, ihl]; rfl, fun i hi => ?_⟩
      by_cases hlt : i < h.thOff n
      · obtain ⟨j, hj, hmg, r, c, hrc, hpos, hv⟩ := ihv i hlt
        refine ⟨j, by omega, hmg, r, c, hrc, hpos, ?_⟩
        rw [← hv, List.getD_eq_getElem?_getD, List.getElem?_append_left (by rw [ihl]; exact hlt), ← List.getD_eq_getElem?_getD]
      · have hq : i - h.thOff n < (MGauss.thetIdx h.base.M).length := by
          have : h.extra = (MGauss.thetIdx h.base.M).length := rfl
          omega
        obtain ⟨r, c, hrc, he, hpos⟩ := thetIdx_at h.base.M (i - h.thOff n) _ (List.getElem?_eq_getElem hq)
        refine ⟨n, by omega, hg, r, c, hrc, by omega, ?_⟩
        rw [List.getD_eq_getElem?_getD, List.getElem?_append_right (by rw [ihl]; omega), ihl, List.getElem?_map,
          List.getElem?_eq_getElem hq, he]
        rfl

/-- C120: the gradient of one series has one entry per coefficient, and entry `n` is the derivative of the log-likelihood in
coefficient `n`, the parameters of the precision matrices included. Any mixture of states with vectors of Gaussian
emissions and states with independent signals, with shared formulas. Missing: other links than the identity
(`link_wrong`), and, as for independent signals, coefficients of the initial distribution with time-varying `pi`. -/
theorem mg_gradient_partial (h : Mg) (coef : ℕ → ℝ) (hok : OkM h) (hT : 0 < h.base.n_T) (hS : 2 ≤ h.base.n_S) (hD : 2 ≤ h.base.D)
    (hfx : FixOk h (split h.fm coef) (thetas h coef)) :
    (seriesGrad h (split h.fm coef) (thetas h coef)).length = nCoef h.fm + h.thOff h.base.n_S ∧
      ∀ n < nCoef h.fm + h.thOff h.base.n_S,
        (h.base.tvdtpi = true → ∀ par, Key.ini par ∈ allKeys h.fm → ∀ c < h.base.p (.ini par), n ≠ offset h.fm (.ini par) + c) →
        HasDerivAt (fun x => seriesLlk h (split h.fm (Function.update coef n x)) (thetas h (Function.update coef n x)))
          ((seriesGrad h (split h.fm coef) (thetas h coef)).getD n 0) (coef n) := by
  set β := split h.fm coef with hβ
  set θ := thetas h coef with hθ
  rw [seriesGrad_eq]
  have hl : ((allKeys h.fm).flatMap fun k => (List.range (h.base.p k)).map (DM h β θ k)).length = nCoef h.fm :=
    flat_length h.fm.p _ _
  obtain ⟨hl2, hv2⟩ := thVals_at h (fun j r c => entry h β θ (thCol h β θ j r c)) h.base.n_S
  refine ⟨by rw [List.length_append, hl]; exact congrArg _ hl2, fun n hn htv => ?_⟩
  by_cases hlt : n < nCoef h.fm
  · obtain ⟨k, hk, c, hc, hnk, hv⟩ := flat_at h.fm.p (DM h β θ) (allKeys h.fm) (allKeys_nodup h.fm) n hlt
    rw [List.getD_eq_getElem?_getD, List.getElem?_append_left (by rw [hl]; exact hlt), ← List.getD_eq_getElem?_getD]
    rw [show ((allKeys h.fm).flatMap fun k => (List.range (h.base.p k)).map (DM h β θ k)).getD n 0 = DM h β θ k c from hv]
    have hnk' : n = offset h.fm k + c := hnk
    have e0 : coef n = β k c := by
      rw [hβ]
      unfold split splitBy
      rw [if_pos ⟨hk, hc⟩, hnk']
      rfl
    have e2 : ∀ x, thetas h (Function.update coef n x) = θ := by
      intro x
      funext i
      unfold thetas
      rw [Function.update_of_ne (by omega)]
      rfl
    have e1 : (fun x => seriesLlk h (split h.fm (Function.update coef n x)) (thetas h (Function.update coef n x))) =
        fun x => seriesLlk h (upd β k c x) θ := by
      funext x
      rw [e2, hnk', split_update h.fm coef k hk c hc x]
    rw [e1, e0]
    refine DM_derivative hok hT hS hD hfx hk hc fun ht par hkp => ?_
    subst hkp
    exact htv ht par hk c hc hnk'
  · obtain ⟨j, hj, hmg, r, c, hrc, hpos, hv⟩ := hv2 (n - nCoef h.fm) (by omega)
    rw [List.getD_eq_getElem?_getD, List.getElem?_append_right (by rw [hl]; omega), hl, ← List.getD_eq_getElem?_getD]
    rw [show (thVals h β θ).getD (n - nCoef h.fm) 0 = entry h β θ (thCol h β θ j r c) from hv]
    have hn' : n = nCoef h.fm + (h.thOff j + MGauss.pos h.base.M r c) := by omega
    have e2 : ∀ x, thetas h (Function.update coef n x) = Function.update θ (h.thOff j + MGauss.pos h.base.M r c) x := by
      intro x
      funext i
      unfold thetas
      by_cases hi : i = h.thOff j + MGauss.pos h.base.M r c
      · rw [hi, ← hn', Function.update_self, Function.update_self]
      · rw [Function.update_of_ne (by omega), Function.update_of_ne hi]
        rfl
    have e3 : ∀ x, split h.fm (Function.update coef n x) = β := by
      intro x
      funext k c'
      rw [hβ]
      unfold split splitBy
      by_cases hin : k ∈ allKeys h.fm ∧ c' < h.fm.p k
      · rw [if_pos hin, if_pos hin, Function.update_of_ne]
        intro he
        have hlt' : offs (allKeys h.fm) h.fm.p k + c' < nCoef h.fm := by
          obtain ⟨A, B, hAB⟩ := List.append_of_mem hin.1
          have hnd := allKeys_nodup h.fm
          rw [hAB] at hnd
          have hkA : k ∉ A := fun hkA => (List.nodup_append.1 hnd).2.2 k hkA k List.mem_cons_self rfl
          have : offs (allKeys h.fm) h.fm.p k = (A.map h.fm.p).sum := by
            unfold offs
            rw [hAB, List.takeWhile_append_of_pos (by
              intro a ha
              simp only [ne_eq, decide_not, Bool.not_eq_eq_eq_not, Bool.not_true, decide_eq_false_iff_not]
              exact fun e => hkA (e ▸ ha))]
            simp
          rw [this]
          unfold nCoef
          rw [hAB, List.map_append, List.sum_append, List.map_cons, List.sum_cons]
          have := hin.2
          omega
        omega
      · rw [if_neg hin, if_neg hin]
    have e1 : (fun x => seriesLlk h (split h.fm (Function.update coef n x)) (thetas h (Function.update coef n x))) =
        fun x => seriesLlk h β (Function.update θ (h.thOff j + MGauss.pos h.base.M r c) x) := by
      funext x
      rw [e2, e3]
    have e0 : coef n = θ (h.thOff j + MGauss.pos h.base.M r c) := by rw [hn', hθ]; rfl
    rw [e1, e0]
    exact theta_derivative hT hS hD hfx j hmg r c hrc

/-! ### Links -/

/-- Derivative of the log density of a vector in a coefficient of mean `m`, for any differentiable link: the column of
`b_grad` times the derivative of the inverse link. -/
theorem column_link (h : Mg) (β : Coef) (θ : ℕ → ℝ) (fi' : ℕ → ℝ → ℝ) (j m c t : ℕ) (hj : h.mg j = true) (hm : m < h.base.M)
    (hc : c < h.base.p (.em j m 0)) (hfi : ∀ m x, HasDerivAt (h.fi j m) (fi' m x) x) :
    HasDerivAt (fun x => mgLp h (upd β (.em j m 0) c x) θ j t)
      (fi' m (emEta h.fm β j m t 0) * (mgCol h β θ j m 0 (.em j m 0) c).b_grad t) (β (.em j m 0) c) := by
  refine (mgLp_deriv h β θ fi' (.em j m 0) c hc j t hj hfi).congr_deriv ?_
  rw [sum_eq_single m]
  · congr 1
    unfold mgCol dEm
    rw [if_pos hj, if_pos rfl, if_neg (by simp [shKey]), add_zero]
    exact mul_comm _ _
  · intro m' _ hne
    unfold dEm
    rw [if_neg (by simp [hne]), if_neg (by simp [shKey])]
    ring
  · intro hn
    exact absurd (mem_range.2 hm) hn

/-- C120, negation: wherever the inverse link has not derivative one, the column is not the derivative. -/
theorem link_wrong (h : Mg) (β : Coef) (θ : ℕ → ℝ) (fi' : ℕ → ℝ → ℝ) (j m c t : ℕ) (hj : h.mg j = true) (hm : m < h.base.M)
    (hc : c < h.base.p (.em j m 0)) (hfi : ∀ m x, HasDerivAt (h.fi j m) (fi' m x) x)
    (h1 : fi' m (emEta h.fm β j m t 0) ≠ 1) (h0 : (mgCol h β θ j m 0 (.em j m 0) c).b_grad t ≠ 0) :
    ¬ HasDerivAt (fun x => mgLp h (upd β (.em j m 0) c x) θ j t) ((mgCol h β θ j m 0 (.em j m 0) c).b_grad t) (β (.em j m 0) c) := by
  intro hd
  have he := (column_link h β θ fi' j m c t hj hm hc hfi).unique hd
  exact h1 (mul_right_cancel₀ h0 (he.trans (one_mul _).symm))

/-! ### Normalisation -/

/-- The response of the series replaced by `y`. -/
def withY (h : Mg) (y : Fin h.base.M → ℝ) : Mg := { h with y := fun _ q => if hq : q < h.base.M then y ⟨q, hq⟩ else 0 }

/-- Conditional means of state `j` at row `t`. -/
noncomputable def means (h : Mg) (β : Coef) (j t : ℕ) : Fin h.base.M → ℝ := fun m => h.fi j m (emEta h.fm β j m t 0)

theorem mgLp_withY (h : Mg) (β : Coef) (θ : ℕ → ℝ) (j t : ℕ) (y : Fin h.base.M → ℝ) :
    mgLp (withY h y) β θ j t = MGauss.llk (Matrix.of fun _ : Fin 1 => y - means h β j t) (thSl h θ j) := by
  rw [mgLp_eq]
  have e1 : thSl (withY h y) θ j = thSl h θ j := by
    have : ∀ j, (withY h y).thOff j = h.thOff j := by
      intro j
      induction j with
      | zero => rfl
      | succ j ih => show _ + _ = _ + _; rw [ih]; rfl
    unfold thSl
    rw [this]
  have e2 : errM (withY h y) β j t = Matrix.of fun _ : Fin 1 => y - means h β j t := by
    funext o m
    have hd : (if hq : (m : ℕ) < h.base.M then y ⟨m, hq⟩ else 0) = y m := dif_pos m.isLt
    exact congrArg (fun x => x - means h β j t m) hd
  rw [e1]
  exact congrArg (fun e => MGauss.llk e (thSl h θ j)) e2

/-- The emission table of a state with vectors holds a Gaussian density times `(2 π)^(M/2)`: divided by it, it is the density
of the normal distribution with the means of the state and precision `Rᵀ R`. -/
theorem emission_law (h : Mg) (β : Coef) (θ : ℕ → ℝ) (j t : ℕ) {A : Matrix (Fin h.base.M) (Fin h.base.M) ℝ}
    (hA : A * Aᵀ = Dens.mgCov (thSl h θ j)) :
    Dens.mvnRvs (means h β j t) A = MeasureTheory.volume.withDensity (fun y =>
      ENNReal.ofReal (Real.exp (mgLp (withY h y) β θ j t) / √(2 * Real.pi) ^ h.base.M)) := by
  simp only [mgLp_withY]
  exact (Dens.mg_rvs (thSl h θ j) (means h β j t) hA).1

/-- C120, negation: with a diagonal precision matrix the vector has independent Gaussian coordinates with the means of the state and
precisions `exp(2 θ)`, but the table holds `(2 π)^(M/2)` times the product of their densities, which is what a state with independent
Gaussian signals holds. -/
theorem mixed_states_wrong (h : Mg) (β : Coef) (θ : ℕ → ℝ) (j t : ℕ)
    (hdiag : ∀ r c : Fin h.base.M, r < c → thSl h θ j (MGauss.pos h.base.M r c) = 0) :
    Real.exp (mgLp h β θ j t) = √(2 * Real.pi) ^ h.base.M * ∏ m : Fin h.base.M, ProbabilityTheory.gaussianPDFReal (means h β j t m)
      (Real.toNNReal (Real.exp (-(2 * thSl h θ j (MGauss.pos h.base.M m m))))) (h.y t m) := by
  have hR : ∀ p q : Fin h.base.M, MGauss.getR h.base.M (thSl h θ j) p q =
      if p = q then Real.exp (thSl h θ j (MGauss.pos h.base.M p p)) else 0 := by
    intro p q
    simp only [MGauss.getR, Matrix.of_apply]
    by_cases hpq : p = q
    · subst hpq
      simp
    · by_cases hl : p ≤ q
      · rw [if_pos hl, if_neg hpq, if_neg hpq, hdiag p q (lt_of_le_of_ne hl hpq)]
      · rw [if_neg hl, if_neg hpq]
  have hy : ∀ m : Fin h.base.M, yR h β θ j t 0 m = (h.y t m - means h β j t m) * Real.exp (thSl h θ j (MGauss.pos h.base.M m m)) := by
    intro m
    unfold yR
    rw [Matrix.mul_apply, sum_eq_single m]
    · rw [Matrix.transpose_apply, hR, if_pos rfl]
      rfl
    · intro q _ hne
      rw [Matrix.transpose_apply, hR, if_neg (Ne.symm hne), mul_zero]
    · intro hn; exact absurd (mem_univ _) hn
  have hs : (0 : ℝ) < √(2 * Real.pi) := Real.sqrt_pos.2 (by positivity)
  have hpdf : ∀ m : Fin h.base.M, ProbabilityTheory.gaussianPDFReal (means h β j t m)
      (Real.toNNReal (Real.exp (-(2 * thSl h θ j (MGauss.pos h.base.M m m))))) (h.y t m) =
      (√(2 * Real.pi))⁻¹ * Real.exp (-(1 / 2) * (yR h β θ j t 0 m * yR h β θ j t 0 m) + thSl h θ j (MGauss.pos h.base.M m m)) := by
    intro m
    rw [ProbabilityTheory.gaussianPDFReal, hy, Real.coe_toNNReal _ (Real.exp_pos _).le]
    set a := thSl h θ j (MGauss.pos h.base.M m m)
    have e1 : √(2 * Real.pi * Real.exp (-(2 * a))) = √(2 * Real.pi) * Real.exp (-a) := by
      rw [Real.sqrt_mul (by positivity), show -(2 * a) = -a + -a by ring, Real.exp_add, Real.sqrt_mul_self (Real.exp_pos _).le]
    have e2 : Real.exp (-(2 * a)) = (Real.exp a * Real.exp a)⁻¹ := by
      rw [← Real.exp_add, ← Real.exp_neg]
      ring_nf
    rw [e1, mul_inv, Real.exp_neg, inv_inv, mul_assoc, ← Real.exp_add]
    congr 2
    rw [add_comm, e2]
    congr 1
    have := (Real.exp_pos a).ne'
    field_simp
  have hexp : ∀ f : Fin h.base.M → ℝ, Real.exp (∑ m, f m) = ∏ m, Real.exp (f m) := fun f => Real.exp_sum _ _
  rw [prod_congr rfl fun m _ => hpdf m, prod_mul_distrib, prod_const, card_univ, Fintype.card_fin, ← hexp, ← mul_assoc, ← mul_pow,
    mul_inv_cancel₀ hs.ne', one_pow, one_mul]
  congr 1
  unfold mgLp MGauss.logdet
  rw [sum_add_distrib, mul_sum]

/-- The signal-wise log probabilities of a vector are those of its decorrelated residuals: their sum and the table entry differ by
the log-determinant of the factor and the constant. -/
theorem signal_probs (h : Mg) (β : Coef) (θ : ℕ → ℝ) (j t : ℕ) :
    mgLp h β θ j t = ∑ m, jbsMg h β θ j t m + Real.log (MGauss.getR h.base.M (thSl h θ j)).det + h.base.M / 2 * Real.log (2 * Real.pi) := by
  have hdet := (MGauss.factor_spec (m := h.base.M) (thSl h θ j)).2.2.1
  rw [hdet, Real.log_exp]
  unfold mgLp jbsMg
  rw [sum_sub_distrib, sum_const, card_univ, Fintype.card_fin, nsmul_eq_mul, mul_sum]
  have : ∀ m : Fin h.base.M, -(1 / 2) * (yR h β θ j t 0 m * yR h β θ j t 0 m) = -(yR h β θ j t 0 m) ^ 2 / 2 := fun m => by ring
  rw [sum_congr rfl fun m _ => this m]
  ring

/-- Emissions multiplied by a constant. -/
def scaled (a : ℝ) (m : Tables ℝ) : Tables ℝ := { m with bs2 := fun t j => a * m.bs2 t j }

theorem lamContrib_mul (m : Tables ℝ) (a : ℝ) (t d j : ℕ) (v : ℝ) : lamContrib (scaled a m) t d j (a * v) = a * lamContrib m t d j v := by
  unfold lamContrib
  simp only [scaled]
  simp only [mul_ite, mul_zero]
  rfl

theorem lamSum_mul (m : Tables ℝ) (a : ℝ) (t : ℕ) (v : ℕ → ℕ → ℝ) :
    lamSum (scaled a m) t (fun d j => a * v d j) = a * lamSum m t v := by
  unfold lamSum
  rw [mul_sum]
  refine sum_congr rfl fun d _ => ?_
  rw [mul_sum]
  exact sum_congr rfl fun j _ => lamContrib_mul m a t d j (v d j)

theorem lam_scaled (m : Tables ℝ) (hh : m.hmp = false) (a : ℝ) (ha : a ≠ 0) : ∀ t, lam (scaled a m) t = fun d j => a * lam m t d j := by
  intro t
  induction t with
  | zero =>
    funext d j
    simp only [lam, lamCell, scaled, Tables.ds, hh]
    simp only [Bool.false_eq_true, false_and, if_false, if_true]
    ring
  | succ t ih =>
    funext d j
    unfold lam
    rw [ih, lamSum_mul]
    unfold lamCell
    simp only [scaled, Tables.ds, Tables.T, Tables.dcol, hh]
    simp only [Bool.false_eq_true, false_and, if_false, Nat.add_eq_zero_iff, one_ne_zero, and_false]
    have hs : ∀ g : ℕ → ℝ, (∑ x ∈ range m.n_S, if x = j then 0 else a * lam m t 0 x * g x) =
        a * ∑ x ∈ range m.n_S, if x = j then 0 else lam m t 0 x * g x := by
      intro g
      rw [mul_sum]
      refine sum_congr rfl fun x _ => ?_
      split_ifs <;> ring
    have key : ∀ X Y Z : ℝ, X = a * (a * Y) → X / (a * Z) = a * (Y / Z) := by
      intro X Y Z hX
      rw [hX, mul_div_mul_left _ _ ha, mul_div_assoc]
    split_ifs <;> first
      | (rw [mul_zero])
      | (refine key _ _ _ ?_
         rw [hs]
         ring)

/-- Dividing all emissions by `(2 π)^(M/2)` changes the log-likelihood by a constant that depends only on the numbers of rows and signals.
So when all states have vectors as emissions (`emission_law`) the log-likelihood is that of the normalised densities plus this constant. -/
theorem llk_shift (h : Mg) (β : Coef) (θ : ℕ → ℝ) (hT : 0 < h.base.n_T) (hS : 2 ≤ h.base.n_S) (hD : 2 ≤ h.base.D) (hfx : FixOk h β θ) :
    seriesLlk h β θ = llk (scaled ((√(2 * Real.pi) ^ h.base.M)⁻¹) (tables h β θ)) + h.base.n_T * (h.base.M / 2 * Real.log (2 * Real.pi)) := by
  set a := (√(2 * Real.pi) ^ h.base.M)⁻¹ with ha
  have hs : (0 : ℝ) < √(2 * Real.pi) := Real.sqrt_pos.2 (by positivity)
  have ha0 : a ≠ 0 := (inv_pos.2 (pow_pos hs _)).ne'
  have hL := Lam_ne hT hS hD hfx
  have hlog : Real.log a = -(h.base.M / 2 * Real.log (2 * Real.pi)) := by
    rw [ha, Real.log_inv, Real.log_pow, Real.log_sqrt (by positivity)]
    ring
  have e : ∀ t ∈ range h.base.n_T, Real.log (Lam (scaled a (tables h β θ)) t) = Real.log a + Real.log (Lam (tables h β θ) t) := by
    intro t ht
    unfold Lam
    rw [lam_scaled (tables h β θ) rfl a ha0, lamSum_mul]
    exact Real.log_mul ha0 (hL t (mem_range.1 ht))
  unfold seriesLlk llk
  show ∑ t ∈ range h.base.n_T, Real.log (Lam (tables h β θ) t) = ∑ t ∈ range h.base.n_T, Real.log (Lam (scaled a (tables h β θ)) t) + _
  rw [sum_congr rfl e, sum_add_distrib, sum_const, card_range, nsmul_eq_mul, hlog]
  ring

/-! ### Simulation -/

theorem simSeeds_at (n_T : ℕ) : ∀ (n : ℕ) (seed : ℤ) (j t : ℕ), j < n → t < n_T →
    (simSeeds n_T n (some seed))[j]?.bind (·[t]?) = some (some (seed + j + t)) := by
  intro n
  induction n with
  | zero => intro seed j t hj; omega
  | succ n ih =>
    intro seed j t hj ht
    cases j with
    | zero =>
      simp only [simSeeds, List.getElem?_cons_zero, Option.bind_some]
      rw [(Dens.mg_seeds n_T).2.1 seed t ht]
      simp
    | succ j =>
      simp only [simSeeds, List.getElem?_cons_succ, Option.map_some]
      rw [ih (seed + 1) j t (by omega) ht]
      congr 2
      push_cast
      ring

/-- C120, negation: emissions simulated for different states are not independent. Row `t` of state `j + 1` is made of the same standard
normal vector as row `t + 1` of state `j`: whatever the generator, one determines the other. -/
theorem simulated_noise_wrong {d : ℕ} (noise : ℤ → Fin d → ℝ) (seed : ℤ) (mean : ℕ → ℕ → Fin d → ℝ) (A : ℕ → Matrix (Fin d) (Fin d) ℝ)
    (n_T n_S j t : ℕ) (hj : j + 1 < n_S) (ht : t + 1 < n_T) : ∃ z, simEmission noise seed mean A n_T n_S (j + 1) t = some (mean (j + 1) t + A (j + 1) *ᵥ z) ∧
      simEmission noise seed mean A n_T n_S j (t + 1) = some (mean j (t + 1) + A j *ᵥ z) := by
  refine ⟨noise (seed + (j + 1) + t), ?_, ?_⟩
  · unfold simEmission
    rw [simSeeds_at n_T n_S seed (j + 1) t hj (by omega)]
    simp
  · unfold simEmission
    rw [simSeeds_at n_T n_S seed j (t + 1) (by omega) ht]
    simp only [Option.bind_some, Option.map_some]
    congr 4
    push_cast
    ring

/-- Rows of one state get pairwise different seeds. -/
theorem state_seeds (n_T n_S : ℕ) (seed : ℤ) (j t t' : ℕ) (hj : j < n_S) (ht : t < n_T) (ht' : t' < n_T) (hne : t ≠ t') :
    (simSeeds n_T n_S (some seed))[j]?.bind (·[t]?) ≠ (simSeeds n_T n_S (some seed))[j]?.bind (·[t']?) := by
  rw [simSeeds_at n_T n_S seed j t hj ht, simSeeds_at n_T n_S seed j t' hj ht']
  intro he
  simp only [Option.some.injEq] at he
  omega

/-! ### A concrete model -/

/-- Three states and two signals; states 0 and 2 have vectors, state 1 independent signals; the means have parts shared by the states. -/
noncomputable def demoM : Mg where
  base := HFam.demo
  mg := fun j => decide (j ≠ 1)
  y := fun t m => t + m
  fi := fun _ _ x => x

theorem demoM_ok : OkM demoM :=
  ⟨fun _ _ _ _ _ => HFam.gaussFam_ok _, fun _ _ => HFam.gaussFam_ok _, fun _ _ _ _ _ => rfl⟩

/-- Two precision matrices with three parameters each. -/
example : demoM.thOff demoM.base.n_S = 6 := by decide

example (coef : ℕ → ℝ) (n : ℕ) (hn : n < nCoef demoM.fm + 6) :
    HasDerivAt (fun x => seriesLlk demoM (split demoM.fm (Function.update coef n x)) (thetas demoM (Function.update coef n x)))
      ((seriesGrad demoM (split demoM.fm coef) (thetas demoM coef)).getD n 0) (coef n) :=
  (mg_gradient_partial demoM coef demoM_ok (by decide) (by decide) (by decide) (fun h => absurd h (by simp [demoM, HFam.demo]))).2 n hn
    (fun h => absurd h (by simp [demoM, HFam.demo]))

/-- With a logarithmic link the column of the first mean of state 0 is wrong when the predictor is `0.5`. -/
example (β : Coef) (θ : ℕ → ℝ) (h : Mg) (hh : h = { demoM with fi := fun _ _ => Real.exp }) (hη : emEta h.fm β 0 0 2 0 = 1 / 2)
    (h0 : (mgCol h β θ 0 0 0 (.em 0 0 0) 0).b_grad 2 ≠ 0) :
    ¬ HasDerivAt (fun x => mgLp h (upd β (.em 0 0 0) 0 x) θ 0 2) ((mgCol h β θ 0 0 0 (.em 0 0 0) 0).b_grad 2) (β (.em 0 0 0) 0) := by
  subst hh
  refine link_wrong _ β θ (fun _ x => Real.exp x) 0 0 0 2 (by decide) (by decide) (by decide) (fun _ x => Real.hasDerivAt_exp x) ?_ h0
  rw [hη]
  simp

/-- Every vector of parameters with zeros above the diagonal. -/
example (β : Coef) (a b : ℝ) : Real.exp (mgLp demoM β (fun i => if i = 0 then a else if i = 2 then b else 0) 0 3) =
    √(2 * Real.pi) ^ 2 * ∏ m : Fin 2, ProbabilityTheory.gaussianPDFReal (means demoM β 0 3 m)
      (Real.toNNReal (Real.exp (-(2 * thSl demoM (fun i => if i = 0 then a else if i = 2 then b else 0) 0 (MGauss.pos 2 m m)))))
      (demoM.y 3 m) := by
  refine mixed_states_wrong demoM β _ 0 3 ?_
  have : ∀ r c : Fin 2, r < c → thSl demoM (fun i => if i = 0 then a else if i = 2 then b else 0) 0 (MGauss.pos 2 r c) = 0 := by
    intro r c hrc
    have h1 : MGauss.pos 2 r c = 1 := by
      revert r c
      decide
    rw [h1]
    rfl
  exact this

example (β : Coef) (θ : ℕ → ℝ) : seriesLlk demoM β θ = llk (scaled ((√(2 * Real.pi) ^ 2)⁻¹) (tables demoM β θ)) +
    4 * (2 / 2 * Real.log (2 * Real.pi)) := by
  have h := llk_shift demoM β θ (by decide) (by decide) (by decide) (fun h => absurd h (by simp [demoM, HFam.demo]))
  simpa [demoM, HFam.demo] using h

example (noise : ℤ → Fin 2 → ℝ) (mean : ℕ → ℕ → Fin 2 → ℝ) (A : ℕ → Matrix (Fin 2) (Fin 2) ℝ) :
    ∃ z, simEmission noise 7 mean A 10 3 2 4 = some (mean 2 4 + A 2 *ᵥ z) ∧ simEmission noise 7 mean A 10 3 1 5 = some (mean 1 5 + A 1 *ᵥ z) :=
  simulated_noise_wrong noise 7 mean A 10 3 1 4 (by decide) (by decide)

end Verif.HMg
