import Verif.HsmmMgLemmas2

/-!
Lemmas for property C120: derivative of the log-likelihood, layout of the gradient.
-/

namespace Verif.HMg

open Finset Hsmm HFam

variable (h : Mg) (β : Coef) (θ : ℕ → ℝ) (k : Key) (c : ℕ)

/-- Families of the states without `MultiGauss` and of the durations have correct derivatives; `MultiGauss` with identity links. -/
structure OkM : Prop where
  obs : ∀ j < h.base.n_S, h.mg j = false → ∀ m < h.base.M, (h.base.obs j m).Ok
  dur : ∀ j < h.base.nd, (h.base.dur j).Ok
  link : ∀ j < h.base.n_S, h.mg j = true → ∀ m x, h.fi j m x = x

variable {h} in
theorem ok_fz (hok : OkM h) : HFam.Ok (Fz h β θ) := by
  refine ⟨fun j hj m hm => ?_, fun j hj => hok.dur j hj⟩
  cases hg : h.mg j with
  | true =>
    rw [obs_fz_mg h β θ hg]
    intro i e par hp
    have hp0 : par = 0 := by
      have : par < 1 := hp
      omega
    subst hp0
    simp only [Function.update_self]
    exact ((hasDerivAt_id (e 0)).const_mul _).congr_deriv (mul_one _)
  | false =>
    rw [obs_fz_not h β θ hg]
    exact hok.obs j hj hg m hm

/-- Derivative of the emission table. -/
noncomputable def dB (t j : ℕ) : ℝ :=
  bsMg h β θ t j * ∑ m ∈ range h.base.M, ∑ par ∈ range ((Fz h β θ).obs j m).n_par,
    ((Fz h β θ).obs j m).d1 t (emEta (Fz h β θ) β j m t) par * dEm (Fz h β θ) k c j m par t

variable {h} in
theorem bsMg_deriv (hok : OkM h) (hc : c < h.base.p k) (t j : ℕ) (hj : j < h.base.n_S) :
    HasDerivAt (fun x => bsMg h (upd β k c x) θ t j) (dB h β θ k c t j) (β k c) := by
  cases hg : h.mg j with
  | true =>
    have h1 := (mgLp_deriv h β θ (fun _ _ => 1) k c hc j t hg (fun m x => by
      have : h.fi j m = fun x => x := funext (hok.link j hj hg m)
      rw [this]
      exact hasDerivAt_id x)).exp
    rw [upd_self] at h1
    have e : (fun x => bsMg h (upd β k c x) θ t j) = fun x => Real.exp (mgLp h (upd β k c x) θ j t) := by
      funext x
      unfold bsMg
      rw [if_pos hg]
    rw [e]
    refine h1.congr_deriv ?_
    unfold dB bsMg
    rw [if_pos hg]
    congr 1
    refine sum_congr rfl fun m _ => ?_
    rw [obs_fz_mg h β θ hg]
    simp
  | false =>
    have h1 := bs_deriv (Fz h β θ) β k c hc j (ok_fz β θ hok |>.1 j hj) t
    have e : ∀ β', bsAt (Fz h β θ) β' t j = bsAt h.base β' t j := by
      intro β'
      unfold bsAt
      have : ∀ m, emEta (Fz h β θ) β' j m t = emEta h.base β' j m t := fun m => funext fun par => emEta_not h β θ hg β' m t par
      simp only [this, obs_fz_not h β θ hg]
      rfl
    have e2 : ∀ β', bsMg h β' θ t j = bsAt h.base β' t j := fun β' => by
      unfold bsMg
      rw [if_neg (by rw [hg]; simp)]
    unfold dB
    simp only [e2, ← e]
    exact h1

/-- Derivatives of the tables in coefficient `(k, c)`. -/
noncomputable def dirM : Tables ℝ := { dirKey (Fz h β θ) β k c with bs2 := dB h β θ k c }

noncomputable def curveM : Curve where
  base := tables h β θ
  bs2 := fun x => (tables h (upd β k c x) θ).bs2
  bs3 := fun x => (tables h (upd β k c x) θ).bs3
  ds2 := fun x => (tables h (upd β k c x) θ).ds2
  ds3 := fun x => (tables h (upd β k c x) θ).ds3
  T2 := fun x => (tables h (upd β k c x) θ).T2
  T3 := fun x => (tables h (upd β k c x) θ).T3
  pi := fun x => (tables h (upd β k c x) θ).pi

theorem curveM_at (x : ℝ) : (curveM h β θ k c).at x = tables h (upd β k c x) θ := rfl

variable {h} in
theorem curveM_deriv (hok : OkM h) (hD : 0 < h.base.D - 1) (hc : c < h.base.p k) :
    HasTabDeriv (curveM h β θ k c) (dirM h β θ k c) (β k c) := by
  have hb := keyCurve_deriv (Fz h β θ) β k c (ok_fz β θ hok) hD hc
  refine ⟨⟨rfl, rfl, rfl⟩, ?_, ?_, ?_, ?_, ?_⟩
  · intro _ t j hj
    exact bsMg_deriv β θ k c hok hc t j hj
  · intro hm
    exact absurd hm (by simp [curveM, tables, HFam.tables])
  · exact hb.d
  · exact hb.T
  · exact hb.pi

variable {h} in
theorem llk_derivM (hok : OkM h) (hT : 0 < h.base.n_T) (hD : 0 < h.base.D - 1) (hc : c < h.base.p k)
    (hL : ∀ t < h.base.n_T, Lam (tables h β θ) t ≠ 0) :
    HasDerivAt (fun x => seriesLlk h (upd β k c x) θ) (gradDir (tables h β θ) (dirM h β θ k c)) (β k c) := by
  have h1 := llk_hasDerivAt_dir (curveM_deriv β θ k c hok hD hc) hT (by
    intro s hs
    rw [curveM_at, upd_self]
    exact hL s hs)
  rw [curveM_at, upd_self] at h1
  exact h1

/-- Share of a column in the derivative of the emission of state `j` at row `t`. -/
def share (t j : ℕ) (g : GradTables) : ℝ := match g.kind with
  | .emission => if g.jidx = j then g.b_grad t else 0
  | _ => 0

theorem dirOf_bs2 (m : Tables ℝ) (g : GradTables) (t j : ℕ) : (dirOf m g).bs2 t j = m.bs2 t j * share t j g := by
  unfold dirOf share
  cases g.kind <;> simp

theorem isSumM (hk : k ∈ allKeys h.fm) :
    IsSum (univ : Finset (Fin (colsOf (Fz h β θ) β k c).length)) (tables h β θ) (dirM h β θ k c)
      (fun i => dirOf (tables h β θ) (colsOf (Fz h β θ) β k c)[(i : ℕ)]) := by
  rw [← allKeys_fz h β θ] at hk
  have hb := isSum_cols (Fz h β θ) β k c hk
  refine ⟨⟨rfl, rfl, rfl⟩, fun _ _ => ⟨rfl, rfl, rfl⟩, ?_, ?_, hb.d, hb.T, hb.pi⟩
  · intro _ t j hj
    have h1 := hb.b2 rfl t j hj
    simp only [dirOf_bs2] at h1 ⊢
    rw [← mul_sum] at h1 ⊢
    have h2 : (dirKey (Fz h β θ) β k c).bs2 t j = (HFam.tables (Fz h β θ) β).bs2 t j *
        ∑ m ∈ range h.base.M, ∑ par ∈ range ((Fz h β θ).obs j m).n_par,
          ((Fz h β θ).obs j m).d1 t (emEta (Fz h β θ) β j m t) par * dEm (Fz h β θ) k c j m par t := rfl
    have hpos : 0 < (HFam.tables (Fz h β θ) β).bs2 t j := Real.exp_pos _
    rw [h2] at h1
    have h3 := mul_left_cancel₀ hpos.ne' h1
    show bsMg h β θ t j * _ = bsMg h β θ t j * _
    rw [h3]
  · intro hm
    exact absurd hm (by simp [tables, HFam.tables])

/-- What the code reports for coefficient `(k, c)`. -/
noncomputable def DM (k : Key) (c : ℕ) : ℝ := ((colsOf (Fz h β θ) β k c).map (entry h β θ)).sum

/-- Fixed transition and initial probabilities are usable. -/
def FixOk : Prop :=
  h.base.fixed.isSome → NonNeg (tables h β θ) ∧ ∃ l, Admissible (tables h β θ) l ∧ 0 < weight (tables h β θ) l

variable {h β θ} in
theorem Lam_ne (hT : 0 < h.base.n_T) (hS : 2 ≤ h.base.n_S) (hD : 2 ≤ h.base.D) (hfx : FixOk h β θ) :
    ∀ t < h.base.n_T, Lam (tables h β θ) t ≠ 0 := by
  cases hf : h.base.fixed with
  | some f =>
    obtain ⟨hn, l, hl, hw⟩ := hfx (by rw [hf]; rfl)
    exact Lam_ne_zero_of_segmentation _ hn hT l hl hw
  | none =>
    intro t ht
    refine (Lam_pos_of_pos (tables h β θ) rfl hS (show 0 < h.base.D - 1 by omega) ?_ ?_ ?_ ?_ t ht).ne'
    · intro t j _
      show 0 < bsMg h β θ t j
      unfold bsMg
      split_ifs
      · exact Real.exp_pos _
      · exact Real.exp_pos _
    · intro d j t _ _
      exact (durations_distribution h.fm β hD j t).1 d
    · intro i j t hi hj hij
      exact (transitions_distribution h.fm β hf hS i t hi).2.1 j hj (Ne.symm hij)
    · intro j hj
      exact (initial_distribution h.fm β hf (by show 1 ≤ h.base.n_S; omega)).1 j hj

variable {h β θ} in
theorem entry_eq (hT : 0 < h.base.n_T) (hS : 2 ≤ h.base.n_S) (hD : 2 ≤ h.base.D) (hfx : FixOk h β θ) (g : GradTables)
    (hini : g.kind = .initial → h.base.tvdtpi = false)
    (hkind : h.base.fixed.isSome → g.kind = .emission ∨ g.kind = .duration) :
    entry h β θ g = gradDir (tables h β θ) (dirOf (tables h β θ) g) := by
  have hL := Lam_ne hT hS hD hfx
  unfold entry
  cases hf : h.base.fixed with
  | none =>
    simp only [Option.isSome_none, Bool.false_eq_true, if_false]
    exact llkgrad_eq_gradDir _ g rfl hT (by show 0 < h.base.n_S; omega) (by show 0 < h.base.D - 1; omega) hL hini
  | some f =>
    simp only [Option.isSome_some, if_true]
    obtain ⟨hn, l, hl, hw⟩ := hfx (by rw [hf]; rfl)
    rw [llkFTPgrad_eq_llkgrad (tables h β θ) (toFtp g) g rfl rfl (by
      rcases hkind (by rw [hf]; rfl) with hk | hk <;> simp [toFtp, hk]) rfl rfl rfl rfl hT (by show 0 < h.base.n_S; omega)
      (by show 0 < h.base.D - 1; omega) hn l hl hw]
    exact llkgrad_eq_gradDir _ g rfl hT (by show 0 < h.base.n_S; omega) (by show 0 < h.base.D - 1; omega) hL hini

theorem cols_kind (hk : k ∈ allKeys h.fm) (g : GradTables) (hg : g ∈ colsOf (Fz h β θ) β k c) :
    (g.kind = .initial → ∃ par, k = .ini par) ∧ (h.base.fixed.isSome → g.kind = .emission ∨ g.kind = .duration) := by
  obtain ⟨_, _, h3, h4⟩ := mem_allKeys h.fm k hk
  cases k with
  | sh a b =>
    have := dirOf_em_zero (Fz h β θ) β _ c g hg (Or.inl ⟨_, _, rfl⟩)
    exact ⟨fun hi => (by rw [this] at hi; cases hi), fun _ => Or.inl this⟩
  | em a b d =>
    have := dirOf_em_zero (Fz h β θ) β _ c g hg (Or.inr ⟨_, _, _, rfl⟩)
    exact ⟨fun hi => (by rw [this] at hi; cases hi), fun _ => Or.inl this⟩
  | du a b =>
    simp only [colsOf, List.mem_singleton] at hg
    rw [hg]
    exact ⟨fun hi => (by cases hi), fun _ => Or.inr rfl⟩
  | tr a b =>
    have h1 : h.base.fixed.isNone := (h3 a b rfl).1
    simp only [colsOf, List.mem_singleton] at hg
    rw [hg]
    refine ⟨fun hi => (by cases hi), fun hs => ?_⟩
    rw [Option.isNone_iff_eq_none.1 h1] at hs
    cases hs
  | ini a =>
    have h1 : h.base.fixed.isNone := (h4 a rfl).1
    refine ⟨fun _ => ⟨a, rfl⟩, fun hs => ?_⟩
    rw [Option.isNone_iff_eq_none.1 h1] at hs
    cases hs

variable {h β θ k c} in
theorem DM_derivative (hok : OkM h) (hT : 0 < h.base.n_T) (hS : 2 ≤ h.base.n_S) (hD : 2 ≤ h.base.D) (hfx : FixOk h β θ)
    (hk : k ∈ allKeys h.fm) (hc : c < h.base.p k) (htv : h.base.tvdtpi = true → ∀ par, k ≠ .ini par) :
    HasDerivAt (fun x => seriesLlk h (upd β k c x) θ) (DM h β θ k c) (β k c) := by
  have hL := Lam_ne hT hS hD hfx
  have he : ∀ g ∈ colsOf (Fz h β θ) β k c, entry h β θ g = gradDir (tables h β θ) (dirOf (tables h β θ) g) := by
    intro g hg
    obtain ⟨h1, h2⟩ := cols_kind h β θ k c hk g hg
    refine entry_eq hT hS hD hfx g (fun hi => ?_) h2
    obtain ⟨par, hp⟩ := h1 hi
    cases ht : h.base.tvdtpi with
    | false => rfl
    | true => exact absurd hp (htv ht par)
  have e : DM h β θ k c = gradDir (tables h β θ) (dirM h β θ k c) := by
    rw [gradDir_sum (isSumM h β θ k c hk), Fin.sum_univ_fun_getElem (colsOf (Fz h β θ) β k c) fun g =>
      gradDir (tables h β θ) (dirOf (tables h β θ) g)]
    unfold DM
    rw [List.map_congr_left he]
  rw [e]
  exact llk_derivM β θ k c hok hT (by omega) hc hL

/-! ### Parameters of the precision matrices -/

noncomputable def curveT (n : ℕ) : Curve where
  base := tables h β θ
  bs2 := fun x => (tables h β (Function.update θ n x)).bs2
  bs3 := fun x => (tables h β (Function.update θ n x)).bs3
  ds2 := fun x => (tables h β (Function.update θ n x)).ds2
  ds3 := fun x => (tables h β (Function.update θ n x)).ds3
  T2 := fun x => (tables h β (Function.update θ n x)).T2
  T3 := fun x => (tables h β (Function.update θ n x)).T3
  pi := fun x => (tables h β (Function.update θ n x)).pi

theorem curveT_at (n : ℕ) (x : ℝ) : (curveT h β θ n).at x = tables h β (Function.update θ n x) := rfl

theorem curveT_deriv (j : ℕ) (hj : h.mg j = true) (r c : Fin h.base.M) (hrc : r ≤ c) :
    HasTabDeriv (curveT h β θ (h.thOff j + MGauss.pos h.base.M r c)) (dirOf (tables h β θ) (thCol h β θ j r c))
      (θ (h.thOff j + MGauss.pos h.base.M r c)) := by
  set n := h.thOff j + MGauss.pos h.base.M r c with hn
  refine ⟨⟨rfl, rfl, rfl⟩, ?_, ?_, ?_, ?_, ?_⟩
  · intro _ t j' _
    rw [dirOf_bs2]
    show HasDerivAt (fun x => bsMg h β (Function.update θ n x) t j') (bsMg h β θ t j' * share t j' (thCol h β θ j r c)) _
    unfold bsMg
    cases hg : h.mg j' with
    | false =>
      simp only [Bool.false_eq_true, if_false]
      have hne : j ≠ j' := fun e => by rw [e, hg] at hj; cases hj
      have : share t j' (thCol h β θ j r c) = 0 := by simp [share, thCol, hne]
      rw [this, mul_zero]
      exact hasDerivAt_const _ _
    | true =>
      simp only [if_true]
      by_cases hjj : j = j'
      · subst hjj
        have h1 := (mgLp_theta h β θ j t r c hrc).exp
        rw [← hn] at h1
        simp only [Function.update_eq_self] at h1
        refine h1.congr_deriv ?_
        simp [share, thCol]
      · have : share t j' (thCol h β θ j r c) = 0 := by simp [share, thCol, hjj]
        rw [this, mul_zero]
        have e : ∀ x, mgLp h β (Function.update θ n x) j' t = mgLp h β θ j' t := fun x =>
          mgLp_congr h β θ _ j' t fun i hi => thSl_other h θ hj hg (Ne.symm hjj) _ (pos_lt_extra h r c hrc) x i hi
        simp only [e]
        exact hasDerivAt_const _ _
  · intro hm
    exact absurd hm (by simp [curveT, tables, HFam.tables])
  · intro d j' t _ _
    have : (dirOf (tables h β θ) (thCol h β θ j r c)).ds d j' t = 0 := by
      cases htv : (tables h β θ).tvdtpi <;> simp [Tables.ds, dirOf, thCol, htv]
    rw [this]
    exact hasDerivAt_const (θ n) ((tables h β θ).ds d j' t)
  · intro i j' t _ _ _
    have : (dirOf (tables h β θ) (thCol h β θ j r c)).T i j' t = 0 := by
      cases htv : (tables h β θ).tvdtpi <;> simp [Tables.T, dirOf, thCol, htv]
    rw [this]
    exact hasDerivAt_const (θ n) ((tables h β θ).T i j' t)
  · intro j' _
    have : (dirOf (tables h β θ) (thCol h β θ j r c)).pi j' = 0 := by simp [dirOf, thCol]
    rw [this]
    exact hasDerivAt_const _ _

variable {h β θ} in
theorem theta_derivative (hT : 0 < h.base.n_T) (hS : 2 ≤ h.base.n_S) (hD : 2 ≤ h.base.D) (hfx : FixOk h β θ)
    (j : ℕ) (hj : h.mg j = true) (r c : Fin h.base.M) (hrc : r ≤ c) :
    HasDerivAt (fun x => seriesLlk h β (Function.update θ (h.thOff j + MGauss.pos h.base.M r c) x)) (entry h β θ (thCol h β θ j r c))
      (θ (h.thOff j + MGauss.pos h.base.M r c)) := by
  rw [entry_eq hT hS hD hfx (thCol h β θ j r c) (fun hi => by cases hi) (fun _ => Or.inl rfl)]
  have h1 := llk_hasDerivAt_dir (curveT_deriv h β θ j hj r c hrc) hT (by
    intro s hs
    rw [curveT_at, Function.update_eq_self]
    exact Lam_ne hT hS hD hfx s hs)
  rw [curveT_at, Function.update_eq_self] at h1
  exact h1

/-! ### Layout -/

theorem mgCol_eq (j m par : ℕ) (k : Key) (c : ℕ) : mgCol h β θ j m par k c = emCol (Fz h β θ) β j m par k c := by
  unfold mgCol
  cases hg : h.mg j with
  | true =>
    rw [if_pos rfl]
    have e : (fun t => h.base.X k t c * RRy h β θ j m t) =
        fun t => ((Fz h β θ).obs j m).d1 t (emEta (Fz h β θ) β j m t) par * (Fz h β θ).X k t c := by
      funext t
      rw [obs_fz_mg h β θ hg]
      exact mul_comm _ _
    rw [e]
    rfl
  | false =>
    rw [if_neg (by simp)]
    unfold emCol
    congr 1
    funext t
    have : emEta (Fz h β θ) β j m t = emEta h.base β j m t := funext fun p => emEta_not h β θ hg β m t p
    rw [obs_fz_not h β θ hg, this]
    rfl

def emOf : Blk → Option (ℕ × ℕ × ℕ)
  | .em j m par => some (j, m, par)
  | .th _ _ _ => none

theorem blks_em : (blks h).filterMap emOf = emBlocks h.fm := by
  unfold blks emBlocks
  rw [List.filterMap_flatMap]
  refine List.flatMap_congr fun j _ => ?_
  unfold blksOf
  cases hg : h.mg j with
  | true =>
    rw [if_pos rfl, List.filterMap_append, List.filterMap_map, List.filterMap_map]
    have e1 : (emOf ∘ fun rc : ℕ × ℕ => Blk.th j rc.1 rc.2) = fun _ => none := rfl
    have e2 : (emOf ∘ fun m => Blk.em j m 0) = fun m => some (j, m, 0) := rfl
    rw [e1, e2, List.filterMap_none, List.append_nil, List.filterMap_eq_map']
    simp only [obs_fm_mg h hg, List.range_one, List.map_cons, List.map_nil]
    show _ = (List.range h.base.M).flatMap fun m => [(j, m, 0)]
    rw [List.map_eq_flatMap]
  | false =>
    rw [if_neg (by simp), List.filterMap_flatMap]
    refine List.flatMap_congr fun m _ => ?_
    rw [List.filterMap_map, obs_fm_not h hg]
    have e2 : (emOf ∘ fun par => Blk.em j m par) = fun par => some (j, m, par) := rfl
    rw [e2, List.filterMap_eq_map']

/-- Segment of a group of columns. -/
noncomputable def seg : Blk → Seg
  | .em j m par =>
    { own := (List.range (h.base.p (.em j m par))).map fun c => entry h β θ (mgCol h β θ j m par (.em j m par) c)
      sh := if par < h.base.n_shared then
          some (shKey h.base par m, (List.range (h.base.p (shKey h.base par m))).map fun c =>
            entry h β θ (mgCol h β θ j m par (shKey h.base par m) c))
        else none
      th := [] }
  | .th j r c => { own := [], sh := none, th := [entry h β θ (thCol h β θ j r c)] }

theorem colsB_map (b : Blk) : (colsB h β θ b).map (entry h β θ) = (seg h β θ b).all := by
  cases b with
  | em j m par =>
    unfold colsB seg Seg.all Seg.shl
    dsimp only
    rw [List.map_append, List.map_map, List.append_nil]
    split_ifs
    · rw [List.map_map]
      rfl
    · rfl
  | th j r c => rfl

theorem dupScan_eq (B : List Blk) : ∀ tot, dupScan h B tot = gdup (B.map (seg h β θ)) tot := by
  induction B with
  | nil => intro tot; rfl
  | cons b B ih =>
    intro tot
    rw [List.map_cons]
    cases b with
    | em j m par =>
      unfold dupScan gdup
      by_cases hs : par < h.base.n_shared
      · simp only [seg, hs, if_true, Seg.all, Seg.shl, Option.map_some, Option.getD_some, List.length_append, List.length_map,
          List.length_range, List.length_nil, Nat.add_zero]
        rw [ih]
        congr 2
        omega
      · simp only [seg, hs, if_false, Seg.all, Seg.shl, Option.map_none, Option.getD_none, List.length_append, List.length_map,
          List.length_range, List.length_nil, Nat.add_zero]
        exact ih _
    | th j r c =>
      unfold dupScan gdup
      simp only [seg, Seg.all, Seg.shl, Option.map_none, Option.getD_none, List.nil_append, List.length_cons, List.length_nil]
      exact ih _

theorem thScan_eq (B : List Blk) : ∀ tot, thScan h β θ B tot = gth (B.map (seg h β θ)) tot := by
  induction B with
  | nil => intro tot; rfl
  | cons b B ih =>
    intro tot
    have hl : ∀ b, (colsB h β θ b).length = (seg h β θ b).all.length := fun b => by rw [← colsB_map, List.length_map]
    rw [List.map_cons]
    cases b with
    | em j m par =>
      unfold thScan gth
      rw [hl, ih]
      simp [seg]
    | th j r c =>
      unfold thScan gth
      rw [hl, ih]
      simp [seg, Seg.shl]

theorem own_eq (B : List Blk) : (B.map (seg h β θ)).flatMap Seg.own =
    (B.filterMap emOf).flatMap fun b => (List.range (h.base.p (.em b.1 b.2.1 b.2.2))).map fun c =>
      entry h β θ (mgCol h β θ b.1 b.2.1 b.2.2 (.em b.1 b.2.1 b.2.2) c) := by
  induction B with
  | nil => rfl
  | cons b B ih =>
    cases b with
    | em j m par => rw [List.map_cons, List.flatMap_cons, ih]; rfl
    | th j r c => rw [List.map_cons, List.flatMap_cons, ih]; rfl

theorem sh_eq (hc : c < h.base.p k) (B : List Blk) :
    ((((B.map (seg h β θ)).filterMap Seg.sh).filter fun e => e.1 = k).map fun e => e.2.getD c 0).sum =
    (((B.filterMap emOf).filter fun b => b.2.2 < h.base.n_shared ∧ shKey h.base b.2.2 b.2.1 = k).map fun b =>
      entry h β θ (mgCol h β θ b.1 b.2.1 b.2.2 k c)).sum := by
  induction B with
  | nil => rfl
  | cons b B ih =>
    cases b with
    | th j r c' =>
      rw [List.map_cons, List.filterMap_cons_none (by rfl), List.filterMap_cons_none (by rfl)]
      exact ih
    | em j m par =>
      rw [List.map_cons, List.filterMap_cons_some (f := emOf) (b := (j, m, par)) (by rfl)]
      by_cases hs : par < h.base.n_shared
      · rw [List.filterMap_cons_some (b := (shKey h.base par m, (List.range (h.base.p (shKey h.base par m))).map fun c =>
            entry h β θ (mgCol h β θ j m par (shKey h.base par m) c))) (by simp [seg, hs])]
        by_cases hk : shKey h.base par m = k
        · rw [List.filter_cons_of_pos (by simpa using hk), List.filter_cons_of_pos (by simpa using ⟨hs, hk⟩), List.map_cons,
            List.map_cons, List.sum_cons, List.sum_cons, ih]
          congr 1
          dsimp only
          rw [hk, List.getD_eq_getElem?_getD, List.getElem?_map, List.getElem?_range hc]
          rfl
        · rw [List.filter_cons_of_neg (by simpa using hk), List.filter_cons_of_neg (by simpa using fun _ => hk)]
          exact ih
      · rw [List.filterMap_cons_none (by simp [seg, hs]), List.filter_cons_of_neg (by simpa using fun h1 => absurd h1 hs)]
        exact ih

/-- Entries of the parameters of the precision matrices, state by state. -/
noncomputable def thVals : List ℝ :=
  (List.range h.base.n_S).flatMap fun j =>
    if h.mg j then (MGauss.thetIdx h.base.M).map fun rc => entry h β θ (thCol h β θ j rc.1 rc.2) else []

theorem th_eq : ((blks h).map (seg h β θ)).flatMap Seg.th = thVals h β θ := by
  unfold blks thVals
  rw [List.flatMap_map, List.flatMap_assoc]
  refine List.flatMap_congr fun j _ => ?_
  unfold blksOf
  cases hg : h.mg j with
  | true =>
    rw [if_pos rfl, if_pos rfl, List.flatMap_append, List.flatMap_map, List.flatMap_map]
    have e1 : (List.range h.base.M).flatMap (fun m => (seg h β θ (Blk.em j m 0)).th) = [] := by
      rw [List.flatMap_eq_nil_iff]
      intro m _
      rfl
    rw [e1, List.nil_append]
    have e2 : (fun rc : ℕ × ℕ => (seg h β θ (Blk.th j rc.1 rc.2)).th) = fun rc => [entry h β θ (thCol h β θ j rc.1 rc.2)] := rfl
    rw [e2, ← List.map_eq_flatMap]
  | false =>
    rw [if_neg (by simp), if_neg (by simp), List.flatMap_eq_nil_iff]
    intro b hb
    simp only [List.mem_flatMap, List.mem_map] at hb
    obtain ⟨m, _, par, _, rfl⟩ := hb
    rfl

end Verif.HMg
