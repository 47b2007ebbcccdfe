import Verif.CompareModel
import Mathlib.Tactic.Linarith
import Mathlib.Tactic.NormNum
import Mathlib.Tactic.Ring

/-!
# Model comparison: theorems (property C39)
-/

namespace Verif.Compare

variable {vb : Settings → Mod → VB} {fcdf : ℝ → ℝ → ℝ → ℝ} {ccdf : ℝ → ℝ → ℝ} {fam : Fams} {u : Args} {m1 m2 : Mod}

/-- Effective degrees of freedom the AIC is to be based on: never the bias corrected `t1`. -/
def EdfIs (vb : Settings → Mod → VB) (correctV : Bool) (st : Settings) (m : Mod) (e : ℝ) : Prop :=
  (correctV = false ∧ e = m.edf) ∨ (correctV = true ∧ st.onlyExp = true ∧ (vb st m).expd = some e) ∨
    (correctV = true ∧ st.onlyExp = false ∧ (vb st m).edf = some e)

/-- Parameters besides the coefficients: scale and estimated theta. -/
def extra (fam : Fams) (m : Mod) : ℝ :=
  (if fam.twopar then 1 else 0) + (if fam.extended ∧ m.estTheta = true then (m.nTheta : ℝ) else 0)

/-- Both models treated alike where theta is concerned. -/
def ThetaAlike (fam : Fams) (m1 m2 : Mod) : Prop := fam.extended = true → m2.estTheta = true → m1.estTheta = true

theorem base_edf {st : Settings} {m : Mod} {b : Option ℝ × ℝ} (h : baseDof vb u st m = some b) :
    EdfIs vb u.correctV st m (b.1.getD b.2) := by
  unfold baseDof at h
  cases hV : u.correctV with
  | false =>
    rw [hV, if_neg (by simp)] at h
    cases hT : st.correctT1 with
    | false =>
      rw [hT, if_neg (by simp)] at h
      cases h
      exact Or.inl ⟨rfl, rfl⟩
    | true =>
      rw [hT, if_pos rfl] at h
      cases h
      exact Or.inl ⟨rfl, rfl⟩
  | true =>
    rw [hV, if_pos rfl] at h
    simp only at h
    refine Or.inr ?_
    have key : (if st.onlyExp then (vb st m).expd else (vb st m).edf) = some (b.1.getD b.2) := by
      cases hT : st.correctT1 with
      | false =>
        rw [hT, if_neg (by simp)] at h
        cases hd : (if st.onlyExp then (vb st m).expd else (vb st m).edf) with
        | none =>
          rw [hd] at h
          cases h
        | some t =>
          rw [hd] at h
          cases h
          rfl
      | true =>
        rw [hT, if_pos rfl] at h
        cases hd : (if st.onlyExp then (vb st m).expd else (vb st m).edf) with
        | none =>
          rw [hd] at h
          cases h
        | some t =>
          rw [hd] at h
          cases he : (vb st m).edf2 with
          | none =>
            rw [he] at h
            cases h
          | some t2 =>
            rw [he] at h
            cases h
            rfl
    cases hE : st.onlyExp with
    | true =>
      rw [hE, if_pos rfl] at key
      exact Or.inl ⟨rfl, rfl, key⟩
    | false =>
      rw [hE, if_neg (by simp)] at key
      exact Or.inr ⟨rfl, rfl, key⟩

/-- What scale and theta add, to both counts. -/
def added (fam : Fams) (m1 m : Mod) : ℝ :=
  (if fam.twopar then 1 else 0) + (if fam.extended ∧ m1.estTheta = true then (if m.estTheta then (m.nTheta : ℝ) else 0) else 0)

theorem add_eq (fam : Fams) (m1 m : Mod) (b : Option ℝ × ℝ) :
    (addTheta fam m1 m (addScale fam b)).2 = b.2 + added fam m1 m ∧
    (addTheta fam m1 m (addScale fam b)).1.getD (addTheta fam m1 m (addScale fam b)).2 = b.1.getD b.2 + added fam m1 m := by
  obtain ⟨o, d⟩ := b
  unfold addTheta addScale added
  by_cases ht : fam.twopar = true <;> by_cases hc : fam.extended ∧ m1.estTheta = true <;>
    by_cases hm : m.estTheta = true <;> cases o <;>
    simp only [ht, hc, hm, if_true, if_false, Option.map_some, Option.map_none, Option.getD_some, Option.getD_none,
      and_self, Bool.false_eq_true] <;> (try constructor) <;> ring

theorem added_eq_first (fam : Fams) (m : Mod) : added fam m m = extra fam m := by
  unfold added extra
  by_cases hc : fam.extended ∧ m.estTheta = true
  · rw [if_pos hc, if_pos hc, if_pos hc.2]
  · rw [if_neg hc, if_neg hc]

theorem added_eq_second (h : ThetaAlike fam m1 m2) : added fam m1 m2 = extra fam m2 := by
  unfold added extra
  by_cases hc : fam.extended ∧ m2.estTheta = true
  · have hc1 : fam.extended ∧ m1.estTheta = true := ⟨hc.1, h hc.1 hc.2⟩
    rw [if_pos hc1, if_pos hc.2, if_pos hc]
  · rw [if_neg hc]
    by_cases hc' : fam.extended ∧ m1.estTheta = true
    · rw [if_pos hc', if_neg (fun h2 => hc ⟨hc'.1, h2⟩)]
    · rw [if_neg hc']

/-- Unfolding of a run that does not raise. -/
theorem compare_some {r : Result} (h : compareCDL vb fcdf ccdf fam u m1 m2 = some r) :
    fam.same = true ∧ ¬ (u.glrt = true ∧ m1.nCoef < m2.nCoef) ∧ ∃ b1 b2, baseDof vb u (fill u m1) m1 = some b1 ∧
      baseDof vb u (fill u m1) m2 = some b2 ∧
      r.stat = 2 * (m1.llk - m2.llk) ∧ r.dof1 = b1.2 + added fam m1 m1 ∧ r.dof2 = b2.2 + added fam m1 m2 ∧
      r.resDof = r.dof1 - r.dof2 ∧ r.aic1 = -2 * m1.llk + 2 * (b1.1.getD b1.2 + added fam m1 m1) ∧
      r.aic2 = -2 * m2.llk + 2 * (b2.1.getD b2.2 + added fam m1 m2) ∧ r.aicDiff = r.aic1 - r.aic2 ∧
      ((u.glrt = false ∨ testStat m1 m2 r.dof1 r.dof2 < 0) → r.H1 = none ∧ r.p = none) ∧
      (¬ (u.glrt = false ∨ testStat m1 m2 r.dof1 r.dof2 < 0) →
        r.p = pval fcdf ccdf fam m1 m2 r.dof1 r.dof2 ∧ r.H1 = some (∃ q, r.p = some q ∧ q ≤ u.alpha)) := by
  unfold compareCDL at h
  simp only at h
  by_cases h1 : fam.same = false
  · rw [if_pos h1] at h
    cases h
  · rw [if_neg h1] at h
    by_cases h2 : u.glrt = true ∧ m1.nCoef < m2.nCoef
    · rw [if_pos h2] at h
      cases h
    · rw [if_neg h2] at h
      cases hb1 : baseDof vb u (fill u m1) m1 with
      | none =>
        rw [hb1] at h
        cases h
      | some b1 =>
        cases hb2 : baseDof vb u (fill u m1) m2 with
        | none =>
          rw [hb1, hb2] at h
          cases h
        | some b2 =>
          rw [hb1, hb2] at h
          simp only [Option.some.injEq] at h
          subst h
          refine ⟨by simpa using h1, h2, b1, b2, rfl, rfl, rfl, (add_eq fam m1 m1 b1).1, (add_eq fam m1 m2 b2).1, rfl, ?_, ?_, rfl, ?_, ?_⟩
          · simp only [(add_eq fam m1 m1 b1).2]
          · simp only [(add_eq fam m1 m2 b2).2]
          · intro hs
            simp only at hs ⊢
            rw [if_pos hs, if_pos hs]
            exact ⟨rfl, rfl⟩
          · intro hs
            simp only at hs ⊢
            rw [if_neg hs, if_neg hs]
            exact ⟨rfl, rfl⟩

/-- AIC difference from likelihoods and degrees of freedom, counted alike for both models. -/
theorem aic_partial {r : Result} (h : compareCDL vb fcdf ccdf fam u m1 m2 = some r) (ht : ThetaAlike fam m1 m2) :
    ∃ e1 e2, EdfIs vb u.correctV (fill u m1) m1 e1 ∧ EdfIs vb u.correctV (fill u m1) m2 e2 ∧
      r.aicDiff = -2 * (m1.llk - m2.llk) + 2 * ((e1 + extra fam m1) - (e2 + extra fam m2)) := by
  obtain ⟨-, -, b1, b2, hb1, hb2, -, -, -, -, ha1, ha2, had, -, -⟩ := compare_some h
  refine ⟨_, _, base_edf hb1, base_edf hb2, ?_⟩
  rw [had, ha1, ha2, added_eq_first, added_eq_second ht]
  ring

/-- Swapping the models changes the sign of statistic, AIC difference and difference in degrees of freedom. -/
theorem swap_partial {r : Result} (h : compareCDL vb fcdf ccdf fam u m1 m2 = some r) (hg : u.glrt = false)
    (hf : fill u m1 = fill u m2) (ht : fam.extended = true → m1.estTheta = m2.estTheta) :
    ∃ r', compareCDL vb fcdf ccdf fam u m2 m1 = some r' ∧ r'.stat = -r.stat ∧ r'.aicDiff = -r.aicDiff ∧
      r'.resDof = -r.resDof ∧ r'.dof1 = r.dof2 ∧ r'.dof2 = r.dof1 := by
  obtain ⟨hsame, -, b1, b2, hb1, hb2, hst, hd1, hd2, hrd, ha1, ha2, had, -, -⟩ := compare_some h
  have hex : ∃ r', compareCDL vb fcdf ccdf fam u m2 m1 = some r' := by
    unfold compareCDL
    simp only
    rw [if_neg (by rw [hsame]; simp), if_neg (by rw [hg]; simp), ← hf, hb1, hb2]
    exact ⟨_, rfl⟩
  obtain ⟨r', h'⟩ := hex
  obtain ⟨-, -, c1, c2, hc1, hc2, hst', hd1', hd2', hrd', ha1', ha2', had', -, -⟩ := compare_some h'
  rw [← hf, hb2] at hc1
  rw [← hf, hb1] at hc2
  cases hc1
  cases hc2
  have t12 : ThetaAlike fam m1 m2 := fun he hm => by rw [ht he]; exact hm
  have t21 : ThetaAlike fam m2 m1 := fun he hm => by rw [← ht he]; exact hm
  rw [added_eq_second t12] at hd2 ha2
  rw [added_eq_second t21] at hd2' ha2'
  rw [added_eq_first] at hd1 ha1 hd1' ha1'
  refine ⟨r', h', by rw [hst, hst']; ring, by rw [had, had', ha1, ha2, ha1', ha2']; ring, by rw [hrd, hrd', hd1, hd2, hd1', hd2']; ring,
    by rw [hd1', hd2], by rw [hd2', hd1]⟩

/-- A decision is made exactly when the test was asked for and the larger model is not the worse one; it is
a rejection exactly when the p-value is at most alpha. -/
theorem decision {r : Result} (h : compareCDL vb fcdf ccdf fam u m1 m2 = some r) :
    (r.H1 = none ↔ u.glrt = false ∨ (m1.llk < m2.llk ∧ r.dof2 ≤ r.dof1)) ∧
    (∀ P, r.H1 = some P → (P ↔ ∃ q, r.p = some q ∧ q ≤ u.alpha)) := by
  obtain ⟨-, -, b1, b2, -, -, -, -, -, -, -, -, -, hn, hs⟩ := compare_some h
  have hcond : (u.glrt = false ∨ testStat m1 m2 r.dof1 r.dof2 < 0) ↔ u.glrt = false ∨ (m1.llk < m2.llk ∧ r.dof2 ≤ r.dof1) := by
    refine or_congr Iff.rfl ?_
    unfold testStat
    by_cases hc : m1.llk < m2.llk ∧ r.dof1 < r.dof2
    · rw [if_pos hc]
      constructor
      · intro hlt
        have := hc.1
        linarith
      · intro hlt
        exact absurd hc.2 (not_lt.2 hlt.2)
    · rw [if_neg hc]
      constructor
      · intro hlt
        have hl : m1.llk < m2.llk := by linarith
        exact ⟨hl, not_lt.1 fun hd => hc ⟨hl, hd⟩⟩
      · intro hlt
        linarith [hlt.1]
  by_cases hsk : u.glrt = false ∨ testStat m1 m2 r.dof1 r.dof2 < 0
  · refine ⟨iff_of_true (hn hsk).1 (hcond.1 hsk), fun P hP => ?_⟩
    rw [(hn hsk).1] at hP
    cases hP
  · refine ⟨iff_of_false (by rw [(hs hsk).2]; simp) (fun hh => hsk (hcond.2 hh)), fun P hP => ?_⟩
    rw [(hs hsk).2] at hP
    cases hP
    rfl

/-- The p-value is the upper tail of the absolute statistic at the absolute difference in degrees of freedom. -/
theorem p_value {r : Result} {P : Prop} (h : compareCDL vb fcdf ccdf fam u m1 m2 = some r) (hd : r.H1 = some P) (hne : r.dof1 ≠ r.dof2) :
    (fam.twopar = false → r.p = some (1 - ccdf |r.stat| |r.resDof|)) ∧
    (fam.twopar = true → r.p = some (1 - fcdf (|r.stat| / |r.resDof|) |r.resDof| ((m1.nObs : ℝ) - max r.dof1 r.dof2))) := by
  obtain ⟨-, -, b1, b2, -, -, hst, -, -, hrd, -, -, -, hn, hs⟩ := compare_some h
  by_cases hsk : u.glrt = false ∨ testStat m1 m2 r.dof1 r.dof2 < 0
  · rw [(hn hsk).1] at hd
    cases hd
  · have habs : testStat m1 m2 r.dof1 r.dof2 = |r.stat| := by
      have h0 : 0 ≤ testStat m1 m2 r.dof1 r.dof2 := not_lt.1 fun hh => hsk (Or.inr hh)
      rw [hst, ← abs_of_nonneg h0]
      unfold testStat
      by_cases hc : m1.llk < m2.llk ∧ r.dof1 < r.dof2
      · rw [if_pos hc, neg_one_mul, abs_neg]
      · rw [if_neg hc]
    have hz : ¬ |r.dof1 - r.dof2| = 0 := by
      rw [abs_eq_zero, sub_eq_zero]
      exact hne
    rw [(hs hsk).1]
    unfold pval
    rw [if_neg hz, habs, ← hrd]
    constructor
    · intro ht
      rw [if_neg (by rw [ht]; simp)]
    · intro ht
      rw [if_pos ht]

/-! ## Where the statement fails -/

/-- Plain arguments: no correction, no test. -/
noncomputable def uEx : Args := ⟨false, none, false, 1, 1 / 20, none, none, none, none, none⟩

/-- A model with given likelihood, theta estimated or not. -/
def mEx (llk : ℝ) (est : Bool) : Mod := ⟨llk, 3, 4, 10, 100, false, est, 2⟩

def famT : Fams := ⟨true, false, true⟩

/-- Theta of the second model is not counted when theta of the first model was fixed: the AIC difference does not change
sign when the models are swapped. -/
theorem theta_not_counted : ∃ r r', compareCDL vb fcdf ccdf famT uEx (mEx 0 false) (mEx 0 true) = some r ∧
    compareCDL vb fcdf ccdf famT uEx (mEx 0 true) (mEx 0 false) = some r' ∧ r.aicDiff = 0 ∧ r'.aicDiff = 4 := by
  refine ⟨_, _, rfl, rfl, ?_, ?_⟩
  · simp [addTheta, addScale, famT, mEx]
  · simp [addTheta, addScale, famT, mEx]
    norm_num

/-- Arguments with the correction for uncertainty in the smoothing parameters, all else automatic. -/
noncomputable def uV : Args := ⟨true, none, false, 1, 1 / 20, none, none, none, none, none⟩

def famN : Fams := ⟨true, false, false⟩

/-- A correction that is larger when the second correction term is computed. -/
noncomputable def vbEx : Settings → Mod → VB := fun st m => ⟨some (if st.computeVcc then m.edf + m.edf / 10 else m.edf), some 5, none⟩

/-- The automatic settings are read from the first model: swapping a large and a small model changes more than the sign. -/
theorem settings_from_first : ∃ r r',
    compareCDL vbEx fcdf ccdf famN uV ⟨0, 100, 0, 2001, 9000, false, false, 0⟩ ⟨0, 10, 0, 20, 9000, false, false, 0⟩ = some r ∧
    compareCDL vbEx fcdf ccdf famN uV ⟨0, 10, 0, 20, 9000, false, false, 0⟩ ⟨0, 100, 0, 2001, 9000, false, false, 0⟩ = some r' ∧
    r.aicDiff ≠ -r'.aicDiff := by
  refine ⟨_, _, rfl, rfl, ?_⟩
  simp [addTheta, addScale, famN, vbEx, fill, fillGrid, uV]
  norm_num

/-- Asking for expected degrees of freedom only, together with the bias correction or the first grid type, raises:
`correct_VB` leaves the value used unset (utils.py 4556-4567, 4650-4652). -/
theorem only_expected_raises (hv : ∀ st m, st.onlyExp = true → (st.grid = .JJJ1 → (vb st m).expd = none) ∧ (st.grid ≠ .JJJ1 → (vb st m).edf2 = none))
    (hV : u.correctV = true) (ho : u.onlyExp = some true) (hc : u.correctT1 = some true ∨ u.grid = some .JJJ1) :
    compareCDL vb fcdf ccdf fam u m1 m2 = none := by
  have hso : (fill u m1).onlyExp = true := by simp [fill, ho]
  have hb : baseDof vb u (fill u m1) m1 = none := by
    unfold baseDof
    rw [hV, if_pos rfl]
    simp only
    rw [hso, if_pos rfl]
    rcases eq_or_ne (fill u m1).grid .JJJ1 with hg | hg
    · rw [(hv _ _ hso).1 hg]
      cases (fill u m1).correctT1 <;> rfl
    · rcases hc with hc | hc
      · have ht : (fill u m1).correctT1 = true := by simp [fill, hc]
        rw [ht, if_pos rfl, (hv _ _ hso).2 hg]
        cases (vb (fill u m1) m1).expd <;> rfl
      · exact absurd (by simp [fill, fillGrid, hc]) hg
  unfold compareCDL
  simp only
  rw [hb]
  by_cases h1 : fam.same = false
  · rw [if_pos h1]
  · rw [if_neg h1]
    by_cases h2 : u.glrt = true ∧ m1.nCoef < m2.nCoef
    · rw [if_pos h2]
    · rw [if_neg h2]

/-! ## Concrete cases -/

/-- A test: more coefficients, larger likelihood. -/
noncomputable def uG : Args := ⟨false, none, true, 1, 1 / 20, none, none, none, none, none⟩

example : ∃ r, compareCDL vb fcdf ccdf famN uG ⟨-10, 5, 6, 12, 100, false, false, 0⟩ ⟨-14, 3, 4, 10, 100, false, false, 0⟩ = some r ∧
    r.H1 ≠ none ∧ r.dof1 ≠ r.dof2 ∧ r.stat = 8 ∧ r.aicDiff = -4 := by
  refine ⟨_, rfl, ?_, ?_, ?_, ?_⟩
  · simp [testStat, addTheta, addScale, famN, uG]
    norm_num
  · simp [addTheta, addScale, famN]
  · norm_num
  · simp [addTheta, addScale, famN]
    norm_num

example : ∃ r, compareCDL vb fcdf ccdf famT uEx (mEx (-3) true) (mEx (-5) true) = some r ∧ ThetaAlike famT (mEx (-3) true) (mEx (-5) true) ∧
    fill uEx (mEx (-3) true) = fill uEx (mEx (-5) true) := ⟨_, rfl, fun _ _ => rfl, rfl⟩

end Verif.Compare
