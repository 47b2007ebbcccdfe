import Verif.FitModel

/-!
# What a fitted model reports (property C89)
-/

namespace Verif.Fit

open Matrix

variable {F : Form} {fam : Family F.start.length} {build : List (Pen F.p)} {solve : In F → List (Pen F.p) × Option (Out F)}
  {comp : State F → List ℝ}

/-- Everything a user can read off a model: log-likelihoods, residuals, model matrix, estimates, degrees of freedom. -/
structure SameReports (fam : Family F.start.length) (comp : State F → List ℝ) (s t : State F) : Prop where
  llk : ∀ b ext, getLlk fam s b ext = getLlk fam t b ext
  resid : ∀ k, getResid fam s k = getResid fam t k
  mmat : getMmat s = getMmat t
  coef : s.coef = t.coef
  preds : s.preds = t.preds
  hessian : s.hessian = t.hessian
  scale : s.scale = t.scale
  pens : s.pens = t.pens
  edf : s.edf = t.edf
  termEdf : s.termEdf = t.termEdf

/-- `comp` looks only at the coefficients' estimates. -/
def ReadsEstimates (comp : State F → List ℝ) : Prop :=
  ∀ s t : State F, s.coef = t.coef → s.hessian = t.hessian → s.scale = t.scale → s.pens = t.pens → comp s = comp t

/-- The model was never given `rho`, `transform_X`, and its degrees of freedom were never corrected. -/
def Plain : Op F → Prop
  | .fit a => a.rho = none ∧ a.transform = none
  | .test b => b = false

structure Clean (s : State F) : Prop where
  rho : s.rho = none
  tr : s.transform = none
  e1 : s.edf1 = none

theorem clean_op {s : State F} (h : Clean s) : ∀ o : Op F, Plain o → Clean (op fam build solve comp s o)
  | .fit a, hp => by
    obtain ⟨h1, h2⟩ := hp
    show Clean (fit fam build solve s a).1
    unfold fit
    cases hq : pens build s a with
    | none => dsimp only; split <;> exact h
    | some ps =>
      dsimp only
      have hb : Clean (begin s a (solve (input fam a ps)).1) := ⟨by simp [begin, h1, h.rho], by simp [begin, h2, h.tr], h.e1⟩
      cases hs : (solve (input fam a ps)).2 with
      | none => exact hb
      | some o => exact ⟨hb.rho, hb.tr, hb.e1⟩
  | .test b, hp => by
    have hb : b = false := hp
    subst hb
    exact h

theorem clean_run (ops : List (Op F)) (h : ∀ o ∈ ops, Plain o) : Clean (run fam build solve comp ops) := by
  have : ∀ (ops : List (Op F)) (s : State F), Clean s → (∀ o ∈ ops, Plain o) → Clean (ops.foldl (op fam build solve comp) s) := by
    intro ops
    induction ops with
    | nil => intro s hs _; exact hs
    | cons o l ih =>
      intro s hs hl
      exact ih _ (clean_op hs o (hl o (by simp))) fun o ho => hl o (by simp [ho])
  exact this ops _ ⟨rfl, rfl, rfl⟩ h

/-- **C89, partial.** After any sequence of calls without `rho`, `transform_X` and corrected degrees of freedom, `fit`
without `restart` fails or succeeds as for a new model, and afterwards the model reports what a new model reports after this call
alone. Missing: earlier calls with `rho` or
`transform_X` and earlier tests, see `refit_rho_wrong`, `refit_transform_wrong`, `refit_edf_wrong`. -/
theorem refit_partial (ops : List (Op F)) (hops : ∀ o ∈ ops, Plain o) (a : Args F) (ha : a.restart = false) (hc : ReadsEstimates comp)
    {s : State F} {e : Option Err} (hs : fit fam build solve (run fam build solve comp ops) a = (s, e)) :
    ∃ t, fit fam build solve (new F) a = (t, e) ∧
      (e = none → SameReports fam comp s t ∧ ∀ b, (testEdf comp b s).2 = (testEdf comp b t).2) := by
  have hcl : Clean (run fam build solve comp ops) := clean_run ops hops
  obtain ⟨r, hr⟩ : ∃ r, r = run fam build solve comp ops := ⟨_, rfl⟩
  rw [← hr] at hcl hs
  unfold fit pens at hs ⊢
  simp only [ha, Bool.false_eq_true, if_false] at hs ⊢
  cases hso : (solve (input fam a build)).2 with
  | none =>
    rw [hso] at hs
    simp only [Prod.mk.injEq] at hs
    exact ⟨_, by rw [hs.2], fun h => absurd (hs.2.trans h) (by simp)⟩
  | some o =>
    rw [hso] at hs
    simp only [Prod.mk.injEq] at hs
    obtain ⟨hs, he⟩ := hs
    obtain ⟨t, ht⟩ : ∃ t, finish fam a (input fam a build) o (begin (new F) a (solve (input fam a build)).1) = t := ⟨_, rfl⟩
    refine ⟨t, by rw [← he, ← ht], fun _ => ?_⟩
    have e0 : s.edf1 = none := by rw [← hs]; exact hcl.e1
    have e1 : t.edf1 = none := by rw [← ht]; rfl
    have hrho : s.rho = t.rho := by rw [← hs, ← ht]; simp only [finish, begin, hcl.rho]; rfl
    have htr : s.transform = t.transform := by rw [← hs, ← ht]; simp only [finish, begin, hcl.tr]; rfl
    have hpr : s.preds = t.preds := by rw [← hs, ← ht]; rfl
    have hres : s.res = t.res := by rw [← hs, ← ht]; rfl
    have hsc : s.scale = t.scale := by rw [← hs, ← ht]; rfl
    have hpen : s.penalty = t.penalty := by rw [← hs, ← ht]; rfl
    have hco : s.coef = t.coef := by rw [← hs, ← ht]; rfl
    have hhe : s.hessian = t.hessian := by rw [← hs, ← ht]; rfl
    have hps : s.pens = t.pens := by rw [← hs, ← ht]; rfl
    have hedf : s.edf = t.edf := by rw [← hs, ← ht]; rfl
    have hte : s.termEdf = t.termEdf := by rw [← hs, ← ht]; rfl
    have har : s.rho = none ∨ s.resAr = t.resAr := by
      cases hra : a.rho with
      | none => left; rw [← hs]; simp [finish, begin, hra, hcl.rho]
      | some q => right; rw [← hs, ← ht]; simp [finish, hra]
    refine ⟨⟨fun b ext => ?_, fun k => ?_, ?_, hco, hpr, hhe, hsc, hps, hedf, hte⟩, fun b => ?_⟩
    · unfold getLlk
      rw [hpen, hpr, hsc, ← hrho]
      rcases har with h | h
      · rw [h]
        cases t.preds <;> rfl
      · rw [h]
    · unfold getResid
      rw [hres, hpr, ← hrho]
      rcases har with h | h
      · rw [h]
        cases t.res <;> cases t.preds <;> cases k <;> rfl
      · rw [h]
    · unfold getMmat
      rw [htr]
    · unfold testEdf biasEdf
      rw [e0, e1, hte]
      cases b
      · rfl
      · show some (comp s) = some (comp t)
        rw [hc s t hco hhe hsc hps]

theorem fit_ok {s s' : State F} {c : Args F} (h : fit fam build solve s c = (s', none)) :
    ∃ ps o i, pens build s c = some ps ∧ i = input fam c ps ∧ s' = finish fam c i o (begin s c (solve i).1) := by
  unfold fit at h
  cases hp : pens build s c with
  | none => rw [hp] at h; dsimp only at h; split at h <;> simp at h
  | some ps =>
    rw [hp] at h
    dsimp only at h
    cases hso : (solve (input fam c ps)).2 with
    | none => rw [hso] at h; simp at h
    | some o =>
      rw [hso] at h
      simp only [Prod.mk.injEq, and_true] at h
      exact ⟨_, _, _, rfl, rfl, h.symm⟩

/-- **C89, what fails (1).** Gaussian model: a fit with `rho` followed by one without. The log-likelihood is that of the residuals of
the first fit with its correction; residuals of the first fit are reported as those of the autoregressive model where a new model
raises an exception. -/
theorem refit_rho_wrong (hg : fam.gaussId = true) (h2 : fam.twopar = true) (s0 s1 s2 t : State F) (a b : Args F) (r : ℝ)
    (ha : a.rho = some r) (hb : b.rho = none) (h1 : fit fam build solve s0 a = (s1, none))
    (hs2 : fit fam build solve s1 b = (s2, none)) (ht : fit fam build solve (new F) b = (t, none)) :
    ∃ v eta, s1.resAr = some v ∧ t.preds = some eta ∧
      getLlk fam s2 false none = .ok (some (fam.llk v 0 s2.scale + Ar1.llc r F.start)) ∧
      getLlk fam t false none = .ok (some (fam.llk F.y eta t.scale)) ∧
      getResid fam s2 .ar1 = getResid fam s1 .ar1 ∧ getResid fam s2 .ar1 = .ok (some v) ∧
      getResid fam t .ar1 = .error .value := by
  obtain ⟨p1, o1, i1, -, -, e1⟩ := fit_ok h1
  obtain ⟨p2, o2, i2, -, -, e2⟩ := fit_ok hs2
  obtain ⟨p3, o3, i3, -, -, e3⟩ := fit_ok ht
  have v1 : s1.resAr = some o1.resAr := by rw [e1]; simp [finish, ha]
  have r1 : s1.rho = some r := by rw [e1]; simp [finish, begin, ha]
  have q1 : ∃ x y, s1.res = some x ∧ s1.preds = some y := by rw [e1]; exact ⟨_, _, rfl, rfl⟩
  have v2 : s2.resAr = some o1.resAr := by rw [e2, ← v1]; simp [finish, hb, begin]
  have r2 : s2.rho = some r := by rw [e2, ← r1]; simp [finish, hb, begin]
  have q2 : ∃ x y, s2.res = some x ∧ s2.preds = some y := by rw [e2]; exact ⟨_, _, rfl, rfl⟩
  have r3 : t.rho = none := by rw [e3]; simp [finish, begin, hb, new]
  have q3 : ∃ x y, t.res = some x ∧ t.preds = some y := by rw [e3]; exact ⟨_, _, rfl, rfl⟩
  obtain ⟨x1, y1, hx1, hy1⟩ := q1
  obtain ⟨x2, y2, hx2, hy2⟩ := q2
  obtain ⟨x3, y3, hx3, hy3⟩ := q3
  refine ⟨o1.resAr, y3, v1, hy3, ?_, ?_, ?_, ?_, ?_⟩
  · simp [getLlk, hy2, r2, v2, hg, h2]
  · simp [getLlk, hy3, r3, hg, h2]
  · simp [getResid, hx1, hy1, hx2, hy2, r1, r2, v1, v2]
  · simp [getResid, hx2, hy2, r2, v2]
  · simp [getResid, hx3, hy3, r3]

/-- **C89, what fails (2).** A fit with `transform_X` followed by one without: the model is estimated from the model matrix as it is, but
`get_mmat` returns the transformed one. -/
theorem refit_transform_wrong (s0 s1 s2 t : State F) (a b : Args F) (f : MMat F → MMat F) (ha : a.transform = some f)
    (hb : b.transform = none) (h1 : fit fam build solve s0 a = (s1, none)) (hs2 : fit fam build solve s1 b = (s2, none))
    (ht : fit fam build solve (new F) b = (t, none)) :
    getMmat s2 = f F.X ∧ getMmat t = F.X ∧ ∀ ps, (input fam b ps).X = F.X := by
  obtain ⟨p1, o1, i1, -, -, e1⟩ := fit_ok h1
  obtain ⟨p2, o2, i2, -, -, e2⟩ := fit_ok hs2
  obtain ⟨p3, o3, i3, -, -, e3⟩ := fit_ok ht
  have r1 : s1.transform = some f := by rw [e1]; simp [finish, begin, ha]
  have r2 : s2.transform = some f := by rw [e2, ← r1]; simp [finish, hb, begin]
  have r3 : t.transform = none := by rw [e3]; simp [finish, begin, hb, new]
  refine ⟨by simp [getMmat, r2], by simp [getMmat, r3], fun ps => by simp [input, hb]⟩

/-- Without correction a test uses the degrees of freedom the solver returned in the last fit, whatever was tested before; with
correction and without an earlier test it uses those computed for the model as it is. -/
theorem test_edf (s s' : State F) (a : Args F) (ps : List (Pen F.p)) (o : Out F) (hp : pens build s a = some ps)
    (ho : (solve (input fam a ps)).2 = some o) (hf : fit fam build solve s a = (s', none)) (tests : List Bool) :
    (testEdf comp false (tests.foldl (fun q b => (testEdf comp b q).1) s')).2 = some o.termEdf ∧
      (s.edf1 = none → (testEdf comp true s').2 = some (comp s')) := by
  have hs : s' = finish fam a (input fam a ps) o (begin s a (solve (input fam a ps)).1) := by
    have := congrArg Prod.fst hf
    simp only [fit, hp, ho] at this
    exact this.symm
  have key : ∀ (l : List Bool) (q : State F), (l.foldl (fun q b => (testEdf comp b q).1) q).termEdf = q.termEdf := by
    intro l
    induction l with
    | nil => intro q; rfl
    | cons b l ih =>
      intro q
      rw [List.foldl_cons, ih]
      cases b
      · rfl
      · cases h : q.edf1 <;> simp [testEdf, biasEdf, h]
  refine ⟨?_, fun h => ?_⟩
  · show (tests.foldl (fun q b => (testEdf comp b q).1) s').termEdf = _
    rw [key, hs]; rfl
  · have : s'.edf1 = none := by rw [hs]; exact h
    simp [testEdf, biasEdf, this]

/-- **C89, what fails (3).** Tests of smooth terms after one fit, then another fit and tests: the degrees of freedom used are those of
the first fit. -/
theorem refit_edf_wrong (s0 s2 : State F) (h0 : s0.edf1 = none) (b : Args F)
    (hs2 : fit fam build solve (testEdf comp true s0).1 b = (s2, none)) :
    (testEdf comp true s2).2 = some (comp s0) := by
  obtain ⟨p2, o2, i2, -, -, e2⟩ := fit_ok hs2
  have r1 : (testEdf comp true s0).1.edf1 = some (comp s0) := by simp [testEdf, biasEdf, h0]
  have r2 : s2.edf1 = some (comp s0) := by rw [e2, ← r1]; rfl
  simp [testEdf, biasEdf, r2]

/-- **C89.** With `restart` the estimation begins at the penalties the last fit ended with; without it at new ones. -/
theorem restart_pens (s0 s1 s2 : State F) (a b : Args F) (h1 : fit fam build solve s0 a = (s1, none))
    (h2 : fit fam build solve s1 b = (s2, none)) :
    ∃ i1 i2, s1.pens = some (solve i1).1 ∧ s2.pens = some (solve i2).1 ∧ i2 = input fam b i2.pens ∧
      i2.pens = if b.restart then (solve i1).1 else build := by
  obtain ⟨p1, o1, i1, -, -, e1⟩ := fit_ok h1
  obtain ⟨p2, o2, i2, hp, hi, e2⟩ := fit_ok h2
  have q1 : s1.pens = some (solve i1).1 := by rw [e1]; rfl
  have hip : i2.pens = p2 := by rw [hi]; rfl
  refine ⟨i1, i2, q1, by rw [e2]; rfl, by rw [hip]; exact hi, ?_⟩
  rw [hip]
  unfold pens at hp
  rw [q1] at hp
  cases hb : b.restart <;> rw [hb] at hp <;> simpa using hp.symm

/-- **C89, what fails (4).** `fit(restart=True)` of a new model: the intended exception is raised only if `max_inner` or `rho` is
given. -/
theorem restart_new (a : Args F) (ha : a.restart = true) :
    (fit fam build solve (new F) a).2 = some (if a.maxInner = none ∧ a.rho = none then .type else .value) ∧
      (fit fam build solve (new F) a).1 = new F := by
  have hp : pens build (new F) a = none := by simp [pens, ha, new]
  unfold fit
  rw [hp]
  cases h1 : a.maxInner <;> cases h2 : a.rho <;> simp

/-- **C89.** Models with `rho` or without penalties are estimated with one inner iteration whatever the user asks for, unless zero. -/
theorem maxInner_one (a : Args F) (ps : List (Pen F.p)) (h : a.rho.isSome ∨ ps = []) (h0 : a.maxInner ≠ some 0) :
    (input fam a ps).maxInner = 1 := by
  show maxInner a ps.length = 1
  have hm : ∀ m, a.maxInner = some m → m ≠ 0 := fun m hm h => h0 (by rw [hm, h])
  unfold maxInner
  cases h1 : a.maxInner with
  | none => rcases h with h | h <;> simp [h]
  | some m =>
    have := hm m h1
    rcases h with h | h
    · simp only [Option.getD_some, h, and_true]
      by_cases hm1 : 1 < m
      · simp [hm1]
      · simp only [if_neg hm1, hm1, false_and, if_false]
        omega
    · subst h
      simp only [Option.getD_some, List.length_nil, and_true]
      split_ifs <;> first | rfl | omega

/-! ### Cases meeting the hypotheses -/

/-- One series of two observations with a single mean. -/
noncomputable def demo : Form := ⟨[true, false], 1, ![1, 3], Matrix.of fun _ _ => 1⟩

noncomputable def demoFam : Family demo.start.length :=
  ⟨true, true, id, fun y mu φ => Ar1.gaussLlk (y - mu) φ, fun _ _ => 0, fun y mu => (y - mu) ^ 2⟩

/-- A solver for the unpenalised model with one coefficient: generalised least squares. -/
noncomputable def demoSolve (i : In demo) : List (Pen demo.p) × Option (Out demo) :=
  let X := match i.L with | some L => Lᵀ * i.X | none => i.X
  let y := match i.L with | some L => Lᵀ *ᵥ i.y | none => i.y
  let c : Fin 1 → ℝ := fun _ => (∑ k : Fin 2, X k (0 : Fin 1) * y k) / ∑ k : Fin 2, X k (0 : Fin 1) ^ 2
  (i.pens, some ⟨c, X *ᵥ c, y - X *ᵥ c, y - X *ᵥ c, 1, 1, 1, 1, [], 0, []⟩)

noncomputable def demoArgs (rho : Option ℝ) : Args demo := ⟨false, none, none, rho, none⟩

/-- After a fit and three tests the uncorrected degrees of freedom are those of the fit (`test_edf`). -/
example (comp : State demo → List ℝ) : ∃ s' o, fit demoFam [] demoSolve (new demo) (demoArgs none) = (s', none) ∧
    (demoSolve (input demoFam (demoArgs none) [])).2 = some o ∧
    (testEdf comp false ([true, false, true].foldl (fun q b => (testEdf comp b q).1) s')).2 = some o.termEdf := by
  obtain ⟨s', e⟩ : ∃ s', fit demoFam [] demoSolve (new demo) (demoArgs none) = (s', none) := ⟨_, rfl⟩
  obtain ⟨o, ho⟩ : ∃ o, (demoSolve (input demoFam (demoArgs none) [])).2 = some o := ⟨_, rfl⟩
  exact ⟨s', o, e, ho, (test_edf _ _ _ [] o rfl ho e _).1⟩

theorem demo_W (i j : Fin 2) : Ar1.W (1 / 2) [true, false] i j = (![![1, 0], ![-1 / √3, 2 / √3]] : Fin 2 → Fin 2 → ℝ) i j := by
  have h34 : √(1 - (1 / 2 : ℝ) ^ 2) = √3 / 2 := by
    rw [show (1 - (1 / 2 : ℝ) ^ 2) = 3 / 2 ^ 2 by norm_num, Real.sqrt_div (by norm_num), Real.sqrt_sq (by norm_num)]
  have h3 : √(3 : ℝ) ≠ 0 := by positivity
  have m0 : (0 : ℕ) ∈ Ar1.sid0 [true, false] := by decide
  have m1 : (1 : ℕ) ∉ Ar1.sid0 [true, false] := by decide
  have m2 : (0 : ℕ) ∉ Ar1.sid1 [true, false] := by decide
  fin_cases i <;> fin_cases j
  · show Ar1.Lrhoi (1 / 2) [true, false] 0 0 = 1
    simp [Ar1.Lrhoi, Ar1.d0, m0]
  · show Ar1.Lrhoi (1 / 2) [true, false] 1 0 = 0
    simp [Ar1.Lrhoi]
  · show Ar1.Lrhoi (1 / 2) [true, false] 0 1 = -1 / √3
    simp only [Ar1.Lrhoi, Ar1.d1, if_neg m2]
    rw [h34]
    norm_num
    field_simp
  · show Ar1.Lrhoi (1 / 2) [true, false] 1 1 = 2 / √3
    simp only [Ar1.Lrhoi, Ar1.d0, if_neg m1, if_true]
    rw [h34]
    field_simp

/-- Residuals of the fit with `rho = 1/2`. -/
theorem demo_ar : ∃ o, (demoSolve (input demoFam (demoArgs (some (1 / 2))) [])).2 = some o ∧ ∀ k : Fin 2, o.resAr k = (![-1, √3] : Fin 2 → ℝ) k := by
  refine ⟨_, rfl, fun k => ?_⟩
  obtain ⟨W, hW⟩ : ∃ W : Matrix (Fin 2) (Fin 2) ℝ, W = Ar1.W (1 / 2) [true, false] := ⟨_, rfl⟩
  have hX : ∀ k : Fin 2, ((Wᵀ)ᵀ * (Matrix.of fun _ _ => 1 : Matrix (Fin 2) (Fin 1) ℝ)) k 0 = (![1, 1 / √3] : Fin 2 → ℝ) k := by
    intro k
    rw [Matrix.transpose_transpose, Matrix.mul_apply, Fin.sum_univ_two, hW, demo_W k 0, demo_W k 1]
    fin_cases k <;> simp <;> ring
  have hy : ∀ k : Fin 2, ((Wᵀ)ᵀ *ᵥ (![1, 3] - 0)) k = (![1, 5 / √3] : Fin 2 → ℝ) k := by
    intro k
    rw [Matrix.transpose_transpose]
    show ∑ j : Fin 2, W k j * _ = _
    rw [Fin.sum_univ_two, hW, demo_W k 0, demo_W k 1]
    fin_cases k <;> simp <;> ring
  have h3 : √(3 : ℝ) ^ 2 = 3 := Real.sq_sqrt (by norm_num)
  have hp : (0 : ℝ) < √3 := by positivity
  have key : ((Wᵀ)ᵀ *ᵥ (![1, 3] - 0) - ((Wᵀ)ᵀ * (Matrix.of fun _ _ => 1 : Matrix (Fin 2) (Fin 1) ℝ)) *ᵥ
      fun _ => (∑ k : Fin 2, ((Wᵀ)ᵀ * (Matrix.of fun _ _ => 1 : Matrix (Fin 2) (Fin 1) ℝ)) k 0 * ((Wᵀ)ᵀ *ᵥ (![1, 3] - 0)) k)
        / ∑ k : Fin 2, ((Wᵀ)ᵀ * (Matrix.of fun _ _ => 1 : Matrix (Fin 2) (Fin 1) ℝ)) k 0 ^ 2) k = (![-1, √3] : Fin 2 → ℝ) k := by
    rw [Pi.sub_apply, hy k]
    show _ - ∑ j : Fin 1, _ * _ = _
    rw [Fin.sum_univ_one, hX k, Fin.sum_univ_two, Fin.sum_univ_two, hX 0, hX 1, hy 0, hy 1]
    fin_cases k
    · simp
      field_simp
      rw [h3]
      norm_num
    · simp
      field_simp
      rw [h3]
      norm_num
      rw [show √(3 : ℝ) ^ 4 = (√3 ^ 2) ^ 2 by ring, h3]
      norm_num
  rw [hW] at key
  exact key

/-- Fitting with `rho` and then without: the second log-likelihood is not that of a new model. -/
example : ∃ s1 s2 t x z, fit demoFam [] demoSolve (new demo) (demoArgs (some (1 / 2))) = (s1, none) ∧
    fit demoFam [] demoSolve s1 (demoArgs none) = (s2, none) ∧ fit demoFam [] demoSolve (new demo) (demoArgs none) = (t, none) ∧
    getLlk demoFam s2 false none = .ok (some x) ∧ getLlk demoFam t false none = .ok (some z) ∧ x < z := by
  obtain ⟨o, ho, hv⟩ := demo_ar
  obtain ⟨s1, e1⟩ : ∃ s1, fit demoFam [] demoSolve (new demo) (demoArgs (some (1 / 2))) = (s1, none) := ⟨_, rfl⟩
  obtain ⟨s2, e2⟩ : ∃ s2, fit demoFam [] demoSolve s1 (demoArgs none) = (s2, none) := ⟨_, rfl⟩
  obtain ⟨t, e3⟩ : ∃ t, fit demoFam [] demoSolve (new demo) (demoArgs none) = (t, none) := ⟨_, rfl⟩
  obtain ⟨v, eta, h1, h2, h3, h4, -⟩ := refit_rho_wrong (build := []) (solve := demoSolve) (fam := demoFam) rfl rfl (new demo) s1 s2 t _ _
    (1 / 2) rfl rfl e1 e2 e3
  refine ⟨s1, s2, t, _, _, e1, e2, e3, h3, h4, ?_⟩
  have sc2 : s2.scale = 1 := by
    have := congrArg (fun q => q.1.scale) e2
    exact this.symm
  have sc3 : t.scale = 1 := by
    have := congrArg (fun q => q.1.scale) e3
    exact this.symm
  have hv1 : s1.resAr = some o.resAr := by
    have := congrArg (fun q => q.1.resAr) e1
    rw [← this]
    simp only [fit, pens, demoArgs, Bool.false_eq_true, if_false]
    have ho' : (demoSolve (input demoFam ⟨false, none, none, some (1 / 2), none⟩ [])).2 = some o := ho
    rw [ho']
    rfl
  have hvo : v = o.resAr := by rw [h1] at hv1; exact Option.some.inj hv1
  have heta : ∀ k : Fin 2, eta k = 2 := by
    have h := congrArg (fun q => q.1.preds) e3
    have h' : t.preds = _ := h.symm
    rw [h2] at h'
    have h'' := Option.some.inj h'
    intro k
    rw [h'']
    show ((Matrix.of fun _ _ => 1 : Matrix (Fin 2) (Fin 1) ℝ) *ᵥ
      (fun _ => (∑ k : Fin 2, 1 * ((![1, 3] : Fin 2 → ℝ) - 0) k) / ∑ k : Fin 2, 1 ^ 2)) k + 0 = 2
    rw [Fin.sum_univ_two, Fin.sum_univ_two, add_zero]
    simp [Matrix.mulVec, dotProduct]
    norm_num
  rw [sc2, sc3]
  have hq : Ar1.llc (1 / 2) demo.start < 1 := by
    have hl : Ar1.llc (1 / 2) demo.start = 1 / 2 * Real.log (4 / 3) := by
      show (((2 : ℕ) : ℝ) - ((1 : ℕ) : ℝ)) * _ = _
      rw [show (1 - (1 / 2 : ℝ) ^ 2) = 3 / 4 by norm_num, one_div, Real.log_inv, Real.log_sqrt (by norm_num),
        show (4 / 3 : ℝ) = (3 / 4)⁻¹ by norm_num, Real.log_inv]
      norm_num
      ring
    have := Real.log_le_sub_one_of_pos (show (0 : ℝ) < 4 / 3 by norm_num)
    rw [hl]
    linarith
  have h3s : √(3 : ℝ) ^ 2 = 3 := Real.sq_sqrt (by norm_num)
  have g1 : demoFam.llk v 0 1 = ∑ i : Fin 2, (-(1 / 2) * Real.log (2 * Real.pi * 1) - (v i - 0) ^ 2 / (2 * 1)) := rfl
  have g2 : demoFam.llk demo.y eta 1
      = ∑ i : Fin 2, (-(1 / 2) * Real.log (2 * Real.pi * 1) - ((![1, 3] : Fin 2 → ℝ) i - eta i) ^ 2 / (2 * 1)) := rfl
  have v0 : v (0 : Fin 2) = -1 := by rw [hvo]; exact hv 0
  have v1 : v (1 : Fin 2) = √3 := by rw [hvo]; exact hv 1
  rw [g1, g2, Fin.sum_univ_two, Fin.sum_univ_two, v0, v1, heta 0, heta 1, sub_zero, sub_zero, h3s]
  norm_num
  linarith

end Verif.Fit
