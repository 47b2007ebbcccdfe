import Verif.SmoGlm
import Verif.Iface

/-!
# Models with additional terms (property C138)

The larger model has the columns and penalties of the smaller one and further columns.
-/

namespace Verif.Nest
open Verif Matrix Fl Fam SmoG

variable {N p q : ℕ}

/-- Coefficients of the smaller model in the larger one: zero for the additional columns. -/
noncomputable def pad (J : Fin p → Fin q) (b : Fin p → ℝ) : Fin q → ℝ := Function.extend J b 0

theorem pad_sum {J : Fin p → Fin q} (hJ : Function.Injective J) (f : Fin q → ℝ) (b : Fin p → ℝ) : ∑ j, f j * pad J b j = ∑ a, f (J a) * b a := by
  classical
  have h1 : ∀ j ∈ (Finset.univ : Finset (Fin q)), j ∉ Finset.univ.image J → f j * pad J b j = 0 := fun j _ hj => by
    have : ¬∃ a, J a = j := fun ⟨a, ha⟩ => hj (Finset.mem_image.2 ⟨a, Finset.mem_univ _, ha⟩)
    unfold pad
    rw [Function.extend_apply' _ _ _ this]
    exact mul_zero _
  rw [← Finset.sum_subset (Finset.subset_univ _) h1, Finset.sum_image fun a _ c _ h => hJ h]
  exact Finset.sum_congr rfl fun a _ => by unfold pad; rw [hJ.extend_apply]

theorem pad_quad {J : Fin p → Fin q} (hJ : Function.Injective J) {S : Matrix (Fin p) (Fin p) ℝ} {T : Matrix (Fin q) (Fin q) ℝ}
    (h : ∀ a c, T (J a) (J c) = S a c) (b : Fin p → ℝ) : quad T (pad J b) = quad S b := by
  have e : ∀ i, ∑ j, pad J b i * T i j * pad J b j = (∑ c, T i (J c) * b c) * pad J b i := fun i => by
    rw [← pad_sum hJ (fun j => T i j) b, Finset.sum_mul]
    exact Finset.sum_congr rfl fun j _ => by ring
  unfold quad
  rw [Finset.sum_congr rfl fun i _ => e i, pad_sum hJ]
  refine Finset.sum_congr rfl fun a _ => ?_
  rw [Finset.sum_mul]
  exact Finset.sum_congr rfl fun c _ => by rw [h]; ring

theorem quad_nonneg {S : Matrix (Fin p) (Fin p) ℝ} (h : S.PosSemidef) (b : Fin p → ℝ) : 0 ≤ quad S b := by
  rw [quad_mv]
  exact h.dotProduct_mulVec_nonneg b

/-! ### Generalised additive models -/

section glm

/-- `x'` has the terms of `x`, with the same smoothing parameters, and more. -/
structure Larger (x : Pirls.In N p) (x' : Pirls.In N q) (J : Fin p → Fin q) : Prop where
  inj : Function.Injective J
  fam : x'.fam = x.fam
  lk : x'.lk = x.lk
  y : x'.y = x.y
  off : x'.off = x.off
  mat : ∀ i a, x'.X i (J a) = x.X i a
  pen : ∀ a c, x'.S (J a) (J c) = x.S a c

variable {x : Pirls.In N p} {x' : Pirls.In N q} {J : Fin p → Fin q}

theorem Larger.lin (h : Larger x x' J) (b : Fin p → ℝ) (i : Fin N) :
    (∑ j, x'.X i j * pad J b j) + x'.off i = (∑ j, x.X i j * b j) + x.off i := by
  rw [pad_sum h.inj, h.off]
  simp only [h.mat]

theorem Larger.dev (h : Larger x x' J) (b : Fin p → ℝ) : deviance x' (pad J b) = deviance x b := by
  unfold deviance
  simp only [h.lin, h.fam, h.lk, h.y]

theorem Larger.adm (h : Larger x x' J) {b : Fin p → ℝ} (hb : Pirls.Adm x b) : Pirls.Adm x' (pad J b) := by
  intro i
  rw [h.lin, h.fam, h.lk]
  exact hb i

/-- C138.  The larger model has a penalised deviance that is not larger than that of the smaller model, at any coefficients of the latter. -/
theorem penalised {s : ℝ} (h : Larger x x' J) (hg : Pirls.Good x' s) (hi : Pirls.Ident x') (hc : ∀ i, Pirls.concave (x.fam i) x.lk)
    {b' : Fin q → ℝ} (hb' : Pirls.Adm x' b') (hf : Pirls.next x' b' = b') {b : Fin p → ℝ} (hb : Pirls.Adm x b) :
    ∃ d d', deviance x b = fin d ∧ deviance x' b' = fin d' ∧ d' + quad x'.S b' ≤ d + quad x.S b := by
  obtain ⟨d, e, h1, h2, -, -, h3⟩ := least hg hi (by rw [h.fam, h.lk]; exact hc) hb' hf (h.adm hb)
  rw [h.dev] at h2
  rw [pad_quad h.inj h.pen] at h3
  exact ⟨e, d, h2, h1, h3⟩

/-- C138.  If the terms of the smaller model are not penalised, the deviance itself is not larger, whatever the additional terms and their
penalties are. -/
theorem unpenalised {s : ℝ} (h : Larger x x' J) (h0 : x.S = 0) (hg : Pirls.Good x' s) (hi : Pirls.Ident x')
    (hc : ∀ i, Pirls.concave (x.fam i) x.lk) {b' : Fin q → ℝ} (hb' : Pirls.Adm x' b') (hf : Pirls.next x' b' = b') {b : Fin p → ℝ}
    (hb : Pirls.Adm x b) : ∃ d d', deviance x b = fin d ∧ deviance x' b' = fin d' ∧ d' ≤ d := by
  obtain ⟨d, d', h1, h2, h3⟩ := penalised h hg hi hc hb' hf hb
  refine ⟨d, d', h1, h2, ?_⟩
  have := quad_nonneg hg.psd b'
  have e : quad x.S b = 0 := by rw [h0]; simp [quad]
  linarith

/-- C138.  Models with an intercept: the deviance is not larger than the deviance around any common value of the predictors (offsets aside), in
particular not larger than that of the model with the intercept only. -/
theorem intercept {s : ℝ} {j : Fin q} (h1 : ∀ i, x'.X i j = 1) (h0 : x'.S j j = 0) (hg : Pirls.Good x' s) (hi : Pirls.Ident x')
    (hc : ∀ i, Pirls.concave (x'.fam i) x'.lk) {b' : Fin q → ℝ} (hb' : Pirls.Adm x' b') (hf : Pirls.next x' b' = b') {t : ℝ}
    (ht : ∀ i, ∃ mu ∈ (x'.fam i).dom, x'.lk.fi (fin (t + x'.off i)) = fin mu) :
    ∃ d d', (Fl.sum fun i => (x'.fam i).D (fin (x'.y i)) (x'.lk.fi (fin (t + x'.off i)))) = fin d ∧ deviance x' b' = fin d' ∧ d' ≤ d := by
  let x : Pirls.In N 1 := ⟨x'.fam, x'.lk, x'.y, fun _ _ => 1, x'.off, 0⟩
  have hl : Larger x x' fun _ => j := ⟨fun a c _ => Subsingleton.elim a c, rfl, rfl, rfl, rfl, fun i _ => h1 i, fun _ _ => h0⟩
  have e : ∀ i, (∑ a, x.X i a * (fun _ : Fin 1 => t) a) + x.off i = t + x'.off i := fun i => by
    rw [Fin.sum_univ_one]
    show 1 * t + _ = _
    rw [one_mul]
  have ha : Pirls.Adm x fun _ => t := fun i => by rw [e]; exact ht i
  obtain ⟨d, d', a1, a2, a3⟩ := unpenalised hl rfl hg hi hc hb' hf ha
  refine ⟨d, d', ?_, a2, a3⟩
  rw [← a1]
  unfold deviance
  simp only [e]
  rfl

end glm

/-! ### Newton iterations -/

section newton

variable {x : Lml.In p} {x' : Lml.In q} {J : Fin p → Fin q}

/-- C138.  Newton's method for GAMMLSS and general smooth models: `x'` is a model with further coefficients that has the log-likelihood of `x` where
they are zero. -/
theorem newton (hJ : Function.Injective J) (hl : ∀ c, x'.llk (pad J c) = x.llk c) (hS : ∀ a c, x'.S (J a) (J c) = x.S a c) (hp : x'.S.PosSemidef)
    (hc : Lml.Concave x') {c' : Fin q → ℝ} (hr : Lml.Reg x' c') (hgr : HasFlGrad x'.llk (x'.grad c') c') (hf : Lml.step x' c' = c')
    (c : Fin p → ℝ) : ∃ u u', x.llk c = fin u ∧ x'.llk c' = fin u' ∧ u - 1 / 2 * quad x.S c ≤ u' - 1 / 2 * quad x'.S c' := by
  obtain ⟨F, hF, -⟩ := id hc
  obtain ⟨a, b, h1, h2, h3⟩ := Lml.fixed_is_max hc hr hgr hf (pad J c)
  have e : ∀ d, Lml.pllk x' d = fin (F d - 1 / 2 * quad x'.S d) := fun d => by
    show x'.llk d - fin (1 / 2 * quad x'.S d) = _
    rw [hF, fin_sub]
  rw [e, fin_inj] at h1 h2
  refine ⟨F (pad J c), F c', by rw [← hl, hF], hF c', ?_⟩
  have h4 := quad_nonneg hp fun i => pad J c i - c' i
  unfold quad at h4
  rw [pad_quad hJ hS] at h2
  linarith

theorem newton_unpenalised (hJ : Function.Injective J) (hl : ∀ c, x'.llk (pad J c) = x.llk c) (h0 : x.S = 0) (hS : ∀ a c, x'.S (J a) (J c) = 0)
    (hp : x'.S.PosSemidef) (hc : Lml.Concave x') {c' : Fin q → ℝ} (hr : Lml.Reg x' c') (hgr : HasFlGrad x'.llk (x'.grad c') c')
    (hf : Lml.step x' c' = c') (c : Fin p → ℝ) : ∃ u u', x.llk c = fin u ∧ x'.llk c' = fin u' ∧ u ≤ u' := by
  obtain ⟨u, u', h1, h2, h3⟩ := newton (x := x) hJ hl (by rw [h0]; exact hS) hp hc hr hgr hf c
  refine ⟨u, u', h1, h2, ?_⟩
  have := quad_nonneg hp c'
  have e : quad x.S c = 0 := by rw [h0]; simp [quad]
  linarith

end newton

/-- C138.  Proportional hazard models with additional columns. -/
theorem hazard {n nt : ℕ} {ut : ℕ → ℝ} {r delta : Fin n → ℕ} {X : Fin n → Fin p → ℝ} {X' : Fin n → Fin q → ℝ} {J : Fin p → Fin q}
    (hJ : Function.Injective J) (hX : ∀ i a, X' i (J a) = X i a) {S : Matrix (Fin p) (Fin p) ℝ} {S' : Matrix (Fin q) (Fin q) ℝ}
    (hS : ∀ a c, S' (J a) (J c) = S a c) (hp : S'.PosSemidef)
    {chol : Matrix (Fin q) (Fin q) ℝ → Option (Matrix (Fin q) (Fin q) ℝ × Equiv.Perm (Fin q))} {noise : ℕ → Fin q → ℝ} (h : Haz.Data nt ut r)
    (hc : Newton.CholSpec chol) {c' : Fin q → ℝ} (hd : ∀ i, -Haz.hessian nt r delta X' c' i i + S' i i ≠ 0)
    (hf : Lml.step (Lml.hazIn nt r delta X' S' chol noise) c' = c') (c : Fin p → ℝ) :
    Haz.llk nt r delta X c - 1 / 2 * quad S c ≤ Haz.llk nt r delta X' c' - 1 / 2 * quad S' c' := by
  have sy : S'.IsSymm := by
    have := hp.isHermitian
    rwa [IsHermitian, conjTranspose_eq_transpose_of_trivial] at this
  have H := Lml.hazard_fixed_is_max (noise := noise) h hc sy hd hf (pad J c)
  have e : Haz.llk nt r delta X' (pad J c) = Haz.llk nt r delta X c := by
    have e1 : Haz.eta X' (pad J c) = Haz.eta X c := funext fun i => by
      unfold Haz.eta
      rw [pad_sum hJ]
      simp only [hX]
    unfold Haz.llk Haz.gam
    rw [e1]
  have h4 := quad_nonneg hp fun i => pad J c i - c' i
  have h5 := pad_quad hJ hS c
  unfold quad at h4 h5 ⊢
  rw [e, h5] at H
  linarith

/-- C138.  Multinomial models with additional columns in some of the formulas. -/
theorem multinomial {K n : ℕ} {w w' : ℕ → ℕ} {X X' : ℕ → Fin n → ℕ → ℝ} {y : Fin n → ℝ} {stored : ℕ → ℕ → ℕ → List ℕ}
    (J : (k : Fin K) → Fin (w k) → Fin (w' k)) (hJ : ∀ k, Function.Injective (J k)) (hX : ∀ (k : Fin K) o a, X' k o (J k a) = X k o a)
    {S : Matrix (Fin (∑ l ∈ Finset.range K, w l)) (Fin (∑ l ∈ Finset.range K, w l)) ℝ}
    {S' : Matrix (Fin (∑ l ∈ Finset.range K, w' l)) (Fin (∑ l ∈ Finset.range K, w' l)) ℝ}
    (hS : ∀ (k k' : Fin K) a a', S' (Lml.at' w' ⟨k, J k a⟩) (Lml.at' w' ⟨k', J k' a'⟩) = S (Lml.at' w ⟨k, a⟩) (Lml.at' w ⟨k', a'⟩))
    (hp : S'.PosSemidef) {chol} {noise} (hst : Lml.Holds (EtaBeta.mnFam K) w' X' y stored) (hc : Newton.CholSpec chol)
    {c' : Fin (∑ l ∈ Finset.range K, w' l) → ℝ}
    (hd : ∀ i, -(Lml.lssIn (EtaBeta.mnFam K) w' X' y stored S' chol noise).hess c' i i + S' i i ≠ 0)
    (hf : Lml.step (Lml.lssIn (EtaBeta.mnFam K) w' X' y stored S' chol noise) c' = c') (c : Fin (∑ l ∈ Finset.range K, w l) → ℝ) :
    EtaBeta.llk (EtaBeta.mnFam K) w X y (Lml.blk w c) - 1 / 2 * quad S c ≤
      EtaBeta.llk (EtaBeta.mnFam K) w' X' y (Lml.blk w' c') - 1 / 2 * quad S' c' := by
  have sy : S'.IsSymm := by
    have := hp.isHermitian
    rwa [IsHermitian, conjTranspose_eq_transpose_of_trivial] at this
  let E := Equiv.ofBijective _ (Lml.at_bij (w := w) (K := K))
  let JJ : Fin (∑ l ∈ Finset.range K, w l) → Fin (∑ l ∈ Finset.range K, w' l) := fun i => Lml.at' w' ⟨(E.symm i).1, J _ (E.symm i).2⟩
  have hE : ∀ q : Σ k : Fin K, Fin (w k), E.symm (Lml.at' w q) = q := fun q => E.symm_apply_apply q
  have hat : ∀ q : Σ k : Fin K, Fin (w k), JJ (Lml.at' w q) = Lml.at' w' ⟨q.1, J _ q.2⟩ := fun q => by
    show Lml.at' w' ⟨(E.symm (Lml.at' w q)).1, J _ (E.symm (Lml.at' w q)).2⟩ = _
    rw [hE]
  have hJJ : Function.Injective JJ := by
    intro i i' h
    obtain ⟨⟨k, a⟩, rfl⟩ := Lml.at_bij.2 i
    obtain ⟨⟨k', a'⟩, rfl⟩ := Lml.at_bij.2 i'
    rw [hat, hat] at h
    have h := Lml.at_bij.1 h
    obtain rfl : k = k' := congrArg Sigma.fst h
    have h2 := eq_of_heq (Sigma.mk.inj h).2
    exact congrArg (fun t => Lml.at' w ⟨k, t⟩) (hJ k h2)
  have H := Lml.multinomial_fixed_is_max (noise := noise) hst hc sy hd hf (pad JJ c)
  have hQ : quad S' (pad JJ c) = quad S c := pad_quad hJJ (fun i i' => by
    obtain ⟨⟨k, a⟩, rfl⟩ := Lml.at_bij.2 i
    obtain ⟨⟨k', a'⟩, rfl⟩ := Lml.at_bij.2 i'
    rw [hat, hat]
    exact hS k k' a a') c
  have hb : ∀ k : Fin K, (fun a => Lml.blk w' (pad JJ c) ⟨k, a⟩) = pad (J k) fun a => Lml.blk w c ⟨k, a⟩ := by
    intro k
    funext a
    by_cases ha : ∃ a0, J k a0 = a
    · obtain ⟨a0, rfl⟩ := ha
      show pad JJ c (Lml.at' w' ⟨k, J k a0⟩) = _
      have := hat ⟨k, a0⟩
      rw [← this]
      unfold pad
      rw [hJJ.extend_apply, (hJ k).extend_apply]
      rfl
    · show pad JJ c (Lml.at' w' ⟨k, a⟩) = _
      have h1 : ¬∃ i, JJ i = Lml.at' w' ⟨k, a⟩ := by
        rintro ⟨i, hi⟩
        obtain ⟨⟨k', a'⟩, rfl⟩ := Lml.at_bij.2 i
        rw [hat] at hi
        have hi := Lml.at_bij.1 hi
        obtain rfl : k' = k := congrArg Sigma.fst hi
        exact ha ⟨a', eq_of_heq (Sigma.mk.inj hi).2⟩
      unfold pad
      rw [Function.extend_apply' _ _ _ h1, Function.extend_apply' _ _ _ ha]
      rfl
  have e : EtaBeta.llk (EtaBeta.mnFam K) w' X' y (Lml.blk w' (pad JJ c)) = EtaBeta.llk (EtaBeta.mnFam K) w X y (Lml.blk w c) := by
    unfold EtaBeta.llk
    refine Finset.sum_congr rfl fun o _ => ?_
    congr 2
    funext k
    show ∑ a : Fin (w' k), X' k o a * Lml.blk w' (pad JJ c) ⟨k, a⟩ = ∑ a : Fin (w k), X k o a * Lml.blk w c ⟨k, a⟩
    have e1 : ∀ a, Lml.blk w' (pad JJ c) ⟨k, a⟩ = pad (J k) (fun a => Lml.blk w c ⟨k, a⟩) a := congrFun (hb k)
    refine (Finset.sum_congr rfl fun (a : Fin (w' k)) _ => congrArg (X' k o (a : ℕ) * ·) (e1 a)).trans ?_
    refine (pad_sum (hJ k) (fun a => X' k o a) _).trans ?_
    simp only [hX]
  have h4 := quad_nonneg hp fun i => pad JJ c i - c' i
  rw [e, show ∑ i, ∑ j, pad JJ c i * S' i j * pad JJ c j = quad S c from hQ] at H
  unfold quad at h4 ⊢
  unfold quad at H
  linarith

/-! ### The deviance of penalised models can increase -/

/-- A ridge penalised slope for observations 1 and 1. -/
noncomputable def small : Pirls.In 2 1 := ⟨fun _ => .gaussian, .identity, fun _ => 1, fun _ _ => 1, 0, 1⟩

/-- With an additional column for the first observation, not penalised. -/
noncomputable def large : Pirls.In 2 2 := ⟨fun _ => .gaussian, .identity, fun _ => 1, !![1, 1; 1, 0], 0, !![1, 0; 0, 0]⟩

theorem small_large : Larger small large fun _ => 0 :=
  ⟨fun a c _ => Subsingleton.elim a c, rfl, rfl, rfl, rfl, fun i _ => by fin_cases i <;> rfl, fun a c => by
    rw [Subsingleton.elim a 0, Subsingleton.elim c 0]
    rfl⟩

theorem large_psd : (large.S).PosSemidef := by
  have : large.S = (!![1, 0; 0, 0] : Matrix (Fin 2) (Fin 2) ℝ)ᴴ * !![1, 0; 0, 0] := by
    ext i j
    fin_cases i <;> fin_cases j <;> simp [large, Matrix.mul_apply, Fin.sum_univ_two]
  rw [this]
  exact posSemidef_conjTranspose_mul_self _

theorem good_small : Pirls.Good small 1 := ⟨fun _ => trivial, one_pos, fun _ => Or.inr rfl, PosSemidef.one⟩

theorem good_large : Pirls.Good large 1 := ⟨fun _ => trivial, one_pos, fun _ => Or.inr rfl, large_psd⟩

theorem ident_small : Pirls.Ident small := by
  intro v h _
  have := h 0
  funext a
  fin_cases a
  simpa [small] using this

theorem ident_large : Pirls.Ident large := by
  intro v h _
  have h0 := h 0
  have h1 := h 1
  simp [large, Fin.sum_univ_two] at h0 h1
  funext a
  fin_cases a
  · simpa using h1
  · simp [h1] at h0
    simpa using h0

/-- C138.  That the smaller model is not penalised cannot be left out in `unpenalised`: with the same smoothing parameter, an additional column without
penalty raises the residual sum of squares from 2/9 to 1/4. -/
theorem deviance_can_increase : Pirls.next small ![2 / 3] = ![2 / 3] ∧ Pirls.next large ![1 / 2, 1 / 2] = ![1 / 2, 1 / 2] ∧
    deviance small ![2 / 3] = fin (2 / 9) ∧ deviance large ![1 / 2, 1 / 2] = fin (1 / 4) := by
  have a1 : ∀ b, Pirls.Adm small b := Pirls.adm_total (x := small) fun _ => trivial
  have a2 : ∀ b, Pirls.Adm large b := Pirls.adm_total (x := large) fun _ => trivial
  have d2 : ∀ f : Fin 2 → ℝ, (Fl.sum fun i => fin (f i)) = fin (f 0 + f 1) := fun f => by rw [sum_fin, Fin.sum_univ_two]
  refine ⟨?_, ?_, ?_, ?_⟩
  · rw [Ifc.next_iff good_small ident_small (a1 _)]
    intro a
    fin_cases a
    simp [Pirls.uR, Pirls.uF, small, Pirls.eta, LinkKind.fiR, LinkKind.d1R, FamKind.VR, Matrix.mulVec, dotProduct]
    norm_num
  · rw [Ifc.next_iff good_large ident_large (a2 _)]
    intro a
    fin_cases a <;>
      simp [Fin.sum_univ_two, Pirls.uR, Pirls.uF, large, Pirls.eta, LinkKind.fiR, LinkKind.d1R, FamKind.VR, Matrix.mulVec, dotProduct] <;>
      norm_num
  · unfold deviance
    have e : ∀ i, (small.fam i).D (fin (small.y i)) (small.lk.fi (fin ((∑ j, small.X i j * (![2 / 3] : Fin 1 → ℝ) j) + small.off i))) = fin (1 / 9) := by
      intro i
      simp [small, FamKind.D, LinkKind.fi]
      norm_num
    simp only [e]
    rw [d2 fun _ => 1 / 9]
    norm_num
  · unfold deviance
    have e : ∀ i, (large.fam i).D (fin (large.y i)) (large.lk.fi (fin ((∑ j, large.X i j * (![1 / 2, 1 / 2] : Fin 2 → ℝ) j) + large.off i))) =
        fin (![0, 1 / 4] i) := by
      intro i
      fin_cases i <;> simp [large, FamKind.D, LinkKind.fi, Fin.sum_univ_two] <;> norm_num
    simp only [e]
    rw [d2]
    simp

end Verif.Nest
