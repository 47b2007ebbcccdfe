import Verif.Iface
import Verif.Classes

/-!
# Fitted totals are observed totals (C142)

Functions of `PirlsModel` (C124), `LmlModel` (C125) and the families of C15-C19.
-/

namespace Verif.Tot
open Verif Matrix Fl Fam

/-! ### Generalised models -/

section glm

/-- Number of trials. -/
def size : FamKind → ℝ
  | .binomial n => n
  | _ => 1

/-- Canonical links. -/
def canonical : FamKind → LinkKind → Prop
  | .binomial _, .logit => True
  | .gaussian, .identity => True
  | .poisson, .log => True
  | _, _ => False

/-- The same distribution, up to the number of trials. -/
def alike : FamKind → FamKind → Prop
  | .binomial _, .binomial _ => True
  | .gaussian, .gaussian => True
  | .gamma, .gamma => True
  | .invGauss, .invGauss => True
  | .poisson, .poisson => True
  | _, _ => False

variable {N p : ℕ} {x : Pirls.In N p} {s : ℝ} {b : Fin p → ℝ}

/-- `z` is a combination of columns of the model matrix that is not penalised: an intercept, a covariate, the indicator of a level (treatment coding
included), or a function in the null space of the penalty of a smooth. -/
def Free (x : Pirls.In N p) (z : Fin N → ℝ) : Prop := ∃ v : Fin p → ℝ, (∀ i, ∑ j, x.X i j * v j = z i) ∧ x.S *ᵥ v = 0

/-- The means of a fit as the code computes them. -/
def Means (x : Pirls.In N p) (b : Fin p → ℝ) (mu : Fin N → ℝ) : Prop := ∀ i, x.lk.fi (fin ((∑ j, x.X i j * b j) + x.off i)) = fin (mu i)

theorem Means.eq {mu : Fin N → ℝ} (h : Means x b mu) (i : Fin N) : mu i = x.lk.fiR (Pirls.eta x b i) := by
  have := h i
  rw [Pirls.eta_def, fi_eq, fin_inj] at this
  exact this.symm

theorem balance (hg : Pirls.Good x s) (hi : Pirls.Ident x) (hb : Pirls.Adm x b) (hf : Pirls.next x b = b) {z : Fin N → ℝ} (hz : Free x z) :
    ∑ i, Pirls.uR x b i * z i = 0 := by
  obtain ⟨v, h1, h2⟩ := hz
  have h := (Ifc.next_iff hg hi hb).1 hf
  have e : ∑ i, Pirls.uR x b i * z i = ∑ a, (x.S *ᵥ b) a * v a := by
    simp only [← h, ← h1, Finset.mul_sum, Finset.sum_mul]
    rw [Finset.sum_comm]
    exact Finset.sum_congr rfl fun a _ => Finset.sum_congr rfl fun i _ => by ring
  have hs : x.Sᵀ = x.S := by
    have := hg.psd.isHermitian
    rwa [IsHermitian, conjTranspose_eq_transpose_of_trivial] at this
  rw [e]
  show (x.S *ᵥ b) ⬝ᵥ v = 0
  rw [dotProduct_comm, dotProduct_mulVec, ← mulVec_transpose, hs, h2, zero_dotProduct]

theorem canonical_score {f : FamKind} {l : LinkKind} (h : canonical f l) (hf : f.ok) (y e : ℝ) : Pirls.uF f l y e = size f * (y - l.fiR e) := by
  unfold Pirls.uF
  cases f <;> cases l <;> first | exact h.elim | skip
  · rename_i n
    have hn : (n : ℝ) ≠ 0 := by
      have : 0 < n := hf
      positivity
    obtain ⟨h0, h1⟩ := fi_mem .logit e
    have h2 : 1 - LinkKind.logit.fiR e ≠ 0 := by linarith
    simp only [LinkKind.d1R, FamKind.VR, size]
    field_simp
  · simp [LinkKind.d1R, FamKind.VR, size]
  · have : LinkKind.log.fiR e ≠ 0 := (Real.exp_pos e).ne'
    simp only [LinkKind.d1R, FamKind.VR, size]
    field_simp

/-- **C142.** Canonical links: weighted with any unpenalised covariate, fitted numbers of successes, counts or values add up to the observed
ones. With an intercept the totals agree, with an unpenalised factor the totals of its levels do. -/
theorem totals (hg : Pirls.Good x s) (hi : Pirls.Ident x) (hc : ∀ i, canonical (x.fam i) x.lk) (hb : Pirls.Adm x b) (hf : Pirls.next x b = b)
    {mu : Fin N → ℝ} (hm : Means x b mu) {z : Fin N → ℝ} (hz : Free x z) :
    ∑ i, size (x.fam i) * mu i * z i = ∑ i, size (x.fam i) * x.y i * z i := by
  have h := balance hg hi hb hf hz
  have e : ∀ i, Pirls.uR x b i * z i = size (x.fam i) * x.y i * z i - size (x.fam i) * mu i * z i := fun i => by
    unfold Pirls.uR
    rw [canonical_score (hc i) (ok_of_obs (hg.obs i)), hm.eq]
    ring
  simp only [e, Finset.sum_sub_distrib] at h
  linarith

theorem alike_var {f g : FamKind} (h : alike f g) (hf : f.ok) (hg : g.ok) (mu : ℝ) : size f * f.VR mu = size g * g.VR mu := by
  cases f <;> cases g <;> first | exact h.elim | skip
  · rename_i n k
    have hn : (n : ℝ) ≠ 0 := by have : 0 < n := hf; positivity
    have hk : (k : ℝ) ≠ 0 := by have : 0 < k := hg; positivity
    simp only [FamKind.VR, size]
    field_simp
  all_goals rfl

theorem size_pos {f : FamKind} (h : f.ok) : 0 < size f := by
  cases f
  · rename_i n
    have : 0 < n := h
    simp only [size]
    positivity
  all_goals exact one_pos

/-- **C142.** Any family and link: observations with the same covariates and offset, whose indicator is an unpenalised combination of columns, have
their mean (weighted with the numbers of trials) as fitted value. In particular a model with one unpenalised factor returns the means of its levels. -/
theorem group_means (hg : Pirls.Good x s) (hi : Pirls.Ident x) (hb : Pirls.Adm x b) (hf : Pirls.next x b = b) {mu : Fin N → ℝ} (hm : Means x b mu)
    {A : Finset (Fin N)} (hA : Free x fun i => if i ∈ A then 1 else 0) (hX : ∀ i ∈ A, ∀ k ∈ A, x.X i = x.X k ∧ x.off i = x.off k)
    (hl : ∀ i ∈ A, ∀ k ∈ A, alike (x.fam i) (x.fam k)) {i : Fin N} (hiA : i ∈ A) :
    mu i = (∑ k ∈ A, size (x.fam k) * x.y k) / ∑ k ∈ A, size (x.fam k) := by
  have h := balance hg hi hb hf hA
  have he : ∀ k ∈ A, Pirls.eta x b k = Pirls.eta x b i := fun k hk => by
    show x.X k ⬝ᵥ b + x.off k = x.X i ⬝ᵥ b + x.off i
    rw [(hX k hk i hiA).1, (hX k hk i hiA).2]
  have ok : ∀ k, (x.fam k).ok := fun k => ok_of_obs (hg.obs k)
  have hd := d1_pos (fi_mem x.lk (Pirls.eta x b i))
  have hV := V_pos (ok i) (hb.mem i)
  have hs := fun k => size_pos (ok k)
  have e : ∀ k ∈ A, Pirls.uR x b k = (size (x.fam k) * x.y k - mu i * size (x.fam k)) /
      (x.lk.d1R (x.lk.fiR (Pirls.eta x b i)) * (size (x.fam i) * (x.fam i).VR (x.lk.fiR (Pirls.eta x b i)))) := fun k hk => by
    have hv := alike_var (hl i hiA k hk) (ok i) (ok k) (x.lk.fiR (Pirls.eta x b i))
    have hVk := V_pos (ok k) (by have := hb.mem k; rwa [he k hk] at this)
    unfold Pirls.uR Pirls.uF
    rw [he k hk, hv, hm.eq]
    have := hs k
    field_simp
  have h2 : ∑ k ∈ A, Pirls.uR x b k = 0 := by
    rw [← h]
    simp only [mul_ite, mul_one, mul_zero]
    rw [Finset.sum_ite_mem, Finset.univ_inter]
  rw [Finset.sum_congr rfl e, ← Finset.sum_div, div_eq_zero_iff, or_iff_left (by have := hs i; positivity), Finset.sum_sub_distrib, ← Finset.mul_sum] at h2
  have hS : 0 < ∑ k ∈ A, size (x.fam k) := Finset.sum_pos (fun k _ => hs k) ⟨i, hiA⟩
  rw [eq_div_iff hS.ne']
  linarith

/-- **C142.** Gamma models with logarithmic link: relative residuals are balanced. -/
theorem relative (hg : Pirls.Good x s) (hi : Pirls.Ident x) (hc : ∀ i, x.fam i = .gamma) (hk : x.lk = .log) (hb : Pirls.Adm x b)
    (hf : Pirls.next x b = b) {mu : Fin N → ℝ} (hm : Means x b mu) {z : Fin N → ℝ} (hz : Free x z) : ∑ i, (x.y i - mu i) / mu i * z i = 0 := by
  have h := balance hg hi hb hf hz
  rw [← h]
  refine Finset.sum_congr rfl fun i _ => ?_
  unfold Pirls.uR Pirls.uF
  rw [hm.eq, hc, hk]
  have : LinkKind.log.fiR (Pirls.eta x b i) ≠ 0 := (Real.exp_pos _).ne'
  simp only [LinkKind.d1R, FamKind.VR]
  field_simp

/-- Two Gamma observations 1 and 1 with exposures 1 and 2. -/
noncomputable def exposed : Pirls.In 2 1 := ⟨fun _ => .gamma, .log, fun _ => 1, fun _ _ => 1, ![0, Real.log 2], 0⟩

theorem good_exposed : Pirls.Good exposed 1 := ⟨fun _ => show (0 : ℝ) < 1 from one_pos, one_pos, fun _ => Or.inr rfl, PosSemidef.zero⟩

theorem ident_exposed : Pirls.Ident exposed := fun v h _ => by
  have := h 0
  simp only [Finset.univ_unique, Fin.default_eq_zero, Finset.sum_singleton] at this
  funext a
  rw [Subsingleton.elim a 0]
  simpa [exposed] using this

theorem adm_exposed (b : Fin 1 → ℝ) : Pirls.Adm exposed b := Pirls.adm_total (x := exposed) (fun _ => trivial) b

theorem exposed_means : Means exposed ![Real.log (3 / 4)] ![3 / 4, 3 / 2] := fun i => by
  rw [fi_eq, fin_inj]
  fin_cases i
  · simp [exposed, LinkKind.fiR, Real.exp_log]
  · simp [exposed, LinkKind.fiR, Real.exp_add, Real.exp_log]
    norm_num

theorem exposed_next : Pirls.next exposed ![Real.log (3 / 4)] = ![Real.log (3 / 4)] := by
  rw [Ifc.next_iff good_exposed ident_exposed (adm_exposed _)]
  intro a
  have h0 := exposed_means.eq 0
  have h1 := exposed_means.eq 1
  rw [Fin.sum_univ_two]
  unfold Pirls.uR Pirls.uF
  rw [← h0, ← h1]
  simp [exposed, LinkKind.d1R, FamKind.VR]
  norm_num

/-- **C142.** Canonical links are needed: with an intercept and offsets the totals of a Gamma model with logarithmic link are 9/4 (fitted) and 2 (observed). -/
theorem not_canonical : Pirls.next exposed ![Real.log (3 / 4)] = ![Real.log (3 / 4)] ∧ Means exposed ![Real.log (3 / 4)] ![3 / 4, 3 / 2] ∧
    Free exposed (fun _ => 1) ∧ ∑ i, (![3 / 4, 3 / 2] : Fin 2 → ℝ) i ≠ ∑ i, exposed.y i := by
  refine ⟨exposed_next, exposed_means, ⟨fun _ => 1, fun i => by simp [exposed], by simp [exposed]⟩, ?_⟩
  simp [Fin.sum_univ_two, exposed]
  norm_num

end glm

/-! ### Classes -/

section classes
variable {K n m : ℕ} {Z : Fin n → ℕ → ℝ} {stored : ℕ → ℕ → ℕ → List ℕ}
  {S : Matrix (Fin (∑ l ∈ Finset.range K, (fun _ => m) l)) (Fin (∑ l ∈ Finset.range K, (fun _ => m) l)) ℝ}
  {chol : Matrix (Fin (∑ l ∈ Finset.range K, (fun _ => m) l)) (Fin (∑ l ∈ Finset.range K, (fun _ => m) l)) ℝ →
      Option (Matrix (Fin (∑ l ∈ Finset.range K, (fun _ => m) l)) (Fin (∑ l ∈ Finset.range K, (fun _ => m) l)) ℝ ×
        Equiv.Perm (Fin (∑ l ∈ Finset.range K, (fun _ => m) l)))}
  {noise : ℕ → Fin (∑ l ∈ Finset.range K, (fun _ => m) l) → ℝ} {y : Fin n → Fin (K + 1)}

theorem prob_eq (e : Fin K → ℝ) (k : Fin (K + 1)) : Lss.mnProb (EtaBeta.musOf (EtaBeta.mnFam K) e) k = Real.exp (Cls.all e k) / Cls.tot e := by
  have := Cls.lp_eq e k
  simp only [EtaBeta.lpEta, EtaBeta.mnFam, Nat.floor_natCast] at this
  unfold Lss.mnProb
  rw [show Lss.mnLp (k : ℕ) (EtaBeta.musOf (EtaBeta.mnFam K) e) = _ from this, Real.exp_sub, Real.exp_log (Cls.tot_pos e)]

/-- **C142.** Multinomial models: for every class, the reference class included, fitted probabilities weighted with an unpenalised covariate add up to the
observed ones; with an intercept the mean fitted probabilities are the observed shares of the classes. -/
theorem class_totals (h : Cls.Ok m Z y stored S chol) {c : Fin (∑ l ∈ Finset.range K, (fun _ => m) l) → ℝ}
    (hf : Lml.step (Lml.lssIn (EtaBeta.mnFam K) (fun _ => m) (fun _ => Z) (Cls.num y) stored S chol noise) c = c) {v : Fin m → ℝ}
    (hv : ∀ (k : Fin K) j, ∑ a : Fin m, v a * S (Lml.at' (K := K) (fun _ => m) ⟨k, a⟩) j = 0) (k : Fin (K + 1)) :
    ∑ o, Lss.mnProb (EtaBeta.musOf (EtaBeta.mnFam K) (EtaBeta.etaOf (K := K) (fun _ => m) (fun _ => Z) (Lml.blk (fun _ => m) c) o)) k *
        (∑ a : Fin m, Z o a * v a) = ∑ o, if y o = k then ∑ a : Fin m, Z o a * v a else 0 := by
  have hs := (Cls.step_iff h c).1 hf
  have hp : ∀ k : Fin K, ∑ a : Fin m, v a * Cls.pen S (Cls.cf m c) k a = 0 := fun k => by
    unfold Cls.pen
    simp only [Finset.mul_sum]
    rw [Finset.sum_comm]
    refine Finset.sum_eq_zero fun q _ => ?_
    simp only [← mul_assoc]
    rw [← Finset.sum_mul, hv, zero_mul]
  have h1 : ∀ k : Fin K, ∑ a : Fin m, v a * Cls.score Z y (Cls.et m Z c) k.succ a = 0 := fun k => by
    rw [← hp k]
    exact Finset.sum_congr rfl fun a _ => by rw [hs]
  have h2 : ∑ k, ∑ a : Fin m, v a * Cls.score Z y (Cls.et m Z c) k a = 0 := by
    rw [Finset.sum_comm]
    exact Finset.sum_eq_zero fun a _ => by rw [← Finset.mul_sum, Cls.score_sum, mul_zero]
  have h3 : ∑ a : Fin m, v a * Cls.score Z y (Cls.et m Z c) k a = 0 := by
    refine Fin.cases ?_ (fun j => h1 j) k
    rw [Fin.sum_univ_succ, Finset.sum_eq_zero fun j _ => h1 j, add_zero] at h2
    exact h2
  unfold Cls.score at h3
  simp only [Finset.mul_sum] at h3
  rw [Finset.sum_comm] at h3
  rw [← sub_eq_zero, ← Finset.sum_sub_distrib, ← neg_eq_zero, ← Finset.sum_neg_distrib]
  refine Eq.trans ?_ h3
  refine Finset.sum_congr rfl fun o _ => ?_
  rw [prob_eq, show EtaBeta.etaOf (K := K) (fun _ => m) (fun _ => Z) (Lml.blk (fun _ => m) c) o = Cls.et m Z c o from rfl]
  have e : ∀ a : Fin m, v a * (((if y o = k then 1 else 0) - Real.exp (Cls.all (Cls.et m Z c o) k) / Cls.tot (Cls.et m Z c o)) * Z o a) =
      ((if y o = k then 1 else 0) - Real.exp (Cls.all (Cls.et m Z c o) k) / Cls.tot (Cls.et m Z c o)) * (Z o a * v a) := fun a => by ring
  simp only [e]
  rw [← Finset.mul_sum]
  generalize ∑ a : Fin m, Z o a * v a = R
  generalize Real.exp (Cls.all (Cls.et m Z c o) k) / Cls.tot (Cls.et m Z c o) = P
  by_cases hy : y o = k
  · rw [if_pos hy, if_pos hy]; ring
  · rw [if_neg hy, if_neg hy]; ring

end classes

/-! ### Location and scale -/

section lss
variable {N : ℕ} {w : ℕ → ℕ} {X : ℕ → Fin N → ℕ → ℝ} {y : Fin N → ℝ} {stored : ℕ → ℕ → ℕ → List ℕ}
  {S : Matrix (Fin (∑ l ∈ Finset.range 2, w l)) (Fin (∑ l ∈ Finset.range 2, w l)) ℝ}
  {chol : Matrix (Fin (∑ l ∈ Finset.range 2, w l)) (Fin (∑ l ∈ Finset.range 2, w l)) ℝ →
      Option (Matrix (Fin (∑ l ∈ Finset.range 2, w l)) (Fin (∑ l ∈ Finset.range 2, w l)) ℝ ×
        Equiv.Perm (Fin (∑ l ∈ Finset.range 2, w l)))}
  {noise : ℕ → Fin (∑ l ∈ Finset.range 2, w l) → ℝ}

/-- `z` is an unpenalised combination of columns of formula `k`. -/
def FreeAt (w : ℕ → ℕ) (X : ℕ → Fin N → ℕ → ℝ) (S : Matrix (Fin (∑ l ∈ Finset.range 2, w l)) (Fin (∑ l ∈ Finset.range 2, w l)) ℝ) (k : Fin 2)
    (z : Fin N → ℝ) : Prop :=
  ∃ v : Fin (w k) → ℝ, (∀ o, ∑ a : Fin (w k), X k o a * v a = z o) ∧ ∀ j, ∑ a : Fin (w k), v a * S (Lml.at' (K := 2) w ⟨k, a⟩) j = 0

theorem balance_lss {fam : EtaBeta.LFam 2} {c : Fin (∑ l ∈ Finset.range 2, w l) → ℝ} (h : Ifc.Fits fam w X y stored S chol noise c)
    (hf : Lml.step (Lml.lssIn fam w X y stored S chol noise) c = c) {k : Fin 2} {z : Fin N → ℝ} (hz : FreeAt w X S k z) :
    ∑ o, Invar.P1 fam (y o) (EtaBeta.etaOf (K := 2) w X (Lml.blk w c) o) k * z o = 0 := by
  obtain ⟨v, h1, h2⟩ := hz
  have hs := (Ifc.lss_step_iff h).1 hf
  have e : ∑ o, Invar.P1 fam (y o) (EtaBeta.etaOf (K := 2) w X (Lml.blk w c) o) k * z o =
      ∑ a : Fin (w k), v a * ∑ q' : Σ k : Fin 2, Fin (w k), S (Lml.at' w ⟨k, a⟩) (Lml.at' w q') * Lml.blk w c q' := by
    simp only [← h1, Finset.mul_sum (s := (Finset.univ : Finset (Fin (w k))))]
    rw [Finset.sum_comm]
    refine Finset.sum_congr rfl fun a _ => ?_
    rw [← hs ⟨k, a⟩, Finset.mul_sum]
    exact Finset.sum_congr rfl fun o _ => by ring
  rw [e]
  simp only [Finset.mul_sum, ← mul_assoc]
  rw [Finset.sum_comm]
  refine Finset.sum_eq_zero fun q _ => ?_
  rw [← Finset.sum_mul, h2, zero_mul]

/-- **C142.** Gaussian models for mean and standard deviation, any links: observations with the same covariates, whose indicator is an unpenalised combination
of columns in both formulas, have their mean as fitted mean and their mean squared deviation as fitted variance. -/
theorem group_moments {l0 l1 : LinkKind} {c : Fin (∑ l ∈ Finset.range 2, w l) → ℝ}
    (h : Ifc.Fits (EtaBeta.gauFam ![l0, l1]) w X y stored S chol noise c)
    (hf : Lml.step (Lml.lssIn (EtaBeta.gauFam ![l0, l1]) w X y stored S chol noise) c = c) {A : Finset (Fin N)}
    (hA : ∀ k, FreeAt w X S k fun o => if o ∈ A then 1 else 0) (hX : ∀ o ∈ A, ∀ o' ∈ A, ∀ k, X k o = X k o') {i : Fin N} (hi : i ∈ A) {mu sigma : ℝ}
    (hm : EtaBeta.musOf (EtaBeta.gauFam ![l0, l1]) (EtaBeta.etaOf (K := 2) w X (Lml.blk w c) i) = ![mu, sigma]) (hs : 0 < sigma) :
    mu = (∑ o ∈ A, y o) / A.card ∧ sigma ^ 2 = (∑ o ∈ A, (y o - mu) ^ 2) / A.card := by
  have he : ∀ o ∈ A, EtaBeta.etaOf (K := 2) w X (Lml.blk w c) o = EtaBeta.etaOf (K := 2) w X (Lml.blk w c) i := fun o ho => by
    funext k
    unfold EtaBeta.etaOf
    rw [hX o ho i hi]
  have hc : (0 : ℝ) < A.card := by exact_mod_cast Finset.card_pos.2 ⟨i, hi⟩
  have key : ∀ k : Fin 2, ∑ o ∈ A, (if k = 0 then Lss.gauD1mu (y o) mu sigma else Lss.gauD1sigma (y o) mu sigma) = 0 := fun k => by
    have hb := balance_lss h hf (hA k)
    simp only [mul_ite, mul_one, mul_zero] at hb
    rw [Finset.sum_ite_mem, Finset.univ_inter] at hb
    have hd : 0 < ((EtaBeta.gauFam ![l0, l1]).links k).d1R (EtaBeta.musOf (EtaBeta.gauFam ![l0, l1]) (EtaBeta.etaOf (K := 2) w X (Lml.blk w c) i) k) :=
      d1_pos (EtaBeta.mu_dom _ _ _)
    have e : ∀ o ∈ A, Invar.P1 (EtaBeta.gauFam ![l0, l1]) (y o) (EtaBeta.etaOf (K := 2) w X (Lml.blk w c) o) k =
        (if k = 0 then Lss.gauD1mu (y o) mu sigma else Lss.gauD1sigma (y o) mu sigma) /
          ((EtaBeta.gauFam ![l0, l1]).links k).d1R (EtaBeta.musOf (EtaBeta.gauFam ![l0, l1]) (EtaBeta.etaOf (K := 2) w X (Lml.blk w c) i) k) := fun o ho => by
      rw [he o ho]
      refine Ifc.P1_of rfl ?_
      rw [hm]
      rfl
    rw [Finset.sum_congr rfl e, ← Finset.sum_div, div_eq_zero_iff, or_iff_left hd.ne'] at hb
    exact hb
  constructor
  · have := key 0
    simp only [if_true, Lss.gauD1mu] at this
    rw [← Finset.mul_sum, mul_eq_zero, or_iff_right (by positivity), Finset.sum_sub_distrib, Finset.sum_const, nsmul_eq_mul] at this
    rw [eq_div_iff hc.ne']
    linarith
  · have := key 1
    simp only [if_neg (one_ne_zero : (1 : Fin 2) ≠ 0), Lss.gauD1sigma] at this
    rw [← Finset.sum_div, div_eq_zero_iff, or_iff_left (by positivity), Finset.sum_sub_distrib, Finset.sum_const, nsmul_eq_mul] at this
    rw [eq_div_iff hc.ne']
    linarith

end lss

end Verif.Tot
