import Verif.InvarModel
import Verif.InvarLemmas
import Verif.LmlFam

/-!
# Log-likelihoods, gradients and Hessians of rewritten data (property C126)
-/

namespace Verif.Invar
open Verif Matrix Lml

/-! ### Proportional hazard models -/

section haz
variable {n p nt : ℕ} {r delta : Fin n → ℕ} {X : Fin n → Fin p → ℝ} {S : Matrix (Fin p) (Fin p) ℝ} {chol noise}

theorem ris_perm (σ : Equiv.Perm (Fin n)) (j : ℕ) (f : Fin n → ℝ) :
    ∑ i ∈ Haz.ris (r ∘ σ) j, f (σ i) = ∑ i ∈ Haz.ris r j, f i := by
  unfold Haz.ris
  rw [Finset.sum_filter, Finset.sum_filter]
  exact Equiv.sum_comp σ fun i => if r i = j then f i else 0

theorem lt_perm (σ : Equiv.Perm (Fin n)) (j : ℕ) (f : Fin n → ℝ) :
    ∑ i with (r ∘ σ) i < j, f (σ i) = ∑ i with r i < j, f i := by
  rw [Finset.sum_filter, Finset.sum_filter]
  exact Equiv.sum_comp σ fun i => if r i < j then f i else 0

theorem haz_rows (σ : Equiv.Perm (Fin n)) :
    hazIn nt (r ∘ σ) (delta ∘ σ) (X ∘ σ) S chol noise = hazIn nt r delta X S chol noise := by
  have hd : ∀ j, Haz.dj (r ∘ σ) (delta ∘ σ) j = Haz.dj r delta j := fun j => ris_perm σ j fun i => (delta i : ℝ)
  have hg : ∀ c j, Haz.gammaP (r ∘ σ) (Haz.gam (X ∘ σ) c) j = Haz.gammaP r (Haz.gam X c) j := fun c j => by
    rw [Haz.gammaP_eq, Haz.gammaP_eq]; exact lt_perm σ j (Haz.gam X c)
  have hb : ∀ c j k, Haz.bp (r ∘ σ) (Haz.gam (X ∘ σ) c) (X ∘ σ) j k = Haz.bp r (Haz.gam X c) X j k := fun c j k => by
    rw [Haz.bp_eq, Haz.bp_eq]; exact lt_perm σ j fun i => Haz.gam X c i * X i k
  have ha : ∀ c j k l, Haz.Ap (r ∘ σ) (Haz.gam (X ∘ σ) c) (X ∘ σ) j k l = Haz.Ap r (Haz.gam X c) X j k l := fun c j k l => by
    rw [Haz.Ap_eq, Haz.Ap_eq]; exact lt_perm σ j fun i => Haz.gam X c i * X i k * X i l
  unfold hazIn
  congr 1
  · funext c
    congr 1
    unfold Haz.llk
    simp only [Haz.llk2_eq, hd, hg]
    congr 1
    exact Equiv.sum_comp σ fun i => (delta i : ℝ) * Haz.eta X c i
  · funext c k
    unfold Haz.gradient
    simp only [Haz.grad2_eq, hd, hg, hb]
    congr 1
    exact Equiv.sum_comp σ fun i => (delta i : ℝ) * X i k
  · funext c k l
    unfold Haz.hessian
    simp only [Haz.hess_eq, hd, hg, hb, ha]

variable (A : Matrix (Fin p) (Fin p) ℝ)

theorem eta_mix (c : Fin p → ℝ) : Haz.eta (fun i k => ∑ l, X i l * A l k) c = Haz.eta X (A *ᵥ c) := by
  funext i
  unfold Haz.eta mulVec dotProduct
  simp only [Finset.mul_sum, Finset.sum_mul]
  rw [Finset.sum_comm]
  exact Finset.sum_congr rfl fun l _ => Finset.sum_congr rfl fun k _ => by ring

theorem sum_mix {ι : Type} (s : Finset ι) (f : ι → ℝ) (g : ι → Fin p → ℝ) (k : Fin p) :
    ∑ i ∈ s, f i * ∑ l, g i l * A l k = ∑ l, A l k * ∑ i ∈ s, f i * g i l := by
  simp only [Finset.mul_sum]
  rw [Finset.sum_comm]
  exact Finset.sum_congr rfl fun l _ => Finset.sum_congr rfl fun i _ => by ring

theorem conj_apply (M : Matrix (Fin p) (Fin p) ℝ) (k l : Fin p) :
    (Aᵀ * M * A) k l = ∑ a, ∑ b, A a k * M a b * A b l := by
  rw [Matrix.mul_apply, Finset.sum_comm]
  refine Finset.sum_congr rfl fun b _ => ?_
  rw [Matrix.mul_apply, Finset.sum_mul]
  rfl

theorem swap3 {ι : Type} (s : Finset ι) (f : ι → Fin p → Fin p → ℝ) :
    ∑ a, ∑ b, ∑ j ∈ s, f j a b = ∑ j ∈ s, ∑ a, ∑ b, f j a b := by
  rw [Finset.sum_congr rfl fun a _ => Finset.sum_comm, Finset.sum_comm]

theorem haz_recombine :
    Same (hazIn nt r delta X S chol noise) (hazIn nt r delta (fun i k => ∑ l, X i l * A l k) (Aᵀ * S * A) chol noise) A := by
  have he := fun c => eta_mix (X := X) A c
  have hg : ∀ c, Haz.gam (fun i k => ∑ l, X i l * A l k) c = Haz.gam X (A *ᵥ c) := fun c => by unfold Haz.gam; rw [he]
  have hb : ∀ g j k, Haz.bp r g (fun i k => ∑ l, X i l * A l k) j k = ∑ l, A l k * Haz.bp r g X j l := fun g j k => by
    simp only [Haz.bp_eq]; exact sum_mix A _ _ _ _
  have ha : ∀ g j k l, Haz.Ap r g (fun i k => ∑ l, X i l * A l k) j k l = ∑ a, ∑ b, A a k * Haz.Ap r g X j a b * A b l := by
    intro g j k l
    simp only [Haz.Ap_eq, Finset.mul_sum, Finset.sum_mul]
    rw [swap3]
    refine Finset.sum_congr rfl fun i _ => ?_
    rw [Finset.sum_comm]
    exact Finset.sum_congr rfl fun b _ => Finset.sum_congr rfl fun a _ => by ring
  refine ⟨fun c => ?_, fun c => ?_, fun c => ?_, rfl⟩
  · show Fl.fin _ = Fl.fin _
    congr 1
    unfold Haz.llk
    rw [hg, he]
  · funext k
    show Haz.gradient nt r delta (fun i k => ∑ l, X i l * A l k) c k = ∑ l, A l k * Haz.gradient nt r delta X (A *ᵥ c) l
    unfold Haz.gradient
    rw [hg, sum_mix A]
    simp only [Haz.grad2_eq, hb, mul_add, Finset.sum_add_distrib]
    congr 1
    simp only [mul_neg, Finset.sum_neg_distrib, Finset.mul_sum]
    congr 1
    rw [Finset.sum_comm]
    refine Finset.sum_congr rfl fun j _ => ?_
    rw [Finset.sum_div, Finset.mul_sum]
    exact Finset.sum_congr rfl fun l _ => by ring
  · ext k l
    rw [conj_apply]
    show Haz.hessian nt r delta (fun i k => ∑ l, X i l * A l k) c k l = ∑ a, ∑ b, A a k * Haz.hessian nt r delta X (A *ᵥ c) a b * A b l
    unfold Haz.hessian
    rw [hg]
    simp only [Haz.hess_eq, Finset.mul_sum, Finset.sum_mul]
    rw [swap3]
    refine Finset.sum_congr rfl fun j _ => ?_
    rw [ha, hb, hb, mul_assoc (Haz.dj r delta j), Finset.sum_mul_sum, Finset.mul_sum, Finset.sum_div, Finset.mul_sum, Finset.sum_div,
      ← Finset.sum_sub_distrib]
    refine Finset.sum_congr rfl fun a _ => ?_
    rw [Finset.mul_sum, Finset.sum_div, Finset.mul_sum, Finset.sum_div, ← Finset.sum_sub_distrib]
    exact Finset.sum_congr rfl fun b _ => by ring

end haz

/-- Times on another scale: the same order, the same fit. -/
theorem haz_index {n nt nt' : ℕ} {ut ut' : ℕ → ℝ} {r r' : Fin n → ℕ} (h : Haz.Data nt ut r) (h' : Haz.Data nt' ut' r') {g : ℝ → ℝ}
    (hg : StrictMonoOn g (Set.range fun i => ut (r i))) (ht : ∀ i, ut' (r' i) = g (ut (r i))) : nt' = nt ∧ r' = r := by
  have hlt : ∀ a b, r a < r b ↔ r' a < r' b := by
    intro a b
    rw [← not_le, ← not_le, ← h.le_iff (h.r_lt a) (h.r_lt b), ← h'.le_iff (h'.r_lt a) (h'.r_lt b), ht, ht,
      hg.le_iff_le ⟨_, rfl⟩ ⟨_, rfl⟩]
  have heq : ∀ a b, r a = r b ↔ r' a = r' b := by
    intro a b
    have h1 := hlt a b
    have h2 := hlt b a
    omega
  have hr : ∀ m i, r i = m → r' i = m := by
    intro m
    induction m using Nat.strong_induction_on with
    | _ m ih =>
      intro i hi
      rcases lt_trichotomy (r' i) m with hm | hm | hm
      · obtain ⟨j, hj⟩ := h.surj (r' i) (hm.trans (hi ▸ h.r_lt i))
        have := ih (r' i) hm j hj
        have := (heq i j).2 this.symm
        omega
      · exact hm
      · obtain ⟨j, hj⟩ := h'.surj m (hm.trans (h'.r_lt i))
        have h1 := (hlt j i).2 (by omega)
        have := ih (r j) (by omega) j rfl
        omega
  have hrr : r' = r := funext fun i => hr _ i rfl
  refine ⟨?_, hrr⟩
  subst hrr
  rcases lt_trichotomy nt' nt with hn | hn | hn
  · obtain ⟨j, hj⟩ := h.surj nt' hn
    have := h'.r_lt j
    omega
  · exact hn
  · obtain ⟨j, hj⟩ := h'.surj nt hn
    have := h.r_lt j
    omega

/-! ### Location-scale models -/

section lss
variable {K n : ℕ} {fam : EtaBeta.LFam K} {w : ℕ → ℕ} {X : ℕ → Fin n → ℕ → ℝ} {y : Fin n → ℝ}
  {S : Matrix (Fin (∑ l ∈ Finset.range K, w l)) (Fin (∑ l ∈ Finset.range K, w l)) ℝ} {chol noise}

/-- First derivatives with respect to the predictors. -/
noncomputable def P1 (fam : EtaBeta.LFam K) (y : ℝ) (e : Fin K → ℝ) (k : ℕ) : ℝ :=
  ((EtaBeta.etaDerivs fam y (EtaBeta.musOf fam e)).1.getD k .nan).val

/-- Second derivatives with respect to the predictors. -/
noncomputable def P2 (fam : EtaBeta.LFam K) (y : ℝ) (e : Fin K → ℝ) (i j : ℕ) : ℝ :=
  if i = j then ((EtaBeta.etaDerivs fam y (EtaBeta.musOf fam e)).2.1.getD i .nan).val
  else if EtaBeta.posn K i j < K * (K - 1) / 2 then
    ((EtaBeta.etaDerivs fam y (EtaBeta.musOf fam e)).2.2.getD (EtaBeta.posn K i j) .nan).val
  else 0

/-- The same for predictors in any order. -/
noncomputable def P2s (fam : EtaBeta.LFam K) (y : ℝ) (e : Fin K → ℝ) (i j : ℕ) : ℝ :=
  if i ≤ j then P2 fam y e i j else P2 fam y e j i

theorem obs_get (len : ℕ) (f : Fin n → List Fl) (m : ℕ) (o : Fin n) :
    (EtaBeta.obsList len f).getD m 0 o = if m < len then ((f o).getD m .nan).val else 0 := by
  unfold EtaBeta.obsList
  by_cases h : m < len
  · simp [List.getD, h]
  · simp [List.getD, h]

theorem grad_at (c : (Σ k : Fin K, Fin (w k)) → ℝ) (q : Σ k : Fin K, Fin (w k)) :
    (EtaBeta.gradient fam w X y c).getD (EtaBeta.pos w q) 0 =
      ∑ o, P1 fam (y o) (EtaBeta.etaOf w X c o) q.1 * X q.1 o q.2 := by
  unfold EtaBeta.gradient EtaBeta.pos
  rw [List.getD, EtaBeta.grad_get K w X _ q.1.isLt q.2.isLt, Option.getD_some]
  refine Finset.sum_congr rfl fun o _ => ?_
  rw [obs_get, if_pos q.1.isLt]
  rfl

theorem D_at (c : (Σ k : Fin K, Fin (w k)) → ℝ) {i : ℕ} (j : ℕ) (hi : i < K) (o : Fin n) :
    EtaBeta.D (EtaBeta.obsList K fun o => (EtaBeta.etaDerivs fam (y o) (EtaBeta.musOf fam (EtaBeta.etaOf w X c o))).2.1)
      (EtaBeta.obsList (K * (K - 1) / 2) fun o => (EtaBeta.etaDerivs fam (y o) (EtaBeta.musOf fam (EtaBeta.etaOf w X c o))).2.2)
      K i j o = P2 fam (y o) (EtaBeta.etaOf w X c o) i j := by
  unfold EtaBeta.D P2
  split
  · rw [obs_get, if_pos hi]
  · rw [obs_get]

theorem hess_at {stored : ℕ → ℕ → ℕ → List ℕ} (hh : Holds fam w X y stored) (c : (Σ k : Fin K, Fin (w k)) → ℝ)
    (q q' : Σ k : Fin K, Fin (w k)) :
    EtaBeta.entry (EtaBeta.hessian fam w X y stored c) (EtaBeta.pos w q) (EtaBeta.pos w q') =
      ∑ o, P2s fam (y o) (EtaBeta.etaOf w X c o) q.1 q'.1 * X q.1 o q.2 * X q'.1 o q'.2 := by
  unfold EtaBeta.hessian EtaBeta.pos P2s
  dsimp only
  by_cases h : (q.1 : ℕ) ≤ q'.1
  · rw [(EtaBeta.hess_entry_le (hh c) h q'.1.isLt q.2.isLt q'.2.isLt).1]
    exact Finset.sum_congr rfl fun o _ => by rw [D_at c _ q.1.isLt, if_pos h]
  · rw [(EtaBeta.hess_entry_le (hh c) (not_le.1 h).le q.1.isLt q'.2.isLt q.2.isLt).2]
    exact Finset.sum_congr rfl fun o _ => by rw [D_at c _ q'.1.isLt, if_neg h]; ring

theorem place_eq (q : Σ k : Fin K, Fin (w k)) : place w q = at' w q := rfl

theorem sum_place (f : Fin (∑ l ∈ Finset.range K, w l) → ℝ) : ∑ i, f i = ∑ q : Σ k : Fin K, Fin (w k), f (place w q) :=
  (Fintype.sum_equiv (Equiv.ofBijective _ (at_bij (w := w) (K := K))) _ _ fun q => rfl).symm

theorem place_inj {q q' : Σ k : Fin K, Fin (w k)} : place w q = place w q' ↔ q = q' := at_bij.1.eq_iff

/-- Rows in another order. -/
theorem lss_rows (σ : Equiv.Perm (Fin n)) {stored stored' : ℕ → ℕ → ℕ → List ℕ} (h : Holds fam w X y stored)
    (h' : Holds fam w (fun k => X k ∘ σ) (y ∘ σ) stored') :
    lssIn fam w (fun k => X k ∘ σ) (y ∘ σ) stored' S chol noise = lssIn fam w X y stored S chol noise := by
  unfold lssIn
  congr 1
  · funext c
    congr 1
    exact Equiv.sum_comp σ fun o => fam.lp (y o) (EtaBeta.musOf fam (EtaBeta.etaOf w X (blk w c) o))
  · funext c i
    obtain ⟨q, rfl⟩ := at_bij.2 i
    rw [at_val, grad_at, grad_at]
    exact Equiv.sum_comp σ fun o => P1 fam (y o) (EtaBeta.etaOf w X (blk w c) o) q.1 * X q.1 o q.2
  · funext c i j
    obtain ⟨q, rfl⟩ := at_bij.2 i
    obtain ⟨q', rfl⟩ := at_bij.2 j
    rw [at_val, at_val, hess_at h', hess_at h]
    exact Equiv.sum_comp σ fun o => P2s fam (y o) (EtaBeta.etaOf w X (blk w c) o) q.1 q'.1 * X q.1 o q.2 * X q'.1 o q'.2

/-! Recombined columns -/

variable (B : (k : Fin K) → Matrix (Fin (w k)) (Fin (w k)) ℝ)

theorem whole_row (q : Σ k : Fin K, Fin (w k)) (c : Fin (∑ l ∈ Finset.range K, w l) → ℝ) :
    ∑ j, whole w B (place w q) j * c j = ∑ b, B q.1 q.2 b * c (place w ⟨q.1, b⟩) := by
  unfold whole
  simp only [Finset.sum_mul]
  rw [Finset.sum_comm, Finset.sum_eq_single q]
  · rw [Finset.sum_comm]
    refine Finset.sum_congr rfl fun b _ => ?_
    rw [Finset.sum_eq_single (place w ⟨q.1, b⟩)]
    · rw [if_pos ⟨rfl, rfl⟩]
    · intro j _ hj
      rw [if_neg fun h => hj h.2.symm, zero_mul]
    · simp
  · intro q' _ hq
    refine Finset.sum_eq_zero fun j _ => Finset.sum_eq_zero fun b _ => ?_
    rw [if_neg fun h => hq (place_inj.1 h.1), zero_mul]
  · simp

theorem whole_col (q : Σ k : Fin K, Fin (w k)) (g : Fin (∑ l ∈ Finset.range K, w l) → ℝ) :
    ∑ i, whole w B i (place w q) * g i = ∑ a, B q.1 a q.2 * g (place w ⟨q.1, a⟩) := by
  obtain ⟨k, b⟩ := q
  unfold whole
  simp only [Finset.sum_mul]
  rw [Finset.sum_comm, Fintype.sum_sigma, Finset.sum_eq_single k]
  · refine Finset.sum_congr rfl fun a _ => ?_
    rw [Finset.sum_eq_single (place w ⟨k, a⟩)]
    · dsimp only
      rw [Finset.sum_eq_single b]
      · rw [if_pos ⟨rfl, rfl⟩]
      · intro b' _ hb
        rw [if_neg, zero_mul]
        rintro ⟨-, h⟩
        have := place_inj.1 h
        exact hb (eq_of_heq (Sigma.mk.inj this).2)
      · simp
    · intro i _ hi
      refine Finset.sum_eq_zero fun b' _ => ?_
      rw [if_neg fun h => hi h.1.symm, zero_mul]
    · simp
  · intro k' _ hk
    refine Finset.sum_eq_zero fun a _ => Finset.sum_eq_zero fun i _ => Finset.sum_eq_zero fun b' _ => ?_
    rw [if_neg, zero_mul]
    rintro ⟨-, h⟩
    exact hk (Sigma.mk.inj (place_inj.1 h)).1
  · simp

theorem recombine_apply (q : Σ k : Fin K, Fin (w k)) (o : Fin n) :
    recombine w X B q.1 o q.2 = ∑ a : Fin (w q.1), X q.1 o a * B q.1 a q.2 := by
  unfold recombine
  rw [dif_pos q.1.isLt, dif_pos q.2.isLt]

theorem eta_recombine (c : Fin (∑ l ∈ Finset.range K, w l) → ℝ) (o : Fin n) :
    EtaBeta.etaOf w (recombine w X B) (blk w c) o = EtaBeta.etaOf w X (blk w (whole w B *ᵥ c)) o := by
  funext k
  unfold EtaBeta.etaOf
  have h1 : ∀ a : Fin (w k), blk w (whole w B *ᵥ c) ⟨k, a⟩ = ∑ b, B k a b * c (place w ⟨k, b⟩) := fun a => whole_row B ⟨k, a⟩ c
  have h2 : ∀ b : Fin (w k), recombine w X B k o b = ∑ a : Fin (w k), X k o a * B k a b := fun b => recombine_apply B ⟨k, b⟩ o
  simp only [h1, h2, Finset.mul_sum, Finset.sum_mul]
  rw [Finset.sum_comm]
  exact Finset.sum_congr rfl fun a _ => Finset.sum_congr rfl fun b _ => mul_assoc _ _ _

theorem lss_recombine {stored stored' : ℕ → ℕ → ℕ → List ℕ} (h : Holds fam w X y stored)
    (h' : Holds fam w (recombine w X B) y stored') :
    Same (lssIn fam w X y stored S chol noise)
      (lssIn fam w (recombine w X B) y stored' ((whole w B)ᵀ * S * whole w B) chol noise) (whole w B) := by
  refine ⟨fun c => ?_, fun c => ?_, fun c => ?_, rfl⟩
  · show Fl.fin (∑ o, _) = Fl.fin (∑ o, _)
    simp only [eta_recombine]
  · funext i
    obtain ⟨q, rfl⟩ := at_bij.2 i
    show (EtaBeta.gradient fam w (recombine w X B) y (blk w c)).getD (EtaBeta.pos w q) 0 =
      ∑ i, whole w B i (place w q) * (EtaBeta.gradient fam w X y (blk w (whole w B *ᵥ c))).getD i 0
    rw [whole_col B q fun i => (EtaBeta.gradient fam w X y (blk w (whole w B *ᵥ c))).getD i 0, grad_at]
    have : ∀ a : Fin (w q.1), (EtaBeta.gradient fam w X y (blk w (whole w B *ᵥ c))).getD (place w ⟨q.1, a⟩ : Fin _) 0 =
        ∑ o, P1 fam (y o) (EtaBeta.etaOf w X (blk w (whole w B *ᵥ c)) o) q.1 * X q.1 o a := fun a => grad_at _ ⟨q.1, a⟩
    simp only [this, eta_recombine, recombine_apply, Finset.mul_sum]
    rw [Finset.sum_comm]
    exact Finset.sum_congr rfl fun a _ => Finset.sum_congr rfl fun o _ => by ring
  · ext i j
    obtain ⟨q, rfl⟩ := at_bij.2 i
    obtain ⟨q', rfl⟩ := at_bij.2 j
    rw [conj_apply]
    show EtaBeta.entry (EtaBeta.hessian fam w (recombine w X B) y stored' (blk w c)) (EtaBeta.pos w q) (EtaBeta.pos w q') = _
    have e1 : ∀ i, ∑ j, whole w B i (place w q) * (lssIn fam w X y stored S chol noise).hess (whole w B *ᵥ c) i j * whole w B j (place w q') =
        whole w B i (place w q) * ∑ b, B q'.1 b q'.2 * (lssIn fam w X y stored S chol noise).hess (whole w B *ᵥ c) i (place w ⟨q'.1, b⟩) := by
      intro i
      rw [← whole_col B q' fun j => (lssIn fam w X y stored S chol noise).hess (whole w B *ᵥ c) i j, Finset.mul_sum]
      exact Finset.sum_congr rfl fun j _ => by ring
    have e2 := whole_col B q fun i => ∑ b, B q'.1 b q'.2 * (lssIn fam w X y stored S chol noise).hess (whole w B *ᵥ c) i (place w ⟨q'.1, b⟩)
    rw [← place_eq, ← place_eq, Finset.sum_congr rfl fun i _ => e1 i, e2, hess_at h']
    have e3 : ∀ (a : Fin (w q.1)) (b : Fin (w q'.1)),
        (lssIn fam w X y stored S chol noise).hess (whole w B *ᵥ c) (place w ⟨q.1, a⟩) (place w ⟨q'.1, b⟩) =
          ∑ o, P2s fam (y o) (EtaBeta.etaOf w X (blk w (whole w B *ᵥ c)) o) q.1 q'.1 * X q.1 o a * X q'.1 o b :=
      fun a b => hess_at h _ ⟨q.1, a⟩ ⟨q'.1, b⟩
    simp only [e3, eta_recombine, recombine_apply, Finset.mul_sum, Finset.sum_mul]
    rw [Finset.sum_comm]
    rw [Finset.sum_congr rfl fun b _ => Finset.sum_comm, Finset.sum_comm]
    exact Finset.sum_congr rfl fun a _ => Finset.sum_congr rfl fun b _ => Finset.sum_congr rfl fun o _ => by ring

theorem lss_hess_symm {stored : ℕ → ℕ → ℕ → List ℕ} (h : Holds fam w X y stored) (c) :
    ((lssIn fam w X y stored S chol noise).hess c).IsSymm := by
  ext i j
  obtain ⟨q, rfl⟩ := at_bij.2 i
  obtain ⟨q', rfl⟩ := at_bij.2 j
  show EtaBeta.entry (EtaBeta.hessian fam w X y stored (blk w c)) (EtaBeta.pos w q') (EtaBeta.pos w q) =
    EtaBeta.entry (EtaBeta.hessian fam w X y stored (blk w c)) (EtaBeta.pos w q) (EtaBeta.pos w q')
  rw [hess_at h, hess_at h]
  refine Finset.sum_congr rfl fun o _ => ?_
  have : ∀ e, P2s fam (y o) e q'.1 q.1 = P2s fam (y o) e q.1 q'.1 := by
    intro e
    unfold P2s
    rcases lt_trichotomy (q.1 : ℕ) q'.1 with hl | hl | hl
    · rw [if_neg (not_le.2 hl), if_pos hl.le]
    · rw [hl]
    · rw [if_pos hl.le, if_neg (not_le.2 hl)]
  rw [this]; ring

theorem whole_vec (c : Fin (∑ l ∈ Finset.range K, w l) → ℝ) (q : Σ k : Fin K, Fin (w k)) :
    (whole w B *ᵥ c) (place w q) = ∑ b, B q.1 q.2 b * c (place w ⟨q.1, b⟩) := whole_row B q c

theorem ext_vec {m : ℕ} {M N : Matrix (Fin m) (Fin m) ℝ} (h : ∀ c, M *ᵥ c = N *ᵥ c) : M = N := by
  ext i j
  have := congrFun (h (Pi.single j 1)) i
  simpa [mulVec_single_one] using this

theorem whole_unit (hB : ∀ k, IsUnit (B k)) : IsUnit (whole w B) := by
  refine IsUnit.of_mul_eq_one_right (whole w fun k => (B k)⁻¹) (ext_vec fun c => ?_)
  rw [← mulVec_mulVec, one_mulVec]
  funext i
  obtain ⟨q, rfl⟩ := at_bij.2 i
  rw [← place_eq, whole_vec]
  have h1 : ∀ b : Fin (w q.1), (whole w B *ᵥ c) (place w ⟨q.1, b⟩) = (B q.1 *ᵥ fun a => c (place w ⟨q.1, a⟩)) b :=
    fun b => whole_vec B c ⟨q.1, b⟩
  simp only [h1]
  have h2 : ((B q.1)⁻¹ *ᵥ (B q.1 *ᵥ fun a => c (place w ⟨q.1, a⟩))) q.2 = c (place w q) := by
    rw [mulVec_mulVec, Matrix.nonsing_inv_mul _ ((Matrix.isUnit_iff_isUnit_det _).1 (hB q.1)), one_mulVec]
  exact h2

theorem whole_diag (s : (Σ k : Fin K, Fin (w k)) → ℝ) :
    whole w (fun k => diagonal fun a => s ⟨k, a⟩) =
      diagonal fun i => s ((Equiv.ofBijective _ (at_bij (w := w) (K := K))).symm i) := by
  refine ext_vec fun c => ?_
  funext i
  obtain ⟨q, rfl⟩ := at_bij.2 i
  rw [← place_eq, whole_vec, mulVec_diagonal, Finset.sum_eq_single q.2]
  · have : (Equiv.ofBijective _ (at_bij (w := w) (K := K))).symm (place w q) = q :=
      (Equiv.ofBijective _ (at_bij (w := w) (K := K))).symm_apply_apply q
    rw [diagonal_apply_eq, this]
  · intro b _ hb
    rw [diagonal_apply_ne _ hb.symm, zero_mul]
  · simp

end lss

end Verif.Invar
