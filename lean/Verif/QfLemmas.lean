import Verif.QfTrunc
import Verif.QfTrap
import Verif.QfLaw

/-! Helper lemmas for the distribution function of weighted sums of chi-square variables. -/

namespace Verif.Qf

open Real MeasureTheory ProbabilityTheory

/-- The weights, each as often as it has degrees of freedom. -/
def spread (cs : Comps) : List ℝ := (cs.map fun p => List.replicate p.2.toNat p.1).flatten

theorem spread_sum {cs : Comps} (hn : ∀ p ∈ cs, 0 ≤ p.2) (f : ℝ → ℝ) :
    ((spread cs).map f).sum = (cs.map fun p : ℝ × ℤ => (p.2 : ℝ) * f p.1).sum := by
  unfold spread
  induction cs with
  | nil => simp
  | cons q l ih =>
    have hq := hn q List.mem_cons_self
    simp only [List.map_cons, List.flatten_cons, List.map_append, List.sum_append, List.sum_cons, List.map_replicate,
      List.sum_replicate, nsmul_eq_mul]
    rw [ih fun p hp => hn p (List.mem_cons_of_mem _ hp)]
    congr 2
    have : ((q.2.toNat : ℤ) : ℝ) = (q.2 : ℝ) := by rw [Int.toNat_of_nonneg hq]
    rw [← this]
    exact (Int.cast_natCast _).symm

theorem mem_spread {cs : Comps} {a : ℝ} (h : a ∈ spread cs) : ∃ p ∈ cs, p.1 = a := by
  unfold spread at h
  obtain ⟨l, hl, ha⟩ := List.mem_flatten.1 h
  obtain ⟨p, hp, rfl⟩ := List.mem_map.1 hl
  exact ⟨p, hp, (List.eq_of_mem_replicate ha).symm⟩

theorem spread_mem {cs : Comps} {p : ℝ × ℤ} (hp : p ∈ cs) (hn : 0 < p.2) : p.1 ∈ spread cs := by
  unfold spread
  refine List.mem_flatten.2 ⟨_, List.mem_map.2 ⟨p, hp, rfl⟩, List.mem_replicate.2 ⟨by omega, rfl⟩⟩

section Chernoff

variable {cs : Comps} (hn : ∀ p ∈ cs, 0 ≤ p.2) (v : NNReal) {u : ℝ} (hu : ∀ p ∈ cs, 2 * u * p.1 < 1)

include hn hu

/-- Exponent in Chernoff's bound at the cutoff. -/
theorem errbd_exponent :
    -u * cutoff cs v u + (1 / 2 * v * u ^ 2 + ((spread cs).map fun a => -(1 / 2) * log (1 - 2 * u * a)).sum)
      = -(1 / 2) * (u * (u * v) + (cs.map fun p : ℝ × ℤ => (p.2 : ℝ) * ((2 * u * p.1) ^ 2 / (1 - 2 * u * p.1)
        + log1 (-(2 * u * p.1)) false)).sum) := by
  rw [spread_sum hn]
  unfold cutoff
  have hs : (cs.map fun p : ℝ × ℤ => (p.2 : ℝ) * ((2 * u * p.1) ^ 2 / (1 - 2 * u * p.1) + log1 (-(2 * u * p.1)) false)).sum
      = 2 * u * (cs.map fun p : ℝ × ℤ => p.1 * (p.2 : ℝ) / (1 - 2 * u * p.1)).sum
        - 2 * (cs.map fun p : ℝ × ℤ => (p.2 : ℝ) * (-(1 / 2) * log (1 - 2 * u * p.1))).sum := by
    clear hn
    induction cs with
    | nil => simp
    | cons q l ih =>
      simp only [List.map_cons, List.sum_cons]
      rw [ih fun p hp => hu p (List.mem_cons_of_mem _ hp)]
      have hq : 1 - 2 * u * q.1 ≠ 0 := by have := hu q List.mem_cons_self; linarith
      unfold log1
      simp only [Bool.false_eq_true, if_false]
      rw [show 1 + -(2 * u * q.1) = 1 - 2 * u * q.1 by ring]
      field_simp
      ring
  rw [hs]
  ring

theorem tail_bound {accx : ℝ} (ha : exp (-50) ≤ accx) (h : errbd cs v u ≤ accx) :
    exp (-u * cutoff cs v u) * ∫ x, exp (u * x) ∂(sumLaw (spread cs) v) ≤ accx := by
  rw [(sumLaw_mgf (spread cs) v (u := u) fun a h => by
    obtain ⟨p, hp, rfl⟩ := mem_spread h
    exact hu p hp).2, ← exp_add, errbd_exponent hn v hu]
  exact exp1_le ha h

theorem errbd_upper (hu0 : 0 ≤ u) {accx : ℝ} (ha : exp (-50) ≤ accx) (h : errbd cs v u ≤ accx) :
    (sumLaw (spread cs) v).real (Set.Ici (cutoff cs v u)) ≤ accx := by
  have hi := (sumLaw_mgf (spread cs) v (u := u) fun a h => by
    obtain ⟨p, hp, rfl⟩ := mem_spread h
    exact hu p hp).1
  have := measure_ge_le_exp_mul_mgf (X := fun x => x) (cutoff cs v u) hu0 hi
  exact this.trans (tail_bound hn v hu ha h)

theorem errbd_lower (hu0 : u ≤ 0) {accx : ℝ} (ha : exp (-50) ≤ accx) (h : errbd cs v u ≤ accx) :
    (sumLaw (spread cs) v).real (Set.Iic (cutoff cs v u)) ≤ accx := by
  have hi := (sumLaw_mgf (spread cs) v (u := u) fun a h => by
    obtain ⟨p, hp, rfl⟩ := mem_spread h
    exact hu p hp).1
  have := measure_le_le_exp_mul_mgf (X := fun x => x) (cutoff cs v u) hu0 hi
  exact this.trans (tail_bound hn v hu ha h)

/-- The cutoff lies on the side of the mean given by the sign of `u`. -/
theorem cutoff_mean (hvar : 0 < (v : ℝ) + (cs.map fun p : ℝ × ℤ => p.1 ^ 2 * (2 * (p.2 : ℝ))).sum) :
    ∃ w, 0 < w ∧ cutoff cs v u - mean cs = u * w := by
  have hs : ∀ l : Comps, (∀ p ∈ l, 2 * u * p.1 < 1) →
      (l.map fun p : ℝ × ℤ => p.1 * (p.2 : ℝ) / (1 - 2 * u * p.1)).sum - (l.map fun p : ℝ × ℤ => p.1 * (p.2 : ℝ)).sum
        = u * (l.map fun p : ℝ × ℤ => p.1 ^ 2 * (2 * (p.2 : ℝ)) / (1 - 2 * u * p.1)).sum := by
    intro l hl
    induction l with
    | nil => simp
    | cons q l ih =>
      simp only [List.map_cons, List.sum_cons]
      have := ih fun p hp => hl p (List.mem_cons_of_mem _ hp)
      have hq : 1 - 2 * u * q.1 ≠ 0 := by have := hl q List.mem_cons_self; linarith
      have e : q.1 * (q.2 : ℝ) / (1 - 2 * u * q.1) - q.1 * (q.2 : ℝ) = u * (q.1 ^ 2 * (2 * (q.2 : ℝ)) / (1 - 2 * u * q.1)) := by
        have h1 : q.1 * (q.2 : ℝ) / (1 - 2 * u * q.1) - q.1 * (q.2 : ℝ)
            = (q.1 * (q.2 : ℝ) - q.1 * (q.2 : ℝ) * (1 - 2 * u * q.1)) / (1 - 2 * u * q.1) := by
          rw [sub_div, mul_div_cancel_right₀ _ hq]
        rw [h1, mul_div_assoc']
        congr 1
        ring
      rw [mul_add, ← this, ← e]
      ring
  refine ⟨v + (cs.map fun p : ℝ × ℤ => p.1 ^ 2 * (2 * (p.2 : ℝ)) / (1 - 2 * u * p.1)).sum, ?_, ?_⟩
  · have hnn : ∀ x ∈ (cs.map fun p : ℝ × ℤ => p.1 ^ 2 * (2 * (p.2 : ℝ)) / (1 - 2 * u * p.1)), 0 ≤ x := by
      intro x hx
      obtain ⟨p, hp, rfl⟩ := List.mem_map.1 hx
      have h1 : (0 : ℝ) ≤ (p.2 : ℝ) := by exact_mod_cast hn p hp
      have h2 : 0 < 1 - 2 * u * p.1 := by linarith [hu p hp]
      positivity
    have h0 := List.sum_nonneg hnn
    rcases (v.2 : (0 : ℝ) ≤ (v : ℝ)).lt_or_eq with hv | hv
    · have : (0 : ℝ) < (v : ℝ) := hv
      linarith
    · have hv0 : (v : ℝ) = 0 := hv.symm
      rw [hv0, zero_add] at hvar ⊢
      refine lt_of_le_of_ne h0 fun hne => ?_
      have hall : ∀ p ∈ cs, p.1 ^ 2 * (2 * (p.2 : ℝ)) = 0 := by
        intro p hp
        have hle := List.single_le_sum hnn _ (List.mem_map.2 ⟨p, hp, rfl⟩)
        have hge := hnn _ (List.mem_map.2 ⟨p, hp, rfl⟩)
        rw [← hne] at hle
        have h2 : 0 < 1 - 2 * u * p.1 := by linarith [hu p hp]
        have : p.1 ^ 2 * (2 * (p.2 : ℝ)) / (1 - 2 * u * p.1) = 0 := le_antisymm hle hge
        rcases div_eq_zero_iff.1 this with h | h
        · exact h
        · linarith
      have : (cs.map fun p : ℝ × ℤ => p.1 ^ 2 * (2 * (p.2 : ℝ))).sum = 0 := by
        rw [List.map_congr_left hall]
        simp
      linarith
  · unfold cutoff mean
    rw [mul_add, ← hs cs hu]
    ring

end Chernoff

/-- `u` lies where the moment generating function is finite. -/
theorem dom_upper {lmax u2 l : ℝ} (hl : l ≤ lmax) (h0 : 0 ≤ lmax) (hu : 0 ≤ u2) : 2 * (u2 / (1 + u2 * (2 * lmax))) * l < 1 := by
  have hd : 0 < 1 + u2 * (2 * lmax) := by positivity
  rw [show 2 * (u2 / (1 + u2 * (2 * lmax))) * l = 2 * u2 * l / (1 + u2 * (2 * lmax)) by ring, div_lt_one hd]
  nlinarith

theorem dom_lower {lmin u2 l : ℝ} (hl : lmin ≤ l) (h0 : lmin ≤ 0) (hu : u2 ≤ 0) : 2 * (u2 / (1 + u2 * (2 * lmin))) * l < 1 := by
  have hp : 0 ≤ u2 * (2 * lmin) := mul_nonneg_of_nonpos_of_nonpos hu (by linarith)
  have hd : 0 < 1 + u2 * (2 * lmin) := by linarith
  rw [show 2 * (u2 / (1 + u2 * (2 * lmin))) * l = 2 * u2 * l / (1 + u2 * (2 * lmin)) by ring, div_lt_one hd]
  nlinarith

section Ctff

variable (cs : Comps) (sigsq accx rb mn : ℝ)

/-- What `ctff` guarantees about `u2`, `c2`. -/
def Good (S : ℝ → Prop) (u2 c2 : ℝ) : Prop :=
  S u2 ∧ c2 = cutoff cs sigsq (u2 / (1 + u2 * rb)) ∧ errbd cs sigsq (u2 / (1 + u2 * rb)) ≤ accx

theorem ctff1_good {S : ℝ → Prop} (hS : ∀ u, S u → S (2 * u)) :
    ∀ (b : ℕ) (u1 c1 u2 : ℝ) (r : (ℝ × ℝ × ℝ × ℝ) × ℕ), S u2 → (u1 = 0 ∨ S u1) → ctff1 cs sigsq accx rb b u1 c1 u2 = some r →
      (r.1.1 = 0 ∨ S r.1.1) ∧ Good cs sigsq accx rb S r.1.2.2.1 r.1.2.2.2 := by
  intro b
  induction b with
  | zero => intro u1 c1 u2 r _ _ h; simp [ctff1] at h
  | succ b ih =>
    intro u1 c1 u2 r h2 h1 h
    unfold ctff1 at h
    dsimp only at h
    split_ifs at h with hc
    · exact ih _ _ _ _ (hS _ h2) (Or.inr h2) h
    · simp only [Option.some.injEq] at h
      subst h
      exact ⟨h1, h2, rfl, not_lt.1 hc⟩

theorem ctff2_good {S : ℝ → Prop} (hS : ∀ u w, (u = 0 ∨ S u) → S w → S ((u + w) / 2)) :
    ∀ (b : ℕ) (u1 c1 u2 c2 : ℝ) (r : (ℝ × ℝ) × ℕ), Good cs sigsq accx rb S u2 c2 → (u1 = 0 ∨ S u1) →
      ctff2 cs sigsq accx rb mn b u1 c1 u2 c2 = some r → Good cs sigsq accx rb S r.1.1 r.1.2 := by
  intro b
  induction b with
  | zero =>
    intro u1 c1 u2 c2 r h2 h1 h
    unfold ctff2 at h
    split_ifs at h
    simp only [Option.some.injEq] at h
    subst h
    exact h2
  | succ b ih =>
    intro u1 c1 u2 c2 r h2 h1 h
    unfold ctff2 at h
    dsimp only at h
    split_ifs at h with hc he
    · exact ih _ _ _ _ _ h2 (Or.inr (hS _ _ h1 h2.1)) h
    · exact ih _ _ _ _ _ ⟨hS _ _ h1 h2.1, rfl, not_lt.1 he⟩ h1 h
    · simp only [Option.some.injEq] at h
      subst h
      exact h2

end Ctff

/-- Bounds on the weights. -/
def Ext (cs : Comps) (lmin lmax : ℝ) : Prop := lmin ≤ 0 ∧ 0 ≤ lmax ∧ ∀ p ∈ cs, lmin ≤ p.1 ∧ p.1 ≤ lmax

theorem extremes_spec (cs : Comps) : Ext cs (extremes cs).2 (extremes cs).1 := by
  unfold extremes
  have : ∀ (l : Comps) (a : ℝ × ℝ), a.2 ≤ 0 → 0 ≤ a.1 →
      let r := l.foldl (fun a p => if a.1 < p.1 then (p.1, a.2) else if p.1 < a.2 then (a.1, p.1) else a) a
      r.2 ≤ a.2 ∧ a.1 ≤ r.1 ∧ ∀ p ∈ l, r.2 ≤ p.1 ∧ p.1 ≤ r.1 := by
    intro l
    induction l with
    | nil => intro a _ _; simp
    | cons q l ih =>
      intro a h2 h1
      dsimp only
      rw [List.foldl_cons]
      by_cases hq : a.1 < q.1
      · rw [if_pos hq]
        obtain ⟨i1, i2, i3⟩ := ih (q.1, a.2) h2 (by dsimp only; linarith)
        dsimp only at i1 i2 i3
        refine ⟨i1, by linarith, ?_⟩
        intro p hp
        rcases List.mem_cons.1 hp with rfl | hp
        · exact ⟨by linarith, i2⟩
        · exact i3 p hp
      · rw [if_neg hq]
        by_cases hq2 : q.1 < a.2
        · rw [if_pos hq2]
          obtain ⟨i1, i2, i3⟩ := ih (a.1, q.1) (by dsimp only; linarith) h1
          dsimp only at i1 i2 i3
          refine ⟨by linarith, i2, ?_⟩
          intro p hp
          rcases List.mem_cons.1 hp with rfl | hp
          · exact ⟨i1, by linarith⟩
          · exact i3 p hp
        · rw [if_neg hq2]
          obtain ⟨i1, i2, i3⟩ := ih a h2 h1
          refine ⟨i1, i2, ?_⟩
          intro p hp
          rcases List.mem_cons.1 hp with rfl | hp
          · exact ⟨by linarith, by linarith⟩
          · exact i3 p hp
  obtain ⟨h1, h2, h3⟩ := this cs (0, 0) le_rfl le_rfl
  exact ⟨h1, h2, h3⟩

/-- Weighted sum of variances is positive. -/
def VarPos (cs : Comps) (v : ℝ) : Prop := 0 < v + (cs.map fun p : ℝ × ℤ => p.1 ^ 2 * (2 * (p.2 : ℝ))).sum

theorem ctff_upper {cs : Comps} (hn : ∀ p ∈ cs, 0 ≤ p.2) {v : NNReal} (hv : VarPos cs v) {accx lmin lmax : ℝ} (hE : Ext cs lmin lmax)
    (ha : exp (-50) ≤ accx) {b : ℕ} {up : ℝ} (hup : 0 < up) {r : (ℝ × ℝ) × ℕ} (h : ctff cs v accx lmin lmax (mean cs) b up = some r) :
    mean cs < r.1.2 ∧ (sumLaw (spread cs) v).real (Set.Ici r.1.2) ≤ accx := by
  unfold ctff at h
  dsimp only at h
  rw [if_pos hup] at h
  cases h1 : ctff1 cs v accx (2 * lmax) b 0 (mean cs) up with
  | none => rw [h1] at h; simp at h
  | some q =>
    rw [h1] at h
    dsimp only at h
    obtain ⟨g1, g2⟩ := ctff1_good cs v accx (2 * lmax) (S := fun u => 0 < u) (fun u hu => by linarith) b _ _ _ _ hup (Or.inl rfl) h1
    obtain ⟨k1, k2, k3⟩ := ctff2_good cs v accx (2 * lmax) (mean cs) (S := fun u => 0 < u) (fun u w hu hw => by
      rcases hu with rfl | hu
      · linarith
      · linarith) _ _ _ _ _ _ g2 g1 h
    have hd : ∀ p ∈ cs, 2 * (r.1.1 / (1 + r.1.1 * (2 * lmax))) * p.1 < 1 := fun p hp => dom_upper (hE.2.2 p hp).2 hE.2.1 (le_of_lt k1)
    have hpos : 0 < r.1.1 / (1 + r.1.1 * (2 * lmax)) := by
      have h0 := hE.2.1
      have : 0 < 1 + r.1.1 * (2 * lmax) := by
        have := mul_nonneg (le_of_lt k1) h0
        linarith
      exact div_pos k1 this
    rw [k2]
    refine ⟨?_, errbd_upper hn v hd hpos.le ha k3⟩
    obtain ⟨w, hw, he⟩ := cutoff_mean hn v hd hv
    have := mul_pos hpos hw
    linarith

theorem ctff_lower {cs : Comps} (hn : ∀ p ∈ cs, 0 ≤ p.2) {v : NNReal} (hv : VarPos cs v) {accx lmin lmax : ℝ} (hE : Ext cs lmin lmax)
    (ha : exp (-50) ≤ accx) {b : ℕ} {un : ℝ} (hun : un < 0) {r : (ℝ × ℝ) × ℕ} (h : ctff cs v accx lmin lmax (mean cs) b un = some r) :
    r.1.2 < mean cs ∧ (sumLaw (spread cs) v).real (Set.Iic r.1.2) ≤ accx := by
  unfold ctff at h
  dsimp only at h
  rw [if_neg (not_lt.2 hun.le)] at h
  cases h1 : ctff1 cs v accx (2 * lmin) b 0 (mean cs) un with
  | none => rw [h1] at h; simp at h
  | some q =>
    rw [h1] at h
    dsimp only at h
    obtain ⟨g1, g2⟩ := ctff1_good cs v accx (2 * lmin) (S := fun u => u < 0) (fun u hu => by linarith) b _ _ _ _ hun (Or.inl rfl) h1
    obtain ⟨k1, k2, k3⟩ := ctff2_good cs v accx (2 * lmin) (mean cs) (S := fun u => u < 0) (fun u w hu hw => by
      rcases hu with rfl | hu
      · linarith
      · linarith) _ _ _ _ _ _ g2 g1 h
    have hd : ∀ p ∈ cs, 2 * (r.1.1 / (1 + r.1.1 * (2 * lmin))) * p.1 < 1 := fun p hp => dom_lower (hE.2.2 p hp).1 hE.1 (le_of_lt k1)
    have hneg : r.1.1 / (1 + r.1.1 * (2 * lmin)) < 0 := by
      have h0 := hE.1
      have : 0 < 1 + r.1.1 * (2 * lmin) := by
        have := mul_nonneg_of_nonpos_of_nonpos (le_of_lt k1) h0
        linarith
      exact div_neg_of_neg_of_pos k1 this
    rw [k2]
    refine ⟨?_, errbd_lower hn v hd hneg.le ha k3⟩
    obtain ⟨w, hw, he⟩ := cutoff_mean hn v hd hv
    have := mul_neg_of_neg_of_pos hneg hw
    linarith

section Findu

variable {cs : Comps} {sigsq accx : ℝ}

theorem enlarge_spec : ∀ (b : ℕ) (ut : ℝ) (r : ℝ × ℕ), 0 < ut → enlarge cs sigsq accx b ut = some r →
    0 < r.1 ∧ truncation cs r.1 0 sigsq ≤ accx := by
  intro b
  induction b with
  | zero => intro ut r _ h; simp [enlarge] at h
  | succ b ih =>
    intro ut r h0 h
    unfold enlarge at h
    split_ifs at h with hc
    · exact ih _ _ (by linarith) h
    · simp only [Option.some.injEq] at h
      subst h
      exact ⟨h0, not_lt.1 hc⟩

theorem reduce_spec : ∀ (b : ℕ) (ut : ℝ) (r : ℝ × ℕ), 0 < ut → truncation cs ut 0 sigsq ≤ accx → reduce cs sigsq accx b ut = some r →
    0 < r.1 ∧ truncation cs r.1 0 sigsq ≤ accx := by
  intro b
  induction b with
  | zero => intro ut r _ _ h; simp [reduce] at h
  | succ b ih =>
    intro ut r h0 h1 h
    unfold reduce at h
    split_ifs at h with hc
    · exact ih _ _ (by linarith) hc h
    · simp only [Option.some.injEq] at h
      subst h
      exact ⟨h0, h1⟩

theorem refine_spec : ∀ (ds : List ℝ) (b : ℕ) (ut : ℝ) (r : ℝ × ℕ), (∀ d ∈ ds, 0 < d) → 0 < ut → truncation cs ut 0 sigsq ≤ accx →
    refine cs sigsq accx ds b ut = some r → 0 < r.1 ∧ truncation cs r.1 0 sigsq ≤ accx := by
  intro ds
  induction ds with
  | nil =>
    intro b ut r _ h0 h1 h
    simp only [refine, Option.some.injEq] at h
    subst h
    exact ⟨h0, h1⟩
  | cons d ds ih =>
    intro b ut r hd h0 h1 h
    cases b with
    | zero => simp [refine] at h
    | succ b =>
      unfold refine at h
      have hd0 := hd d List.mem_cons_self
      refine ih b _ r (fun x hx => hd x (List.mem_cons_of_mem _ hx)) ?_ ?_ h
      · split_ifs
        · exact div_pos h0 hd0
        · exact h0
      · split_ifs with hc
        · exact hc
        · exact h1

theorem findu_spec {b : ℕ} {utx : ℝ} {r : ℝ × ℕ} (h0 : 0 < utx) (h : findu cs sigsq accx b utx = some r) :
    0 < r.1 ∧ truncation cs r.1 0 sigsq ≤ accx := by
  unfold findu at h
  cases b with
  | zero => simp at h
  | succ b =>
    dsimp only at h
    have hds : ∀ d ∈ ([2, 7 / 5, 6 / 5, 11 / 10] : List ℝ), 0 < d := by
      intro d hd
      fin_cases hd <;> norm_num
    by_cases hc : accx < truncation cs (utx / 4) 0 sigsq
    · rw [if_pos hc] at h
      cases h1 : enlarge cs sigsq accx b utx with
      | none => rw [h1] at h; simp at h
      | some q =>
        rw [h1] at h
        dsimp only at h
        obtain ⟨g1, g2⟩ := enlarge_spec _ _ _ h0 h1
        exact refine_spec _ _ _ _ hds g1 g2 h
    · rw [if_neg hc] at h
      cases h1 : reduce cs sigsq accx b (utx / 4) with
      | none => rw [h1] at h; simp at h
      | some q =>
        rw [h1] at h
        dsimp only at h
        obtain ⟨g1, g2⟩ := reduce_spec _ _ _ (by linarith) (not_lt.1 hc) h1
        exact refine_spec _ _ _ _ hds g1 g2 h

end Findu

/-- Terms of the trapezoidal rule, from the characteristic function. -/
theorem sin_integral {cs : Comps} (hn : ∀ p ∈ cs, 0 ≤ p.2) (v : NNReal) (c t : ℝ) :
    ∫ x, sin (t * (x - c)) ∂(sumLaw (spread cs) v) = exp (-(1 / 4) * pot cs v t) * sin (1 / 2 * sum1 cs c t) := by
  rw [im_charFun, sumLaw_charFun, spread_sum hn, spread_sum hn, ← Complex.exp_add]
  have e1 : -(1 / 2) * (v : ℝ) * t ^ 2 + (cs.map fun p : ℝ × ℤ => (p.2 : ℝ) * (-(1 / 4) * log (1 + (2 * p.1 * t) ^ 2))).sum
      = -(1 / 4) * pot cs v t := by
    unfold pot xsq
    have : (cs.map fun p : ℝ × ℤ => (p.2 : ℝ) * (-(1 / 4) * log (1 + (2 * p.1 * t) ^ 2))).sum
        = -(1 / 4) * (cs.map fun p : ℝ × ℤ => (p.2 : ℝ) * log (1 + (2 * t * p.1) ^ 2)).sum := by
      rw [← List.sum_map_mul_left]
      congr 1
      refine List.map_congr_left fun p _ => ?_
      rw [show 2 * p.1 * t = 2 * t * p.1 by ring]
      ring
    rw [this]
    ring
  have e2 : (cs.map fun p : ℝ × ℤ => (p.2 : ℝ) * (1 / 2 * arctan (2 * p.1 * t))).sum - t * c = 1 / 2 * sum1 cs c t := by
    unfold sum1
    have : (cs.map fun p : ℝ × ℤ => (p.2 : ℝ) * (1 / 2 * arctan (2 * p.1 * t))).sum
        = 1 / 2 * (cs.map fun p : ℝ × ℤ => (p.2 : ℝ) * arctan (2 * p.1 * t)).sum := by
      rw [← List.sum_map_mul_left]
      congr 1
      refine List.map_congr_left fun p _ => ?_
      ring
    rw [this]
    ring
  rw [e1, show ((-(1 / 4) * pot cs v t : ℝ) : ℂ) + ((cs.map fun p : ℝ × ℤ => (p.2 : ℝ) * (1 / 2 * arctan (2 * p.1 * t))).sum : ℝ) * Complex.I
      + -((t * c : ℝ) : ℂ) * Complex.I = ((-(1 / 4) * pot cs v t : ℝ) : ℂ)
      + (((cs.map fun p : ℝ × ℤ => (p.2 : ℝ) * (1 / 2 * arctan (2 * p.1 * t))).sum - t * c : ℝ) : ℂ) * Complex.I by push_cast; ring, e2,
    Complex.exp_add, ← Complex.ofReal_exp, Complex.im_ofReal_mul, Complex.exp_ofReal_mul_I_im]

theorem exp1_diff (x : ℝ) : |exp1 x - exp x| ≤ exp (-50) := by
  unfold exp1
  split_ifs with h
  · rw [zero_sub, abs_neg, abs_of_pos (exp_pos _)]
    exact exp_le_exp.2 h.le
  · rw [sub_self, abs_zero]
    exact (exp_pos _).le

/-- A term of the sum of the trapezoidal rule. -/
noncomputable def term (cs : Comps) (v c Δ : ℝ) (k : ℕ) : ℝ :=
  exp (-(1 / 4) * pot cs v (((k : ℝ) + 1 / 2) * Δ)) * sin (1 / 2 * sum1 cs c (((k : ℝ) + 1 / 2) * Δ)) / (π * ((k : ℝ) + 1 / 2))

theorem list_range_sum (n : ℕ) (f : ℕ → ℝ) : ((List.range n).map f).sum = ∑ k ∈ Finset.range n, f k := by
  induction n with
  | zero => simp
  | succ n ih => rw [List.range_succ, Finset.sum_range_succ, List.map_append, List.sum_append, ih]; simp

theorem integrate_diff (cs : Comps) (v c : ℝ) (n : ℕ) {Δ : ℝ} (hΔ : 0 < Δ) :
    |(integrate cs v c n Δ none).1 - ∑ k ∈ Finset.range (n + 1), term cs v c Δ k| ≤ (n + 1) * exp (-50) := by
  unfold integrate
  dsimp only
  rw [list_range_sum, ← Finset.sum_sub_distrib]
  refine (Finset.abs_sum_le_sum_abs _ _).trans ?_
  have : ∀ k ∈ Finset.range (n + 1), |sin (1 / 2 * sum1 cs c (((k : ℝ) + 1 / 2) * Δ)) * factor cs v Δ none k - term cs v c Δ k| ≤ exp (-50) := by
    intro k _
    have hk : (0 : ℝ) < (k : ℝ) + 1 / 2 := by positivity
    unfold factor term
    dsimp only
    rw [sum3_eq]
    generalize -(1 / 4) * pot cs v (((k : ℝ) + 1 / 2) * Δ) = x
    generalize 1 / 2 * sum1 cs c (((k : ℝ) + 1 / 2) * Δ) = y
    have e : sin y * (Δ / π * exp1 x / (((k : ℝ) + 1 / 2) * Δ)) - exp x * sin y / (π * ((k : ℝ) + 1 / 2))
        = sin y * (exp1 x - exp x) / (π * ((k : ℝ) + 1 / 2)) := by
      field_simp
    rw [e, abs_div, abs_mul, abs_of_pos (by positivity : 0 < π * ((k : ℝ) + 1 / 2)), div_le_iff₀ (by positivity)]
    have h1 := abs_sin_le_one y
    have h2 := exp1_diff x
    have h3 : (1 : ℝ) ≤ π * ((k : ℝ) + 1 / 2) := by
      have := pi_gt_three
      have hk0 : (0 : ℝ) ≤ k := by positivity
      nlinarith
    have h4 := exp_pos (-50 : ℝ)
    have h5 : |sin y| * |exp1 x - exp x| ≤ 1 * exp (-50) := mul_le_mul h1 h2 (abs_nonneg _) zero_le_one
    nlinarith
  refine (Finset.sum_le_sum this).trans ?_
  rw [Finset.sum_const, Finset.card_range, nsmul_eq_mul]
  push_cast
  exact le_rfl

theorem term_abs (cs : Comps) (v c : ℝ) {Δ : ℝ} (hΔ : 0 < Δ) (k : ℕ) : |term cs v c Δ k| ≤ Δ * dens cs v (((k : ℝ) + 1 / 2) * Δ) := by
  have hk : (0 : ℝ) < (k : ℝ) + 1 / 2 := by positivity
  unfold term dens
  rw [abs_div, abs_mul, abs_of_pos (exp_pos _), abs_of_pos (by positivity : 0 < π * ((k : ℝ) + 1 / 2))]
  have e : Δ * (exp (-(1 / 4) * pot cs v (((k : ℝ) + 1 / 2) * Δ)) / (π * (((k : ℝ) + 1 / 2) * Δ)))
      = exp (-(1 / 4) * pot cs v (((k : ℝ) + 1 / 2) * Δ)) / (π * ((k : ℝ) + 1 / 2)) := by
    field_simp
  rw [e]
  refine div_le_div_of_nonneg_right ?_ (by positivity)
  exact mul_le_of_le_one_right (exp_pos _).le (abs_sin_le_one _)

/-- Error of the main integration. -/
theorem main_error {cs : Comps} (hn : ∀ p ∈ cs, 0 ≤ p.2) {v : NNReal} (hv : VarPos cs v) {U accx accr c c1 c2 : ℝ} (hU : 0 < U)
    (ha0 : exp (-50) ≤ accx) (ha1 : accx < 1) (ht : truncation cs U 0 v ≤ accx) (h12 : c2 < c1)
    (hup : (sumLaw (spread cs) v).real (Set.Ici c1) ≤ accr) (hlo : (sumLaw (spread cs) v).real (Set.Iic c2) ≤ accr)
    {Δ : ℝ} (hΔ : Δ = 2 * π / max (c1 - c) (c - c2)) :
    |1 / 2 - (integrate cs v c ⌊U / Δ + 1 / 2⌋₊ Δ none).1 - (sumLaw (spread cs) v).real (Set.Iio c)|
      ≤ accx + accr + (⌊U / Δ + 1 / 2⌋₊ + 1) * exp (-50) := by
  have hm : 0 < max (c1 - c) (c - c2) := by
    by_contra h
    have h1 := (le_max_left (c1 - c) (c - c2)).trans (not_lt.1 h)
    have h2 := (le_max_right (c1 - c) (c - c2)).trans (not_lt.1 h)
    linarith
  have hΔ0 : 0 < Δ := by rw [hΔ]; positivity
  have hp : 2 * π / Δ = max (c1 - c) (c - c2) := by rw [hΔ]; field_simp
  obtain ⟨n, hnn⟩ : ∃ n, n = ⌊U / Δ + 1 / 2⌋₊ := ⟨_, rfl⟩
  rw [← hnn]
  -- no atoms
  have hnull : sumLaw (spread cs) v {c} = 0 := by
    refine sumLaw_null ?_ c
    by_cases hv0 : v = 0
    · right
      by_contra hno
      push Not at hno
      unfold VarPos at hv
      rw [hv0] at hv
      have : (cs.map fun p : ℝ × ℤ => p.1 ^ 2 * (2 * (p.2 : ℝ))).sum = 0 := by
        have hz : ∀ p ∈ cs, p.1 ^ 2 * (2 * (p.2 : ℝ)) = 0 := by
          intro p hp
          rcases (hn p hp).lt_or_eq with h | h
          · rw [hno _ (spread_mem hp h)]; simp
          · rw [← h]; simp
        rw [List.map_congr_left hz]; simp
      rw [this] at hv
      simp at hv
    · exact Or.inl hv0
  have htrap := trap_error (μ := sumLaw (spread cs) v) c hΔ0 rfl hnull
  rw [hp] at htrap
  have htend := trap_tendsto (μ := sumLaw (spread cs) v) c Δ
  simp_rw [sin_integral hn] at htend
  obtain ⟨L, hL⟩ : ∃ L, L = ∫ x, square (Δ * (x - c)) / π ∂(sumLaw (spread cs) v) := ⟨_, rfl⟩
  rw [← hL] at htrap htend
  have htail1 : (sumLaw (spread cs) v).real (Set.Iic (c - max (c1 - c) (c - c2))) ≤ accr := by
    refine le_trans (measureReal_mono ?_) hlo
    exact Set.Iic_subset_Iic.2 (by linarith [le_max_right (c1 - c) (c - c2)])
  have htail2 : (sumLaw (spread cs) v).real (Set.Ici (c + max (c1 - c) (c - c2))) ≤ accr := by
    refine le_trans (measureReal_mono ?_) hup
    exact Set.Ici_subset_Ici.2 (by linarith [le_max_left (c1 - c) (c - c2)])
  -- truncation
  have hUn : U ≤ ((n : ℝ) + 1 / 2) * Δ := by
    have := Nat.lt_floor_add_one (U / Δ + 1 / 2)
    rw [← hnn] at this
    have h2 : U / Δ < (n : ℝ) + 1 / 2 := by linarith
    rw [div_lt_iff₀ hΔ0] at h2
    exact h2.le
  have htr : |L - ∑ k ∈ Finset.range (n + 1), term cs v c Δ k| ≤ accx := by
    have hlim : Filter.Tendsto (fun N => |∑ k ∈ Finset.range (n + 1 + N), term cs v c Δ k - ∑ k ∈ Finset.range (n + 1), term cs v c Δ k|)
        Filter.atTop (nhds |L - ∑ k ∈ Finset.range (n + 1), term cs v c Δ k|) := by
      refine Filter.Tendsto.abs (Filter.Tendsto.sub_const ?_ _)
      have : Filter.Tendsto (fun N : ℕ => n + 1 + N) Filter.atTop Filter.atTop := Filter.tendsto_atTop_mono (fun N => by simp only [id]; omega) Filter.tendsto_id
      exact htend.comp this
    refine le_of_tendsto hlim (Filter.Eventually.of_forall fun N => ?_)
    rw [Finset.sum_range_add, add_sub_cancel_left]
    refine (Finset.abs_sum_le_sum_abs _ _).trans ?_
    have hb := truncation_bound hn v.2 hU ha0 ha1 ht hΔ0 hUn N
    refine le_trans (Finset.sum_le_sum fun i _ => ?_) hb
    have := term_abs cs v c hΔ0 (n + 1 + i)
    rw [show ((n : ℝ) + 1 / 2) * Δ + ((i : ℝ) + 1) * Δ = (((n + 1 + i : ℕ) : ℝ) + 1 / 2) * Δ by push_cast; ring]
    exact this
  have hint := integrate_diff cs v c n hΔ0
  rw [abs_le] at htr hint ⊢
  constructor <;> linarith [htrap.1, htrap.2, htr.1, htr.2, hint.1, hint.2]

end Verif.Qf
