import Verif.RootFit

/-!
# Root of the total penalty and fits by QR decomposition (property C109)
-/

namespace Verif.Root

open Verif.Pen Finset

/-! ### The root -/

/-- **C109 (partial), root.** If the penalised blocks follow each other without gap, and the eigenvalues of the summed penalties of every block with several penalties are zero or above the tolerance, the root that is
returned squares to the total penalty.  Missing: smaller eigenvalues, see `root_close`, and gaps, see `gap_wrong`. -/
theorem root_square_partial (n : ℕ) (ps : List LTerm) (he : ∀ p ∈ ps, Emb n p) (hk : ∀ p ∈ ps, ∀ q ∈ ps, p.start = q.start → p.k = q.k) (bs : List RBlk)
    (h : collectR ps = some bs) (hc : Contiguous (bs.map (·.blk))) (eigh : Blk → (ℕ → ℝ) × Arr)
    (hu : ∀ b ∈ bs, b.blk.terms ≠ 1 → EighOf b.blk.k b.blk.S (eigh b.blk) ∧ ∀ j < b.blk.k, (eigh b.blk).1 j = 0 ∨ (eigh b.blk).1 j > rootTol) (i j : ℕ) :
    ∑ c ∈ range n, totalRoot eigh bs i c * totalRoot eigh bs j c = totalS ps i j := by
  have hl := root_loss n ps he hk bs h hc eigh i j
  have z : (bs.map fun b => if b.blk.terms = 1 then 0 else
      ∑ r ∈ range b.blk.rep, place (b.blk.start + r * b.blk.k) b.blk.k (fun a c => b.blk.S a c - trunc b.blk.k (eigh b.blk) a c) i j).sum = 0 := by
    refine List.sum_eq_zero fun x hx => ?_
    obtain ⟨b, hb, rfl⟩ := List.mem_map.1 hx
    split_ifs with ht
    · rfl
    · refine Finset.sum_eq_zero fun r _ => ?_
      obtain ⟨hE, hz⟩ := hu b hb ht
      rw [place_congr _ _ _ (fun _ _ => 0)]
      · unfold place
        split_ifs <;> rfl
      · intro a ha c hcc
        rw [← hE.fact a ha c hcc, trunc, ← Finset.sum_sub_distrib]
        refine Finset.sum_eq_zero fun l hl => ?_
        rcases hz l (mem_range.1 hl) with h0 | h0
        · rw [h0]
          split_ifs <;> ring
        · rw [if_pos h0]
          ring
  rw [z] at hl
  linarith

/-- **C109 (partial), root.** In general, for penalties that are positive semi-definite, the square of the root falls short of the total penalty by at most the tolerance: for all coefficients the penalty of the root is between
the penalty minus the tolerance times the sum of squared coefficients and the penalty. -/
theorem root_close (n : ℕ) (ps : List LTerm) (he : ∀ p ∈ ps, Emb n p) (hk : ∀ p ∈ ps, ∀ q ∈ ps, p.start = q.start → p.k = q.k) (bs : List RBlk)
    (h : collectR ps = some bs) (hc : Contiguous (bs.map (·.blk))) (eigh : Blk → (ℕ → ℝ) × Arr)
    (hu : ∀ b ∈ bs, b.blk.terms ≠ 1 → EighOf b.blk.k b.blk.S (eigh b.blk) ∧ ∀ j < b.blk.k, 0 ≤ (eigh b.blk).1 j) (β : ℕ → ℝ) :
    (∑ c ∈ range n, (∑ i ∈ range n, totalRoot eigh bs i c * β i) ^ 2 ≤ ∑ i ∈ range n, ∑ j ∈ range n, β i * totalS ps i j * β j) ∧
    ∑ i ∈ range n, ∑ j ∈ range n, β i * totalS ps i j * β j
      ≤ ∑ c ∈ range n, (∑ i ∈ range n, totalRoot eigh bs i c * β i) ^ 2 + rootTol * ∑ i ∈ range n, β i ^ 2 := by
  have e1 : ∑ c ∈ range n, (∑ i ∈ range n, totalRoot eigh bs i c * β i) ^ 2
      = ∑ i ∈ range n, ∑ j ∈ range n, β i * (∑ c ∈ range n, totalRoot eigh bs i c * totalRoot eigh bs j c) * β j := by
    have := quad_spec n (totalRoot eigh bs) (fun _ => 1) β
    simp only [mul_one, one_mul] at this
    exact this.symm
  have e2 : ∑ i ∈ range n, ∑ j ∈ range n, β i * totalS ps i j * β j - ∑ c ∈ range n, (∑ i ∈ range n, totalRoot eigh bs i c * β i) ^ 2
      = (bs.map fun b => if b.blk.terms = 1 then 0 else ∑ r ∈ range b.blk.rep, ∑ a ∈ range b.blk.k, ∑ c ∈ range b.blk.k,
          β (b.blk.start + r * b.blk.k + a) * (b.blk.S a c - trunc b.blk.k (eigh b.blk) a c) * β (b.blk.start + r * b.blk.k + c)).sum := by
    rw [e1, ← Finset.sum_sub_distrib]
    have e3 : ∀ i ∈ range n, ∑ j ∈ range n, β i * totalS ps i j * β j
          - ∑ j ∈ range n, β i * (∑ c ∈ range n, totalRoot eigh bs i c * totalRoot eigh bs j c) * β j
        = ∑ j ∈ range n, (bs.map fun b => if b.blk.terms = 1 then 0 else
          ∑ r ∈ range b.blk.rep, β i * place (b.blk.start + r * b.blk.k) b.blk.k (fun a c => b.blk.S a c - trunc b.blk.k (eigh b.blk) a c) i j * β j).sum := by
      intro i _
      rw [← Finset.sum_sub_distrib]
      refine Finset.sum_congr rfl fun j _ => ?_
      rw [← sub_mul, ← mul_sub, root_loss n ps he hk bs h hc eigh i j, ← List.sum_map_mul_left, ← List.sum_map_mul_right]
      congr 1
      refine List.map_congr_left fun b _ => ?_
      split_ifs
      · ring
      · rw [Finset.mul_sum, Finset.sum_mul]
    rw [Finset.sum_congr rfl e3]
    have e4 : ∀ (F : RBlk → ℕ → ℕ → ℝ) (l : List RBlk), ∑ i ∈ range n, ∑ j ∈ range n, (l.map fun b => F b i j).sum
        = (l.map fun b => ∑ i ∈ range n, ∑ j ∈ range n, F b i j).sum := by
      intro F l
      induction l with
      | nil => simp
      | cons b l ih => simp only [List.map_cons, List.sum_cons, Finset.sum_add_distrib, ih]
    rw [e4]
    congr 1
    refine List.map_congr_left fun b hb => ?_
    obtain ⟨hn, -⟩ := block_facts n ps he bs h b hb
    by_cases ht : b.blk.terms = 1
    · simp [if_pos ht]
    · simp only [if_neg ht]
      rw [Finset.sum_congr rfl fun i _ => Finset.sum_comm, Finset.sum_comm]
      refine Finset.sum_congr rfl fun r hr => ?_
      have h1 : (r + 1) * b.blk.k ≤ b.blk.rep * b.blk.k := Nat.mul_le_mul_right _ (mem_range.1 hr)
      have h2 : (r + 1) * b.blk.k = r * b.blk.k + b.blk.k := by ring
      have h3 : b.blk.rep * b.blk.k = b.blk.k * b.blk.rep := by ring
      exact quad_place n b.blk.k _ _ (by omega) β
  have bound : ∀ b ∈ bs, 0 ≤ (if b.blk.terms = 1 then (0 : ℝ) else ∑ r ∈ range b.blk.rep, ∑ a ∈ range b.blk.k, ∑ c ∈ range b.blk.k,
          β (b.blk.start + r * b.blk.k + a) * (b.blk.S a c - trunc b.blk.k (eigh b.blk) a c) * β (b.blk.start + r * b.blk.k + c)) ∧
      (if b.blk.terms = 1 then (0 : ℝ) else ∑ r ∈ range b.blk.rep, ∑ a ∈ range b.blk.k, ∑ c ∈ range b.blk.k,
          β (b.blk.start + r * b.blk.k + a) * (b.blk.S a c - trunc b.blk.k (eigh b.blk) a c) * β (b.blk.start + r * b.blk.k + c))
        ≤ rootTol * ∑ i ∈ Ico b.blk.start (b.blk.start + b.blk.k * b.blk.rep), β i ^ 2 := by
    intro b hb
    split_ifs with ht
    · exact ⟨le_rfl, mul_nonneg rootTol_pos.le (Finset.sum_nonneg fun i _ => sq_nonneg _)⟩
    · obtain ⟨hE, hp⟩ := hu b hb ht
      refine ⟨Finset.sum_nonneg fun r _ => (block_loss _ _ _ hE hp _).1, ?_⟩
      rw [← sum_repeats (fun i => β i ^ 2), Finset.mul_sum]
      exact Finset.sum_le_sum fun r _ => (block_loss _ _ _ hE hp fun a => β (b.blk.start + r * b.blk.k + a)).2
  have low : 0 ≤ ∑ i ∈ range n, ∑ j ∈ range n, β i * totalS ps i j * β j - ∑ c ∈ range n, (∑ i ∈ range n, totalRoot eigh bs i c * β i) ^ 2 := by
    rw [e2]
    refine List.sum_nonneg fun x hx => ?_
    obtain ⟨b, hb, rfl⟩ := List.mem_map.1 hx
    exact (bound b hb).1
  have up : ∑ i ∈ range n, ∑ j ∈ range n, β i * totalS ps i j * β j - ∑ c ∈ range n, (∑ i ∈ range n, totalRoot eigh bs i c * β i) ^ 2
      ≤ rootTol * ∑ i ∈ range n, β i ^ 2 := by
    rw [e2]
    refine (List.sum_le_sum fun b hb => (bound b hb).2).trans ?_
    rw [List.sum_map_mul_left]
    refine mul_le_mul_of_nonneg_left ?_ rootTol_pos.le
    rw [← Nat.Ico_zero_eq_range]
    have hp := contiguous_pairwise _ hc
    rw [List.pairwise_map] at hp
    exact sum_intervals bs (fun b => b.blk.start) (fun b => b.blk.start + b.blk.k * b.blk.rep) hp n
      (fun b hb => ⟨by omega, (block_facts n ps he bs h b hb).1⟩) (fun i => β i ^ 2) (fun i => sq_nonneg _) 0 (fun b _ => Nat.zero_le _)
  constructor <;> linarith

/-- **C109, root.** The hypotheses on the penalties hold for penalties built for a term whose root squares to the penalty, and for the penalties of each of several formulas. -/
theorem emb_holds (ns : List ℕ) (fi : ℕ) (extra : Option ℕ) (T Dl : Trip) (k rank levels cur : ℕ) (id : Option ℕ) (lam : ℝ) (hT : InRange k T) (hD : InRange k Dl)
    (hl : 0 < levels) (hlam : 0 ≤ lam) (hn : cur + levels * k ≤ ns.getD fi 0) (hroot : ∀ a < k, ∀ b < k, ∑ l ∈ range k, coo Dl a l * coo Dl b l = coo T a b) :
    Emb (embedFormula ns fi extra (buildShared T Dl k rank levels cur id lam).1).2 (embedFormula ns fi extra (buildShared T Dl k rank levels cur id lam).1).1 :=
  emb_formula ns fi extra _ (emb_built _ T Dl k rank levels cur id lam hT hD hl hlam hn hroot)

/-! ### Coefficients -/

section
variable {N n : ℕ} (amd : (Fin (N + n) → Fin n → ℝ) → Equiv.Perm (Fin n)) (qr : (Fin (N + n) → Fin n → ℝ) → Option (Qr (N + n) n))
  (y : Fin N → ℝ) (X : Fin N → Fin n → ℝ) (S_root : Fin n → Fin n → ℝ) (u : Upd n)

/-- **C109, coefficients.** Every coefficient is either kept or dropped; there are as many kept coefficients as the rank; both lists are increasing; dropped coefficients are zero.  (If the decomposition fails the fit raises
an error.) -/
theorem fit_keep (hq : QrOk qr) (h : updateCoef amd qr y X S_root = some u) :
    (∀ j, j ∈ u.keep ↔ j ∉ u.drop) ∧ u.keep.length = u.rank ∧ u.keep.length + u.drop.length = n ∧ u.keep.Pairwise (· < ·) ∧ u.drop.Pairwise (· < ·) ∧
      ∀ j ∈ u.drop, u.coef j = 0 := by
  obtain ⟨f, -⟩ := facts amd qr hq y X S_root u h
  refine ⟨fun j => ?_, f.length, ?_, ?_, ?_, fun j hj => ?_⟩
  · rw [f.mem_keep, f.mem_drop, not_le]
  · rw [f.keep, f.drop]
    have := List.length_eq_length_filter_add (l := List.finRange n) fun j => decide ((f.pos j).val < f.q.rank)
    rw [List.length_finRange] at this
    simp only [decide_not]
    exact this.symm
  · rw [f.keep]
    exact (List.pairwise_lt_finRange n).filter _
  · rw [f.drop]
    exact (List.pairwise_lt_finRange n).filter _
  · rw [f.coef]
    exact f.behind _ ((f.mem_drop j).1 hj)

/-- **C109, coefficients.** The coefficients satisfy the penalised normal equations of the kept coefficients, `X'(y - X β) = S_root S_root' β`. -/
theorem fit_normal (hq : QrOk qr) (h : updateCoef amd qr y X S_root = some u) (j : Fin n) (hj : j ∈ u.keep) :
    ∑ i, X i j * (y i - ∑ k, X i k * u.coef k) = ∑ k, (∑ l, S_root j l * S_root k l) * u.coef k := by
  obtain ⟨f, -⟩ := facts amd qr hq y X S_root u h
  have := f.normal j (f.kept j hj)
  rw [Fin.sum_univ_add] at this
  simp only [stack_left, stack_right, Fin.addCases_left, Fin.addCases_right] at this
  have e : ∑ k, (∑ l, S_root j l * S_root k l) * u.coef k = - ∑ l, S_root j l * (0 - ∑ k, S_root k l * u.coef k) := by
    rw [← Finset.sum_neg_distrib]
    have e1 : ∀ l, -(S_root j l * (0 - ∑ k, S_root k l * u.coef k)) = ∑ k, S_root j l * S_root k l * u.coef k := by
      intro l
      rw [zero_sub, mul_neg, neg_neg, Finset.mul_sum]
      exact Finset.sum_congr rfl fun k _ => by ring
    rw [Finset.sum_congr rfl fun l _ => e1 l, Finset.sum_comm]
    exact Finset.sum_congr rfl fun k _ => by rw [Finset.sum_mul]
  rw [e]
  linarith

/-- **C109, coefficients.** Among all coefficients that are zero where coefficients were dropped, the returned ones are the only minimiser of the penalised sum of squares. -/
theorem fit_least (hq : QrOk qr) (h : updateCoef amd qr y X S_root = some u) (β : Fin n → ℝ) (hβ : ∀ j ∈ u.drop, β j = 0) :
    ∑ i, (y i - ∑ k, X i k * u.coef k) ^ 2 + ∑ l, (∑ k, S_root k l * u.coef k) ^ 2 ≤ ∑ i, (y i - ∑ k, X i k * β k) ^ 2 + ∑ l, (∑ k, S_root k l * β k) ^ 2 ∧
    (∑ i, (y i - ∑ k, X i k * β k) ^ 2 + ∑ l, (∑ k, S_root k l * β k) ^ 2 ≤ ∑ i, (y i - ∑ k, X i k * u.coef k) ^ 2 + ∑ l, (∑ k, S_root k l * u.coef k) ^ 2 → β = u.coef) := by
  obtain ⟨f, -⟩ := facts amd qr hq y X S_root u h
  obtain ⟨hkd, -, -, -, -, hd0⟩ := fit_keep amd qr y X S_root u hq h
  have key := ls_expand (stack X fun i j => S_root j i) (Fin.addCases y (fun _ => 0) : Fin (N + n) → ℝ) u.coef β fun k => by
    by_cases hk : k ∈ u.drop
    · exact Or.inl (by rw [hβ k hk, hd0 k hk])
    · exact Or.inr (f.normal k (f.kept k ((hkd k).2 hk)))
  rw [obj_stack, obj_stack] at key
  have hnn : ∀ i, 0 ≤ (∑ k, stack X (fun i j => S_root j i) i k * (β k - u.coef k)) ^ 2 := fun i => sq_nonneg _
  refine ⟨by rw [key]; linarith [Finset.sum_nonneg fun i (_ : i ∈ univ) => hnn i], fun hle => ?_⟩
  have hz : ∑ i, (∑ k, stack X (fun i j => S_root j i) i k * (β k - u.coef k)) ^ 2 = 0 :=
    le_antisymm (by linarith) (Finset.sum_nonneg fun i _ => hnn i)
  rw [Finset.sum_eq_zero_iff_of_nonneg fun i _ => hnn i] at hz
  have := f.indep (fun k => β k - u.coef k) (fun j hj => by rw [hβ j hj, hd0 j hj, sub_zero]) fun i => by
    have := hz i (mem_univ i)
    exact pow_eq_zero_iff two_ne_zero |>.1 this
  funext j
  have := congrFun this j
  simp only [Pi.zero_apply] at this
  linarith

/-- **C109 (partial), coefficients.** If what the decomposition leaves behind the rank is exactly zero, the returned coefficients minimise the penalised sum of squares among all coefficients, and coefficients are dropped
exactly if not all of them can be told apart by the data and the penalty.  Missing: remainders below the threshold of the decomposition that are not zero. -/
theorem fit_global_partial (hq : QrOk qr) (hx : ∀ A q, qr A = some q → ∀ i p, q.rank ≤ i.val → q.R i p = 0) (h : updateCoef amd qr y X S_root = some u) :
    (∀ β : Fin n → ℝ, ∑ i, (y i - ∑ k, X i k * u.coef k) ^ 2 + ∑ l, (∑ k, S_root k l * u.coef k) ^ 2
      ≤ ∑ i, (y i - ∑ k, X i k * β k) ^ 2 + ∑ l, (∑ k, S_root k l * β k) ^ 2) ∧
    (u.drop = [] ↔ ∀ d : Fin n → ℝ, (∀ i, ∑ k, X i k * d k = 0) → (∀ l, ∑ k, S_root k l * d k = 0) → d = 0) := by
  obtain ⟨f, hf⟩ := facts amd qr hq y X S_root u h
  have h0 := hx _ _ hf
  refine ⟨fun β => ?_, fun hd d h1 h2 => ?_, fun hi => ?_⟩
  · have key := ls_expand (stack X fun i j => S_root j i) (Fin.addCases y (fun _ => 0) : Fin (N + n) → ℝ) u.coef β fun k =>
      Or.inr (f.normal k fun i hi => h0 i _ hi)
    rw [obj_stack, obj_stack] at key
    rw [key]
    linarith [Finset.sum_nonneg fun i (_ : i ∈ univ) => sq_nonneg (∑ k, stack X (fun i j => S_root j i) i k * (β k - u.coef k))]
  · refine f.indep d (fun j hj => by rw [hd] at hj; simp at hj) fun i => ?_
    refine Fin.addCases (fun i => ?_) (fun i => ?_) i
    · rw [stack_left]
      exact h1 i
    · rw [stack_right]
      exact h2 i
  · rw [List.eq_nil_iff_forall_not_mem]
    intro j hj
    have hp := (f.mem_drop j).1 hj
    obtain ⟨s1, s2⟩ := qr_solve f.of fun i => if hi : i < N + n then f.q.R ⟨i, hi⟩ (f.pos j) else 0
    generalize back (fun i j => if h : i < N + n ∧ j < n then f.q.R ⟨i, h.1⟩ ⟨j, h.2⟩ else 0) (fun i => if hi : i < N + n then f.q.R ⟨i, hi⟩ (f.pos j) else 0)
      f.q.rank f.q.rank = c at s1 s2
    have hR : ∀ l, ∑ p, f.q.R l p * ((if p = f.pos j then 1 else 0) - c p) = 0 := by
      intro l
      simp only [mul_sub, Finset.sum_sub_distrib, mul_ite, mul_one, mul_zero, Finset.sum_ite_eq', mem_univ, if_true]
      by_cases hl : l.val < f.q.rank
      · rw [s1 l hl, dif_pos l.isLt, sub_self]
      · rw [h0 l _ (not_lt.1 hl), Finset.sum_eq_zero fun p _ => by rw [h0 l p (not_lt.1 hl), zero_mul], sub_zero]
    have hA : ∀ i, ∑ p, f.A i (f.q.piv p) * ((if p = f.pos j then 1 else 0) - c p) = 0 := by
      intro i
      have e : ∀ p, f.A i (f.q.piv p) * ((if p = f.pos j then 1 else 0) - c p) = ∑ l, f.q.Q i l * (f.q.R l p * ((if p = f.pos j then 1 else 0) - c p)) := by
        intro p
        rw [f.of.fact, Finset.sum_mul]
        exact Finset.sum_congr rfl fun l _ => by ring
      rw [Finset.sum_congr rfl fun p _ => e p, Finset.sum_comm]
      refine Finset.sum_eq_zero fun l _ => ?_
      rw [← Finset.mul_sum, hR l, mul_zero]
    have hS : ∀ i, ∑ k, stack X (fun i j => S_root j i) i k * ((if f.pos k = f.pos j then 1 else 0) - c (f.pos k)) = 0 := by
      intro i
      rw [f.sum fun k => (if f.pos k = f.pos j then 1 else 0) - c (f.pos k)]
      simpa using hA i
    have := hi (fun k => (if f.pos k = f.pos j then 1 else 0) - c (f.pos k)) (fun i => by
      have := hS (Fin.castAdd n i)
      rwa [stack_left] at this) fun l => by
      have := hS (Fin.natAdd N l)
      rwa [stack_right] at this
    have := congrFun this j
    simp only [if_true, Pi.zero_apply, s2 _ hp] at this
    norm_num at this

/-- **C109, factor.** The factor that is kept squares to the penalised cross-product of the kept coefficients, and is zero at dropped ones. -/
theorem fit_factor (hq : QrOk qr) (h : updateCoef amd qr y X S_root = some u) :
    (∀ i ∈ u.keep, ∀ j ∈ u.keep, ∑ l, factor u i l * factor u j l = ∑ r, X r i * X r j + ∑ l, S_root i l * S_root j l) ∧
    ∀ i j, i ∈ u.drop ∨ j ∈ u.drop → factor u i j = 0 := by
  obtain ⟨f, -⟩ := facts amd qr hq y X S_root u h
  obtain ⟨hkd, -⟩ := fit_keep amd qr y X S_root u hq h
  refine ⟨fun i hi j hj => f.square i j hi hj, fun i j hij => factor_zero u i j ?_⟩
  rcases hij with hi | hj
  · exact Or.inl fun hk => (hkd i).1 hk hi
  · exact Or.inr fun hk => (hkd j).1 hk hj

/-- **C109 (partial), penalised fit.** With the root of the total penalty, and penalised blocks that follow each other without gap, the returned coefficients minimise the sum of squares plus the total penalty among all
coefficients that are zero where coefficients were dropped, up to the tolerance of the root times the squared length of the returned coefficients.  Missing: gaps, see `gap_wrong`. -/
theorem fit_penalised_partial (hq : QrOk qr) (ps : List LTerm) (he : ∀ p ∈ ps, Emb n p) (hk : ∀ p ∈ ps, ∀ q ∈ ps, p.start = q.start → p.k = q.k) (bs : List RBlk)
    (hb : collectR ps = some bs) (hc : Contiguous (bs.map (·.blk))) (eigh : Blk → (ℕ → ℝ) × Arr)
    (hu : ∀ b ∈ bs, b.blk.terms ≠ 1 → EighOf b.blk.k b.blk.S (eigh b.blk) ∧ ∀ j < b.blk.k, 0 ≤ (eigh b.blk).1 j)
    (h : updateCoef amd qr y X (fun i j => totalRoot eigh bs i j) = some u) (β : Fin n → ℝ) (hβ : ∀ j ∈ u.drop, β j = 0) :
    ∑ i, (y i - ∑ k, X i k * u.coef k) ^ 2 + ∑ i : Fin n, ∑ j : Fin n, u.coef i * totalS ps i j * u.coef j
      ≤ ∑ i, (y i - ∑ k, X i k * β k) ^ 2 + ∑ i : Fin n, ∑ j : Fin n, β i * totalS ps i j * β j + rootTol * ∑ i, u.coef i ^ 2 := by
  have key := (fit_least amd qr y X _ u hq h β hβ).1
  have both : ∀ γ : Fin n → ℝ, (∑ l : Fin n, (∑ k : Fin n, totalRoot eigh bs k l * γ k) ^ 2 ≤ ∑ i : Fin n, ∑ j : Fin n, γ i * totalS ps i j * γ j) ∧
      ∑ i : Fin n, ∑ j : Fin n, γ i * totalS ps i j * γ j ≤ ∑ l : Fin n, (∑ k : Fin n, totalRoot eigh bs k l * γ k) ^ 2 + rootTol * ∑ i, γ i ^ 2 := by
    intro γ
    have := root_close n ps he hk bs hb hc eigh hu fun i => if h : i < n then γ ⟨i, h⟩ else 0
    simp only [Finset.sum_range, Fin.is_lt, dite_true, Fin.eta] at this
    exact this
  linarith [(both u.coef).2, (both β).1]

end

/-! ### Gaps between penalised blocks -/

/-- Penalties of the witness: coefficient 1 has one penalty, coefficient 3 has two, coefficients 0 and 2 have none. -/
noncomputable def gapPens : List LTerm := [pen1 1 none, pen1 3 none, pen1 3 none]

/-- Their blocks. -/
noncomputable def gapBlocks : List RBlk :=
  [⟨⟨fun i j => (pen1 1 none).SJ i j * 1, 1, 1, 1, 1⟩, some fun i j => (pen1 1 none).Demb i j * Real.sqrt 1⟩,
    ⟨⟨fun i j => (pen1 3 none).SJ i j * 1 + (pen1 3 none).SJ i j * 1, 1, 2, 1, 3⟩, none⟩]

/-- Eigenvalue and eigenvector of a block with one coefficient. -/
noncomputable def eigh1 (b : Blk) : (ℕ → ℝ) × Arr := (fun _ => b.S 0 0, fun _ _ => 1)

theorem eigh1_of (b : Blk) (h : b.k = 1) : EighOf b.k b.S (eigh1 b) := by
  rw [h]
  constructor
  · intro a ha c hc
    have : a = 0 := by omega
    have : c = 0 := by omega
    subst a c
    simp [eigh1]
  · intro a ha c hc
    have : a = 0 := by omega
    have : c = 0 := by omega
    subst a c
    simp [eigh1]
  · intro a ha c hc
    have : a = 0 := by omega
    have : c = 0 := by omega
    subst a c
    simp [eigh1]

theorem rootTol_lt : rootTol < 1 := by
  unfold rootTol
  refine Real.rpow_lt_one (by positivity) ?_ (by norm_num)
  rw [zpow_neg]
  norm_num

theorem gap_collect : collectR gapPens = some gapBlocks := by
  simp [collectR, collectStepR, gapPens, gapBlocks, pen1, List.range_succ]

theorem gap_root (i j : ℕ) : totalRoot eigh1 gapBlocks i j = (if i = 1 ∧ j = 1 then 1 else 0) + if i = 2 ∧ j = 2 then (2 : ℝ) ^ (1 / 2 : ℝ) else 0 := by
  have h2 : ((1 : ℝ) + 1) > rootTol := by linarith [rootTol_lt]
  have hS : (pen1 3 none).SJ 0 0 * 1 + (pen1 3 none).SJ 0 0 * 1 = 1 + 1 := by simp [pen1, coo]
  simp only [totalRoot, gapBlocks, List.foldl_cons, List.foldl_nil, rootStep, if_true, addSingle]
  simp only [dRoot, eigh1, shiftT, pen1, coo, List.range_one, List.flatMap_cons, List.flatMap_nil, List.map_cons, List.map_nil, List.append_nil, List.nil_append,
    List.foldl_cons, List.foldl_nil, List.sum_cons, List.sum_nil]
  simp [h2, eq_comm, add_comm]
  norm_num

theorem gap_gram (i j : Fin 4) : ∑ l : Fin 4, totalRoot eigh1 gapBlocks i l * totalRoot eigh1 gapBlocks j l = if i = j then (![0, 1, 2, 0] : Fin 4 → ℝ) i else 0 := by
  have h : ((2 : ℝ) ^ (1 / 2 : ℝ)) * (2 : ℝ) ^ (1 / 2 : ℝ) = 2 := by
    rw [← Real.rpow_add two_pos]
    norm_num
  simp only [gap_root, Fin.sum_univ_four]
  fin_cases i <;> fin_cases j <;> simp [h] <;> simpa using h

/-- **C109, gaps.** If an unpenalised coefficient lies between penalised blocks (here coefficient 2, for instance the intercept of a second formula), the root of a later block with several penalties is written at the wrong
coefficients: coefficient 3 is penalised with 2 but its part of the root is zero, and coefficient 2 is not penalised but its part of the root is 2.  A fit by QR decomposition of `y = (1, 1, 1, 1)` with one observation per
coefficient then shrinks coefficient 2 and not coefficient 3, and does not minimise the penalised sum of squares. -/
theorem gap_wrong :
    collectR gapPens = some gapBlocks ∧ (∀ b ∈ gapBlocks, EighOf b.blk.k b.blk.S (eigh1 b.blk)) ∧
    totalS gapPens 3 3 = 2 ∧ ∑ l : Fin 4, totalRoot eigh1 gapBlocks 3 l * totalRoot eigh1 gapBlocks 3 l = 0 ∧
    totalS gapPens 2 2 = 0 ∧ ∑ l : Fin 4, totalRoot eigh1 gapBlocks 2 l * totalRoot eigh1 gapBlocks 2 l = 2 ∧
    ∀ (amd : (Fin (4 + 4) → Fin 4 → ℝ) → Equiv.Perm (Fin 4)) (qr : (Fin (4 + 4) → Fin 4 → ℝ) → Option (Qr (4 + 4) 4)) (u : Upd 4), QrOk qr →
      (∀ A q, qr A = some q → ∀ i p, q.rank ≤ i.val → q.R i p = 0) →
      updateCoef amd qr (fun _ => 1) (fun i j => if i = j then 1 else 0) (fun i j => totalRoot eigh1 gapBlocks i j) = some u →
      u.coef = ![1, 1 / 2, 1 / 3, 1] ∧
      ∑ i : Fin 4, (1 - ∑ k, (if i = k then 1 else 0) * (![1, 1 / 2, 1, 1 / 3] : Fin 4 → ℝ) k) ^ 2
          + ∑ i : Fin 4, ∑ j : Fin 4, (![1, 1 / 2, 1, 1 / 3] : Fin 4 → ℝ) i * totalS gapPens i j * (![1, 1 / 2, 1, 1 / 3] : Fin 4 → ℝ) j
        < ∑ i : Fin 4, (1 - ∑ k, (if i = k then 1 else 0) * u.coef k) ^ 2 + ∑ i : Fin 4, ∑ j : Fin 4, u.coef i * totalS gapPens i j * u.coef j := by
  have hS : ∀ i j : ℕ, totalS gapPens i j = (if 1 = i ∧ 1 = j then 1 else 0) + (if 3 = i ∧ 3 = j then 1 else 0) + if 3 = i ∧ 3 = j then 1 else 0 := by
    intro i j
    simp [totalS, gapPens, pen1, coo]
  refine ⟨gap_collect, ?_, ?_, ?_, ?_, ?_, ?_⟩
  · intro b hb
    refine eigh1_of b.blk ?_
    simp only [gapBlocks, List.mem_cons, List.not_mem_nil, or_false] at hb
    rcases hb with rfl | rfl <;> rfl
  · rw [hS]; norm_num
  · simpa using gap_gram 3 3
  · rw [hS]; norm_num
  · simpa using gap_gram 2 2
  · intro amd qr u hq hx h
    have hd : u.drop = [] := by
      refine (fit_global_partial amd qr _ _ _ u hq hx h).2.2 fun d h1 _ => ?_
      funext j
      have := h1 j
      simpa using this
    have hk : ∀ j, j ∈ u.keep := fun j => ((fit_keep amd qr _ _ _ u hq h).1 j).2 (by rw [hd]; simp)
    have hn : ∀ j, 1 - u.coef j = (![0, 1, 2, 0] : Fin 4 → ℝ) j * u.coef j := by
      intro j
      have := fit_normal amd qr _ _ _ u hq h j (hk j)
      simp only [gap_gram, ite_mul, zero_mul, one_mul, Finset.sum_ite_eq, Finset.sum_ite_eq', mem_univ, if_true] at this
      exact this
    have hc : u.coef = ![1, 1 / 2, 1 / 3, 1] := by
      funext j
      have := hn j
      fin_cases j <;> simp at this ⊢ <;> linarith
    refine ⟨hc, ?_⟩
    rw [hc]
    simp only [hS, ite_mul, zero_mul, one_mul, Finset.sum_ite_eq, mem_univ, if_true]
    simp [Fin.sum_univ_four]
    norm_num

/-! ### Concrete cases -/

/-- Decomposition by plane rotations of an identity above a diagonal matrix. -/
noncomputable def rotQr {n : ℕ} (s : Fin n → ℝ) : Qr (n + n) n where
  Q := fun i j => Fin.addCases (m := n) (n := n)
    (fun i => Fin.addCases (m := n) (n := n) (fun j => if i = j then 1 / Real.sqrt (1 + s i ^ 2) else 0) (fun j => if i = j then -(s i / Real.sqrt (1 + s i ^ 2)) else 0) j)
    (fun i => Fin.addCases (m := n) (n := n) (fun j => if i = j then s i / Real.sqrt (1 + s i ^ 2) else 0) (fun j => if i = j then 1 / Real.sqrt (1 + s i ^ 2) else 0) j) i
  R := fun i j => Fin.addCases (m := n) (n := n) (fun i => if i = j then Real.sqrt (1 + s i ^ 2) else 0) (fun _ => 0) i
  piv := Equiv.refl _
  rank := n

theorem rot_sq (x : ℝ) : 1 / Real.sqrt (1 + x ^ 2) * (1 / Real.sqrt (1 + x ^ 2)) + x / Real.sqrt (1 + x ^ 2) * (x / Real.sqrt (1 + x ^ 2)) = 1 := by
  have h1 : 0 < 1 + x ^ 2 := by positivity
  have h2 := Real.mul_self_sqrt h1.le
  have h3 := Real.sqrt_pos.2 h1
  field_simp
  nlinarith

theorem rot_of {n : ℕ} (s : Fin n → ℝ) : Qr.Of (stack (fun i j => if i = j then 1 else 0) fun i j => if i = j then s i else 0) (rotQr s) where
  orth := by
    intro i j
    refine Fin.addCases (fun i => ?_) (fun i => ?_) i <;> refine Fin.addCases (fun j => ?_) (fun j => ?_) j <;>
      simp only [rotQr, Fin.sum_univ_add, Fin.addCases_left, Fin.addCases_right, mul_ite, ite_mul, zero_mul, mul_zero, Finset.sum_ite_eq, Finset.sum_ite_eq', mem_univ, if_true]
    · by_cases h : i = j
      · subst h
        simpa using rot_sq (s i)
      · simp [h, Ne.symm h]
    · by_cases h : i = j
      · subst h
        have : Fin.castAdd n i ≠ Fin.natAdd n i := fun h => by
          have := congrArg Fin.val h
          simp at this
          omega
        rw [if_neg this]
        simp
        ring
      · have : Fin.castAdd n i ≠ Fin.natAdd n j := fun h => by
          have := congrArg Fin.val h
          simp at this
          omega
        rw [if_neg this]
        simp [Ne.symm h]
    · by_cases h : i = j
      · subst h
        have : Fin.natAdd n i ≠ Fin.castAdd n i := fun h => by
          have := congrArg Fin.val h
          simp at this
          omega
        rw [if_neg this]
        simp
        ring
      · have : Fin.natAdd n i ≠ Fin.castAdd n j := fun h => by
          have := congrArg Fin.val h
          simp at this
          omega
        rw [if_neg this]
        simp [Ne.symm h]
    · by_cases h : i = j
      · subst h
        have := rot_sq (s i)
        simp
        simp at this
        linarith
      · simp [h, Ne.symm h]
  fact := by
    intro i j
    have hp : ∀ x : ℝ, Real.sqrt (1 + x ^ 2) ≠ 0 := fun x => (Real.sqrt_pos.2 (by positivity)).ne'
    refine Fin.addCases (fun i => ?_) (fun i => ?_) i
    · rw [stack_left]
      simp only [rotQr, Fin.sum_univ_add, Fin.addCases_left, Fin.addCases_right, mul_ite, ite_mul, zero_mul, mul_zero, Finset.sum_ite_eq, Finset.sum_ite_eq', mem_univ, if_true,
        Finset.sum_const_zero, add_zero, Equiv.refl_apply]
      by_cases h : i = j
      · subst h
        simp [hp]
      · simp [h]
    · rw [stack_right]
      simp only [rotQr, Fin.sum_univ_add, Fin.addCases_left, Fin.addCases_right, mul_ite, ite_mul, zero_mul, mul_zero, Finset.sum_ite_eq, Finset.sum_ite_eq', mem_univ, if_true,
        Finset.sum_const_zero, add_zero, Equiv.refl_apply]
      by_cases h : i = j
      · subst h
        simp [hp]
      · simp [h]
  upper := by
    intro i j
    refine Fin.addCases (fun i hij => ?_) (fun i _ => ?_) i
    · have : i ≠ j := fun h => by subst h; simp at hij
      simp [rotQr, this]
    · simp only [rotQr, Fin.addCases_right]
  rank_le := le_rfl
  rank_rows := by simp [rotQr]
  diag := by
    intro i j
    refine Fin.addCases (fun i hij _ => ?_) (fun i hij _ => ?_) i
    · have : i = j := Fin.ext (by simpa using hij)
      subst this
      simpa [rotQr] using (Real.sqrt_pos.2 (by positivity : 0 < 1 + s i ^ 2)).ne'
    · have := j.isLt
      simp at hij
      omega

open Classical in
/-- Routine that decomposes an identity above a diagonal matrix and fails otherwise. -/
noncomputable def rotOnly {n : ℕ} (A : Fin (n + n) → Fin n → ℝ) : Option (Qr (n + n) n) :=
  if h : ∃ s : Fin n → ℝ, A = stack (fun i j => if i = j then 1 else 0) fun i j => if i = j then s i else 0 then some (rotQr h.choose) else none

theorem rotOnly_ok {n : ℕ} : QrOk (rotOnly (n := n)) ∧ ∀ A q, rotOnly (n := n) A = some q → ∀ i p, q.rank ≤ i.val → q.R i p = 0 := by
  constructor
  · intro A q h
    unfold rotOnly at h
    split_ifs at h with hs
    rw [Option.some.injEq] at h
    subst h
    have := rot_of hs.choose
    rwa [← hs.choose_spec] at this
  · intro A q h i p hi
    unfold rotOnly at h
    split_ifs at h with hs
    rw [Option.some.injEq] at h
    subst h
    revert hi
    refine Fin.addCases (fun i hi => ?_) (fun i _ => ?_) i
    · have := i.isLt
      simp [rotQr] at hi
      omega
    · simp only [rotQr, Fin.addCases_right]

/-- The hypotheses on the decomposition are met, and the fit of the witness for gaps exists. -/
example : ∃ u : Upd 4, QrOk (rotOnly (n := 4)) ∧
    updateCoef (fun _ => Equiv.refl _) rotOnly (fun _ => 1) (fun i j => if i = j then 1 else 0) (fun i j => totalRoot eigh1 gapBlocks i j) = some u ∧
    u.coef = ![1, 1 / 2, 1 / 3, 1] := by
  have hs : ∃ s : Fin 4 → ℝ, (fun (i : Fin (4 + 4)) j => stack (N := 4) (fun i j => if i = j then 1 else 0) (fun i j : Fin 4 => totalRoot eigh1 gapBlocks j i) i (Equiv.refl _ j))
      = stack (fun i j => if i = j then 1 else 0) fun i j => if i = j then s i else 0 := by
    refine ⟨fun i => totalRoot eigh1 gapBlocks i i, ?_⟩
    funext i j
    rw [Equiv.refl_apply]
    congr 1
    funext i j
    rw [gap_root]
    by_cases h : i = j
    · rw [if_pos h, h]
      exact (gap_root j j).symm
    · rw [if_neg h]
      have h' : i.val ≠ j.val := fun hh => h (Fin.ext hh)
      rw [if_neg (by omega), if_neg (by omega), add_zero]
  have h : ∃ u, updateCoef (fun _ => Equiv.refl _) rotOnly (fun _ => 1) (fun i j => if i = j then 1 else 0) (fun i j : Fin 4 => totalRoot eigh1 gapBlocks i j) = some u := by
    unfold updateCoef solvePqr
    simp only
    rw [show rotOnly (fun (i : Fin (4 + 4)) j => stack (N := 4) (fun i j => if i = j then 1 else 0) (fun i j : Fin 4 => totalRoot eigh1 gapBlocks j i) i (Equiv.refl _ j))
      = some (rotQr hs.choose) from dif_pos hs]
    exact ⟨_, rfl⟩
  obtain ⟨u, hu⟩ := h
  exact ⟨u, rotOnly_ok.1, hu, (gap_wrong.2.2.2.2.2.2 _ _ u rotOnly_ok.1 rotOnly_ok.2 hu).1⟩

/-- Two contiguous blocks, the second with two penalties: the root squares to the total penalty. -/
example : let ps : List LTerm := [pen1 1 none, pen1 2 none, pen1 2 none]
    ∃ bs, collectR ps = some bs ∧ Contiguous (bs.map (·.blk)) ∧ (∀ p ∈ ps, Emb 3 p) ∧
      (∀ b ∈ bs, b.blk.terms ≠ 1 → EighOf b.blk.k b.blk.S (eigh1 b.blk) ∧ ∀ j < b.blk.k, (eigh1 b.blk).1 j > rootTol) ∧
      ∑ c ∈ range 3, totalRoot eigh1 bs 2 c * totalRoot eigh1 bs 2 c = 2 := by
  intro ps
  have hc : collectR ps = some [⟨⟨fun i j => (pen1 1 none).SJ i j * 1, 1, 1, 1, 1⟩, some fun i j => (pen1 1 none).Demb i j * Real.sqrt 1⟩,
      ⟨⟨fun i j => (pen1 2 none).SJ i j * 1 + (pen1 2 none).SJ i j * 1, 1, 2, 1, 2⟩, none⟩] := by
    simp [ps, collectR, collectStepR, pen1, List.range_succ]
  have hcon : Contiguous (([⟨⟨fun i j => (pen1 1 none).SJ i j * 1, 1, 1, 1, 1⟩, some fun i j => (pen1 1 none).Demb i j * Real.sqrt 1⟩,
      ⟨⟨fun i j => (pen1 2 none).SJ i j * 1 + (pen1 2 none).SJ i j * 1, 1, 2, 1, 2⟩, none⟩] : List RBlk).map (·.blk)) := by
    intro t b c hb hc
    match t with
    | 0 =>
      simp at hb hc
      subst hb hc
      rfl
    | t + 1 => simp at hc
  have emb : ∀ c, c < 3 → Emb 3 (pen1 c none) := by
    intro c hc
    have := emb_built 3 [(0, 0, 1)] [(0, 0, 1)] 1 1 1 c none 1 (by simp [InRange]) (by simp [InRange]) one_pos zero_le_one (by omega) (by
      intro a ha b hb
      have : a = 0 := by omega
      have : b = 0 := by omega
      subst a b
      simp [coo])
    refine ⟨this.fits, this.lam, ?_, ?_, ?_⟩
    · intro i j
      simp only [pen1, sum_range_one, zero_mul, add_zero, place, coo, List.map_cons, List.map_nil, List.sum_cons, List.sum_nil]
      by_cases h1 : c = i ∧ c = j
      · obtain ⟨rfl, rfl⟩ := h1
        simp
      · rw [if_neg h1]
        symm
        rw [if_neg (by omega)]
    · intro i j h
      simp only [pen1, one_mul] at h ⊢
      simp only [coo, List.map_cons, List.map_nil, List.sum_cons, List.sum_nil, add_zero]
      rw [if_neg (by omega)]
    · intro i j
      simp only [pen1, coo, List.map_cons, List.map_nil, List.sum_cons, List.sum_nil, add_zero]
      rw [Finset.sum_eq_single c (fun l _ hl => by rw [if_neg (fun h => hl h.2.symm), zero_mul]) (fun h => absurd (mem_range.2 hc) h)]
      by_cases h1 : c = i <;> by_cases h2 : c = j <;> simp [h1, h2]
  have he : ∀ p ∈ ps, Emb 3 p := by
    intro p hp
    simp only [ps, List.mem_cons, List.not_mem_nil, or_false] at hp
    rcases hp with rfl | rfl | rfl <;> exact emb _ (by omega)
  have hu : ∀ b ∈ ([⟨⟨fun i j => (pen1 1 none).SJ i j * 1, 1, 1, 1, 1⟩, some fun i j => (pen1 1 none).Demb i j * Real.sqrt 1⟩,
      ⟨⟨fun i j => (pen1 2 none).SJ i j * 1 + (pen1 2 none).SJ i j * 1, 1, 2, 1, 2⟩, none⟩] : List RBlk), b.blk.terms ≠ 1 →
      EighOf b.blk.k b.blk.S (eigh1 b.blk) ∧ ∀ j < b.blk.k, (eigh1 b.blk).1 j > rootTol := by
    intro b hb ht
    simp only [List.mem_cons, List.not_mem_nil, or_false] at hb
    rcases hb with rfl | rfl
    · exact absurd rfl ht
    · refine ⟨eigh1_of _ rfl, fun j _ => ?_⟩
      have := rootTol_lt
      simp [eigh1, pen1, coo]
      linarith
  refine ⟨_, hc, hcon, he, hu, ?_⟩
  rw [root_square_partial 3 ps he ?_ _ hc hcon eigh1 (fun b hb ht => ⟨(hu b hb ht).1, fun j hj => Or.inr ((hu b hb ht).2 j hj)⟩)]
  · simp [ps, totalS, pen1, coo]
    norm_num
  · intro p hp q hq _
    simp only [ps, List.mem_cons, List.not_mem_nil, or_false] at hp hq
    rcases hp with rfl | rfl | rfl <;> rcases hq with rfl | rfl | rfl <;> rfl

end Verif.Root
