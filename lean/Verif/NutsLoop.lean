import Verif.NutsLemmas
import Mathlib.Topology.Algebra.InfiniteSum.ENNReal
import Mathlib.Topology.Instances.ENNReal.Lemmas

namespace Verif.Nuts

open Matrix Finset

variable {p : ℕ}

section
variable (T : Target p) (it : Iter) (z : ℤ → Ph p)

/-- The loop variables after covering the indices `lo, …, hi`, with current index `k`. -/
noncomputable def mkL (lo hi : ℤ) (s : Bool) (k : ℤ) (acc : Option (ℝ × ℕ)) : Loop p :=
  { cstate := (z k).1, cL := T.llk (z k).1, statem := (z lo).1, statep := (z hi).1, rm := (z lo).2, rp := (z hi).2
    rsum := rs z lo hi, n := cnt T it z lo hi, s := s, acc := acc }

theorem extend_fwd {lo mid hi : ℤ} (h1 : lo ≤ mid) (h2 : mid < hi) (s2 : Bool) (k1 k2 : ℤ) (ac : Option (ℝ × ℕ)) (c : Bool) :
    extend T true (mkL T it z lo mid true k1 ac) (mk T it z (mid + 1) hi s2 k2) c =
      mkL T it z lo hi (s2 && chk T z lo mid hi) (if c then k2 else k1) (some (accs T it z (mid + 1) hi, (hi + 1 - (mid + 1)).toNat)) := by
  unfold extend mk mkL
  simp only [if_true]
  congr 1
  · cases c <;> rfl
  · cases c <;> rfl
  · exact (sum_Icc_split _ (by omega) (by omega)).symm
  · exact (cnt_split T it z (by omega) (by omega)).symm

theorem extend_bwd {lo mid hi : ℤ} (h1 : lo ≤ mid) (h2 : mid < hi) (s2 : Bool) (k1 k2 : ℤ) (ac : Option (ℝ × ℕ)) (c : Bool) :
    extend T false (mkL T it z (mid + 1) hi true k1 ac) (mk T it z lo mid s2 k2) c =
      mkL T it z lo hi (s2 && chk T z lo mid hi) (if c then k2 else k1) (some (accs T it z lo mid, (mid + 1 - lo).toNat)) := by
  unfold extend mk mkL
  simp only [Bool.false_eq_true, if_false]
  congr 1
  · cases c <;> rfl
  · cases c <;> rfl
  · rw [add_comm]; exact (sum_Icc_split _ (by omega) (by omega)).symm
  · rw [add_comm]; exact (cnt_split T it z (by omega) (by omega)).symm
  · rw [chk_mirror]

/-- Interval after extending `lo..hi` by a tree of depth `j` in direction `v`, flag of the tree, flag of the loop. -/
noncomputable def grow (j : ℕ) (v : Bool) (lo hi : ℤ) : ℤ × ℤ × Bool × Bool :=
  if v then
    let a := shape T it z j true hi
    (lo, a.2.1, a.2.2, a.2.2 && chk T z lo hi a.2.1)
  else
    let a := shape T it z j false lo
    (a.1, hi, a.2.2, a.2.2 && chk T z a.1 a.2.1 hi)

/-- The interval of the new tree. -/
noncomputable def newTree (j : ℕ) (v : Bool) (lo hi : ℤ) : ℤ × ℤ :=
  if v then ((shape T it z j true hi).1, (shape T it z j true hi).2.1) else ((shape T it z j false lo).1, (shape T it z j false lo).2.1)

/-- What is left of `doubling` after the direction draw. -/
noncomputable def doublingV (j : ℕ) (v : Bool) (l : Loop p) : Rand (Loop p) :=
  (buildTree T it v j (if v then l.statep else l.statem) (if v then l.rp else l.rm)).bind fun t =>
    if t.s then .coin ((t.n : ℝ) / (l.n : ℝ)) fun c => .ret (extend T v l t c)
    else .ret (extend T v l t false)

theorem doubling_eq (j : ℕ) (l : Loop p) : doubling T it j l = .coin (1 / 2) fun back => doublingV T it j (!back) l := rfl

/-- The tree and the loop after adding it, in terms of intervals. -/
theorem doublingV_tree (hz : IsOrb T it z) (j : ℕ) (v : Bool) (lo hi k : ℤ) (hlh : lo ≤ hi) (ac : Option (ℝ × ℕ)) :
    let nt := newTree T it z j v lo hi
    let g := grow T it z j v lo hi
    Uniform T it z nt.1 nt.2 g.2.2.1 (buildTree T it v j (if v then (mkL T it z lo hi true k ac).statep else (mkL T it z lo hi true k ac).statem)
      (if v then (mkL T it z lo hi true k ac).rp else (mkL T it z lo hi true k ac).rm)) ∧
    (∀ k2 c, extend T v (mkL T it z lo hi true k ac) (mk T it z nt.1 nt.2 g.2.2.1 k2) c =
      mkL T it z g.1 g.2.1 g.2.2.2 (if c then k2 else k) (some (accs T it z nt.1 nt.2, (nt.2 + 1 - nt.1).toNat))) := by
  cases v
  · have hu := buildTree_uniform T it z hz false j lo
    have hr := shape_range T it z j false lo
    have e := hr.2.2.2.2 rfl
    simp only [newTree, grow, Bool.false_eq_true, if_false]
    refine ⟨hu, ?_⟩
    intro k2 c
    have hlo : lo = (shape T it z j false lo).2.1 + 1 := by omega
    have := extend_bwd T it z (lo := (shape T it z j false lo).1) (mid := (shape T it z j false lo).2.1) (hi := hi) hr.1 (by omega)
      (shape T it z j false lo).2.2 k k2 ac c
    rw [← hlo] at this
    rw [this]
    congr 3
    omega
  · have hu := buildTree_uniform T it z hz true j hi
    have hr := shape_range T it z j true hi
    have e := hr.2.2.2.1 rfl
    simp only [newTree, grow, if_true]
    refine ⟨hu, ?_⟩
    intro k2 c
    have hr1 := hr.1
    rw [e]
    exact extend_fwd T it z (mid := hi) hlh (by omega) _ _ _ _ _

/-- Acceptance probability of the new tree's proposal. -/
noncomputable def accQ (a b : ℕ) : NNReal := min 1 ((a : NNReal) / (b : NNReal))

/-- The doubling loop in terms of intervals: expected value of `f` at the final index. -/
noncomputable def kern (f : ℤ → NNReal) : ℕ → ℕ → ℤ → ℤ → Bool → ℤ → NNReal
  | 0, _, _, _, _, k => f k
  | fuel + 1, j, lo, hi, s, k =>
    if s then
      let go : Bool → NNReal := fun v =>
        let g := grow T it z j v lo hi
        let nt := newTree T it z j v lo hi
        if g.2.2.1 then
          accQ (cnt T it z nt.1 nt.2) (cnt T it z lo hi) *
            ((∑ k2 ∈ Icc nt.1 nt.2 with Valid T it z k2, kern f fuel (j + 1) g.1 g.2.1 g.2.2.2 k2) / (cnt T it z nt.1 nt.2 : NNReal)) +
          (1 - accQ (cnt T it z nt.1 nt.2) (cnt T it z lo hi)) * kern f fuel (j + 1) g.1 g.2.1 g.2.2.2 k
        else kern f fuel (j + 1) g.1 g.2.1 g.2.2.2 k
      1 / 2 * go false + 1 / 2 * go true
    else f k

theorem grow_range (j : ℕ) (v : Bool) (lo hi : ℤ) (h : lo ≤ hi) :
    let g := grow T it z j v lo hi
    g.1 ≤ lo ∧ hi ≤ g.2.1 ∧ g.2.1 + 1 - g.1 ≤ hi + 1 - lo + 2 ^ j ∧ (newTree T it z j v lo hi).1 ≤ (newTree T it z j v lo hi).2 ∧
      g.1 ≤ (newTree T it z j v lo hi).1 ∧ (newTree T it z j v lo hi).2 ≤ g.2.1 ∧
      (newTree T it z j v lo hi).2 + 1 - (newTree T it z j v lo hi).1 ≤ 2 ^ j := by
  cases v
  · have hr := shape_range T it z j false lo
    have e := hr.2.2.2.2 rfl
    simp only at hr e
    simp only [grow, newTree, Bool.false_eq_true, if_false]
    omega
  · have hr := shape_range T it z j true hi
    have e := hr.2.2.2.1 rfl
    simp only at hr e
    simp only [grow, newTree, if_true]
    omega

theorem doublings_expect (hz : IsOrb T it z) (g : (Fin p → ℝ) → NNReal) (fuel j : ℕ) (lo hi k : ℤ) (hlh : lo ≤ hi) (s : Bool)
    (ac : Option (ℝ × ℕ)) (hpos : 0 < cnt T it z lo hi) :
    (doublings T it fuel j (mkL T it z lo hi s k ac)).expect (fun l => (g l.cstate : ℝ)) =
      (kern T it z (fun k => g (z k).1) fuel j lo hi s k : ℝ) := by
  induction fuel generalizing j lo hi k s ac with
  | zero => rfl
  | succ fuel ih =>
    unfold doublings kern
    by_cases hs : s = true
    swap
    · rw [if_neg (show ¬ (mkL T it z lo hi s k ac).s = true from hs), if_neg hs]; rfl
    subst hs
    rw [if_pos (show (mkL T it z lo hi true k ac).s = true from rfl), if_pos rfl, Rand.expect_bind, doubling_eq]
    have hv : ∀ v, (doublingV T it j v (mkL T it z lo hi true k ac)).expect
        (fun l => (doublings T it fuel (j + 1) l).expect (fun l => (g l.cstate : ℝ))) =
        ((let gr := grow T it z j v lo hi
        let nt := newTree T it z j v lo hi
        if gr.2.2.1 then
          accQ (cnt T it z nt.1 nt.2) (cnt T it z lo hi) *
            ((∑ k2 ∈ Icc nt.1 nt.2 with Valid T it z k2, kern T it z (fun k => g (z k).1) fuel (j + 1) gr.1 gr.2.1 gr.2.2.2 k2) / (cnt T it z nt.1 nt.2 : NNReal)) +
          (1 - accQ (cnt T it z nt.1 nt.2) (cnt T it z lo hi)) * kern T it z (fun k => g (z k).1) fuel (j + 1) gr.1 gr.2.1 gr.2.2.2 k
        else kern T it z (fun k => g (z k).1) fuel (j + 1) gr.1 gr.2.1 gr.2.2.2 k : NNReal) : ℝ) := by
      intro v
      have hg := grow_range T it z j v lo hi hlh
      obtain ⟨hu, hext⟩ := doublingV_tree T it z hz j v lo hi k hlh ac
      simp only at hu hext hg ⊢
      set gr := grow T it z j v lo hi
      set nt := newTree T it z j v lo hi
      set n' := cnt T it z nt.1 nt.2 with hn'
      set n := cnt T it z lo hi with hn
      set A : Option (ℝ × ℕ) := some (accs T it z nt.1 nt.2, (nt.2 + 1 - nt.1).toNat)
      have hgpos : 0 < cnt T it z gr.1 gr.2.1 := by
        obtain ⟨k', hk'⟩ := card_pos.1 hpos
        rw [mem_filter, mem_Icc] at hk'
        exact cnt_pos_of_valid T it z (mem_Icc.2 ⟨by omega, by omega⟩) hk'.2
      have hk : ∀ k', (doublings T it fuel (j + 1) (mkL T it z gr.1 gr.2.1 gr.2.2.2 k' A)).expect (fun l => (g l.cstate : ℝ)) =
          (kern T it z (fun k => g (z k).1) fuel (j + 1) gr.1 gr.2.1 gr.2.2.2 k' : ℝ) :=
        fun k' => ih (j + 1) gr.1 gr.2.1 k' (by omega) gr.2.2.2 A hgpos
      unfold doublingV
      rw [Rand.expect_bind]
      set x := buildTree T it v j (if v then (mkL T it z lo hi true k ac).statep else (mkL T it z lo hi true k ac).statem)
        (if v then (mkL T it z lo hi true k ac).rp else (mkL T it z lo hi true k ac).rm)
      by_cases hs2 : gr.2.2.1 = true
      · rw [if_pos hs2]
        -- expected value over the new tree
        set h : Tree p → ℝ := fun t =>
          (doublings T it fuel (j + 1) { mkL T it z gr.1 gr.2.1 gr.2.2.2 0 A with cstate := t.state', cL := t.L }).expect
            (fun l => (g l.cstate : ℝ)) with hh
        have hhk : ∀ k2, h (mk T it z nt.1 nt.2 gr.2.2.1 k2) = (kern T it z (fun k => g (z k).1) fuel (j + 1) gr.1 gr.2.1 gr.2.2.2 k2 : ℝ) :=
          fun k2 => hk k2
        set Q : ℝ := (accQ n' n : ℝ) with hQ
        have hqe : min 1 (max 0 ((n' : ℝ) / (n : ℝ))) = Q := by
          rw [hQ]
          unfold accQ
          push_cast
          rw [max_eq_right (by positivity)]
        have hstep : ∀ t, x.Out t → (if t.s then .coin ((t.n : ℝ) / ((mkL T it z lo hi true k ac).n : ℝ)) fun c =>
            .ret (extend T v (mkL T it z lo hi true k ac) t c) else .ret (extend T v (mkL T it z lo hi true k ac) t false) : Rand (Loop p)).expect
            (fun l => (doublings T it fuel (j + 1) l).expect (fun l => (g l.cstate : ℝ))) =
            Q * h t + (1 - Q) * (kern T it z (fun k => g (z k).1) fuel (j + 1) gr.1 gr.2.1 gr.2.2.2 k : ℝ) := by
          intro t ht
          obtain ⟨k2, hk2, rfl, hval⟩ := hu.out t ht
          rw [if_pos (show (mk T it z nt.1 nt.2 gr.2.2.1 k2).s = true from hs2), hhk]
          simp only [Rand.expect, hext, if_true, Bool.false_eq_true, if_false, hk]
          have e : ((mk T it z nt.1 nt.2 gr.2.2.1 k2).n : ℝ) / ((mkL T it z lo hi true k ac).n : ℝ) = (n' : ℝ) / (n : ℝ) := rfl
          rw [e, hqe]
        rw [Rand.expect_congr _ _ _ hstep]
        have hlin := Rand.expect_linear x (univ : Finset Bool)
          (fun b => if b then Q else (1 - Q) * (kern T it z (fun k => g (z k).1) fuel (j + 1) gr.1 gr.2.1 gr.2.2.2 k : ℝ))
          (fun b t => if b then h t else 1)
        simp only [Fintype.sum_bool, if_true, Bool.false_eq_true, if_false, Rand.expect_const, mul_one] at hlin
        rw [hlin]
        have hexp := hu.exp h
        simp only [hhk] at hexp
        have hQ1 : accQ n' n ≤ 1 := min_le_left _ _
        push_cast [NNReal.coe_sub hQ1]
        rw [← hexp]
        congr 1
        by_cases hn0 : n' = 0
        · have : Q = 0 := by rw [hQ]; unfold accQ; rw [hn0]; simp
          rw [show (accQ n' n : ℝ) = 0 from this, this]; ring
        · have : (n' : ℝ) ≠ 0 := by exact_mod_cast hn0
          rw [← hn', show (accQ n' n : ℝ) = Q from rfl]
          field_simp
      · rw [if_neg hs2]
        have hstep : ∀ t, x.Out t → (if t.s then .coin ((t.n : ℝ) / ((mkL T it z lo hi true k ac).n : ℝ)) fun c =>
            .ret (extend T v (mkL T it z lo hi true k ac) t c) else .ret (extend T v (mkL T it z lo hi true k ac) t false) : Rand (Loop p)).expect
            (fun l => (doublings T it fuel (j + 1) l).expect (fun l => (g l.cstate : ℝ))) =
            (kern T it z (fun k => g (z k).1) fuel (j + 1) gr.1 gr.2.1 gr.2.2.2 k : ℝ) := by
          intro t ht
          obtain ⟨k2, hk2, rfl, hval⟩ := hu.out t ht
          rw [if_neg (show ¬ (mk T it z nt.1 nt.2 gr.2.2.1 k2).s = true from hs2)]
          simp only [Rand.expect, hext, Bool.false_eq_true, if_false, hk]
        rw [Rand.expect_congr _ _ _ hstep, Rand.expect_const]
    simp only [Rand.expect, Bool.not_true, Bool.not_false, hv]
    push_cast
    rw [show min (1 : ℝ) (max 0 (1 / 2)) = 1 / 2 by norm_num]
    norm_num

/-! ### Balance of the doubling loop over all starting points -/

/-- All checks inside the aligned block `lo, …, lo + 2^j - 1` succeed. -/
noncomputable def ok : ℕ → ℤ → Bool
  | 0, lo => decide (it.logu < it.DeltaMax + ham T (z lo))
  | j + 1, lo => ok j lo && (ok j (lo + 2 ^ j) && chk T z lo (lo + 2 ^ j - 1) (lo + 2 ^ (j + 1) - 1))

theorem shape_ok (j : ℕ) (v : Bool) (i : ℤ) :
    (shape T it z j v i).2.2 = ok T it z j (if v then i + 1 else i - 2 ^ j) := by
  induction j generalizing i with
  | zero => cases v <;> simp [shape, ok]
  | succ j ih =>
    have hr := shape_range T it z j v i
    have h1 := ih i
    by_cases hs : (shape T it z j v i).2.2 = true
    · have h2 := ih (if v then (shape T it z j v i).2.1 else (shape T it z j v i).1)
      have hr2 := shape_range T it z j v (if v then (shape T it z j v i).2.1 else (shape T it z j v i).1)
      cases v
      · have e : shape T it z (j + 1) false i = _ := if_pos hs
        simp only [Bool.false_eq_true, if_false] at e h1 h2 hr2 ⊢
        have e1 := hr.2.2.1 hs
        have e2 := hr.2.2.2.2 rfl
        have e3 := hr2.2.2.2.2 trivial
        rw [e]
        simp only [ok]
        have p1 : (shape T it z j false i).1 = i - 2 ^ j := by omega
        rw [p1] at h2 e3 hr2 ⊢
        rw [hs] at h1
        have p2 : i - 2 ^ (j + 1) + 2 ^ j = i - 2 ^ j := by rw [pow_succ]; ring
        have p3 : i - 2 ^ j - 2 ^ j = i - 2 ^ (j + 1) := by rw [pow_succ]; ring
        rw [p2, ← h1, Bool.true_and, h2, p3]
        by_cases hb : ok T it z j (i - 2 ^ (j + 1)) = true
        · rw [hb, Bool.true_and, Bool.true_and]
          have q1 : (shape T it z j false (i - 2 ^ j)).1 = i - 2 ^ (j + 1) := by
            have := hr2.2.2.1 (by rw [h2, p3, hb])
            omega
          rw [q1, e3, e2]
          congr 1
          ring
        · rw [Bool.not_eq_true] at hb
          rw [hb]; rfl
      · have e : shape T it z (j + 1) true i = _ := if_pos hs
        simp only [if_true] at e h1 h2 hr2 ⊢
        have e1 := hr.2.2.1 hs
        have e2 := hr.2.2.2.1 rfl
        have e3 := hr2.2.2.2.1 trivial
        rw [e]
        simp only [ok]
        have p1 : (shape T it z j true i).2.1 = i + 2 ^ j := by omega
        rw [p1] at h2 e3 hr2 ⊢
        rw [hs] at h1
        have p2 : i + 1 + 2 ^ j = i + 2 ^ j + 1 := by ring
        rw [p2, ← h1, Bool.true_and, h2]
        by_cases hb : ok T it z j (i + 2 ^ j + 1) = true
        · rw [hb, Bool.true_and, Bool.true_and]
          have q1 : (shape T it z j true (i + 2 ^ j)).2.1 = i + 1 + 2 ^ (j + 1) - 1 := by
            have := hr2.2.2.1 (by rw [h2, hb])
            rw [pow_succ]
            omega
          rw [q1, e2]
          congr 1
          ring
        · rw [Bool.not_eq_true] at hb
          rw [hb]; rfl
    · have e : shape T it z (j + 1) v i = shape T it z j v i := if_neg hs
      rw [e]
      rw [Bool.not_eq_true] at hs
      rw [hs]
      rw [hs] at h1
      cases v
      · simp only [ok, Bool.false_eq_true, if_false] at h1 ⊢
        rw [show i - 2 ^ (j + 1) + 2 ^ j = i - 2 ^ j by rw [pow_succ]; ring, ← h1]
        simp
      · simp only [ok, if_true] at h1 ⊢
        rw [← h1]; rfl

/-- Sum of `G` over the slice points of the block. -/
noncomputable def bsum (j : ℕ) (G : ℤ → NNReal) (lo : ℤ) : NNReal := ∑ k ∈ Icc lo (lo + 2 ^ j - 1) with Valid T it z k, G k

theorem accQ_balance (a b : ℕ) (ha : 0 < a) (hb : 0 < b) : (a : NNReal) * accQ b a / b = accQ a b := by
  unfold accQ
  have ha' : (0 : NNReal) < a := by exact_mod_cast ha
  have hb' : (0 : NNReal) < b := by exact_mod_cast hb
  rcases le_total a b with h | h
  · have h' : (a : NNReal) ≤ b := by exact_mod_cast h
    rw [min_eq_left ((one_le_div ha').2 h'), min_eq_right ((div_le_one hb').2 h'), mul_one]
  · have h' : (b : NNReal) ≤ a := by exact_mod_cast h
    rw [min_eq_right ((div_le_one ha').2 h'), min_eq_left ((one_le_div hb').2 h'), mul_div_cancel₀ _ ha'.ne', div_self hb'.ne']

/-- Exchange between two blocks keeps the total. -/
theorem exchange (L R : Finset ℤ) (G : ℤ → NNReal) :
    (∑ k ∈ L, (accQ #R #L * ((∑ k2 ∈ R, G k2) / (#R : NNReal)) + (1 - accQ #R #L) * G k)) +
      (∑ k ∈ R, (accQ #L #R * ((∑ k2 ∈ L, G k2) / (#L : NNReal)) + (1 - accQ #L #R) * G k)) = ∑ k ∈ L, G k + ∑ k ∈ R, G k := by
  rcases Nat.eq_zero_or_pos #L with hL | hL
  · have hLe : L = ∅ := card_eq_zero.1 hL
    subst hLe
    simp only [sum_empty, card_empty, accQ, Nat.cast_zero, zero_div, zero_add, mul_zero]
    simp
  rcases Nat.eq_zero_or_pos #R with hR | hR
  · have hRe : R = ∅ := card_eq_zero.1 hR
    subst hRe
    simp [accQ]
  simp only [sum_add_distrib, sum_const, nsmul_eq_mul, ← mul_sum]
  have e1 := accQ_balance #L #R hL hR
  have e2 := accQ_balance #R #L hR hL
  have h1 : accQ #R #L ≤ 1 := min_le_left _ _
  have h2 : accQ #L #R ≤ 1 := min_le_left _ _
  have c1 : (#L : NNReal) * (accQ #R #L * ((∑ k2 ∈ R, G k2) / (#R : NNReal))) = accQ #L #R * ∑ k2 ∈ R, G k2 := by
    rw [← e1]
    rw [div_eq_mul_inv, div_eq_mul_inv]; ring
  have c2 : (#R : NNReal) * (accQ #L #R * ((∑ k2 ∈ L, G k2) / (#L : NNReal))) = accQ #R #L * ∑ k2 ∈ L, G k2 := by
    rw [← e2]
    rw [div_eq_mul_inv, div_eq_mul_inv]; ring
  rw [c1, c2]
  have d1 : accQ #R #L + (1 - accQ #R #L) = 1 := add_tsub_cancel_of_le h1
  have d2 : accQ #L #R + (1 - accQ #L #R) = 1 := add_tsub_cancel_of_le h2
  calc _ = (accQ #R #L + (1 - accQ #R #L)) * ∑ k ∈ L, G k + (accQ #L #R + (1 - accQ #L #R)) * ∑ k ∈ R, G k := by ring
    _ = _ := by rw [d1, d2, one_mul, one_mul]

theorem kern_stop (f : ℤ → NNReal) (fuel j : ℕ) (lo hi k : ℤ) : kern T it z f fuel j lo hi false k = f k := by
  cases fuel <;> simp [kern]

/-- Contribution of the block pair at `lo`: the left half extended forwards plus the right half extended backwards. -/
theorem pair_step (f : ℤ → NNReal) (fuel j : ℕ) (lo : ℤ) :
    let go : Bool → ℤ → ℤ → ℤ → NNReal := fun v lo hi k =>
        let g := grow T it z j v lo hi
        let nt := newTree T it z j v lo hi
        if g.2.2.1 then
          accQ (cnt T it z nt.1 nt.2) (cnt T it z lo hi) *
            ((∑ k2 ∈ Icc nt.1 nt.2 with Valid T it z k2, kern T it z f fuel (j + 1) g.1 g.2.1 g.2.2.2 k2) / (cnt T it z nt.1 nt.2 : NNReal)) +
          (1 - accQ (cnt T it z nt.1 nt.2) (cnt T it z lo hi)) * kern T it z f fuel (j + 1) g.1 g.2.1 g.2.2.2 k
        else kern T it z f fuel (j + 1) g.1 g.2.1 g.2.2.2 k
    (if ok T it z j lo then bsum T it z j (go true lo (lo + 2 ^ j - 1)) lo else 0) +
      (if ok T it z j (lo + 2 ^ j) then bsum T it z j (go false (lo + 2 ^ j) (lo + 2 ^ j + 2 ^ j - 1)) (lo + 2 ^ j) else 0) =
    if ok T it z (j + 1) lo then bsum T it z (j + 1) (kern T it z f fuel (j + 1) lo (lo + 2 ^ (j + 1) - 1) true) lo
    else (if ok T it z j lo then bsum T it z j f lo else 0) + (if ok T it z j (lo + 2 ^ j) then bsum T it z j f (lo + 2 ^ j) else 0) := by
  intro go
  have hpw : (2 : ℤ) ^ (j + 1) = 2 ^ j + 2 ^ j := by rw [pow_succ]; ring
  have hpos : (0 : ℤ) < 2 ^ j := by positivity
  -- forward extension of the left block
  have sF := shape_ok T it z j true (lo + 2 ^ j - 1)
  have rF := shape_range T it z j true (lo + 2 ^ j - 1)
  simp only [if_true] at sF
  rw [show lo + 2 ^ j - 1 + 1 = lo + 2 ^ j by ring] at sF
  have rF1 := rF.2.2.2.1 rfl
  have sB := shape_ok T it z j false (lo + 2 ^ j)
  have rB := shape_range T it z j false (lo + 2 ^ j)
  simp only [Bool.false_eq_true, if_false] at sB
  rw [show lo + 2 ^ j - 2 ^ j = lo by ring] at sB
  have rB1 := rB.2.2.2.2 rfl
  by_cases hL : ok T it z j lo = true
  · by_cases hR : ok T it z j (lo + 2 ^ j) = true
    · -- both blocks fine
      have rF2 := rF.2.2.1 (by rw [sF, hR])
      have rB2 := rB.2.2.1 (by rw [sB, hL])
      have ntF : newTree T it z j true lo (lo + 2 ^ j - 1) = (lo + 2 ^ j, lo + 2 ^ (j + 1) - 1) := by
        unfold newTree; rw [if_pos rfl]; refine Prod.ext ?_ ?_ <;> simp only <;> omega
      have ntB : newTree T it z j false (lo + 2 ^ j) (lo + 2 ^ j + 2 ^ j - 1) = (lo, lo + 2 ^ j - 1) := by
        unfold newTree; rw [if_neg (by simp)]; refine Prod.ext ?_ ?_ <;> simp only <;> omega
      set c := chk T z lo (lo + 2 ^ j - 1) (lo + 2 ^ (j + 1) - 1) with hc
      have gF : grow T it z j true lo (lo + 2 ^ j - 1) = (lo, lo + 2 ^ (j + 1) - 1, true, c) := by
        have h21 : (shape T it z j true (lo + 2 ^ j - 1)).2.1 = lo + 2 ^ (j + 1) - 1 := by omega
        unfold grow
        rw [if_pos rfl]
        simp only [sF, hR, h21, Bool.true_and, hc]
      have gB : grow T it z j false (lo + 2 ^ j) (lo + 2 ^ j + 2 ^ j - 1) = (lo, lo + 2 ^ (j + 1) - 1, true, c) := by
        have h1 : (shape T it z j false (lo + 2 ^ j)).1 = lo := by omega
        have h2 : (shape T it z j false (lo + 2 ^ j)).2.1 = lo + 2 ^ j - 1 := by omega
        have h3 : lo + 2 ^ j + 2 ^ j - 1 = lo + 2 ^ (j + 1) - 1 := by omega
        unfold grow
        rw [if_neg (by simp)]
        simp only [sB, hL, h1, h2, h3, Bool.true_and, hc]
      rw [if_pos hL, if_pos hR]
      set Lf := (Icc lo (lo + 2 ^ j - 1)).filter (fun k => Valid T it z k) with hLf
      set Rf := (Icc (lo + 2 ^ j) (lo + 2 ^ (j + 1) - 1)).filter (fun k => Valid T it z k) with hRf
      set G := kern T it z f fuel (j + 1) lo (lo + 2 ^ (j + 1) - 1) c with hG
      have eR : lo + 2 ^ j + 2 ^ j - 1 = lo + 2 ^ (j + 1) - 1 := by omega
      have hgoF : bsum T it z j (go true lo (lo + 2 ^ j - 1)) lo =
          ∑ k ∈ Lf, (accQ #Rf #Lf * ((∑ k2 ∈ Rf, G k2) / (#Rf : NNReal)) + (1 - accQ #Rf #Lf) * G k) := by
        unfold bsum
        apply sum_congr rfl
        intro k _
        simp only [go, gF, ntF]
        rfl
      have hgoB : bsum T it z j (go false (lo + 2 ^ j) (lo + 2 ^ j + 2 ^ j - 1)) (lo + 2 ^ j) =
          ∑ k ∈ Rf, (accQ #Lf #Rf * ((∑ k2 ∈ Lf, G k2) / (#Lf : NNReal)) + (1 - accQ #Lf #Rf) * G k) := by
        unfold bsum
        rw [eR]
        apply sum_congr rfl
        intro k _
        have : cnt T it z (lo + 2 ^ j) (lo + 2 ^ j + 2 ^ j - 1) = #Rf := by unfold cnt; rw [eR]
        have gB' := gB
        have ntB' := ntB
        rw [eR] at gB' ntB' this
        simp only [go, gB', ntB', this]
        rfl
      rw [hgoF, hgoB, exchange]
      have hsplit : ∀ H : ℤ → NNReal, ∑ k ∈ Lf, H k + ∑ k ∈ Rf, H k = bsum T it z (j + 1) H lo := by
        intro H
        unfold bsum
        rw [Icc_split (lo := lo) (mid := lo + 2 ^ j - 1) (hi := lo + 2 ^ (j + 1) - 1) (by omega) (by omega), filter_union, sum_union,
          show lo + 2 ^ j - 1 + 1 = lo + 2 ^ j by ring]
        exact (Icc_disj _ _ _).mono (filter_subset _ _) (filter_subset _ _)
      have hokS : ok T it z (j + 1) lo = c := by
        simp only [ok, hL, hR, Bool.true_and, hc]
      rw [hokS]
      by_cases hcc : c = true
      · rw [if_pos hcc, hsplit, hG, hcc]
      · rw [if_neg hcc]
        rw [Bool.not_eq_true] at hcc
        have : ∀ k, G k = f k := fun k => by rw [hG, hcc]; exact kern_stop T it z f fuel (j + 1) lo _ k
        simp only [this]
        rw [if_pos hL, if_pos hR]
        unfold bsum
        rw [eR]
    · -- right block fails
      have hokS : ok T it z (j + 1) lo = false := by
        rw [Bool.not_eq_true] at hR
        simp only [ok, hR]; simp
      simp only [hL, if_neg hR, hokS, if_true, Bool.false_eq_true, if_false, add_zero]
      unfold bsum
      apply sum_congr rfl
      intro k _
      have h1 : (grow T it z j true lo (lo + 2 ^ j - 1)).2.2.1 = false := by
        unfold grow; rw [if_pos rfl]; simp only [sF]; simpa using hR
      have h2 : (grow T it z j true lo (lo + 2 ^ j - 1)).2.2.2 = false := by
        unfold grow; rw [if_pos rfl]; simp only [sF]; rw [Bool.not_eq_true] at hR; rw [hR]; rfl
      simp only [go]
      rw [if_neg (by rw [h1]; simp), h2, kern_stop]
  · have hokS : ok T it z (j + 1) lo = false := by
      rw [Bool.not_eq_true] at hL
      simp only [ok, hL]; rfl
    simp only [if_neg hL, hokS, Bool.false_eq_true, if_false, zero_add]
    by_cases hR : ok T it z j (lo + 2 ^ j) = true
    · rw [if_pos hR, if_pos hR]
      unfold bsum
      apply sum_congr rfl
      intro k _
      have h1 : (grow T it z j false (lo + 2 ^ j) (lo + 2 ^ j + 2 ^ j - 1)).2.2.1 = false := by
        unfold grow; rw [if_neg (by simp)]; simp only [sB]; simpa using hL
      have h2 : (grow T it z j false (lo + 2 ^ j) (lo + 2 ^ j + 2 ^ j - 1)).2.2.2 = false := by
        unfold grow; rw [if_neg (by simp)]; simp only [sB]; rw [Bool.not_eq_true] at hL; rw [hL]; rfl
      simp only [go]
      rw [if_neg (by rw [h1]; simp), h2, kern_stop]
    · rw [if_neg hR, if_neg hR]

open ENNReal in
/-- Summed over all blocks of size `2^j` and their slice points, the loop keeps the total of `f`. -/
theorem balance (f : ℤ → NNReal) (fuel j : ℕ) :
    ∑' lo : ℤ, ((if ok T it z j lo then bsum T it z j (kern T it z f fuel j lo (lo + 2 ^ j - 1) true) lo else 0 : NNReal) : ℝ≥0∞) =
      ∑' lo : ℤ, ((if ok T it z j lo then bsum T it z j f lo else 0 : NNReal) : ℝ≥0∞) := by
  induction fuel generalizing j with
  | zero => rfl
  | succ fuel ih =>
    set go : Bool → ℤ → ℤ → ℤ → NNReal := fun v lo hi k =>
        let g := grow T it z j v lo hi
        let nt := newTree T it z j v lo hi
        if g.2.2.1 then
          accQ (cnt T it z nt.1 nt.2) (cnt T it z lo hi) *
            ((∑ k2 ∈ Icc nt.1 nt.2 with Valid T it z k2, kern T it z f fuel (j + 1) g.1 g.2.1 g.2.2.2 k2) / (cnt T it z nt.1 nt.2 : NNReal)) +
          (1 - accQ (cnt T it z nt.1 nt.2) (cnt T it z lo hi)) * kern T it z f fuel (j + 1) g.1 g.2.1 g.2.2.2 k
        else kern T it z f fuel (j + 1) g.1 g.2.1 g.2.2.2 k with hgo
    set F : ℤ → NNReal := fun lo => if ok T it z j lo then bsum T it z j (go true lo (lo + 2 ^ j - 1)) lo else 0 with hF
    set B : ℤ → NNReal := fun lo => if ok T it z j lo then bsum T it z j (go false lo (lo + 2 ^ j - 1)) lo else 0 with hB
    set S : ℤ → NNReal := fun lo => if ok T it z j lo then bsum T it z j f lo else 0 with hS
    set K : ℤ → NNReal := fun lo => if ok T it z (j + 1) lo then bsum T it z (j + 1) (kern T it z f fuel (j + 1) lo (lo + 2 ^ (j + 1) - 1) true) lo else 0 with hK
    set K' : ℤ → NNReal := fun lo => if ok T it z (j + 1) lo then bsum T it z (j + 1) f lo else 0 with hK'
    set E : ℤ → NNReal := fun lo => if ok T it z (j + 1) lo then 0 else S lo + S (lo + 2 ^ j) with hE
    have h1 : ∀ lo, (if ok T it z j lo then bsum T it z j (kern T it z f (fuel + 1) j lo (lo + 2 ^ j - 1) true) lo else 0 : NNReal) =
        1 / 2 * B lo + 1 / 2 * F lo := by
      intro lo
      by_cases h : ok T it z j lo = true
      · simp only [hB, hF, if_pos h]
        unfold bsum
        rw [mul_sum, mul_sum, ← sum_add_distrib]
        apply sum_congr rfl
        intro k _
        simp only [kern, if_true]
        rfl
      · simp only [hB, hF, if_neg h, mul_zero, add_zero]
    have h2 : ∀ lo, F lo + B (lo + 2 ^ j) = K lo + E lo := by
      intro lo
      have := pair_step T it z f fuel j lo
      simp only at this
      simp only [hF, hB, hK, hE, hS, hgo]
      rw [this]
      by_cases h : ok T it z (j + 1) lo = true
      · rw [if_pos h, if_pos h, if_pos h, add_zero]
      · rw [if_neg h, if_neg h, if_neg h, zero_add]
    have h3 : ∀ lo, S lo + S (lo + 2 ^ j) = K' lo + E lo := by
      intro lo
      by_cases h : ok T it z (j + 1) lo = true
      · simp only [hK', hE, if_pos h, add_zero]
        have hpw : (2 : ℤ) ^ (j + 1) = 2 ^ j + 2 ^ j := by rw [pow_succ]; ring
        have hpos : (0 : ℤ) < 2 ^ j := by positivity
        have hh : ok T it z j lo = true ∧ ok T it z j (lo + 2 ^ j) = true := by
          simp only [ok, Bool.and_eq_true] at h
          exact ⟨h.1, h.2.1⟩
        simp only [hS, if_pos hh.1, if_pos hh.2]
        unfold bsum
        rw [Icc_split (lo := lo) (mid := lo + 2 ^ j - 1) (hi := lo + 2 ^ (j + 1) - 1) (by omega) (by omega), filter_union, sum_union,
          show lo + 2 ^ j - 1 + 1 = lo + 2 ^ j by ring, show lo + 2 ^ (j + 1) - 1 = lo + 2 ^ j + 2 ^ j - 1 by omega]
        exact (Icc_disj _ _ _).mono (filter_subset _ _) (filter_subset _ _)
      · simp only [hK', hE, if_neg h, zero_add]
    have hshift : ∀ H : ℤ → NNReal, ∑' lo : ℤ, (H (lo + 2 ^ j) : ℝ≥0∞) = ∑' lo : ℤ, (H lo : ℝ≥0∞) := fun H =>
      (Equiv.addRight ((2 : ℤ) ^ j)).tsum_eq (fun lo => (H lo : ℝ≥0∞))
    have ihK : ∑' lo, (K lo : ℝ≥0∞) = ∑' lo, (K' lo : ℝ≥0∞) := ih (j + 1)
    have hhalf : ((1 / 2 : NNReal) : ℝ≥0∞) + ((1 / 2 : NNReal) : ℝ≥0∞) = 1 := by
      rw [← ENNReal.coe_add]
      norm_num
    calc ∑' lo : ℤ, ((if ok T it z j lo then bsum T it z j (kern T it z f (fuel + 1) j lo (lo + 2 ^ j - 1) true) lo else 0 : NNReal) : ℝ≥0∞)
        = ∑' lo : ℤ, (((1 / 2 : NNReal) : ℝ≥0∞) * B lo + ((1 / 2 : NNReal) : ℝ≥0∞) * F lo) := by
          apply tsum_congr
          intro lo
          rw [h1 lo, ENNReal.coe_add, ENNReal.coe_mul, ENNReal.coe_mul]
      _ = ((1 / 2 : NNReal) : ℝ≥0∞) * (∑' lo, ((F lo : ℝ≥0∞) + (B (lo + 2 ^ j) : ℝ≥0∞))) := by
          rw [ENNReal.tsum_add, ENNReal.tsum_mul_left, ENNReal.tsum_mul_left, ENNReal.tsum_add, hshift B]
          ring
      _ = ((1 / 2 : NNReal) : ℝ≥0∞) * (∑' lo, ((K lo : ℝ≥0∞) + (E lo : ℝ≥0∞))) := by
          congr 1
          apply tsum_congr
          intro lo
          rw [← ENNReal.coe_add, h2 lo, ENNReal.coe_add]
      _ = ((1 / 2 : NNReal) : ℝ≥0∞) * (∑' lo, ((S lo : ℝ≥0∞) + (S (lo + 2 ^ j) : ℝ≥0∞))) := by
          congr 1
          rw [ENNReal.tsum_add, ihK, ← ENNReal.tsum_add]
          apply tsum_congr
          intro lo
          rw [← ENNReal.coe_add, ← h3 lo, ENNReal.coe_add]
      _ = ∑' lo, (S lo : ℝ≥0∞) := by
          rw [ENNReal.tsum_add, hshift S, mul_add, ← add_mul, hhalf, one_mul]

end

end Verif.Nuts
