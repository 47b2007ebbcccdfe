import Verif.NutsLoop

namespace Verif.Nuts

open Matrix Finset

variable {p : ℕ}

section
variable (T : Target p) (it : Iter) (z : ℤ → Ph p)

/-- The acceptance statistic of a tree over an interval of at most `2^d` states. -/
def AccOk (d : ℕ) (x : ℝ × ℕ) : Prop :=
  ∃ lo hi : ℤ, lo ≤ hi ∧ hi + 1 - lo ≤ 2 ^ d ∧ x = (accs T it z lo hi, (hi + 1 - lo).toNat)

theorem acc1_bounds (k : ℤ) : 0 ≤ acc1 T it z k ∧ acc1 T it z k ≤ 1 := by
  unfold acc1
  split_ifs with h
  · exact ⟨zero_le_one, le_rfl⟩
  · exact ⟨(Real.exp_pos _).le, Real.exp_le_one_iff.2 (not_lt.1 h)⟩

theorem AccOk.bounds {d : ℕ} {x : ℝ × ℕ} (h : AccOk T it z d x) : 0 < x.2 ∧ x.2 ≤ 2 ^ d ∧ 0 ≤ x.1 ∧ x.1 ≤ x.2 := by
  obtain ⟨lo, hi, h1, h2, rfl⟩ := h
  refine ⟨by simp only; omega, ?_, ?_, ?_⟩
  · have : ((hi + 1 - lo).toNat : ℤ) ≤ 2 ^ d := by rw [Int.toNat_of_nonneg (by omega)]; exact h2
    exact_mod_cast this
  · show 0 ≤ accs T it z lo hi
    exact sum_nonneg fun k _ => (acc1_bounds T it z k).1
  · calc accs T it z lo hi ≤ ∑ k ∈ Icc lo hi, (1 : ℝ) := sum_le_sum fun k _ => (acc1_bounds T it z k).2
      _ = ((hi + 1 - lo).toNat : ℝ) := by rw [sum_const, Int.card_Icc, nsmul_eq_mul, mul_one]

theorem doublings_out (hz : IsOrb T it z) (fuel j : ℕ) (lo hi k : ℤ) (hlh : lo ≤ hi) (s : Bool) (ac : Option (ℝ × ℕ))
    (hk : k ∈ Icc lo hi) (hv : Valid T it z k) (l : Loop p) (hl : (doublings T it fuel j (mkL T it z lo hi s k ac)).Out l) :
    ∃ lo' hi' s' k' ac', l = mkL T it z lo' hi' s' k' ac' ∧ lo' ≤ lo ∧ hi ≤ hi' ∧
      hi' + 1 - lo' + 2 ^ j ≤ hi + 1 - lo + 2 ^ (j + fuel) ∧ k' ∈ Icc lo' hi' ∧ Valid T it z k' ∧
      (ac' = ac ∧ (fuel = 0 ∨ s = false) ∨ ∃ d x, d < j + fuel ∧ ac' = some x ∧ AccOk T it z d x) := by
  induction fuel generalizing j lo hi k s ac with
  | zero =>
    rw [Rand.out_ret hl]
    exact ⟨lo, hi, s, k, ac, rfl, le_rfl, le_rfl, by simp, hk, hv, .inl ⟨rfl, .inl rfl⟩⟩
  | succ fuel ih =>
    unfold doublings at hl
    by_cases hs : s = true
    swap
    · rw [if_neg (show ¬ (mkL T it z lo hi s k ac).s = true from hs)] at hl
      rw [Rand.out_ret hl]
      have : (2 : ℤ) ^ j ≤ 2 ^ (j + (fuel + 1)) := pow_le_pow_right₀ (by norm_num) (by omega)
      exact ⟨lo, hi, s, k, ac, rfl, le_rfl, le_rfl, by omega, hk, hv, .inl ⟨rfl, .inr (by simpa using hs)⟩⟩
    subst hs
    rw [if_pos (show (mkL T it z lo hi true k ac).s = true from rfl), doubling_eq] at hl
    obtain ⟨l1, hl1, hl2⟩ := Rand.out_bind hl
    have hex : ∃ v, (doublingV T it j v (mkL T it z lo hi true k ac)).Out l1 := by
      cases hl1 with
      | yes _ h => exact ⟨_, h⟩
      | no _ h => exact ⟨_, h⟩
    obtain ⟨v, hl1⟩ := hex
    have hg := grow_range T it z j v lo hi hlh
    obtain ⟨hu, hext⟩ := doublingV_tree T it z hz j v lo hi k hlh ac
    simp only at hu hext hg
    set gr := grow T it z j v lo hi
    set nt := newTree T it z j v lo hi
    obtain ⟨t, ht, ht2⟩ := Rand.out_bind hl1
    obtain ⟨k2, hk2, rfl, hval⟩ := hu.out t ht
    rw [mem_Icc] at hk2 hk
    have key : ∃ k1, l1 = mkL T it z gr.1 gr.2.1 gr.2.2.2 k1 (some (accs T it z nt.1 nt.2, (nt.2 + 1 - nt.1).toNat)) ∧
        k1 ∈ Icc gr.1 gr.2.1 ∧ Valid T it z k1 := by
      by_cases hs2 : gr.2.2.1 = true
      · rw [if_pos (show (mk T it z nt.1 nt.2 gr.2.2.1 k2).s = true from hs2)] at ht2
        cases ht2 with
        | yes hq h =>
          refine ⟨k2, by rw [Rand.out_ret h, hext]; rfl, mem_Icc.2 ⟨by omega, by omega⟩, hval ?_⟩
          by_contra h0
          have h0' : cnt T it z nt.1 nt.2 = 0 := by omega
          have : ((mk T it z nt.1 nt.2 gr.2.2.1 k2).n : ℝ) = 0 := by
            show ((cnt T it z nt.1 nt.2 : ℕ) : ℝ) = 0
            rw [h0']; simp
          rw [this] at hq
          simp at hq
        | no hq h => exact ⟨k, by rw [Rand.out_ret h, hext]; rfl, mem_Icc.2 ⟨by omega, by omega⟩, hv⟩
      · rw [if_neg (show ¬ (mk T it z nt.1 nt.2 gr.2.2.1 k2).s = true from hs2)] at ht2
        exact ⟨k, by rw [Rand.out_ret ht2, hext]; rfl, mem_Icc.2 ⟨by omega, by omega⟩, hv⟩
    obtain ⟨k1, rfl, hk1, hv1⟩ := key
    obtain ⟨lo', hi', s', k', ac', e, b1, b2, b3, b4, b5, b6⟩ := ih (j + 1) gr.1 gr.2.1 k1 (by omega) gr.2.2.2 _ hk1 hv1 hl2
    have hpw : (2 : ℤ) ^ (j + 1) = 2 ^ j + 2 ^ j := by rw [pow_succ]; ring
    have hee : j + 1 + fuel = j + (fuel + 1) := by omega
    rw [hee] at b3 b6
    refine ⟨lo', hi', s', k', ac', e, by omega, by omega, by omega, b4, b5, .inr ?_⟩
    rcases b6 with ⟨h1, _⟩ | ⟨d, x, h1, h2, h3⟩
    · exact ⟨j, _, by omega, h1, nt.1, nt.2, by omega, by omega, rfl⟩
    · exact ⟨d, x, by omega, h2, h3⟩

theorem loop0_mkL (w : Ph p) (h0 : Valid T it (orb T it.eps w) 0) :
    loop0 w.1 (T.llk w.1) w.2 = mkL T it (orb T it.eps w) 0 0 true 0 none := by
  unfold loop0 mkL
  have e : orb T it.eps w 0 = w := orb_zero T it.eps w
  rw [e]
  congr 1
  · simp [rs, e]
  · unfold cnt
    rw [Icc_self, filter_singleton, if_pos h0, card_singleton]

theorem isOrb_orb (w : Ph p) : IsOrb T it (orb T it.eps w) := ⟨fun k => orb_succ T it.eps w k, fun k => orb_pred T it.eps w k⟩

end

end Verif.Nuts
