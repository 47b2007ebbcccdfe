import Verif.NutsOut
import Mathlib.MeasureTheory.Measure.Prod
import Mathlib.MeasureTheory.Measure.Haar.OfBasis
import Mathlib.MeasureTheory.Constructions.BorelSpace.Real
import Mathlib.MeasureTheory.Group.LIntegral
import Mathlib.MeasureTheory.Integral.Lebesgue.Basic
import Mathlib.MeasureTheory.Measure.Lebesgue.Basic

namespace Verif.Nuts

open Matrix Finset

variable {p : ℕ}

/-! ### Only `logu` and `DeltaMax` matter for the trajectory -/

section
variable (T : Target p) (z : ℤ → Ph p)

theorem shape_congr (lu D e e' h h' : ℝ) (j : ℕ) (v : Bool) (i : ℤ) :
    shape T ⟨lu, e, h, D⟩ z j v i = shape T ⟨lu, e', h', D⟩ z j v i := by
  induction j generalizing i with
  | zero => rfl
  | succ j ih => simp only [shape, ih]

theorem grow_congr (lu D e e' h h' : ℝ) (j : ℕ) (v : Bool) (lo hi : ℤ) :
    grow T ⟨lu, e, h, D⟩ z j v lo hi = grow T ⟨lu, e', h', D⟩ z j v lo hi := by
  simp only [grow, shape_congr T z lu D e e' h h']

theorem newTree_congr (lu D e e' h h' : ℝ) (j : ℕ) (v : Bool) (lo hi : ℤ) :
    newTree T ⟨lu, e, h, D⟩ z j v lo hi = newTree T ⟨lu, e', h', D⟩ z j v lo hi := by
  simp only [newTree, shape_congr T z lu D e e' h h']

theorem kern_congr (lu D e e' h h' : ℝ) (f : ℤ → NNReal) (fuel j : ℕ) (lo hi : ℤ) (s : Bool) (k : ℤ) :
    kern T ⟨lu, e, h, D⟩ z f fuel j lo hi s k = kern T ⟨lu, e', h', D⟩ z f fuel j lo hi s k := by
  induction fuel generalizing j lo hi s k with
  | zero => rfl
  | succ fuel ih =>
    have hc : ∀ a b, cnt T ⟨lu, e, h, D⟩ z a b = cnt T ⟨lu, e', h', D⟩ z a b := fun a b => rfl
    simp only [kern, grow_congr T z lu D e e' h h', newTree_congr T z lu D e e' h h', ih, hc]
    rfl

end

/-! ### Shifting the trajectory -/

section
variable (T : Target p) (it : Iter) (z : ℤ → Ph p) (c : ℤ)

theorem sum_Icc_shift {M : Type*} [AddCommMonoid M] (f : ℤ → M) (lo hi : ℤ) :
    ∑ k ∈ Icc lo hi, f (k + c) = ∑ k ∈ Icc (lo + c) (hi + c), f k := by
  rw [← map_add_right_Icc, sum_map]; rfl

theorem cnt_shift (lo hi : ℤ) : cnt T it (fun k => z (k + c)) lo hi = cnt T it z (lo + c) (hi + c) := by
  unfold cnt
  rw [card_filter, card_filter]
  exact sum_Icc_shift c (fun k => if Valid T it z k then 1 else 0) lo hi

theorem rs_shift (lo hi : ℤ) : rs (fun k => z (k + c)) lo hi = rs z (lo + c) (hi + c) :=
  sum_Icc_shift c (fun k => (z k).2) lo hi

theorem chk_shift (lo mid hi : ℤ) : chk T (fun k => z (k + c)) lo mid hi = chk T z (lo + c) (mid + c) (hi + c) := by
  unfold chk
  dsimp only
  rw [rs_shift, rs_shift, show mid + 1 + c = mid + c + 1 by ring]

theorem ok_shift (j : ℕ) (lo : ℤ) : ok T it (fun k => z (k + c)) j lo = ok T it z j (lo + c) := by
  induction j generalizing lo with
  | zero => rfl
  | succ j ih =>
    simp only [ok, ih, chk_shift]
    rw [show lo + 2 ^ j + c = lo + c + 2 ^ j by ring, show lo + 2 ^ j - 1 + c = lo + c + 2 ^ j - 1 by ring,
      show lo + 2 ^ (j + 1) - 1 + c = lo + c + 2 ^ (j + 1) - 1 by ring]

theorem shape_shift (j : ℕ) (v : Bool) (i : ℤ) :
    (shape T it (fun k => z (k + c)) j v i).1 + c = (shape T it z j v (i + c)).1 ∧
    (shape T it (fun k => z (k + c)) j v i).2.1 + c = (shape T it z j v (i + c)).2.1 ∧
    (shape T it (fun k => z (k + c)) j v i).2.2 = (shape T it z j v (i + c)).2.2 := by
  induction j generalizing i with
  | zero =>
    cases v
    · simp only [shape, Bool.false_eq_true, if_false]
      rw [show i - 1 + c = i + c - 1 by ring]
      exact ⟨rfl, rfl, rfl⟩
    · simp only [shape, if_true]
      rw [show i + 1 + c = i + c + 1 by ring]
      exact ⟨rfl, rfl, rfl⟩
  | succ j ih =>
    obtain ⟨a1, a2, a3⟩ := ih i
    by_cases hs : (shape T it z j v (i + c)).2.2 = true
    · have e1 : shape T it z (j + 1) v (i + c) = _ := if_pos hs
      have e2 : shape T it (fun k => z (k + c)) (j + 1) v i = _ := if_pos (a3.trans hs)
      obtain ⟨b1, b2, b3⟩ := ih (if v then (shape T it (fun k => z (k + c)) j v i).2.1 else (shape T it (fun k => z (k + c)) j v i).1)
      rw [e1, e2]
      cases v
      · simp only [Bool.false_eq_true, if_false] at b1 b2 b3 ⊢
        rw [a1] at b1 b2 b3
        exact ⟨b1, a2, by rw [b3, chk_shift, b1, b2, a2]⟩
      · simp only [if_true] at b1 b2 b3 ⊢
        rw [a2] at b1 b2 b3
        exact ⟨a1, b2, by rw [b3, chk_shift, b2, a1, a2]⟩
    · have e1 : shape T it z (j + 1) v (i + c) = _ := if_neg hs
      have e2 : shape T it (fun k => z (k + c)) (j + 1) v i = _ := if_neg (fun h => hs (a3.symm.trans h))
      rw [e1, e2]
      exact ⟨a1, a2, a3⟩

theorem kern_shift (f : ℤ → NNReal) (fuel j : ℕ) (lo hi : ℤ) (s : Bool) (k : ℤ) :
    kern T it (fun k => z (k + c)) (fun k => f (k + c)) fuel j lo hi s k = kern T it z f fuel j (lo + c) (hi + c) s (k + c) := by
  induction fuel generalizing j lo hi s k with
  | zero => rfl
  | succ fuel ih =>
    have hV : ∀ k, Valid T it (fun k => z (k + c)) k ↔ Valid T it z (k + c) := fun k => Iff.rfl
    have hsum : ∀ (a b : ℤ) (j : ℕ) (l h : ℤ) (s : Bool),
        ∑ k2 ∈ Icc a b with Valid T it (fun k => z (k + c)) k2, kern T it z f fuel j l h s (k2 + c) =
        ∑ k2 ∈ Icc (a + c) (b + c) with Valid T it z k2, kern T it z f fuel j l h s k2 := by
      intro a b j l h s
      rw [sum_filter, sum_filter]
      exact sum_Icc_shift c (fun k2 => if Valid T it z k2 then kern T it z f fuel j l h s k2 else 0) a b
    have hb := shape_shift T it z c j false lo
    have hf := shape_shift T it z c j true hi
    simp only [kern, ih, cnt_shift, hsum, grow, newTree, if_true, Bool.false_eq_true, if_false, chk_shift, hb.1, hb.2.1, hb.2.2, hf.1, hf.2.1, hf.2.2]

theorem bsum_shift (j : ℕ) (G : ℤ → NNReal) (lo : ℤ) :
    bsum T it (fun k => z (k + c)) j (fun k => G (k + c)) lo = bsum T it z j G (lo + c) := by
  unfold bsum
  rw [sum_filter, sum_filter, show lo + c + 2 ^ j - 1 = lo + 2 ^ j - 1 + c by ring]
  exact sum_Icc_shift c (fun k => if Valid T it z k then G k else 0) lo _

end

/-! ### Measurability -/

section
open MeasureTheory

variable {Ω : Type*} [MeasurableSpace Ω]

theorem meas_dep {ι β : Type*} [Countable ι] [MeasurableSpace ι] [MeasurableSingletonClass ι] [MeasurableSpace β] (n : Ω → ι)
    (hn : Measurable n) (h : ι → Ω → β) (hh : ∀ i, Measurable (h i)) : Measurable fun ω => h (n ω) ω := by
  have : Measurable fun q : ι × Ω => h q.1 q.2 := measurable_from_prod_countable_right hh
  exact this.comp (hn.prodMk measurable_id)

theorem meas_bool2 (f : Bool → Bool → Bool) {a b : Ω → Bool} (ha : Measurable a) (hb : Measurable b) : Measurable fun ω => f (a ω) (b ω) :=
  (measurable_of_countable (fun q : Bool × Bool => f q.1 q.2)).comp (ha.prodMk hb)

theorem meas_nat2 (f : ℕ → ℕ → NNReal) {a b : Ω → ℕ} (ha : Measurable a) (hb : Measurable b) : Measurable fun ω => f (a ω) (b ω) :=
  meas_dep a ha (fun i ω => f i (b ω)) fun i => meas_dep b hb (fun j _ => f i j) fun _ => measurable_const

theorem meas_decide (P : Ω → Prop) [∀ ω, Decidable (P ω)] (h : MeasurableSet {ω | P ω}) : Measurable fun ω => decide (P ω) := by
  apply measurable_to_bool
  convert h using 1
  ext ω; simp

variable (T : Target p) (hllk : Measurable T.llk) (L : Ω → ℝ) (hL : Measurable L) (e D : ℝ) (Z : Ω → ℤ → Ph p) (hZ : ∀ k, Measurable fun ω => Z ω k)

theorem meas_dot {x y : Ω → Fin p → ℝ} (hx : Measurable x) (hy : Measurable y) : Measurable fun ω => x ω ⬝ᵥ y ω := by
  unfold dotProduct
  exact Finset.measurable_sum _ fun i _ => ((measurable_pi_apply i).comp hx).mul ((measurable_pi_apply i).comp hy)

theorem meas_mulVec (M : Matrix (Fin p) (Fin p) ℝ) {x : Ω → Fin p → ℝ} (hx : Measurable x) : Measurable fun ω => M *ᵥ x ω := by
  apply measurable_pi_lambda
  intro i
  exact meas_dot measurable_const hx

theorem meas_energy {x : Ω → Fin p → ℝ} (hx : Measurable x) : Measurable fun ω => energy T (x ω) :=
  (meas_dot hx (meas_mulVec T.Minv hx)).const_mul _

include hllk in
theorem meas_ham {x : Ω → Ph p} (hx : Measurable x) : Measurable fun ω => ham T (x ω) :=
  (hllk.comp (measurable_fst.comp hx)).sub (meas_energy T (measurable_snd.comp hx))

include hllk hL hZ in
theorem meas_valid (k : ℤ) : MeasurableSet {ω | Valid T ⟨L ω, e, 0, D⟩ (Z ω) k} :=
  measurableSet_le hL (meas_ham T hllk (hZ k))

include hllk hL hZ in
theorem meas_cnt (lo hi : ℤ) : Measurable fun ω => cnt T ⟨L ω, e, 0, D⟩ (Z ω) lo hi := by
  have : (fun ω => cnt T ⟨L ω, e, 0, D⟩ (Z ω) lo hi) = fun ω => ∑ k ∈ Icc lo hi, if Valid T ⟨L ω, e, 0, D⟩ (Z ω) k then 1 else 0 := by
    funext ω; exact card_filter _ _
  rw [this]
  exact Finset.measurable_sum _ fun k _ => Measurable.ite (meas_valid T hllk L hL e D Z hZ k) measurable_const measurable_const

include hZ in
theorem meas_rs (lo hi : ℤ) : Measurable fun ω => rs (Z ω) lo hi := by
  unfold rs
  exact Finset.measurable_sum _ fun k _ => measurable_snd.comp (hZ k)

include hZ in
theorem meas_chk (lo mid hi : ℤ) : Measurable fun ω => chk T (Z ω) lo mid hi := by
  have hr : ∀ k, Measurable fun ω => (Z ω k).2 := fun k => measurable_snd.comp (hZ k)
  have hd : ∀ {x y : Ω → Fin p → ℝ}, Measurable x → Measurable y → Measurable fun ω => decide (0 < (T.Minv *ᵥ x ω) ⬝ᵥ y ω) :=
    fun hx hy => meas_decide _ (measurableSet_lt measurable_const (meas_dot (meas_mulVec _ hx) hy))
  have h1 := meas_rs Z hZ lo mid
  have h2 := meas_rs Z hZ (mid + 1) hi
  unfold chk checkDiv
  have ha : ∀ {a b : Ω → Bool}, Measurable a → Measurable b → Measurable fun ω => a ω && b ω := fun ha hb => meas_bool2 _ ha hb
  exact ha (ha (ha (hd (hr lo) (h1.add h2)) (hd (hr hi) (h1.add h2)))
    (ha (hd (hr lo) (h1.add (hr (mid + 1)))) (hd (hr (mid + 1)) (h1.add (hr (mid + 1))))))
    (ha (hd (hr mid) (h2.add (hr mid))) (hd (hr hi) (h2.add (hr mid))))

include hllk hL hZ in
theorem meas_ok (j : ℕ) (lo : ℤ) : Measurable fun ω => ok T ⟨L ω, e, 0, D⟩ (Z ω) j lo := by
  induction j generalizing lo with
  | zero => exact meas_decide _ (measurableSet_lt hL ((meas_ham T hllk (hZ lo)).const_add D))
  | succ j ih =>
    simp only [ok]
    exact meas_bool2 _ (ih _) (meas_bool2 _ (ih _) (meas_chk T Z hZ _ _ _))

include hllk hL hZ in
theorem meas_shape (j : ℕ) (v : Bool) (i : ℤ) : Measurable fun ω => shape T ⟨L ω, e, 0, D⟩ (Z ω) j v i := by
  induction j generalizing i with
  | zero =>
    simp only [shape]
    exact measurable_const.prodMk (measurable_const.prodMk (meas_decide _ (measurableSet_lt hL ((meas_ham T hllk (hZ _)).const_add D))))
  | succ j ih =>
    simp only [shape]
    refine meas_dep (fun ω => shape T ⟨L ω, e, 0, D⟩ (Z ω) j v i) (ih i)
      (fun a ω => if a.2.2 then
        let b := shape T ⟨L ω, e, 0, D⟩ (Z ω) j v (if v then a.2.1 else a.1)
        if v then (a.1, b.2.1, b.2.2 && chk T (Z ω) a.1 a.2.1 b.2.1) else (b.1, a.2.1, b.2.2 && chk T (Z ω) b.1 b.2.1 a.2.1)
        else a) ?_
    intro a
    by_cases ha : a.2.2 = true
    · simp only [ha, if_true]
      refine meas_dep (fun ω => shape T ⟨L ω, e, 0, D⟩ (Z ω) j v (if v then a.2.1 else a.1)) (ih _)
        (fun b ω => if v then (a.1, b.2.1, b.2.2 && chk T (Z ω) a.1 a.2.1 b.2.1) else (b.1, a.2.1, b.2.2 && chk T (Z ω) b.1 b.2.1 a.2.1)) ?_
      intro b
      cases v
      · simp only [Bool.false_eq_true, if_false]
        exact measurable_const.prodMk (measurable_const.prodMk (meas_bool2 _ measurable_const (meas_chk T Z hZ _ _ _)))
      · simp only [if_true]
        exact measurable_const.prodMk (measurable_const.prodMk (meas_bool2 _ measurable_const (meas_chk T Z hZ _ _ _)))
    · simp only [ha]
      exact measurable_const

include hllk hL hZ in
theorem meas_grow (j : ℕ) (v : Bool) (lo hi : ℤ) :
    Measurable fun ω => (grow T ⟨L ω, e, 0, D⟩ (Z ω) j v lo hi, newTree T ⟨L ω, e, 0, D⟩ (Z ω) j v lo hi) := by
  cases v
  · simp only [grow, newTree, Bool.false_eq_true, if_false]
    refine meas_dep (fun ω => shape T ⟨L ω, e, 0, D⟩ (Z ω) j false lo) (meas_shape T hllk L hL e D Z hZ j false lo)
      (fun a ω => ((a.1, hi, a.2.2, a.2.2 && chk T (Z ω) a.1 a.2.1 hi), (a.1, a.2.1))) ?_
    intro a
    exact (measurable_const.prodMk (measurable_const.prodMk (measurable_const.prodMk
      (meas_bool2 _ measurable_const (meas_chk T Z hZ _ _ _))))).prodMk measurable_const
  · simp only [grow, newTree, if_true]
    refine meas_dep (fun ω => shape T ⟨L ω, e, 0, D⟩ (Z ω) j true hi) (meas_shape T hllk L hL e D Z hZ j true hi)
      (fun a ω => ((lo, a.2.1, a.2.2, a.2.2 && chk T (Z ω) lo hi a.2.1), (a.1, a.2.1))) ?_
    intro a
    exact (measurable_const.prodMk (measurable_const.prodMk (measurable_const.prodMk
      (meas_bool2 _ measurable_const (meas_chk T Z hZ _ _ _))))).prodMk measurable_const

theorem meas_step (b : Bool) (c1 c2 : Ω → ℕ) (h1 : Measurable c1) (h2 : Measurable c2) (V : Ω → ℤ → Prop) [∀ ω k, Decidable (V ω k)]
    (hV : ∀ k, MeasurableSet {ω | V ω k}) (K : ℤ → Ω → NNReal) (hK : ∀ k, Measurable (K k)) (lo hi k : ℤ) :
    Measurable fun ω => if b then
      accQ (c1 ω) (c2 ω) * ((∑ k2 ∈ Icc lo hi with V ω k2, K k2 ω) / (c1 ω : NNReal)) + (1 - accQ (c1 ω) (c2 ω)) * K k ω
      else K k ω := by
  cases b
  · simpa using hK k
  simp only [if_true, sum_filter, div_eq_mul_inv]
  have hq : Measurable fun ω => accQ (c1 ω) (c2 ω) :=
    meas_nat2 accQ h1 h2
  have hq1 : Measurable fun ω => 1 - accQ (c1 ω) (c2 ω) :=
    meas_nat2 (fun a b => 1 - accQ a b) h1 h2
  have hi' : Measurable fun ω => ((c1 ω : ℕ) : NNReal)⁻¹ :=
    meas_nat2 (fun a _ => (a : NNReal)⁻¹) h1 h2
  have hs : Measurable fun ω => ∑ k2 ∈ Icc lo hi, if V ω k2 then K k2 ω else 0 :=
    Finset.measurable_sum _ fun k2 _ => Measurable.ite (hV k2) (hK k2) measurable_const
  have hm := hs.mul hi'
  have hm2 := hq.mul hm
  have hm3 := hq1.mul (hK k)
  have hm4 := hm2.add hm3
  exact hm4

include hllk hL hZ in
theorem meas_kern (f : Ω → ℤ → NNReal) (hf : ∀ k, Measurable fun ω => f ω k) (fuel j : ℕ) (lo hi : ℤ) (s : Bool) (k : ℤ) :
    Measurable fun ω => kern T ⟨L ω, e, 0, D⟩ (Z ω) (f ω) fuel j lo hi s k := by
  induction fuel generalizing j lo hi s k with
  | zero => exact hf k
  | succ fuel ih =>
    cases s
    · simp only [kern, Bool.false_eq_true, if_false]
      exact hf k
    simp only [kern, if_true]
    have hc := meas_cnt T hllk L hL e D Z hZ
    have hv := fun v => meas_dep _ (meas_grow T hllk L hL e D Z hZ j v lo hi) _ fun a =>
      meas_step a.1.2.2.1 (fun ω => cnt T ⟨L ω, e, 0, D⟩ (Z ω) a.2.1 a.2.2) (fun ω => cnt T ⟨L ω, e, 0, D⟩ (Z ω) lo hi) (hc a.2.1 a.2.2) (hc lo hi)
        (fun ω k => Valid T ⟨L ω, e, 0, D⟩ (Z ω) k) (meas_valid T hllk L hL e D Z hZ)
        (fun k ω => kern T ⟨L ω, e, 0, D⟩ (Z ω) (f ω) fuel (j + 1) a.1.1 a.1.2.1 a.1.2.2.2 k) (fun k => ih (j + 1) a.1.1 a.1.2.1 a.1.2.2.2 k) a.2.1 a.2.2 k
    exact ((hv false).const_mul _).add ((hv true).const_mul _)

end

end Verif.Nuts
