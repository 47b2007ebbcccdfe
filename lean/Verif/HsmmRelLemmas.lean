import Verif.HsmmRelModel
import Verif.ResidModel

/-!
# Lemmas on renumbered states (property C128)
-/

namespace Verif.Relab
open Verif.Hsmm Finset

variable {R : Type} {s : Equiv.Perm ℕ}

theorem sum_perm {M : Type} [AddCommMonoid M] {n : ℕ} (h : ∀ j, s j < n ↔ j < n) (f : ℕ → M) :
    ∑ i ∈ range n, f i = ∑ i ∈ range n, f (s i) :=
  (Finset.sum_equiv s (fun i => by simp only [mem_range, h]) (fun i _ => rfl)).symm

section
variable {m : Tables R}

theorem bij_symm (h : Ok s m) {j : ℕ} : s.symm j < m.n_S ↔ j < m.n_S := by
  have := h.bij (s.symm j)
  rw [Equiv.apply_symm_apply] at this
  exact this.symm

theorem col_lt (h : Ok s m) {j : ℕ} (hj : j < m.n_S) : col s m.n_S (s j) = j := by
  unfold col
  rw [if_pos ((h.bij j).2 hj), Equiv.symm_apply_apply]

theorem col_add (j : ℕ) : col s m.n_S (s j + m.n_S) = j + m.n_S := by
  unfold col
  rw [if_neg (by omega), Nat.add_sub_cancel, Equiv.symm_apply_apply]

theorem ds_relab (h : Ok s m) (d t : ℕ) {j : ℕ} (hj : j < m.n_S) : (relab s m).ds d (s j) t = m.ds d j t := by
  show (if m.tvdtpi then m.ds3 d (col s m.n_S (s j)) t else m.ds2 d (col s m.n_S (s j))) = _
  rw [col_lt h hj]; rfl

theorem dcol_relab (h : Ok s m) (d t : ℕ) {j : ℕ} (hj : j < m.n_S) :
    (relab s m).ds d ((relab s m).dcol (s j)) t = m.ds d (m.dcol j) t := by
  show (if m.tvdtpi then m.ds3 d (col s m.n_S (if m.starts_with_first then s j else s j + m.n_S)) t
    else m.ds2 d (col s m.n_S (if m.starts_with_first then s j else s j + m.n_S))) = _
  unfold Tables.ds Tables.dcol
  cases m.starts_with_first
  · simp only [Bool.false_eq_true, if_false, col_add]
  · simp only [if_true, col_lt h hj]

theorem T_relab (i j t : ℕ) : (relab s m).T (s i) (s j) t = m.T i j t := by
  show (if m.tvdtpi then m.T3 (s.symm (s i)) (s.symm (s j)) t else m.T2 (s.symm (s i)) (s.symm (s j))) = _
  rw [Equiv.symm_apply_apply, Equiv.symm_apply_apply]; rfl

theorem pi_relab (j : ℕ) : (relab s m).pi (s j) = m.pi j := by
  show m.pi (s.symm (s j)) = _
  rw [Equiv.symm_apply_apply]

theorem bs2_relab (t j : ℕ) : (relab s m).bs2 t (s j) = m.bs2 t j := by
  show m.bs2 t (s.symm (s j)) = _
  rw [Equiv.symm_apply_apply]

theorem bs3_relab (t k j : ℕ) : (relab s m).bs3 t k (s j) = m.bs3 t k j := by
  show m.bs3 t k (s.symm (s j)) = _
  rw [Equiv.symm_apply_apply]

theorem last_iff (h : Ok s m) (he : m.ends_in_last = true) (j : ℕ) : s j = m.n_S - 1 ↔ j = m.n_S - 1 := by
  constructor
  · intro hj
    rw [← h.last he] at hj
    exact s.injective hj
  · rintro rfl; exact h.last he

end

variable {m : Tables ℝ}

theorem tp_relab (h : Ok s m) {prev prev' : ℕ → ℕ → ℝ} (hp : ∀ d j, j < m.n_S → prev' d (s j) = prev d j) (j t : ℕ) :
    (∑ i ∈ range m.n_S, if i = s j then 0 else prev' 0 i * (relab s m).T i (s j) t) =
      ∑ i ∈ range m.n_S, if i = j then 0 else prev 0 i * m.T i j t := by
  rw [sum_perm h.bij]
  refine sum_congr rfl fun i hi => ?_
  rw [T_relab, hp 0 i (mem_range.1 hi)]
  simp only [s.injective.eq_iff]

theorem lamCell_relab (h : Ok s m) {prev prev' : ℕ → ℕ → ℝ} (hp : ∀ d j, j < m.n_S → prev' d (s j) = prev d j) (t : ℕ) (L : ℝ) (d : ℕ)
    {j : ℕ} (hj : j < m.n_S) : lamCell (relab s m) t prev' L d (s j) = lamCell m t prev L d j := by
  have e1 : (relab s m).n_S = m.n_S := rfl
  have e2 : (relab s m).n_T = m.n_T := rfl
  have e3 : (relab s m).D = m.D := rfl
  have e4 : (relab s m).event_width = m.event_width := rfl
  have e5 : (relab s m).ends_with_last = m.ends_with_last := rfl
  have e6 : (relab s m).hmp = m.hmp := rfl
  unfold lamCell
  rw [e1, e2, e3, e4, e5, e6, tp_relab h hp, ds_relab h d t hj, dcol_relab h d t hj, pi_relab, bs2_relab, hp _ j hj]
  simp only [bs3_relab]
  cases hh : m.hmp
  · simp
  · rw [h.par hh j]

theorem lamContrib_relab (h : Ok s m) (t d : ℕ) (v : ℝ) {j : ℕ} (hj : j < m.n_S) :
    lamContrib (relab s m) t d (s j) v = lamContrib m t d j v := by
  have e1 : (relab s m).n_S = m.n_S := rfl
  have e2 : (relab s m).n_T = m.n_T := rfl
  have e4 : (relab s m).event_width = m.event_width := rfl
  have e5 : (relab s m).ends_with_last = m.ends_with_last := rfl
  have e6 : (relab s m).hmp = m.hmp := rfl
  have e7 : (relab s m).ends_in_last = m.ends_in_last := rfl
  unfold lamContrib
  rw [e1, e2, e4, e5, e6, e7]
  have a1 : (m.hmp = true ∧ s j % 2 = 1 ∧ m.event_width ≤ d) = (m.hmp = true ∧ j % 2 = 1 ∧ m.event_width ≤ d) := by
    apply propext
    constructor
    · rintro ⟨x, y, z⟩; rw [h.par x j] at y; exact ⟨x, y, z⟩
    · rintro ⟨x, y, z⟩; rw [← h.par x j] at y; exact ⟨x, y, z⟩
  simp only [a1]
  cases he : m.ends_in_last
  · simp
  · simp only [last_iff h he]

theorem lamSum_relab (h : Ok s m) {lm lm' : ℕ → ℕ → ℝ} (hp : ∀ d j, j < m.n_S → lm' d (s j) = lm d j) (t : ℕ) :
    lamSum (relab s m) t lm' = lamSum m t lm := by
  unfold lamSum
  refine sum_congr rfl fun d _ => ?_
  show ∑ j ∈ range m.n_S, _ = _
  rw [sum_perm h.bij]
  refine sum_congr rfl fun j hj => ?_
  rw [lamContrib_relab h t d _ (mem_range.1 hj), hp d j (mem_range.1 hj)]

theorem lam_relab (h : Ok s m) (t : ℕ) : ∀ d j, j < m.n_S → lam (relab s m) t d (s j) = lam m t d j := by
  induction t with
  | zero => exact fun d j hj => lamCell_relab h (prev := fun _ _ => 0) (prev' := fun _ _ => 0) (fun _ _ _ => rfl) 0 0 d hj
  | succ t ih =>
    intro d j hj
    show lamCell (relab s m) (t + 1) (lam (relab s m) t) (lamSum (relab s m) t (lam (relab s m) t)) d (s j) = _
    rw [lamSum_relab h ih]
    exact lamCell_relab h ih (t + 1) _ d hj

/-! ### Residuals -/

theorem residCell_relab (h : Ok s m) {e2 e2' : ℕ → ℝ} {e3 e3' : ℕ → ℕ → ℝ} (h2 : ∀ j, j < m.n_S → e2' (s j) = e2 j)
    (h3 : ∀ k j, j < m.n_S → e3' k (s j) = e3 k j) {prev prev' : ℕ → ℕ → ℝ} (hp : ∀ d j, j < m.n_S → prev' d (s j) = prev d j)
    (t : ℕ) (L : ℝ) (d : ℕ) {j : ℕ} (hj : j < m.n_S) :
    residCell (relab s m) e2' e3' t prev' L d (s j) = residCell m e2 e3 t prev L d j := by
  have e1 : (relab s m).n_S = m.n_S := rfl
  have e2 : (relab s m).n_T = m.n_T := rfl
  have e3 : (relab s m).D = m.D := rfl
  have e4 : (relab s m).event_width = m.event_width := rfl
  have e5 : (relab s m).ends_with_last = m.ends_with_last := rfl
  have e6 : (relab s m).hmp = m.hmp := rfl
  unfold residCell
  rw [e1, e2, e3, e4, e5, e6, tp_relab h hp, ds_relab h d t hj, dcol_relab h d t hj, pi_relab, h2 j hj, hp _ j hj]
  simp only [h3 _ j hj]
  cases hh : m.hmp
  · simp
  · rw [h.par hh j]

theorem sbContrib_relab (h : Ok s m) (t d : ℕ) (v : ℝ) (j : ℕ) : sbContrib (relab s m) t d (s j) v = sbContrib m t d j v := by
  have e1 : (relab s m).n_S = m.n_S := rfl
  have e2 : (relab s m).n_T = m.n_T := rfl
  have e5 : (relab s m).ends_with_last = m.ends_with_last := rfl
  have e7 : (relab s m).ends_in_last = m.ends_in_last := rfl
  unfold sbContrib
  rw [e1, e2, e5, e7]
  cases he : m.ends_in_last
  · simp
  · simp only [last_iff h he]

theorem sbLam_relab (h : Ok s m) {lm lm' : ℕ → ℕ → ℝ} (hp : ∀ d j, j < m.n_S → lm' d (s j) = lm d j) (t : ℕ) :
    sbLam (relab s m) t lm' = sbLam m t lm := by
  unfold sbLam
  refine sum_congr rfl fun d _ => ?_
  show ∑ j ∈ range m.n_S, _ = _
  rw [sum_perm h.bij]
  refine sum_congr rfl fun j hj => ?_
  rw [sbContrib_relab h, hp d j (mem_range.1 hj)]

theorem fwdLam_relab (h : Ok s m) (t : ℕ) : ∀ d j, j < m.n_S → fwdLam (relab s m) t d (s j) = fwdLam m t d j := by
  induction t with
  | zero =>
    exact fun d j hj => residCell_relab h (fun j _ => bs2_relab 0 j) (fun k j _ => bs3_relab 0 k j) (prev := fun _ _ => 0)
      (prev' := fun _ _ => 0) (fun _ _ _ => rfl) 0 0 d hj
  | succ t ih =>
    intro d j hj
    show residCell (relab s m) _ _ (t + 1) (fwdLam (relab s m) t) (sbLam (relab s m) t (fwdLam (relab s m) t)) d (s j) = _
    rw [sbLam_relab h ih]
    exact residCell_relab h (fun j _ => bs2_relab _ j) (fun k j _ => bs3_relab _ k j) ih (t + 1) _ d hj

theorem elamCell_relab (h : Ok s m) {M sig : ℕ} {mu mu' : ℕ → ℝ} {t : ℕ}
    (hmu : ∀ j, j < m.n_S → mu' (t + m.n_T * (sig + M * s j)) = mu (t + m.n_T * (sig + M * j)))
    (hmu2 : ∀ j, j < m.n_S → mu' (t + m.n_T * s j) = mu (t + m.n_T * j)) {prev prev' : ℕ → ℕ → ℝ}
    (hp : ∀ d j, j < m.n_S → prev' d (s j) = prev d j) (L : ℝ) (d : ℕ) {j : ℕ} (hj : j < m.n_S) :
    elamCell (relab s m) M sig mu' t prev' L d (s j) = elamCell m M sig mu t prev L d j := by
  have e1 : (relab s m).n_S = m.n_S := rfl
  have e2 : (relab s m).n_T = m.n_T := rfl
  have e3 : (relab s m).D = m.D := rfl
  have e5 : (relab s m).ends_with_last = m.ends_with_last := rfl
  unfold elamCell
  rw [e1, e2, e3, e5, tp_relab h hp, ds_relab h d t hj, dcol_relab h d t hj, pi_relab, hmu j hj, hmu2 j hj, hp _ j hj]

/-! ### Sampling -/

theorem sbCell_relab (h : Ok s m) {prev prev' : ℕ → ℕ → ℝ} (hp : ∀ d j, j < m.n_S → prev' d (s j) = prev d j) (t d : ℕ)
    {j : ℕ} (hj : j < m.n_S) : sbCell (relab s m) t prev' d (s j) = sbCell m t prev d j := by
  have e1 : (relab s m).n_S = m.n_S := rfl
  have e2 : (relab s m).n_T = m.n_T := rfl
  have e3 : (relab s m).D = m.D := rfl
  have e4 : (relab s m).event_width = m.event_width := rfl
  have e5 : (relab s m).ends_with_last = m.ends_with_last := rfl
  have e6 : (relab s m).hmp = m.hmp := rfl
  unfold sbCell
  rw [e1, e2, e3, e4, e5, e6, tp_relab h hp, ds_relab h d t hj, dcol_relab h d t hj, pi_relab, bs2_relab, hp _ j hj]
  simp only [bs3_relab]
  cases hh : m.hmp
  · simp
  · rw [h.par hh j]

theorem sbRaw_relab (h : Ok s m) (t : ℕ) : ∀ d j, j < m.n_S → sbRaw (relab s m) t d (s j) = sbRaw m t d j := by
  induction t with
  | zero => exact fun d j hj => sbCell_relab h (prev := fun _ _ => 0) (prev' := fun _ _ => 0) (fun _ _ _ => rfl) 0 d hj
  | succ t ih =>
    intro d j hj
    show sbCell (relab s m) (t + 1) (fun d' j' => sbRaw (relab s m) t d' j' / sbLam (relab s m) t (sbRaw (relab s m) t)) d (s j) = _
    rw [sbLam_relab h ih]
    exact sbCell_relab h (prev := fun d' j' => sbRaw m t d' j' / sbLam m t (sbRaw m t)) (fun d j hj => by rw [ih d j hj]) (t + 1) d hj

theorem sbScaled_relab (h : Ok s m) (t d : ℕ) {j : ℕ} (hj : j < m.n_S) : sbScaled (relab s m) t d (s j) = sbScaled m t d j := by
  unfold sbScaled
  rw [sbLam_relab h (sbRaw_relab h t), sbRaw_relab h t d j hj]

theorem stateProbsT_relab (h : Ok s m) {j : ℕ} (hj : j < m.n_S) : stateProbsT (relab s m) (s j) = stateProbsT m j := by
  have e2 : (relab s m).n_T = m.n_T := rfl
  have e3 : (relab s m).D = m.D := rfl
  unfold stateProbsT
  rw [e2, e3, sbLam_relab h (sbRaw_relab h _)]
  congr 1
  exact sum_congr rfl fun d _ => by rw [sbContrib_relab h, sbRaw_relab h _ d j hj]

theorem durProbs_relab (h : Ok s m) (d : ℕ) {j : ℕ} (hj : j < m.n_S) : durProbs (relab s m) (s j) d = durProbs m j d := by
  have e2 : (relab s m).n_T = m.n_T := rfl
  unfold durProbs
  rw [e2, sbLam_relab h (sbRaw_relab h _), stateProbsT_relab h hj, sbContrib_relab h, sbRaw_relab h _ d j hj]

theorem backWeight_relab (h : Ok s m) (t ed : ℕ) {i j : ℕ} (hi : i < m.n_S) (hj : j < m.n_S) :
    backWeight (relab s m) t (s j) ed (s i) = backWeight m t j ed i := by
  have e3 : (relab s m).D = m.D := rfl
  unfold backWeight
  rw [e3, sbScaled_relab h _ _ hi, sbScaled_relab h _ _ hi, T_relab, dcol_relab h _ _ hj]
  simp only [s.injective.eq_iff]

theorem drawProb_relab {n : ℕ} (hb : ∀ j, s j < n ↔ j < n) {w w' : ℕ → ℝ} (hw : ∀ i, i < n → w' (s i) = w i) (i : ℕ) :
    drawProb n w' (s i) = drawProb n w i := by
  unfold drawProb
  rw [sum_perm hb]
  by_cases hi : i < n
  · rw [if_pos ((hb i).2 hi), if_pos hi, hw i hi, sum_congr rfl fun k hk => hw k (mem_range.1 hk)]
  · rw [if_neg (fun h => hi ((hb i).1 h)), if_neg hi]

theorem loopProb_relab (h : Ok s m) : ∀ (t j ed : ℕ) (p : List ℕ), j < m.n_S →
    loopProb (relab s m) t (s j) ed (p.map s) = loopProb m t j ed p := by
  intro t
  induction t with
  | zero =>
    intro j ed p _
    cases p <;> rfl
  | succ t ih =>
    intro j ed p hj
    cases p with
    | nil => rfl
    | cons i rest =>
      show drawProb m.n_S (backWeight (relab s m) (t + 1) (s j) ed) (s i) *
        loopProb (relab s m) t (s i) (if s j = s i then ed + 1 else 0) (rest.map s) = drawProb m.n_S (backWeight m (t + 1) j ed) i *
        loopProb m t i (if j = i then ed + 1 else 0) rest
      rw [drawProb_relab h.bij fun i hi => backWeight_relab h (t + 1) ed hi hj]
      by_cases hi : i < m.n_S
      · simp only [s.injective.eq_iff]
        rw [ih i _ rest hi]
      · have : drawProb m.n_S (backWeight m (t + 1) j ed) i = 0 := if_neg hi
        rw [this, zero_mul, zero_mul]

end Verif.Relab
