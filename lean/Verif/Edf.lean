import Verif.EdfModel
import Verif.Shared
import Verif.LamTrace
import Mathlib.Analysis.Matrix.Spectrum
import Mathlib.LinearAlgebra.Matrix.Rank

/-!
# Effective degrees of freedom (property C32)
-/

namespace Verif.Edf

open Verif.Pen Matrix

/-! ### Traces -/

theorem sum_sq_eq_trace {m n : Type} [Fintype m] [Fintype n] (B : Matrix m n ℝ) :
    ∑ i, ∑ j, B i j ^ 2 = (Bᵀ * B).trace := by
  simp only [trace, diag_apply, mul_apply, transpose_apply]
  rw [Finset.sum_comm]
  exact Finset.sum_congr rfl fun i _ => Finset.sum_congr rfl fun j _ => by ring

theorem embedKeep_mul {k p : ℕ} (keep : Fin k → Fin p) (M : Matrix (Fin k) (Fin k) ℝ)
    (D : Matrix (Fin p) (Fin p) ℝ) :
    ∑ i, ∑ j, (embedKeep keep M * D) i j ^ 2
      = ∑ i, ∑ j, ((∑ a, if keep a = i then (M * D.submatrix keep id) a j else 0) : ℝ) ^ 2 := by
  refine Finset.sum_congr rfl fun i _ => Finset.sum_congr rfl fun j _ => ?_
  congr 1
  simp only [mul_apply, embedKeep, submatrix_apply, id_eq]
  calc ∑ x, (∑ a, ∑ b, if keep a = i ∧ keep b = x then M a b else 0) * D x j
      = ∑ x, ∑ a, ∑ b, (if keep a = i ∧ keep b = x then M a b else 0) * D x j := by
        simp only [Finset.sum_mul]
    _ = ∑ a, ∑ b, ∑ x, (if keep a = i ∧ keep b = x then M a b else 0) * D x j := by
        rw [Finset.sum_comm]
        exact Finset.sum_congr rfl fun a _ => Finset.sum_comm
    _ = _ := by
        refine Finset.sum_congr rfl fun a _ => ?_
        by_cases h : keep a = i
        · rw [if_pos h]
          refine Finset.sum_congr rfl fun b _ => ?_
          rw [Finset.sum_eq_single (keep b)]
          · rw [if_pos ⟨h, rfl⟩]
          · intro x _ hx
            rw [if_neg (fun h2 => hx h2.2.symm), zero_mul]
          · intro h2; exact absurd (Finset.mem_univ _) h2
        · rw [if_neg h]
          refine Finset.sum_eq_zero fun b _ => Finset.sum_eq_zero fun x _ => ?_
          rw [if_neg (fun h2 => h h2.1), zero_mul]

/-- The trace computed for a penalty is `tr(V S_j)` over the kept coefficients. -/
theorem bps_eq_trace {k p : ℕ} (keep : Fin k → Fin p) (hk : Function.Injective keep)
    (Linv : Matrix (Fin k) (Fin k) ℝ) (q : LTerm)
    (hS : toMat p q.Semb = toMat p q.Demb * (toMat p q.Demb)ᵀ) :
    bps (embedKeep keep Linv) q = (Linvᵀ * Linv * (toMat p q.Semb).submatrix keep keep).trace := by
  unfold bps
  rw [embedKeep_mul]
  set D := toMat p q.Demb
  have h1 : ∑ i, ∑ j, ((∑ a, if keep a = i then (Linv * D.submatrix keep id) a j else 0) : ℝ) ^ 2
      = ∑ a, ∑ j, (Linv * D.submatrix keep id) a j ^ 2 := by
    have h2 : ∀ i j, ((∑ a, if keep a = i then (Linv * D.submatrix keep id) a j else 0) : ℝ) ^ 2
        = ∑ a, if keep a = i then (Linv * D.submatrix keep id) a j ^ 2 else 0 := by
      intro i j
      by_cases h : ∃ a, keep a = i
      · obtain ⟨a, ha⟩ := h
        rw [Finset.sum_eq_single a, Finset.sum_eq_single a, if_pos ha, if_pos ha]
        · intro b _ hb
          rw [if_neg (fun h => hb (hk (h.trans ha.symm)))]
        · intro h; exact absurd (Finset.mem_univ _) h
        · intro b _ hb
          rw [if_neg (fun h => hb (hk (h.trans ha.symm)))]
        · intro h; exact absurd (Finset.mem_univ _) h
      · push Not at h
        rw [Finset.sum_eq_zero (fun a _ => if_neg (h a)), Finset.sum_eq_zero (fun a _ => if_neg (h a))]
        norm_num
    simp only [h2]
    calc ∑ i, ∑ j, ∑ a, (if keep a = i then (Linv * D.submatrix keep id) a j ^ 2 else 0)
        = ∑ a, ∑ j, ∑ i, (if keep a = i then (Linv * D.submatrix keep id) a j ^ 2 else 0) := by
          rw [Finset.sum_comm]
          conv_rhs => rw [Finset.sum_comm]
          refine Finset.sum_congr rfl fun j _ => ?_
          rw [Finset.sum_comm]
      _ = _ := by
          refine Finset.sum_congr rfl fun a _ => Finset.sum_congr rfl fun j _ => ?_
          rw [Finset.sum_ite_eq Finset.univ (keep a), if_pos (Finset.mem_univ _)]
  rw [h1, sum_sq_eq_trace, transpose_mul]
  have h3 : (toMat p q.Semb).submatrix keep keep
      = D.submatrix keep id * (D.submatrix keep id)ᵀ := by
    rw [hS]
    ext a b
    simp [mul_apply]
  rw [h3, trace_mul_comm (Linvᵀ * Linv)]
  rw [Matrix.mul_assoc, trace_mul_comm]
  rw [trace_mul_comm (D.submatrix keep id * _)]
  simp only [Matrix.mul_assoc]

/-- The weighted sum of the penalties over the first `p` coefficients. -/
def sumS (p : ℕ) (qs : List LTerm) : Matrix (Fin p) (Fin p) ℝ :=
  (qs.map fun q => q.lam • toMat p q.Semb).sum

theorem toMat_totalS (p : ℕ) (qs : List LTerm) : toMat p (totalS qs) = sumS p qs := by
  ext i j
  unfold toMat
  rw [totalS_eq]
  unfold sumS
  induction qs with
  | nil => simp
  | cons q qs ih =>
    simp only [List.map_cons, List.sum_cons, Matrix.add_apply, ih, Matrix.smul_apply, smul_eq_mul, toMat]

theorem posSemidef_sumS {p : ℕ} (qs : List LTerm) (hl : ∀ q ∈ qs, 0 ≤ q.lam)
    (hS : ∀ q ∈ qs, toMat p q.Semb = toMat p q.Demb * (toMat p q.Demb)ᵀ) : (sumS p qs).PosSemidef := by
  unfold sumS
  induction qs with
  | nil => simpa using PosSemidef.zero
  | cons q qs ih =>
    rw [List.map_cons, List.sum_cons]
    refine PosSemidef.add ?_ (ih (fun q h => hl q (List.mem_cons_of_mem _ h))
      fun q h => hS q (List.mem_cons_of_mem _ h))
    refine PosSemidef.smul ?_ (hl q List.mem_cons_self)
    rw [hS q List.mem_cons_self, ← conjTranspose_eq_transpose_of_trivial]
    exact posSemidef_self_mul_conjTranspose _

theorem sum_bps {k p : ℕ} (keep : Fin k → Fin p) (hk : Function.Injective keep)
    (Linv : Matrix (Fin k) (Fin k) ℝ) (qs : List LTerm)
    (hS : ∀ q ∈ qs, toMat p q.Semb = toMat p q.Demb * (toMat p q.Demb)ᵀ) :
    (qs.map fun q => q.lam * bps (embedKeep keep Linv) q).sum
      = (Linvᵀ * Linv * (sumS p qs).submatrix keep keep).trace := by
  unfold sumS
  induction qs with
  | nil => simp
  | cons q qs ih =>
    rw [List.map_cons, List.sum_cons, ih (fun q h => hS q (List.mem_cons_of_mem _ h)),
      bps_eq_trace keep hk Linv q (hS q List.mem_cons_self), List.map_cons, List.sum_cons]
    rw [show ((q.lam • toMat p q.Semb + (qs.map fun q => q.lam • toMat p q.Semb).sum).submatrix keep keep)
      = q.lam • (toMat p q.Semb).submatrix keep keep
        + ((qs.map fun q => q.lam • toMat p q.Semb).sum).submatrix keep keep from rfl,
      Matrix.mul_add, trace_add, Matrix.mul_smul, trace_smul, smul_eq_mul]

theorem foldl_sub (qs : List LTerm) (f : LTerm → ℝ) (t : ℝ) :
    qs.foldl (fun t q => t - f q) t = t - (qs.map f).sum := by
  induction qs generalizing t with
  | nil => simp
  | cons q qs ih => rw [List.foldl_cons, ih, List.map_cons, List.sum_cons]; ring

/-- **C32 (partial).** With at least one penalty, the total degrees of freedom are the trace of
`V X'X` over the kept coefficients, where `V` is the inverse of the penalised cross product: between
zero and the number of kept coefficients.  Missing: models without penalties but with dropped
coefficients, see `no_penalty_drop`. -/
theorem total_edf_partial {k p dropped : ℕ} (keep : Fin k → Fin p) (hk : Function.Injective keep)
    (hd : k + dropped = p) (A : Matrix (Fin p) (Fin p) ℝ) (hA : A.PosSemidef)
    (Linv : Matrix (Fin k) (Fin k) ℝ) (sort : List LTerm → List LTerm) (merged : List LTerm)
    (hm : merged ≠ []) (hl : ∀ q ∈ split sort merged, 0 ≤ q.lam)
    (hS : ∀ q ∈ split sort merged, toMat p q.Semb = toMat p q.Demb * (toMat p q.Demb)ᵀ)
    (hV : Linvᵀ * Linv * (A + toMat p (totalS (split sort merged))).submatrix keep keep = 1) :
    scaleEdf keep Linv sort merged dropped = (Linvᵀ * Linv * A.submatrix keep keep).trace ∧
    0 ≤ scaleEdf keep Linv sort merged dropped ∧ scaleEdf keep Linv sort merged dropped ≤ k := by
  have hlen : merged.length > 0 := List.length_pos_iff.2 hm
  have hsum := sum_bps keep hk Linv (split sort merged) hS
  rw [← toMat_totalS] at hsum
  have h1 : scaleEdf keep Linv sort merged dropped
      = k - (Linvᵀ * Linv * (toMat p (totalS (split sort merged))).submatrix keep keep).trace := by
    unfold scaleEdf calcEdf
    rw [if_pos hlen]
    dsimp only
    rw [foldl_sub _ (fun q => q.lam * bps (embedKeep keep Linv) q), hsum, show p - dropped = k by omega]
  have h2 : (Linvᵀ * Linv * A.submatrix keep keep).trace
      + (Linvᵀ * Linv * (toMat p (totalS (split sort merged))).submatrix keep keep).trace = k := by
    rw [← trace_add, ← Matrix.mul_add]
    rw [show A.submatrix keep keep + (toMat p (totalS (split sort merged))).submatrix keep keep
      = (A + toMat p (totalS (split sort merged))).submatrix keep keep from rfl, hV, trace_one,
      Fintype.card_fin]
  have hnn : ∀ B : Matrix (Fin p) (Fin p) ℝ, B.PosSemidef →
      0 ≤ (Linvᵀ * Linv * B.submatrix keep keep).trace := by
    intro B hB
    have := Lam.trace_quad_nonneg (B.submatrix keep keep) (hB.submatrix keep) Linvᵀ
    rw [transpose_transpose] at this
    rwa [Matrix.mul_assoc, trace_mul_comm]
  have h3 := hnn A hA
  have h4 := hnn (toMat p (totalS (split sort merged)))
    (by rw [toMat_totalS]; exact posSemidef_sumS _ hl hS)
  refine ⟨by rw [h1]; linarith, by rw [h1]; linarith, by rw [h1]; linarith⟩

/-! ### Terms -/

/-- What the loop of `calculate_term_edf` maintains. -/
structure TInv (xs : List (LTerm × ℝ)) (es : List Ent) (mx : ℕ) : Prop where
  sorted : (es.map (·.idx)).Pairwise (· < ·)
  le : ∀ e ∈ es, e.idx ≤ mx
  mem : ∀ s, s ∈ es.map (·.idx) ↔ ∃ x ∈ xs, x.1.start = s
  last : xs ≠ [] → mx ∈ es.map (·.idx)
  pen : ∀ e ∈ es, e.pen = ((xs.filter fun x => x.1.start = e.idx).map (·.2)).sum
  dim : ∀ e ∈ es, ∀ x ∈ xs, x.1.start = e.idx → e.n = x.1.k * x.1.rep

theorem filter_single (es : List Ent) (h : (es.map (·.idx)).Pairwise (· < ·)) (e : Ent) (he : e ∈ es) :
    es.filter (fun f => f.idx = e.idx) = [e] := by
  induction es with
  | nil => simp at he
  | cons a es ih =>
    rw [List.map_cons, List.pairwise_cons] at h
    rcases List.mem_cons.1 he with rfl | he
    · rw [List.filter_cons_of_pos (by simp)]
      congr 1
      rw [List.filter_eq_nil_iff]
      intro f hf hfe
      have := h.1 f.idx (List.mem_map_of_mem hf)
      simp only [decide_eq_true_eq] at hfe
      omega
    · have := h.1 e.idx (List.mem_map_of_mem he)
      rw [List.filter_cons_of_neg (by simp; omega)]
      exact ih h.2 he

theorem term_run (xs : List (LTerm × ℝ)) (hs : (xs.map fun x => x.1.start).Pairwise (· ≤ ·))
    (hd : ∀ x ∈ xs, ∀ y ∈ xs, x.1.start = y.1.start → x.1.k * x.1.rep = y.1.k * y.1.rep) :
    ∃ es mx, xs.foldl termStep (some ([], 0)) = some (es, mx) ∧ TInv xs es mx := by
  induction xs using List.reverseRecOn with
  | nil => exact ⟨[], 0, rfl, by constructor <;> simp⟩
  | append_singleton xs x ih =>
    rw [List.map_append, List.pairwise_append] at hs
    obtain ⟨es, mx, h1, I⟩ := ih hs.1 fun y hy z hz => hd y (List.mem_append_left _ hy) z
      (List.mem_append_left _ hz)
    have hle : ∀ y ∈ xs, y.1.start ≤ x.1.start := fun y hy =>
      hs.2.2 _ (List.mem_map_of_mem hy) _ (by simp)
    have hdx : ∀ y ∈ xs, y.1.start = x.1.start → y.1.k * y.1.rep = x.1.k * x.1.rep := fun y hy h =>
      hd y (List.mem_append_left _ hy) x (by simp) h
    rw [List.foldl_append, h1]
    simp only [List.foldl_cons, List.foldl_nil, termStep]
    by_cases hc : es = [] ∨ x.1.start > mx
    · rw [if_pos hc]
      have hnew : ∀ e ∈ es, e.idx < x.1.start := by
        intro e he
        rcases hc with hc | hc
        · rw [hc] at he; simp at he
        · exact lt_of_le_of_lt (I.le e he) hc
      have hold : ∀ y ∈ xs, y.1.start ≠ x.1.start := by
        intro y hy h
        have : x.1.start ∈ es.map (·.idx) := (I.mem _).2 ⟨y, hy, h⟩
        obtain ⟨e, he, h2⟩ := List.mem_map.1 this
        have := hnew e he
        omega
      refine ⟨_, _, rfl, ?_⟩
      constructor
      · rw [List.map_append, List.pairwise_append]
        refine ⟨I.sorted, by simp, ?_⟩
        intro a ha b hb
        obtain ⟨e, he, rfl⟩ := List.mem_map.1 ha
        simp only [List.map_cons, List.map_nil, List.mem_singleton] at hb
        subst hb
        exact hnew e he
      · intro e he
        rcases List.mem_append.1 he with he | he
        · exact (hnew e he).le
        · rw [List.mem_singleton.1 he]
      · intro s
        rw [List.map_append, List.mem_append, I.mem]
        simp only [List.map_cons, List.map_nil, List.mem_singleton, List.mem_append]
        constructor
        · rintro (⟨y, hy, h⟩ | h)
          · exact ⟨y, Or.inl hy, h⟩
          · exact ⟨x, Or.inr rfl, h.symm⟩
        · rintro ⟨y, hy | hy, h⟩
          · exact Or.inl ⟨y, hy, h⟩
          · subst hy; exact Or.inr h.symm
      · intro _
        simp
      · intro e he
        rw [List.filter_append, List.map_append, List.sum_append]
        rcases List.mem_append.1 he with he | he
        · rw [I.pen e he, List.filter_cons_of_neg (by simp; exact (hnew e he).ne')]
          simp
        · rw [List.mem_singleton.1 he]
          dsimp only
          rw [List.filter_eq_nil_iff.2 (by intro y hy; simpa using hold y hy)]
          simp
      · intro e he y hy h
        rcases List.mem_append.1 he with he | he
        · rcases List.mem_append.1 hy with hy | hy
          · exact I.dim e he y hy h
          · rw [List.mem_singleton.1 hy] at h
            exact absurd h (hnew e he).ne'
        · rw [List.mem_singleton.1 he] at h ⊢
          rcases List.mem_append.1 hy with hy | hy
          · exact absurd h (hold y hy)
          · rw [List.mem_singleton.1 hy]
    · rw [if_neg hc]
      push Not at hc
      have hxs : xs ≠ [] := by
        rintro rfl
        obtain ⟨e, he⟩ := List.exists_mem_of_ne_nil es hc.1
        obtain ⟨y, hy, -⟩ := (I.mem e.idx).1 (List.mem_map_of_mem he)
        simp at hy
      obtain ⟨e, he, hemx⟩ := List.mem_map.1 (I.last hxs)
      obtain ⟨y, hy, hyx⟩ := (I.mem mx).1 (I.last hxs)
      have hxm : x.1.start = mx := le_antisymm hc.2 (hyx ▸ hle y hy)
      have hf := filter_single es I.sorted e he
      rw [hemx] at hf
      rw [hxm, hf]
      dsimp only
      have hen : e.n = x.1.k * x.1.rep := by
        rw [I.dim e he y hy (hyx.trans hemx.symm)]
        exact hdx y hy (hyx.trans hxm.symm)
      rw [if_pos hen]
      have hmap : (es.map fun e => if e.idx = mx then { e with pen := e.pen + x.2 } else e).map (·.idx)
          = es.map (·.idx) := by
        rw [List.map_map]
        refine List.map_congr_left fun f _ => ?_
        dsimp only [Function.comp]
        split_ifs <;> rfl
      refine ⟨_, _, rfl, ?_⟩
      constructor
      · rw [hmap]; exact I.sorted
      · intro f hf
        obtain ⟨g, hg, rfl⟩ := List.mem_map.1 hf
        have := I.le g hg
        split_ifs <;> exact this
      · intro s
        rw [hmap, I.mem]
        constructor
        · rintro ⟨z, hz, h⟩; exact ⟨z, List.mem_append_left _ hz, h⟩
        · rintro ⟨z, hz, h⟩
          rcases List.mem_append.1 hz with hz | hz
          · exact ⟨z, hz, h⟩
          · rw [List.mem_singleton.1 hz] at h
            exact ⟨y, hy, by rw [hyx, ← hxm, h]⟩
      · intro _; rw [hmap]; exact I.last hxs
      · intro f hf
        obtain ⟨g, hg, rfl⟩ := List.mem_map.1 hf
        rw [List.filter_append, List.map_append, List.sum_append]
        by_cases hgm : g.idx = mx
        · rw [if_pos hgm]
          dsimp only
          rw [List.filter_cons_of_pos (by simp; rw [hgm, hxm]), I.pen g hg]
          simp
        · rw [if_neg hgm, List.filter_cons_of_neg (by simp; rw [hxm]; exact fun h => hgm h.symm), I.pen g hg]
          simp
      · intro f hf z hz h
        obtain ⟨g, hg, rfl⟩ := List.mem_map.1 hf
        have h' : z.1.start = g.idx ∧ (if g.idx = mx then { g with pen := g.pen + x.2 } else g).n = g.n := by
          split_ifs at h ⊢ <;> exact ⟨h, rfl⟩
        rw [h'.2]
        rcases List.mem_append.1 hz with hz | hz
        · exact I.dim g hg z hz h'.1
        · have hzx := List.mem_singleton.1 hz
          subst hzx
          have : y.1.start = g.idx := by rw [hyx, ← hxm, h'.1]
          rw [I.dim g hg y hy this]
          exact hdx y hy (hyx.trans hxm.symm)

/-- Each element belongs to exactly one group when grouped by a list without repetitions. -/
theorem sum_groups (xs : List (LTerm × ℝ)) (starts : List ℕ) (hn : starts.Nodup)
    (h : ∀ x ∈ xs, x.1.start ∈ starts) :
    (starts.map fun s => ((xs.filter fun x => x.1.start = s).map (·.2)).sum).sum = (xs.map (·.2)).sum := by
  induction xs with
  | nil => simp
  | cons x xs ih =>
    rw [List.map_cons, List.sum_cons, ← ih fun y hy => h y (List.mem_cons_of_mem _ hy)]
    have hx := h x List.mem_cons_self
    clear ih h
    induction starts with
    | nil => simp at hx
    | cons s starts ih2 =>
      rw [List.nodup_cons] at hn
      simp only [List.map_cons, List.sum_cons]
      by_cases hs : x.1.start = s
      · rw [List.filter_cons_of_pos (by simpa using hs), List.map_cons, List.sum_cons]
        have : (starts.map fun s => (((x :: xs).filter fun x => x.1.start = s).map (·.2)).sum)
            = starts.map fun s => ((xs.filter fun x => x.1.start = s).map (·.2)).sum := by
          refine List.map_congr_left fun t ht => ?_
          rw [List.filter_cons_of_neg]
          simp only [decide_eq_true_eq]
          rintro rfl
          rw [hs] at ht
          exact hn.1 ht
        rw [this]
        ring
      · rw [List.filter_cons_of_neg (by simpa using hs)]
        rw [ih2 hn.2 ((List.mem_cons.1 hx).resolve_left hs)]
        ring

/-- **C32.** For penalties ordered by start index, with equal numbers of coefficients for equal start
index: the term-wise degrees of freedom are, for every start index in increasing order, the number of
coefficients minus the parameters penalised away by the penalties of that term.  Together with the
coefficients that no penalty covers they add up to the total degrees of freedom. -/
theorem term_edf_correct (B : LTerm → ℝ) (sort : List LTerm → List LTerm) (merged : List LTerm) (colsX : ℕ)
    (hs : ((split sort merged).map (·.start)).Pairwise (· ≤ ·))
    (hd : ∀ x ∈ split sort merged, ∀ y ∈ split sort merged, x.start = y.start →
      x.k * x.rep = y.k * y.rep) :
    ∃ (starts : List ℕ) (width : ℕ → ℕ), starts.Pairwise (· < ·) ∧
      (∀ s, s ∈ starts ↔ ∃ q ∈ split sort merged, q.start = s) ∧
      (∀ q ∈ split sort merged, width q.start = q.k * q.rep) ∧
      calcTermEdf sort merged (calcEdf B sort merged colsX).2.1 = some (starts.map fun s =>
        (width s : ℝ) - (((split sort merged).filter fun q => q.start = s).map fun q => q.lam * B q).sum) ∧
      (calcEdf B sort merged colsX).1
        = (starts.map fun s => (width s : ℝ)
            - (((split sort merged).filter fun q => q.start = s).map fun q => q.lam * B q).sum).sum
          + ((colsX : ℝ) - (starts.map fun s => (width s : ℝ)).sum) := by
  set qs := split sort merged with hqs
  have hzip : List.zip qs (qs.map fun q => q.lam * B q) = qs.map fun q => (q, q.lam * B q) := by
    clear_value qs
    clear hqs hs hd
    induction qs with
    | nil => rfl
    | cons q qs ih => simpa using ih
  set xs := qs.map fun q => (q, q.lam * B q) with hxs
  obtain ⟨es, mx, h1, I⟩ := term_run xs
    (by rw [hxs, List.map_map]; exact hs)
    (by
      intro x hx y hy
      obtain ⟨a, ha, rfl⟩ := List.mem_map.1 hx
      obtain ⟨b, hb, rfl⟩ := List.mem_map.1 hy
      exact hd a ha b hb)
  have hmem : ∀ s, s ∈ es.map (·.idx) ↔ ∃ q ∈ qs, q.start = s := by
    intro s
    rw [I.mem, hxs]
    simp
  have hpen : ∀ s, ((xs.filter fun x => x.1.start = s).map (·.2)).sum
      = ((qs.filter fun q => q.start = s).map fun q => q.lam * B q).sum := by
    intro s
    rw [hxs, List.filter_map, List.map_map]
    rfl
  let width : ℕ → ℕ := fun s => ((es.find? fun e => e.idx = s).map (·.n)).getD 0
  have hfind : ∀ e ∈ es, es.find? (fun f => f.idx = e.idx) = some e := by
    intro e he
    rw [← List.head?_filter, filter_single es I.sorted e he]
    rfl
  have hwe : ∀ e ∈ es, width e.idx = e.n := by
    intro e he
    show ((es.find? fun f => f.idx = e.idx).map (·.n)).getD 0 = e.n
    rw [hfind e he]
    rfl
  refine ⟨es.map (·.idx), width, I.sorted, hmem, ?_, ?_, ?_⟩
  · intro q hq
    obtain ⟨e, he, h2⟩ := List.mem_map.1 ((hmem q.start).2 ⟨q, hq, rfl⟩)
    rw [← h2, hwe e he]
    exact I.dim e he (q, q.lam * B q) (List.mem_map_of_mem hq) h2.symm
  · unfold calcTermEdf calcEdf
    dsimp only
    rw [← hqs, hzip, h1, Option.map_some, List.map_map]
    congr 1
    refine List.map_congr_left fun e he => ?_
    dsimp only [Function.comp]
    rw [hwe e he, I.pen e he, hpen]
  · unfold calcEdf
    dsimp only
    rw [← hqs, foldl_sub qs fun q => q.lam * B q]
    have h3 := sum_groups xs (es.map (·.idx)) (List.Pairwise.imp (fun h => Nat.ne_of_lt h) I.sorted)
      (fun x hx => (I.mem _).2 ⟨x, hx, rfl⟩)
    simp only [hpen] at h3
    have h4 : (xs.map (·.2)) = qs.map fun q => q.lam * B q := by
      rw [hxs, List.map_map]
      rfl
    rw [h4] at h3
    rw [← h3]
    generalize es.map (·.idx) = l
    induction l with
    | nil => simp
    | cons a l ih =>
      simp only [List.map_cons, List.sum_cons] at ih ⊢
      linarith

/-! ### Range of term-wise degrees of freedom -/

/-- **C32.** The parameters penalised away by the penalties of one term lie between zero and the rank
of the term's penalty: `T` is that penalty, `R` the cross product plus the other penalties. -/
theorem penalised_le_rank {k : ℕ} (T R Linv : Matrix (Fin k) (Fin k) ℝ) (hT : T.PosSemidef)
    (hR : R.PosSemidef) (hV : Linvᵀ * Linv * (T + R) = 1) :
    0 ≤ (Linvᵀ * Linv * T).trace ∧ (Linvᵀ * Linv * T).trace ≤ T.rank := by
  have hM : Linv * (T + R) * Linvᵀ = 1 := by
    have h1 : Linvᵀ * (Linv * (T + R)) = 1 := by rw [← Matrix.mul_assoc]; exact hV
    exact mul_eq_one_comm.1 h1
  have psd : ∀ B : Matrix (Fin k) (Fin k) ℝ, B.PosSemidef → (Linv * B * Linvᵀ).PosSemidef := by
    intro B hB
    have := hB.mul_mul_conjTranspose_same Linv
    rwa [conjTranspose_eq_transpose_of_trivial] at this
  set M := Linv * T * Linvᵀ with hMdef
  have h1M : (1 - M).PosSemidef := by
    have : 1 - M = Linv * R * Linvᵀ := by
      rw [← hM, hMdef, Matrix.mul_add, Matrix.add_mul, add_sub_cancel_left]
    rw [this]
    exact psd R hR
  have hMp : M.PosSemidef := psd T hT
  have htr : (Linvᵀ * Linv * T).trace = M.trace := by
    rw [hMdef, Matrix.mul_assoc, trace_mul_comm]
  rw [htr]
  refine ⟨hMp.trace_nonneg, ?_⟩
  have hH := hMp.isHermitian
  have he1 : ∀ i, hH.eigenvalues i ≤ 1 := by
    intro i
    have h2 := h1M.dotProduct_mulVec_nonneg (hH.eigenvectorBasis i)
    rw [Matrix.sub_mulVec, Matrix.one_mulVec, hH.mulVec_eigenvectorBasis, dotProduct_sub,
      dotProduct_smul] at h2
    have h3 : (star ⇑(hH.eigenvectorBasis i) ⬝ᵥ ⇑(hH.eigenvectorBasis i) : ℝ) = 1 := by
      have := hH.eigenvectorBasis.orthonormal.1 i
      have h4 : inner ℝ (hH.eigenvectorBasis i) (hH.eigenvectorBasis i) = (1 : ℝ) := by
        rw [real_inner_self_eq_norm_sq, this]; norm_num
      rw [EuclideanSpace.inner_eq_star_dotProduct, dotProduct_comm] at h4
      exact h4
    rw [h3, smul_eq_mul, mul_one] at h2
    linarith
  have he0 : ∀ i, 0 ≤ hH.eigenvalues i := hMp.eigenvalues_nonneg
  calc M.trace = ∑ i, hH.eigenvalues i := by
        have := hH.trace_eq_sum_eigenvalues
        simpa using this
    _ ≤ ∑ i, (if hH.eigenvalues i ≠ 0 then (1 : ℝ) else 0) := by
        refine Finset.sum_le_sum fun i _ => ?_
        by_cases h : hH.eigenvalues i = 0
        · simp [h]
        · rw [if_pos h]; exact he1 i
    _ = M.rank := by
        rw [hH.rank_eq_card_non_zero_eigs, Finset.sum_boole, Fintype.card_subtype]
    _ ≤ T.rank := by
        have h5 := (rank_mul_le_left (Linv * T) Linvᵀ).trans (rank_mul_le_right Linv T)
        exact_mod_cast h5

/-- **C32.** Degrees of freedom of one term: at least the number of its coefficients minus the rank of
its penalty, hence not negative, and at most the number of its coefficients.  `block` are the
positions of the coefficients of the term, outside of which its penalty is zero. -/
theorem term_edf_range {k : ℕ} (T R Linv : Matrix (Fin k) (Fin k) ℝ) (hT : T.PosSemidef)
    (hR : R.PosSemidef) (hV : Linvᵀ * Linv * (T + R) = 1) (block : Finset (Fin k))
    (hb : ∀ i, i ∉ block → ∀ j, T i j = 0) :
    0 ≤ (block.card : ℝ) - (Linvᵀ * Linv * T).trace ∧
    (block.card : ℝ) - T.rank ≤ (block.card : ℝ) - (Linvᵀ * Linv * T).trace ∧
    (block.card : ℝ) - (Linvᵀ * Linv * T).trace ≤ block.card := by
  obtain ⟨h1, h2⟩ := penalised_le_rank T R Linv hT hR hV
  have h3 : T.rank ≤ block.card := by
    refine rank_le_card_of_support_subset T block ?_
    intro i hi
    by_contra hn
    exact hi (funext fun j => hb i hn j)
  have h3' : (T.rank : ℝ) ≤ block.card := by exact_mod_cast h3
  exact ⟨by linarith, by linarith, by linarith⟩

/-! ### Shared smoothing parameters and clustered random effects -/

/-- **C32.** The traces returned per smoothing parameter are those of the merged penalties, in the
order of the merged list. -/
theorem merged_traces {k p : ℕ} (keep : Fin k → Fin p) (hk : Function.Injective keep)
    (Linv : Matrix (Fin k) (Fin k) ℝ) (qs : List LTerm)
    (hS : ∀ q ∈ qs, toMat p q.Semb = toMat p q.Demb * (toMat p q.Demb)ᵀ) :
    mergeBs qs (bps (embedKeep keep Linv)) = (combine qs).map fun m =>
      (Linvᵀ * Linv * (toMat p m.Semb).submatrix keep keep).trace := by
  have hB : ∀ l : List LTerm, (∀ q ∈ l, q ∈ qs) → l.map (bps (embedKeep keep Linv))
      = l.map fun m => (Linvᵀ * Linv * (toMat p m.Semb).submatrix keep keep).trace := by
    intro l hl
    exact List.map_congr_left fun q hq => bps_eq_trace keep hk Linv q (hS q (hl q hq))
  unfold mergeBs combine
  by_cases h : shared qs = true
  · rw [if_pos h, if_pos h, List.map_append, hB _ fun q hq => (List.mem_filter.1 hq).1]
    congr 1
    rw [List.map_filterMap]
    have : ∀ i ∈ idKeys qs, (mergeId qs i).map (fun m : LTerm =>
        (Linvᵀ * Linv * (toMat p m.Semb).submatrix keep keep).trace)
        = some (((qs.filter fun q => q.id = some i).map (bps (embedKeep keep Linv))).sum) := by
      intro i hi
      obtain ⟨q, hq, hqi⟩ := (mem_idKeys qs i).1 hi
      cases hm : mergeId qs i with
      | none =>
        unfold mergeId at hm
        cases hf : qs.filter fun p => decide (p.id = some i) with
        | nil =>
          have := List.filter_eq_nil_iff.1 hf q hq
          simp [hqi] at this
        | cons a l => rw [hf] at hm; simp at hm
      | some m =>
        rw [Option.map_some]
        congr 1
        obtain ⟨-, h2, -, -⟩ := merge_sums qs i m hm
        rw [hB _ fun q hq => (List.mem_filter.1 hq).1]
        have h3 : toMat p m.Semb = ((qs.filter fun q => q.id = some i).map fun q => toMat p q.Semb).sum := by
          ext a b
          show m.Semb a b = _
          rw [h2]
          generalize (qs.filter fun q => q.id = some i) = l
          induction l with
          | nil => simp
          | cons q l ih =>
            simp only [List.map_cons, List.sum_cons, Matrix.add_apply, ih]
            rfl
        rw [h3]
        generalize (qs.filter fun q => q.id = some i) = l
        induction l with
        | nil => simp
        | cons q l ih =>
          simp only [List.map_cons, List.sum_cons]
          rw [show ((toMat p q.Semb + (l.map fun q => toMat p q.Semb).sum).submatrix keep keep)
            = (toMat p q.Semb).submatrix keep keep
              + ((l.map fun q => toMat p q.Semb).sum).submatrix keep keep from rfl,
            Matrix.mul_add, trace_add, ih]
    clear hB
    generalize hks : idKeys qs = ks at this
    clear hks
    induction ks with
    | nil => rfl
    | cons a ks ih =>
      rw [List.filterMap_cons, this a List.mem_cons_self]
      dsimp only
      rw [List.map_cons, ih fun i hi => this i (List.mem_cons_of_mem _ hi)]
  · rw [if_neg h, if_neg h]
    exact hB qs fun q hq => hq

/-- **C32.** For a clustered random effect the value used is below the trace for the penalty alone, so
that the smoothing parameter update stays positive; it is one of the two bounds, a mean of them, or the
largest value allowed. -/
theorem cluster_bound (b0 b1 lg : ℝ) : pickB b0 b1 lg < lg ∧
    ((min b0 b1 ≤ pickB b0 b1 lg ∧ pickB b0 b1 lg ≤ max b0 b1) ∨
      pickB b0 b1 lg = lg - 1 / 10 ^ 7 ∧ lg ≤ b0 ∧ lg ≤ b1) := by
  unfold pickB
  rcases le_total b0 b1 with h | h
  · rw [min_eq_left h, max_eq_right h]
    split_ifs with h1 h2 h3 h4
    · exact ⟨h1, Or.inl ⟨h, le_rfl⟩⟩
    · exact ⟨h2, Or.inl ⟨by norm_num; linarith, by norm_num; linarith⟩⟩
    · exact ⟨h3, Or.inl ⟨by linarith, by linarith⟩⟩
    · exact ⟨h4, Or.inl ⟨le_rfl, h⟩⟩
    · exact ⟨by norm_num, Or.inr ⟨rfl, not_lt.1 h4, not_lt.1 h1⟩⟩
  · rw [min_eq_right h, max_eq_left h]
    split_ifs with h1 h2 h3 h4
    · exact ⟨h1, Or.inl ⟨le_rfl, h⟩⟩
    · exact ⟨h2, Or.inl ⟨by norm_num; linarith, by norm_num; linarith⟩⟩
    · exact ⟨h3, Or.inl ⟨by linarith, by linarith⟩⟩
    · exact ⟨h4, Or.inl ⟨h, le_rfl⟩⟩
    · exact ⟨by norm_num, Or.inr ⟨rfl, not_lt.1 h4, not_lt.1 h1⟩⟩

/-! ### No penalties -/

/-- **C32, disagreement.** Without penalties the reported degrees of freedom count dropped
coefficients: with `k` kept of `p > k` coefficients the trace of `V X'X` is `k`, the reported value
`p`. -/
theorem no_penalty_drop {k p dropped : ℕ} (hd : k + dropped = p) (h0 : 0 < dropped)
    (keep : Fin k → Fin p) (A : Matrix (Fin p) (Fin p) ℝ) (Linv : Matrix (Fin k) (Fin k) ℝ)
    (hV : Linvᵀ * Linv * A.submatrix keep keep = 1) (sort : List LTerm → List LTerm) :
    scaleEdf keep Linv sort [] dropped = p ∧ (Linvᵀ * Linv * A.submatrix keep keep).trace = k ∧
    scaleEdf keep Linv sort [] dropped ≠ (Linvᵀ * Linv * A.submatrix keep keep).trace := by
  have h1 : scaleEdf keep Linv sort [] dropped = p := by
    unfold scaleEdf
    rw [if_neg (by simp)]
  have h2 : (Linvᵀ * Linv * A.submatrix keep keep).trace = k := by
    rw [hV, trace_one, Fintype.card_fin]
  refine ⟨h1, h2, ?_⟩
  rw [h1, h2]
  intro h
  have : p = k := by exact_mod_cast h
  omega

/-- The residual variance is then divided by too small a number. -/
theorem no_penalty_scale {n : ℕ} (res : Fin n → ℝ) (i : Fin n) (hi : res i ≠ 0) (rows p k : ℝ)
    (hk : k < p) (hp : p < rows) : estScale res rows k < estScale res rows p := by
  unfold estScale
  have : 0 < ∑ i, res i ^ 2 :=
    Finset.sum_pos' (fun j _ => sq_nonneg _) ⟨i, Finset.mem_univ _, by positivity⟩
  exact div_lt_div_of_pos_left this (by linarith) (by linarith)

/-! ### Concrete cases -/

/-- A penalty on the second of two coefficients, smoothing parameter 3. -/
def penE : LTerm where
  SJ := fun _ _ => 1
  k := 1
  Semb := fun i j => if i = 1 ∧ j = 1 then 1 else 0
  Demb := fun i j => if i = 1 ∧ j = 1 then 1 else 0
  rep := 1
  start := 1
  rank := 1
  lam := 3
  id := none
  parts := none

theorem split_penE : split id [penE] = [penE] := by
  simp [split, penE]

theorem toMat_penE : toMat 2 penE.Semb = toMat 2 penE.Demb * (toMat 2 penE.Demb)ᵀ := by
  ext i j
  fin_cases i <;> fin_cases j <;> simp [toMat, penE, mul_apply, transpose_apply, Fin.sum_univ_two]

example : 0 ≤ scaleEdf (id : Fin 2 → Fin 2) !![1, 0; 0, 1 / 2] id [penE] 0 ∧
    scaleEdf (id : Fin 2 → Fin 2) !![1, 0; 0, 1 / 2] id [penE] 0 ≤ 2 := by
  have h := total_edf_partial (dropped := 0) (id : Fin 2 → Fin 2) Function.injective_id rfl
    (1 : Matrix (Fin 2) (Fin 2) ℝ) PosSemidef.one !![1, 0; 0, 1 / 2] id [penE] (by simp)
    (by rw [split_penE]; simp [penE]) (by rw [split_penE]; simpa using toMat_penE)
    (by
      rw [split_penE, toMat_totalS]
      ext i j
      fin_cases i <;> fin_cases j <;>
        simp [sumS, toMat, penE, mul_apply, transpose_apply, Fin.sum_univ_two, Matrix.add_apply,
          Matrix.smul_apply] <;> norm_num)
  exact ⟨h.2.1, h.2.2⟩

example :=
  term_edf_correct (fun _ => 1 / 4) id [penE] 2 (by rw [split_penE]; simp)
    (by rw [split_penE]; simp)

example :=
  penalised_le_rank !![1 / 3] !![2 / 3] 1
    (by
      have := (PosSemidef.one : (1 : Matrix (Fin 1) (Fin 1) ℝ).PosSemidef).smul
        (show (0 : ℝ) ≤ 1 / 3 by norm_num)
      convert this using 1
      ext i j; fin_cases i; fin_cases j; simp)
    (by
      have := (PosSemidef.one : (1 : Matrix (Fin 1) (Fin 1) ℝ).PosSemidef).smul
        (show (0 : ℝ) ≤ 2 / 3 by norm_num)
      convert this using 1
      ext i j; fin_cases i; fin_cases j; simp)
    (by ext i j; fin_cases i; fin_cases j; simp; norm_num)

/-- Two equal columns, the second one dropped. -/
example :=
  no_penalty_drop (k := 1) (p := 2) (dropped := 1) rfl (by norm_num) (fun _ => 0) !![1, 1; 1, 1] !![1]
    (by ext i j; fin_cases i; fin_cases j; simp [mul_apply]) id

end Verif.Edf
