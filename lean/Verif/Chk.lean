import Verif.ChkModel
import Verif.Pen

/-!
# Convergence diagnostics (property C91)
-/

namespace Verif.Chk

open Finset

/-- Filling the array of half chains. -/
theorem fill (S : Samples) (k : ℕ) :
    let st := (List.range k).foldl (fun st chain => put S chain (evenN S / 2) (put S chain 0 st)) ⟨fun _ _ _ => 0, 0⟩
    st.idx = 2 * k ∧ ∀ c h, c < k → h < 2 → ∀ t j, st.arr (2 * c + h) t j = S.val c (h * (evenN S / 2) + t) j := by
  induction k with
  | zero => exact ⟨rfl, fun c h hc => absurd hc (by omega)⟩
  | succ k ih =>
    rw [List.range_succ, List.foldl_append]
    obtain ⟨h1, h2⟩ := ih
    dsimp only [List.foldl_cons, List.foldl_nil]
    obtain ⟨st, hst⟩ : ∃ st, st = (List.range k).foldl (fun st chain => put S chain (evenN S / 2) (put S chain 0 st)) ⟨fun _ _ _ => 0, 0⟩ :=
      ⟨_, rfl⟩
    rw [← hst] at h1 h2 ⊢
    refine ⟨by simp only [put, h1]; ring, fun c h hc hh t j => ?_⟩
    simp only [put, h1]
    by_cases hck : c = k
    · subst hck
      have : h = 0 ∨ h = 1 := by omega
      rcases this with rfl | rfl
      · rw [if_neg (by omega), if_pos (by omega)]
        simp
      · rw [if_pos rfl, one_mul]
    · rw [if_neg (by omega), if_neg (by omega)]
      exact h2 c h (by omega) hh t j

theorem even_half (S : Samples) : evenN S / 2 = S.N / 2 := by
  unfold evenN
  split <;> omega

/-- **C91.** Row `2 c + h` of the array is half `h` of chain `c`. -/
theorem split_spec (S : Samples) (c h t j : ℕ) (hc : c < S.chains) (hh : h < 2) :
    splitArr S (2 * c + h) t j = S.val c (h * (S.N / 2) + t) j := by
  rw [← even_half]
  exact (fill S S.chains).2 c h hc hh t j

/-- Half chains of one parameter: row `r` is half `r % 2` of chain `r / 2`. -/
def halves (S : Samples) (j : ℕ) : Fin (2 * S.chains) → Fin (S.N / 2) → ℝ :=
  fun r t => S.val (r / 2) (r % 2 * (S.N / 2) + t) j

/-- **C91.** The two halves of a chain hold all its draws, in order, each once; with an odd number of draws the last is left out. -/
theorem halves_cover (S : Samples) (j c i : ℕ) (hc : c < S.chains) (hi : i < 2 * (S.N / 2)) :
    ∃! q : Fin (2 * S.chains) × Fin (S.N / 2), (q.1 : ℕ) / 2 = c ∧ q.1 % 2 * (S.N / 2) + q.2 = i ∧ halves S j q.1 q.2 = S.val c i j := by
  have hN : 0 < S.N / 2 := by omega
  obtain ⟨H, hH⟩ : ∃ H, H = S.N / 2 := ⟨_, rfl⟩
  have hq : i / H < 2 := by
    rw [← hH] at hi
    exact Nat.div_lt_of_lt_mul (by rw [mul_comm]; exact hi)
  have hm : i % H < H := Nat.mod_lt _ (hH ▸ hN)
  have aux : ∀ q, q < 2 → 2 * c + q < 2 * S.chains ∧ (2 * c + q) / 2 = c ∧ (2 * c + q) % 2 = q := by
    intro q hq'
    omega
  obtain ⟨hr, e1, e2⟩ := aux _ hq
  have e3 : i / H * H + i % H = i := by rw [mul_comm]; exact Nat.div_add_mod i H
  refine ⟨(⟨2 * c + i / H, hr⟩, ⟨i % H, hH ▸ hm⟩), ⟨e1, ?_, ?_⟩, ?_⟩
  · show (2 * c + i / H) % 2 * (S.N / 2) + i % H = i
    rw [e2, ← hH, e3]
  · show S.val ((2 * c + i / H) / 2) ((2 * c + i / H) % 2 * (S.N / 2) + i % H) j = _
    rw [e1, e2, ← hH, e3]
  · rintro ⟨⟨r, hr'⟩, ⟨t, ht⟩⟩ ⟨h1, h2, -⟩
    dsimp only at h1 h2
    rw [← hH] at h2 ht
    have ht' : i % H = t := by
      rw [← h2, Nat.add_comm, Nat.add_mul_mod_self_right, Nat.mod_eq_of_lt ht]
    have hr2 : i / H = r % 2 := by
      rw [← h2, Nat.add_comm, Nat.add_mul_div_right _ _ (by omega), Nat.div_eq_of_lt ht, zero_add]
    refine Prod.ext (Fin.ext ?_) (Fin.ext ?_)
    · show r = 2 * c + i / H
      omega
    · exact ht'.symm

/-- Diagnostics of all parameters, each from its own draws. -/
def own (f : Diag) : Option Samples → List ℝ
  | none => []
  | some S => (List.range S.np).map fun j => f (2 * S.chains) (S.N / 2) (halves S j)

theorem diags_own (f : Diag) (o : Option Samples) : diags f o = own f o := by
  cases o with
  | none => rfl
  | some S =>
    refine List.map_congr_left fun j _ => ?_
    have : ∀ H, H = S.N / 2 → f (2 * S.chains) H (fun c t => splitArr S c t j)
        = f (2 * S.chains) (S.N / 2) (halves S j) := by
      rintro _ rfl
      congr 1
      funext r t
      have := split_spec S (r / 2) (r % 2) t j (by omega) (by omega)
      rw [show 2 * ((r : ℕ) / 2) + r % 2 = r by omega] at this
      exact this
    exact this _ (even_half S)

/-- **C91.** All coefficients requested: the report holds the diagnostic of every parameter given, computed from its own draws, in
the order coefficients, scale, theta, smoothing parameters, log density. -/
theorem check_all (f : Diag) (coef scale theta llk rho : Option Samples) (idx : Option (List ℕ)) (forms : List Form) :
    check f coef scale theta llk rho idx forms 0 = some (own f coef ++ own f scale ++ own f theta ++ own f rho ++ own f llk) := by
  have h : ∀ o : Option Samples, (if o.isSome then own f o else []) = own f o := by
    intro o
    cases o <;> rfl
  unfold check
  simp only [if_true, diags_own, h]
  rfl

theorem mem_fcidx (F : Form) (j : ℕ) : j ∈ fcidx F ↔ j < F.p ∧ 0 < ∑ r ∈ range F.rows, F.fixedX r j := by
  simp [fcidx]

/-- Number of coefficients of the formulas before the `k`-th. -/
def off (ps : List ℕ) (k : ℕ) : ℕ := (ps.take k).sum

/-- `coef_split_idx`: where coefficients of the second, third, ... formula begin. -/
def splits (ps : List ℕ) : List ℕ := (List.range (ps.length - 1)).map fun k => off ps (k + 1)

theorem off_succ (ps : List ℕ) (k : ℕ) (hk : k < ps.length) : off ps (k + 1) = off ps k + ps[k] := by
  unfold off
  rw [List.take_succ_eq_append_getElem hk, List.sum_append]
  simp

theorem off_le (ps : List ℕ) (k : ℕ) : off ps k ≤ ps.sum := by
  unfold off
  conv_rhs => rw [← List.take_append_drop k ps, List.sum_append]
  omega

theorem piece_get (l : List ℝ) (ps : List ℕ) (hl : l.length = ps.sum) (k : ℕ) (hk : k < ps.length) (j : ℕ) (hj : j < ps[k]) :
    (piece l (splits ps) k)[j]? = l[off ps k + j]? := by
  have hlen : (splits ps).length = ps.length - 1 := by simp [splits]
  have h1 : ((splits ps) ++ [l.length]).getD k l.length = off ps (k + 1) := by
    by_cases hk1 : k < ps.length - 1
    · rw [List.getD_eq_getElem?_getD, List.getElem?_append_left (by omega)]
      simp [splits, hk1]
    · have : k = ps.length - 1 := by omega
      rw [List.getD_eq_getElem?_getD, List.getElem?_append_right (by omega), this, hlen]
      simp only [Nat.sub_self, List.getElem?_cons_zero, Option.getD_some]
      unfold off
      rw [show ps.length - 1 + 1 = ps.length by omega, List.take_length, hl]
  have h2 : (0 :: splits ps).getD k l.length = off ps k := by
    cases k with
    | zero => simp [off]
    | succ k =>
      rw [List.getD_cons_succ, List.getD_eq_getElem?_getD]
      have : k < ps.length - 1 := by omega
      simp [splits, this]
  unfold piece
  rw [h1, h2, List.getElem?_drop, List.getElem?_take, if_pos (by rw [off_succ ps k hk]; omega)]

theorem take_some (l : List ℝ) (ix : List ℕ) (g : ℕ → ℝ) (h : ∀ j ∈ ix, l[j]? = some (g j)) : take l ix = some (ix.map g) := by
  induction ix with
  | nil => rfl
  | cons a t ih =>
    have h1 := h a (by simp)
    have h2 := ih fun j hj => h j (by simp [hj])
    unfold take at h2 ⊢
    rw [List.mapM_cons, h1, h2]
    rfl

theorem group_eq (l : List ℝ) (g : ℕ → ℝ) (forms : List Form) (hl : l.length = (forms.map (·.p)).sum)
    (hg : ∀ i < l.length, l[i]? = some (g i)) :
    group l (some (splits (forms.map (·.p)))) forms
      = some (forms.zipIdx.flatMap fun q => (fcidx q.1).map fun j => g (off (forms.map (·.p)) q.2 + j)) := by
  obtain ⟨ps, hps⟩ : ∃ ps, ps = forms.map (·.p) := ⟨_, rfl⟩
  rw [← hps] at hl ⊢
  have hq : ∀ q ∈ forms.zipIdx, take (piece l (splits ps) q.2) (fcidx q.1) = some ((fcidx q.1).map fun j => g (off ps q.2 + j)) := by
    intro q hq
    have hlt : q.2 < forms.length := by
      have := List.mem_zipIdx hq
      simpa using this.2.1
    have hget : forms[q.2] = q.1 := by
      have := List.mem_zipIdx hq
      simpa using this.2.2.symm
    have hk : q.2 < ps.length := by rw [hps, List.length_map]; exact hlt
    have hpk : ps[q.2] = q.1.p := by simp [hps, hget]
    refine take_some _ _ _ fun j hj => ?_
    have hjp := ((mem_fcidx _ _).1 hj).1
    rw [piece_get l ps hl q.2 hk j (hpk ▸ hjp)]
    refine hg _ ?_
    have := off_succ ps q.2 hk
    have := off_le ps (q.2 + 1)
    omega
  have key : ∀ (L : List (Form × ℕ)) (acc : List ℝ), (∀ q ∈ L, q ∈ forms.zipIdx) →
      L.foldl (fun acc q => do return (← acc) ++ (← take (piece l ((some (splits ps)).getD []) q.2) (fcidx q.1))) (some acc)
        = some (acc ++ L.flatMap fun q => (fcidx q.1).map fun j => g (off ps q.2 + j)) := by
    intro L
    induction L with
    | nil => intro acc _; simp
    | cons q L ih =>
      intro acc hL
      rw [List.foldl_cons]
      have h1 := hq q (hL q (by simp))
      simp only [Option.getD_some, h1]
      have := ih (acc ++ (fcidx q.1).map fun j => g (off ps q.2 + j)) fun q' hq' => hL q' (by simp [hq'])
      simp only [Option.getD_some] at this
      show L.foldl _ (some (acc ++ (fcidx q.1).map fun j => g (off ps q.2 + j))) = _
      rw [this, List.flatMap_cons, List.append_assoc]
  have := key forms.zipIdx [] fun q h => h
  rw [List.nil_append] at this
  exact this

/-- **C91, partial.** Group-level coefficients requested: if every column of a group-level term has a positive sum, the report holds the
diagnostics of the group-level coefficients, in order, each from its own draws, and no others. Missing: columns with sum zero or
below, see `check_group_wrong`. -/
theorem check_group_partial (f : Diag) (S : Samples) (forms : List Form) (hS : S.np = (forms.map (·.p)).sum)
    (G : ℕ → ℕ → Bool) (hG : ∀ q ∈ forms.zipIdx, ∀ j < q.1.p, G q.2 j = true → 0 < ∑ r ∈ range q.1.rows, q.1.fixedX r j)
    (h0 : ∀ q ∈ forms.zipIdx, ∀ j < q.1.p, G q.2 j = false → ∀ r < q.1.rows, q.1.fixedX r j = 0) (type : ℕ) (ht : type ≠ 0) :
    check f (some S) none none none none (some (splits (forms.map (·.p)))) forms type
      = some (forms.zipIdx.flatMap fun q => ((List.range q.1.p).filter fun j => G q.2 j).map fun j =>
          f (2 * S.chains) (S.N / 2) (halves S (off (forms.map (·.p)) q.2 + j))) := by
  have hf : ∀ q ∈ forms.zipIdx, fcidx q.1 = (List.range q.1.p).filter fun j => G q.2 j := by
    intro q hq
    unfold fcidx
    refine List.filter_congr fun j hj => ?_
    have hj' := List.mem_range.1 hj
    cases hb : G q.2 j with
    | true => simp [hG q hq j hj' hb]
    | false =>
      have : ∑ r ∈ range q.1.rows, q.1.fixedX r j = 0 := sum_eq_zero fun r hr => h0 q hq j hj' hb r (mem_range.1 hr)
      simp [this]
  have hgr := group_eq (own f (some S)) (fun j => f (2 * S.chains) (S.N / 2) (halves S j)) forms (by simp [own, hS])
    (fun i hi => by
      have : i < S.np := by simpa [own] using hi
      simp [own, this])
  unfold check
  simp only [if_neg ht, diags_own, hgr]
  simp only [Option.isSome_none, Bool.false_eq_true, if_false, List.append_nil]
  show some _ = some _
  congr 1
  exact List.flatMap_congr fun q hq => by rw [hf q hq]

/-- Matrix of an intercept followed by a smooth function with constrained basis. -/
def withIntercept (A : ℕ → ℕ → ℝ) : ℕ → ℕ → ℝ := fun r j => if j = 0 then 1 else A r (j - 1)

/-- **C91, what fails.** A model with an intercept and one smooth function, made identifiable by the default constraint: its
columns sum to zero over the data, so that of all group-level coefficients only the intercept is in the report. -/
theorem check_group_wrong (f : Diag) (S : Samples) (n N : ℕ) (hn : 0 < n) (hN : 0 < N) (B : Pen.Arr) (qrQ : (ℕ → ℝ) → Pen.Arr)
    (hQ : Pen.QrSpec n (fun a => ∑ r ∈ range N, B r a) (qrQ fun a => ∑ r ∈ range N, B r a)) (hS : S.np = n) (type : ℕ) (ht : type ≠ 0) :
    check f (some S) none none none none none [⟨N, n, withIntercept (Pen.absorbB n (Pen.makeCon qrQ n N .qr B) B)⟩] type
      = some [f (2 * S.chains) (S.N / 2) (halves S 0)] := by
  obtain ⟨F, hF⟩ : ∃ F : Form, F = ⟨N, n, withIntercept (Pen.absorbB n (Pen.makeCon qrQ n N .qr B) B)⟩ := ⟨_, rfl⟩
  have hz : ∀ j, 0 < j → j < n → ∑ r ∈ range N, withIntercept (Pen.absorbB n (Pen.makeCon qrQ n N .qr B) B) r j = 0 := by
    intro j h0 hj
    obtain ⟨ρ, hρ⟩ := hQ.fac
    have e : ∀ r, withIntercept (Pen.absorbB n (Pen.makeCon qrQ n N .qr B) B) r j
        = ∑ a ∈ range n, B r a * qrQ (fun a => ∑ r ∈ range N, B r a) a j := by
      intro r
      unfold withIntercept
      rw [if_neg (by omega)]
      show ∑ a ∈ range n, B r a * qrQ (fun a => ∑ r ∈ range N, B r a) a (j - 1 + 1) = _
      rw [show j - 1 + 1 = j by omega]
    rw [sum_congr rfl fun r _ => e r, sum_comm]
    have e2 : ∀ a ∈ range n, ∑ r ∈ range N, B r a * qrQ (fun a => ∑ r ∈ range N, B r a) a j
        = ρ * (qrQ (fun a => ∑ r ∈ range N, B r a) a 0 * qrQ (fun a => ∑ r ∈ range N, B r a) a j) := by
      intro a ha
      rw [← sum_mul, hρ a (mem_range.1 ha)]
      ring
    rw [sum_congr rfl e2, ← mul_sum, hQ.cols 0 hn j hj, if_neg (by omega), mul_zero]
  have hfc : fcidx F = [0] := by
    unfold fcidx
    have : ∀ m, m ≤ n → 0 < m → (List.range m).filter (fun j => 0 < ∑ r ∈ range F.rows, F.fixedX r j) = [0] := by
      intro m
      induction m with
      | zero => intro _ h; omega
      | succ m ih =>
        intro hm _
        rw [List.range_succ, List.filter_append]
        by_cases hm0 : m = 0
        · subst hm0
          simp [hF, withIntercept, hN]
        · rw [ih (by omega) (by omega)]
          have := hz m (by omega) (by omega)
          simp [hF, this]
    rw [show F.p = n by rw [hF]]
    convert this n le_rfl hn
  have hsp : splits ([F].map (·.p)) = [] := by simp [splits]
  have hgr := group_eq (own f (some S)) (fun j => f (2 * S.chains) (S.N / 2) (halves S j)) [F] (by simp [own, hS, hF])
    (fun i hi => by
      have : i < S.np := by simpa [own] using hi
      simp [own, this])
  rw [hsp] at hgr
  unfold check
  rw [← hF]
  have hgr' : group (own f (some S)) none [F] = group (own f (some S)) (some []) [F] := rfl
  simp only [if_neg ht, diags_own, hgr', hgr]
  simp only [Option.isSome_none, Bool.false_eq_true, if_false, List.append_nil]
  show some _ = some _
  simp [hfc, off]

/-! ### Cases meeting the hypotheses -/

/-- Two coefficients, a chain of five draws: the halves of the second coefficient are its draws 0, 1 and 2, 3. -/
example : halves ⟨1, 5, 2, fun _ t j => t + 10 * j⟩ 1 = ![![10, 11], ![12, 13]] := by
  funext r t
  fin_cases r <;> fin_cases t <;> simp [halves] <;> norm_num

/-- Two formulas with an intercept each and a random intercept in the second: the random coefficient is left out. -/
example (f : Diag) (v : ℕ → ℕ → ℕ → ℝ) :
    check f (some ⟨2, 4, 3, v⟩) none none none none (some [1]) [⟨2, 1, fun _ _ => 1⟩, ⟨2, 2, fun _ j => if j = 0 then 1 else 0⟩] 1
      = some [f (2 * 2) (4 / 2) (halves ⟨2, 4, 3, v⟩ 0), f (2 * 2) (4 / 2) (halves ⟨2, 4, 3, v⟩ 1)] := by
  have h := check_group_partial f ⟨2, 4, 3, v⟩ [⟨2, 1, fun _ _ => 1⟩, ⟨2, 2, fun _ j => if j = 0 then 1 else 0⟩] rfl
    (fun _ j => j == 0) (by
      intro q hq j hj hb
      have hj0 : j = 0 := by simpa using hb
      subst hj0
      simp at hq
      rcases hq with rfl | rfl <;> norm_num [Finset.sum_range_succ])
    (by
      intro q hq j hj hb r hr
      have hj0 : j ≠ 0 := by simpa using hb
      simp at hq
      rcases hq with rfl | rfl
      · exact absurd hj (by show ¬ j < 1; omega)
      · simp [hj0]) 1 one_ne_zero
  exact h

/-- The constrained basis of one observation with column sums `(3, 4)`: only the intercept is reported. -/
example (f : Diag) (v : ℕ → ℕ → ℕ → ℝ) :
    check f (some ⟨2, 4, 2, v⟩) none none none none none
      [⟨1, 2, withIntercept (Pen.absorbB 2 (Pen.makeCon (fun _ => Pen.exQ) 2 1 .qr fun _ a => if a = 0 then 3 else 4) fun _ a => if a = 0 then 3 else 4)⟩] 1
      = some [f (2 * 2) (4 / 2) (halves ⟨2, 4, 2, v⟩ 0)] := by
  refine check_group_wrong f ⟨2, 4, 2, v⟩ 2 1 (by norm_num) (by norm_num) _ (fun _ => Pen.exQ) ⟨?_, ?_, ⟨5, ?_⟩⟩ rfl 1 one_ne_zero
  · intro i hi j hj
    interval_cases i <;> interval_cases j <;> norm_num [Pen.exQ, Finset.sum_range_succ]
  · intro i hi j hj
    interval_cases i <;> interval_cases j <;> norm_num [Pen.exQ, Finset.sum_range_succ]
  · intro a ha
    interval_cases a <;> norm_num [Pen.exQ]

end Verif.Chk
