import Verif.RespLemmas

/-!
# Impulse response terms describe the response to the event of each series (property C106)
-/

namespace Verif.Resp

open Verif Finset

/-- Response at time `t` after the event with coefficients `b`: spline with evenly spaced knots from `min_c` to `max_c`. -/
noncomputable def response (m : Marg) (b : ℕ → ℝ) (t : ℝ) : ℝ := ∑ j ∈ range m.nk, Bspline.irBasis m.minc m.maxc m.nk m.deg t j * b j

/-- C106: the response is zero up to `min_c` and from `max_c` on. -/
theorem response_support (m : Marg) (hx : m.minc < m.maxc) (hk : m.deg < m.nk) (hd : 1 ≤ m.deg) (b : ℕ → ℝ) (t : ℝ) (ht : t ≤ m.minc ∨ m.maxc ≤ t) : response m b t = 0 := by
  unfold response
  refine Finset.sum_eq_zero fun j hj => ?_
  have hj := mem_range.1 hj
  have hn : (0 : ℝ) < ((m.nk - m.deg : ℕ) : ℝ) := by exact_mod_cast Nat.sub_pos_of_lt hk
  have hp : (0 : ℝ) < (m.maxc - m.minc) / (((m.nk - m.deg : ℕ) : ℝ) + 2 * m.deg) := div_pos (by linarith) (by positivity)
  have hev := ir_knots m.minc m.maxc m.nk m.deg hk
  have h0 : Bspline.linspace m.minc m.maxc (m.nk - m.deg + 1 + 2 * m.deg) 0 = m.minc := by unfold Bspline.linspace; simp
  have hN : Bspline.linspace m.minc m.maxc (m.nk - m.deg + 1 + 2 * m.deg) (m.nk - m.deg + 2 * m.deg) = m.maxc := by
    unfold Bspline.linspace
    push_cast
    have h2 : ((m.nk - m.deg : ℕ) : ℝ) + 2 * m.deg ≠ 0 := by positivity
    rw [show ((m.nk - m.deg : ℕ) : ℝ) + 1 + 2 * m.deg - 1 = ((m.nk - m.deg : ℕ) : ℝ) + 2 * m.deg from by ring]
    field_simp
    ring
  have hmono : ∀ a c : ℕ, a ≤ c → Bspline.linspace m.minc m.maxc (m.nk - m.deg + 1 + 2 * m.deg) a ≤ Bspline.linspace m.minc m.maxc (m.nk - m.deg + 1 + 2 * m.deg) c := by
    intro a c hac
    obtain ⟨e, rfl⟩ := Nat.exists_eq_add_of_le hac
    rw [Bspline.even_add hev a e]
    have : 0 ≤ (e : ℝ) * ((m.maxc - m.minc) / (((m.nk - m.deg : ℕ) : ℝ) + 2 * m.deg)) := by positivity
    linarith
  have hz : Bspline.irBasis m.minc m.maxc m.nk m.deg t j = 0 := by
    unfold Bspline.irBasis
    simp only
    rw [Bspline.bbase_eq _ _ _ _ _ _ (by omega)]
    rcases ht with ht | ht
    · refine Bspline.bs_left hev hp t m.deg j (ht.trans ?_)
      calc m.minc = _ := h0.symm
        _ ≤ _ := hmono 0 j (Nat.zero_le j)
    · obtain ⟨e, he⟩ : ∃ e, m.deg = e + 1 := ⟨m.deg - 1, by omega⟩
      have h3 : Bspline.linspace m.minc m.maxc (m.nk - m.deg + 1 + 2 * m.deg) (j + e + 2) ≤ t := by
        refine le_trans (hmono (j + e + 2) (m.nk - m.deg + 2 * m.deg) (by omega)) ?_
        rw [hN]; exact ht
      have := Bspline.bs_right_closed hev hp t e j h3
      rw [he] at this ⊢
      exact this
  rw [hz, zero_mul]

/-- C106: whatever the number of variables, when all of them are convolved and none is missing the row of a series is zero before the event and afterwards the row that a series with
an event at its first row has as many rows after its start. -/
theorem shift (m : Marg) (ms : List Marg) (hm : m.conv = true) (hms : ∀ x ∈ ms, x.conv = true) (s : Ser) (hn : ∀ v, ∀ a < s.len, s.cov v a ≠ none) (onset i : ℕ)
    (hi : i < s.len) (c : ℕ) : termRow m ms s onset i c = if onset ≤ i then termRow m ms s 0 (i - onset) c else some 0 := by
  have hsh : ∀ x : Marg, x.conv = true → ∀ v j, onset ≤ i → margEntry x s v onset i j = margEntry x s v 0 (i - onset) j := by
    intro x hx v j h
    rw [marg_shift x hx s v onset i hi j (hn v), if_pos h, marg_shift x hx s v 0 (i - onset) (by omega) j (hn v), if_pos (Nat.zero_le _), Nat.sub_zero]
  unfold termRow
  split_ifs with h
  · exact tensor_congr s onset i 0 (i - onset) ms 1 _ _ (fun c => hsh m hm 0 c h) (fun k hk j => hsh _ (hms _ (List.getElem_mem hk)) _ j h) c
  · refine tensor_zero s onset i ms 1 _ (fun c => ?_) (fun k hk j => ?_) c
    · rw [marg_shift m hm s 0 onset i hi c (hn 0), if_neg h]
    · rw [marg_shift _ (hms _ (List.getElem_mem hk)) s _ onset i hi j (hn _), if_neg h]
      simp

/-- C106: for one variable that increases by the same amount from row to row and starts at `t0`, the contribution of the term to the predictor of a row is the response to the event of
the row's own series, zero before the event, with the coefficients of the level of the series if there is a factor `by`. The response is taken at `t0` plus the time elapsed since the event. -/
theorem response_start (m : Marg) (hm : m.conv = true) (levels : Option ℕ) (n : ℕ) (sers : List Ser) (onsets : List ℕ) (X : List (ℕ → ℝ))
    (hX : build m [] levels 0 n sers onsets = some X) (k : ℕ) (hk : k < sers.length) (ho : k < onsets.length) (t0 dt : ℝ) (hc : ∀ a < sers[k].len, sers[k].cov 0 a = some (t0 + a * dt))
    (i : ℕ) (hi : i < sers[k].len) (b : ℕ → ℝ) :
    ∃ r, X[((sers.take k).map Ser.len).sum + i]? = some r ∧
      match levels with
      | none => ∑ j ∈ range m.nk, r j * b j = if onsets[k] ≤ i then response m b (t0 + (i * dt - onsets[k] * dt)) else 0
      | some L => sers[k].code 0 < L → ∑ j ∈ range (L * m.nk), r j * b j =
          if onsets[k] ≤ i then response m (fun j => b (sers[k].code 0 * m.nk + j)) (t0 + (i * dt - onsets[k] * dt)) else 0 := by
  obtain ⟨bl, r, h1, h2, h3⟩ := build_rows m [] levels 0 n sers onsets X hX k hk ho i hi
  refine ⟨_, h3, ?_⟩
  have hne : ∀ a < sers[k].len, sers[k].cov 0 a ≠ none := fun a ha => by rw [hc a ha]; simp
  have hrow : ∀ c, termRow m [] sers[k] onsets[k] i c = if onsets[k] ≤ i then some (Bspline.irBasis m.minc m.maxc m.nk m.deg (t0 + (i * dt - onsets[k] * dt)) c) else some 0 := by
    intro c
    show margEntry m sers[k] 0 onsets[k] i c = _
    rw [marg_shift m hm sers[k] 0 onsets[k] i hi c hne]
    split_ifs with h
    · rw [hc (i - onsets[k]) (by omega), Option.getD_some, Nat.cast_sub h, sub_mul]
    · rfl
  have hval : ∀ c, keep 0 (termRow m [] sers[k] onsets[k] i c) = if onsets[k] ≤ i then Bspline.irBasis m.minc m.maxc m.nk m.deg (t0 + (i * dt - onsets[k] * dt)) c else 0 := by
    intro c
    rw [hrow]
    split_ifs <;> exact keep_zero _
  cases levels with
  | none =>
    dsimp only
    have hr : r = termRow m [] sers[k] onsets[k] i := by
      cases h1
      rw [List.getElem?_map, List.getElem?_range hi] at h2
      exact (Option.some.inj h2).symm
    rw [hr]
    by_cases h : onsets[k] ≤ i
    · rw [if_pos h]
      exact Finset.sum_congr rfl fun j _ => by rw [hval, if_pos h]
    · rw [if_neg h]
      exact Finset.sum_eq_zero fun j _ => by rw [hval, if_neg h, zero_mul]
  | some L =>
    dsimp only
    intro hL
    have hw : width m [] = m.nk := by simp [width]
    have hr : r = fun c => if c / m.nk = sers[k].code 0 then termRow m [] sers[k] onsets[k] i (c % m.nk) else some 0 := by
      unfold serRows at h1
      dsimp only at h1
      split_ifs at h1
      cases h1
      rw [List.getElem?_map, List.getElem?_range hi, hw] at h2
      exact (Option.some.inj h2).symm
    have hr' : ∀ c, keep 0 (r c) = if c / m.nk = sers[k].code 0 then keep 0 (termRow m [] sers[k] onsets[k] i (c % m.nk)) else 0 := by
      intro c
      rw [hr]
      dsimp only
      split_ifs
      · rfl
      · exact keep_zero 0
    have hsum : ∀ (code L : ℕ), code < L → ∑ j ∈ range (L * m.nk), (if j / m.nk = code then keep 0 (termRow m [] sers[k] onsets[k] i (j % m.nk)) else 0) * b j =
        ∑ j ∈ range m.nk, keep 0 (termRow m [] sers[k] onsets[k] i j) * b (code * m.nk + j) := by
      intro code L hcl
      induction L with
      | zero => omega
      | succ L ih =>
        have hblock : ∀ q, ∑ j ∈ range m.nk, (if (q * m.nk + j) / m.nk = code then keep 0 (termRow m [] sers[k] onsets[k] i ((q * m.nk + j) % m.nk)) else 0) * b (q * m.nk + j) =
            if q = code then ∑ j ∈ range m.nk, keep 0 (termRow m [] sers[k] onsets[k] i j) * b (code * m.nk + j) else 0 := by
          intro q
          have hdm : ∀ j ∈ range m.nk, (q * m.nk + j) / m.nk = q ∧ (q * m.nk + j) % m.nk = j := by
            intro j hj
            have hj := mem_range.1 hj
            rw [Nat.mul_comm q, Nat.mul_add_div (by omega), Nat.div_eq_of_lt hj, Nat.mul_add_mod, Nat.mod_eq_of_lt hj]
            exact ⟨by omega, rfl⟩
          split_ifs with hq
          · refine Finset.sum_congr rfl fun j hj => ?_
            rw [(hdm j hj).1, (hdm j hj).2, if_pos hq, hq]
          · refine Finset.sum_eq_zero fun j hj => ?_
            rw [(hdm j hj).1, if_neg hq, zero_mul]
        rw [Nat.succ_mul, Finset.sum_range_add, hblock L]
        by_cases hc' : code < L
        · rw [ih hc', if_neg (by omega), add_zero]
        · have hcL : L = code := by omega
          rw [if_pos hcL]
          rw [Finset.sum_eq_zero, zero_add]
          intro j hj
          have hj := mem_range.1 hj
          rw [if_neg, zero_mul]
          have : j / m.nk < L := Nat.div_lt_of_lt_mul (by rwa [Nat.mul_comm] at hj)
          omega
    rw [Finset.sum_congr rfl fun j _ => by rw [hr'], hsum _ _ hL]
    by_cases h : onsets[k] ≤ i
    · rw [if_pos h]
      exact Finset.sum_congr rfl fun j _ => by rw [hval, if_pos h]
    · rw [if_neg h]
      exact Finset.sum_eq_zero fun j _ => by rw [hval, if_neg h, zero_mul]

/-- C106, part: for one variable, the time of which starts at zero in every series and increases by the same amount from row to row, the contribution of the term to the predictor of a row is the response to the
event of the row's own series at the time elapsed since that event, zero before the event. With `by` the coefficients are those of the level of the series. Missing: times that start elsewhere
(`start_wrong`) and missing times (`missing_wrong`). -/
theorem response_partial (m : Marg) (hm : m.conv = true) (levels : Option ℕ) (n : ℕ) (sers : List Ser) (onsets : List ℕ) (X : List (ℕ → ℝ))
    (hX : build m [] levels 0 n sers onsets = some X) (k : ℕ) (hk : k < sers.length) (ho : k < onsets.length) (dt : ℝ) (hc : ∀ a < sers[k].len, sers[k].cov 0 a = some (a * dt))
    (i : ℕ) (hi : i < sers[k].len) (b : ℕ → ℝ) :
    ∃ r, X[((sers.take k).map Ser.len).sum + i]? = some r ∧
      match levels with
      | none => ∑ j ∈ range m.nk, r j * b j = if onsets[k] ≤ i then response m b (i * dt - onsets[k] * dt) else 0
      | some L => sers[k].code 0 < L → ∑ j ∈ range (L * m.nk), r j * b j =
          if onsets[k] ≤ i then response m (fun j => b (sers[k].code 0 * m.nk + j)) (i * dt - onsets[k] * dt) else 0 := by
  have := response_start m hm levels n sers onsets X hX k hk ho 0 dt (fun a ha => by rw [hc a ha, zero_add]) i hi b
  simpa only [zero_add] using this

/-- C106 fails for a time that does not start at zero in the series: if it starts at `max_c` or later the term contributes nothing to any row, whatever the coefficients and wherever the event. -/
theorem start_wrong (m : Marg) (hm : m.conv = true) (hx : m.minc < m.maxc) (hk' : m.deg < m.nk) (hd : 1 ≤ m.deg) (n : ℕ) (sers : List Ser) (onsets : List ℕ) (X : List (ℕ → ℝ))
    (hX : build m [] none 0 n sers onsets = some X) (k : ℕ) (hk : k < sers.length) (ho : k < onsets.length) (t0 dt : ℝ) (hdt : 0 ≤ dt) (ht : m.maxc ≤ t0)
    (hc : ∀ a < sers[k].len, sers[k].cov 0 a = some (t0 + a * dt)) (i : ℕ) (hi : i < sers[k].len) (b : ℕ → ℝ) :
    ∃ r, X[((sers.take k).map Ser.len).sum + i]? = some r ∧ ∑ j ∈ range m.nk, r j * b j = 0 := by
  obtain ⟨r, h1, h2⟩ := response_start m hm none n sers onsets X hX k hk ho t0 dt hc i hi b
  refine ⟨r, h1, h2.trans ?_⟩
  split_ifs with h
  · refine response_support m hx hk' hd b _ (Or.inr ?_)
    have : (onsets[k] : ℝ) * dt ≤ i * dt := mul_le_mul_of_nonneg_right (by exact_mod_cast h) hdt
    linarith
  · rfl

/-- C106 fails for missing times: one missing value of a convolved variable in a series makes the term zero in all rows of the series, the event included. -/
theorem missing_wrong (m : Marg) (hm : m.conv = true) (n : ℕ) (tol : ℝ) (sers : List Ser) (onsets : List ℕ) (X : List (ℕ → ℝ)) (hX : build m [] none tol n sers onsets = some X) (k : ℕ)
    (hk : k < sers.length) (ho : k < onsets.length) (a : ℕ) (ha : a < sers[k].len) (hc : sers[k].cov 0 a = none) (i : ℕ) (hi : i < sers[k].len) :
    ∃ r, X[((sers.take k).map Ser.len).sum + i]? = some r ∧ ∀ c, r c = 0 := by
  obtain ⟨bl, r, h1, h2, h3⟩ := build_rows m [] none tol n sers onsets X hX k hk ho i hi
  refine ⟨_, h3, fun c => ?_⟩
  have hr : r = termRow m [] sers[k] onsets[k] i := by
    cases h1
    rw [List.getElem?_map, List.getElem?_range hi] at h2
    exact (Option.some.inj h2).symm
  rw [hr]
  have : termRow m [] sers[k] onsets[k] i c = none := by
    show margEntry m sers[k] 0 onsets[k] i c = none
    unfold margEntry
    rw [if_pos hm, if_pos ⟨a, ha, hc⟩]
  rw [this]
  rfl

/-- C106: with a second variable that is not convolved, columns are products of the response basis at the time since the event and of the basis of the second variable at its value in the row itself, the latter running
fastest, and there is one such set of columns per level of the factor `by`, zero for all other levels. -/
theorem two_variables (m m2 : Marg) (hm : m.conv = true) (hm2 : m2.conv = false) (levels : Option ℕ) (n : ℕ) (sers : List Ser) (onsets : List ℕ) (X : List (ℕ → ℝ))
    (hX : build m [m2] levels 0 n sers onsets = some X) (k : ℕ) (hk : k < sers.length) (ho : k < onsets.length) (t0 dt : ℝ) (hc : ∀ a < sers[k].len, sers[k].cov 0 a = some (t0 + a * dt))
    (i : ℕ) (hi : i < sers[k].len) (x : ℝ) (hx : sers[k].cov 1 i = some x) :
    ∃ r, X[((sers.take k).map Ser.len).sum + i]? = some r ∧
      match levels with
      | none => ∀ c, r c = (if onsets[k] ≤ i then Bspline.irBasis m.minc m.maxc m.nk m.deg (t0 + (i * dt - onsets[k] * dt)) (c / m2.nk) else 0)
          * Bspline.basis m2.minc m2.maxc m2.nk m2.deg x (c % m2.nk)
      | some _ => ∀ l, ∀ a < m.nk, ∀ b < m2.nk, r (l * (m.nk * m2.nk) + (a * m2.nk + b)) =
          if l = sers[k].code 0 then (if onsets[k] ≤ i then Bspline.irBasis m.minc m.maxc m.nk m.deg (t0 + (i * dt - onsets[k] * dt)) a else 0)
            * Bspline.basis m2.minc m2.maxc m2.nk m2.deg x b else 0 := by
  obtain ⟨bl, r, h1, h2, h3⟩ := build_rows m [m2] levels 0 n sers onsets X hX k hk ho i hi
  refine ⟨_, h3, ?_⟩
  have hne : ∀ a < sers[k].len, sers[k].cov 0 a ≠ none := fun a ha => by rw [hc a ha]; simp
  have hrow : ∀ c, termRow m [m2] sers[k] onsets[k] i c = some ((if onsets[k] ≤ i then Bspline.irBasis m.minc m.maxc m.nk m.deg (t0 + (i * dt - onsets[k] * dt)) (c / m2.nk) else 0)
      * Bspline.basis m2.minc m2.maxc m2.nk m2.deg x (c % m2.nk)) := by
    intro c
    show mulN (margEntry m sers[k] 0 onsets[k] i (c / m2.nk)) (margEntry m2 sers[k] 1 onsets[k] i (c % m2.nk)) = _
    have e2 : margEntry m2 sers[k] 1 onsets[k] i (c % m2.nk) = some (Bspline.basis m2.minc m2.maxc m2.nk m2.deg x (c % m2.nk)) := by
      unfold margEntry
      rw [if_neg (by rw [hm2]; simp), hx]
      rfl
    rw [marg_shift m hm sers[k] 0 onsets[k] i hi _ hne, e2]
    split_ifs with h
    · rw [hc (i - onsets[k]) (by omega), Option.getD_some, Nat.cast_sub h, sub_mul]
      rfl
    · rfl
  cases levels with
  | none =>
    intro c
    have hr : r = termRow m [m2] sers[k] onsets[k] i := by
      cases h1
      rw [List.getElem?_map, List.getElem?_range hi] at h2
      exact (Option.some.inj h2).symm
    rw [hr, hrow, keep_zero]
  | some L =>
    intro l a ha b hb
    have hw : width m [m2] = m.nk * m2.nk := by simp [width]
    have hr : r = fun c => if c / (m.nk * m2.nk) = sers[k].code 0 then termRow m [m2] sers[k] onsets[k] i (c % (m.nk * m2.nk)) else some 0 := by
      unfold serRows at h1
      dsimp only at h1
      split_ifs at h1
      cases h1
      rw [List.getElem?_map, List.getElem?_range hi, hw] at h2
      exact (Option.some.inj h2).symm
    have hlt : a * m2.nk + b < m.nk * m2.nk := by
      have h5 : (a + 1) * m2.nk ≤ m.nk * m2.nk := Nat.mul_le_mul_right _ ha
      have h6 : (a + 1) * m2.nk = a * m2.nk + m2.nk := by ring
      omega
    have hpos : 0 < m.nk * m2.nk := by omega
    rw [hr]
    dsimp only
    rw [Nat.mul_comm l, Nat.mul_add_div hpos, Nat.div_eq_of_lt hlt, Nat.mul_add_mod, Nat.mod_eq_of_lt hlt, Nat.add_zero]
    split_ifs with hl
    · rw [hrow, keep_zero, if_pos ‹_›, Nat.mul_comm a, Nat.mul_add_div (by omega), Nat.div_eq_of_lt hb, Nat.mul_add_mod, Nat.mod_eq_of_lt hb, Nat.add_zero]
    · rw [hrow, keep_zero, if_neg ‹_›, zero_mul, zero_mul]
    · exact keep_zero 0

/-! ### Series and onsets -/

/-- C106: if the model matrix is built, every series that has rows has an onset, provided series have rows: with fewer onsets than series there is an error. -/
theorem onsets_few (m : Marg) (ms : List Marg) (levels : Option ℕ) (tol : ℝ) (sers : List Ser) (hs : ∀ s ∈ sers, 0 < s.len) (onsets : List ℕ) (ho : onsets.length < sers.length) :
    build m ms levels tol ((sers.map Ser.len).sum) sers onsets = none := by
  unfold build
  cases hb : (sers.zip onsets).mapM fun p => serRows m ms levels p.1 p.2 with
  | none => rfl
  | some blocks =>
    dsimp only
    rw [if_neg]
    obtain ⟨h1, h2⟩ := mapM_split _ _ _ hb
    have hlen : blocks.map List.length = (sers.take onsets.length).map Ser.len := by
      refine List.ext_getElem (by simp [h1]; omega) fun q q1 q2 => ?_
      rw [List.getElem_map, List.getElem_map, List.getElem_take]
      have q3 : q < blocks.length := by simpa using q1
      have q4 := h2 q (by omega) q3
      rw [List.getElem_zip] at q4
      exact serRows_length _ _ _ _ _ _ q4
    rw [List.length_flatten, hlen]
    have hsplit : (sers.map Ser.len).sum = ((sers.take onsets.length).map Ser.len).sum + ((sers.drop onsets.length).map Ser.len).sum := by
      rw [← List.sum_append, ← List.map_append, List.take_append_drop]
    rw [hsplit]
    have hd : sers.drop onsets.length = sers[onsets.length] :: sers.drop (onsets.length + 1) := (List.getElem_cons_drop ..).symm
    have := hs _ (List.getElem_mem ho)
    rw [hd, List.map_cons, List.sum_cons]
    omega

theorem zip_take_left {α β : Type} (l : List α) : ∀ (r : List β), l.zip r = l.zip (r.take l.length) := by
  induction l with
  | nil => intro r; rfl
  | cons x xs ih =>
    intro r
    cases r with
    | nil => rfl
    | cons y ys => rw [List.length_cons, List.take_succ_cons, List.zip_cons_cons, List.zip_cons_cons, ← ih ys]

/-- C106 fails for onsets that do not belong to the series at their position: onsets in excess of the series are ignored, so data with fewer series than the formula get the onsets of
the first series of the formula, whichever series they are (`subset_wrong`). -/
theorem extra_wrong (m : Marg) (ms : List Marg) (levels : Option ℕ) (tol : ℝ) (n : ℕ) (sers : List Ser) (onsets : List ℕ) :
    build m ms levels tol n sers onsets = build m ms levels tol n sers (onsets.take sers.length) := by
  unfold build
  rw [← zip_take_left]

/-- C106: a factor `by` that varies within a series is an error, whatever the onsets. -/
theorem by_varies (m : Marg) (ms : List Marg) (L : ℕ) (tol : ℝ) (n : ℕ) (sers : List Ser) (onsets : List ℕ) (k : ℕ) (hk : k < sers.length) (ho : k < onsets.length) (i : ℕ)
    (hi : i < sers[k].len) (hc : sers[k].code i ≠ sers[k].code 0) : build m ms (some L) tol n sers onsets = none := by
  cases hX : build m ms (some L) tol n sers onsets with
  | none => rfl
  | some X =>
    obtain ⟨bl, r, h1, -, -⟩ := build_rows m ms (some L) tol n sers onsets X hX k hk ho i hi
    unfold serRows at h1
    dsimp only at h1
    rw [if_pos ⟨i, hi, hc⟩] at h1
    cases h1

/-! ### Examples -/

/-- Linear pieces between 0 and 3. -/
def hat : Marg := ⟨0, 3, 2, 1, true⟩

/-- Series with times `t0`, `t0 + 1`, ... -/
def ticks (t0 : ℝ) (len code : ℕ) : Ser := ⟨len, fun _ a => some (t0 + a), fun _ => code⟩

theorem hat_at_one : response hat (fun _ => 1) 1 = 1 := by
  unfold response
  show ∑ j ∈ range 2, _ = _
  rw [Finset.sum_range_succ, Finset.sum_range_one]
  unfold Bspline.irBasis
  simp only [hat]
  rw [Bspline.bbase_eq _ _ _ _ _ _ (by norm_num), Bspline.bbase_eq _ _ _ _ _ _ (by norm_num)]
  simp [Bspline.bs, Bspline.dif, Bspline.tpower, Bspline.linspace]
  norm_num

/-- New data with the second of two series only: the response is that to the event of the first series, at row 0. In the data of the formula row 1 of the second series is before its
event, at row 2. -/
theorem subset_wrong : ∃ X Y r s, build hat [] none 0 8 [ticks 0 4 0, ticks 0 4 0] [0, 2] = some X ∧ build hat [] none 0 4 [ticks 0 4 0] [0, 2] = some Y ∧ X[5]? = some r ∧ Y[1]? = some s ∧
    ∑ j ∈ range 2, r j * 1 = 0 ∧ ∑ j ∈ range 2, s j * 1 = 1 := by
  obtain ⟨X, hX⟩ : ∃ X, build hat [] none 0 8 [ticks 0 4 0, ticks 0 4 0] [0, 2] = some X := by
    unfold build
    simp [serRows, ticks]
  obtain ⟨Y, hY⟩ : ∃ X, build hat [] none 0 4 [ticks 0 4 0] [0, 2] = some X := by
    unfold build
    simp [serRows, ticks]
  obtain ⟨r, h1, h2⟩ := response_partial hat rfl none 8 [ticks 0 4 0, ticks 0 4 0] [0, 2] X hX 1 (by simp) (by simp) 1 (fun a _ => by simp [ticks]) 1 (by simp [ticks]) (fun _ => 1)
  obtain ⟨s, g1, g2⟩ := response_partial hat rfl none 4 [ticks 0 4 0] [0, 2] Y hY 0 (by simp) (by simp) 1 (fun a _ => by simp [ticks]) 1 (by simp [ticks]) (fun _ => 1)
  refine ⟨X, Y, r, s, hX, hY, by simpa [ticks] using h1, by simpa using g1, ?_, ?_⟩
  · have h3 : ∑ j ∈ range 2, r j * (1 : ℝ) = if (2 : ℕ) ≤ 1 then response hat (fun _ => 1) (((1 : ℕ) : ℝ) * 1 - ((2 : ℕ) : ℝ) * 1) else 0 := h2
    rw [h3, if_neg (by omega)]
  · have h3 : ∑ j ∈ range 2, s j * (1 : ℝ) = if (0 : ℕ) ≤ 1 then response hat (fun _ => 1) (((1 : ℕ) : ℝ) * 1 - ((0 : ℕ) : ℝ) * 1) else 0 := g2
    rw [h3, if_pos (Nat.zero_le 1)]
    norm_num
    exact hat_at_one

example : build hat [] none 0 7 [ticks 0 4 0, ticks 0 3 1] [0] = none := by
  have := onsets_few hat [] none 0 [ticks 0 4 0, ticks 0 3 1] (by simp [ticks]) [0] (by simp)
  simpa [ticks] using this

/-- Second of two series with event at row 1, one step later. -/
example (X : List (ℕ → ℝ)) (hX : build hat [] none 0 7 [ticks 0 4 0, ticks 0 3 1] [0, 1] = some X) : ∃ r, X[6]? = some r ∧ ∑ j ∈ range 2, r j * 1 = 1 := by
  obtain ⟨r, h1, h2⟩ := response_partial hat rfl none 7 [ticks 0 4 0, ticks 0 3 1] [0, 1] X hX 1 (by simp) (by simp) 1 (fun a _ => by simp [ticks]) 2 (by simp [ticks]) (fun _ => 1)
  refine ⟨r, by simpa [ticks] using h1, ?_⟩
  have h3 : ∑ j ∈ range 2, r j * (1 : ℝ) = if (1 : ℕ) ≤ 2 then response hat (fun _ => 1) (((2 : ℕ) : ℝ) * 1 - ((1 : ℕ) : ℝ) * 1) else 0 := h2
  rw [h3, if_pos one_le_two]
  norm_num
  exact hat_at_one

/-- The matrix of the example is built. -/
example : ∃ X, build hat [] none 0 7 [ticks 0 4 0, ticks 0 3 1] [0, 1] = some X := by
  unfold build
  simp [serRows, ticks]

/-- Times from 3 on. -/
example (X : List (ℕ → ℝ)) (hX : build hat [] none 0 4 [ticks 3 4 0] [1] = some X) (b : ℕ → ℝ) : ∃ r, X[2]? = some r ∧ ∑ j ∈ range hat.nk, r j * b j = 0 := by
  have := start_wrong hat rfl (by norm_num [hat]) (by norm_num [hat]) (by norm_num [hat]) 4 [ticks 3 4 0] [1] X hX 0 (by simp) (by simp) 3 1 zero_le_one (by simp [hat])
    (fun a _ => by simp [ticks]) 2 (by simp [ticks]) b
  simpa using this

/-- Time missing in the last row. -/
example (X : List (ℕ → ℝ)) (hX : build hat [] none 0 4 [⟨4, fun _ a => if a = 3 then none else some a, fun _ => 0⟩] [0] = some X) : ∃ r, X[1]? = some r ∧ ∀ c, r c = 0 := by
  have := missing_wrong hat rfl 4 0 _ [0] X hX 0 (by simp) (by simp) 3 (by simp) (by simp) 1 (by simp)
  simpa using this

example (b : ℕ → ℝ) : response hat b 4 = 0 := response_support hat (by norm_num [hat]) (by norm_num [hat]) (by norm_num [hat]) b 4 (Or.inr (by norm_num [hat]))

example : build hat [] (some 2) 0 3 [⟨3, fun _ a => some a, fun i => i % 2⟩] [1] = none := by_varies hat [] 2 0 3 _ _ 0 (by simp) (by simp) 1 (by simp) (by simp)

example : termRow hat [hat] (ticks 0 5 0) 2 3 0 = termRow hat [hat] (ticks 0 5 0) 0 1 0 := by
  rw [shift hat [hat] rfl (by simp [hat]) (ticks 0 5 0) (by simp [ticks]) 2 3 (by simp [ticks]) 0, if_pos (by omega)]

/-- Time and a second variable with value 1: two levels, the series has the second. -/
example (X : List (ℕ → ℝ)) (hX : build hat [⟨0, 3, 2, 1, false⟩] (some 2) 0 4 [⟨4, fun v a => some (if v = 0 then a else 1), fun _ => 1⟩] [1] = some X) :
    ∃ r, X[2]? = some r ∧ r (1 * (2 * 2) + (0 * 2 + 1)) = Bspline.irBasis 0 3 2 1 1 0 * Bspline.basis 0 3 2 1 1 1 ∧ r (0 * (2 * 2) + (0 * 2 + 1)) = 0 := by
  obtain ⟨r, h1, h2⟩ := two_variables hat ⟨0, 3, 2, 1, false⟩ rfl rfl (some 2) 4 _ [1] X hX 0 (by simp) (by simp) 0 1 (fun a _ => by simp) 2 (by simp) 1 (by simp)
  refine ⟨r, by simpa using h1, ?_, ?_⟩
  · have := h2 1 0 (by simp [hat]) 1 (by simp)
    simp only [hat] at this
    rw [this]
    norm_num
  · have := h2 0 0 (by simp [hat]) 1 (by simp)
    simp only [hat] at this
    rw [this]
    norm_num

/-- The matrix of that case is built. -/
example : ∃ X, build hat [⟨0, 3, 2, 1, false⟩] (some 2) 0 4 [⟨4, fun v a => some (if v = 0 then a else 1), fun _ => 1⟩] [1] = some X := by
  unfold build
  simp [serRows]

end Verif.Resp
