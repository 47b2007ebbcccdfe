import Verif.HsmmWrapLemmas

/-! # Fixed matrices (property C99), decoded paths and residuals of durations (property C100) -/

namespace Verif.HWrap

open Verif.Hsmm

/-! ## C99 -/

/-- C99 with several cores: if one transition matrix and one initial distribution per series were passed, `compute_Tpi` returns for
every series its own. -/
theorem tpi_workers {α β : Type} (cores : ℕ) (hc : cores ≠ 1) (est : ℕ → α × β) (Ts : List α) (pis : List β) (h : Ts.length = pis.length) :
    computeTpi cores true est (.perSeries Ts) (.perSeries pis) Ts.length =
      some ((Ts.zip pis).map fun p => (.one p.1, .one p.2)) := by
  rw [computeTpi, if_neg hc]
  apply collect_eq
  · simp [h]
  · intro k hk
    have h1 : k < Ts.length := by simpa [h] using hk
    have h2 : k < pis.length := by omega
    rw [Nat.zero_add, seriesTpi, if_pos rfl, select]
    rw [List.getElem?_eq_getElem h1, List.getElem?_eq_getElem h2]
    simp

/-- C99, the part that holds for every number of cores: matrices that are estimated, or the same for all series, are returned for
every series. Missing: one matrix per series on one core, see `tpi_wrong`. -/
theorem tpi_partial {α β : Type} (cores : ℕ) (fixed : Bool) (est : ℕ → α × β) (T : α) (pi : β) (n : ℕ) :
    computeTpi cores fixed est (.one T) (.one pi) n =
      some ((List.range n).map fun i => if fixed then (.one T, .one pi) else (.one (est i).1, .one (est i).2)) := by
  have hser : ∀ (n i : ℕ) (T : α) (pi : β), fixed = false → serialTpi fixed est n i (.one T) (.one pi) =
      some ((List.range' i n).map fun i => (.one (est i).1, .one (est i).2)) := by
    intro n
    induction n with
    | zero => intro i T pi _; rfl
    | succ n ih =>
      intro i T pi hf
      rw [serialTpi, seriesTpi, if_neg (by rw [hf]; decide)]
      simp only
      rw [ih _ _ _ hf, List.range'_succ, List.map_cons]
  have hfix : ∀ (n i : ℕ), fixed = true → serialTpi fixed est n i (.one T) (.one pi) =
      some ((List.range' i n).map fun _ => (.one T, .one pi)) := by
    intro n
    induction n with
    | zero => intro i _; rfl
    | succ n ih =>
      intro i hf
      rw [serialTpi, seriesTpi, if_pos hf, select]
      simp only
      rw [ih _ hf, List.range'_succ, List.map_cons]
      all_goals simp
  unfold computeTpi
  by_cases hc : cores = 1
  · rw [if_pos hc]
    cases fixed with
    | false => rw [hser n 0 T pi rfl, List.range_eq_range']; rfl
    | true => rw [hfix n 0 rfl, List.range_eq_range']; rfl
  · rw [if_neg hc]
    apply collect_eq
    · simp
    · intro k hk
      simp only [List.getElem_map, List.getElem_range, Nat.zero_add]
      cases fixed <;> rfl

/-- C99, what happens on one core: every series gets the matrices of the first one. -/
theorem tpi_first {α β : Type} (est : ℕ → α × β) (t : α) (p : β) (Ts : List α) (pis : List β) (n : ℕ) :
    computeTpi 1 true est (.perSeries (t :: Ts)) (.perSeries (p :: pis)) n = some (List.replicate n (.one t, .one p)) := by
  have key : ∀ n i, serialTpi true est n i (.one t) (.one p) = some (List.replicate n (.one t, .one p)) := by
    intro n
    induction n with
    | zero => intro i; rfl
    | succ n ih =>
      intro i
      rw [serialTpi, seriesTpi, if_pos rfl, select]
      simp only
      rw [ih]
      · rfl
      all_goals simp
  rw [computeTpi, if_pos rfl]
  cases n with
  | zero => rfl
  | succ n =>
    rw [serialTpi, seriesTpi, if_pos rfl, select]
    simp only [List.getElem?_cons_zero]
    rw [key]
    rfl

/-- C99 fails: the result depends on the number of cores, on one core the second of two series gets the matrix of the first. -/
theorem tpi_wrong : ¬ ∀ (cores : ℕ) (est : ℕ → ℝ × ℝ) (Ts pis : List ℝ), Ts.length = pis.length →
    computeTpi cores true est (.perSeries Ts) (.perSeries pis) Ts.length =
      some ((Ts.zip pis).map fun p => (.one p.1, .one p.2)) := by
  intro h
  have h := h 1 (fun _ => (0, 0)) [1, 2] [1, 1] rfl
  rw [tpi_first] at h
  simp [List.replicate] at h

/-! ## C100: which path the residuals are computed from -/

theorem cut_single {γ : Type} (y : List γ) (n : ℕ) : cut y [n] = [y] := rfl

/-- The decoder's view of one series on its own. -/
theorem decode_single {α β X P : Type} (F : Fam α β X) (dec : Fixed α × Fixed β → List ℝ → X → P) (y : List ℝ) (n : ℕ) (x : X)
    (hl : ∀ p ∈ F.lrho, y.length ≠ p.1) :
    (decode F dec y [n] [x]).bind (fun l => l[0]?) = (matrices F 0 x).map fun M => dec M y x := by
  unfold decode
  have hw : whiten F y = none := by
    unfold whiten
    cases h : F.lrho with
    | none => rfl
    | some p => obtain ⟨k, f⟩ := p; simp only; exact if_neg (hl (k, f) h)
  simp only [hw, splitY, cut_single, List.zip_cons_cons, List.zip_nil_right, List.length_cons, List.length_nil, collect]
  cases h : matrices F 0 x <;> simp [decodeOne, h]

/-- C100, the part that holds: if the matrices are estimated or the same for all series, and no series is as long as the whole signal
(in particular there are at least two non-empty ones) or there is no autocorrelation, then the duration residuals of every series are
computed from the path (or the sampled paths) that `decode_viterbi` (`sample_posterior_states`) returns for it.
Missing: one matrix per series (`paths_first_wrong`) and a single series with autocorrelation (`paths_twice_wrong`). -/
theorem paths_partial {α β X P : Type} (F : Fam α β X) (dec : Fixed α × Fixed β → List ℝ → X → P) (y : List ℝ) (lens : List ℕ)
    (xs : List X) (hM : F.fixed = false ∨ ∃ T pi, F.T = .one T ∧ F.pi = .one pi) (hn : ∀ p ∈ F.lrho, y.length = p.1)
    (hl : ∀ p ∈ F.lrho, ∀ z ∈ cut (p.2 y) lens, z.length ≠ p.1) :
    residPaths F dec y lens xs = decode F dec y lens xs := by
  have hmat : ∀ i x, matrices F i x = matrices F 0 x := by
    intro i x
    unfold matrices
    rcases hM with h | ⟨T, pi, h1, h2⟩
    · rw [if_neg (by rw [h]; decide), if_neg (by rw [h]; decide)]
    · rw [h1, h2]; rfl
  have hw : whiten F y = F.lrho.map Prod.snd := by
    unfold whiten
    cases h : F.lrho with
    | none => rfl
    | some p => obtain ⟨k, f⟩ := p; simp only; exact if_pos (hn (k, f) h)
  rw [residPaths, decode, hw]
  apply collect_congr
  intro i _ hi
  have hi : i < ((splitY (F.lrho.map Prod.snd) y lens).zip xs).length := by omega
  rw [residOne, decodeOne, List.getElem?_eq_getElem hi]
  obtain ⟨q, hq⟩ : ∃ q, q = ((splitY (F.lrho.map Prod.snd) y lens).zip xs)[i] := ⟨_, rfl⟩
  rw [← hq]
  have hmem : q.1 ∈ splitY (F.lrho.map Prod.snd) y lens := by
    have : q ∈ (splitY (F.lrho.map Prod.snd) y lens).zip xs := by rw [hq]; exact List.getElem_mem hi
    exact (List.of_mem_zip (a := q.1) (b := q.2) this).1
  simp only
  rw [decode_single F dec q.1 q.1.length q.2, hmat i]
  · intro p hp
    have hp' : F.lrho = some p := hp
    have : splitY (F.lrho.map Prod.snd) y lens = cut (p.2 y) lens := by rw [hp']; rfl
    rw [this] at hmem
    exact hl p hp q.1 hmem

/-- Two series with matrices of their own. -/
def two : Fam ℝ ℝ Unit := ⟨true, fun _ => (0, 0), .perSeries [1, 2], .perSeries [1, 1], none⟩

/-- A decoder whose result shows what it was given. -/
def shown (M : Fixed ℝ × Fixed ℝ) (y : List ℝ) (_ : Unit) : ℝ × List ℝ :=
  match M.1 with
  | .one a => (a, y)
  | .perSeries _ => (0, y)

/-- C100 fails for one matrix per series: `decode_viterbi` uses the second matrix for the second series, the residuals are computed from
a path decoded with the first one. -/
theorem paths_first_wrong : decode two shown [5, 6, 7] [2, 1] [(), ()] = some [(1, [5, 6]), (2, [7])] ∧
    residPaths two shown [5, 6, 7] [2, 1] [(), ()] = some [(1, [5, 6]), (1, [7])] := by
  constructor
  · rfl
  · rfl

/-- C100 fails for a single series with autocorrelation: the signal is transformed twice before it is decoded. -/
theorem paths_twice_wrong {α β X P : Type} (F : Fam α β X) (dec : Fixed α × Fixed β → List ℝ → X → P) (y : List ℝ) (x : X)
    (f : List ℝ → List ℝ) (hf : F.lrho = some (y.length, f)) (hlen : (f y).length = y.length) (M : Fixed α × Fixed β)
    (hM : matrices F 0 x = some M) :
    decode F dec y [y.length] [x] = some [dec M (f y) x] ∧ residPaths F dec y [y.length] [x] = some [dec M (f (f y)) x] := by
  have h1 : ∀ z : List ℝ, z.length = y.length → ∀ n, decode F dec z [n] [x] = some [dec M (f z) x] := by
    intro z hz n
    unfold decode
    simp only [whiten, hf, hz, if_true, splitY, cut_single, List.zip_cons_cons, List.zip_nil_right, List.length_cons, List.length_nil, collect]
    simp [decodeOne, hM]
  refine ⟨h1 y rfl _, ?_⟩
  unfold residPaths
  simp only [hf, Option.map_some, splitY, cut_single, List.zip_cons_cons, List.zip_nil_right, List.length_cons, List.length_nil,
    collect]
  simp [residOne, h1 (f y) hlen]

example : ∃ (F : Fam ℝ ℝ Unit) (y : List ℝ), F.lrho ≠ none ∧ (∃ T pi, F.T = .one T ∧ F.pi = .one pi) ∧
    (∀ p ∈ F.lrho, y.length = p.1) ∧ (∀ p ∈ F.lrho, ∀ z ∈ cut (p.2 y) [2, 1], z.length ≠ p.1) :=
  ⟨⟨true, fun _ => (0, 0), .one 1, .one 1, some (3, fun l => l.map (2 * ·))⟩, [5, 6, 7], by simp, ⟨1, 1, rfl, rfl⟩,
    by intro p hp; obtain rfl : p = _ := (Option.some.inj hp).symm; rfl,
    by
      intro p hp z hz
      obtain rfl : p = _ := (Option.some.inj hp).symm
      simp [cut] at hz
      rcases hz with rfl | rfl <;> simp⟩

/-! ## C100: residuals of the runs of a path -/

/-- C100, exactly what is computed: `l` are the runs of equal states of a path. Every run contributes to the list of its state the residual
of its length under its duration model, evaluated (for models that change over time) at the first time point after the run, or at the last
time point for the last run. States without duration model that occur get `None`. -/
theorem dur_res_rows (F : DurFam) (hF : F.starts_with_first = true ∨ ∀ c, F.has c = true) (l : List Seg) (hl : l ≠ []) (h : Runs 0 l)
    (h2 : F.starts_with_first = true ∨ 2 ≤ l.length) :
    ∃ lists, durRes F (unroll l) = some lists ∧ ∀ j,
      (F.has j = true → lists j = some (wanted F (fun s => min (s.start + s.dur + 1) ((unroll l).length - 1)) l j)) ∧
      (F.has j = false → lists j = none ∨ ((∀ s ∈ l, s.state ≠ j) ∧ lists j = some [])) := by
  cases l with
  | nil => exact absurd rfl hl
  | cons s r =>
    have hs : s.start = 0 := by
      cases r with
      | nil => exact h
      | cons q r => exact h.1
    refine ⟨_, (durRes_runs F s r h).trans (codeLists_eq F hF
      (fun q => min (q.start + q.dur + 1) ((unroll (s :: r)).length - 1)) r s _ 0 (by rw [hs]; exact h) ?_ ?_ ?_ (by simp)), ?_⟩
    · rcases h2 with h2 | h2
      · exact Or.inl h2
      · refine Or.inr (Or.inr ?_)
        rintro rfl
        simp at h2
    · intro q _ hq
      omega
    · intro q _ hq
      omega
    · intro j
      constructor
      · intro hj
        unfold after
        rw [if_pos hj]
        rfl
      · intro hj
        unfold after
        rw [if_neg (by rw [hj]; decide)]
        by_cases ho : ∃ q ∈ s :: r, q.state = j
        · rw [if_pos ho]; exact Or.inl rfl
        · rw [if_neg ho]
          refine Or.inr ⟨fun q hq he => ho ⟨q, hq, he⟩, rfl⟩

/-- C100, the part that holds: for duration models that do not change over time, the residuals are those of the runs, each under the
duration model of the likelihood. The full claim also covers models that change over time, where the likelihood uses the
row of the first time point of a run (`dur_res_time_wrong`), and paths with a single run (`dur_res_single_wrong`). -/
theorem dur_res_partial (F : DurFam) (hF : F.starts_with_first = true ∨ ∀ c, F.has c = true) (htv : F.tvdtpi = false) (l : List Seg)
    (hl : l ≠ []) (h : Runs 0 l) (h2 : F.starts_with_first = true ∨ 2 ≤ l.length) :
    ∃ lists, durRes F (unroll l) = some lists ∧ ∀ j, F.has j = true → lists j = some (wanted F Seg.start l j) := by
  obtain ⟨lists, h3, h4⟩ := dur_res_rows F hF l hl h h2
  refine ⟨lists, h3, fun j hj => ?_⟩
  rw [(h4 j).1 hj]
  unfold wanted
  simp [htv]

/-- C100 fails for duration models that change over time. -/
theorem dur_res_time_wrong : ¬ ∀ (F : DurFam), F.starts_with_first = true → (∀ c, F.has c = true) → ∀ l, l ≠ [] → Runs 0 l →
    ∃ lists, durRes F (unroll l) = some lists ∧ ∀ j, F.has j = true → lists j = some (wanted F Seg.start l j) := by
  intro h
  obtain ⟨lists, h1, h2⟩ := h ⟨2, true, true, fun _ => true, fun _ _ t => t⟩ rfl (fun _ => rfl) [⟨0, 0, 0⟩, ⟨1, 0, 1⟩] (by simp)
    ⟨rfl, by decide, rfl⟩
  have h2 := h2 0 rfl
  obtain ⟨lists', h3, h4⟩ := dur_res_rows ⟨2, true, true, fun _ => true, fun _ _ t => t⟩ (Or.inl rfl) [⟨0, 0, 0⟩, ⟨1, 0, 1⟩] (by simp)
    ⟨rfl, by decide, rfl⟩ (Or.inl rfl)
  have h4 := (h4 0).1 rfl
  rw [h1] at h3
  obtain rfl := Option.some.inj h3
  rw [h2] at h4
  simp [wanted, unroll] at h4

/-- C100 fails for paths that stay in one state when the first state may have started earlier: the duration model of later segments is
used for the first one. -/
theorem dur_res_single_wrong : ¬ ∀ (F : DurFam), F.tvdtpi = false → (∀ c, F.has c = true) → ∀ l, l ≠ [] → Runs 0 l →
    ∃ lists, durRes F (unroll l) = some lists ∧ ∀ j, F.has j = true → lists j = some (wanted F Seg.start l j) := by
  intro h
  obtain ⟨lists, h1, h2⟩ := h ⟨2, false, false, fun _ => true, fun c _ _ => c⟩ rfl (fun _ => rfl) [⟨0, 1, 0⟩] (by simp) rfl
  have h2 := h2 0 rfl
  have e : durRes ⟨2, false, false, fun _ => true, fun c _ _ => c⟩ (unroll [⟨0, 1, 0⟩]) =
      some (Function.update (fun _ => some []) 0 (some [((2 : ℕ) : ℝ)])) := rfl
  rw [e] at h1
  obtain rfl := Option.some.inj h1
  rw [Function.update_self] at h2
  simp [wanted] at h2

example : ∃ (F : DurFam) (l : List Seg), (∀ c, F.has c = true) ∧ F.starts_with_first = false ∧ F.tvdtpi = false ∧ Runs 0 l ∧ 2 ≤ l.length ∧
    unroll l = [0, 0, 1, 0, 0, 0] ∧ wanted F Seg.start l 0 = [2, 13] :=
  ⟨⟨2, false, false, fun _ => true, fun c d _ => 5 * c + d⟩, [⟨0, 1, 0⟩, ⟨2, 0, 1⟩, ⟨3, 2, 0⟩], fun _ => rfl, rfl, rfl,
    ⟨rfl, by decide, rfl, by decide, rfl⟩, by decide, rfl, by norm_num [wanted, List.zipIdx_cons]⟩

end Verif.HWrap
