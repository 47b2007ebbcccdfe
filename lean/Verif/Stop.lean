import Verif.StopLemmas
import Mathlib.Tactic.Linarith
import Mathlib.Tactic.NormNum
import Mathlib.Tactic.FinCases

/-!
# Early stop, callback and result of the sampler (property C111)
-/

namespace Verif.Stop

open Verif.Sched

variable {c : ℕ}

/-- The arrays of a result hold `n` draws per chain, those at positions `from_`, `from_ + 1`, ... of the lists `ds`: log density,
coefficients, log scale, theta and log smoothing parameters of the same draws. -/
structure Holds (o : Opt) (q : Result) (ds : Fin c → List Draw) (from_ n : ℕ) : Prop where
  lpShape : q.lps.chains = c ∧ q.lps.N = n ∧ q.lps.np = 1
  coefShape : q.coefs.chains = c ∧ q.coefs.N = n ∧ q.coefs.np = o.nCoef
  scaleShape : ∀ S ∈ q.lscales, S.chains = c ∧ S.N = n ∧ S.np = o.nScale
  thetaShape : ∀ S ∈ q.thetas, S.chains = c ∧ S.N = n ∧ S.np = o.nTheta
  rhoShape : ∀ S ∈ q.rhos, S.chains = c ∧ S.N = n ∧ S.np = o.nLam
  scaleIff : q.lscales.isSome ↔ 0 < o.nScale
  thetaIff : q.thetas.isSome ↔ 0 < o.nTheta
  rhoIff : q.rhos.isSome ↔ o.sampleRho = true
  len : ∀ ch, from_ + n ≤ (ds ch).length
  entry : ∀ (ch : Fin c) i d, i < n → (ds ch)[from_ + i]? = some d →
    q.lps.val ch i 0 = d.1 ∧ (∀ j, q.coefs.val ch i j = d.2 j) ∧ (∀ S ∈ q.lscales, ∀ j, S.val ch i j = d.2 (o.nCoef + j)) ∧
    (∀ S ∈ q.thetas, ∀ j, S.val ch i j = d.2 (o.nCoef + o.nScale + j)) ∧
    ∀ S ∈ q.rhos, ∀ j, S.val ch i j = d.2 (o.nCoef + o.nScale + o.nTheta + j)

theorem slice_val (np a b : ℕ) (v : Fin c → ℕ → ℕ → ℝ) (ch : Fin c) (i j : ℕ) : (slice c np a b v).val ch i j = v ch (a + i) j := by
  unfold slice
  dsimp only
  rw [dif_pos ch.2]

theorem mem_ite {α : Type} {p : Prop} [Decidable p] {x S : α} (h : S ∈ (if p then some x else none)) : S = x ∧ p := by
  by_cases hp : p
  · rw [if_pos hp] at h; exact ⟨(Option.mem_some_iff.1 h).symm, hp⟩
  · rw [if_neg hp] at h; exact absurd h (by simp)

theorem isSome_ite {α : Type} {p : Prop} [Decidable p] {x : α} : (if p then some x else none).isSome ↔ p := by
  by_cases hp : p
  · rw [if_pos hp]; simpa using hp
  · rw [if_neg hp]; simpa using hp

/-- Packed arrays hold the stored draws. -/
theorem pack_holds (o : Opt) (hst : o.nScale = 0 ∨ o.nTheta = 0) (s : Fin c → ℕ → Draw) (ds : Fin c → List Draw) (a b : ℕ) (hab : a ≤ b)
    (hlen : ∀ ch, b ≤ (ds ch).length) (hs : ∀ ch i (hi : i < (ds ch).length), i < b → s ch i = (ds ch)[i]) :
    Holds o (pack o s a b) ds a (b - a) := by
  refine ⟨⟨rfl, rfl, rfl⟩, ⟨rfl, rfl, rfl⟩, ?_, ?_, ?_, isSome_ite, isSome_ite, isSome_ite, fun ch => by have := hlen ch; omega, ?_⟩
  · intro S hS; obtain ⟨rfl, -⟩ := mem_ite hS; exact ⟨rfl, rfl, rfl⟩
  · intro S hS; obtain ⟨rfl, -⟩ := mem_ite hS; exact ⟨rfl, rfl, rfl⟩
  · intro S hS; obtain ⟨rfl, -⟩ := mem_ite hS; exact ⟨rfl, rfl, rfl⟩
  · intro ch i d hi hd
    obtain ⟨h1, h2⟩ := List.getElem?_eq_some_iff.1 hd
    have e : s ch (a + i) = d := by rw [hs ch (a + i) h1 (by omega), h2]
    refine ⟨?_, fun j => ?_, fun S hS j => ?_, fun S hS j => ?_, fun S hS j => ?_⟩
    · exact (slice_val _ _ _ _ _ _ _).trans (by rw [lpArr, e])
    · exact (slice_val _ _ _ _ _ _ _).trans (by rw [coefArr, e])
    · obtain ⟨rfl, -⟩ := mem_ite hS
      exact (slice_val _ _ _ _ _ _ _).trans (by rw [scaleArr, e])
    · obtain ⟨rfl, h0⟩ := mem_ite hS
      refine (slice_val _ _ _ _ _ _ _).trans ?_
      have hz : o.nScale = 0 := by omega
      rw [thetaArr, if_neg (by omega), e, hz, Nat.add_zero]
    · obtain ⟨rfl, -⟩ := mem_ite hS
      exact (slice_val _ _ _ _ _ _ _).trans (by rw [rhoArr, e])

/-- **C111.** The sampler returns either all `n_iter` draws of every chain, or, only with `auto_converge`, the second half of those made;
each array of the result holds its part of these draws. -/
theorem result_spec (o : Opt) (hst : o.nScale = 0 ∨ o.nTheta = 0) (cfg : Cfg) (hn : 0 < cfg.nSteps) (adv : Adv Draw c) (hadv : Exact adv)
    (ess rhat : Chk.Diag) (fuel : ℕ) (st : St Draw c) (h0 : st.iter = 0) (ret : Ret) (h : run o cfg adv ess rhat fuel st [] = some ret) :
    ∃ l st', Runs cfg adv st l st' ∧ ∃ k, k = st'.iter - cfg.Madapt ∧ (∀ ch, (l.flatMap (drawsOf cfg adv ch)).length = k) ∧
      ((k = cfg.nIter ∧ Holds o ret.res (fun ch => l.flatMap (drawsOf cfg adv ch)) 0 cfg.nIter) ∨
       (o.autoConverge = true ∧ o.hasArviz = true ∧ k ≤ cfg.nIter ∧ 2 * cfg.minIter ≤ k ∧ 8 * c < k ∧
        Holds o ret.res (fun ch => l.flatMap (drawsOf cfg adv ch)) (k / 2) (k - k / 2))) := by
  obtain ⟨l, st', hr, e, hd⟩ := run_runs o cfg adv ess rhat fuel st [] ret h
  have hle : st'.iter ≤ cfg.nIter + cfg.Madapt := runs_iter hn hr (by omega)
  have hlen : ∀ ch, (l.flatMap (drawsOf cfg adv ch)).length = st'.iter - cfg.Madapt := by
    intro ch
    have := (runs_stored cfg hn adv hadv st l st' hr ch (by omega)).2.1
    rw [this, h0]; omega
  have hs : ∀ ch i (hi : i < (l.flatMap (drawsOf cfg adv ch)).length), st'.samples ch i = (l.flatMap (drawsOf cfg adv ch))[i] := by
    intro ch i hi
    have := (runs_stored cfg hn adv hadv st l st' hr ch (by omega)).2.2.2.1 i hi
    rw [h0, Nat.zero_sub, Nat.zero_add] at this
    exact this
  refine ⟨l, st', hr, _, rfl, hlen, ?_⟩
  rcases hd with ⟨a, b, -⟩ | ⟨a, b, d, f, -⟩
  · refine .inl ⟨by omega, ?_⟩
    rw [b]
    exact pack_holds o hst _ _ 0 cfg.nIter (Nat.zero_le _) (fun ch => by rw [hlen ch]; omega) fun ch i hi _ => hs ch i hi
  · obtain ⟨h1, h2, h3, -⟩ := stop_true o ess rhat _ _ b
    refine .inr ⟨h3, h2, by omega, d, by omega, ?_⟩
    rw [f]
    exact pack_holds o hst _ _ _ _ (by omega) (fun ch => by rw [hlen ch]) fun ch i hi _ => hs ch i hi

/-- A diagnostic of every parameter of an array, from the half chains of its draws. -/
def Each (f : Chk.Diag) (S : Chk.Samples) (P : ℝ → Prop) : Prop :=
  ∀ j, j < S.np → P (f (2 * S.chains) (S.N / 2) (Chk.halves S j))

theorem own_mem (f : Chk.Diag) (S : Chk.Samples) (P : ℝ → Prop) (h : ∀ x ∈ Chk.own f (some S), P x) : Each f S P := by
  intro j hj
  exact h _ (List.mem_map.2 ⟨j, List.mem_range.2 hj, rfl⟩)

theorem own_mem_opt (f : Chk.Diag) (q : Option Chk.Samples) (P : ℝ → Prop) (h : ∀ x ∈ Chk.own f q, P x) : ∀ S ∈ q, Each f S P := by
  intro S hS
  rw [Option.mem_def.1 hS] at h
  exact own_mem f S P h

/-- **C111.** If fewer than all draws are returned, the returned draws of every coefficient, scale, theta and smoothing parameter meet the
criteria, and at least `min_iter` draws are returned. For the log density only the criteria for all draws since warm-up are known to be
met: the returned ones are the second half of these. Stated for `convergence_type=0`. -/
theorem criteria_partial (o : Opt) (ht : o.convType = 0) (cfg : Cfg) (adv : Adv Draw c)
    (ess rhat : Chk.Diag) (fuel : ℕ) (st : St Draw c) (ret : Ret) (h : run o cfg adv ess rhat fuel st [] = some ret) :
    ret.res.coefs.N = cfg.nIter ∨
    (o.autoConverge = true ∧ cfg.minIter ≤ ret.res.coefs.N ∧
      (∀ S, (S = ret.res.coefs ∨ S ∈ ret.res.lscales ∨ S ∈ ret.res.thetas ∨ S ∈ ret.res.rhos) →
        Each ess S (o.minEss * c < ·) ∧ Each rhat S (· < o.maxRhat)) ∧
      ∃ L : Chk.Samples, L.chains = c ∧ L.np = 1 ∧ L.N - L.N / 2 = ret.res.lps.N ∧
        (∀ (ch : Fin c) i, ret.res.lps.val ch i 0 = L.val ch (L.N / 2 + i) 0) ∧
        Each ess L (o.minEss * c < ·) ∧ Each rhat L (· < o.maxRhat)) := by
  obtain ⟨l, st', hr, e, hd⟩ := run_runs o cfg adv ess rhat fuel st [] ret h
  rcases hd with ⟨a, b, -⟩ | ⟨a, b, d, f, -⟩
  · left
    rw [b]
    rfl
  · right
    obtain ⟨h1, h2, h3, E, R, hE, hR, hE2, hR2⟩ := stop_true o ess rhat _ _ b
    rw [report_zero o ht] at hE hR
    obtain rfl := Option.some.inj hE
    obtain rfl := Option.some.inj hR
    generalize hk : st'.iter - cfg.Madapt = k at *
    have hck : checked o st'.samples k = { pack o st'.samples (k / 2) k with lps := slice c 1 0 k (lpArr st'.samples) } := by
      unfold checked
      rw [if_pos h3]
    rw [hck] at hE2 hR2
    simp only [List.mem_append] at hE2 hR2
    refine ⟨h3, ?_, ?_, slice c 1 0 k (lpArr st'.samples), rfl, rfl, ?_, ?_, own_mem _ _ _ fun x hx => hE2 x (.inr hx),
      own_mem _ _ _ fun x hx => hR2 x (.inr hx)⟩
    · rw [f]
      show cfg.minIter ≤ k - k / 2
      omega
    · rw [f]
      rintro S (rfl | hS | hS | hS)
      · exact ⟨own_mem _ _ _ fun x hx => hE2 x (.inl (.inl (.inl (.inl hx)))), own_mem _ _ _ fun x hx => hR2 x (.inl (.inl (.inl (.inl hx))))⟩
      · exact ⟨own_mem_opt _ _ _ (fun x hx => hE2 x (.inl (.inl (.inl (.inr hx))))) S hS,
          own_mem_opt _ _ _ (fun x hx => hR2 x (.inl (.inl (.inl (.inr hx))))) S hS⟩
      · exact ⟨own_mem_opt _ _ _ (fun x hx => hE2 x (.inl (.inl (.inr hx)))) S hS,
          own_mem_opt _ _ _ (fun x hx => hR2 x (.inl (.inl (.inr hx)))) S hS⟩
      · exact ⟨own_mem_opt _ _ _ (fun x hx => hE2 x (.inl (.inr hx))) S hS,
          own_mem_opt _ _ _ (fun x hx => hR2 x (.inl (.inr hx))) S hS⟩
    · rw [f]
      show k - 0 - (k - 0) / 2 = k - k / 2
      omega
    · intro ch i
      rw [f]
      refine (slice_val _ _ _ _ _ _ _).trans (Eq.trans ?_ (slice_val _ _ _ _ _ _ _).symm)
      show lpArr _ _ _ _ = lpArr _ _ (0 + ((k - 0) / 2 + i)) _
      rw [Nat.zero_add, Nat.sub_zero]

/-- **C111.** With `convergence_type=0` every call returns. -/
theorem run_total (o : Opt) (h0 : o.convType = 0) (cfg : Cfg) (hn : 0 < cfg.nSteps) (adv : Adv Draw c) (ess rhat : Chk.Diag) (st : St Draw c) :
    ∃ ret, run o cfg adv ess rhat (cfg.nIter + cfg.Madapt + 2) st [] = some ret :=
  run_total' o h0 cfg hn adv ess rhat (cfg.nIter + cfg.Madapt + 1) st [] (by omega)

/-- **C111.** The callback gets, block after block, the numbers and draws made since warm-up, as they are stored at the end. The call
for the last block is missing if the sampler stopped early. -/
theorem callback_spec (o : Opt) (hst : o.nScale = 0 ∨ o.nTheta = 0) (cfg : Cfg) (hn : 0 < cfg.nSteps) (adv : Adv Draw c) (hadv : Exact adv)
    (ess rhat : Chk.Diag) (fuel : ℕ) (st : St Draw c) (h0 : st.iter = 0) (ret : Ret) (h : run o cfg adv ess rhat fuel st [] = some ret) :
    ∃ l st', Runs cfg adv st l st' ∧ ∃ ks : List ℕ,
      ks = ((l.map fun s => s.iter + steps cfg s.iter).filter fun it => decide (cfg.Madapt < it)).map (fun it => it - cfg.Madapt) ∧
      (ret.calls.map Prod.fst = ks ∨ (o.autoConverge = true ∧ ret.calls.map Prod.fst = ks.dropLast ∧ ks ≠ [])) ∧
      ∀ q ∈ ret.calls, Holds o q.2 (fun ch => l.flatMap (drawsOf cfg adv ch)) 0 q.1 := by
  obtain ⟨l, st', hr, e, hd⟩ := run_runs o cfg adv ess rhat fuel st [] ret h
  refine ⟨l, st', hr, _, rfl, ?_, ?_⟩
  · have hk : ((post cfg adv l).map (callOf o cfg)).map Prod.fst
        = ((l.map fun s => s.iter + steps cfg s.iter).filter fun it => decide (cfg.Madapt < it)).map (fun it => it - cfg.Madapt) := by
      unfold post
      simp only [List.filter_map, List.map_map]
      rfl
    rcases hd with ⟨a, b, d⟩ | ⟨a, b, d, f, g, i⟩
    · left
      rw [d, List.nil_append, hk]
    · right
      refine ⟨(stop_true o ess rhat _ _ b).2.2.1, ?_, ?_⟩
      · rw [i, List.nil_append, ← hk, ← List.map_dropLast, ← List.map_dropLast]
      · rw [← hk]
        intro hnil
        exact g (List.map_eq_nil_iff.1 (List.map_eq_nil_iff.1 hnil))
  · intro q hq
    have hq' : q ∈ (post cfg adv l).map (callOf o cfg) := by
      rcases hd with ⟨a, b, d⟩ | ⟨a, b, d, f, g, i⟩
      · rwa [d, List.nil_append] at hq
      · rw [i, List.nil_append] at hq
        obtain ⟨s, hs, rfl⟩ := List.mem_map.1 hq
        exact List.mem_map.2 ⟨s, List.mem_of_mem_dropLast hs, rfl⟩
    obtain ⟨s, hs, rfl⟩ := List.mem_map.1 hq'
    obtain ⟨hs1, -⟩ := List.mem_filter.1 hs
    obtain ⟨t, ht, rfl⟩ := List.mem_map.1 hs1
    obtain ⟨hi, hkeep⟩ := runs_keep hn hadv hr (by omega) t ht
    have hst' := fun ch => runs_stored cfg hn adv hadv st l st' hr ch (by omega)
    have hlen : ∀ ch, (l.flatMap (drawsOf cfg adv ch)).length = st'.iter - cfg.Madapt := by
      intro ch
      rw [(hst' ch).2.1, h0]; omega
    have := pack_holds o hst (body cfg adv t).samples (fun ch => l.flatMap (drawsOf cfg adv ch)) 0 ((body cfg adv t).iter - cfg.Madapt)
      (Nat.zero_le _) (fun ch => by rw [hlen ch]; omega) (fun ch i hi hib => by
        rw [← hkeep ch i hib]
        have := (hst' ch).2.2.2.1 i hi
        rw [h0, Nat.zero_sub, Nat.zero_add] at this
        exact this)
    exact this

/-! A run that stops after its first block of 40 draws: coefficients are zero, log densities are zero in the first half and one in
the second half; the diagnostic asks for a first draw that is zero. -/

noncomputable def exOpt : Opt := ⟨1, 0, 0, 0, false, true, true, 0, 10, 102 / 100, none, []⟩

def exCfg : Cfg := ⟨40, 0, 40, 8, 8, 10⟩

def exDraws (k : ℕ) : List Draw := (List.range k).map fun i : ℕ => (if i < 20 then 0 else 1, fun _ => 0)

def exAdv : Adv Draw 1 := fun _ _ _ k _ v => (v, exDraws k)

noncomputable def exEss : Chk.Diag := by
  classical
  exact fun c d x => if ∃ (r : Fin c) (t : Fin d), (r : ℕ) = 0 ∧ (t : ℕ) = 0 ∧ x r t = 0 then 100 else 0

def exRhat : Chk.Diag := fun _ _ _ => 1

def exSt : St Draw 1 := ⟨0, fun _ => ⟨(0, fun _ => 0), 1, 1, 0⟩, fun _ _ => (0, fun _ => 0)⟩

theorem exAdv_exact : Exact exAdv := by
  intro ch it M k j v
  simp [exAdv, exDraws]

theorem ex_samples (ch : Fin 1) (i : ℕ) (hi : i < 40) :
    (body exCfg exAdv exSt).samples ch i = (if i < 20 then 0 else 1, fun _ => 0) := by
  show write _ 0 (exDraws 40) i = _
  have h : i < (exDraws 40).length := by simpa [exDraws] using hi
  have := write_get (exSt.samples ch) 0 (exDraws 40) i h
  rw [Nat.zero_add] at this
  rw [this]
  simp [exDraws]

theorem exEss_val (S : Chk.Samples) (j : ℕ) (hc : 0 < S.chains) (hN : 2 ≤ S.N) :
    (S.val 0 0 j = 0 → exEss (2 * S.chains) (S.N / 2) (Chk.halves S j) = 100) ∧
    (S.val 0 0 j ≠ 0 → exEss (2 * S.chains) (S.N / 2) (Chk.halves S j) = 0) := by
  have h0 : Chk.halves S j ⟨0, by omega⟩ ⟨0, by omega⟩ = S.val 0 0 j := by
    simp [Chk.halves]
  unfold exEss
  constructor
  · intro h
    exact if_pos ⟨⟨0, by omega⟩, ⟨0, by omega⟩, rfl, rfl, h0.trans h⟩
  · intro h
    refine if_neg ?_
    rintro ⟨⟨r, hr⟩, ⟨t, ht⟩, e1, e2, e3⟩
    dsimp only at e1 e2
    subst e1 e2
    exact h (h0.symm.trans e3)

theorem ex_stop : stop exOpt exEss exRhat (body exCfg exAdv exSt).samples 40 = some true := by
  have hs := ex_samples
  generalize (body exCfg exAdv exSt).samples = s at hs
  unfold stop
  rw [if_pos (show 2 * 1 < 40 / 4 ∧ exOpt.hasArviz = true from ⟨by norm_num, rfl⟩), report_zero exOpt rfl, report_zero exOpt rfl]
  refine congrArg some (decide_eq_true ⟨?_, ?_, rfl⟩)
  · have hc := (exEss_val (slice 1 1 20 40 (coefArr s)) 0 (by norm_num [slice]) (by norm_num [slice])).1
      ((slice_val 1 20 40 (coefArr s) (0 : Fin 1) 0 0).trans (by rw [coefArr, hs _ _ (by norm_num)]))
    have hl := (exEss_val (slice 1 1 0 40 (lpArr s)) 0 (by norm_num [slice]) (by norm_num [slice])).1
      ((slice_val 1 0 40 (lpArr s) (0 : Fin 1) 0 0).trans (by rw [lpArr, hs _ _ (by norm_num)]; simp))
    intro x hx
    have : x = 100 := by
      rcases List.mem_append.1 hx with hx | hx
      · have hx : x ∈ [exEss (2 * (slice 1 1 20 40 (coefArr s)).chains) ((slice 1 1 20 40 (coefArr s)).N / 2)
            (Chk.halves (slice 1 1 20 40 (coefArr s)) 0)] := hx
        rw [List.mem_singleton.1 hx, hc]
      · have hx : x ∈ [exEss (2 * (slice 1 1 0 40 (lpArr s)).chains) ((slice 1 1 0 40 (lpArr s)).N / 2)
            (Chk.halves (slice 1 1 0 40 (lpArr s)) 0)] := hx
        rw [List.mem_singleton.1 hx, hl]
    rw [this]
    show (10 : ℝ) * (1 : ℕ) < 100
    norm_num
  · intro x hx
    have : x = 1 := by
      rcases List.mem_append.1 hx with hx | hx
      · have hx : x ∈ [(1 : ℝ)] := hx
        exact List.mem_singleton.1 hx
      · have hx : x ∈ [(1 : ℝ)] := hx
        exact List.mem_singleton.1 hx
    rw [this]
    show (1 : ℝ) < 102 / 100
    norm_num

theorem ex_run : run exOpt exCfg exAdv exEss exRhat 42 exSt [] = some ⟨pack exOpt (body exCfg exAdv exSt).samples 20 40, [], 40⟩ := by
  unfold run
  rw [if_pos (show exSt.iter < exCfg.nIter + exCfg.Madapt by decide)]
  have hi : (body exCfg exAdv exSt).iter = 40 := rfl
  dsimp only
  rw [hi, if_pos (show exCfg.Madapt < 40 by decide), show 40 - exCfg.Madapt = 40 from rfl, ex_stop]
  exact if_pos ⟨rfl, by decide⟩

/-- **C111 is violated for the log density.** The sampler stops although the effective sample size of the returned log densities is not
above the bound. -/
theorem lps_wrong : ∃ (o : Opt) (cfg : Cfg) (adv : Adv Draw 1) (ess rhat : Chk.Diag) (st : St Draw 1) (ret : Ret),
    Exact adv ∧ st.iter = 0 ∧ run o cfg adv ess rhat (cfg.nIter + cfg.Madapt + 2) st [] = some ret ∧ ret.res.lps.N < cfg.nIter ∧
      ¬ Each ess ret.res.lps (o.minEss * (1 : ℕ) < ·) := by
  refine ⟨exOpt, exCfg, exAdv, exEss, exRhat, exSt, _, exAdv_exact, rfl, ex_run, by decide, fun h => ?_⟩
  have h1 := h 0 (by decide)
  have hl := (exEss_val (slice 1 1 20 40 (lpArr (body exCfg exAdv exSt).samples)) 0 (by norm_num [slice]) (by norm_num [slice])).2
    (by
      rw [show (slice 1 1 20 40 (lpArr (body exCfg exAdv exSt).samples)).val 0 0 0 = 1 from
        (slice_val 1 20 40 (lpArr (body exCfg exAdv exSt).samples) (0 : Fin 1) 0 0).trans (by rw [lpArr, ex_samples _ _ (by norm_num)]; simp)]
      exact one_ne_zero)
  have h2 : (10 : ℝ) * (1 : ℕ) < exEss _ _ _ := h1
  rw [show (pack exOpt (body exCfg exAdv exSt).samples 20 40).lps = slice 1 1 20 40 (lpArr (body exCfg exAdv exSt).samples) from rfl, hl] at h2
  norm_num at h2

/-- **The callback is not called for the last block of a run that stops early**: here 40 draws are made and there is no call. -/
theorem callback_wrong : ∃ (o : Opt) (cfg : Cfg) (adv : Adv Draw 1) (ess rhat : Chk.Diag) (st : St Draw 1) (ret : Ret),
    Exact adv ∧ st.iter = 0 ∧ run o cfg adv ess rhat (cfg.nIter + cfg.Madapt + 2) st [] = some ret ∧ 0 < ret.res.coefs.N ∧ ret.calls = [] :=
  ⟨exOpt, exCfg, exAdv, exEss, exRhat, exSt, _, exAdv_exact, rfl, ex_run, by decide, rfl⟩

/-- The hypotheses of the theorems above can be met, with a run that stops early. -/
example : (exOpt.nScale = 0 ∨ exOpt.nTheta = 0) ∧ exOpt.convType = 0 ∧ 0 < exCfg.nSteps ∧ Exact exAdv ∧
    ∃ ret, run exOpt exCfg exAdv exEss exRhat 42 exSt [] = some ret ∧ ret.res.coefs.N < exCfg.nIter :=
  ⟨.inl rfl, rfl, by decide, exAdv_exact, _, ex_run, by decide⟩

/-- And with one that does not: `auto_converge=False`. -/
example : ∃ ret, run { exOpt with autoConverge := false } exCfg exAdv exEss exRhat 42 exSt [] = some ret ∧ ret.res.coefs.N = exCfg.nIter := by
  obtain ⟨ret, h⟩ := run_total { exOpt with autoConverge := false } rfl exCfg (by decide) exAdv exEss exRhat exSt
  refine ⟨ret, h, ?_⟩
  rcases criteria_partial { exOpt with autoConverge := false } rfl exCfg exAdv exEss exRhat _ exSt ret h with h | h
  · exact h
  · exact absurd h.1 (by decide)

end Verif.Stop
