import Verif.RootLemmas

/-!
# Square of the root of the total penalty (lemmas for property C109)
-/

namespace Verif.Root

open Verif.Pen Finset

/-! ### What is needed of penalties -/

/-- The matrix `A` of dimension `k` at rows and columns `o, …, o + k - 1`. -/
def place (o k : ℕ) (A : Arr) : Arr := fun i j => if (o ≤ i ∧ i < o + k) ∧ (o ≤ j ∧ j < o + k) then A (i - o) (j - o) else 0

/-- A penalty of a model with `n` coefficients: the embedded matrix repeats the matrix of the term, the embedded root is zero outside the repeats and squares to the embedded matrix. -/
structure Emb (n : ℕ) (p : LTerm) : Prop where
  fits : p.start + p.k * p.rep ≤ n
  lam : 0 ≤ p.lam
  S : ∀ i j, p.Semb i j = ∑ t ∈ range p.rep, place (p.start + t * p.k) p.k p.SJ i j
  out : ∀ i j, (i < p.start ∨ p.start + p.k * p.rep ≤ i) ∨ (j < p.start ∨ p.start + p.k * p.rep ≤ j) → p.Demb i j = 0
  root : ∀ i j, ∑ l ∈ range n, p.Demb i l * p.Demb j l = p.Semb i j

/-- Specification of `scp.linalg.eigh`: the matrix is `U diag(e) U'`, `U` has orthonormal columns and rows. -/
structure EighOf (k : ℕ) (A : Arr) (eU : (ℕ → ℝ) × Arr) : Prop where
  fact : ∀ a < k, ∀ b < k, ∑ j ∈ range k, eU.2 a j * eU.1 j * eU.2 b j = A a b
  rows : ∀ a < k, ∀ b < k, ∑ j ∈ range k, eU.2 a j * eU.2 b j = if a = b then 1 else 0
  cols : ∀ a < k, ∀ b < k, ∑ j ∈ range k, eU.2 j a * eU.2 j b = if a = b then 1 else 0

open Classical in
/-- The matrix without the eigenvalues up to the tolerance. -/
noncomputable def trunc (k : ℕ) (eU : (ℕ → ℝ) × Arr) : Arr := fun a b => ∑ j ∈ range k, eU.2 a j * (if eU.1 j > rootTol then eU.1 j else 0) * eU.2 b j

/-! ### Sums over blocks -/

theorem sum_list {α : Type} (l : List α) (F : ℕ → ℝ) (g : α → ℝ) (h : ∀ t b, l[t]? = some b → F t = g b) :
    ∑ t ∈ range l.length, F t = (l.map g).sum := by
  rw [Finset.sum_range, ← List.sum_ofFn]
  congr 1
  refine List.ext_getElem (by simp) fun t h1 h2 => ?_
  have ht : t < l.length := by simpa using h2
  simp only [List.getElem_ofFn, List.getElem_map]
  exact h t _ (List.getElem?_eq_getElem ht)

theorem gram_list {α : Type} (n : ℕ) (l : List α) (G : α → Arr) (h : l.Pairwise fun b b' => ∀ i j c, G b i c * G b' j c = 0) (i j : ℕ) :
    ∑ c ∈ range n, (l.map fun b => G b i c).sum * (l.map fun b => G b j c).sum = (l.map fun b => ∑ c ∈ range n, G b i c * G b j c).sum := by
  induction l with
  | nil => simp
  | cons b l ih =>
    rw [List.pairwise_cons] at h
    simp only [List.map_cons, List.sum_cons]
    rw [← ih h.2, ← Finset.sum_add_distrib]
    refine Finset.sum_congr rfl fun c _ => ?_
    have z1 : ∀ (i j : ℕ), G b i c * (l.map fun b => G b j c).sum = 0 := by
      intro i j
      rw [← List.sum_map_mul_left]
      refine List.sum_eq_zero fun x hx => ?_
      obtain ⟨b', hb', rfl⟩ := List.mem_map.1 hx
      exact h.1 b' hb' i j c
    have e1 := z1 i j
    have e2 := z1 j i
    linear_combination e1 + e2

/-- Block-wise part of the root. -/
noncomputable def part (eigh : Blk → (ℕ → ℝ) × Arr) (b : RBlk) : Arr := fun i j =>
  blockAt (fun b => dRoot b.k (eigh b)) b.blk b.blk.start i j + if b.blk.terms = 1 then (b.dj.elim 0 fun D => D i j) else 0

theorem totalRoot_parts (eigh : Blk → (ℕ → ℝ) × Arr) (bs : List RBlk) (hc : Contiguous (bs.map (·.blk))) (i j : ℕ) :
    totalRoot eigh bs i j = (bs.map fun b => part eigh b i j).sum := by
  rw [totalRoot_eq, totalPinv_eq, sum_list (bs.map (·.blk)) _ (fun b => blockAt (fun b => dRoot b.k (eigh b)) b b.start i j)]
  · rw [List.map_map, ← List.sum_map_add]
    rfl
  · intro t b hb
    simp only [hb]
    rw [contiguous_runPos _ hc t b hb]

theorem contiguous_pairwise (bs : List Blk) (hc : Contiguous bs) : bs.Pairwise fun b b' => b.start + b.k * b.rep ≤ b'.start := by
  rw [List.pairwise_iff_getElem]
  intro t u ht hu htu
  have h1 : bs[t]? = some bs[t] := List.getElem?_eq_getElem ht
  have h2 : bs[u]? = some bs[u] := List.getElem?_eq_getElem hu
  have := runPos_mono bs (bs.head?.elim 0 (·.start)) bs[t] h1 htu
  rw [contiguous_runPos bs hc t _ h1, contiguous_runPos bs hc u _ h2] at this
  exact this

/-- Facts about one block. -/
theorem block_facts (n : ℕ) (ps : List LTerm) (he : ∀ p ∈ ps, Emb n p) (bs : List RBlk) (h : collectR ps = some bs) (b : RBlk) (hb : b ∈ bs) :
    b.blk.start + b.blk.k * b.blk.rep ≤ n ∧ (∃ p ∈ ps, p.start = b.blk.start ∧ p.k = b.blk.k ∧ p.rep = b.blk.rep) ∧
    (∀ i j, b.blk.S i j = ((ps.filter fun p => p.start = b.blk.start).map fun p => p.lam * p.SJ i j).sum) ∧
    (∀ p ∈ ps, p.start = b.blk.start → p.rep = b.blk.rep) ∧
    (b.blk.terms = 1 → ∃ p, (ps.filter fun p => p.start = b.blk.start) = [p] ∧ p ∈ ps ∧ p.start = b.blk.start ∧ p.k = b.blk.k ∧ p.rep = b.blk.rep ∧
      b.dj = some fun i j => p.Demb i j * Real.sqrt p.lam) := by
  have hcol := collectR_blk ps bs h
  unfold collectR at h
  obtain ⟨⟨cs, m⟩, h1, h2⟩ := Option.map_eq_some_iff.1 h
  simp only at h2
  subst h2
  obtain ⟨⟨p, hp, hps, hpk, hpr⟩, -, hdj⟩ := collectR_dj ps cs m h1 b hb
  have hinv : Collected ps (cs.map (·.blk)) m := by
    refine collect_inv ps _ m ?_
    have e := fold_blk ps (some ([], 0))
    rw [h1] at e
    exact e.symm
  have hs := hinv.sums b.blk (List.mem_map_of_mem hb)
  refine ⟨?_, ⟨p, hp, hps, hpk, hpr⟩, hs.1, hs.2.2, fun ht => ?_⟩
  · rw [← hps, ← hpk, ← hpr]
    exact (he p hp).fits
  · obtain ⟨q, hq, hqs, hqd⟩ := hdj ht
    have hl := hs.2.1
    rw [ht] at hl
    obtain ⟨x, hx⟩ := List.length_eq_one_iff.1 hl.symm
    have hp' : p ∈ ps.filter fun p => decide (p.start = b.blk.start) := List.mem_filter.2 ⟨hp, by simpa using hps⟩
    have hq' : q ∈ ps.filter fun p => decide (p.start = b.blk.start) := List.mem_filter.2 ⟨hq, by simpa using hqs⟩
    rw [hx, List.mem_singleton] at hp' hq'
    rw [hq', ← hp'] at hqd
    exact ⟨p, by rw [hx, hp'], hp, hps, hpk, hpr, hqd⟩

theorem part_out (n : ℕ) (ps : List LTerm) (he : ∀ p ∈ ps, Emb n p) (bs : List RBlk) (h : collectR ps = some bs) (eigh : Blk → (ℕ → ℝ) × Arr)
    (b : RBlk) (hb : b ∈ bs) (i j : ℕ) (ho : (i < b.blk.start ∨ b.blk.start + b.blk.k * b.blk.rep ≤ i) ∨ (j < b.blk.start ∨ b.blk.start + b.blk.k * b.blk.rep ≤ j)) :
    part eigh b i j = 0 := by
  obtain ⟨-, -, -, -, h1⟩ := block_facts n ps he bs h b hb
  unfold part
  rw [blockAt_out _ _ _ (dRoot_range _ _) i j ho, zero_add]
  split_ifs with ht
  · obtain ⟨p, -, hp, hps, hpk, hpr, hd⟩ := h1 ht
    rw [hd]
    simp only [Option.elim_some]
    rw [(he p hp).out i j (by rw [hps, hpk, hpr]; exact ho), zero_mul]
  · rfl

theorem coo_place (k : ℕ) (T : Trip) (hT : InRange k T) (o i j : ℕ) : coo (shiftT o T) i j = place o k (coo T) i j := by
  unfold place
  split_ifs with h
  · obtain ⟨a, rfl⟩ := Nat.exists_eq_add_of_le h.1.1
    obtain ⟨c, rfl⟩ := Nat.exists_eq_add_of_le h.2.1
    rw [coo_shift_in, Nat.add_sub_cancel_left, Nat.add_sub_cancel_left]
  · exact coo_shift_out hT _ _ _ (by omega)

theorem place_out (o k : ℕ) (A : Arr) (i j : ℕ) (h : (i < o ∨ o + k ≤ i) ∨ (j < o ∨ o + k ≤ j)) : place o k A i j = 0 := by
  unfold place
  rw [if_neg (by omega)]

theorem place_in (o k : ℕ) (A : Arr) (a c : ℕ) (ha : a < k) (hc : c < k) : place o k A (o + a) (o + c) = A a c := by
  unfold place
  rw [if_pos (by omega), Nat.add_sub_cancel_left, Nat.add_sub_cancel_left]

/-- Squares of repeated blocks. -/
theorem gram_places {n k N cur : ℕ} (D T : Arr) (hn : cur + N * k ≤ n) (hroot : ∀ a < k, ∀ b < k, ∑ l ∈ range k, D a l * D b l = T a b) (i j : ℕ) :
    ∑ l ∈ range n, (∑ t ∈ range N, place (cur + t * k) k D i l) * (∑ t ∈ range N, place (cur + t * k) k D j l)
      = ∑ t ∈ range N, place (cur + t * k) k T i j := by
  simp only [Finset.sum_mul_sum]
  rw [Finset.sum_comm]
  refine Finset.sum_congr rfl fun t ht => ?_
  have htN : t + 1 ≤ N := mem_range.1 ht
  have hle : cur + t * k + k ≤ n := by
    have : (t + 1) * k ≤ N * k := Nat.mul_le_mul_right k htN
    have h2 : (t + 1) * k = t * k + k := by ring
    omega
  have e : ∀ l ∈ range n, ∑ s ∈ range N, place (cur + t * k) k D i l * place (cur + s * k) k D j l
      = place (cur + t * k) k D i l * place (cur + t * k) k D j l := by
    intro l _
    rw [Finset.sum_eq_single t]
    · intro s _ hs
      by_cases hl : cur + t * k ≤ l ∧ l < cur + t * k + k
      · rw [place_out (cur + s * k) k D j l (Or.inr ?_), mul_zero]
        rcases Nat.lt_or_gt_of_ne hs with h | h
        · right
          have : (s + 1) * k ≤ t * k := Nat.mul_le_mul_right k h
          have h2 : (s + 1) * k = s * k + k := by ring
          omega
        · left
          have : (t + 1) * k ≤ s * k := Nat.mul_le_mul_right k h
          have h2 : (t + 1) * k = t * k + k := by ring
          omega
      · rw [place_out (cur + t * k) k D i l (Or.inr (by omega)), zero_mul]
    · intro h; exact absurd ht h
  rw [Finset.sum_congr rfl e, sum_block n (cur + t * k) k hle]
  · by_cases hi : cur + t * k ≤ i ∧ i < cur + t * k + k
    · by_cases hj : cur + t * k ≤ j ∧ j < cur + t * k + k
      · obtain ⟨a, rfl⟩ := Nat.exists_eq_add_of_le hi.1
        obtain ⟨b, rfl⟩ := Nat.exists_eq_add_of_le hj.1
        rw [place_in _ _ _ _ _ (by omega) (by omega), ← hroot a (by omega) b (by omega)]
        exact Finset.sum_congr rfl fun l hl => by
          rw [place_in _ _ _ _ _ (by omega) (mem_range.1 hl), place_in _ _ _ _ _ (by omega) (mem_range.1 hl)]
      · rw [place_out _ _ T _ _ (Or.inr (by omega))]
        refine Finset.sum_eq_zero fun l _ => ?_
        rw [place_out _ _ _ j _ (Or.inl (by omega)), mul_zero]
    · rw [place_out _ _ T _ _ (Or.inl (by omega))]
      refine Finset.sum_eq_zero fun l _ => ?_
      rw [place_out _ _ _ i _ (Or.inl (by omega)), zero_mul]
  · intro l _ hl
    rw [place_out _ _ _ i l (Or.inr hl), zero_mul]

open Classical in
theorem gram_dRoot (k : ℕ) (eU : (ℕ → ℝ) × Arr) (htol : 0 ≤ rootTol) (a b : ℕ) (ha : a < k) (hb : b < k) :
    ∑ l ∈ range k, coo (dRoot k eU) a l * coo (dRoot k eU) b l = trunc k eU a b := by
  unfold trunc
  refine Finset.sum_congr rfl fun l hl => ?_
  rw [coo_dRoot k eU a l ha (mem_range.1 hl), coo_dRoot k eU b l hb (mem_range.1 hl)]
  split_ifs with h
  · have := Real.mul_self_sqrt (show 0 ≤ eU.1 l by linarith)
    linear_combination eU.2 a l * eU.2 b l * this
  · ring

theorem rootTol_pos : 0 < rootTol := Real.rpow_pos_of_pos (by positivity) _

/-- Square of the part of one block. -/
theorem part_gram (n : ℕ) (ps : List LTerm) (he : ∀ p ∈ ps, Emb n p) (bs : List RBlk) (h : collectR ps = some bs) (eigh : Blk → (ℕ → ℝ) × Arr)
    (b : RBlk) (hb : b ∈ bs) (i j : ℕ) :
    ∑ c ∈ range n, part eigh b i c * part eigh b j c
      = if b.blk.terms = 1 then ((ps.filter fun p => p.start = b.blk.start).map fun p => p.lam * p.Semb i j).sum
        else ∑ r ∈ range b.blk.rep, place (b.blk.start + r * b.blk.k) b.blk.k (trunc b.blk.k (eigh b.blk)) i j := by
  obtain ⟨hn, -, -, -, h1⟩ := block_facts n ps he bs h b hb
  by_cases ht : b.blk.terms = 1
  · rw [if_pos ht]
    obtain ⟨p, hf, hp, -, -, -, hd⟩ := h1 ht
    rw [hf]
    simp only [List.map_cons, List.map_nil, List.sum_cons, List.sum_nil, add_zero]
    rw [← (he p hp).root i j, Finset.mul_sum]
    refine Finset.sum_congr rfl fun c _ => ?_
    unfold part blockAt
    rw [if_pos ht, if_pos ht, if_pos ht, if_pos ht, hd]
    simp only [Option.elim_some, zero_add]
    have := Real.mul_self_sqrt (he p hp).lam
    linear_combination p.Demb i c * p.Demb j c * this
  · rw [if_neg ht]
    rw [← gram_places (n := n) (N := b.blk.rep) (cur := b.blk.start) (coo (dRoot b.blk.k (eigh b.blk))) _ (by rw [mul_comm b.blk.rep]; exact hn)
      (fun a ha c hc => gram_dRoot _ _ rootTol_pos.le a c ha hc) i j]
    refine Finset.sum_congr rfl fun c _ => ?_
    unfold part blockAt
    rw [if_neg ht, if_neg ht, if_neg ht, if_neg ht, add_zero, add_zero]
    rw [Finset.sum_congr rfl fun t _ => coo_place b.blk.k _ (dRoot_range _ _) (b.blk.start + t * b.blk.k) i c,
      Finset.sum_congr rfl fun t _ => coo_place b.blk.k _ (dRoot_range _ _) (b.blk.start + t * b.blk.k) j c]

/-- Square of the root, block by block. -/
theorem root_gram (n : ℕ) (ps : List LTerm) (he : ∀ p ∈ ps, Emb n p) (bs : List RBlk) (h : collectR ps = some bs) (hc : Contiguous (bs.map (·.blk)))
    (eigh : Blk → (ℕ → ℝ) × Arr) (i j : ℕ) :
    ∑ c ∈ range n, totalRoot eigh bs i c * totalRoot eigh bs j c
      = (bs.map fun b => if b.blk.terms = 1 then ((ps.filter fun p => p.start = b.blk.start).map fun p => p.lam * p.Semb i j).sum
        else ∑ r ∈ range b.blk.rep, place (b.blk.start + r * b.blk.k) b.blk.k (trunc b.blk.k (eigh b.blk)) i j).sum := by
  rw [Finset.sum_congr rfl fun c _ => by rw [totalRoot_parts eigh bs hc, totalRoot_parts eigh bs hc], gram_list n bs (part eigh)]
  · congr 1
    exact List.map_congr_left fun b hb => part_gram n ps he bs h eigh b hb i j
  · have hp := contiguous_pairwise _ hc
    rw [List.pairwise_map] at hp
    refine hp.imp_of_mem ?_
    intro b b' hb hb' hle i j c
    by_cases hcol : b.blk.start ≤ c ∧ c < b.blk.start + b.blk.k * b.blk.rep
    · rw [part_out n ps he bs h eigh b' hb' j c (by omega), mul_zero]
    · rw [part_out n ps he bs h eigh b hb i c (by omega), zero_mul]

theorem sum_one (x : ℕ) (v : ℝ) (bs : List Blk) (hinc : (bs.map (·.start)).Pairwise (· < ·)) (h : ∃ b ∈ bs, b.start = x) :
    (bs.map fun b => if b.start = x then v else 0).sum = v := by
  obtain ⟨b0, hb0, hs0⟩ := h
  induction bs with
  | nil => simp at hb0
  | cons b bs ihb =>
    rw [List.map_cons, List.pairwise_cons] at hinc
    rw [List.map_cons, List.sum_cons]
    by_cases hb : b.start = x
    · rw [if_pos hb]
      have z : (bs.map fun b : Blk => if b.start = x then v else 0).sum = 0 := by
        refine List.sum_eq_zero fun y hy => ?_
        obtain ⟨b', hb', rfl⟩ := List.mem_map.1 hy
        have := hinc.1 b'.start (List.mem_map_of_mem hb')
        rw [if_neg (by omega)]
      rw [z, add_zero]
    · rw [if_neg hb, zero_add]
      rcases List.mem_cons.1 hb0 with rfl | hb0
      · exact absurd hs0 hb
      · exact ihb hinc.2 hb0

/-- The total penalty, block by block. -/
theorem total_blocks (ps : List LTerm) (f : LTerm → ℝ) (bs : List Blk) (hinc : (bs.map (·.start)).Pairwise (· < ·)) (hcov : ∀ p ∈ ps, ∃ b ∈ bs, b.start = p.start) :
    (ps.map f).sum = (bs.map fun b => ((ps.filter fun p => p.start = b.start).map f).sum).sum := by
  induction ps with
  | nil => simp
  | cons p ps ih =>
    rw [List.map_cons, List.sum_cons, ih fun q hq => hcov q (List.mem_cons_of_mem _ hq)]
    have e : ∀ b : Blk, (((p :: ps).filter fun q => decide (q.start = b.start)).map f).sum
        = (if b.start = p.start then f p else 0) + ((ps.filter fun q => decide (q.start = b.start)).map f).sum := by
      intro b
      by_cases hb : p.start = b.start
      · rw [List.filter_cons_of_pos (by simpa using hb), if_pos hb.symm, List.map_cons, List.sum_cons]
      · rw [List.filter_cons_of_neg (by simpa using hb), if_neg (fun h => hb h.symm), zero_add]
    rw [List.map_congr_left fun b _ => e b, List.sum_map_add, sum_one _ _ bs hinc (hcov p List.mem_cons_self)]

/-! ### The root squares to the penalty -/

theorem sum_place (l : List LTerm) (o k : ℕ) (f : LTerm → ℝ) (i j : ℕ) :
    (l.map fun p => f p * place o k p.SJ i j).sum = place o k (fun a c => (l.map fun p => f p * p.SJ a c).sum) i j := by
  unfold place
  split_ifs with h
  · rfl
  · exact List.sum_eq_zero fun x hx => by
      obtain ⟨p, _, rfl⟩ := List.mem_map.1 hx
      rw [mul_zero]

theorem place_congr (o k : ℕ) (A B : Arr) (h : ∀ a < k, ∀ c < k, A a c = B a c) (i j : ℕ) : place o k A i j = place o k B i j := by
  unfold place
  split_ifs with h1
  · exact h _ (by omega) _ (by omega)
  · rfl

/-- The penalties of a block, embedded. -/
theorem block_total (n : ℕ) (ps : List LTerm) (he : ∀ p ∈ ps, Emb n p) (hk : ∀ p ∈ ps, ∀ q ∈ ps, p.start = q.start → p.k = q.k) (bs : List RBlk)
    (h : collectR ps = some bs) (b : RBlk) (hb : b ∈ bs) (i j : ℕ) :
    ((ps.filter fun p => p.start = b.blk.start).map fun p => p.lam * p.Semb i j).sum
      = ∑ r ∈ range b.blk.rep, place (b.blk.start + r * b.blk.k) b.blk.k b.blk.S i j := by
  obtain ⟨-, ⟨q, hq, hqs, hqk, hqr⟩, hS, hrep, -⟩ := block_facts n ps he bs h b hb
  have e : ∀ p ∈ ps.filter (fun p => decide (p.start = b.blk.start)), p.lam * p.Semb i j
      = ∑ r ∈ range b.blk.rep, p.lam * place (b.blk.start + r * b.blk.k) b.blk.k p.SJ i j := by
    intro p hp
    obtain ⟨hp, hps⟩ := List.mem_filter.1 hp
    have hps : p.start = b.blk.start := of_decide_eq_true hps
    rw [(he p hp).S i j, Finset.mul_sum, hrep p hp hps, hps, hk p hp q hq (hps.trans hqs.symm), hqk]
  rw [List.map_congr_left e]
  have e2 : ∀ r ∈ range b.blk.rep, place (b.blk.start + r * b.blk.k) b.blk.k b.blk.S i j
      = ((ps.filter fun p => decide (p.start = b.blk.start)).map fun p => p.lam * place (b.blk.start + r * b.blk.k) b.blk.k p.SJ i j).sum := by
    intro r _
    rw [sum_place]
    exact place_congr _ _ _ _ (fun a _ c _ => hS a c) i j
  rw [Finset.sum_congr rfl e2]
  generalize ps.filter (fun p => decide (p.start = b.blk.start)) = l
  clear e e2
  induction l with
  | nil => simp
  | cons p l ih => simp only [List.map_cons, List.sum_cons, Finset.sum_add_distrib, ih]

/-- The total penalty minus the square of the root: what the blocks with several penalties lose. -/
theorem root_loss (n : ℕ) (ps : List LTerm) (he : ∀ p ∈ ps, Emb n p) (hk : ∀ p ∈ ps, ∀ q ∈ ps, p.start = q.start → p.k = q.k) (bs : List RBlk)
    (h : collectR ps = some bs) (hc : Contiguous (bs.map (·.blk))) (eigh : Blk → (ℕ → ℝ) × Arr) (i j : ℕ) :
    totalS ps i j - ∑ c ∈ range n, totalRoot eigh bs i c * totalRoot eigh bs j c
      = (bs.map fun b => if b.blk.terms = 1 then 0 else
          ∑ r ∈ range b.blk.rep, place (b.blk.start + r * b.blk.k) b.blk.k (fun a c => b.blk.S a c - trunc b.blk.k (eigh b.blk) a c) i j).sum := by
  obtain ⟨h1, h2, -⟩ := collect_blocks ps _ (collectR_blk ps bs h)
  rw [root_gram n ps he bs h hc, totalS_eq, total_blocks ps _ _ h1 (fun p hp => (h2 p.start).2 ⟨p, hp, rfl⟩), List.map_map, sub_eq_iff_eq_add,
    ← List.sum_map_add]
  congr 1
  refine List.map_congr_left fun b hb => ?_
  simp only [Function.comp_apply]
  by_cases ht : b.blk.terms = 1
  · rw [if_pos ht, if_pos ht, zero_add]
  · rw [if_neg ht, if_neg ht, block_total n ps he hk bs h b hb, ← Finset.sum_add_distrib]
    refine Finset.sum_congr rfl fun r _ => ?_
    unfold place
    split_ifs <;> ring

/-! ### How much is lost -/

theorem quad_place (n k o : ℕ) (A : Arr) (h : o + k ≤ n) (β : ℕ → ℝ) :
    ∑ i ∈ range n, ∑ j ∈ range n, β i * place o k A i j * β j = ∑ a ∈ range k, ∑ c ∈ range k, β (o + a) * A a c * β (o + c) := by
  rw [sum_block n o k h]
  · refine Finset.sum_congr rfl fun a ha => ?_
    rw [sum_block n o k h]
    · refine Finset.sum_congr rfl fun c hc => ?_
      rw [place_in o k A a c (mem_range.1 ha) (mem_range.1 hc)]
    · intro j _ hj
      rw [place_out o k A _ j (Or.inr hj)]
      ring
  · intro i _ hi
    refine Finset.sum_eq_zero fun j _ => ?_
    rw [place_out o k A i j (Or.inl hi)]
    ring

theorem quad_spec (k : ℕ) (U : Arr) (w : ℕ → ℝ) (v : ℕ → ℝ) :
    ∑ a ∈ range k, ∑ c ∈ range k, v a * (∑ j ∈ range k, U a j * w j * U c j) * v c = ∑ j ∈ range k, w j * (∑ a ∈ range k, U a j * v a) ^ 2 := by
  have e : ∀ j, w j * (∑ a ∈ range k, U a j * v a) ^ 2 = ∑ a ∈ range k, ∑ c ∈ range k, v a * (U a j * w j * U c j) * v c := by
    intro j
    rw [sq, Finset.sum_mul_sum, Finset.mul_sum]
    refine Finset.sum_congr rfl fun a _ => ?_
    rw [Finset.mul_sum]
    exact Finset.sum_congr rfl fun c _ => by ring
  rw [Finset.sum_congr rfl fun j _ => e j]
  refine Eq.trans ?_ Finset.sum_comm
  refine Finset.sum_congr rfl fun a _ => ?_
  refine Eq.trans ?_ Finset.sum_comm
  refine Finset.sum_congr rfl fun c _ => ?_
  rw [Finset.mul_sum, Finset.sum_mul]

/-- What one block loses. -/
theorem block_loss (k : ℕ) (A : Arr) (eU : (ℕ → ℝ) × Arr) (hE : EighOf k A eU) (hpos : ∀ j < k, 0 ≤ eU.1 j) (v : ℕ → ℝ) :
    0 ≤ ∑ a ∈ range k, ∑ c ∈ range k, v a * (A a c - trunc k eU a c) * v c ∧
    ∑ a ∈ range k, ∑ c ∈ range k, v a * (A a c - trunc k eU a c) * v c ≤ rootTol * ∑ a ∈ range k, v a ^ 2 := by
  classical
  have e : ∑ a ∈ range k, ∑ c ∈ range k, v a * (A a c - trunc k eU a c) * v c
      = ∑ j ∈ range k, (if eU.1 j > rootTol then 0 else eU.1 j) * (∑ a ∈ range k, eU.2 a j * v a) ^ 2 := by
    rw [← quad_spec k eU.2]
    refine Finset.sum_congr rfl fun a ha => Finset.sum_congr rfl fun c hc => ?_
    congr 2
    rw [← hE.fact a (mem_range.1 ha) c (mem_range.1 hc), trunc, ← Finset.sum_sub_distrib]
    refine Finset.sum_congr rfl fun j _ => ?_
    by_cases h : eU.1 j > rootTol
    · rw [if_pos h, if_pos h]; ring
    · rw [if_neg h, if_neg h]; ring
  have n2 : ∑ a ∈ range k, v a ^ 2 = ∑ j ∈ range k, (∑ a ∈ range k, eU.2 a j * v a) ^ 2 := by
    have := quad_spec k eU.2 (fun _ => 1) v
    simp only [mul_one, one_mul] at this
    rw [← this]
    refine Finset.sum_congr rfl fun a ha => ?_
    have e2 : ∀ c ∈ range k, v a * (∑ j ∈ range k, eU.2 a j * eU.2 c j) * v c = if a = c then v a * v c else 0 := by
      intro c hc
      rw [hE.rows a (mem_range.1 ha) c (mem_range.1 hc)]
      split_ifs <;> ring
    rw [Finset.sum_congr rfl e2, Finset.sum_ite_eq, if_pos ha, sq]
  rw [e, n2, Finset.mul_sum]
  constructor
  · refine Finset.sum_nonneg fun j hj => mul_nonneg ?_ (sq_nonneg _)
    split_ifs
    · exact le_rfl
    · exact hpos j (mem_range.1 hj)
  · refine Finset.sum_le_sum fun j _ => mul_le_mul_of_nonneg_right ?_ (sq_nonneg _)
    split_ifs with h
    · exact rootTol_pos.le
    · exact not_lt.1 h

theorem sum_intervals {α : Type} (l : List α) (s e : α → ℕ) (hl : l.Pairwise fun b b' => e b ≤ s b') (n : ℕ) (hn : ∀ b ∈ l, s b ≤ e b ∧ e b ≤ n)
    (g : ℕ → ℝ) (hg : ∀ i, 0 ≤ g i) (m : ℕ) (hm : ∀ b ∈ l, m ≤ s b) : (l.map fun b => ∑ i ∈ Ico (s b) (e b), g i).sum ≤ ∑ i ∈ Ico m n, g i := by
  induction l generalizing m with
  | nil => simpa using Finset.sum_nonneg fun i _ => hg i
  | cons b l ih =>
    rw [List.pairwise_cons] at hl
    have h1 := ih hl.2 (fun b' hb' => hn b' (List.mem_cons_of_mem _ hb')) (e b) (fun b' hb' => hl.1 b' hb')
    have hb := hn b List.mem_cons_self
    have hmb := hm b List.mem_cons_self
    rw [List.map_cons, List.sum_cons]
    have h2 : ∑ i ∈ Ico m n, g i = ∑ i ∈ Ico m (s b), g i + (∑ i ∈ Ico (s b) (e b), g i + ∑ i ∈ Ico (e b) n, g i) := by
      rw [Finset.sum_Ico_consecutive _ hb.1 hb.2, Finset.sum_Ico_consecutive _ hmb (hb.1.trans hb.2)]
    have h3 : 0 ≤ ∑ i ∈ Ico m (s b), g i := Finset.sum_nonneg fun i _ => hg i
    linarith

theorem sum_repeats (g : ℕ → ℝ) (s k N : ℕ) : ∑ r ∈ range N, ∑ a ∈ range k, g (s + r * k + a) = ∑ i ∈ Ico s (s + k * N), g i := by
  induction N with
  | zero => simp
  | succ N ih =>
    rw [Finset.sum_range_succ, ih, ← Finset.sum_Ico_consecutive g (show s ≤ s + k * N by omega) (show s + k * N ≤ s + k * (N + 1) by
      rw [Nat.mul_succ]; omega)]
    congr 1
    rw [Finset.sum_Ico_eq_sum_range, show s + k * (N + 1) - (s + k * N) = k by rw [Nat.mul_succ]; omega]
    exact Finset.sum_congr rfl fun a _ => by rw [mul_comm N k]

/-! ### Where the hypotheses on penalties come from -/

/-- Penalties built for a term. -/
theorem emb_built (n : ℕ) (T Dl : Trip) (k rank levels cur : ℕ) (id : Option ℕ) (lam : ℝ) (hT : InRange k T) (hD : InRange k Dl) (hl : 0 < levels)
    (hlam : 0 ≤ lam) (hn : cur + levels * k ≤ n) (hroot : ∀ a < k, ∀ b < k, ∑ l ∈ range k, coo Dl a l * coo Dl b l = coo T a b) :
    Emb n (buildShared T Dl k rank levels cur id lam).1 where
  fits := by
    change cur + k * levels ≤ n
    rw [mul_comm]
    exact hn
  lam := hlam
  S := by
    intro i j
    rw [(buildShared_emb T Dl k rank levels cur id lam hl i j).1]
    change ∑ t ∈ range levels, _ = ∑ t ∈ range levels, place (cur + t * k) k (coo T) i j
    exact Finset.sum_congr rfl fun t _ => coo_place k T hT _ i j
  out := by
    intro i j h
    change (i < cur ∨ cur + k * levels ≤ i) ∨ (j < cur ∨ cur + k * levels ≤ j) at h
    rw [mul_comm k] at h
    rw [(buildShared_emb T Dl k rank levels cur id lam hl i j).2]
    refine Finset.sum_eq_zero fun t ht => ?_
    have h1 : (t + 1) * k ≤ levels * k := Nat.mul_le_mul_right k (mem_range.1 ht)
    have h2 : (t + 1) * k = t * k + k := by ring
    exact coo_shift_out hD _ _ _ (by omega)
  root := fun i j => embed_root T Dl k rank levels cur n id lam hT hD hl hn hroot i j

theorem emb_front (n m : ℕ) (p : LTerm) (h : Emb n p) :
    Emb (n + m) { p with Semb := padFront m p.Semb, Demb := padFront m p.Demb, start := p.start + m } where
  fits := by
    have := h.fits
    simp only
    omega
  lam := h.lam
  S := by
    intro i j
    simp only [padFront]
    by_cases hij : i < m ∨ j < m
    · rw [if_pos hij, Finset.sum_eq_zero]
      intro t _
      exact place_out _ _ _ _ _ (by omega)
    · rw [if_neg hij, h.S]
      refine Finset.sum_congr rfl fun t _ => ?_
      unfold place
      have e : ((p.start + t * p.k ≤ i - m ∧ i - m < p.start + t * p.k + p.k) ∧ (p.start + t * p.k ≤ j - m ∧ j - m < p.start + t * p.k + p.k))
          ↔ ((p.start + m + t * p.k ≤ i ∧ i < p.start + m + t * p.k + p.k) ∧ (p.start + m + t * p.k ≤ j ∧ j < p.start + m + t * p.k + p.k)) := by omega
      by_cases h1 : (p.start + t * p.k ≤ i - m ∧ i - m < p.start + t * p.k + p.k) ∧ (p.start + t * p.k ≤ j - m ∧ j - m < p.start + t * p.k + p.k)
      · rw [if_pos h1, if_pos (e.1 h1), show i - m - (p.start + t * p.k) = i - (p.start + m + t * p.k) by omega,
          show j - m - (p.start + t * p.k) = j - (p.start + m + t * p.k) by omega]
      · rw [if_neg h1, if_neg (fun h2 => h1 (e.2 h2))]
  out := by
    intro i j hij
    simp only at hij
    simp only [padFront]
    split_ifs with h1
    · rfl
    · exact h.out _ _ (by omega)
  root := by
    intro i j
    simp only
    rw [sum_block (n + m) m n (by omega)]
    · simp only [padFront]
      by_cases hij : i < m ∨ j < m
      · rw [if_pos hij]
        refine Finset.sum_eq_zero fun l _ => ?_
        rcases hij with hi | hj
        · rw [if_pos (Or.inl hi), zero_mul]
        · rw [if_pos (c := j < m ∨ m + l < m) (Or.inl hj), mul_zero]
      · rw [if_neg hij, ← h.root]
        refine Finset.sum_congr rfl fun l _ => ?_
        rw [if_neg (by omega), if_neg (by omega), Nat.add_sub_cancel_left]
    · intro l _ hl
      simp only [padFront]
      by_cases hlm : l < m
      · rw [if_pos (Or.inr hlm), zero_mul]
      · omega

theorem emb_back (n e : ℕ) (p : LTerm) (h : Emb n p) : Emb (n + e) { p with Semb := padBack n p.Semb, Demb := padBack n p.Demb } := by
  have hf := h.fits
  have hD : padBack n p.Demb = p.Demb := by
    funext i j
    unfold padBack
    split_ifs with h1
    · exact (h.out i j (by omega)).symm
    · rfl
  have hS : padBack n p.Semb = p.Semb := by
    funext i j
    unfold padBack
    split_ifs with h1
    · rw [← h.root i j]
      symm
      refine Finset.sum_eq_zero fun l _ => ?_
      rcases h1 with h1 | h1
      · rw [h.out i l (by omega), zero_mul]
      · rw [h.out j l (by omega), mul_zero]
    · rfl
  rw [hD, hS]
  refine ⟨by simp only; omega, h.lam, h.S, h.out, fun i j => ?_⟩
  simp only
  rw [← h.root i j, Finset.sum_range_add]
  rw [Finset.sum_eq_zero (s := range e), add_zero]
  intro l _
  rw [h.out i (n + l) (by omega), zero_mul]

/-- Penalties of one of several formulas. -/
theorem emb_formula (ns : List ℕ) (fi : ℕ) (extra : Option ℕ) (p : LTerm) (h : Emb (ns.getD fi 0) p) :
    Emb (embedFormula ns fi extra p).2 (embedFormula ns fi extra p).1 := by
  have key : ∀ t, Emb ((List.range t).foldl (fun st o => padStep fi st (o, ns.getD o 0)) (p, ns.getD fi 0)).2
      ((List.range t).foldl (fun st o => padStep fi st (o, ns.getD o 0)) (p, ns.getD fi 0)).1 := by
    intro t
    induction t with
    | zero => exact h
    | succ t ih =>
      rw [List.range_succ, List.foldl_append, List.foldl_cons, List.foldl_nil]
      generalize (List.range t).foldl (fun st o => padStep fi st (o, ns.getD o 0)) (p, ns.getD fi 0) = st at ih ⊢
      unfold padStep
      simp only
      by_cases h1 : t = fi
      · rw [if_pos h1]
        exact ih
      · rw [if_neg h1]
        by_cases h2 : t < fi
        · rw [if_pos h2]
          exact emb_front _ _ _ ih
        · rw [if_neg h2]
          exact emb_back _ _ _ ih
  have := key ns.length
  unfold embedFormula
  cases extra with
  | none => exact this
  | some e => exact emb_back _ _ _ this

end Verif.Root
