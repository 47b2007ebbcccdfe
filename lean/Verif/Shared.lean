import Verif.Embed

/-!
# Shared smoothing parameters and placement of the pseudo-inverse (properties C26, C27)
-/

namespace Verif.Pen

open Finset

/-! ### C27: merging and splitting -/

theorem keys_aux (l acc : List ℕ) (hacc : acc.Nodup) :
    (l.foldl (fun acc i => if i ∈ acc then acc else acc ++ [i]) acc).Nodup ∧
    ∀ i, i ∈ l.foldl (fun acc i => if i ∈ acc then acc else acc ++ [i]) acc ↔ i ∈ acc ∨ i ∈ l := by
  induction l generalizing acc with
  | nil => simp [hacc]
  | cons a l ih =>
    simp only [List.foldl_cons]
    by_cases h : a ∈ acc
    · rw [if_pos h]
      obtain ⟨h1, h2⟩ := ih acc hacc
      refine ⟨h1, fun i => ?_⟩
      rw [h2, List.mem_cons]
      constructor
      · rintro (h' | h')
        · exact Or.inl h'
        · exact Or.inr (Or.inr h')
      · rintro (h' | h' | h')
        · exact Or.inl h'
        · exact Or.inl (h' ▸ h)
        · exact Or.inr h'
    · rw [if_neg h]
      obtain ⟨h1, h2⟩ := ih (acc ++ [a]) (by
        rw [List.nodup_append]
        refine ⟨hacc, by simp, ?_⟩
        intro x hx y hy
        simp at hy
        subst hy
        rintro rfl
        exact h hx)
      refine ⟨h1, fun i => ?_⟩
      rw [h2, List.mem_append, List.mem_singleton, List.mem_cons, or_assoc]

theorem idKeys_nodup (ps : List LTerm) : (idKeys ps).Nodup := (keys_aux _ [] List.nodup_nil).1

theorem mem_idKeys (ps : List LTerm) (i : ℕ) : i ∈ idKeys ps ↔ ∃ p ∈ ps, p.id = some i := by
  unfold idKeys
  rw [(keys_aux _ [] List.nodup_nil).2]
  simp [List.mem_filterMap]

/-- The smoothing parameter used for all penalties with the id of `p`: that of the first. -/
noncomputable def commonLam (ps : List LTerm) (p : LTerm) : ℝ :=
  match p.id with
  | none => p.lam
  | some i => ((ps.filter fun q => q.id = some i).head?.map (·.lam)).getD p.lam

/-- `p` with the smoothing parameter it shares. -/
noncomputable def withCommon (ps : List LTerm) (p : LTerm) : LTerm := { p with lam := commonLam ps p }

/-- `p` has an id no other penalty has. -/
def lone (ps : List LTerm) (p : LTerm) : Bool :=
  match p.id with
  | none => false
  | some i => decide (idCount ps i ≤ 1)

theorem merge_parts (ps : List LTerm) (hp : ∀ p ∈ ps, p.parts = none) (i : ℕ) (hi : i ∈ idKeys ps) :
    ∃ m, mergeId ps i = some m ∧ m.parts.isSome = true ∧
      ((m.parts.getD []).map fun q =>
        ({ toMats := q, lam := m.lam, id := m.id, parts := none } : LTerm))
        = (ps.filter fun p => p.id = some i).map (withCommon ps) := by
  obtain ⟨p, hpm, hpi⟩ := (mem_idKeys ps i).1 hi
  unfold mergeId
  cases hf : ps.filter fun p => decide (p.id = some i) with
  | nil =>
    exfalso
    have : p ∈ ps.filter fun p => decide (p.id = some i) := List.mem_filter.2 ⟨hpm, by simp [hpi]⟩
    rw [hf] at this
    simp at this
  | cons q rest =>
    refine ⟨_, rfl, rfl, ?_⟩
    simp only [Option.getD_some, List.map_map]
    refine List.map_congr_left fun r hr => ?_
    have hr' : r ∈ ps.filter fun p => decide (p.id = some i) := by rw [hf]; exact hr
    obtain ⟨hrm, hri⟩ := List.mem_filter.1 hr'
    have hri : r.id = some i := by simpa using hri
    have hc : commonLam ps r = q.lam := by
      unfold commonLam
      rw [hri]
      simp only [hf, List.head?_cons, Option.map_some, Option.getD_some]
    have hpn := hp r hrm
    simp only [Function.comp_apply, withCommon, hc]
    cases r
    simp only at hri hpn
    subst hri hpn
    rfl

/-- The id of `p` is one of `keys`. -/
def hasKey (keys : List ℕ) (p : LTerm) : Bool :=
  match p.id with
  | none => false
  | some i => decide (i ∈ keys)

/-- Collecting the groups in the order of the keys only reorders the penalties that have an id. -/
theorem groups_perm (ps : List LTerm) (keys : List ℕ) (hn : keys.Nodup)
    (f : LTerm → LTerm) :
    (keys.flatMap fun i => (ps.filter fun p => p.id = some i).map f).Perm
      ((ps.filter (hasKey keys)).map f) := by
  induction keys with
  | nil =>
    simp only [List.flatMap_nil]
    rw [List.filter_eq_nil_iff.2]
    · simp
    · intro p _
      unfold hasKey
      cases p.id <;> simp
  | cons k keys ih =>
    rw [List.flatMap_cons]
    have hk : k ∉ keys := (List.nodup_cons.1 hn).1
    refine ((ih (List.nodup_cons.1 hn).2).append_left _).trans ?_
    rw [← List.map_append]
    refine List.Perm.map f ?_
    have h1 : (ps.filter fun p => decide (p.id = some k))
        = ((ps.filter (hasKey (k :: keys))).filter fun p => decide (p.id = some k)) := by
      rw [List.filter_filter]
      refine List.filter_congr fun p _ => ?_
      unfold hasKey
      by_cases h : p.id = some k
      · simp [h]
      · simp [h]
    have h2 : (ps.filter (hasKey keys))
        = ((ps.filter (hasKey (k :: keys))).filter fun p => !decide (p.id = some k)) := by
      rw [List.filter_filter]
      refine List.filter_congr fun p _ => ?_
      unfold hasKey
      cases hp : p.id with
      | none => simp
      | some i =>
        by_cases h : i = k
        · subst h; simp [hk]
        · simp [h]
    rw [h1, h2]
    exact List.filter_append_perm _ _

/-- Merging and splitting again returns every penalty once with its common smoothing parameter and,
whenever some id is shared, every penalty whose id is not shared once more. -/
theorem split_combine (sort : List LTerm → List LTerm) (hsort : ∀ l, (sort l).Perm l)
    (ps : List LTerm) (hp : ∀ p ∈ ps, p.parts = none) :
    (split sort (combine ps)).Perm
      (if shared ps then ps.map (withCommon ps) ++ ps.filter (lone ps) else ps) := by
  by_cases hs : shared ps
  · rw [if_pos hs]
    have hkeys : ∀ l : List ℕ, (∀ i ∈ l, i ∈ idKeys ps) →
        ((l.filterMap (mergeId ps)).filter fun m => m.parts.isNone) = [] ∧
        ((l.filterMap (mergeId ps)).filter fun m => m.parts.isSome) = l.filterMap (mergeId ps) ∧
        ((l.filterMap (mergeId ps)).flatMap fun m => (m.parts.getD []).map fun q =>
          ({ toMats := q, lam := m.lam, id := m.id, parts := none } : LTerm))
          = l.flatMap fun i => (ps.filter fun p => p.id = some i).map (withCommon ps) := by
      intro l
      induction l with
      | nil => intro _; simp
      | cons i l ih =>
        intro hl
        obtain ⟨m, hm1, hm2, hm3⟩ := merge_parts ps hp i (hl i (by simp))
        obtain ⟨a1, a2, a3⟩ := ih (fun j hj => hl j (by simp [hj]))
        rw [List.filterMap_cons_some hm1]
        refine ⟨?_, ?_, ?_⟩
        · rw [List.filter_cons_of_neg (by
            cases h : m.parts with
            | none => rw [h] at hm2; simp at hm2
            | some _ => simp)]
          exact a1
        · rw [List.filter_cons_of_pos (by simpa using hm2), a2]
        · rw [List.flatMap_cons, List.flatMap_cons, hm3, a3]
    obtain ⟨k1, k2, k3⟩ := hkeys (idKeys ps) (fun i hi => hi)
    have hne : idKeys ps ≠ [] := by
      intro h
      simp [shared, h] at hs
    simp only [split, combine, if_pos hs, List.filter_append]
    rw [k1, k2, List.append_nil]
    have f1 : ((ps.filter (unmerged ps)).filter fun m => m.parts.isSome) = [] := by
      rw [List.filter_eq_nil_iff]
      intro p hpm
      rw [hp p (List.mem_of_mem_filter hpm)]
      simp
    have f2 : ((ps.filter (unmerged ps)).filter fun m => m.parts.isNone)
        = ps.filter (unmerged ps) := by
      rw [List.filter_eq_self]
      intro p hpm
      rw [hp p (List.mem_of_mem_filter hpm)]
      rfl
    rw [f1, f2, List.nil_append, k3]
    have hlen : (idKeys ps).filterMap (mergeId ps) ≠ [] := by
      obtain ⟨i, l, hl⟩ := List.exists_cons_of_ne_nil hne
      obtain ⟨m, hm1, -, -⟩ := merge_parts ps hp i (by rw [hl]; simp)
      rw [hl, List.filterMap_cons_some hm1]
      simp
    rw [if_neg (by simpa using hlen)]
    refine (hsort _).trans ?_
    refine ((groups_perm ps (idKeys ps) (idKeys_nodup ps) (withCommon ps)).append_left _).trans ?_
    -- penalties with an id are those whose id is a key
    have g1 : (ps.filter (hasKey (idKeys ps))) = ps.filter fun p => p.id.isSome := by
      refine List.filter_congr fun p hpm => ?_
      unfold hasKey
      cases hpi : p.id with
      | none => rfl
      | some i => simp [(mem_idKeys ps i).2 ⟨p, hpm, hpi⟩]
    rw [g1]
    have g2 : (ps.map (withCommon ps)).Perm
        ((ps.filter fun p => p.id.isNone) ++ (ps.filter fun p => p.id.isSome).map (withCommon ps)) := by
      have h1 := (List.filter_append_perm (fun p : LTerm => p.id.isNone) ps).map (withCommon ps)
      rw [List.map_append] at h1
      have h2 : (ps.filter fun p => p.id.isNone).map (withCommon ps)
          = ps.filter fun p => p.id.isNone := by
        conv_rhs => rw [← List.map_id (ps.filter fun p => p.id.isNone)]
        refine List.map_congr_left fun p hpm => ?_
        have : p.id = none := by simpa using (List.mem_filter.1 hpm).2
        cases p
        simp only at this
        subst this
        rfl
      rw [h2] at h1
      have h3 : (ps.filter fun p => !p.id.isNone) = ps.filter fun p => p.id.isSome := by
        refine List.filter_congr fun p _ => ?_
        cases p.id <;> rfl
      rw [h3] at h1
      exact h1.symm
    have g3 : (ps.filter (unmerged ps)).Perm
        ((ps.filter fun p => p.id.isNone) ++ ps.filter (lone ps)) := by
      have h1 := List.filter_append_perm (fun p : LTerm => p.id.isNone)
        (ps.filter (unmerged ps))
      rw [List.filter_filter, List.filter_filter] at h1
      have e1 : (ps.filter fun a => a.id.isNone && unmerged ps a) = ps.filter fun p => p.id.isNone := by
        refine List.filter_congr fun p _ => ?_
        unfold unmerged
        cases p.id <;> rfl
      have e2 : (ps.filter fun a => (!a.id.isNone) && unmerged ps a) = ps.filter (lone ps) := by
        refine List.filter_congr fun p _ => ?_
        unfold lone unmerged
        cases p.id <;> simp
      rw [e1, e2] at h1
      exact h1.symm
    refine (g3.append_right _).trans ?_
    rw [List.append_assoc]
    refine (List.Perm.append_left _ List.perm_append_comm).trans ?_
    rw [← List.append_assoc]
    exact (g2.append_right _).symm
  · rw [if_neg hs]
    rw [show combine ps = ps by unfold combine; rw [if_neg hs]]
    unfold split
    have f1 : (ps.filter fun m => m.parts.isSome) = [] := by
      rw [List.filter_eq_nil_iff]
      intro p hpm
      rw [hp p hpm]
      simp
    have f2 : (ps.filter fun m => m.parts.isNone) = ps := by
      rw [List.filter_eq_self]
      intro p hpm
      rw [hp p hpm]
      rfl
    rw [f1, f2]
    simp

theorem totalS_perm {ps qs : List LTerm} (h : ps.Perm qs) : totalS ps = totalS qs := by
  funext i j
  rw [totalS_eq, totalS_eq]
  exact (h.map _).sum_eq

/-- **C27 (partial).** If no id is shared, or every id that occurs is shared by at least two
penalties, then the total penalty built from the merged terms is the sum over the original penalties
of the shared smoothing parameter times the penalty, each counted once.  Missing: lists in which one
id is shared and another is not, see `lone_id_counted_twice`. -/
theorem shared_total_partial (sort : List LTerm → List LTerm) (hsort : ∀ l, (sort l).Perm l)
    (ps : List LTerm) (hp : ∀ p ∈ ps, p.parts = none)
    (hid : shared ps = true → ∀ p ∈ ps, ∀ i, p.id = some i → 1 < idCount ps i) (i j : ℕ) :
    totalS (split sort (combine ps)) i j
      = (ps.map fun p => (if shared ps then commonLam ps p else p.lam) * p.Semb i j).sum := by
  rw [totalS_perm (split_combine sort hsort ps hp)]
  by_cases hs : shared ps
  · rw [if_pos hs]
    have hl : ps.filter (lone ps) = [] := by
      rw [List.filter_eq_nil_iff]
      intro p hpm
      unfold lone
      cases hpi : p.id with
      | none => simp
      | some i =>
        have := hid hs p hpm i hpi
        simp only [decide_eq_true_eq]
        omega
    rw [hl, List.append_nil, totalS_eq, List.map_map]
    simp only [if_pos hs]
    rfl
  · rw [if_neg hs, totalS_eq]
    simp only [if_neg hs]

/-- In general, with some id shared, penalties whose id is not shared are counted twice. -/
theorem shared_total_general (sort : List LTerm → List LTerm) (hsort : ∀ l, (sort l).Perm l)
    (ps : List LTerm) (hp : ∀ p ∈ ps, p.parts = none) (hs : shared ps = true) (i j : ℕ) :
    totalS (split sort (combine ps)) i j
      = (ps.map fun p => commonLam ps p * p.Semb i j).sum
        + ((ps.filter (lone ps)).map fun p => p.lam * p.Semb i j).sum := by
  rw [totalS_perm (split_combine sort hsort ps hp), if_pos hs, totalS_eq, List.map_append,
    List.sum_append, List.map_map]
  rfl

/-- A penalty on one coefficient `c`, with an id. -/
noncomputable def pen1 (c : ℕ) (id : Option ℕ) : LTerm :=
  { SJ := coo [(0, 0, 1)], k := 1, Semb := coo [(c, c, 1)], Demb := coo [(c, c, 1)], rep := 1,
    start := c, rank := 1, lam := 1, id := id, parts := none }

/-- Three penalties with ids 5, 5 and 7: the third is applied with twice its smoothing parameter. -/
theorem lone_id_counted_twice (sort : List LTerm → List LTerm) (hsort : ∀ l, (sort l).Perm l) :
    totalS (split sort (combine [pen1 0 (some 5), pen1 1 (some 5), pen1 2 (some 7)])) 2 2 = 2 ∧
    totalS [pen1 0 (some 5), pen1 1 (some 5), pen1 2 (some 7)] 2 2 = 1 := by
  have hs : shared [pen1 0 (some 5), pen1 1 (some 5), pen1 2 (some 7)] = true := by
    simp [shared, idKeys, idCount, pen1]
  refine ⟨?_, ?_⟩
  · rw [shared_total_general sort hsort _ (by
      intro p hp; simp at hp; rcases hp with rfl | rfl | rfl <;> rfl) hs]
    simp [lone, idCount, commonLam, pen1, coo]
    norm_num
  · rw [totalS_eq]
    simp [pen1, coo]

/-- A merged term: its embedded penalty and its rank are the sums over the penalties with that
id, and its smoothing parameter is that of the first. -/
theorem merge_sums (ps : List LTerm) (i : ℕ) (m : LTerm) (h : mergeId ps i = some m) :
    m.rank = ((ps.filter fun p => p.id = some i).map (·.rank)).sum ∧
    (∀ a b, m.Semb a b = ((ps.filter fun p => p.id = some i).map (·.Semb a b)).sum) ∧
    (∀ a b, m.Demb a b = ((ps.filter fun p => p.id = some i).map (·.Demb a b)).sum) ∧
    ∀ p ∈ ps, p.id = some i → m.lam = commonLam ps p := by
  unfold mergeId at h
  cases hf : ps.filter fun p => decide (p.id = some i) with
  | nil => rw [hf] at h; simp at h
  | cons q rest =>
    rw [hf] at h
    simp only [Option.some.injEq] at h
    subst h
    have hfold : ∀ (g : LTerm → Arr) (l : List LTerm) (S : Arr) (a b : ℕ),
        (l.foldl (fun S q => fun a b => S a b + g q a b) S) a b
          = S a b + (l.map fun p => g p a b).sum := by
      intro g l
      induction l with
      | nil => intro S a b; simp
      | cons q l ih => intro S a b; rw [List.foldl_cons, ih, List.map_cons, List.sum_cons]; ring
    refine ⟨rfl, ?_, ?_, ?_⟩
    · intro a b
      simp only [List.map_cons, List.sum_cons]
      exact hfold (fun q => q.Semb) rest q.Semb a b
    · intro a b
      simp only [List.map_cons, List.sum_cons]
      exact hfold (fun q => q.Demb) rest q.Demb a b
    · intro p hp hpi
      unfold commonLam
      rw [hpi]
      simp only [hf, List.head?_cons, Option.map_some, Option.getD_some]

/-! ### C26: placement of the pseudo-inverse -/

/-- Start of block `t` as computed by the running index. -/
def runPos (bs : List Blk) (s t : ℕ) : ℕ := s + ((bs.take t).map fun b => b.k * b.rep).sum

theorem rep_loop (P : Trip) (k n : ℕ) (st : Trip × ℕ) :
    ((List.range n).foldl (fun (st : Trip × ℕ) _ => (st.1 ++ shiftT st.2 P, st.2 + k)) st)
      = (st.1 ++ (List.range n).flatMap fun t => shiftT (st.2 + t * k) P, st.2 + n * k) := by
  induction n with
  | zero => simp
  | succ n ih =>
    rw [List.range_succ, List.foldl_append, ih, List.flatMap_append]
    simp only [List.foldl_cons, List.foldl_nil, List.flatMap_cons, List.flatMap_nil,
      List.append_nil, List.append_assoc, Prod.mk.injEq, true_and]
    ring

theorem pinvStep_eq (pinv : Blk → Trip) (st : Trip × ℕ) (b : Blk) :
    pinvStep pinv st b = (st.1 ++ (if b.terms = 1 then [] else
      (List.range b.rep).flatMap fun t => shiftT (st.2 + t * b.k) (pinv b)), st.2 + b.k * b.rep) := by
  unfold pinvStep
  by_cases h : b.terms = 1
  · rw [if_pos h, if_pos h, List.append_nil]
  · rw [if_neg h, if_neg h, rep_loop, mul_comm]

/-- What `totalPinv` contains, block by block. -/
theorem pinv_run (pinv : Blk → Trip) (bs : List Blk) (s : ℕ) :
    bs.foldl (pinvStep pinv) ([], s)
      = ((List.range bs.length).flatMap fun t => match bs[t]? with
          | none => []
          | some b => if b.terms = 1 then [] else
              (List.range b.rep).flatMap fun r => shiftT (runPos bs s t + r * b.k) (pinv b),
        runPos bs s bs.length) := by
  induction bs using List.reverseRecOn with
  | nil => simp [runPos]
  | append_singleton bs b ih =>
    rw [List.foldl_append, ih]
    simp only [List.foldl_cons, List.foldl_nil]
    rw [pinvStep_eq, List.length_append, List.length_singleton, List.range_succ,
      List.flatMap_append]
    have e1 : ∀ t ∈ List.range bs.length, (match (bs ++ [b])[t]? with
          | none => []
          | some c => if c.terms = 1 then [] else
              (List.range c.rep).flatMap fun r => shiftT (runPos (bs ++ [b]) s t + r * c.k) (pinv c))
        = (match bs[t]? with
          | none => []
          | some c => if c.terms = 1 then [] else
              (List.range c.rep).flatMap fun r => shiftT (runPos bs s t + r * c.k) (pinv c)) := by
      intro t ht
      have ht := List.mem_range.1 ht
      rw [List.getElem?_append_left ht]
      simp only [runPos]
      rw [List.take_append_of_le_length ht.le]
    rw [List.flatMap_congr e1]
    simp only [List.flatMap_cons, List.flatMap_nil, List.append_nil]
    rw [List.getElem?_append_right le_rfl, Nat.sub_self]
    simp only [List.getElem?_cons_zero, runPos, Prod.mk.injEq]
    refine ⟨?_, ?_⟩
    · rw [List.take_append_of_le_length le_rfl]
    · rw [show bs.length + 1 = (bs ++ [b]).length by simp, List.take_length, List.take_length,
        List.map_append, List.sum_append]
      simp
      ring

/-- Entries contributed by block `b` when it is placed at position `o`. -/
noncomputable def blockAt (pinv : Blk → Trip) (b : Blk) (o : ℕ) : Arr := fun i j =>
  if b.terms = 1 then 0 else ∑ r ∈ range b.rep, coo (shiftT (o + r * b.k) (pinv b)) i j

theorem totalPinv_eq (pinv : Blk → Trip) (bs : List Blk) (i j : ℕ) :
    totalPinv pinv bs i j = ∑ t ∈ range bs.length, match bs[t]? with
      | none => 0
      | some b => blockAt pinv b (runPos bs (bs.head?.elim 0 (·.start)) t) i j := by
  cases bs with
  | nil => simp [totalPinv]
  | cons c bs =>
    simp only [totalPinv]
    rw [pinv_run, coo_flatMap_range]
    refine Finset.sum_congr rfl fun t ht => ?_
    cases (c :: bs)[t]? with
    | none => rfl
    | some b =>
      simp only [blockAt, List.head?_cons, Option.elim_some]
      by_cases h : b.terms = 1
      · rw [if_pos h, if_pos h]; rfl
      · rw [if_neg h, if_neg h, coo_flatMap_range]

theorem blockAt_out (pinv : Blk → Trip) (b : Blk) (o : ℕ) (hP : InRange b.k (pinv b)) (i j : ℕ)
    (h : (i < o ∨ o + b.k * b.rep ≤ i) ∨ (j < o ∨ o + b.k * b.rep ≤ j)) :
    blockAt pinv b o i j = 0 := by
  unfold blockAt
  split_ifs with h1
  · rfl
  · refine Finset.sum_eq_zero fun r hr => ?_
    have h1 : (r + 1) * b.k ≤ b.rep * b.k := Nat.mul_le_mul_right _ (mem_range.1 hr)
    have h2 : (r + 1) * b.k = r * b.k + b.k := by ring
    have h3 : b.rep * b.k = b.k * b.rep := by ring
    exact coo_shift_out hP _ _ _ (by omega)

theorem blockAt_in (pinv : Blk → Trip) (b : Blk) (o : ℕ) (hP : InRange b.k (pinv b)) (r a c : ℕ)
    (hr : r < b.rep) (ha : a < b.k) :
    blockAt pinv b o (o + r * b.k + a) (o + r * b.k + c)
      = if b.terms = 1 then 0 else coo (pinv b) a c := by
  unfold blockAt
  split_ifs with h1
  · rfl
  · rw [Finset.sum_eq_single r]
    · rw [coo_shift_in]
    · intro r' hr' hne
      rcases Nat.lt_or_gt_of_ne hne with h | h
      · have h1 : (r' + 1) * b.k ≤ r * b.k := Nat.mul_le_mul_right _ h
        have h2 : (r' + 1) * b.k = r' * b.k + b.k := by ring
        exact coo_shift_out hP _ _ _ (by omega)
      · have h1 : (r + 1) * b.k ≤ r' * b.k := Nat.mul_le_mul_right _ h
        have h2 : (r + 1) * b.k = r * b.k + b.k := by ring
        exact coo_shift_out hP _ _ _ (by omega)
    · intro h; exact absurd (mem_range.2 hr) h

theorem runPos_succ (bs : List Blk) (s t : ℕ) (b : Blk) (hb : bs[t]? = some b) :
    runPos bs s (t + 1) = runPos bs s t + b.k * b.rep := by
  unfold runPos
  rw [List.take_add_one, hb, List.map_append, List.sum_append]
  simp [add_assoc]

theorem runPos_mono (bs : List Blk) (s : ℕ) {t u : ℕ} (b : Blk) (hb : bs[t]? = some b) (h : t < u) :
    runPos bs s t + b.k * b.rep ≤ runPos bs s u := by
  have hlt : t < bs.length := (List.getElem?_eq_some_iff.1 hb).1
  rw [← runPos_succ bs s t b hb]
  obtain ⟨d, rfl⟩ := Nat.exists_eq_add_of_le (Nat.succ_le_of_lt h)
  unfold runPos
  rw [Nat.succ_eq_add_one, List.take_add (i := t + 1), List.map_append, List.sum_append]
  omega

/-- Where the pseudo-inverse of each block ends up: at the running position, i.e. the start of the
first block plus the sizes of the blocks before. -/
theorem pinv_position (pinv : Blk → Trip) (bs : List Blk)
    (hP : ∀ b ∈ bs, InRange b.k (pinv b)) (t : ℕ) (b : Blk) (hb : bs[t]? = some b)
    (i j : ℕ) (hi : i < b.k * b.rep) :
    totalPinv pinv bs (runPos bs (bs.head?.elim 0 (·.start)) t + i) j
      = blockAt pinv b (runPos bs (bs.head?.elim 0 (·.start)) t)
          (runPos bs (bs.head?.elim 0 (·.start)) t + i) j := by
  rw [totalPinv_eq, Finset.sum_eq_single t]
  · rw [hb]
  · intro u hu hne
    cases hbu : bs[u]? with
    | none => rfl
    | some d =>
      simp only
      refine blockAt_out pinv d _ (hP d (List.mem_of_getElem? hbu)) _ _ (Or.inl ?_)
      rcases Nat.lt_or_gt_of_ne hne with h | h
      · have := runPos_mono bs (bs.head?.elim 0 (·.start)) d hbu h
        omega
      · have := runPos_mono bs (bs.head?.elim 0 (·.start)) b hb h
        omega
  · intro h
    exact absurd (mem_range.2 (List.getElem?_eq_some_iff.1 hb).1) h

/-- Every block starts where the previous one ends. -/
def Contiguous (bs : List Blk) : Prop :=
  ∀ t b c, bs[t]? = some b → bs[t + 1]? = some c → c.start = b.start + b.k * b.rep

theorem contiguous_runPos (bs : List Blk) (h : Contiguous bs) (t : ℕ) (b : Blk)
    (hb : bs[t]? = some b) : runPos bs (bs.head?.elim 0 (·.start)) t = b.start := by
  induction t generalizing b with
  | zero =>
    unfold runPos
    rw [List.head?_eq_getElem?, hb]
    simp
  | succ t ih =>
    have hlt : t + 1 < bs.length := (List.getElem?_eq_some_iff.1 hb).1
    have hd : bs[t]? = some bs[t] := List.getElem?_eq_getElem (by omega)
    rw [h t _ b hd hb, ← ih _ hd, runPos_succ bs _ t _ hd]

/-- **C26 (partial).** If no unpenalised coefficients lie between the penalised blocks, the
pseudo-inverse of a block with several penalties sits at that block's coefficients, once per repeat;
rows of blocks with one penalty and everything off the blocks is zero.  Missing: gaps between blocks,
see `pinv_misplaced`. -/
theorem pinv_placed_partial (pinv : Blk → Trip) (bs : List Blk) (h : Contiguous bs)
    (hP : ∀ b ∈ bs, InRange b.k (pinv b)) (t : ℕ) (b : Blk) (hb : bs[t]? = some b) :
    (∀ r < b.rep, ∀ a < b.k, ∀ c < b.k,
      totalPinv pinv bs (b.start + r * b.k + a) (b.start + r * b.k + c)
        = if b.terms = 1 then 0 else coo (pinv b) a c) ∧
    ∀ i < b.k * b.rep, ∀ j, (j < b.start ∨ b.start + b.k * b.rep ≤ j) →
      totalPinv pinv bs (b.start + i) j = 0 := by
  have hs := contiguous_runPos bs h t b hb
  have hpos := pinv_position pinv bs hP t b hb
  rw [hs] at hpos
  have hPb := hP b (List.mem_of_getElem? hb)
  refine ⟨?_, ?_⟩
  · intro r hr a ha c hc
    have h1 : (r + 1) * b.k ≤ b.rep * b.k := Nat.mul_le_mul_right _ hr
    have h2 : (r + 1) * b.k = r * b.k + b.k := by ring
    have h3 : b.rep * b.k = b.k * b.rep := by ring
    rw [add_assoc b.start _ a, hpos _ _ (by omega), ← add_assoc, blockAt_in pinv b _ hPb r a c hr ha]
  · intro i hi j hj
    rw [hpos i j hi]
    exact blockAt_out pinv b _ hPb _ _ (Or.inr hj)

theorem trace_blocks {n k N cur : ℕ} (P T : Trip) (hP : InRange k P) (hT : InRange k T)
    (hn : cur + N * k ≤ n) :
    ∑ i ∈ range n, ∑ j ∈ range n, (∑ t ∈ range N, coo (shiftT (cur + t * k) P) i j)
        * (∑ t ∈ range N, coo (shiftT (cur + t * k) T) j i)
      = N * ∑ a ∈ range k, ∑ c ∈ range k, coo P a c * coo T c a := by
  have h1 : ∀ i ∈ range n, ∀ j ∈ range n, (∑ t ∈ range N, coo (shiftT (cur + t * k) P) i j)
        * (∑ t ∈ range N, coo (shiftT (cur + t * k) T) j i)
      = ∑ t ∈ range N, coo (shiftT (cur + t * k) P) i j * coo (shiftT (cur + t * k) T) j i := by
    intro i _ j _
    rw [Finset.sum_mul_sum]
    refine Finset.sum_congr rfl fun t ht => ?_
    rw [Finset.sum_eq_single t]
    · intro t' _ hne
      by_cases hin : cur + t * k ≤ i ∧ i < cur + t * k + k
      · rw [coo_shift_out hT (cur + t' * k) j i, mul_zero]
        rcases Nat.lt_or_gt_of_ne hne with h | h
        · have h1 : (t' + 1) * k ≤ t * k := Nat.mul_le_mul_right _ h
          have h2 : (t' + 1) * k = t' * k + k := by ring
          omega
        · have h1 : (t + 1) * k ≤ t' * k := Nat.mul_le_mul_right _ h
          have h2 : (t + 1) * k = t * k + k := by ring
          omega
      · rw [coo_shift_out hP (cur + t * k) i j (by omega), zero_mul]
    · intro h; exact absurd ht h
  rw [Finset.sum_congr rfl fun i hi => Finset.sum_congr rfl fun j hj => h1 i hi j hj]
  have h2 : ∀ t ∈ range N, ∑ i ∈ range n, ∑ j ∈ range n,
      coo (shiftT (cur + t * k) P) i j * coo (shiftT (cur + t * k) T) j i
      = ∑ a ∈ range k, ∑ c ∈ range k, coo P a c * coo T c a := by
    intro t ht
    have h1 : (t + 1) * k ≤ N * k := Nat.mul_le_mul_right _ (mem_range.1 ht)
    have h2 : (t + 1) * k = t * k + k := by ring
    rw [sum_block n (cur + t * k) k (by omega)]
    · refine Finset.sum_congr rfl fun a _ => ?_
      rw [sum_block n (cur + t * k) k (by omega)]
      · exact Finset.sum_congr rfl fun c _ => by rw [coo_shift_in, coo_shift_in]
      · intro j _ hj
        rw [coo_shift_out hP _ _ _ (Or.inr hj), zero_mul]
    · intro i _ hi
      exact Finset.sum_eq_zero fun j _ => by rw [coo_shift_out hP _ _ _ (Or.inl hi), zero_mul]
  rw [Finset.sum_congr rfl fun i _ => Finset.sum_comm, Finset.sum_comm, Finset.sum_congr rfl h2]
  simp

/-- **C26 (partial), trace.** Under the same condition the trace of pseudo-inverse times embedded
penalty, as used for smoothing parameter updates, is the number of repeats times the trace of the
block's pseudo-inverse times the term's penalty. -/
theorem pinv_trace_partial (pinv : Blk → Trip) (bs : List Blk) (h : Contiguous bs)
    (hP : ∀ b ∈ bs, InRange b.k (pinv b)) (t : ℕ) (b : Blk) (hb : bs[t]? = some b)
    (T Dl : Trip) (rank n : ℕ) (id : Option ℕ) (lam : ℝ) (hT : InRange b.k T) (hrep : 0 < b.rep)
    (hterms : b.terms ≠ 1) (hn : b.start + b.rep * b.k ≤ n) :
    ∑ i ∈ range n, ∑ j ∈ range n, totalPinv pinv bs i j
        * (buildShared T Dl b.k rank b.rep b.start id lam).1.Semb j i
      = b.rep * ∑ a ∈ range b.k, ∑ c ∈ range b.k, coo (pinv b) a c
          * (buildShared T Dl b.k rank b.rep b.start id lam).1.SJ c a := by
  rw [show (buildShared T Dl b.k rank b.rep b.start id lam).1.SJ = coo T from rfl,
    ← trace_blocks (pinv b) T (hP b (List.mem_of_getElem? hb)) hT hn]
  refine Finset.sum_congr rfl fun i hi => Finset.sum_congr rfl fun j hj => ?_
  rw [(buildShared_emb T Dl b.k rank b.rep b.start id lam hrep j i).1]
  by_cases hin : b.start ≤ i ∧ i < b.start + b.k * b.rep
  · obtain ⟨d, rfl⟩ := Nat.exists_eq_add_of_le hin.1
    have hpos := pinv_position pinv bs hP t b hb d j (by omega)
    rw [contiguous_runPos bs h t b hb] at hpos
    rw [hpos]
    unfold blockAt
    rw [if_neg hterms]
  · rw [Finset.sum_eq_zero (s := range b.rep) (f := fun t => coo (shiftT (b.start + t * b.k) T) j i),
      mul_zero, mul_zero]
    intro r hr
    have h1 : (r + 1) * b.k ≤ b.rep * b.k := Nat.mul_le_mul_right _ (mem_range.1 hr)
    have h2 : (r + 1) * b.k = r * b.k + b.k := by ring
    have h3 : b.rep * b.k = b.k * b.rep := by ring
    exact coo_shift_out hT _ _ _ (by omega)

/-! ### Collecting the blocks -/

/-- State of `collect` after the penalties `ps`. -/
structure Collected (ps : List LTerm) (bs : List Blk) (mx : ℕ) : Prop where
  incr : (bs.map (·.start)).Pairwise (· < ·)
  le : ∀ b ∈ bs, b.start ≤ mx
  last : ps ≠ [] → ∃ b ∈ bs, b.start = mx
  sums : ∀ b ∈ bs, (∀ i j, b.S i j
      = ((ps.filter fun p => p.start = b.start).map fun p => p.lam * p.SJ i j).sum) ∧
    b.terms = (ps.filter fun p => p.start = b.start).length ∧
    ∀ p ∈ ps, p.start = b.start → p.rep = b.rep
  cover : ∀ p ∈ ps, ∃ b ∈ bs, b.start = p.start
  pos : ∀ b ∈ bs, 0 < b.terms

theorem collect_inv (ps : List LTerm) (bs : List Blk) (mx : ℕ)
    (h : ps.foldl collectStep (some ([], 0)) = some (bs, mx)) : Collected ps bs mx := by
  induction ps using List.reverseRecOn generalizing bs mx with
  | nil =>
    simp only [List.foldl_nil, Option.some.injEq, Prod.mk.injEq] at h
    obtain ⟨rfl, rfl⟩ := h
    exact ⟨by simp, by simp, by simp, by simp, by simp, by simp⟩
  | append_singleton ps p ih =>
    rw [List.foldl_append, List.foldl_cons, List.foldl_nil] at h
    cases hst : ps.foldl collectStep (some ([], 0)) with
    | none => rw [hst] at h; simp [collectStep] at h
    | some st =>
      obtain ⟨cs, m0⟩ := st
      have hc := ih cs m0 hst
      rw [hst] at h
      simp only [collectStep, Option.bind_some] at h
      by_cases hnew : cs = [] ∨ p.start > m0
      · rw [if_pos hnew] at h
        simp only [Option.some.injEq, Prod.mk.injEq] at h
        obtain ⟨rfl, rfl⟩ := h
        have hlt : ∀ b ∈ cs, b.start < p.start := by
          intro b hb
          rcases hnew with rfl | hgt
          · simp at hb
          · exact lt_of_le_of_lt (hc.le b hb) hgt
        have hnone : ∀ q ∈ ps, q.start ≠ p.start := by
          intro q hq he
          obtain ⟨b, hb, hbs⟩ := hc.cover q hq
          have := hlt b hb
          omega
        refine ⟨?_, ?_, ?_, ?_, ?_, ?_⟩
        · rw [List.map_append, List.pairwise_append]
          refine ⟨hc.incr, by simp, ?_⟩
          intro a ha c hcm
          simp only [List.map_cons, List.map_nil, List.mem_singleton] at hcm
          obtain ⟨b, hb, rfl⟩ := List.mem_map.1 ha
          rw [hcm]
          exact hlt b hb
        · intro b hb
          rcases List.mem_append.1 hb with hb | hb
          · exact (hlt b hb).le
          · rw [List.mem_singleton.1 hb]
        · intro _
          exact ⟨_, List.mem_append_right _ (List.mem_singleton.2 rfl), rfl⟩
        · intro b hb
          rcases List.mem_append.1 hb with hb | hb
          · obtain ⟨s1, s2, s3⟩ := hc.sums b hb
            have hne : p.start ≠ b.start := (hlt b hb).ne'
            have hf : ((ps ++ [p]).filter fun q => decide (q.start = b.start))
                = ps.filter fun q => decide (q.start = b.start) := by
              rw [List.filter_append]
              simp [hne]
            rw [hf]
            refine ⟨s1, s2, ?_⟩
            intro q hq hqs
            rcases List.mem_append.1 hq with hq | hq
            · exact s3 q hq hqs
            · rw [List.mem_singleton.1 hq] at hqs; exact absurd hqs hne
          · rw [List.mem_singleton.1 hb]
            have hf : ((ps ++ [p]).filter fun q => decide (q.start = p.start)) = [p] := by
              rw [List.filter_append, List.filter_eq_nil_iff.2 (by
                intro q hq; simpa using hnone q hq)]
              simp
            dsimp only
            rw [hf]
            refine ⟨?_, by simp, ?_⟩
            · intro i j; simp; ring
            · intro q hq hqs
              rcases List.mem_append.1 hq with hq | hq
              · exact absurd hqs (hnone q hq)
              · rw [List.mem_singleton.1 hq]
        · intro q hq
          rcases List.mem_append.1 hq with hq | hq
          · obtain ⟨b, hb, hbs⟩ := hc.cover q hq
            exact ⟨b, List.mem_append_left _ hb, hbs⟩
          · rw [List.mem_singleton.1 hq]
            exact ⟨_, List.mem_append_right _ (List.mem_singleton.2 rfl), rfl⟩
        · intro b hb
          rcases List.mem_append.1 hb with hb | hb
          · exact hc.pos b hb
          · rw [List.mem_singleton.1 hb]; exact Nat.one_pos
      · rw [if_neg hnew] at h
        split at h
        · rename_i i hi
          have hi' : i ∈ (List.range cs.length).filter fun i =>
              decide ((cs.map (·.start)).getD i 0 = p.start) := by rw [hi]; simp
          obtain ⟨hir, hii⟩ := List.mem_filter.1 hi'
          have hil : i < cs.length := List.mem_range.1 hir
          have hb : cs[i]? = some cs[i] := List.getElem?_eq_getElem hil
          have his : cs[i].start = p.start := by
            have := of_decide_eq_true hii
            rw [List.getD_eq_getElem?_getD, List.getElem?_map, hb] at this
            simpa using this
          rw [hb] at h
          simp only [Option.bind_some] at h
          by_cases hrep : cs[i].rep = p.rep
          · rw [if_pos hrep] at h
            simp only [Option.some.injEq, Prod.mk.injEq] at h
            obtain ⟨rfl, rfl⟩ := h
            set b' : Blk := { cs[i] with S := fun a c => cs[i].S a c + p.SJ a c * p.lam,
                                         terms := cs[i].terms + 1 } with hb'
            have hmap : (cs.set i b').map (·.start) = cs.map (·.start) := by
              rw [List.map_set]
              have : b'.start = (cs.map (·.start))[i]'(by simpa using hil) := by simp [hb']
              rw [this, List.set_getElem_self]
            have hdist : ∀ j (hj : j < cs.length), j ≠ i → cs[j].start ≠ p.start := by
              intro j hj hne he
              have hp := hc.incr
              rw [List.pairwise_iff_getElem] at hp
              rcases Nat.lt_or_gt_of_ne hne with hlt | hlt
              · have := hp j i (by simpa using hj) (by simpa using hil) hlt
                simp at this; omega
              · have := hp i j (by simpa using hil) (by simpa using hj) hlt
                simp at this; omega
            have hmem : ∀ b ∈ cs.set i b', b = b' ∨ (b ∈ cs ∧ b.start ≠ p.start) := by
              intro b hbm
              obtain ⟨j, hj, rfl⟩ := List.getElem_of_mem hbm
              have hj' : j < cs.length := by simpa using hj
              rw [List.getElem_set]
              split_ifs with hij
              · exact Or.inl rfl
              · exact Or.inr ⟨List.getElem_mem hj', hdist j hj' (Ne.symm hij)⟩
            have hstart : ∀ c ∈ cs, ∃ b ∈ cs.set i b', b.start = c.start := by
              intro c hcm
              have : c.start ∈ (cs.set i b').map (·.start) := by
                rw [hmap]; exact List.mem_map_of_mem hcm
              obtain ⟨b, hb1, hb2⟩ := List.mem_map.1 this
              exact ⟨b, hb1, hb2⟩
            refine ⟨?_, ?_, ?_, ?_, ?_, ?_⟩
            · rw [hmap]; exact hc.incr
            · intro b hbm
              rcases hmem b hbm with rfl | ⟨hb1, -⟩
              · exact hc.le cs[i] (List.getElem_mem hil)
              · exact hc.le b hb1
            · intro _
              have hps : ps ≠ [] := by
                rintro rfl
                simp only [List.foldl_nil, Option.some.injEq, Prod.mk.injEq] at hst
                exact hnew (Or.inl hst.1.symm)
              obtain ⟨c, hc1, hc2⟩ := hc.last hps
              obtain ⟨b, hb1, hb2⟩ := hstart c hc1
              exact ⟨b, hb1, hb2.trans hc2⟩
            · intro b hbm
              rcases hmem b hbm with rfl | ⟨hb1, hb2⟩
              · obtain ⟨s1, s2, s3⟩ := hc.sums cs[i] (List.getElem_mem hil)
                have hbs : b'.start = cs[i].start := rfl
                have hf : ((ps ++ [p]).filter fun q => decide (q.start = b'.start))
                    = (ps.filter fun q => decide (q.start = cs[i].start)) ++ [p] := by
                  rw [List.filter_append, hbs]
                  simp [his]
                rw [hf]
                refine ⟨?_, ?_, ?_⟩
                · intro a c
                  rw [List.map_append, List.sum_append, ← s1 a c]
                  simp [hb']
                  ring
                · simp [hb', s2]
                · intro q hq hqs
                  rcases List.mem_append.1 hq with hq | hq
                  · exact s3 q hq hqs
                  · rw [List.mem_singleton.1 hq]; exact hrep.symm
              · obtain ⟨s1, s2, s3⟩ := hc.sums b hb1
                have hf : ((ps ++ [p]).filter fun q => decide (q.start = b.start))
                    = ps.filter fun q => decide (q.start = b.start) := by
                  rw [List.filter_append]
                  simp [hb2.symm]
                rw [hf]
                refine ⟨s1, s2, ?_⟩
                intro q hq hqs
                rcases List.mem_append.1 hq with hq | hq
                · exact s3 q hq hqs
                · rw [List.mem_singleton.1 hq] at hqs; exact absurd hqs hb2.symm
            · intro q hq
              rcases List.mem_append.1 hq with hq | hq
              · obtain ⟨c, hc1, hc2⟩ := hc.cover q hq
                obtain ⟨b, hb1, hb2⟩ := hstart c hc1
                exact ⟨b, hb1, hb2.trans hc2⟩
              · rw [List.mem_singleton.1 hq]
                obtain ⟨b, hb1, hb2⟩ := hstart cs[i] (List.getElem_mem hil)
                exact ⟨b, hb1, hb2.trans his⟩
            · intro b hbm
              rcases hmem b hbm with rfl | ⟨hb1, -⟩
              · exact Nat.succ_pos _
              · exact hc.pos b hb1
          · rw [if_neg hrep] at h; simp at h
        · simp at h

theorem Collected.start_mem {ps : List LTerm} {bs : List Blk} {mx : ℕ} (hc : Collected ps bs mx)
    (b : Blk) (hb : b ∈ bs) : ∃ p ∈ ps, p.start = b.start := by
  have h1 := hc.pos b hb
  rw [(hc.sums b hb).2.1] at h1
  obtain ⟨p, hp⟩ := List.exists_mem_of_length_pos h1
  exact ⟨p, List.mem_of_mem_filter hp, by simpa using (List.mem_filter.1 hp).2⟩

/-- The blocks: one per distinct start index, in increasing order; each is the sum of the weighted
penalties starting there. -/
theorem collect_blocks (ps : List LTerm) (bs : List Blk) (h : collect ps = some bs) :
    (bs.map (·.start)).Pairwise (· < ·) ∧
    (∀ s, (∃ b ∈ bs, b.start = s) ↔ ∃ p ∈ ps, p.start = s) ∧
    ∀ b ∈ bs, (∀ i j, b.S i j
        = ((ps.filter fun p => p.start = b.start).map fun p => p.lam * p.SJ i j).sum) ∧
      b.terms = (ps.filter fun p => p.start = b.start).length := by
  unfold collect at h
  obtain ⟨⟨cs, m⟩, h1, h2⟩ := Option.map_eq_some_iff.1 h
  simp only at h2
  subst h2
  have hc := collect_inv ps cs m h1
  refine ⟨hc.incr, fun s => ⟨?_, ?_⟩, fun b hb => ⟨(hc.sums b hb).1, (hc.sums b hb).2.1⟩⟩
  · rintro ⟨b, hb, rfl⟩
    exact hc.start_mem b hb
  · rintro ⟨p, hp, rfl⟩
    exact hc.cover p hp

/-- The start indices with multiplicity, block by block. -/
def starts (bs : List Blk) : List ℕ := bs.flatMap fun b => List.replicate b.terms b.start

theorem starts_sorted (ps : List LTerm) (hs : (ps.map (·.start)).Pairwise (· ≤ ·)) (bs : List Blk)
    (mx : ℕ) (h : ps.foldl collectStep (some ([], 0)) = some (bs, mx)) :
    starts bs = ps.map (·.start) := by
  induction ps using List.reverseRecOn generalizing bs mx with
  | nil =>
    simp only [List.foldl_nil, Option.some.injEq, Prod.mk.injEq] at h
    obtain ⟨rfl, rfl⟩ := h
    rfl
  | append_singleton ps p ih =>
    rw [List.foldl_append, List.foldl_cons, List.foldl_nil] at h
    rw [List.map_append, List.pairwise_append] at hs
    obtain ⟨hs1, -, hs2⟩ := hs
    cases hst : ps.foldl collectStep (some ([], 0)) with
    | none => rw [hst] at h; simp [collectStep] at h
    | some st =>
      obtain ⟨cs, m0⟩ := st
      have hc := collect_inv ps cs m0 hst
      have hcs := ih hs1 cs m0 hst
      rw [hst] at h
      simp only [collectStep, Option.bind_some] at h
      by_cases hnew : cs = [] ∨ p.start > m0
      · rw [if_pos hnew] at h
        simp only [Option.some.injEq, Prod.mk.injEq] at h
        obtain ⟨rfl, rfl⟩ := h
        unfold starts at hcs ⊢
        rw [List.flatMap_append, hcs, List.map_append]
        simp
      · rw [if_neg hnew] at h
        split at h
        · rename_i i hi
          have hi' : i ∈ (List.range cs.length).filter fun i =>
              decide ((cs.map (·.start)).getD i 0 = p.start) := by rw [hi]; simp
          obtain ⟨hir, hii⟩ := List.mem_filter.1 hi'
          have hil : i < cs.length := List.mem_range.1 hir
          have hb : cs[i]? = some cs[i] := List.getElem?_eq_getElem hil
          have his : cs[i].start = p.start := by
            have := of_decide_eq_true hii
            rw [List.getD_eq_getElem?_getD, List.getElem?_map, hb] at this
            simpa using this
          rw [hb] at h
          simp only [Option.bind_some] at h
          by_cases hrep : cs[i].rep = p.rep
          · rw [if_pos hrep] at h
            simp only [Option.some.injEq, Prod.mk.injEq] at h
            obtain ⟨rfl, rfl⟩ := h
            have hlast : i + 1 = cs.length := by
              by_contra hne
              have hj : i + 1 < cs.length := by omega
              have hp := hc.incr
              rw [List.pairwise_iff_getElem] at hp
              have h1 := hp i (i + 1) (by simpa using hil) (by simpa using hj) (by omega)
              obtain ⟨q, hq, hqs⟩ := hc.start_mem cs[i + 1] (List.getElem_mem hj)
              have h2 := hs2 q.start (List.mem_map_of_mem hq) p.start (by simp)
              simp only [List.getElem_map] at h1
              omega
            obtain ⟨init, c, rfl⟩ : ∃ init c, cs = init ++ [c] := by
              refine ⟨cs.dropLast, cs.getLast (by rintro rfl; simp at hil), ?_⟩
              rw [List.dropLast_append_getLast]
            have hii : i = init.length := by simpa using hlast
            subst hii
            simp only [List.getElem_append_right le_rfl, Nat.sub_self, List.getElem_cons_zero] at his ⊢
            rw [List.set_append_right _ _ le_rfl, Nat.sub_self, List.set_cons_zero]
            unfold starts at hcs ⊢
            rw [List.flatMap_append, List.map_append, ← hcs, List.flatMap_append, List.append_assoc]
            simp only [List.flatMap_cons, List.flatMap_nil, List.append_nil, List.map_cons,
              List.map_nil, List.append_cancel_left_eq]
            rw [List.replicate_succ', his]
          · rw [if_neg hrep] at h; simp at h
        · simp at h

/-- For penalties in order of their start index, the rank decisions are aligned with the
penalties: entry `i` says whether penalty `i` is the only one of its block. -/
theorem use_rank_aligned (ps : List LTerm) (hs : (ps.map (·.start)).Pairwise (· ≤ ·))
    (bs : List Blk) (h : collect ps = some bs) :
    useRank bs = ps.map fun p => decide ((ps.filter fun q => q.start = p.start).length = 1) := by
  unfold collect at h
  obtain ⟨⟨cs, m⟩, h1, h2⟩ := Option.map_eq_some_iff.1 h
  simp only at h2
  subst h2
  have hc := collect_inv ps cs m h1
  have hst := starts_sorted ps hs cs m h1
  have e1 : ps.map (fun p => decide ((ps.filter fun q => q.start = p.start).length = 1))
      = (ps.map (·.start)).map fun s => decide ((ps.filter fun q => q.start = s).length = 1) := by
    rw [List.map_map]; rfl
  rw [e1, ← hst]
  unfold starts useRank
  rw [List.map_flatMap]
  refine List.flatMap_congr fun b hb => ?_
  rw [List.map_replicate, ← (hc.sums b hb).2.1]
  by_cases hb1 : b.terms = 1
  · simp [hb1]
  · simp [hb1]

/-- Three single coefficient blocks with a gap: block 0 at coefficient 1, block 1 with two penalties
at coefficient 3 (an unpenalised coefficient lies between, for instance the intercept of a second
formula).  The pseudo-inverse of block 1 is placed at coefficient 2, where the penalty is zero. -/
theorem pinv_misplaced :
    let ps : List LTerm := [pen1 1 none, pen1 3 none, pen1 3 none]
    ∃ bs, collect ps = some bs ∧
      totalPinv (fun b => [(0, 0, (b.S 0 0)⁻¹)]) bs 3 3 = 0 ∧
      totalPinv (fun b => [(0, 0, (b.S 0 0)⁻¹)]) bs 2 2 = 1 / 2 ∧
      totalS ps 3 3 = 2 ∧ totalS ps 2 2 = 0 := by
  refine ⟨[⟨fun i j => (pen1 1 none).SJ i j * 1, 1, 1, 1, 1⟩,
    ⟨fun i j => (pen1 3 none).SJ i j * 1 + (pen1 3 none).SJ i j * 1, 1, 2, 1, 3⟩], ?_, ?_, ?_, ?_, ?_⟩
  · simp [collect, collectStep, pen1, List.range_succ]
  · simp [totalPinv, pinvStep, coo, shiftT, pen1]
  · simp [totalPinv, pinvStep, coo, shiftT, pen1]
    norm_num
  · simp [totalS, pen1, coo]
    norm_num
  · simp [totalS, pen1, coo]

/-! ### Concrete cases -/

/-- Two contiguous blocks, the second with two penalties: the trace identity applies to it. -/
example :
    let bs : List Blk := [⟨fun _ _ => 1, 1, 1, 1, 1⟩, ⟨fun _ _ => 2, 1, 2, 2, 2⟩]
    Contiguous bs ∧ totalPinv (fun _ => [(0, 0, 1 / 2)]) bs 3 3 = 1 / 2 := by
  have hc : Contiguous [⟨fun _ _ => 1, 1, 1, 1, 1⟩, ⟨fun _ _ => 2, 1, 2, 2, 2⟩] := by
    intro t b c hb hc
    match t with
    | 0 =>
      simp at hb hc
      subst hb hc
      rfl
    | t + 1 => simp at hc
  refine ⟨hc, ?_⟩
  have := (pinv_placed_partial (fun _ => [(0, 0, 1 / 2)]) _ hc (by
    intro b hb
    simp at hb
    rcases hb with rfl | rfl <;> · intro t ht; simp at ht; subst ht; norm_num) 1 _ rfl).1 1
      (by norm_num) 0 (by norm_num) 0 (by norm_num)
  simpa [coo] using this

/-- Ids 5, 5 and none: the total penalty is preserved. -/
example (sort : List LTerm → List LTerm) (hsort : ∀ l, (sort l).Perm l) :
    totalS (split sort (combine [pen1 0 (some 5), pen1 1 (some 5), pen1 2 none])) 2 2 = 1 := by
  rw [shared_total_partial sort hsort _ (by
      intro p hp; simp at hp; rcases hp with rfl | rfl | rfl <;> rfl) (by
      intro _ p hp i hi
      simp at hp
      rcases hp with rfl | rfl | rfl <;> simp [pen1] at hi <;> subst hi <;> simp [idCount, pen1])]
  simp [shared, idKeys, idCount, commonLam, pen1, coo]

end Verif.Pen
