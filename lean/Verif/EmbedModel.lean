import Verif.PenModel

/-!
# Model of embedding, merging and summing penalties
(`penalties.py`: `create_id_dict` 26-49, `combine_shared_penalties` 52-115, `split_shared_penalties`
118-171, `embed_in_S_sparse` 228-273, `embed_in_Sj_sparse` 276-312, `embed_shared_penalties` 315-449;
`terms.py`: `f.build_penalty` 802-819, 872-911, 1001-1047, without dropped coefficients;
`gamm_solvers.py`: `compute_S_emb_pinv_det` 185-413)

Sparse matrices are functions of row and column; the shape is passed separately.  Building one from
coordinate lists sums the values listed for the same position.
-/

namespace Verif.Pen

/-- Coordinate lists: row, column, value. -/
abbrev Trip := List (ℕ × ℕ × ℝ)

/-- `scp.sparse.csc_array((data, (rows, cols)))`. -/
def coo (T : Trip) : Arr := fun r c => (T.map fun t => if t.1 = r ∧ t.2.1 = c then t.2.2 else 0).sum

/-- Adding an offset to all row and column indices. -/
def shiftT (o : ℕ) (T : Trip) : Trip := T.map fun t => (t.1 + o, t.2.1 + o, t.2.2)

/-- `embed_in_S_sparse` (260-273). -/
def embedS (T : Trip) (S : Option Arr) (SJcol cIndex : ℕ) : Arr × ℕ :=
  let E := coo (shiftT cIndex T)
  (match S with
    | none => E
    | some S => fun i j => S i j + E i j, cIndex + SJcol)

/-- `embed_in_Sj_sparse` (301-312). -/
def embedSj (T : Trip) (S : Option Arr) : Arr :=
  match S with
  | none => coo T
  | some S => fun i j => S i j + coo T i j

/-- `np.tile(data, n)` with the indices of repeat `t` moved by `t * k` (terms.py 880-884,
896-900). -/
def tile (n k : ℕ) (T : Trip) : Trip := (List.range n).flatMap fun t => shiftT (t * k) T

/-- The matrices of a `LambdaTerm`: `S_J` (with `k` columns), embedded penalty and root, repeats,
start index, rank. -/
structure Mats where
  SJ : Arr
  k : ℕ
  Semb : Arr
  Demb : Arr
  rep : ℕ
  start : ℕ
  rank : ℕ

/-- `LambdaTerm`.  `parts` holds the lists `S_Js`, `S_J_embs`, … of a merged term. -/
structure LTerm extends Mats where
  lam : ℝ
  id : Option ℕ
  parts : Option (List Mats)

/-- One penalty of a term without `by` factor, or with a `by` factor and an id (802-819, 872-911,
1001-1009): the same penalty for `levels` blocks of coefficients, one smoothing parameter.  Returns
the term and the next free index. -/
def buildShared (T Dl : Trip) (k rank levels cur : ℕ) (id : Option ℕ) (lam : ℝ) : LTerm × ℕ :=
  let SJ := embedSj T none
  let D1 := (embedS Dl none k cur).1
  let (S1, cur1) := embedS T none k cur
  let D2 := (embedS (tile (levels - 1) k Dl) (some D1) (k * (levels - 1)) cur1).1
  let (S2, cur2) := embedS (tile (levels - 1) k T) (some S1) (k * (levels - 1)) cur1
  ({ SJ := SJ, k := k, Semb := S2, Demb := D2, rep := levels, start := cur,
     rank := rank * levels, lam := lam, id := id, parts := none }, cur2)

/-- One penalty of a term with a `by` factor and without id: one `LambdaTerm` per level
(1011-1047, 1113). -/
def buildLevels (T Dl : Trip) (k rank : ℕ) (lams : List ℝ) (cur : ℕ) : List LTerm × ℕ :=
  lams.foldl (fun (st : List LTerm × ℕ) lam =>
    let D1 := (embedS Dl none k st.2).1
    let (S1, cur1) := embedS T none k st.2
    let t : LTerm := { SJ := embedSj T none, k := k, Semb := S1, Demb := D1, rep := 1,
                       start := st.2, rank := rank, lam := lam, id := none, parts := none }
    (st.1 ++ [t], cur1)) ([], cur)

/-! ### Several formulas -/

/-- Zero rows above and zero columns to the left (`vstack`/`hstack` at 343-376). -/
def padFront (n : ℕ) (A : Arr) : Arr := fun i j => if i < n ∨ j < n then 0 else A (i - n) (j - n)

/-- Zero rows below and zero columns to the right of a matrix of dimension `d` (382-416,
421-447). -/
def padBack (d : ℕ) (A : Arr) : Arr := fun i j => if d ≤ i ∨ d ≤ j then 0 else A i j

/-- One step of the inner loop of `embed_shared_penalties` for a penalty of formula `fi` and the
other formula `ofi` with `n` coefficients; the last component is the current dimension. -/
def padStep (fi : ℕ) (st : LTerm × ℕ) (o : ℕ × ℕ) : LTerm × ℕ :=
  if o.1 = fi then st
  else if o.1 < fi then
    ({ st.1 with Semb := padFront o.2 st.1.Semb, Demb := padFront o.2 st.1.Demb,
                 start := st.1.start + o.2 }, st.2 + o.2)
  else
    ({ st.1 with Semb := padBack st.2 st.1.Semb, Demb := padBack st.2 st.1.Demb }, st.2 + o.2)

/-- `embed_shared_penalties` for one penalty of formula `fi`; `ns` are the numbers of coefficients
of all formulas. -/
def embedFormula (ns : List ℕ) (fi : ℕ) (extra : Option ℕ) (p : LTerm) : LTerm × ℕ :=
  let st := (List.range ns.length).foldl (fun st o => padStep fi st (o, ns.getD o 0))
    (p, ns.getD fi 0)
  match extra with
  | none => st
  | some e => ({ st.1 with Semb := padBack st.2 st.1.Semb, Demb := padBack st.2 st.1.Demb },
      st.2 + e)

/-! ### Shared smoothing parameters -/

/-- Keys of the dictionary of `create_id_dict` in order of first occurrence. -/
def idKeys (ps : List LTerm) : List ℕ :=
  (ps.filterMap (·.id)).foldl (fun acc i => if i ∈ acc then acc else acc ++ [i]) []

/-- Number of penalties with a given id, `len(id_dict[id])`. -/
def idCount (ps : List LTerm) (i : ℕ) : ℕ := (ps.filter fun p => p.id = some i).length

/-- `create_id_dict(...) is not None` (46). -/
def shared (ps : List LTerm) : Bool := (idKeys ps).any fun i => 1 < idCount ps i

/-- Body of the loop at 74-113. -/
noncomputable def mergeId (ps : List LTerm) (i : ℕ) : Option LTerm :=
  match ps.filter fun p => p.id = some i with
  | [] => none
  | p :: rest =>
    let S := rest.foldl (fun S q => fun a b => S a b + q.Semb a b) p.Semb
    let D := rest.foldl (fun D q => fun a b => D a b + q.Demb a b) p.Demb
    let last := rest.getLast?.getD p
    some {
      SJ := fun a b => S (p.start + a) (p.start + b)
      k := last.start + last.k * last.rep - p.start
      Semb := S, Demb := D, rep := 1, start := p.start
      rank := ((p :: rest).map (·.rank)).sum
      lam := p.lam, id := some i
      parts := some ((p :: rest).map (·.toMats)) }

/-- Condition of the comprehension at 66-70: penalties kept as they are. -/
def unmerged (ps : List LTerm) (p : LTerm) : Bool :=
  match p.id with
  | none => true
  | some i => decide (idCount ps i ≤ 1)

/-- `combine_shared_penalties` (63-115). -/
noncomputable def combine (ps : List LTerm) : List LTerm :=
  if shared ps then ps.filter (unmerged ps) ++ (idKeys ps).filterMap (mergeId ps) else ps

/-- `split_shared_penalties` (132-171); `sort` stands for `sort_penalties`. -/
def split (sort : List LTerm → List LTerm) (ms : List LTerm) : List LTerm :=
  let keep := ms.filter fun m => m.parts.isNone
  let merged := ms.filter fun m => m.parts.isSome
  if merged.length = 0 then keep
  else sort (keep ++ merged.flatMap fun m => (m.parts.getD []).map fun q =>
    { toMats := q, lam := m.lam, id := m.id, parts := none })

/-! ### Total penalty and pseudo-inverse -/

/-- Loop at 233-240: `S_emb`. -/
def totalS (ps : List LTerm) : Arr :=
  match ps with
  | [] => fun _ _ => 0
  | p :: rest => rest.foldl (fun S q => fun i j => S i j + q.Semb i j * q.lam)
      (fun i j => p.Semb i j * p.lam)

/-- A block collected at 243-269: summed penalty, its size, number of penalties, repeats, start. -/
structure Blk where
  S : Arr
  k : ℕ
  terms : ℕ
  rep : ℕ
  start : ℕ

/-- One step of the loop at 243-269; the state holds the blocks and `SJ_idx_max`.  `none` is an
exception (`IndexError` at 261, `ValueError` at 260 and 267). -/
def collectStep (st : Option (List Blk × ℕ)) (p : LTerm) : Option (List Blk × ℕ) :=
  st.bind fun st =>
    if st.1 = [] ∨ p.start > st.2 then
      some (st.1 ++ [⟨fun i j => p.SJ i j * p.lam, p.k, 1, p.rep, p.start⟩], p.start)
    else
      match (List.range st.1.length).filter fun i => (st.1.map (·.start)).getD i 0 = p.start with
      | [i] => (st.1[i]?).bind fun b =>
          if b.rep = p.rep then
            some (st.1.set i { b with S := fun a c => b.S a c + p.SJ a c * p.lam,
                                      terms := b.terms + 1 }, st.2)
          else none
      | _ => none

def collect (ps : List LTerm) : Option (List Blk) := (ps.foldl collectStep (some ([], 0))).map (·.1)

/-- Loop at 285-372 for the pseudo-inverse: coordinate lists and running index.  `pinv b` is the
coordinate list of the pseudo-inverse computed for the block. -/
def pinvStep (pinv : Blk → Trip) (st : Trip × ℕ) (b : Blk) : Trip × ℕ :=
  if b.terms = 1 then (st.1, st.2 + b.k * b.rep)
  else (List.range b.rep).foldl (fun (st : Trip × ℕ) _ =>
    (st.1 ++ shiftT st.2 (pinv b), st.2 + b.k)) st

/-- `S_pinv` (273-276, 285-376). -/
def totalPinv (pinv : Blk → Trip) (bs : List Blk) : Arr :=
  match bs with
  | [] => fun _ _ => 0
  | b :: _ => coo (bs.foldl (pinvStep pinv) ([], b.start)).1

/-- `FS_use_rank` before the adjustment for shared ids (300, 371-372). -/
def useRank (bs : List Blk) : List Bool :=
  bs.flatMap fun b => if b.terms = 1 then [true] else List.replicate b.terms false

end Verif.Pen
