import Verif.EmbedModel
import Verif.SparseModel

/-!
# Model of the placement of penalties

`terms.py`: `f.build_penalty` 641-1121 (from 802 on, with dropped coefficients), `irf.build_penalty` 1881-2042,
`ri.build_penalty` 2371-2430, `rs.build_penalty` 2783-2878, counts of `get_coef_info` 1368-1431, 2181-2227, 2490-2517,
2978-3020; `formula.py`: `build_penalties` 2058-2541, `unpenalized_coef` and `n_coef` 783-874.

The coordinate lists made by the penalty constructors (and `TP_pen`) are parameters `T`; roots (`D_J_emb`) and ranks are
left out. `nul A w` stands for the coordinate list of the null-space penalty computed at 2328-2347 for a penalty matrix
`A` with `w` columns. An embedding beyond the shape of the matrix raises in the source; here it is found by the check
at 2532 only.
-/

namespace Verif.Layout

open Verif.Pen Verif.Sp

/-- A `LambdaTerm`: term, whether it is a null-space penalty, `start_index`, `S_J_emb`, `S_J` with its number of columns,
`rep_sj`. -/
structure Pn where
  term : ℕ
  null : Bool
  start : ℕ
  S : Arr
  SJ : Arr
  k : ℕ
  rep : ℕ

/-- What `build_penalties` reads of a smooth term `f`: coefficients per level (`id_k` after 796-800), coordinate lists
of its penalties, number of levels of `by`, whether it has an id, `drop_coef`, number of variables,
`has_null_penalty`, and `RP[0].rank` if the penalty is of type `REPARAM1`. -/
structure Sm where
  k : ℕ
  T : List Trip
  levels : Option ℕ
  hasId : Bool
  drop : Option (List ℕ)
  nVars : ℕ
  null : Bool
  rp1 : Option ℕ
  penalized : Bool

/-- `n_coef` of `f.get_coef_info` (1394-1421). -/
def nCoef (s : Sm) : ℕ := s.k * s.levels.getD 1 - (s.drop.getD []).length

/-- Penalty of one level: as it is, or adjusted for dropped coefficients; with its number of columns (813-866,
1026-1108). -/
def levelPen (T : Trip) (k : ℕ) (drop : Option (List ℕ)) (offset : ℕ) : Trip × ℕ :=
  match drop with
  | none => (T, k)
  | some d => ((adjustDrop T d offset).1, k - (adjustDrop T d offset).2)

/-- One pass of the loop over the remaining levels (1018-1113). -/
def levelStep (ti : ℕ) (s : Sm) (T : Trip) (st : List Pn × ℕ) (lvl : ℕ) : List Pn × ℕ :=
  let a := levelPen T s.k s.drop ((lvl + 1) * s.k)
  let E := embedS a.1 none a.2 st.2
  (st.1 ++ [⟨ti, false, st.2, E.1, embedSj a.1 none, a.2, 1⟩], E.2)

/-- `f.build_penalty` (802-1121) for the coordinate list `T`. -/
def buildPen (ti : ℕ) (s : Sm) (T : Trip) (cur : ℕ) : List Pn × ℕ :=
  let a := levelPen T s.k s.drop 0
  let E := embedS a.1 none a.2 cur
  match s.levels with
  | none => ([⟨ti, false, cur, E.1, embedSj a.1 none, a.2, 1⟩], E.2)
  | some n =>
    if s.hasId then
      match s.drop with
      | none =>
        let F := embedS (tile (n - 1) s.k T) (some E.1) (s.k * (n - 1)) E.2
        ([⟨ti, false, cur, F.1, embedSj T none, s.k, n⟩], F.2)
      | some d =>
        let b := adjustDrop (tile (n - 1) s.k T) d s.k
        let F := embedS b.1 (some E.1) (s.k * (n - 1) - b.2) E.2
        ([⟨ti, false, cur, F.1, fun i j => F.1 (cur + i) (cur + j), F.2 - cur, 1⟩], F.2)
    else
      (List.range (n - 1)).foldl (levelStep ti s T) ([⟨ti, false, cur, E.1, embedSj a.1 none, a.2, 1⟩], E.2)

/-- State of the loops: penalties, `cur_pen_idx`, `prev_pen_idx`, `S_j_TP_last` with sizes, `TP_last_n`. -/
structure St where
  ps : List Pn
  cur : ℕ
  prev : ℕ
  acc : List (Arr × ℕ)
  n : ℕ

/-- Null-space penalties with sizes for the list `S_j_last` (2317-2370). -/
def nullPens (nul : Arr → ℕ → Trip) (s : Sm) (src : List (Arr × ℕ)) : List (Trip × ℕ) :=
  match s.rp1 with
  | none => src.map fun a => (nul a.1 a.2, a.2)
  | some r =>
    let k := (src.map (·.2)).headD 0
    (List.range (k - r)).map fun x => ([(r + x, r + x, 1)], k)

/-- One pass of the loop over null-space penalties (2373-2519). -/
def nullStep (ti : ℕ) (src added lastRep : ℕ) (st : St) (N : Trip × ℕ) : St :=
  let cur := st.prev
  let E := embedS N.1 none N.2 cur
  if src > 1 then
    { st with ps := st.ps ++ [⟨ti, true, cur, E.1, embedSj N.1 none, N.2, 1⟩], prev := E.2, cur := E.2 }
  else if added = 1 then
    if lastRep > 1 then
      let F := embedS (tile (lastRep - 1) N.2 N.1) (some E.1) (N.2 * (lastRep - 1)) E.2
      { st with ps := st.ps ++ [⟨ti, true, cur, F.1, embedSj N.1 none, N.2, lastRep⟩], cur := F.2 }
    else { st with ps := st.ps ++ [⟨ti, true, cur, E.1, embedSj N.1 none, N.2, 1⟩], cur := E.2 }
  else
    let r := (List.range (added - 1)).foldl (fun (q : List Pn × ℕ) _ =>
        let G := embedS N.1 none N.2 q.2
        (q.1 ++ [⟨ti, true, q.2, G.1, embedSj N.1 none, N.2, 1⟩], G.2))
      (st.ps ++ [⟨ti, true, cur, E.1, embedSj N.1 none, N.2, 1⟩], E.2)
    { st with ps := r.1, cur := r.2 }

/-- 2302-2519: add the null-space penalties for `S_j_last = src`. -/
def addNull (nul : Arr → ℕ → Trip) (ti : ℕ) (s : Sm) (src : List (Arr × ℕ)) (added : ℕ) (st : St) : St :=
  let lastRep := if src.length = 1 then (st.ps.map (·.rep)).getLastD 1 else 1
  (nullPens nul s src).foldl (nullStep ti src.length added lastRep) st

/-- Whether a list of sums, one per level, is kept (2245-2249). -/
def perLevel (s : Sm) : Bool := s.drop.isSome && s.levels.isSome && !s.hasId

/-- Sum of two lists of matrices, position by position (2261-2264, 2276). -/
def addAcc (a b : List (Arr × ℕ)) : List (Arr × ℕ) :=
  List.zipWith (fun x y => ((fun i j => x.1 i j + y.1 i j), y.2)) a b

/-- The last `m` penalties with sizes. -/
def lastPens (m : ℕ) (ps : List Pn) : List (Arr × ℕ) := (ps.drop (ps.length - m)).map fun p => (p.SJ, p.k)

/-- One pass of the loop over the penalties of a smooth term (2203-2519). -/
def penStep (nul : Arr → ℕ → Trip) (ti : ℕ) (s : Sm) (st : St) (penid : ℕ) : St :=
  let cur := if penid > 0 then st.prev else st.cur
  let b := buildPen ti s (s.T.getD penid []) cur
  let ps := st.ps ++ b.1
  if s.null = false then { st with ps := ps, cur := b.2 }
  else if s.nVars > 1 then
    let new := if perLevel s then lastPens (s.levels.getD 1) ps else lastPens 1 ps
    let acc := if penid = 0 then new else addAcc st.acc new
    let n := st.n + b.1.length
    if penid < s.T.length - 1 then { ps := ps, cur := b.2, prev := st.prev, acc := acc, n := n }
    else addNull nul ti s acc (n / s.nVars) { ps := ps, cur := b.2, prev := st.prev, acc := acc, n := n }
  else addNull nul ti s (lastPens 1 ps) b.1.length { st with ps := ps, cur := b.2 }

/-- One pass of the loop over smooth terms (2159-2522); `none` is the `KeyError` at 2192. -/
def smoothStep (nul : Arr → ℕ → Trip) (st : Option (List Pn × ℕ × ℕ)) (t : ℕ × Sm) : Option (List Pn × ℕ × ℕ) :=
  st.bind fun st =>
    if t.2.penalized then
      let r := (List.range t.2.T.length).foldl (penStep nul t.1 t.2) ⟨st.1, st.2.1, st.2.2, [], 0⟩
      some (r.ps, r.cur, r.cur)
    else if st.1 = [] then some (st.1, st.2.1, st.2.1)
    else none

/-- What is read of an impulse response term. -/
structure Ir where
  k : ℕ
  T : List Trip
  levels : Option ℕ
  hasId : Bool
  penalized : Bool

/-- `n_coef` of `irf.get_coef_info` (2199-2217). -/
def irCoef (s : Ir) : ℕ := s.k * s.levels.getD 1

/-- `irf.build_penalty` (1957-2042). -/
def buildIr (ti : ℕ) (s : Ir) (T : Trip) (cur : ℕ) : List Pn × ℕ :=
  let E := embedS T none s.k cur
  match s.levels with
  | none => ([⟨ti, false, cur, E.1, embedSj T none, s.k, 1⟩], E.2)
  | some n =>
    if s.hasId then
      let F := (List.range (n - 1)).foldl (fun (q : Arr × ℕ) _ => embedS T (some q.1) s.k q.2) E
      ([⟨ti, false, cur, F.1, embedSj T none, s.k, n⟩], F.2)
    else
      (List.range (n - 1)).foldl (fun (q : List Pn × ℕ) _ =>
        let G := embedS T none s.k q.2
        (q.1 ++ [⟨ti, false, q.2, G.1, embedSj T none, s.k, 1⟩], G.2))
        ([⟨ti, false, cur, E.1, embedSj T none, s.k, 1⟩], E.2)

/-- One pass of the loop over the penalties of an impulse response term (2144-2154). -/
def irPenStep (ti : ℕ) (s : Ir) (st : List Pn × ℕ × ℕ) (penid : ℕ) : List Pn × ℕ × ℕ :=
  let b := buildIr ti s (s.T.getD penid []) (if penid > 0 then st.2.2 else st.2.1)
  (st.1 ++ b.1, b.2, st.2.2)

/-- One pass of the loop over impulse response terms (2101-2157): penalties, `cur_pen_idx`, `prev_pen_idx`,
`start_idx`; `none` is the `KeyError` at 2134. -/
def irStep (st : Option (List Pn × ℕ × ℕ × ℕ)) (t : ℕ × Ir) : Option (List Pn × ℕ × ℕ × ℕ) :=
  st.bind fun st =>
    if t.2.penalized then
      let r := (List.range t.2.T.length).foldl (irPenStep t.1 t.2) (st.1, st.2.1, st.2.2.1)
      some (r.1, r.2.1, r.2.1, st.2.2.2)
    else if st.1 = [] then
      let start := st.2.2.2 + irCoef t.2
      some (st.1, start, start, start)
    else none

/-- A random intercept or slope: coefficients per penalty and number of penalties (levels of `by`, else one). -/
structure Rd where
  k : ℕ
  n : ℕ

/-- Coordinate list of the identity (penalties.py 626-644). -/
def eyeT (k : ℕ) : Trip := (List.range k).map fun i => (i, i, 1)

/-- `ri.build_penalty` (2408-2430) and `rs.build_penalty` (2820-2878), called at 2524-2530. -/
def randStep (st : List Pn × ℕ) (t : ℕ × Rd) : List Pn × ℕ :=
  (List.range t.2.n).foldl (fun (q : List Pn × ℕ) _ =>
    let G := embedS (eyeT t.2.k) none t.2.k q.2
    (q.1 ++ [⟨t.1, false, q.2, G.1, embedSj (eyeT t.2.k) none, t.2.k, 1⟩], G.2)) st

/-- A formula: number of coefficients of linear terms; the other terms with their index. -/
structure Form where
  lin : ℕ
  irs : List (ℕ × Ir)
  sms : List (ℕ × Sm)
  rds : List (ℕ × Rd)

/-- `formula.n_coef` (784-873). -/
def Form.nCoef (F : Form) : ℕ :=
  F.lin + (F.irs.map fun t => irCoef t.2).sum + (F.sms.map fun t => Layout.nCoef t.2).sum
    + (F.rds.map fun t => t.2.k * t.2.n).sum

/-- `formula.unpenalized_coef` (783-874). -/
def Form.unpen (F : Form) : ℕ :=
  F.lin + (F.irs.map fun t => if t.2.penalized then 0 else irCoef t.2).sum
    + (F.sms.map fun t => if t.2.penalized then 0 else Layout.nCoef t.2).sum

/-- `build_penalties` (2089-2541); `none` is an exception. -/
def buildPenalties (nul : Arr → ℕ → Trip) (F : Form) : Option (List Pn) :=
  let start := F.unpen
  (F.irs.foldl irStep (some ([], start, start, start))).bind fun r =>
  (F.sms.foldl (smoothStep nul) (some (r.1, r.2.1, r.2.2.1))).bind fun r =>
  let q := F.rds.foldl randStep (r.1, r.2.1)
  if q.2 ≠ F.nCoef then none else some q.1

end Verif.Layout
