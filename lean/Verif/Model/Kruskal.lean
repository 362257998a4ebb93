import Verif.Spec.Graph
import Mathlib.Logic.Function.Basic

/-!
# Model of the three Kruskal cores of `fast_hdbscan/kruskal.py`

The arrays `weights`, `row_indices`, `col_indices` together with `sorted_order` are given as the
list of edges in the order in which the loop visits them.  All three functions contain the same
inlined find and union code, modelled once.
-/

namespace Verif
variable {W : Type*}

/-- `root = x; while pred[root] != root: root = pred[root]`
(kruskal.py:73-75, 83-85, 195-197, 205-207, 234-236, 359-361, 369-371); first argument: fuel. -/
def chaseRoot : ℕ → (ℕ → ℕ) → ℕ → ℕ
  | 0, _, x => x
  | f + 1, p, x => if p x ≠ x then chaseRoot f p (p x) else x

/-- `curr = x; while curr != root: nxt = pred[curr]; pred[curr] = root; curr = nxt`
(kruskal.py:76-80, 86-90, 198-202, 208-212, 362-366, 372-376). -/
def compressPath : ℕ → (ℕ → ℕ) → ℕ → ℕ → (ℕ → ℕ)
  | 0, p, _, _ => p
  | f + 1, p, r, c => if c ≠ r then compressPath f (Function.update p c r) r (p c) else p

/-- Find with full path compression: returns the new parent array and the root. -/
def findCompress (n : ℕ) (p : ℕ → ℕ) (x : ℕ) : (ℕ → ℕ) × ℕ :=
  let r := chaseRoot n p x
  (compressPath n p r x, r)

/-- Union by rank (kruskal.py:99-106, 252-264, 397-409): returns `(new_root, old_root, rank)`;
the caller stores `predecessors[old_root] = new_root`. -/
def unionRank (rank : ℕ → ℕ) (ru rv : ℕ) : ℕ × ℕ × (ℕ → ℕ) :=
  if rank ru > rank rv then (ru, rv, rank)
  else if rank ru < rank rv then (rv, ru, rank)
  else (ru, rv, Function.update rank ru (rank ru + 1))

/-- Local variables of `_kruskal_core`: `predecessors`, `rank`, `mst_edges[:n_mst]`. -/
structure KState (W : Type*) where
  pred : ℕ → ℕ
  rank : ℕ → ℕ
  mst : List (Edge W)

/-- Loop body of `_kruskal_core`, kruskal.py:62-106.  `break` (lines 63-64) is modelled as doing
nothing for all remaining edges: the tested counter does not change any more. -/
def kruskalStep (n : ℕ) (s : KState W) (e : Edge W) : KState W :=
  if s.mst.length = n - 1 then s
  else if e.u = e.v then s
  else
    let fu := findCompress n s.pred e.u
    let fv := findCompress n fu.1 e.v
    if fu.2 ≠ fv.2 then
      let un := unionRank s.rank fu.2 fv.2
      { pred := Function.update fv.1 un.2.1 un.1
        rank := un.2.2
        mst := s.mst ++ [e] }
    else { s with pred := fv.1 }

/-- `_kruskal_core`, kruskal.py:31-108.  `es`: the edges in `sorted_order`. -/
def kruskalCore (n : ℕ) (es : List (Edge W)) : KState W :=
  es.foldl (kruskalStep n) ⟨fun x => x, fun _ => 0, []⟩

/-- `_get_component_labels_jit`, kruskal.py:111-126. -/
def componentLabel (n : ℕ) (p : ℕ → ℕ) (i : ℕ) : ℕ := chaseRoot n p (p i)

/-! ## Pairwise constraints -/

/-- The linked-list pool of `_kruskal_core_constrained` (kruskal.py:160-166).
`-1` is `none`. -/
structure Pool where
  vertex : ℕ → ℕ
  next : ℕ → Option ℕ
  head : ℕ → Option ℕ
  tail : ℕ → Option ℕ
  csize : ℕ → ℕ
  idx : ℕ

/-- `np.empty`/`np.full(-1)`/`np.zeros`, kruskal.py:160-169.  The uninitialised `pool_vertex` is
represented by zeros; entries are written before they are read. -/
def Pool.empty : Pool := ⟨fun _ => 0, fun _ => none, fun _ => none, fun _ => none, fun _ => 0, 0⟩

/-- Body of the inner initialisation loop, kruskal.py:172-179. -/
def Pool.push (i : ℕ) (P : Pool) (c : ℕ) : Pool :=
  { vertex := Function.update P.vertex P.idx c
    next := match P.tail i with
      | some t => Function.update P.next t (some P.idx)
      | none => P.next
    head := match P.tail i with
      | some _ => P.head
      | none => Function.update P.head i (some P.idx)
    tail := Function.update P.tail i (some P.idx)
    csize := Function.update P.csize i (P.csize i + 1)
    idx := P.idx + 1 }

/-- Initialisation, kruskal.py:168-179.  `cl i` is row `i` of the constraint CSR,
i.e. `cl_indices[cl_indptr[i]:cl_indptr[i+1]]`. -/
def Pool.init (n : ℕ) (cl : ℕ → List ℕ) : Pool :=
  (List.range n).foldl (fun P i => (cl i).foldl (Pool.push i) P) Pool.empty

/-- The scan `while cur >= 0`, kruskal.py:227-241; first argument: fuel. -/
def Pool.scan (n : ℕ) (p : ℕ → ℕ) (P : Pool) (big : ℕ) : ℕ → Option ℕ → Bool
  | _, none => false
  | 0, some _ => false
  | f + 1, some c =>
    if chaseRoot n p (P.vertex c) = big then true else Pool.scan n p P big f (P.next c)

/-- Conflict check, kruskal.py:217-241. -/
def Pool.conflict (n : ℕ) (p : ℕ → ℕ) (P : Pool) (ru rv : ℕ) : Bool :=
  if P.csize ru > 0 ∧ P.csize rv > 0 then
    let small := if P.csize ru ≤ P.csize rv then ru else rv
    let big := if P.csize ru ≤ P.csize rv then rv else ru
    Pool.scan n p P big P.idx (P.head small)
  else false

/-- Merging the conflict lists, kruskal.py:266-277. -/
def Pool.merge (P : Pool) (new old : ℕ) : Pool :=
  let P' : Pool :=
    if (P.head old).isSome then
      { P with
        next := match P.tail new with
          | some t => Function.update P.next t (P.head old)
          | none => P.next
        head := match P.tail new with
          | some _ => P.head
          | none => Function.update P.head new (P.head old)
        tail := Function.update P.tail new (P.tail old)
        csize := Function.update P.csize new (P.csize new + P.csize old) }
    else P
  { P' with
    head := Function.update P'.head old none
    tail := Function.update P'.tail old none
    csize := Function.update P'.csize old 0 }

/-- Local variables of `_kruskal_core_constrained`. -/
structure CState (W : Type*) extends KState W where
  pool : Pool

/-- Loop body of `_kruskal_core_constrained`, kruskal.py:184-277. -/
def constrainedStep (n : ℕ) (s : CState W) (e : Edge W) : CState W :=
  if s.mst.length = n - 1 then s
  else if e.u = e.v then s
  else
    let fu := findCompress n s.pred e.u
    let fv := findCompress n fu.1 e.v
    if fu.2 = fv.2 then { s with pred := fv.1 }
    else if s.pool.conflict n fv.1 fu.2 fv.2 then { s with pred := fv.1 }
    else
      let un := unionRank s.rank fu.2 fv.2
      { pred := Function.update fv.1 un.2.1 un.1
        rank := un.2.2
        mst := s.mst ++ [e]
        pool := s.pool.merge un.1 un.2.1 }

/-- `_kruskal_core_constrained`, kruskal.py:129-279. -/
def constrainedCore (n : ℕ) (cl : ℕ → List ℕ) (es : List (Edge W)) : CState W :=
  es.foldl (constrainedStep n) ⟨⟨fun x => x, fun _ => 0, []⟩, Pool.init n cl⟩

/-! ## Group constraints -/

/-- Local variables of `_kruskal_core_group_constrained`; `mask r w` is `comp_mask[r, w]`. -/
structure GState (W : Type*) extends KState W where
  mask : ℕ → ℕ → BitVec 64

/-- Bit mask initialisation, kruskal.py:336-343. -/
def groupMaskInit (n : ℕ) (g : ℕ → ℤ) (i w : ℕ) : BitVec 64 :=
  if i < n ∧ 0 ≤ g i ∧ w = (g i).toNat / 64 then 0#64 ||| (1#64 <<< ((g i).toNat % 64)) else 0#64

/-- Conflict check, kruskal.py:383-387. -/
def groupConflict (nWords : ℕ) (mask : ℕ → ℕ → BitVec 64) (ru rv : ℕ) : Bool :=
  (List.range nWords).any (fun w => (mask ru w &&& mask rv w) != 0#64)

/-- Loop body of `_kruskal_core_group_constrained`, kruskal.py:348-415. -/
def groupStep (n nWords : ℕ) (s : GState W) (e : Edge W) : GState W :=
  if s.mst.length = n - 1 then s
  else if e.u = e.v then s
  else
    let fu := findCompress n s.pred e.u
    let fv := findCompress n fu.1 e.v
    if fu.2 = fv.2 then { s with pred := fv.1 }
    else if groupConflict nWords s.mask fu.2 fv.2 then { s with pred := fv.1 }
    else
      let un := unionRank s.rank fu.2 fv.2
      { pred := Function.update fv.1 un.2.1 un.1
        rank := un.2.2
        mst := s.mst ++ [e]
        mask := fun r w => if r = un.1 ∧ w < nWords then s.mask r w ||| s.mask un.2.1 w
          else s.mask r w }

/-- `_kruskal_core_group_constrained`, kruskal.py:282-417; `n_words = (n_groups + 63) // 64`
(line 335). -/
def groupCore (n : ℕ) (g : ℕ → ℤ) (nGroups : ℕ) (es : List (Edge W)) : GState W :=
  es.foldl (groupStep n ((nGroups + 63) / 64)) ⟨⟨fun x => x, fun _ => 0, []⟩, groupMaskInit n g⟩

end Verif
