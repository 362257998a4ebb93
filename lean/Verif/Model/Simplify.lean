import Verif.Model.Select

/-!
# Model of `simplify_hierarchy`, cluster_trees.py:774-831

Arrays indexed by `cluster - n_points` are functions of the cluster id.  Exact arithmetic instead of float32.
-/

namespace Verif
variable {L S : Type*}

/-- Arrays of the first loop, cluster_trees.py:781-787. -/
structure SimpState (L : Type*) where
  /-- `leaf_indicator` -/
  leaf : ℕ → Bool
  /-- `max_births` -/
  births : ℕ → L
  /-- `parent_map` -/
  pmap : ℕ → ℕ
  /-- `lambda_map`; `none`: no such key -/
  lmap : ℕ → Option L

/-- Initial values, cluster_trees.py:781-787.  Of several assignments to one entry of `max_births` the last one counts; entries
of clusters that are nobody's parent stay uninitialised in the code and are 0 here (every cluster of a condensed tree is a
parent). -/
def simpInit [Zero L] (rows ct : List (CRow L S)) : SimpState L where
  leaf c := decide (∀ row ∈ ct, row.parent ≠ c)
  births := rows.foldl (fun b row => Function.update b row.parent row.lam) (fun _ => 0)
  pmap c := c
  lmap _ := none

/-- Body of the first loop for the pair of rows `idx - 1` (`r1`) and `idx` (`r2`), cluster_trees.py:791-808. -/
def simpStep [LinearOrder L] [Sub L] (thr : L) (st : SimpState L) (r1 r2 : CRow L S) : SimpState L :=
  let b1 := st.births r1.child
  let b2 := st.births r2.child
  let st := { st with births := Function.update st.births r2.parent (max (st.births r2.parent) (max b1 b2)) }
  if thr ≤ min b1 b2 - r2.lam then st
  else
    let sib := if b1 ≤ b2 then r2.child else r1.child
    let oth := if b1 ≤ b2 then r1.child else r2.child
    let pm := Function.update (Function.update st.pmap r1.child r2.parent) r2.child r2.parent
    if st.leaf sib then { st with leaf := Function.update st.leaf r2.parent true, pmap := pm }
    else { st with lmap := Function.update st.lmap oth (some r2.lam), pmap := pm }

/-- The first loop, over the cluster tree from the end in pairs, cluster_trees.py:790-808. -/
def simpLoop [LinearOrder L] [Sub L] (thr : L) : SimpState L → List (CRow L S) → SimpState L
  | st, r2 :: r1 :: rest => simpLoop thr (simpStep thr st r1 r2) rest
  | st, _ => st

/-- Propagation of `parent_map`, cluster_trees.py:812-813. -/
def simpPropagate (n k : ℕ) (pm : ℕ → ℕ) : ℕ → ℕ :=
  (List.range' n k).foldl (fun pm i => Function.update pm i (pm (pm i))) pm

/-- `n_skipped` and the consecutive numbering, cluster_trees.py:811, 814-816. -/
def simpNumber (n k : ℕ) (pm : ℕ → ℕ) : (ℕ → ℕ) × (ℕ → Bool) :=
  (List.range' n k).foldl (fun st i =>
    let parent := st.1 i
    let skipped := Function.update st.2 i (decide (parent ≠ i))
    (Function.update st.1 i (parent - ((List.range' n (parent - n)).filter fun j => skipped j).length), skipped))
    (pm, fun _ => false)

/-- `simplify_hierarchy`, cluster_trees.py:774-831.  `none`: `cluster_tree.child[-1]` of an empty cluster tree, an access
outside the array. -/
def simplifyHierarchy [LinearOrder L] [Sub L] [Zero L] [One S] [LT S] [DecidableLT S] (thr : L)
    (rows : List (CRow L S)) : Option (List (CRow L S)) :=
  let ct := clusterTree rows
  match ct.getLast?, rows with
  | some last, row0 :: _ =>
    let n := row0.parent
    let k := last.child + 1 - n
    let st := simpLoop thr (simpInit rows ct) ct.reverse
    let r := simpNumber n k (simpPropagate n k st.pmap)
    some (rows.filterMap fun row =>
      if r.2 (max row.child n) then none
      else some ⟨r.1 row.parent, if n ≤ row.child then r.1 row.child else row.child,
        (st.lmap row.parent).getD row.lam, row.size⟩)
  | _, _ => none

end Verif
