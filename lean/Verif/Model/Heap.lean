import Mathlib.Logic.Function.Basic
import Mathlib.Data.Nat.Notation
import Mathlib.Order.Defs.LinearOrder

/-!
# Model of the heaps in `numba_kdtree.py`

A heap row is an array `ℕ → W × J` of (priority, index) pairs; the code keeps the two halves in two arrays and always treats
them alike.
-/

namespace Verif
variable {W J α K : Type*}

/-- `h[i], h[j] = h[j], h[i]`. -/
def swapAt (h : ℕ → α) (i j : ℕ) : ℕ → α := Function.update (Function.update h i (h j)) j (h i)

/-- Assignment to a variable declared `uint16`. -/
def u16 (x : ℕ) : ℕ := x % 65536

/-- The case distinction in the loop of `simple_heap_push`, numba_kdtree.py:606-625; `none` is `break`. -/
def pushChild [LinearOrder W] (size : ℕ) (p : W) (h : ℕ → W × J) (i : ℕ) : Option ℕ :=
  let ic1 := u16 (2 * i + 1)
  let ic2 := u16 (ic1 + 1)
  if ic1 ≥ size then none
  else if ic2 ≥ size then (if (h ic1).1 > p then some ic1 else none)
  else if (h ic1).1 ≥ (h ic2).1 then (if p < (h ic1).1 then some ic1 else none)
  else (if p < (h ic2).1 then some ic2 else none)

/-- The loop of `simple_heap_push` and the final store, numba_kdtree.py:605-633; the first argument is fuel, `none` means
that it ran out. -/
def pushLoop [LinearOrder W] (size : ℕ) (p : W) (n : J) : ℕ → (ℕ → W × J) → ℕ → Option (ℕ → W × J)
  | 0, _, _ => none
  | f + 1, h, i =>
    match pushChild size p h i with
    | none => some (Function.update h i (p, n))
    | some s => pushLoop size p n f (Function.update h i (h s)) s

/-- `simple_heap_push`, numba_kdtree.py:593-635. -/
def heapPush [LinearOrder W] (size : ℕ) (h : ℕ → W × J) (p : W) (n : J) : Option (ℕ → W × J) :=
  if p ≥ (h 0).1 then some h else pushLoop size p n (size + 1) (Function.update h 0 (p, n)) 0

/-- The choice of `swap` in `siftdown` (numba_kdtree.py:649-657) and in `_sift_down_indices` (numba_kdtree.py:218-236).  `f` is
the value that is compared, `off` the offset of the heap in the array. -/
def siftChild [LinearOrder K] (f : α → K) (off size : ℕ) (h : ℕ → α) (elt : ℕ) : ℕ :=
  let left := elt * 2 + 1
  let right := left + 1
  let s := if f (h (off + elt)) < f (h (off + left)) then left else elt
  if right < size ∧ f (h (off + s)) < f (h (off + right)) then right else s

/-- `siftdown`, numba_kdtree.py:647-664, and `_sift_down_indices`, numba_kdtree.py:214-245 (first argument: fuel). -/
def siftDown [LinearOrder K] (f : α → K) (off size : ℕ) : ℕ → (ℕ → α) → ℕ → (ℕ → α)
  | 0, h, _ => h
  | g + 1, h, elt =>
    if elt * 2 + 1 < size then
      let s := siftChild f off size h elt
      if s = elt then h else siftDown f off size g (swapAt h (off + elt) (off + s)) s
    else h

/-- One row of `deheap_sort`, numba_kdtree.py:671-675, and the second loop of `_heapsort_indices`, numba_kdtree.py:264-266. -/
def drainHeap [LinearOrder K] (f : α → K) (off size : ℕ) (h : ℕ → α) : ℕ → α :=
  (List.range' 1 (size - 1)).reverse.foldl
    (fun h j => siftDown f off j j (swapAt h (off + 0) (off + j)) 0) h

/-- The first loop of `_heapsort_indices`, numba_kdtree.py:260-261. -/
def buildHeap [LinearOrder K] (f : α → K) (off size : ℕ) (h : ℕ → α) : ℕ → α :=
  (List.range (size / 2)).reverse.foldl (fun h i => siftDown f off size size h i) h

/-- `_heapsort_indices`, numba_kdtree.py:256-266. -/
def heapSort [LinearOrder K] (f : α → K) (left right : ℕ) (h : ℕ → α) : ℕ → α :=
  drainHeap f left (right - left) (buildHeap f left (right - left) h)

/-- The pushes of one query, one after the other. -/
def pushAll [LinearOrder W] (size : ℕ) : (ℕ → W × J) → List (W × J) → Option (ℕ → W × J)
  | h, [] => some h
  | h, p :: ps => (heapPush size h p.1 p.2).bind fun h' => pushAll size h' ps

end Verif
