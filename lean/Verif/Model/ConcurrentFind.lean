import Verif.Model.DisjointSet

/-!
# Concurrent executions of `ds_find`

`update_component_vectors` (boruvka.py:94-124) calls `ds_find` from the iterations of a parallel loop, all on the same parent
array.  Here each individual read and write of that array is one step; a schedule picks the thread that moves next.
-/

namespace Verif

/-- Program points inside `ds_find` (disjoint_set.py:23-26). -/
inductive FindPC
  /-- about to evaluate `parent[x] != x` -/
  | test
  /-- about to read `parent[x]` (first right-hand side) -/
  | read1
  /-- about to read the inner `parent[x]` of the second right-hand side -/
  | read2 (a : ℕ)
  /-- about to read the outer `parent[...]` of the second right-hand side -/
  | read3 (a b : ℕ)
  /-- about to store; `x` has already been overwritten with `a` -/
  | write (a c : ℕ)
  /-- returned `x` -/
  | done

/-- One thread: the value of its local variable `x` and its program point. -/
structure FindThread where
  x : ℕ
  pc : FindPC

/-- One atomic step of a thread, on the shared parent array. -/
def FindThread.step (p : ℕ → ℕ) (t : FindThread) : (ℕ → ℕ) × FindThread :=
  match t.pc with
  | .test => (p, if p t.x ≠ t.x then ⟨t.x, .read1⟩ else ⟨t.x, .done⟩)
  | .read1 => (p, ⟨t.x, .read2 (p t.x)⟩)
  | .read2 a => (p, ⟨t.x, .read3 a (p t.x)⟩)
  | .read3 a b => (p, ⟨a, .write a (p b)⟩)
  | .write a c => (Function.update p a c, ⟨t.x, .test⟩)
  | .done => (p, t)

/-- The global state: the shared array and all threads. -/
structure FindState where
  parent : ℕ → ℕ
  threads : ℕ → FindThread

/-- Thread `i` moves. -/
def FindState.step (s : FindState) (i : ℕ) : FindState :=
  let r := (s.threads i).step s.parent
  ⟨r.1, Function.update s.threads i r.2⟩

/-- Execution of a schedule. -/
def FindState.run (s : FindState) (sched : List ℕ) : FindState := sched.foldl FindState.step s

/-- All threads at the start of a find on their argument. -/
def FindState.start (p : ℕ → ℕ) (args : ℕ → ℕ) : FindState := ⟨p, fun i => ⟨args i, .test⟩⟩

/-- One call on a disjoint set. -/
inductive DSOp
  | union (x y : ℕ)
  | find (x : ℕ)

/-- Running a sequence of calls on the rank variant. -/
def dsRankRun (n : ℕ) (ops : List DSOp) : RankDS :=
  ops.foldl (fun d op => match op with
    | .union x y => dsUnionByRank n d x y
    | .find x => { d with parent := (dsFind n d.parent x).1 }) dsRankCreate

/-- Running a sequence of calls on the size variant. -/
def dsSizeRun (n : ℕ) (ops : List DSOp) : SizeDS :=
  ops.foldl (fun d op => match op with
    | .union x y => dsUnionBySize n d x y
    | .find x => { d with parent := (dsFind n d.parent x).1 }) dsSizeCreate

end Verif
