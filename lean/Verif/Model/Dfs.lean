/-!
# Depth-first search with an explicit stack

The repository contains the same loop many times (`while let Some(x) = stack.pop() { for y in
successors(x) { if !visited[y] { stack.push(y) } visited[y] = true; } }`); the model has it once.
-/

namespace Ere

/-- Body of the `for` loop: push the unvisited successors, mark all. The stack's top is the head of the
list. An index outside `visited` panics in Rust; here it is ignored, and excluded by well-formedness
in the theorems. (working_nfa.rs 470-475, 500-505, 520-531, 553-558, 785-798, 818-823, 873-888,
950-964.) -/
def dfsVisit (stack : List Nat) (vis : List Bool) : List Nat → List Nat × List Bool
  | [] => (stack, vis)
  | y :: ys =>
    if vis[y]? = some false then dfsVisit (y :: stack) (vis.set y true) ys
    else dfsVisit stack vis ys

/-- The `while let Some(x) = stack.pop()` loop with fuel (never exhausted: `dfs_correct`). -/
def dfsLoop (succ : Nat → List Nat) : Nat → List Nat → List Bool → List Bool
  | 0, _, vis => vis
  | _ + 1, [], vis => vis
  | fuel + 1, x :: stack, vis =>
    let r := dfsVisit stack vis (succ x)
    dfsLoop succ fuel r.1 r.2

/-- The whole search. Each iteration pops one element and each element is pushed at most once, so
`stack.length + number of unvisited + 1` iterations are enough. -/
def dfs (succ : Nat → List Nat) (stack : List Nat) (vis : List Bool) : List Bool :=
  dfsLoop succ (stack.length + vis.count false + 1) stack vis

end Ere
