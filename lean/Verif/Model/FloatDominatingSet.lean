import Verif.Model.DominatingSet

/-!
# Model of `nodefinder/identify/_evaluate/_line/_dominating_set.py` in floating-point arithmetic

As `Model/DominatingSet`, with every arithmetic operation followed by a rounding `rnd`.  The shortest paths and their lengths are computed by networkx, which adds the lengths of the edges in floating-point arithmetic; it
is not modelled, and neither is the power `distance**4` of the C library: `DSLib` says which results are possible.
-/

noncomputable section
open Classical

namespace NF.FL
variable {V A : Type}

/-- The libraries: `pow4 x` is what `x**4` gives (line 34); `length g f s t` is what `nx.algorithms.shortest_path_length(g, s, t, weight=…)` gives, where `f` are the lengths of the edges (lines 79, 83, 98), and `none` stands for
`NetworkXNoPath`; `path g f s t p` says that `nx.algorithms.shortest_path(g, s, t, weight=…)` can return `p` (lines 113, 129). -/
structure DSLib (V : Type) where
  pow4 : ℝ → ℝ
  length : NxGraph V DSAttr → (V → V → ℝ) → V → V → Option ℝ
  path : NxGraph V DSAttr → (V → V → ℝ) → V → V → List V → Prop

variable (L : DSLib V) (rnd : ℝ → ℝ)

/-- _dominating_set.py:27, 31-34: `graph_copy` with the weights; as `NF.dsGraphCopy`. -/
def dsGraphCopy (g : NxGraph V ℝ) : NxGraph V DSAttr := ⟨g.nodes, g.edges.map fun e => (e.1, e.2.1, ⟨e.2.2, some (L.pow4 e.2.2)⟩)⟩

/-- _dominating_set.py:28-36: `graph_reduced_neighbours`; as `NF.dsReduced`. -/
def dsReduced (fs : ℝ) (g : NxGraph V ℝ) : NxGraph V Unit :=
  ⟨g.nodes, (g.edges.filter fun e => decide (e.2.2 < rnd (fs / 3))).map fun e => (e.1, e.2.1, ())⟩

/-- _dominating_set.py:75-91 for one pair of positions, as `NF.patchEntry`: `dist` are the distances that `coordinate_system.distance` computes. -/
def patchEntry (sub graph : NxGraph V DSAttr) (dist : V → V → ℝ) (fs : ℝ) (a b : V) : Except Err (Option (V × V × ℝ)) :=
  if dist a b < rnd (2 * fs) then
    match L.length sub (edgeDist sub) a b with
    | none => .error .noPath
    | some distReduced =>
      if distReduced > max fs (rnd (rnd 1.001 * dist a b)) then
        match L.length graph (edgeDist graph) a b with
        | none => .error .noPath
        | some distOriginal =>
          if distReduced > rnd (rnd 1.001 * distOriginal) ∧ distOriginal < rnd (2 * fs) then .ok (some (a, b, distOriginal)) else .ok none
      else .ok none
  else .ok none

/-- _dominating_set.py:70-91: `to_patch`; as `NF.toPatch`. -/
def toPatch (sub graph : NxGraph V DSAttr) (dist : V → V → ℝ) (fs : ℝ) : List (V × V) → Except Err (List (V × V × ℝ))
  | [] => .ok []
  | (a, b) :: rest => match patchEntry L rnd sub graph dist fs a b with
    | .error e => .error e
    | .ok o => match toPatch sub graph dist fs rest with
      | .error e => .error e
      | .ok l => .ok (o.toList ++ l)

/-- _dominating_set.py:94-106: the loop over the sorted `to_patch`; as `NF.PatchLoop`. -/
inductive PatchLoop (graph : NxGraph V DSAttr) : List (V × V × ℝ) → NxGraph V DSAttr → Except Err (NxGraph V DSAttr) → Prop
  | nil {sub} : PatchLoop graph [] sub (.ok sub)
  | noPath {sub a b o rest} : L.length sub (edgeDist sub) a b = none → PatchLoop graph ((a, b, o) :: rest) sub (.error .noPath)
  | skip {sub a b o rest r x} : L.length sub (edgeDist sub) a b = some x → ¬ x > rnd (2 * o) → PatchLoop graph rest sub r → PatchLoop graph ((a, b, o) :: rest) sub r
  | patch {sub a b o rest r x p} : L.length sub (edgeDist sub) a b = some x → x > rnd (2 * o) → L.path graph (edgeDist graph) a b p →
      PatchLoop graph rest (patchHole sub graph p) r → PatchLoop graph ((a, b, o) :: rest) sub r

/-- _dominating_set.py:129-133: the loop over the sorted edges; as `NF.RemoveLoop`. -/
inductive RemoveLoop : List (V × V) → NxGraph V DSAttr → NxGraph V DSAttr → Prop
  | nil {sub} : RemoveLoop [] sub sub
  | cons {sub x y rest p r} : L.path sub (edgeW sub) x y p → RemoveLoop rest (if p.length > 2 then sub.removeEdge x y else sub) r → RemoveLoop ((x, y) :: rest) sub r

/-- _dominating_set.py:122-133, `_remove_duplicate_paths`; as `NF.RemoveDuplicates`. -/
inductive RemoveDuplicates (sub : NxGraph V DSAttr) : Except Err (NxGraph V DSAttr) → Prop
  | noWeight {e} : e ∈ sub.edges → e.2.2.weight = none → RemoveDuplicates sub (.error .type)
  | ok {sorted r} : (∀ e ∈ sub.edges, e.2.2.weight ≠ none) → List.Perm sorted sub.edges →
      sorted.Pairwise (fun e f => f.2.2.weight.getD 0 ≤ e.2.2.weight.getD 0) → RemoveLoop L (sorted.map fun e => (e.1, e.2.1)) sub r → RemoveDuplicates sub (.ok r)

/-- _dominating_set.py:23-49, `_evaluate_line_dominating_set`, as `NF.EvalDominating`: `r` is a possible result. -/
inductive EvalDominating (g : NxGraph V ℝ) (dist : V → V → ℝ) (fs : ℝ) : Except Err (NxGraph V DSAttr) → Prop
  | collect {D e} : Greedy (dsReduced rnd fs g) D [] → toPatch L rnd (dsSubgraph g D) (dsGraphCopy L g) dist fs (pairs2 (dsSubgraph g D).nodes) = .error e → EvalDominating g dist fs (.error e)
  | patch {D l sorted e} : Greedy (dsReduced rnd fs g) D [] → toPatch L rnd (dsSubgraph g D) (dsGraphCopy L g) dist fs (pairs2 (dsSubgraph g D).nodes) = .ok l →
      List.Perm sorted l → sorted.Pairwise (fun a b => a.2.2 ≤ b.2.2) → PatchLoop L rnd (dsGraphCopy L g) sorted (dsSubgraph g D) (.error e) → EvalDominating g dist fs (.error e)
  | remove {D l sorted sub r} : Greedy (dsReduced rnd fs g) D [] → toPatch L rnd (dsSubgraph g D) (dsGraphCopy L g) dist fs (pairs2 (dsSubgraph g D).nodes) = .ok l →
      List.Perm sorted l → sorted.Pairwise (fun a b => a.2.2 ≤ b.2.2) → PatchLoop L rnd (dsGraphCopy L g) sorted (dsSubgraph g D) (.ok sub) → RemoveDuplicates L sub r →
      EvalDominating g dist fs r

end NF.FL
