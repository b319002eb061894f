import Verif.CSR.Lemmas
import Verif.NC.Props
import Mathlib.Algebra.BigOperators.Field

/-!
# C06: the edge list is loaded faithfully into the adjacency array
-/

namespace NC

/-- **C06.** For every edge list without self loops whose end points are node numbers (duplicate
pairs allowed), loading it into a fresh adjacency array and the nodes of a partition succeeds
without an out-of-bounds access, and
* the row of every node contains exactly one slot per incident edge, holding the opposite end
  and the (normalised) weight;
* the row extents are increasing and stay inside the arrays;
* the strength of a node is increased by the sum of its row (for nodes that start at 0, it *is*
  that sum); everything else in the partition is unchanged. -/
theorem C06_rows (edges : List Edge) (N : ℕ) (p : Partition) (nrm : Bool)
    (hN : p.N = N) (hl : LoopFree N edges) (h0 : ∀ i < N, (p.nodes i).strength = 0) :
    ∃ a p', EdgeListToAdjaArray edges (CreateAdjaArray N edges.length) p nrm = some (a, p') ∧
      a.N = N ∧ a.E = edges.length ∧
      (∀ i < N, rowOf a i =
        incident (if nrm then 2 * totalWeight edges else 1) i edges) ∧
      (∀ i < N, a.idx i ≤ a.idx (i + 1)) ∧ (∀ i ≤ N, a.idx i ≤ 2 * edges.length) ∧
      (∀ i < N, (p'.nodes i).strength = ((rowOf a i).map Prod.snd).sum) ∧
      p'.N = p.N ∧ p'.M = p.M ∧ p'.nempty = p.nempty ∧ p'.modules = p.modules ∧
      (∀ i < N, p'.nodes i = { p.nodes i with strength := (p'.nodes i).strength }) := by
  obtain ⟨a, p', h1, h2, h3, h4, h5, h6, h7, h8, h9, h10, h11⟩ :=
    EdgeList_spec (edges := edges) (adj := CreateAdjaArray N edges.length) (p := p) nrm
      rfl hN (by simp [CreateAdjaArray]) hl
  refine ⟨a, p', h1, h2, h3, h6, h4, h5, ?_, h7, h8, h9, h10, ?_⟩
  · intro i hi
    rw [h11 i hi, h6 i hi, incident_scale (if nrm = true then 2 * totalWeight edges else 1)]
    simp [h0 i hi]
  · intro i hi; rw [h11 i hi]

/-- **C06 (normalisation).** With normalisation and a nonzero total weight the node strengths add
up to one. -/
theorem C06_strengths_sum_to_one (edges : List Edge) (N : ℕ) (p : Partition) (a : Adj)
    (p' : Partition) (hN : p.N = N) (hl : LoopFree N edges)
    (h0 : ∀ i < N, (p.nodes i).strength = 0) (hw : totalWeight edges ≠ 0)
    (h : EdgeListToAdjaArray edges (CreateAdjaArray N edges.length) p true = some (a, p')) :
    ∑ i ∈ Finset.range N, (p'.nodes i).strength = 1 := by
  obtain ⟨a', q', h1, _, _, hr, _, _, hs, _⟩ := C06_rows edges N p true hN hl h0
  obtain ⟨rfl, rfl⟩ : a = a' ∧ p' = q' := by rw [h] at h1; simpa using h1
  have : ∀ i ∈ Finset.range N, (p'.nodes i).strength =
      ((incident 1 i edges).map Prod.snd).sum / (2 * totalWeight edges) := by
    intro i hi
    rw [hs i (Finset.mem_range.1 hi), hr i (Finset.mem_range.1 hi), incident_scale]; simp
  rw [Finset.sum_congr rfl this, ← Finset.sum_div, strength_total edges hl]
  field_simp

/-- **C06 (matrix).** When no pair of nodes is listed twice, the adjacency array represents the
symmetric weight matrix of the edge list, so that C02-C04 apply to it. -/
theorem C06_represents (edges : List Edge) (N : ℕ) (p : Partition) (nrm : Bool) (a : Adj)
    (p' : Partition) (hN : p.N = N) (hl : LoopFree N edges) (hd : NoDuplicates edges)
    (h0 : ∀ i < N, (p.nodes i).strength = 0)
    (h : EdgeListToAdjaArray edges (CreateAdjaArray N edges.length) p nrm = some (a, p')) :
    Represents a N (weightMatrix (if nrm then 2 * totalWeight edges else 1) edges) := by
  obtain ⟨a', q', h1, _, hE, hr, hm, hb, _⟩ := C06_rows edges N p nrm hN hl h0
  obtain ⟨rfl, rfl⟩ : a = a' ∧ p' = q' := by rw [h] at h1; simpa using h1
  exact represents_of_rows hl hd hm (by rw [hE]; exact hb) hr

/-- A triangle with a pendant node, weights 1, 2, 3, 4. -/
def paw : List Edge := [⟨0, 1, 1⟩, ⟨1, 2, 2⟩, ⟨2, 0, 3⟩, ⟨3, 0, 4⟩]

example : LoopFree 4 paw := by
  intro e he; simp [paw] at he; rcases he with rfl | rfl | rfl | rfl <;> decide
example : NoDuplicates paw := by unfold NoDuplicates paw; decide
example : totalWeight paw ≠ 0 := by simp [totalWeight, paw]; norm_num
example : incident 20 0 paw = [(1, 1 / 20), (2, 3 / 20), (3, 4 / 20)] := by
  simp [incident, paw]

/-! ## Self loops

The property needs the no-self-loop hypothesis: the two slots of a self loop coincide, so one of
the two cells reserved for it is never written and keeps the value 0, i.e. a phantom link to node
0.  The input reader does not filter self loops. -/

/-- **C06 (self loops).** With the edge list `1–1, 1–0` on two nodes, node 1 gets a row with a
self reference of strength 3 and a *phantom* neighbour slot (node 0, strength 0) although its
only other link has strength 5; the strength of node 1 counts the self loop twice, so it is not
the sum of its row. -/
theorem C06_self_loop_breaks :
    ∃ a p', (do
        let p ← CreatePartition 2 2
        EdgeListToAdjaArray [⟨1, 1, 3⟩, ⟨1, 0, 5⟩] (CreateAdjaArray 2 2) p false) = some (a, p') ∧
      rowOf a 1 ≠ incident 1 1 [⟨1, 1, 3⟩, ⟨1, 0, 5⟩] ∧
      (p'.nodes 1).strength ≠ ((rowOf a 1).map Prod.snd).sum := by
  refine ⟨_, _, rfl, ?_, ?_⟩
  · decide +kernel
  · decide +kernel

end NC
