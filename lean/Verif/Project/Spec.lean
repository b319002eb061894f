import Verif.CSR.Spec

/-! # Weighted co-membership graph of a bipartite edge list (actor `u`, team `v`, weight `w`) -/

namespace NC

/-- No edge is listed twice. -/
def DistinctEdges (edges : List Edge) : Prop := edges.Pairwise fun e f => ¬ (e.u = f.u ∧ e.v = f.v)

/-- Sum over the teams of the products of the weights of `i` and `j`. -/
def comembership (edges : List Edge) (i j : ℕ) : ℚ :=
  (edges.map fun e => (edges.map fun f => if e.u = i ∧ f.u = j ∧ e.v = f.v then e.w * f.w else 0).sum).sum

/-- Two actors are in a common team. -/
def Linked (edges : List Edge) (i j : ℕ) : Prop := i ≠ j ∧ ∃ e ∈ edges, ∃ f ∈ edges, e.u = i ∧ f.u = j ∧ e.v = f.v

/-- Total weight of the members of a team. -/
def teamWeight (edges : List Edge) (a : ℕ) : ℚ := (edges.map fun e => if e.v = a then e.w else 0).sum

/-- Number of members of a team. -/
def teamSize (edges : List Edge) (a : ℕ) : ℕ := edges.countP fun e => e.v = a

/-- `Σ_a m_a (m_a - m_a / size)` over the teams. -/
def projectionNorm (edges : List Edge) : ℚ :=
  ∑ a ∈ (edges.map (·.v)).toFinset, teamWeight edges a * (teamWeight edges a - teamWeight edges a / teamSize edges a)

/-- Total weight of an actor. -/
def actorWeight (edges : List Edge) (i : ℕ) : ℚ := (edges.map fun e => if e.u = i then e.w else 0).sum

end NC
