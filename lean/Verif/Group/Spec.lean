import Verif.Group.Model

/-!
# Specification: recounting the links of a set of nodes
-/

namespace GP

/-- Weight of the link from `i` to `j`, if there is one. -/
def Net.link (net : Net) (i j : ℕ) : Option ℚ := ((net.neig i).find? fun x => x.1 = j).map (·.2)

/-- Symmetric networks without self links and without repeated links. -/
structure Net.Simple (net : Net) : Prop where
  nodup : ∀ i, ((net.neig i).map (·.1)).Nodup
  range : ∀ i, ∀ x ∈ net.neig i, x.1 < net.n
  sym : ∀ i j, net.link i j = net.link j i
  irrefl : ∀ i, net.link i i = none

/-- 1 for a link, 0 otherwise. -/
def Net.a (net : Net) (i j : ℕ) : Int := if (net.link i j).isSome then 1 else 0

/-- Weight of a link, 0 if there is none. -/
def Net.w (net : Net) (i j : ℕ) : ℚ := (net.link i j).getD 0

/-- The counters `tot`, `inn`, `out` are right for the set `S` among `n` nodes, when the links have
values `a`: `inn` is the value of the links inside (each seen from both ends), `out` of the links
leaving `S`, `tot` of both together. -/
def CountOK {R : Type} [CommRing R] (n : ℕ) (a : ℕ → ℕ → R) (S : Finset ℕ) (tot inn out : R) : Prop :=
  2 * inn = ∑ i ∈ S, ∑ j ∈ S, a i j ∧
  out = ∑ i ∈ S, ∑ j ∈ (Finset.range n) \ S, a i j ∧
  tot = inn + out

/-- All fields of the group are right, its members being `S`. -/
structure GroupOK (net : Net) (S : Finset ℕ) (G : Grp) : Prop where
  nodup : G.nodes.Nodup
  mem : G.nodes.toFinset = S
  size : G.size = S.card
  links : CountOK net.n net.a S G.totlinks G.inlinks G.outlinks
  weights : CountOK net.n net.w S G.totlinksW G.inlinksW G.outlinksW

/-- Nodes whose `inGroup` field says `g`. -/
def members (net : Net) (p : Part) (g : ℕ) : Finset ℕ :=
  (Finset.range net.n).filter fun v => p.inGroup v = some g

/-- The whole partition of `m` groups is consistent. -/
structure PartOK (net : Net) (m : ℕ) (p : Part) : Prop where
  groups : ∀ g < m, GroupOK net (members net p g) (p.grp g)
  range : ∀ v g, p.inGroup v = some g → v < net.n ∧ g < m

/-- Operations. -/
inductive Op where
  | add (v g : ℕ)
  | move (v g1 g2 : ℕ)
  | merge (g1 g2 : ℕ)
deriving DecidableEq, Repr

/-- Admissible operations: a node is added when it is in no group, merged groups are different;
groups and nodes exist. -/
def Op.ok (net : Net) (m : ℕ) (p : Part) : Op → Prop
  | .add v g => v < net.n ∧ g < m ∧ p.inGroup v = none
  | .move v g1 g2 => v < net.n ∧ g1 < m ∧ g2 < m
  | .merge g1 g2 => g1 < m ∧ g2 < m ∧ g1 ≠ g2

/-- The effect on where nodes are. -/
def Op.spec (f : ℕ → Option ℕ) : Op → ℕ → Option ℕ
  | .add v g => fun u => if u = v then some g else f u
  | .move v g1 g2 => fun u => if u = v ∧ f v = some g1 then some g2 else f u
  | .merge g1 g2 => fun u => if f u = some g1 then some g2 else f u

end GP
