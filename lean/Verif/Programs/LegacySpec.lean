import Verif.Utils.Spec
import Verif.Print.Adjacency
import Verif.Print.Pajek
import Mathlib.Algebra.BigOperators.Group.Finset.Basic
import Mathlib.Analysis.Real.Sqrt

/-!
# Specification of `netcarto-legacy`: what is in its files, in terms of the labels of the network

`V` is the set of labels, `G` the graph, `F` gives each label a number of group.
-/

namespace PG

open Finset UT
open scoped BigOperators

/-! ## The files -/

/-- A line of `modules.dat` or `roles.dat`: number of the group; nodes; links that touch it, inside, and leaving; the same three with
weights; the labels. -/
structure GroupLine where
  number : ℕ
  size : Int
  tot : Int
  inn : Int
  out : Int
  totW : ℚ
  innW : ℚ
  outW : ℚ
  members : List String

/-- The files written: `modules.dat` (lines and the modularity at its end), `network.net`, `modules.clu`, `node_prop.dat` (label, degree,
participation coefficient, within-module degree), `roles.dat`, `roles.clu`, and the numbers of `randomized_mod.dat` (`none`: NaN). -/
structure LegacyFiles where
  modules : List GroupLine
  modularity : ℚ
  network : List GR.PLine
  modulesClu : List GR.PLine
  nodeProp : List (String × Int × ℚ × ℝ)
  roles : List GroupLine
  rolesClu : List GR.PLine
  randomized : ℚ × Option ℚ × Option ℝ

/-! ## What they should say -/

open Classical in
/-- Links from `a` to the labels of `S`. -/
noncomputable def linksTo (G : SimpleGraph String) (a : String) (S : Finset String) : ℕ := (S.filter fun b => G.Adj a b).card

/-- Labels with number `k`. -/
def block (V : Finset String) (F : String → ℕ) (k : ℕ) : Finset String := V.filter fun a => F a = k

open Classical in
/-- Modularity of a division: `1/2L ∑ (A - k k' / 2L)` over the pairs of labels in the same group. -/
noncomputable def modularityOf (V : Finset String) (G : SimpleGraph String) (F : String → ℕ) : ℚ :=
  1 / (∑ a ∈ V, linksTo G a V : ℕ) * ∑ a ∈ V, ∑ b ∈ V, if F a = F b then
    (if G.Adj a b then 1 else 0) - (linksTo G a V : ℚ) * linksTo G b V / (∑ a ∈ V, linksTo G a V : ℕ) else 0

/-- Participation coefficient: 1 minus the sum of the squares of the fractions of the links of `a` that go to each group. -/
noncomputable def participationOf (V : Finset String) (G : SimpleGraph String) (F : String → ℕ) (a : String) : ℚ :=
  if linksTo G a V = 0 then 0 else 1 - ∑ k ∈ V.image F, ((linksTo G a (block V F k) : ℚ) / linksTo G a V) ^ 2

/-- Links of `a` inside its own group. -/
noncomputable def ownLinks (V : Finset String) (G : SimpleGraph String) (F : String → ℕ) (a : String) : ℚ :=
  linksTo G a (block V F (F a))

/-- Standard score of the value of `a` among those of `S`; 0 if all are equal. -/
noncomputable def standard (S : Finset String) (f : String → ℚ) (a : String) : ℝ :=
  let mean := (∑ b ∈ S, f b) / S.card
  let var := (∑ b ∈ S, (f b - mean) ^ 2) / S.card
  if var = 0 then 0 else ((f a - mean : ℚ) : ℝ) / Real.sqrt (var : ℝ)

/-- Within-module degree. -/
noncomputable def withinOf (V : Finset String) (G : SimpleGraph String) (F : String → ℕ) (a : String) : ℝ :=
  standard (block V F (F a)) (ownLinks V G F) a

/-- The seven roles. -/
noncomputable def roleOf (P : ℚ) (z : ℝ) : ℕ :=
  if 2.5 ≤ z then (if 0.75 ≤ (P : ℝ) then 7 else if 0.3 ≤ (P : ℝ) then 6 else 5)
  else if 0.8 ≤ (P : ℝ) then 4 else if 0.62 ≤ (P : ℝ) then 3 else if 0.05 ≤ (P : ℝ) then 2 else 1

/-- The lines list the groups: by increasing number, each label of `V` once, in the line of its number, no empty group, and all counts
are right. -/
structure ListsGroups (V : Finset String) (G : SimpleGraph String) (F : String → ℕ) (ls : List GroupLine) : Prop where
  order : (ls.map (·.number)).Pairwise (· < ·)
  nodup : ∀ l ∈ ls, l.members.Nodup
  mem : ∀ l ∈ ls, l.members.toFinset = block V F l.number
  nonempty : ∀ l ∈ ls, l.members ≠ []
  all : ∀ a ∈ V, ∃ l ∈ ls, l.number = F a
  size : ∀ l ∈ ls, l.size = l.members.length
  inside : ∀ l ∈ ls, 2 * l.inn = ∑ a ∈ block V F l.number, linksTo G a (block V F l.number)
  leaving : ∀ l ∈ ls, l.out = ∑ a ∈ block V F l.number, linksTo G a (V \ block V F l.number)
  touching : ∀ l ∈ ls, l.tot = l.inn + l.out
  weights : ∀ l ∈ ls, l.totW = l.tot ∧ l.innW = l.inn ∧ l.outW = l.out

/-- The Pajek file of the network: vertices numbered from 1 in the order of `names`, a line for each link. -/
structure DrawsNetwork (ns : List String) (G : SimpleGraph String) (f : List GR.PLine) : Prop where
  head : ∃ rest, f = .vertices ns.length none :: rest
  vertices : GR.pvertices f = (List.range ns.length).map fun i => (i + 1, ns.getD i "")
  once : ((GR.plinks f).map fun l => (l.1, l.2.1)).Nodup
  links : ∀ x y w, (x, y, w) ∈ GR.plinks f ↔ w = none ∧ ∃ i j, x = i + 1 ∧ y = j + 1 ∧ i < j ∧ j < ns.length ∧
    G.Adj (ns.getD i "") (ns.getD j "")

/-- A random version of the graph: links between labels of `V`, and every label has its degree. -/
def SameDegrees (V : Finset String) (G H : SimpleGraph String) : Prop :=
  (∀ a b, H.Adj a b → a ∈ V ∧ b ∈ V) ∧ ∀ a ∈ V, linksTo H a V = linksTo G a V

/-- Mean and standard deviation of `rep` numbers; without any, NaN. -/
noncomputable def meanOf (l : List ℚ) : Option ℚ := if l = [] then none else some (l.sum / l.length)
noncomputable def deviationOf (l : List ℚ) : Option ℝ :=
  if l = [] then none else some (Real.sqrt (((l.map fun x => (x - l.sum / l.length) ^ 2).sum / l.length : ℚ) : ℝ))

/-- The files describe a division `F` of the labels into modules numbered from 1 (some numbers may be missing): its modularity, the
properties and the roles of the labels in it. -/
structure Describes (ps : List (String × String)) (F : String → ℕ) (o : LegacyFiles) : Prop where
  range : ∀ a ∈ names ps, 1 ≤ F a ∧ F a ≤ (names ps).length
  modules : ListsGroups (names ps).toFinset (graph ps) F o.modules
  modularity : o.modularity = modularityOf (names ps).toFinset (graph ps) F
  network : DrawsNetwork (names ps) (graph ps) o.network
  modulesClu : o.modulesClu = .vertices (names ps).length none :: (names ps).map fun a => .member (F a)
  nodeProp : o.nodeProp = (names ps).map fun a => (a, (degree ps a : Int), participationOf (names ps).toFinset (graph ps) F a,
    withinOf (names ps).toFinset (graph ps) F a)
  roles : ∃ R : String → ℕ, (∀ a, R a = roleOf (participationOf (names ps).toFinset (graph ps) F a)
      (withinOf (names ps).toFinset (graph ps) F a)) ∧ ListsGroups (names ps).toFinset (graph ps) R o.roles ∧
    o.rolesClu = .vertices (names ps).length none :: (names ps).map fun a => .member (R a)

/-- The last file compares the modularity with those of `rep` divisions of random versions of the graph. -/
def Compares (ps : List (String × String)) (rep : ℕ) (o : LegacyFiles) : Prop :=
  ∃ qs : List ℚ, qs.length = rep ∧ (∀ q ∈ qs, ∃ H F, SameDegrees (names ps).toFinset (graph ps) H ∧
      q = modularityOf (names ps).toFinset H F) ∧
    o.randomized = (o.modularity, meanOf qs, deviationOf qs)

end PG
