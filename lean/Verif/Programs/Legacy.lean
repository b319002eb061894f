import Verif.Programs.LegacyModel
import Verif.Programs.Counts
import Verif.Utils.Count
import Verif.Group.SAProps
import Verif.Group.RoleProps
import Verif.Graph.RandomProps
import Verif.Graph.Copy

/-!
# Networks and groups in terms of labels, for `netcarto-legacy`
-/

set_option linter.unusedSimpArgs false
set_option linter.unusedSectionVars false

namespace PG

open RG UT Finset
open GR (Holds SymSimple WG targets Link CopyNetwork RandomizeSymmetricNetwork)
open GP (Part PartOK Full members NZ degSum)
open scoped BigOperators

/-! ## Networks and graphs of labels -/

/-- The network is the graph `G` on the labels `V`. -/
structure Drawn (V : List String) (G : SimpleGraph String) (net : GR.Net) : Prop where
  labels : (List.range net.n).map net.label = V
  nodup : V.Nodup
  simple : (inside net).Simple
  adj : ∀ i j, (inside net).a i j = 1 ∧ i < net.n ∧ j < net.n ∧ G.Adj (net.label i) (net.label j) ∨
    (inside net).a i j = 0 ∧ ¬ (i < net.n ∧ j < net.n ∧ G.Adj (net.label i) (net.label j))

namespace Drawn

variable {V : List String} {G : SimpleGraph String} {net : GR.Net} (D : Drawn V G net)
include D

theorem inj {i j : ℕ} (hi : i < net.n) (hj : j < net.n) (h : net.label i = net.label j) : i = j :=
  List.inj_on_of_nodup_map (D.labels.symm ▸ D.nodup) (List.mem_range.2 hi) (List.mem_range.2 hj) h

theorem injOn : Set.InjOn net.label (range net.n : Finset ℕ) := fun i hi j hj h =>
  D.inj (mem_range.1 (mem_coe.1 hi)) (mem_range.1 (mem_coe.1 hj)) h

theorem image : (range net.n).image net.label = V.toFinset := by
  rw [← D.labels]
  ext a
  simp

theorem mem {a : String} : a ∈ V.toFinset ↔ ∃ i < net.n, net.label i = a := by
  rw [← D.image]; simp

theorem sum {R : Type} [AddCommMonoid R] (f : String → R) : ∑ a ∈ V.toFinset, f a = ∑ i ∈ range net.n, f (net.label i) := by
  rw [← D.image, sum_image D.injOn]

theorem sum_set {R : Type} [AddCommMonoid R] {T : Finset ℕ} (hT : T ⊆ range net.n) (f : String → R) :
    ∑ a ∈ T.image net.label, f a = ∑ i ∈ T, f (net.label i) :=
  sum_image fun i hi j hj h => D.injOn (hT hi) (hT hj) h

theorem card_set {T : Finset ℕ} (hT : T ⊆ range net.n) : (T.image net.label).card = T.card :=
  card_image_of_injOn fun i hi j hj h => D.injOn (hT hi) (hT hj) h

theorem to_set {T : Finset ℕ} (hT : T ⊆ range net.n) {v : ℕ} (hv : v < net.n) :
    ∑ j ∈ T, (inside net).a v j = linksTo G (net.label v) (T.image net.label) := by
  classical
  unfold linksTo
  rw [card_filter, Nat.cast_sum, D.sum_set hT]
  refine sum_congr rfl fun j hj => ?_
  rcases D.adj v j with ⟨e, -, -, h⟩ | ⟨e, h⟩
  · rw [e, if_pos h]; rfl
  · rw [e, if_neg fun h' => h ⟨hv, mem_range.1 (hT hj), h'⟩]; rfl

theorem to_set' {T : Finset ℕ} (hT : T ⊆ range net.n) {v : ℕ} (hv : v < net.n) :
    ∑ j ∈ T, ((inside net).a v j : ℚ) = linksTo G (net.label v) (T.image net.label) := by
  rw [← Int.cast_sum, D.to_set hT hv, Int.cast_natCast]

theorem deg {v : ℕ} (hv : v < net.n) : GP.deg (inside net) v = linksTo G (net.label v) V.toFinset := by
  unfold GP.deg
  rw [show (inside net).n = net.n from rfl, D.to_set' (subset_refl _) hv, D.image]

theorem degSum : degSum (inside net) = (∑ a ∈ V.toFinset, linksTo G a V.toFinset : ℕ) := by
  unfold GP.degSum
  rw [D.sum, Nat.cast_sum]
  refine sum_congr rfl fun v hv => ?_
  rw [show (inside net).n = net.n from rfl, D.to_set (subset_refl _) (mem_range.1 hv), D.image]

theorem newman {f : ℕ → Option ℕ} {F : String → ℕ} (hF : ∀ i < net.n, f i = some (F (net.label i))) :
    GP.newman (inside net) f = modularityOf V.toFinset G fun a => F a + 1 := by
  classical
  unfold GP.newman modularityOf
  rw [D.degSum, D.sum (R := ℚ)]
  simp only [show (inside net).n = net.n from rfl, Int.cast_natCast]
  congr 1
  refine sum_congr rfl fun i hi => ?_
  rw [D.sum (R := ℚ)]
  refine sum_congr rfl fun j hj => ?_
  have hi := mem_range.1 hi
  have hj := mem_range.1 hj
  rw [hF i hi, hF j hj, D.to_set (subset_refl _) hi, D.to_set (subset_refl _) hj, D.image]
  simp only [Option.some.injEq, Nat.add_right_cancel_iff, Int.cast_natCast]
  refine if_congr Iff.rfl ?_ rfl
  congr 1
  rcases D.adj i j with ⟨e, -, -, h⟩ | ⟨e, h⟩
  · rw [e, if_pos h]; rfl
  · rw [e, if_neg fun h' => h ⟨hi, hj, h'⟩]; rfl

theorem block {p : Part} {F : String → ℕ} (hF : ∀ i < net.n, p.inGroup i = some (F (net.label i))) (g : ℕ) :
    (members (inside net) p g).image net.label = block V.toFinset (fun a => F a + 1) (g + 1) := by
  ext a
  simp only [mem_image, members, mem_filter, mem_range, PG.block, Nat.add_right_cancel_iff]
  rw [D.mem]
  constructor
  · rintro ⟨i, ⟨hi, e⟩, rfl⟩
    rw [hF i hi] at e
    exact ⟨⟨i, hi, rfl⟩, Option.some.inj e⟩
  · rintro ⟨⟨i, hi, rfl⟩, e⟩
    exact ⟨i, ⟨hi, by rw [hF i hi, e]⟩, rfl⟩

theorem division {f : ℕ → Option ℕ} (hf : ∀ v < net.n, f v ≠ none) : ∃ F : String → ℕ, ∀ i < net.n, f i = some (F (net.label i)) := by
  classical
  refine ⟨fun a => if h : ∃ i < net.n, net.label i = a then (f h.choose).getD 0 else 0, fun i hi => ?_⟩
  have h : ∃ k < net.n, net.label k = net.label i := ⟨i, hi, rfl⟩
  have e : h.choose = i := D.inj h.choose_spec.1 hi h.choose_spec.2
  simp only [dif_pos h]
  rw [e]
  obtain ⟨g, hg⟩ := Option.ne_none_iff_exists'.1 (hf i hi)
  rw [hg]; rfl

theorem sub (p : Part) (g : ℕ) : members (inside net) p g ⊆ range net.n := filter_subset _ _

/-- Lines of a file of groups. -/
theorem lists {m : ℕ} {p : Part} (hp : PartOK (inside net) m p) (hf : Full (inside net) p) {F : String → ℕ}
    (hF : ∀ i < net.n, p.inGroup i = some (F (net.label i))) (hw : ∀ i j, (inside net).w i j = (inside net).a i j) :
    ListsGroups V.toFinset G (fun a => F a + 1) (groupLines net.label m p) := by
  have hsub : ∀ g, members (inside net) p g ⊆ range net.n := fun g => filter_subset _ _
  have key : ∀ l ∈ groupLines net.label m p, ∃ g < m, 0 < (p.grp g).size ∧ l = ⟨g + 1, (p.grp g).size, (p.grp g).totlinks, (p.grp g).inlinks,
      (p.grp g).outlinks, (p.grp g).totlinksW, (p.grp g).inlinksW, (p.grp g).outlinksW, (p.grp g).nodes.map net.label⟩ := by
    intro l hl
    obtain ⟨g, hg, e⟩ := List.mem_filterMap.1 hl
    dsimp only at e
    split_ifs at e with h
    exact ⟨g, List.mem_range.1 hg, h, (Option.some.inj e).symm⟩
  have hmemb : ∀ g < m, ((p.grp g).nodes.map net.label).toFinset = PG.block V.toFinset (fun a => F a + 1) (g + 1) := by
    intro g hg
    rw [← D.block hF, ← (hp.groups g hg).mem]
    ext a; simp
  have hcomp : ∀ g, V.toFinset \ PG.block V.toFinset (fun a => F a + 1) (g + 1) = (range net.n \ members (inside net) p g).image net.label := by
    intro g
    rw [← D.block hF, ← D.image]
    ext a
    simp only [mem_sdiff, mem_image]
    constructor
    · rintro ⟨⟨i, hi, rfl⟩, h⟩
      exact ⟨i, ⟨hi, fun h' => h ⟨i, h', rfl⟩⟩, rfl⟩
    · rintro ⟨i, ⟨hi, h⟩, rfl⟩
      refine ⟨⟨i, hi, rfl⟩, ?_⟩
      rintro ⟨j, hj, e⟩
      exact h (D.injOn (hsub g hj) hi e ▸ hj)
  have hwts : ∀ g < m, (p.grp g).totlinksW = (p.grp g).totlinks ∧ (p.grp g).inlinksW = (p.grp g).inlinks ∧
      (p.grp g).outlinksW = (p.grp g).outlinks := by
    intro g hg
    obtain ⟨a1, a2, a3⟩ := (hp.groups g hg).links
    obtain ⟨b1, b2, b3⟩ := (hp.groups g hg).weights
    simp only [hw] at b1 b2 b3
    have c1 : (p.grp g).inlinksW = (p.grp g).inlinks := by
      have : (2 : ℚ) * (p.grp g).inlinksW = 2 * ((p.grp g).inlinks : ℚ) := by rw [b1]; exact_mod_cast a1.symm
      linarith
    have c2 : (p.grp g).outlinksW = (p.grp g).outlinks := by rw [b2]; exact_mod_cast a2.symm
    exact ⟨by rw [b3, c1, c2, a3]; push_cast; rfl, c1, c2⟩
  refine ⟨?_, ?_, ?_, ?_, ?_, ?_, ?_, ?_, ?_, ?_⟩
  · unfold groupLines
    rw [List.pairwise_map]
    refine List.Pairwise.filterMap _ ?_ List.pairwise_lt_range
    intro g g' hlt l hl l' hl'
    dsimp only at hl hl'
    split_ifs at hl hl'
    rw [← Option.some.inj hl, ← Option.some.inj hl']
    exact Nat.succ_lt_succ hlt
  · intro l hl
    obtain ⟨g, hg, -, rfl⟩ := key l hl
    refine (hp.groups g hg).nodup.map_on fun i hi j hj e => ?_
    have hm := (hp.groups g hg).mem
    have h1 := hsub g (hm ▸ List.mem_toFinset.2 hi)
    have h2 := hsub g (hm ▸ List.mem_toFinset.2 hj)
    exact D.injOn h1 h2 e
  · intro l hl
    obtain ⟨g, hg, -, rfl⟩ := key l hl
    exact hmemb g hg
  · intro l hl
    obtain ⟨g, hg, hs, rfl⟩ := key l hl
    have := hp.lists.size g hg
    intro e
    rw [List.map_eq_nil_iff] at e
    rw [this, e] at hs
    simp at hs
  · intro a ha
    obtain ⟨i, hi, rfl⟩ := D.mem.1 ha
    have hg := (hp.range i _ (hF i hi)).2
    have hmem : i ∈ (p.grp (F (net.label i))).nodes := by
      rw [← List.mem_toFinset, (hp.groups _ hg).mem]
      exact mem_filter.2 ⟨mem_range.2 hi, hF i hi⟩
    have hpos : 0 < (p.grp (F (net.label i))).size := by
      rw [hp.lists.size _ hg]
      exact_mod_cast List.length_pos_of_mem hmem
    refine ⟨_, List.mem_filterMap.2 ⟨_, List.mem_range.2 hg, if_pos hpos⟩, rfl⟩
  · intro l hl
    obtain ⟨g, hg, -, rfl⟩ := key l hl
    simpa using hp.lists.size g hg
  · intro l hl
    obtain ⟨g, hg, -, rfl⟩ := key l hl
    dsimp only
    rw [(hp.groups g hg).links.1, ← D.block hF, D.sum_set (hsub g), Nat.cast_sum]
    exact sum_congr rfl fun i hi => D.to_set (hsub g) (mem_range.1 (hsub g hi))
  · intro l hl
    obtain ⟨g, hg, -, rfl⟩ := key l hl
    dsimp only
    rw [(hp.groups g hg).links.2.1, hcomp, ← D.block hF, D.sum_set (hsub g), Nat.cast_sum]
    exact sum_congr rfl fun i hi => D.to_set sdiff_subset (mem_range.1 (hsub g hi))
  · intro l hl
    obtain ⟨g, hg, -, rfl⟩ := key l hl
    exact (hp.groups g hg).links.2.2
  · intro l hl
    obtain ⟨g, hg, -, rfl⟩ := key l hl
    exact hwts g hg

theorem part_value {m : ℕ} {p : Part} (hp : PartOK (inside net) m p) {F : String → ℕ}
    (hF : ∀ i < net.n, p.inGroup i = some (F (net.label i))) {v : ℕ} (hv : v < net.n) :
    (if GP.deg (inside net) v = 0 then 0 else 1 - ∑ g ∈ range m, (GP.kTo (inside net) p v g / GP.deg (inside net) v) ^ 2) =
      participationOf V.toFinset G (fun a => F a + 1) (net.label v) := by
  unfold participationOf
  rw [D.deg hv]
  simp only [Nat.cast_eq_zero]
  congr 2
  have hk : ∀ g, GP.kTo (inside net) p v g = linksTo G (net.label v) (PG.block V.toFinset (fun a => F a + 1) (g + 1)) := by
    intro g
    unfold GP.kTo
    rw [D.to_set' (D.sub p g) hv, D.block hF]
  simp only [hk]
  rw [← sum_image (s := range m) (g := fun g => g + 1) (f := fun k =>
    ((linksTo G (net.label v) (PG.block V.toFinset (fun a => F a + 1) k) : ℚ) / linksTo G (net.label v) V.toFinset) ^ 2)
    (fun a _ b _ e => Nat.succ_injective e)]
  symm
  refine sum_subset ?_ ?_
  · intro k hk
    obtain ⟨a, ha, rfl⟩ := mem_image.1 hk
    obtain ⟨i, hi, rfl⟩ := D.mem.1 ha
    exact mem_image.2 ⟨_, mem_range.2 (hp.range i _ (hF i hi)).2, rfl⟩
  · intro k _ hk
    have : PG.block V.toFinset (fun a => F a + 1) k = ∅ := by
      unfold PG.block
      rw [filter_eq_empty_iff]
      intro a ha e
      exact hk (mem_image.2 ⟨a, ha, e⟩)
    rw [this]
    simp [linksTo]

/-- Participation coefficients. -/
theorem participation {m : ℕ} {p : Part} (hp : PartOK (inside net) m p) {F : String → ℕ}
    (hF : ∀ i < net.n, p.inGroup i = some (F (net.label i))) {v : ℕ} (hv : v < net.n) (hd : linksTo G (net.label v) V.toFinset ≤ 46340) :
    GP.ParticipationCoefficient (inside net) p v = some (participationOf V.toFinset G (fun a => F a + 1) (net.label v)) := by
  have hc : GP.Covers (inside net) m p := fun i hi => ⟨_, (hp.range i _ (hF i hi)).2, hF i hi⟩
  rw [GP.C61_participation D.simple hc (v := v) (by rw [D.deg hv]; exact_mod_cast hd), D.part_value hp hF hv]

theorem standard_eq {T : Finset ℕ} (hT : T ⊆ range net.n) {f : ℕ → ℚ} {f' : String → ℚ} (hf : ∀ i ∈ T, f i = f' (net.label i)) {v : ℕ}
    (hv : v ∈ T) : GP.zOf T f v = standard (T.image net.label) f' (net.label v) := by
  unfold GP.zOf standard
  dsimp only
  rw [D.sum_set hT, D.sum_set hT, D.card_set hT, ← sum_congr rfl hf]
  have : ∑ i ∈ T, (f' (net.label i) - (∑ i ∈ T, f i) / T.card) ^ 2 = ∑ i ∈ T, (f i - (∑ i ∈ T, f i) / T.card) ^ 2 :=
    sum_congr rfl fun i hi => by rw [hf i hi]
  rw [this, ← hf v hv]

theorem within_eq {p : Part} {F : String → ℕ} (hF : ∀ i < net.n, p.inGroup i = some (F (net.label i))) {v : ℕ} (hv : v < net.n) :
    GP.zOf (members (inside net) p (F (net.label v))) (fun u => GP.kTo (inside net) p u (F (net.label v))) v =
      withinOf V.toFinset G (fun a => F a + 1) (net.label v) := by
  unfold withinOf
  rw [D.standard_eq (f' := ownLinks V.toFinset G fun a => F a + 1) (D.sub p _) ?_ (mem_filter.2 ⟨mem_range.2 hv, hF v hv⟩), D.block hF]
  intro i hi
  obtain ⟨h1, h2⟩ := mem_filter.1 hi
  rw [hF i (mem_range.1 h1)] at h2
  unfold GP.kTo ownLinks
  rw [D.to_set' (D.sub p _) (mem_range.1 h1), D.block hF, ← Option.some.inj h2]

/-- Within-module degrees. -/
theorem within {m : ℕ} {p : Part} (hp : PartOK (inside net) m p) {F : String → ℕ}
    (hF : ∀ i < net.n, p.inGroup i = some (F (net.label i))) {v : ℕ} (hv : v < net.n) :
    GP.WithinModuleRelativeDegree (inside net) m p v 0 = some (withinOf V.toFinset G (fun a => F a + 1) (net.label v)) := by
  have hg := (hp.range v _ (hF v hv)).2
  unfold GP.WithinModuleRelativeDegree GP.findGroup
  rw [hF v hv]
  simp only [Option.bind_eq_bind, Option.bind_some, Nat.zero_le, true_and, if_pos hg]
  have hG := hp.groups _ hg
  rw [GP.zscore_eq _ hG.nodup hG.mem hG.size ⟨v, mem_filter.2 ⟨mem_range.2 hv, hF v hv⟩⟩]
  simp only [GP.nlinks_kTo D.simple]
  rw [D.within_eq hF hv]

omit D in
theorem role_eq (P : ℚ) (z : ℝ) : Roles.GetRole (P : ℝ) z + 1 = roleOf P z := by
  unfold Roles.GetRole roleOf
  norm_num only
  split_ifs <;> first | rfl | (exfalso; linarith)

/-- Roles. -/
theorem roles {m : ℕ} {p : Part} (hp : PartOK (inside net) m p) {F : String → ℕ}
    (hF : ∀ i < net.n, p.inGroup i = some (F (net.label i))) (hd : ∀ a ∈ V, linksTo G a V.toFinset ≤ 46340) :
    ∃ r, GP.CatalogRoleIdent (inside net) m p = some r ∧ PartOK (inside net) 7 r ∧ ∀ i < net.n, r.inGroup i =
      some (Roles.GetRole ((participationOf V.toFinset G (fun a => F a + 1) (net.label i) : ℚ) : ℝ)
        (withinOf V.toFinset G (fun a => F a + 1) (net.label i))) := by
  have hmem : ∀ g < m, ∀ i, i ∈ (p.grp g).nodes ↔ i < net.n ∧ p.inGroup i = some g := by
    intro g hg i
    rw [← List.mem_toFinset, (hp.groups g hg).mem, GP.mem_members]
    rfl
  obtain ⟨r, e, h1, h2⟩ := GP.C62_catalog D.simple (m := m) (mod := p) hp.lists
    (fun i hi => ⟨_, (hp.range i _ (hF i hi)).2, (hmem _ (hp.range i _ (hF i hi)).2 i).2 ⟨hi, hF i hi⟩⟩)
    (fun i hi => by
      rw [D.deg hi]
      exact_mod_cast hd _ (List.mem_toFinset.1 (D.mem.2 ⟨i, hi, rfl⟩)))
  refine ⟨r, e, h1, fun i hi => ?_⟩
  have hg := (hp.range i _ (hF i hi)).2
  rw [h2 _ hg i ((hmem _ hg i).2 ⟨hi, hF i hi⟩), ← D.part_value hp hF hi, ← D.within_eq hF hi]
  unfold GP.kTo
  rw [(hp.groups _ hg).mem]
  congr 4
  congr 1
  exact sum_congr rfl fun k hk => by rw [(hp.groups k (mem_range.1 hk)).mem]

end Drawn

/-! ## Networks that hold a graph -/

theorem inside_link {net : GR.Net} {g : WG} (h : Holds net g) (hs : SymSimple net.n g) (i j : ℕ) : (inside net).link i j = g i j := by
  unfold GP.Net.link inside
  dsimp only
  by_cases hi : i < net.n
  · rw [if_pos hi]
    obtain ⟨-, h2, h3⟩ := h i hi
    cases hf : ((net.neig i).filterMap fun l => l.ref.map fun j => (j, l.weight)).find? fun x => x.1 = j with
    | none =>
      cases e : g i j with
      | none => rfl
      | some w =>
        obtain ⟨l, hl, er, ew⟩ := h3 j w e
        have := List.find?_eq_none.1 hf (j, l.weight) (List.mem_filterMap.2 ⟨l, hl, by rw [er]; rfl⟩)
        simp at this
    | some x =>
      have k1 := List.mem_of_find?_eq_some hf
      have k2 := List.find?_some hf
      obtain ⟨l, hl, e⟩ := List.mem_filterMap.1 k1
      obtain ⟨j', -, er, eg⟩ := h2 l hl
      rw [er] at e
      obtain rfl := Option.some.inj e
      have : j' = j := by simpa using k2
      subst this
      rw [eg]; rfl
  · rw [if_neg hi]
    cases e : g i j with
    | none => rfl
    | some w => exact absurd (hs.supp i j (by rw [e]; rfl)).1 hi

theorem inside_a {net : GR.Net} {g : WG} (h : Holds net g) (hs : SymSimple net.n g) (i j : ℕ) :
    (inside net).a i j = if (g i j).isSome then 1 else 0 := by
  unfold GP.Net.a; rw [inside_link h hs]

theorem drawn {net : GR.Net} {g : WG} (h : Holds net g) (hs : SymSimple net.n g) {V : List String} (hn : V.Nodup)
    (hl : (List.range net.n).map net.label = V) {G : SimpleGraph String}
    (hG : ∀ i < net.n, ∀ j < net.n, G.Adj (net.label i) (net.label j) ↔ (g i j).isSome) : Drawn V G net where
  labels := hl
  nodup := hn
  simple :=
    { nodup := by
        intro i
        unfold inside
        dsimp only
        by_cases hi : i < net.n
        · rw [if_pos hi]
          have := (h i hi).1
          have e : (((net.neig i).filterMap fun l => l.ref.map fun j => (j, l.weight)).map (·.1)) =
              ((net.neig i).map Link.ref).filterMap id := by
            rw [List.map_filterMap, List.filterMap_map]
            congr 1
            funext l
            simp only [Function.comp, id]
            cases l.ref <;> rfl
          rw [e]
          refine this.filterMap fun a b c hc hc' => ?_
          simp only [id, Option.mem_def] at hc hc'
          rw [hc, hc']
        · rw [if_neg hi]; simp
      range := by
        intro i x hx
        unfold inside at hx ⊢
        dsimp only at hx ⊢
        by_cases hi : i < net.n
        · rw [if_pos hi] at hx
          obtain ⟨l, hl, e⟩ := List.mem_filterMap.1 hx
          obtain ⟨j, hj, er, -⟩ := (h i hi).2.1 l hl
          rw [er] at e
          obtain rfl := Option.some.inj e
          exact hj
        · rw [if_neg hi] at hx; simp at hx
      sym := fun i j => by rw [inside_link h hs, inside_link h hs, hs.sym]
      irrefl := fun i => by rw [inside_link h hs, hs.loop] }
  adj := by
    intro i j
    rw [inside_a h hs]
    cases e : (g i j).isSome with
    | true =>
      obtain ⟨hi, hj⟩ := hs.supp i j e
      exact Or.inl ⟨rfl, hi, hj, (hG i hi j hj).2 e⟩
    | false =>
      refine Or.inr ⟨rfl, fun ⟨hi, hj, ha⟩ => ?_⟩
      rw [(hG i hi j hj).1 ha] at e
      cases e

theorem degrees {net : GR.Net} {g : WG} (h : Holds net g) (hs : SymSimple net.n g) {V : List String} {G : SimpleGraph String}
    (D : Drawn V G net) {i : ℕ} (hi : i < net.n) : linksTo G (net.label i) V.toFinset = g.degree net.n i := by
  have := D.to_set (subset_refl _) hi
  rw [D.image] at this
  have e : ∑ j ∈ range net.n, (inside net).a i j = (g.degree net.n i : ℤ) := by
    unfold WG.degree
    rw [card_filter, Nat.cast_sum]
    refine sum_congr rfl fun j _ => ?_
    rw [inside_a h hs]
    split_ifs <;> rfl
  rw [e] at this
  exact_mod_cast this.symm

theorem drawn_loaded {ps : List (String × String)} {net : GR.Net} (L : Loaded ps net) : Drawn (names ps) (graph ps) net :=
  drawn L.holds L.symSimple (names_nodup ps) L.labels fun i hi j hj => by
    rw [L.weights_isSome]; exact ⟨fun h => ⟨hi, hj, h⟩, fun h => h.2.2⟩

theorem loaded_w {ps : List (String × String)} {net : GR.Net} (L : Loaded ps net) (i j : ℕ) : (inside net).w i j = (inside net).a i j := by
  rw [inside_a L.holds L.symSimple]
  unfold GP.Net.w
  rw [inside_link L.holds L.symSimple]
  cases e : weights ps net i j with
  | none => rfl
  | some w => rw [L.weights_one e]; rfl

theorem linksTo_degree (ps : List (String × String)) (a : String) : linksTo (graph ps) a (names ps).toFinset = degree ps a := by
  classical
  unfold linksTo degree
  rw [← Set.ncard_coe_finset]
  congr 1
  ext b
  simp only [coe_filter, List.mem_toFinset, Set.mem_setOf_eq, SimpleGraph.mem_neighborSet]
  exact ⟨fun h => h.2, fun h => ⟨(adj_names h).2, h⟩⟩

end PG
