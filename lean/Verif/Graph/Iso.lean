import Verif.Graph.IsoModel
import Verif.Graph.Sets

/-! # C126: removal of isolated nodes -/

namespace GR

variable {net : Net} {g : WG}

theorem degree_zero (hc : CachesOK net) {i : ℕ} (hi : i < net.n) :
    (NodeDegree net i).1 = (net.neig i).length := by
  unfold NodeDegree
  have hcnt : ∀ (l : List Link) (d : ℕ), l.foldl (fun d _ => d + 1) d = d + l.length := by
    intro l
    induction l with
    | nil => intro d; rfl
    | cons x xs ih => intro d; rw [List.foldl_cons, ih]; simp; omega
  split_ifs with c
  · simp only [hcnt, c.1]; omega
  · rcases (hc i hi).1 with e | e
    · rw [e]
      have : net.neig i = [] := by
        by_contra hne
        exact c ⟨e, hne⟩
      rw [this]; rfl
    · exact e

theorem mem_kept (h : Holds net g) (hc : CachesOK net) {i : ℕ} :
    i ∈ keptNodes net ↔ i < net.n ∧ ∃ j, (g i j).isSome := by
  unfold keptNodes
  rw [List.mem_filter, List.mem_range, decide_eq_true_eq]
  constructor
  · rintro ⟨hi, hd⟩
    refine ⟨hi, ?_⟩
    rw [degree_zero hc hi] at hd
    obtain ⟨l, hl⟩ := List.exists_mem_of_length_pos (Nat.pos_of_ne_zero hd)
    obtain ⟨j, _, _, e⟩ := (h i hi).2.1 l hl
    exact ⟨j, by rw [e]; rfl⟩
  · rintro ⟨hi, j, hj⟩
    refine ⟨hi, ?_⟩
    rw [degree_zero hc hi]
    obtain ⟨w, hw⟩ := Option.isSome_iff_exists.1 hj
    obtain ⟨l, hl, _⟩ := (h i hi).2.2 j w hw
    intro e
    rw [List.length_eq_zero_iff] at e
    rw [e] at hl
    simp at hl

theorem kept_pairwise (net : Net) : (keptNodes net).Pairwise (· < ·) :=
  List.Pairwise.filter _ List.pairwise_lt_range

theorem kept_nodup (net : Net) : (keptNodes net).Nodup :=
  (kept_pairwise net).imp fun h => h.ne

/-- The network among the nodes of a list, numbered by their positions. -/
def sub (g : WG) (K : List ℕ) : WG := fun a b =>
  match K[a]?, K[b]? with
  | some i, some j => g i j
  | _, _ => none

theorem sub_eq {K : List ℕ} {a b : ℕ} (ha : a < K.length) (hb : b < K.length) :
    sub g K a b = g K[a] K[b] := by
  simp only [sub, List.getElem?_eq_getElem ha, List.getElem?_eq_getElem hb]

/-- What a link becomes. -/
def moved (K : List ℕ) (l : Link) : Link := { l with ref := l.ref.map K.idxOf }

theorem rows_some (hclosed : ∀ i ∈ keptNodes net, ∀ l ∈ net.neig i, ∃ j ∈ keptNodes net, l.ref = some j) :
    (keptNodes net).mapM (fun i => (net.neig i).mapM (renumberLink (keptNodes net))) =
      some ((keptNodes net).map fun i => (net.neig i).map (moved (keptNodes net))) := by
  apply mapM_some
  intro i hi
  apply mapM_some
  intro l hl
  obtain ⟨j, hj, e⟩ := hclosed i hi l hl
  simp only [renumberLink, e, Option.bind_eq_bind, Option.bind_some, if_pos hj, moved, Option.map_some,
    Option.pure_def]

/-- **C126**.  If the network holds `g`, the caches are right, and no link points to a node without links of
its own (so in every symmetric network): exactly the nodes without links disappear; the others stay in
order, with their labels, and are numbered consecutively; the links between them are those of `g`; the
caches are right; and the number of nodes removed is returned. -/
theorem C126_removed (h : Holds net g) (hc : CachesOK net) (hl : LabelsOK net)
    (hg : ∀ i j, i < net.n → (g i j).isSome → ∃ k, (g j k).isSome) :
    ∃ K net', RemoveIsolatedNodes net = some (net.n - K.length, net') ∧ K.Pairwise (· < ·) ∧
      (∀ i, i ∈ K ↔ i < net.n ∧ ∃ j, (g i j).isSome) ∧
      net'.n = K.length ∧ (∀ k (hk : k < K.length), net'.label k = net.label K[k]) ∧
      Holds net' (sub g K) ∧ CachesOK net' ∧ LabelsOK net' := by
  have hclosed : ∀ i ∈ keptNodes net, ∀ l ∈ net.neig i, ∃ j ∈ keptNodes net, l.ref = some j := by
    intro i hi l hlm
    have hin := ((mem_kept h hc).1 hi).1
    obtain ⟨j, hj, e, ew⟩ := (h i hin).2.1 l hlm
    refine ⟨j, (mem_kept h hc).2 ⟨hj, hg i j hin (by rw [ew]; rfl)⟩, e⟩
  have hidx : ∀ j ∈ keptNodes net, (keptNodes net).idxOf j < (keptNodes net).length := fun j hj =>
    List.idxOf_lt_length_of_mem hj
  have hrow : ∀ k (hk : k < (keptNodes net).length),
      ((keptNodes net).map fun i => (net.neig i).map (moved (keptNodes net))).getD k [] =
        (net.neig (keptNodes net)[k]).map (moved (keptNodes net)) := by
    intro k hk
    simp [List.getD, List.getElem?_eq_getElem hk]
  have hgd : ∀ k (hk : k < (keptNodes net).length), (keptNodes net).getD k 0 = (keptNodes net)[k] := by
    intro k hk
    simp [List.getD, List.getElem?_eq_getElem hk]
  have hmemK : ∀ k (hk : k < (keptNodes net).length), (keptNodes net)[k] ∈ keptNodes net := fun k hk =>
    List.getElem_mem hk
  refine ⟨keptNodes net,
    { n := (keptNodes net).length
      label := fun k => net.label ((keptNodes net).getD k 0)
      neig := fun k => ((keptNodes net).map fun i => (net.neig i).map (moved (keptNodes net))).getD k []
      degree := fun k => (NodeDegree net ((keptNodes net).getD k 0)).1
      strength := fun k => net.strength ((keptNodes net).getD k 0) }, ?_, kept_pairwise net, fun i => mem_kept h hc, rfl, ?_, ?_, ?_, ?_⟩
  · unfold RemoveIsolatedNodes
    rw [rows_some hclosed]
    rfl
  · intro k hk
    simp only [hgd k hk]
  · intro a ha
    simp only at ha
    have hia := hmemK a ha
    have hin := ((mem_kept h hc).1 hia).1
    obtain ⟨hnd, h1, h2⟩ := h _ hin
    simp only [hrow a ha]
    refine ⟨?_, ?_, ?_⟩
    · rw [List.map_map]
      have e : Link.ref ∘ moved (keptNodes net) = (fun r : Option ℕ => r.map (keptNodes net).idxOf) ∘ Link.ref := by
        funext l; rfl
      rw [e, ← List.map_map]
      apply List.Nodup.map_on _ hnd
      intro r hr s hs e
      obtain ⟨l, hlm, rfl⟩ := List.mem_map.1 hr
      obtain ⟨l', hlm', rfl⟩ := List.mem_map.1 hs
      obtain ⟨j, hj, ej⟩ := hclosed _ hia l hlm
      obtain ⟨j', hj', ej'⟩ := hclosed _ hia l' hlm'
      rw [ej, ej'] at e ⊢
      simp only [Option.map_some, Option.some.injEq] at e
      rw [(List.idxOf_inj hj).1 e]
    · intro l' hl'
      obtain ⟨l, hlm, rfl⟩ := List.mem_map.1 hl'
      obtain ⟨j, hj, ej⟩ := hclosed _ hia l hlm
      refine ⟨(keptNodes net).idxOf j, hidx j hj, by simp [moved, ej], ?_⟩
      rw [sub_eq ha (hidx j hj)]
      obtain ⟨j2, _, ej2, ew⟩ := h1 l hlm
      rw [ej] at ej2
      cases ej2
      simpa [moved] using ew
    · intro b w hw
      by_cases hb : b < (keptNodes net).length
      · rw [sub_eq ha hb] at hw
        obtain ⟨l, hlm, er, ew⟩ := h2 _ w hw
        refine ⟨moved (keptNodes net) l, List.mem_map.2 ⟨l, hlm, rfl⟩, ?_, ew⟩
        simp only [moved, er, Option.map_some, Option.some.injEq]
        exact List.Nodup.idxOf_getElem (kept_nodup net) b hb
      · have : (keptNodes net)[b]? = none := List.getElem?_eq_none (by omega)
        simp [sub, this] at hw
  · intro a ha
    simp only at ha
    have hia := hmemK a ha
    have hin := ((mem_kept h hc).1 hia).1
    simp only [hrow a ha, hgd a ha, List.length_map, List.map_map]
    refine ⟨Or.inr (degree_zero hc hin), ?_⟩
    exact (hc _ hin).2
  · intro a ha l' hl' b hb
    simp only at ha
    have hia := hmemK a ha
    have hin := ((mem_kept h hc).1 hia).1
    simp only [hrow a ha] at hl'
    obtain ⟨l, hlm, rfl⟩ := List.mem_map.1 hl'
    obtain ⟨j, hj, ej⟩ := hclosed _ hia l hlm
    simp only [moved, ej, Option.map_some, Option.some.injEq] at hb
    subst hb
    simp only [hgd _ (hidx j hj), List.getElem_idxOf]
    exact hl _ hin l hlm j ej

/-- **C126** (which networks are at risk).  If some node has a link to a node without links of its own (a
directed network), that node is freed while the link still points to it, and its number is read afterwards. -/
theorem C126_dangling (h : Holds net g) (hc : CachesOK net) {i j : ℕ} (hi : i < net.n)
    (hij : (g i j).isSome) (hj : ∀ k, g j k = none) : RemoveIsolatedNodes net = none := by
  unfold RemoveIsolatedNodes
  rw [mapM_none]
  · rfl
  refine ⟨i, (mem_kept h hc).2 ⟨hi, j, hij⟩, ?_⟩
  apply mapM_none
  obtain ⟨w, hw⟩ := Option.isSome_iff_exists.1 hij
  obtain ⟨l, hlm, er, _⟩ := (h i hi).2.2 j w hw
  refine ⟨l, hlm, ?_⟩
  have : j ∉ keptNodes net := by
    intro hm
    obtain ⟨_, k, hk⟩ := (mem_kept h hc).1 hm
    rw [hj k] at hk
    simp at hk
  simp only [renumberLink, er, Option.bind_eq_bind, Option.bind_some, if_neg this]

/-- Three nodes, `a - c` linked both ways, `b` alone. -/
def gapNet : Net :=
  { n := 3, label := fun i => if i = 0 then "a" else if i = 1 then "b" else "c"
    neig := fun i => if i = 0 then [⟨"c", some 2, 5⟩] else if i = 2 then [⟨"a", some 0, 5⟩] else []
    degree := fun _ => 0, strength := fun _ => 0 }

example : (RemoveIsolatedNodes gapNet).map (fun r => (r.1, r.2.n, r.2.label 1, r.2.neig 0, r.2.neig 1)) =
    some (1, 2, "c", [⟨"c", some 1, 5⟩], [⟨"a", some 0, 5⟩]) := by decide +kernel

/-- The same with the link from `c` to `a` missing. -/
example : (RemoveIsolatedNodes { gapNet with neig := fun i => if i = 0 then [⟨"c", some 2, 5⟩] else [] }).isNone = true := by
  decide +kernel

end GR
