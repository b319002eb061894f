import Verif.Group.RemoveModel
import Mathlib.Data.List.Basic
import Mathlib.Data.List.Nodup

/-!
# C171: freeing a partition with its hierarchy
-/

namespace GP

open RG

/-! ## Specification -/

/-- A partition in memory: a list of groups, each with the address of the group, the entries of its list of
nodes (addresses of the entry and of its label, 0 if there is none) and the partition of the group. -/
inductive Hier where
  | nil
  | group (addr : ℕ) (entries : List (ℕ × ℕ)) (offspr next : Hier)

/-- Address of the first group. -/
def Hier.addr : Hier → ℕ
  | .nil => 0
  | .group a _ _ _ => a

/-- Address of the first entry of a list. -/
def headAddr : List (ℕ × ℕ) → ℕ
  | [] => 0
  | x :: _ => x.1

/-- Blocks of a list. -/
def listBlocks : List (ℕ × ℕ) → List ℕ
  | [] => []
  | x :: l => x.1 :: ((if x.2 = 0 then [] else [x.2]) ++ listBlocks l)

/-- All blocks of a partition. -/
def Hier.blocks : Hier → List ℕ
  | .nil => []
  | .group a l o n => a :: (listBlocks l ++ (o.blocks ++ n.blocks))

/-- The list is in memory. -/
def listStored (h : PMem) : List (ℕ × ℕ) → Prop
  | [] => True
  | x :: l => h x.1 = some (.lis (headAddr l) x.2) ∧ (x.2 ≠ 0 → h x.2 = some .chars) ∧ listStored h l

/-- The partition is in memory. -/
def Hier.Stored (h : PMem) : Hier → Prop
  | .nil => True
  | .group a l o n => h a = some (.group n.addr (headAddr l) o.addr) ∧ listStored h l ∧ o.Stored h ∧ n.Stored h

/-- Number of nested calls. -/
def Hier.depth : Hier → ℕ
  | .nil => 0
  | .group _ l o n => max l.length (max o.depth n.depth) + 1

/-- Memory without some blocks. -/
def without (h : PMem) (bs : List ℕ) : PMem := fun a => if a ∈ bs then none else h a

theorem without_of {h : PMem} {bs : List ℕ} {a : ℕ} (ha : a ∉ bs) : without h bs a = h a := by simp [without, ha]

theorem without_nil (h : PMem) : without h [] = h := by funext a; simp [without]

theorem without_without (h : PMem) (bs cs : List ℕ) : without (without h bs) cs = without h (bs ++ cs) := by
  funext a
  by_cases h1 : a ∈ bs <;> by_cases h2 : a ∈ cs <;> simp [without, h1, h2]

theorem update_without (h : PMem) (bs : List ℕ) (a : ℕ) : Function.update (without h bs) a none = without h (a :: bs) := by
  funext b
  by_cases h1 : b = a
  · subst h1; simp [without]
  · rw [Function.update_of_ne h1]
    by_cases h2 : b ∈ bs <;> simp [without, h1, h2]

theorem without_congr (h : PMem) {bs cs : List ℕ} (he : ∀ a, a ∈ bs ↔ a ∈ cs) : without h bs = without h cs := by
  funext a
  simp [without, he a]

theorem listStored.congr {h h' : PMem} : ∀ {l : List (ℕ × ℕ)}, listStored h l → (∀ a ∈ listBlocks l, h' a = h a) →
    listStored h' l
  | [], _, _ => trivial
  | x :: l, ⟨h1, h2, h3⟩, he => by
    refine ⟨by rw [he _ (by simp [listBlocks]), h1], fun h0 => ?_, h3.congr fun a ha => he a ?_⟩
    · rw [he _ (by simp [listBlocks, h0]), h2 h0]
    · simp only [listBlocks, List.mem_cons, List.mem_append]; exact Or.inr (Or.inr ha)

theorem Hier.Stored.congr {h h' : PMem} : ∀ {t : Hier}, t.Stored h → (∀ a ∈ t.blocks, h' a = h a) → t.Stored h'
  | .nil, _, _ => trivial
  | .group a l o n, ⟨h1, h2, h3, h4⟩, he => by
    refine ⟨by rw [he _ (by simp [Hier.blocks]), h1], h2.congr fun b hb => he b ?_, h3.congr fun b hb => he b ?_,
      h4.congr fun b hb => he b ?_⟩ <;> simp [Hier.blocks, hb]

theorem FreeAdjacencyList_all : ∀ (x : ℕ × ℕ) (l : List (ℕ × ℕ)) (h : PMem) (fuel : ℕ), listStored h (x :: l) →
    (listBlocks (x :: l)).Nodup → 0 ∉ listBlocks (x :: l) → l.length < fuel →
    FreeAdjacencyList fuel x.1 h = .ok (without h (listBlocks (x :: l)))
  | x, l, h, fuel, ⟨h1, h2, h3⟩, hnd, h0, hf => by
    obtain ⟨f, rfl⟩ : ∃ f, fuel = f + 1 := ⟨fuel - 1, by omega⟩
    -- the rest of the list
    have hnd' : (listBlocks l).Nodup := by
      have := (List.nodup_cons.1 hnd).2
      exact (List.nodup_append.1 this).2.1
    have h0' : 0 ∉ listBlocks l := fun hm => h0 (by
      simp only [listBlocks, List.mem_cons, List.mem_append]; exact Or.inr (Or.inr hm))
    have hx : x.1 ∉ listBlocks l := fun hm => (List.nodup_cons.1 hnd).1 (List.mem_append_right _ hm)
    have hy : x.2 ≠ 0 → x.2 ∉ listBlocks l := fun hne hm => by
      have := (List.nodup_append.1 (List.nodup_cons.1 hnd).2).2.2
      exact this x.2 (by simp [hne]) x.2 hm rfl
    have hxy : x.2 ≠ 0 → x.1 ≠ x.2 := fun hne e => (List.nodup_cons.1 hnd).1 (List.mem_append_left _ (by simp [hne, e]))
    have hz : x.1 ≠ 0 := fun e => h0 (by simp [listBlocks, e])
    have rest : unlessNull (FreeAdjacencyList f) (headAddr l) h = .ok (without h (listBlocks l)) := by
      cases l with
      | nil => simp [unlessNull, headAddr, listBlocks, without_nil]
      | cons y l =>
        have hy0 : y.1 ≠ 0 := fun e => h0' (by simp [listBlocks, e])
        simp only [unlessNull, headAddr, ne_eq, hy0, not_false_eq_true, if_true]
        exact FreeAdjacencyList_all y l h f h3 hnd' h0' (by simp at hf; omega)
    unfold FreeAdjacencyList
    simp only [lisAt, h1, Res.bind_ok]
    rw [rest]
    simp only [Res.bind_ok, FreeNodeLis, lisAt, without_of hx, h1]
    by_cases hl : x.2 = 0
    · simp only [hl, pfree, if_true, Res.bind_ok, if_neg hz, without_of hx, h1]
      rw [update_without]
      simp [listBlocks, hl]
    · simp only [pfree, if_neg hl, without_of (hy hl), h2 hl, Res.bind_ok, if_neg hz,
        Function.update_of_ne (hxy hl), without_of hx, h1]
      rw [update_without, update_without]
      simp [listBlocks, hl]

theorem RemovePartition_all : ∀ (t : Hier) (h : PMem) (fuel : ℕ), t ≠ .nil → t.Stored h → t.blocks.Nodup →
    0 ∉ t.blocks → t.depth ≤ fuel → RemovePartition fuel t.addr h = .ok (without h t.blocks)
  | .nil, _, _, hne, _, _, _, _ => absurd rfl hne
  | .group a l o n, h, fuel, _, ⟨h1, h2, h3, h4⟩, hnd, h0, hf => by
    simp only [Hier.depth] at hf
    obtain ⟨f, rfl⟩ : ∃ f, fuel = f + 1 := ⟨fuel - 1, by omega⟩
    simp only [Hier.blocks, List.nodup_cons, List.mem_append, not_or, List.nodup_append, List.mem_cons] at hnd h0
    obtain ⟨⟨a1, a2, a3⟩, nl, ⟨no, nn, don⟩, dl⟩ := hnd
    obtain ⟨z, zl, zo, zn⟩ := h0
    have sub : ∀ (t : Hier) (h : PMem), (t ≠ .nil → RemovePartition f t.addr h = .ok (without h t.blocks)) →
        0 ∉ t.blocks → unlessNull (RemovePartition f) t.addr h = .ok (without h t.blocks) := by
      intro t h ht h0
      cases t with
      | nil => simp [unlessNull, Hier.addr, Hier.blocks, without_nil]
      | group a l o n =>
        have : a ≠ 0 := fun e => h0 (by simp [Hier.blocks, e])
        rw [unlessNull, if_pos (by simpa [Hier.addr] using this)]
        exact ht (by simp)
    have e1 := sub n h (fun hne => RemovePartition_all n h f hne h4 nn zn (by omega)) zn
    have h2' : listStored (without h n.blocks) l := h2.congr fun b hb => without_of fun hb' => dl b hb b (Or.inr hb') rfl
    have e2 : unlessNull (FreeAdjacencyList f) (headAddr l) (without h n.blocks) =
        .ok (without h (n.blocks ++ listBlocks l)) := by
      cases l with
      | nil => simp [unlessNull, headAddr, listBlocks]
      | cons x l =>
        have hx0 : x.1 ≠ 0 := fun e => zl (by simp [listBlocks, e])
        simp only [unlessNull, headAddr, ne_eq, hx0, not_false_eq_true, if_true]
        rw [FreeAdjacencyList_all x l _ f h2' nl zl (by simp at hf; omega), without_without]
    have h3' : o.Stored (without h (n.blocks ++ listBlocks l)) := h3.congr fun b hb => without_of fun hb' => by
      rcases List.mem_append.1 hb' with hb' | hb'
      · exact don b hb b hb' rfl
      · exact dl b hb' b (Or.inl hb) rfl
    have e3 := sub o (without h (n.blocks ++ listBlocks l))
      (fun hne => RemovePartition_all o _ f hne h3' no zo (by omega)) zo
    rw [without_without] at e3
    have g1 : without h n.blocks a = some (.group n.addr (headAddr l) o.addr) := by rw [without_of a3, h1]
    have g2 : without h (n.blocks ++ listBlocks l) a = some (.group n.addr (headAddr l) o.addr) := by
      rw [without_of (by simp [a1, a3]), h1]
    have g3 : without h (n.blocks ++ listBlocks l ++ o.blocks) a = some (.group n.addr (headAddr l) o.addr) := by
      rw [without_of (by simp [a1, a2, a3]), h1]
    have ea : (Hier.group a l o n).addr = a := rfl
    unfold RemovePartition
    rw [ea]
    simp only [groupAt, h1, Res.bind_ok]
    rw [e1]
    simp only [Res.bind_ok, g1]
    rw [e2]
    simp only [Res.bind_ok, g2]
    rw [e3]
    simp only [Res.bind_ok, pfree, if_neg (Ne.symm z), g3]
    rw [update_without]
    congr 1
    apply without_congr
    intro b
    simp only [Hier.blocks, List.mem_cons, List.mem_append]
    tauto

/-- **C171**: for every partition in memory with at least its header, with any hierarchy of partitions of its
groups and all blocks different, `RemovePartition` is defined, ends, frees each of its blocks (groups, entries of
the lists of nodes, labels) exactly once and leaves all other memory alone. -/
theorem C171_remove {t : Hier} (hne : t ≠ .nil) {h : PMem} (hs : t.Stored h) (hnd : t.blocks.Nodup)
    (h0 : 0 ∉ t.blocks) {fuel : ℕ} (hf : t.depth ≤ fuel) :
    ∃ h', RemovePartition fuel t.addr h = .ok h' ∧ (∀ a ∈ t.blocks, h' a = none) ∧ ∀ a ∉ t.blocks, h' a = h a :=
  ⟨_, RemovePartition_all t h fuel hne hs hnd h0 hf, fun a ha => by simp [without, ha], fun a ha => without_of ha⟩

/-- **C171**: a partition cannot be removed twice. -/
theorem C171_twice {t : Hier} (hne : t ≠ .nil) {h : PMem} (hs : t.Stored h) (hnd : t.blocks.Nodup)
    (h0 : 0 ∉ t.blocks) {fuel : ℕ} (hf : t.depth ≤ fuel) :
    (RemovePartition fuel t.addr h).bind (RemovePartition fuel t.addr) = .ub := by
  rw [RemovePartition_all t h fuel hne hs hnd h0 hf]
  cases t with
  | nil => exact absurd rfl hne
  | group a l o n =>
    simp only [Hier.depth] at hf
    obtain ⟨f, rfl⟩ : ∃ f, fuel = f + 1 := ⟨fuel - 1, by omega⟩
    change RemovePartition (f + 1) a (without h (Hier.group a l o n).blocks) = .ub
    unfold RemovePartition
    have : without h (Hier.group a l o n).blocks a = none := by simp [without, Hier.blocks]
    simp only [groupAt, this]
    rfl

/-- A header without list, a group of one labelled node, and a partition of this group. -/
def exHier : Hier :=
  .group 16 [] .nil (.group 32 [(48, 0), (64, 80)] (.group 96 [] .nil .nil) .nil)

/-- It in memory. -/
def exPMem : PMem := fun a =>
  if a = 16 then some (.group 32 0 0) else if a = 32 then some (.group 0 48 96) else if a = 48 then some (.lis 64 0)
  else if a = 64 then some (.lis 0 80) else if a = 80 then some .chars else if a = 96 then some (.group 0 0 0)
  else none

example : exHier ≠ .nil ∧ exHier.Stored exPMem ∧ exHier.blocks.Nodup ∧ 0 ∉ exHier.blocks :=
  ⟨by simp [exHier], ⟨rfl, trivial, trivial, rfl, ⟨rfl, fun h => absurd rfl h, rfl, fun _ => rfl, trivial⟩,
    ⟨rfl, trivial, trivial, trivial⟩, trivial⟩, by decide, by decide⟩

end GP
