import Verif.Search.FreeModel
import Verif.Search.Spec
import Verif.Search.Insert

/-!
# C170: freeing a dictionary of labels
-/

namespace TS

open RG

theorem Tree.Stored.congr {tag : Bool} {h h' : DMem} : ∀ {t : Tree Entry}, t.Stored tag h →
    (∀ a ∈ t.blocks, h' a = h a) → t.Stored tag h'
  | .nil, _, _ => trivial
  | .node c l k r, ⟨h1, h2, h3, hl, hr⟩, he => by
    refine ⟨?_, ?_, ?_, hl.congr ?_, hr.congr ?_⟩
    · rw [he _ (by simp [Tree.blocks]), h1]
    · rw [he _ (by simp [Tree.blocks]), h2]
    · rw [he _ (by simp [Tree.blocks]), h3]
    · intro a ha; exact he a (by simp [Tree.blocks, ha])
    · intro a ha; exact he a (by simp [Tree.blocks, ha])

theorem Tree.addr_mem : ∀ {t : Tree Entry}, t ≠ .nil → t.addr ∈ t.blocks
  | .nil, h => absurd rfl h
  | .node _ _ _ _, _ => by simp [Tree.addr, Tree.blocks]

/-- With the colours out of the way everything is freed. `tag` may be set if no node is red. -/
theorem FreeLabelDict_all (tag : Bool) : ∀ (t : Tree Entry) (h : DMem) (fuel : ℕ), t.Stored tag h →
    (tag = true → t.hasRed = false) → t.blocks.Nodup → 0 ∉ t.blocks → t.height < fuel →
    FreeLabelDict fuel t.addr h = .ok fun a => if a ∈ t.blocks then none else h a
  | .nil, h, fuel, _, _, _, _, hf => by
    obtain ⟨f, rfl⟩ : ∃ f, fuel = f + 1 := ⟨fuel - 1, by omega⟩
    simp [FreeLabelDict, Tree.addr, Tree.blocks]
  | .node c l k r, h, fuel, ⟨h1, h2, h3, hl, hr⟩, hc, hnd, h0, hf => by
    obtain ⟨f, rfl⟩ : ∃ f, fuel = f + 1 := ⟨fuel - 1, by omega⟩
    simp only [Tree.height] at hf
    simp only [Tree.blocks, List.nodup_cons, List.mem_cons, List.mem_append, not_or, List.nodup_append] at hnd h0
    obtain ⟨⟨n1, n2, n3, n4⟩, ⟨n5, n6, n7⟩, ⟨n8, n9⟩, n10, n11, n12⟩ := hnd
    obtain ⟨z1, z2, z3, z4, z5⟩ := h0
    have hred : (if tag && c then l.addr + 1 else l.addr) = l.addr := by
      cases tag with
      | false => rfl
      | true =>
        have := hc rfl
        simp only [Tree.hasRed, Bool.or_eq_false_iff] at this
        simp [this.1.1]
    rw [hred] at h1
    have hcl : tag = true → l.hasRed = false := fun e => by
      have := hc e; simp only [Tree.hasRed, Bool.or_eq_false_iff] at this; exact this.1.2
    have hcr : tag = true → r.hasRed = false := fun e => by
      have := hc e; simp only [Tree.hasRed, Bool.or_eq_false_iff] at this; exact this.2
    have el := FreeLabelDict_all tag l h f hl hcl n10 z4 (by omega)
    set ha : DMem := fun a => if a ∈ l.blocks then none else h a with had
    have hr' : r.Stored tag ha := hr.congr fun a har => by
      rw [had]; simp only
      rw [if_neg]; intro hal; exact n12 a hal a har rfl
    have er := FreeLabelDict_all tag r ha f hr' hcr n11 z5 (by omega)
    set hb : DMem := fun a => if a ∈ r.blocks then none else ha a with hbd
    have eb : ∀ a, a ∉ l.blocks → a ∉ r.blocks → hb a = h a := by
      intro a a1 a2
      rw [hbd, had]; simp only
      rw [if_neg a2, if_neg a1]
    have b1 : hb k.node = some (.node k.leaf l.addr r.addr) := by rw [eb _ n3 n4, h1]
    have b2 : hb k.leaf = some (.leaf k.label) := by rw [eb _ n6 n7, h2]
    have b3 : hb k.label = some .chars := by rw [eb _ n8 n9, h3]
    have ez : ¬ (Tree.node c l k r).addr = 0 := fun e => z1 (by simpa [Tree.addr] using e.symm)
    unfold FreeLabelDict
    rw [if_neg ez]
    have ea : (Tree.node c l k r).addr = k.node := rfl
    rw [ea, h1]
    simp only [el, er, Res.bind_ok, FreeNodeTree, b2, cfree, if_neg (Ne.symm z3), if_neg (Ne.symm z2),
      if_neg (Ne.symm z1), b3]
    have d1 : Function.update hb k.label none k.leaf = some (.leaf k.label) := by
      rw [Function.update_of_ne n5, b2]
    rw [d1]
    simp only [Res.bind_ok]
    have d2 : Function.update (Function.update hb k.label none) k.leaf none k.node =
        some (.node k.leaf l.addr r.addr) := by
      rw [Function.update_of_ne n1, Function.update_of_ne n2, b1]
    rw [d2]
    simp only [Res.ok.injEq]
    funext a
    by_cases a1 : a = k.node
    · subst a1; simp [Tree.blocks]
    rw [Function.update_of_ne a1]
    by_cases a2 : a = k.leaf
    · subst a2; simp [Tree.blocks]
    rw [Function.update_of_ne a2]
    by_cases a3 : a = k.label
    · subst a3; simp [Tree.blocks]
    rw [Function.update_of_ne a3]
    simp only [Tree.blocks, List.mem_cons, a1, a2, a3, false_or, List.mem_append, hbd, had]
    by_cases a4 : a ∈ r.blocks
    · simp [a4]
    · by_cases a5 : a ∈ l.blocks <;> simp [a4, a5]

/-- **C170** with the tree of `lib/search.c`: for every dictionary in memory (blocks all different),
`FreeLabelDict` is defined, frees exactly the blocks of the dictionary, each once, and leaves all other memory
alone. -/
theorem C170_free_partial {t : Tree Entry} {h : DMem} (hs : t.Stored false h) (hnd : t.blocks.Nodup)
    (h0 : 0 ∉ t.blocks) {fuel : ℕ} (hf : t.height < fuel) :
    ∃ h', FreeLabelDict fuel t.addr h = .ok h' ∧ (∀ a ∈ t.blocks, h' a = none) ∧ ∀ a ∉ t.blocks, h' a = h a :=
  ⟨_, FreeLabelDict_all false t h fuel hs (by simp) hnd h0 hf, fun a ha => by simp [ha], fun a ha => by simp [ha]⟩

/-- **C170, refuted** with the tree of recent versions of the GNU C library: no block begins at an odd address, so that a
dictionary with a red node makes `FreeLabelDict` read memory at the odd address that the left pointer of the
node is taken for. -/
theorem C170_tagged : ∀ {t : Tree Entry} {h : DMem}, t.Stored true h → t.blocks.Nodup → 0 ∉ t.blocks →
    (∀ a, a % 2 = 1 → h a = none) → t.hasRed = true → ∀ {fuel : ℕ}, t.height < fuel →
    FreeLabelDict (fuel + 1) t.addr h = .ub
  | .nil, _, _, _, _, _, hr, _, _ => by simp [Tree.hasRed] at hr
  | .node c l k r, h, ⟨h1, h2, h3, hl, hr⟩, hnd, h0, hodd, hred, fuel, hf => by
    obtain ⟨f, rfl⟩ : ∃ f, fuel = f + 1 := ⟨fuel - 1, by omega⟩
    simp only [Tree.height] at hf
    simp only [Tree.blocks, List.nodup_cons, List.mem_cons, List.mem_append, not_or, List.nodup_append] at hnd h0
    obtain ⟨⟨n1, n2, n3, n4⟩, ⟨n5, n6, n7⟩, ⟨n8, n9⟩, n10, n11, n12⟩ := hnd
    obtain ⟨z1, z2, z3, z4, z5⟩ := h0
    have ez : ¬ (Tree.node c l k r).addr = 0 := fun e => z1 (by simpa [Tree.addr] using e.symm)
    have ea : (Tree.node c l k r).addr = k.node := rfl
    unfold FreeLabelDict
    rw [if_neg ez, ea, h1]
    by_cases hc : c = true
    · subst hc
      have heven : (l.addr + 1) % 2 = 1 := by
        by_cases hn : l = .nil
        · subst hn; rfl
        · by_contra hne
          have hodd' : l.addr % 2 = 1 := by omega
          cases l with
          | nil => exact hn rfl
          | node c' l' k' r' =>
            have := hl.1
            rw [hodd k'.node hodd'] at this
            cases this
      have : FreeLabelDict (f + 1) (l.addr + 1) h = .ub := by
        unfold FreeLabelDict
        rw [if_neg (by omega), hodd _ heven]
      simp [this]
    · simp only [Bool.not_eq_true] at hc
      subst hc
      simp only [Bool.and_false, Bool.false_eq_true, if_false]
      by_cases hlr : l.hasRed = true
      · rw [C170_tagged hl n10 z4 hodd hlr (show l.height < f by omega)]
        rfl
      · have hlr : l.hasRed = false := by simpa using hlr
        rw [FreeLabelDict_all true l h (f + 1) hl (fun _ => hlr) n10 z4 (by omega)]
        simp only [Res.bind_ok]
        rw [C170_tagged (t := r) (fuel := f)]
        · rfl
        · exact hr.congr fun a har => by
            rw [if_neg]; intro hal; exact n12 a hal a har rfl
        · exact n11
        · exact z5
        · intro a ha
          rw [hodd a ha]; simp
        · simpa [Tree.hasRed, hlr] using hred
        · omega

theorem black_size {t : Tree Entry} {c : Bool} {n : ℕ} (h : RB c n t) (hr : t.hasRed = false) : t.size + 1 = 2 ^ n := by
  induction h with
  | nil => rfl
  | red _ _ _ _ => simp [Tree.hasRed] at hr
  | @black a b n l k r _ _ i1 i2 =>
    simp only [Tree.hasRed, Bool.or_eq_false_iff] at hr
    have e1 := i1 hr.1.2
    have e2 := i2 hr.2
    simp only [Tree.size]
    rw [pow_succ]; omega

/-- **C170, refuted**: with recent versions of the GNU C library, `FreeLabelDict` is undefined for every dictionary whose
number of labels is not one less than a power of 2, for instance 2. -/
theorem C170_crash {L : Type} [LinearOrder L] {lab : Entry → L} {t : Tree Entry} (hv : Valid lab t)
    (hsize : ∀ n, t.size + 1 ≠ 2 ^ n) {h : DMem} (hs : t.Stored true h) (hnd : t.blocks.Nodup)
    (h0 : 0 ∉ t.blocks) (hodd : ∀ a, a % 2 = 1 → h a = none) {fuel : ℕ} (hf : t.height + 1 < fuel) :
    FreeLabelDict fuel t.addr h = .ub := by
  obtain ⟨c, n, hrb⟩ := hv.rb
  obtain ⟨f, rfl⟩ : ∃ f, fuel = f + 1 := ⟨fuel - 1, by omega⟩
  refine C170_tagged hs hnd h0 hodd ?_ (by omega)
  by_contra hr
  exact hsize n (black_size hrb (by simpa using hr))

/-- Two labels, entered one after the other: the second node is red. -/
def exDict : Tree Entry := .node false .nil ⟨16, 32, 48⟩ (.node true .nil ⟨64, 80, 96⟩ .nil)

/-- The dictionary in memory. -/
def exDMem (tag : Bool) : DMem := fun a =>
  if a = 16 then some (.node 32 0 64) else if a = 32 then some (.leaf 48) else if a = 48 then some .chars
  else if a = 64 then some (.node 80 (if tag then 1 else 0) 0) else if a = 80 then some (.leaf 96)
  else if a = 96 then some .chars else none

deriving instance DecidableEq for Tree

example : insertAll (fun e : Entry => e.label) [⟨64, 80, 96⟩, ⟨16, 32, 48⟩] = some exDict := by decide +kernel

example : exDict.Stored false (exDMem false) ∧ exDict.Stored true (exDMem true) ∧ exDict.blocks.Nodup ∧
    0 ∉ exDict.blocks ∧ exDict.hasRed = true :=
  ⟨⟨rfl, rfl, rfl, trivial, rfl, rfl, rfl, trivial, trivial⟩, ⟨rfl, rfl, rfl, trivial, rfl, rfl, rfl, trivial, trivial⟩,
    by decide, by decide, rfl⟩

example : ∀ n, exDict.size + 1 ≠ 2 ^ n := by
  intro n h
  have h : 3 = 2 ^ n := h
  cases n with
  | zero => simp at h
  | succ n => rw [pow_succ] at h; omega

example : FreeLabelDict 4 exDict.addr (exDMem true) = .ub := rfl

end TS
