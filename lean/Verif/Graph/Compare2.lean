import Verif.Graph.Sum
import Mathlib.Data.Sym.Sym2

set_option linter.unusedSimpArgs false

/-!
# Lemmas for `CompareTwoNetworks`
-/

namespace GR

theorem row_countP {n : ℕ} {ls : List Link} {f : ℕ → Option ℚ} (h : RowOK n ls f) (Q : Option ℕ → Bool) :
    ls.countP (fun l => Q l.ref)
      = ((Finset.range n).filter fun j => (f j).isSome ∧ Q (some j) = true).card := by
  have e1 : ls.countP (fun l => Q l.ref) = (ls.map Link.ref).countP Q := by
    rw [List.countP_map]; rfl
  rw [e1, List.countP_eq_length_filter, ← List.toFinset_card_of_nodup (h.1.filter _),
    List.toFinset_filter, row_finset h, ← Finset.card_image_of_injective _ (Option.some_injective ℕ)]
  congr 1
  ext x
  simp only [Finset.mem_filter, Finset.mem_image, Finset.mem_range]
  constructor
  · rintro ⟨⟨j, ⟨h1, h2⟩, rfl⟩, h3⟩; exact ⟨j, ⟨h1, h2, h3⟩, rfl⟩
  · rintro ⟨j, ⟨h1, h2, h3⟩, rfl⟩; exact ⟨⟨j, ⟨h1, h2⟩, rfl⟩, h3⟩

/-- Both ends of a link of `X` from node `p` to the target `r`, in `Y`. -/
def ends (X Y : Net) (p : ℕ) (r : Option ℕ) : Option (ℕ × ℕ) :=
  r.bind fun q => (dictFind Y (X.label p)).bind fun n1 => (dictFind Y (X.label q)).bind fun n2 =>
    some (n1, n2)

/-- The link exists in `Y` too. -/
def also (X Y : Net) (p : ℕ) (r : Option ℕ) : Bool :=
  match ends X Y p r with
  | none => false
  | some (n1, n2) => IsThereLink Y n1 n2

theorem countRow {X Y : Net} {p : ℕ} : ∀ (ls : List Link) (c : ℕ × ℕ), (∀ l ∈ ls, l.ref.isSome) →
    ls.foldlM (countOne X Y p) c
    = some (c.1 + ls.countP (fun l => (ends X Y p l.ref).isSome), c.2 + ls.countP (fun l => also X Y p l.ref))
  | [], c, _ => by simp
  | l :: ls, c, h => by
    obtain ⟨q, hq⟩ := Option.isSome_iff_exists.1 (h l (by simp))
    have hb : bothIn X Y p l = some (ends X Y p l.ref) := by
      simp [bothIn, ends, hq]
    rw [List.foldlM_cons]
    have ho : countOne X Y p c l = some (match ends X Y p l.ref with
        | none => c
        | some (n1, n2) => (c.1 + 1, if IsThereLink Y n1 n2 then c.2 + 1 else c.2)) := by
      unfold countOne
      rw [hb]
      simp only [Option.bind_eq_bind, Option.bind_some]
      cases ends X Y p l.ref <;> rfl
    rw [ho]
    simp only [Option.bind_eq_bind, Option.bind_some]
    rw [countRow ls _ (fun m hm => h m (by simp [hm]))]
    cases he : ends X Y p l.ref with
    | none => simp [List.countP_cons, he, also]
    | some ab =>
      obtain ⟨a, b⟩ := ab
      simp only [List.countP_cons, he, also]
      by_cases hl : IsThereLink Y a b <;> simp [hl] <;> omega

theorem countLinks_sum {X Y : Net} : ∀ (ps : List ℕ) (c : ℕ × ℕ),
    (∀ p ∈ ps, ∀ l ∈ X.neig p, l.ref.isSome) →
    ps.foldlM (fun (c : ℕ × ℕ) p => (X.neig p).foldlM (countOne X Y p) c) c
    = some (c.1 + (ps.map fun p => (X.neig p).countP (fun l => (ends X Y p l.ref).isSome)).sum,
        c.2 + (ps.map fun p => (X.neig p).countP (fun l => also X Y p l.ref)).sum)
  | [], c, _ => by simp
  | p :: ps, c, h => by
    rw [List.foldlM_cons, countRow (X.neig p) c (h p (by simp))]
    simp only [Option.bind_eq_bind, Option.bind_some]
    rw [countLinks_sum ps _ (fun q hq => h q (by simp [hq]))]
    simp [add_assoc]

/-- Ordered pairs of linked nodes of `X` that satisfy `Q`. -/
def linkedPairs (n : ℕ) (g : WG) (Q : ℕ → ℕ → Bool) : Finset (ℕ × ℕ) :=
  (Finset.range n ×ˢ Finset.range n).filter fun p => (g p.1 p.2).isSome ∧ Q p.1 p.2 = true

theorem sum_linkedPairs {X : Net} {g : WG} (h : Holds X g) (Q : ℕ → Option ℕ → Bool) :
    ((List.range X.n).map fun p => (X.neig p).countP (fun l => Q p l.ref)).sum
      = (linkedPairs X.n g fun i j => Q i (some j)).card := by
  unfold linkedPairs
  rw [Finset.card_filter, Finset.sum_product, ← List.sum_toFinset _ List.nodup_range]
  refine Finset.sum_congr (by ext; simp) ?_
  intro p hp
  rw [row_countP (h p (Finset.mem_range.1 hp)), Finset.card_filter]

theorem countLinks_eq {X Y : Net} {g : WG} (h : Holds X g) :
    countLinks X Y (List.range X.n) = some
      ((linkedPairs X.n g fun i j => (ends X Y i (some j)).isSome).card,
       (linkedPairs X.n g fun i j => also X Y i (some j)).card) := by
  unfold countLinks
  rw [countLinks_sum]
  · simp only [Nat.zero_add]
    rw [sum_linkedPairs h (fun i r => (ends X Y i r).isSome), sum_linkedPairs h (fun i r => also X Y i r)]
  · intro p hp l hl
    obtain ⟨j, _, e, _⟩ := (h p (List.mem_range.1 hp)).2.1 l hl
    simp [e]

/-- Symmetric irreflexive sets of pairs have two elements per unordered pair of names. -/
theorem card_two_sym {P : Finset (ℕ × ℕ)} {lab : ℕ → String} (hs : ∀ i j, (i, j) ∈ P → (j, i) ∈ P)
    (hi : ∀ i, (i, i) ∉ P)
    (hinj : ∀ i j k l, (i, j) ∈ P → (k, l) ∈ P → lab i = lab k → i = k) :
    P.card = 2 * (P.image fun p => s(lab p.1, lab p.2)).card := by
  have e1 : P.card = (P.filter fun p => p.2 < p.1).card + (P.filter fun p => ¬ p.2 < p.1).card :=
    (Finset.card_filter_add_card_filter_not _).symm
  have e2 : (P.filter fun p => ¬ p.2 < p.1).card = (P.filter fun p => p.2 < p.1).card := by
    apply Finset.card_bij (fun p _ => (p.2, p.1))
    · rintro ⟨a, b⟩ hp
      simp only [Finset.mem_filter] at hp ⊢
      refine ⟨hs _ _ hp.1, ?_⟩
      rcases Nat.lt_trichotomy a b with h | h | h
      · exact h
      · subst h; exact absurd hp.1 (hi a)
      · exact (hp.2 h).elim
    · rintro ⟨a, b⟩ _ ⟨c, d⟩ _ e
      simp only [Prod.mk.injEq] at e ⊢
      exact ⟨e.2, e.1⟩
    · rintro ⟨a, b⟩ hp
      simp only [Finset.mem_filter] at hp
      refine ⟨(b, a), ?_, rfl⟩
      simp only [Finset.mem_filter]
      exact ⟨hs _ _ hp.1, by omega⟩
  have e3 : (P.image fun p => s(lab p.1, lab p.2))
      = (P.filter fun p => p.2 < p.1).image fun p => s(lab p.1, lab p.2) := by
    ext x
    simp only [Finset.mem_image, Finset.mem_filter]
    constructor
    · rintro ⟨⟨a, b⟩, hp, rfl⟩
      rcases Nat.lt_trichotomy a b with h | h | h
      · exact ⟨(b, a), ⟨hs _ _ hp, h⟩, Sym2.eq_swap⟩
      · subst h; exact absurd hp (hi a)
      · exact ⟨(a, b), ⟨hp, h⟩, rfl⟩
    · rintro ⟨p, hp, rfl⟩; exact ⟨p, hp.1, rfl⟩
  have e4 : ((P.filter fun p => p.2 < p.1).image fun p => s(lab p.1, lab p.2)).card
      = (P.filter fun p => p.2 < p.1).card := by
    apply Finset.card_image_of_injOn
    rintro ⟨a, b⟩ hp ⟨c, d⟩ hq e
    simp only [Finset.coe_filter, Set.mem_ofPred_eq] at hp hq
    simp only [Sym2.eq_iff] at e
    rcases e with ⟨x, y⟩ | ⟨x, y⟩
    · have := hinj a b c d hp.1 hq.1 x
      have := hinj b a d c (hs _ _ hp.1) (hs _ _ hq.1) y
      simp_all
    · have h1 := hinj a b d c hp.1 (hs _ _ hq.1) x
      have h2 := hinj b a c d (hs _ _ hp.1) hq.1 y
      omega
  rw [e1, e2, e3, e4]
  omega

end GR
