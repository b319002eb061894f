import Verif.Graph.RandomProps
import Mathlib.Algebra.BigOperators.Intervals

set_option linter.unusedSimpArgs false

/-!
# Adjacency and Laplacian matrices (`src/matrix.c`), C40
-/

namespace GR

/-- An `int **`; only entries below the number of nodes are meaningful. -/
abbrev Mat := ℕ → ℕ → Int

/-- `A[i][j] = v`. -/
def Mat.set (A : Mat) (i j : ℕ) (v : Int) : Mat :=
  Function.update A i (Function.update (A i) j v)

/-- Inner loop of `AdjacencyMat` (src/matrix.c:36-40); a soft link is a NULL dereference. -/
def adjRow (i : ℕ) : List Link → Mat → Option Mat
  | [], A => some A
  | l :: ls, A => do
    let j ← l.ref
    adjRow i ls (A.set i j 1)

/-- Loop over the nodes `k, k+1, …` of `AdjacencyMat` (src/matrix.c:35-41). -/
def adjRows (net : Net) : (todo : ℕ) → (k : ℕ) → Mat → Option Mat
  | 0, _, A => some A
  | todo + 1, k, A => do
    let A ← adjRow k (net.neig k) A
    adjRows net todo (k + 1) A

/-- `AdjacencyMat`, src/matrix.c:22-46. -/
def AdjacencyMat (net : Net) : Option Mat := adjRows net net.n 0 (fun _ _ => 0)

/-- The loop `for (j=i+1; j<nnod; j++)` of `LaplacianMat` (src/matrix.c:71-74). -/
def negate (i : ℕ) : (todo : ℕ) → (j : ℕ) → Mat → Mat
  | 0, _, L => L
  | todo + 1, j, L =>
    let L := L.set i j (-L i j)
    let L := L.set j i (-L j i)
    negate i todo (j + 1) L

/-- Loop over `i` of `LaplacianMat` (src/matrix.c:61-75); inner `none`: `NULL` is returned. -/
def laplaceLoop (nnod : ℕ) : (todo : ℕ) → (i : ℕ) → Net → Mat → Option (Mat × Net)
  | 0, _, net, L => some (L, net)
  | todo + 1, i, net, L =>
    if L i i > 0 then none
    else
      let d := NodeDegree net i
      laplaceLoop nnod todo (i + 1) d.2 (negate i (nnod - (i + 1)) (i + 1) (L.set i i d.1))

/-- `LaplacianMat`, src/matrix.c:51-79. Outer `none`: undefined; inner `none`: `NULL`. -/
def LaplacianMat (net : Net) : Option (Option (Mat × Net)) := do
  let A ← AdjacencyMat net
  return laplaceLoop net.n net.n 0 net A

/-! ## Lemmas -/

theorem Mat.set_apply (A : Mat) (i j a b : ℕ) (v : Int) :
    (A.set i j v) a b = if a = i ∧ b = j then v else A a b := by
  unfold Mat.set
  by_cases ha : a = i
  · subst ha
    by_cases hb : b = j
    · subst hb; simp
    · simp [hb]
  · simp [ha]

theorem adjRow_ok {n i : ℕ} : ∀ (ls : List Link) (A : Mat),
    (∀ l ∈ ls, ∃ j, j < n ∧ l.ref = some j) →
    ∃ A', adjRow i ls A = some A' ∧ ∀ a b, A' a b =
      if a = i ∧ (∃ l ∈ ls, l.ref = some b) then 1 else A a b
  | [], A, _ => ⟨A, rfl, by simp⟩
  | l :: ls, A, h => by
    obtain ⟨j, _, e⟩ := h l (by simp)
    obtain ⟨A', e', h'⟩ := adjRow_ok (n := n) (i := i) ls (A.set i j 1) (fun x hx => h x (by simp [hx]))
    refine ⟨A', by simp [adjRow, e, e'], ?_⟩
    intro a b
    rw [h', Mat.set_apply]
    by_cases ha : a = i
    · by_cases hb : ∃ l ∈ ls, l.ref = some b
      · have hb' : ∃ m ∈ l :: ls, m.ref = some b := by
          obtain ⟨m, hm, em⟩ := hb; exact ⟨m, by simp [hm], em⟩
        rw [if_pos ⟨ha, hb⟩, if_pos ⟨ha, hb'⟩]
      · rw [if_neg (fun h => hb h.2)]
        by_cases hbj : b = j
        · have hb' : ∃ m ∈ l :: ls, m.ref = some b := ⟨l, by simp, by rw [e, hbj]⟩
          rw [if_pos ⟨ha, hbj⟩, if_pos ⟨ha, hb'⟩]
        · have hb' : ¬ ∃ m ∈ l :: ls, m.ref = some b := by
            rintro ⟨m, hm, em⟩
            rcases List.mem_cons.1 hm with rfl | hm
            · rw [e] at em; exact hbj (by simpa using em.symm)
            · exact hb ⟨m, hm, em⟩
          rw [if_neg (fun h => hbj h.2), if_neg (fun h => hb' h.2)]
    · rw [if_neg (fun h => ha h.1), if_neg (fun h => ha h.1), if_neg (fun h => ha h.1)]

theorem adjRows_ok {net : Net} {g : WG} (h : Holds net g) : ∀ (todo k : ℕ) (A : Mat),
    todo + k = net.n →
    ∃ A', adjRows net todo k A = some A' ∧ ∀ a b, A' a b =
      if k ≤ a ∧ a < net.n ∧ (g a b).isSome then 1 else A a b
  | 0, k, A, hk => ⟨A, rfl, fun a b => by rw [if_neg]; omega⟩
  | todo + 1, k, A, hk => by
    have hkn : k < net.n := by omega
    obtain ⟨A1, e1, h1⟩ := adjRow_ok (n := net.n) (i := k) (net.neig k) A (fun l hl => by
      obtain ⟨j, hj, e, _⟩ := (h k hkn).2.1 l hl
      exact ⟨j, hj, e⟩)
    obtain ⟨A2, e2, h2⟩ := adjRows_ok h todo (k + 1) A1 (by omega)
    refine ⟨A2, by simp [adjRows, e1, e2], ?_⟩
    intro a b
    rw [h2, h1]
    by_cases ha : a = k
    · subst ha
      rw [if_neg (by omega)]
      simp only [row_mem_iff (h a hkn) b, true_and, le_refl, hkn]
    · have hin : (if a = k ∧ (∃ l ∈ net.neig k, l.ref = some b) then 1 else A a b) = A a b :=
        if_neg (fun h => ha h.1)
      rw [hin]
      have : (k + 1 ≤ a ∧ a < net.n ∧ (g a b).isSome = true) ↔ (k ≤ a ∧ a < net.n ∧ (g a b).isSome = true) := by
        constructor
        · rintro ⟨x, y⟩; exact ⟨by omega, y⟩
        · rintro ⟨x, y⟩; exact ⟨by omega, y⟩
      simp only [this]

theorem negate_apply (i : ℕ) : ∀ (todo j : ℕ) (L : Mat), i < j → ∀ a b,
    negate i todo j L a b =
      if (a = i ∧ j ≤ b ∧ b < j + todo) ∨ (b = i ∧ j ≤ a ∧ a < j + todo) then - L a b else L a b
  | 0, j, L, _, a, b => by rw [if_neg (by omega)]; rfl
  | todo + 1, j, L, hij, a, b => by
    rw [negate, negate_apply i todo (j + 1) _ (by omega)]
    simp only [Mat.set_apply]
    by_cases h1 : a = i ∧ b = j
    · obtain ⟨rfl, rfl⟩ := h1
      rw [if_neg (by omega), if_neg (by omega), if_pos (by simp), if_pos (by omega)]
    · by_cases h2 : a = j ∧ b = i
      · obtain ⟨rfl, rfl⟩ := h2
        rw [if_neg (by omega), if_pos (by simp), if_neg (by omega), if_pos (by omega)]
      · rw [if_neg h2, if_neg h1]
        have : ((a = i ∧ j + 1 ≤ b ∧ b < j + 1 + todo) ∨ (b = i ∧ j + 1 ≤ a ∧ a < j + 1 + todo)) ↔
          ((a = i ∧ j ≤ b ∧ b < j + (todo + 1)) ∨ (b = i ∧ j ≤ a ∧ a < j + (todo + 1))) := by omega
        simp only [this]

theorem laplaceLoop_ok {g : WG} {n : ℕ} (hl : ∀ i, g i i = none) {A : Mat}
    (hA : ∀ a, A a a ≤ 0) : ∀ (todo i : ℕ) (net : Net) (L : Mat), net.n = n → todo + i = n →
    Rep net g →
    (∀ a b, a < n → b < n → L a b = if a < i ∨ b < i then (if a = b then (g.degree n a : Int) else - A a b)
      else A a b) →
    ∃ L' net', laplaceLoop n todo i net L = some (L', net') ∧
      ∀ a b, a < n → b < n → L' a b = if a = b then (g.degree n a : Int) else - A a b
  | 0, i, net, L, _, hi, _, hL => by
    refine ⟨L, net, rfl, fun a b ha hb => ?_⟩
    rw [hL a b ha hb, if_pos (by omega)]
  | todo + 1, i, net, L, hn, hi, hrep, hL => by
    have hin : i < n := by omega
    have hd : ¬ L i i > 0 := by
      rw [hL i i hin hin, if_neg (by omega)]
      have := hA i; omega
    obtain ⟨d1, d2, _, d3⟩ := degree_net hrep.2 (i := i) (by omega)
    have dval : (NodeDegree net i).1 = g.degree n i := by
      rw [degree_answer hrep.2 (by omega), row_length (hrep.1 i (by omega)), hn]; rfl
    rw [laplaceLoop, if_neg hd]
    apply laplaceLoop_ok hl hA todo (i + 1) _ _ (by rw [d1]; exact hn) (by omega)
    · refine ⟨?_, d3⟩
      intro k hk
      rw [d1] at hk ⊢
      rw [d2]; exact hrep.1 k hk
    · intro a b ha hb
      rw [negate_apply i _ _ _ (by omega), Mat.set_apply, hL a b ha hb, dval]
      by_cases hab : a = b
      · subst hab
        by_cases hai : a = i
        · subst hai
          have h1 : ¬ ((a = a ∧ a + 1 ≤ a ∧ a < a + 1 + (n - (a + 1))) ∨
            (a = a ∧ a + 1 ≤ a ∧ a < a + 1 + (n - (a + 1)))) := by omega
          rw [if_neg h1]; simp
        · have h1 : ¬ ((a = i ∧ i + 1 ≤ a ∧ a < i + 1 + (n - (i + 1))) ∨
            (a = i ∧ i + 1 ≤ a ∧ a < i + 1 + (n - (i + 1)))) := by omega
          rw [if_neg h1]
          by_cases hlt : a < i
          · simp [hai, hlt, Nat.lt_succ_of_lt hlt]
          · have : ¬ a < i + 1 := by omega
            simp [hai, hlt, this]
      · have hne : ¬ (a = i ∧ b = i) := by omega
        rw [if_neg hne, if_neg hab]
        by_cases hlt : a < i ∨ b < i
        · have h1 : ¬ ((a = i ∧ i + 1 ≤ b ∧ b < i + 1 + (n - (i + 1))) ∨
            (b = i ∧ i + 1 ≤ a ∧ a < i + 1 + (n - (i + 1)))) := by omega
          have h2 : a < i + 1 ∨ b < i + 1 := by omega
          rw [if_neg h1, if_pos hlt, if_pos h2]
        · by_cases hnew : a = i ∨ b = i
          · have h1 : ((a = i ∧ i + 1 ≤ b ∧ b < i + 1 + (n - (i + 1))) ∨
              (b = i ∧ i + 1 ≤ a ∧ a < i + 1 + (n - (i + 1)))) := by omega
            have h2 : a < i + 1 ∨ b < i + 1 := by omega
            rw [if_pos h1, if_neg hlt, if_pos h2]
          · have h1 : ¬ ((a = i ∧ i + 1 ≤ b ∧ b < i + 1 + (n - (i + 1))) ∨
              (b = i ∧ i + 1 ≤ a ∧ a < i + 1 + (n - (i + 1)))) := by omega
            have h2 : ¬ (a < i + 1 ∨ b < i + 1) := by omega
            rw [if_neg h1, if_neg hlt, if_neg h2]

/-! ## C40 -/

/-- C40. For every network without self links, `LaplacianMat` returns a matrix with the degrees on the
diagonal, −1 for every link and 0 elsewhere; every row sums to zero; if the network is symmetric so
is the matrix. -/
theorem C40_laplacian {net : Net} {g : WG} (h : Holds net g) (hc : CachesOK net)
    (hl : ∀ i, g i i = none) :
    ∃ L net', LaplacianMat net = some (some (L, net')) ∧
      (∀ i, i < net.n → L i i = g.degree net.n i) ∧
      (∀ i j, i < net.n → j < net.n → i ≠ j → L i j = if (g i j).isSome then -1 else 0) ∧
      (∀ i, i < net.n → ∑ j ∈ Finset.range net.n, L i j = 0) ∧
      ((∀ i j, (g i j).isSome = (g j i).isSome) → ∀ i j, i < net.n → j < net.n → L i j = L j i) := by
  obtain ⟨A, eA, hA⟩ := adjRows_ok h net.n 0 (fun _ _ => 0) (by omega)
  have hAA : ∀ a b, a < net.n → A a b = if (g a b).isSome then 1 else 0 := by
    intro a b ha
    rw [hA]
    simp [ha]
  obtain ⟨L, net', eL, hL⟩ := laplaceLoop_ok (g := g) (n := net.n) hl (A := A)
    (by intro a; rw [hA]; simp [hl a]) net.n 0 net A rfl (by omega) ⟨h, hc⟩ (by
      intro a b _ _; simp)
  have hoff : ∀ i j, i < net.n → j < net.n → i ≠ j → L i j = if (g i j).isSome then -1 else 0 := by
    intro i j hi hj hij
    rw [hL i j hi hj, if_neg hij, hAA i j hi]
    split_ifs <;> rfl
  have hdiag : ∀ i, i < net.n → L i i = g.degree net.n i := by
    intro i hi
    rw [hL i i hi hi, if_pos rfl]
  refine ⟨L, net', ?_, hdiag, hoff, ?_, ?_⟩
  · have e : AdjacencyMat net = some A := eA
    simp only [LaplacianMat, e, Option.bind_eq_bind, Option.bind_some, eL]
    rfl
  · intro i hi
    have hmem : i ∈ Finset.range net.n := Finset.mem_range.2 hi
    rw [← Finset.add_sum_erase _ _ hmem, hdiag i hi]
    have e1 : ∑ j ∈ (Finset.range net.n).erase i, L i j
        = ∑ j ∈ (Finset.range net.n).erase i, if (g i j).isSome then (-1 : Int) else 0 := by
      apply Finset.sum_congr rfl
      intro j hj
      have hj' := Finset.mem_erase.1 hj
      exact hoff i j hi (Finset.mem_range.1 hj'.2) (fun e => hj'.1 e.symm)
    have e2 : (g.degree net.n i : Int)
        = ∑ j ∈ (Finset.range net.n).erase i, if (g i j).isSome then (1 : Int) else 0 := by
      rw [WG.degree, Finset.card_filter]
      push_cast
      rw [← Finset.add_sum_erase _ _ hmem]
      simp [hl i]
    rw [e1, e2, ← Finset.sum_add_distrib]
    apply Finset.sum_eq_zero
    intro j _
    split_ifs <;> simp
  · intro hs i j hi hj
    by_cases hij : i = j
    · subst hij; rfl
    · rw [hoff i j hi hj hij, hoff j i hj hi (fun e => hij e.symm), hs]

theorem laplaceLoop_null {g : WG} {n : ℕ} {A : Mat} {m : ℕ} (hm : m < n) (hAm : A m m > 0) :
    ∀ (todo i : ℕ) (net : Net) (L : Mat), net.n = n → todo + i = n → i ≤ m → Rep net g →
    (∀ a b, a < n → b < n → i ≤ a → i ≤ b → L a b = A a b) → laplaceLoop n todo i net L = none
  | 0, i, net, L, _, hi, him, _, _ => by omega
  | todo + 1, i, net, L, hn, hi, him, hrep, hL => by
    rw [laplaceLoop]
    split_ifs with hd
    · rfl
    · obtain ⟨d1, d2, _, d3⟩ := degree_net hrep.2 (i := i) (by omega)
      have hne : i ≠ m := by
        rintro rfl
        rw [hL i i (by omega) (by omega) le_rfl le_rfl] at hd
        exact hd hAm
      apply laplaceLoop_null (g := g) hm hAm todo (i + 1) _ _ (by rw [d1]; exact hn) (by omega) (by omega)
      · refine ⟨?_, d3⟩
        intro k hk
        rw [d1] at hk ⊢
        rw [d2]; exact hrep.1 k hk
      · intro a b ha hb hia hib
        rw [negate_apply i _ _ _ (by omega), if_neg (by omega), Mat.set_apply, if_neg (by omega)]
        exact hL a b ha hb (by omega) (by omega)

/-- C40. With a self link anywhere the answer is `NULL`. -/
theorem C40_self_link_null {net : Net} {g : WG} (h : Holds net g) (hc : CachesOK net) {i : ℕ}
    (hi : i < net.n) (hl : (g i i).isSome) : LaplacianMat net = some none := by
  obtain ⟨A, eA, hA⟩ := adjRows_ok h net.n 0 (fun _ _ => 0) (by omega)
  have e : AdjacencyMat net = some A := eA
  have hAi : A i i > 0 := by rw [hA, if_pos ⟨by omega, hi, hl⟩]; decide
  have := laplaceLoop_null (g := g) (A := A) hi hAi net.n 0 net A rfl (by omega) (by omega) ⟨h, hc⟩
    (by intros; rfl)
  simp [LaplacianMat, e, this]

example : ∃ L net', LaplacianMat twoLinks = some (some (L, net')) ∧ L 0 0 = 1 ∧ L 0 1 = -1 ∧ L 0 2 = 0 ∧
    ∑ j ∈ Finset.range 4, L 0 j = 0 := by
  obtain ⟨L, net', e, h1, h2, h3, _⟩ := C40_laplacian twoLinks_holds.1 twoLinks_holds.2.1 twoLinks_holds.2.2.loop
  refine ⟨L, net', e, ?_, ?_, ?_, h3 0 (by decide)⟩
  · rw [h1 0 (by decide)]; decide +kernel
  · rw [h2 0 1 (by decide) (by decide) (by decide)]; decide +kernel
  · rw [h2 0 2 (by decide) (by decide) (by decide)]; decide +kernel

end GR
