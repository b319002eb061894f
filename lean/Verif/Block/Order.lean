import Verif.Block.Kernels

/-! # A longer table changes nothing but undefined outcomes

`a ⊑ b`: where `a` is a result, `b` is the same result.  Every function of the model respects it. -/

set_option linter.unusedSimpArgs false

namespace BK

open GP hiding St
open RG LS Finset

/-- Defined at least as often, with the same value. -/
def OLe {α : Type} (a b : Option α) : Prop := ∀ x, a = some x → b = some x

/-- Returns at least as often, with the same result. -/
def RLe {α : Type} (a b : Res α) : Prop := ∀ x, a = .ok x → b = .ok x

theorem OLe.refl {α : Type} (a : Option α) : OLe a a := fun _ h => h

theorem RLe.refl {α : Type} (a : Res α) : RLe a a := fun _ h => h

theorem OLe.bind {α β : Type} {a b : Option α} {f g : α → Option β} (h : OLe a b) (hf : ∀ x, OLe (f x) (g x)) :
    OLe (a >>= f) (b >>= g) := by
  intro y hy
  cases ha : a with
  | none => rw [ha] at hy; cases hy
  | some x => rw [ha] at hy; rw [h x ha]; exact hf x y hy

theorem RLe.bind {α β : Type} {a b : Res α} {f g : α → Res β} (h : RLe a b) (hf : ∀ x, RLe (f x) (g x)) :
    RLe (a >>= f) (b >>= g) := by
  intro y hy
  cases ha : a with
  | ub => rw [ha] at hy; cases hy
  | starved => rw [ha] at hy; cases hy
  | ok x => rw [ha] at hy; rw [h x ha]; exact hf x y hy

theorem RLe.ofOption {α : Type} {a b : Option α} (h : OLe a b) : RLe (Res.ofOption a) (Res.ofOption b) := by
  intro y hy
  cases ha : a with
  | none => rw [ha] at hy; cases hy
  | some x => rw [ha] at hy; rw [h x ha]; exact hy

theorem OLe.foldlM {α β : Type} {f g : β → α → Option β} (h : ∀ b x, OLe (f b x) (g b x)) :
    ∀ (l : List α) (b : β), OLe (l.foldlM f b) (l.foldlM g b)
  | [], _ => OLe.refl _
  | x :: l, b => by
    rw [List.foldlM_cons, List.foldlM_cons]
    exact (h b x).bind fun y => OLe.foldlM h l y

theorem RLe.iter {α : Type} {f g : α → Res α} (h : ∀ x, RLe (f x) (g x)) : ∀ (k : ℕ) (x : α), RLe (iter f k x) (iter g k x)
  | 0, _ => RLe.refl _
  | k + 1, x => by
    unfold GP.iter
    exact (h x).bind fun y => RLe.iter h k y

/-- A postcondition carries over to the function that returns less often. -/
theorem Safe.of_le {α : Type} {P : α → Prop} {a b : Res α} (h : RLe a b) (hb : Safe P b) : Safe P a := by
  cases ha : a with
  | ok x =>
    rw [h x ha] at hb
    exact hb
  | starved => trivial
  | ub => trivial

/-- The same for kernels. -/
structure KLe (K K' : Kern) : Prop where
  term : ∀ r l, OLe (K.term r l) (K'.term r l)
  deg : ∀ k, OLe (K.deg k) (K'.deg k)
  score : ∀ r l, OLe (K.score r l) (K'.score r l)

variable {K K' K0 K0' : Kern} {net : Net} {linC : ℝ}

/-- Closes goals about straight-line `do` blocks. -/
macro "ole" hK:term : tactic => `(tactic| repeat' (first
  | exact OLe.refl _
  | exact ($hK).term _ _
  | exact ($hK).deg _
  | exact ($hK).score _ _
  | split
  | (refine OLe.bind ?_ fun _ => ?_)))

theorem partitionH_le (hK : KLe K K') (n : ℕ) (p : Part) : OLe (PartitionH K net n linC p) (PartitionH K' net n linC p) := by
  unfold PartitionH
  refine OLe.bind (OLe.foldlM ?_ _ _) fun x => ?_
  · intro H g1
    split
    · refine (hK.term _ _).bind fun a => OLe.foldlM ?_ _ _
      intro H g2
      ole hK
    · exact OLe.refl _
  · ole hK

theorem groupDH_le (hK : KLe K K') (p : Part) (G2G : ℕ → ℕ → Int) (v old new g : ℕ) (n2g : Int) :
    OLe (groupDH K net p G2G v old new g n2g) (groupDH K' net p G2G v old new g n2g) := by
  unfold groupDH
  dsimp only
  ole hK

theorem scanGroup_le (hK : KLe K K') (p : Part) (G2G : ℕ → ℕ → Int) (v old new : ℕ) (s : Scan) (g : ℕ) :
    OLe (scanGroup K net p G2G v old new s g) (scanGroup K' net p G2G v old new s g) := by
  unfold scanGroup
  split
  · exact (groupDH_le hK p G2G v old new g _).bind fun _ => OLe.refl _
  · exact OLe.refl _

theorem correction_le (hK : KLe K K') (n : ℕ) (p : Part) (old new : ℕ) (eff : Int) :
    OLe (correction K n p old new eff) (correction K' n p old new eff) := by
  unfold correction
  ole hK

theorem deltaH_le (hK : KLe K K') (p : Part) (G2G : ℕ → ℕ → Int) (n2g : ℕ → Int) (slg : List ℕ) (v old new : ℕ) :
    OLe (deltaH K net linC p G2G n2g slg v old new) (deltaH K' net linC p G2G n2g slg v old new) := by
  unfold deltaH
  dsimp only
  refine (OLe.foldlM (fun s g => scanGroup_le hK p G2G v old new s g) _ _).bind fun s => ?_
  exact (correction_le hK _ p old new _).bind fun _ => OLe.refl _

theorem attempt_le (hK : KLe K K') (acc : ℝ → ℚ → Bool) (s : St) :
    RLe (attempt K acc net linC s) (attempt K' acc net linC s) := by
  unfold attempt
  refine (RLe.refl _).bind ?_
  rintro ⟨v, t⟩
  dsimp only
  split
  · exact RLe.refl _
  · refine (RLe.refl _).bind ?_
    rintro ⟨new, t'⟩
    exact (RLe.ofOption (deltaH_le hK _ _ _ _ _ _ _)).bind fun d => RLe.refl _

theorem lsmc_le (hK : KLe K K') (acc : ℝ → ℚ → Bool) (factor : ℕ) (s : St) :
    RLe (LSMCStepMB K acc net linC factor s) (LSMCStepMB K' acc net linC factor s) :=
  RLe.iter (fun s => attempt_le hK acc s) _ s

theorem steps_le (hK : KLe K K') (acc : ℝ → ℚ → Bool) : ∀ (fs : List ℕ) (s : St),
    RLe (steps K acc net linC fs s) (steps K' acc net linC fs s)
  | [], _ => RLe.refl _
  | f :: fs, s => by
    unfold steps
    exact (lsmc_le hK acc f s).bind fun s' => steps_le hK acc fs s'

theorem gibbsDest_le (hK : KLe K K') (p : Part) (G2G : ℕ → ℕ → Int) (slg : List ℕ) (v old : ℕ) (s : GScan) (new : ℕ) :
    OLe (gibbsDest K net linC p G2G slg v old s new) (gibbsDest K' net linC p G2G slg v old s new) := by
  unfold gibbsDest
  split
  · exact OLe.refl _
  · exact (deltaH_le hK _ _ _ _ _ _ _).bind fun _ => OLe.refl _

theorem emptyDH_le (hK : KLe K K') (n : ℕ) (p : Part) (G2G : ℕ → ℕ → Int) (slg : List ℕ) (old : ℕ) (n2g : ℕ → Int)
    (regs : Option Regs) : OLe (emptyDH K n linC p G2G slg old n2g regs) (emptyDH K' n linC p G2G slg old n2g regs) := by
  unfold emptyDH
  refine (OLe.refl _).bind fun r => (OLe.foldlM (fun x g => ?_) _ _).bind fun x => ?_
  · refine OLe.bind ?_ fun y => OLe.refl _
    unfold emptyTerm
    dsimp only
    ole hK
  · refine OLe.bind ?_ fun y => OLe.refl _
    unfold emptyCorrection
    ole hK

theorem gibbsNode_le (hK : KLe K K') (s : GSt) (v : ℕ) : RLe (gibbsNode K net linC s v) (gibbsNode K' net linC s v) := by
  unfold gibbsNode
  split
  · exact RLe.refl _
  · refine (RLe.ofOption (OLe.foldlM (fun b x => gibbsDest_le hK _ _ _ _ _ b x) _ _)).bind fun sc => ?_
    exact (RLe.ofOption (emptyDH_le hK _ _ _ _ _ _ _)).bind fun e => RLe.refl _

theorem gibbsNodes_le (hK : KLe K K') : ∀ (vs : List ℕ) (s : GSt), RLe (gibbsNodes K net linC vs s) (gibbsNodes K' net linC vs s)
  | [], _ => RLe.refl _
  | v :: vs, s => by
    unfold gibbsNodes
    exact (gibbsNode_le hK s v).bind fun s' => gibbsNodes_le hK vs s'

theorem gibbsStep_le (hK : KLe K K') (s : St) : RLe (GibbsLinkScoreStep K net linC s) (GibbsLinkScoreStep K' net linC s) := by
  unfold GibbsLinkScoreStep
  exact (gibbsNodes_le hK _ _).bind fun _ => RLe.refl _

theorem gibbsSteps_le (hK : KLe K K') : ∀ (k : ℕ) (s : St), RLe (gibbsSteps K net linC k s) (gibbsSteps K' net linC k s)
  | 0, _ => RLe.refl _
  | k + 1, s => by
    unfold gibbsSteps
    exact (gibbsStep_le hK s).bind fun s' => gibbsSteps_le hK k s'

theorem accumulate_le (hK : KLe K K') (n : ℕ) (p : Part) (G2G : ℕ → ℕ → Int) (M : ℕ → ℕ → ℝ) :
    OLe (accumulate K n p G2G M) (accumulate K' n p G2G M) := by
  unfold accumulate
  refine OLe.foldlM (fun M i => ?_) _ _
  unfold addGroup
  split
  · refine (hK.score _ _).bind fun c => OLe.foldlM (fun M j => ?_) _ _
    ole hK
  · exact OLe.refl _

theorem sample_le (hK : KLe K K') {step step' : St → Res St} (hs : ∀ s, RLe (step s) (step' s)) (n : ℕ) :
    ∀ (k : ℕ) (s : St) (M : ℕ → ℕ → ℝ) (tr : List St), RLe (sample K step n k s M tr) (sample K' step' n k s M tr)
  | 0, _, _, _ => RLe.refl _
  | k + 1, s, M, tr => by
    unfold sample
    refine (hs s).bind fun s' => ?_
    exact (RLe.ofOption (accumulate_le hK n _ _ M)).bind fun M' => sample_le hK hs n k s' M' _

theorem linkScore_le (hK : KLe K K') (debug : Bool) (acc : ℝ → ℚ → Bool) (nIter : ℕ) (warm : List ℕ) (decorStep : ℕ)
    (scratch : ℕ → Int) (t : Tape) : RLe (LinkScoreMB K debug acc net linC nIter warm decorStep scratch t)
      (LinkScoreMB K' debug acc net linC nIter warm decorStep scratch t) := by
  unfold LinkScoreMB
  refine (RLe.refl _).bind ?_
  rintro ⟨p, t⟩
  refine (RLe.ofOption (partitionH_le hK _ p)).bind fun H => (steps_le hK acc warm _).bind fun s => ?_
  exact (sample_le hK (fun s => lsmc_le hK acc decorStep s) _ _ _ _ _).bind fun _ => RLe.refl _

theorem gibbsScore_le (hK0 : KLe K0 K0') (hK : KLe K K') (nIter warm : ℕ) (scratch : ℕ → Int) (t : Tape) :
    RLe (GibbsLinkScoreMB K0 K net linC nIter warm scratch t) (GibbsLinkScoreMB K0' K' net linC nIter warm scratch t) := by
  unfold GibbsLinkScoreMB
  refine (RLe.refl _).bind fun t => ?_
  dsimp only
  refine (RLe.ofOption (partitionH_le hK0 _ _)).bind fun H => (gibbsSteps_le hK warm _).bind fun s => ?_
  exact (sample_le hK (fun s => gibbsStep_le hK s) _ _ _ _ _).bind fun _ => RLe.refl _

/-! ## Tables -/

theorem read_le {a b : ℕ} (h : a ≤ b) (h0 : 0 < a) (i : Int) :
    OLe (readTable (InitializeHarmonicList a) i) (readTable (InitializeHarmonicList b) i) := by
  intro x hx
  rw [read_eq h0] at hx
  rw [read_eq (by omega)]
  by_cases hi : 0 ≤ i ∧ i < a
  · rw [if_pos hi] at hx
    rw [if_pos ⟨hi.1, by omega⟩]; exact hx
  · rw [if_neg hi] at hx; cases hx

theorem and_le {a b : ℕ} (h : a ≤ b) (h0 : 0 < a) : KLe (AND (InitializeHarmonicList a)) (AND (InitializeHarmonicList b)) where
  term := by
    intro r l
    change OLe (andTerm _ r l) (andTerm _ r l)
    unfold andTerm
    exact (OLe.refl _).bind fun _ => (read_le h h0 _).bind fun _ => (read_le h h0 _).bind fun _ => OLe.refl _
  deg := by rw [and_deg, and_deg]; exact fun _ => OLe.refl _
  score := by
    intro r l
    change OLe (andScore _ r l) (andScore _ r l)
    unfold andScore
    exact (read_le h h0 _).bind fun _ => (read_le h h0 _).bind fun _ => (read_le h h0 _).bind fun _ =>
      (read_le h h0 _).bind fun _ => OLe.refl _

theorem or_le {a b : ℕ} (h : a ≤ b) (h0 : 0 < a) : KLe (OR (InitializeHarmonicList a)) (OR (InitializeHarmonicList b)) where
  term := by
    intro r l
    change OLe (orTerm _ r l) (orTerm _ r l)
    unfold orTerm
    exact (OLe.refl _).bind fun _ => (read_le h h0 _).bind fun _ => (read_le h h0 _).bind fun _ => OLe.refl _
  deg := by rw [or_deg, or_deg]; exact fun _ => OLe.refl _
  score := by
    intro r l
    change OLe (orScore _ r l) (orScore _ r l)
    unfold orScore
    exact (read_le h h0 _).bind fun _ => (read_le h h0 _).bind fun _ => (read_le h h0 _).bind fun _ =>
      (read_le h h0 _).bind fun _ => OLe.refl _

/-- The table that would be long enough. -/
def longTable (n : ℕ) : List ℚ := InitializeHarmonicList (n * (n - 1) / 2 + 3)

theorem long_e (n : ℕ) : LongE n (n * (n - 1) / 2 + 3) := by unfold LongE; omega

theorem long_s (n : ℕ) : LongS n (n * (n - 1) / 2 + 3) := by unfold LongS; omega

theorem and_code_le (n : ℕ) : KLe (AND (codeTable n)) (AND (longTable n)) := and_le (by omega) (by omega)

theorem or_code_le (n : ℕ) : KLe (OR (codeTable n)) (OR (longTable n)) := or_le (by omega) (by omega)

theorem KLe.refl (K : Kern) : KLe K K := ⟨fun _ _ => OLe.refl _, fun _ => OLe.refl _, fun _ _ => OLe.refl _⟩

end BK
